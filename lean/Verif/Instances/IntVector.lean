import Verif.Instances.Data
import Verif.Props.IntVector
/-! `Verif.Props.IntVector`: each theorem applied to concrete data, see `Verif.Instances.Data`. -/
namespace Succinct.Ex
open Succinct Spec

example := C22_int_vector_is_list (w := 8) (k := 5) (c := cfg) (h := by conc) (hk := by conc) (hkw := by conc)
    (i := .withFill 2 7#8) (ops := [.push 9#8, .push 31#8, .set 0 4#8, .getRandom 1 4 1, .resize 5 6#8, .pop])
    (hi := by conc) (hops := by conc)
example := C23_set_isolated (w := 8) (k := 3) (xs := ints) (c := cfg) (h := by conc) (s := iv) (hr := by conc) (i := 2)
    (hi := by conc) (x := 6#8) (hx := by conc)
example := C24_fill_wraps (w := 8) (k := 3) (c := cfg) (h := by conc) (hk := by conc) (hkw := by conc) (n := 5)
    (hf := by conc) (x := 0xb5#8)
example := C24_too_large_panics (w := 8) (k := 3) (xs := ints) (c := cfg) (h := by conc) (s := iv) (hr := by conc)
    (x := 0xb5#8)
example := C25_width_invariant (w := 8) (k := 3) (xs := ints) (c := cfg) (h := by conc) (s := iv) (hr := by conc)
example := C26_equality (w := 8) (k := 3) (xs := ints) (k' := 5) (xs' := ints') (c := cfg) (c' := rel) (h := by conc)
    (s := iv) (s' := iv') (hr := by conc) (hr' := by conc)
example := C27_reinterpret (w := 8) (k := 3) (xs := ints) (c := cfg) (h := by conc) (s := iv) (hr := by conc) (n := 5)
    (hn := by conc) (hnw := by conc) (off := 1) (i := 2)
example := C28_bit_view (w := 8) (k := 3) (xs := ints) (c := cfg) (h := by conc) (s := iv) (hr := by conc)
example := C28_lawful (w := 8) (c := cfg) (h := by conc)
example := C73_int_vector_order (w := 8) (k := 3) (xs := ints) (k' := 5) (ys := ints') (c := cfg) (h := by conc) (s := iv)
    (t := iv') (hs := by conc) (ht := by conc)
example := C76_out_of_range_64 (w := 8) (k := 3) (xs := ints) (d := true) (a := true) (h := by conc) (s := iv)
    (hr := by conc) (i := 4) (hi := by conc) (hu := by conc)
example := C76_out_of_range_partial (w := 8) (k := 8) (xs := [200, 7]) (c := rel) (h := by conc) (s := iv8) (hr := by conc)
    (i := 5) (hi := by conc) (hu := by conc)

end Succinct.Ex
