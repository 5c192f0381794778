import Verif.Instances.Data
import Verif.Props.Layout
/-! `Verif.Props.Layout`: each theorem applied to concrete data, see `Verif.Instances.Data`. -/
namespace Succinct.Ex
open Succinct Spec

example := C101_aligned (w := 8) (k := 3) (xs := ints) (c := cfg) (h := by conc) (s := iv) (hr := by conc)
example := C101_block_truncate (w := 8) (k := 3) (xs := ints) (c := cfg) (h := by conc) (s := iv) (hr := by conc) (n := 1)
example := C101_is_empty (w := 8) (k := 3) (xs := ints) (c := cfg) (h := by conc) (s := iv) (hr := by conc)
example := C101_push_pop_block (w := 8) (k := 3) (xs := ints) (c := cfg) (h := by conc) (s := iv) (hr := by conc)

end Succinct.Ex
