import Verif.Instances.Data
import Verif.Props.ExactVec
/-! `Verif.Props.ExactVec`: each theorem applied to concrete data, see `Verif.Instances.Data`. -/
namespace Succinct.Ex
open Succinct Spec

example := C99_fill_wraps (w := 8) (c := cfg) (h := by conc) (n := 2 ^ 64 - 3) (hn := by conc) (hw := by conc) (b := true)
example := C99_get_random (w := 8) (k := 3) (xs := ints) (c := cfg) (h := by conc) (s := iv) (hr := by conc) (off := 1)
    (n := 2) (i := 1) (hn := by conc)
example := C99_int_vector_index (w := 8) (k := 3) (xs := ints) (c := cfg) (h := by conc) (s := iv) (hr := by conc) (i := 2)
example := C99_set_random (w := 8) (k := 3) (xs := ints) (c := cfg) (h := by conc) (s := iv) (hr := by conc) (off := 1)
    (n := 2) (i := 1) (hn := by conc) (x := 6#8)
example := C99_slice_get_block (w := 8) (S := VB 8) (c := cfg) (s := sl) (bits := slBits) (o := bvBitVec cfg 8)
    (R := bvR cfg 8) (h := by conc) (hl := by conc) (hs := by conc) (i := 0)
example := C99_slice_set_block (w := 8) (S := VB 8) (c := cfg) (s := sl) (bits := slBits) (o := bvBitVecMut cfg 8)
    (R := bvR cfg 8) (h := by conc) (hl := by conc) (hm := by conc) (hs := by conc) (i := 0) (v := 5#8)
example := C99_vec_bool_set_block (c := cfg) (v := bits) (hR := by conc) (i := 1) (hi := by conc) (x := 2#8)

end Succinct.Ex
