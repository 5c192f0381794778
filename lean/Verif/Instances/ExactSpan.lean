import Verif.Instances.Data
import Verif.Props.ExactSpan
/-! `Verif.Props.ExactSpan`: each theorem applied to concrete data, see `Verif.Instances.Data`. -/
namespace Succinct.Ex
open Succinct Spec

example := C98_bit_buffer (w := 8) (S := VB 8) (c := cfg) (h := by conc) (o := bvBitVecMut cfg 8) (R := bvR cfg 8)
    (hl := by conc) (hb := by conc) (hm := by conc) (p := 4)
example := C98_get_bits (w := 8) (S := VB 8) (c := cfg) (h := by conc) (o := bvBitVec cfg 8) (R := bvR cfg 8) (hl := by conc)
    (hb := by conc) (hdef := rfl) (s := bv) (bits := bits) (hR := by conc) (start := 5) (count := 4) (hs := by conc)
    (hc := by conc)
example := C98_instances (w := 8) (c := cfg) (h := by conc)
example := C98_set_bits (w := 8) (S := VB 8) (c := cfg) (h := by conc) (o := bvBitVecMut cfg 8) (R := bvR cfg 8)
    (hl := by conc) (hb := by conc) (hm := by conc) (hdef := rfl) (s := bv) (bits := bits) (hR := by conc) (start := 5)
    (count := 4) (hs := by conc) (hc := by conc) (value := 0x0b#8)

end Succinct.Ex
