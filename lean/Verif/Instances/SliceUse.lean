import Verif.Instances.Data
import Verif.Props.SliceUse
/-! `Verif.Props.SliceUse`: each theorem applied to concrete data, see `Verif.Instances.Data`. -/
namespace Succinct.Ex
open Succinct Spec

example := C83_jacobson_partial (S := VB 8) (w := 8) (c := cfg) (o := bvBitVec cfg 8) (R := bvR cfg 8) (s := sl)
    (bits := slBits) (hw := by conc) (hl := by conc) (hs := by conc) (hmem := by conc) (h2 := by conc)
example := C83_rank9_partial (bv_law cfg isBlk64) (sl70_on cfg) (by decide)
example := C84_read_bit_partial (S := VB 8) (w := 8) (c := cfg) (o := bvBitVec cfg 8) (R := bvR cfg 8) (s := sl)
    (bits := slBits) (hw := by conc) (hl := by conc) (hs := by conc) (p := 5)
example := C84_whole_blocks_partial (S := VB 8) (w := 8) (c := cfg) (o := bvBitVec cfg 8) (R := bvR cfg 8) (hw := by conc)
    (hl := by conc)

end Succinct.Ex
