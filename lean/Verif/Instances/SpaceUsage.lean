import Verif.Instances.Data
import Verif.Props.SpaceUsage
/-! `Verif.Props.SpaceUsage`: each theorem applied to concrete data, see `Verif.Instances.Data`. -/
namespace Succinct.Ex
open Succinct Spec

example := C71_box (C71_vec (C71_stack_only cfg (BitVec 64) 8) 24) 8
example := C71_jacobson (C71_vec (C71_stack_only cfg (BitVec 64) 8) 24) 24 32 40 128
example := C71_rank9 (C71_vec (C71_stack_only cfg (BitVec 64) 8) 24) 24 48
example := C71_select (C71_vec (C71_stack_only cfg (BitVec 64) 8) 24) 24
example := C71_total (C71_vec (C71_stack_only cfg (BitVec 64) 8) 24) ⟨[5#64, 6#64], 4⟩ (by decide)
example := C71_vec (C71_vec (C71_stack_only cfg (BitVec 64) 8) 24) 24
example := C72_jacobson (w := 8) (S := VB 8) (c := cfg) (o := bvBitVec cfg 8) (R := bvR cfg 8) (hw := by conc)
    (hl := by conc) (hbl := by conc) (hpad := by conc) (s := bv) (bits := bits) (hR := by conc) (hmem := by conc)
    (h2 := by conc)
example := C72_rank9 (S := VB 64) (c := cfg) (o := bvBitVec cfg 64) (R := bvR cfg 64) (hl := by conc) (hbl := by conc)
    (s := bv70) (bits := bits70) (hR := by conc) (hu := by conc)

end Succinct.Ex
