import Verif.Instances.Data
import Verif.Props.Directory
/-! `Verif.Props.Directory`: each theorem applied to concrete data, see `Verif.Instances.Data`. -/
namespace Succinct.Ex
open Succinct Spec

/-- Seventy other bits. -/
abbrev bits70b : List Bool := (List.range 70).map (fun i => i % 3 == 1)

example := C149_jacobson (w := 8) (S := VB 8) (c := cfg) (o := bvBitVec cfg 8) (R := bvR cfg 8) (hw := by conc)
    (hl := by conc) (hbl := by conc) (hpad := by conc) (s := bv) (bits := bits) (hR := by conc) (hmem := by conc)
    (h2 := by conc)
example := C149_jacobson_equal isBlk8 (bv_law cfg isBlk8) (bv_block cfg isBlk8).toBVBlockRead (bv_pad cfg isBlk8)
    (bv_law rel isBlk8) (bv_block rel isBlk8).toBVBlockRead (bv_pad rel isBlk8) ((bv_reach cfg).rep isBlk8)
    (bits' := bits.reverse) (s' := ⟨10, [0xCB#8, 0x02#8]⟩)
    (((C120_bit_vector rel isBlk8 ⟨10, [0xCB#8, 0x02#8]⟩ bits.reverse).2 ⟨by decide, rfl, by decide⟩).rep isBlk8)
    (by decide) (by decide) (by decide) (by decide)
example := C149_rank9 (S := VB 64) (c := cfg) (o := bvBitVec cfg 64) (R := bvR cfg 64) (hl := by conc) (hbl := by conc)
    (hpad := by conc) (s := bv70) (bits := bits70) (hR := by conc) (hu := by conc)
example := C149_rank9_equal (bv_law cfg isBlk64) (bv_block cfg isBlk64).toBVBlockRead (bv_pad cfg isBlk64)
    (bv_law rel isBlk64) (bv_block rel isBlk64).toBVBlockRead (bv_pad rel isBlk64) ((bv70_reach cfg).rep isBlk64)
    (bits' := bits70b) (s' := ⟨70, [0x2492492492492492#64, 0x09#64]⟩)
    (((C120_bit_vector rel isBlk64 ⟨70, [0x2492492492492492#64, 0x09#64]⟩ bits70b).2 ⟨by decide, rfl, by decide +kernel⟩).rep isBlk64)
    (by decide) (by decide) (by decide)

end Succinct.Ex
