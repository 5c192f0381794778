import Verif.Instances.Data
import Verif.Props.Search
/-! `Verif.Props.Search`: each theorem applied to concrete data, see `Verif.Instances.Data`. -/
namespace Succinct.Ex
open Succinct Spec

example := C89_any_function (c := cfg) (bits := 64) (start := 0) (limit := 8) (value := 3)
    (f := fun i => .ok (if i % 2 = 1 then 5 else 0)) (g := fun i => if i % 2 = 1 then 5 else 0) (hb := by conc)
    (hl := by conc) (hf := fun _ _ _ => rfl) (k := 3) (hk := by conc)
example := C89_terminates (c := cfg) (bits := 64) (start := 0) (limit := 8) (value := 3)
    (f := fun i => if i < 6 then .ok (7 - i) else .panic) (hb := by conc) (hl := by conc)
    (hf := fun i => by split <;> exact nofun)
example := C90_attained cfg (C36_words cfg (by decide) 2#8) true (k := 3) (by decide) (by decide) (by decide) (by decide)
example := C90_select_cost (S := Rank9 (VB 64)) (c := cfg) (r := Rank9.ops cfg (bvBitVec cfg 64)) (s := r9) (bits := bits70)
    (hr := by conc) (idx := 5) (hi := by conc) (v := true) (k := 7) (hk := by conc)
example := C90_unsuccessful (S := Rank9 (VB 64)) (c := cfg) (r := Rank9.ops cfg (bvBitVec cfg 64)) (s := r9) (bits := bits70)
    (hr := by conc) (idx := 24) (hi := by conc) (v := true) (h0 := by conc) (hn := by conc)
/-- The two vectors differ in the first block, which is not read. -/
example := C91_get_bits cfg isBlk8 (bvBitVec cfg 8) (bvBitVec cfg 8) ⟨20, [0x4d#8, 0xa3#8, 0x03#8]⟩ ⟨20, [0x4e#8, 0xa3#8, 0x03#8]⟩ 10 7 rfl rfl rfl
/-- The two vectors differ in the first block, which is not read. -/
example := C91_jacobson cfg isBlk8 (bvBitVec cfg 8) (bvBitVec cfg 8) jac ⟨⟨10, [0x4e#8, 0x03#8]⟩, jac.largeBlockSize, jac.largeBlockRanks, jac.smallBlockRanks⟩ 9 rfl rfl rfl rfl rfl
/-- The two vectors differ in the first block, which is not read. -/
example := C91_rank9 cfg (bvBitVec cfg 64) (bvBitVec cfg 64) r9 ⟨⟨70, [0x49#64, 0x24#64]⟩, r9.counts⟩ 66 rfl rfl

end Succinct.Ex
