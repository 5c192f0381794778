import Verif.Instances.Data
import Verif.Props.Totality
/-! `Verif.Props.Totality`: each theorem applied to concrete data, see `Verif.Instances.Data`. -/
namespace Succinct.Ex
open Succinct Spec

theorem vec_ends (w : Nat) : ReadsEnd (vecBitVec cfg w) where
  bitLen s := by
    show mulN cfg 64 s.length w ≠ _
    unfold mulN overflow
    split <;> exact nofun
  blockLen _ := nofun
  getBlock s i := by
    show vecGet s i ≠ _
    unfold vecGet
    cases s[i]? <;> exact nofun
abbrev iv_empty : IV 64 := ⟨6, ⟨0, []⟩⟩

example := C95_bit_vector (w := 8) (c := cfg) (h := by conc) (s := bv) (op := .setBits 5 4 9#8)
example := C95_format cfg bv iv (by decide) (by decide)
example := C95_jacobson cfg (vec_ends 8) [0x4d#8, 0xa3#8] ⟨[], 0, iv_empty, iv_empty⟩ 3 true
example := C95_rank9 cfg (vec_ends 64) [0x4d#64, 0xa3#64] ⟨[0x4d#64], []⟩ 3 true
example := C95_select cfg (r := primRank cfg 8) (fun _ n h => by cases h; decide) (fun _ => nofun)

end Succinct.Ex
