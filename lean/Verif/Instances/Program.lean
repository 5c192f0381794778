import Verif.Instances.Data
import Verif.Props.Program
/-! `Verif.Props.Program`: each theorem applied to concrete data, see `Verif.Instances.Data`. -/
namespace Succinct.Ex
open Succinct Spec

/-- The ten bits, counted. -/
theorem st_bits : StR cfg [.bits 8 bv] [.bits 8 bits] := ⟨rfl, fun i o so h h' => by
  cases i with
  | zero => cases h; cases h'; exact .bits isBlk8 ((bv_reach cfg).rep isBlk8)
  | succ i => simp at h⟩
def count : List Cmd := [.onBits 0 (fun _ => .getBits 1 2), .toJacobson 0, .rank 0 9 true]
theorem count_ok : progOk cfg [.bits 8 bits] count := by
  refine (?_ : progOk cfg _ count ∧ progSpec cfg [.bits 8 bits] count = some ([.bits 8 (.block 2), .unit, .num 6], [.jacobson 8 bits])).1
  refine prog_cons ?_ rfl (ss' := [.bits 8 bits]) ?_
  · intro w' l h; cases h; exact ⟨by decide, by decide, by decide⟩
  refine prog_cons ?_ rfl (ss' := [.jacobson 8 bits]) ?_
  · intro w' l h; cases h; decide
  refine prog_cons (o := .num 6) ?_ rfl (ss' := [.jacobson 8 bits]) ?_
  · rintro w' l (h | h) <;> cases h; decide
  exact ⟨trivial, rfl⟩

example := C117_from_start cfg [.newBits 8 (.withFill 3 true)] ⟨⟨by decide, (by decide : Fits _ _ _)⟩, fun _ _ => trivial⟩
example := C117_programs cfg count st_bits count_ok

end Succinct.Ex
