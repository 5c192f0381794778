import Verif.Instances.Data
import Verif.Props.BlockChoice
/-! `Verif.Props.BlockChoice`: each theorem applied to concrete data, see `Verif.Instances.Data`. -/
namespace Succinct.Ex
open Succinct Spec

/-- A vector of three ones, of which the last two are read, changed and counted. -/
def prog (w : Nat) : List Cmd := [.newBits w (.withFill 3 true), .onBits 0 (fun _ => .getBits 1 2),
  .onBits 0 (fun w => .setBits 0 2 (BitVec.ofNat w 2)), .toJacobson 0, .rank 0 2 true]
theorem prog_ok (w : Nat) (hw : w = 64 ∨ w = 8) : progOk cfg [] (prog w) := by
  refine (?_ : progOk cfg [] (prog w) ∧
    progSpec cfg [] (prog w) = some ([.unit, .bits w (.block 3), .bits w .unit, .unit, .num 2], [.jacobson w [false, true, true]])).1
  refine prog_cons ⟨by rcases hw with rfl | rfl <;> decide, by rcases hw with rfl | rfl; exacts [(by decide : Fits cfg.usz 64 3), (by decide : Fits cfg.usz 8 3)]⟩ rfl ?_
  refine prog_cons ?_ (by rcases hw with rfl | rfl <;> rfl) (ss' := [.bits w [true, true, true]]) ?_
  · intro w' l h; cases h; exact ⟨by decide, by decide, by rcases hw with rfl | rfl <;> decide⟩
  refine prog_cons ?_ (by rcases hw with rfl | rfl <;> rfl) (ss' := [.bits w [false, true, true]]) ?_
  · intro w' l h; cases h; exact ⟨by decide, by decide, by rcases hw with rfl | rfl <;> decide⟩
  refine prog_cons ?_ rfl ?_
  · intro w' l h; cases h; decide
  refine prog_cons (o := .num 2) ?_ rfl ?_
  · rintro w' l (h | h) <;> cases h; decide
  exact ⟨trivial, rfl⟩

example := C141_block_choice cfg (fun w w' => w = 64 ∧ w' = 8) (fun w w' v v' h1 h2 => by omega) (prog 64) (prog 8)
  (.cons (.newBits ⟨rfl, rfl⟩ (.withFill 3 true)) (.cons (.onBits 0 fun w w' _ => .getBits 1 2)
    (.cons (.onBits 0 (by rintro w w' ⟨rfl, rfl⟩; exact .setBits 0 2 (by decide))) (.cons (.toJacobson 0) (.cons (.rank 0 2 true) .nil)))))
  (prog_ok 64 (.inl rfl)) (prog_ok 8 (.inr rfl))

end Succinct.Ex
