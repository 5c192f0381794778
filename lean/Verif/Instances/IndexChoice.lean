import Verif.Instances.Data
import Verif.Props.IndexChoice
/-! `Verif.Props.IndexChoice`: each theorem applied to concrete data, see `Verif.Instances.Data`. -/
namespace Succinct.Ex
open Succinct Spec

/-- Three ones, counted and selected. -/
def prog9 (r : Cmd) : List Cmd := [.newBits 64 (.withFill 3 true), r, .rank 0 1 true, .select 0 2 true]
theorem prog9_ok (r : Cmd) (o : SObj)
    (hr : r = Cmd.toRank9 0 ∧ o = SObj.rank9 [true, true, true] ∨ r = Cmd.toJacobson 0 ∧ o = SObj.jacobson 64 [true, true, true]) :
    progOk cfg [] (prog9 r) ∧ progSpec cfg [] (prog9 r) = some ([.unit, .unit, .num 2, .optNum (some 2)], [o]) := by
  refine prog_cons ⟨by decide, (by decide : Fits _ _ _)⟩ rfl (ss' := [.bits 64 [true, true, true]]) ?_
  have hm : InMemory cfg.usz 3 := by decide
  refine prog_cons (o := .unit) (ss' := [o]) ?_ (by rcases hr with ⟨rfl, rfl⟩ | ⟨rfl, rfl⟩ <;> rfl) ?_
  · rcases hr with ⟨rfl, rfl⟩ | ⟨rfl, rfl⟩
    · intro l h; cases h; exact hm
    · intro w l h; cases h; exact hm
  refine prog_cons (o := .num 2) (ss' := [o]) ?_ (by rcases hr with ⟨rfl, rfl⟩ | ⟨rfl, rfl⟩ <;> rfl) ?_
  · rcases hr with ⟨rfl, rfl⟩ | ⟨rfl, rfl⟩ <;> rintro w' l (h | h) <;> cases h <;> decide
  refine prog_cons (o := .optNum (some 2)) (ss' := [o]) (show 2 + 1 < 2 ^ 64 by decide)
    (by rcases hr with ⟨rfl, rfl⟩ | ⟨rfl, rfl⟩ <;> rfl) ?_
  exact ⟨trivial, rfl⟩
theorem prog9_run (r : Cmd) (o : SObj)
    (hr : r = Cmd.toRank9 0 ∧ o = SObj.rank9 [true, true, true] ∨ r = Cmd.toJacobson 0 ∧ o = SObj.jacobson 64 [true, true, true]) :
    ∃ st, progRun cfg [] (prog9 r) = .ok ([.unit, .unit, .num 2, .optNum (some 2)], st) := by
  have h := prog9_ok r o hr
  have a := C117_from_start cfg _ h.1
  rw [h.2] at a
  obtain ⟨st, a, -⟩ := a
  exact ⟨st, a⟩
theorem prog9_index : progIndex (prog9 (.toRank9 0)) (prog9 (.toJacobson 0)) := .cons (.same _) (.cons (.swap 0) (.cons (.same _) (.cons (.same _) .nil)))

example : True := by
  obtain ⟨st, h⟩ := prog9_run _ _ (.inr ⟨rfl, rfl⟩)
  exact (fun _ => trivial) (C144_jacobson cfg _ _ prog9_index (prog9_ok _ _ (.inl ⟨rfl, rfl⟩)).1 (prog9_ok _ _ (.inr ⟨rfl, rfl⟩)).1 h)
example : True := by
  obtain ⟨st, h⟩ := prog9_run _ _ (.inl ⟨rfl, rfl⟩)
  exact (fun _ => trivial) (C144_rank9 cfg _ _ prog9_index (prog9_ok _ _ (.inl ⟨rfl, rfl⟩)).1 (prog9_ok _ _ (.inr ⟨rfl, rfl⟩)).1 h)

end Succinct.Ex
