import Verif.Instances.Data
import Verif.Props.Closure
/-! `Verif.Props.Closure`: each theorem applied to concrete data, see `Verif.Instances.Data`. -/
namespace Succinct.Ex
open Succinct Spec

/-- Three places, with edges from 0 to 1 and from 1 to 2: the rows 010, 001, 000. -/
abbrev sqBits : List Bool := [false, true, false, false, false, true, false, false, false]
abbrev sqVec : VB 8 := ⟨9, [0x22#8, 0x00#8]⟩
theorem sq_reach (c : Cfg) : BvReach c 8 sqVec sqBits :=
  (C120_bit_vector c isBlk8 _ _).2 (by rcases c with ⟨_, _ | _, _⟩ <;> decide +revert)

abbrev sqClose := C179_close (o := bvBitVecMut cfg 8) (by decide) (bv_law cfg isBlk8) (bv_mut_law cfg isBlk8).write ((sq_reach cfg).rep isBlk8) (n := 3) rfl
example := sqClose

/-- In the end there is a path from 0 to 2, and none from 2 to 0. -/
example : ∃ t' bits', close cfg (bvBitVecMut cfg 8) 3 sqVec = .ok t' ∧ bvR cfg 8 t' bits' ∧ At 3 bits' 0 2 ∧ ¬ At 3 bits' 2 0 := by
  obtain ⟨t', bits', e, r, -, h⟩ := sqClose
  refine ⟨t', bits', e, r, (h 0 2).2 (.tail (.single (b := 1) ⟨by decide, by decide, rfl⟩) ⟨by decide, by decide, rfl⟩), fun q => ?_⟩
  have : ∀ j, ¬ At 3 sqBits 2 j := fun j hj => by
    have : j = 0 ∨ j = 1 ∨ j = 2 := by have := hj.2.1; omega
    rcases this with rfl | rfl | rfl <;> exact absurd hj.2.2 (by decide)
  have none : ∀ j, ¬ Relation.TransGen (At 3 sqBits) 2 j := fun j hj => by
    induction hj with
    | single h => exact this _ h
    | tail _ _ ih => exact ih
  exact none 0 ((h 2 0).1 q)

end Succinct.Ex
