import Verif.Instances.Data
import Verif.Props.SubsetSums
/-! `Verif.Props.SubsetSums`: each theorem applied to concrete data, see `Verif.Instances.Data`. -/
namespace Succinct.Ex
open Succinct Spec

/-- The sums of the parts of `[3, 5]` below 12: 0, 3, 5 and 8. -/
abbrev partBits : List Bool := [true, false, false, true, false, true, false, false, true, false, false, false]
abbrev partVec : VB 8 := ⟨12, [0x29#8, 0x01#8]⟩
theorem part_reach (c : Cfg) : BvReach c 8 partVec partBits :=
  (C120_bit_vector c isBlk8 _ _).2 (by rcases c with ⟨_, _ | _, _⟩ <;> decide +revert)

example := partSum_append [3, 5] 3 6

theorem part_sums : ∀ j, j < partBits.length → (partBits[j]? = some true ↔ PartSum [3, 5] j) := by
  have none (j : Nat) : PartSum [] j ↔ j = 0 := ⟨fun ⟨l, hl, e⟩ => by rw [← e, List.sublist_nil.1 hl]; rfl, fun e => ⟨[], .slnil, e.symm⟩⟩
  have e : ([3, 5] : List Nat) = ([] ++ [3]) ++ [5] := rfl
  simp only [e, partSum_append, none]
  decide

example := sumsWith_ok (o := bvBitVecMut cfg 8) (bv_law cfg isBlk8) (bv_mut_law cfg isBlk8).write (x := 3) (bs := partBits) (by decide) 9
  ((part_reach cfg).rep isBlk8) rfl (by decide) (by decide)

/-- A further 3 makes 6 and 11 sums; 7 stays none. -/
example : ∃ t' es, sumsOf cfg (bvBitVecMut cfg 8) [3] partVec = .ok t' ∧ bvR cfg 8 t' es ∧ es[6]? = some true ∧ es[11]? = some true ∧
    es[7]? ≠ some true := by
  obtain ⟨t', es, e, r, -, h⟩ := C182_more (o := bvBitVecMut cfg 8) (by decide) (bv_law cfg isBlk8) (bv_mut_law cfg isBlk8).write [3]
    ((part_reach cfg).rep isBlk8) part_sums
  have h (j : Nat) (hj : j < 12) := (h j hj).trans (partSum_append [3, 5] 3 j)
  refine ⟨t', es, e, r, (h 6 (by decide)).2 (.inr ⟨by decide, (part_sums 3 (by decide)).1 rfl⟩),
    (h 11 (by decide)).2 (.inr ⟨by decide, (part_sums 8 (by decide)).1 rfl⟩), fun q => ?_⟩
  rcases (h 7 (by decide)).1 q with q | ⟨-, q⟩
  · exact absurd ((part_sums 7 (by decide)).2 q) (by decide)
  · exact absurd ((part_sums 4 (by decide)).2 q) (by decide)

/-- A number beyond the vector is passed over. -/
example : ∃ v bs, subsetSums cfg 8 12 [3, 5, 100, 3] = .ok v ∧ bvR cfg 8 v bs ∧ bs[11]? = some true := by
  obtain ⟨v, bs, e, r, -, h⟩ := C182_sums cfg isBlk8 (n := 12) (by decide) (by decide) [3, 5, 100, 3]
  exact ⟨v, bs, e, r, (h 11 (by decide)).2 ⟨[3, 5, 3], by decide, rfl⟩⟩

end Succinct.Ex
