import Verif.Instances.Data
import Verif.Props.IntVecTrait
/-! `Verif.Props.IntVecTrait`: each theorem applied to concrete data, see `Verif.Instances.Data`. -/
namespace Succinct.Ex
open Succinct Spec

/-- The vector [5, 2, 7, 1] of `Verif.Instances.Data`. -/
abbrev ivLaw := C166_int_vector cfg isBlk8 3

/-- The bit vector of ten bits as [5, 1, 5] and one more bit. -/
abbrev packedLaw := C166_packed (bv_law cfg isBlk8) (bv_mut_law cfg isBlk8).write (k := 3) (by decide) (by decide) (rest := [true]) (by decide)
theorem packed_bv : (∀ x ∈ [5, 1, 5], x < 2 ^ 3) ∧ bvR cfg 8 bv (packBits 3 [5, 1, 5] ++ [true]) := ⟨by decide, (bv_reach cfg).rep isBlk8⟩

/-- The elements 2, 7 of [5, 2, 7, 1], the last first. -/
abbrev middleLaw := C166_backwards cfg (C166_window cfg ivLaw [5] [1] 2)
theorem middle_iv : [7, 2].reverse.length = 2 ∧ IvReach cfg 8 3 iv ([5] ++ [7, 2].reverse ++ [1]) := ⟨rfl, iv_reach cfg⟩

example := C166_reverse cfg ivLaw (iv_reach cfg)
example := C166_reverse cfg packedLaw packed_bv
example := C166_sort ivLaw (iv_reach cfg)
example := C166_sort packedLaw packed_bv
example := C166_sort_int_vector rel isBlk8 (iv_reach rel)

/-- Sorting the middle backwards: the vector is then [5, 7, 2, 1]. -/
example : ∃ s', ivSort (backwards cfg (window cfg (ivIntVec cfg 8) 1 2)) iv = .ok s' ∧ IvReach cfg 8 3 s' [5, 7, 2, 1] := by
  obtain ⟨s', ys, e, ⟨-, h1⟩, h2, h3⟩ := C166_sort middleLaw middle_iv
  have : ys = [2, 7] := List.Perm.eq_of_pairwise (le := (· ≤ ·)) (by intros; omega) h3 (by decide) (h2.trans (.swap ..))
  subst this
  exact ⟨s', e, h1⟩

/-- [1, 2, 5, 7] in elements of three bits. -/
abbrev ivSorted : IV 8 := ⟨3, ⟨4, [0x51#8, 0x0f#8]⟩⟩
theorem ivSorted_reach (c : Cfg) : IvReach c 8 3 ivSorted [1, 2, 5, 7] :=
  (C120_int_vector c isBlk8 _ _ _).2 ⟨by decide, by decide, by decide,
    by rcases c with ⟨_, _ | _, _⟩ <;> decide +revert, rfl, rfl, by decide⟩

example : ivLowerBound rel (ivIntVec rel 8) ivSorted 6#8 = .ok 3 := C166_search rel (C166_int_vector rel isBlk8 3) (ivSorted_reach rel) (by decide) 6#8

/-- In a vector that is not sorted the search can fail: 1 is in [5, 2, 7, 1]. -/
example : ¬ ints.Pairwise (· ≤ ·) := by decide

/-- [2, 0, 3, 1] in elements of three bits; the inverse is written over [5, 2, 7, 1]. -/
abbrev ivPerm : IV 8 := ⟨3, ⟨4, [0xc2#8, 0x02#8]⟩⟩
theorem ivPerm_reach (c : Cfg) : IvReach c 8 3 ivPerm [2, 0, 3, 1] :=
  (C120_int_vector c isBlk8 _ _ _).2 ⟨by decide, by decide, by decide,
    by rcases c with ⟨_, _ | _, _⟩ <;> decide +revert, rfl, rfl, by decide⟩

example := C166_inverse (C166_int_vector rel isBlk8 3) (C166_int_vector rel isBlk8 3) (by decide) (ivPerm_reach rel) (iv_reach rel) rfl
  (by decide) (by decide)

end Succinct.Ex
