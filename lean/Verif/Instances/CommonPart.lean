import Mathlib.Data.List.Sublists
import Verif.Instances.IntVecTrait
import Verif.Props.CommonPart
/-! `Verif.Props.CommonPart`: each theorem applied to concrete data, see `Verif.Instances.Data`. -/
namespace Succinct.Ex
open Succinct Spec

/-- [5, 7] is a longest common part of [5, 2, 7, 1] and [1, 2, 5, 7]. -/
theorem common_two : LongestCommon ints [1, 2, 5, 7] 2 :=
  ⟨⟨[5, 7], by decide, by decide, rfl⟩, fun l h1 h2 => by
    have : ∀ l ∈ ints.sublists', l.Sublist [1, 2, 5, 7] → l.length ≤ 2 := by decide
    exact this l (List.mem_sublists'.2 h1) h2⟩
example : ¬ LongestCommon ints [1, 2, 5, 7] 1 := fun h => absurd (C183_unique h common_two) (by decide)
example := common_two.le
example := longestCommon_same 4 common_two
example : LongestCommon (ints ++ [3]) ([1, 2, 5] ++ [7]) 2 := longestCommon_diff (u := 2) (l := 1) (by decide) common_two
  ⟨⟨[5], by decide, by decide, rfl⟩, fun l h1 h2 => by
    have : ∀ l ∈ (ints ++ [3]).sublists', l.Sublist [1, 2, 5] → l.length ≤ 1 := by decide
    exact this l (List.mem_sublists'.2 h1) h2⟩
example := sublist_last (l := [2, 1]) (xs := [5, 2, 7]) (a := 1) (by decide)

/-- The vectors [5, 2, 7, 1] and [1, 2, 5, 7] of three bits and a row of five numbers of three bits: the answer is 2. -/
example (c : Cfg) : ∃ s, IV.withFill c 3 5 (0 : BitVec 8) = .ok s ∧ lcsLen c (ivIntVec c 8) (ivIntVec c 8) (ivIntVec c 8) iv ivSorted s = .ok 2#8 := by
  obtain ⟨s, v, e, e', h⟩ := C183_new (k := 3) c isBlk8 (by decide) (by decide) (C166_int_vector c isBlk8 3) (C166_int_vector c isBlk8 3)
    (iv_reach c) (ivSorted_reach c) (by decide) (by rcases c with ⟨_, _ | _, _⟩ <;> decide +revert)
  have : v = 2#8 := BitVec.eq_of_toNat_eq (C183_unique h common_two)
  exact ⟨s, e, this ▸ e'⟩

/-- The same over a row that is there already. -/
abbrev zeroRow : IV 8 := ⟨3, ⟨5, [0#8, 0#8]⟩⟩
theorem zeroRow_reach (c : Cfg) : IvReach c 8 3 zeroRow (List.replicate 5 0) :=
  (C120_int_vector c isBlk8 _ _ _).2 ⟨by decide, by decide, by decide,
    by rcases c with ⟨_, _ | _, _⟩ <;> decide +revert, rfl, rfl, by decide⟩
example := C183_length (c := cfg) ivLaw ivLaw ivLaw (by decide) (iv_reach cfg) (ivSorted_reach cfg) (by decide) (zeroRow_reach cfg)
example := lcsRow_ok (c := cfg) (xs := []) (a := 7) (x := 7#8) ivLaw ivLaw (by decide) (ivSorted_reach cfg) (by decide) rfl (j := 0) rfl (by decide)
  (zeroRow_reach cfg) rfl (longestCommon_nil_left _) (fun i hi => by
    obtain rfl : i = 0 := by omega
    exact longestCommon_nil_right _) (fun i _ hi => by
    rw [getElem!_pos _ i (by simp; simp at hi; omega), List.getElem_replicate]
    exact longestCommon_nil_left _)
example := lcsRows_ok (c := cfg) ivLaw ivLaw ivLaw (by decide) (iv_reach cfg) (ivSorted_reach cfg) (by decide) (i := 0) rfl (by decide) (zeroRow_reach cfg)
  rfl (fun j hj => by
    rw [getElem!_pos _ j (by simp; simp at hj; omega), List.getElem_replicate]
    exact longestCommon_nil_left _)

end Succinct.Ex
