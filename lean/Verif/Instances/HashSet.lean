import Verif.Instances.IntVecTrait
import Verif.Props.HashSet
/-! `Verif.Props.HashSet`: each theorem applied to concrete data, see `Verif.Instances.Data`. -/
namespace Succinct.Ex
open Succinct Spec

/-- Calls on a set with room for four numbers. -/
abbrev hashOps : List HashOp := [.has 5, .insert 5, .insert 13, .insert 5, .has 13, .insert 1, .insert 2, .insert 9, .has 9, .insert 2, .has 2]
example : hashAnswers 4 hashOps [] =
    [some false, some true, some true, some false, some true, some true, some true, none, some false, some false, some true] := by decide

/-- All numbers begin at the same place; or each at a place of its own. -/
example := C178_new (k := 4) rel isBlk8 isBlk8 (by decide) (by decide) (n := 4) (by decide) (by decide) (by decide) 5#8 (fun _ => 7) hashOps
  (by simp [hashOps, HashOp.key])
example := C178_new (k := 4) cfg isBlk64 isBlk8 (by decide) (by decide) (n := 4) (by decide) (by decide) (by decide) 0#8 (fun x => x.toNat * 2654435761) hashOps
  (by simp [hashOps, HashOp.key])

/-- Two places of [5, 2, 7, 1] are used: by 1, where it begins, and by 5, which begins at the place of 1 and goes on at the front. -/
abbrev hashBits : VB 8 := ⟨4, [0x09#8]⟩
theorem hashBits_reach (c : Cfg) : BvReach c 8 hashBits [true, false, false, true] :=
  (C120_bit_vector c isBlk8 _ _).2 (by rcases c with ⟨_, _ | _, _⟩ <;> decide +revert)
theorem hash_holds : HoldsSet (fun x => (fun _ : BitVec 8 => 3) (BitVec.ofNat 8 x)) 4 [true, false, false, true] ints [5, 1] where
  bits := rfl
  keys := rfl
  count := rfl
  mem x := by
    constructor
    · intro h
      have : x = 5 ∨ x = 1 := by simpa using h
      rcases this with rfl | rfl
      · exact ⟨0, rfl, rfl⟩
      · exact ⟨3, rfl, rfl⟩
    · rintro ⟨q, h1, h2⟩
      have : q = 0 ∨ q = 1 ∨ q = 2 ∨ q = 3 ∨ 4 ≤ q := by omega
      rcases this with rfl | rfl | rfl | rfl | h <;> simp_all [ints]
  path q x h1 h2 := by
    have : q = 0 ∨ q = 1 ∨ q = 2 ∨ q = 3 ∨ 4 ≤ q := by omega
    rcases this with rfl | rfl | rfl | rfl | h
    · obtain rfl : 5 = x := by simpa [ints] using h2
      exact ⟨1, by decide, by decide, by decide⟩
    · simp at h1
    · simp at h1
    · exact ⟨0, by decide, rfl, by simp⟩
    · simp_all

abbrev hashLaw := C178_has (ob := bvBitVecMut cfg 8) (bv_law cfg isBlk8) ivLaw ((hashBits_reach cfg).rep isBlk8) (iv_reach cfg) (hash := fun _ => 3) (n := 4) (by decide) hash_holds
/-- 5 is there, 7 is not although the vector has an element 7. -/
example : hashHas cfg (bvBitVecMut cfg 8) (ivIntVec cfg 8) (fun _ => 3) (hashBits, iv) 5#8 = .ok true := hashLaw 5#8
example : hashHas cfg (bvBitVecMut cfg 8) (ivIntVec cfg 8) (fun _ => 3) (hashBits, iv) 7#8 = .ok false := hashLaw 7#8
example := C178_insert (ob := bvBitVecMut cfg 8) (bv_law cfg isBlk8) (bv_mut_law cfg isBlk8).write ivLaw ((hashBits_reach cfg).rep isBlk8) (iv_reach cfg)
  (hash := fun _ => 3) (n := 4) (by decide) hash_holds 6#8 (by decide)
example := C178_calls (ob := bvBitVecMut cfg 8) (bv_law cfg isBlk8) (bv_mut_law cfg isBlk8).write ivLaw (by decide) (hash := fun _ => 3) (n := 4) (by decide)
  [.insert 6, .insert 7, .insert 3, .has 6] ((hashBits_reach cfg).rep isBlk8) (iv_reach cfg) hash_holds (by simp [HashOp.key])

/-- With a gap between the first place of a number and where it is, the number is not found: such vectors hold no set. -/
example (l : List Nat) : ¬ HoldsSet (fun _ => 1) 4 [true, false, false, true] ints l := fun h => by
  obtain ⟨j, hj, e, hp⟩ := h.path 0 5 rfl rfl
  have : j = 0 ∨ j = 1 ∨ j = 2 ∨ j = 3 := by omega
  rcases this with rfl | rfl | rfl | rfl
  · simp at e
  · simp at e
  · simp at e
  · have := (hp 0 (by decide)).1
    simp at this

end Succinct.Ex
