import Verif.Instances.Data
import Verif.Props.BloomFilter
/-! `Verif.Props.BloomFilter`: the theorems applied to concrete data, see `Verif.Instances.Data`. -/
namespace Succinct.Ex
open Succinct Spec

/-- Two hashes of a number. -/
def hashes (k : Nat) : List Nat := [7 * k + 3, k * k]

example := C171_bit_vector rel (w := 8) (by decide) (m := 10) (by decide) (by decide) hashes [4, 5] [6]

/-- What it says: 4 and 5 set the bits 1, 6, 8 and 5; 4 is reported and 6 (bits 5 and 6) is, too, although it was not added; 7 is not,
but is after the union with a filter that has it. -/
example : ∃ s s' t t' u, BV.withFill cfg 8 10 false = .ok s ∧ bloomAddAll (bvBitVecMut cfg 8) hashes [4, 5] s = .ok s' ∧
    BV.withFill cfg 8 10 false = .ok t ∧ bloomAddAll (bvBitVecMut cfg 8) hashes [7] t = .ok t' ∧
    combine (bvBitVecMut cfg 8) (bvBitVec cfg 8) (· ||| ·) s' t' = .ok u ∧ bloomHas (bvBitVecMut cfg 8) (hashes 4) s' = .ok true ∧
    bloomHas (bvBitVecMut cfg 8) (hashes 6) s' = .ok true ∧ bloomHas (bvBitVecMut cfg 8) (hashes 7) s' = .ok false ∧
    bloomHas (bvBitVecMut cfg 8) (hashes 7) u = .ok true := by
  obtain ⟨s, s', t, t', u, h1, h2, h3, h4, h5, h6⟩ := C171_bit_vector cfg (w := 8) (by decide) (m := 10) (by decide) (by decide) hashes [4, 5] [7]
  exact ⟨s, s', t, t', u, h1, h2, h3, h4, h5, (h6 4).2.2.1 (by decide), (h6 6).1.trans (by decide), (h6 7).1.trans (by decide),
    (h6 7).2.2.2 (by decide)⟩

/-- Whatever the vector with these bits has been through. -/
example (s : VB 8) (h : BvReach rel 8 s (bloomBits 10 ([4, 5].flatMap hashes))) :
    bloomHas (bvBitVecMut rel 8) (hashes 5) s = .ok true :=
  (C171_has (o := bvBitVecMut rel 8) (by decide) (bv_law rel (by decide)) (by decide) hashes [4, 5] 5 (h.rep (by decide))).2 (by decide)

example : ∃ s, BvReach rel 8 s (bloomBits 10 ([4, 5].flatMap hashes)) ∧
    ∃ s', bloomAdd (bvBitVecMut rel 8) (hashes 6) s = .ok s' ∧ bvR rel 8 s' (bloomBits 10 ([6, 4, 5].flatMap hashes)) := by
  obtain ⟨s, -, r⟩ := (C17_fill rel (w := 8) (by decide)).1 10 false (by decide)
  have r : bvR rel 8 s (bloomBits 10 (([] : List Nat).flatMap hashes)) := r.rep (by decide)
  obtain ⟨s1, -, r1⟩ := C171_add (o := bvBitVecMut rel 8) (bv_law rel (by decide)) (bv_mut_law rel (by decide)) (by decide) hashes [] 5 r
  obtain ⟨s2, -, r2⟩ := C171_add (o := bvBitVecMut rel 8) (bv_law rel (by decide)) (bv_mut_law rel (by decide)) (by decide) hashes [5] 4 r1
  exact ⟨s2, bvR.reach (by decide) r2,
    C171_add (o := bvBitVecMut rel 8) (bv_law rel (by decide)) (bv_mut_law rel (by decide)) (by decide) hashes [4, 5] 6 r2⟩

example : ∃ s t u, bvR rel 8 s (bloomBits 10 ([5].flatMap hashes)) ∧ bvR rel 8 t (bloomBits 10 ([4, 5].flatMap hashes)) ∧
    combine (bvBitVecMut rel 8) (bvBitVec rel 8) (· ||| ·) s t = .ok u ∧ bvR rel 8 u (bloomBits 10 ([5, 4, 5].flatMap hashes)) := by
  obtain ⟨s, -, r⟩ := (C17_fill rel (w := 8) (by decide)).1 10 false (by decide)
  have r : bvR rel 8 s (bloomBits 10 (([] : List Nat).flatMap hashes)) := r.rep (by decide)
  obtain ⟨s1, -, r1⟩ := C171_add (o := bvBitVecMut rel 8) (bv_law rel (by decide)) (bv_mut_law rel (by decide)) (by decide) hashes [] 5 r
  obtain ⟨s2, -, r2⟩ := C171_add (o := bvBitVecMut rel 8) (bv_law rel (by decide)) (bv_mut_law rel (by decide)) (by decide) hashes [5] 4 r1
  obtain ⟨u, h1, h2⟩ := C171_union (o := bvBitVecMut rel 8) (by decide) (bv_block rel (by decide)).toBVBlockRead
    (bv_mut_law rel (by decide)) hashes [5] [4, 5] r1 r2
  exact ⟨s1, s2, u, r1, r2, h1, h2⟩

example : bloomAdd (bvBitVecMut rel 8) [3] VB.new = .panic ∧ bloomHas (bvBitVecMut rel 8) [3] VB.new = .panic :=
  C171_no_bits (o := bvBitVecMut rel 8) (bv_law rel (by decide)) 3 [] (VR.nil rel (by decide) 1)

end Succinct.Ex
