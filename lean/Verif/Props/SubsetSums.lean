import Verif.Lemmas.Slice
import Verif.Props.BitVector
/-! Property C182: the sums of the parts of a list of numbers, in a bit vector. The programs here are not in the crate; they call the methods of
`BitVec` and `BitVecMut` and `BitVector::with_fill`. -/
namespace Succinct
open Spec

/-- Some of the numbers, each taken at most once, have this sum. -/
def Spec.PartSum (xs : List Nat) (j : Nat) : Prop := ∃ l : List Nat, l.Sublist xs ∧ l.sum = j

section
variable {w : Nat} {T : Type} (c : Cfg) (o : BitVecMutOps w T)

/-- `for j in (x .. x + m).rev() { if v.get_bit(j - x) { v.set_bit(j, true) } }` -/
def sumsWith (x : Nat) : Nat → T → Res T
  | 0, t => .ok t
  | m + 1, t => do
    let j ← addN c 64 x m
    let i ← subN c 64 j x
    let b ← o.getBit t i
    let t ← if b then o.setBit t j true else .ok t
    sumsWith x m t

/-- `for x in xs { if x < v.bit_len() { (the above up to v.bit_len()) } }` -/
def sumsOf : List Nat → T → Res T
  | [], t => .ok t
  | x :: xs, t => do
    let n ← o.bitLen t
    if x < n then do
      let m ← subN c 64 n x
      let t ← sumsWith c o x m t
      sumsOf xs t
    else sumsOf xs t
end

/-- `let mut v = BitVector::with_fill(n, false); v.set_bit(0, true); (the above)` -/
def subsetSums (c : Cfg) (w n : Nat) (xs : List Nat) : Res (VB w) := do
  let v ← BV.withFill c w n false
  let v ← (bvBitVecMut c w).setBit v 0 true
  sumsOf c (bvBitVecMut c w) xs v

variable {w : Nat} {T : Type} {c : Cfg} {o : BitVecMutOps w T} {R : T → List Bool → Prop}

theorem sumsWith_ok (h : BVLaw c o.toBitVecOps R) (hw : BVWriteLaw o R) {x : Nat} {bs : List Bool} (h64 : bs.length < 2 ^ 64) (m : Nat) {t : T}
    {ds : List Bool} (ht : R t ds) (hl : ds.length = bs.length) (hm : x + m ≤ bs.length)
    (hd : ∀ j, j < bs.length → (ds[j]? = some true ↔ bs[j]? = some true ∨ (x + m ≤ j ∧ bs[j - x]? = some true))) :
    ∃ t' es, sumsWith c o x m t = .ok t' ∧ R t' es ∧ es.length = bs.length ∧
      ∀ j, j < bs.length → (es[j]? = some true ↔ bs[j]? = some true ∨ (x ≤ j ∧ bs[j - x]? = some true)) := by
  induction m generalizing t ds with
  | zero => exact ⟨t, ds, rfl, ht, hl, by simpa using hd⟩
  | succ m ih =>
    have e1 : o.getBit t m = .ok (ds[m]'(by omega)) := by
      rw [h.getBit ht m (by omega), List.getElem?_eq_getElem (by omega)]
      rfl
    have hdm := hd m (by omega)
    rw [List.getElem?_eq_getElem (show m < ds.length by omega), Option.some.injEq] at hdm
    have hdm : ds[m]'(by omega) = true ↔ bs[m]? = some true := by
      rw [hdm]
      exact ⟨fun q => q.elim id fun q => by omega, .inl⟩
    rw [sumsWith, addN_ok (by omega), Res.ok_bind, subN_ok (by omega), Res.ok_bind, Nat.add_sub_cancel_left, e1, Res.ok_bind]
    by_cases hb : ds[m]'(by omega) = true
    · obtain ⟨t1, e2, r⟩ := hw.setBit ht (x + m) true (by omega)
      rw [if_pos hb, e2, Res.ok_bind]
      refine ih r (by simpa using hl) (by omega) fun j hj => ?_
      rw [List.getElem?_set]
      by_cases e : x + m = j
      · subst e
        rw [if_pos rfl, if_pos (by omega), Nat.add_sub_cancel_left]
        exact ⟨fun _ => .inr ⟨Nat.le_refl _, hdm.1 hb⟩, fun _ => rfl⟩
      · rw [if_neg e, hd j hj]
        constructor
        · rintro (q | ⟨q, q'⟩)
          · exact .inl q
          · exact .inr ⟨by omega, q'⟩
        · rintro (q | ⟨q, q'⟩)
          · exact .inl q
          · exact .inr ⟨by omega, q'⟩
    · rw [if_neg hb, Res.ok_bind]
      refine ih ht hl (by omega) fun j hj => ?_
      rw [hd j hj]
      constructor
      · rintro (q | ⟨q, q'⟩)
        · exact .inl q
        · exact .inr ⟨by omega, q'⟩
      · rintro (q | ⟨q, q'⟩)
        · exact .inl q
        · rcases Nat.lt_or_ge (x + m) j with q2 | q2
          · exact .inr ⟨by omega, q'⟩
          · obtain rfl : j = x + m := by omega
            rw [Nat.add_sub_cancel_left] at q'
            exact absurd (hdm.2 q') hb

theorem partSum_append (ds : List Nat) (x j : Nat) : PartSum (ds ++ [x]) j ↔ PartSum ds j ∨ (x ≤ j ∧ PartSum ds (j - x)) := by
  constructor
  · rintro ⟨l, hl, rfl⟩
    obtain ⟨a, b, rfl, h1, h2⟩ := List.sublist_append_iff.1 hl
    cases h2 with
    | cons _ h2 =>
      cases List.sublist_nil.1 h2
      exact .inl ⟨a, h1, by simp⟩
    | cons_cons _ h2 =>
      cases List.sublist_nil.1 h2
      exact .inr ⟨by simp, a, h1, by simp⟩
  · rintro (⟨l, hl, rfl⟩ | ⟨h, l, hl, e⟩)
    · exact ⟨l, hl.trans (List.sublist_append_left ..), rfl⟩
    · exact ⟨l ++ [x], hl.append (List.Sublist.refl _), by simp; omega⟩

/-- C182: from the sums of parts of some numbers to those with further numbers. -/
theorem C182_more (h0 : 0 < w) (h : BVLaw c o.toBitVecOps R) (hw : BVWriteLaw o R) (xs : List Nat) {ds : List Nat} {t : T} {bs : List Bool} (ht : R t bs)
    (hd : ∀ j, j < bs.length → (bs[j]? = some true ↔ PartSum ds j)) :
    ∃ t' es, sumsOf c o xs t = .ok t' ∧ R t' es ∧ es.length = bs.length ∧ ∀ j, j < bs.length → (es[j]? = some true ↔ PartSum (ds ++ xs) j) := by
  have h64 : bs.length < 2 ^ 64 := by
    have := (h.fits ht).lt h0
    omega
  induction xs generalizing ds t bs with
  | nil => exact ⟨t, bs, rfl, ht, rfl, by simpa using hd⟩
  | cons x xs ih =>
    rw [sumsOf, h.bitLen ht, Res.ok_bind]
    have ha : ds ++ x :: xs = (ds ++ [x]) ++ xs := by simp
    rw [ha]
    by_cases hx : x < bs.length
    · obtain ⟨t1, es, e1, r1, hl, h1⟩ := sumsWith_ok h hw h64 (bs.length - x) ht rfl (by omega) (x := x) (fun j hj =>
        ⟨.inl, fun q => q.elim id fun q => by omega⟩)
      obtain ⟨t', es', e2, r2, hl', h2⟩ := ih (ds := ds ++ [x]) r1 (fun j hj => by
        rw [h1 j (by omega), partSum_append, hd j (by omega), hd (j - x) (by omega)]) (by omega)
      refine ⟨t', es', ?_, r2, by omega, fun j hj => h2 j (by omega)⟩
      rw [if_pos hx, subN_ok (by omega), Res.ok_bind, e1, Res.ok_bind, e2]
    · rw [if_neg hx]
      refine ih ht (fun j hj => ?_) h64
      rw [hd j hj, partSum_append]
      exact ⟨.inl, fun q => q.elim id fun q => by omega⟩

/-- C182: in a new `BitVector` of `n` bits, bit `j` is set in the end exactly if some of the numbers have the sum `j`. -/
theorem C182_sums (c : Cfg) (hw : IsBlk w) {n : Nat} (hn : 0 < n) (hf : Fits c.usz w n) (xs : List Nat) :
    ∃ v bs, subsetSums c w n xs = .ok v ∧ bvR c w v bs ∧ bs.length = n ∧ ∀ j, j < n → (bs[j]? = some true ↔ PartSum xs j) := by
  obtain ⟨v, e1, r1⟩ := (C17_fill c hw).1 n false hf
  obtain ⟨v1, e2, r2⟩ := (bv_mut_law c hw).setBit (r1.rep hw) 0 true (by simpa using hn)
  obtain ⟨v2, es, e3, r3, hl, h3⟩ := C182_more (o := bvBitVecMut c w) hw.pos (bv_law c hw) (bv_mut_law c hw).write xs (ds := []) r2 (fun j hj => by
    have hj : j < n := by simpa using hj
    rw [List.getElem?_set]
    by_cases e : 0 = j
    · subst e
      simp only [List.length_replicate, hn, if_true, true_iff]
      exact ⟨[], .slnil, rfl⟩
    · rw [if_neg e, List.getElem?_replicate, if_pos hj]
      constructor
      · intro q
        cases q
      · rintro ⟨l, hl, rfl⟩
        rw [List.sublist_nil.1 hl] at e
        exact absurd rfl e)
  have hl : es.length = n := by simpa using hl
  refine ⟨v2, es, by rw [subsetSums, e1, Res.ok_bind, e2, Res.ok_bind, e3], r3, hl, fun j hj => ?_⟩
  simpa using h3 j (by simpa using hj)

/-! Each theorem of this file that has hypotheses is applied to concrete data in `Verif/Instances/SubsetSums.lean`. -/

end Succinct
