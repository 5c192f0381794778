import Verif.Lemmas.BitVector
import Verif.Model.Slice
/-! A slice of a lawful bit vector is a window on its bits. -/
namespace Succinct
open Spec

/-- The slice looks at the window `start .. start+len` of a base holding `B`. -/
structure SliceOn (R : S → List Bool → Prop) (s : Slice S) (B : List Bool) : Prop where
  base : R s.data B
  inside : s.len = 0 ∨ s.start + s.len ≤ B.length

/-- the bits of a slice -/
def sliceR (R : S → List Bool → Prop) (s : Slice S) (bits : List Bool) : Prop :=
  ∃ B, SliceOn R s B ∧ bits = window B s.start s.len

theorem length_window {l : List α} {a n : Nat} (h : n = 0 ∨ a + n ≤ l.length) : (window l a n).length = n := by
  unfold window
  rw [List.length_take, List.length_drop]
  omega

theorem getElem?_window (l : List α) (a n i : Nat) : (window l a n)[i]? = if i < n then l[a + i]? else none := by
  unfold window
  rw [List.getElem?_take, List.getElem?_drop]

theorem window_window (l : List α) {a n b m : Nat} (h : b + m ≤ n) :
    window (window l a n) b m = window l (a + b) m := by
  apply List.ext_getElem?
  intro i
  rw [getElem?_window, getElem?_window, getElem?_window]
  split
  · rw [if_pos (by omega), Nat.add_assoc]
  · rfl

theorem window_set {l : List α} {a n i : Nat} (x : α) (hi : i < n) (hn : a + n ≤ l.length) :
    window (l.set (a + i) x) a n = (window l a n).set i x := by
  apply List.ext_getElem?
  intro j
  rw [getElem?_window, List.getElem?_set, List.getElem?_set, getElem?_window, length_window (Or.inr hn)]
  by_cases hj : i = j
  · subst hj
    rw [if_pos hi, if_pos rfl, if_pos rfl, if_pos hi, if_pos (by omega)]
  · rw [if_neg hj, if_neg (show ¬ a + i = a + j by omega)]

theorem window_overwrite {l : List α} {a n p : Nat} (new : List α) (hp : p + new.length ≤ n) (hn : a + n ≤ l.length) :
    window (overwrite l (a + p) new) a n = overwrite (window l a n) p new := by
  apply List.ext_getElem?
  intro j
  rw [getElem?_window, getElem?_overwrite (by omega), getElem?_overwrite (by rw [length_window (Or.inr hn)]; exact hp),
    getElem?_window]
  by_cases hj : j < n
  · rw [if_pos hj, if_pos hj]
    by_cases hpj : p ≤ j ∧ j < p + new.length
    · rw [if_pos hpj, if_pos (by omega), show a + j - (a + p) = j - p by omega]
    · rw [if_neg hpj, if_neg (by omega)]
  · rw [if_neg hj, if_neg hj, if_neg (by omega)]

theorem take_drop_window (l : List α) {a n p m : Nat} (h : p + m ≤ n) :
    ((window l a n).drop p).take m = (l.drop (a + p)).take m := window_window l h

section
variable {S : Type} {w : Nat} {c : Cfg} {o : BitVecOps w S} {R : S → List Bool → Prop} {s : Slice S} {B : List Bool}

theorem SliceOn.fits (hl : BVLaw c o R) (h : SliceOn R s B) : Fits c.usz w s.len :=
  (hl.fits h.base).mono (by have := h.inside; omega)

theorem slice_getBit (hw : IsBlk w) (hl : BVLaw c o R) (h : SliceOn R s B) (i : Nat) :
    Slice.getBit c o s i = expectR (window B s.start s.len)[i]? := by
  unfold Slice.getBit
  have hf := (hl.fits h.base).lt hw.pos
  rw [getElem?_window]
  by_cases hi : i < s.len
  · have hin : s.start + s.len ≤ B.length := by have := h.inside; omega
    rw [assertR_true hi, Res.ok_bind, addN_ok (by omega), Res.ok_bind, hl.getBit h.base _ (by omega), if_pos hi]
  · rw [assertR_false hi, if_neg hi]; rfl

theorem slice_getBits (hw : IsBlk w) (hl : BVLaw c o R) (h : SliceOn R s B) {p n : Nat} (h1 : 1 ≤ n) (hn : n ≤ w)
    (hp : p + n ≤ s.len) :
    Slice.getBits c o s p n = .ok (BitVec.ofNat w (bitsVal (((window B s.start s.len).drop p).take n))) := by
  have hin : s.start + s.len ≤ B.length := by have := h.inside; omega
  have hf := (hl.fits h.base).lt hw.pos
  unfold Slice.getBits checkedAdd
  rw [if_pos (by omega), expectR_some, Res.ok_bind, assertR_true hp, Res.ok_bind, addN_ok (by omega), Res.ok_bind,
    hl.getBits h.base _ n h1 hn (by omega), take_drop_window B hp]

theorem slice_getBits_panic {p n : Nat} (hp : s.len < p + n) : Slice.getBits c o s p n = .panic := by
  unfold Slice.getBits checkedAdd
  split
  · rw [expectR_some, Res.ok_bind, assertR_false (by omega)]; rfl
  · rfl

theorem slice_law (hw : IsBlk w) (hl : BVLaw c o R) : BVLaw c (sliceBitVec c o) (sliceR R) where
  fits := by
    rintro s _ ⟨B, h, rfl⟩
    rw [length_window h.inside]; exact h.fits hl
  bitLen := by
    rintro s _ ⟨B, h, rfl⟩
    rw [length_window h.inside]; rfl
  getBit := by
    rintro s _ ⟨B, h, rfl⟩ i _
    exact slice_getBit hw hl h i
  getBits := by
    rintro s _ ⟨B, h, rfl⟩ p n h1 hn hp
    rw [length_window h.inside] at hp
    exact slice_getBits hw hl h h1 hn hp
  getBits_panic := by
    rintro s _ ⟨B, h, rfl⟩ p n _ _ hp
    rw [length_window h.inside] at hp
    exact slice_getBits_panic hp

end

section
variable {S : Type} {w : Nat} {c : Cfg} {o : BitVecMutOps w S} {R : S → List Bool → Prop} {s : Slice S} {B : List Bool}

theorem slice_setBit (hw : IsBlk w) (hl : BVLaw c o.toBitVecOps R) (hm : BVWriteLaw o R) (h : SliceOn R s B) {i : Nat}
    (hi : i < s.len) (v : Bool) : ∃ s', Slice.setBit c o s i v = .ok s' ∧ s'.start = s.start ∧ s'.len = s.len ∧
      SliceOn R s' (B.set (s.start + i) v) := by
  have hin : s.start + s.len ≤ B.length := by have := h.inside; omega
  have hf := (hl.fits h.base).lt hw.pos
  obtain ⟨d, hd, hR⟩ := hm.setBit h.base (s.start + i) v (by omega)
  unfold Slice.setBit
  rw [assertR_true hi, Res.ok_bind, addN_ok (by omega), Res.ok_bind, hd, Res.ok_bind]
  exact ⟨_, rfl, rfl, rfl, hR, by rw [List.length_set]; exact Or.inr hin⟩

theorem slice_setBit_panic {i : Nat} (hi : s.len ≤ i) (v : Bool) : Slice.setBit c o s i v = .panic := by
  unfold Slice.setBit
  rw [assertR_false (by omega)]; rfl

theorem slice_setBits (hw : IsBlk w) (hl : BVLaw c o.toBitVecOps R) (hm : BVWriteLaw o R) (h : SliceOn R s B) {p n : Nat}
    (h1 : 1 ≤ n) (hn : n ≤ w) (hp : p + n ≤ s.len) (v : BitVec w) :
    ∃ s', Slice.setBits c o s p n v = .ok s' ∧ s'.start = s.start ∧ s'.len = s.len ∧
      SliceOn R s' (overwrite B (s.start + p) (natBits n v.toNat)) := by
  have hin : s.start + s.len ≤ B.length := by have := h.inside; omega
  have hf := (hl.fits h.base).lt hw.pos
  obtain ⟨d, hd, hR⟩ := hm.setBits h.base (s.start + p) n v h1 hn (by omega)
  unfold Slice.setBits checkedAdd
  rw [if_pos (by omega), expectR_some, Res.ok_bind, assertR_true hp, Res.ok_bind, addN_ok (by omega), Res.ok_bind, hd,
    Res.ok_bind]
  exact ⟨_, rfl, rfl, rfl, hR, by rw [length_overwrite (by rw [length_natBits]; omega)]; exact Or.inr hin⟩

theorem slice_setBits_panic {p n : Nat} (hp : s.len < p + n) (v : BitVec w) : Slice.setBits c o s p n v = .panic := by
  unfold Slice.setBits checkedAdd
  split
  · rw [expectR_some, Res.ok_bind, assertR_false (by omega)]; rfl
  · rfl

theorem slice_write_law (hw : IsBlk w) (hl : BVLaw c o.toBitVecOps R) (hm : BVWriteLaw o R) :
    BVWriteLaw (sliceBitVecMut c o) (sliceR R) where
  setBit := by
    rintro s _ ⟨B, h, rfl⟩ i v hi
    rw [length_window h.inside] at hi
    obtain ⟨s', h1, h2, h3, h4⟩ := slice_setBit hw hl hm h hi v
    refine ⟨s', h1, _, h4, ?_⟩
    rw [h2, h3, window_set v hi (by have := h.inside; omega)]
  setBit_panic := by
    rintro s _ ⟨B, h, rfl⟩ i v hi _
    rw [length_window h.inside] at hi
    exact slice_setBit_panic hi v
  setBits := by
    rintro s _ ⟨B, h, rfl⟩ p n v h1 hn hp
    rw [length_window h.inside] at hp
    obtain ⟨s', h1, h2, h3, h4⟩ := slice_setBits hw hl hm h h1 hn hp v
    refine ⟨s', h1, _, h4, ?_⟩
    rw [h2, h3, window_overwrite _ (by rw [length_natBits]; exact hp) (by have := h.inside; omega)]
  setBits_panic := by
    rintro s _ ⟨B, h, rfl⟩ p n v _ _ hp
    rw [length_window h.inside] at hp
    exact slice_setBits_panic hp v

end

theorem BVMutLaw.write {o : BitVecMutOps w S} (h : BVMutLaw c o R) : BVWriteLaw o R :=
  ⟨h.setBit, h.setBit_panic, h.setBits, h.setBits_panic⟩

end Succinct
