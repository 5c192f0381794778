import Verif.Lemmas.IntVector
import Verif.Model.Iter
import Verif.Spec.Deque
/-! Iterators refine a double-ended queue. -/
namespace Succinct
open Spec

/-- the iterator runs over a vector with elements `all` -/
structure ItBase (c : Cfg) (w k : Nat) (it : VIter w) (all : List Nat) : Prop where
  eb : it.elementBits = k
  pos : 1 ≤ k
  le : k ≤ w
  lt : ∀ x ∈ all, x < 2 ^ k
  rep : VR c w k it.data (packBits k all)
  limit : it.limit ≤ all.length
  start : it.start < 2 ^ 64

/-- the elements an iterator has left -/
def ItBase.left (it : VIter w) (all : List Nat) : List Nat := (all.take it.limit).drop it.start

theorem length_left {it : VIter w} {all : List Nat} (h : it.limit ≤ all.length) :
    (ItBase.left it all).length = it.limit - it.start := by
  unfold ItBase.left
  rw [List.length_drop, List.length_take, Nat.min_eq_left h]

theorem ItBase.all_lt (h : ItBase c w k it all) (hb : IsBlk w) : all.length * k < 2 ^ 64 := by
  have := h.rep.fits.lt hb.pos
  rw [length_packBits] at this
  omega

theorem ItBase.len_lt (h : ItBase c w k it all) (hb : IsBlk w) : all.length < 2 ^ 64 := by
  have h1 := h.all_lt hb
  have h2 : all.length * 1 ≤ all.length * k := Nat.mul_le_mul_left _ h.pos
  omega

/-- reading element `i` -/
theorem ItBase.read (h : ItBase c w k it all) (hb : IsBlk w) {i : Nat} (hi : i < all.length) :
    ∃ x, (do let p ← mulN c 64 it.elementBits i; it.data.getBits c it.elementBits p it.elementBits) = .ok x ∧
      x.toNat = all[i] := by
  have h1 := h.all_lt hb
  have h2 := span_end (k := k) hi
  rw [h.eb, mulN_ok (by rw [Nat.mul_comm]; omega), Res.ok_bind, Nat.mul_comm k i,
    h.rep.getBits_ok hb h.pos h.le (by rw [length_packBits]; exact h2)]
  refine ⟨_, rfl, ?_⟩
  have hlt := h.lt _ (List.getElem_mem hi)
  have h3 := Nat.pow_le_pow_right (n := 2) (by omega) h.le
  rw [packBits_elem k all i hi, bitsVal_natBits, BitVec.toNat_ofNat, Nat.mod_eq_of_lt hlt, Nat.mod_eq_of_lt (by omega)]

theorem left_nil {it : VIter w} {all : List Nat} (h : ¬ it.start < it.limit) : ItBase.left it all = [] := by
  unfold ItBase.left
  apply List.drop_of_length_le
  rw [List.length_take]; omega

theorem left_cons {it : VIter w} {all : List Nat} (h : it.start < it.limit) (hl : it.limit ≤ all.length) :
    ItBase.left it all = all[it.start] :: (all.take it.limit).drop (it.start + 1) := by
  unfold ItBase.left
  rw [List.drop_eq_getElem_cons (by rw [List.length_take]; omega), List.getElem_take]

theorem ItBase.next_eq (h : ItBase c w k it all) (hb : IsBlk w) :
    ∃ o it', it.next c = .ok (o, it') ∧ o.map BitVec.toNat = (left it all).head? ∧
      ItBase c w k it' all ∧ left it' all = (left it all).tail ∧ it'.data = it.data ∧
      (it.start ≤ it.limit → it'.start ≤ it'.limit) := by
  unfold VIter.next
  by_cases hs : it.start < it.limit
  · rw [if_pos hs]
    have hl := h.limit
    have hn := h.len_lt hb
    obtain ⟨x, hx, hx'⟩ := h.read hb (i := it.start) (by omega)
    rw [← bind_assoc, hx, Res.ok_bind, addN_ok (by omega), Res.ok_bind]
    refine ⟨some x, _, rfl, ?_, ⟨h.eb, h.pos, h.le, h.lt, h.rep, h.limit, ?_⟩, ?_, rfl, fun _ => ?_⟩
    · rw [left_cons hs hl, ← hx']; rfl
    · show it.start + 1 < _
      omega
    · rw [left_cons hs hl]; rfl
    · exact hs
  · rw [if_neg hs]
    exact ⟨none, it, rfl, by rw [left_nil hs]; rfl, h, by rw [left_nil hs]; rfl, rfl, id⟩

theorem left_snoc {it : VIter w} {all : List Nat} (h : it.start < it.limit) (hl : it.limit ≤ all.length) :
    ItBase.left it all = (all.take (it.limit - 1)).drop it.start ++ [all[it.limit - 1]] := by
  unfold ItBase.left
  have : all.take it.limit = all.take (it.limit - 1) ++ [all[it.limit - 1]] := by
    have := List.take_succ_eq_append_getElem (l := all) (i := it.limit - 1) (by omega)
    rwa [show it.limit - 1 + 1 = it.limit by omega] at this
  rw [this, List.drop_append_of_le_length (by rw [List.length_take]; omega)]

theorem ItBase.nextBack_eq (h : ItBase c w k it all) (hb : IsBlk w) :
    ∃ o it', it.nextBack c = .ok (o, it') ∧ o.map BitVec.toNat = (left it all).getLast? ∧
      ItBase c w k it' all ∧ left it' all = (left it all).dropLast ∧ it'.data = it.data ∧
      (it.start ≤ it.limit → it'.start ≤ it'.limit) := by
  unfold VIter.nextBack
  by_cases hs : it.start < it.limit
  · rw [if_pos hs]
    have hl := h.limit
    obtain ⟨x, hx, hx'⟩ := h.read hb (i := it.limit - 1) (by omega)
    rw [subN_ok (by omega), Res.ok_bind, ← bind_assoc, hx, Res.ok_bind]
    refine ⟨some x, _, rfl, ?_, ⟨h.eb, h.pos, h.le, h.lt, h.rep, ?_, h.start⟩, ?_, rfl, fun _ => ?_⟩
    · rw [left_snoc hs hl, List.getLast?_concat, ← hx']; rfl
    · show it.limit - 1 ≤ _
      omega
    · rw [left_snoc hs hl, List.dropLast_concat]; rfl
    · show it.start ≤ it.limit - 1
      omega
  · rw [if_neg hs]
    exact ⟨none, it, rfl, by rw [left_nil hs]; rfl, h, by rw [left_nil hs]; rfl, rfl, id⟩

theorem ItBase.nth_eq (h : ItBase c w k it all) (hb : IsBlk w) (n : Nat) :
    ∃ o it', it.nth c n = .ok (o, it') ∧ o.map BitVec.toNat = (left it all)[n]? ∧
      ItBase c w k it' all ∧ left it' all = (left it all).drop (n + 1) ∧ it'.data = it.data ∧
      (n ≤ (left it all).length → it.start ≤ it.limit → it'.start ≤ it'.limit) := by
  have hl := h.limit
  have hn := h.len_lt hb
  unfold VIter.nth checkedAdd
  split
  · next hlt =>
    have h' : ItBase c w k { it with start := it.start + n } all := ⟨h.eb, h.pos, h.le, h.lt, h.rep, h.limit, hlt⟩
    obtain ⟨o, it', h1, h2, h3, h4, h5, h6⟩ := h'.next_eq hb
    have e : left { it with start := it.start + n } all = (left it all).drop n := by
      unfold left
      rw [List.drop_drop]
    refine ⟨o, it', h1, ?_, h3, ?_, h5, fun hn hsl => h6 ?_⟩
    · rw [h2, e, List.head?_drop]
    · rw [h4, e, List.tail_drop]
    · rw [length_left hl] at hn
      show it.start + n ≤ it.limit
      omega
  · next hge =>
    have h' : ItBase c w k { it with start := it.limit } all :=
      ⟨h.eb, h.pos, h.le, h.lt, h.rep, h.limit, by show it.limit < _; omega⟩
    obtain ⟨o, it', h1, h2, h3, h4, h5, h6⟩ := h'.next_eq hb
    have e : left { it with start := it.limit } all = [] := left_nil (Nat.lt_irrefl _)
    have hll : (left it all).length ≤ n := by rw [length_left hl]; omega
    refine ⟨o, it', h1, ?_, h3, ?_, h5, fun _ _ => h6 (Nat.le_refl _)⟩
    · rw [h2, e, List.getElem?_eq_none hll]; rfl
    · rw [h4, e, List.drop_of_length_le (by omega)]; rfl

/-- one advancing call -/
def itStep (c : Cfg) (it : VIter w) : ItOp → Res (Option (BitVec w) × VIter w)
  | .next => it.next c
  | .nextBack => it.nextBack c
  | .nth n => it.nth c n

theorem ItBase.step (h : ItBase c w k it all) (hb : IsBlk w) (op : ItOp) :
    ∃ o it', itStep c it op = .ok (o, it') ∧ o.map BitVec.toNat = (deque (left it all) op).1 ∧
      ItBase c w k it' all ∧ left it' all = (deque (left it all) op).2 ∧
      ((∀ n, op = .nth n → n ≤ (left it all).length) → it.start ≤ it.limit → it'.start ≤ it'.limit) := by
  cases op with
  | next =>
    obtain ⟨o, it', h1, h2, h3, h4, h5, h6⟩ := h.next_eq hb
    exact ⟨o, it', h1, h2, h3, h4, fun _ => h6⟩
  | nextBack =>
    obtain ⟨o, it', h1, h2, h3, h4, h5, h6⟩ := h.nextBack_eq hb
    exact ⟨o, it', h1, h2, h3, h4, fun _ => h6⟩
  | nth n =>
    obtain ⟨o, it', h1, h2, h3, h4, h5, h6⟩ := h.nth_eq hb n
    exact ⟨o, it', h1, h2, h3, h4, fun hn => h6 (hn n rfl)⟩

/-- a sequence of advancing calls -/
def itRun (c : Cfg) (it : VIter w) : List ItOp → Res (List (Option (BitVec w)) × VIter w)
  | [] => .ok ([], it)
  | op :: ops => do
    let (o, it) ← itStep c it op
    let (os, it) ← itRun c it ops
    .ok (o :: os, it)

theorem ItBase.run (h : ItBase c w k it all) (hb : IsBlk w) (ops : List ItOp) :
    ∃ os it', itRun c it ops = .ok (os, it') ∧
      os.map (Option.map BitVec.toNat) = (dequeRun (left it all) ops).1 ∧
      ItBase c w k it' all ∧ left it' all = (dequeRun (left it all) ops).2 ∧
      (nthInRange (left it all) ops → it.start ≤ it.limit → it'.start ≤ it'.limit) := by
  induction ops generalizing it with
  | nil => exact ⟨[], it, rfl, rfl, h, rfl, fun _ => id⟩
  | cons op ops ih =>
    obtain ⟨o, it1, h1, h2, h3, h4, h5⟩ := h.step hb op
    obtain ⟨os, it2, g1, g2, g3, g4, g5⟩ := ih h3
    refine ⟨o :: os, it2, ?_, ?_, g3, ?_, fun hn hs => g5 ?_ (h5 hn.1 hs)⟩
    · unfold itRun
      rw [h1, Res.ok_bind]
      simp only [g1, Res.ok_bind]
    · simp only [dequeRun, List.map_cons, h2, g2, h4]
    · simp only [dequeRun, g4, h4]
    · rw [h4]; exact hn.2

theorem ItBase.forEach {α : Type} (h : ItBase c w k it all) (hb : IsBlk w) (f : α → Nat → α) (acc : α)
    (g : α → BitVec w → Res α) (hg : ∀ a x, g a x = .ok (f a x.toNat)) :
    it.forEach c acc g = .ok ((left it all).foldl f acc) := by
  generalize hn : (left it all).length = n
  induction n generalizing it acc with
  | zero =>
    have hnil := List.length_eq_zero_iff.1 hn
    obtain ⟨o, it', h1, h2, h3, h4, -⟩ := h.next_eq hb
    rw [VIter.forEach, h1, Res.ok_bind]
    rw [hnil] at h2 ⊢
    obtain rfl : o = none := by simpa using h2
    rfl
  | succ n ih =>
    obtain ⟨x, xs, hx⟩ := List.exists_cons_of_length_eq_add_one hn
    obtain ⟨o, it', h1, h2, h3, h4, -⟩ := h.next_eq hb
    rw [VIter.forEach, h1, Res.ok_bind]
    rw [hx] at h2 h4 ⊢
    obtain ⟨y, rfl, hy⟩ : ∃ y, o = some y ∧ y.toNat = x := by
      cases o with
      | none => simp at h2
      | some y => exact ⟨y, rfl, by simpa using h2⟩
    simp only [hg, Res.ok_bind]
    rw [ih h3 _ (by rw [h4]; rw [hx] at hn; simpa using hn), h4, hy]; rfl

theorem ItBase.len_ok (h : ItBase c w k it all) (hs : it.start ≤ it.limit)
    (hu : (left it all).length < 2 ^ c.usz) : it.len c = .ok (left it all).length := by
  rw [length_left h.limit] at hu ⊢
  unfold VIter.len
  rw [subN_ok hs, Res.ok_bind, asUsize, Nat.mod_eq_of_lt hu]

theorem ItBase.sizeHint_ok (h : ItBase c w k it all) (hs : it.start ≤ it.limit)
    (hu : (left it all).length < 2 ^ c.usz) :
    it.sizeHint c = .ok ((left it all).length, some (left it all).length) := by
  unfold VIter.sizeHint
  split
  · rw [length_left h.limit] at hu ⊢
    rw [subN_ok hs, Res.ok_bind, toUsize, if_pos hu]
  · rw [h.len_ok hs hu]; rfl

/-- The positions of an iterator follow `cursor`. -/
theorem ItBase.step_cursor (h : ItBase c w k it all) (hb : IsBlk w) (op : ItOp) {o : Option (BitVec w)} {it' : VIter w}
    (he : itStep c it op = .ok (o, it')) : (it'.start, it'.limit) = cursor (it.start, it.limit) op := by
  have hl := h.limit
  have hn := h.len_lt hb
  have hnext : ∀ {it : VIter w} {o : Option (BitVec w)} {it' : VIter w}, ItBase c w k it all → it.next c = .ok (o, it') →
      (it'.start, it'.limit) = cursor (it.start, it.limit) .next := by
    intro it o it' h he
    have hl := h.limit
    unfold VIter.next at he
    simp only [cursor]
    split at he
    · next hs =>
      obtain ⟨x, hx, -⟩ := h.read hb (i := it.start) (by omega)
      rw [← bind_assoc, hx, Res.ok_bind, addN_ok (by omega), Res.ok_bind] at he
      cases he
      rw [if_pos hs]
    · next hs => cases he; rw [if_neg hs]
  cases op with
  | next => exact hnext h he
  | nextBack =>
    unfold itStep VIter.nextBack at he
    simp only at he
    simp only [cursor]
    split at he
    · next hs =>
      obtain ⟨x, hx, -⟩ := h.read hb (i := it.limit - 1) (by omega)
      rw [subN_ok (by omega), Res.ok_bind, ← bind_assoc, hx, Res.ok_bind] at he
      cases he
      rw [if_pos hs]
    · next hs => cases he; rw [if_neg hs]
  | nth n =>
    unfold itStep VIter.nth checkedAdd at he
    simp only at he
    simp only [cursor]
    split at he
    · next hlt =>
      rw [hnext (it := { it with start := it.start + n }) ⟨h.eb, h.pos, h.le, h.lt, h.rep, h.limit, hlt⟩ he]
      simp only [cursor]
      rw [if_pos hlt]
    · next hlt =>
      rw [hnext (it := { it with start := it.limit }) ⟨h.eb, h.pos, h.le, h.lt, h.rep, h.limit, by show it.limit < _; omega⟩ he]
      simp only [cursor]
      rw [if_neg (Nat.lt_irrefl _), if_neg (show ¬ it.start + n < it.limit by omega), if_neg hlt]

theorem ItBase.run_cursor (h : ItBase c w k it all) (hb : IsBlk w) (ops : List ItOp) {os : List (Option (BitVec w))}
    {it' : VIter w} (he : itRun c it ops = .ok (os, it')) :
    (it'.start, it'.limit) = ops.foldl cursor (it.start, it.limit) := by
  induction ops generalizing it os with
  | nil => cases he; rfl
  | cons op ops ih =>
    obtain ⟨o, it1, h1, -, h3, -⟩ := h.step hb op
    obtain ⟨os2, it2, g1, -⟩ := h3.run hb ops
    unfold itRun at he
    rw [h1, Res.ok_bind] at he
    simp only [g1, Res.ok_bind] at he
    cases he
    rw [ih h3 g1, h.step_cursor hb op h1]
    rfl

theorem iv_iter_base (h : IR c w k s xs) : ItBase c w k s.iter xs ∧ ItBase.left s.iter xs = xs ∧
    s.iter.start ≤ s.iter.limit := by
  refine ⟨⟨h.eb, h.pos, h.le, h.lt, h.rep, ?_, Nat.two_pow_pos 64⟩, ?_, Nat.zero_le _⟩
  · show s.base.len ≤ _
    rw [h.len]; exact Nat.le_refl _
  · show (xs.take s.base.len).drop 0 = xs
    rw [h.len, List.take_length]; rfl

theorem packBits_one (bits : List Bool) : packBits 1 (bits.map Bool.toNat) = bits := by
  induction bits with
  | nil => rfl
  | cons b bits ih =>
    rw [List.map_cons, packBits_cons, ih]
    cases b <;> rfl

theorem bv_iter_base (h : IsBlk w) (hR : bvR c w s bits) : ItBase c w 1 (BV.iter s) (bits.map Bool.toNat) ∧
    ItBase.left (BV.iter s) (bits.map Bool.toNat) = bits.map Bool.toNat ∧
    (BV.iter s).start ≤ (BV.iter s).limit := by
  have hl : s.len = bits.length := by simpa using hR.len
  refine ⟨⟨rfl, Nat.le_refl _, h.pos, ?_, ?_, ?_, Nat.two_pow_pos 64⟩, ?_, Nat.zero_le _⟩
  · intro x hx
    obtain ⟨b, -, rfl⟩ := List.mem_map.1 hx
    cases b <;> decide
  · rw [packBits_one]; exact hR
  · show s.len ≤ _
    rw [hl, List.length_map]; exact Nat.le_refl _
  · show ((bits.map Bool.toNat).take s.len).drop 0 = _
    rw [hl, List.take_of_length_le (by simp)]; rfl

theorem deque_map (f : α → β) (xs : List α) (op : ItOp) :
    deque (xs.map f) op = ((deque xs op).1.map f, (deque xs op).2.map f) := by
  cases op <;> simp [deque, List.map_drop]

theorem dequeRun_map (f : α → β) (xs : List α) (ops : List ItOp) :
    dequeRun (xs.map f) ops = ((dequeRun xs ops).1.map (Option.map f), (dequeRun xs ops).2.map f) := by
  induction ops generalizing xs with
  | nil => rfl
  | cons op ops ih => simp [dequeRun, deque_map, ih]

end Succinct
