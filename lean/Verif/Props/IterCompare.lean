import Verif.Props.Iter
import Verif.Props.Derived
/-! Property C118: comparing and hashing iterators. -/
namespace Succinct
open Spec

theorem VIter.eq_iff (a b : VIter w) : a.eq b = true ↔ a = b := by
  obtain ⟨a1, a2, a3, a4, a5⟩ := a
  obtain ⟨b1, b2, b3, b4, b5⟩ := b
  simp [VIter.eq, and_assoc]

theorem VIter.cmp_eq (a b : VIter w) : a.cmp b = .eq ↔ a = b := by
  obtain ⟨a1, a2, a3, a4⟩ := a
  obtain ⟨b1, b2, b3, b4⟩ := b
  simp only [VIter.cmp, Ordering.then_eq_eq, Nat.compare_eq_eq, VB.cmp_eq, VIter.mk.injEq]

theorem VIter.cmp_swap (a b : VIter w) : b.cmp a = (a.cmp b).swap := by
  unfold VIter.cmp
  rw [Ordering.swap_then, Ordering.swap_then, Ordering.swap_then, Nat.compare_swap, Nat.compare_swap, Nat.compare_swap,
    ← VB.cmp_swap]

theorem VIter.cmp_trans (a b d : VIter w) (h1 : (a.cmp b).isLE) (h2 : (b.cmp d).isLE) : (a.cmp d).isLE :=
  then_trans (compare_nat_trans _ _ _).1 (compare_nat_trans _ _ _).2
    (then_trans (compare_nat_trans _ _ _).1 (compare_nat_trans _ _ _).2
      (then_trans (compare_nat_trans _ _ _).1 (compare_nat_trans _ _ _).2 (VB.cmp_trans _ _ _))) h1 h2

theorem VIter.next_data {it it' : VIter w} {o : Option (BitVec w)} (h : it.next c = .ok (o, it')) :
    it'.data = it.data ∧ it'.elementBits = it.elementBits := by
  unfold VIter.next at h
  split at h
  · rcases h1 : mulN c 64 it.elementBits it.start with p | _ | _ <;> rw [h1] at h <;> try cases h
    simp only [Res.ok_bind] at h
    rcases h2 : it.data.getBits c it.elementBits p it.elementBits with x | _ | _ <;> rw [h2] at h <;> try cases h
    simp only [Res.ok_bind] at h
    rcases h3 : addN c 64 it.start 1 with q | _ | _ <;> rw [h3] at h <;> cases h
    exact ⟨rfl, rfl⟩
  · cases h; exact ⟨rfl, rfl⟩

theorem VIter.nextBack_data {it it' : VIter w} {o : Option (BitVec w)} (h : it.nextBack c = .ok (o, it')) :
    it'.data = it.data ∧ it'.elementBits = it.elementBits := by
  unfold VIter.nextBack at h
  split at h
  · rcases h3 : subN c 64 it.limit 1 with q | _ | _ <;> rw [h3] at h <;> try cases h
    simp only [Res.ok_bind] at h
    rcases h1 : mulN c 64 it.elementBits q with p | _ | _ <;> rw [h1] at h <;> try cases h
    simp only [Res.ok_bind] at h
    rcases h2 : it.data.getBits c it.elementBits p it.elementBits with x | _ | _ <;> rw [h2] at h <;> cases h
    exact ⟨rfl, rfl⟩
  · cases h; exact ⟨rfl, rfl⟩

theorem itStep_data {it it' : VIter w} {o : Option (BitVec w)} {op : ItOp} (h : itStep c it op = .ok (o, it')) :
    it'.data = it.data ∧ it'.elementBits = it.elementBits := by
  cases op with
  | next => exact VIter.next_data h
  | nextBack => exact VIter.nextBack_data h
  | nth n => exact VIter.next_data (it := { it with start := (checkedAdd 64 it.start n).getD it.limit }) h

theorem itRun_data {it it' : VIter w} {os : List (Option (BitVec w))} {ops : List ItOp} (h : itRun c it ops = .ok (os, it')) :
    it'.data = it.data ∧ it'.elementBits = it.elementBits := by
  induction ops generalizing it os with
  | nil => cases h; exact ⟨rfl, rfl⟩
  | cons op ops ih =>
    unfold itRun at h
    rcases h1 : itStep c it op with ⟨o, it1⟩ | _ | _ <;> rw [h1] at h <;> try cases h
    simp only [Res.ok_bind] at h
    rcases h2 : itRun c it1 ops with ⟨os1, it2⟩ | _ | _ <;> rw [h2] at h <;> cases h
    obtain ⟨e1, e2⟩ := ih h2
    obtain ⟨e3, e4⟩ := itStep_data h1
    exact ⟨e1.trans e3, e2.trans e4⟩

/-- Laws that hold for iterators in whatever state. -/
theorem C118_laws (c : Cfg) (T : Endian) (a b d : VIter w) :
    (a.cmp b = .eq ↔ a.eq b = true) ∧ b.cmp a = (a.cmp b).swap ∧ ((a.cmp b).isLE → (b.cmp d).isLE → (a.cmp d).isLE) ∧
    (a.eq b = true → (∀ ops, itRun c a ops = itRun c b ops) ∧ a.len c = b.len c ∧ a.sizeHint c = b.sizeHint c ∧
      ∀ {H : Type} (K : HasherOps H) (x : H), K.feed x (a.hashCalls T) = K.feed x (b.hashCalls T)) := by
  refine ⟨(VIter.cmp_eq a b).trans (VIter.eq_iff a b).symm, VIter.cmp_swap a b, VIter.cmp_trans a b d, fun h => ?_⟩
  rw [(VIter.eq_iff a b).1 h]
  exact ⟨fun _ => rfl, rfl, rfl, fun _ _ => rfl⟩

/-- What iterators over vectors compare like: first the positions of the two ends, then the vectors. -/
theorem C118_int_iter (c : Cfg) (h : IsBlk w) {s t : IV w} (hs : IvReach c w k s xs) (ht : IvReach c w k' t ys)
    {ops ops' : List ItOp} (h1 : itRun c s.iter ops = .ok (os, it)) (h2 : itRun c t.iter ops' = .ok (os', it')) :
    let p := ops.foldl cursor (0, xs.length)
    let q := ops'.foldl cursor (0, ys.length)
    (it.eq it' = true ↔ k = k' ∧ xs = ys ∧ p = q) ∧
    it.cmp it' = (compare p.1 q.1).then ((compare p.2 q.2).then (IV.cmp s t)) := by
  intro p q
  have hR := hs.rep h
  have hR' := ht.rep h
  obtain ⟨b1, -, -⟩ := iv_iter_base hR
  obtain ⟨b2, -, -⟩ := iv_iter_base hR'
  have e1 := b1.run_cursor h ops h1
  have e2 := b2.run_cursor h ops' h2
  rw [show s.iter.start = 0 from rfl, show s.iter.limit = xs.length from hR.len] at e1
  rw [show t.iter.start = 0 from rfl, show t.iter.limit = ys.length from hR'.len] at e2
  obtain ⟨d1, d2⟩ := itRun_data h1
  obtain ⟨d3, d4⟩ := itRun_data h2
  obtain ⟨x1, x2⟩ := Prod.mk.inj (e1.trans (show _ = (p.1, p.2) from rfl))
  obtain ⟨y1, y2⟩ := Prod.mk.inj (e2.trans (show _ = (q.1, q.2) from rfl))
  constructor
  · rw [VIter.eq_iff]
    constructor
    · rintro rfl
      have est : s = t := by
        obtain ⟨se, sb⟩ := s
        obtain ⟨te, tb⟩ := t
        rw [d1] at d3; rw [d2] at d4
        obtain rfl : se = te := d4
        obtain rfl : sb = tb := d3
        rfl
      obtain ⟨g1, g2⟩ := (C26_equality h hs ht).1 est
      exact ⟨g1, g2, e1.symm.trans e2⟩
    · rintro ⟨g1, g2, g3⟩
      have est := (C26_equality h hs ht).2 ⟨g1, g2⟩
      subst est
      obtain ⟨i1, i2, i3, i4⟩ := it
      obtain ⟨j1, j2, j3, j4⟩ := it'
      rw [g3] at x1 x2
      simp only at x1 x2 y1 y2 d1 d2 d3 d4
      rw [x1, x2, y1, y2, d1, d2, d3, d4]
  · unfold VIter.cmp IV.cmp
    rw [x1, x2, y1, y2, d1, d2, d3, d4]
    rfl

/-- The same over bits. -/
theorem C118_bit_iter (c : Cfg) (h : IsBlk w) {s t : VB w} (hs : BvReach c w s bs) (ht : BvReach c w t bt)
    {ops ops' : List ItOp} (h1 : itRun c (BV.iter s) ops = .ok (os, it)) (h2 : itRun c (BV.iter t) ops' = .ok (os', it')) :
    let p := ops.foldl cursor (0, bs.length)
    let q := ops'.foldl cursor (0, bt.length)
    (it.eq it' = true ↔ bs = bt ∧ p = q) ∧
    it.cmp it' = (compare p.1 q.1).then ((compare p.2 q.2).then (VB.cmp s t)) := by
  intro p q
  have hR := hs.rep h
  have hR' := ht.rep h
  obtain ⟨b1, -, -⟩ := bv_iter_base h hR
  obtain ⟨b2, -, -⟩ := bv_iter_base h hR'
  have l1 : s.len = bs.length := by simpa using hR.len
  have l2 : t.len = bt.length := by simpa using hR'.len
  have e1 := b1.run_cursor h ops h1
  have e2 := b2.run_cursor h ops' h2
  rw [show (BV.iter s).start = 0 from rfl, show (BV.iter s).limit = s.len from rfl, l1] at e1
  rw [show (BV.iter t).start = 0 from rfl, show (BV.iter t).limit = t.len from rfl, l2] at e2
  obtain ⟨d1, d2⟩ := itRun_data h1
  obtain ⟨d3, d4⟩ := itRun_data h2
  obtain ⟨x1, x2⟩ := Prod.mk.inj (e1.trans (show _ = (p.1, p.2) from rfl))
  obtain ⟨y1, y2⟩ := Prod.mk.inj (e2.trans (show _ = (q.1, q.2) from rfl))
  constructor
  · rw [VIter.eq_iff]
    constructor
    · rintro rfl
      have est : s = t := by rw [d1] at d3; exact d3
      exact ⟨(C15_equality_is_extensional h hs ht).1 est, e1.symm.trans e2⟩
    · rintro ⟨g2, g3⟩
      have est := (C15_equality_is_extensional h hs ht).2 g2
      subst est
      obtain ⟨i1, i2, i3, i4⟩ := it
      obtain ⟨j1, j2, j3, j4⟩ := it'
      rw [g3] at x1 x2
      simp only at x1 x2 y1 y2 d1 d2 d3 d4
      rw [x1, x2, y1, y2, d1, d2, d3, d4]
  · unfold VIter.cmp
    rw [x1, x2, y1, y2, d1, d2, d3, d4, show compare (BV.iter s).elementBits (BV.iter t).elementBits = .eq from rfl]
    rfl

/-- Iterators that are not equal feed different bytes to a hasher, neither a prefix of the other. -/
theorem C118_hash (c : Cfg) (h : IsBlk w) (T : Endian) {s t : IV w} (hs : IvReach c w k s xs) (ht : IvReach c w k' t ys)
    {ops ops' : List ItOp} (h1 : itRun c s.iter ops = .ok (os, it)) (h2 : itRun c t.iter ops' = .ok (os', it'))
    (he : hashBytes c T (it.hashCalls T) ++ r = hashBytes c T (it'.hashCalls T) ++ r') :
    k = k' ∧ xs = ys ∧ ops.foldl cursor (0, xs.length) = ops'.foldl cursor (0, ys.length) ∧ r = r' := by
  have hR := hs.rep h
  have hR' := ht.rep h
  obtain ⟨b1, -, -⟩ := iv_iter_base hR
  obtain ⟨b2, -, -⟩ := iv_iter_base hR'
  obtain ⟨_, _, g1, -, a1, -⟩ := b1.run h ops
  obtain ⟨_, _, g2, -, a2, -⟩ := b2.run h ops'
  rw [h1] at g1; cases g1
  rw [h2] at g2; cases g2
  have e1 := b1.run_cursor h ops h1
  have e2 := b2.run_cursor h ops' h2
  rw [show s.iter.start = 0 from rfl, show s.iter.limit = xs.length from hR.len] at e1
  rw [show t.iter.start = 0 from rfl, show t.iter.limit = ys.length from hR'.len] at e2
  obtain ⟨d1, d2⟩ := itRun_data h1
  obtain ⟨d3, d4⟩ := itRun_data h2
  have he' : T.bytes 8 it.start ++ (T.bytes 8 it.limit ++ (hashBytes c T (s.hashCalls T) ++ r)) =
      T.bytes 8 it'.start ++ (T.bytes 8 it'.limit ++ (hashBytes c T (t.hashCalls T) ++ r')) := by
    rw [show s.hashCalls T = .usize it.elementBits :: it.data.hashCalls T by rw [d1, d2]; rfl,
      show t.hashCalls T = .usize it'.elementBits :: it'.data.hashCalls T by rw [d3, d4]; rfl]
    simpa only [VIter.hashCalls, hashBytes, HashCall.bytes, List.flatMap_cons, List.append_assoc] using he
  obtain ⟨f1, he⟩ := List.append_inj he' (by rw [T.length_bytes, T.length_bytes])
  obtain ⟨f2, he⟩ := List.append_inj he (by rw [T.length_bytes, T.length_bytes])
  have p1 := a1.start
  have p2 := a2.start
  have p3 := a1.limit
  have p4 := a2.limit
  have p5 := a1.len_lt h
  have p6 := a2.len_lt h
  have f1 := T.bytes_inj (by omega) (by omega) f1
  have f2 := T.bytes_inj (by omega) (by omega) f2
  obtain ⟨f3, f4, f5⟩ := (C85_int_vector c h T hs ht).2 _ _ he
  exact ⟨f3, f4, by rw [← e1, ← e2, f1, f2], f5⟩

/-- The same over bits. -/
theorem C118_bit_hash (c : Cfg) (h : IsBlk w) (T : Endian) {s t : VB w} (hs : BvReach c w s bs) (ht : BvReach c w t bt)
    {ops ops' : List ItOp} (h1 : itRun c (BV.iter s) ops = .ok (os, it)) (h2 : itRun c (BV.iter t) ops' = .ok (os', it'))
    (he : hashBytes c T (it.hashCalls T) ++ r = hashBytes c T (it'.hashCalls T) ++ r') :
    bs = bt ∧ ops.foldl cursor (0, bs.length) = ops'.foldl cursor (0, bt.length) ∧ r = r' := by
  have hR := hs.rep h
  have hR' := ht.rep h
  obtain ⟨b1, -, -⟩ := bv_iter_base h hR
  obtain ⟨b2, -, -⟩ := bv_iter_base h hR'
  have l1 : s.len = bs.length := by simpa using hR.len
  have l2 : t.len = bt.length := by simpa using hR'.len
  obtain ⟨_, _, g1, -, a1, -⟩ := b1.run h ops
  obtain ⟨_, _, g2, -, a2, -⟩ := b2.run h ops'
  rw [h1] at g1; cases g1
  rw [h2] at g2; cases g2
  have e1 := b1.run_cursor h ops h1
  have e2 := b2.run_cursor h ops' h2
  rw [show (BV.iter s).start = 0 from rfl, show (BV.iter s).limit = s.len from rfl, l1] at e1
  rw [show (BV.iter t).start = 0 from rfl, show (BV.iter t).limit = t.len from rfl, l2] at e2
  obtain ⟨d1, d2⟩ := itRun_data h1
  obtain ⟨d3, d4⟩ := itRun_data h2
  have he' : T.bytes 8 it.start ++ (T.bytes 8 it.limit ++ (T.bytes (c.usz / 8) 1 ++ (hashBytes c T (s.hashCalls T) ++ r))) =
      T.bytes 8 it'.start ++ (T.bytes 8 it'.limit ++ (T.bytes (c.usz / 8) 1 ++ (hashBytes c T (t.hashCalls T) ++ r'))) := by
    rw [show s.hashCalls T = it.data.hashCalls T by rw [d1]; rfl, show t.hashCalls T = it'.data.hashCalls T by rw [d3]; rfl]
    have q1 : it.elementBits = 1 := d2
    have q2 : it'.elementBits = 1 := d4
    simpa only [VIter.hashCalls, hashBytes, HashCall.bytes, List.flatMap_cons, List.append_assoc, q1, q2] using he
  obtain ⟨f1, he⟩ := List.append_inj he' (by rw [T.length_bytes, T.length_bytes])
  obtain ⟨f2, he⟩ := List.append_inj he (by rw [T.length_bytes, T.length_bytes])
  have he := List.append_cancel_left he
  have p1 := a1.start
  have p2 := a2.start
  have p3 := a1.limit
  have p4 := a2.limit
  have p5 := a1.len_lt h
  have p6 := a2.len_lt h
  have f1 := T.bytes_inj (by omega) (by omega) f1
  have f2 := T.bytes_inj (by omega) (by omega) f2
  obtain ⟨f4, f5⟩ := (C85_bit_vector c h T hs ht).2 _ _ he
  exact ⟨f4, by rw [← e1, ← e2, f1, f2], f5⟩

/-- Iterators with the same elements left need not be equal: over `[7, 7]`, after `next` and after `next_back` one 7 is left,
but the iterator that has advanced at the back is the smaller one. -/
example : let s : IV 8 := ⟨4, ⟨2, [0x77#8]⟩⟩
    (do let a ← itRun ⟨true, .p64, true⟩ s.iter [.next]
        let b ← itRun ⟨true, .p64, true⟩ s.iter [.nextBack]
        .ok (a.1 == b.1, a.2.eq b.2, a.2.cmp b.2, a.2.cmp a.2)) = .ok (true, false, .gt, .eq) := by decide
example : hashBytes ⟨true, .p32, true⟩ .little (VIter.hashCalls .little (IV.iter (⟨4, ⟨2, [0x77#8]⟩⟩ : IV 8))) =
    [0, 0, 0, 0, 0, 0, 0, 0, 2, 0, 0, 0, 0, 0, 0, 0, 4, 0, 0, 0, 2, 0, 0, 0, 0, 0, 0, 0, 1, 0, 0, 0, 0x77] := by decide

/-! Each theorem of this file that has hypotheses is applied to concrete data in `Verif/Instances/IterCompare.lean`. -/

end Succinct
