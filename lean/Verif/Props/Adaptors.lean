import Verif.Model.Adaptors
import Verif.Props.Iter
/-!
C136: the standard adaptors `rev`, `skip`, `take` and `step_by`, in any combination, over the iterators of the crate give what
the corresponding operations on lists give. Going forward this is so without conditions. The adaptors that need the length
for going backward get it right as long as no `skip` or `nth` goes past the end; `step_by` does so when it ends, and `skip` when
it skips more than there is, and then the length panics or is wrong.
-/
namespace Succinct
open Spec

/-- Going forward is right, `nth` with arguments of `u` bits: `R s l` says that `l` is what is left at `s`. -/
structure FwdLaw (u : Nat) (O : IterOps I A) (R : I → List A → Prop) : Prop where
  next : ∀ s l, R s l → ∃ s', O.next s = .ok (l.head?, s') ∧ R s' l.tail
  nth : ∀ n s l, n < 2 ^ u → R s l → ∃ s', O.nth n s = .ok (l[n]?, s') ∧ R s' (l.drop (n + 1))

/-- Going forward and backward is right, the length is exact, and remains so unless `nth` or `nth_back` goes past the end. -/
structure ExactLaw (O : IterOps I A) (E : I → List A → Prop) : Prop where
  len : ∀ s l, E s l → O.len s = .ok l.length
  next : ∀ s l, E s l → ∃ s', O.next s = .ok (l.head?, s') ∧ E s' l.tail
  nth : ∀ n s l, n ≤ l.length → E s l → ∃ s', O.nth n s = .ok (l[n]?, s') ∧ E s' (l.drop (n + 1))
  nextBack : ∀ s l, E s l → ∃ s', O.nextBack s = .ok (l.getLast?, s') ∧ E s' l.dropLast
  nthBack : ∀ n s l, n ≤ l.length → E s l → ∃ s', O.nthBack n s = .ok (l.reverse[n]?, s') ∧ E s' (l.take (l.length - (n + 1)))

/-- `out` consists of every `k`-th element of `l`, beginning with the first. -/
def Spec.IsEvery (k : Nat) (l out : List A) : Prop := ∀ i, out[i]? = l[k * i]?

/-! ### The iterators of the crate -/

theorem dfltNthBack_ok {nextBack : I → Res (Option A × I)} {R : I → List A → Prop}
    (h : ∀ s l, R s l → ∃ s', nextBack s = .ok (l.getLast?, s') ∧ R s' l.dropLast) :
    ∀ n s l, R s l → ∃ s', dfltNthBack nextBack n s = .ok (l.reverse[n]?, s') ∧ R s' (l.take (l.length - (n + 1))) := by
  intro n
  induction n with
  | zero =>
    intro s l hr
    obtain ⟨s', h1, h2⟩ := h s l hr
    refine ⟨s', ?_, by rw [← List.dropLast_eq_take]; exact h2⟩
    rw [dfltNthBack, h1, ← List.head?_eq_getElem?, List.head?_reverse]
  | succ n ih =>
    intro s l hr
    obtain ⟨s', h1, h2⟩ := h s l hr
    rw [dfltNthBack, h1, Res.ok_bind]
    cases hl : l.getLast? with
    | none =>
      have : l = [] := List.getLast?_eq_none_iff.1 hl
      subst this
      exact ⟨s', rfl, by simpa using h2⟩
    | some a =>
      obtain ⟨l', rfl⟩ := List.getLast?_eq_some_iff.1 hl
      rw [List.dropLast_concat] at h2
      obtain ⟨s2, h3, h4⟩ := ih s' l' h2
      refine ⟨s2, ?_, ?_⟩
      · simp only
        rw [h3, List.reverse_append, List.reverse_singleton, List.singleton_append, List.getElem?_cons_succ]
      · rw [List.take_append_of_le_length (by simp)]
        simpa using h4

/-- `l` is what the iterator has left. -/
def itLeft (c : Cfg) (w : Nat) (it : VIter w) (l : List (BitVec w)) : Prop :=
  ∃ k all, ItBase c w k it all ∧ l.map BitVec.toNat = ItBase.left it all

/-- Further, its positions have not crossed and the number of elements left is a `usize`. -/
def itExact (c : Cfg) (w : Nat) (it : VIter w) (l : List (BitVec w)) : Prop :=
  itLeft c w it l ∧ it.start ≤ it.limit ∧ l.length < 2 ^ c.usz

theorem option_toNat {o : Option (BitVec w)} {o' : Option (BitVec w)} (h : o.map BitVec.toNat = o'.map BitVec.toNat) : o = o' := by
  cases o <;> cases o' <;> simp_all [BitVec.toNat_eq]

theorem itLeft_next (c : Cfg) (hb : IsBlk w) {it : VIter w} {l} (h : itLeft c w it l) :
    ∃ it', it.next c = .ok (l.head?, it') ∧ itLeft c w it' l.tail ∧ (it.start ≤ it.limit → it'.start ≤ it'.limit) := by
  obtain ⟨k, all, h1, h2⟩ := h
  obtain ⟨o, it', e1, e2, e3, e4, -, e6⟩ := h1.next_eq hb
  rw [← h2, List.head?_map] at e2
  exact ⟨it', by rw [e1, option_toNat e2], ⟨k, all, e3, by rw [e4, ← h2, List.map_tail]⟩, e6⟩

theorem itLeft_nth (c : Cfg) (hb : IsBlk w) {it : VIter w} {l} (h : itLeft c w it l) (n : Nat) :
    ∃ it', it.nth c n = .ok (l[n]?, it') ∧ itLeft c w it' (l.drop (n + 1)) ∧
      (n ≤ l.length → it.start ≤ it.limit → it'.start ≤ it'.limit) := by
  obtain ⟨k, all, h1, h2⟩ := h
  obtain ⟨o, it', e1, e2, e3, e4, -, e6⟩ := h1.nth_eq hb n
  rw [← h2, List.getElem?_map] at e2
  exact ⟨it', by rw [e1, option_toNat e2], ⟨k, all, e3, by rw [e4, ← h2, List.map_drop]⟩,
    fun hn => e6 (by rw [← h2, List.length_map]; exact hn)⟩

theorem itLeft_nextBack (c : Cfg) (hb : IsBlk w) {it : VIter w} {l} (h : itLeft c w it l) :
    ∃ it', it.nextBack c = .ok (l.getLast?, it') ∧ itLeft c w it' l.dropLast ∧ (it.start ≤ it.limit → it'.start ≤ it'.limit) := by
  obtain ⟨k, all, h1, h2⟩ := h
  obtain ⟨o, it', e1, e2, e3, e4, -, e6⟩ := h1.nextBack_eq hb
  rw [← h2, List.getLast?_map] at e2
  exact ⟨it', by rw [e1, option_toNat e2], ⟨k, all, e3, by rw [e4, ← h2, List.map_dropLast]⟩, e6⟩

/-- The iterator of an `IntVector` is right in both directions. -/
theorem C136_iter_forward (c : Cfg) (hb : IsBlk w) :
    FwdLaw c.usz (viterOps c w) (itLeft c w) ∧ FwdLaw c.usz (revOps (viterOps c w)) (fun s l => itLeft c w s l.reverse) := by
  refine ⟨⟨fun s l h => ?_, fun n s l _ h => ?_⟩, ⟨fun s l h => ?_, fun n s l _ h => ?_⟩⟩
  · obtain ⟨it', h1, h2, -⟩ := itLeft_next c hb h
    exact ⟨it', h1, h2⟩
  · obtain ⟨it', h1, h2, -⟩ := itLeft_nth c hb h n
    exact ⟨it', h1, h2⟩
  · obtain ⟨it', h1, h2, -⟩ := itLeft_nextBack c hb h
    refine ⟨it', ?_, ?_⟩
    · rw [List.getLast?_reverse] at h1; exact h1
    · rw [List.dropLast_reverse] at h2; exact h2
  · obtain ⟨it', h1, h2⟩ := dfltNthBack_ok (nextBack := VIter.nextBack c) (R := itLeft c w)
      (fun s l h => by obtain ⟨it', h1, h2, -⟩ := itLeft_nextBack c hb h; exact ⟨it', h1, h2⟩) n s l.reverse h
    refine ⟨it', ?_, ?_⟩
    · rw [List.reverse_reverse] at h1; exact h1
    · rw [List.length_reverse, List.take_reverse] at h2
      rw [show l.length - (l.length - (n + 1)) = min l.length (n + 1) by omega] at h2
      rcases Nat.le_total l.length (n + 1) with h' | h'
      · rw [Nat.min_eq_left h'] at h2
        rw [List.drop_of_length_le h', ← List.drop_of_length_le (Nat.le_refl l.length)]; exact h2
      · rw [Nat.min_eq_right h'] at h2; exact h2

/-- The iterator of an `IntVector` has an exact length. -/
theorem C136_iter_exact (c : Cfg) (hb : IsBlk w) : ExactLaw (viterOps c w) (itExact c w) := by
  refine ⟨fun s l h => ?_, fun s l h => ?_, fun n s l hn h => ?_, fun s l h => ?_, fun n s l _ h => ?_⟩
  · obtain ⟨⟨k, all, h1, h2⟩, h3, h4⟩ := h
    have e : l.length = (ItBase.left s all).length := by rw [← h2, List.length_map]
    rw [e] at h4 ⊢
    exact h1.len_ok h3 h4
  · obtain ⟨it', h1, h2, h3⟩ := itLeft_next c hb h.1
    exact ⟨it', h1, h2, h3 h.2.1, by rw [List.length_tail]; have := h.2.2; omega⟩
  · obtain ⟨it', h1, h2, h3⟩ := itLeft_nth c hb h.1 n
    exact ⟨it', h1, h2, h3 hn h.2.1, by rw [List.length_drop]; have := h.2.2; omega⟩
  · obtain ⟨it', h1, h2, h3⟩ := itLeft_nextBack c hb h.1
    exact ⟨it', h1, h2, h3 h.2.1, by rw [List.length_dropLast]; have := h.2.2; omega⟩
  · refine dfltNthBack_ok (nextBack := VIter.nextBack c) (R := itExact c w) (fun s l h => ?_) n s l h
    obtain ⟨it', h1, h2, h3⟩ := itLeft_nextBack c hb h.1
    exact ⟨it', h1, h2, h3 h.2.1, by rw [List.length_dropLast]; have := h.2.2; omega⟩

/-- With the items converted, as `bit_vector::Iter` does. -/
theorem fwd_map {O : IterOps I A} {P : IterOps I B} {R : I → List A → Prop} (f : A → B) (h : FwdLaw u O R)
    (h1 : ∀ s, P.next s = (do let p ← O.next s; .ok (p.1.map f, p.2)))
    (h2 : ∀ n s, P.nth n s = (do let p ← O.nth n s; .ok (p.1.map f, p.2))) :
    FwdLaw u P (fun s l => ∃ l0, R s l0 ∧ l = l0.map f) := by
  refine ⟨fun s l => ?_, fun n s l hn => ?_⟩
  · rintro ⟨l0, hr, rfl⟩
    obtain ⟨s', e1, e2⟩ := h.next s l0 hr
    exact ⟨s', by rw [h1, e1, Res.ok_bind, List.head?_map], _, e2, by rw [List.map_tail]⟩
  · rintro ⟨l0, hr, rfl⟩
    obtain ⟨s', e1, e2⟩ := h.nth n s l0 hn hr
    exact ⟨s', by rw [h2, e1, Res.ok_bind, List.getElem?_map], _, e2, by rw [List.map_drop]⟩

theorem dfltNthBack_map {nextBack : I → Res (Option A × I)} (f : A → B) (n : Nat) (s : I) :
    dfltNthBack (fun s => do let p ← nextBack s; .ok (p.1.map f, p.2)) n s =
      (do let p ← dfltNthBack nextBack n s; .ok (p.1.map f, p.2)) := by
  induction n generalizing s with
  | zero => rfl
  | succ n ih =>
    simp only [dfltNthBack]
    cases nextBack s with
    | panic => rfl
    | diverge => rfl
    | ok p =>
      obtain ⟨o, s'⟩ := p
      cases o with
      | none => rfl
      | some a => exact ih s'

/-- The same for the iterator of a `BitVector`. -/
theorem C136_bit_iter (c : Cfg) (hb : IsBlk w) :
    FwdLaw c.usz (bitIterOps c w) (fun s l => ∃ l0, itLeft c w s l0 ∧ l = l0.map bitItem) ∧
    FwdLaw c.usz (revOps (bitIterOps c w)) (fun s l => ∃ l0 : List (BitVec w), itLeft c w s l0.reverse ∧ l = l0.map bitItem) ∧
    ExactLaw (bitIterOps c w) (fun s l => ∃ l0, itExact c w s l0 ∧ l = l0.map bitItem) := by
  have hn : ∀ n s, (bitIterOps c w).nthBack n s = (do let p ← (viterOps c w).nthBack n s; .ok (p.1.map bitItem, p.2)) :=
    fun n s => dfltNthBack_map bitItem n s
  obtain ⟨f1, f2⟩ := C136_iter_forward c hb
  have f3 := C136_iter_exact c hb
  refine ⟨fwd_map bitItem f1 (fun s => rfl) (fun n s => rfl), fwd_map bitItem f2 (fun s => rfl) hn,
    ⟨fun s l => ?_, fun s l => ?_, fun n s l => ?_, fun s l => ?_, fun n s l => ?_⟩⟩
  · rintro ⟨l0, hr, rfl⟩
    rw [List.length_map]
    exact f3.len s l0 hr
  · rintro ⟨l0, hr, rfl⟩
    obtain ⟨s', e1, e2⟩ := f3.next s l0 hr
    refine ⟨s', ?_, _, e2, by rw [List.map_tail]⟩
    show (do let p ← (viterOps c w).next s; Res.ok (p.1.map bitItem, p.2)) = _
    rw [e1, Res.ok_bind, List.head?_map]
  · rintro hl ⟨l0, hr, rfl⟩
    rw [List.length_map] at hl
    obtain ⟨s', e1, e2⟩ := f3.nth n s l0 hl hr
    refine ⟨s', ?_, _, e2, by rw [List.map_drop]⟩
    show (do let p ← (viterOps c w).nth n s; Res.ok (p.1.map bitItem, p.2)) = _
    rw [e1, Res.ok_bind, List.getElem?_map]
  · rintro ⟨l0, hr, rfl⟩
    obtain ⟨s', e1, e2⟩ := f3.nextBack s l0 hr
    refine ⟨s', ?_, _, e2, by rw [List.map_dropLast]⟩
    show (do let p ← (viterOps c w).nextBack s; Res.ok (p.1.map bitItem, p.2)) = _
    rw [e1, Res.ok_bind, List.getLast?_map]
  · rintro hl ⟨l0, hr, rfl⟩
    rw [List.length_map] at hl
    obtain ⟨s', e1, e2⟩ := f3.nthBack n s l0 hl hr
    exact ⟨s', by rw [hn, e1, Res.ok_bind, ← List.map_reverse, List.getElem?_map], _, e2, by rw [List.length_map, List.map_take]⟩

/-- The iterators start with all elements. -/
theorem C136_start (c : Cfg) (hb : IsBlk w) {s : IV w} (hr : IvReach c w k s xs) :
    itLeft c w s.iter (xs.map (BitVec.ofNat w)) ∧ (xs.length < 2 ^ c.usz → itExact c w s.iter (xs.map (BitVec.ofNat w))) := by
  obtain ⟨h1, h2, h3⟩ := iv_iter_base (hr.rep hb)
  have : itLeft c w s.iter (xs.map (BitVec.ofNat w)) := by
    refine ⟨k, xs, h1, ?_⟩
    rw [h2, List.map_map]
    conv => rhs; rw [← List.map_id xs]
    refine List.map_congr_left fun x hx => ?_
    have h4 := h1.lt x hx
    have h5 := Nat.pow_le_pow_right (n := 2) (by omega) h1.le
    simp only [Function.comp, BitVec.toNat_ofNat, id]
    exact Nat.mod_eq_of_lt (by omega)
  exact ⟨this, fun hu => ⟨this, h3, by rw [List.length_map]; exact hu⟩⟩

theorem C136_start_bits (c : Cfg) (hb : IsBlk w) {s : VB w} (hr : BvReach c w s bits) :
    ∃ l0, itLeft c w (BV.iter s) l0 ∧ bits = l0.map bitItem ∧ (bits.length < 2 ^ c.usz → itExact c w (BV.iter s) l0) := by
  obtain ⟨h1, h2, h3⟩ := bv_iter_base hb (hr.rep hb)
  have hw : 1 < 2 ^ w := Nat.one_lt_two_pow (by have := hb.pos; omega)
  have : itLeft c w (BV.iter s) (bits.map fun b => BitVec.ofNat w b.toNat) := by
    refine ⟨1, _, h1, ?_⟩
    rw [h2, List.map_map]
    refine List.map_congr_left fun b _ => ?_
    simp only [Function.comp, BitVec.toNat_ofNat]
    exact Nat.mod_eq_of_lt (by cases b <;> simp only [Bool.toNat_false, Bool.toNat_true] <;> omega)
  refine ⟨_, this, ?_, fun hu => ⟨this, h3, by rw [List.length_map]; exact hu⟩⟩
  rw [List.map_map]
  conv => lhs; rw [← List.map_id bits]
  refine List.map_congr_left fun b _ => ?_
  simp only [Function.comp, id]
  rw [bitItem_eq, BitVec.toNat_ofNat]
  cases b
  · simp
  · rw [show true.toNat = 1 from rfl, Nat.mod_eq_of_lt hw]; rfl

/-! ### The adaptors -/

/-- `skip(n)` going forward, however large `n` is. -/
theorem C136_skip_forward (c : Cfg) {O : IterOps I A} {R : I → List A → Prop} (h : FwdLaw c.usz O R) :
    FwdLaw c.usz (skipOps c O) (fun s l => s.1 < 2 ^ c.usz ∧ ∃ l0, R s.2 l0 ∧ l = l0.drop s.1) := by
  refine ⟨fun s l => ?_, fun m s l hm => ?_⟩
  · rintro ⟨hu, l0, hr, rfl⟩
    obtain ⟨n, it⟩ := s
    simp only at hu
    simp only [skipOps]
    split
    · obtain ⟨s', e1, e2⟩ := h.nth n it l0 (by omega) hr
      exact ⟨(0, s'), by simp only [e1, Res.ok_bind, List.head?_drop], Nat.two_pow_pos _, _, e2, by simp⟩
    · next hn =>
      have : n = 0 := Nat.eq_zero_of_not_pos hn
      subst this
      obtain ⟨s', e1, e2⟩ := h.next it l0 hr
      exact ⟨(0, s'), by simp only [e1, Res.ok_bind, List.drop_zero], Nat.two_pow_pos _, _, e2, by simp⟩
  · rintro ⟨hu, l0, hr, rfl⟩
    obtain ⟨n, it⟩ := s
    simp only at hu
    simp only [skipOps]
    split
    · next hn =>
      unfold checkedAdd
      split
      · next e =>
        split at e
        · cases e
          obtain ⟨s', e1, e2⟩ := h.nth (n + m) it l0 (by omega) hr
          exact ⟨(0, s'), by simp only [e1, Res.ok_bind, List.getElem?_drop], Nat.two_pow_pos _, _, e2, by simp [Nat.add_assoc]⟩
        · cases e
      · obtain ⟨s', e1, e2⟩ := h.nth (n - 1) it l0 (by omega) hr
        rw [e1, Res.ok_bind]
        cases ho : l0[n - 1]? with
        | none =>
          have hl := List.getElem?_eq_none_iff.1 ho
          refine ⟨(0, s'), ?_, Nat.two_pow_pos _, _, e2, ?_⟩
          · simp only
            rw [List.drop_of_length_le (by omega)]; rfl
          · rw [List.drop_of_length_le (l := l0) (by omega), List.drop_of_length_le (l := l0) (by omega)]; simp
        | some a =>
          obtain ⟨s2, e3, e4⟩ := h.nth m s' _ (by omega) e2
          refine ⟨(0, s2), ?_, Nat.two_pow_pos _, _, e4, ?_⟩
          · simp only [e3, Res.ok_bind]
            rw [show n - 1 + 1 = n by omega]
          · rw [show n - 1 + 1 = n by omega]; simp
    · next hn =>
      have : n = 0 := Nat.eq_zero_of_not_pos hn
      subst this
      obtain ⟨s', e1, e2⟩ := h.nth m it l0 (by omega) hr
      exact ⟨(0, s'), by simp only [e1, Res.ok_bind, List.drop_zero], Nat.two_pow_pos _, _, e2, by simp⟩

/-- `take(n)` going forward. -/
theorem C136_take_forward {O : IterOps I A} {R : I → List A → Prop} (h : FwdLaw u O R) :
    FwdLaw u (takeOps O) (fun s l => s.1 < 2 ^ u ∧ ∃ l0, R s.2 l0 ∧ l = l0.take s.1) := by
  refine ⟨fun s l => ?_, fun m s l hm => ?_⟩
  · rintro ⟨hu, l0, hr, rfl⟩
    obtain ⟨n, it⟩ := s
    simp only at hu
    simp only [takeOps]
    split
    · next hn =>
      obtain ⟨s', e1, e2⟩ := h.next it l0 hr
      refine ⟨(n - 1, s'), ?_, (by omega), _, e2, ?_⟩
      · simp only [e1, Res.ok_bind, List.head?_take, if_neg hn]
      · cases l0 with
        | nil => simp
        | cons a l0 => obtain ⟨n, rfl⟩ := Nat.exists_eq_succ_of_ne_zero hn; simp
    · next hn =>
      have : n = 0 := by omega
      subst this
      exact ⟨(0, it), by simp, hu, l0, hr, by simp⟩
  · rintro ⟨hu, l0, hr, rfl⟩
    obtain ⟨n, it⟩ := s
    simp only at hu
    simp only [takeOps]
    split
    · next hn =>
      obtain ⟨s', e1, e2⟩ := h.nth m it l0 (by omega) hr
      refine ⟨(n - (m + 1), s'), ?_, (by omega), _, e2, ?_⟩
      · simp only [e1, Res.ok_bind, List.getElem?_take, if_pos hn]
      · rw [List.drop_take]
    · next hn =>
      split
      · next hn2 =>
        obtain ⟨s', e1, e2⟩ := h.nth (n - 1) it l0 (by omega) hr
        refine ⟨(0, s'), ?_, (by omega), _, e2, ?_⟩
        · simp only [e1, Res.ok_bind, List.getElem?_take, if_neg hn]
        · rw [List.drop_of_length_le (by rw [List.length_take]; omega)]; simp
      · next hn2 =>
        have : n = 0 := by omega
        subst this
        exact ⟨(0, it), by simp, hu, l0, hr, by simp⟩

/-- `rev`. -/
theorem C136_rev {O : IterOps I A} {E : I → List A → Prop} (h : ExactLaw O E) :
    ExactLaw (revOps O) (fun s l => E s l.reverse) := by
  refine ⟨fun s l hr => ?_, fun s l hr => ?_, fun n s l hn hr => ?_, fun s l hr => ?_, fun n s l hn hr => ?_⟩
  · have := h.len s _ hr
    rwa [List.length_reverse] at this
  · obtain ⟨s', h1, h2⟩ := h.nextBack s _ hr
    rw [List.getLast?_reverse] at h1
    rw [List.dropLast_reverse] at h2
    exact ⟨s', h1, h2⟩
  · obtain ⟨s', h1, h2⟩ := h.nthBack n s _ (by rw [List.length_reverse]; exact hn) hr
    rw [List.reverse_reverse] at h1
    rw [List.length_reverse, List.take_reverse] at h2
    refine ⟨s', h1, ?_⟩
    rcases Nat.le_total l.length (n + 1) with h' | h'
    · rw [show l.length - (l.length - (n + 1)) = l.length by omega] at h2
      rw [List.drop_of_length_le h', ← List.drop_of_length_le (Nat.le_refl l.length)]; exact h2
    · rw [show l.length - (l.length - (n + 1)) = n + 1 by omega] at h2; exact h2
  · obtain ⟨s', h1, h2⟩ := h.next s _ hr
    rw [List.head?_reverse] at h1
    rw [List.tail_reverse] at h2
    exact ⟨s', h1, h2⟩
  · obtain ⟨s', h1, h2⟩ := h.nth n s _ (by rw [List.length_reverse]; exact hn) hr
    refine ⟨s', h1, ?_⟩
    rw [List.drop_reverse] at h2
    exact h2

/-- `skip(n)` in both directions and with its length, if there are `n` elements to skip. -/
theorem C136_skip (c : Cfg) {O : IterOps I A} {E : I → List A → Prop} (h : ExactLaw O E) :
    ExactLaw (skipOps c O) (fun s l => ∃ l0, E s.2 l0 ∧ s.1 ≤ l0.length ∧ l = l0.drop s.1) := by
  have hlen : ∀ s l, (∃ l0, E s.2 l0 ∧ s.1 ≤ l0.length ∧ l = l0.drop s.1) → (skipOps c O).len s = .ok l.length := by
    rintro ⟨n, it⟩ l ⟨l0, hr, hn, rfl⟩
    simp only [skipOps, h.len it l0 hr, Res.ok_bind, List.length_drop]
  refine ⟨hlen, fun s l => ?_, fun m s l hm => ?_, fun s l hs => ?_, fun m s l hm hs => ?_⟩
  · rintro ⟨l0, hr, hn, rfl⟩
    obtain ⟨n, it⟩ := s
    simp only [skipOps] at hn ⊢
    split
    · obtain ⟨s', e1, e2⟩ := h.nth n it l0 hn hr
      exact ⟨(0, s'), by simp only [e1, Res.ok_bind, List.head?_drop], _, e2, by simp, by simp⟩
    · next hn =>
      have : n = 0 := Nat.eq_zero_of_not_pos hn
      subst this
      obtain ⟨s', e1, e2⟩ := h.next it l0 hr
      exact ⟨(0, s'), by simp only [e1, Res.ok_bind, List.drop_zero], _, e2, by simp, by simp⟩
  · rintro ⟨l0, hr, hn, rfl⟩
    obtain ⟨n, it⟩ := s
    rw [List.length_drop] at hm
    simp only [skipOps] at hn hm ⊢
    split
    · next hn0 =>
      unfold checkedAdd
      split
      · next e =>
        split at e
        · cases e
          obtain ⟨s', e1, e2⟩ := h.nth (n + m) it l0 (by omega) hr
          exact ⟨(0, s'), by simp only [e1, Res.ok_bind, List.getElem?_drop], _, e2, by simp, by simp [Nat.add_assoc]⟩
        · cases e
      · obtain ⟨s', e1, e2⟩ := h.nth (n - 1) it l0 (by omega) hr
        rw [e1, Res.ok_bind]
        cases ho : l0[n - 1]? with
        | none =>
          have hl := List.getElem?_eq_none_iff.1 ho
          omega
        | some a =>
          rw [show n - 1 + 1 = n by omega] at e2
          obtain ⟨s2, e3, e4⟩ := h.nth m s' _ (by rw [List.length_drop]; omega) e2
          exact ⟨(0, s2), by simp only [e3, Res.ok_bind], _, e4, by simp, by simp⟩
    · next hn =>
      have : n = 0 := Nat.eq_zero_of_not_pos hn
      subst this
      obtain ⟨s', e1, e2⟩ := h.nth m it l0 (by omega) hr
      exact ⟨(0, s'), by simp only [e1, Res.ok_bind, List.drop_zero], _, e2, by simp, by simp⟩
  · have hl := hlen s l hs
    obtain ⟨l0, hr, hn, rfl⟩ := hs
    obtain ⟨n, it⟩ := s
    show ∃ s', (do
      let l ← (skipOps c O).len (n, it)
      if l > 0 then do
        let (o, it) ← O.nextBack it
        Res.ok (o, n, it)
      else .ok (none, n, it)) = _ ∧ _
    rw [hl, Res.ok_bind]
    simp only at hn ⊢
    rw [List.length_drop]
    by_cases h0 : l0.length - n > 0
    · rw [if_pos h0]
      obtain ⟨s', e1, e2⟩ := h.nextBack it l0 hr
      refine ⟨(n, s'), ?_, _, e2, ?_, ?_⟩
      · simp only [e1, Res.ok_bind, List.getLast?_drop, if_neg (show ¬ l0.length ≤ n by omega)]
      · simp only [List.length_dropLast]; omega
      · rw [List.dropLast_eq_take, List.dropLast_eq_take, List.length_drop, List.drop_take]
        congr 1; omega
    · rw [if_neg h0]
      have : l0.drop n = [] := List.drop_of_length_le (by omega)
      exact ⟨(n, it), by rw [this]; rfl, l0, hr, hn, by rw [this]; rfl⟩
  · have hl := hlen s l hs
    obtain ⟨l0, hr, hn, rfl⟩ := hs
    obtain ⟨n, it⟩ := s
    show ∃ s', (do
      let l ← (skipOps c O).len (n, it)
      if m < l then do
        let (o, it) ← O.nthBack m it
        Res.ok (o, n, it)
      else if l > 0 then do
        let (_, it) ← O.nthBack (l - 1) it
        .ok (none, n, it)
      else .ok (none, n, it)) = _ ∧ _
    rw [hl, Res.ok_bind]
    simp only at hn ⊢
    rw [List.length_drop] at hm ⊢
    simp only at hm
    split
    · next hml =>
      obtain ⟨s', e1, e2⟩ := h.nthBack m it l0 (by omega) hr
      refine ⟨(n, s'), ?_, _, e2, ?_, ?_⟩
      · simp only [e1, Res.ok_bind, List.reverse_drop, List.getElem?_take]
        rw [if_pos (by omega)]
      · simp only [List.length_take]; omega
      · rw [List.drop_take]; congr 1; omega
    · next hml =>
      have hnone : ((l0.drop n).reverse)[m]? = none := by
        rw [List.getElem?_eq_none_iff, List.length_reverse, List.length_drop]; omega
      rw [hnone]
      split
      · obtain ⟨s', e1, e2⟩ := h.nthBack (l0.length - n - 1) it l0 (by omega) hr
        refine ⟨(n, s'), by rw [e1, Res.ok_bind], _, e2, ?_, ?_⟩
        · simp only [List.length_take]; omega
        · simp only
          rw [List.drop_of_length_le (l := l0.take _) (by rw [List.length_take]; omega), show l0.length - n - (m + 1) = 0 by omega]
          rfl
      · exact ⟨(n, it), rfl, l0, hr, hn, by rw [show l0.length - n - (m + 1) = 0 by omega, List.drop_of_length_le (by omega)]; rfl⟩

/-- `take(n)` in both directions and with its length. -/
theorem C136_take {O : IterOps I A} {E : I → List A → Prop} (h : ExactLaw O E) :
    ExactLaw (takeOps O) (fun s l => ∃ l0, E s.2 l0 ∧ l = l0.take s.1) := by
  refine ⟨?_, fun s l => ?_, fun m s l hm => ?_, fun s l => ?_, fun m s l hm => ?_⟩
  · rintro ⟨n, it⟩ l ⟨l0, hr, rfl⟩
    simp only [takeOps, h.len it l0 hr, Res.ok_bind, List.length_take]
    split
    · next hn => rw [hn]; simp
    · rw [Nat.min_comm]
  · rintro ⟨l0, hr, rfl⟩
    obtain ⟨n, it⟩ := s
    simp only [takeOps]
    split
    · next hn =>
      obtain ⟨s', e1, e2⟩ := h.next it l0 hr
      refine ⟨(n - 1, s'), ?_, _, e2, ?_⟩
      · simp only [e1, Res.ok_bind, List.head?_take, if_neg hn]
      · cases l0 with
        | nil => simp
        | cons a l0 => obtain ⟨n, rfl⟩ := Nat.exists_eq_succ_of_ne_zero hn; simp
    · next hn =>
      have : n = 0 := by omega
      subst this
      exact ⟨(0, it), by simp, l0, hr, by simp⟩
  · rintro ⟨l0, hr, rfl⟩
    obtain ⟨n, it⟩ := s
    rw [List.length_take] at hm
    simp only [takeOps] at hm ⊢
    split
    · next hn =>
      obtain ⟨s', e1, e2⟩ := h.nth m it l0 (by omega) hr
      refine ⟨(n - (m + 1), s'), ?_, _, e2, ?_⟩
      · simp only [e1, Res.ok_bind, List.getElem?_take, if_pos hn]
      · rw [List.drop_take]
    · next hn =>
      split
      · next hn2 =>
        obtain ⟨s', e1, e2⟩ := h.nth (n - 1) it l0 (by omega) hr
        refine ⟨(0, s'), ?_, _, e2, ?_⟩
        · simp only [e1, Res.ok_bind, List.getElem?_take, if_neg hn]
        · rw [List.drop_of_length_le (by rw [List.length_take]; omega)]; simp
      · next hn2 =>
        have : n = 0 := by omega
        subst this
        exact ⟨(0, it), by simp, l0, hr, by simp⟩
  · rintro ⟨l0, hr, rfl⟩
    obtain ⟨n, it⟩ := s
    simp only [takeOps]
    split
    · next hn =>
      subst hn
      exact ⟨(0, it), by simp, l0, hr, by simp⟩
    · next hn =>
      rw [h.len it l0 hr, Res.ok_bind]
      obtain ⟨s', e1, e2⟩ := h.nthBack (l0.length - n) it l0 (by omega) hr
      refine ⟨(n - 1, s'), ?_, _, e2, ?_⟩
      · simp only [e1, Res.ok_bind]
        rw [← List.head?_reverse, List.reverse_take, List.head?_drop]
      · simp only [List.take_take, List.dropLast_eq_take, List.length_take]
        congr 1; omega
  · rintro ⟨l0, hr, rfl⟩
    obtain ⟨n, it⟩ := s
    rw [List.length_take] at hm
    simp only [takeOps] at hm ⊢
    rw [h.len it l0 hr, Res.ok_bind]
    split
    · next hn =>
      obtain ⟨s', e1, e2⟩ := h.nthBack (l0.length - n + m) it l0 (by omega) hr
      refine ⟨(n - (m + 1), s'), ?_, _, e2, ?_⟩
      · simp only [e1, Res.ok_bind]
        rw [List.reverse_take, List.getElem?_drop]
      · simp only [List.take_take, List.length_take]
        congr 1; omega
    · next hn =>
      have hnone : ((l0.take n).reverse)[m]? = none := by
        rw [List.getElem?_eq_none_iff, List.length_reverse, List.length_take]; omega
      rw [hnone]
      have hz : (l0.take n).length - (m + 1) = 0 := by rw [List.length_take]; omega
      rw [hz]
      split
      · next h0 =>
        obtain ⟨s', e1, e2⟩ := h.nthBack (l0.length - 1) it l0 (by omega) hr
        exact ⟨(n, s'), by rw [e1, Res.ok_bind], _, e2, by simp only [show l0.length - (l0.length - 1 + 1) = 0 by omega]; simp⟩
      · next h0 =>
        have : l0 = [] := List.eq_nil_of_length_eq_zero (by omega)
        exact ⟨(n, it), rfl, l0, hr, by rw [this]; simp⟩

/-! ### Collecting -/

theorem collectWith_ok {next : I → Res (Option A × I)} {R : I → List A → Prop}
    (h : ∀ s l, R s l → ∃ s', next s = .ok (l.head?, s') ∧ R s' l.tail) :
    ∀ l s acc, R s l → ∃ s', collectWith next s acc = .ok (acc ++ l, s') ∧ R s' [] := by
  intro l
  induction l with
  | nil =>
    intro s acc hr
    obtain ⟨s', h1, h2⟩ := h s [] hr
    exact ⟨s', by rw [collectWith, h1, Res.ok_bind, List.append_nil]; rfl, h2⟩
  | cons a l ih =>
    intro s acc hr
    obtain ⟨s', h1, h2⟩ := h s _ hr
    obtain ⟨s2, h3, h4⟩ := ih s' (acc ++ [a]) h2
    refine ⟨s2, ?_, h4⟩
    rw [collectWith, h1, Res.ok_bind]
    simp only [List.head?_cons]
    rw [h3, List.append_assoc, List.singleton_append]

/-- Collecting gives what is left. -/
theorem C136_collect {O : IterOps I A} {R : I → List A → Prop} (h : FwdLaw u O R) {s : I} {l : List A} (hr : R s l) :
    ∃ s', collectWith O.next s [] = .ok (l, s') :=
  let ⟨s', h1, _⟩ := collectWith_ok h.next l s [] hr
  ⟨s', h1⟩

theorem C136_collect_exact {O : IterOps I A} {E : I → List A → Prop} (h : ExactLaw O E) {s : I} {l : List A} (hr : E s l) :
    ∃ s', collectWith O.next s [] = .ok (l, s') ∧ O.len s' = .ok 0 :=
  let ⟨s', h1, h2⟩ := collectWith_ok h.next l s [] hr
  ⟨s', h1, h.len s' _ h2⟩

/-! ### `step_by` -/

/-- What `step_by` has left: every `k`-th element of what the iterator has left, after the elements to be passed over. -/
def stepLeft (R : I → List A → Prop) (k : Nat) (s : StepSt I) (out : List A) : Prop :=
  s.stepMinusOne + 1 = k ∧ ∃ l, R s.it l ∧ IsEvery k (if s.firstTake then l else l.drop (k - 1)) out

theorem stepNext_ok {O : IterOps I A} {R : I → List A → Prop} (h : FwdLaw u O R) {k : Nat} (hu : k ≤ 2 ^ u) (s : StepSt I) (out : List A)
    (hs : stepLeft R k s out) : ∃ s', stepNext O s = .ok (out.head?, s') ∧ stepLeft R k s' out.tail := by
  obtain ⟨hk, l, hr, he⟩ := hs
  obtain ⟨sm, ft, it⟩ := s
  simp only at hk hr he
  cases ft with
  | true =>
    rw [if_pos rfl] at he
    obtain ⟨s', e1, e2⟩ := h.nth 0 it l (Nat.two_pow_pos _) hr
    refine ⟨⟨sm, false, s'⟩, ?_, hk, _, e2, ?_⟩
    · simp only [stepNext, if_true, e1, Res.ok_bind]
      rw [List.head?_eq_getElem?, he 0]; rfl
    · intro i
      rw [List.getElem?_tail, he (i + 1)]
      simp only [Bool.false_eq_true, if_false, List.drop_drop, List.getElem?_drop]
      congr 1
      rw [Nat.mul_succ]; omega
  | false =>
    rw [if_neg Bool.false_ne_true] at he
    obtain ⟨s', e1, e2⟩ := h.nth sm it l (by omega) hr
    refine ⟨⟨sm, false, s'⟩, ?_, hk, _, e2, ?_⟩
    · simp only [stepNext, Bool.false_eq_true, if_false, e1, Res.ok_bind]
      rw [List.head?_eq_getElem?, he 0, List.getElem?_drop, show k - 1 + k * 0 = sm by simp; omega]
    · intro i
      rw [List.getElem?_tail, he (i + 1)]
      simp only [Bool.false_eq_true, if_false, List.drop_drop, List.getElem?_drop]
      congr 1
      rw [Nat.mul_succ]; omega

/-- `step_by(k)` gives every `k`-th element. -/
theorem C136_step_by {O : IterOps I A} {R : I → List A → Prop} (h : FwdLaw u O R) {k : Nat} (hk : 1 ≤ k) (hu : k < 2 ^ u) {s : I} {l : List A}
    (hr : R s l) : ∃ out s', collectWith (stepNext O) ⟨k - 1, true, s⟩ [] = .ok (out, s') ∧ IsEvery k l out := by
  have hex : ∀ n (l : List A), l.length ≤ n → ∃ out, IsEvery k l out := by
    intro n
    induction n with
    | zero =>
      intro l hl
      obtain rfl : l = [] := List.eq_nil_of_length_eq_zero (by omega)
      exact ⟨[], fun i => rfl⟩
    | succ n ih =>
      intro l hl
      cases l with
      | nil => exact ⟨[], fun i => rfl⟩
      | cons a l =>
        obtain ⟨out, ho⟩ := ih ((a :: l).drop k) (by rw [List.length_drop]; simp at hl ⊢; omega)
        refine ⟨a :: out, fun i => ?_⟩
        cases i with
        | zero => rfl
        | succ i => rw [List.getElem?_cons_succ, ho i, List.getElem?_drop, Nat.mul_succ, Nat.add_comm k]
  obtain ⟨out, ho⟩ := hex _ l (Nat.le_refl _)
  obtain ⟨s', h1, -⟩ := collectWith_ok (R := stepLeft R k) (fun s l hs => stepNext_ok h (by omega) s l hs) out ⟨k - 1, true, s⟩ []
    ⟨by show k - 1 + 1 = k; omega, l, hr, ho⟩
  exact ⟨out, s', h1, ho⟩

theorem stepNthLoop_ok (c : Cfg) {O : IterOps I A} {R : I → List A → Prop} (h : FwdLaw c.usz O R) (m : Nat) :
    ∀ n step (it : I) (l : List A), n + step ≤ m → 1 ≤ n → 1 ≤ step → step < 2 ^ c.usz → R it l →
      ∃ it', stepNthLoop c O n step it = .ok (l[n * step - 1]?, it') ∧ R it' (l.drop (n * step)) := by
  induction m with
  | zero => intros; omega
  | succ m ih =>
    intro n step it l hm hn hs hu hr
    have hpos : 1 ≤ n * step := Nat.mul_pos hn hs
    rw [stepNthLoop]
    unfold checkedMul
    by_cases hfit : n * step < 2 ^ c.usz
    · rw [if_pos hfit]
      obtain ⟨s', e1, e2⟩ := h.nth (n * step - 1) it l (by omega) hr
      rw [show n * step - 1 + 1 = n * step by omega] at e2
      exact ⟨s', e1, e2⟩
    · rw [if_neg hfit]
      simp only
      -- a part of the way, of `x` elements
      have part : ∀ x n' step', 1 ≤ x → x < 2 ^ c.usz → x + n' * step' = n * step → n' + step' ≤ m → 1 ≤ n' → 1 ≤ step' → step' < 2 ^ c.usz →
          ∃ it', (do let p ← O.nth (x - 1) it; stepNthLoop c O n' step' p.2) = .ok (l[n * step - 1]?, it') ∧
            R it' (l.drop (n * step)) := by
        intro x n' step' hx hxu hxe hm' hn' hs' hu'
        obtain ⟨s', e1, e2⟩ := h.nth (x - 1) it l (by omega) hr
        rw [show x - 1 + 1 = x by omega] at e2
        obtain ⟨s2, e3, e4⟩ := ih n' step' s' _ hm' hn' hs' hu' e2
        have : 1 ≤ n' * step' := Nat.mul_pos hn' hs'
        rw [List.getElem?_drop, show x + (n' * step' - 1) = n * step - 1 by omega] at e3
        rw [List.drop_drop, hxe] at e4
        exact ⟨s2, by rw [e1, Res.ok_bind]; exact e3, e4⟩
      have d1 := Nat.div_mul_le_self (2 ^ c.usz - 1) n
      have d2 := Nat.div_mul_le_self (2 ^ c.usz - 1) step
      generalize ha : (2 ^ c.usz - 1) / n = a at *
      generalize hb : (2 ^ c.usz - 1) / step = b at *
      have hb1 : 1 ≤ b := by rw [← hb]; exact Nat.div_pos (by omega) hs
      have hbs : 1 ≤ b * step := Nat.mul_pos hb1 hs
      split
      · next hgt =>
        have hlt : a < step := Nat.lt_of_mul_lt_mul_left (a := n) (by rw [Nat.mul_comm n a]; omega)
        have ha1 : 1 ≤ a := by
          rcases Nat.eq_zero_or_pos a with h0 | h0
          · subst h0; omega
          · exact h0
        refine part (a * n) n (step - a) (Nat.mul_pos ha1 hn) (by omega) ?_ (by omega) hn (by omega) (by omega)
        rw [Nat.mul_comm a n, ← Nat.mul_add, show a + (step - a) = step by omega]
      · have hlt : b < n := Nat.lt_of_mul_lt_mul_right (a := step) (by omega)
        refine part (b * step) (n - b) step hbs (by omega) ?_ (by omega) (by omega) hs hu
        rw [← Nat.add_mul, show b + (n - b) = n by omega]

theorem stepNthRest_ok (c : Cfg) {O : IterOps I A} {R : I → List A → Prop} (h : FwdLaw c.usz O R) {step : Nat} (hs : 1 ≤ step)
    (hu : step < 2 ^ c.usz) {n : Nat} (hnu : n < 2 ^ c.usz) {it : I} {l : List A} (hr : R it l) :
    ∃ it', stepNthRest c O step n it = .ok (l[step - 1 + step * n]?, it') ∧ R it' (l.drop (step + step * n)) := by
  unfold stepNthRest
  have hmul : (n + 1) * step = step + step * n := by rw [Nat.mul_comm, Nat.mul_succ]; omega
  split
  · next hn =>
    have : 1 < 2 ^ c.usz := Nat.one_lt_two_pow (by have := c.usz_cases; omega)
    obtain ⟨s', e1, e2⟩ := h.nth (step - 1) it l (by omega) hr
    rw [show step - 1 + 1 = step by omega] at e2
    obtain ⟨s2, e3, e4⟩ := stepNthLoop_ok c h _ n step s' _ (Nat.le_refl _) (by omega) hs hu e2
    have hp : 1 ≤ n * step := Nat.mul_pos (by omega) hs
    have hc := Nat.mul_comm n step
    rw [List.getElem?_drop, show step + (n * step - 1) = step - 1 + step * n by omega] at e3
    rw [List.drop_drop, hc] at e4
    exact ⟨s2, by rw [e1, Res.ok_bind]; exact e3, e4⟩
  · rw [addN_ok (by omega), Res.ok_bind]
    obtain ⟨s2, e3, e4⟩ := stepNthLoop_ok c h _ (n + 1) step it l (Nat.le_refl _) (by omega) hs hu hr
    rw [hmul] at e3 e4
    rw [show step + step * n - 1 = step - 1 + step * n by omega] at e3
    exact ⟨s2, e3, e4⟩

/-- `step_by(k)` going forward, also with `nth`, however large its argument: so adaptors may be put around it. -/
theorem C136_step_by_forward (c : Cfg) {O : IterOps I A} {R : I → List A → Prop} (h : FwdLaw c.usz O R) {k : Nat} (hu : k < 2 ^ c.usz) :
    FwdLaw c.usz (stepOps c O) (stepLeft R k) := by
  refine ⟨fun s out hs => stepNext_ok h (by omega) s out hs, fun n s out hnu hs => ?_⟩
  obtain ⟨hk, l, hr, he⟩ := hs
  obtain ⟨sm, ft, it⟩ := s
  simp only at hk hr he
  simp only [stepOps]
  cases ft with
  | true =>
    rw [if_pos rfl] at he ⊢
    obtain ⟨s', e1, e2⟩ := h.next it l hr
    rw [e1, Res.ok_bind]
    cases n with
    | zero =>
      refine ⟨⟨sm, false, s'⟩, ?_, hk, _, e2, fun i => ?_⟩
      · simp only [if_true]
        rw [he 0, List.head?_eq_getElem?]; rfl
      · simp only [Bool.false_eq_true, if_false]
        rw [List.getElem?_drop, he, ← List.drop_one, List.drop_drop, List.getElem?_drop]
        congr 1
        rw [show 0 + 1 + i = i + 1 by omega, Nat.mul_succ]; omega
    | succ n =>
      obtain ⟨s2, e3, e4⟩ := stepNthRest_ok c h (step := k) (by omega) hu (n := n) (by omega) e2
      refine ⟨⟨sm, false, s2⟩, ?_, hk, _, e4, fun i => ?_⟩
      · simp only [Nat.add_one_ne_zero, if_false, hk, Nat.add_sub_cancel, e3, Res.ok_bind]
        rw [he, ← List.drop_one, List.getElem?_drop]
        congr 3
        rw [Nat.mul_succ]; omega
      · simp only [Bool.false_eq_true, if_false]
        rw [List.getElem?_drop, he, ← List.drop_one, List.drop_drop, List.drop_drop, List.getElem?_drop]
        congr 1
        rw [show n + 1 + 1 + i = n + i + 1 + 1 by omega, Nat.mul_succ, Nat.mul_succ, Nat.mul_add]; omega
  | false =>
    rw [if_neg Bool.false_ne_true] at he ⊢
    obtain ⟨s2, e3, e4⟩ := stepNthRest_ok c h (step := k) (by omega) hu hnu hr
    refine ⟨⟨sm, false, s2⟩, ?_, hk, _, e4, fun i => ?_⟩
    · simp only [hk, e3, Res.ok_bind]
      rw [he, List.getElem?_drop]
    · simp only [Bool.false_eq_true, if_false]
      rw [List.getElem?_drop, he, List.drop_drop, List.getElem?_drop, List.getElem?_drop]
      congr 1
      rw [show n + 1 + i = n + i + 1 by omega, Nat.mul_succ, Nat.mul_add]; omega

theorem isEvery_length {k : Nat} {l out : List A} (h : IsEvery k l out) (i : Nat) : i < out.length ↔ k * i < l.length := by
  have := h i
  rcases Nat.lt_or_ge i out.length with h1 | h1 <;> rcases Nat.lt_or_ge (k * i) l.length with h2 | h2
  · exact ⟨fun _ => h2, fun _ => h1⟩
  · rw [List.getElem?_eq_getElem h1, List.getElem?_eq_none h2] at this; cases this
  · rw [List.getElem?_eq_none h1, List.getElem?_eq_getElem h2] at this; cases this
  · exact ⟨fun h => by omega, fun h => by omega⟩

theorem isEvery_last {k : Nat} {l out : List A} (h : IsEvery k l out) {j : Nat} (h1 : k * j < l.length)
    (h2 : l.length ≤ k * (j + 1)) : out.getLast? = l[k * j]? ∧ IsEvery k (l.take (k * j)) out.dropLast := by
  have e1 := (isEvery_length h j).2 h1
  have e2 : ¬ j + 1 < out.length := fun h' => by have := (isEvery_length h (j + 1)).1 h'; omega
  have e : out.length = j + 1 := by omega
  refine ⟨by rw [List.getLast?_eq_getElem?, e, show j + 1 - 1 = j from rfl, h j], fun i => ?_⟩
  rw [List.dropLast_eq_take, e, show j + 1 - 1 = j from rfl, List.getElem?_take, List.getElem?_take]
  have hk : 0 < k := by
    rcases Nat.eq_zero_or_pos k with h0 | h0
    · subst h0; rw [Nat.zero_mul] at h1 h2; omega
    · exact h0
  rcases Nat.lt_or_ge i j with hi | hi
  · rw [if_pos hi, if_pos (Nat.mul_lt_mul_of_pos_left hi hk), h i]
  · rw [if_neg (by omega), if_neg (by have := Nat.mul_le_mul_left k hi; omega)]

theorem isEvery_nil {k : Nat} {out : List A} (h : IsEvery k [] out) : out = [] := by
  have := (isEvery_length h 0).1
  cases out with
  | nil => rfl
  | cons a out => simp at this

/-- `step_by(k)` from the back, on an iterator whose length is exact and that is not empty. -/
theorem C136_step_by_back {O : IterOps I A} {E : I → List A → Prop} (h : ExactLaw O E) {k : Nat} (s : StepSt I) {l out : List A}
    (hk : s.stepMinusOne + 1 = k) (hr : E s.it l) (hne : s.firstTake = true → l ≠ [])
    (he : IsEvery k (if s.firstTake then l else l.drop (k - 1)) out) :
    ∃ s', stepNextBack O s = .ok (out.getLast?, s') ∧ stepLeft E k s' out.dropLast := by
  obtain ⟨sm, ft, it⟩ := s
  simp only at hk hr he hne
  unfold stepNextBack
  simp only
  rw [h.len it l hr, Res.ok_bind, hk]
  have hd := Nat.div_add_mod l.length k
  have hm : l.length % k < k := Nat.mod_lt _ (by omega)
  cases ft with
  | true =>
    rw [if_pos rfl] at he
    have hl : 1 ≤ l.length := List.length_pos_iff.2 (hne rfl)
    -- the last element chosen
    obtain ⟨j, n, hn, hj1, hj2, hj3⟩ : ∃ j n, (if l.length % k = 0 then sm else l.length % k - 1) = n ∧ k * j < l.length ∧
        l.length ≤ k * (j + 1) ∧ l.length - (n + 1) = k * j ∧ n < l.length := by
      by_cases h0 : l.length % k = 0
      · rw [if_pos h0]
        have hq : 1 ≤ l.length / k := by
          rcases Nat.eq_zero_or_pos (l.length / k) with h' | h'
          · rw [h', h0] at hd; simp at hd; omega
          · exact h'
        obtain ⟨q, hq'⟩ : ∃ q, l.length / k = q + 1 := ⟨l.length / k - 1, by omega⟩
        rw [hq', Nat.mul_succ] at hd
        exact ⟨q, sm, rfl, by omega, by rw [Nat.mul_succ]; omega, by omega, by omega⟩
      · rw [if_neg h0]
        exact ⟨l.length / k, _, rfl, by omega, by rw [Nat.mul_succ]; omega, by omega, by omega⟩
    rw [if_pos rfl, hn]
    obtain ⟨s', e1, e2⟩ := h.nthBack n it l (by omega) hr
    obtain ⟨g1, g2⟩ := isEvery_last he hj1 hj2
    refine ⟨⟨sm, true, s'⟩, ?_, hk, _, e2, ?_⟩
    · rw [e1, Res.ok_bind, g1, List.getElem?_reverse hj3.2]
      rw [show l.length - 1 - n = k * j by omega]
    · rw [if_pos rfl, hj3.1]; exact g2
  | false =>
    rw [if_neg Bool.false_ne_true] at he ⊢
    obtain ⟨s', e1, e2⟩ := h.nthBack (l.length % k) it l (Nat.mod_le _ _) hr
    refine ⟨⟨sm, false, s'⟩, ?_⟩
    rw [e1, Res.ok_bind]
    rcases Nat.eq_zero_or_pos (l.length / k) with hq | hq
    · rw [hq] at hd
      simp only [Nat.mul_zero, Nat.zero_add] at hd
      rw [List.drop_of_length_le (by omega)] at he
      have := isEvery_nil he
      subst this
      refine ⟨by rw [hd, List.getElem?_eq_none (by simp)]; rfl, hk, _, e2, ?_⟩
      rw [if_neg Bool.false_ne_true, List.drop_of_length_le (by rw [List.length_take]; omega)]
      exact he
    · obtain ⟨q, hq'⟩ : ∃ q, l.length / k = q + 1 := ⟨l.length / k - 1, by omega⟩
      rw [hq', Nat.mul_succ] at hd
      obtain ⟨g1, g2⟩ := isEvery_last he (j := q) (by rw [List.length_drop]; omega) (by rw [List.length_drop, Nat.mul_succ]; omega)
      refine ⟨?_, hk, _, e2, ?_⟩
      · rw [g1, List.getElem?_reverse (by omega), List.getElem?_drop]
        rw [show l.length - 1 - l.length % k = k - 1 + k * q by omega]
      · rw [if_neg Bool.false_ne_true, List.drop_take]
        rw [show l.length - (l.length % k + 1) - (k - 1) = k * q by omega]
        exact g2

/-- The length of `step_by(k)`, over an iterator whose length is exact. -/
theorem C136_step_by_len (c : Cfg) {O : IterOps I A} {E : I → List A → Prop} (h : ExactLaw O E) {k : Nat} {s : StepSt I}
    {out : List A} (hs : stepLeft E k s out) : (stepOps c O).len s = .ok out.length := by
  obtain ⟨hk, l, hr, he⟩ := hs
  obtain ⟨sm, ft, it⟩ := s
  simp only at hk hr he
  simp only [stepOps]
  rw [h.len it l hr, Res.ok_bind, hk]
  have hk0 : 0 < k := by omega
  cases ft with
  | true =>
    rw [if_pos rfl] at he ⊢
    rcases Nat.eq_zero_or_pos l.length with h0 | h0
    · rw [List.eq_nil_of_length_eq_zero h0] at he
      rw [if_pos h0, isEvery_nil he]; rfl
    · rw [if_neg (by omega)]
      have hd := Nat.div_add_mod (l.length - 1) k
      have hm : (l.length - 1) % k < k := Nat.mod_lt _ hk0
      have h1 := (isEvery_length he ((l.length - 1) / k)).2 (by omega)
      have h2 : ¬ (l.length - 1) / k + 1 < out.length := fun h' => by
        have := (isEvery_length he _).1 h'
        rw [Nat.mul_succ] at this; omega
      congr 1; omega
  | false =>
    rw [if_neg Bool.false_ne_true] at he ⊢
    have hd := Nat.div_add_mod l.length k
    have hm : l.length % k < k := Nat.mod_lt _ hk0
    have h2 : ¬ l.length / k < out.length := fun h' => by
      have := (isEvery_length he _).1 h'
      rw [List.length_drop] at this; omega
    rcases Nat.eq_zero_or_pos (l.length / k) with h0 | h0
    · congr 1; omega
    · obtain ⟨q, hq⟩ : ∃ q, l.length / k = q + 1 := ⟨l.length / k - 1, by omega⟩
      rw [hq, Nat.mul_succ] at hd
      have h1 := (isEvery_length he q).2 (by rw [List.length_drop]; omega)
      congr 1; omega

theorem isEvery_take {k : Nat} (hk : 1 ≤ k) {l out : List A} (h : IsEvery k l out) (j : Nat) :
    IsEvery k (l.take (k * j)) (out.take j) := by
  intro i
  rw [List.getElem?_take, List.getElem?_take]
  rcases Nat.lt_or_ge i j with hi | hi
  · rw [if_pos hi, if_pos (Nat.mul_lt_mul_of_pos_left hi hk), h i]
  · rw [if_neg (by omega), if_neg (by have := Nat.mul_le_mul_left k hi; omega)]

/-- `nth_back(n)` of `step_by(k)`, over an iterator whose length is exact, if there are more than `n` elements. -/
theorem C136_step_by_nth_back (c : Cfg) {O : IterOps I A} {E : I → List A → Prop} (h : ExactLaw O E)
    (hu : ∀ s l, E s l → l.length < 2 ^ c.usz) {k : Nat} {s : StepSt I} {out : List A} (hs : stepLeft E k s out) {n : Nat}
    (hn : n < out.length) : ∃ s', (stepOps c O).nthBack n s = .ok (out.reverse[n]?, s') ∧
      stepLeft E k s' (out.take (out.length - (n + 1))) := by
  have hlen := C136_step_by_len c h hs
  obtain ⟨hk, l, hr, he⟩ := hs
  obtain ⟨sm, ft, it⟩ := s
  simp only at hk hr he
  simp only [stepOps] at hlen ⊢
  rw [h.len it l hr, Res.ok_bind, hk] at hlen ⊢
  have hul := hu it l hr
  have hk0 : 0 < k := by omega
  obtain ⟨j, hj⟩ : ∃ j, out.length = n + 1 + j := ⟨out.length - (n + 1), by omega⟩
  have hmul : k * out.length = n * k + k + k * j := by
    rw [hj, Nat.mul_add, Nat.mul_succ, Nat.mul_comm k n]
  cases ft with
  | true =>
    rw [if_pos rfl] at he hlen ⊢
    injection hlen with hlen
    have hl : 1 ≤ l.length := by
      rcases Nat.eq_zero_or_pos l.length with h0 | h0
      · rw [if_pos h0] at hlen; omega
      · exact h0
    rw [if_neg (by omega)] at hlen
    -- the place of the last element chosen, from the back
    have hi : n * k + (if l.length % k = 0 then sm else l.length % k - 1) + 1 + k * j = l.length := by
      have hd := Nat.div_add_mod l.length k
      have hm : l.length % k < k := Nat.mod_lt _ hk0
      have hd' := Nat.div_add_mod (l.length - 1) k
      have hm' : (l.length - 1) % k < k := Nat.mod_lt _ hk0
      rw [show (l.length - 1) / k = out.length - 1 by omega, Nat.mul_sub, Nat.mul_one] at hd'
      have : k ≤ k * out.length := Nat.le_mul_of_pos_right k (by omega)
      split
      · next h0 =>
        rw [h0] at hd
        have hq : (l.length / k) = out.length := by
          have a1 : k * (l.length / k) < k * (out.length + 1) := by rw [Nat.mul_succ]; omega
          have a2 : k * (out.length - 1) < k * (l.length / k) := by rw [Nat.mul_sub, Nat.mul_one]; omega
          have := Nat.lt_of_mul_lt_mul_left a1
          have := Nat.lt_of_mul_lt_mul_left a2
          omega
        rw [hq] at hd
        omega
      · next h0 =>
        have hq : (l.length / k) = out.length - 1 := by
          have a1 : k * (l.length / k) < k * out.length := by omega
          have a2 : k * (out.length - 1) < k * (l.length / k + 1) := by rw [Nat.mul_sub, Nat.mul_one, Nat.mul_succ]; omega
          have := Nat.lt_of_mul_lt_mul_left a1
          have := Nat.lt_of_mul_lt_mul_left a2
          omega
        rw [hq, Nat.mul_sub, Nat.mul_one] at hd
        omega
    generalize (if l.length % k = 0 then sm else l.length % k - 1) = r at hi ⊢
    rw [show min (min (n * k) (2 ^ c.usz - 1) + r) (2 ^ c.usz - 1) = n * k + r by omega]
    obtain ⟨s', e1, e2⟩ := h.nthBack (n * k + r) it l (by omega) hr
    refine ⟨⟨sm, true, s'⟩, ?_, hk, _, e2, ?_⟩
    · rw [e1, Res.ok_bind, List.getElem?_reverse (by omega), List.getElem?_reverse hn, he]
      rw [show out.length - 1 - n = j by omega, show l.length - 1 - (n * k + r) = k * j by omega]
    · rw [if_pos rfl, show out.length - (n + 1) = j by omega, show l.length - (n * k + r + 1) = k * j by omega]
      exact isEvery_take hk0 he j
  | false =>
    rw [if_neg Bool.false_ne_true] at he hlen ⊢
    injection hlen with hlen
    have hd := Nat.div_add_mod l.length k
    rw [hlen] at hd
    generalize l.length % k = r at hd ⊢
    rw [show min (min (n * k) (2 ^ c.usz - 1) + r) (2 ^ c.usz - 1) = n * k + r by omega]
    obtain ⟨s', e1, e2⟩ := h.nthBack (n * k + r) it l (by omega) hr
    refine ⟨⟨sm, false, s'⟩, ?_, hk, _, e2, ?_⟩
    · rw [e1, Res.ok_bind, List.getElem?_reverse (by omega), List.getElem?_reverse hn, he, List.getElem?_drop]
      rw [show out.length - 1 - n = j by omega, show l.length - 1 - (n * k + r) = k - 1 + k * j by omega]
    · rw [if_neg Bool.false_ne_true, show out.length - (n + 1) = j by omega, List.drop_take,
        show l.length - (n * k + r + 1) - (k - 1) = k * j by omega]
      exact isEvery_take hk0 he j

/-! ### Where the length goes wrong -/

/-- `skip(n)` with `n` larger than the number of elements: the first `next()` rightly gives `None`, and then `len()`, `size_hint()`
and `next_back()` panic with overflow checks, and give wrong lengths without. -/
theorem C136_skip_past_end :
    let s : IV 8 := ⟨4, ⟨3, [0x21#8, 0x03#8]⟩⟩
    (∃ it, (skipOps ⟨true, .p64, true⟩ (viterOps ⟨true, .p64, true⟩ 8)).next (5, s.iter) = .ok (none, 0, it) ∧
      (skipOps ⟨true, .p64, true⟩ (viterOps ⟨true, .p64, true⟩ 8)).len (0, it) = .panic ∧
      (skipOps ⟨true, .p64, true⟩ (viterOps ⟨true, .p64, true⟩ 8)).nextBack (0, it) = .panic) ∧
    (∃ it, (skipOps ⟨false, .p64, false⟩ (viterOps ⟨false, .p64, false⟩ 8)).next (5, s.iter) = .ok (none, 0, it) ∧
      (skipOps ⟨false, .p64, false⟩ (viterOps ⟨false, .p64, false⟩ 8)).len (0, it) = .ok (2 ^ 64 - 2)) :=
  ⟨⟨⟨5, 3, 4, ⟨3, [0x21#8, 0x03#8]⟩⟩, by decide⟩, ⟨⟨5, 3, 4, ⟨3, [0x21#8, 0x03#8]⟩⟩, by decide⟩⟩

/-- `step_by(4)` on 3 elements: after the end has been reached from the front, `next_back()` panics with overflow checks. -/
theorem C136_step_by_end :
    let s : IV 8 := ⟨4, ⟨3, [0x21#8, 0x03#8]⟩⟩
    ∃ t1 t2, stepNext (viterOps ⟨true, .p64, true⟩ 8) ⟨3, true, s.iter⟩ = .ok (some 1, t1) ∧
      stepNext (viterOps ⟨true, .p64, true⟩ 8) t1 = .ok (none, t2) ∧ stepNextBack (viterOps ⟨true, .p64, true⟩ 8) t2 = .panic :=
  ⟨⟨3, false, ⟨1, 3, 4, ⟨3, [0x21#8, 0x03#8]⟩⟩⟩, ⟨3, false, ⟨4, 3, 4, ⟨3, [0x21#8, 0x03#8]⟩⟩⟩, rfl, rfl, rfl⟩

/-! ### Arguments stay within `usize` -/

/-- `O` and `O'` do the same wherever the argument is a `usize`, and lengths are `usize`. -/
structure SameWithin (u : Nat) (O O' : IterOps I A) : Prop where
  next : O.next = O'.next
  nth : ∀ n, n < 2 ^ u → O.nth n = O'.nth n
  nextBack : O.nextBack = O'.nextBack
  nthBack : ∀ n, n < 2 ^ u → O.nthBack n = O'.nthBack n
  len : O.len = O'.len
  fits : ∀ s n, O.len s = .ok n → n < 2 ^ u

theorem stepNthLoop_usize (c : Cfg) {O O' : IterOps I A} (h : SameWithin c.usz O O') (m : Nat) :
    ∀ n step (it : I), n + step ≤ m → 1 ≤ n → 1 ≤ step → step < 2 ^ c.usz →
      stepNthLoop c O n step it = stepNthLoop c O' n step it := by
  induction m with
  | zero => intros; omega
  | succ m ih =>
    intro n step it hm hn hs hu
    rw [stepNthLoop, stepNthLoop]
    unfold checkedMul
    by_cases hfit : n * step < 2 ^ c.usz
    · rw [if_pos hfit]
      simp only
      rw [h.nth _ (by omega)]
    · rw [if_neg hfit]
      simp only
      have d1 := Nat.div_mul_le_self (2 ^ c.usz - 1) n
      have d2 := Nat.div_mul_le_self (2 ^ c.usz - 1) step
      generalize ha : (2 ^ c.usz - 1) / n = a at *
      generalize hb : (2 ^ c.usz - 1) / step = b at *
      have hb1 : 1 ≤ b := by rw [← hb]; exact Nat.div_pos (by omega) hs
      rw [h.nth _ (by omega), h.nth _ (by omega)]
      split
      · have hlt : a < step := Nat.lt_of_mul_lt_mul_left (a := n) (by rw [Nat.mul_comm n a]; omega)
        have ha1 : 1 ≤ a := by
          rcases Nat.eq_zero_or_pos a with h0 | h0
          · subst h0; omega
          · exact h0
        congr 1; funext p
        exact ih n (step - a) p.2 (by omega) hn (by omega) (by omega)
      · have hlt : b < n := Nat.lt_of_mul_lt_mul_right (a := step) (by omega)
        congr 1; funext p
        exact ih (n - b) step p.2 (by omega) (by omega) hs hu

theorem stepNthRest_usize (c : Cfg) {O O' : IterOps I A} (h : SameWithin c.usz O O') {step n : Nat} (hs : 1 ≤ step)
    (hu : step < 2 ^ c.usz) (hn : n < 2 ^ c.usz) {it : I} : stepNthRest c O step n it = stepNthRest c O' step n it := by
  unfold stepNthRest
  have : 1 < 2 ^ c.usz := Nat.one_lt_two_pow (by have := c.usz_cases; omega)
  rw [h.nth _ (by omega)]
  split
  · congr 1; funext p
    exact stepNthLoop_usize c h _ n step p.2 (Nat.le_refl _) (by omega) hs hu
  · rw [addN_ok (by omega), Res.ok_bind, Res.ok_bind]
    exact stepNthLoop_usize c h _ (n + 1) step it (Nat.le_refl _) (by omega) hs hu

/-- Whatever the iterator, the adaptors only ever call `nth` and `nth_back` with arguments that are `usize`: nothing they do depends
on what these methods would do with larger ones. -/
theorem C136_usize (c : Cfg) {O O' : IterOps I A} (h : SameWithin c.usz O O') :
    SameWithin c.usz (revOps O) (revOps O') ∧
    (∀ m s, m < 2 ^ c.usz → s.1 < 2 ^ c.usz → (skipOps c O).next s = (skipOps c O').next s ∧
      (skipOps c O).nth m s = (skipOps c O').nth m s ∧ (skipOps c O).nextBack s = (skipOps c O').nextBack s ∧
      (skipOps c O).nthBack m s = (skipOps c O').nthBack m s ∧ (skipOps c O).len s = (skipOps c O').len s) ∧
    (∀ m s, m < 2 ^ c.usz → s.1 < 2 ^ c.usz → (takeOps O).next s = (takeOps O').next s ∧
      (takeOps O).nth m s = (takeOps O').nth m s ∧ (takeOps O).nextBack s = (takeOps O').nextBack s ∧
      (takeOps O).nthBack m s = (takeOps O').nthBack m s ∧ (takeOps O).len s = (takeOps O').len s) ∧
    (∀ m s, m < 2 ^ c.usz → s.stepMinusOne + 1 < 2 ^ c.usz → (stepOps c O).next s = (stepOps c O').next s ∧
      (stepOps c O).nth m s = (stepOps c O').nth m s ∧ (stepOps c O).nextBack s = (stepOps c O').nextBack s ∧
      (stepOps c O).nthBack m s = (stepOps c O').nthBack m s ∧ (stepOps c O).len s = (stepOps c O').len s) := by
  refine ⟨⟨h.nextBack, h.nthBack, h.next, h.nth, h.len, h.fits⟩, ?_, ?_, ?_⟩
  · rintro m ⟨n, it⟩ hm hn
    simp only at hn
    have hl := h.fits it
    refine ⟨?_, ?_, ?_, ?_, ?_⟩ <;> simp only [skipOps]
    · rw [h.nth n hn, h.next]
    · rw [h.nth m hm, h.nth (n - 1) (by omega)]
      unfold checkedAdd
      split
      · split
        · next e =>
          split at e
          · cases e; rw [h.nth _ ‹_›]
          · cases e
        · rfl
      · rfl
    · rw [h.nextBack, h.len]
    · rw [← h.len]
      cases e : O.len it with
      | ok l =>
        have := hl l e
        simp only [Res.ok_bind]
        rw [h.nthBack m hm, h.nthBack (l - n - 1) (by omega)]
      | panic => rfl
      | diverge => rfl
    · rw [h.len]
  · rintro m ⟨n, it⟩ hm hn
    simp only at hn
    have hl := h.fits it
    refine ⟨?_, ?_, ?_, ?_, ?_⟩ <;> simp only [takeOps]
    · rw [h.next]
    · rw [h.nth m hm, h.nth (n - 1) (by omega)]
    · split
      · rfl
      · rw [← h.len]
        cases e : O.len it with
        | ok l =>
          have := hl l e
          simp only [Res.ok_bind]
          rw [h.nthBack (l - n) (by omega)]
        | panic => rfl
        | diverge => rfl
    · rw [← h.len]
      cases e : O.len it with
      | ok l =>
        have := hl l e
        simp only [Res.ok_bind]
        rw [h.nthBack (l - 1) (by omega)]
        split
        · rw [h.nthBack (l - n + m) (by omega)]
        · rfl
      | panic => rfl
      | diverge => rfl
    · rw [h.len]
  · rintro m ⟨k, f, it⟩ hm hk
    simp only at hk
    have hl := h.fits it
    refine ⟨?_, ?_, ?_, ?_, ?_⟩ <;> simp only [stepOps]
    · simp only [stepNext]
      rw [h.nth _ (by split <;> omega)]
    · rw [h.next]
      split
      · congr 1; funext p
        split
        · rfl
        · rw [stepNthRest_usize c h (by omega) hk (by omega)]
      · rw [stepNthRest_usize c h (by omega) hk hm]
    · simp only [stepNextBack]
      rw [← h.len]
      cases e : O.len it with
      | ok l =>
        have := hl l e
        have := Nat.mod_le l (k + 1)
        simp only [Res.ok_bind]
        rw [h.nthBack _ (by split <;> (try split) <;> omega)]
      | panic => rfl
      | diverge => rfl
    · rw [← h.len]
      cases O.len it with
      | ok l =>
        simp only [Res.ok_bind]
        rw [h.nthBack _ (by omega)]
      | panic => rfl
      | diverge => rfl
    · rw [h.len]

/-! ### Combinations -/

/-- `iter().skip(a).take(b)` collects `b` elements after the first `a`. -/
example (c : Cfg) (hb : IsBlk w) {s : IV w} (hr : IvReach c w k s xs) {a b : Nat} (ha : a < 2 ^ c.usz) (hb2 : b < 2 ^ c.usz) :
    ∃ s', collectWith (takeOps (skipOps c (viterOps c w))).next (b, a, s.iter) [] =
      .ok (((xs.map (BitVec.ofNat w)).drop a).take b, s') :=
  C136_collect (C136_take_forward (C136_skip_forward c (C136_iter_forward c hb).1)) ⟨hb2, _, ⟨ha, _, (C136_start c hb hr).1, rfl⟩, rfl⟩

/-- `iter().step_by(i).skip(a).step_by(j)`: every `j`-th element after the first `a` of every `i`-th element. -/
example (c : Cfg) (hb : IsBlk w) {s : IV w} (hr : IvReach c w k s xs) {a i j : Nat} (ha : a < 2 ^ c.usz) (hi : 1 ≤ i) (hi2 : i < 2 ^ c.usz)
    (hj : 1 ≤ j) (hj2 : j < 2 ^ c.usz) {ys : List (BitVec w)} (hy : IsEvery i (xs.map (BitVec.ofNat w)) ys) :
    ∃ zs s', collectWith (stepNext (skipOps c (stepOps c (viterOps c w)))) ⟨j - 1, true, a, ⟨i - 1, true, s.iter⟩⟩ [] = .ok (zs, s') ∧
      IsEvery j (ys.drop a) zs :=
  C136_step_by (C136_skip_forward c (C136_step_by_forward c (C136_iter_forward c hb).1 hi2)) hj hj2
    ⟨ha, ys, ⟨by show i - 1 + 1 = i; omega, _, (C136_start c hb hr).1, hy⟩, rfl⟩

/-- `iter().skip(a).rev().take(b).rev()` on a vector of at least `a` elements. -/
example (c : Cfg) (hb : IsBlk w) {s : IV w} (hr : IvReach c w k s xs) (hu : xs.length < 2 ^ c.usz) (a b : Nat) (ha : a ≤ xs.length) :
    ∃ s', collectWith (revOps (takeOps (revOps (skipOps c (viterOps c w))))).next (b, a, s.iter) [] =
      .ok ((((xs.map (BitVec.ofNat w)).drop a).reverse.take b).reverse, s') := by
  obtain ⟨s', h, -⟩ := C136_collect_exact (C136_rev (C136_take (C136_rev (C136_skip c (C136_iter_exact c hb)))))
    (s := (b, a, s.iter)) (l := (((xs.map (BitVec.ofNat w)).drop a).reverse.take b).reverse)
    ⟨((xs.map (BitVec.ofNat w)).drop a).reverse,
      ⟨_, (C136_start c hb hr).2 hu, by rw [List.length_map]; exact ha, by rw [List.reverse_reverse]⟩, by rw [List.reverse_reverse]⟩
  exact ⟨s', h⟩

example : IsEvery 3 [0, 1, 2, 3, 4, 5, 6, 7] [0, 3, 6] := by
  intro i
  rcases Nat.lt_or_ge i 3 with h | h
  · match i, h with
    | 0, _ => rfl
    | 1, _ => rfl
    | 2, _ => rfl
  · rw [List.getElem?_eq_none (by simpa using h), List.getElem?_eq_none (by simp; omega)]

/-! Each theorem of this file that has hypotheses is applied to concrete data in `Verif/Instances/Adaptors.lean`. -/

end Succinct
