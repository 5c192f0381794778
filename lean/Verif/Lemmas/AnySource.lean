import Verif.Lemmas.Decode
/-!
# Decoding from arbitrary sources

A computation that reads from an arbitrary source is compared with the same computation reading the bits from a queue.
-/
namespace Succinct
open Spec

theorem Reads.det {R : BitRead σ} {s s1 s2 : σ} {bits : List Bool} (h1 : Reads R s bits s1) (h2 : Reads R s bits s2) : s1 = s2 := by
  induction h1 with
  | nil s => cases h2; rfl
  | cons h _ ih =>
    cases h2 with
    | cons h' h2 =>
      rw [h] at h'
      injection h' with h'
      injection h' with _ h'
      subst h'
      exact ih h2

theorem Reads.rest {R : BitRead σ} {s s1 s2 : σ} {a b : List Bool} (h : Reads R s (a ++ b) s2) (h1 : Reads R s a s1) :
    Reads R s1 b s2 := by
  obtain ⟨s1', h2, h3⟩ := Reads.split h
  rw [h1.det h2]
  exact h3

theorem deque_reads (p q : List Bool) : Reads dequeRead (p ++ q) p q := by
  induction p with
  | nil => exact .nil q
  | cons b p ih => exact .cons rfl ih

theorem deque_reads_eq {s p s' : List Bool} (h : Reads dequeRead s p s') : s = p ++ s' := by
  induction h with
  | nil s => rfl
  | cons h _ ih =>
    rename_i s s1 s2 b bs _
    cases s with
    | nil => simp [dequeRead] at h
    | cons a s =>
      simp only [dequeRead, List.head?_cons, List.tail_cons] at h
      injection h with h
      injection h with h1 h2
      injection h1 with h1
      injection h1 with h1
      rw [h1, h2, ih]
      rfl

/-- what `m2` does with the source `R` that delivers the bits `p`, compared with what `m1` does with the queue `p` -/
def SameOn (R : BitRead σ) (m1 : SM (List Bool) (Option α)) (m2 : SM σ (Option α)) (p : List Bool) : Prop :=
  ∀ s s', Reads R s p s' →
    (∃ r used rest s1, m1 p = .ok (r, rest) ∧ ((∃ v, r = .ok (some v)) ∨ r = .error .invalidData) ∧ p = used ++ rest ∧
      Reads R s used s1 ∧ m2 s = .ok (r, s1)) ∨
    (m1 p = .panic ∧ m2 s = .panic) ∨
    ∃ t, (t = .ok none ∨ t = .error .unexpectedEof) ∧ m1 p = .ok (t, []) ∧
      (NoBit (R.readBit s') → m2 s = stopWith t (R.readBit s'))

theorem SameOn.readBit (R : BitRead σ) (p : List Bool) : SameOn R dequeRead.readBit R.readBit p := by
  intro s s' h
  cases h with
  | nil s =>
    refine .inr (.inr ⟨.ok none, .inl rfl, rfl, fun h => ?_⟩)
    cases hr : R.readBit s with
    | ok x =>
      obtain ⟨e, s'⟩ := x
      cases e with
      | ok b =>
        cases b with
        | none => rfl
        | some b => exact absurd hr (h b s')
      | error e => rfl
    | panic => rfl
    | diverge => rfl
  | cons h1 h2 =>
    rename_i s1 b bs
    exact .inl ⟨.ok (some b), [b], bs, s1, rfl, .inl ⟨b, rfl⟩, rfl, .cons h1 (.nil _), h1⟩

theorem SameOn.bind {R : BitRead σ} {m1 : SM (List Bool) (Option α)} {m2 : SM σ (Option α)}
    {f1 : Option α → SM (List Bool) (Option β)} {f2 : Option α → SM σ (Option β)} {p : List Bool} (h : SameOn R m1 m2 p)
    (hs : ∀ v used rest, p = used ++ rest → m1 p = .ok (.ok (some v), rest) → SameOn R (f1 (some v)) (f2 (some v)) rest)
    (hn : ∃ t, (t = .ok none ∨ t = .error .unexpectedEof) ∧ (∀ l, f1 none l = .ok (t, l)) ∧ ∀ s, f2 none s = .ok (t, s)) :
    SameOn R (m1 >>= f1) (m2 >>= f2) p := by
  intro s s' hr
  rcases h s s' hr with ⟨r, used, rest, s1, h1, h2, h3, h4, h5⟩ | ⟨h1, h2⟩ | ⟨t, h1, h2, h3⟩
  · rcases h2 with ⟨v, rfl⟩ | rfl
    · rw [SM.bind_run_ok h1, SM.bind_run_ok h5]
      have hr' := hr
      rw [h3] at hr'
      rcases hs v used rest h3 h1 s1 s' (hr'.rest h4) with ⟨r, used', rest', s2, g1, g2, g3, g4, g5⟩ | ⟨g1, g2⟩ | ⟨t, g1, g2, g3⟩
      · exact .inl ⟨r, used ++ used', rest', s2, g1, g2, by rw [h3, g3, List.append_assoc], h4.append g4, g5⟩
      · exact .inr (.inl ⟨g1, g2⟩)
      · exact .inr (.inr ⟨t, g1, g2, g3⟩)
    · exact .inl ⟨.error .invalidData, used, rest, s1, SM.bind_run_err h1, .inr rfl, h3, h4, SM.bind_run_err h5⟩
  · exact .inr (.inl ⟨SM.bind_run_panic h1, SM.bind_run_panic h2⟩)
  · rcases h1 with rfl | rfl
    · obtain ⟨t, ht, hf1, hf2⟩ := hn
      refine .inr (.inr ⟨t, ht, by rw [SM.bind_run_ok h2, hf1], fun hb => ?_⟩)
      have h4 := h3 hb
      cases hx : R.readBit s' with
      | ok x =>
        obtain ⟨e, s2⟩ := x
        rw [hx] at h4
        cases e with
        | ok b => rw [SM.bind_run_ok (show m2 s = .ok (.ok none, s2) from h4), hf2]; rfl
        | error e => rw [SM.bind_run_err (show m2 s = .ok (.error e, s2) from h4)]; rfl
      | panic => rw [SM.bind_run_panic (by rw [h4, hx]; rfl)]; rfl
      | diverge =>
        rw [hx] at h4
        rw [SM.bind_run, show m2 s = .diverge from h4]
        rfl
    · refine .inr (.inr ⟨_, .inr rfl, SM.bind_run_err h2, fun hb => ?_⟩)
      have h4 := h3 hb
      cases hx : R.readBit s' with
      | ok x =>
        obtain ⟨e, s2⟩ := x
        rw [hx] at h4
        cases e with
        | ok b => rw [SM.bind_run_err (show m2 s = .ok (.error .unexpectedEof, s2) from h4)]; rfl
        | error e => rw [SM.bind_run_err (show m2 s = .ok (.error e, s2) from h4)]; rfl
      | panic => rw [SM.bind_run_panic (by rw [h4, hx]; rfl)]; rfl
      | diverge =>
        rw [hx] at h4
        rw [SM.bind_run, show m2 s = .diverge from h4]
        rfl

theorem SameOn.pure (R : BitRead σ) (v : α) (p : List Bool) :
    SameOn R (Pure.pure (some v) : SM (List Bool) (Option α)) (Pure.pure (some v) : SM σ (Option α)) p :=
  fun s _ _ => .inl ⟨.ok (some v), [], p, s, rfl, .inl ⟨v, rfl⟩, rfl, .nil s, rfl⟩

theorem SameOn.invalid (R : BitRead σ) (p : List Bool) :
    SameOn R (tooManyBits : SM (List Bool) (Option α)) (tooManyBits : SM σ (Option α)) p :=
  fun s _ _ => .inl ⟨.error .invalidData, [], p, s, rfl, .inr rfl, rfl, .nil s, rfl⟩

theorem SameOn.lift {R : BitRead σ} {x : Res β} (hx : x ≠ .diverge) {g1 : β → SM (List Bool) (Option α)} {g2 : β → SM σ (Option α)}
    {p : List Bool} (h : ∀ v, x = .ok v → SameOn R (g1 v) (g2 v) p) : SameOn R (SM.lift x >>= g1) (SM.lift x >>= g2) p := by
  cases x with
  | ok v => exact h v rfl
  | panic => exact fun s s' _ => .inr (.inl ⟨rfl, rfl⟩)
  | diverge => exact absurd rfl hx

theorem stop_none (c : Bool) {σ : Type} : ∃ t, (t = .ok none ∨ t = .error IoErr.unexpectedEof) ∧
    (∀ l : List Bool, (if c then outOfBits else Pure.pure none : SM (List Bool) (Option α)) l = .ok (t, l)) ∧
    ∀ s : σ, (if c then outOfBits else Pure.pure none : SM σ (Option α)) s = .ok (t, s) := by
  cases c
  · exact ⟨.ok none, .inl rfl, fun _ => rfl, fun _ => rfl⟩
  · exact ⟨_, .inr rfl, fun _ => rfl, fun _ => rfl⟩

theorem shlB_ne (c : Cfg) (x : BitVec w) (k : Nat) : shlB c x k ≠ .diverge := by
  unfold shlB overflow
  repeat' split
  all_goals simp

theorem shlN_ne (c : Cfg) (b a k : Nat) : shlN c b a k ≠ .diverge := by
  unfold shlN overflow
  repeat' split
  all_goals simp

theorem addN_ne (c : Cfg) (b x y : Nat) : addN c b x y ≠ .diverge := by
  unfold addN overflow
  repeat' split
  all_goals simp

theorem subN_ne (c : Cfg) (b x y : Nat) : subN c b x y ≠ .diverge := by
  unfold subN overflow
  repeat' split
  all_goals simp

theorem mulN_ne (c : Cfg) (b x y : Nat) : mulN c b x y ≠ .diverge := by
  unfold mulN overflow
  repeat' split
  all_goals simp

theorem same_readInt (c : Cfg) (R : BitRead σ) (w n : Nat) (p : List Bool) : SameOn R (readInt c dequeRead w n) (readInt c R w n) p := by
  suffices H : ∀ n (res mask : BitVec w) cons p, SameOn R (readIntLoop c dequeRead n res mask cons) (readIntLoop c R n res mask cons) p
    from H n 0 1 false p
  intro n
  induction n with
  | zero => exact fun res _ _ p => SameOn.pure R res p
  | succ n ih =>
    intro res mask cons p
    refine (SameOn.readBit R p).bind (fun b _ rest _ _ => ?_) (stop_none cons)
    exact SameOn.lift (shlB_ne _ _ _) fun m _ => ih _ m true rest

theorem same_readIntBe (c : Cfg) (R : BitRead σ) (w n : Nat) (p : List Bool) :
    SameOn R (readIntBe c dequeRead w n) (readIntBe c R w n) p := by
  suffices H : ∀ n (res : BitVec w) cons p, SameOn R (readIntBeLoop c dequeRead n res cons) (readIntBeLoop c R n res cons) p
    from H n 0 false p
  intro n
  induction n with
  | zero => exact fun res _ p => SameOn.pure R res p
  | succ n ih =>
    intro res cons p
    refine (SameOn.readBit R p).bind (fun b _ rest _ _ => ?_) (stop_none cons)
    exact SameOn.lift (shlB_ne _ _ _) fun m _ => ih _ true rest

theorem readBit_shorter {p rest : List Bool} {b : Bool} (h : dequeRead.readBit p = .ok (.ok (some b), rest)) :
    rest.length < p.length := by
  cases p with
  | nil => simp [dequeRead] at h
  | cons a p =>
    injection h with h
    injection h with _ h
    rw [← h]
    simp

theorem same_unary (c : Cfg) (R : BitRead σ) (p : List Bool) : SameOn R (Unary.decode c dequeRead) (Unary.decode c R) p := by
  suffices H : ∀ n r cons (p : List Bool), p.length ≤ n →
      SameOn R (Unary.decodeLoop c dequeRead r cons) (Unary.decodeLoop c R r cons) p from H _ 0 false p (Nat.le_refl _)
  intro n
  induction n with
  | zero =>
    intro r cons p hp
    rw [Unary.decodeLoop.eq_def, Unary.decodeLoop.eq_def]
    refine (SameOn.readBit R p).bind (fun b _ rest _ hb => ?_) (stop_none cons)
    have := readBit_shorter hb
    omega
  | succ n ih =>
    intro r cons p hp
    rw [Unary.decodeLoop.eq_def, Unary.decodeLoop.eq_def]
    refine (SameOn.readBit R p).bind (fun b _ rest _ hb => ?_) (stop_none cons)
    have := readBit_shorter hb
    cases b
    · exact SameOn.lift (addN_ne _ _ _ _) fun m _ => ih m true rest (by omega)
    · exact SameOn.pure R r rest

theorem same_elias (c : Cfg) (R : BitRead σ) (K : Code) (p : List Bool) (h : SameOn R (K.decode dequeRead) (K.decode R) p) :
    SameOn R (Elias.decode c K dequeRead) (Elias.decode c K R) p := by
  refine h.bind (fun n _ rest _ _ => ?_) ⟨.ok none, .inl rfl, fun _ => rfl, fun _ => rfl⟩
  refine SameOn.lift (subN_ne _ _ _ _) fun m _ => ?_
  by_cases hm : n > m
  · simp only [if_pos hm]
    exact SameOn.invalid R rest
  · simp only [if_neg hm]
    refine (same_readInt c R 64 _ rest).bind (fun v _ rest' _ _ => ?_) ⟨_, .inr rfl, fun _ => rfl, fun _ => rfl⟩
    exact SameOn.lift (shlN_ne _ _ _ _) fun hi _ => SameOn.pure R _ rest'

theorem same_lift0 (c : Cfg) (R : BitRead σ) (K : Code) (p : List Bool) (h : SameOn R (K.decode dequeRead) (K.decode R) p) :
    SameOn R (Lift0.decode c K dequeRead) (Lift0.decode c K R) p := by
  refine h.bind (fun n _ rest _ _ => ?_) ⟨.ok none, .inl rfl, fun _ => rfl, fun _ => rfl⟩
  exact SameOn.lift (subN_ne _ _ _ _) fun m _ => SameOn.pure R _ rest

theorem same_omega (c : Cfg) (R : BitRead σ) (p : List Bool) : SameOn R (Omega.decode c dequeRead) (Omega.decode c R) p := by
  suffices H : ∀ n r (p : List Bool), p.length ≤ n → SameOn R (Omega.decodeLoop c dequeRead r) (Omega.decodeLoop c R r) p
    from H _ 1 p (Nat.le_refl _)
  intro n
  induction n with
  | zero =>
    intro r p hp
    rw [Omega.decodeLoop.eq_def, Omega.decodeLoop.eq_def]
    refine (SameOn.readBit R p).bind (fun b _ rest _ hb => ?_) ?_
    · have := readBit_shorter hb
      omega
    · have := @stop_none Nat (!decide (r = 1)) σ
      by_cases h1 : r = 1
      · simpa [h1] using this
      · simpa [h1] using this
  | succ n ih =>
    intro r p hp
    rw [Omega.decodeLoop.eq_def, Omega.decodeLoop.eq_def]
    refine (SameOn.readBit R p).bind (fun b _ rest _ hb => ?_) ?_
    · have := readBit_shorter hb
      cases b
      · exact SameOn.pure R r rest
      · refine (same_readIntBe c R 64 _ rest).bind (fun v used rest' hu _ => ?_) ⟨_, .inr rfl, fun _ => rfl, fun _ => rfl⟩
        refine SameOn.lift (shlN_ne _ _ _ _) fun hi _ => ih _ rest' ?_
        have := congrArg List.length hu
        rw [List.length_append] at this
        omega
    · have := @stop_none Nat (!decide (r = 1)) σ
      by_cases h1 : r = 1
      · simpa [h1] using this
      · simpa [h1] using this

theorem same_fib (c : Cfg) (R : BitRead σ) (p : List Bool) : SameOn R (Fibonacci.decode c dequeRead) (Fibonacci.decode c R) p := by
  have hstop : ∀ r : Nat, ∃ t, (t = .ok none ∨ t = .error IoErr.unexpectedEof) ∧
      (∀ l : List Bool, (if r = 0 then Pure.pure none else outOfBits : SM (List Bool) (Option Nat)) l = .ok (t, l)) ∧
      ∀ s : σ, (if r = 0 then Pure.pure none else outOfBits : SM σ (Option Nat)) s = .ok (t, s) := by
    intro r
    by_cases h : r = 0
    · simp only [if_pos h]
      exact ⟨.ok none, .inl rfl, fun _ => rfl, fun _ => rfl⟩
    · simp only [if_neg h]
      exact ⟨_, .inr rfl, fun _ => rfl, fun _ => rfl⟩
  suffices H : ∀ n r f prev (p : List Bool), p.length ≤ n →
      SameOn R (Fibonacci.decodeLoop c dequeRead r f prev) (Fibonacci.decodeLoop c R r f prev) p
    from H _ 0 Fib.new false p (Nat.le_refl _)
  intro n
  induction n with
  | zero =>
    intro r f prev p hp
    rw [Fibonacci.decodeLoop.eq_def, Fibonacci.decodeLoop.eq_def]
    refine (SameOn.readBit R p).bind (fun b _ rest _ hb => ?_) (hstop r)
    have := readBit_shorter hb
    omega
  | succ n ih =>
    intro r f prev p hp
    rw [Fibonacci.decodeLoop.eq_def, Fibonacci.decodeLoop.eq_def]
    refine (SameOn.readBit R p).bind (fun b _ rest _ hb => ?_) (hstop r)
    have := readBit_shorter hb
    by_cases hbp : (b && prev) = true
    · simp only [if_pos hbp]
      exact SameOn.pure R r rest
    · simp only [if_neg hbp]
      refine SameOn.lift ?_ fun m _ => ?_
      · split
        · exact addN_ne _ _ _ _
        · simp
      · cases hf : f.next with
        | none =>
          simp only [Fibonacci.tryNext, hf]
          exact SameOn.invalid R rest
        | some f' =>
          simp only [Fibonacci.tryNext, hf]
          exact ih _ f' b rest (by omega)

theorem readInt_shorter (c : Cfg) {n : Nat} (hn : n ≠ 0) {p rest : List Bool} {v : BitVec 64}
    (h : readInt c dequeRead 64 n p = .ok (.ok (some v), rest)) : rest.length < p.length := by
  rcases Nat.lt_or_ge p.length n with hp | hp
  · have h1 := deque_reads p []
    rw [List.append_nil] at h1
    have hb : NoBit (dequeRead.readBit ([] : List Bool)) := by intro b s; simp [dequeRead]
    rw [readInt_stop c dequeRead (by omega) h1 hb hp] at h
    simp only [dequeRead, List.head?_nil, stopWith] at h
    injection h with h
    injection h with h
    revert h
    split <;> simp
  · have h1 := deque_reads (p.take n) (p.drop n)
    rw [List.take_append_drop] at h1
    rw [readInt_reads c dequeRead (by omega) h1 (by simp; omega)] at h
    injection h with h
    injection h with _ h
    rw [← h]
    simp
    omega

theorem same_comma (c : Cfg) (k : Nat) (R : BitRead σ) (p : List Bool) : SameOn R (Comma.decode c k dequeRead) (Comma.decode c k R) p := by
  have hbase : Comma.base c k ≠ .diverge := by
    unfold Comma.base
    cases h : shlN c 64 1 k with
    | ok a => exact subN_ne _ _ _ _
    | panic => simp
    | diverge => exact absurd h (shlN_ne _ _ _ _)
  refine SameOn.lift hbase fun b hb => ?_
  by_cases hk : k = 0
  · subst hk
    have hb0 : b = 0 := by
      rw [Comma.base, shlN_ok (by omega) (by omega)] at hb
      simp only [Res.ok_bind] at hb
      rw [subN_ok (by omega)] at hb
      injection hb with hb
      omega
    subst hb0
    rw [Comma.decodeLoop.eq_def, Comma.decodeLoop.eq_def]
    exact SameOn.pure R 0 p
  · suffices H : ∀ n r cons (p : List Bool), p.length ≤ n →
        SameOn R (Comma.decodeLoop c k b dequeRead r cons) (Comma.decodeLoop c k b R r cons) p from H _ 0 false p (Nat.le_refl _)
    intro n
    induction n with
    | zero =>
      intro r cons p hp
      rw [Comma.decodeLoop.eq_def, Comma.decodeLoop.eq_def]
      refine (same_readInt c R 64 k p).bind (fun v _ rest _ hv => ?_) (stop_none cons)
      have := readInt_shorter c hk hv
      omega
    | succ n ih =>
      intro r cons p hp
      rw [Comma.decodeLoop.eq_def, Comma.decodeLoop.eq_def]
      refine (same_readInt c R 64 k p).bind (fun v _ rest _ hv => ?_) (stop_none cons)
      have := readInt_shorter c hk hv
      by_cases hvb : v.toNat = b
      · simp only [if_pos hvb]
        exact SameOn.pure R r rest
      · simp only [if_neg hvb]
        exact SameOn.lift (mulN_ne _ _ _ _) fun a _ => SameOn.lift (addN_ne _ _ _ _) fun m _ => ih m true rest (by omega)

end Succinct
