import Verif.Props.CodeOutcome
import Verif.Lemmas.AnySource
/-!
# C121: decoding from sources that fail
-/
namespace Succinct
open Spec

/-- The bits `bits`, coming from any source, decide the outcome of decoding: if they make up a value, or are too much for one, the
source is asked for exactly the bits that takes, and whatever else it may do does not matter. If they do not, the source is asked for
another bit, and unless it delivers one decoding is over: the end of the stream is reported as the end or as `UnexpectedEof`, anything
else the source does (an error, a panic, hanging) is passed on. -/
def Decides (K : Code) (bits : List Bool) (o : Outcome) : Prop :=
  ∀ (σ : Type) (R : BitRead σ) (s s' : σ), Reads R s bits s' →
    match o with
    | .value v rest => ∃ used s1, bits = used ++ rest ∧ Reads R s used s1 ∧ K.decode R s = .ok (.ok (some v), s1)
    | .invalid rest => ∃ used s1, bits = used ++ rest ∧ Reads R s used s1 ∧ K.decode R s = .ok (.error .invalidData, s1)
    | .panics => K.decode R s = .panic
    | .nothing => NoBit (R.readBit s') → K.decode R s = stopWith (.ok none) (R.readBit s')
    | .eof => NoBit (R.readBit s') → K.decode R s = stopWith (.error .unexpectedEof) (R.readBit s')

theorem same_code (c : Cfg) (k : CodeName) (R : BitRead σ) (p : List Bool) :
    SameOn R ((k.code c).decode dequeRead) ((k.code c).decode R) p := by
  induction k with
  | unary => exact same_unary c R p
  | omega => exact same_omega c R p
  | comma n => exact same_comma c n R p
  | fibonacci => exact same_fib c R p
  | elias k ih => exact same_elias c R _ p ih
  | lift0 k ih => exact same_lift0 c R _ p ih

theorem dequeSource : LawfulSource dequeRead (fun s l => s = l) where
  some := by intro s b l h; subst h; exact ⟨l, rfl, rfl⟩
  none := by intro s h; subst h; exact ⟨[], rfl, rfl⟩

/-- C121: for every code, every source and every sequence of bits. -/
theorem C121_any (c : Cfg) (k : CodeName) (bits : List Bool) (hl : bits.length < 2 ^ 64) :
    Decides (k.code c) bits (k.decOut c bits) := by
  intro σ R s s' hr
  have h1 := C106_all c k bits hl (List Bool) dequeRead (fun s l => s = l) dequeSource bits rfl
  rcases same_code c k R bits s s' hr with ⟨r, used, rest, s1, g1, g2, g3, g4, g5⟩ | ⟨g1, g2⟩ | ⟨t, g1, g2, g3⟩
  · cases ho : k.decOut c bits with
    | value v rest' =>
      rw [ho] at h1
      obtain ⟨l, h2, rfl⟩ := h1
      rw [g1] at h2
      injection h2 with h2
      injection h2 with h2 h3
      subst h2 h3
      exact ⟨used, s1, g3, g4, g5⟩
    | nothing =>
      rw [ho] at h1
      obtain ⟨l, h2, -⟩ := h1
      rw [g1] at h2
      injection h2 with h2
      injection h2 with h2 h3
      subst h2
      rcases g2 with ⟨v, g2⟩ | g2 <;> cases g2
    | eof =>
      rw [ho] at h1
      obtain ⟨l, h2, -⟩ := h1
      rw [g1] at h2
      injection h2 with h2
      injection h2 with h2 h3
      subst h2
      rcases g2 with ⟨v, g2⟩ | g2 <;> cases g2
    | invalid rest' =>
      rw [ho] at h1
      obtain ⟨l, h2, rfl⟩ := h1
      rw [g1] at h2
      injection h2 with h2
      injection h2 with h2 h3
      subst h2 h3
      exact ⟨used, s1, g3, g4, g5⟩
    | panics =>
      rw [ho] at h1
      rw [show (k.code c).decode dequeRead bits = .panic from h1] at g1
      cases g1
  · cases ho : k.decOut c bits with
    | panics => exact g2
    | value v rest' => rw [ho] at h1; obtain ⟨l, h2, -⟩ := h1; rw [g1] at h2; cases h2
    | nothing => rw [ho] at h1; obtain ⟨l, h2, -⟩ := h1; rw [g1] at h2; cases h2
    | eof => rw [ho] at h1; obtain ⟨l, h2, -⟩ := h1; rw [g1] at h2; cases h2
    | invalid rest' => rw [ho] at h1; obtain ⟨l, h2, -⟩ := h1; rw [g1] at h2; cases h2
  · cases ho : k.decOut c bits with
    | value v rest' =>
      rw [ho] at h1
      obtain ⟨l, h2, -⟩ := h1
      rw [g2] at h2
      injection h2 with h2
      injection h2 with h2 h3
      subst h2
      rcases g1 with g1 | g1 <;> cases g1
    | nothing =>
      rw [ho] at h1
      obtain ⟨l, h2, -⟩ := h1
      rw [g2] at h2
      injection h2 with h2
      injection h2 with h2 h3
      subst h2
      exact g3
    | eof =>
      rw [ho] at h1
      obtain ⟨l, h2, -⟩ := h1
      rw [g2] at h2
      injection h2 with h2
      injection h2 with h2 h3
      subst h2
      exact g3
    | invalid rest' =>
      rw [ho] at h1
      obtain ⟨l, h2, -⟩ := h1
      rw [g2] at h2
      injection h2 with h2
      injection h2 with h2 h3
      subst h2
      rcases g1 with g1 | g1 <;> cases g1
    | panics =>
      rw [ho] at h1
      rw [show (k.code c).decode dequeRead bits = .panic from h1] at g2
      cases g2

/-- the outcome with more bits following -/
def moreBits (q : List Bool) : Outcome → Outcome
  | .value v rest => .value v (rest ++ q)
  | .invalid rest => .invalid (rest ++ q)
  | o => o

/-- C121: an outcome other than "more bits needed" is final: further bits do not change it, and are left in the source. -/
theorem C121_final (c : Cfg) (k : CodeName) (p q : List Bool) (hl : (p ++ q).length < 2 ^ 64)
    (h : k.decOut c p ≠ .nothing ∧ k.decOut c p ≠ .eof) : k.decOut c (p ++ q) = moreBits q (k.decOut c p) := by
  have hp : p.length < 2 ^ 64 := by rw [List.length_append] at hl; omega
  have h1 := C121_any c k p hp (List Bool) dequeRead (p ++ q) q (deque_reads p q)
  have h2 := C106_all c k (p ++ q) hl (List Bool) dequeRead (fun s l => s = l) dequeSource (p ++ q) rfl
  have key : ∀ r l, (k.code c).decode dequeRead (p ++ q) = .ok (r, l) →
      match k.decOut c (p ++ q) with
      | .value v rest => r = .ok (some v) ∧ l = rest
      | .nothing => r = .ok none
      | .eof => r = .error .unexpectedEof
      | .invalid rest => r = .error .invalidData ∧ l = rest
      | .panics => False := by
    intro r l hd
    cases ho : k.decOut c (p ++ q) with
    | value v rest => rw [ho] at h2; obtain ⟨l', h3, rfl⟩ := h2; rw [hd] at h3; injection h3 with h3; injection h3 with h3 h4; exact ⟨h3, h4⟩
    | nothing => rw [ho] at h2; obtain ⟨l', h3, -⟩ := h2; rw [hd] at h3; injection h3 with h3; injection h3 with h3 h4
    | eof => rw [ho] at h2; obtain ⟨l', h3, -⟩ := h2; rw [hd] at h3; injection h3 with h3; injection h3 with h3 h4
    | invalid rest => rw [ho] at h2; obtain ⟨l', h3, rfl⟩ := h2; rw [hd] at h3; injection h3 with h3; injection h3 with h3 h4; exact ⟨h3, h4⟩
    | panics => rw [ho] at h2; rw [show (k.code c).decode dequeRead (p ++ q) = .panic from h2] at hd; cases hd
  cases ho : k.decOut c p with
  | value v rest =>
    rw [ho] at h1
    obtain ⟨used, s1, h3, h4, h5⟩ := h1
    have h6 := deque_reads_eq h4
    rw [h3, List.append_assoc] at h6
    have h7 := List.append_cancel_left h6
    have h8 := key _ _ h5
    cases ho' : k.decOut c (p ++ q) <;> rw [ho'] at h8
    · injection h8.1 with h9
      injection h9 with h9
      rw [moreBits, h9, h7, h8.2]
    all_goals simp at h8
  | nothing => exact absurd ho h.1
  | eof => exact absurd ho h.2
  | invalid rest =>
    rw [ho] at h1
    obtain ⟨used, s1, h3, h4, h5⟩ := h1
    have h6 := deque_reads_eq h4
    rw [h3, List.append_assoc] at h6
    have h7 := List.append_cancel_left h6
    have h8 := key _ _ h5
    cases ho' : k.decOut c (p ++ q) <;> rw [ho'] at h8
    · simp at h8
    · simp at h8
    · simp at h8
    · rw [moreBits, h7, h8.2]
    · exact h8.elim
  | panics =>
    rw [ho] at h1
    cases ho' : k.decOut c (p ++ q) with
    | panics => rfl
    | value v rest => rw [ho'] at h2; obtain ⟨l', h3, -⟩ := h2; rw [show (k.code c).decode dequeRead (p ++ q) = .panic from h1] at h3; cases h3
    | nothing => rw [ho'] at h2; obtain ⟨l', h3, -⟩ := h2; rw [show (k.code c).decode dequeRead (p ++ q) = .panic from h1] at h3; cases h3
    | eof => rw [ho'] at h2; obtain ⟨l', h3, -⟩ := h2; rw [show (k.code c).decode dequeRead (p ++ q) = .panic from h1] at h3; cases h3
    | invalid rest => rw [ho'] at h2; obtain ⟨l', h3, -⟩ := h2; rw [show (k.code c).decode dequeRead (p ++ q) = .panic from h1] at h3; cases h3

/-- C121: where a panicking decoder stops. There is a number `n` of bits such that with fewer than `n` bits delivered decoding goes on
to ask for the next bit, and with `n` bits delivered it panics without asking for another one: when it unwinds, exactly `n` bits have been
taken from the source. -/
theorem C121_unwinds (c : Cfg) (k : CodeName) (bits : List Bool) (hl : bits.length < 2 ^ 64) (h : k.decOut c bits = .panics) :
    ∃ n, n ≤ bits.length ∧
      (∀ m, n ≤ m → k.decOut c (bits.take m) = .panics) ∧
      (∀ m, m < n → k.decOut c (bits.take m) = .nothing ∨ k.decOut c (bits.take m) = .eof) ∧
      ∀ (σ : Type) (R : BitRead σ) (s s' : σ) (m : Nat), Reads R s (bits.take m) s' →
        (n ≤ m → (k.code c).decode R s = .panic) ∧
        (m < n → NoBit (R.readBit s') → ∃ t, (t = .ok none ∨ t = .error .unexpectedEof) ∧
          (k.code c).decode R s = stopWith t (R.readBit s')) := by
  obtain ⟨n, hn, hmin⟩ : ∃ n, k.decOut c (bits.take n) = .panics ∧ ∀ m, m < n → k.decOut c (bits.take m) ≠ .panics := by
    have H : ∀ j, k.decOut c (bits.take j) = .panics →
        ∃ n, k.decOut c (bits.take n) = .panics ∧ ∀ m, m < n → k.decOut c (bits.take m) ≠ .panics := by
      intro j
      induction j using Nat.strongRecOn with
      | ind j ih =>
        intro hj
        by_cases hm : ∀ m, m < j → k.decOut c (bits.take m) ≠ .panics
        · exact ⟨j, hj, hm⟩
        · simp only [Classical.not_forall, Classical.not_not] at hm
          obtain ⟨m, hm, hp⟩ := hm
          exact ih m hm hp
    exact H bits.length (by rw [List.take_length]; exact h)
  have hlen : ∀ m, (bits.take m).length < 2 ^ 64 := fun m => by rw [List.length_take]; omega
  have hle : n ≤ bits.length := by
    rcases Nat.lt_or_ge bits.length n with hlt | hge
    · exact absurd (by rw [List.take_length]; exact h) (hmin _ hlt)
    · exact hge
  have hafter : ∀ m, n ≤ m → k.decOut c (bits.take m) = .panics := fun m hm => by
    have hsplit : bits.take m = bits.take n ++ (bits.take m).drop n := by
      conv => lhs; rw [← List.take_append_drop n (bits.take m)]
      rw [List.take_take, Nat.min_eq_left hm]
    have h2 := hlen m
    rw [hsplit] at h2 ⊢
    rw [C121_final c k _ _ h2 (by rw [hn]; simp), hn]
    rfl
  have hbefore : ∀ m, m < n → k.decOut c (bits.take m) = .nothing ∨ k.decOut c (bits.take m) = .eof := fun m hm => by
    by_cases h1 : k.decOut c (bits.take m) = .nothing
    · exact .inl h1
    · by_cases h2 : k.decOut c (bits.take m) = .eof
      · exact .inr h2
      · have h3 := C121_final c k (bits.take m) (bits.drop m) (by rw [List.take_append_drop]; exact hl) ⟨h1, h2⟩
        rw [List.take_append_drop, h] at h3
        exfalso
        have h4 := hmin m hm
        cases ho : k.decOut c (bits.take m) <;> rw [ho] at h3 h4 h1 h2 <;> simp [moreBits] at h3 h4 h1 h2
  refine ⟨n, hle, hafter, hbefore, fun σ R s s' m hr => ⟨fun hm => ?_, fun hm hb => ?_⟩⟩
  · have h1 := C121_any c k _ (hlen m) σ R s s' hr
    rw [hafter m hm] at h1
    exact h1
  · have h1 := C121_any c k _ (hlen m) σ R s s' hr
    rcases hbefore m hm with h2 | h2
    · rw [h2] at h1
      exact ⟨_, .inl rfl, h1 hb⟩
    · rw [h2] at h1
      exact ⟨_, .inr rfl, h1 hb⟩

/-- a source that delivers some bits and then fails with error 7 -/
def failing7 : BitRead (List Bool) where
  readBit s := match s with
    | [] => .ok (.error (.other 7), [])
    | b :: s => .ok (.ok (some b), s)

/-- Two bits of a codeword of three, then an error: the error comes through. One bit is a codeword: it is decoded, whatever follows.
Decoding zero with `Lift0(Unary)` panics after the first bit. -/
example (p : Ptr) :
    (delta ⟨true, p, true⟩).decode failing7 [false, true] = .ok (.error (.other 7), []) ∧
    (delta ⟨true, p, true⟩).decode failing7 [true] = .ok (.ok (some 1), []) ∧
    (CodeName.lift0 .unary).decOut ⟨true, p, true⟩ [true, false] = .panics ∧
    (CodeName.lift0 .unary).decOut ⟨true, p, true⟩ [] = .nothing := by
  have h1 := C121_any ⟨true, p, true⟩ (.elias (.lift0 (.elias .unary))) [false, true] (by decide) _ failing7 [false, true] []
    (.cons rfl (.cons rfl (.nil _)))
  have h2 := C121_any ⟨true, p, true⟩ (.elias (.lift0 (.elias .unary))) [true] (by decide) _ failing7 [true] [] (.cons rfl (.nil _))
  refine ⟨?_, ?_, rfl, rfl⟩
  · exact h1 (by intro b s; simp [failing7])
  · obtain ⟨used, s1, h3, h4, h5⟩ := h2
    have h3 : used = [true] := by simpa using h3.symm
    subst h3
    cases h4 with
    | cons h4 h6 =>
      cases h6
      injection h4 with h4
      injection h4 with _ h4
      subst h4
      exact h5

/-! Each theorem of this file that has hypotheses is applied to concrete data in `Verif/Instances/AnySource.lean`. -/

end Succinct
