import Verif.Props.Transcode
/-!
# Formats put together from codes, integers, choices and counted lists

A use of the coding and stream modules: a program that writes records. A format says what the records are made of: single bits,
integers in one of the codes, integers of a fixed number of bits in either order, one thing after another, one of two things after a bit
that says which, and lists after their length. What is written with a format is read back with it, from any sink and source.
-/
namespace Succinct
open Spec

/-- What a record is made of. -/
inductive Spec.Fmt where
  | bit
  | code (k : CodeName)
  | int (n : Nat)
  | intBe (n : Nat)
  | pair (a b : Fmt)
  | either (a b : Fmt)
  | list (k : CodeName) (a : Fmt)

namespace Spec.Fmt

/-- The records of a format. -/
@[reducible] def Val : Fmt → Type
  | bit => Bool
  | code _ => Nat
  | int _ => BitVec 64
  | intBe _ => BitVec 64
  | pair a b => a.Val × b.Val
  | either a b => a.Val ⊕ b.Val
  | list _ a => List a.Val

/-- Codes that can be used and widths of at most 64 bits, and at least one for `write_int_be`. -/
def Ok : Fmt → Prop
  | bit => True
  | code k => k.Valid
  | int n => n ≤ 64
  | intBe n => 1 ≤ n ∧ n ≤ 64
  | pair a b => a.Ok ∧ b.Ok
  | either a b => a.Ok ∧ b.Ok
  | list k a => k.Valid ∧ a.Ok

/-- The numbers and lengths are ones that can be written. -/
def Fit : (t : Fmt) → t.Val → Prop
  | bit, _ => True
  | code k, v => k.Dom v
  | int n, v => v.toNat < 2 ^ n
  | intBe n, v => v.toNat < 2 ^ n
  | pair a b, (x, y) => a.Fit x ∧ b.Fit y
  | either a _, .inl x => a.Fit x
  | either _ b, .inr y => b.Fit y
  | list k a, xs => k.Dom xs.length ∧ ∀ x ∈ xs, a.Fit x

/-- The bits of a record. -/
def bits : (t : Fmt) → t.Val → List Bool
  | bit, b => [b]
  | code k, v => CodeName.word k v
  | int n, v => natBits n v.toNat
  | intBe n, v => (natBits n v.toNat).reverse
  | pair a b, (x, y) => a.bits x ++ b.bits y
  | either a _, .inl x => false :: a.bits x
  | either _ b, .inr y => true :: b.bits y
  | list k a, xs => CodeName.word k xs.length ++ xs.flatMap a.bits

/-- Every code accepts nothing but codewords (C77). -/
def Canonical : Fmt → Prop
  | bit => True
  | code k => k.Canonical
  | int _ => True
  | intBe _ => True
  | pair a b => a.Canonical ∧ b.Canonical
  | either a b => a.Canonical ∧ b.Canonical
  | list k a => k.Canonical ∧ a.Canonical

end Spec.Fmt

/-- `source.read()?.ok_or(Error::new(UnexpectedEof, ..))?`: the end of the stream is an error here. -/
def needed (m : SM σ (Option α)) : SM σ α := do
  match ← m with
  | some a => pure a
  | none => SM.fail .unexpectedEof

/-- `for x in xs { write(x)? }` -/
def writeEach (f : α → SM σ Unit) : List α → SM σ Unit
  | [] => pure ()
  | x :: xs => do
    f x
    writeEach f xs

/-- `(0 .. n).map(|_| read()).collect()`, stopping at the first error -/
def readEach (m : SM σ α) : Nat → SM σ (List α)
  | 0 => pure []
  | n + 1 => do
    let x ← m
    let xs ← readEach m n
    pure (x :: xs)

variable (c : Cfg)

/-- Write a record. -/
def fmtWrite (W : BitWrite σ) : (t : Fmt) → t.Val → SM σ Unit
  | .bit, b => W.writeBit b
  | .code k, v => (k.code c).encode W v
  | .int n, v => writeInt c false W n v
  | .intBe n, v => writeIntBe c false W n v
  | .pair a b, (x, y) => do
    fmtWrite W a x
    fmtWrite W b y
  | .either a _, .inl x => do
    W.writeBit false
    fmtWrite W a x
  | .either _ b, .inr y => do
    W.writeBit true
    fmtWrite W b y
  | .list k a, xs => do
    (k.code c).encode W xs.length
    writeEach (fmtWrite W a) xs

/-- Read a record. -/
def fmtRead (R : BitRead σ) : (t : Fmt) → SM σ t.Val
  | .bit => needed R.readBit
  | .code k => needed ((k.code c).decode R)
  | .int n => needed (readInt c R 64 n)
  | .intBe n => needed (readIntBe c R 64 n)
  | .pair a b => do
    let x ← fmtRead R a
    let y ← fmtRead R b
    pure (x, y)
  | .either a b => do
    let right ← needed R.readBit
    if right then do
      let y ← fmtRead R b
      pure (.inr y)
    else do
      let x ← fmtRead R a
      pure (.inl x)
  | .list k a => do
    let n ← needed ((k.code c).decode R)
    readEach (fmtRead R a) n

/-! ### Writing -/
variable {c}

theorem writeEach_eq {f : α → SM σ Unit} {W : BitWrite σ} {bits : α → List Bool} (xs : List α)
    (h : ∀ x ∈ xs, f x = writeAll W (bits x)) : writeEach f xs = writeAll W (xs.flatMap bits) := by
  induction xs with
  | nil => rfl
  | cons x xs ih =>
    rw [writeEach, List.flatMap_cons, writeAll_append, h x (by simp), ih fun y hy => h y (by simp [hy])]

theorem fmtWrite_eq (W : BitWrite σ) (t : Fmt) (ht : t.Ok) (v : t.Val) (hv : t.Fit v) : fmtWrite c W t v = writeAll W (t.bits v) := by
  induction t with
  | bit => exact (writeAll_singleton W v).symm
  | code k => exact (C62_all c true (k.of c ht)).encodes v hv W
  | int n => exact writeInt_unsigned c W (by omega) n v
  | intBe n => exact writeIntBe_eq c false W (by omega) v ht.1 ht.2 (by simp)
  | pair a b iha ihb =>
    obtain ⟨x, y⟩ := v
    rw [fmtWrite, Fmt.bits, writeAll_append, iha ht.1 x hv.1, ihb ht.2 y hv.2]
  | either a b iha ihb =>
    cases v with
    | inl x => rw [fmtWrite, Fmt.bits, writeAll, iha ht.1 x hv]
    | inr y => rw [fmtWrite, Fmt.bits, writeAll, ihb ht.2 y hv]
  | list k a ih =>
    rw [fmtWrite, Fmt.bits, writeAll_append, (C62_all c true (k.of c ht.1)).encodes _ hv.1 W,
      writeEach_eq v fun x hx => ih ht.2 x (hv.2 x hx)]

/-! ### Reading -/

theorem needed_ok {m : SM σ (Option α)} {s s' : σ} {a : α} (h : m s = .ok (.ok (some a), s')) : needed m s = .ok (.ok a, s') := by
  rw [needed, SM.bind_run_ok h]
  rfl

theorem readEach_ok {m : SM σ α} {R : BitRead σ} {bits : α → List Bool} (xs : List α) (h : ∀ x ∈ xs, ∀ s s', Reads R s (bits x) s' → m s = .ok (.ok x, s')) :
    ∀ {s s'}, Reads R s (xs.flatMap bits) s' → readEach m xs.length s = .ok (.ok xs, s') := by
  induction xs with
  | nil => intro s s' hr; cases hr; rfl
  | cons x xs ih =>
    intro s s' hr
    rw [List.flatMap_cons] at hr
    obtain ⟨s1, h1, h2⟩ := hr.split
    rw [List.length_cons, readEach, SM.bind_run_ok (h x (by simp) s s1 h1), SM.bind_run_ok (ih (fun y hy => h y (by simp [hy])) h2)]
    rfl

theorem fmtRead_ok (R : BitRead σ) (t : Fmt) (ht : t.Ok) (v : t.Val) (hv : t.Fit v) {s s' : σ} (h : Reads R s (t.bits v) s') :
    fmtRead c R t s = .ok (.ok v, s') := by
  induction t generalizing s s' with
  | bit =>
    cases h with
    | cons h1 h2 =>
      cases h2
      exact needed_ok h1
  | code k => exact needed_ok ((C62_all c true (k.of c ht)).decodes v hv R s s' h)
  | int n =>
    rw [Fmt.bits] at h
    refine needed_ok ((readInt_reads c R (by omega) h (natBits_length _ _)).trans ?_)
    rw [bitsVal_natBits, Nat.mod_eq_of_lt hv, BitVec.ofNat_toNat, BitVec.setWidth_eq]
  | intBe n =>
    rw [Fmt.bits] at h
    refine needed_ok ((readIntBe_reads c R (by omega) h (by rw [List.length_reverse, natBits_length])).trans ?_)
    rw [List.reverse_reverse, bitsVal_natBits, Nat.mod_eq_of_lt hv, BitVec.ofNat_toNat, BitVec.setWidth_eq]
  | pair a b iha ihb =>
    obtain ⟨x, y⟩ := v
    rw [Fmt.bits] at h
    obtain ⟨s1, h1, h2⟩ := h.split
    rw [fmtRead, SM.bind_run_ok (iha ht.1 x hv.1 h1), SM.bind_run_ok (ihb ht.2 y hv.2 h2)]
    rfl
  | either a b iha ihb =>
    cases v with
    | inl x =>
      rw [Fmt.bits] at h
      cases h with
      | cons h1 h2 =>
        rw [fmtRead, SM.bind_run_ok (needed_ok h1)]
        simp only [Bool.false_eq_true, ↓reduceIte]
        rw [SM.bind_run_ok (iha ht.1 x hv h2)]
        rfl
    | inr y =>
      rw [Fmt.bits] at h
      cases h with
      | cons h1 h2 =>
        rw [fmtRead, SM.bind_run_ok (needed_ok h1)]
        simp only [↓reduceIte]
        rw [SM.bind_run_ok (ihb ht.2 y hv h2)]
        rfl
  | list k a ih =>
    rw [Fmt.bits] at h
    obtain ⟨s1, h1, h2⟩ := h.split
    rw [fmtRead, SM.bind_run_ok (needed_ok ((C62_all c true (k.of c ht.1)).decodes _ hv.1 R s s1 h1))]
    exact readEach_ok v (fun x hx s s' hr => ih ht.2 x (hv.2 x hx) hr) h2

/-! ### Streams that end too early -/

theorem needed_stop {m : SM σ (Option α)} {s : σ} {r : Res (Except IoErr (Option Bool) × σ)} {e : Except IoErr (Option α)}
    (he : e = .ok none ∨ e = .error .unexpectedEof) (h : m s = stopWith e r) : needed m s = stopWith (.error .unexpectedEof) r := by
  rcases he with rfl | rfl
  · exact bind_stop_none h fun s => rfl
  · exact bind_stop_err h

/-- A truncated codeword makes every decoder stop, with `Ok(None)` or `UnexpectedEof`. -/
theorem code_stops (c : Cfg) (f : Bool) {K : Code} {D : Nat → Prop} {word : Nat → List Bool} (h : CodeOf c f K D word) :
    ∀ v, D v → ∀ p q, word v = p ++ q → q ≠ [] → ∀ {σ : Type} (R : BitRead σ) (s s' : σ), Reads R s p s' → NoBit (R.readBit s') →
      ∃ e, (e = .ok none ∨ e = .error .unexpectedEof) ∧ K.decode R s = stopWith e (R.readBit s') := by
  -- at the beginning, and for the codes of C64
  have base : ∀ {K : Code} {D : Nat → Prop} {word : Nat → List Bool}, EndsWell K → TruncatesTo K D word →
      ∀ v, D v → ∀ p q, word v = p ++ q → q ≠ [] → ∀ {σ : Type} (R : BitRead σ) (s s' : σ), Reads R s p s' → NoBit (R.readBit s') →
      ∃ e, (e = .ok none ∨ e = .error .unexpectedEof) ∧ K.decode R s = stopWith e (R.readBit s') := by
    intro K D word hE hT v hv p q e hq σ R s s' hr hn
    by_cases hp : p = []
    · subst hp
      cases hr
      exact ⟨_, .inl rfl, hE R s hn⟩
    · exact ⟨_, .inr rfl, hT v hv p q e hp hq R s s' hr hn⟩
  induction h with
  | unary => exact base (C55_unary c).ends (unary_trunc c)
  | omega => exact base (C58_omega c).ends (omega_trunc c)
  | comma h2 hn => exact base (C59_comma c h2 hn).ends (comma_trunc c h2 hn)
  | fibonacci =>
    intro v hv p q e hq σ R s s' hr hn
    refine ⟨_, ?_, fibonacci_trunc c v hv.1 hv.2 p q e hq R s s' hr hn⟩
    by_cases hp : true ∈ p
    · exact .inr (if_pos hp)
    · exact .inl (if_neg hp)
  | @elias f' H D' hw hH hD ih =>
    intro v hv p q e hq σ R s s' hr hn
    obtain ⟨h1, h2⟩ := hv
    have hl := log2_lt_64 h2 (by omega)
    have hHd := (C62_all c _ hH).decodes
    show ∃ e, _ ∧ Elias.decode c H R s = _
    rw [Elias.decode]
    -- the whole header and a proper part of the rest
    have rest : ∀ p', natBits v.log2 v = p' ++ q → ∀ s1, Reads R s (hw v.log2) s1 → Reads R s1 p' s' →
        (do match ← H.decode R with
            | some nbits => do
              let m ← SM.lift (subN c 64 64 1)
              if nbits > m then tooManyBits
              else do
                match ← readInt c R 64 (asUsize c nbits) with
                | some lowBits => do
                  let hi ← SM.lift (shlN c 64 1 nbits)
                  pure (some (lowBits.toNat ||| hi))
                | none => outOfBits
            | none => pure none : SM σ (Option Nat)) s = stopWith (.error .unexpectedEof) (R.readBit s') := by
      intro p' hq' s1 hr1 hr2
      rw [SM.bind_run_ok (hHd _ (hD _ (by omega)) R s s1 hr1)]
      simp only
      rw [subN_ok (by omega), SM.lift_ok_bind, if_neg (by omega)]
      have hlen : p'.length < v.log2 := by
        have := congrArg List.length hq'
        rw [natBits_length, List.length_append] at this
        have : 0 < q.length := List.length_pos_iff.2 hq
        omega
      have hstop := readInt_stop (w := 64) c R (by omega) hr2 hn hlen
      rw [asUsize_small c (by omega)]
      by_cases hp0 : p' = []
      · rw [if_pos hp0] at hstop
        exact bind_stop_none hstop fun s => rfl
      · rw [if_neg hp0] at hstop
        exact bind_stop_err hstop
    rcases List.append_eq_append_iff.1 e with ⟨p', hp', hq'⟩ | ⟨q', hh, hq'⟩
    · subst hp'
      obtain ⟨s1, hr1, hr2⟩ := Reads.split hr
      exact ⟨_, .inr rfl, rest p' hq' s1 hr1 hr2⟩
    · by_cases hq0 : q' = []
      · subst hq0
        rw [List.append_nil] at hh
        subst hh
        exact ⟨_, .inr rfl, rest [] (by rw [hq']; rfl) s' hr (.nil s')⟩
      · obtain ⟨e, he, hd⟩ := ih _ (hD _ (by omega)) p q' hh hq0 R s s' hr hn
        refine ⟨e, he, ?_⟩
        rcases he with rfl | rfl
        · exact bind_stop_none hd fun s => rfl
        · exact bind_stop_err hd
  | @lift0 f' K D' kw hK ih =>
    intro v hv p q e hq σ R s s' hr hn
    obtain ⟨e, he, hd⟩ := ih _ hv.1 p q e hq R s s' hr hn
    refine ⟨e, he, ?_⟩
    show Lift0.decode c K R s = _
    rw [Lift0.decode]
    rcases he with rfl | rfl
    · exact bind_stop_none hd fun s => rfl
    · exact bind_stop_err hd

/-- Either the first part has not been read in full, or it has and the second part has not. -/
theorem split_prefix {x y p q : List Bool} (h : x ++ y = p ++ q) :
    (∃ r, r ≠ [] ∧ x = p ++ r) ∨ ∃ p', p = x ++ p' ∧ y = p' ++ q := by
  rcases List.append_eq_append_iff.1 h with ⟨p', h1, h2⟩ | ⟨r, h1, h2⟩
  · exact .inr ⟨p', h1, h2⟩
  · by_cases hr : r = []
    · subst hr
      rw [List.append_nil] at h1
      exact .inr ⟨[], by rw [h1, List.append_nil], by rw [h2]; rfl⟩
    · exact .inl ⟨r, hr, h1⟩

theorem readEach_stop {m : SM σ α} {R : BitRead σ} {bits : α → List Bool} (xs : List α)
    (h : ∀ x ∈ xs, ∀ s s', Reads R s (bits x) s' → m s = .ok (.ok x, s'))
    (ht : ∀ x ∈ xs, ∀ p q, bits x = p ++ q → q ≠ [] → ∀ s s', Reads R s p s' → NoBit (R.readBit s') →
      m s = stopWith (.error .unexpectedEof) (R.readBit s')) :
    ∀ {p q : List Bool} {s s'}, xs.flatMap bits = p ++ q → q ≠ [] → Reads R s p s' → NoBit (R.readBit s') →
      readEach m xs.length s = stopWith (.error .unexpectedEof) (R.readBit s') := by
  induction xs with
  | nil =>
    intro p q s s' e hq
    have := List.append_eq_nil_iff.1 (show p ++ q = [] from e.symm)
    exact absurd this.2 hq
  | cons x xs ih =>
    intro p q s s' e hq hr hn
    rw [List.length_cons, readEach]
    rcases split_prefix (show bits x ++ xs.flatMap bits = p ++ q from e) with ⟨r, h1, h2⟩ | ⟨p', rfl, h2⟩
    · exact bind_stop_err (ht x (by simp) p r h2 h1 s s' hr hn)
    · obtain ⟨s1, hr1, hr2⟩ := hr.split
      rw [SM.bind_run_ok (h x (by simp) s s1 hr1)]
      exact bind_stop_err (ih (fun y hy => h y (by simp [hy])) (fun y hy => ht y (by simp [hy])) h2 hq hr2 hn)

theorem fmtRead_stop (R : BitRead σ) (t : Fmt) (ht : t.Ok) (v : t.Val) (hv : t.Fit v) {p q : List Bool} (e : t.bits v = p ++ q)
    (hq : q ≠ []) {s s' : σ} (hr : Reads R s p s') (hn : NoBit (R.readBit s')) :
    fmtRead c R t s = stopWith (.error .unexpectedEof) (R.readBit s') := by
  have one : ∀ {σ : Type} (R : BitRead σ) (s : σ), NoBit (R.readBit s) → needed R.readBit s = stopWith (.error .unexpectedEof) (R.readBit s) := by
    intro σ R s hn
    rw [needed, SM.bind_run]
    revert hn
    cases hb : R.readBit s with
    | panic => intro _; rfl
    | diverge => intro _; rfl
    | ok x =>
      obtain ⟨x, s1⟩ := x
      cases x with
      | error e => intro _; rfl
      | ok o =>
        cases o with
        | none => intro _; rfl
        | some b => intro hn; exact absurd rfl (hn b s1)
  induction t generalizing p q s s' with
  | bit =>
    have hp : p = [] := by
      cases p with
      | nil => rfl
      | cons b p =>
        have := congrArg List.length e
        have h0 : 0 < q.length := List.length_pos_iff.2 hq
        simp only [Fmt.bits, List.length_append, List.length_cons, List.length_nil] at this
        omega
    subst hp
    cases hr
    exact one R _ hn
  | code k =>
    obtain ⟨e, he, hd⟩ := code_stops c true (k.of c ht) v hv p q e hq R s s' hr hn
    exact needed_stop he hd
  | int n =>
    have hlen : p.length < n := by
      have := congrArg List.length e
      have h0 : 0 < q.length := List.length_pos_iff.2 hq
      rw [Fmt.bits, natBits_length, List.length_append] at this
      omega
    refine needed_stop ?_ (readInt_stop c R (by omega) hr hn hlen)
    split <;> simp
  | intBe n =>
    have hlen : p.length < n := by
      have := congrArg List.length e
      have h0 : 0 < q.length := List.length_pos_iff.2 hq
      rw [Fmt.bits, List.length_reverse, natBits_length, List.length_append] at this
      omega
    refine needed_stop ?_ (readIntBe_stop c R (by omega) hr hn hlen)
    split <;> simp
  | pair a b iha ihb =>
    obtain ⟨x, y⟩ := v
    rw [fmtRead]
    rcases split_prefix (show a.bits x ++ b.bits y = p ++ q from e) with ⟨r, h1, h2⟩ | ⟨p', rfl, h2⟩
    · exact bind_stop_err (iha ht.1 x hv.1 h2 h1 hr hn)
    · obtain ⟨s1, hr1, hr2⟩ := hr.split
      rw [SM.bind_run_ok (fmtRead_ok R a ht.1 x hv.1 hr1)]
      exact bind_stop_err (ihb ht.2 y hv.2 h2 hq hr2 hn)
  | either a b iha ihb =>
    rw [fmtRead]
    cases p with
    | nil =>
      cases hr
      exact bind_stop_err (one R _ hn)
    | cons b' p =>
      cases hr with
      | cons h1 h2 =>
        cases v with
        | inl x =>
          have e : false :: a.bits x = b' :: (p ++ q) := e
          injection e with e1 e2
          subst e1
          rw [SM.bind_run_ok (needed_ok h1)]
          simp only [Bool.false_eq_true, ↓reduceIte]
          exact bind_stop_err (iha ht.1 x hv e2 hq h2 hn)
        | inr y =>
          have e : true :: b.bits y = b' :: (p ++ q) := e
          injection e with e1 e2
          subst e1
          rw [SM.bind_run_ok (needed_ok h1)]
          simp only [↓reduceIte]
          exact bind_stop_err (ihb ht.2 y hv e2 hq h2 hn)
  | list k a ih =>
    rw [fmtRead]
    rcases split_prefix (show CodeName.word k v.length ++ v.flatMap a.bits = p ++ q from e) with ⟨r, h1, h2⟩ | ⟨p', rfl, h2⟩
    · obtain ⟨e, he, hd⟩ := code_stops c true (k.of c ht.1) _ hv.1 p r h2 h1 R s s' hr hn
      exact bind_stop_err (needed_stop he hd)
    · obtain ⟨s1, hr1, hr2⟩ := hr.split
      rw [SM.bind_run_ok (needed_ok ((C62_all c true (k.of c ht.1)).decodes _ hv.1 R s s1 hr1))]
      exact readEach_stop v (fun x hx s s' hr => fmtRead_ok R a ht.2 x (hv.2 x hx) hr)
        (fun x hx p q e hq s s' hr hn => ih ht.2 x (hv.2 x hx) e hq hr hn) h2 hq hr2 hn

/-! ### Only what was written -/

theorem needed_inv {m : SM σ (Option α)} {s s' : σ} {a : α} (h : needed m s = .ok (.ok a, s')) : m s = .ok (.ok (some a), s') := by
  rw [needed, SM.bind_run] at h
  cases hm : m s with
  | panic => rw [hm] at h; cases h
  | diverge => rw [hm] at h; cases h
  | ok x =>
    obtain ⟨x, s1⟩ := x
    rw [hm] at h
    cases x with
    | error e => cases h
    | ok o =>
      cases o with
      | none => cases h
      | some b => cases h; rfl

theorem bind_inv {m : SM σ α} {k : α → SM σ β} {s s' : σ} {b : β} (h : (m >>= k) s = .ok (.ok b, s')) :
    ∃ a s1, m s = .ok (.ok a, s1) ∧ k a s1 = .ok (.ok b, s') := by
  rw [SM.bind_run] at h
  cases hm : m s with
  | panic => rw [hm] at h; cases h
  | diverge => rw [hm] at h; cases h
  | ok x =>
    obtain ⟨x, s1⟩ := x
    rw [hm] at h
    cases x with
    | error e => cases h
    | ok a => exact ⟨a, s1, rfl, h⟩

theorem readEach_inv {m : SM σ α} {R : BitRead σ} {P : α → Prop} {bits : α → List Bool}
    (h : ∀ x s s', m s = .ok (.ok x, s') → ∃ l, Reads R s l s' ∧ (l.length < 2 ^ 64 → P x ∧ l = bits x)) (n : Nat) :
    ∀ {xs : List α} {s s' : σ}, readEach m n s = .ok (.ok xs, s') →
      xs.length = n ∧ ∃ l, Reads R s l s' ∧ (l.length < 2 ^ 64 → (∀ x ∈ xs, P x) ∧ l = xs.flatMap bits) := by
  induction n with
  | zero =>
    intro xs s s' e
    cases e
    exact ⟨rfl, [], .nil s, fun _ => ⟨fun _ hx => (List.not_mem_nil hx).elim, rfl⟩⟩
  | succ n ih =>
    intro xs s s' e
    obtain ⟨x, s1, h1, h2⟩ := bind_inv e
    obtain ⟨ys, s2, h3, h4⟩ := bind_inv h2
    cases h4
    obtain ⟨l1, r1, b1⟩ := h x s s1 h1
    obtain ⟨h5, l2, r2, b2⟩ := ih h3
    refine ⟨by rw [List.length_cons, h5], l1 ++ l2, r1.append r2, fun hl => ?_⟩
    rw [List.length_append] at hl
    obtain ⟨p1, rfl⟩ := b1 (by omega)
    obtain ⟨p2, rfl⟩ := b2 (by omega)
    refine ⟨fun y hy => ?_, rfl⟩
    rcases List.mem_cons.1 hy with rfl | hy
    · exact p1
    · exact p2 y hy

theorem fmtRead_inv (R : BitRead σ) (t : Fmt) (ht : t.Ok) (hc : t.Canonical) {v : t.Val} {s s' : σ}
    (h : fmtRead c R t s = .ok (.ok v, s')) : ∃ l, Reads R s l s' ∧ (l.length < 2 ^ 64 → t.Fit v ∧ l = t.bits v) := by
  induction t generalizing s s' with
  | bit => exact ⟨[v], .cons (needed_inv h) (.nil s'), fun _ => ⟨trivial, rfl⟩⟩
  | code k => exact CodeName.Canonical.only c hc R s s' v (needed_inv h)
  | int n =>
    obtain ⟨l, h1, h2, rfl⟩ := readInt_some (by omega) (needed_inv h)
    have hn : n ≤ 64 := ht
    have hlt : bitsVal l < 2 ^ n := by rw [← h1]; exact bitsVal_lt l
    have hlt' : bitsVal l < 2 ^ 64 := Nat.lt_of_lt_of_le hlt (Nat.pow_le_pow_right (by decide) hn)
    have e : (BitVec.ofNat 64 (bitsVal l)).toNat = bitsVal l := by rw [BitVec.toNat_ofNat, Nat.mod_eq_of_lt hlt']
    refine ⟨l, h2, fun _ => ⟨?_, ?_⟩⟩
    · show (BitVec.ofNat 64 (bitsVal l)).toNat < 2 ^ n
      rw [e]; exact hlt
    · show l = natBits n (BitVec.ofNat 64 (bitsVal l)).toNat
      rw [e, ← h1, natBits_bitsVal]
  | intBe n =>
    obtain ⟨l, h1, h2, rfl⟩ := readIntBe_some (by omega) (needed_inv h)
    have hn : n ≤ 64 := ht.2
    have h1' : l.reverse.length = n := by rw [List.length_reverse, h1]
    have hlt : bitsVal l.reverse < 2 ^ n := by rw [← h1']; exact bitsVal_lt l.reverse
    have hlt' : bitsVal l.reverse < 2 ^ 64 := Nat.lt_of_lt_of_le hlt (Nat.pow_le_pow_right (by decide) hn)
    have e : (BitVec.ofNat 64 (bitsVal l.reverse)).toNat = bitsVal l.reverse := by rw [BitVec.toNat_ofNat, Nat.mod_eq_of_lt hlt']
    refine ⟨l, h2, fun _ => ⟨?_, ?_⟩⟩
    · show (BitVec.ofNat 64 (bitsVal l.reverse)).toNat < 2 ^ n
      rw [e]; exact hlt
    · show l = (natBits n (BitVec.ofNat 64 (bitsVal l.reverse)).toNat).reverse
      rw [e, ← h1', natBits_bitsVal, List.reverse_reverse]
  | pair a b iha ihb =>
    obtain ⟨x, s1, h1, h2⟩ := bind_inv h
    obtain ⟨y, s2, h3, h4⟩ := bind_inv h2
    cases h4
    obtain ⟨l1, r1, b1⟩ := iha ht.1 hc.1 h1
    obtain ⟨l2, r2, b2⟩ := ihb ht.2 hc.2 h3
    refine ⟨l1 ++ l2, r1.append r2, fun hl => ?_⟩
    rw [List.length_append] at hl
    obtain ⟨p1, rfl⟩ := b1 (by omega)
    obtain ⟨p2, rfl⟩ := b2 (by omega)
    exact ⟨⟨p1, p2⟩, rfl⟩
  | either a b iha ihb =>
    obtain ⟨right, s1, h1, h2⟩ := bind_inv h
    cases right with
    | true =>
      obtain ⟨y, s2, h3, h4⟩ := bind_inv h2
      cases h4
      obtain ⟨l2, r2, b2⟩ := ihb ht.2 hc.2 h3
      refine ⟨true :: l2, .cons (needed_inv h1) r2, fun hl => ?_⟩
      rw [List.length_cons] at hl
      obtain ⟨p2, rfl⟩ := b2 (by omega)
      exact ⟨p2, rfl⟩
    | false =>
      obtain ⟨x, s2, h3, h4⟩ := bind_inv h2
      cases h4
      obtain ⟨l1, r1, b1⟩ := iha ht.1 hc.1 h3
      refine ⟨false :: l1, .cons (needed_inv h1) r1, fun hl => ?_⟩
      rw [List.length_cons] at hl
      obtain ⟨p1, rfl⟩ := b1 (by omega)
      exact ⟨p1, rfl⟩
  | list k a ih =>
    obtain ⟨n, s1, h1, h2⟩ := bind_inv h
    obtain ⟨l1, r1, b1⟩ := CodeName.Canonical.only c hc.1 R s s1 n (needed_inv h1)
    obtain ⟨h5, l2, r2, b2⟩ := readEach_inv (fun x s s' e => ih ht.2 hc.2 e) n h2
    refine ⟨l1 ++ l2, r1.append r2, fun hl => ?_⟩
    rw [List.length_append] at hl
    obtain ⟨p1, rfl⟩ := b1 (by omega)
    obtain ⟨p2, rfl⟩ := b2 (by omega)
    subst h5
    exact ⟨⟨p1, p2⟩, rfl⟩

/-! ### The property -/

/-- C163: what is written with a format, on any sink, is read back with it from any source, and nothing more is read. -/
theorem C163_formats (c : Cfg) (t : Fmt) (ht : t.Ok) (v : t.Val) (hv : t.Fit v) {W : BitWrite σ} {RepW : σ → List Bool → Prop}
    {Fit : Nat → Prop} (hW : LawfulSink W RepW Fit) (hm : ∀ {m n}, Fit n → m ≤ n → Fit m) {R : BitRead τ}
    {RepR : τ → List Bool → Prop} (hR : LawfulSource R RepR) {s : σ} {l : List Bool} (hs : RepW s l)
    (hf : Fit (l.length + (t.bits v).length)) :
    ∃ s', fmtWrite c W t v s = .ok (.ok (), s') ∧ RepW s' (l ++ t.bits v) ∧
      ∀ u rest, RepR u (t.bits v ++ rest) → ∃ u', fmtRead c R t u = .ok (.ok v, u') ∧ RepR u' rest := by
  obtain ⟨s', h1, h2⟩ := hW.writeAll hm (t.bits v) hs hf
  refine ⟨s', by rw [fmtWrite_eq W t ht v hv]; exact h1, h2, fun u rest hu => ?_⟩
  obtain ⟨u', h3, h4⟩ := hR.reads _ hu
  exact ⟨u', fmtRead_ok R t ht v hv h3, h4⟩

/-- C163: no record is the beginning of another. -/
theorem C163_prefix_free (t : Fmt) (ht : t.Ok) {u v : t.Val} (hu : t.Fit u) (hv : t.Fit v) (h : t.bits u <+: t.bits v) : u = v := by
  obtain ⟨rest, e⟩ := h
  have h1 := fmtRead_ok (c := ⟨true, .p64, true⟩) dequeRead t ht u hu (deque_reads (t.bits u) rest)
  have h2 := fmtRead_ok (c := ⟨true, .p64, true⟩) dequeRead t ht v hv (deque_reads (t.bits v) [])
  rw [List.append_nil, ← e, h1] at h2
  cases h2
  rfl

/-- C163: when the source ends within a record, reading reports `UnexpectedEof`; another error of the source is passed on. -/
theorem C163_truncated (c : Cfg) (R : BitRead σ) (t : Fmt) (ht : t.Ok) (v : t.Val) (hv : t.Fit v) {p q : List Bool}
    (e : t.bits v = p ++ q) (hq : q ≠ []) {s s' : σ} (hr : Reads R s p s') (hn : NoBit (R.readBit s')) :
    fmtRead c R t s = stopWith (.error .unexpectedEof) (R.readBit s') :=
  fmtRead_stop R t ht v hv e hq hr hn

/-- C163: if the codes accept nothing but codewords, whatever is read from any source is a record, and the bits read are its bits. -/
theorem C163_canonical (c : Cfg) (R : BitRead σ) (t : Fmt) (ht : t.Ok) (hc : t.Canonical) {v : t.Val} {s s' : σ}
    (h : fmtRead c R t s = .ok (.ok v, s')) : ∃ l, Reads R s l s' ∧ (l.length < 2 ^ 64 → t.Fit v ∧ l = t.bits v) :=
  fmtRead_inv R t ht hc h

end Succinct
