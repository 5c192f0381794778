import Verif.CodeLaw
import Verif.Spec.Codes
import Verif.Lemmas.Stream
/-! # Lemmas about the universal codes: Unary, Elias and Lift0 -/
namespace Succinct
open Spec

theorem bind_stop_none {x : SM σ (Option α)} {f : Option α → SM σ β} {s : σ} {eof : Except IoErr β}
    {r : Res (Except IoErr (Option Bool) × σ)} (h : x s = stopWith (.ok none) r) (hf : ∀ s, f none s = .ok (eof, s)) :
    (x >>= f) s = stopWith eof r := by
  rw [SM.bind_run, h]
  cases r with
  | panic => rfl
  | diverge => rfl
  | ok p =>
    obtain ⟨e, s'⟩ := p
    cases e with
    | error e => rfl
    | ok o => exact hf s'

theorem bind_stop_err {x : SM σ α} {f : α → SM σ β} {s : σ} {e : IoErr}
    {r : Res (Except IoErr (Option Bool) × σ)} (h : x s = stopWith (.error e) r) :
    (x >>= f) s = stopWith (.error e) r := by
  rw [SM.bind_run, h]
  cases r with
  | panic => rfl
  | diverge => rfl
  | ok p =>
    obtain ⟨e, s'⟩ := p
    cases e <;> rfl

theorem stopWith_ok {eof : Except IoErr α} {r : Res (Except IoErr (Option Bool) × σ)} {y : Except IoErr α} {s : σ}
    (h : stopWith eof r = .ok (y, s)) : (∃ o, r = .ok (.ok o, s) ∧ y = eof) ∨ ∃ e, r = .ok (.error e, s) ∧ y = .error e := by
  cases r with
  | panic => cases h
  | diverge => cases h
  | ok p =>
    obtain ⟨e, s'⟩ := p
    cases e with
    | error e => cases h; exact .inr ⟨e, rfl, rfl⟩
    | ok o => cases h; exact .inl ⟨o, rfl, rfl⟩

/-- The possible outcomes of a step. -/
theorem readBit_cases (r : Res (Except IoErr (Option Bool) × σ)) :
    (∃ b s, r = .ok (.ok (some b), s)) ∨ NoBit r := by
  by_cases h : ∃ b s, r = .ok (.ok (some b), s)
  · exact .inl h
  · refine .inr fun b s hr => h ⟨b, s, hr⟩

/-- Reading up to `n` bits: either the source delivers `n` bits, or it stops earlier. -/
theorem reads_or_stops (R : BitRead σ) (n : Nat) (s : σ) :
    (∃ bits s', bits.length = n ∧ Reads R s bits s') ∨
    ∃ bits s', bits.length < n ∧ Reads R s bits s' ∧ NoBit (R.readBit s') := by
  induction n generalizing s with
  | zero => exact .inl ⟨[], s, rfl, .nil s⟩
  | succ n ih =>
    rcases readBit_cases (R.readBit s) with ⟨b, s1, h⟩ | h
    · rcases ih s1 with ⟨bits, s', h1, h2⟩ | ⟨bits, s', h1, h2, h3⟩
      · exact .inl ⟨b :: bits, s', by simp [h1], .cons h h2⟩
      · exact .inr ⟨b :: bits, s', by simp [h1], .cons h h2, h3⟩
    · exact .inr ⟨[], s, by simp, .nil s, h⟩

theorem natBits_length (n x : Nat) : (natBits n x).length = n := by simp [natBits]

theorem log2_lt_64 {v : Nat} (h : v < 2 ^ 64) (h0 : v ≠ 0) : v.log2 < 64 := (Nat.log2_lt h0).2 h

theorem or_two_pow {a k : Nat} (h : a < 2 ^ k) : a ||| 2 ^ k = a + 2 ^ k := by
  rw [Nat.or_comm, show (2 ^ k : Nat) ||| a = 2 ^ k * 1 ||| a by rw [Nat.mul_one], ← Nat.two_pow_add_eq_or_of_lt h]
  omega

theorem mod_log2_add {v : Nat} (h : v ≠ 0) : v % 2 ^ v.log2 + 2 ^ v.log2 = v := by
  have h1 := Nat.log2_self_le h
  have h2 := Nat.lt_log2_self (n := v)
  have h3 : v / 2 ^ v.log2 = 1 := by
    apply Nat.div_eq_of_lt_le <;> rw [Nat.pow_succ] at * <;> omega
  have := Nat.div_add_mod v (2 ^ v.log2)
  rw [h3] at this
  omega

theorem lowbits_or {v : Nat} (h0 : v ≠ 0) :
    v % 2 ^ v.log2 ||| 2 ^ v.log2 = v := by
  rw [or_two_pow (Nat.mod_lt _ (Nat.two_pow_pos _)), mod_log2_add h0]

theorem asUsize_small (c : Cfg) {n : Nat} (h : n < 2 ^ 32) : asUsize c n = n := by
  unfold asUsize
  apply Nat.mod_eq_of_lt
  rcases c.usz_cases with e | e <;> rw [e]
  · exact h
  · exact Nat.lt_trans h (by decide)

/-! ### Unary -/

theorem unary_encode {σ : Type} (W : BitWrite σ) (n : Nat) : Unary.encode W n = writeAll W (unaryWord n) := by
  induction n with
  | zero => exact (writeAll_singleton W true).symm
  | succ n ih =>
    rw [Unary.encode, ih]
    rfl

theorem unary_loop_reads (c : Cfg) (R : BitRead σ) {s s' : σ} {k : Nat} (h : Reads R s (List.replicate k false) s')
    (r : Nat) (hr : r + k < 2 ^ 64) (cons : Bool) :
    Unary.decodeLoop c R r cons s = Unary.decodeLoop c R (r + k) (cons || decide (0 < k)) s' := by
  induction k generalizing s r cons with
  | zero => cases h; simp
  | succ k ih =>
    rw [List.replicate_succ] at h
    cases h with
    | cons h1 h2 =>
      rw [Unary.decodeLoop, SM.bind_run_ok h1]
      simp only [Bool.false_eq_true, if_false]
      rw [addN_ok (by omega), SM.lift_ok_bind, ih h2 (r + 1) (by omega) true]
      congr 1
      · omega
      · simp

theorem unary_decode (c : Cfg) : DecodesBy (unary c) (· < 2 ^ 64) unaryWord := by
  intro v hv σ R s s' h
  obtain ⟨s1, h1, h2⟩ := Reads.split h
  show Unary.decodeLoop c R 0 false s = _
  rw [unary_loop_reads c R h1 0 (by omega) false, Nat.zero_add]
  cases h2 with
  | cons h3 h4 =>
    cases h4
    rw [Unary.decodeLoop, SM.bind_run_ok h3]
    rfl

theorem unary_loop_stop (c : Cfg) (R : BitRead σ) {s : σ} (h : NoBit (R.readBit s)) (r : Nat) (cons : Bool) :
    Unary.decodeLoop c R r cons s = stopWith (if cons then .error .unexpectedEof else .ok none) (R.readBit s) := by
  rw [Unary.decodeLoop]
  apply bind_noBit h
  intro s
  cases cons <;> rfl

theorem unary_ends (c : Cfg) : EndsWell (unary c) := by
  intro σ R s h
  exact unary_loop_stop c R h 0 false

theorem prefix_snoc {α : Type} {l p q : List α} {x : α} (h : l ++ [x] = p ++ q) (hq : q ≠ []) : ∃ q', l = p ++ q' ∧ q = q' ++ [x] := by
  rcases List.eq_nil_or_concat q with rfl | ⟨q', y, rfl⟩
  · exact absurd rfl hq
  · rw [List.concat_eq_append, ← List.append_assoc] at h
    obtain ⟨h1, h2⟩ := List.append_inj' h rfl
    cases h2
    exact ⟨q', h1, by simp⟩

theorem unary_trunc (c : Cfg) : TruncatesTo (unary c) (· < 2 ^ 64) unaryWord := by
  intro v hv p q e hp hq σ R s s' h hs
  obtain ⟨q', e', -⟩ := prefix_snoc e hq
  obtain ⟨k, rfl⟩ : ∃ k, p = List.replicate k false :=
    ⟨p.length, by rw [List.eq_replicate_iff]; exact ⟨rfl, fun b hb => by
      have : b ∈ List.replicate v false := e' ▸ List.mem_append_left _ hb
      exact List.eq_of_mem_replicate this⟩⟩
  have hk : k ≤ v := by have := congrArg List.length e'; simp at this; omega
  have hk0 : 0 < k := by rcases k with _ | k <;> simp_all
  show Unary.decodeLoop c R 0 false s = _
  rw [unary_loop_reads c R h 0 (by omega) false, unary_loop_stop c R hs]
  simp [hk0]

/-! ### Elias -/

/-- What `Elias<Header>` can represent, when `Header` can represent `D`. -/
abbrev EliasDom (D : Nat → Prop) (v : Nat) : Prop := 1 ≤ v ∧ v < 2 ^ 64 ∧ D v.log2

theorem elias_encode_on (c : Cfg) {H : Code} {D : Nat → Prop} {hw : Nat → List Bool} (hH : EncodesBy H D hw) :
    EncodesBy (elias c H) (EliasDom D) (eliasWord hw) := by
  intro v ⟨h1, h2, h3⟩ σ W
  have hl := log2_lt_64 h2 (by omega)
  show Elias.encode c H W v = _
  rw [Elias.encode, assertR_true (by omega), SM.lift_ok_bind, subN_ok (by omega), SM.lift_ok_bind, leadingZeros,
    if_neg (by omega), subN_ok (by omega), SM.lift_ok_bind, show 64 - 1 - (64 - 1 - v.log2) = v.log2 by omega,
    hH _ h3, writeInt_unsigned c W (by omega), eliasWord, writeAll_append, BitVec.toNat_ofNat,
    Nat.mod_eq_of_lt h2]

theorem elias_encode (c : Cfg) {H : Code} {D : Nat → Prop} {hw : Nat → List Bool} (hH : EncodesBy H D hw)
    (hD : ∀ n, n < 64 → D n) : EncodesBy (elias c H) (fun v => 1 ≤ v ∧ v < 2 ^ 64) (eliasWord hw) :=
  fun v ⟨h1, h2⟩ => elias_encode_on c hH v ⟨h1, h2, hD _ (log2_lt_64 h2 (by omega))⟩

theorem elias_rest_reads (c : Cfg) (R : BitRead σ) {s s' : σ} {v : Nat} (h1 : 1 ≤ v) (h2 : v < 2 ^ 64)
    (h : Reads R s (natBits v.log2 v) s') :
    readInt c R 64 (asUsize c v.log2) s = .ok (.ok (some (BitVec.ofNat 64 (v % 2 ^ v.log2))), s') := by
  have hl := log2_lt_64 h2 (by omega)
  rw [asUsize_small c (by omega), readInt_reads c R (by omega) h (natBits_length _ _), bitsVal_natBits]

theorem elias_decode_on (c : Cfg) {H : Code} {D : Nat → Prop} {hw : Nat → List Bool} (hH : DecodesBy H D hw) :
    DecodesBy (elias c H) (EliasDom D) (eliasWord hw) := by
  intro v ⟨h1, h2, h3⟩ σ R s s' h
  have hl := log2_lt_64 h2 (by omega)
  obtain ⟨s1, hr1, hr2⟩ := Reads.split h
  show Elias.decode c H R s = _
  rw [Elias.decode, SM.bind_run_ok (hH _ h3 R s s1 hr1)]
  simp only
  rw [subN_ok (by omega), SM.lift_ok_bind, if_neg (by omega), SM.bind_run_ok (elias_rest_reads c R h1 h2 hr2)]
  simp only
  have hle := Nat.log2_self_le (n := v) (by omega)
  rw [shlN_ok hl (by rw [Nat.one_mul]; omega), SM.lift_ok_bind, BitVec.toNat_ofNat,
    Nat.mod_eq_of_lt (Nat.lt_of_le_of_lt (Nat.mod_le _ _) h2), Nat.one_mul, lowbits_or (by omega)]
  rfl

theorem elias_decode (c : Cfg) {H : Code} {D : Nat → Prop} {hw : Nat → List Bool} (hH : DecodesBy H D hw)
    (hD : ∀ n, n < 64 → D n) : DecodesBy (elias c H) (fun v => 1 ≤ v ∧ v < 2 ^ 64) (eliasWord hw) :=
  fun v ⟨h1, h2⟩ => elias_decode_on c hH v ⟨h1, h2, hD _ (log2_lt_64 h2 (by omega))⟩

theorem elias_ends (c : Cfg) {H : Code} (hH : EndsWell H) : EndsWell (elias c H) := by
  intro σ R s h
  show Elias.decode c H R s = _
  rw [Elias.decode]
  exact bind_stop_none (hH R s h) fun s => rfl

theorem elias_trunc_on (c : Cfg) {H : Code} {D : Nat → Prop} {hw : Nat → List Bool} (hH : DecodesBy H D hw)
    (hT : TruncatesTo H D hw) :
    TruncatesTo (elias c H) (EliasDom D) (eliasWord hw) := by
  intro v ⟨h1, h2, h3⟩ p q e hp hq σ R s s' h hs
  have hl := log2_lt_64 h2 (by omega)
  show Elias.decode c H R s = _
  rw [Elias.decode]
  rcases List.append_eq_append_iff.1 e with ⟨p', hp', hq'⟩ | ⟨q', hh, hq'⟩
  · -- the whole header and a proper part of the rest
    subst hp'
    obtain ⟨s1, hr1, hr2⟩ := Reads.split h
    rw [SM.bind_run_ok (hH _ h3 R s s1 hr1)]
    simp only
    rw [subN_ok (by omega), SM.lift_ok_bind, if_neg (by omega)]
    have hlen : p'.length < v.log2 := by
      have := congrArg List.length hq'
      rw [natBits_length, List.length_append] at this
      have : 0 < q.length := List.length_pos_iff.2 hq
      omega
    have hstop := readInt_stop (w := 64) c R (by omega) hr2 hs hlen
    rw [asUsize_small c (by omega)]
    by_cases hp0 : p' = []
    · rw [if_pos hp0] at hstop
      exact bind_stop_none hstop fun s => rfl
    · rw [if_neg hp0] at hstop
      exact bind_stop_err hstop
  · by_cases hq0 : q' = []
    · -- exactly the header
      subst hq0
      rw [List.append_nil] at hh
      subst hh
      rw [SM.bind_run_ok (hH _ h3 R s s' h)]
      simp only
      rw [subN_ok (by omega), SM.lift_ok_bind, if_neg (by omega)]
      have hlen : ([] : List Bool).length < v.log2 := by
        have := congrArg List.length hq'
        have : 0 < q.length := List.length_pos_iff.2 hq
        simp at *
        omega
      have hstop := readInt_stop (w := 64) c R (by omega) (.nil s') hs hlen
      rw [if_pos rfl] at hstop
      rw [asUsize_small c (by omega)]
      exact bind_stop_none hstop fun s => rfl
    · exact bind_stop_err (hT _ h3 p q' hh hp hq0 R s s' h hs)

theorem elias_trunc (c : Cfg) {H : Code} {D : Nat → Prop} {hw : Nat → List Bool} (hH : DecodesBy H D hw)
    (hT : TruncatesTo H D hw) (hD : ∀ n, n < 64 → D n) :
    TruncatesTo (elias c H) (fun v => 1 ≤ v ∧ v < 2 ^ 64) (eliasWord hw) :=
  fun v ⟨h1, h2⟩ => elias_trunc_on c hH hT v ⟨h1, h2, hD _ (log2_lt_64 h2 (by omega))⟩

/-! ### Lift0 -/

theorem lift0_encode (c : Cfg) {K : Code} {D : Nat → Prop} {kw : Nat → List Bool} (hK : EncodesBy K D kw) :
    EncodesBy (lift0 c K) (fun v => D (v + 1) ∧ v + 1 < 2 ^ 64) (fun v => kw (v + 1)) := by
  intro v ⟨h1, h2⟩ σ W
  show Lift0.encode K W v = _
  rw [Lift0.encode, checkedAdd, if_pos h2]
  exact hK _ h1 W

theorem lift0_decode (c : Cfg) {K : Code} {D : Nat → Prop} {kw : Nat → List Bool} (hK : DecodesBy K D kw) :
    DecodesBy (lift0 c K) (fun v => D (v + 1) ∧ v + 1 < 2 ^ 64) (fun v => kw (v + 1)) := by
  intro v ⟨h1, h2⟩ σ R s s' h
  show Lift0.decode c K R s = _
  rw [Lift0.decode, SM.bind_run_ok (hK _ h1 R s s' h)]
  simp only
  rw [subN_ok (by omega)]
  rfl

theorem lift0_ends (c : Cfg) {K : Code} (hK : EndsWell K) : EndsWell (lift0 c K) := by
  intro σ R s h
  show Lift0.decode c K R s = _
  rw [Lift0.decode]
  exact bind_stop_none (hK R s h) fun s => rfl

theorem lift0_trunc (c : Cfg) {K : Code} {D : Nat → Prop} {kw : Nat → List Bool} (hK : TruncatesTo K D kw) :
    TruncatesTo (lift0 c K) (fun v => D (v + 1) ∧ v + 1 < 2 ^ 64) (fun v => kw (v + 1)) := by
  intro v ⟨h1, h2⟩ p q e hp hq σ R s s' h hs
  show Lift0.decode c K R s = _
  rw [Lift0.decode]
  exact bind_stop_err (hK _ h1 p q e hp hq R s s' h hs)

end Succinct
