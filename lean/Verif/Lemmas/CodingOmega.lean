import Verif.Lemmas.CodingTotal
/-! # Lemmas about the omega code -/
namespace Succinct
open Spec Lean.Order

theorem omegaGroups_small {v : Nat} (h : v ≤ 1) : omegaGroups v = [] := by
  rw [omegaGroups, dif_pos h]
theorem omegaGroups_large {v : Nat} (h : 1 < v) :
    omegaGroups v = omegaGroups v.log2 ++ (natBits (v.log2 + 1) v).reverse := by
  rw [omegaGroups, dif_neg (by omega)]

theorem log2_lt_self {v : Nat} (h : 1 ≤ v) : v.log2 < v := (Nat.log2_lt (by omega)).2 Nat.lt_two_pow_self
theorem one_le_log2 {v : Nat} (h : 1 < v) : 1 ≤ v.log2 := (Nat.le_log2 (by omega)).2 (by omega)
theorem testBit_log2 {v : Nat} (h : v ≠ 0) : v.testBit v.log2 = true := by
  have h1 := mod_log2_add h
  have h2 := Nat.mod_lt v (Nat.two_pow_pos v.log2)
  have := Nat.testBit_two_pow_add_eq (v % 2 ^ v.log2) v.log2
  rw [Nat.add_comm, h1, Nat.testBit_lt_two_pow h2] at this
  exact this

/-- The pushing loop leaves the chain `v, ⌊lg v⌋, …` with the smallest on top; popping writes the groups. -/
theorem omega_push_pop (c : Cfg) {σ : Type} (W : BitWrite σ) (v : Nat) (hv : v < 2 ^ 64) (stack : List (Nat × Nat)) :
    ∃ st, Omega.push c stack v = .ok st ∧
      Omega.pop c W st = (do writeAll W (omegaGroups v); Omega.pop c W stack) := by
  induction v using Nat.strongRecOn generalizing stack with
  | _ v ih =>
    rw [Omega.push]
    by_cases h : v > 1
    · have hl := log2_lt_64 hv (by omega)
      rw [if_pos h, leadingZeros, if_neg (by omega), subN_ok (by omega), Res.ok_bind, subN_ok (by omega), Res.ok_bind,
        show 64 - (64 - 1 - v.log2) = v.log2 + 1 by omega, Nat.add_sub_cancel]
      obtain ⟨st, h1, h2⟩ := ih v.log2 (log2_lt_self (by omega)) (by omega) ((v.log2 + 1, v) :: stack)
      refine ⟨st, h1, ?_⟩
      rw [h2, omegaGroups_large h, writeAll_append, Omega.pop,
        writeIntBe_eq c false W (by omega) _ (by omega) (by omega) (by simp), BitVec.toNat_ofNat, Nat.mod_eq_of_lt hv,
        SM.bind_assoc]
    · rw [if_neg h, omegaGroups_small (by omega)]
      exact ⟨stack, rfl, rfl⟩

/-- Encoding writes `omegaWord v`, even for 0, whose word is the word of 1. -/
theorem omega_encode (c : Cfg) : EncodesBy (omegaCode c) (· < 2 ^ 64) omegaWord := by
  intro v hv σ W
  obtain ⟨st, h1, h2⟩ := omega_push_pop c W v hv []
  show Omega.encode c W v = _
  rw [Omega.encode, h1, SM.lift_ok_bind, h2, omegaWord, writeAll_append, writeAll_singleton, SM.bind_assoc]
  rfl

/-- One step of the decoder. -/
theorem omega_loop_step (c : Cfg) (R : BitRead σ) {v : Nat} (h1 : 1 < v) (h2 : v < 2 ^ 64) {s s' : σ}
    (h : Reads R s (natBits (v.log2 + 1) v).reverse s') :
    Omega.decodeLoop c R v.log2 s = Omega.decodeLoop c R v s' := by
  have hl := log2_lt_64 h2 (by omega)
  rw [natBits_succ_reverse, testBit_log2 (by omega)] at h
  cases h with
  | cons h3 h4 =>
    rw [Omega.decodeLoop, SM.bind_run_ok h3]
    simp only [Bool.not_true, Bool.false_eq_true, if_false]
    rw [asUsize_small c (by omega), SM.bind_run_ok (readIntBe_reads c R (by omega) h4 (by simp))]
    simp only
    have hle := Nat.log2_self_le (n := v) (by omega)
    rw [Nat.mod_eq_of_lt (a := v.log2) (by omega), shlN_ok hl (by omega), SM.lift_ok_bind, List.reverse_reverse,
      bitsVal_natBits, BitVec.toNat_ofNat, Nat.mod_eq_of_lt (Nat.lt_of_le_of_lt (Nat.mod_le _ _) h2), Nat.one_mul,
      lowbits_or (by omega)]

theorem omega_loop_reads (c : Cfg) (R : BitRead σ) (v : Nat) (h1 : 1 ≤ v) (h2 : v < 2 ^ 64) {s s' : σ}
    (h : Reads R s (omegaGroups v) s') : Omega.decodeLoop c R 1 s = Omega.decodeLoop c R v s' := by
  induction v using Nat.strongRecOn generalizing s' with
  | _ v ih =>
    by_cases hv : 1 < v
    · rw [omegaGroups_large hv] at h
      obtain ⟨s1, h3, h4⟩ := Reads.split h
      have hl := log2_lt_self h1
      rw [ih v.log2 hl (one_le_log2 hv) (by omega) h3, omega_loop_step c R hv h2 h4]
    · rw [omegaGroups_small (by omega)] at h
      cases h
      rw [show v = 1 by omega]

theorem omega_decode (c : Cfg) : DecodesBy (omegaCode c) (fun v => 1 ≤ v ∧ v < 2 ^ 64) omegaWord := by
  intro v ⟨h1, h2⟩ σ R s s' h
  obtain ⟨s1, h3, h4⟩ := Reads.split h
  show Omega.decodeLoop c R 1 s = _
  rw [omega_loop_reads c R v h1 h2 h3]
  cases h4 with
  | cons h5 h6 =>
    cases h6
    rw [Omega.decodeLoop, SM.bind_run_ok h5]
    rfl

theorem omega_loop_stop (c : Cfg) (R : BitRead σ) {s : σ} (h : NoBit (R.readBit s)) (r : Nat) :
    Omega.decodeLoop c R r s = stopWith (if r = 1 then .ok none else .error .unexpectedEof) (R.readBit s) := by
  rw [Omega.decodeLoop]
  apply bind_noBit h
  intro s
  simp only
  split <;> rfl

theorem omega_ends (c : Cfg) : EndsWell (omegaCode c) := by
  intro σ R s h
  exact omega_loop_stop c R h 1

theorem omegaGroups_eq_nil {v : Nat} (h : 1 ≤ v) : omegaGroups v = [] ↔ v = 1 := by
  constructor
  · intro h1
    by_cases hv : 1 < v
    · rw [omegaGroups_large hv] at h1
      have := congrArg List.length h1
      simp at this
    · omega
  · rintro rfl
    exact omegaGroups_small (by omega)

theorem omega_loop_trunc (c : Cfg) (R : BitRead σ) (v : Nat) (h1 : 1 ≤ v) (h2 : v < 2 ^ 64) {p q : List Bool}
    (e : omegaGroups v = p ++ q) (hq : q ≠ []) {s s' : σ} (h : Reads R s p s') (hs : NoBit (R.readBit s')) :
    Omega.decodeLoop c R 1 s = stopWith (if p = [] then .ok none else .error .unexpectedEof) (R.readBit s') := by
  induction v using Nat.strongRecOn generalizing q with
  | _ v ih =>
    by_cases hv : 1 < v
    · rw [omegaGroups_large hv] at e
      have hlt := log2_lt_self h1
      have hl1 := one_le_log2 hv
      have hl := log2_lt_64 h2 (by omega)
      rcases List.append_eq_append_iff.1 e with ⟨p', hp', hq'⟩ | ⟨q', hh, hq'⟩
      · subst hp'
        obtain ⟨s1, hr1, hr2⟩ := Reads.split h
        rw [omega_loop_reads c R _ hl1 (by omega) hr1]
        cases p' with
        | nil =>
          cases hr2
          rw [omega_loop_stop c R hs, List.append_nil]
          congr 1
          simp only [omegaGroups_eq_nil hl1]
        | cons b p' =>
          rw [natBits_succ_reverse, testBit_log2 (by omega)] at hq'
          cases hr2 with
          | cons h3 h4 =>
            obtain ⟨rfl, hq''⟩ := List.cons.inj hq'
            replace hq'' : (natBits v.log2 v).reverse = p' ++ q := hq''
            rw [if_neg (by simp), Omega.decodeLoop, SM.bind_run_ok h3]
            simp only [Bool.not_true, Bool.false_eq_true, if_false]
            have hlen : p'.length < v.log2 := by
              have := congrArg List.length hq''
              rw [List.length_reverse, natBits_length, List.length_append] at this
              have : 0 < q.length := List.length_pos_iff.2 hq
              omega
            have hstop := readIntBe_stop (w := 64) c R (by omega) h4 hs hlen
            rw [asUsize_small c (by omega)]
            by_cases hp0 : p' = []
            · rw [if_pos hp0] at hstop
              exact bind_stop_none hstop fun s => rfl
            · rw [if_neg hp0] at hstop
              exact bind_stop_err hstop
      · by_cases hq0 : q' = []
        · subst hq0
          rw [List.append_nil] at hh
          subst hh
          rw [omega_loop_reads c R _ hl1 (by omega) h, omega_loop_stop c R hs]
          congr 1
          simp only [omegaGroups_eq_nil hl1]
        · exact ih v.log2 hlt hl1 (by omega) hh hq0
    · rw [omegaGroups_small (by omega)] at e
      have := congrArg List.length e
      have : 0 < q.length := List.length_pos_iff.2 hq
      simp at *
      omega

theorem omega_trunc (c : Cfg) : TruncatesTo (omegaCode c) (fun v => 1 ≤ v ∧ v < 2 ^ 64) omegaWord := by
  intro v ⟨h1, h2⟩ p q e hp hq σ R s s' h hs
  show Omega.decodeLoop c R 1 s = _
  obtain ⟨q', e', -⟩ := prefix_snoc e hq
  by_cases hq0 : q' = []
  · subst hq0
    rw [List.append_nil] at e'
    subst e'
    rw [omega_loop_reads c R v h1 h2 h, omega_loop_stop c R hs, if_neg]
    exact fun h => hp ((omegaGroups_eq_nil h1).2 h)
  · rw [omega_loop_trunc c R v h1 h2 e' hq0 h hs, if_neg hp]

/-! ### arbitrary sources -/

theorem natBits_group {n x : Nat} (h : x < 2 ^ n) :
    (natBits ((x ||| 2 ^ n).log2 + 1) (x ||| 2 ^ n)).reverse = true :: (natBits n x).reverse := by
  obtain ⟨h1, h2⟩ := elias_value h
  have h0 : x ||| 2 ^ n ≠ 0 := by
    rw [or_two_pow h]
    have := Nat.two_pow_pos n
    omega
  have ht := testBit_log2 h0
  rw [natBits_succ_reverse, ht, h1, natBits_congr (y := x)]
  rw [h2, Nat.mod_eq_of_lt h]

/-- In a debug build, a value is only returned for its own codeword (see `C77_omega_partial`). -/
theorem omega_loop_some (c : Cfg) (hd : c.debug = true) (hp : c.usz = 64) (R : BitRead σ) (r : Nat) (s s' : σ) (v : Nat)
    (h : Omega.decodeLoop c R r s = .ok (.ok (some v), s')) (hr1 : 1 ≤ r) (hr : r < 2 ^ 64) :
    ∃ bits, Reads R s bits s' ∧
      (bits.length < 2 ^ 32 → (1 ≤ v ∧ v < 2 ^ 64) ∧ omegaGroups r ++ bits = omegaWord v) := by
  suffices H : ∀ r s a s', Omega.decodeLoop c R r s = .ok (.ok a, s') → 1 ≤ r → r < 2 ^ 64 → ∀ v, a = some v →
      ∃ bits, Reads R s bits s' ∧
        (bits.length < 2 ^ 32 → (1 ≤ v ∧ v < 2 ^ 64) ∧ omegaGroups r ++ bits = omegaWord v) from
    H r s _ s' h hr1 hr v rfl
  apply Omega.decodeLoop.fixpoint_induct c R (fun f => ∀ r s a s', f r s = .ok (.ok a, s') → 1 ≤ r → r < 2 ^ 64 →
    ∀ v, a = some v → ∃ bits, Reads R s bits s' ∧
        (bits.length < 2 ^ 32 → (1 ≤ v ∧ v < 2 ^ 64) ∧ omegaGroups r ++ bits = omegaWord v))
  · exact admissible_ok _
  · intro f ih r s a s' h hr1 hr v ha
    subst ha
    obtain ⟨o, s1, h1, h2⟩ := SM.of_bind_ok h
    cases o with
    | none =>
      simp only at h2
      split at h2 <;> cases h2
    | some bit =>
      cases bit with
      | false =>
        cases h2
        exact ⟨[false], .cons h1 (.nil _), fun _ => ⟨⟨hr1, hr⟩, rfl⟩⟩
      | true =>
        simp only [Bool.not_true, Bool.false_eq_true, if_false] at h2
        obtain ⟨o2, s2, h3, h4⟩ := SM.of_bind_ok h2
        cases o2 with
        | none => cases h4
        | some x =>
          obtain ⟨hi, h5, h6⟩ := SM.of_lift_bind h4
          have hsh : r % 2 ^ 32 < 64 := by
            unfold shlN at h5
            split at h5
            · assumption
            · rw [overflow, if_pos hd] at h5; cases h5
          have hpow : 2 ^ (r % 2 ^ 32) < 2 ^ 64 := Nat.pow_lt_pow_right (by omega) hsh
          rw [shlN_ok hsh (by omega), Nat.one_mul] at h5
          cases h5
          rw [asUsize, hp, Nat.mod_eq_of_lt hr] at h3
          obtain ⟨g, hg1, hg2, hg3⟩ := readIntBe_some (by omega) h3
          have hpos : 1 ≤ x.toNat ||| 2 ^ (r % 2 ^ 32) :=
            Nat.le_trans (Nat.two_pow_pos _) Nat.right_le_or
          obtain ⟨bits, h7, h8⟩ := ih _ _ _ _ h6 hpos (Nat.or_lt_two_pow x.isLt hpow) v rfl
          refine ⟨true :: (g ++ bits), .cons h1 (hg2.append h7), fun hl => ?_⟩
          rw [List.length_cons, List.length_append] at hl
          obtain ⟨h9, h10⟩ := h8 (by omega)
          refine ⟨h9, ?_⟩
          have hrs : r % 2 ^ 32 = r := Nat.mod_eq_of_lt (by omega)
          rw [hrs] at hsh hpow h10 hpos
          have hb := bitsVal_lt g.reverse
          rw [List.length_reverse, hg1] at hb
          have hx : x.toNat = bitsVal g.reverse := by
            rw [hg3, BitVec.toNat_ofNat, Nat.mod_eq_of_lt (by omega)]
          rw [hx] at h10
          have h2le : 1 < bitsVal g.reverse ||| 2 ^ r := by
            rw [or_two_pow hb]
            have := Nat.pow_le_pow_right (n := 2) (by omega) hr1
            omega
          rw [omegaGroups_large h2le, natBits_group hb, (elias_value hb).1] at h10
          have hg : natBits r (bitsVal g.reverse) = g.reverse := by
            have := natBits_bitsVal g.reverse
            rwa [List.length_reverse, hg1] at this
          rw [hg, List.reverse_reverse, List.append_assoc] at h10
          exact h10

/-- In a release build decoding returns on every finite source. -/
theorem omega_loop_total (c : Cfg) (hd : c.debug = false) {R : BitRead σ} {Rep : σ → List Bool → Prop}
    (hR : LawfulSource R Rep) (bits : List Bool) (s : σ) (r : Nat) (hs : Rep s bits) :
    ∃ o s' k, Omega.decodeLoop c R r s = .ok (o, s') ∧ Rep s' (bits.drop k) := by
  induction hn : bits.length using Nat.strongRecOn generalizing bits s r with
  | _ n ih =>
    cases bits with
    | nil =>
      obtain ⟨s1, h1, h2⟩ := hR.none hs
      rw [omega_loop_stop c R (by rw [h1]; intro b s; simp), h1]
      exact ⟨_, s1, 0, rfl, h2⟩
    | cons b bits =>
      obtain ⟨s1, h1, h2⟩ := hR.some hs
      rw [Omega.decodeLoop, SM.bind_run_ok h1]
      cases b with
      | false => exact ⟨_, s1, 1, rfl, h2⟩
      | true =>
        simp only [Bool.not_true, Bool.false_eq_true, if_false]
        obtain ⟨o2, s2, k2, h3, h4⟩ := readIntBe_total (w := 64) c hR (by omega) (asUsize c r) h2
        cases o2 with
        | error e => exact ⟨_, s2, k2 + 1, SM.bind_run_err h3, h4⟩
        | ok o2 =>
          rw [SM.bind_run_ok h3]
          cases o2 with
          | none => exact ⟨_, s2, k2 + 1, rfl, h4⟩
          | some x =>
            simp only
            have : ∃ m, shlN c 64 1 (r % 2 ^ 32) = .ok m := by
              unfold shlN overflow
              split
              · exact ⟨_, rfl⟩
              · rw [hd]; exact ⟨_, rfl⟩
            obtain ⟨m, hm⟩ := this
            rw [hm, SM.lift_ok_bind]
            obtain ⟨o, s', k, h5, h6⟩ := ih (bits.drop k2).length (by simp at hn ⊢; omega) (bits.drop k2) s2
              (x.toNat ||| m) h4 rfl
            rw [List.drop_drop] at h6
            exact ⟨o, s', k2 + k + 1, h5, h6⟩

theorem omega_total (c : Cfg) (hd : c.debug = false) : DecodesTotally (omegaCode c) := by
  intro σ R Rep hR bits s hb hs
  exact omega_loop_total c hd hR bits s 1 hs

/-- In any build decoding returns on every source of fewer than 77 bits. `m` is the number of bits
read so far. -/
theorem omega_loop_total_short (c : Cfg) {R : BitRead σ} {Rep : σ → List Bool → Prop}
    (hR : LawfulSource R Rep) (bits : List Bool) (s : σ) (r m : Nat) (hr : r < 2 ^ 64) (hm : m + bits.length < 77)
    (h2 : 2 ≤ r → 2 ≤ m) (h4 : 4 ≤ r → 5 ≤ m) (h64 : 64 ≤ r → 12 ≤ m) (hs : Rep s bits) :
    ∃ o s' k, Omega.decodeLoop c R r s = .ok (o, s') ∧ Rep s' (bits.drop k) := by
  induction hn : bits.length using Nat.strongRecOn generalizing bits s r m with
  | _ n ih =>
    cases bits with
    | nil =>
      obtain ⟨s1, h1, h2⟩ := hR.none hs
      rw [omega_loop_stop c R (by rw [h1]; intro b s; simp), h1]
      exact ⟨_, s1, 0, rfl, h2⟩
    | cons b bits =>
      obtain ⟨s1, hs1, hs2⟩ := hR.some hs
      rw [Omega.decodeLoop, SM.bind_run_ok hs1]
      rw [List.length_cons] at hn hm
      cases b with
      | false => exact ⟨_, s1, 1, rfl, hs2⟩
      | true =>
        simp only [Bool.not_true, Bool.false_eq_true, if_false]
        generalize hk : asUsize c r = k
        have hkr : k ≤ r := by rw [← hk]; exact Nat.mod_le _ _
        by_cases hl : k ≤ bits.length
        · rw [← List.take_append_drop k bits] at hs2
          obtain ⟨s2, h5, h6⟩ := hR.reads _ hs2
          have htl : (bits.take k).length = k := by simp; omega
          rw [SM.bind_run_ok (readIntBe_reads c R (by omega) h5 htl)]
          simp only
          have hk64 : k < 64 := by
            apply Nat.lt_of_not_le
            intro h
            have := h64 (by omega)
            omega
          have hsh : r % 2 ^ 32 = k := by
            rcases c.usz_cases with e | e
            · rw [← hk, asUsize, e]
            · rw [asUsize, e, Nat.mod_eq_of_lt hr] at hk
              rw [hk, Nat.mod_eq_of_lt (by omega)]
          have hp : 2 ^ k < 2 ^ 64 := Nat.pow_lt_pow_right (by omega) hk64
          rw [hsh, shlN_ok hk64 (by omega), SM.lift_ok_bind, Nat.one_mul]
          have hval := bitsVal_lt (bits.take k).reverse
          rw [List.length_reverse, htl] at hval
          rw [BitVec.toNat_ofNat, Nat.mod_eq_of_lt (by omega)]
          have hnew : bitsVal (bits.take k).reverse ||| 2 ^ k < 2 ^ (k + 1) := by
            rw [or_two_pow hval, Nat.pow_succ]
            omega
          have hnew64 : 2 ^ (k + 1) ≤ 2 ^ 64 := Nat.pow_le_pow_right (by omega) (by omega)
          generalize bitsVal (bits.take k).reverse ||| 2 ^ k = r' at hnew ⊢
          have hkge : ∀ j, 2 ^ j ≤ r' → j ≤ k := by
            intro j hj
            apply Nat.le_of_not_lt
            intro h
            have : 2 ^ (k + 1) ≤ 2 ^ j := Nat.pow_le_pow_right (by omega) h
            omega
          obtain ⟨o, s', k', h7, h8⟩ := ih (bits.drop k).length (by simp; omega) (bits.drop k) s2 r' (m + 1 + k)
            (by omega) (by simp; omega)
            (fun h => by have := hkge 1 (by omega); omega)
            (fun h => by have := hkge 2 (by omega); have := h2 (by omega); omega)
            (fun h => by have := hkge 6 (by omega); have := h4 (by omega); omega) h6 rfl
          rw [List.drop_drop] at h8
          exact ⟨o, s', k + k' + 1, h7, h8⟩
        · obtain ⟨s2, h5, h6⟩ := hR.reads bits (l := []) (by simpa using hs2)
          obtain ⟨s3, h7, h8⟩ := hR.none h6
          have hstop := readIntBe_stop (w := 64) c R (by omega) h5 (by rw [h7]; intro b s; simp) (n := k) (by omega)
          rw [h7, stopWith_none] at hstop
          have h8' : Rep s3 ((true :: bits).drop (bits.length + 1)) := by simpa using h8
          split at hstop
          · rw [SM.bind_run_ok hstop]
            exact ⟨_, s3, _, rfl, h8'⟩
          · exact ⟨_, s3, _, SM.bind_run_err hstop, h8'⟩

end Succinct
