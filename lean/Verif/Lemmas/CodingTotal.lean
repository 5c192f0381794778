import Verif.Lemmas.Coding
/-! # What the decoders do on arbitrary sources: Unary, Elias and Lift0 -/
namespace Succinct
open Spec Lean.Order

theorem SM.of_bind_ok {x : SM σ α} {f : α → SM σ β} {s s' : σ} {b : β} (h : (x >>= f) s = .ok (.ok b, s')) :
    ∃ a s1, x s = .ok (.ok a, s1) ∧ f a s1 = .ok (.ok b, s') := by
  rw [SM.bind_run] at h
  cases hx : x s with
  | panic => rw [hx] at h; cases h
  | diverge => rw [hx] at h; cases h
  | ok p =>
    obtain ⟨e, s1⟩ := p
    rw [hx] at h
    cases e with
    | error e => cases h
    | ok a => exact ⟨a, s1, rfl, h⟩

theorem SM.of_lift_bind {x : Res α} {f : α → SM σ β} {s s' : σ} {b : β} (h : (SM.lift x >>= f) s = .ok (.ok b, s')) :
    ∃ a, x = .ok a ∧ f a s = .ok (.ok b, s') := by
  cases x with
  | panic => cases h
  | diverge => cases h
  | ok a => exact ⟨a, rfl, h⟩

theorem stopWith_ne_some {eof : Except IoErr (Option α)} {r : Res (Except IoErr (Option Bool) × σ)} {a : α} {s : σ}
    (he : eof ≠ .ok (some a)) : stopWith eof r ≠ .ok (.ok (some a), s) := by
  intro h
  rcases stopWith_ok h with ⟨o, -, h⟩ | ⟨e, -, h⟩
  · exact he h.symm
  · cases h

theorem readInt_some {c : Cfg} {R : BitRead σ} (hw : 1 < w) {n : Nat} {s s' : σ} {x : BitVec w}
    (h : readInt c R w n s = .ok (.ok (some x), s')) :
    ∃ bits, bits.length = n ∧ Reads R s bits s' ∧ x = BitVec.ofNat w (bitsVal bits) := by
  rcases reads_or_stops R n s with ⟨bits, s1, h1, h2⟩ | ⟨bits, s1, h1, h2, h3⟩
  · rw [readInt_reads c R hw h2 h1] at h
    cases h
    exact ⟨bits, h1, h2, rfl⟩
  · rw [readInt_stop c R hw h2 h3 h1] at h
    exfalso
    refine stopWith_ne_some ?_ h
    split <;> simp

theorem readIntBe_some {c : Cfg} {R : BitRead σ} (hw : 1 < w) {n : Nat} {s s' : σ} {x : BitVec w}
    (h : readIntBe c R w n s = .ok (.ok (some x), s')) :
    ∃ bits, bits.length = n ∧ Reads R s bits s' ∧ x = BitVec.ofNat w (bitsVal bits.reverse) := by
  rcases reads_or_stops R n s with ⟨bits, s1, h1, h2⟩ | ⟨bits, s1, h1, h2, h3⟩
  · rw [readIntBe_reads c R hw h2 h1] at h
    cases h
    exact ⟨bits, h1, h2, rfl⟩
  · rw [readIntBe_stop c R hw h2 h3 h1] at h
    exfalso
    refine stopWith_ne_some ?_ h
    split <;> simp

/-- Reading from a lawful source always returns. -/
theorem readInt_total (c : Cfg) {R : BitRead σ} {Rep : σ → List Bool → Prop} (hR : LawfulSource R Rep) (hw : 1 < w)
    (n : Nat) {bits : List Bool} {s : σ} (hs : Rep s bits) :
    ∃ r s' k, readInt c R w n s = .ok (r, s') ∧ Rep s' (bits.drop k) := by
  by_cases h : n ≤ bits.length
  · rw [← List.take_append_drop n bits] at hs
    obtain ⟨s', h1, h2⟩ := hR.reads _ hs
    exact ⟨_, s', n, readInt_reads c R hw h1 (by simp; omega), h2⟩
  · obtain ⟨s1, h1, h2⟩ := hR.reads bits (l := []) (by simpa using hs)
    obtain ⟨s2, h3, h4⟩ := hR.none h2
    have hstop := readInt_stop (w := w) c R hw h1 (by rw [h3]; intro b s; simp) (n := n) (by omega)
    rw [h3, stopWith_none] at hstop
    exact ⟨_, s2, bits.length, hstop, by simpa using h4⟩

theorem readIntBe_total (c : Cfg) {R : BitRead σ} {Rep : σ → List Bool → Prop} (hR : LawfulSource R Rep) (hw : 1 < w)
    (n : Nat) {bits : List Bool} {s : σ} (hs : Rep s bits) :
    ∃ r s' k, readIntBe c R w n s = .ok (r, s') ∧ Rep s' (bits.drop k) := by
  by_cases h : n ≤ bits.length
  · rw [← List.take_append_drop n bits] at hs
    obtain ⟨s', h1, h2⟩ := hR.reads _ hs
    exact ⟨_, s', n, readIntBe_reads c R hw h1 (by simp; omega), h2⟩
  · obtain ⟨s1, h1, h2⟩ := hR.reads bits (l := []) (by simpa using hs)
    obtain ⟨s2, h3, h4⟩ := hR.none h2
    have hstop := readIntBe_stop (w := w) c R hw h1 (by rw [h3]; intro b s; simp) (n := n) (by omega)
    rw [h3, stopWith_none] at hstop
    exact ⟨_, s2, bits.length, hstop, by simpa using h4⟩

/-- Induction for a decoder loop: a property of its successful outcomes is admissible. -/
theorem admissible_ok {σ α β : Type} (P : β → σ → α → σ → Prop) :
    admissible (fun f : β → SM σ α => ∀ r s a s', f r s = .ok (.ok a, s') → P r s a s') := by
  apply admissible_pi_apply (fun r (g : SM σ α) => ∀ s a s', g s = .ok (.ok a, s') → P r s a s')
  intro r
  apply admissible_pi_apply (fun s (g : Res (Except IoErr α × σ)) => ∀ a s', g = .ok (.ok a, s') → P r s a s')
  intro s
  apply admissible_flatOrder
  intro a s' h
  cases h

/-! ### Unary -/

theorem unary_loop_some (c : Cfg) (R : BitRead σ) (r : Nat) (cons : Bool) (s s' : σ) (v : Nat)
    (h : Unary.decodeLoop c R r cons s = .ok (.ok (some v), s')) (hr : r < 2 ^ 64) :
    ∃ k, Reads R s (unaryWord k) s' ∧ v = (r + k) % 2 ^ 64 := by
  suffices H : ∀ r cons s a s', Unary.decodeLoop c R r cons s = .ok (.ok a, s') → r < 2 ^ 64 → ∀ v, a = some v →
      ∃ k, Reads R s (unaryWord k) s' ∧ v = (r + k) % 2 ^ 64 from H r cons s _ s' h hr v rfl
  apply Unary.decodeLoop.fixpoint_induct c R (fun f => ∀ r cons s a s', f r cons s = .ok (.ok a, s') → r < 2 ^ 64 →
    ∀ v, a = some v → ∃ k, Reads R s (unaryWord k) s' ∧ v = (r + k) % 2 ^ 64)
  · apply admissible_pi_apply (fun r (g : Bool → SM σ (Option Nat)) => ∀ cons s a s', g cons s = .ok (.ok a, s') →
      r < 2 ^ 64 → ∀ v, a = some v → ∃ k, Reads R s (unaryWord k) s' ∧ v = (r + k) % 2 ^ 64)
    intro r
    exact admissible_ok _
  · intro f ih r cons s a s' h hr v ha
    subst ha
    obtain ⟨o, s1, h1, h2⟩ := SM.of_bind_ok h
    cases o with
    | none => cases cons <;> cases h2
    | some bit =>
      cases bit with
      | true =>
        cases h2
        exact ⟨0, .cons h1 (.nil _), by omega⟩
      | false =>
        obtain ⟨r', h3, h4⟩ := SM.of_lift_bind h2
        have hr' : r' = (r + 1) % 2 ^ 64 := by
          unfold addN at h3
          split at h3
          · cases h3; rw [Nat.mod_eq_of_lt (by assumption)]
          · unfold overflow at h3
            split at h3 <;> cases h3
            rfl
        obtain ⟨k, h5, h6⟩ := ih _ _ _ _ _ h4 (by omega) v rfl
        exact ⟨k + 1, .cons h1 h5, by omega⟩

theorem unary_only (c : Cfg) : DecodesOnly (unary c) (· < 2 ^ 64) unaryWord := by
  intro σ R s s' v h
  obtain ⟨k, h1, h2⟩ := unary_loop_some c R 0 false s s' v h (by decide)
  refine ⟨_, h1, fun hl => ?_⟩
  rw [unaryWord, List.length_append, List.length_replicate] at hl
  simp at hl
  have : v = k := by omega
  subst this
  exact ⟨by omega, rfl⟩

theorem unary_loop_total (c : Cfg) {R : BitRead σ} {Rep : σ → List Bool → Prop} (hR : LawfulSource R Rep)
    (bits : List Bool) (s : σ) (r : Nat) (cons : Bool) (hb : r + bits.length < 2 ^ 64) (hs : Rep s bits) :
    ∃ o s' k, Unary.decodeLoop c R r cons s = .ok (o, s') ∧ Rep s' (bits.drop k) := by
  induction bits generalizing s r cons with
  | nil =>
    obtain ⟨s1, h1, h2⟩ := hR.none hs
    rw [unary_loop_stop c R (by rw [h1]; intro b s; simp), h1]
    exact ⟨_, s1, 0, rfl, h2⟩
  | cons b bits ih =>
    obtain ⟨s1, h1, h2⟩ := hR.some hs
    rw [Unary.decodeLoop, SM.bind_run_ok h1]
    cases b with
    | true => exact ⟨_, s1, 1, rfl, h2⟩
    | false =>
      simp only [Bool.false_eq_true, if_false]
      rw [List.length_cons] at hb
      rw [addN_ok (by omega), SM.lift_ok_bind]
      obtain ⟨o, s', k, h3, h4⟩ := ih s1 (r + 1) true (by omega) h2
      exact ⟨o, s', k + 1, h3, h4⟩

theorem unary_total (c : Cfg) : DecodesTotally (unary c) := by
  intro σ R Rep hR bits s hb hs
  exact unary_loop_total c hR bits s 0 false (by omega) hs

/-! ### Elias -/

theorem elias_value {n x : Nat} (h : x < 2 ^ n) : (x ||| 2 ^ n).log2 = n ∧ (x ||| 2 ^ n) % 2 ^ n = x := by
  rw [or_two_pow h]
  have hp := Nat.two_pow_pos n
  constructor
  · have h1 : n ≤ (x + 2 ^ n).log2 := (Nat.le_log2 (by omega)).2 (by omega)
    have h2 : (x + 2 ^ n).log2 < n + 1 := (Nat.log2_lt (by omega)).2 (by rw [Nat.pow_succ]; omega)
    omega
  · rw [Nat.add_mod_right, Nat.mod_eq_of_lt h]

theorem elias_decode_some {c : Cfg} {H : Code} {R : BitRead σ} {s s' : σ} {v : Nat}
    (h : (elias c H).decode R s = .ok (.ok (some v), s')) :
    ∃ n s1 bits, H.decode R s = .ok (.ok (some n), s1) ∧ n < 64 ∧ bits.length = n ∧ Reads R s1 bits s' ∧
      v = bitsVal bits ||| 2 ^ n := by
  replace h : Elias.decode c H R s = _ := h
  unfold Elias.decode at h
  obtain ⟨o, s1, h1, h2⟩ := SM.of_bind_ok h
  cases o with
  | none => cases h2
  | some n =>
    simp only at h2
    rw [subN_ok (by omega), SM.lift_ok_bind] at h2
    split at h2
    · cases h2
    · rename_i hn
      obtain ⟨o2, s2, h3, h4⟩ := SM.of_bind_ok h2
      cases o2 with
      | none => cases h4
      | some x =>
        simp only at h4
        rw [asUsize_small c (by omega)] at h3
        obtain ⟨bits, h5, h6, h7⟩ := readInt_some (by omega) h3
        have hb := bitsVal_lt bits
        rw [h5] at hb
        have hp : 2 ^ n < 2 ^ 64 := Nat.pow_lt_pow_right (by omega) (by omega)
        rw [shlN_ok (by omega) (by omega), SM.lift_ok_bind] at h4
        cases h4
        refine ⟨n, s1, bits, h1, by omega, h5, h6, ?_⟩
        rw [h7, BitVec.toNat_ofNat, Nat.mod_eq_of_lt (by omega), Nat.one_mul]

theorem elias_only_on (c : Cfg) {H : Code} {D : Nat → Prop} {hw : Nat → List Bool} (hH : DecodesOnly H D hw) :
    DecodesOnly (elias c H) (EliasDom D) (eliasWord hw) := by
  intro σ R s s' v h
  obtain ⟨n, s1, bits, h1, hn, h2, h3, h4⟩ := elias_decode_some h
  obtain ⟨hbits, h5, h6⟩ := hH R s s1 n h1
  have hb := bitsVal_lt bits
  rw [h2] at hb
  obtain ⟨h7, h8⟩ := elias_value hb
  rw [← h4] at h7 h8
  refine ⟨_, h5.append h3, fun hl => ?_⟩
  rw [List.length_append] at hl
  obtain ⟨h9, h10⟩ := h6 (by omega)
  have hp := Nat.two_pow_pos n
  have hp2 : 2 ^ (n + 1) ≤ 2 ^ 64 := Nat.pow_le_pow_right (by omega) (by omega)
  rw [Nat.pow_succ] at hp2
  have hv : v = bitsVal bits + 2 ^ n := by rw [h4, or_two_pow hb]
  refine ⟨⟨by omega, by omega, h7 ▸ h9⟩, ?_⟩
  rw [eliasWord, h7, h10]
  congr 1
  rw [natBits_congr (y := bitsVal bits) (by rw [h8, Nat.mod_eq_of_lt hb]), ← h2, natBits_bitsVal]

theorem elias_only (c : Cfg) {H : Code} {D : Nat → Prop} {hw : Nat → List Bool} (hH : DecodesOnly H D hw) :
    DecodesOnly (elias c H) (fun v => 1 ≤ v ∧ v < 2 ^ 64) (eliasWord hw) := by
  intro σ R s s' v h
  obtain ⟨bits, h1, h2⟩ := elias_only_on c hH R s s' v h
  exact ⟨bits, h1, fun hl => ⟨⟨(h2 hl).1.1, (h2 hl).1.2.1⟩, (h2 hl).2⟩⟩

theorem elias_pos {c : Cfg} {H : Code} {R : BitRead σ} {s s' : σ} {v : Nat}
    (h : (elias c H).decode R s = .ok (.ok (some v), s')) : 1 ≤ v := by
  obtain ⟨n, s1, bits, h1, hn, h2, h3, h4⟩ := elias_decode_some h
  have hb := bitsVal_lt bits
  rw [h2] at hb
  have hp := Nat.two_pow_pos n
  rw [h4, or_two_pow hb]
  omega

theorem elias_total (c : Cfg) {H : Code} (hH : DecodesTotally H) : DecodesTotally (elias c H) := by
  intro σ R Rep hR bits s hb hs
  obtain ⟨o, s1, k, h1, h2⟩ := hH R Rep hR bits s hb hs
  show ∃ r s' k, Elias.decode c H R s = _ ∧ _
  unfold Elias.decode
  cases o with
  | error e => exact ⟨_, s1, k, SM.bind_run_err h1, h2⟩
  | ok o =>
    rw [SM.bind_run_ok h1]
    cases o with
    | none => exact ⟨_, s1, k, rfl, h2⟩
    | some n =>
      simp only
      rw [subN_ok (by omega), SM.lift_ok_bind]
      split
      · exact ⟨_, s1, k, rfl, h2⟩
      · rename_i hn
        obtain ⟨o2, s2, k2, h3, h4⟩ := readInt_total (w := 64) c hR (by omega) (asUsize c n) h2
        rw [List.drop_drop] at h4
        cases o2 with
        | error e => exact ⟨_, s2, _, SM.bind_run_err h3, h4⟩
        | ok o2 =>
          rw [SM.bind_run_ok h3]
          cases o2 with
          | none => exact ⟨_, s2, _, rfl, h4⟩
          | some x =>
            simp only
            have hp : 2 ^ n < 2 ^ 64 := Nat.pow_lt_pow_right (by omega) (by omega)
            rw [shlN_ok (by omega) (by omega), SM.lift_ok_bind]
            exact ⟨_, s2, _, rfl, h4⟩

/-! ### Lift0 -/

theorem lift0_decode_some {c : Cfg} {K : Code} {R : BitRead σ} {s s' : σ} {v : Nat}
    (h : (lift0 c K).decode R s = .ok (.ok (some v), s')) :
    ∃ n, K.decode R s = .ok (.ok (some n), s') ∧ (1 ≤ n → v = n - 1) := by
  replace h : Lift0.decode c K R s = _ := h
  unfold Lift0.decode at h
  obtain ⟨o, s1, h1, h2⟩ := SM.of_bind_ok h
  cases o with
  | none => cases h2
  | some n =>
    obtain ⟨m, h3, h4⟩ := SM.of_lift_bind h2
    cases h4
    refine ⟨n, h1, fun hn => ?_⟩
    rw [subN_ok hn] at h3
    cases h3
    rfl

theorem lift0_only (c : Cfg) {K : Code} {D : Nat → Prop} {kw : Nat → List Bool} (hK : DecodesOnly K D kw)
    (hD : ∀ v, D v → 1 ≤ v ∧ v < 2 ^ 64) :
    DecodesOnly (lift0 c K) (fun v => D (v + 1) ∧ v + 1 < 2 ^ 64) (fun v => kw (v + 1)) := by
  intro σ R s s' v h
  obtain ⟨n, h1, h2⟩ := lift0_decode_some h
  obtain ⟨bits, h3, h4⟩ := hK R s s' n h1
  refine ⟨bits, h3, fun hl => ?_⟩
  obtain ⟨h5, h6⟩ := h4 hl
  obtain ⟨h7, h8⟩ := hD n h5
  have := h2 h7
  obtain rfl : n = v + 1 := by omega
  exact ⟨⟨h5, h8⟩, h6⟩

theorem lift0_total (c : Cfg) {K : Code} (hK : DecodesTotally K)
    (hp : c.debug = true → ∀ {σ : Type} (R : BitRead σ) s s' v, K.decode R s = .ok (.ok (some v), s') → 1 ≤ v) :
    DecodesTotally (lift0 c K) := by
  intro σ R Rep hR bits s hb hs
  obtain ⟨o, s1, k, h1, h2⟩ := hK R Rep hR bits s hb hs
  show ∃ r s' k, Lift0.decode c K R s = _ ∧ _
  unfold Lift0.decode
  cases o with
  | error e => exact ⟨_, s1, k, SM.bind_run_err h1, h2⟩
  | ok o =>
    rw [SM.bind_run_ok h1]
    cases o with
    | none => exact ⟨_, s1, k, rfl, h2⟩
    | some n =>
      simp only
      by_cases hd : c.debug = true
      · rw [subN_ok (hp hd R s s1 n h1), SM.lift_ok_bind]
        exact ⟨_, s1, k, rfl, h2⟩
      · have : ∃ m, subN c 64 n 1 = .ok m := by
          unfold subN overflow
          split
          · exact ⟨_, rfl⟩
          · exact ⟨_, rfl⟩
        obtain ⟨m, hm⟩ := this
        rw [hm]
        exact ⟨_, s1, k, rfl, h2⟩

end Succinct
