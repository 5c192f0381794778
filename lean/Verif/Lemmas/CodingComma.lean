import Verif.Lemmas.CodingTotal
/-! # Lemmas about the comma code -/
namespace Succinct
open Spec Lean.Order

theorem comma_base (c : Cfg) {n : Nat} (hn : n < 64) : Comma.base c n = .ok (2 ^ n - 1) := by
  have hp : 2 ^ n < 2 ^ 64 := Nat.pow_lt_pow_right (by omega) hn
  have := Nat.two_pow_pos n
  rw [Comma.base, shlN_ok hn (by omega), Res.ok_bind, subN_ok (by omega), Nat.one_mul]

theorem digitsOf_zero (b : Nat) : digitsOf b 0 = [] := by rw [digitsOf, dif_pos (.inl rfl)]
theorem digitsOf_pos {b v : Nat} (hb : 2 ≤ b) (hv : 0 < v) : digitsOf b v = digitsOf b (v / b) ++ [v % b] := by
  rw [digitsOf, dif_neg (by omega)]

theorem comma_push {b : Nat} (hb : 2 ≤ b) (v : Nat) (stack : List Nat) :
    Comma.push b stack v = .ok (digitsOf b v ++ stack) := by
  induction v using Nat.strongRecOn generalizing stack with
  | _ v ih =>
    rw [Comma.push]
    by_cases hv : v > 0
    · rw [if_pos hv, remN_ok (by omega), Res.ok_bind, divN_ok (by omega), Res.ok_bind,
        ih _ (Nat.div_lt_self hv (by omega)), digitsOf_pos hb hv, List.append_assoc]
      rfl
    · rw [if_neg hv, show v = 0 by omega, digitsOf_zero]
      rfl

theorem digitsOf_lt {b : Nat} (hb : 2 ≤ b) (v d : Nat) (h : d ∈ digitsOf b v) : d < b := by
  induction v using Nat.strongRecOn with
  | _ v ih =>
    by_cases hv : 0 < v
    · rw [digitsOf_pos hb hv, List.mem_append] at h
      rcases h with h | h
      · exact ih _ (Nat.div_lt_self hv (by omega)) h
      · rw [List.mem_singleton] at h
        exact h ▸ Nat.mod_lt _ (by omega)
    · rw [show v = 0 by omega, digitsOf_zero] at h
      cases h

theorem comma_pop (c : Cfg) {σ : Type} (W : BitWrite σ) (n : Nat) (ds : List Nat) (h : ∀ d ∈ ds, d < 2 ^ 64) :
    Comma.pop c W n ds = writeAll W (ds.flatMap (natBits n)) := by
  induction ds with
  | nil => rfl
  | cons d ds ih =>
    rw [Comma.pop, ih (fun d hd => h d (List.mem_cons_of_mem _ hd)), List.flatMap_cons, writeAll_append,
      writeInt_unsigned c W (by omega), BitVec.toNat_ofNat, Nat.mod_eq_of_lt (h d List.mem_cons_self)]

theorem comma_base_bounds {n : Nat} (h2 : 2 ≤ n) (hn : n ≤ 63) : 3 ≤ 2 ^ n - 1 ∧ 2 ^ n - 1 < 2 ^ n ∧ 2 ^ n < 2 ^ 64 := by
  have hp : 2 ^ n < 2 ^ 64 := Nat.pow_lt_pow_right (by omega) (by omega)
  have : 2 ^ 2 ≤ 2 ^ n := Nat.pow_le_pow_right (by omega) h2
  omega

theorem comma_encode (c : Cfg) {n : Nat} (h2 : 2 ≤ n) (hn : n ≤ 63) :
    EncodesBy (comma c n) (· < 2 ^ 64) (commaWord n) := by
  intro v hv σ W
  obtain ⟨hb, hb2, hb3⟩ := comma_base_bounds h2 hn
  show Comma.encode c n W v = _
  rw [Comma.encode, comma_base c (by omega), SM.lift_ok_bind, comma_push (by omega), SM.lift_ok_bind, List.append_nil,
    comma_pop c W n _ (fun d hd => by have := digitsOf_lt (by omega) v d hd; omega), writeInt_unsigned c W (by omega),
    BitVec.toNat_ofNat, Nat.mod_eq_of_lt (by omega), commaWord, writeAll_append]

/-- The value of a sequence of digits, continuing from `r`. -/
def horner (b r : Nat) (ds : List Nat) : Nat := ds.foldl (fun r d => r * b + d) r

theorem horner_le {b : Nat} (hb : 1 ≤ b) (ds : List Nat) (r : Nat) : r ≤ horner b r ds := by
  induction ds generalizing r with
  | nil => exact Nat.le_refl _
  | cons d ds ih =>
    have h1 : r * 1 ≤ r * b := Nat.mul_le_mul_left r hb
    have h2 := ih (r * b + d)
    show r ≤ horner b (r * b + d) ds
    omega

theorem horner_append (b r : Nat) (ds es : List Nat) : horner b r (ds ++ es) = horner b (horner b r ds) es := by
  simp [horner]

theorem horner_digitsOf {b : Nat} (hb : 2 ≤ b) (v : Nat) : horner b 0 (digitsOf b v) = v := by
  induction v using Nat.strongRecOn with
  | _ v ih =>
    by_cases hv : 0 < v
    · rw [digitsOf_pos hb hv, horner_append, ih _ (Nat.div_lt_self hv (by omega))]
      show v / b * b + v % b = v
      rw [Nat.mul_comm]
      exact Nat.div_add_mod v b
    · rw [show v = 0 by omega, digitsOf_zero]
      rfl

theorem comma_digit (c : Cfg) (R : BitRead σ) {n d : Nat} (hd : d < 2 ^ n) {s s' : σ}
    (h : Reads R s (natBits n d) s') : readInt c R 64 n s = .ok (.ok (some (BitVec.ofNat 64 d)), s') := by
  rw [readInt_reads c R (by omega) h (natBits_length _ _), bitsVal_natBits, Nat.mod_eq_of_lt hd]

theorem comma_loop_step (c : Cfg) (R : BitRead σ) {n d r : Nat} (hn : n ≤ 63) (hd : d < 2 ^ n - 1) {s s' : σ}
    (hr : r * (2 ^ n - 1) + d < 2 ^ 64) (h : Reads R s (natBits n d) s') (cons : Bool) :
    Comma.decodeLoop c n (2 ^ n - 1) R r cons s = Comma.decodeLoop c n (2 ^ n - 1) R (r * (2 ^ n - 1) + d) true s' := by
  have hp : 2 ^ n < 2 ^ 64 := Nat.pow_lt_pow_right (by omega) (by omega)
  rw [Comma.decodeLoop, SM.bind_run_ok (comma_digit c R (by omega) h)]
  simp only
  have e : (BitVec.ofNat 64 d).toNat = d := by rw [BitVec.toNat_ofNat, Nat.mod_eq_of_lt (by omega)]
  rw [e, if_neg (by omega), mulN_ok (by omega), SM.lift_ok_bind, addN_ok hr, SM.lift_ok_bind]

theorem comma_loop_reads (c : Cfg) (R : BitRead σ) {n : Nat} (h2 : 2 ≤ n) (hn : n ≤ 63) (ds : List Nat)
    (hds : ∀ d ∈ ds, d < 2 ^ n - 1) {s s' : σ} (h : Reads R s (ds.flatMap (natBits n)) s') (r : Nat)
    (hr : horner (2 ^ n - 1) r ds < 2 ^ 64) (cons : Bool) :
    Comma.decodeLoop c n (2 ^ n - 1) R r cons s =
      Comma.decodeLoop c n (2 ^ n - 1) R (horner (2 ^ n - 1) r ds) (cons || !ds.isEmpty) s' := by
  obtain ⟨hb, -, -⟩ := comma_base_bounds h2 hn
  induction ds generalizing s r cons with
  | nil => cases h; simp [horner]
  | cons d ds ih =>
    rw [List.flatMap_cons] at h
    obtain ⟨s1, h3, h4⟩ := Reads.split h
    have hle := horner_le (b := 2 ^ n - 1) (by omega) ds (r * (2 ^ n - 1) + d)
    rw [comma_loop_step c R hn (hds d List.mem_cons_self)
      (Nat.lt_of_le_of_lt hle hr) h3, ih (fun d hd => hds d (List.mem_cons_of_mem _ hd)) h4 _ hr true]
    simp [horner]

theorem comma_loop_last (c : Cfg) (R : BitRead σ) {n r : Nat} (hn : n ≤ 63) {s s' : σ}
    (h : Reads R s (natBits n (2 ^ n - 1)) s') (cons : Bool) :
    Comma.decodeLoop c n (2 ^ n - 1) R r cons s = .ok (.ok (some r), s') := by
  have hp : 2 ^ n < 2 ^ 64 := Nat.pow_lt_pow_right (by omega) (by omega)
  have := Nat.two_pow_pos n
  rw [Comma.decodeLoop, SM.bind_run_ok (comma_digit c R (by omega) h)]
  simp only
  rw [BitVec.toNat_ofNat, Nat.mod_eq_of_lt (by omega), if_pos rfl]
  rfl

theorem comma_decode_eq (c : Cfg) {n : Nat} (hn : n ≤ 63) {σ : Type} (R : BitRead σ) :
    (comma c n).decode R = Comma.decodeLoop c n (2 ^ n - 1) R 0 false := by
  show Comma.decode c n R = _
  rw [Comma.decode, comma_base c (by omega), SM.lift_ok_bind]

theorem comma_decode (c : Cfg) {n : Nat} (h2 : 2 ≤ n) (hn : n ≤ 63) :
    DecodesBy (comma c n) (· < 2 ^ 64) (commaWord n) := by
  intro v hv σ R s s' h
  obtain ⟨hb, -, -⟩ := comma_base_bounds h2 hn
  obtain ⟨s1, h3, h4⟩ := Reads.split h
  have hval := horner_digitsOf (b := 2 ^ n - 1) (by omega) v
  rw [comma_decode_eq c hn, comma_loop_reads c R h2 hn _ (fun d hd => digitsOf_lt (by omega) v d hd) h3 0
    (by rw [hval]; exact hv), hval, comma_loop_last c R hn h4]

theorem comma_loop_stop (c : Cfg) (R : BitRead σ) {n b r : Nat} {p : List Bool} {s s' : σ} (h : Reads R s p s')
    (hl : p.length < n) (hs : NoBit (R.readBit s')) (cons : Bool) :
    Comma.decodeLoop c n b R r cons s =
      stopWith (if p = [] ∧ cons = false then .ok none else .error .unexpectedEof) (R.readBit s') := by
  rw [Comma.decodeLoop]
  have hstop := readInt_stop (w := 64) c R (by omega) h hs hl
  by_cases hp : p = []
  · rw [if_pos hp] at hstop
    apply bind_stop_none hstop
    intro s
    cases cons <;> simp [hp] <;> rfl
  · rw [if_neg hp] at hstop
    rw [if_neg (show ¬(p = [] ∧ cons = false) from fun h => hp h.1)]
    exact bind_stop_err hstop

theorem comma_ends (c : Cfg) {n : Nat} (h1 : 1 ≤ n) (hn : n ≤ 63) : EndsWell (comma c n) := by
  intro σ R s h
  rw [comma_decode_eq c hn, comma_loop_stop c R (.nil s) h1 h]
  rfl

theorem comma_loop_trunc (c : Cfg) (R : BitRead σ) {n : Nat} (h2 : 2 ≤ n) (hn : n ≤ 63) (ds : List Nat)
    (hds : ∀ d ∈ ds, d < 2 ^ n - 1) {p q : List Bool} (last : Nat) (e : ds.flatMap (natBits n) ++ natBits n last = p ++ q)
    (hq : q ≠ []) {s s' : σ} (h : Reads R s p s') (hs : NoBit (R.readBit s')) (r : Nat)
    (hr : horner (2 ^ n - 1) r ds < 2 ^ 64) (cons : Bool) :
    Comma.decodeLoop c n (2 ^ n - 1) R r cons s =
      stopWith (if p = [] ∧ cons = false then .ok none else .error .unexpectedEof) (R.readBit s') := by
  obtain ⟨hb, -, -⟩ := comma_base_bounds h2 hn
  have hq0 : 0 < q.length := List.length_pos_iff.2 hq
  induction ds generalizing p s r cons with
  | nil =>
    have := congrArg List.length e
    rw [List.flatMap_nil, List.nil_append, natBits_length, List.length_append] at this
    exact comma_loop_stop c R h (by omega) hs cons
  | cons d ds ih =>
    rw [List.flatMap_cons, List.append_assoc] at e
    by_cases hl : p.length < n
    · exact comma_loop_stop c R h hl hs cons
    · rcases List.append_eq_append_iff.1 e with ⟨p', hp', hq'⟩ | ⟨q', hh, hq'⟩
      · subst hp'
        obtain ⟨s1, h3, h4⟩ := Reads.split h
        have hle := horner_le (b := 2 ^ n - 1) (by omega) ds (r * (2 ^ n - 1) + d)
        rw [comma_loop_step c R hn (hds d List.mem_cons_self) (Nat.lt_of_le_of_lt hle hr) h3,
          ih (fun d hd => hds d (List.mem_cons_of_mem _ hd)) hq' h4 _ hr true, if_neg (by simp), if_neg]
        rintro ⟨h, -⟩
        have := congrArg List.length h
        simp at this
        omega
      · have h5 := congrArg List.length hh
        rw [natBits_length, List.length_append] at h5
        have h6 : q' = [] := List.length_eq_zero_iff.1 (by omega)
        subst h6
        rw [List.append_nil] at hh
        subst hh
        have hle := horner_le (b := 2 ^ n - 1) (by omega) ds (r * (2 ^ n - 1) + d)
        rw [comma_loop_step c R hn (hds d List.mem_cons_self) (Nat.lt_of_le_of_lt hle hr) h,
          comma_loop_stop c R (.nil s') (by simp; omega) hs, if_neg (by simp), if_neg]
        rintro ⟨h, -⟩
        have := congrArg List.length h
        simp at this
        omega

theorem comma_trunc (c : Cfg) {n : Nat} (h2 : 2 ≤ n) (hn : n ≤ 63) :
    TruncatesTo (comma c n) (· < 2 ^ 64) (commaWord n) := by
  intro v hv p q e hp hq σ R s s' h hs
  obtain ⟨hb, -, -⟩ := comma_base_bounds h2 hn
  have hval := horner_digitsOf (b := 2 ^ n - 1) (by omega) v
  rw [comma_decode_eq c hn, comma_loop_trunc c R h2 hn _ (fun d hd => digitsOf_lt (by omega) v d hd) _ e hq h hs 0
    (by rw [hval]; exact hv), if_neg (by simp [hp])]

/-! ### arbitrary sources -/

/-- Decoding returns on every finite source in a release build, and on every source of at most 64 bits
in any build. -/
theorem comma_loop_total (c : Cfg) {n b : Nat} (hn : 1 ≤ n) (hb : b ≤ 2 ^ n - 1) {R : BitRead σ} {Rep : σ → List Bool → Prop}
    (hR : LawfulSource R Rep) (bits : List Bool) (s : σ) (r k : Nat) (cons : Bool) (hs : Rep s bits)
    (hk : c.debug = true → r < 2 ^ k ∧ k + bits.length ≤ 64) :
    ∃ o s' m, Comma.decodeLoop c n b R r cons s = .ok (o, s') ∧ Rep s' (bits.drop m) := by
  induction hlen : bits.length using Nat.strongRecOn generalizing bits s r k cons with
  | _ len ih =>
    by_cases hl : n ≤ bits.length
    · rw [← List.take_append_drop n bits] at hs
      obtain ⟨s1, h1, h2⟩ := hR.reads _ hs
      have htl : (bits.take n).length = n := by simp; omega
      rw [Comma.decodeLoop, SM.bind_run_ok (readInt_reads c R (by omega) h1 htl)]
      simp only
      split
      · exact ⟨_, s1, n, rfl, h2⟩
      · have hval := bitsVal_lt (bits.take n)
        rw [htl] at hval
        generalize hd : (BitVec.ofNat 64 (bitsVal (bits.take n))).toNat = d
        have hd' : d < 2 ^ n := by
          rw [← hd, BitVec.toNat_ofNat]
          exact Nat.lt_of_le_of_lt (Nat.mod_le _ _) hval
        have hm : ∃ a e, mulN c 64 r b = .ok a ∧ addN c 64 a d = .ok e ∧ (c.debug = true → e < 2 ^ (k + n)) := by
          by_cases hdb : c.debug = true
          · obtain ⟨h3, h4⟩ := hk hdb
            have hp : 2 ^ (k + n) ≤ 2 ^ 64 := Nat.pow_le_pow_right (by omega) (by omega)
            have hpk := Nat.two_pow_pos k
            have hpn := Nat.two_pow_pos n
            have h5 : r * b ≤ (2 ^ k - 1) * (2 ^ n - 1) := Nat.mul_le_mul (by omega) hb
            have h6 : (2 ^ k - 1) * (2 ^ n - 1) + (2 ^ n - 1) = 2 ^ k * (2 ^ n - 1) := by
              rw [← Nat.succ_mul]; congr 1; omega
            have h7 : 2 ^ k * (2 ^ n - 1) + 2 ^ k = 2 ^ (k + n) := by
              rw [← Nat.mul_succ, Nat.pow_add]; congr 1; omega
            refine ⟨r * b, r * b + d, mulN_ok (by omega), addN_ok (by omega), fun _ => by omega⟩
          · have h3 : ∃ a, mulN c 64 r b = .ok a := by
              unfold mulN overflow
              split
              · exact ⟨_, rfl⟩
              · exact ⟨_, rfl⟩
            obtain ⟨a, h3⟩ := h3
            have h4 : ∃ e, addN c 64 a d = .ok e := by
              unfold addN overflow
              split
              · exact ⟨_, rfl⟩
              · exact ⟨_, rfl⟩
            obtain ⟨e, h4⟩ := h4
            exact ⟨a, e, h3, h4, fun h => absurd h hdb⟩
        obtain ⟨a, e, h3, h4, h5⟩ := hm
        rw [h3, SM.lift_ok_bind, h4, SM.lift_ok_bind]
        obtain ⟨o, s', m, h6, h7⟩ := ih (bits.drop n).length (by simp; omega) (bits.drop n) s1 e (k + n) true h2
          (fun h => ⟨h5 h, by have := hk h; simp; omega⟩) rfl
        rw [List.drop_drop] at h7
        exact ⟨o, s', n + m, h6, h7⟩
    · obtain ⟨s1, h1, h2⟩ := hR.reads bits (l := []) (by simpa using hs)
      obtain ⟨s2, h3, h4⟩ := hR.none h2
      have hstop := comma_loop_stop c R (n := n) (b := b) (r := r) h1 (by omega) (by rw [h3]; intro b s; simp) cons
      rw [h3, stopWith_none] at hstop
      exact ⟨_, s2, bits.length, hstop, by simpa using h4⟩

/-- The digits read by a successful decoding. -/
theorem comma_loop_some (c : Cfg) {n : Nat} (hn : n ≤ 63) (R : BitRead σ) (r : Nat) (cons : Bool) (s s' : σ) (v : Nat)
    (h : Comma.decodeLoop c n (2 ^ n - 1) R r cons s = .ok (.ok (some v), s')) (hr : r < 2 ^ 64) :
    ∃ ds, (∀ d ∈ ds, d < 2 ^ n - 1) ∧ Reads R s (ds.flatMap (natBits n) ++ natBits n (2 ^ n - 1)) s' ∧
      v = horner (2 ^ n - 1) r ds % 2 ^ 64 ∧ (c.debug = true → v = horner (2 ^ n - 1) r ds) := by
  have hp : 2 ^ n < 2 ^ 64 := Nat.pow_lt_pow_right (by omega) (by omega)
  have hpos := Nat.two_pow_pos n
  suffices H : ∀ r cons s a s', Comma.decodeLoop c n (2 ^ n - 1) R r cons s = .ok (.ok a, s') → r < 2 ^ 64 →
      ∀ v, a = some v → ∃ ds, (∀ d ∈ ds, d < 2 ^ n - 1) ∧
        Reads R s (ds.flatMap (natBits n) ++ natBits n (2 ^ n - 1)) s' ∧
        v = horner (2 ^ n - 1) r ds % 2 ^ 64 ∧ (c.debug = true → v = horner (2 ^ n - 1) r ds) from
    H r cons s _ s' h hr v rfl
  generalize hb : 2 ^ n - 1 = b
  rw [hb] at h
  apply Comma.decodeLoop.fixpoint_induct c n b R (fun f => ∀ r cons s a s', f r cons s = .ok (.ok a, s') → r < 2 ^ 64 →
      ∀ v, a = some v → ∃ ds, (∀ d ∈ ds, d < b) ∧
        Reads R s (ds.flatMap (natBits n) ++ natBits n b) s' ∧
        v = horner b r ds % 2 ^ 64 ∧ (c.debug = true → v = horner b r ds))
  · apply admissible_pi_apply (fun r (g : Bool → SM σ (Option Nat)) => ∀ cons s a s', g cons s = .ok (.ok a, s') →
      r < 2 ^ 64 → ∀ v, a = some v → ∃ ds, (∀ d ∈ ds, d < b) ∧
        Reads R s (ds.flatMap (natBits n) ++ natBits n b) s' ∧
        v = horner b r ds % 2 ^ 64 ∧ (c.debug = true → v = horner b r ds))
    intro r
    exact admissible_ok _
  · intro f ih r cons s a s' h hr v ha
    subst ha
    obtain ⟨o, s1, h1, h2⟩ := SM.of_bind_ok h
    cases o with
    | none => cases cons <;> cases h2
    | some x =>
      obtain ⟨g, hg1, hg2, hg3⟩ := readInt_some (by omega) h1
      have hlt := bitsVal_lt g
      rw [hg1] at hlt
      have hx : x.toNat = bitsVal g := by rw [hg3, BitVec.toNat_ofNat, Nat.mod_eq_of_lt (by omega)]
      have hg : g = natBits n x.toNat := by rw [hx, ← hg1, natBits_bitsVal]
      simp only at h2
      split at h2
      · rename_i hxb
        cases h2
        refine ⟨[], by simp, ?_, (Nat.mod_eq_of_lt hr).symm, fun _ => rfl⟩
        rw [List.flatMap_nil, List.nil_append, ← hxb, ← hg]
        exact hg2
      · rename_i hxb
        obtain ⟨a, h3, h4⟩ := SM.of_lift_bind h2
        obtain ⟨e, h5, h6⟩ := SM.of_lift_bind h4
        have he : e = (r * b + x.toNat) % 2 ^ 64 ∧ (c.debug = true → e = r * b + x.toNat) := by
          unfold mulN overflow at h3
          unfold addN overflow at h5
          by_cases hd : c.debug = true
          · rw [if_pos hd] at h3 h5
            split at h3 <;> cases h3
            split at h5 <;> cases h5
            exact ⟨(Nat.mod_eq_of_lt (by assumption)).symm, fun _ => rfl⟩
          · rw [if_neg hd] at h3 h5
            refine ⟨?_, fun h => absurd h hd⟩
            have ha : a = r * b % 2 ^ 64 := by
              split at h3 <;> cases h3
              · exact (Nat.mod_eq_of_lt (by assumption)).symm
              · rfl
            have he : e = (a + x.toNat) % 2 ^ 64 := by
              split at h5 <;> cases h5
              · exact (Nat.mod_eq_of_lt (by assumption)).symm
              · rfl
            rw [he, ha, Nat.add_mod, Nat.mod_mod, ← Nat.add_mod]
        have he64 : e < 2 ^ 64 := he.1 ▸ Nat.mod_lt _ (Nat.two_pow_pos 64)
        obtain ⟨ds, h7, h8, h9, h10⟩ := ih _ _ _ _ _ h6 he64 v rfl
        refine ⟨x.toNat :: ds, ?_, ?_, ?_, ?_⟩
        · intro d hd
          rcases List.mem_cons.1 hd with rfl | hd
          · omega
          · exact h7 d hd
        · rw [List.flatMap_cons, ← hg, List.append_assoc]
          exact hg2.append h8
        · rw [h9, he.1]
          show horner b ((r * b + x.toNat) % 2 ^ 64) ds % 2 ^ 64 = horner b (r * b + x.toNat) ds % 2 ^ 64
          generalize r * b + x.toNat = y
          clear h7 h8 h9 h10
          induction ds generalizing y with
          | nil => exact Nat.mod_mod _ _
          | cons d ds ih =>
            show horner b (y % 2 ^ 64 * b + d) ds % 2 ^ 64 = horner b (y * b + d) ds % 2 ^ 64
            rw [← ih (y % 2 ^ 64 * b + d), ← ih (y * b + d)]
            congr 2
            rw [Nat.add_mod, Nat.mul_mod, Nat.mod_mod, ← Nat.mul_mod, ← Nat.add_mod]
        · intro hd
          rw [h10 hd, he.2 hd]
          rfl

/-- Digits are determined by their value, up to leading zeros. -/
theorem digits_unique {b : Nat} (hb : 2 ≤ b) (ds : List Nat) (h : ∀ d ∈ ds, d < b) :
    ∃ k, ds = List.replicate k 0 ++ digitsOf b (horner b 0 ds) := by
  generalize hl : ds.length = len
  induction len generalizing ds with
  | zero =>
    obtain rfl := List.length_eq_zero_iff.1 hl
    exact ⟨0, by simp [horner, digitsOf_zero]⟩
  | succ len ih =>
    rcases List.eq_nil_or_concat ds with rfl | ⟨es, d, rfl⟩
    · simp at hl
    · rw [List.concat_eq_append] at *
      simp at hl
      have hd : d < b := h d (by simp)
      obtain ⟨k, hk⟩ := ih es (fun x hx => h x (by simp [hx])) hl
      rw [horner_append]
      generalize he : horner b 0 es = y at *
      show ∃ k, es ++ [d] = _ ++ digitsOf b (y * b + d)
      by_cases h0 : y * b + d = 0
      · have hd0 : d = 0 := by omega
        have hy0 : y = 0 := by
          rcases Nat.eq_zero_or_pos y with h | h
          · exact h
          · have := Nat.mul_le_mul_right b h
            omega
        rw [hy0, digitsOf_zero, List.append_nil] at hk
        refine ⟨k + 1, ?_⟩
        rw [h0, digitsOf_zero, List.append_nil, hk, hd0, List.replicate_succ']
      · refine ⟨k, ?_⟩
        rw [digitsOf_pos hb (by omega), Nat.mul_comm y b, Nat.mul_add_div (by omega), Nat.div_eq_of_lt hd, Nat.add_zero,
          Nat.mul_add_mod, Nat.mod_eq_of_lt hd, ← List.append_assoc, ← hk]

end Succinct
