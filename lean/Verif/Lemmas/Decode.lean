import Verif.Spec.Decode
import Verif.Lemmas.CodingTotal
import Verif.Lemmas.CodingComma
import Verif.Lemmas.CodingFib
import Verif.Lemmas.CodingOmega
/-! # The outcomes of the decoders on every finite stream -/
namespace Succinct
open Spec

theorem LawfulSource.noBit {R : BitRead σ} {Rep : σ → List Bool → Prop} (hR : LawfulSource R Rep) {s : σ} (hs : Rep s []) :
    NoBit (R.readBit s) ∧ ∀ {α : Type} (e : Except IoErr α), ∃ s', stopWith e (R.readBit s) = .ok (e, s') ∧ Rep s' [] := by
  obtain ⟨s1, h1, h2⟩ := hR.none hs
  refine ⟨by rw [h1]; intro b s; simp, fun e => ⟨s1, ?_, h2⟩⟩
  rw [h1]
  rfl

/-! ### Unary -/

theorem takeWhile_replicate (bits : List Bool) :
    bits.takeWhile (fun b => !b) = List.replicate (bits.takeWhile (fun b => !b)).length false := by
  induction bits with
  | nil => rfl
  | cons b bits ih =>
    cases b with
    | true => rfl
    | false =>
      rw [List.takeWhile_cons_of_pos (by rfl), List.length_cons, List.replicate_succ, ← ih]

theorem dropWhile_head {bits : List Bool} {b : Bool} {rest : List Bool} (h : bits.dropWhile (fun b => !b) = b :: rest) :
    b = true := by
  have h1 := List.head?_dropWhile_not (fun b => !b) bits
  rw [h] at h1
  simpa using h1

theorem unary_yields (c : Cfg) (bits : List Bool) (hl : bits.length < 2 ^ 64) : Yields (unary c) bits (unaryOut bits) := by
  intro σ R Rep hR s hs
  have hsplit := List.takeWhile_append_dropWhile (p := fun b => !b) (l := bits)
  have hk : (bits.takeWhile (fun b => !b)).length < 2 ^ 64 := by
    have := congrArg List.length hsplit
    rw [List.length_append] at this
    omega
  have hs' := hs
  rw [← hsplit] at hs'
  obtain ⟨s1, h1, h2⟩ := hR.reads _ hs'
  rw [takeWhile_replicate] at h1
  have hloop := unary_loop_reads c R h1 0 (by omega) false
  rw [Nat.zero_add, Bool.false_or] at hloop
  cases hd : bits.dropWhile (fun b => !b) with
  | nil =>
    rw [hd] at h2 hsplit
    rw [List.append_nil] at hsplit
    rw [hsplit] at hloop
    obtain ⟨h3, h4⟩ := hR.noBit h2
    have h5 := unary_loop_stop c R h3 bits.length (decide (0 < bits.length))
    by_cases hb : bits = []
    · simp only [unaryOut, hd, if_pos hb]
      obtain ⟨s2, h6, h7⟩ := h4 (.ok none)
      refine ⟨s2, ?_, h7⟩
      show Unary.decodeLoop c R 0 false s = _
      rw [hloop, h5, ← h6, hb]
      rfl
    · simp only [unaryOut, hd, if_neg hb]
      obtain ⟨s2, h6, h7⟩ := h4 (.error .unexpectedEof)
      refine ⟨s2, ?_, h7⟩
      show Unary.decodeLoop c R 0 false s = _
      rw [hloop, h5, ← h6, if_pos (by simpa using List.length_pos_iff.2 hb)]
  | cons b rest =>
    simp only [unaryOut, hd]
    rw [hd, dropWhile_head hd] at h2
    obtain ⟨s2, h3, h4⟩ := hR.some h2
    refine ⟨s2, ?_, h4⟩
    show Unary.decodeLoop c R 0 false s = _
    rw [hloop, Unary.decodeLoop, SM.bind_run_ok h3]
    rfl

/-! ### Elias and Lift0 -/

theorem elias_yields (c : Cfg) {H : Code} {bits : List Bool} {o : Outcome} (h : Yields H bits o) :
    Yields (elias c H) bits (eliasOut o) := by
  intro σ R Rep hR s hs
  have h0 := h σ R Rep hR s hs
  have e : (elias c H).decode R = Elias.decode c H R := rfl
  rw [e]
  unfold Elias.decode
  cases o with
  | nothing =>
    obtain ⟨s1, h1, h2⟩ := h0
    exact ⟨s1, by rw [SM.bind_run_ok h1]; rfl, h2⟩
  | eof =>
    obtain ⟨s1, h1, h2⟩ := h0
    exact ⟨s1, by rw [SM.bind_run_err h1], h2⟩
  | invalid rest =>
    obtain ⟨s1, h1, h2⟩ := h0
    exact ⟨s1, by rw [SM.bind_run_err h1], h2⟩
  | panics =>
    show _ = _
    rw [SM.bind_run, h0]
    rfl
  | value n rest =>
    obtain ⟨s1, h1, h2⟩ := h0
    rw [SM.bind_run_ok h1]
    simp only [eliasOut]
    rw [subN_ok (by omega), SM.lift_ok_bind]
    by_cases hn : 63 < n
    · rw [if_pos hn, if_pos hn]
      exact ⟨s1, rfl, h2⟩
    · rw [if_neg hn, if_neg hn, asUsize_small c (by omega)]
      by_cases hr : rest.length < n
      · rw [if_pos hr]
        obtain ⟨s2, h3, h4⟩ := hR.reads rest (l := []) (by simpa using h2)
        obtain ⟨h5, h6⟩ := hR.noBit h4
        have h7 := readInt_stop (w := 64) c R (by omega) h3 h5 hr
        by_cases hrest : rest = []
        · rw [if_pos hrest] at h7
          obtain ⟨s3, h8, h9⟩ := h6 (.ok none)
          rw [h8] at h7
          exact ⟨s3, by rw [SM.bind_run_ok h7]; rfl, h9⟩
        · rw [if_neg hrest] at h7
          obtain ⟨s3, h8, h9⟩ := h6 (.error .unexpectedEof)
          rw [h8] at h7
          exact ⟨s3, by rw [SM.bind_run_err h7], h9⟩
      · rw [if_neg hr]
        have h2' := h2
        rw [← List.take_append_drop n rest] at h2'
        obtain ⟨s2, h3, h4⟩ := hR.reads _ h2'
        have htl : (rest.take n).length = n := by simp; omega
        refine ⟨s2, ?_, h4⟩
        rw [SM.bind_run_ok (readInt_reads c R (by omega) h3 htl)]
        simp only
        have hb := bitsVal_lt (rest.take n)
        rw [htl] at hb
        have hp : 2 ^ n < 2 ^ 64 := Nat.pow_lt_pow_right (by omega) (by omega)
        rw [shlN_ok (by omega) (by omega), SM.lift_ok_bind, BitVec.toNat_ofNat, Nat.mod_eq_of_lt (by omega), Nat.one_mul,
          or_two_pow hb, Nat.add_comm]
        rfl

theorem lift0_yields (c : Cfg) {K : Code} {bits : List Bool} {o : Outcome} (h : Yields K bits o) :
    Yields (lift0 c K) bits (lift0Out c.debug o) := by
  intro σ R Rep hR s hs
  have h0 := h σ R Rep hR s hs
  have e : (lift0 c K).decode R = Lift0.decode c K R := rfl
  rw [e]
  unfold Lift0.decode
  cases o with
  | nothing =>
    obtain ⟨s1, h1, h2⟩ := h0
    exact ⟨s1, by rw [SM.bind_run_ok h1]; rfl, h2⟩
  | eof =>
    obtain ⟨s1, h1, h2⟩ := h0
    exact ⟨s1, by rw [SM.bind_run_err h1], h2⟩
  | invalid rest =>
    obtain ⟨s1, h1, h2⟩ := h0
    exact ⟨s1, by rw [SM.bind_run_err h1], h2⟩
  | panics =>
    show _ = _
    rw [SM.bind_run, h0]
    rfl
  | value n rest =>
    obtain ⟨s1, h1, h2⟩ := h0
    rw [SM.bind_run_ok h1]
    cases n with
    | zero =>
      simp only [lift0Out]
      cases hd : c.debug with
      | true =>
        show _ = _
        simp only [subN, overflow, hd]
        rfl
      | false =>
        refine ⟨s1, ?_, h2⟩
        simp only [subN, overflow, hd]
        rfl
    | succ n =>
      refine ⟨s1, ?_, h2⟩
      simp only
      rw [subN_ok (by omega), SM.lift_ok_bind]
      rfl

/-! ### Omega -/

theorem omega_loop_yields (c : Cfg) {R : BitRead σ} {Rep : σ → List Bool → Prop} (hR : LawfulSource R Rep)
    (bits : List Bool) (s : σ) (r : Nat) (hs : Rep s bits) :
    match omegaOut c r bits with
    | .value v rest => ∃ s', Omega.decodeLoop c R r s = .ok (.ok (some v), s') ∧ Rep s' rest
    | .nothing => ∃ s', Omega.decodeLoop c R r s = .ok (.ok none, s') ∧ Rep s' []
    | .eof => ∃ s', Omega.decodeLoop c R r s = .ok (.error .unexpectedEof, s') ∧ Rep s' []
    | .invalid rest => ∃ s', Omega.decodeLoop c R r s = .ok (.error .invalidData, s') ∧ Rep s' rest
    | .panics => Omega.decodeLoop c R r s = .panic := by
  induction hn : bits.length using Nat.strongRecOn generalizing bits s r with
  | _ n ih =>
    cases bits with
    | nil =>
      obtain ⟨h1, h2⟩ := hR.noBit hs
      have h3 := omega_loop_stop c R h1 r
      rw [omegaOut]
      by_cases hr : r = 1
      · rw [if_pos hr] at h3 ⊢
        obtain ⟨s1, h4, h5⟩ := h2 (.ok none)
        exact ⟨s1, by rw [h3, h4], h5⟩
      · rw [if_neg hr] at h3 ⊢
        obtain ⟨s1, h4, h5⟩ := h2 (.error .unexpectedEof)
        exact ⟨s1, by rw [h3, h4], h5⟩
    | cons b rest =>
      obtain ⟨s1, h1, h2⟩ := hR.some hs
      cases b with
      | false =>
        rw [omegaOut]
        exact ⟨s1, by rw [Omega.decodeLoop, SM.bind_run_ok h1]; rfl, h2⟩
      | true =>
        rw [omegaOut]
        have hstep : Omega.decodeLoop c R r s = (do
            match ← readIntBe c R 64 (asUsize c r) with
            | some next => do
              let hi ← SM.lift (shlN c 64 1 (r % 2 ^ 32))
              Omega.decodeLoop c R (next.toNat ||| hi)
            | none => outOfBits) s1 := by
          rw [Omega.decodeLoop, SM.bind_run_ok h1]
          rfl
        have hu : asUsize c r = r % 2 ^ c.usz := rfl
        rw [hstep, hu]
        generalize hm : r % 2 ^ c.usz = m
        by_cases hr : rest.length < m
        · rw [if_pos hr]
          obtain ⟨s2, h3, h4⟩ := hR.reads rest (l := []) (by simpa using h2)
          obtain ⟨h5, h6⟩ := hR.noBit h4
          have h7 := readIntBe_stop (w := 64) c R (by omega) h3 h5 hr
          by_cases hrest : rest = []
          · rw [if_pos hrest] at h7
            obtain ⟨s3, h8, h9⟩ := h6 (.ok none)
            rw [h8] at h7
            exact ⟨s3, by rw [SM.bind_run_ok h7]; rfl, h9⟩
          · rw [if_neg hrest] at h7
            obtain ⟨s3, h8, h9⟩ := h6 (.error .unexpectedEof)
            rw [h8] at h7
            exact ⟨s3, by rw [SM.bind_run_err h7], h9⟩
        · rw [if_neg hr]
          have h2' := h2
          rw [← List.take_append_drop m rest] at h2'
          obtain ⟨s2, h3, h4⟩ := hR.reads _ h2'
          have htl : (rest.take m).length = m := by simp; omega
          rw [SM.bind_run_ok (readIntBe_reads c R (by omega) h3 htl)]
          simp only [BitVec.toNat_ofNat]
          by_cases hp : c.debug = true ∧ 64 ≤ r % 2 ^ 32
          · rw [if_pos hp]
            show _ = _
            have : shlN c 64 1 (r % 2 ^ 32) = .panic := by
              rw [shlN, if_neg (by omega), overflow, if_pos hp.1]
            rw [this]
            rfl
          · rw [if_neg hp]
            have : shlN c 64 1 (r % 2 ^ 32) = .ok (2 ^ (r % 64)) := by
              have hlt : r % 64 < 64 := Nat.mod_lt _ (by omega)
              have hpp : 2 ^ (r % 64) < 2 ^ 64 := Nat.pow_lt_pow_right (by omega) hlt
              have hmm : r % 2 ^ 32 % 64 = r % 64 := by omega
              by_cases h64 : r % 2 ^ 32 < 64
              · have : r % 2 ^ 32 = r % 64 := by omega
                rw [this, shlN_ok hlt (by omega), Nat.one_mul]
              · rw [shlN, if_neg h64, overflow, if_neg (fun hd => hp ⟨hd, by omega⟩), hmm, Nat.shiftLeft_eq, Nat.one_mul,
                  Nat.mod_eq_of_lt hpp]
            rw [this, SM.lift_ok_bind]
            exact ih (rest.drop m).length (by simp at hn ⊢; omega) (rest.drop m) s2 _ h4 rfl

theorem omega_yields (c : Cfg) (bits : List Bool) : Yields (omegaCode c) bits (omegaOut c 1 bits) := by
  intro σ R Rep hR s hs
  exact omega_loop_yields c hR bits s 1 hs

/-- On a word and whatever follows, as long as the numbers fit. -/
theorem omegaOut_groups (c : Cfg) (v : Nat) (h1 : 1 ≤ v) (h2 : v < 2 ^ 64) (tail : List Bool) :
    omegaOut c 1 (omegaGroups v ++ tail) = omegaOut c v tail := by
  induction v using Nat.strongRecOn generalizing tail with
  | _ v ih =>
    by_cases hv : 1 < v
    · rw [omegaGroups_large hv, List.append_assoc]
      have hl := log2_lt_self h1
      have hl2 := log2_lt_64 h2 (by omega)
      rw [ih v.log2 hl (one_le_log2 hv) (by omega), natBits_succ_reverse, testBit_log2 (by omega), List.cons_append, omegaOut]
      have hu : v.log2 % 2 ^ c.usz = v.log2 := asUsize_small c (by omega)
      have hle := Nat.log2_self_le (n := v) (by omega)
      have hlt : v < 2 ^ (v.log2 + 1) := Nat.lt_log2_self
      have hlen : (natBits v.log2 v).reverse.length = v.log2 := by simp
      rw [hu, if_neg (by simp), if_neg (by omega), List.take_append_of_le_length (by omega), List.take_of_length_le (by omega),
        List.drop_append_of_le_length (by omega), List.drop_eq_nil_of_le (by omega), List.nil_append, List.reverse_reverse,
        bitsVal_natBits, Nat.mod_eq_of_lt (a := v.log2) hl2]
      have hm : v % 2 ^ v.log2 = v - 2 ^ v.log2 := by
        rw [Nat.mod_eq_sub_mod hle, Nat.mod_eq_of_lt]
        rw [Nat.pow_succ] at hlt
        omega
      have hp : 2 ^ v.log2 < 2 ^ 64 := Nat.pow_lt_pow_right (by omega) hl2
      have hmlt := Nat.mod_lt v (Nat.two_pow_pos v.log2)
      rw [Nat.mod_eq_of_lt (b := 2 ^ 64) (by omega), or_two_pow hmlt, hm]
      congr 1
      omega
    · rw [omegaGroups_small (by omega), List.nil_append, show v = 1 by omega]

/-- Every stream is the groups of some number below 2^64, and then: it ends; or a 0; or a 1 and too few bits for
the next group; or a 1 and the number is at least 64, so that the next number is too large. -/
theorem omega_split (bits : List Bool) :
    ∃ v tail, 1 ≤ v ∧ v < 2 ^ 64 ∧ bits = omegaGroups v ++ tail ∧
      (tail = [] ∨ (∃ rest, tail = false :: rest) ∨ (∃ rest, tail = true :: rest ∧ (rest.length < v ∨ 64 ≤ v))) := by
  suffices H : ∀ n (bits : List Bool) r, bits.length = n → 1 ≤ r → r < 2 ^ 64 →
      ∃ v tail, 1 ≤ v ∧ v < 2 ^ 64 ∧ omegaGroups r ++ bits = omegaGroups v ++ tail ∧
      (tail = [] ∨ (∃ rest, tail = false :: rest) ∨ (∃ rest, tail = true :: rest ∧ (rest.length < v ∨ 64 ≤ v))) by
    obtain ⟨v, tail, h⟩ := H _ bits 1 rfl (by decide) (by decide)
    rw [omegaGroups_small (Nat.le_refl 1), List.nil_append] at h
    exact ⟨v, tail, h⟩
  intro n
  induction n using Nat.strongRecOn with
  | _ n ih =>
    intro bits r hn hr1 hr2
    cases bits with
    | nil => exact ⟨r, [], hr1, hr2, rfl, .inl rfl⟩
    | cons b rest =>
      cases b with
      | false => exact ⟨r, _, hr1, hr2, rfl, .inr (.inl ⟨rest, rfl⟩)⟩
      | true =>
        by_cases h : rest.length < r ∨ 64 ≤ r
        · exact ⟨r, _, hr1, hr2, rfl, .inr (.inr ⟨rest, rfl, h⟩)⟩
        · have hr64 : r < 64 := by omega
          have hlen : r ≤ rest.length := by omega
          have htl : (rest.take r).reverse.length = r := by simp; omega
          have hb := bitsVal_lt (rest.take r).reverse
          rw [htl] at hb
          have hp : 2 ^ r * 2 ≤ 2 ^ 64 := by
            rw [← Nat.pow_succ]; exact Nat.pow_le_pow_right (by omega) (by omega)
          have hpos := Nat.two_pow_pos r
          have hg := natBits_group hb
          obtain ⟨hlg, -⟩ := elias_value hb
          have hv := or_two_pow hb
          have hr2 : 2 ≤ 2 ^ r := by
            calc 2 = 2 ^ 1 := rfl
              _ ≤ 2 ^ r := Nat.pow_le_pow_right (by omega) hr1
          generalize hx : bitsVal (rest.take r).reverse ||| 2 ^ r = x at *
          have hgr : omegaGroups x = omegaGroups r ++ (true :: rest.take r) := by
            rw [omegaGroups_large (by omega), hg, hlg]
            congr 1
            have := natBits_bitsVal (rest.take r).reverse
            rw [htl] at this
            rw [this, List.reverse_reverse]
          obtain ⟨v, tail, h3, h4, h5, h6⟩ := ih (rest.drop r).length (by simp at hn ⊢; omega) (rest.drop r) x rfl
            (by omega) (by omega)
          refine ⟨v, tail, h3, h4, ?_, h6⟩
          rw [← h5, hgr, List.append_assoc, List.cons_append, List.take_append_drop]

/-! ### Comma -/

theorem horner_mod (b m r : Nat) (ds : List Nat) : horner b (r % m) ds % m = horner b r ds % m := by
  induction ds generalizing r with
  | nil => simp [horner]
  | cons d ds ih =>
    show horner b (r % m * b + d) ds % m = horner b (r * b + d) ds % m
    rw [← ih (r % m * b + d), ← ih (r * b + d)]
    congr 2
    rw [Nat.add_mod, Nat.mul_mod, Nat.mod_mod, ← Nat.mul_mod, ← Nat.add_mod]

/-- The digits are groups of `n` bits, taken modulo 2^64. -/
def digit (g : List Bool) : Nat := bitsVal g % 2 ^ 64

theorem comma_loop_groups (c : Cfg) (R : BitRead σ) {n b : Nat} (hb : c.debug = true → 1 ≤ b) (gs : List (List Bool))
    (hg : ∀ g ∈ gs, g.length = n ∧ digit g ≠ b) {s s' : σ} (h : Reads R s gs.flatten s') (r : Nat) (hr : r < 2 ^ 64)
    (cons : Bool) :
    Comma.decodeLoop c n b R r cons s =
      if c.debug = true ∧ 2 ^ 64 ≤ horner b r (gs.map digit) then .panic
      else Comma.decodeLoop c n b R (horner b r (gs.map digit) % 2 ^ 64) (cons || !gs.isEmpty) s' := by
  induction gs generalizing s r cons with
  | nil =>
    cases h
    rw [if_neg (by simp only [List.map_nil, horner, List.foldl_nil]; omega)]
    simp only [List.map_nil, horner, List.foldl_nil, List.isEmpty_nil, Bool.not_true, Bool.or_false]
    rw [Nat.mod_eq_of_lt hr]
  | cons g gs ih =>
    rw [List.flatten_cons] at h
    obtain ⟨s1, h1, h2⟩ := Reads.split h
    obtain ⟨hg1, hg2⟩ := hg g List.mem_cons_self
    have hstep : horner b r ((g :: gs).map digit) = horner b (r * b + digit g) (gs.map digit) := rfl
    have hnext := fun r' hr' => ih (fun g' h' => hg g' (List.mem_cons_of_mem _ h')) h2 r' hr' true
    rw [Comma.decodeLoop, SM.bind_run_ok (readInt_reads c R (by omega) h1 hg1)]
    have hd : (BitVec.ofNat 64 (bitsVal g)).toNat = digit g := by rw [BitVec.toNat_ofNat]; rfl
    simp only
    rw [hd, if_neg hg2, hstep]
    simp only [List.isEmpty_cons, Bool.not_false, Bool.or_true]
    by_cases hdb : c.debug = true
    · have hle := horner_le (hb hdb) (gs.map digit) (r * b + digit g)
      by_cases hmul : r * b < 2 ^ 64
      · rw [mulN_ok hmul, SM.lift_ok_bind]
        by_cases hadd : r * b + digit g < 2 ^ 64
        · rw [addN_ok hadd, SM.lift_ok_bind, hnext _ hadd, Bool.true_or]
        · rw [if_pos ⟨hdb, by omega⟩, addN, if_neg hadd, overflow, if_pos hdb]
          rfl
      · rw [if_pos ⟨hdb, by omega⟩, mulN, if_neg hmul, overflow, if_pos hdb]
        rfl
    · rw [if_neg (fun h => hdb h.1)]
      have hm : mulN c 64 r b = .ok (r * b % 2 ^ 64) := by
        unfold mulN overflow
        rw [if_neg hdb]
        split
        · rw [Nat.mod_eq_of_lt (by assumption)]
        · rfl
      have ha : addN c 64 (r * b % 2 ^ 64) (digit g) = .ok ((r * b + digit g) % 2 ^ 64) := by
        unfold addN overflow
        rw [if_neg hdb]
        split
        · congr 1; omega
        · congr 1; omega
      rw [hm, SM.lift_ok_bind, ha, SM.lift_ok_bind, hnext _ (Nat.mod_lt _ (by decide)), if_neg (fun h => hdb h.1),
        Bool.true_or, horner_mod]

theorem comma_split {n : Nat} (hn : 1 ≤ n) (b : Nat) (bits : List Bool) :
    ∃ (gs : List (List Bool)) (tail : List Bool), (∀ g ∈ gs, g.length = n ∧ digit g ≠ b) ∧ bits = gs.flatten ++ tail ∧
      (tail.length < n ∨ ∃ g rest, g.length = n ∧ digit g = b ∧ tail = g ++ rest) := by
  induction hl : bits.length using Nat.strongRecOn generalizing bits with
  | _ len ih =>
    by_cases h : bits.length < n
    · exact ⟨[], bits, by simp, rfl, .inl h⟩
    · have htl : (bits.take n).length = n := by simp; omega
      by_cases hd : digit (bits.take n) = b
      · exact ⟨[], bits, by simp, rfl, .inr ⟨bits.take n, bits.drop n, htl, hd, (List.take_append_drop n bits).symm⟩⟩
      · obtain ⟨gs, tail, h1, h2, h3⟩ := ih (bits.drop n).length (by simp; omega) (bits.drop n) rfl
        refine ⟨bits.take n :: gs, tail, ?_, ?_, h3⟩
        · intro g hg
          rcases List.mem_cons.1 hg with rfl | hg
          · exact ⟨htl, hd⟩
          · exact h1 g hg
        · rw [List.flatten_cons, List.append_assoc, ← h2, List.take_append_drop]

theorem comma_base_any (c : Cfg) {n : Nat} (h : c.debug = true → n ≤ 63) : Comma.base c n = .ok (2 ^ (n % 64) - 1) := by
  have hlt : n % 64 < 64 := Nat.mod_lt _ (by omega)
  have hpp : 2 ^ (n % 64) < 2 ^ 64 := Nat.pow_lt_pow_right (by omega) hlt
  have : shlN c 64 1 n = .ok (2 ^ (n % 64)) := by
    by_cases hn : n < 64
    · rw [Nat.mod_eq_of_lt hn] at hpp ⊢
      rw [shlN_ok hn (by omega), Nat.one_mul]
    · rw [shlN, if_neg hn, overflow, if_neg (fun hd => by have := h hd; omega), Nat.shiftLeft_eq, Nat.one_mul,
        Nat.mod_eq_of_lt hpp]
  rw [Comma.base, this]
  show subN c 64 (2 ^ (n % 64)) 1 = _
  exact subN_ok (Nat.two_pow_pos _)

theorem comma_decode_loop (c : Cfg) {n : Nat} (h : c.debug = true → n ≤ 63) (R : BitRead σ) :
    (comma c n).decode R = Comma.decodeLoop c n (2 ^ (n % 64) - 1) R 0 false := by
  show Comma.decode c n R = _
  funext s
  rw [Comma.decode, comma_base_any c h, SM.lift_ok_bind]

/-! ### Fibonacci -/

theorem fib_split (bits : List Bool) (m : Nat) :
    (∃ z rest, z.length < m ∧ NoAdj z ∧ z.getLast? = some true ∧ bits = z ++ true :: rest) ∨ NoAdj (bits.take m) := by
  induction m with
  | zero => exact .inr trivial
  | succ m ih =>
    rcases ih with ⟨z, rest, h1, h2, h3, h4⟩ | h
    · exact .inl ⟨z, rest, by omega, h2, h3, h4⟩
    · by_cases hm : m < bits.length
      · rw [List.take_succ_eq_append_getElem hm]
        cases hb : bits[m] with
        | false => exact .inr (noAdj_snoc_false.2 h)
        | true =>
          by_cases hl : (bits.take m).getLast? = some true
          · refine .inl ⟨bits.take m, bits.drop (m + 1), by simp; omega, h, hl, ?_⟩
            rw [← hb, List.getElem_cons_drop, List.take_append_drop]
          · exact .inr (noAdj_snoc_true.2 ⟨h, hl⟩)
      · rw [List.take_of_length_le (by omega)] at h ⊢
        exact .inr h

theorem fib_loop_start (c : Cfg) (R : BitRead σ) {z : List Bool} {s s' : σ} (h : Reads R s z s') (hz : NoAdj z)
    (hl : z.length ≤ 91) :
    Fibonacci.decodeLoop c R 0 (fibAt 0) false s =
      Fibonacci.decodeLoop c R (fibSum 2 z) (fibAt z.length) (z.getLast? == some true) s' := by
  have hlt := noAdj_sum_lt z hz
  have hm := fib_mono (show z.length + 2 ≤ 93 by omega)
  have h64 := fib_93_lt
  rw [fib_loop_reads c R z h 0 0 false hz (by show 0 + fibSum 2 z < _; omega) (by omega), Nat.zero_add, Nat.zero_add, Nat.zero_add]
  congr 1
  rcases List.eq_nil_or_concat z with rfl | ⟨z, b, rfl⟩
  · rfl
  · simp only [List.concat_eq_append, List.getLast?_concat, ← List.cons_append, List.getLast_concat]
    cases b <;> rfl

theorem fibonacci_value (c : Cfg) {z rest : List Bool} (hz : NoAdj z) (hl : z.length < 92) (ht : z.getLast? = some true) :
    Yields (fibonacci c) (z ++ true :: rest) (.value (fibSum 2 z) rest) := by
  intro σ R Rep hR s hs
  obtain ⟨s1, h1, h2⟩ := hR.reads _ hs
  obtain ⟨s2, h3, h4⟩ := hR.some h2
  refine ⟨s2, ?_, h4⟩
  show Fibonacci.decodeLoop c R 0 (fibAt 0) false s = _
  rw [fib_loop_start c R h1 hz (by omega), ht, Fibonacci.decodeLoop, SM.bind_run_ok h3]
  rfl

theorem fibonacci_short (c : Cfg) {bits : List Bool} (hz : NoAdj bits) (hl : bits.length < 92) :
    Yields (fibonacci c) bits (if true ∈ bits then .eof else .nothing) := by
  intro σ R Rep hR s hs
  obtain ⟨s1, h1, h2⟩ := hR.reads bits (l := []) (by simpa using hs)
  obtain ⟨h3, h4⟩ := hR.noBit h2
  have h5 := fib_loop_start c R h1 hz (by omega)
  rw [fib_loop_stop c R h3] at h5
  by_cases ht : true ∈ bits
  · rw [if_pos ht]
    rw [if_neg (fun h => (fibSum_eq_zero 1 bits).1 h ht)] at h5
    obtain ⟨s2, h6, h7⟩ := h4 (.error .unexpectedEof)
    exact ⟨s2, by rw [← h6]; exact h5, h7⟩
  · rw [if_neg ht]
    rw [if_pos ((fibSum_eq_zero 1 bits).2 ht)] at h5
    obtain ⟨s2, h6, h7⟩ := h4 (.ok none)
    exact ⟨s2, by rw [← h6]; exact h5, h7⟩

theorem fibonacci_long (c : Cfg) {z rest : List Bool} (hz : NoAdj z) (hl : z.length = 92) :
    Yields (fibonacci c) (z ++ rest) (if c.debug = true ∧ 2 ^ 64 ≤ fibSum 2 z then .panics else .invalid rest) := by
  intro σ R Rep hR s hs
  obtain ⟨y, b, rfl⟩ : ∃ y b, z = y ++ [b] := by
    rcases List.eq_nil_or_concat z with rfl | ⟨y, b, rfl⟩
    · simp at hl
    · exact ⟨y, b, by simp⟩
  have hy : y.length = 91 := by simpa using hl
  rw [List.append_assoc] at hs
  obtain ⟨s1, h1, h2⟩ := hR.reads _ hs
  obtain ⟨s2, h3, h4⟩ := hR.some (l := rest) h2
  have hna := noAdj_append_left hz
  have h5 := fib_loop_start c R h1 hna (by omega)
  have hb : (b && (y.getLast? == some true)) = false := by
    cases b with
    | false => rfl
    | true => simpa using (noAdj_snoc_true.1 hz).2
  have hlt := noAdj_sum_lt y hna
  have hm := fib_mono (show y.length + 2 ≤ 93 by omega)
  have h64 := fib_93_lt
  have hno : ¬ fib (91 + 3) < 2 ^ 64 := by rw [show 91 + 3 = 94 from rfl, fib_94]; decide
  rw [fibSum_snoc]
  have h6 : ∀ r f prev, Fibonacci.decodeLoop c R r f prev s1 = _ := fun r f prev => by
    rw [Fibonacci.decodeLoop, SM.bind_run_ok h3]
  rw [hy, h6] at h5
  simp only [hb, Bool.false_eq_true, if_false] at h5
  have e : (fibonacci c).decode R s = Fibonacci.decodeLoop c R 0 (fibAt 0) false s := rfl
  rw [e, h5]
  have hfi : (fibAt 91).i = fib (y.length + 2) := by rw [hy]; rfl
  cases b with
  | false =>
    simp only [Bool.false_eq_true, if_false]
    rw [if_neg (by omega), SM.lift_ok_bind, tryNext_err _ hno]
    exact ⟨s2, rfl, h4⟩
  | true =>
    simp only [if_true]
    rw [hfi]
    by_cases hs : fibSum 2 y + fib (y.length + 2) < 2 ^ 64
    · rw [if_neg (by omega), addN_ok hs, SM.lift_ok_bind, tryNext_err _ hno]
      exact ⟨s2, rfl, h4⟩
    · by_cases hd : c.debug = true
      · rw [if_pos ⟨hd, by omega⟩, addN, if_neg hs, overflow, if_pos hd]
        rfl
      · rw [if_neg (fun h => hd h.1), addN, if_neg hs, overflow, if_neg hd, SM.lift_ok_bind, tryNext_err _ hno]
        exact ⟨s2, rfl, h4⟩

end Succinct
