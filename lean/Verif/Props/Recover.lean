import Verif.Props.AnySource
import Verif.Props.Completion
import Verif.Props.Resync
/-!
C131: damaged streams of `Unary` and `Comma` codewords.
-/
namespace Succinct
open Spec

theorem decodeMany_append {K : Code} {R : BitRead σ} (a b : Nat) {s s1 : σ} {us : List (Option Nat)}
    (h1 : decodeMany K R a s = .ok (.ok us, s1)) :
    decodeMany K R (a + b) s = (do let vs ← decodeMany K R b; pure (us ++ vs)) s1 := by
  induction a generalizing s us with
  | zero =>
    cases h1
    rw [Nat.zero_add, SM.bind_run]
    cases decodeMany K R b s1 with
    | ok r => obtain ⟨r, s2⟩ := r; cases r <;> rfl
    | panic => rfl
    | diverge => rfl
  | succ a ih =>
    rw [decodeMany] at h1
    obtain ⟨o, s2, h2, h3⟩ := SM.of_bind_ok h1
    obtain ⟨os, s3, h4, h5⟩ := SM.of_bind_ok h3
    cases h5
    rw [show a + 1 + b = a + b + 1 by omega, decodeMany, SM.bind_run_ok h2, SM.bind_run, ih h4, SM.bind_run, SM.bind_run]
    cases decodeMany K R b s1 with
    | ok r => obtain ⟨r, s2⟩ := r; cases r <;> rfl
    | panic => rfl
    | diverge => rfl

/-! ### Unary -/

/-- C131, `Unary`: whatever precedes it, the first one after the damage ends a value, and from then on everything is decoded.
The number of values in the damaged part is the number of ones in it, and one for the word it runs into. -/
theorem C131_unary (c : Cfg) (junk : List Bool) (vs : List Nat) (hv : ∀ v ∈ vs, v < 2 ^ 64) (k : Nat) (hl : junk.length < 2 ^ 64)
    {R : BitRead σ} {Rep : σ → List Bool → Prop} (hR : LawfulSource R Rep) {s : σ}
    (hs : Rep s (junk ++ true :: vs.flatMap unaryWord)) :
    ∃ (us : List Nat) (s' : _), us.length = junk.count true + 1 ∧
      decodeMany (unary c) R (us.length + (vs.length + k)) s = .ok (.ok (us.map some ++ (vs.map some ++ List.replicate k none)), s') ∧
      Rep s' [] := by
  have hi := C55_unary c
  -- one value
  have step : ∀ (z : Nat) (t : List Bool) (s : σ), z < 2 ^ 64 → Rep s (List.replicate z false ++ true :: t) →
      ∃ s1, (unary c).decode R s = .ok (.ok (some z), s1) ∧ Rep s1 t := by
    intro z t s hz hs
    obtain ⟨s1, h1, h2⟩ := hR.reads (unaryWord z) (s := s) (l := t) (by rw [unaryWord, List.append_assoc]; exact hs)
    exact ⟨s1, hi.decodes z hz R s s1 h1, h2⟩
  -- the damaged part
  have main : ∀ (junk : List Bool) (s : σ), junk.length < 2 ^ 64 → Rep s (junk ++ true :: vs.flatMap unaryWord) →
      ∃ (us : List Nat) (s' : _), us.length = junk.count true + 1 ∧ decodeMany (unary c) R us.length s = .ok (.ok (us.map some), s') ∧
        Rep s' (vs.flatMap unaryWord) := by
    intro junk
    induction hk : junk.length using Nat.strongRecOn generalizing junk with
    | ind n ih =>
      intro s hl hs
      rcases zeros_or junk with e | ⟨r, e⟩
      · have hz : leadZeros junk < 2 ^ 64 := by
          have := congrArg List.length e
          rw [List.length_replicate] at this
          omega
        rw [e] at hs
        obtain ⟨s1, h1, h2⟩ := step _ _ _ hz hs
        refine ⟨[leadZeros junk], s1, ?_, ?_, h2⟩
        · rw [e, List.count_replicate]; rfl
        · rw [List.length_singleton, decodeMany, SM.bind_run_ok h1]; rfl
      · have hlen := congrArg List.length e
        rw [List.length_append, List.length_replicate, List.length_cons] at hlen
        rw [e, List.append_assoc, List.cons_append] at hs
        obtain ⟨s1, h1, h2⟩ := step _ _ _ (by omega) hs
        obtain ⟨us, s2, h3, h4, h5⟩ := ih r.length (by omega) r rfl s1 (by omega) h2
        refine ⟨leadZeros junk :: us, s2, ?_, ?_, h5⟩
        · rw [List.length_cons, h3, e, List.count_append, List.count_replicate, List.count_cons]
          simp
        · rw [List.length_cons, decodeMany, SM.bind_run_ok h1, SM.bind_run_ok h4]; rfl
  obtain ⟨us, s1, h1, h2, h3⟩ := main junk s hl hs
  obtain ⟨s2, h4, h5⟩ := decodeMany_words hi.decodes hi.ends hR vs hv k h3
  refine ⟨us, s2, h1, ?_, h5⟩
  rw [decodeMany_append _ _ h2, SM.bind_run_ok h4]
  rfl

/-- `00101` instead of the word of 3, before the words of 1 and 0. -/
example : ∃ (us : List Nat) (s' : _), us.length = 2 ∧ decodeMany (unary ⟨true, .p64, true⟩) dequeRead (us.length + (2 + 1)) ([false, false, true, false] ++ true :: [1, 0].flatMap unaryWord) =
    .ok (.ok (us.map some ++ ([1, 0].map some ++ List.replicate 1 none)), s') ∧ s' = [] :=
  C131_unary ⟨true, .p64, true⟩ [false, false, true, false] [1, 0] (by decide) 1 (by decide) dequeSource rfl

/-! ### Comma -/

theorem decodeMany_panic {K : Code} {R : BitRead σ} (n : Nat) {s : σ} (h : K.decode R s = .panic) :
    decodeMany K R (n + 1) s = .panic := by
  rw [decodeMany, SM.bind_run, h]
  rfl

/-- C131, `Comma(n)`: bits are changed, but none lost or added, so that the damaged part consists of groups of `n` bits.
The next comma ends a value, and from then on everything is decoded. The number of values in the damaged part is the number of
commas in it, and one for the word it runs into. With overflow checks the decoder may instead panic in the damaged part,
because a number is too large. -/
theorem C131_comma (c : Cfg) {n : Nat} (h2 : 2 ≤ n) (hn : n ≤ 63) (junk : List (List Bool)) (hj : ∀ g ∈ junk, g.length = n) (vs : List Nat)
    (hv : ∀ v ∈ vs, v < 2 ^ 64) (k : Nat) {R : BitRead σ} {Rep : σ → List Bool → Prop} (hR : LawfulSource R Rep) {s : σ}
    (hs : Rep s (junk.flatten ++ (List.replicate n true ++ vs.flatMap (commaWord n)))) :
    (∃ (us : List Nat) (s' : σ), us.length = junk.count (List.replicate n true) + 1 ∧
      decodeMany (comma c n) R (us.length + (vs.length + k)) s = .ok (.ok (us.map some ++ (vs.map some ++ List.replicate k none)), s') ∧
      Rep s' []) ∨
    (c.debug = true ∧ decodeMany (comma c n) R (junk.count (List.replicate n true) + 1) s = .panic) := by
  have hi := C59_comma c h2 hn
  have hlt : 2 ^ n - 1 < 2 ^ 64 := by
    have := Nat.pow_le_pow_right (n := 2) (by decide) hn
    omega
  have hm : n % 64 = n := Nat.mod_eq_of_lt (by omega)
  have hones : bitsVal (List.replicate n true) % 2 ^ 64 = 2 ^ (n % 64) - 1 := by
    rw [bitsVal_ones, hm, Nat.mod_eq_of_lt hlt]
  have hother : ∀ g : List Bool, g.length = n → g ≠ List.replicate n true → bitsVal g % 2 ^ 64 ≠ 2 ^ (n % 64) - 1 := by
    intro g hg hne he
    have hf : false ∈ g := by
      by_cases hf : false ∈ g
      · exact hf
      · refine absurd ?_ hne
        rw [← hg]
        refine List.eq_replicate_iff.2 ⟨rfl, fun b hb => ?_⟩
        cases b
        · exact absurd hb hf
        · rfl
    have := bitsVal_not_ones hf
    rw [hg] at this
    rw [hm, Nat.mod_eq_of_lt (by omega)] at he
    omega
  -- one value
  have step : ∀ (pre : List (List Bool)) (t : List Bool) (s : σ), (∀ g ∈ pre, g.length = n ∧ g ≠ List.replicate n true) →
      Rep s (pre.flatten ++ (List.replicate n true ++ t)) →
      (∃ v s1, (comma c n).decode R s = .ok (.ok (some v), s1) ∧ Rep s1 t) ∨ (c.debug = true ∧ (comma c n).decode R s = .panic) := by
    intro pre t s hp hs
    have h := ((C106_comma c n (by omega) (fun _ => hn)).2 pre (fun g hg => ⟨(hp g hg).1, hother g (hp g hg).1 (hp g hg).2⟩) _ rfl).1
      (List.replicate n true) t (by simp) hones σ R Rep hR s hs
    split at h
    · rename_i v rest heq
      split at heq
      · cases heq
      · cases heq
        obtain ⟨s1, h1, h2⟩ := h
        exact .inl ⟨_, s1, h1, h2⟩
    · rename_i heq; split at heq <;> cases heq
    · rename_i heq; split at heq <;> cases heq
    · rename_i heq; split at heq <;> cases heq
    · rename_i heq
      split at heq
      · rename_i hd
        exact .inr ⟨hd.1, h⟩
      · cases heq
  -- the damaged part
  have main : ∀ (junk pre : List (List Bool)) (s : σ), (∀ g ∈ junk, g.length = n) →
      (∀ g ∈ pre, g.length = n ∧ g ≠ List.replicate n true) →
      Rep s (pre.flatten ++ (junk.flatten ++ (List.replicate n true ++ vs.flatMap (commaWord n)))) →
      (∃ (us : List Nat) (s' : σ), us.length = junk.count (List.replicate n true) + 1 ∧
        decodeMany (comma c n) R us.length s = .ok (.ok (us.map some), s') ∧ Rep s' (vs.flatMap (commaWord n))) ∨
      (c.debug = true ∧ decodeMany (comma c n) R (junk.count (List.replicate n true) + 1) s = .panic) := by
    intro junk
    induction junk with
    | nil =>
      intro pre s _ hp hs
      rcases step pre _ s hp hs with ⟨v, s1, h1, h3⟩ | ⟨hd, h1⟩
      · refine .inl ⟨[v], s1, rfl, ?_, h3⟩
        rw [List.length_singleton, decodeMany, SM.bind_run_ok h1]
        rfl
      · exact .inr ⟨hd, decodeMany_panic _ h1⟩
    | cons g junk ih =>
      intro pre s hj hp hs
      have hj' : ∀ g ∈ junk, g.length = n := fun g hg => hj g (List.mem_cons_of_mem _ hg)
      by_cases hg : g = List.replicate n true
      · subst hg
        rw [List.flatten_cons, List.append_assoc] at hs
        rw [List.count_cons_self]
        rcases step pre _ s hp hs with ⟨v, s1, h1, h3⟩ | ⟨hd, h1⟩
        · rcases ih [] s1 hj' (fun _ h => nomatch h) h3 with ⟨us, s2, h4, h5, h6⟩ | ⟨hd, h4⟩
          · refine .inl ⟨v :: us, s2, by rw [List.length_cons, h4], ?_, h6⟩
            rw [List.length_cons, decodeMany, SM.bind_run_ok h1, SM.bind_run_ok h5]
            rfl
          · refine .inr ⟨hd, ?_⟩
            rw [decodeMany, SM.bind_run_ok h1, SM.bind_run, h4]
            rfl
        · exact .inr ⟨hd, decodeMany_panic _ h1⟩
      · rw [List.count_cons_of_ne hg]
        refine ih (pre ++ [g]) s hj' ?_ ?_
        · intro x hx
          rcases List.mem_append.1 hx with hx | hx
          · exact hp x hx
          · rw [List.mem_singleton.1 hx]
            exact ⟨hj g List.mem_cons_self, hg⟩
        · rw [List.flatten_append, List.flatten_singleton, List.append_assoc]
          rw [List.flatten_cons, List.append_assoc] at hs
          exact hs
  rcases main junk [] s hj (fun _ h => nomatch h) hs with ⟨us, s1, h1, h4, h3⟩ | h
  · obtain ⟨s2, h5, h6⟩ := decodeMany_words hi.decodes hi.ends hR vs hv k h3
    refine .inl ⟨us, s2, h1, ?_, h6⟩
    rw [decodeMany_append _ _ h4, SM.bind_run_ok h5]
    rfl
  · exact .inr h

/-- `11 01` before a comma and the word of 1: the values 0 and 2, and then 1. -/
example : ∃ (us : List Nat) (s' : List Bool), us.length = 2 ∧
    decodeMany (comma ⟨false, .p64, false⟩ 2) dequeRead (us.length + (1 + 1)) [true, true, false, true, true, true, true, false, true, true] =
      .ok (.ok (us.map some ++ ([some 1] ++ [none])), s') ∧ s' = [] := by
  have h := C131_comma ⟨false, .p64, false⟩ (n := 2) (by decide) (by decide) [[true, true], [false, true]] (by decide) [1] (by decide) 1 dequeSource rfl
  rw [show [1].flatMap (commaWord 2) = [true, false, true, true] by decide +kernel] at h
  rcases h with h | h
  · exact h
  · exact absurd h.1 (by decide)

/-- Damage inside a stream, with what is written stated by the encoder: the general step from `C131_unary` and `C131_comma`. -/
theorem damage_of {K : Code} {D : Nat → Prop} {word : Nat → List Bool} (hi : Implements K D word) (ws mid vs : List Nat) {v : Nat}
    (hall : ∀ x ∈ ws ++ mid ++ v :: vs, D x) :
    ∃ a b d, encodeAll K dequeWrite (ws ++ mid ++ v :: vs) [] = .ok (.ok (), a ++ b ++ d) ∧
      encodeAll K dequeWrite mid [] = .ok (.ok (), b) ∧
      encodeAll K dequeWrite ws [] = .ok (.ok (), a) ∧
      d = word v ++ vs.flatMap word ∧
      ∀ n junk, decodeMany K dequeRead (ws.length + n) (a ++ junk ++ d) =
        (do let os ← decodeMany K dequeRead n; pure (ws.map some ++ os)) (junk ++ d) := by
  have enc : ∀ l : List Nat, (∀ x ∈ l, D x) → encodeAll K dequeWrite l [] = .ok (.ok (), l.flatMap word) := by
    intro l hl
    obtain ⟨s', e1, e2⟩ := deque_sink.writeAll (fun _ _ => trivial) (l.flatMap word) (s := []) (l := []) rfl trivial
    rw [encodeAll_eq hi.encodes dequeWrite l hl, e1, e2]
    rfl
  refine ⟨ws.flatMap word, mid.flatMap word, word v ++ vs.flatMap word, ?_, enc _ ?_, enc _ ?_, rfl, fun n junk => ?_⟩
  · rw [enc _ hall, List.flatMap_append, List.flatMap_append, List.flatMap_cons]
  · exact fun x hx => hall x (by simp [hx])
  · exact fun x hx => hall x (by simp [hx])
  · rw [List.append_assoc]
    exact decodeMany_append _ _ (decodeMany_prefix hi.decodes ws (fun x hx => hall x (by simp [hx])) _)

/-- C131, `Unary`: encode `ws ++ mid ++ v :: vs` and replace what was written for `mid` by any other bits, more or fewer.
Decoding returns all of `ws`, then one value for each one among these bits and one more, and then all of `vs`. -/
theorem C131_unary_damage (c : Cfg) (ws mid vs : List Nat) {v : Nat} (hall : ∀ x ∈ ws ++ mid ++ v :: vs, x < 2 ^ 64) :
    ∃ a b d, encodeAll (unary c) dequeWrite (ws ++ mid ++ v :: vs) [] = .ok (.ok (), a ++ b ++ d) ∧
      encodeAll (unary c) dequeWrite mid [] = .ok (.ok (), b) ∧
      encodeAll (unary c) dequeWrite ws [] = .ok (.ok (), a) ∧
      ∀ junk : List Bool, junk.length + v < 2 ^ 64 → ∃ us : List Nat, us.length = junk.count true + 1 ∧
        decodeMany (unary c) dequeRead (ws.length + (us.length + (vs.length + 1))) (a ++ junk ++ d) =
          .ok (.ok (ws.map some ++ (us.map some ++ (vs.map some ++ [none]))), []) := by
  obtain ⟨a, b, d, h1, h2, h3, rfl, h5⟩ := damage_of (C55_unary c) ws mid vs hall
  refine ⟨a, b, _, h1, h2, h3, fun junk hl => ?_⟩
  obtain ⟨us, s', h6, h7, h8⟩ := C131_unary c (junk ++ List.replicate v false) vs (fun x hx => hall x (by simp [hx])) 1
    (by simp; omega) dequeSource (s := junk ++ (unaryWord v ++ vs.flatMap unaryWord)) (by simp [unaryWord])
  cases h8
  refine ⟨us, by rw [h6, List.count_append, List.count_replicate]; simp, ?_⟩
  rw [h5, SM.bind_run_ok h7]
  rfl

/-- The word of 2 in the middle, `001`, becomes `11`: it is decoded as 0, 0 and the next word is whole. -/
example : ∃ us : List Nat, us.length = 3 ∧
    decodeMany (unary ⟨true, .p64, true⟩) dequeRead (1 + (us.length + (1 + 1))) ([true] ++ [true, true] ++ [false, true, true]) =
      .ok (.ok ([some 0] ++ (us.map some ++ ([some 0] ++ [none]))), []) := by
  obtain ⟨a, b, d, h1, h2, h3, h4⟩ := C131_unary_damage ⟨true, .p64, true⟩ [0] [2] [0] (v := 1) (by decide)
  have e : encodeAll (unary ⟨true, .p64, true⟩) dequeWrite ([0] ++ [2] ++ 1 :: [0]) [] =
    .ok (.ok (), [true] ++ [false, false, true] ++ [false, true, true]) := by decide +kernel
  have ea : encodeAll (unary ⟨true, .p64, true⟩) dequeWrite [0] [] = .ok (.ok (), [true]) := by decide +kernel
  have eb : encodeAll (unary ⟨true, .p64, true⟩) dequeWrite [2] [] = .ok (.ok (), [false, false, true]) := by decide +kernel
  rw [ea] at h3
  rw [eb] at h2
  cases h3
  cases h2
  rw [e] at h1
  injection h1 with h1
  injection h1 with _ h1
  rw [← List.append_cancel_left h1] at h4
  exact h4 [true, true] (by decide)

/-- Bits of a number of whole digits. -/
theorem exists_groups {n : Nat} (hn : 1 ≤ n) (l : List Bool) (h : n ∣ l.length) :
    ∃ gs : List (List Bool), (∀ g ∈ gs, g.length = n) ∧ gs.flatten = l ∧ gs.length = l.length / n := by
  obtain ⟨m, hm⟩ := h
  rw [hm, Nat.mul_div_cancel_left _ (by omega)]
  induction m generalizing l with
  | zero => exact ⟨[], by simp, (List.length_eq_zero_iff.1 (by simpa using hm)).symm, rfl⟩
  | succ m ih =>
    rw [Nat.mul_succ] at hm
    obtain ⟨gs, h1, h2, h3⟩ := ih (l.drop n) (by simp; omega)
    refine ⟨l.take n :: gs, ?_, by rw [List.flatten_cons, h2, List.take_append_drop], by rw [List.length_cons, h3]⟩
    intro g hg
    rcases List.mem_cons.1 hg with rfl | hg
    · simp; omega
    · exact h1 g hg

/-- C131, `Comma(n)`: encode `ws ++ mid ++ v :: vs` and change bits of what was written for `mid` (or replace it by other bits
whose number is a multiple of `n`). Decoding returns all of `ws`, then at least one value and at most one for each `n` of these bits
and one more, and then all of `vs`. With overflow checks it may panic instead; not before it has returned `ws`. -/
theorem C131_comma_damage (c : Cfg) {n : Nat} (h2 : 2 ≤ n) (hn : n ≤ 63) (ws mid vs : List Nat) {v : Nat}
    (hall : ∀ x ∈ ws ++ mid ++ v :: vs, x < 2 ^ 64) :
    ∃ a b d, encodeAll (comma c n) dequeWrite (ws ++ mid ++ v :: vs) [] = .ok (.ok (), a ++ b ++ d) ∧
      encodeAll (comma c n) dequeWrite mid [] = .ok (.ok (), b) ∧
      encodeAll (comma c n) dequeWrite ws [] = .ok (.ok (), a) ∧ n ∣ b.length ∧
      ∀ junk : List Bool, n ∣ junk.length → ∃ k, 1 ≤ k ∧ k ≤ junk.length / n + 1 ∧
        ((∃ us : List Nat, us.length = k ∧
          decodeMany (comma c n) dequeRead (ws.length + (k + (vs.length + 1))) (a ++ junk ++ d) =
            .ok (.ok (ws.map some ++ (us.map some ++ (vs.map some ++ [none]))), [])) ∨
          (c.debug = true ∧ decodeMany (comma c n) dequeRead (ws.length + k) (a ++ junk ++ d) = .panic ∧
            decodeMany (comma c n) dequeRead ws.length (a ++ junk ++ d) = .ok (.ok (ws.map some), junk ++ d))) := by
  have hi := C59_comma c h2 hn
  obtain ⟨a, b, d, h1, hb, h3, rfl, h5⟩ := damage_of hi ws mid vs hall
  have hones : natBits n (2 ^ n - 1) = List.replicate n true := by
    have := natBits_bitsVal (List.replicate n true)
    rwa [bitsVal_ones, List.length_replicate] at this
  have hbase : 2 ^ n - 1 < 2 ^ n := by
    have := Nat.two_pow_pos n
    omega
  refine ⟨a, b, _, h1, hb, h3, ?_, fun junk hl => ?_⟩
  · obtain ⟨s', e1, e2⟩ := deque_sink.writeAll (fun _ _ => trivial) (mid.flatMap (commaWord n)) (s := []) (l := []) rfl trivial
    rw [encodeAll_eq hi.encodes dequeWrite _ (fun x hx => hall x (by simp [hx])), e1, e2] at hb
    injection hb with hb
    injection hb with _ hb
    rw [← hb]
    clear hb h1 hall e1 e2
    induction mid with
    | nil => exact ⟨0, rfl⟩
    | cons x mid ih =>
      rw [List.flatMap_cons, List.nil_append, List.length_append, commaWord, List.length_append, length_natBits, List.length_flatMap]
      refine Nat.dvd_add (Nat.dvd_add ?_ (Nat.dvd_refl n)) ih
      rw [show (fun a => (natBits n a).length) = fun _ => n from funext fun a => length_natBits n a, List.map_const', List.sum_replicate_nat]
      exact Nat.dvd_mul_left _ _
  · obtain ⟨gs, g1, g2, g3⟩ := exists_groups (by omega) junk hl
    have hg : ∀ g ∈ gs ++ (digitsOf (2 ^ n - 1) v).map (natBits n), g.length = n := by
      intro g hg
      rcases List.mem_append.1 hg with hg | hg
      · exact g1 g hg
      · obtain ⟨x, -, rfl⟩ := List.mem_map.1 hg
        simp
    have hc : ((digitsOf (2 ^ n - 1) v).map (natBits n)).count (List.replicate n true) = 0 := by
      refine List.count_eq_zero.2 fun h => ?_
      obtain ⟨x, hx, e⟩ := List.mem_map.1 h
      have h4 := Nat.pow_le_pow_right (n := 2) (by decide) h2
      have hx := digitsOf_lt (by omega) v x hx
      have := bitsVal_natBits n x
      rw [e, bitsVal_ones, Nat.mod_eq_of_lt (by omega)] at this
      omega
    have h := C131_comma c h2 hn _ hg vs (fun x hx => hall x (by simp [hx])) 1 dequeSource
      (s := junk ++ (commaWord n v ++ vs.flatMap (commaWord n)))
      (by rw [List.flatten_append, g2, commaWord, hones, List.flatMap_def]; simp)
    rw [List.count_append, hc, Nat.add_zero] at h
    refine ⟨gs.count (List.replicate n true) + 1, by omega, by rw [← g3]; exact Nat.succ_le_succ List.count_le_length, ?_⟩
    rcases h with ⟨us, s', h6, h7, h8⟩ | ⟨hd, h6⟩
    · cases h8
      refine .inl ⟨us, h6, ?_⟩
      rw [← h6, h5, SM.bind_run_ok h7]
      rfl
    · refine .inr ⟨hd, ?_, ?_⟩
      · rw [h5, SM.bind_run, h6]
        rfl
      · have := h5 0 junk
        rw [Nat.add_zero] at this
        rw [this]
        show Res.ok _ = _
        simp

/-- If a bit is lost, `Comma(2)` never finds its place again: remove the first bit of a stream of words of 2. However long the
stream is, what is decoded is 0, 1, 1, 1, … and never a 2. -/
theorem C131_comma_counterexample (c : Cfg) (n : Nat) :
    ∃ bits, encodeAll (comma c 2) dequeWrite (List.replicate (n + 1) 2) [] = .ok (.ok (), false :: bits) ∧
      decodeMany (comma c 2) dequeRead (n + 1) bits = .ok (.ok (some 0 :: List.replicate n (some 1)), [true]) := by
  have hi := C59_comma c (n := 2) (by decide) (by decide)
  have w0 : commaWord 2 0 = [true, true] := by decide +kernel
  have w1 : commaWord 2 1 = [true, false, true, true] := by decide +kernel
  have w2 : commaWord 2 2 = [false, true, true, true] := by decide +kernel
  have hf : (List.replicate (n + 1) 2).flatMap (commaWord 2) = false :: ((0 :: List.replicate n 1).flatMap (commaWord 2) ++ [true]) := by
    induction n with
    | zero => rw [List.replicate_one, List.flatMap_cons, w2, List.replicate_zero, List.flatMap_cons, w0]; rfl
    | succ n ih =>
      rw [List.replicate_succ', List.flatMap_append, ih, List.replicate_succ' (n := n) (a := 1)]
      simp [List.flatMap_append, w0, w1, w2]
  refine ⟨(0 :: List.replicate n 1).flatMap (commaWord 2) ++ [true], ?_, ?_⟩
  · obtain ⟨s', e1, e2⟩ := deque_sink.writeAll (fun _ _ => trivial) ((List.replicate (n + 1) 2).flatMap (commaWord 2)) (s := []) (l := []) rfl trivial
    rw [encodeAll_eq hi.encodes dequeWrite _ (fun x hx => by rw [List.eq_of_mem_replicate hx]; decide), e1, e2, hf]
    rfl
  · have := decodeMany_prefix hi.decodes (0 :: List.replicate n 1) (by
      intro x hx
      rcases List.mem_cons.1 hx with rfl | hx
      · decide
      · rw [List.eq_of_mem_replicate hx]; decide) [true]
    simpa using this

example : ∃ bits, encodeAll (comma ⟨true, .p64, true⟩ 2) dequeWrite [2, 2, 2] [] = .ok (.ok (), false :: bits) ∧
    decodeMany (comma ⟨true, .p64, true⟩ 2) dequeRead 3 bits = .ok (.ok [some 0, some 1, some 1], [true]) :=
  C131_comma_counterexample ⟨true, .p64, true⟩ 2

/-! Each theorem of this file that has hypotheses is applied to concrete data in `Verif/Instances/Recover.lean`. -/

end Succinct
