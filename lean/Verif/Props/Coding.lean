import Verif.Lemmas.CodingOmega
import Verif.Lemmas.CodingComma
import Verif.Lemmas.CodingFib
import Verif.Lemmas.CodingGeneric
import Verif.Props.Stream
/-! Properties C55–C69 and C77 (universal codes). -/
namespace Succinct
open Spec

/-- The values Elias codes represent: every `u64` but 0. -/
abbrev Pos64 (v : Nat) : Prop := 1 ≤ v ∧ v < 2 ^ 64
/-- The values `Fibonacci` represents. -/
abbrev FibDom (v : Nat) : Prop := 1 ≤ v ∧ v < fib 93

/-! ### C55–C59: the codes write their codewords and read them back

`EncodesBy`: on every sink, lawful or not, `encode` is the plain writing of the codeword. `DecodesBy`: from
every source that delivers the codeword, `decode` returns the value and reads nothing more. -/

/-- C55, `Unary`. -/
theorem C55_unary (c : Cfg) : Implements (unary c) (· < 2 ^ 64) unaryWord :=
  ⟨fun v _ _ W => unary_encode W v, unary_decode c, unary_ends c⟩
/-- C55 on lawful sinks and sources. -/
theorem C55_roundtrip (c : Cfg) : RoundTrips (unary c) (· < 2 ^ 64) := (C55_unary c).roundTrips

example : (unary ⟨true, .p64, true⟩).encode dequeWrite 3 [true] = .ok (.ok (), [true, false, false, false, true]) ∧
    (unary ⟨true, .p64, true⟩).decode dequeRead [false, false, false, true, false] = .ok (.ok (some 3), [false]) := by
  constructor
  · rw [(C55_unary _).encodes 3 (by decide)]; rfl
  · exact (C55_unary _).decodes 3 (by decide) dequeRead _ _ (deque_reads [false, false, false, true] [false])

/-- C56, `Elias<Unary>`. -/
theorem C56_gamma (c : Cfg) : Implements (gamma c) Pos64 gammaWord :=
  have h := C55_unary c
  ⟨elias_encode c h.encodes (fun n hn => by omega), elias_decode c h.decodes (fun n hn => by omega),
    elias_ends c h.ends⟩
/-- C56 on lawful sinks and sources. -/
theorem C56_roundtrip (c : Cfg) : RoundTrips (gamma c) Pos64 := (C56_gamma c).roundTrips

example : (gamma ⟨true, .p64, true⟩).encode dequeWrite 6 [] = .ok (.ok (), [false, false, true, false, true]) ∧
    (gamma ⟨false, .p32, false⟩).decode dequeRead [false, false, true, false, true, true] = .ok (.ok (some 6), [true]) := by
  constructor
  · rw [(C56_gamma _).encodes 6 (by decide)]; decide
  · exact (C56_gamma _).decodes 6 (by decide) dequeRead _ _ (deque_reads (gammaWord 6) [true])

/-- C57, `Elias<Lift0<Gamma>>`. -/
theorem C57_delta (c : Cfg) : Implements (delta c) Pos64 deltaWord :=
  have h := C56_gamma c
  ⟨elias_encode c (lift0_encode c h.encodes) (fun n hn => by simp only [Pos64]; omega),
    elias_decode c (lift0_decode c h.decodes) (fun n hn => by simp only [Pos64]; omega),
    elias_ends c (lift0_ends c h.ends)⟩
/-- C57 on lawful sinks and sources. -/
theorem C57_roundtrip (c : Cfg) : RoundTrips (delta c) Pos64 := (C57_delta c).roundTrips

example : (delta ⟨true, .p64, true⟩).encode dequeWrite 10 [] = .ok (.ok (), [false, false, true, false, false, false, true, false]) ∧
    (delta ⟨false, .p32, false⟩).decode dequeRead (deltaWord 10 ++ [true]) = .ok (.ok (some 10), [true]) := by
  constructor
  · rw [(C57_delta _).encodes 10 (by decide)]; decide
  · exact (C57_delta _).decodes 10 (by decide) dequeRead _ _ (deque_reads (deltaWord 10) [true])

/-- C58, `Omega`. -/
theorem C58_omega (c : Cfg) : Implements (omegaCode c) Pos64 omegaWord :=
  ⟨fun v hv _ W => omega_encode c v hv.2 W, omega_decode c, omega_ends c⟩
/-- C58 on lawful sinks and sources. -/
theorem C58_roundtrip (c : Cfg) : RoundTrips (omegaCode c) Pos64 := (C58_omega c).roundTrips

theorem omegaWord_10 : omegaWord 10 = [true, true, true, false, true, false, false] := by
  simp [omegaWord, omegaGroups, natBits, List.range_succ, Nat.log2_def, Nat.testBit, Nat.shiftRight_eq_div_pow]

example : (omegaCode ⟨true, .p64, true⟩).encode dequeWrite 10 [] = .ok (.ok (), [true, true, true, false, true, false, false]) ∧
    (omegaCode ⟨false, .p32, false⟩).decode dequeRead [true, true, true, false, true, false, false, true] =
      .ok (.ok (some 10), [true]) := by
  constructor
  · rw [(C58_omega _).encodes 10 (by decide), omegaWord_10]; rfl
  · have := (C58_omega ⟨false, .p32, false⟩).decodes 10 (by decide) dequeRead _ _ (deque_reads (omegaWord 10) [true])
    rwa [omegaWord_10] at this

/-- C59, `Comma(n)`. -/
theorem C59_comma (c : Cfg) {n : Nat} (h2 : 2 ≤ n) (hn : n ≤ 63) : Implements (comma c n) (· < 2 ^ 64) (commaWord n) :=
  ⟨comma_encode c h2 hn, comma_decode c h2 hn, comma_ends c (by omega) hn⟩
/-- C59 on lawful sinks and sources. -/
theorem C59_roundtrip (c : Cfg) {n : Nat} (h2 : 2 ≤ n) (hn : n ≤ 63) : RoundTrips (comma c n) (· < 2 ^ 64) :=
  (C59_comma c h2 hn).roundTrips

/-- `5 = 12` in base 3; the word is `1`, `2`, comma, two bits each. -/
theorem commaWord_5 : commaWord 2 5 = [true, false, false, true, true, true] := by
  simp [commaWord, digitsOf, natBits, List.range_succ, Nat.testBit, Nat.shiftRight_eq_div_pow]

example : (comma ⟨true, .p64, true⟩ 2).encode dequeWrite 5 [] = .ok (.ok (), [true, false, false, true, true, true]) ∧
    (comma ⟨true, .p64, true⟩ 2).encode dequeWrite 0 [] = .ok (.ok (), [true, true]) ∧
    (comma ⟨false, .p32, false⟩ 2).decode dequeRead [true, false, false, true, true, true, false] = .ok (.ok (some 5), [false]) := by
  refine ⟨?_, ?_, ?_⟩
  · rw [(C59_comma _ (by decide) (by decide)).encodes 5 (by decide), commaWord_5]; rfl
  · rw [(C59_comma _ (by decide) (by decide)).encodes 0 (by decide), commaWord, digitsOf_zero]; rfl
  · have := (C59_comma ⟨false, .p32, false⟩ (n := 2) (by decide) (by decide)).decodes 5 (by decide) dequeRead _ _
      (deque_reads (commaWord 2 5) [false])
    rwa [commaWord_5] at this

/-! ### C60: Fibonacci -/

/-- C60: `fib 93` is the largest Fibonacci number that fits in a `u64`. -/
theorem C60_largest : fib 93 = 12200160415121876738 ∧ (∀ n, fib n < 2 ^ 64 ↔ n ≤ 93) := ⟨fib_93, fib_fits⟩

/-- C60: every value from 1 up to (excluding) that number has exactly one Fibonacci codeword, `encode` is
the writing of it, and `decode` reads it back. -/
theorem C60_fibonacci (c : Cfg) (v : Nat) (h1 : 1 ≤ v) (h2 : v < fib 93) :
    ∃ word, (∀ l, IsFibWord v l ↔ l = word) ∧
      (∀ {σ : Type} (W : BitWrite σ), (fibonacci c).encode W v = writeAll W word) ∧
      (∀ {σ : Type} (R : BitRead σ) (s s' : σ), Reads R s word s' → (fibonacci c).decode R s = .ok (.ok (some v), s')) := by
  refine ⟨fibWord v, fun l => ?_, fun W => fibonacci_encode c v ⟨h1, h2⟩ W,
    fun R s s' h => fibonacci_decode c v ⟨h1, h2⟩ R s s' h⟩
  rw [isFibWord_iff]
  exact and_iff_right h1

/-- C60: a larger value is rejected with `InvalidData`, and the sink is not touched. -/
theorem C60_too_large (c : Cfg) {v : Nat} (h1 : fib 93 ≤ v) (h2 : v < 2 ^ 64) {σ : Type} (W : BitWrite σ) (s : σ) :
    (fibonacci c).encode W v s = .ok (.error .invalidData, s) := by
  have := fib_93
  rw [fibonacci_encode_eq c W (by omega) h2, if_neg (by omega)]
  rfl

theorem C60_implements (c : Cfg) : Implements (fibonacci c) FibDom fibWord :=
  ⟨fibonacci_encode c, fibonacci_decode c, fibonacci_ends c⟩
/-- C60 on lawful sinks and sources. -/
theorem C60_roundtrip (c : Cfg) : RoundTrips (fibonacci c) FibDom := (C60_implements c).roundTrips

/-- `11 = 8 + 3`. -/
example : IsFibWord 11 [false, false, true, false, true, true] ∧
    (fibonacci ⟨true, .p64, true⟩).encode dequeWrite 11 [true] = .ok (.ok (), [true, false, false, true, false, true, true]) ∧
    (fibonacci ⟨true, .p64, true⟩).decode dequeRead [false, false, true, false, true, true, false] = .ok (.ok (some 11), [false]) := by
  have hw : IsFibWord 11 [false, false, true, false, true, true] :=
    ⟨[false, false, true, false, true], ⟨by decide, by simp [NoAdj], by decide⟩, rfl⟩
  have he := (isFibWord_iff.1 hw).2
  refine ⟨hw, ?_, ?_⟩
  · rw [fibonacci_encode _ 11 ⟨by decide, by rw [fib_93]; decide⟩, ← he]
    rfl
  · have := fibonacci_decode ⟨true, .p64, true⟩ 11 ⟨by decide, by rw [fib_93]; decide⟩ dequeRead _ _
      (deque_reads (fibWord 11) [false])
    rwa [← he] at this

/-! ### C61: Lift0 -/

/-- C61: for any code at all, `Lift0` encodes `v < u64::MAX` as that code encodes `v + 1`, and wherever that
code decodes `v + 1`, `Lift0` decodes `v`. -/
theorem C61_lift0 (c : Cfg) (K : Code) :
    (∀ {σ : Type} (W : BitWrite σ) v, v + 1 < 2 ^ 64 → (lift0 c K).encode W v = K.encode W (v + 1)) ∧
    (∀ {σ : Type} (R : BitRead σ) (s s' : σ) v, K.decode R s = .ok (.ok (some (v + 1)), s') →
      (lift0 c K).decode R s = .ok (.ok (some v), s')) ∧
    (∀ {σ : Type} (R : BitRead σ) (s s' : σ), K.decode R s = .ok (.ok none, s') →
      (lift0 c K).decode R s = .ok (.ok none, s')) ∧
    (∀ {σ : Type} (R : BitRead σ) (s s' : σ) e, K.decode R s = .ok (.error e, s') →
      (lift0 c K).decode R s = .ok (.error e, s')) := by
  refine ⟨fun W v h => ?_, fun R s s' v h => ?_, fun R s s' h => ?_, fun R s s' e h => ?_⟩
  · show Lift0.encode K W v = _
    rw [Lift0.encode, checkedAdd, if_pos h]
  · show Lift0.decode c K R s = _
    rw [Lift0.decode, SM.bind_run_ok h]
    simp only
    rw [subN_ok (by omega)]
    rfl
  · show Lift0.decode c K R s = _
    rw [Lift0.decode, SM.bind_run_ok h]
    rfl
  · exact SM.bind_run_err h

/-- C61: if a code round-trips every value from 1 on, `Lift0` of it round-trips every value below
`u64::MAX`, including 0. -/
theorem C61_roundtrip (c : Cfg) (K : Code) (h : RoundTrips K Pos64) : RoundTrips (lift0 c K) (fun v => v < 2 ^ 64 - 1) := by
  intro v hv
  obtain ⟨code, h1, h2⟩ := h (v + 1) ⟨by omega, by omega⟩
  obtain ⟨l1, l2, -⟩ := C61_lift0 c K
  refine ⟨code, fun W Rep Fit hW hm s l hs hf => ?_, fun R Rep hR t rest ht => ?_⟩
  · rw [l1 W v (by omega)]
    exact h1 W Rep Fit hW hm s l hs hf
  · obtain ⟨t', h3, h4⟩ := h2 R Rep hR t rest ht
    exact ⟨t', l2 R t t' v h3, h4⟩

/-- C61: `u64::MAX` is rejected with `InvalidData`, and the sink is not touched. -/
theorem C61_max (c : Cfg) (K : Code) {σ : Type} (W : BitWrite σ) (s : σ) :
    (lift0 c K).encode W (2 ^ 64 - 1) s = .ok (.error .invalidData, s) := by
  show Lift0.encode K W (2 ^ 64 - 1) s = _
  rw [Lift0.encode, checkedAdd, if_neg (by decide)]
  rfl

example : (lift0 ⟨true, .p64, true⟩ (gamma ⟨true, .p64, true⟩)).encode dequeWrite 0 [] = .ok (.ok (), [true]) ∧
    (lift0 ⟨true, .p64, true⟩ (gamma ⟨true, .p64, true⟩)).decode dequeRead [true, false] = .ok (.ok (some 0), [false]) := by
  constructor
  · rw [(C61_lift0 _ _).1 dequeWrite 0 (by decide), (C56_gamma _).encodes 1 (by decide)]; decide
  · exact (C61_lift0 _ _).2.1 dequeRead _ _ 0
      ((C56_gamma _).decodes 1 (by decide) dequeRead _ _ (deque_reads [true] [false]))

/-! ### C62, C63: all codes of the crate

`CodeOf c f K D word`: `K` is one of the codes the crate can build, with domain `D` and codewords `word`;
`f` says whether it may involve `Fibonacci`. `Gamma` and `Delta` are instances (`C62_gamma_delta`). -/

/-- The codes of the crate. -/
inductive CodeOf (c : Cfg) : Bool → Code → (Nat → Prop) → (Nat → List Bool) → Prop
  | unary : CodeOf c f (unary c) (· < 2 ^ 64) unaryWord
  | omega : CodeOf c f (omegaCode c) Pos64 omegaWord
  | comma {n : Nat} : 2 ≤ n → n ≤ 63 → CodeOf c f (comma c n) (· < 2 ^ 64) (commaWord n)
  | fibonacci : CodeOf c true (fibonacci c) FibDom fibWord
  | elias {H : Code} {D : Nat → Prop} {word : Nat → List Bool} : CodeOf c f H D word → (∀ n, n < 64 → D n) →
      CodeOf c f (elias c H) Pos64 (eliasWord word)
  | lift0 {K : Code} {D : Nat → Prop} {word : Nat → List Bool} : CodeOf c f K D word →
      CodeOf c f (lift0 c K) (fun v => D (v + 1) ∧ v + 1 < 2 ^ 64) (fun v => word (v + 1))

theorem C62_gamma_delta (c : Cfg) (f : Bool) : CodeOf c f (gamma c) Pos64 gammaWord ∧ CodeOf c f (delta c) Pos64 deltaWord :=
  ⟨.elias .unary (fun n hn => by omega),
    .elias (.lift0 (.elias .unary (fun n hn => by omega))) (fun n hn => by simp only [Pos64]; omega)⟩

theorem C62_all (c : Cfg) (f : Bool) {K : Code} {D : Nat → Prop} {word : Nat → List Bool} (h : CodeOf c f K D word) :
    Implements K D word := by
  induction h with
  | unary => exact C55_unary c
  | omega => exact C58_omega c
  | comma h2 hn => exact C59_comma c h2 hn
  | fibonacci => exact C60_implements c
  | elias _ hD ih => exact ⟨elias_encode c ih.encodes hD, elias_decode c ih.decodes hD, elias_ends c ih.ends⟩
  | lift0 _ ih => exact ⟨lift0_encode c ih.encodes, lift0_decode c ih.decodes, lift0_ends c ih.ends⟩

/-- C62: for every code, every lawful sink and every lawful source, encoding a list appends a sequence of
bits from which repeated decoding returns the list, and then `Ok(None)` forever. -/
theorem C62_streams (c : Cfg) (f : Bool) {K : Code} {D : Nat → Prop} {word : Nat → List Bool} (h : CodeOf c f K D word)
    {W : BitWrite σ} {RepW : σ → List Bool → Prop} {Fit : Nat → Prop} (hW : LawfulSink W RepW Fit)
    (hm : ∀ {m n}, Fit n → m ≤ n → Fit m) {R : BitRead τ} {RepR : τ → List Bool → Prop} (hR : LawfulSource R RepR)
    (vs : List Nat) (hv : ∀ v ∈ vs, D v) (k : Nat) {s : σ} {l : List Bool} (hs : RepW s l)
    (hf : Fit (l.length + (vs.flatMap word).length)) :
    ∃ s', encodeAll K W vs s = .ok (.ok (), s') ∧ RepW s' (l ++ vs.flatMap word) ∧
      ∀ t, RepR t (vs.flatMap word) →
        ∃ t', decodeMany K R (vs.length + k) t = .ok (.ok (vs.map some ++ List.replicate k none), t') ∧ RepR t' [] := by
  have hi := C62_all c f h
  obtain ⟨s', h1, h2⟩ := hW.writeAll hm (vs.flatMap word) hs hf
  refine ⟨s', by rw [encodeAll_eq hi.encodes W vs hv]; exact h1, h2, fun t ht => ?_⟩
  exact decodeMany_words hi.decodes hi.ends hR vs hv k ht

/-- C62 for `VecDeque<bool>`. -/
theorem C62_deque (c : Cfg) (f : Bool) {K : Code} {D : Nat → Prop} {word : Nat → List Bool} (h : CodeOf c f K D word)
    (vs : List Nat) (hv : ∀ v ∈ vs, D v) (k : Nat) :
    ∃ l, encodeAll K dequeWrite vs [] = .ok (.ok (), l) ∧
      decodeMany K dequeRead (vs.length + k) l = .ok (.ok (vs.map some ++ List.replicate k none), []) := by
  obtain ⟨l, h1, h2, h3⟩ := C62_streams c f h deque_sink (fun _ _ => trivial) deque_source vs hv k (s := []) (l := []) rfl trivial
  obtain ⟨t', h4, h5⟩ := h3 l h2
  exact ⟨l, h1, by rw [h4, h5]⟩

/-- C62 for `BitBuffer`: encode to a buffer at its end, seek back to where the encoding began, and decode. -/
theorem C62_bit_buffer (c : Cfg) (f : Bool) {K : Code} {D : Nat → Prop} {word : Nat → List Bool} (h : CodeOf c f K D word)
    {o : BitVecPushOps w S} {Fit : Nat → Prop} {R : S → List Bool → Prop} (hv : PushVec c w o R Fit)
    (hm : ∀ {m n}, Fit n → m ≤ n → Fit m) {s : BitBuf S} {l : List Bool} (hs : bufR R s ⟨l, l.length⟩)
    (vs : List Nat) (hvs : ∀ v ∈ vs, D v) (hf : Fit (l.length + (vs.flatMap word).length)) (k : Nat) :
    ∃ s1 s2 s3, encodeAll K (BitBuf.write c o) vs s = .ok (.ok (), s1) ∧
      BitBuf.seek o.toBitVecOps l.length s1 = .ok (.ok (), s2) ∧
      decodeMany K (BitBuf.read c o.toBitVecOps) (vs.length + k) s2 =
        .ok (.ok (vs.map some ++ List.replicate k none), s3) := by
  obtain ⟨s1, h1, hR1, h2⟩ := C62_streams c f h (buf_sink hv) hm (buf_source hv.blk hv.law hv.block) vs hvs k hs hf
  obtain ⟨s2, h3, hR2⟩ := (buf_seek hv.law hR1 l.length).1 (by simp)
  obtain ⟨s3, h4, -⟩ := h2 s2 ⟨_, hR2, by simp⟩
  exact ⟨s1, s2, s3, h1, h3, h4⟩

example : ∃ l, encodeAll (delta ⟨true, .p64, true⟩) dequeWrite [2, 3, 38932, 4] [] = .ok (.ok (), l) ∧
    decodeMany (delta ⟨true, .p64, true⟩) dequeRead 5 l = .ok (.ok [some 2, some 3, some 38932, some 4, none], []) :=
  C62_deque ⟨true, .p64, true⟩ false (C62_gamma_delta _ _).2 [2, 3, 38932, 4] (by decide) 1

/-- C63: no codeword is a prefix of another; in particular distinct values have distinct codewords. -/
theorem C63_prefix_free (c : Cfg) (f : Bool) {K : Code} {D : Nat → Prop} {word : Nat → List Bool} (h : CodeOf c f K D word)
    {u v : Nat} (hu : D u) (hv : D v) (hp : word u <+: word v) : u = v :=
  word_prefix_free (C62_all c f h).decodes hu hv hp

/-- C63: a concatenation of codewords determines the values; no codeword is empty. -/
theorem C63_unambiguous (c : Cfg) (f : Bool) {K : Code} {D : Nat → Prop} {word : Nat → List Bool} (h : CodeOf c f K D word)
    {us vs : List Nat} (hu : ∀ u ∈ us, D u) (hv : ∀ v ∈ vs, D v) :
    (us.flatMap word = vs.flatMap word → us = vs) ∧ ∀ v, D v → word v ≠ [] :=
  ⟨words_unambiguous (C62_all c f h).decodes (C62_all c f h).ends hu hv,
    fun _ h1 => word_ne_nil (C62_all c f h).decodes (C62_all c f h).ends h1⟩

example : ¬ gammaWord 2 <+: gammaWord 4 ∧ ¬ gammaWord 5 <+: gammaWord 4 := by decide

/-! ### C64: truncation -/

/-- C64, the end of the stream, for every code: `Ok(None)`; an error of the source is passed on. -/
theorem C64_end (c : Cfg) (f : Bool) {K : Code} {D : Nat → Prop} {word : Nat → List Bool} (h : CodeOf c f K D word) :
    EndsWell K := (C62_all c f h).ends

/-- C64, a truncated codeword, for every code not involving `Fibonacci` (which does not have the property,
see `C64_fibonacci`): `UnexpectedEof`; an error of the source is passed on. -/
theorem C64_truncated_partial (c : Cfg) {K : Code} {D : Nat → Prop} {word : Nat → List Bool} (h : CodeOf c false K D word) :
    TruncatesTo K D word := by
  generalize hf : false = f at h
  induction h with
  | unary => exact unary_trunc c
  | omega => exact omega_trunc c
  | comma h2 hn => exact comma_trunc c h2 hn
  | fibonacci => cases hf
  | elias h hD ih => exact elias_trunc c (C62_all c _ h).decodes (ih hf) hD
  | lift0 _ ih => exact lift0_trunc c (ih hf)

/-- C64 for `Fibonacci`: a truncated codeword is reported as `UnexpectedEof` if it contains a one, and as
`Ok(None)` otherwise. -/
theorem C64_fibonacci (c : Cfg) {v : Nat} (h1 : 1 ≤ v) (h2 : v < fib 93) {word p q : List Bool} (hw : IsFibWord v word)
    (e : word = p ++ q) (hq : q ≠ []) {σ : Type} (R : BitRead σ) {s s' : σ} (h : Reads R s p s')
    (hs : NoBit (R.readBit s')) :
    (fibonacci c).decode R s = stopWith (if true ∈ p then .error .unexpectedEof else .ok none) (R.readBit s') :=
  fibonacci_trunc c v h1 h2 p q (by rw [← (isFibWord_iff.1 hw).2, e]) hq R s s' h hs

/-- C64 fails for `Fibonacci`: the first two bits of the codeword of 3 are silently dropped. -/
theorem C64_fibonacci_counterexample (c : Cfg) : IsFibWord 3 [false, false, true, true] ∧
    (fibonacci c).decode dequeRead [false, false] = .ok (.ok none, []) := by
  have hw : IsFibWord 3 [false, false, true, true] :=
    ⟨[false, false, true], ⟨by decide, by simp [NoAdj], by decide⟩, rfl⟩
  refine ⟨hw, ?_⟩
  exact C64_fibonacci c (by decide) (by rw [fib_93]; decide) hw (p := [false, false]) (q := [true, true]) rfl (by simp)
    dequeRead (deque_reads [false, false] []) deque_noBit

example : (delta ⟨true, .p64, true⟩).decode dequeRead [false, false, true, false] = .ok (.error .unexpectedEof, []) := by
  have := C64_truncated_partial ⟨true, .p64, true⟩ (C62_gamma_delta _ _).2 10 (by decide) [false, false, true, false]
    [false, false, true, false] (by decide) (by simp) (by simp) dequeRead _ _ (deque_reads [false, false, true, false] []) deque_noBit
  exact this

/-! ### C65: zero -/

/-- C65: `encode(0)` panics without touching the sink, for every Elias code and for `Fibonacci`. Missing:
`Omega`, see `C65_omega`. -/
theorem C65_zero_partial (c : Cfg) {σ : Type} (W : BitWrite σ) (s : σ) :
    (gamma c).encode W 0 s = .panic ∧ (delta c).encode W 0 s = .panic ∧ (∀ H, (elias c H).encode W 0 s = .panic) ∧
    (fibonacci c).encode W 0 s = .panic := ⟨rfl, rfl, fun _ => rfl, rfl⟩

/-- C65 fails for `Omega`: `encode(0)` succeeds and writes the codeword of 1, so that 0 is read back as 1. -/
theorem C65_omega (c : Cfg) {σ : Type} (W : BitWrite σ) : (omegaCode c).encode W 0 = (omegaCode c).encode W 1 ∧
    (omegaCode c).encode W 0 = W.writeBit false := by
  have e0 : omegaWord 0 = [false] := by rw [omegaWord, omegaGroups_small (by decide)]; rfl
  have e1 : omegaWord 1 = [false] := by rw [omegaWord, omegaGroups_small (by decide)]; rfl
  rw [omega_encode c 0 (by decide) W, omega_encode c 1 (by decide) W, e0, e1]
  exact ⟨rfl, writeAll_singleton W false⟩

/-! ### C66: decoding arbitrary bits -/

/-- C66 for `Unary`, `Gamma` and `Delta`, in every build: decoding any finite stream returns. -/
theorem C66_total (c : Cfg) : DecodesTotally (unary c) ∧ DecodesTotally (gamma c) ∧ DecodesTotally (delta c) := by
  have hu : DecodesTotally (unary c) := unary_total c
  have hg : DecodesTotally (gamma c) := elias_total c hu
  exact ⟨hu, hg, elias_total c (lift0_total c hg fun _ _ R s s' v h => elias_pos h)⟩

/-- C66 in release builds, for the other codes; and `Lift0` and `Elias` preserve it. -/
theorem C66_release (c : Cfg) (hd : c.debug = false) :
    DecodesTotally (omegaCode c) ∧ DecodesTotally (fibonacci c) ∧ (∀ n, 1 ≤ n → n ≤ 63 → DecodesTotally (comma c n)) ∧
    (∀ K, DecodesTotally K → DecodesTotally (lift0 c K)) ∧ ∀ H, DecodesTotally H → DecodesTotally (elias c H) := by
  refine ⟨omega_total c hd, ?_, fun n h1 hn => ?_, fun K hK => lift0_total c hK (by simp [hd]), fun H hH => elias_total c hH⟩
  · intro σ R Rep hR bits s hb hs
    exact fib_loop_total c hR bits s [] false 0 (by simp [hd]) hs
  · intro σ R Rep hR bits s hb hs
    rw [comma_decode_eq c hn]
    exact comma_loop_total c h1 (Nat.le_refl _) hR bits s 0 0 false hs (by simp [hd])

/-- C66 in debug builds, for short streams: `Omega` returns on fewer than 77 bits, `Fibonacci` on fewer than
92, `Comma` on at most 64. Missing: longer streams, on which all three can panic (below). -/
theorem C66_debug_partial (c : Cfg) {R : BitRead σ} {Rep : σ → List Bool → Prop} (hR : LawfulSource R Rep)
    (bits : List Bool) (s : σ) (hs : Rep s bits) :
    (bits.length < 77 → ∃ r s', (omegaCode c).decode R s = .ok (r, s')) ∧
    (bits.length < 92 → ∃ r s', (fibonacci c).decode R s = .ok (r, s')) ∧
    (∀ n, 1 ≤ n → n ≤ 63 → bits.length ≤ 64 → ∃ r s', (comma c n).decode R s = .ok (r, s')) := by
  refine ⟨fun h => ?_, fun h => ?_, fun n h1 hn h => ?_⟩
  · obtain ⟨r, s', k, h1, -⟩ := omega_loop_total_short c hR bits s 1 0 (by decide) (by omega) (by omega) (by omega) (by omega) hs
    exact ⟨r, s', h1⟩
  · obtain ⟨r, s', k, h1, -⟩ := fib_loop_total c hR bits s [] false 0 (fun _ => ⟨by simp; omega, rfl, rfl, trivial⟩) hs
    exact ⟨r, s', h1⟩
  · rw [comma_decode_eq c hn]
    obtain ⟨r, s', k, h1, -⟩ := comma_loop_total c h1 (Nat.le_refl _) hR bits s 0 0 false hs (fun _ => ⟨by decide, by omega⟩)
    exact ⟨r, s', h1⟩

/-- C66 fails in debug builds: an `Omega` stream announcing a 65-bit number panics. The bound 77 of
`C66_debug_partial` is sharp. -/
theorem C66_omega_panics (c : Cfg) (hd : c.debug = true) (g rest : List Bool) (hg : g.length = 64) :
    (omegaCode c).decode dequeRead (omegaGroups 64 ++ (true :: g ++ rest)) = .panic ∧
      (omegaGroups 64 ++ true :: g).length = 77 := by
  constructor
  · show Omega.decodeLoop c dequeRead 1 _ = _
    rw [omega_loop_reads c dequeRead 64 (by decide) (by decide) (deque_reads (omegaGroups 64) _), Omega.decodeLoop]
    have h1 : dequeRead.readBit (true :: g ++ rest) = .ok (.ok (some true), g ++ rest) := rfl
    rw [SM.bind_run_ok h1]
    simp only [Bool.not_true, Bool.false_eq_true, if_false]
    rw [asUsize_small c (by decide), SM.bind_run_ok (readIntBe_reads c dequeRead (by decide) (deque_reads g rest) hg)]
    simp only
    have : shlN c 64 1 (64 % 2 ^ 32) = .panic := by simp [shlN, overflow, hd]
    rw [this]
    rfl
  · have e : (omegaGroups 64).length = 12 := by
      rw [omegaGroups_large (by decide), show Nat.log2 64 = 6 by decide, omegaGroups_large (by decide),
        show Nat.log2 6 = 2 by decide, omegaGroups_large (by decide), show Nat.log2 2 = 1 by decide,
        omegaGroups_small (by decide)]
      rfl
    rw [List.length_append, e, List.length_cons, hg]

/-- C66 fails in debug builds: `COMMA` panics on 41 digits 2. -/
theorem C66_comma_panics (c : Cfg) (hd : c.debug = true) (rest : List Bool) :
    (comma c 2).decode dequeRead ((List.replicate 41 2).flatMap (natBits 2) ++ rest) = .panic := by
  have e : (List.replicate 41 2).flatMap (natBits 2) = (List.replicate 40 2).flatMap (natBits 2) ++ natBits 2 2 := by decide
  rw [comma_decode_eq c (by decide), e, List.append_assoc,
    comma_loop_reads c dequeRead (by decide) (by decide) (List.replicate 40 2) (by decide) (deque_reads _ _) 0 (by decide +kernel),
    Comma.decodeLoop, SM.bind_run_ok (comma_digit c dequeRead (d := 2) (by decide) (deque_reads _ _))]
  simp only
  rw [if_neg (by decide)]
  have : mulN c 64 (horner (2 ^ 2 - 1) 0 (List.replicate 40 2)) (2 ^ 2 - 1) = .panic := by
    rw [show horner (2 ^ 2 - 1) 0 (List.replicate 40 2) = 12157665459056928800 by decide +kernel]
    simp [mulN, overflow, hd]
  rw [this]
  rfl

/-- C66 fails in debug builds: `Fibonacci` panics on the 92 bits selecting `fib 89 + fib 91 + fib 93`. The
bound 92 of `C66_debug_partial` is sharp. -/
theorem C66_fibonacci_panics (c : Cfg) (hd : c.debug = true) (rest : List Bool) :
    (fibonacci c).decode dequeRead
      (List.replicate 87 false ++ [true, false, true, false] ++ (true :: rest)) = .panic := by
  have hsum : fibSum 2 (List.replicate 87 false ++ [true, false, true, false]) = 6440026026380244498 := by decide +kernel
  have hna : NoAdj (false :: (List.replicate 87 false ++ [true, false, true, false])) := by
    simp [NoAdj, List.replicate]
  show Fibonacci.decodeLoop c dequeRead 0 (fibAt 0) false _ = _
  rw [fib_loop_reads c dequeRead _ (deque_reads _ _) 0 0 false hna (by rw [Nat.zero_add, Nat.zero_add, hsum]; decide)
    (by decide), Nat.zero_add, Nat.zero_add, Nat.zero_add, hsum, Fibonacci.decodeLoop]
  have h1 : dequeRead.readBit (true :: rest) = .ok (.ok (some true), rest) := rfl
  rw [SM.bind_run_ok h1]
  have : addN c 64 6440026026380244498 (fibAt (List.replicate 87 false ++ [true, false, true, false]).length).i = .panic := by
    rw [show (fibAt (List.replicate 87 false ++ [true, false, true, false]).length).i = fib 93 from rfl, fib_93]
    simp [addN, overflow, hd]
  have hl : (false :: (List.replicate 87 false ++ [true, false, true, false])).getLast (by simp) = false := by decide
  simp only [hl, Bool.and_false, Bool.false_eq_true, if_false, if_true]
  rw [this]
  rfl

/-- C66 fails for `Lift0<Unary>`: on the single bit 1 it panics in debug builds and returns `u64::MAX` in
release builds. -/
theorem C66_lift0_unary (c : Cfg) (rest : List Bool) :
    (lift0 c (unary c)).decode dequeRead (true :: rest) =
      if c.debug then .panic else .ok (.ok (some (2 ^ 64 - 1)), rest) := by
  have h := unary_decode c 0 (by decide) dequeRead _ _ (deque_reads (unaryWord 0) rest)
  show Lift0.decode c (unary c) dequeRead (unaryWord 0 ++ rest) = _
  rw [Lift0.decode, SM.bind_run_ok h]
  simp only
  rw [subN, if_neg (by decide), overflow]
  cases c.debug <;> rfl

example : ∃ r s', (delta ⟨true, .p64, true⟩).decode dequeRead [false, false, false, false, false, false, false, true, true] = .ok (r, s') := by
  obtain ⟨r, s', k, h, -⟩ := (C66_total ⟨true, .p64, true⟩).2.2 dequeRead _ deque_source
    [false, false, false, false, false, false, false, true, true] _ (by decide) rfl
  exact ⟨r, s', h⟩

/-! ### C67: failing sinks -/

/-- C67: for every code and every sink. Either the sink accepts all bits, and then exactly the codeword has
been written; or it accepts some bits and then fails on the next one, and then those bits and the failed one
are a prefix of the codeword, and the outcome of `encode` is that very failure, whatever it is: an error
value, with the sink left in the state the failed call left it in, or a panic. -/
theorem C67_sink_failures (c : Cfg) (f : Bool) {K : Code} {D : Nat → Prop} {word : Nat → List Bool} (h : CodeOf c f K D word)
    {v : Nat} (hv : D v) {σ : Type} (W : BitWrite σ) (s : σ) :
    (∃ s', Writes W s (word v) s' ∧ K.encode W v s = .ok (.ok (), s')) ∨
    ∃ p b q s1, word v = p ++ b :: q ∧ Writes W s p s1 ∧
      (∀ s2, W.writeBit b s1 ≠ .ok (.ok (), s2)) ∧ K.encode W v s = W.writeBit b s1 := by
  rw [(C62_all c f h).encodes v hv W]
  rcases writeAll_cases W s (word v) with ⟨s', h1⟩ | ⟨p, b, q, s1, h1, h2, h3⟩
  · refine .inl ⟨s', h1, ?_⟩
    have := writeAll_writes h1 []
    rwa [List.append_nil] at this
  · refine .inr ⟨p, b, q, s1, h1, h2, h3, ?_⟩
    rw [h1, writeAll_writes h2, writeAll, SM.bind_run]
    cases hw : W.writeBit b s1 with
    | panic => rfl
    | diverge => rfl
    | ok r =>
      obtain ⟨e, s2⟩ := r
      cases e with
      | error e => rfl
      | ok u => exact absurd hw (h3 s2)

/-- A sink that takes two bits: encoding 5 with `Gamma` fails with the sink's error, after `00`. -/
example : (gamma ⟨true, .p64, true⟩).encode (σ := List Bool)
      ⟨fun b l => if l.length < 2 then .ok (.ok (), l ++ [b]) else .ok (.error (.other 7), l)⟩ 5 [] =
    .ok (.error (.other 7), [false, false]) := by
  rw [(C56_gamma _).encodes 5 (by decide)]; decide

/-! ### C68: lengths -/

/-- C68: the number of bits of a codeword. -/
theorem C68_lengths (v k : Nat) (hk : IsFloorLg v k) :
    (unaryWord v).length = v + 1 ∧
    (gammaWord v).length = 2 * k + 1 ∧
    (∀ j, IsFloorLg (k + 1) j → (deltaWord v).length = k + 2 * j + 1) := by
  have hlog : ∀ {x n}, IsFloorLg x n → x.log2 = n := by
    intro x n ⟨h1, h2⟩
    have h0 : x ≠ 0 := by have := Nat.two_pow_pos n; omega
    have h3 := h2 _ (Nat.log2_self_le h0)
    have h4 := (Nat.le_log2 h0).2 h1
    omega
  have hg : ∀ x, (gammaWord x).length = 2 * x.log2 + 1 := by
    intro x
    simp [gammaWord, eliasWord, unaryWord]
    omega
  refine ⟨by simp [unaryWord], by rw [hg, hlog hk], fun j hj => ?_⟩
  rw [deltaWord, eliasWord, List.length_append, hg, natBits_length, hlog hk, hlog hj]
  omega

/-- C68 for `Comma(n)`: `d` is the number of digits of `v` in base `2^n - 1` (none for 0). -/
theorem C68_comma (n v d : Nat) (h2 : 2 ≤ n) (h1 : v < (2 ^ n - 1) ^ d) (hd : d = 0 ∨ (2 ^ n - 1) ^ (d - 1) ≤ v) :
    (commaWord n v).length = n * (d + 1) := by
  have hb : 2 ≤ 2 ^ n - 1 := by
    have : 2 ^ 2 ≤ 2 ^ n := Nat.pow_le_pow_right (by omega) h2
    omega
  have hlen : ∀ d v, v < (2 ^ n - 1) ^ d → (d = 0 ∨ (2 ^ n - 1) ^ (d - 1) ≤ v) → (digitsOf (2 ^ n - 1) v).length = d := by
    intro d
    induction d with
    | zero =>
      intro v h1 _
      have : v = 0 := by simpa using h1
      rw [this, digitsOf_zero]
      rfl
    | succ d ih =>
      intro v h1 hd
      have hd' : (2 ^ n - 1) ^ d ≤ v := by
        rcases hd with h | h
        · omega
        · simpa using h
      have hpos : 0 < (2 ^ n - 1) ^ d := Nat.pow_pos (by omega)
      rw [digitsOf_pos hb (by omega), List.length_append, ih (v / (2 ^ n - 1))]
      · rfl
      · apply Nat.div_lt_of_lt_mul
        rw [Nat.pow_succ, Nat.mul_comm] at h1
        exact h1
      · rcases Nat.eq_zero_or_pos d with h0 | h0
        · exact .inl h0
        · refine .inr ((Nat.le_div_iff_mul_le (by omega)).2 ?_)
          rw [← Nat.pow_succ, show (d - 1).succ = d by omega]
          exact hd'
  have hfl : ∀ ds : List Nat, (ds.flatMap (natBits n)).length = n * ds.length := by
    intro ds
    induction ds with
    | nil => rfl
    | cons x ds ih => rw [List.flatMap_cons, List.length_append, ih, natBits_length, List.length_cons, Nat.mul_succ]; omega
  rw [commaWord, List.length_append, natBits_length, hfl, hlen d v h1 hd, Nat.mul_succ]

/-- C68 for `Fibonacci`: the length of the Zeckendorf representation, `k` where `fib (k+1) ≤ v < fib (k+2)`,
plus one. -/
theorem C68_fibonacci (v k : Nat) (h1 : 1 ≤ v) (hk1 : fib (k + 1) ≤ v) (hk2 : v < fib (k + 2)) {z word : List Bool}
    (hz : IsZeckendorf v z) (hw : IsFibWord v word) : z.length = k ∧ word.length = z.length + 1 := by
  obtain ⟨-, h2⟩ := isZeckendorf_eq hz
  obtain ⟨-, h3⟩ := isFibWord_iff.1 hw
  have := h1
  rw [h3, fibWord, h2, List.length_append, zeck_length, fibLen_unique hk2 (.inr hk1)]
  exact ⟨rfl, rfl⟩

/-- C68: `encode` appends exactly the codeword to a queue, so that these are the numbers of bits written. -/
theorem C68_written (c : Cfg) (f : Bool) {K : Code} {D : Nat → Prop} {word : Nat → List Bool} (h : CodeOf c f K D word)
    {v : Nat} (hv : D v) (l : List Bool) : K.encode dequeWrite v l = .ok (.ok (), l ++ word v) := by
  rw [(C62_all c f h).encodes v hv dequeWrite, deque_writeAll]

example : (gammaWord 1000).length = 2 * 9 + 1 ∧ (deltaWord 1000).length = 9 + 2 * 3 + 1 := by decide +kernel

/-! ### C69: termination of `Comma` -/

/-- C69 for digit sizes from 2 to 63, on every sink that does not itself hang. Missing: the other digit
sizes, see below. -/
theorem C69_terminates_partial (c : Cfg) {n : Nat} (h2 : 2 ≤ n) (hn : n ≤ 63) {v : Nat} (hv : v < 2 ^ 64) {σ : Type} (W : BitWrite σ)
    (hW : ∀ b s, W.writeBit b s ≠ .diverge) (s : σ) : (comma c n).encode W v s ≠ .diverge := by
  rcases C67_sink_failures c false (.comma h2 hn) hv W s with ⟨s', -, h⟩ | ⟨p, b, q, s1, -, -, -, h⟩
  · rw [h]; intro h; cases h
  · rw [h]; exact hW b s1

open Lean.Order in
theorem comma1_push (stack : List Nat) (v : Nat) (hv : 0 < v) : Comma.push 1 stack v = .diverge := by
  apply Comma.push.fixpoint_induct 1 (fun f => ∀ stack v, 0 < v → f stack v = .diverge) ?_ ?_ stack v hv
  · apply admissible_pi_apply (fun stack (g : Nat → Res (List Nat)) => ∀ v, 0 < v → g v = .diverge)
    intro stack
    apply admissible_pi_apply (fun v (g : Res (List Nat)) => 0 < v → g = .diverge)
    intro v
    apply admissible_flatOrder
    exact fun _ => rfl
  · intro f ih stack v hv
    show (if v > 0 then _ else _) = _
    rw [if_pos hv, remN_ok (by decide), Res.ok_bind, divN_ok (by decide), Res.ok_bind, Nat.div_one]
    exact ih _ v hv

/-- C69 fails: `Comma(1)` never returns, for any value but 0. -/
theorem C69_comma1_diverges (c : Cfg) {σ : Type} (W : BitWrite σ) (s : σ) {v : Nat} (hv : 0 < v) :
    (comma c 1).encode W v s = .diverge := by
  show Comma.encode c 1 W v s = _
  rw [Comma.encode, comma_base c (by decide), SM.lift_ok_bind, show 2 ^ 1 - 1 = 1 from rfl, comma1_push [] v hv]
  rfl

/-- `Comma(0)` panics (division by zero) for every value but 0, and writes nothing at all for 0. -/
theorem C69_comma0 (c : Cfg) {σ : Type} (W : BitWrite σ) (s : σ) {v : Nat} :
    (comma c 0).encode W v s = if v = 0 then .ok (.ok (), s) else .panic := by
  show Comma.encode c 0 W v s = _
  rw [Comma.encode, comma_base c (by decide), SM.lift_ok_bind, Comma.push]
  by_cases hv : v = 0
  · subst hv
    rfl
  · rw [if_pos (by omega), if_neg hv]
    rfl

/-- `Comma(n)` with `n ≥ 64` panics in debug builds. -/
theorem C69_wide (c : Cfg) (hd : c.debug = true) {n : Nat} (hn : 64 ≤ n) {σ : Type} (W : BitWrite σ) (s : σ) (v : Nat) :
    (comma c n).encode W v s = .panic := by
  show Comma.encode c n W v s = _
  have : Comma.base c n = .panic := by
    rw [Comma.base, shlN, if_neg (by omega), overflow, if_pos hd]
    rfl
  rw [Comma.encode, this]
  rfl

/-! ### C77: only codewords decode -/

/-- C77: `Unary`, `Gamma`, `Delta` and `Fibonacci` return a value only after reading exactly its codeword. -/
theorem C77_only_codewords (c : Cfg) : DecodesOnly (unary c) (· < 2 ^ 64) unaryWord ∧ DecodesOnly (gamma c) Pos64 gammaWord ∧
    DecodesOnly (delta c) Pos64 deltaWord ∧ DecodesOnly (fibonacci c) FibDom fibWord := by
  have hg : DecodesOnly (gamma c) Pos64 gammaWord := elias_only c (unary_only c)
  exact ⟨unary_only c, hg, elias_only c (lift0_only c hg fun v hv => hv), fibonacci_only c⟩

/-- C77 for `Omega` in debug builds for 64-bit targets, as long as fewer than 2^32 bits have been read.
Missing: 32-bit targets and release builds, see the counterexamples. -/
theorem C77_omega_partial (c : Cfg) (hd : c.debug = true) (hp : c.usz = 64) {σ : Type} (R : BitRead σ) (s s' : σ) (v : Nat)
    (h : (omegaCode c).decode R s = .ok (.ok (some v), s')) :
    ∃ bits, Reads R s bits s' ∧ (bits.length < 2 ^ 32 → Pos64 v ∧ bits = omegaWord v) := by
  obtain ⟨bits, h1, h2⟩ := omega_loop_some c hd hp R 1 s s' v h (by decide) (by decide)
  refine ⟨bits, h1, fun hl => ?_⟩
  obtain ⟨h3, h4⟩ := h2 hl
  rw [omegaGroups_small (Nat.le_refl 1)] at h4
  exact ⟨h3, h4⟩

/-- C77 fails for `Omega` in debug builds for 32-bit targets: `result as usize` truncates. After the groups
of 2^32 + 5, one more group of 1 + 5 bits is accepted, and a small number is returned. -/
theorem C77_omega_32_counterexample :
    (omegaCode ⟨true, .p32, true⟩).decode dequeRead
      (omegaGroups (2 ^ 32 + 5) ++ [true, false, false, false, false, false, false]) = .ok (.ok (some 32), []) := by
  show Omega.decodeLoop _ dequeRead 1 _ = _
  rw [omega_loop_reads _ dequeRead (2 ^ 32 + 5) (by decide) (by decide) (deque_reads (omegaGroups (2 ^ 32 + 5)) _),
    Omega.decodeLoop]
  have h1 : dequeRead.readBit [true, false, false, false, false, false, false] =
    .ok (.ok (some true), [false, false, false, false, false, false]) := rfl
  rw [SM.bind_run_ok h1]
  simp only [Bool.not_true, Bool.false_eq_true, if_false]
  rw [show asUsize ⟨true, .p32, true⟩ (2 ^ 32 + 5) = 5 by decide,
    SM.bind_run_ok (readIntBe_reads _ dequeRead (by decide) (n := 5) (s := [false, false, false, false, false, false])
      (deque_reads [false, false, false, false, false] [false]) rfl)]
  simp only
  rw [show shlN ⟨true, .p32, true⟩ 64 1 ((2 ^ 32 + 5) % 2 ^ 32) = .ok 32 by decide, SM.lift_ok_bind,
    show (BitVec.ofNat 64 (bitsVal [false, false, false, false, false].reverse)).toNat ||| 32 = 32 by decide, Omega.decodeLoop]
  have h2 : dequeRead.readBit [false] = .ok (.ok (some false), []) := rfl
  rw [SM.bind_run_ok h2]
  rfl

/-- C77 fails for `Omega` in release builds: a 64-bit group after the groups of 64 is accepted, and shifted
by 0. -/
theorem C77_omega_release_counterexample (p : Ptr) (a : Bool) :
    (omegaCode ⟨false, p, a⟩).decode dequeRead (omegaGroups 64 ++ (true :: List.replicate 64 false ++ [false])) =
      .ok (.ok (some 1), []) := by
  show Omega.decodeLoop _ dequeRead 1 _ = _
  rw [omega_loop_reads _ dequeRead 64 (by decide) (by decide) (deque_reads (omegaGroups 64) _), Omega.decodeLoop]
  have h1 : dequeRead.readBit (true :: List.replicate 64 false ++ [false]) =
    .ok (.ok (some true), List.replicate 64 false ++ [false]) := rfl
  rw [SM.bind_run_ok h1]
  simp only [Bool.not_true, Bool.false_eq_true, if_false]
  rw [asUsize_small _ (by decide),
    SM.bind_run_ok (readIntBe_reads _ dequeRead (by decide) (n := 64) (deque_reads (List.replicate 64 false) [false]) rfl)]
  simp only
  rw [show shlN ⟨false, p, a⟩ 64 1 (64 % 2 ^ 32) = .ok 1 by cases p <;> cases a <;> decide, SM.lift_ok_bind,
    show (BitVec.ofNat 64 (bitsVal (List.replicate 64 false).reverse)).toNat ||| 1 = 1 by decide, Omega.decodeLoop]
  have h2 : dequeRead.readBit [false] = .ok (.ok (some false), []) := rfl
  rw [SM.bind_run_ok h2]
  rfl

/-- C77 for `Comma(n)` in debug builds: the bits read are the codeword of the value, preceded by any number
of digits 0. -/
theorem C77_comma_partial (c : Cfg) (hd : c.debug = true) {n : Nat} (h2 : 2 ≤ n) (hn : n ≤ 63) {σ : Type} (R : BitRead σ)
    (s s' : σ) (v : Nat) (h : (comma c n).decode R s = .ok (.ok (some v), s')) :
    ∃ k, Reads R s (List.replicate (n * k) false ++ commaWord n v) s' := by
  rw [comma_decode_eq c hn] at h
  obtain ⟨ds, h3, h4, -, h5⟩ := comma_loop_some c hn R 0 false s s' v h (by decide)
  have h6 := h5 hd
  obtain ⟨hb, -, -⟩ := comma_base_bounds h2 hn
  obtain ⟨k, hk⟩ := digits_unique (b := 2 ^ n - 1) (by omega) ds h3
  rw [← h6] at hk
  have hz : (List.replicate k 0).flatMap (natBits n) = List.replicate (n * k) false := by
    rw [List.eq_replicate_iff]
    constructor
    · rw [List.length_flatMap]; simp [Nat.mul_comm]
    · intro b hb
      obtain ⟨x, hx, hb⟩ := List.mem_flatMap.1 hb
      rw [List.eq_of_mem_replicate hx] at hb
      obtain ⟨i, -, hi⟩ := List.mem_map.1 hb
      rw [← hi, Nat.zero_testBit]
  refine ⟨k, ?_⟩
  rw [hk, List.flatMap_append, hz, List.append_assoc] at h4
  exact h4

/-- C77 fails for `COMMA`: a digit 0 followed by the comma decodes to 0, as the comma alone does. -/
theorem C77_comma_counterexample (c : Cfg) :
    (comma c 2).decode dequeRead [false, false, true, true] = .ok (.ok (some 0), []) ∧
    (comma c 2).decode dequeRead [true, true] = .ok (.ok (some 0), []) := by
  constructor
  · rw [comma_decode_eq c (by decide), comma_loop_reads c dequeRead (by decide) (by decide) [0] (by decide)
      (s := [false, false, true, true]) (s' := [true, true]) (n := 2) (deque_reads [false, false] [true, true]) 0 (by decide)]
    exact comma_loop_last c dequeRead (by decide) (deque_reads (natBits 2 3) []) _
  · rw [comma_decode_eq c (by decide)]
    exact comma_loop_last c dequeRead (by decide) (deque_reads (natBits 2 3) []) _

/-! Each theorem of this file that has hypotheses is applied to concrete data in `Verif/Instances/Coding.lean`. -/

end Succinct
