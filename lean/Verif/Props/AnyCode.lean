import Verif.Props.CodeLengths
import Verif.Props.CodeOutcome
/-!
C129: `Elias` and `Lift0` over any code, also one defined outside the crate, and what holds for every code that
writes and reads codewords.
-/
namespace Succinct
open Spec

/-- What `Lift0<Code>` can represent, when `Code` can represent `D`. -/
abbrev Lift0Dom (D : Nat → Prop) (v : Nat) : Prop := D (v + 1) ∧ v + 1 < 2 ^ 64

/-- C129: over a header that writes and reads codewords for the values in `D`, `Elias` does so for the values whose
logarithm is in `D`: the codeword of the logarithm, then the bits below the highest. -/
theorem C129_elias (c : Cfg) {H : Code} {D : Nat → Prop} {hw : Nat → List Bool} (h : Implements H D hw) :
    Implements (elias c H) (EliasDom D) (fun v => hw v.log2 ++ natBits v.log2 v) :=
  ⟨elias_encode_on c h.encodes, elias_decode_on c h.decodes, elias_ends c h.ends⟩

/-- C129: over any header at all, also one that fails or panics, encoding is encoding the logarithm, then writing the bits
below the highest. -/
theorem C129_encode (c : Cfg) (H : Code) {v : Nat} (h1 : 1 ≤ v) (h2 : v < 2 ^ 64) {σ : Type} (W : BitWrite σ) :
    (elias c H).encode W v = (do H.encode W v.log2; writeAll W (natBits v.log2 v)) := by
  have hl := log2_lt_64 h2 (by omega)
  show Elias.encode c H W v = _
  rw [Elias.encode, assertR_true (by omega), SM.lift_ok_bind, subN_ok (by omega), SM.lift_ok_bind, leadingZeros,
    if_neg (by omega), subN_ok (by omega), SM.lift_ok_bind, show 64 - 1 - (64 - 1 - v.log2) = v.log2 by omega,
    writeInt_unsigned c W (by omega), BitVec.toNat_ofNat, Nat.mod_eq_of_lt h2]

/-- C129: over a code that writes and reads codewords for the values in `D`, so does `Lift0` for the predecessors. -/
theorem C129_lift0 (c : Cfg) {K : Code} {D : Nat → Prop} {kw : Nat → List Bool} (h : Implements K D kw) :
    Implements (lift0 c K) (Lift0Dom D) (fun v => kw (v + 1)) :=
  ⟨lift0_encode c h.encodes, lift0_decode c h.decodes, lift0_ends c h.ends⟩

/-- C129: truncated codewords are detected over every code that detects them. -/
theorem C129_truncated (c : Cfg) {K : Code} {D : Nat → Prop} {kw : Nat → List Bool} (h : DecodesBy K D kw) (ht : TruncatesTo K D kw) :
    TruncatesTo (elias c K) (EliasDom D) (fun v => kw v.log2 ++ natBits v.log2 v) ∧
    TruncatesTo (lift0 c K) (Lift0Dom D) (fun v => kw (v + 1)) :=
  ⟨elias_trunc_on c h ht, lift0_trunc c ht⟩

/-- C129: only codewords are accepted, over every code that accepts only codewords (and of positive `u64`s, for `Lift0`). -/
theorem C129_only_codewords (c : Cfg) {K : Code} {D : Nat → Prop} {kw : Nat → List Bool} (h : DecodesOnly K D kw) :
    DecodesOnly (elias c K) (EliasDom D) (fun v => kw v.log2 ++ natBits v.log2 v) ∧
    ((∀ v, D v → 1 ≤ v ∧ v < 2 ^ 64) → DecodesOnly (lift0 c K) (Lift0Dom D) (fun v => kw (v + 1))) :=
  ⟨elias_only_on c h, lift0_only c h⟩

/-- C129: on every finite stream, whatever the header makes of it decides what `Elias` and `Lift0` make of it. -/
theorem C129_outcome (c : Cfg) {K : Code} {bits : List Bool} {o : Outcome} (h : Yields K bits o) :
    Yields (elias c K) bits (eliasOut o) ∧ Yields (lift0 c K) bits (lift0Out c.debug o) :=
  ⟨elias_yields c h, lift0_yields c h⟩

/-- C129: what every code that writes and reads codewords has: no codeword is a prefix of another, none is empty, and a
sequence of codewords determines the values. -/
theorem C129_unambiguous {K : Code} {D : Nat → Prop} {word : Nat → List Bool} (h : Implements K D word) :
    (∀ u v, D u → D v → word u <+: word v → u = v) ∧ (∀ v, D v → word v ≠ []) ∧
    ∀ us vs : List Nat, (∀ u ∈ us, D u) → (∀ v ∈ vs, D v) → us.flatMap word = vs.flatMap word → us = vs :=
  ⟨fun _ _ hu hv hp => word_prefix_free h.decodes hu hv hp, fun _ hv => word_ne_nil h.decodes h.ends hv,
    fun _ _ hu hv e => words_unambiguous h.decodes h.ends hu hv e⟩

/-- C129: Kraft's inequality for every such code. -/
theorem C129_kraft {K : Code} {D : Nat → Prop} {word : Nat → List Bool} (h : Implements K D word) (vs : List Nat)
    (hd : vs.Nodup) (hv : ∀ v ∈ vs, D v) (M : Nat) (hM : ∀ v ∈ vs, (word v).length ≤ M) :
    (vs.map fun v => 2 ^ (M - (word v).length)).sum ≤ 2 ^ M := by
  have := kraft M (vs.map word) ?_ (by simpa using hM)
  · rw [List.map_map] at this
    exact this
  · rw [List.pairwise_map]
    refine List.Pairwise.imp_of_mem ?_ hd
    intro u v hu hv' hne
    exact ⟨fun hp => hne (word_prefix_free h.decodes (hv u hu) (hv v hv') hp),
      fun hp => hne (word_prefix_free h.decodes (hv v hv') (hv u hu) hp).symm⟩

/-- C129: with every such code, encoding a list of values to any lawful sink and decoding from any lawful source that
holds the bits written returns the list, and then `Ok(None)`. -/
theorem C129_streams {K : Code} {D : Nat → Prop} {word : Nat → List Bool} (h : Implements K D word)
    {W : BitWrite σ} {RepW : σ → List Bool → Prop} {Fit : Nat → Prop} (hW : LawfulSink W RepW Fit)
    (hm : ∀ {m n}, Fit n → m ≤ n → Fit m) {R : BitRead τ} {RepR : τ → List Bool → Prop} (hR : LawfulSource R RepR)
    (vs : List Nat) (hv : ∀ v ∈ vs, D v) (k : Nat) {s : σ} {l : List Bool} (hs : RepW s l)
    (hf : Fit (l.length + (vs.flatMap word).length)) :
    ∃ s', encodeAll K W vs s = .ok (.ok (), s') ∧ RepW s' (l ++ vs.flatMap word) ∧
      ∀ t, RepR t (vs.flatMap word) →
        ∃ t', decodeMany K R (vs.length + k) t = .ok (.ok (vs.map some ++ List.replicate k none), t') ∧ RepR t' [] := by
  obtain ⟨s', h1, h2⟩ := hW.writeAll hm (vs.flatMap word) hs hf
  refine ⟨s', by rw [encodeAll_eq h.encodes W vs hv]; exact h1, h2, fun t ht => ?_⟩
  exact decodeMany_words h.decodes h.ends hR vs hv k ht

/-! ### A code from outside the crate: numbers of `n` bits -/

/-- `encode` is `sink.write_int(n, value)`, `decode` is `source.read_int(n)` -/
def fixedWidth (c : Cfg) (n : Nat) : Code where
  encode W v := writeInt c false W n (BitVec.ofNat 64 v)
  decode R := do
    match ← readInt c R 64 n with
    | some x => pure (some x.toNat)
    | none => pure none

theorem fixedWidth_implements (c : Cfg) {n : Nat} (h1 : 1 ≤ n) (hn : n ≤ 64) : Implements (fixedWidth c n) (· < 2 ^ n) (natBits n) where
  encodes v hv σ W := by
    have : 2 ^ n ≤ 2 ^ 64 := Nat.pow_le_pow_right (by omega) hn
    show writeInt c false W n (BitVec.ofNat 64 v) = _
    rw [writeInt_unsigned c W (by omega), BitVec.toNat_ofNat, Nat.mod_eq_of_lt (by omega)]
  decodes v hv σ R s s' h := by
    have : 2 ^ n ≤ 2 ^ 64 := Nat.pow_le_pow_right (by omega) hn
    show (readInt c R 64 n >>= fun (x : Option (BitVec 64)) => match x with
      | some x => pure (some x.toNat)
      | none => pure none) s = _
    rw [SM.bind_run_ok (readInt_reads c R (by omega) h (natBits_length _ _)), bitsVal_natBits, Nat.mod_eq_of_lt hv]
    simp only [SM.pure_run, BitVec.toNat_ofNat]
    rw [Nat.mod_eq_of_lt (by omega)]
  ends R s h := by
    have hstop := readInt_stop (w := 64) c R (by omega) (.nil s) h (n := n) (by simp; omega)
    rw [if_pos rfl] at hstop
    exact bind_stop_none hstop fun s => rfl

/-- Elias with a header of 6 bits: 38 is `32 + 6`. -/
example : (elias ⟨true, .p64, true⟩ (fixedWidth ⟨true, .p64, true⟩ 6)).encode dequeWrite 38 [true] =
      .ok (.ok (), [true, true, false, true, false, false, false, false, true, true, false, false]) ∧
    (elias ⟨false, .p32, false⟩ (fixedWidth ⟨false, .p32, false⟩ 6)).decode dequeRead
      [true, false, true, false, false, false, false, true, true, false, false, true] = .ok (.ok (some 38), [true]) := by
  have h := fun c => C129_elias c (fixedWidth_implements c (n := 6) (by omega) (by omega))
  constructor
  · rw [(h _).encodes 38 (by decide)]; decide
  · exact (h _).decodes 38 (by decide) dequeRead _ _ (deque_reads [true, false, true, false, false, false, false, true, true, false, false] [true])

/-- With a header of 2 bits only 1 to 15 are represented; with `Fibonacci` as the header, 1 is not. -/
example : (EliasDom (· < 2 ^ 2) 15 ∧ ¬ EliasDom (· < 2 ^ 2) 16) ∧ ¬ EliasDom FibDom 1 ∧
    (elias ⟨true, .p64, true⟩ (fibonacci ⟨true, .p64, true⟩)).encode dequeWrite 1 [] = .panic := by
  refine ⟨by decide, ?_, ?_⟩
  · intro ⟨_, _, h, _⟩
    exact absurd h (by decide)
  · rfl

/-! Each theorem of this file that has hypotheses is applied to concrete data in `Verif/Instances/AnyCode.lean`. -/

end Succinct
