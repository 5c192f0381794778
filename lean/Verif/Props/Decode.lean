import Verif.Lemmas.Decode
import Verif.Props.Stream
/-!
# C106: the outcome of decoding any finite stream of bits

`Yields K bits o` says that decoding from any lawful source holding `bits` has the outcome `o`: which value,
error or panic, and which bits are left in the source. For every code the streams are split into cases that
cover them all.
-/
namespace Succinct
open Spec

/-- The outcome read off a queue of bits. -/
def outOf : Res (Except IoErr (Option Nat) × List Bool) → Outcome
  | .ok (.ok (some v), l) => .value v l
  | .ok (.ok none, _) => .nothing
  | .ok (.error .unexpectedEof, _) => .eof
  | .ok (.error _, l) => .invalid l
  | _ => .panics

theorem Yields.outOf {K : Code} {bits : List Bool} {o : Outcome} (h : Yields K bits o) :
    o = Succinct.outOf (K.decode dequeRead bits) := by
  have h1 := h _ dequeRead _ deque_source bits rfl
  cases o with
  | value v rest => obtain ⟨s, h1, rfl⟩ := h1; rw [h1]; rfl
  | nothing => obtain ⟨s, h1, rfl⟩ := h1; rw [h1]; rfl
  | eof => obtain ⟨s, h1, rfl⟩ := h1; rw [h1]; rfl
  | invalid rest => obtain ⟨s, h1, rfl⟩ := h1; rw [h1]; rfl
  | panics => rw [show K.decode dequeRead bits = .panic from h1]; rfl

/-- The outcome is unique. -/
theorem C106_unique {K : Code} {bits : List Bool} {o o' : Outcome} (h : Yields K bits o) (h' : Yields K bits o') : o = o' := by
  rw [h.outOf, h'.outOf]

/-- C106 for `Unary`, `GAMMA` and `DELTA`, and for `Elias` and `Lift0` of any code. -/
theorem C106_elias (c : Cfg) (bits : List Bool) (hl : bits.length < 2 ^ 64) :
    Yields (unary c) bits (unaryOut bits) ∧
    Yields (gamma c) bits (eliasOut (unaryOut bits)) ∧
    Yields (delta c) bits (eliasOut (lift0Out c.debug (eliasOut (unaryOut bits)))) ∧
    (∀ H o, Yields H bits o → Yields (elias c H) bits (eliasOut o)) ∧
    ∀ K o, Yields K bits o → Yields (lift0 c K) bits (lift0Out c.debug o) :=
  ⟨unary_yields c bits hl, elias_yields c (unary_yields c bits hl),
    elias_yields c (lift0_yields c (elias_yields c (unary_yields c bits hl))),
    fun _ _ h => elias_yields c h, fun _ _ h => lift0_yields c h⟩

/-- `Lift0` panics, in a debug build, exactly when the code under it panics or decodes 0. -/
theorem C106_lift0_panics_iff {c : Cfg} (hd : c.debug = true) (o : Outcome) :
    lift0Out c.debug o = .panics ↔ o = .panics ∨ ∃ rest, o = .value 0 rest := by
  cases o with
  | value v rest => cases v <;> simp [lift0Out, hd]
  | nothing => simp [lift0Out]
  | eof => simp [lift0Out]
  | invalid rest => simp [lift0Out]
  | panics => simp [lift0Out]

/-- `GAMMA` never panics, and never decodes 0. -/
theorem C106_gamma_pos (bits : List Bool) :
    eliasOut (unaryOut bits) ≠ .panics ∧ ∀ rest, eliasOut (unaryOut bits) ≠ .value 0 rest := by
  cases h : unaryOut bits with
  | value n rest =>
    have := Nat.two_pow_pos n
    simp only [eliasOut]
    split
    · simp
    · split
      · simp
      · refine ⟨by simp, fun rest h => ?_⟩
        injection h
        omega
  | nothing => simp [eliasOut]
  | eof => simp [eliasOut]
  | invalid rest => simp [eliasOut]
  | panics =>
    exfalso
    unfold unaryOut at h
    split at h
    · split at h <;> cases h
    · cases h

/-- So the outcome of `DELTA` is the same in all builds. -/
theorem C106_delta_builds (bits : List Bool) (d d' : Bool) :
    lift0Out d (eliasOut (unaryOut bits)) = lift0Out d' (eliasOut (unaryOut bits)) := by
  obtain ⟨-, h2⟩ := C106_gamma_pos bits
  generalize eliasOut (unaryOut bits) = o at h2
  cases o with
  | value v rest =>
    cases v with
    | zero => exact absurd rfl (h2 rest)
    | succ v => rfl
  | nothing => rfl
  | eof => rfl
  | invalid rest => rfl
  | panics => rfl

/-- C106 for `Omega`, in every build. -/
theorem C106_omega (c : Cfg) (bits : List Bool) : Yields (omegaCode c) bits (omegaOut c 1 bits) := omega_yields c bits

/-- C106 for `Omega`, in terms of the specification: every stream starts with the groups of a number `v` below
2^64, and then it ends, or a 0 follows, or a 1 and too few bits for another group, or a 1 and `64 ≤ v`. The
outcome in the first three cases, in every build; in the third one `v` must be a `usize`. -/
theorem C106_omega_cases (c : Cfg) :
    (∀ bits, ∃ v tail, 1 ≤ v ∧ v < 2 ^ 64 ∧ bits = omegaGroups v ++ tail ∧
      (tail = [] ∨ (∃ rest, tail = false :: rest) ∨ (∃ rest, tail = true :: rest ∧ (rest.length < v ∨ 64 ≤ v)))) ∧
    ∀ v, 1 ≤ v → v < 2 ^ 64 →
      Yields (omegaCode c) (omegaGroups v) (if v = 1 then .nothing else .eof) ∧
      (∀ rest, Yields (omegaCode c) (omegaGroups v ++ false :: rest) (.value v rest)) ∧
      ∀ rest, v < 2 ^ c.usz → rest.length < v → Yields (omegaCode c) (omegaGroups v ++ true :: rest) .eof := by
  refine ⟨omega_split, fun v h1 h2 => ⟨?_, fun rest => ?_, fun rest hu hr => ?_⟩⟩
  · have h := omega_yields c (omegaGroups v ++ [])
    rw [omegaOut_groups c v h1 h2, omegaOut, List.append_nil] at h
    exact h
  · have h := omega_yields c (omegaGroups v ++ false :: rest)
    rw [omegaOut_groups c v h1 h2, omegaOut] at h
    exact h
  · have h := omega_yields c (omegaGroups v ++ true :: rest)
    rw [omegaOut_groups c v h1 h2, omegaOut, Nat.mod_eq_of_lt hu, if_pos hr] at h
    exact h

/-- The remaining case, in a debug build: `64 ≤ v` and there are enough bits. For a number below 2^32, decoding
panics. -/
theorem C106_omega_panics (c : Cfg) (hd : c.debug = true) {v : Nat} (h64 : 64 ≤ v) (hv : v < 2 ^ 32) (rest : List Bool)
    (hr : v ≤ rest.length) : Yields (omegaCode c) (omegaGroups v ++ true :: rest) .panics := by
  have h := omega_yields c (omegaGroups v ++ true :: rest)
  have hu : v % 2 ^ c.usz = v := by
    exact asUsize_small c hv
  rw [omegaOut_groups c v (by omega) (by omega), omegaOut, hu, if_neg (by omega),
    if_pos ⟨hd, by rw [Nat.mod_eq_of_lt hv]; exact h64⟩] at h
  exact h

/-- On streams of fewer than 2^32 bits, decoding `Omega` panics in a debug build for a 64-bit target exactly on a
word that goes on after a number from 64 on, with all the bits of the next group there. -/
theorem C106_omega_panics_iff (c : Cfg) (hd : c.debug = true) (hp : c.usz = 64) (bits : List Bool)
    (hl : bits.length < 2 ^ 32) :
    Yields (omegaCode c) bits .panics ↔
      ∃ v rest, 64 ≤ v ∧ v < 2 ^ 64 ∧ bits = omegaGroups v ++ true :: rest ∧ v ≤ rest.length := by
  constructor
  · intro h
    obtain ⟨h1, h2⟩ := C106_omega_cases c
    obtain ⟨v, tail, hv1, hv2, rfl, ht⟩ := h1 bits
    obtain ⟨h3, h4, h5⟩ := h2 v hv1 hv2
    rcases ht with rfl | ⟨rest, rfl⟩ | ⟨rest, rfl, hr⟩
    · rw [List.append_nil] at h
      have := C106_unique h h3
      split at this <;> cases this
    · cases C106_unique h (h4 rest)
    · by_cases hlt : rest.length < v
      · cases C106_unique h (h5 rest (by rw [hp]; exact hv2) hlt)
      · exact ⟨v, rest, by omega, hv2, rfl, by omega⟩
  · rintro ⟨v, rest, h1, h2, rfl, h3⟩
    simp only [List.length_append, List.length_cons] at hl
    exact C106_omega_panics c hd h1 (by omega) rest h3

/-- In every build, the only streams on which `Omega` returns a value without having read its codeword are those
that go on after a number from 64 on, with the bits asked for being there. -/
theorem C106_omega_only (c : Cfg) {bits : List Bool} {v : Nat} {rest : List Bool}
    (h : Yields (omegaCode c) bits (.value v rest)) :
    (1 ≤ v ∧ v < 2 ^ 64 ∧ bits = omegaWord v ++ rest) ∨
      ∃ u tail, 64 ≤ u ∧ u < 2 ^ 64 ∧ bits = omegaGroups u ++ true :: tail ∧ u % 2 ^ c.usz ≤ tail.length := by
  obtain ⟨h1, h2⟩ := C106_omega_cases c
  obtain ⟨u, tail, hu1, hu2, rfl, ht⟩ := h1 bits
  obtain ⟨h3, h4, -⟩ := h2 u hu1 hu2
  rcases ht with rfl | ⟨rest', rfl⟩ | ⟨rest', rfl, hr⟩
  · rw [List.append_nil] at h
    have := C106_unique h h3
    split at this <;> cases this
  · cases C106_unique h (h4 rest')
    exact .inl ⟨hu1, hu2, by rw [omegaWord, List.append_assoc]; rfl⟩
  · have h5 := omega_yields c (omegaGroups u ++ true :: rest')
    rw [omegaOut_groups c u hu1 hu2, omegaOut] at h5
    by_cases hlt : rest'.length < u % 2 ^ c.usz
    · rw [if_pos hlt] at h5
      cases C106_unique h h5
    · by_cases h64 : 64 ≤ u
      · exact .inr ⟨u, rest', h64, hu2, rfl, by omega⟩
      · rw [show u % 2 ^ c.usz = u from asUsize_small c (by omega)] at hlt
        omega

/-- C106 for `Comma(n)`. A stream is a number of groups of `n` bits other than the comma, and then the comma or
fewer than `n` bits. The value is the number with these digits. A debug build panics when it does not fit in 64
bits, whether or not the comma follows; a release build computes it modulo 2^64. For `n ≥ 64` a debug build
always panics; a release build takes digits modulo 2^64 and the base and comma for `n % 64`. For `n = 0` the
outcome is 0 without reading. -/
theorem C106_comma (c : Cfg) (n : Nat) (h0 : 1 ≤ n) (hn : c.debug = true → n ≤ 63) :
    (∀ bits, ∃ (gs : List (List Bool)) (tail : List Bool),
      (∀ g ∈ gs, g.length = n ∧ bitsVal g % 2 ^ 64 ≠ 2 ^ (n % 64) - 1) ∧ bits = gs.flatten ++ tail ∧
      (tail.length < n ∨ ∃ g rest, g.length = n ∧ bitsVal g % 2 ^ 64 = 2 ^ (n % 64) - 1 ∧ tail = g ++ rest)) ∧
    ∀ gs : List (List Bool), (∀ g ∈ gs, g.length = n ∧ bitsVal g % 2 ^ 64 ≠ 2 ^ (n % 64) - 1) →
      ∀ v, v = (gs.map fun g => bitsVal g % 2 ^ 64).foldl (fun r d => r * (2 ^ (n % 64) - 1) + d) 0 →
      (∀ g rest, g.length = n → bitsVal g % 2 ^ 64 = 2 ^ (n % 64) - 1 →
        Yields (comma c n) (gs.flatten ++ (g ++ rest))
          (if c.debug = true ∧ 2 ^ 64 ≤ v then .panics else .value (v % 2 ^ 64) rest)) ∧
      ∀ tail, tail.length < n →
        Yields (comma c n) (gs.flatten ++ tail)
          (if c.debug = true ∧ 2 ^ 64 ≤ v then .panics else if gs = [] ∧ tail = [] then .nothing else .eof) := by
  refine ⟨fun bits => comma_split h0 _ bits, fun gs hgs v hv => ?_⟩
  have hb : c.debug = true → 1 ≤ 2 ^ (n % 64) - 1 := fun hd => by
    have hn := hn hd
    rw [Nat.mod_eq_of_lt (by omega)]
    have : 2 ^ 1 ≤ 2 ^ n := Nat.pow_le_pow_right (by omega) h0
    omega
  have hv' : horner (2 ^ (n % 64) - 1) 0 (gs.map digit) = v := hv.symm
  constructor
  · intro g rest hg1 hg2 σ R Rep hR s hs
    obtain ⟨s1, h1, h2⟩ := hR.reads _ hs
    obtain ⟨s2, h3, h4⟩ := hR.reads _ h2
    have h5 := comma_loop_groups c R hb gs hgs h1 0 (by decide) false
    rw [hv'] at h5
    rw [comma_decode_loop c hn]
    by_cases hp : c.debug = true ∧ 2 ^ 64 ≤ v
    · rw [if_pos hp] at h5 ⊢
      exact h5
    · rw [if_neg hp] at h5 ⊢
      refine ⟨s2, ?_, h4⟩
      rw [h5, Comma.decodeLoop, SM.bind_run_ok (readInt_reads c R (by omega) h3 hg1)]
      simp only
      rw [if_pos (by rw [BitVec.toNat_ofNat]; exact hg2)]
      rfl
  · intro tail ht σ R Rep hR s hs
    obtain ⟨s1, h1, h2⟩ := hR.reads _ hs
    obtain ⟨s2, h3, h4⟩ := hR.reads tail (l := []) (by simpa using h2)
    obtain ⟨h6, h7⟩ := hR.noBit h4
    have h5 := comma_loop_groups c R hb gs hgs h1 0 (by decide) false
    rw [hv'] at h5
    rw [comma_decode_loop c hn]
    by_cases hp : c.debug = true ∧ 2 ^ 64 ≤ v
    · rw [if_pos hp] at h5 ⊢
      exact h5
    · rw [if_neg hp] at h5 ⊢
      rw [h5, comma_loop_stop c R h3 ht h6]
      by_cases he : gs = [] ∧ tail = []
      · rw [if_pos he, if_pos ⟨he.2, by simp [he.1]⟩]
        exact h7 _
      · rw [if_neg he, if_neg (fun h => he ⟨by simpa using h.2, h.1⟩)]
        exact h7 _

/-- The widths `C106_comma` leaves out. -/
theorem C106_comma_widths (c : Cfg) (bits : List Bool) :
    Yields (comma c 0) bits (.value 0 bits) ∧
    ∀ n, 64 ≤ n → c.debug = true → Yields (comma c n) bits .panics := by
  constructor
  · intro σ R Rep hR s hs
    refine ⟨s, ?_, hs⟩
    rw [comma_decode_loop c (by omega), Comma.decodeLoop,
      SM.bind_run_ok (readInt_reads (w := 64) (n := 0) c R (by omega) (.nil s) rfl)]
    rfl
  · intro n hn hd σ R Rep hR s hs
    show Comma.decode c n R s = .panic
    rw [Comma.decode, Comma.base, shlN, if_neg (by omega), overflow, if_pos hd]
    rfl

/-- Decoding `Comma(n)` panics in a debug build exactly when the stream starts with digits, none of them the
comma, of a number that does not fit in 64 bits. -/
theorem C106_comma_panics_iff (c : Cfg) (hd : c.debug = true) {n : Nat} (h0 : 1 ≤ n) (hn : n ≤ 63) (bits : List Bool) :
    Yields (comma c n) bits .panics ↔
      ∃ (gs : List (List Bool)) (tail : List Bool), bits = gs.flatten ++ tail ∧
        (∀ g ∈ gs, g.length = n ∧ bitsVal g ≠ 2 ^ n - 1) ∧
        2 ^ 64 ≤ (gs.map bitsVal).foldl (fun r d => r * (2 ^ n - 1) + d) 0 := by
  obtain ⟨h1, h2⟩ := C106_comma c n h0 (fun _ => hn)
  have hmod : n % 64 = n := Nat.mod_eq_of_lt (by omega)
  have hp : 2 ^ n < 2 ^ 64 := Nat.pow_lt_pow_right (by omega) (by omega)
  have hval : ∀ g : List Bool, g.length = n → bitsVal g % 2 ^ 64 = bitsVal g := fun g hg => by
    have := bitsVal_lt g
    rw [hg] at this
    exact Nat.mod_eq_of_lt (by omega)
  have hmap : ∀ gs : List (List Bool), (∀ g ∈ gs, g.length = n) → (gs.map fun g => bitsVal g % 2 ^ 64) = gs.map bitsVal :=
    fun gs hgs => List.map_congr_left fun g hg => hval g (hgs g hg)
  rw [hmod] at h1 h2
  constructor
  · intro h
    obtain ⟨gs, tail, hgs, rfl, ht⟩ := h1 bits
    have h3 := h2 gs hgs _ rfl
    rw [hmap gs (fun g hg => (hgs g hg).1)] at h3
    refine ⟨gs, tail, rfl, fun g hg => ⟨(hgs g hg).1, by rw [← hval g (hgs g hg).1]; exact (hgs g hg).2⟩, ?_⟩
    rcases ht with ht | ⟨g, rest, hg1, hg2, rfl⟩
    · have := C106_unique h (h3.2 tail ht)
      split at this
      · rename_i hh; exact hh.2
      · split at this <;> cases this
    · have := C106_unique h (h3.1 g rest hg1 hg2)
      split at this
      · rename_i hh; exact hh.2
      · cases this
  · rintro ⟨gs, tail, rfl, hgs, hv⟩
    -- the digits go on in `tail`, which does not make the number smaller
    obtain ⟨gs', tail', hgs', rfl, ht⟩ := h1 tail
    have hall : ∀ g ∈ gs ++ gs', g.length = n ∧ bitsVal g % 2 ^ 64 ≠ 2 ^ n - 1 := fun g hg => by
      rcases List.mem_append.1 hg with hg | hg
      · exact ⟨(hgs g hg).1, by rw [hval g (hgs g hg).1]; exact (hgs g hg).2⟩
      · exact hgs' g hg
    have h3 := h2 (gs ++ gs') hall _ rfl
    rw [hmap _ (fun g hg => (hall g hg).1)] at h3
    have hle : 2 ^ 64 ≤ ((gs ++ gs').map bitsVal).foldl (fun r d => r * (2 ^ n - 1) + d) 0 := by
      rw [List.map_append, List.foldl_append]
      have : 2 ^ 1 ≤ 2 ^ n := Nat.pow_le_pow_right (by omega) h0
      exact Nat.le_trans hv (horner_le (by omega) _ _)
    rw [← List.append_assoc, ← List.flatten_append]
    rcases ht with ht | ⟨g, rest, hg1, hg2, rfl⟩
    · have h4 := h3.2 tail' ht
      rw [if_pos ⟨hd, hle⟩] at h4
      exact h4
    · have h4 := h3.1 g rest hg1 hg2
      rw [if_pos ⟨hd, hle⟩] at h4
      exact h4

/-- C106 for `Fibonacci`. Either `z` followed by a one is the first place of two adjacent ones, within the first
92 bits: the value is the sum selected by `z`. Or there are fewer than 92 bits without two adjacent ones: the
stream is truncated, but this is noticed only if there is a one in it. Or there are no two adjacent ones in the
first 92 bits: these bits are consumed and `InvalidData` is reported, except that a debug build panics if their
sum does not fit in 64 bits. -/
theorem C106_fibonacci (c : Cfg) :
    (∀ bits : List Bool,
      (∃ z rest, z.length < 92 ∧ NoAdj z ∧ z.getLast? = some true ∧ bits = z ++ true :: rest) ∨
      (bits.length < 92 ∧ NoAdj bits) ∨
      ∃ z rest, z.length = 92 ∧ NoAdj z ∧ bits = z ++ rest) ∧
    (∀ z rest, z.length < 92 → NoAdj z → z.getLast? = some true →
      Yields (fibonacci c) (z ++ true :: rest) (.value (fibSum 2 z) rest)) ∧
    (∀ bits, bits.length < 92 → NoAdj bits → Yields (fibonacci c) bits (if true ∈ bits then .eof else .nothing)) ∧
    ∀ z rest, z.length = 92 → NoAdj z →
      Yields (fibonacci c) (z ++ rest) (if c.debug = true ∧ 2 ^ 64 ≤ fibSum 2 z then .panics else .invalid rest) := by
  refine ⟨fun bits => ?_, fun z rest h1 h2 h3 => fibonacci_value c h2 h1 h3, fun bits h1 h2 => fibonacci_short c h2 h1,
    fun z rest h1 h2 => fibonacci_long c h2 h1⟩
  rcases fib_split bits 92 with h | h
  · exact .inl h
  · by_cases hl : bits.length < 92
    · rw [List.take_of_length_le (by omega)] at h
      exact .inr (.inl ⟨hl, h⟩)
    · exact .inr (.inr ⟨bits.take 92, bits.drop 92, by simp; omega, h, (List.take_append_drop 92 bits).symm⟩)

/-- Decoding `Fibonacci` panics in a debug build exactly when the first 92 bits have no two adjacent ones and
select numbers whose sum does not fit in 64 bits. -/
theorem C106_fibonacci_panics_iff (c : Cfg) (hd : c.debug = true) (bits : List Bool) :
    Yields (fibonacci c) bits .panics ↔ NoAdj (bits.take 92) ∧ 2 ^ 64 ≤ fibSum 2 (bits.take 92) := by
  obtain ⟨h1, h2, h3, h4⟩ := C106_fibonacci c
  constructor
  · intro h
    rcases h1 bits with ⟨z, rest, h5, h6, h7, rfl⟩ | ⟨h5, h6⟩ | ⟨z, rest, h5, h6, rfl⟩
    · cases C106_unique h (h2 z rest h5 h6 h7)
    · have := C106_unique h (h3 bits h5 h6)
      split at this <;> cases this
    · have := C106_unique h (h4 z rest h5 h6)
      rw [List.take_append_of_le_length (by omega), List.take_of_length_le (by omega)]
      split at this
      · rename_i hh; exact ⟨h6, hh.2⟩
      · cases this
  · rintro ⟨h5, h6⟩
    by_cases hl : bits.length < 92
    · have h7 := noAdj_sum_lt _ h5
      have h8 := fib_mono (show (bits.take 92).length + 2 ≤ 93 by simp; omega)
      have := fib_93_lt
      omega
    · have := h4 (bits.take 92) (bits.drop 92) (by simp; omega) h5
      rw [List.take_append_drop, if_pos ⟨hd, h6⟩] at this
      exact this

/-! Cases. -/

example : unaryOut [false, false, true, false] = .value 2 [false] ∧ unaryOut [false] = .eof ∧ unaryOut [] = .nothing := by
  decide
example : eliasOut (unaryOut [false, false, true, true, false, true]) = .value 5 [true] := by decide
example : eliasOut (unaryOut (List.replicate 64 false ++ [true, true])) = .invalid [true] := by decide +kernel
example : eliasOut (unaryOut [false, false, true, true]) = .eof := by decide
example : lift0Out true (unaryOut [true, true]) = .panics ∧ lift0Out false (unaryOut [true, true]) = .value (2 ^ 64 - 1) [true] := by
  decide

/-- The omega word of 5 and one more bit; a group that is cut off; and one bit too many after the groups of 64. -/
example (c : Cfg) : omegaOut c 1 [true, false, true, false, true, false, true] = .value 5 [true] := by
  have h := omegaOut_groups c 5 (by decide) (by decide) [false, true]
  rw [omegaGroups_large (by decide), show Nat.log2 5 = 2 by decide, omegaGroups_large (by decide),
    show Nat.log2 2 = 1 by decide, omegaGroups_small (by decide)] at h
  rw [show [true, false, true, false, true, false, true] =
    ([] ++ (natBits 2 2).reverse ++ (natBits 3 5).reverse) ++ [false, true] by decide, h, omegaOut]
example (c : Cfg) (hd : c.debug = true) :
    Yields (omegaCode c) (omegaGroups 64 ++ true :: List.replicate 63 false) .eof ∧
    Yields (omegaCode c) (omegaGroups 64 ++ true :: List.replicate 64 false) .panics :=
  ⟨((C106_omega_cases c).2 64 (by decide) (by decide)).2.2 _ (by rcases c.usz_cases with e | e <;> rw [e] <;> decide) (by simp),
    C106_omega_panics c hd (by decide) (by decide) _ (by simp)⟩

/-- 92 bits selecting a sum above 2^64. -/
example (c : Cfg) (hd : c.debug = true) (rest : List Bool) :
    Yields (fibonacci c) (List.replicate 87 false ++ [true, false, true, false, true] ++ rest) .panics := by
  refine (C106_fibonacci_panics_iff c hd _).2 ?_
  rw [List.take_append_of_le_length (by simp), List.take_of_length_le (by simp)]
  exact ⟨by simp [NoAdj, List.replicate], by decide +kernel⟩

/-- 92 zeros are invalid in every build, 91 zeros are taken for the end of the stream. -/
example (c : Cfg) : Yields (fibonacci c) (List.replicate 92 false) (.invalid []) ∧
    Yields (fibonacci c) (List.replicate 91 false) .nothing := by
  obtain ⟨-, -, h3, h4⟩ := C106_fibonacci c
  constructor
  · have := h4 (List.replicate 92 false) [] (by simp) (by simp [NoAdj, List.replicate])
    rw [if_neg (fun h => absurd h.2 (by decide +kernel)), List.append_nil] at this
    exact this
  · have := h3 (List.replicate 91 false) (by simp) (by simp [NoAdj, List.replicate])
    rw [if_neg (by decide)] at this
    exact this

/-- `Comma(2)` on the digits 1, 2, the comma and one more bit: 1·3 + 2 = 5. -/
example (c : Cfg) : Yields (comma c 2) [true, false, false, true, true, true, false] (.value 5 [false]) := by
  obtain ⟨-, h⟩ := C106_comma c 2 (by decide) (fun _ => by decide)
  have := (h [[true, false], [false, true]] (by decide) 5 (by decide)).1 [true, true] [false] rfl (by decide)
  rw [if_neg (fun h => absurd h.2 (by decide))] at this
  exact this

/-- `Comma(64)` in a release build: the base is 0 and the comma is 64 zeros. -/
example (p : Ptr) : Yields (comma ⟨false, p, false⟩ 64) (natBits 64 7 ++ natBits 64 9 ++ natBits 64 0) (.value 9 []) := by
  obtain ⟨-, h⟩ := C106_comma ⟨false, p, false⟩ 64 (by decide) (by simp)
  have := (h [natBits 64 7, natBits 64 9] (by decide +kernel) 9 (by decide +kernel)).1 (natBits 64 0) [] (by decide +kernel)
    (by decide +kernel)
  rw [if_neg (by simp)] at this
  exact this

/-! Each theorem of this file that has hypotheses is applied to concrete data in `Verif/Instances/Decode.lean`. -/

end Succinct
