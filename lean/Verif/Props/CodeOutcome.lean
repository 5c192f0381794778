import Verif.Spec.CodeOutcome
import Verif.Props.Decode
import Verif.Props.CodeTotality
/-!
C106 and C119: the outcome of encoding every value and of decoding every stream, for every code that can be built.
-/
namespace Succinct
open Spec

/-- the code with a given name -/
def Spec.CodeName.code (c : Cfg) : CodeName → Code
  | .unary => Succinct.unary c
  | .omega => Succinct.omegaCode c
  | .comma n => Succinct.comma c n
  | .fibonacci => Succinct.fibonacci c
  | .elias k => Succinct.elias c (code c k)
  | .lift0 k => Succinct.lift0 c (code c k)

/-! ### Decoding -/

theorem commaSplit_groups {n b : Nat} (hn : 1 ≤ n) (gs : List (List Bool)) (hg : ∀ g ∈ gs, g.length = n ∧ digit g ≠ b)
    (tail : List Bool) :
    commaSplit n b (gs.flatten ++ tail) = (gs.map digit ++ (commaSplit n b tail).1, (commaSplit n b tail).2) := by
  induction gs with
  | nil => rfl
  | cons g gs ih =>
    obtain ⟨h1, h2⟩ := hg g List.mem_cons_self
    have ht : ((g :: gs).flatten ++ tail).take n = g := by
      rw [List.flatten_cons, List.append_assoc, List.take_append_of_le_length (by omega), List.take_of_length_le (by omega)]
    have hd : ((g :: gs).flatten ++ tail).drop n = gs.flatten ++ tail := by
      rw [List.flatten_cons, List.append_assoc, List.drop_append_of_le_length (by omega), List.drop_eq_nil_of_le (by omega),
        List.nil_append]
    rw [commaSplit, dif_neg (by simp; omega), ht, hd, if_neg (show ¬ bitsVal g % 2 ^ 64 = b from h2), ih fun g hg' => hg g (List.mem_cons_of_mem _ hg')]
    rfl

theorem comma_yields (c : Cfg) (n : Nat) (bits : List Bool) : Yields (comma c n) bits (commaOut c.debug n bits) := by
  unfold commaOut
  by_cases h0 : n = 0
  · subst h0
    exact (C106_comma_widths c bits).1
  · rw [if_neg h0]
    by_cases hw : c.debug = true ∧ 64 ≤ n
    · rw [if_pos hw]
      exact (C106_comma_widths c bits).2 n hw.2 hw.1
    · rw [if_neg hw]
      obtain ⟨h1, h2⟩ := C106_comma c n (by omega) (fun hd => by
        by_cases h : 64 ≤ n
        · exact absurd ⟨hd, h⟩ hw
        · omega)
      obtain ⟨gs, tail, hgs, rfl, ht⟩ := h1 bits
      obtain ⟨h3, h4⟩ := h2 gs hgs _ rfl
      dsimp only
      rw [commaSplit_groups (by omega) gs hgs tail]
      rcases ht with ht | ⟨g, rest, hg1, hg2, rfl⟩
      · have h5 := h4 tail ht
        rw [commaSplit, dif_pos (.inr ht), List.append_nil]
        have e : (gs = [] ∧ tail = []) ↔ gs.flatten ++ tail = [] := by
          constructor
          · rintro ⟨rfl, rfl⟩; rfl
          · intro h
            obtain ⟨h6, h7⟩ := List.append_eq_nil_iff.1 h
            refine ⟨?_, h7⟩
            cases gs with
            | nil => rfl
            | cons g gs =>
              have := (hgs g List.mem_cons_self).1
              rw [List.flatten_cons] at h6
              rw [(List.append_eq_nil_iff.1 h6).1] at this
              exact absurd this.symm h0
        simp only [e] at h5
        exact h5
      · have h5 := h3 g rest hg1 hg2
        rw [commaSplit, dif_neg (by simp; omega), List.take_append_of_le_length (by omega), List.take_of_length_le (by omega),
          if_pos hg2, List.append_nil, List.drop_append_of_le_length (by omega), List.drop_eq_nil_of_le (by omega),
          List.nil_append]
        exact h5

theorem fibSplit_some {z rest : List Bool} (hz : NoAdj z) (ht : z.getLast? = some true) :
    fibSplit (z ++ true :: rest) = some (z, rest) := by
  induction z with
  | nil => cases ht
  | cons b z ih =>
    cases z with
    | nil =>
      obtain rfl : b = true := by simpa using ht
      rfl
    | cons b' z =>
      have hz' : NoAdj (b' :: z) := by cases b <;> cases b' <;> first | exact hz | exact hz.elim
      have h1 := ih hz' (by simpa using ht)
      have h2 : fibSplit (b :: ((b' :: z) ++ true :: rest)) =
          (fibSplit ((b' :: z) ++ true :: rest)).map fun r => (b :: r.1, r.2) := by
        cases b with
        | false => rfl
        | true => cases b' with
          | false => rfl
          | true => exact hz.elim
      rw [List.cons_append, h2, h1]
      rfl

theorem fibSplit_noAdj {bits z rest : List Bool} (h : fibSplit bits = some (z, rest)) :
    bits = z ++ true :: rest ∧ NoAdj z ∧ z.getLast? = some true := by
  induction bits generalizing z with
  | nil => cases h
  | cons b bits ih =>
    by_cases hb : ∃ l, b :: bits = true :: true :: l
    · obtain ⟨l, e⟩ := hb
      rw [e] at h ⊢
      cases h
      exact ⟨rfl, trivial, rfl⟩
    · have h2 : fibSplit (b :: bits) = (fibSplit bits).map fun r => (b :: r.1, r.2) := by
        cases b with
        | false => rfl
        | true =>
          cases bits with
          | nil => rfl
          | cons b' l => cases b' with
            | false => rfl
            | true => exact absurd ⟨l, rfl⟩ hb
      rw [h2] at h
      cases hs : fibSplit bits with
      | none => rw [hs] at h; cases h
      | some r =>
        obtain ⟨z', rest'⟩ := r
        rw [hs] at h
        cases h
        obtain ⟨h3, h4, h5⟩ := ih hs
        refine ⟨by rw [h3]; rfl, ?_, ?_⟩
        · cases b with
          | false => cases z' <;> exact h4
          | true =>
            cases z' with
            | nil => cases h5
            | cons b' z' => cases b' with
              | false => exact h4
              | true => exact absurd ⟨z' ++ true :: rest', by rw [h3]; rfl⟩ hb
        · cases z' with
          | nil => cases h5
          | cons b' z' => simpa using h5

theorem fib_yields (c : Cfg) (bits : List Bool) : Yields (fibonacci c) bits (fibOut c.debug bits) := by
  obtain ⟨h1, h2, h3, h4⟩ := C106_fibonacci c
  unfold fibOut
  have hlong : 92 ≤ bits.length → NoAdj (bits.take 92) → Yields (fibonacci c) bits
      (if c.debug = true ∧ 2 ^ 64 ≤ fibSum 2 (bits.take 92) then Outcome.panics else .invalid (bits.drop 92)) := by
    intro hl hn
    have := h4 (bits.take 92) (bits.drop 92) (by simp; omega) hn
    rwa [List.take_append_drop] at this
  cases hs : fibSplit bits with
  | some r =>
    obtain ⟨z, rest⟩ := r
    obtain ⟨e, h5, h6⟩ := fibSplit_noAdj hs
    dsimp only
    by_cases hz : z.length < 92
    · rw [if_pos hz, e]
      exact h2 z rest hz h5 h6
    · rw [if_neg hz]
      refine hlong (by rw [e]; simp; omega) ?_
      rw [e, List.take_append_of_le_length (by omega)]
      have := h5
      rw [← List.take_append_drop 92 z] at this
      exact noAdj_append_left this
  | none =>
    dsimp only
    rcases h1 bits with ⟨z, rest, -, h5, h6, rfl⟩ | ⟨h5, h6⟩ | ⟨z, rest, h5, h6, e⟩
    · rw [fibSplit_some h5 h6] at hs
      cases hs
    · rw [if_pos h5]
      exact h3 bits h5 h6
    · rw [if_neg (by rw [e]; simp; omega)]
      refine hlong (by rw [e]; simp; omega) ?_
      rw [e, List.take_append_of_le_length (by omega), List.take_of_length_le (by omega)]
      exact h6

/-- C106 for every code that can be built: one function that gives the outcome of decoding any finite stream. -/
theorem C106_all (c : Cfg) (k : CodeName) (bits : List Bool) (hl : bits.length < 2 ^ 64) :
    Yields (k.code c) bits (k.decOut c bits) := by
  induction k with
  | unary => exact unary_yields c bits hl
  | omega => exact omega_yields c bits
  | comma n => exact comma_yields c n bits
  | fibonacci => exact fib_yields c bits
  | elias k ih => exact elias_yields c ih
  | lift0 k ih => exact lift0_yields c ih

/-! ### Encoding -/

theorem fibWordOf_eq {v : Nat} (h : 1 ≤ v) : fibWordOf v = fibWord v := by
  have h1 : ∃ l, IsFibWord v l := ⟨fibWord v, isFibWord_iff.2 ⟨h, rfl⟩⟩
  unfold fibWordOf
  rw [dif_pos h1]
  exact (isFibWord_iff.1 h1.choose_spec).2

/-- What it means that encoding `v` has the outcome `o`, for every sink: however it is implemented, it is asked to write
exactly these bits, one after another, and nothing else; on the other outcomes nothing at all has been asked of it, so even a
sink that fails on every call makes no difference. -/
def EncYields (K : Code) (v : Nat) : EncOutcome → Prop
  | .word l => ∀ ⦃σ : Type⦄ (W : BitWrite σ), K.encode W v = writeAll W l
  | .invalid => ∀ ⦃σ : Type⦄ (W : BitWrite σ) (s : σ), K.encode W v s = .ok (.error .invalidData, s)
  | .panics => ∀ ⦃σ : Type⦄ (W : BitWrite σ) (s : σ), K.encode W v s = .panic
  | .hangs => ∀ ⦃σ : Type⦄ (W : BitWrite σ) (s : σ), K.encode W v s = .diverge

theorem comma_enc (c : Cfg) (n v : Nat) : EncYields (comma c n) v (commaEnc c.debug n v) := by
  unfold commaEnc
  by_cases hw : c.debug = true ∧ 64 ≤ n
  · rw [if_pos hw]
    exact fun _ W s => C69_wide c hw.1 hw.2 W s v
  · rw [if_neg hw]
    have hb := comma_base_any c (n := n) (fun hd => by
      by_cases h : 64 ≤ n
      · exact absurd ⟨hd, h⟩ hw
      · omega)
    have hp : 2 ^ (n % 64) < 2 ^ 64 := Nat.pow_lt_pow_right (by omega) (Nat.mod_lt _ (by omega))
    generalize 2 ^ (n % 64) - 1 = b at hb
    have hb64 : b < 2 ^ 64 := by
      rw [comma_base_any c (n := n) (fun hd => by
        by_cases h : 64 ≤ n
        · exact absurd ⟨hd, h⟩ hw
        · omega)] at hb
      cases hb
      omega
    have he : ∀ {σ : Type} (W : BitWrite σ), (comma c n).encode W v =
        (do let stack ← SM.lift (Comma.push b [] v); Comma.pop c W n stack; writeInt c false W n (BitVec.ofNat 64 b)) := by
      intro σ W
      show Comma.encode c n W v = _
      rw [Comma.encode, hb, SM.lift_ok_bind]
    dsimp only
    by_cases hv : v = 0
    · rw [if_neg (fun h => h.1 hv), if_neg (fun h => h.1 hv), hv, digitsOf_zero]
      intro σ W
      rw [← hv, he, hv, Comma.push.eq_def, if_neg (by decide), SM.lift_ok_bind, Comma.pop, writeInt_unsigned c W (by omega),
        BitVec.toNat_ofNat, Nat.mod_eq_of_lt hb64]
      rfl
    · by_cases hb0 : b = 0
      · rw [if_pos ⟨hv, hb0⟩]
        intro σ W s
        rw [he, hb0, Comma.push.eq_def, if_pos (by omega)]
        rfl
      · rw [if_neg (fun h => hb0 h.2)]
        by_cases hb1 : b = 1
        · rw [if_pos ⟨hv, hb1⟩]
          intro σ W s
          rw [he, hb1, comma1_push [] v (by omega)]
          rfl
        · rw [if_neg (fun h => hb1 h.2)]
          intro σ W
          rw [he, comma_push (by omega), SM.lift_ok_bind, List.append_nil,
            comma_pop c W n _ (fun d hd => by have := digitsOf_lt (by omega) v d hd; omega), writeInt_unsigned c W (by omega),
            BitVec.toNat_ofNat, Nat.mod_eq_of_lt hb64, writeAll_append]

/-- C119. The outcome of encoding any `u64` with any code that can be built, on any sink. -/
theorem C119_encode (c : Cfg) (k : CodeName) (v : Nat) (hv : v < 2 ^ 64) : EncYields (k.code c) v (k.encOut c.debug v) := by
  induction k generalizing v with
  | unary => exact fun _ W => (C55_unary c).encodes v hv W
  | omega => exact fun _ W => omega_encode c v hv W
  | comma n => exact comma_enc c n v
  | fibonacci =>
    unfold CodeName.encOut
    by_cases h0 : v = 0
    · rw [if_pos h0, h0]
      exact fun _ W s => rfl
    · rw [if_neg h0]
      by_cases hf : v < fib 93
      · rw [if_pos hf, fibWordOf_eq (by omega)]
        exact fun _ W => (C60_implements c).encodes v ⟨by omega, hf⟩ W
      · rw [if_neg hf]
        exact fun _ W s => C60_too_large c (by omega) hv W s
  | elias k ih =>
    unfold CodeName.encOut
    by_cases h0 : v = 0
    · rw [if_pos h0, h0]
      exact fun _ W s => rfl
    · rw [if_neg h0]
      have hl := log2_lt_64 hv (by omega)
      have h1 := ih v.log2 (by omega)
      have he : ∀ {σ : Type} (W : BitWrite σ), ((CodeName.elias k).code c).encode W v =
          (do (k.code c).encode W v.log2; writeInt c false W v.log2 (BitVec.ofNat 64 v)) := by
        intro σ W
        show Elias.encode c (k.code c) W v = _
        rw [Elias.encode, assertR_true h0, SM.lift_ok_bind, subN_ok (by omega), SM.lift_ok_bind, leadingZeros,
          if_neg (by omega), subN_ok (by omega), SM.lift_ok_bind, show 64 - 1 - (64 - 1 - v.log2) = v.log2 by omega]
      cases ho : k.encOut c.debug v.log2 with
      | word l =>
        rw [ho] at h1
        intro σ W
        rw [he, h1 W, writeInt_unsigned c W (by omega), BitVec.toNat_ofNat, Nat.mod_eq_of_lt hv, writeAll_append]
      | invalid =>
        rw [ho] at h1
        intro σ W s
        rw [he, SM.bind_run_err (h1 W s)]
      | panics =>
        rw [ho] at h1
        intro σ W s
        rw [he, SM.bind_run, h1 W s]
        rfl
      | hangs =>
        rw [ho] at h1
        intro σ W s
        rw [he, SM.bind_run, h1 W s]
        rfl
  | lift0 k ih =>
    unfold CodeName.encOut
    by_cases hl : v + 1 < 2 ^ 64
    · rw [if_pos hl]
      have he : ∀ {σ : Type} (W : BitWrite σ), ((CodeName.lift0 k).code c).encode W v = (k.code c).encode W (v + 1) := by
        intro σ W
        show Lift0.encode (k.code c) W v = _
        rw [Lift0.encode, checkedAdd, if_pos hl]
      have h1 := ih (v + 1) hl
      cases ho : k.encOut c.debug (v + 1) <;> rw [ho] at h1 <;> intro σ W
      · rw [he]; exact h1 W
      · intro s; rw [he]; exact h1 W s
      · intro s; rw [he]; exact h1 W s
      · intro s; rw [he]; exact h1 W s
    · rw [if_neg hl]
      intro σ W s
      show Lift0.encode (k.code c) W v s = _
      rw [Lift0.encode, checkedAdd, if_neg hl]
      rfl

/-! ### Codewords -/

/-- the codeword as a function -/
def Spec.CodeName.word : CodeName → Nat → List Bool
  | .unary => unaryWord
  | .omega => omegaWord
  | .comma n => commaWord n
  | .fibonacci => fibWord
  | .elias k => eliasWord (word k)
  | .lift0 k => fun v => word k (v + 1)

theorem Spec.CodeName.of (c : Cfg) (k : CodeName) (h : k.Valid) : CodeOf c true (CodeName.code c k) k.Dom (CodeName.word k) := by
  induction k with
  | unary => exact .unary
  | omega => exact .omega
  | comma n => exact .comma h.1 h.2
  | fibonacci => exact .fibonacci
  | elias k ih => exact .elias (ih h.1) h.2
  | lift0 k ih => exact .lift0 (ih h)

theorem Spec.CodeName.isWord_iff (k : CodeName) (h : k.Valid) {v : Nat} (hv : k.Dom v) {l : List Bool} :
    k.IsWord v l ↔ l = CodeName.word k v := by
  induction k generalizing v l with
  | unary => exact Iff.rfl
  | omega => exact Iff.rfl
  | comma n => exact Iff.rfl
  | fibonacci => exact isFibWord_iff.trans ⟨fun h => h.2, fun h => ⟨hv.1, h⟩⟩
  | elias k ih =>
    have hl : k.Dom v.log2 := h.2 _ ((Nat.log2_lt (by have := hv.1; omega)).2 hv.2)
    constructor
    · rintro ⟨x, h1, rfl⟩
      rw [(ih h.1 hl).1 h1]
      rfl
    · rintro rfl
      exact ⟨_, (ih h.1 hl).2 rfl, rfl⟩
  | lift0 k ih => exact ih h hv.1

/-- C119. For a code with legal parameters: a value it can represent gives its codeword. `Omega` takes 0 for 1. Any other value
that is too small panics, and one that is too large is an error. -/
theorem C119_valid (k : CodeName) (h : k.Valid) (d : Bool) (v : Nat) (hv : v < 2 ^ 64) :
    (k.Dom v → ∃ l, k.IsWord v l ∧ k.encOut d v = .word l) ∧
    (¬ k.Dom v → k.encOut d v = match k with
      | .omega => .word [false]
      | .lift0 _ => .invalid
      | _ => if v = 0 then .panics else .invalid) := by
  induction k generalizing v with
  | unary => exact ⟨fun _ => ⟨_, rfl, rfl⟩, fun h => absurd hv h⟩
  | omega =>
    refine ⟨fun _ => ⟨_, rfl, rfl⟩, fun h => ?_⟩
    have h0 : v = 0 := by
      by_cases h0 : v = 0
      · exact h0
      · exact absurd ⟨by omega, hv⟩ h
    show EncOutcome.word (omegaWord v) = _
    rw [h0, omegaWord, omegaGroups_small (by decide)]
    rfl
  | comma n =>
    obtain ⟨h2, hn⟩ := h
    refine ⟨fun _ => ⟨_, rfl, ?_⟩, fun h => absurd hv h⟩
    obtain ⟨hb, -, -⟩ := comma_base_bounds h2 hn
    show commaEnc d n v = _
    rw [commaEnc, if_neg (by omega), Nat.mod_eq_of_lt (by omega)]
    dsimp only
    rw [if_neg (by omega), if_neg (by omega), commaWord]
  | fibonacci =>
    refine ⟨fun h => ⟨fibWordOf v, ?_, ?_⟩, fun h => ?_⟩
    · exact isFibWord_iff.2 ⟨h.1, fibWordOf_eq h.1⟩
    · rw [CodeName.encOut, if_neg (by have := h.1; omega), if_pos h.2]
    · rw [CodeName.encOut]
      by_cases h0 : v = 0
      · rw [if_pos h0, if_pos h0]
      · rw [if_neg h0, if_neg h0, if_neg (fun h1 => h ⟨by omega, h1⟩)]
  | elias k ih =>
    refine ⟨fun h1 => ?_, fun h1 => ?_⟩
    · have h0 : v ≠ 0 := by have := h1.1; omega
      have hl := log2_lt_64 hv h0
      obtain ⟨l, h2, h3⟩ := (ih h.1 v.log2 (by omega)).1 (h.2 _ hl)
      exact ⟨l ++ natBits v.log2 v, ⟨l, h2, rfl⟩, by rw [CodeName.encOut, if_neg h0, h3]⟩
    · have h0 : v = 0 := by
        by_cases h0 : v = 0
        · exact h0
        · exact absurd ⟨by omega, hv⟩ h1
      rw [CodeName.encOut, if_pos h0]
      exact (if_pos h0).symm
  | lift0 k ih =>
    refine ⟨fun h1 => ?_, fun h1 => ?_⟩
    · obtain ⟨l, h2, h3⟩ := (ih h (v + 1) h1.2).1 h1.1
      exact ⟨l, h2, by rw [CodeName.encOut, if_pos h1.2, h3]⟩
    · rw [CodeName.encOut]
      by_cases hl : v + 1 < 2 ^ 64
      · rw [if_pos hl, (ih h (v + 1) hl).2 (fun h2 => h1 ⟨h2, hl⟩)]
        cases k with
        | omega => exact absurd ⟨⟨by omega, hl⟩, hl⟩ h1
        | lift0 k => rfl
        | _ => exact if_neg (by omega)
      · rw [if_neg hl]

/-- C119. Decoding what has been encoded, whatever follows. -/
theorem C119_roundtrip (c : Cfg) (k : CodeName) (h : k.Valid) {v : Nat} (hv : k.Dom v) (hv64 : v < 2 ^ 64) {l rest : List Bool}
    (he : k.encOut c.debug v = .word l) (hl : (l ++ rest).length < 2 ^ 64) : k.decOut c (l ++ rest) = .value v rest := by
  have hi := C62_all c true (k.of c h)
  obtain ⟨l', h1, h2⟩ := (C119_valid k h c.debug v hv64).1 hv
  cases he.symm.trans h2
  have h3 := (C106_all c k (l ++ rest) hl).outOf
  have h4 := hi.decodes v hv dequeRead _ _ (deque_reads (CodeName.word k v) rest)
  rw [h3, (k.isWord_iff h hv).1 h1, h4]
  rfl

/-- An encoding that does not write its word has not even tried to write: with a sink whose every call fails it ends in the
same way. -/
theorem C119_untouched (c : Cfg) (k : CodeName) (v : Nat) (hv : v < 2 ^ 64) (e : IoErr) {σ : Type} (s : σ) :
    let broken : BitWrite σ := ⟨fun _ s => .ok (.error e, s)⟩
    match k.encOut c.debug v with
    | .word l => (k.code c).encode broken v s = if l = [] then .ok (.ok (), s) else .ok (.error e, s)
    | .invalid => (k.code c).encode broken v s = .ok (.error .invalidData, s)
    | .panics => (k.code c).encode broken v s = .panic
    | .hangs => (k.code c).encode broken v s = .diverge := by
  intro broken
  have h := C119_encode c k v hv
  cases ho : k.encOut c.debug v with
  | word l =>
    rw [ho] at h
    dsimp only
    rw [h broken]
    cases l with
    | nil => rfl
    | cons b l => rfl
  | invalid => rw [ho] at h; exact h broken s
  | panics => rw [ho] at h; exact h broken s
  | hangs => rw [ho] at h; exact h broken s

/-! Cases: gamma of 5; nested codes with odd parameters. -/
example (d : Bool) : (CodeName.elias .unary).encOut d 5 = .word [false, false, true, true, false] := by
  rw [CodeName.encOut, CodeName.encOut]; decide
/-- Fibonacci as a header cannot represent ⌊lg 1⌋ = 0. -/
example (d : Bool) : (CodeName.elias .fibonacci).encOut d 1 = .panics := by
  rw [CodeName.encOut, CodeName.encOut]; decide
/-- `Comma(0)` writes nothing for 0; `Comma(65)` without checks hangs like `Comma(1)`. -/
example : commaEnc true 0 0 = .word [] ∧ commaEnc true 0 1 = .panics ∧ commaEnc true 1 2 = .hangs ∧ commaEnc false 65 1 = .hangs ∧
    commaEnc true 65 1 = .panics := by decide +kernel
/-- `Comma(66)` without checks: base 3, digits of 66 bits. -/
example : (do let r ← (comma ⟨false, .p64, false⟩ 66).encode dequeWrite 0 []; .ok r.2) = .ok (natBits 66 3) := by
  have h := C119_encode ⟨false, .p64, false⟩ (.comma 66) 0 (by decide)
  have e : CodeName.encOut false (.comma 66) 0 = .word (natBits 66 3) := by
    show commaEnc false 66 0 = _
    rw [commaEnc, if_neg (by decide)]
    dsimp only
    rw [if_neg (by decide), if_neg (by decide), digitsOf_zero]
    rfl
  rw [e] at h
  rw [show (comma ⟨false, .p64, false⟩ 66).encode dequeWrite 0 = writeAll dequeWrite (natBits 66 3) from h dequeWrite]
  decide +kernel
/-- A decoder on its own words and on others. -/
example : fibOut true [false, true, true, true] = .value 2 [true] ∧ fibOut true [false, true, false] = .eof ∧
    fibOut true (List.replicate 91 false) = .nothing ∧ fibOut true (List.replicate 93 false) = .invalid [false] := by decide +kernel
example : CodeName.decOut ⟨true, .p64, true⟩ (.elias (.lift0 (.elias .unary))) [false, true, true, false, true, true] = .value 6 [true] := by
  decide

/-! Each theorem of this file that has hypotheses is applied to concrete data in `Verif/Instances/CodeOutcome.lean`. -/

end Succinct
