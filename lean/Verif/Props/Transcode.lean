import Verif.Props.CodeOutcome
import Verif.Props.Sequence
/-! Property C124: changing from one code to another loses nothing. The program is a client of the crate. -/
namespace Succinct
open Spec

/-- a call on the source, with the sink beside it -/
def onSource (m : SM σ α) : SM (σ × τ) α := fun s => do
  let (r, s1) ← m s.1
  .ok (r, (s1, s.2))

/-- a call on the sink, with the source beside it -/
def onSink (m : SM τ α) : SM (σ × τ) α := fun s => do
  let (r, s1) ← m s.2
  .ok (r, (s.1, s1))

/-- `while let Some(v) = K.decode(&mut source)? { K2.encode(&mut sink, v)?; } Ok(())` -/
def recode (K K2 : Code) (R : BitRead σ) (W : BitWrite τ) : SM (σ × τ) Unit := do
  match ← onSource (K.decode R) with
  | some v => do
    onSink (K2.encode W v)
    recode K K2 R W
  | none => pure ()
partial_fixpoint

/-- The codes whose decoders accept nothing but codewords (C77): `Lift0` only around codes that do not represent 0, and neither
`Omega` nor `Comma`. -/
def Spec.CodeName.Canonical : CodeName → Prop
  | .unary | .fibonacci => True
  | .omega | .comma _ => False
  | .elias k => k.Canonical
  | .lift0 k => k.Canonical ∧ ∀ v, k.Dom v → 1 ≤ v ∧ v < 2 ^ 64

theorem Spec.CodeName.Canonical.only (c : Cfg) {k : CodeName} (h : k.Canonical) :
    DecodesOnly (k.code c) k.Dom (CodeName.word k) := by
  induction k with
  | unary => exact unary_only c
  | fibonacci => exact fibonacci_only c
  | omega => exact h.elim
  | comma n => exact h.elim
  | elias k ih => exact elias_only c (ih h)
  | lift0 k ih => exact lift0_only c (ih h.1) h.2

theorem lawful_reads {R : BitRead σ} {Rep : σ → List Bool → Prop} (hR : LawfulSource R Rep) {s s' : σ} {bits l : List Bool}
    (h : Reads R s bits s') (hs : Rep s l) : ∃ rest, l = bits ++ rest ∧ Rep s' rest := by
  induction h generalizing l with
  | nil s => exact ⟨l, rfl, hs⟩
  | cons h1 _ ih =>
    cases l with
    | nil =>
      obtain ⟨t, h2, -⟩ := hR.none hs
      rw [h2] at h1
      cases h1
    | cons x l =>
      obtain ⟨t, h2, h3⟩ := hR.some hs
      rw [h2] at h1
      cases h1
      obtain ⟨rest, h4, h5⟩ := ih h3
      exact ⟨rest, by rw [h4]; rfl, h5⟩

/-- With such a code, what is decoded from any bits has the bits of its codeword. -/
theorem decOut_canonical (c : Cfg) {k : CodeName} (h : k.Canonical) {bits rest : List Bool} {v : Nat} (hl : bits.length < 2 ^ 64)
    (ho : k.decOut c bits = .value v rest) : k.Dom v ∧ bits = CodeName.word k v ++ rest := by
  have h1 := C106_all c k bits hl (List Bool) dequeRead (fun s l => s = l) deque_source bits rfl
  rw [ho] at h1
  obtain ⟨s', h2, h3⟩ := h1
  obtain ⟨b, h4, h5⟩ := h.only c dequeRead bits s' v h2
  obtain ⟨r, h6, h7⟩ := lawful_reads deque_source h4 rfl
  have hb : b.length < 2 ^ 64 := by rw [h6, List.length_append] at hl; omega
  obtain ⟨h8, h9⟩ := h5 hb
  refine ⟨h8, ?_⟩
  rw [h6, h9, ← h7, h3]

theorem dom_lt (k : CodeName) (v : Nat) (h : k.Dom v) : v < 2 ^ 64 := by
  cases k with
  | unary => exact h
  | omega => exact h.2
  | comma n => exact h
  | fibonacci => exact Nat.lt_trans h.2 (by decide +kernel)
  | elias k => exact h.2
  | lift0 k => exact Nat.lt_trans (Nat.lt_succ_self v) h.2

/-! ### What a decoder returns fits and has taken bits -/

/-- Codes that take bits for every value: all but `Comma(0)` and what is built on it. -/
def Spec.CodeName.TakesBits : CodeName → Prop
  | .comma n => n ≠ 0
  | .elias k => k.TakesBits
  | .lift0 k => k.TakesBits
  | _ => True

theorem omegaOut_value (c : Cfg) (r : Nat) (bits : List Bool) (hr : r < 2 ^ 64) {v : Nat} {rest : List Bool}
    (h : omegaOut c r bits = .value v rest) : v < 2 ^ 64 ∧ rest.length < bits.length := by
  induction hn : bits.length using Nat.strongRecOn generalizing r bits with
  | ind n ih =>
    subst hn
    cases bits with
    | nil =>
      rw [omegaOut] at h
      split at h <;> cases h
    | cons b l =>
      cases b with
      | false =>
        rw [omegaOut] at h
        cases h
        exact ⟨hr, by simp⟩
      | true =>
        rw [omegaOut] at h
        split at h
        · cases h
        split at h
        · cases h
        have h1 := ih _ (by simp; omega) _ _ (Nat.or_lt_two_pow (Nat.mod_lt _ (by decide)) (Nat.pow_lt_pow_right (by decide)
          (Nat.mod_lt _ (by decide)))) h rfl
        refine ⟨h1.1, Nat.lt_of_lt_of_le h1.2 ?_⟩
        simp
        omega

theorem commaSplit_rest (n comma : Nat) (_hn : n ≠ 0) (bits : List Bool) {rest : List Bool}
    (h : (commaSplit n comma bits).2 = some rest) : rest.length < bits.length := by
  induction hm : bits.length using Nat.strongRecOn generalizing bits with
  | ind m ih =>
    subst hm
    rw [commaSplit] at h
    split at h
    · cases h
    · rename_i hc
      split at h
      · cases h
        rw [List.length_drop]
        omega
      · have h1 := ih _ (by rw [List.length_drop]; omega) _ h rfl
        rw [List.length_drop] at h1
        omega

theorem decOut_value (c : Cfg) (k : CodeName) (hk : k.TakesBits) {bits rest : List Bool} {v : Nat} (hl : bits.length < 2 ^ 64)
    (h : k.decOut c bits = .value v rest) : v < 2 ^ 64 ∧ rest.length < bits.length := by
  induction k generalizing v rest with
  | unary =>
    simp only [CodeName.decOut, unaryOut] at h
    split at h
    · split at h <;> cases h
    · rename_i b l hd
      cases h
      have h1 : (bits.takeWhile fun b => !b).length + (bits.dropWhile fun b => !b).length = bits.length := by
        rw [← List.length_append, List.takeWhile_append_dropWhile]
      rw [hd, List.length_cons] at h1
      omega
  | omega => exact omegaOut_value c 1 bits (by decide) h
  | comma n =>
    simp only [CodeName.decOut, commaOut] at h
    rw [if_neg hk] at h
    split at h
    · cases h
    split at h
    · cases h
    split at h
    · rename_i hr
      cases h
      exact ⟨Nat.mod_lt _ (by decide), commaSplit_rest n _ hk bits hr⟩
    · split at h <;> cases h
  | fibonacci =>
    obtain ⟨h1, h2⟩ := decOut_canonical c (k := .fibonacci) trivial hl h
    refine ⟨Nat.lt_trans h1.2 (by decide +kernel), ?_⟩
    have := List.length_pos_iff.2 ((C62_all c true (CodeName.of c .fibonacci trivial)).ne_nil v h1)
    have := congrArg List.length h2
    rw [List.length_append] at this
    omega
  | elias k ih =>
    simp only [CodeName.decOut] at h
    cases ho : k.decOut c bits with
    | value n r =>
      rw [ho] at h
      have h1 := ih hk ho
      simp only [eliasOut] at h
      split at h
      · cases h
      split at h
      · cases h
      cases h
      rename_i hn hr
      have h2 := bitsVal_lt (r.take n)
      rw [List.length_take, Nat.min_eq_left (by omega)] at h2
      have h3 : 2 ^ n * 2 ≤ 2 ^ 64 := by
        rw [← Nat.pow_succ]
        exact Nat.pow_le_pow_right (by decide) (by omega)
      refine ⟨by omega, ?_⟩
      rw [List.length_drop]
      omega
    | _ => rw [ho] at h; cases h
  | lift0 k ih =>
    simp only [CodeName.decOut] at h
    cases ho : k.decOut c bits with
    | value n r =>
      rw [ho] at h
      have h1 := ih hk ho
      cases n with
      | zero =>
        simp only [lift0Out] at h
        split at h
        · cases h
        · cases h
          exact ⟨by decide, h1.2⟩
      | succ n =>
        cases h
        exact ⟨by omega, h1.2⟩
    | _ => rw [ho] at h; cases h

/-! ### What the program does -/

/-- how it ends, and the bits left in the source -/
inductive RecodeEnd where
  | done
  | fails (e : IoErr) (rest : List Bool)
  | panics
  | hangs

/-- The bits written and how the program ends. -/
noncomputable def recodeSpec (c : Cfg) (k k2 : CodeName) (bits : List Bool) : List Bool × RecodeEnd :=
  match k.decOut c bits with
  | .value v rest =>
    match k2.encOut c.debug v with
    | .word w =>
      if rest.length < bits.length then
        let r := recodeSpec c k k2 rest
        (w ++ r.1, r.2)
      else ([], .hangs)
    | .invalid => ([], .fails .invalidData rest)
    | .panics => ([], .panics)
    | .hangs => ([], .hangs)
  | .nothing => ([], .done)
  | .eof => ([], .fails .unexpectedEof [])
  | .invalid rest => ([], .fails .invalidData rest)
  | .panics => ([], .panics)
termination_by bits.length

/-- A run that ends like this has written `out`. -/
def EndsLike (e : RecodeEnd) (RepR : σ → List Bool → Prop) (RepW : τ → List Bool → Prop) (out : List Bool)
    (r : Res (Except IoErr Unit × (σ × τ))) : Prop :=
  match e with
  | .done => ∃ s' t', r = .ok (.ok (), (s', t')) ∧ RepR s' [] ∧ RepW t' out
  | .fails e rest => ∃ s' t', r = .ok (.error e, (s', t')) ∧ RepR s' rest ∧ RepW t' out
  | .panics => r = .panic
  | .hangs => r = .diverge

theorem recode_step (K K2 : Code) (R : BitRead σ) (W : BitWrite τ) {s s1 : σ} {t t1 : τ} {v : Nat}
    (h1 : K.decode R s = .ok (.ok (some v), s1)) (h2 : K2.encode W v t = .ok (.ok (), t1)) :
    recode K K2 R W (s, t) = recode K K2 R W (s1, t1) := by
  conv => lhs; rw [recode.eq_def]
  rw [SM.bind_run_ok (show onSource (K.decode R) (s, t) = .ok (.ok (some v), (s1, t)) by simp only [onSource, h1]; rfl)]
  dsimp only
  rw [SM.bind_run_ok (show onSink (K2.encode W v) (s1, t) = .ok (.ok (), (s1, t1)) by simp only [onSink, h2]; rfl)]

/-- **C124.** Whatever bits the source holds and whatever the two codes are: the program writes what `recodeSpec` says and ends as it
says. -/
theorem C124_recode (c : Cfg) (k k2 : CodeName) (hk : k.TakesBits) (bits : List Bool) (hl : bits.length < 2 ^ 64)
    {R : BitRead σ} {RepR : σ → List Bool → Prop} (hR : LawfulSource R RepR) {W : BitWrite τ} {RepW : τ → List Bool → Prop}
    {Fit : Nat → Prop} (hW : LawfulSink W RepW Fit) (hm : ∀ {m n}, Fit n → m ≤ n → Fit m) {s : σ} {t : τ} {l : List Bool}
    (hs : RepR s bits) (ht : RepW t l) (hf : Fit (l.length + (recodeSpec c k k2 bits).1.length)) :
    EndsLike (recodeSpec c k k2 bits).2 RepR RepW (l ++ (recodeSpec c k k2 bits).1) (recode (k.code c) (k2.code c) R W (s, t)) := by
  induction hn : bits.length using Nat.strongRecOn generalizing bits s t l with
  | ind n ih =>
    subst hn
    have h := C106_all c k bits hl σ R RepR hR s hs
    have hb : ∀ (K2 : Code) r s', (k.code c).decode R s = .ok (r, s') →
        (onSource ((k.code c).decode R) : SM (σ × τ) _) (s, t) = .ok (r, (s', t)) := by
      intro K2 r s' h1
      simp only [onSource, h1]
      rfl
    cases ho : k.decOut c bits with
    | value v rest =>
      obtain ⟨hv, hr⟩ := decOut_value c k hk hl ho
      rw [ho] at h
      obtain ⟨s1, h1, h2⟩ := h
      have he := C119_encode c k2 v hv
      cases hw : k2.encOut c.debug v with
      | word w =>
        have hq : recodeSpec c k k2 bits = (w ++ (recodeSpec c k k2 rest).1, (recodeSpec c k k2 rest).2) := by
          rw [recodeSpec, ho]
          simp only [hw]
          rw [if_pos hr]
        rw [hq] at hf ⊢
        simp only [List.length_append] at hf
        rw [hw] at he
        obtain ⟨t1, h3, h4⟩ := hW.writeAll hm w ht (hm hf (by omega))
        rw [← he W] at h3
        rw [recode_step _ _ _ _ h1 h3]
        have h5 := ih _ hr rest (by omega) h2 h4 (by rw [List.length_append, Nat.add_assoc]; exact hf) rfl
        rwa [List.append_assoc] at h5
      | invalid =>
        rw [hw] at he
        rw [recodeSpec, ho]
        simp only [hw, List.append_nil]
        refine ⟨s1, t, ?_, h2, ht⟩
        rw [recode.eq_def, SM.bind_run_ok (hb (k2.code c) _ _ h1)]
        dsimp only
        show SM.bind (onSink ((k2.code c).encode W v)) _ (s1, t) = _
        simp only [SM.bind, onSink, he W t]
        rfl
      | panics =>
        rw [hw] at he
        rw [recodeSpec, ho]
        simp only [hw, List.append_nil]
        show recode (k.code c) (k2.code c) R W (s, t) = .panic
        rw [recode.eq_def, SM.bind_run_ok (hb (k2.code c) _ _ h1)]
        dsimp only
        show SM.bind (onSink ((k2.code c).encode W v)) _ (s1, t) = _
        simp only [SM.bind, onSink, he W t]
        rfl
      | hangs =>
        rw [hw] at he
        rw [recodeSpec, ho]
        simp only [hw, List.append_nil]
        show recode (k.code c) (k2.code c) R W (s, t) = .diverge
        rw [recode.eq_def, SM.bind_run_ok (hb (k2.code c) _ _ h1)]
        dsimp only
        show SM.bind (onSink ((k2.code c).encode W v)) _ (s1, t) = _
        simp only [SM.bind, onSink, he W t]
        rfl
    | nothing =>
      rw [ho] at h
      obtain ⟨s1, h1, h2⟩ := h
      rw [recodeSpec, ho]
      simp only [List.append_nil]
      refine ⟨s1, t, ?_, h2, ht⟩
      rw [recode.eq_def, SM.bind_run_ok (hb (k2.code c) _ _ h1)]
      rfl
    | eof =>
      rw [ho] at h
      obtain ⟨s1, h1, h2⟩ := h
      rw [recodeSpec, ho]
      simp only [List.append_nil]
      refine ⟨s1, t, ?_, h2, ht⟩
      rw [recode.eq_def]
      show SM.bind (onSource ((k.code c).decode R)) _ (s, t) = _
      simp only [SM.bind, onSource, h1]
      rfl
    | invalid rest =>
      rw [ho] at h
      obtain ⟨s1, h1, h2⟩ := h
      rw [recodeSpec, ho]
      simp only [List.append_nil]
      refine ⟨s1, t, ?_, h2, ht⟩
      rw [recode.eq_def]
      show SM.bind (onSource ((k.code c).decode R)) _ (s, t) = _
      simp only [SM.bind, onSource, h1]
      rfl
    | panics =>
      rw [ho] at h
      rw [recodeSpec, ho]
      show recode (k.code c) (k2.code c) R W (s, t) = .panic
      rw [recode.eq_def]
      show SM.bind (onSource ((k.code c).decode R)) _ (s, t) = _
      simp only [SM.bind, onSource, show (k.code c).decode R s = .panic from h]
      rfl

/-- the bits at which the decoder stops -/
def stopsAt (c : Cfg) (k : CodeName) (rest : List Bool) : RecodeEnd → Prop
  | .done => k.decOut c rest = .nothing
  | .fails .unexpectedEof _ => k.decOut c rest = .eof
  | .fails .invalidData l => k.decOut c rest = .invalid l
  | .panics => k.decOut c rest = .panics
  | _ => False

/-- C124. With the same code on both sides, one whose decoder accepts only codewords: what is written is what was there, up to the
place at which the decoder stops. -/
theorem C124_copy (c : Cfg) {k : CodeName} (hk : k.Canonical) (hv : k.Valid) (bits : List Bool) (hl : bits.length < 2 ^ 64) :
    ∃ rest, bits = (recodeSpec c k k bits).1 ++ rest ∧ stopsAt c k rest (recodeSpec c k k bits).2 := by
  induction hn : bits.length using Nat.strongRecOn generalizing bits with
  | ind n ih =>
    subst hn
    cases ho : k.decOut c bits with
    | value v rest =>
      obtain ⟨h1, h2⟩ := decOut_canonical c hk hl ho
      have hv64 : v < 2 ^ 64 := dom_lt k v h1
      obtain ⟨w, h3, h4⟩ := (C119_valid k hv c.debug v hv64).1 h1
      rw [(k.isWord_iff hv h1).1 h3] at h4
      have hr : rest.length < bits.length := by
        have := List.length_pos_iff.2 ((C62_all c true (k.of c hv)).ne_nil v h1)
        rw [h2, List.length_append]
        omega
      obtain ⟨r, h5, h6⟩ := ih _ hr rest (by omega) rfl
      have hq : recodeSpec c k k bits = (CodeName.word k v ++ (recodeSpec c k k rest).1, (recodeSpec c k k rest).2) := by
        conv => lhs; rw [recodeSpec, ho]
        simp only [h4]
        rw [if_pos hr]
      rw [hq]
      refine ⟨r, ?_, h6⟩
      dsimp only
      rw [List.append_assoc, ← h5]
      exact h2
    | _ =>
      rw [recodeSpec, ho]
      exact ⟨bits, rfl, ho⟩

/-- C124. Changing from any code to any other that can represent the values, and back, restores the bits. Here the codes need not be
canonical, but the bits must be an encoding. -/
theorem C124_there_and_back (c : Cfg) {k k2 : CodeName} (hv : k.Valid) (h2 : k2.Valid) (vs : List Nat) (h : ∀ v ∈ vs, k.Dom v)
    (hd : ∀ v ∈ vs, k2.Dom v) :
    recode (k.code c) (k2.code c) dequeRead dequeWrite (vs.flatMap (CodeName.word k), []) =
      .ok (.ok (), ([], vs.flatMap (CodeName.word k2))) ∧
    recode (k2.code c) (k.code c) dequeRead dequeWrite (vs.flatMap (CodeName.word k2), []) =
      .ok (.ok (), ([], vs.flatMap (CodeName.word k))) := by
  have key : ∀ {a b : CodeName}, a.Valid → b.Valid → ∀ vs : List Nat, (∀ v ∈ vs, a.Dom v) → (∀ v ∈ vs, b.Dom v) → ∀ l : List Bool,
      recode (a.code c) (b.code c) dequeRead dequeWrite (vs.flatMap (CodeName.word a), l) =
        .ok (.ok (), ([], l ++ vs.flatMap (CodeName.word b))) := by
    intro a b ha hb vs
    have ia := C62_all c true (a.of c ha)
    have ib := C62_all c true (b.of c hb)
    induction vs with
    | nil =>
      intro _ _ l
      have h3 := ia.ends dequeRead [] (by intro b s h; cases h)
      rw [List.flatMap_nil, List.flatMap_nil, List.append_nil, recode.eq_def,
        SM.bind_run_ok (show onSource ((a.code c).decode dequeRead) ([], l) = .ok (.ok none, ([], l)) by
          simp only [onSource, h3]; rfl)]
      rfl
    | cons v vs ih =>
      intro hva hvb l
      rw [List.flatMap_cons, List.flatMap_cons]
      have h4 := ia.decodes v (hva v List.mem_cons_self) dequeRead _ _ (deque_reads (CodeName.word a v) (vs.flatMap (CodeName.word a)))
      obtain ⟨t', h5, h6⟩ := deque_sink.writeAll (fun _ _ => trivial) (CodeName.word b v) (rfl : l = l) trivial
      rw [← ib.encodes v (hvb v List.mem_cons_self) dequeWrite] at h5
      rw [recode_step _ _ _ _ h4 h5, h6, ih (fun x hx => hva x (List.mem_cons_of_mem _ hx))
        (fun x hx => hvb x (List.mem_cons_of_mem _ hx)), List.append_assoc]
  exact ⟨by simpa using key hv h2 vs h hd [], by simpa using key h2 hv vs hd h []⟩

/-- C124. With a code whose decoder accepts only codewords: from any bits at all, the program writes the words, in the other code, of
exactly those values of which the bits up to the place at which the decoder stops are the words. So recoding what was written back
restores those bits. -/
theorem C124_lossless (c : Cfg) {k k2 : CodeName} (hk : k.Canonical) (hv : k.Valid) (h2 : k2.Valid) (hd : ∀ v, k.Dom v → k2.Dom v)
    (bits : List Bool) (hl : bits.length < 2 ^ 64) :
    ∃ rest, bits = (recodeSpec c k k bits).1 ++ rest ∧ stopsAt c k rest (recodeSpec c k k2 bits).2 ∧
      recode (k2.code c) (k.code c) dequeRead dequeWrite ((recodeSpec c k k2 bits).1, []) =
        .ok (.ok (), ([], (recodeSpec c k k bits).1)) := by
  have key : ∀ bits : List Bool, bits.length < 2 ^ 64 → (recodeSpec c k k bits).2 = (recodeSpec c k k2 bits).2 ∧
      ∃ vs : List Nat, (∀ v ∈ vs, k.Dom v) ∧ (recodeSpec c k k bits).1 = vs.flatMap (CodeName.word k) ∧
        (recodeSpec c k k2 bits).1 = vs.flatMap (CodeName.word k2) := by
    intro bits hl
    induction hn : bits.length using Nat.strongRecOn generalizing bits with
    | ind n ih =>
      subst hn
      cases ho : k.decOut c bits with
      | value v rest =>
        obtain ⟨h1, g⟩ := decOut_canonical c hk hl ho
        have hr : rest.length < bits.length := by
          have := List.length_pos_iff.2 ((C62_all c true (k.of c hv)).ne_nil v h1)
          rw [g, List.length_append]
          omega
        have hq : ∀ k' : CodeName, k'.Valid → k'.Dom v → recodeSpec c k k' bits =
            (CodeName.word k' v ++ (recodeSpec c k k' rest).1, (recodeSpec c k k' rest).2) := by
          intro k' hv' hd'
          obtain ⟨w, h3, h4⟩ := (C119_valid k' hv' c.debug v (dom_lt k v h1)).1 hd'
          rw [(k'.isWord_iff hv' hd').1 h3] at h4
          conv => lhs; rw [recodeSpec, ho]
          simp only [h4]
          rw [if_pos hr]
        obtain ⟨h5, vs, h6, h7, h8⟩ := ih _ hr rest (by omega) rfl
        rw [hq k hv h1, hq k2 h2 (hd v h1)]
        refine ⟨h5, v :: vs, ?_, ?_, ?_⟩
        · intro x hx
          rcases List.mem_cons.1 hx with rfl | hx
          · exact h1
          · exact h6 x hx
        · rw [List.flatMap_cons, ← h7]
        · rw [List.flatMap_cons, ← h8]
      | _ =>
        rw [recodeSpec, recodeSpec, ho]
        exact ⟨rfl, [], by simp, rfl, rfl⟩
  obtain ⟨rest, h3, h4⟩ := C124_copy c hk hv bits hl
  obtain ⟨h5, vs, h6, h7, h8⟩ := key bits hl
  refine ⟨rest, h3, by rw [← h5]; exact h4, ?_⟩
  rw [h7, h8]
  exact (C124_there_and_back c hv h2 vs h6 (fun v hx => hd v (h6 v hx))).2

/-- C124. Two streams from which such a code decodes the same values, leaving the same, are the same. -/
theorem C124_injective (c : Cfg) {k : CodeName} (hk : k.Canonical) {a b rest : List Bool} {v : Nat} (ha : a.length < 2 ^ 64)
    (hb : b.length < 2 ^ 64) (h1 : k.decOut c a = .value v rest) (h2 : k.decOut c b = .value v rest) : a = b := by
  rw [(decOut_canonical c hk ha h1).2, (decOut_canonical c hk hb h2).2]

/-- C124 fails for `Comma`: 0 digits in front are dropped, so the copy of a stream is another stream. -/
theorem C124_comma_counterexample (c : Cfg) :
    recode (comma c 2) (comma c 2) dequeRead dequeWrite ([false, false, true, true], []) =
      .ok (.ok (), ([], [true, true])) := by
  have hi := C62_all c true (CodeName.of c (.comma 2) ⟨by decide, by decide⟩)
  have h1 : (comma c 2).encode dequeWrite 0 [] = .ok (.ok (), [true, true]) := by
    rw [show (comma c 2).encode dequeWrite 0 = writeAll dequeWrite (commaWord 2 0) from
      hi.encodes 0 (by show (0 : Nat) < 2 ^ 64; decide) dequeWrite, show commaWord 2 0 = [true, true] by decide +kernel]
    rfl
  rw [recode_step _ _ _ _ (C77_comma_counterexample c).1 h1, recode.eq_def,
    SM.bind_run_ok (show onSource ((comma c 2).decode dequeRead) ([], [true, true]) = .ok (.ok none, ([], [true, true])) by
      simp only [onSource, show (comma c 2).decode dequeRead [] = _ from hi.ends dequeRead [] (by intro b s h; cases h)]; rfl)]
  rfl

/-! Cases: the gamma words of 5 and 3 and an incomplete word, changed to unary. -/
example (c : Cfg) : ∃ s t, recode (gamma c) (unary c) dequeRead dequeWrite
      ([false, false, true, true, false] ++ [false, true, true] ++ [false, false, true, true], []) =
    .ok (.error .unexpectedEof, (s, t)) ∧ s = [] ∧ t = [false, false, false, false, false, true] ++ [false, false, false, true] := by
  have h := C124_recode c (.elias .unary) .unary trivial
    ([false, false, true, true, false] ++ [false, true, true] ++ [false, false, true, true]) (by decide) deque_source deque_sink
    (fun _ _ => trivial) (t := []) rfl rfl trivial
  rw [show recodeSpec c (.elias .unary) .unary ([false, false, true, true, false] ++ [false, true, true] ++ [false, false, true, true]) =
    ([false, false, false, false, false, true] ++ [false, false, false, true], .fails .unexpectedEof []) by
      rw [recodeSpec]
      simp only [show CodeName.decOut c (.elias .unary) ([false, false, true, true, false] ++ [false, true, true] ++
        [false, false, true, true]) = .value 5 ([false, true, true] ++ [false, false, true, true]) from rfl, CodeName.encOut]
      rw [if_pos (by decide), recodeSpec]
      simp only [show CodeName.decOut c (.elias .unary) ([false, true, true] ++
        [false, false, true, true]) = .value 3 [false, false, true, true] from rfl, CodeName.encOut]
      rw [if_pos (by decide), recodeSpec]
      simp only [show CodeName.decOut c (.elias .unary) [false, false, true, true] = .eof from rfl]
      rfl] at h
  exact h

/-! Each theorem of this file that has hypotheses is applied to concrete data in `Verif/Instances/Transcode.lean`. -/

end Succinct
