import Verif.Lemmas.Coding
/-! # Consequences of the contract of a code -/
namespace Succinct
open Spec

theorem Implements.roundTrips {K : Code} {D : Nat → Prop} {word : Nat → List Bool} (h : Implements K D word) :
    RoundTrips K D := by
  intro v hv
  refine ⟨word v, ?_, ?_⟩
  · intro σ W Rep Fit hW hm s l hs hf
    rw [h.encodes v hv W]
    exact hW.writeAll hm (word v) hs hf
  · intro σ R Rep hR t rest ht
    obtain ⟨t', h1, h2⟩ := hR.reads _ ht
    exact ⟨t', h.decodes v hv R t t' h1, h2⟩

theorem encodeAll_eq {K : Code} {D : Nat → Prop} {word : Nat → List Bool} (h : EncodesBy K D word) {σ : Type} (W : BitWrite σ)
    (vs : List Nat) (hv : ∀ v ∈ vs, D v) : encodeAll K W vs = writeAll W (vs.flatMap word) := by
  induction vs with
  | nil => rfl
  | cons v vs ih =>
    rw [encodeAll, ih (fun x hx => hv x (List.mem_cons_of_mem _ hx)), h v (hv v List.mem_cons_self) W, List.flatMap_cons,
      writeAll_append]

theorem decodeMany_end {K : Code} (h : EndsWell K) {R : BitRead σ} {Rep : σ → List Bool → Prop} (hR : LawfulSource R Rep)
    (k : Nat) {s : σ} (hs : Rep s []) :
    ∃ s', decodeMany K R k s = .ok (.ok (List.replicate k none), s') ∧ Rep s' [] := by
  induction k generalizing s with
  | zero => exact ⟨s, rfl, hs⟩
  | succ k ih =>
    obtain ⟨s1, h1, h2⟩ := hR.none hs
    have h3 := h R s (by rw [h1]; intro b s; simp)
    rw [h1, stopWith_none] at h3
    obtain ⟨s2, h4, h5⟩ := ih h2
    refine ⟨s2, ?_, h5⟩
    rw [decodeMany, SM.bind_run_ok h3, SM.bind_run_ok h4]
    rfl

theorem decodeMany_words {K : Code} {D : Nat → Prop} {word : Nat → List Bool} (hd : DecodesBy K D word) (he : EndsWell K)
    {R : BitRead σ} {Rep : σ → List Bool → Prop} (hR : LawfulSource R Rep) (vs : List Nat) (hv : ∀ v ∈ vs, D v) (k : Nat)
    {s : σ} (hs : Rep s (vs.flatMap word)) :
    ∃ s', decodeMany K R (vs.length + k) s = .ok (.ok (vs.map some ++ List.replicate k none), s') ∧ Rep s' [] := by
  induction vs generalizing s with
  | nil =>
    rw [List.length_nil, Nat.zero_add]
    exact decodeMany_end he hR k hs
  | cons v vs ih =>
    rw [List.flatMap_cons] at hs
    obtain ⟨s1, h1, h2⟩ := hR.reads _ hs
    obtain ⟨s2, h3, h4⟩ := ih (fun x hx => hv x (List.mem_cons_of_mem _ hx)) h2
    refine ⟨s2, ?_, h4⟩
    rw [List.length_cons, show vs.length + 1 + k = vs.length + k + 1 by omega, decodeMany,
      SM.bind_run_ok (hd v (hv v List.mem_cons_self) R s s1 h1), SM.bind_run_ok h3]
    rfl

theorem deque_reads (a rest : List Bool) : Reads dequeRead (a ++ rest) a rest := by
  induction a with
  | nil => exact .nil rest
  | cons b a ih => exact .cons rfl ih

theorem deque_noBit : NoBit (dequeRead.readBit []) := by
  intro b s h
  cases h

theorem deque_writeAll (l bs : List Bool) : writeAll dequeWrite bs l = .ok (.ok (), l ++ bs) := by
  induction bs generalizing l with
  | nil => rw [List.append_nil]; rfl
  | cons b bs ih =>
    rw [writeAll]
    have : dequeWrite.writeBit b l = .ok (.ok (), l ++ [b]) := rfl
    rw [SM.bind_run_ok this, ih, List.append_assoc]
    rfl

theorem word_prefix_free {K : Code} {D : Nat → Prop} {word : Nat → List Bool} (h : DecodesBy K D word) {u v : Nat}
    (hu : D u) (hv : D v) (hp : word u <+: word v) : u = v := by
  obtain ⟨q, hq⟩ := hp
  have h1 := h u hu dequeRead _ _ (deque_reads (word u) q)
  have h2 := h v hv dequeRead _ _ (deque_reads (word v) [])
  rw [hq] at h1
  rw [List.append_nil, h1] at h2
  cases h2
  rfl

theorem word_ne_nil {K : Code} {D : Nat → Prop} {word : Nat → List Bool} (h : DecodesBy K D word) (he : EndsWell K) {v : Nat}
    (hv : D v) : word v ≠ [] := by
  intro h0
  have h1 := h v hv dequeRead [] [] (by rw [h0]; exact .nil _)
  rw [he dequeRead [] deque_noBit] at h1
  cases h1

theorem words_unambiguous {K : Code} {D : Nat → Prop} {word : Nat → List Bool} (h : DecodesBy K D word) (he : EndsWell K)
    {us vs : List Nat} (hu : ∀ u ∈ us, D u) (hv : ∀ v ∈ vs, D v) (e : us.flatMap word = vs.flatMap word) : us = vs := by
  induction us generalizing vs with
  | nil =>
    cases vs with
    | nil => rfl
    | cons v vs =>
      have := word_ne_nil h he (hv v List.mem_cons_self)
      rw [List.flatMap_nil, List.flatMap_cons] at e
      have := (List.append_eq_nil_iff.1 e.symm).1
      contradiction
  | cons u us ih =>
    cases vs with
    | nil =>
      have := word_ne_nil h he (hu u List.mem_cons_self)
      rw [List.flatMap_nil, List.flatMap_cons] at e
      have := (List.append_eq_nil_iff.1 e).1
      contradiction
    | cons v vs =>
      rw [List.flatMap_cons, List.flatMap_cons] at e
      have huv : u = v := by
        rcases List.append_eq_append_iff.1 e with ⟨a, ha, -⟩ | ⟨a, ha, -⟩
        · exact word_prefix_free h (hu u List.mem_cons_self) (hv v List.mem_cons_self) ⟨a, ha.symm⟩
        · exact (word_prefix_free h (hv v List.mem_cons_self) (hu u List.mem_cons_self) ⟨a, ha.symm⟩).symm
      subst huv
      rw [List.append_cancel_left_eq] at e
      rw [ih (fun x hx => hu x (List.mem_cons_of_mem _ hx)) (fun x hx => hv x (List.mem_cons_of_mem _ hx)) e]

/-! ### failing sinks -/

theorem writeAll_writes {W : BitWrite σ} {s s1 : σ} {p : List Bool} (h : Writes W s p s1) (q : List Bool) :
    writeAll W (p ++ q) s = writeAll W q s1 := by
  induction h with
  | nil s => rfl
  | cons h1 _ ih => rw [List.cons_append, writeAll, SM.bind_run_ok h1, ih]

/-- What writing a list of bits does: all bits are accepted, or the sink stops at some bit. -/
theorem writeAll_cases (W : BitWrite σ) (s : σ) (l : List Bool) :
    (∃ s', Writes W s l s') ∨ ∃ p b q s1, l = p ++ b :: q ∧ Writes W s p s1 ∧ ∀ s2, W.writeBit b s1 ≠ .ok (.ok (), s2) := by
  induction l generalizing s with
  | nil => exact .inl ⟨s, .nil s⟩
  | cons b l ih =>
    by_cases h : ∃ s1, W.writeBit b s = .ok (.ok (), s1)
    · obtain ⟨s1, h1⟩ := h
      rcases ih s1 with ⟨s', h2⟩ | ⟨p, b', q, s2, h2, h3, h4⟩
      · exact .inl ⟨s', .cons h1 h2⟩
      · exact .inr ⟨b :: p, b', q, s2, by rw [h2]; rfl, .cons h1 h3, h4⟩
    · exact .inr ⟨[], b, l, s, rfl, .nil s, fun s2 h2 => h ⟨s2, h2⟩⟩

end Succinct
