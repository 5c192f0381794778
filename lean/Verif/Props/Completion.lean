import Verif.Props.CodeOutcome
/-!
C130: when a decoder has run out of bits, is there any point in waiting for more? `Ok(None)` and `UnexpectedEof` are
the outcomes that more bits can change (C121); here it is determined when they can change to a value, and how many bits
that takes at most.
-/
namespace Succinct
open Spec

/-- The outcomes of running out of bits. -/
def Outcome.Waits (o : Outcome) : Prop := o = .nothing ∨ o = .eof

instance (o : Outcome) : Decidable o.Waits := by unfold Outcome.Waits; infer_instance

/-- At most `m` further bits make the stream decode to a value. -/
def CompletesIn (o : List Bool → Outcome) (bits : List Bool) (m : Nat) : Prop :=
  ∃ more, more.length ≤ m ∧ ∃ v rest, o (bits ++ more) = .value v rest

/-- No further bits make the stream decode to a value. -/
def Stuck (o : List Bool → Outcome) (bits : List Bool) : Prop :=
  ∀ more v rest, o (bits ++ more) ≠ .value v rest

/-- The number of zeros at the start. -/
def leadZeros (bits : List Bool) : Nat := (bits.takeWhile (fun b => !b)).length

/-! ### Unary -/

theorem zeros_or (bits : List Bool) : bits = List.replicate (leadZeros bits) false ∨
    ∃ r, bits = List.replicate (leadZeros bits) false ++ true :: r := by
  induction bits with
  | nil => exact .inl rfl
  | cons b bits ih =>
    cases b with
    | true => exact .inr ⟨bits, rfl⟩
    | false =>
      have e : leadZeros (false :: bits) = leadZeros bits + 1 := rfl
      rw [e, List.replicate_succ]
      rcases ih with h | ⟨r, h⟩
      · left; rw [← h]
      · right; exact ⟨r, by rw [List.cons_append, ← h]⟩

theorem unaryOut_zeros (z : Nat) : unaryOut (List.replicate z false) = if z = 0 then .nothing else .eof := by
  have h : (List.replicate z false).dropWhile (fun b => !b) = [] := by
    induction z with
    | zero => rfl
    | succ z ih => rw [List.replicate_succ]; exact ih
  rw [unaryOut, h]
  cases z <;> simp

theorem unaryOut_value (z : Nat) (r : List Bool) : unaryOut (List.replicate z false ++ true :: r) = .value z r := by
  have h : ∀ z, (List.replicate z false ++ true :: r).dropWhile (fun b => !b) = true :: r := by
    intro z
    induction z with
    | zero => rfl
    | succ z ih => rw [List.replicate_succ]; exact ih
  have h2 : (List.replicate z false ++ true :: r).takeWhile (fun b => !b) = List.replicate z false := by
    induction z with
    | zero => rfl
    | succ z ih =>
      rw [List.replicate_succ, List.cons_append, List.takeWhile_cons_of_pos rfl, ih]
  rw [unaryOut, h, h2, List.length_replicate]

theorem leadZeros_replicate (z : Nat) : leadZeros (List.replicate z false) = z := by
  rw [leadZeros]
  induction z with
  | zero => rfl
  | succ z ih => rw [List.replicate_succ, List.takeWhile_cons_of_pos rfl, List.length_cons, ih]

theorem leadZeros_one (z : Nat) (r : List Bool) : leadZeros (List.replicate z false ++ true :: r) = z := by
  rw [leadZeros]
  induction z with
  | zero => rfl
  | succ z ih => rw [List.replicate_succ, List.cons_append, List.takeWhile_cons_of_pos rfl, List.length_cons, ih]

theorem leadZeros_append (z : Nat) (q : List Bool) : z ≤ leadZeros (List.replicate z false ++ q) := by
  rw [leadZeros]
  induction z with
  | zero => exact Nat.zero_le _
  | succ z ih => rw [List.replicate_succ, List.cons_append, List.takeWhile_cons_of_pos rfl, List.length_cons]; omega

theorem zeros_append (a b : Nat) : List.replicate a false ++ List.replicate b false = List.replicate (a + b) false := by
  simp

/-- C130, `Unary`: one bit is always enough. -/
theorem C130_unary (c : Cfg) (bits : List Bool) (h : ((CodeName.unary).decOut c bits).Waits) :
    CompletesIn ((CodeName.unary).decOut c) bits 1 := by
  rcases zeros_or bits with e | ⟨r, e⟩
  · refine ⟨[true], by simp, leadZeros bits, [], ?_⟩
    have := unaryOut_value (leadZeros bits) []
    rw [← e] at this
    exact this
  · rw [e] at h
    have : (CodeName.unary).decOut c (List.replicate (leadZeros bits) false ++ true :: r) = .value (leadZeros bits) r :=
      unaryOut_value _ _
    rw [this] at h
    rcases h with h | h <;> cases h

/-! ### Gamma -/

theorem gammaOut_value {z : Nat} (hz : z ≤ 63) {r : List Bool} (hr : z ≤ r.length) :
    eliasOut (.value z r) = .value (2 ^ z + bitsVal (r.take z)) (r.drop z) := by
  rw [eliasOut, if_neg (by omega), if_neg (by omega)]

/-- C130, `GAMMA`: 64 bits are enough, unless the stream starts with 64 zeros; then no bits are. -/
theorem C130_gamma (c : Cfg) (bits : List Bool) (h : ((CodeName.elias .unary).decOut c bits).Waits) :
    if 64 ≤ leadZeros bits then Stuck ((CodeName.elias .unary).decOut c) bits
    else CompletesIn ((CodeName.elias .unary).decOut c) bits 64 := by
  have hd : ∀ l, (CodeName.elias .unary).decOut c l = eliasOut (unaryOut l) := fun _ => rfl
  rcases zeros_or bits with e | ⟨r, e⟩
  · by_cases hz : 64 ≤ leadZeros bits
    · rw [if_pos hz]
      intro more v rest hv
      rw [hd] at hv
      have h1 : leadZeros bits ≤ leadZeros (bits ++ more) := by
        have := leadZeros_append (leadZeros bits) more
        rwa [← e] at this
      rcases zeros_or (bits ++ more) with e2 | ⟨r, e2⟩
      · rw [e2, unaryOut_zeros] at hv
        split at hv <;> cases hv
      · rw [e2, unaryOut_value, eliasOut, if_pos (by omega)] at hv
        cases hv
    · rw [if_neg hz]
      refine ⟨true :: List.replicate (leadZeros bits) false, by simp; omega, ?_⟩
      rw [hd]
      have : bits ++ true :: List.replicate (leadZeros bits) false =
          List.replicate (leadZeros bits) false ++ true :: List.replicate (leadZeros bits) false := by rw [← e]
      rw [this, unaryOut_value, gammaOut_value (by omega) (by simp)]
      exact ⟨_, _, rfl⟩
  · have hu : unaryOut bits = .value (leadZeros bits) r := by
      have := unaryOut_value (leadZeros bits) r
      rwa [← e] at this
    rw [hd, hu, eliasOut] at h
    by_cases hz : 63 < leadZeros bits
    · rw [if_pos hz] at h; rcases h with h | h <;> cases h
    · rw [if_neg hz] at h
      rw [if_neg (by omega)]
      by_cases hr : r.length < leadZeros bits
      · refine ⟨List.replicate (leadZeros bits - r.length) false, by simp; omega, ?_⟩
        rw [hd]
        have : bits ++ List.replicate (leadZeros bits - r.length) false =
            List.replicate (leadZeros bits) false ++ true :: (r ++ List.replicate (leadZeros bits - r.length) false) := by
          rw [← List.cons_append, ← List.append_assoc, ← e]
        rw [this, unaryOut_value, gammaOut_value (by omega) (by simp; omega)]
        exact ⟨_, _, rfl⟩
      · rw [if_neg hr] at h; rcases h with h | h <;> cases h

/-! ### Delta -/

theorem bitsVal_zeros (z : Nat) : bitsVal (List.replicate z false) = 0 := by
  induction z with
  | zero => rfl
  | succ z ih => rw [List.replicate_succ, bitsVal, ih]; rfl

theorem bitsVal_pos {l : List Bool} (h : true ∈ l) : 1 ≤ bitsVal l := by
  induction l with
  | nil => cases h
  | cons b l ih =>
    rw [bitsVal]
    cases b with
    | true => simp only [Bool.toNat_true]; omega
    | false =>
      have := ih (by simpa using h)
      omega

theorem bitsVal_append_zeros (l : List Bool) (z : Nat) : bitsVal (l ++ List.replicate z false) = bitsVal l := by
  rw [bitsVal_append, bitsVal_zeros]
  omega

/-- What `DELTA` makes of a stream, by the zeros at its start. -/
theorem deltaOut_value (d : Bool) (z : Nat) (r : List Bool) :
    eliasOut (lift0Out d (eliasOut (unaryOut (List.replicate z false ++ true :: r)))) =
      if 63 < z then .invalid r
      else if r.length < z then .eof
      else eliasOut (.value (2 ^ z + bitsVal (r.take z) - 1) (r.drop z)) := by
  rw [unaryOut_value, eliasOut]
  split
  · rfl
  · split
    · rfl
    · have := Nat.two_pow_pos z
      obtain ⟨m, hm⟩ : ∃ m, 2 ^ z + bitsVal (r.take z) = m + 1 := ⟨2 ^ z + bitsVal (r.take z) - 1, by omega⟩
      rw [hm, lift0Out, Nat.add_sub_cancel]

/-- C130, `DELTA`: 70 bits are enough, unless the stream starts with 7 zeros, or with 6 zeros and a one and there is
another one among the next 6 bits (the length of the value is then above 63); then no bits are. -/
theorem C130_delta (c : Cfg) (bits : List Bool) :
    if 7 ≤ leadZeros bits ∨ leadZeros bits = 6 ∧ true ∈ (bits.drop 7).take 6
    then Stuck ((CodeName.elias (.lift0 (.elias .unary))).decOut c) bits
    else CompletesIn ((CodeName.elias (.lift0 (.elias .unary))).decOut c) bits 70 := by
  have hd : ∀ l, (CodeName.elias (.lift0 (.elias .unary))).decOut c l =
    eliasOut (lift0Out c.debug (eliasOut (unaryOut l))) := fun _ => rfl
  -- a header above 63 is invalid, or never complete
  have hbig : ∀ (z : Nat) (r : List Bool), (7 ≤ z ∨ z = 6 ∧ true ∈ r.take 6) → ∀ v rest,
      eliasOut (lift0Out c.debug (eliasOut (unaryOut (List.replicate z false ++ true :: r)))) ≠ .value v rest := by
    intro z r hz v rest hv
    rw [deltaOut_value] at hv
    split at hv
    · cases hv
    · split at hv
      · cases hv
      · have : 64 < 2 ^ z + bitsVal (r.take z) := by
          rcases hz with hz | ⟨rfl, hz⟩
          · have : 2 ^ 7 ≤ 2 ^ z := Nat.pow_le_pow_right (by omega) hz
            omega
          · have := bitsVal_pos hz
            omega
        rw [eliasOut, if_pos (by omega)] at hv
        cases hv
  have hsmall : ∀ (z : Nat) (r : List Bool), z ≤ 63 → z ≤ r.length → 2 ^ z + bitsVal (r.take z) ≤ 64 →
      2 ^ z + bitsVal (r.take z) - 1 ≤ (r.drop z).length →
      ∃ v rest, eliasOut (lift0Out c.debug (eliasOut (unaryOut (List.replicate z false ++ true :: r)))) = .value v rest := by
    intro z r h1 h2 h3 h4
    rw [deltaOut_value, if_neg (by omega), if_neg (by omega), gammaOut_value (by omega) h4]
    exact ⟨_, _, rfl⟩
  have hpow : ∀ z ≤ 6, 2 ^ z ≤ 64 := fun z hz => Nat.pow_le_pow_right (by omega) hz
  rcases zeros_or bits with e | ⟨r, e⟩
  · by_cases hz : 7 ≤ leadZeros bits
    · rw [if_pos (.inl hz)]
      intro more v rest hv
      rw [hd] at hv
      have h1 : leadZeros bits ≤ leadZeros (bits ++ more) := by
        have := leadZeros_append (leadZeros bits) more
        rwa [← e] at this
      rcases zeros_or (bits ++ more) with e2 | ⟨r, e2⟩
      · rw [e2, unaryOut_zeros] at hv
        split at hv <;> cases hv
      · rw [e2] at hv
        exact hbig _ _ (.inl (by omega)) v rest hv
    · rw [if_neg (by
        rintro (h1 | ⟨h1, h2⟩)
        · exact hz h1
        · rw [e, h1] at h2
          exact absurd h2 (by decide))]
      have := hpow (leadZeros bits) (by omega)
      refine ⟨true :: List.replicate (leadZeros bits + 63) false, by simp; omega, ?_⟩
      rw [hd]
      have : bits ++ true :: List.replicate (leadZeros bits + 63) false =
          List.replicate (leadZeros bits) false ++ true :: List.replicate (leadZeros bits + 63) false := by rw [← e]
      rw [this]
      have ht : (List.replicate (leadZeros bits + 63) false).take (leadZeros bits) = List.replicate (leadZeros bits) false := by
        rw [List.take_replicate, Nat.min_eq_left (by omega)]
      exact hsmall _ _ (by omega) (by simp) (by rw [ht, bitsVal_zeros]; omega) (by rw [ht, bitsVal_zeros]; simp; omega)
  · have hr6 : leadZeros bits = 6 → (bits.drop 7).take 6 = r.take 6 := by
      intro h6
      rw [e, h6]
      rfl
    by_cases hc : 7 ≤ leadZeros bits ∨ leadZeros bits = 6 ∧ true ∈ (bits.drop 7).take 6
    · rw [if_pos hc]
      intro more v rest hv
      rw [hd] at hv
      have : bits ++ more = List.replicate (leadZeros bits) false ++ true :: (r ++ more) := by
        rw [← List.cons_append, ← List.append_assoc, ← e]
      rw [this] at hv
      refine hbig _ _ ?_ v rest hv
      rcases hc with hc | ⟨h1, h2⟩
      · exact .inl hc
      · rw [hr6 h1] at h2
        refine .inr ⟨h1, ?_⟩
        rw [List.take_append]
        exact List.mem_append_left _ h2
    · rw [if_neg hc]
      have hz : leadZeros bits ≤ 6 := by omega
      have := hpow (leadZeros bits) hz
      refine ⟨List.replicate (leadZeros bits - r.length + 63) false, by simp; omega, ?_⟩
      rw [hd]
      have e2 : bits ++ List.replicate (leadZeros bits - r.length + 63) false =
          List.replicate (leadZeros bits) false ++ true :: (r ++ List.replicate (leadZeros bits - r.length + 63) false) := by
        rw [← List.cons_append, ← List.append_assoc, ← e]
      rw [e2]
      have hv : bitsVal ((r ++ List.replicate (leadZeros bits - r.length + 63) false).take (leadZeros bits)) = bitsVal (r.take (leadZeros bits)) := by
        rw [List.take_append, List.take_replicate, bitsVal_append_zeros]
      have hb : bitsVal (r.take (leadZeros bits)) < 2 ^ leadZeros bits := by
        refine Nat.lt_of_lt_of_le (bitsVal_lt _) (Nat.pow_le_pow_right (by omega) ?_)
        simp; omega
      have hle : 2 ^ leadZeros bits + bitsVal (r.take (leadZeros bits)) ≤ 64 := by
        by_cases h6 : leadZeros bits = 6
        · have hn : true ∉ r.take 6 := fun hm => hc (.inr ⟨h6, by rw [hr6 h6]; exact hm⟩)
          have : bitsVal (r.take 6) = 0 := by
            have : r.take 6 = List.replicate (r.take 6).length false := by
              rw [List.eq_replicate_iff]
              refine ⟨rfl, fun b hb => ?_⟩
              cases b with
              | false => rfl
              | true => exact absurd hb hn
            rw [this, bitsVal_zeros]
          rw [h6, this]
          decide
        · have : 2 ^ leadZeros bits ≤ 2 ^ 5 := Nat.pow_le_pow_right (by omega) (by omega)
          omega
      refine hsmall _ _ (by omega) (by simp; omega) (by rw [hv]; exact hle) ?_
      rw [hv]
      simp
      omega

/-! ### Fibonacci -/

theorem fibSplit_none {bits : List Bool} (h : fibSplit bits = none) : NoAdj bits := by
  induction bits with
  | nil => exact trivial
  | cons b bits ih =>
    cases b with
    | false =>
      have : fibSplit (false :: bits) = (fibSplit bits).map fun r => (false :: r.1, r.2) := rfl
      rw [this, Option.map_eq_none_iff] at h
      have := ih h
      cases bits <;> exact this
    | true =>
      cases bits with
      | nil => exact trivial
      | cons b' l => cases b' with
        | true => cases h
        | false =>
          have : fibSplit (true :: false :: l) = (fibSplit (false :: l)).map fun r => (true :: r.1, r.2) := rfl
          rw [this, Option.map_eq_none_iff] at h
          exact ih h

theorem fibOut_short {d : Bool} {z rest : List Bool} (hz : NoAdj z) (ht : z.getLast? = some true) (hl : z.length < 92) :
    fibOut d (z ++ true :: rest) = .value (fibSum 2 z) rest := by
  simp only [fibOut, fibSplit_some hz ht, hl, if_true]

/-- C130, `Fibonacci`: 2 bits are enough, unless 91 bits have come of which the last is a zero; then no bits are. -/
theorem C130_fibonacci (c : Cfg) (bits : List Bool) (h : ((CodeName.fibonacci).decOut c bits).Waits) :
    if bits.length = 91 ∧ bits.getLast? = some false then Stuck ((CodeName.fibonacci).decOut c) bits
    else CompletesIn ((CodeName.fibonacci).decOut c) bits 2 := by
  have hd : ∀ l, (CodeName.fibonacci).decOut c l = fibOut c.debug l := fun _ => rfl
  obtain ⟨hs, hl⟩ : fibSplit bits = none ∧ bits.length < 92 := by
    rw [hd] at h
    have hlong : ∀ (p : Prop) [Decidable p] r, ¬ (if p then Outcome.panics else .invalid r).Waits := by
      intro p _ r hw
      split at hw <;> rcases hw with hw | hw <;> cases hw
    cases hs : fibSplit bits with
    | some r =>
      simp only [fibOut, hs] at h
      split at h
      · rcases h with h | h <;> cases h
      · exact absurd h (hlong _ _)
    | none =>
      simp only [fibOut, hs] at h
      split at h
      · exact ⟨rfl, by assumption⟩
      · exact absurd h (hlong _ _)
  have hn := fibSplit_none hs
  by_cases hc : bits.length = 91 ∧ bits.getLast? = some false
  · rw [if_pos hc]
    intro more v rest hv
    rw [hd] at hv
    have hlong : ∀ (p : Prop) [Decidable p] r, (if p then Outcome.panics else .invalid r) ≠ .value v rest := by
      intro p _ r hw
      split at hw <;> cases hw
    cases hsp : fibSplit (bits ++ more) with
    | none =>
      simp only [fibOut, hsp] at hv
      split at hv
      · split at hv <;> cases hv
      · exact hlong _ _ hv
    | some r =>
      obtain ⟨z, rest'⟩ := r
      simp only [fibOut, hsp] at hv
      split at hv
      · rename_i hz
        obtain ⟨e, h1, h2⟩ := fibSplit_noAdj hsp
        rcases List.append_eq_append_iff.1 e with ⟨a, ha, hb⟩ | ⟨a, ha, hb⟩
        · -- the bits are a prefix of `z`, so they are `z`
          have : a = [] := by
            have := congrArg List.length ha
            rw [List.length_append] at this
            exact List.length_eq_zero_iff.1 (by omega)
          subst this
          rw [List.append_nil] at ha
          rw [ha, hc.2] at h2
          cases h2
        · cases a with
          | nil =>
            rw [List.append_nil] at ha
            rw [← ha, hc.2] at h2
            cases h2
          | cons b a =>
            rw [List.cons_append] at hb
            obtain ⟨rfl, hb⟩ := List.cons.inj hb
            rw [ha, fibSplit_some h1 h2] at hs
            cases hs
      · exact hlong _ _ hv
  · rw [if_neg hc]
    by_cases ht : bits.getLast? = some true
    · exact ⟨[true], by simp, _, _, fibOut_short hn ht (by omega)⟩
    · refine ⟨[true, true], by simp, ?_⟩
      have hlen : bits.length < 91 := by
        by_cases h91 : bits.length = 91
        · exfalso
          refine hc ⟨h91, ?_⟩
          cases hg : bits.getLast? with
          | none =>
            rw [List.getLast?_eq_none_iff] at hg
            rw [hg] at h91
            cases h91
          | some b => cases b with
            | false => rfl
            | true => exact absurd hg ht
        · omega
      have := fibOut_short (d := c.debug) (rest := []) (noAdj_snoc_true.2 ⟨hn, ht⟩) (by simp) (by simp; omega)
      rw [List.append_assoc] at this
      exact ⟨_, _, this⟩

/-! ### Comma -/

/-- The digits read so far, and the bits of a digit that is incomplete. -/
theorem commaSplit_parts (n b : Nat) (hn : 1 ≤ n) (bits : List Bool) {ds : List Nat} (h : commaSplit n b bits = (ds, none)) :
    ∃ p, p = bits.drop (n * ds.length) ∧ p.length < n ∧
      ∀ q, commaSplit n b (bits ++ q) = (ds ++ (commaSplit n b (p ++ q)).1, (commaSplit n b (p ++ q)).2) := by
  induction hk : bits.length using Nat.strongRecOn generalizing bits ds with
  | ind k ih =>
    by_cases hl : bits.length < n
    · rw [commaSplit, dif_pos (.inr hl)] at h
      cases h
      exact ⟨bits, by simp, hl, fun q => by simp⟩
    · rw [commaSplit, dif_neg (by omega)] at h
      by_cases hb : bitsVal (bits.take n) % 2 ^ 64 = b
      · rw [if_pos hb] at h
        cases h
      · rw [if_neg hb] at h
        obtain ⟨h1, h2⟩ := Prod.mk.inj h
        obtain ⟨p, hp, hpl, hq⟩ := ih (bits.drop n).length (by simp; omega) (bits.drop n) (ds := (commaSplit n b (bits.drop n)).1)
          (by rw [← h2]) rfl
        refine ⟨p, ?_, hpl, fun q => ?_⟩
        · rw [hp, ← h1, List.length_cons, List.drop_drop, Nat.mul_add, Nat.mul_one, Nat.add_comm]
        · rw [commaSplit, dif_neg (by simp; omega), List.take_append_of_le_length (by omega), if_neg hb,
            List.drop_append_of_le_length (by omega), hq q, ← h1]
          rfl

theorem commaFold_le (base : Nat) (hb : 1 ≤ base) (ds : List Nat) (v : Nat) : v ≤ ds.foldl (fun v d => v * base + d) v := by
  induction ds generalizing v with
  | nil => exact Nat.le_refl _
  | cons d ds ih =>
    refine Nat.le_trans ?_ (ih _)
    have := Nat.le_mul_of_pos_right v hb
    show v ≤ v * base + d
    omega

theorem bitsVal_ones (z : Nat) : bitsVal (List.replicate z true) = 2 ^ z - 1 := by
  induction z with
  | zero => rfl
  | succ z ih =>
    rw [List.replicate_succ, bitsVal, ih, Nat.pow_succ]
    have := Nat.two_pow_pos z
    simp only [Bool.toNat_true]
    omega

theorem bitsVal_not_ones {l : List Bool} (h : false ∈ l) : bitsVal l < 2 ^ l.length - 1 := by
  induction l with
  | nil => cases h
  | cons b l ih =>
    rw [bitsVal, List.length_cons, Nat.pow_succ]
    have hp := Nat.two_pow_pos l.length
    have hb := bitsVal_lt l
    cases b with
    | false => simp only [Bool.toNat_false]; omega
    | true =>
      have := ih (by simpa using h)
      simp only [Bool.toNat_true]
      omega

/-- C130, `Comma(n)`: fewer than two digits are enough. The exception: with overflow checks, a digit that is incomplete and
will not be the comma can already make the number too large. -/
theorem C130_comma (c : Cfg) (n : Nat) (bits : List Bool) (h : ((CodeName.comma n).decOut c bits).Waits)
    (ds : List Nat) (p : List Bool) (hds : ds = (commaSplit n (2 ^ (n % 64) - 1) bits).1) (hp : p = bits.drop (n * ds.length)) :
    if c.debug = true ∧ false ∈ p ∧ 2 ^ 64 ≤ ds.foldl (fun v d => v * (2 ^ (n % 64) - 1) + d) 0 * (2 ^ (n % 64) - 1) + bitsVal p
    then Stuck ((CodeName.comma n).decOut c) bits
    else CompletesIn ((CodeName.comma n).decOut c) bits (2 * n - 1) := by
  have hd : ∀ l, (CodeName.comma n).decOut c l = commaOut c.debug n l := fun _ => rfl
  by_cases h0 : n = 0
  · rw [hd, commaOut, if_pos h0] at h
    rcases h with h | h <;> cases h
  by_cases hw : c.debug = true ∧ 64 ≤ n
  · rw [hd, commaOut, if_neg h0, if_pos hw] at h
    rcases h with h | h <;> cases h
  have hout : ∀ l, commaOut c.debug n l =
      if c.debug = true ∧ 2 ^ 64 ≤ (commaSplit n (2 ^ (n % 64) - 1) l).1.foldl (fun v d => v * (2 ^ (n % 64) - 1) + d) 0 then .panics
      else match (commaSplit n (2 ^ (n % 64) - 1) l).2 with
        | some rest => .value ((commaSplit n (2 ^ (n % 64) - 1) l).1.foldl (fun v d => v * (2 ^ (n % 64) - 1) + d) 0 % 2 ^ 64) rest
        | none => if l = [] then .nothing else .eof := by
    intro l
    rw [commaOut, if_neg h0, if_neg hw]
    rfl
  generalize hbase : 2 ^ (n % 64) - 1 = base at *
  obtain ⟨hs, hsmall⟩ : commaSplit n base bits = (ds, none) ∧
      ¬ (c.debug = true ∧ 2 ^ 64 ≤ ds.foldl (fun v d => v * base + d) 0) := by
    rw [hd, hout, ← hds] at h
    split at h
    · rcases h with h | h <;> cases h
    · rename_i h1
      refine ⟨?_, h1⟩
      rw [hds]
      cases hs : (commaSplit n base bits).2 with
      | none => rw [← hs]
      | some r => rw [hs] at h; rcases h with h | h <;> cases h
  obtain ⟨p', hp', hpl, happ⟩ := commaSplit_parts n base (by omega) bits hs
  obtain rfl : p = p' := by rw [hp, hp']
  -- the comma
  have hcb : base < 2 ^ n ∧ base < 2 ^ 64 := by
    have h1 : 2 ^ (n % 64) ≤ 2 ^ n := Nat.pow_le_pow_right (by omega) (Nat.mod_le _ _)
    have h2 : 2 ^ (n % 64) ≤ 2 ^ 64 := Nat.pow_le_pow_right (by omega) (by omega)
    have := Nat.two_pow_pos (n % 64)
    omega
  have hcomma : ∀ g rest : List Bool, g.length = n → bitsVal g % 2 ^ 64 = base → commaSplit n base (g ++ rest) = ([], some rest) := by
    intro g rest hg hv
    rw [commaSplit, dif_neg (by simp; omega), List.take_append_of_le_length (by omega), List.take_of_length_le (by omega), if_pos hv,
      List.drop_append_of_le_length (by omega), List.drop_eq_nil_of_le (by omega), List.nil_append]
  have hdigit : ∀ g rest : List Bool, g.length = n → bitsVal g % 2 ^ 64 ≠ base → commaSplit n base (g ++ rest) =
      (bitsVal g % 2 ^ 64 :: (commaSplit n base rest).1, (commaSplit n base rest).2) := by
    intro g rest hg hv
    rw [commaSplit, dif_neg (by simp; omega), List.take_append_of_le_length (by omega), List.take_of_length_le (by omega), if_neg hv,
      List.drop_append_of_le_length (by omega), List.drop_eq_nil_of_le (by omega), List.nil_append]
  have hval : ∀ q es rest, commaSplit n base (p ++ q) = (es, some rest) →
      ¬ (c.debug = true ∧ 2 ^ 64 ≤ (ds ++ es).foldl (fun v d => v * base + d) 0) →
      ∃ v rest, commaOut c.debug n (bits ++ q) = .value v rest := by
    intro q es rest h1 h2
    rw [hout, happ q, h1]
    simp only
    rw [if_neg h2]
    exact ⟨_, _, rfl⟩
  have hdeb : c.debug = true → n < 64 ∧ base = 2 ^ n - 1 := by
    intro h1
    have hn64 : n < 64 := by
      by_cases h : 64 ≤ n
      · exact absurd ⟨h1, h⟩ hw
      · omega
    exact ⟨hn64, by rw [← hbase, Nat.mod_eq_of_lt hn64]⟩
  by_cases hst : c.debug = true ∧ false ∈ p ∧ 2 ^ 64 ≤ ds.foldl (fun v d => v * base + d) 0 * base + bitsVal p
  · obtain ⟨h1, hfalse, h3⟩ := hst
    have hov : c.debug = true ∧ 2 ^ 64 ≤ ds.foldl (fun v d => v * base + d) 0 * base + bitsVal p := ⟨h1, h3⟩
    rw [if_pos ⟨h1, hfalse, h3⟩]
    intro more v rest hv
    rw [hd, hout, happ more] at hv
    obtain ⟨hn64, hb1⟩ := hdeb h1
    by_cases hlen : (p ++ more).length < n
    · rw [commaSplit, dif_pos (.inr hlen)] at hv
      simp only at hv
      split at hv
      · cases hv
      · split at hv <;> cases hv
    · -- the digit is complete, and it is not the comma
      rw [List.length_append] at hlen
      have hg : (p ++ more.take (n - p.length)).length = n := by simp; omega
      have h2n : 2 ^ n ≤ 2 ^ 64 := Nat.pow_le_pow_right (by omega) (by omega)
      have hgv := bitsVal_not_ones (l := p ++ more.take (n - p.length)) (List.mem_append_left _ hfalse)
      rw [hg] at hgv
      have hmod : bitsVal (p ++ more.take (n - p.length)) % 2 ^ 64 = bitsVal (p ++ more.take (n - p.length)) :=
        Nat.mod_eq_of_lt (by omega)
      have e : p ++ more = (p ++ more.take (n - p.length)) ++ more.drop (n - p.length) := by
        rw [List.append_assoc, List.take_append_drop]
      rw [e, hdigit _ _ hg (by rw [hmod]; omega), hmod] at hv
      simp only [List.foldl_append, List.foldl_cons] at hv
      have hge : bitsVal p ≤ bitsVal (p ++ more.take (n - p.length)) := by rw [bitsVal_append]; omega
      have hb0 : 1 ≤ base := by
        have : 2 ^ 1 ≤ 2 ^ n := Nat.pow_le_pow_right (by omega) (by omega)
        omega
      have := commaFold_le base hb0 (commaSplit n base (more.drop (n - p.length))).1
        (ds.foldl (fun v d => v * base + d) 0 * base + bitsVal (p ++ more.take (n - p.length)))
      rw [if_pos ⟨hov.1, by omega⟩] at hv
      cases hv
  rw [if_neg hst]
  have hc := hcomma (natBits n base) [] (natBits_length _ _) (by
    rw [bitsVal_natBits, Nat.mod_eq_of_lt hcb.1, Nat.mod_eq_of_lt hcb.2])
  by_cases hp0 : p = []
  · refine ⟨natBits n base, by rw [natBits_length]; omega, ?_⟩
    refine hval _ [] [] ?_ (by rw [List.append_nil]; exact hsmall)
    rw [hp0, List.nil_append, ← hc, List.append_nil]
  have hp1 : 1 ≤ p.length := List.length_pos_iff.2 hp0
  rw [List.append_nil] at hc
  by_cases hov : c.debug = true ∧ 2 ^ 64 ≤ ds.foldl (fun v d => v * base + d) 0 * base + bitsVal p
  · -- only ones so far
    obtain ⟨hn64, hb1⟩ := hdeb hov.1
    have hones : p = List.replicate p.length true := by
      rw [List.eq_replicate_iff]
      refine ⟨rfl, fun b hb => ?_⟩
      cases b with
      | true => rfl
      | false => exact absurd ⟨hov.1, hb, hov.2⟩ hst
    refine ⟨List.replicate (n - p.length) true, by simp; omega, ?_⟩
    have h2n : 2 ^ n ≤ 2 ^ 64 := Nat.pow_le_pow_right (by omega) (by omega)
    have hg : p ++ List.replicate (n - p.length) true = List.replicate n true := by
      conv => lhs; lhs; rw [hones]
      rw [List.replicate_append_replicate]
      congr 1
      omega
    have := hcomma (List.replicate n true) [] (by simp) (by rw [bitsVal_ones, Nat.mod_eq_of_lt (by omega), hb1])
    rw [List.append_nil, ← hg] at this
    exact hval _ [] [] this (by rw [List.append_nil]; exact hsmall)
  · refine ⟨List.replicate (n - p.length) false ++ natBits n base, by simp; omega, ?_⟩
    have hg : (p ++ List.replicate (n - p.length) false).length = n := by simp; omega
    by_cases hz : bitsVal (p ++ List.replicate (n - p.length) false) % 2 ^ 64 = base
    · have := hcomma _ (natBits n base) hg hz
      rw [List.append_assoc] at this
      exact hval _ _ _ this (by rw [List.append_nil]; exact hsmall)
    · have := hdigit _ (natBits n base) hg hz
      rw [List.append_assoc, hc] at this
      refine hval _ _ _ this ?_
      rintro ⟨h1, h2⟩
      refine hov ⟨h1, ?_⟩
      rw [List.foldl_append, List.foldl_cons, List.foldl_nil, bitsVal_append_zeros] at h2
      have := Nat.mod_le (bitsVal p) (2 ^ 64)
      omega

/-! ### Omega -/

/-- A group of 64 or more bits has been announced: up to there the stream is the word of a number `r` of 64 or more, but with a
one instead of the zero that ends the word; the group is not complete. (The conversions of `r` to `u32` and `usize` are
those of the code.) -/
def OmegaLong (c : Cfg) (r0 : Nat) (bits : List Bool) : Prop :=
  ∃ (p : List Bool) (r : Nat) (rest : List Bool), bits = p ++ true :: rest ∧ omegaOut c r0 (p ++ [false]) = .value r [] ∧
    64 ≤ r % 2 ^ 32 ∧ rest.length < r % 2 ^ c.usz

/-- What is missing, `m` bits: the zero that ends the word; or, where a group of `r` bits has been announced and `rest` has come of it,
the rest of the group and then the zero. -/
def OmegaMissing (c : Cfg) (r0 : Nat) (bits : List Bool) (m : Nat) : Prop :=
  (∃ r, omegaOut c r0 (bits ++ [false]) = .value r [] ∧ m = 1) ∨
  ∃ (p : List Bool) (r : Nat) (rest : List Bool), bits = p ++ true :: rest ∧ omegaOut c r0 (p ++ [false]) = .value r [] ∧
    rest.length < r % 2 ^ c.usz ∧ m = r % 2 ^ c.usz - rest.length + 1

theorem omegaOut_group {c : Cfg} {r : Nat} {rest : List Bool} (hr : ¬ rest.length < r % 2 ^ c.usz) (hd : ¬ (c.debug = true ∧ 64 ≤ r % 2 ^ 32)) :
    omegaOut c r (true :: rest) =
      omegaOut c (bitsVal (rest.take (r % 2 ^ c.usz)).reverse % 2 ^ 64 ||| 2 ^ (r % 64)) (rest.drop (r % 2 ^ c.usz)) := by
  rw [omegaOut, if_neg hr, if_neg hd]

theorem omega_complete (c : Cfg) (r : Nat) (bits : List Bool) (h : (omegaOut c r bits).Waits) :
    (c.debug = true ∧ OmegaLong c r bits → Stuck (omegaOut c r) bits) ∧
    ∃ m, OmegaMissing c r bits m ∧ (¬ (c.debug = true ∧ OmegaLong c r bits) → CompletesIn (omegaOut c r) bits m) ∧
      ∀ more v rest, omegaOut c r (bits ++ more) = .value v rest → m ≤ more.length := by
  have hone : 1 ≤ 2 ^ c.usz := Nat.two_pow_pos _
  induction hk : bits.length using Nat.strongRecOn generalizing bits r with
  | ind k ih =>
    cases bits with
    | nil =>
      refine ⟨?_, 1, .inl ⟨r, by rw [List.nil_append, omegaOut], rfl⟩,
        fun _ => ⟨[false], by simp, r, [], by rw [List.nil_append, omegaOut]⟩, fun more v rest hv => ?_⟩
      · rintro ⟨-, p, r', rest, e, -⟩
        simp at e
      · cases more with
        | nil =>
          rw [List.nil_append, omegaOut] at hv
          split at hv <;> cases hv
        | cons b more => simp
    | cons b rest =>
      cases b with
      | false =>
        rw [omegaOut] at h
        rcases h with h | h <;> cases h
      | true =>
        by_cases hr : rest.length < r % 2 ^ c.usz
        · constructor
          · rintro ⟨hdb, p, r', rest', e, hv, h64, hl⟩
            cases p with
            | cons b p =>
              exfalso
              rw [List.cons_append] at e
              obtain ⟨rfl, e⟩ := List.cons.inj e
              rw [List.cons_append, omegaOut, if_pos] at hv
              · cases hv
              · have := congrArg List.length e
                simp at this ⊢
                omega
            | nil =>
              rw [List.nil_append, omegaOut] at hv
              cases hv
              intro more v rest2 hm
              rw [List.cons_append, omegaOut] at hm
              split at hm
              · cases hm
              · rw [if_pos ⟨hdb, h64⟩] at hm
                cases hm
          · refine ⟨r % 2 ^ c.usz - rest.length + 1, .inr ⟨[], r, rest, rfl, by rw [List.nil_append, omegaOut], hr, rfl⟩,
              fun hn => ?_, fun more v rest2 hv => ?_⟩
            rotate_left
            · rw [List.cons_append, omegaOut] at hv
              split at hv
              · cases hv
              · rename_i hl
                split at hv
                · cases hv
                · cases hd : (rest ++ more).drop (r % 2 ^ c.usz) with
                  | nil =>
                    rw [hd, omegaOut] at hv
                    split at hv <;> cases hv
                  | cons b t =>
                    have := congrArg List.length hd
                    simp at this
                    omega
            have hnd : ¬ (c.debug = true ∧ 64 ≤ r % 2 ^ 32) := by
              rintro ⟨h1, h2⟩
              exact hn ⟨h1, [], r, rest, rfl, by rw [List.nil_append, omegaOut], h2, hr⟩
            refine ⟨List.replicate (r % 2 ^ c.usz - rest.length) false ++ [false], by simp, ?_⟩
            rw [List.cons_append, omegaOut_group (by simp; omega) hnd, ← List.append_assoc,
              List.drop_append_of_le_length (by simp; omega), List.drop_eq_nil_of_le (by simp; omega), List.nil_append, omegaOut]
            exact ⟨_, _, rfl⟩
        · rw [omegaOut, if_neg hr] at h
          split at h
          · rcases h with h | h <;> cases h
          · rename_i hnd
            have hstep : ∀ more, omegaOut c r (true :: rest ++ more) =
                omegaOut c (bitsVal (rest.take (r % 2 ^ c.usz)).reverse % 2 ^ 64 ||| 2 ^ (r % 64)) (rest.drop (r % 2 ^ c.usz) ++ more) := by
              intro more
              rw [List.cons_append, omegaOut_group (by simp; omega) hnd, List.take_append_of_le_length (by omega),
                List.drop_append_of_le_length (by omega)]
            obtain ⟨h1, m, hmiss, h2, hlow⟩ := ih (rest.drop (r % 2 ^ c.usz)).length (by rw [← hk]; simp; omega) _ _ h rfl
            have hiff : OmegaLong c r (true :: rest) ↔
                OmegaLong c (bitsVal (rest.take (r % 2 ^ c.usz)).reverse % 2 ^ 64 ||| 2 ^ (r % 64)) (rest.drop (r % 2 ^ c.usz)) := by
              constructor
              · rintro ⟨p, r', rest', e, hv, h64, hl⟩
                cases p with
                | nil =>
                  rw [List.nil_append, omegaOut] at hv
                  cases hv
                  obtain ⟨-, e⟩ := List.cons.inj e
                  rw [e] at hr
                  exact absurd hl hr
                | cons b p =>
                  rw [List.cons_append] at e
                  obtain ⟨rfl, e2⟩ := List.cons.inj e
                  have hpl : r % 2 ^ c.usz ≤ p.length := by
                    by_cases hg : (p ++ [false]).length < r % 2 ^ c.usz
                    · rw [List.cons_append, omegaOut, if_pos hg] at hv
                      cases hv
                    · by_cases hg2 : r % 2 ^ c.usz ≤ p.length
                      · exact hg2
                      · exfalso
                        rw [List.cons_append, omegaOut_group hg hnd, List.drop_eq_nil_of_le (by simp; omega), omegaOut] at hv
                        split at hv <;> cases hv
                  refine ⟨p.drop (r % 2 ^ c.usz), r', rest', ?_, ?_, h64, hl⟩
                  · rw [e2, List.drop_append_of_le_length hpl]
                  · rw [← hv, List.cons_append, omegaOut_group (by simp; omega) hnd, List.take_append_of_le_length hpl,
                      List.drop_append_of_le_length hpl, e2, List.take_append_of_le_length hpl]
              · rintro ⟨p, r', rest', e, hv, h64, hl⟩
                refine ⟨true :: (rest.take (r % 2 ^ c.usz) ++ p), r', rest', ?_, ?_, h64, hl⟩
                · rw [List.cons_append, List.append_assoc, ← e, List.take_append_drop]
                · have htl : (rest.take (r % 2 ^ c.usz)).length = r % 2 ^ c.usz := by simp; omega
                  rw [List.cons_append, List.append_assoc, omegaOut_group (by rw [List.length_append]; omega) hnd,
                    List.take_append_of_le_length (by omega), List.take_of_length_le (by omega),
                    List.drop_append_of_le_length (by omega), List.drop_eq_nil_of_le (by omega), List.nil_append]
                  exact hv
            rw [hiff]
            constructor
            · intro hs more v rest2 hm
              rw [hstep] at hm
              exact h1 hs more v rest2 hm
            · refine ⟨m, ?_, fun hs => ?_, fun more v rest2 hm => hlow more v rest2 (by rw [← hstep, hm])⟩
              · rcases hmiss with ⟨r', hv, e⟩ | ⟨p, r', rest', e, hv, hl, e2⟩
                · exact .inl ⟨r', by rw [hstep, hv], e⟩
                · refine .inr ⟨true :: (rest.take (r % 2 ^ c.usz) ++ p), r', rest', ?_, ?_, hl, e2⟩
                  · rw [List.cons_append, List.append_assoc, ← e, List.take_append_drop]
                  · have htl : (rest.take (r % 2 ^ c.usz)).length = r % 2 ^ c.usz := by simp; omega
                    rw [List.cons_append, List.append_assoc, omegaOut_group (by rw [List.length_append]; omega) hnd,
                      List.take_append_of_le_length (by omega), List.take_of_length_le (by omega),
                      List.drop_append_of_le_length (by omega), List.drop_eq_nil_of_le (by omega), List.nil_append]
                    exact hv
              obtain ⟨more, h3, v, rest2, h4⟩ := h2 hs
              exact ⟨more, h3, v, rest2, by rw [hstep, h4]⟩

/-- C130, `Omega`: the rest of a group and one bit are enough, and no fewer bits are. The exception: with overflow checks, a group of
64 or more bits cannot be completed. -/
theorem C130_omega (c : Cfg) (bits : List Bool) (h : ((CodeName.omega).decOut c bits).Waits) :
    (c.debug = true ∧ OmegaLong c 1 bits → Stuck ((CodeName.omega).decOut c) bits) ∧
    ∃ m, OmegaMissing c 1 bits m ∧ (¬ (c.debug = true ∧ OmegaLong c 1 bits) → CompletesIn ((CodeName.omega).decOut c) bits m) ∧
      ∀ more v rest, (CodeName.omega).decOut c (bits ++ more) = .value v rest → m ≤ more.length :=
  omega_complete c 1 bits h

/-! ### Other headers -/

theorem commaSplit_more (n b : Nat) (bits : List Bool) {ds : List Nat} {rest : List Bool} (h : commaSplit n b bits = (ds, some rest))
    (q : List Bool) : commaSplit n b (bits ++ q) = (ds, some (rest ++ q)) := by
  induction hk : bits.length using Nat.strongRecOn generalizing bits ds with
  | ind k ih =>
    rw [commaSplit] at h
    split at h
    · cases h
    · rename_i hn
      rw [commaSplit, dif_neg (by simp; omega), List.take_append_of_le_length (by omega), List.drop_append_of_le_length (by omega)]
      split at h
      · rename_i hb
        cases h
        rw [if_pos hb]
      · rename_i hb
        obtain ⟨h1, h2⟩ := Prod.mk.inj h
        rw [if_neg hb, ih (bits.drop n).length (by simp; omega) (bits.drop n) (ds := (commaSplit n b (bits.drop n)).1) (by rw [← h2]) rfl,
          ← h1]

/-- Further bits do not change a value. -/
theorem decOut_more (c : Cfg) (k : CodeName) (p q : List Bool) {v : Nat} {rest : List Bool} (h : k.decOut c p = .value v rest) :
    k.decOut c (p ++ q) = .value v (rest ++ q) := by
  induction k generalizing v rest with
  | unary =>
    replace h : unaryOut p = _ := h
    show unaryOut (p ++ q) = _
    rcases zeros_or p with e | ⟨r, e⟩
    · rw [e, unaryOut_zeros] at h
      split at h <;> cases h
    · rw [e, unaryOut_value] at h
      cases h
      have := unaryOut_value (leadZeros p) (rest ++ q)
      rwa [← List.cons_append, ← List.append_assoc, ← e] at this
  | omega =>
    replace h : omegaOut c 1 p = _ := h
    show omegaOut c 1 (p ++ q) = _
    generalize 1 = r at h ⊢
    induction hk : p.length using Nat.strongRecOn generalizing p r with
    | ind k ih =>
      cases p with
      | nil =>
        rw [omegaOut] at h
        split at h <;> cases h
      | cons b p =>
        cases b with
        | false =>
          rw [omegaOut] at h
          cases h
          rw [List.cons_append, omegaOut]
        | true =>
          rw [omegaOut] at h
          split at h
          · cases h
          · rename_i hl
            split at h
            · cases h
            · rename_i hd
              rw [List.cons_append, omegaOut_group (by simp; omega) hd, List.take_append_of_le_length (by omega),
                List.drop_append_of_le_length (by omega)]
              exact ih _ (by rw [← hk]; simp; omega) _ _ h rfl
  | comma n =>
    replace h : commaOut c.debug n p = _ := h
    show commaOut c.debug n (p ++ q) = _
    rw [commaOut] at h ⊢
    split at h
    · rename_i h0
      cases h
      rw [if_pos h0]
    · rename_i h0
      rw [if_neg h0]
      split at h
      · cases h
      · rename_i hw
        rw [if_neg hw]
        simp only at h ⊢
        cases hs : (commaSplit n (2 ^ (n % 64) - 1) p).2 with
        | none =>
          rw [hs] at h
          split at h
          · cases h
          · simp only at h
            split at h <;> cases h
        | some r =>
          have := commaSplit_more n (2 ^ (n % 64) - 1) p (ds := (commaSplit n (2 ^ (n % 64) - 1) p).1) (rest := r) (by rw [← hs]) q
          rw [this]
          rw [hs] at h
          split at h
          · cases h
          · rename_i hd
            simp only at h ⊢
            rw [if_neg hd]
            cases h
            rfl
  | fibonacci =>
    replace h : fibOut c.debug p = _ := h
    show fibOut c.debug (p ++ q) = _
    have hlong : ∀ (P : Prop) [Decidable P] r, (if P then Outcome.panics else .invalid r) ≠ .value v rest := by
      intro P _ r hw
      split at hw <;> cases hw
    cases hs : fibSplit p with
    | none =>
      simp only [fibOut, hs] at h
      split at h
      · split at h <;> cases h
      · exact absurd h (hlong _ _)
    | some r =>
      obtain ⟨z, r⟩ := r
      simp only [fibOut, hs] at h
      split at h
      · rename_i hz
        obtain ⟨e, h1, h2⟩ := fibSplit_noAdj hs
        cases h
        rw [e, List.append_assoc, List.cons_append, fibOut_short h1 h2 hz]
      · exact absurd h (hlong _ _)
  | elias k ih =>
    replace h : eliasOut (k.decOut c p) = _ := h
    show eliasOut (k.decOut c (p ++ q)) = _
    cases hk : k.decOut c p with
    | value n r =>
      rw [hk, eliasOut] at h
      rw [ih hk, eliasOut]
      split at h
      · cases h
      · rename_i hn
        split at h
        · cases h
        · rename_i hr
          cases h
          rw [if_neg hn, if_neg (by simp; omega), List.take_append_of_le_length (by omega), List.drop_append_of_le_length (by omega)]
    | nothing => rw [hk] at h; cases h
    | eof => rw [hk] at h; cases h
    | invalid r => rw [hk] at h; cases h
    | panics => rw [hk] at h; cases h
  | lift0 k ih =>
    replace h : lift0Out c.debug (k.decOut c p) = _ := h
    show lift0Out c.debug (k.decOut c (p ++ q)) = _
    cases hk : k.decOut c p with
    | value n r =>
      rw [ih hk]
      rw [hk] at h
      cases n with
      | zero =>
        rw [lift0Out] at h ⊢
        split at h
        · cases h
        · rename_i hd
          cases h
          rw [if_neg hd]
      | succ n =>
        rw [lift0Out] at h ⊢
        cases h
        rfl
    | nothing => rw [hk] at h; cases h
    | eof => rw [hk] at h; cases h
    | invalid r => rw [hk] at h; cases h
    | panics => rw [hk] at h; cases h

/-- C130, `Elias` over any code: while the header is incomplete, the stream can be completed exactly if the header can be
completed to a number below 64. -/
theorem C130_elias (c : Cfg) (k : CodeName) (bits : List Bool) :
    (∃ m, CompletesIn ((CodeName.elias k).decOut c) bits m) ↔ ∃ more n rest, n < 64 ∧ k.decOut c (bits ++ more) = .value n rest := by
  have hd : ∀ l, (CodeName.elias k).decOut c l = eliasOut (k.decOut c l) := fun _ => rfl
  constructor
  · rintro ⟨m, more, -, v, rest, hv⟩
    rw [hd] at hv
    cases hk : k.decOut c (bits ++ more) with
    | value n r =>
      rw [hk, eliasOut] at hv
      split at hv
      · cases hv
      · exact ⟨more, n, r, by omega, hk⟩
    | nothing => rw [hk] at hv; cases hv
    | eof => rw [hk] at hv; cases hv
    | invalid r => rw [hk] at hv; cases hv
    | panics => rw [hk] at hv; cases hv
  · rintro ⟨more, n, rest, hn, hv⟩
    refine ⟨_, more ++ List.replicate n false, Nat.le_refl _, ?_⟩
    rw [hd, ← List.append_assoc, decOut_more _ _ _ _ hv, gammaOut_value (by omega) (by simp)]
    exact ⟨_, _, rfl⟩

/-- C130, `Elias` over any code, the header being complete: the missing bits are enough, at most 63. -/
theorem C130_elias_header (c : Cfg) (k : CodeName) (bits : List Bool) {n : Nat} {r : List Bool} (hk : k.decOut c bits = .value n r)
    (h : ((CodeName.elias k).decOut c bits).Waits) : CompletesIn ((CodeName.elias k).decOut c) bits (n - r.length) ∧ n - r.length ≤ 63 := by
  have hd : ∀ l, (CodeName.elias k).decOut c l = eliasOut (k.decOut c l) := fun _ => rfl
  have hn : n ≤ 63 := by
    rw [hd, hk, eliasOut] at h
    split at h
    · rcases h with h | h <;> cases h
    · omega
  refine ⟨⟨List.replicate (n - r.length) false, by simp, ?_⟩, by omega⟩
  rw [hd, decOut_more _ _ _ _ hk, gammaOut_value hn (by simp; omega)]
  exact ⟨_, _, rfl⟩

/-- C130, `Lift0` over any code: exactly if the code can be completed, to a number other than 0 if overflow is checked. -/
theorem C130_lift0 (c : Cfg) (k : CodeName) (bits : List Bool) (m : Nat) :
    CompletesIn ((CodeName.lift0 k).decOut c) bits m ↔
      ∃ more n rest, more.length ≤ m ∧ (c.debug = true → n ≠ 0) ∧ k.decOut c (bits ++ more) = .value n rest := by
  have hd : ∀ l, (CodeName.lift0 k).decOut c l = lift0Out c.debug (k.decOut c l) := fun _ => rfl
  constructor
  · rintro ⟨more, hm, v, rest, hv⟩
    rw [hd] at hv
    cases hk : k.decOut c (bits ++ more) with
    | value n r =>
      refine ⟨more, n, r, hm, ?_, hk⟩
      rintro hdb rfl
      rw [hk, lift0Out, if_pos hdb] at hv
      cases hv
    | nothing => rw [hk] at hv; cases hv
    | eof => rw [hk] at hv; cases hv
    | invalid r => rw [hk] at hv; cases hv
    | panics => rw [hk] at hv; cases hv
  · rintro ⟨more, n, rest, hm, hn, hv⟩
    refine ⟨more, hm, ?_⟩
    rw [hd, hv]
    cases n with
    | zero =>
      rw [lift0Out, if_neg (fun h => hn h rfl)]
      exact ⟨_, _, rfl⟩
    | succ n => exact ⟨_, _, rfl⟩

/-! ### The decoders -/

/-- C130: what this means for the decoders. If a stream can be completed then there are bits with which every source holding the
stream and these bits makes the decoder return a value; if it is stuck then no source does, whatever (fewer than 2^64) bits follow. -/
theorem C130_decoders (c : Cfg) (k : CodeName) (bits : List Bool) :
    (∀ m, CompletesIn (k.decOut c) bits m → bits.length + m < 2 ^ 64 →
      ∃ more v rest, more.length ≤ m ∧ Yields (k.code c) (bits ++ more) (.value v rest)) ∧
    (Stuck (k.decOut c) bits → ∀ more, (bits ++ more).length < 2 ^ 64 → ∀ {σ : Type} (R : BitRead σ) (Rep : σ → List Bool → Prop),
      LawfulSource R Rep → ∀ s, Rep s (bits ++ more) → ∀ v s', (k.code c).decode R s ≠ .ok (.ok (some v), s')) := by
  constructor
  · rintro m ⟨more, h1, v, rest, h2⟩ hl
    refine ⟨more, v, rest, h1, ?_⟩
    rw [← h2]
    exact C106_all c k _ (by rw [List.length_append]; omega)
  · intro hs more hl σ R Rep hR s hrep v s' hv
    have h1 := C106_all c k _ hl σ R Rep hR s hrep
    have h2 := hs more
    cases ho : k.decOut c (bits ++ more) with
    | value n r => exact h2 n r ho
    | nothing => rw [ho] at h1; obtain ⟨_, h3, -⟩ := h1; rw [h3] at hv; cases hv
    | eof => rw [ho] at h1; obtain ⟨_, h3, -⟩ := h1; rw [h3] at hv; cases hv
    | invalid r => rw [ho] at h1; obtain ⟨_, h3, -⟩ := h1; rw [h3] at hv; cases hv
    | panics => rw [ho] at h1; rw [h1] at hv; cases hv

/-- `GAMMA` waits for ever after 64 zeros, `DELTA` after 7; `Fibonacci` waits in vain after 91 bits. -/
example : Stuck ((CodeName.elias .unary).decOut ⟨true, .p64, true⟩) (List.replicate 64 false) ∧
    Stuck ((CodeName.elias (.lift0 (.elias .unary))).decOut ⟨false, .p64, false⟩) (List.replicate 7 false) ∧
    Stuck ((CodeName.fibonacci).decOut ⟨true, .p64, true⟩) (List.replicate 91 false) := by
  refine ⟨?_, ?_, ?_⟩
  · have := C130_gamma ⟨true, .p64, true⟩ (List.replicate 64 false) (by decide)
    rwa [if_pos (by decide)] at this
  · have := C130_delta ⟨false, .p64, false⟩ (List.replicate 7 false)
    rwa [if_pos (by decide)] at this
  · have := C130_fibonacci ⟨true, .p64, true⟩ (List.replicate 91 false) (by decide)
    rwa [if_pos (by decide)] at this

/-- But `GAMMA` can still return a value after 63 zeros, and `DELTA` after `000000` `1` `00000`. -/
example : CompletesIn ((CodeName.elias .unary).decOut ⟨true, .p64, true⟩) (List.replicate 63 false) 64 ∧
    CompletesIn ((CodeName.elias (.lift0 (.elias .unary))).decOut ⟨false, .p64, false⟩)
      (List.replicate 6 false ++ true :: List.replicate 5 false) 70 := by
  refine ⟨?_, ?_⟩
  · have := C130_gamma ⟨true, .p64, true⟩ (List.replicate 63 false) (by decide)
    rwa [if_neg (by decide)] at this
  · have := C130_delta ⟨false, .p64, false⟩ (List.replicate 6 false ++ true :: List.replicate 5 false)
    rwa [if_neg (by decide)] at this

/-- `Comma(63)` with overflow checks: after the digit 5 the next digit can only be the comma, and it has begun with a zero. -/
example : Stuck ((CodeName.comma 63).decOut ⟨true, .p64, true⟩) (natBits 63 5 ++ [false]) := by
  have hs : commaSplit 63 (2 ^ (63 % 64) - 1) (natBits 63 5 ++ [false]) = ([5], none) := by
    rw [commaSplit, dif_neg (by decide), if_neg (by decide)]
    simp only
    rw [commaSplit, dif_pos (by decide)]
    decide
  have hw : ((CodeName.comma 63).decOut ⟨true, .p64, true⟩ (natBits 63 5 ++ [false])).Waits := by
    show (commaOut true 63 _).Waits
    rw [commaOut, if_neg (by decide), if_neg (by decide)]
    simp only [hs]
    decide
  have := C130_comma ⟨true, .p64, true⟩ 63 (natBits 63 5 ++ [false]) hw [5] [false] (by rw [hs]) (by decide)
  rwa [if_pos (by decide)] at this

theorem omegaOut_step {c : Cfg} {r v : Nat} {g : List Bool} (hg : g.length = r % 2 ^ c.usz) (hd : ¬ (c.debug = true ∧ 64 ≤ r % 2 ^ 32))
    (hv : bitsVal g.reverse % 2 ^ 64 ||| 2 ^ (r % 64) = v) (t : List Bool) : omegaOut c r (true :: (g ++ t)) = omegaOut c v t := by
  rw [omegaOut_group (by rw [List.length_append]; omega) hd, List.take_append_of_le_length (by omega), List.take_of_length_le (by omega),
    List.drop_append_of_le_length (by omega), List.drop_eq_nil_of_le (by omega), List.nil_append, hv]

/-- `Omega` with overflow checks: the word of 64 with a one at its end announces a group of 64 bits. -/
example : Stuck ((CodeName.omega).decOut ⟨true, .p64, true⟩)
    [true, false, true, true, false, true, false, false, false, false, false, false, true] := by
  have h : ∀ b, omegaOut ⟨true, .p64, true⟩ 1 [true, false, true, true, false, true, false, false, false, false, false, false, b] =
      omegaOut ⟨true, .p64, true⟩ 64 [b] := by
    intro b
    have h1 := omegaOut_step (c := ⟨true, .p64, true⟩) (r := 1) (v := 2) (g := [false]) (by decide) (by decide) (by decide)
    have h2 := omegaOut_step (c := ⟨true, .p64, true⟩) (r := 2) (v := 6) (g := [true, false]) (by decide) (by decide) (by decide)
    have h3 := omegaOut_step (c := ⟨true, .p64, true⟩) (r := 6) (v := 64) (g := List.replicate 6 false) (by decide) (by decide) (by decide)
    exact (h1 _).trans ((h2 _).trans (h3 [b]))
  refine (C130_omega ⟨true, .p64, true⟩ _ ?_).1 ⟨rfl, [true, false, true, true, false, true, false, false, false, false, false, false], 64, [], rfl, ?_,
    by decide, by decide⟩
  · right
    show omegaOut _ _ _ = _
    rw [h, omegaOut, if_pos (by decide)]
  · exact (h false).trans (by rw [omegaOut])

/-! Each theorem of this file that has hypotheses is applied to concrete data in `Verif/Instances/Completion.lean`. -/

end Succinct
