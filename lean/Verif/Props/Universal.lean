import Verif.Props.CodeLengths
import Mathlib.Analysis.SpecialFunctions.Log.Base
import Mathlib.NumberTheory.Real.GoldenRatio
/-!
C132: the codes are universal codes. Of a sequence of values, `idealBits` is the number of values times the (empirical) entropy:
what the best code made for this very sequence could hope for.
-/
namespace Succinct
open Spec

/-- The number of values times their empirical entropy `∑ p log2 (1/p)`, written as a sum over the sequence: a value that makes up
the fraction `p` of the sequence has the ideal length `log2 (1/p)`. -/
noncomputable def Spec.idealBits (xs : List Nat) : ℝ := (xs.map fun x => Real.logb 2 (xs.length / xs.count x)).sum

/-- The values are positive and no value is more frequent than a smaller one. -/
def Spec.SmallIsFrequent (xs : List Nat) : Prop := (∀ x ∈ xs, 1 ≤ x) ∧ ∀ a b, 1 ≤ a → a ≤ b → xs.count b ≤ xs.count a

/-! ### What is written -/

theorem encodeAll_length (c : Cfg) (f : Bool) {K : Code} {D : Nat → Prop} {word : Nat → List Bool} (h : CodeOf c f K D word)
    (xs : List Nat) (hx : ∀ x ∈ xs, D x) {bits : List Bool} (hb : encodeAll K dequeWrite xs [] = .ok (.ok (), bits)) :
    bits.length = (xs.map fun x => (word x).length).sum := by
  rw [encodeAll_eq (C62_all c f h).encodes dequeWrite xs hx, deque_writeAll] at hb
  injection hb with hb
  injection hb with _ hb
  rw [← hb, List.nil_append, List.length_flatMap]

theorem encodeAll_ok (c : Cfg) (f : Bool) {K : Code} {D : Nat → Prop} {word : Nat → List Bool} (h : CodeOf c f K D word)
    (xs : List Nat) (hx : ∀ x ∈ xs, D x) : ∃ bits, encodeAll K dequeWrite xs [] = .ok (.ok (), bits) :=
  ⟨_, by rw [encodeAll_eq (C62_all c f h).encodes dequeWrite xs hx, deque_writeAll]⟩

/-! ### Lower bound -/

theorem kraft_real (c : Cfg) (f : Bool) {K : Code} {D : Nat → Prop} {word : Nat → List Bool} (h : CodeOf c f K D word)
    (T : Finset Nat) (hT : ∀ x ∈ T, D x) : ∑ v ∈ T, ((2 : ℝ) ^ (word v).length)⁻¹ ≤ 1 := by
  have hk := kraft (T.sup fun v => (word v).length) (T.toList.map word) ?_ ?_
  · rw [List.map_map] at hk
    have e : (T.toList.map ((fun l => 2 ^ (T.sup (fun v => (word v).length) - l.length)) ∘ word)).sum =
        ∑ v ∈ T, 2 ^ (T.sup (fun v => (word v).length) - (word v).length) := Finset.sum_map_toList _ _
    rw [e] at hk
    have hk' : (∑ v ∈ T, (2 : ℝ) ^ (T.sup (fun v => (word v).length) - (word v).length)) ≤ 2 ^ (T.sup fun v => (word v).length) := by
      exact_mod_cast hk
    have hpos : (0 : ℝ) < 2 ^ (T.sup fun v => (word v).length) := by positivity
    have : ∀ v ∈ T, (2 : ℝ) ^ (T.sup (fun v => (word v).length) - (word v).length) =
        2 ^ (T.sup fun v => (word v).length) * ((2 : ℝ) ^ (word v).length)⁻¹ := by
      intro v hv
      rw [pow_sub₀ _ (by norm_num) (Finset.le_sup (f := fun v => (word v).length) hv)]
    rw [Finset.sum_congr rfl this, ← Finset.mul_sum] at hk'
    exact le_of_mul_le_mul_left (by rwa [mul_one]) hpos
  · rw [List.pairwise_map]
    refine List.Pairwise.imp_of_mem ?_ T.nodup_toList
    intro u v hu hv hne
    rw [Finset.mem_toList] at hu hv
    exact ⟨fun hp => hne (C63_prefix_free c f h (hT u hu) (hT v hv) hp),
      fun hp => hne (C63_prefix_free c f h (hT v hv) (hT u hu) hp).symm⟩
  · intro w hw
    obtain ⟨v, hv, rfl⟩ := List.mem_map.1 hw
    exact Finset.le_sup (f := fun v => (word v).length) (Finset.mem_toList.1 hv)

/-- C132: no code writes fewer bits than the entropy of the sequence. -/
theorem C132_entropy_bound (c : Cfg) (f : Bool) {K : Code} {D : Nat → Prop} {word : Nat → List Bool} (h : CodeOf c f K D word)
    (xs : List Nat) (hx : ∀ x ∈ xs, D x) {bits : List Bool} (hb : encodeAll K dequeWrite xs [] = .ok (.ok (), bits)) :
    idealBits xs ≤ bits.length := by
  rw [encodeAll_length c f h xs hx hb, idealBits]
  have e : (((xs.map fun x => (word x).length).sum : Nat) : ℝ) = (xs.map fun x => ((word x).length : ℝ)).sum := by
    rw [Nat.cast_list_sum, List.map_map]
    rfl
  rw [e, Finset.sum_list_map_count, Finset.sum_list_map_count, ← sub_nonpos, ← Finset.sum_sub_distrib]
  have h2 : 0 < Real.log 2 := Real.log_pos (by norm_num)
  have step : ∀ v ∈ xs.toFinset, xs.count v • Real.logb 2 (xs.length / xs.count v) - xs.count v • ((word v).length : ℝ) ≤
      (xs.length * ((2 : ℝ) ^ (word v).length)⁻¹ - xs.count v) / Real.log 2 := by
    intro v hv
    have hc : (0 : ℝ) < xs.count v := by exact_mod_cast List.count_pos_iff.2 (List.mem_toFinset.1 hv)
    have hn : (0 : ℝ) < xs.length := by exact_mod_cast List.length_pos_of_mem (List.mem_toFinset.1 hv)
    have hl : ((word v).length : ℝ) = Real.logb 2 ((2 : ℝ) ^ (word v).length) := by
      rw [Real.logb_pow, Real.logb_self_eq_one (by norm_num), mul_one]
    rw [nsmul_eq_mul, nsmul_eq_mul, ← mul_sub]
    conv_lhs => rw [hl]
    rw [← Real.logb_div (by positivity) (by positivity), Real.logb, ← mul_div_assoc, div_le_div_iff_of_pos_right h2]
    have := Real.log_le_sub_one_of_pos (x := (xs.length : ℝ) / xs.count v / 2 ^ (word v).length) (by positivity)
    calc (xs.count v : ℝ) * Real.log ((xs.length : ℝ) / xs.count v / 2 ^ (word v).length)
        ≤ xs.count v * ((xs.length : ℝ) / xs.count v / 2 ^ (word v).length - 1) := by gcongr
      _ = _ := by field_simp
  refine (Finset.sum_le_sum step).trans ?_
  rw [← Finset.sum_div, Finset.sum_sub_distrib, ← Finset.mul_sum]
  have hn : ∑ v ∈ xs.toFinset, (xs.count v : ℝ) = xs.length := by
    exact_mod_cast List.sum_toFinset_count_eq_length xs
  rw [hn]
  refine div_nonpos_of_nonpos_of_nonneg ?_ h2.le
  have := kraft_real c f h xs.toFinset (fun x hx' => hx x (List.mem_toFinset.1 hx'))
  have hn0 : (0 : ℝ) ≤ xs.length := by positivity
  nlinarith

/-! ### Upper bounds -/

/-- The `x`-th most frequent value makes up at most the fraction `1/x`. -/
theorem count_mul_le {xs : List Nat} (h : SmallIsFrequent xs) (x : Nat) : x * xs.count x ≤ xs.length := by
  have h1 : ∑ a ∈ Finset.Icc 1 x, xs.count x ≤ ∑ a ∈ Finset.Icc 1 x, xs.count a := by
    refine Finset.sum_le_sum fun a ha => ?_
    rw [Finset.mem_Icc] at ha
    exact h.2 a x ha.1 ha.2
  have h2 : ∀ (T : Finset Nat) (ys : List Nat), ∑ a ∈ T, ys.count a ≤ ys.length := by
    intro T ys
    induction ys with
    | nil => simp
    | cons y ys ih =>
      simp only [List.count_cons, Finset.sum_add_distrib, List.length_cons, beq_iff_eq]
      rw [Finset.sum_ite_eq]
      split <;> omega
  have h3 := h2 (Finset.Icc 1 x) xs
  rw [Finset.sum_const, Nat.card_Icc, smul_eq_mul, Nat.add_sub_cancel] at h1
  exact h1.trans h3

theorem logb_le_ideal {xs : List Nat} (h : SmallIsFrequent xs) {x : Nat} (hx : x ∈ xs) :
    0 ≤ Real.logb 2 x ∧ Real.logb 2 x ≤ Real.logb 2 (xs.length / xs.count x) := by
  have hc : (0 : ℝ) < xs.count x := by exact_mod_cast List.count_pos_iff.2 hx
  have h1 : (1 : ℝ) ≤ x := by exact_mod_cast h.1 x hx
  refine ⟨Real.logb_nonneg (by norm_num) h1, Real.logb_le_logb_of_le (by norm_num) (by linarith) ?_⟩
  rw [le_div_iff₀ hc]
  exact_mod_cast count_mul_le h x

theorem sum_le_sum_of {xs : List Nat} {f g : Nat → ℝ} (h : ∀ x ∈ xs, f x ≤ g x) : (xs.map f).sum ≤ (xs.map g).sum :=
  List.sum_le_sum h

theorem idealBits_nonneg {xs : List Nat} : 0 ≤ idealBits xs := by
  refine List.sum_nonneg fun y hy => ?_
  obtain ⟨x, hx, rfl⟩ := List.mem_map.1 hy
  have hc : (0 : ℝ) < xs.count x := by exact_mod_cast List.count_pos_iff.2 hx
  refine Real.logb_nonneg (by norm_num) ?_
  rw [one_le_div hc]
  exact_mod_cast List.count_le_length

/-- A code whose words are linear in the logarithm. -/
theorem upper_linear {xs : List Nat} (h : SmallIsFrequent xs) {len : Nat → Nat} {a b : ℝ} (ha : 0 ≤ a)
    (hl : ∀ x ∈ xs, (len x : ℝ) ≤ a * Real.logb 2 x + b) : ((xs.map len).sum : Nat) ≤ a * idealBits xs + b * xs.length := by
  have e : (((xs.map len).sum : Nat) : ℝ) = (xs.map fun x => (len x : ℝ)).sum := by
    rw [Nat.cast_list_sum, List.map_map]
    rfl
  rw [e]
  refine (sum_le_sum_of (g := fun x => a * Real.logb 2 (xs.length / xs.count x) + b) fun x hx => ?_).trans (le_of_eq ?_)
  · have := mul_le_mul_of_nonneg_left (logb_le_ideal h hx).2 ha
    have := hl x hx
    linarith
  · rw [List.sum_map_add, List.sum_map_mul_left, List.map_const', List.sum_replicate, nsmul_eq_mul, idealBits, mul_comm b]

/-- A code whose words exceed the logarithm only by its logarithm. -/
theorem upper_loglog {xs : List Nat} (h : SmallIsFrequent xs) (h0 : xs ≠ []) {len : Nat → Nat} {a b : ℝ} (ha : 0 ≤ a)
    (hl : ∀ x ∈ xs, (len x : ℝ) ≤ Real.logb 2 x + a * Real.logb 2 (1 + Real.logb 2 x) + b) :
    ((xs.map len).sum : Nat) ≤ idealBits xs + (a * Real.logb 2 (1 + idealBits xs / xs.length) + b) * xs.length := by
  have e : (((xs.map len).sum : Nat) : ℝ) = (xs.map fun x => (len x : ℝ)).sum := by
    rw [Nat.cast_list_sum, List.map_map]
    rfl
  have hn : (0 : ℝ) < xs.length := by exact_mod_cast List.length_pos_iff.2 h0
  have h2 : 0 < Real.log 2 := Real.log_pos (by norm_num)
  have hm : 0 < 1 + idealBits xs / xs.length := by
    have := div_nonneg (idealBits_nonneg (xs := xs)) hn.le
    linarith
  generalize hM : 1 + idealBits xs / xs.length = m at hm
  rw [e]
  -- the tangent of the logarithm at `m`
  refine (sum_le_sum_of (g := fun x => Real.logb 2 (xs.length / xs.count x) +
      (a * ((1 + Real.logb 2 (xs.length / xs.count x)) / m - 1) / Real.log 2 + (a * Real.logb 2 m + b))) fun x hx => ?_).trans (le_of_eq ?_)
  · obtain ⟨h3, h4⟩ := logb_le_ideal h hx
    generalize Real.logb 2 (xs.length / xs.count x) = y at h4
    have h5 := hl x hx
    generalize Real.logb 2 (x : ℝ) = z at h3 h4 h5
    have h6 : Real.logb 2 (1 + z) ≤ Real.logb 2 m + ((1 + y) / m - 1) / Real.log 2 := by
      have h7 := Real.log_le_sub_one_of_pos (x := (1 + y) / m) (div_pos (by linarith) hm)
      have h8 : Real.logb 2 (1 + y) = Real.logb 2 m + Real.log ((1 + y) / m) / Real.log 2 := by
        rw [Real.log_div (by linarith) hm.ne', Real.logb, Real.logb]
        ring
      have h9 : Real.logb 2 (1 + z) ≤ Real.logb 2 (1 + y) := Real.logb_le_logb_of_le (by norm_num) (by linarith) (by linarith)
      have h10 := div_le_div_of_nonneg_right h7 h2.le
      linarith
    have h11 := mul_le_mul_of_nonneg_left h6 ha
    have : a * ((1 + y) / m - 1) / Real.log 2 = a * (((1 + y) / m - 1) / Real.log 2) := by ring
    rw [this]
    linarith
  · have e2 : ∀ y : ℝ, a * ((1 + y) / m - 1) / Real.log 2 = a / Real.log 2 / m * y + (a / Real.log 2 / m - a / Real.log 2) := by
      intro y; field_simp; ring
    simp only [e2]
    rw [List.sum_map_add, List.sum_map_add, List.sum_map_add, List.sum_map_mul_left, List.map_const', List.map_const', List.sum_replicate,
      List.sum_replicate, nsmul_eq_mul, nsmul_eq_mul, ← idealBits]
    have : idealBits xs = (m - 1) * xs.length := by rw [← hM]; field_simp; ring
    rw [this]
    field_simp
    ring

theorem log2_le_logb {v : Nat} (h : 1 ≤ v) : (v.log2 : ℝ) ≤ Real.logb 2 v := by
  rw [Real.le_logb_iff_rpow_le (by norm_num) (by exact_mod_cast h), Real.rpow_natCast]
  exact_mod_cast Nat.log2_self_le (by omega)

/-- C132, Gamma: at most twice the entropy, and a bit per value. -/
theorem C132_gamma (c : Cfg) (xs : List Nat) (h : SmallIsFrequent xs) (hx : ∀ x ∈ xs, x < 2 ^ 64) :
    ∃ bits, encodeAll (gamma c) dequeWrite xs [] = .ok (.ok (), bits) ∧ bits.length ≤ 2 * idealBits xs + 1 * xs.length := by
  have hc := (C62_gamma_delta c true).1
  have hD : ∀ x ∈ xs, Pos64 x := fun x hx' => ⟨h.1 x hx', hx x hx'⟩
  obtain ⟨bits, hb⟩ := encodeAll_ok c true hc xs hD
  refine ⟨bits, hb, ?_⟩
  rw [encodeAll_length c true hc xs hD hb]
  refine upper_linear h (by norm_num) fun x hx' => ?_
  have hl : (gammaWord x).length = 2 * x.log2 + 1 := by simp [gammaWord, eliasWord, unaryWord]; omega
  have := log2_le_logb (h.1 x hx')
  rw [hl]
  push_cast
  linarith

theorem deltaWord_length (x : Nat) : (deltaWord x).length = x.log2 + 2 * (x.log2 + 1).log2 + 1 := by
  rw [deltaWord, eliasWord, List.length_append, natBits_length]
  simp [gammaWord, eliasWord, unaryWord]
  omega

/-- C132, Delta is asymptotically optimal: with entropy `H` per value at most `H + 2 log2 (1 + H) + 1` bits per value. -/
theorem C132_delta (c : Cfg) (xs : List Nat) (h : SmallIsFrequent xs) (hx : ∀ x ∈ xs, x < 2 ^ 64) (h0 : xs ≠ []) :
    ∃ bits, encodeAll (delta c) dequeWrite xs [] = .ok (.ok (), bits) ∧
      bits.length ≤ idealBits xs + (2 * Real.logb 2 (1 + idealBits xs / xs.length) + 1) * xs.length := by
  have hc := (C62_gamma_delta c true).2
  have hD : ∀ x ∈ xs, Pos64 x := fun x hx' => ⟨h.1 x hx', hx x hx'⟩
  obtain ⟨bits, hb⟩ := encodeAll_ok c true hc xs hD
  refine ⟨bits, hb, ?_⟩
  rw [encodeAll_length c true hc xs hD hb]
  refine upper_loglog h h0 (by norm_num) fun x hx' => ?_
  have h1 := log2_le_logb (h.1 x hx')
  have h2 := log2_le_logb (v := x.log2 + 1) (by omega)
  have h3 : Real.logb 2 ((x.log2 + 1 : Nat) : ℝ) ≤ Real.logb 2 (1 + Real.logb 2 x) := by
    refine Real.logb_le_logb_of_le (by norm_num) (by positivity) ?_
    push_cast
    linarith
  rw [deltaWord_length]
  push_cast
  linarith

theorem omegaGroups_length (v : Nat) : (omegaGroups v).length = if v ≤ 1 then 0 else (omegaGroups v.log2).length + (v.log2 + 1) := by
  conv_lhs => rw [omegaGroups]
  split
  · rfl
  · simp

/-- The groups of Omega take at most 5/2 of the logarithm. -/
theorem omegaGroups_bound (v : Nat) (hv : 1 ≤ v) : 2 * (omegaGroups v).length ≤ 5 * v.log2 := by
  induction v using Nat.strongRecOn with
  | ind v ih =>
    rw [omegaGroups_length]
    split
    · omega
    · rename_i h1
      have hL : 1 ≤ v.log2 := (Nat.le_log2 (by omega)).2 (by omega)
      have hlt : v.log2 < v := (Nat.log2_lt (by omega)).2 Nat.lt_two_pow_self
      have h2 := ih v.log2 hlt hL
      generalize v.log2 = L at *
      have hself := Nat.log2_self_le (n := L) (by omega)
      -- a small logarithm is checked, a large one is much larger than its own logarithm
      rcases Nat.lt_or_ge L 4 with hlt | hge
      · have h3 : L = 1 ∨ L = 2 ∨ L = 3 := by omega
        have e1 : (omegaGroups 1).length = 0 := by rw [omegaGroups_length]; rfl
        have e2 : (omegaGroups 2).length = 2 := by
          rw [omegaGroups_length, if_neg (by omega), show (2 : Nat).log2 = 1 by decide +kernel, e1]
        have e3 : (omegaGroups 3).length = 2 := by
          rw [omegaGroups_length, if_neg (by omega), show (3 : Nat).log2 = 1 by decide +kernel, e1]
        rcases h3 with rfl | rfl | rfl
        · rw [e1]; omega
        · rw [e2]
        · rw [e3]; omega
      · have h4 : ∀ k, 2 ≤ k → 2 + 5 * k ≤ 3 * 2 ^ k := by
          intro k hk
          induction k, hk using Nat.le_induction with
          | base => decide
          | succ k _ ih => rw [Nat.pow_succ]; omega
        have h5 : 2 ≤ L.log2 := (Nat.le_log2 (by omega)).2 (by omega)
        have := h4 _ h5
        omega

/-- C132, Omega: at most 5/2 of the entropy, and a bit per value. -/
theorem C132_omega (c : Cfg) (xs : List Nat) (h : SmallIsFrequent xs) (hx : ∀ x ∈ xs, x < 2 ^ 64) :
    ∃ bits, encodeAll (omegaCode c) dequeWrite xs [] = .ok (.ok (), bits) ∧ bits.length ≤ 5 / 2 * idealBits xs + 1 * xs.length := by
  have hc : CodeOf c true (omegaCode c) Pos64 omegaWord := .omega
  have hD : ∀ x ∈ xs, Pos64 x := fun x hx' => ⟨h.1 x hx', hx x hx'⟩
  obtain ⟨bits, hb⟩ := encodeAll_ok c true hc xs hD
  refine ⟨bits, hb, ?_⟩
  rw [encodeAll_length c true hc xs hD hb]
  refine upper_linear h (by norm_num) fun x hx' => ?_
  have h1 := log2_le_logb (h.1 x hx')
  have h2 : (2 * (omegaGroups x).length : ℝ) ≤ 5 * x.log2 := by exact_mod_cast omegaGroups_bound x (h.1 x hx')
  rw [omegaWord, List.length_append, List.length_singleton]
  push_cast
  linarith

/-- C132, Omega is asymptotically optimal. -/
theorem C132_omega_optimal (c : Cfg) (xs : List Nat) (h : SmallIsFrequent xs) (hx : ∀ x ∈ xs, x < 2 ^ 64) (h0 : xs ≠ []) :
    ∃ bits, encodeAll (omegaCode c) dequeWrite xs [] = .ok (.ok (), bits) ∧
      bits.length ≤ idealBits xs + (5 / 2 * Real.logb 2 (1 + idealBits xs / xs.length) + 2) * xs.length := by
  have hc : CodeOf c true (omegaCode c) Pos64 omegaWord := .omega
  have hD : ∀ x ∈ xs, Pos64 x := fun x hx' => ⟨h.1 x hx', hx x hx'⟩
  obtain ⟨bits, hb⟩ := encodeAll_ok c true hc xs hD
  refine ⟨bits, hb, ?_⟩
  rw [encodeAll_length c true hc xs hD hb]
  refine upper_loglog h h0 (by norm_num) fun x hx' => ?_
  have h1 := log2_le_logb (h.1 x hx')
  have hx0 := (logb_le_ideal h hx').1
  have hy : 0 ≤ Real.logb 2 (1 + Real.logb 2 (x : ℝ)) := Real.logb_nonneg (by norm_num) (by linarith)
  rw [omegaWord, List.length_append, List.length_singleton, omegaGroups_length]
  split
  · push_cast
    linarith
  · have hL : 1 ≤ x.log2 := (Nat.le_log2 (by omega)).2 (by omega)
    have h2 : (2 * (omegaGroups x.log2).length : ℝ) ≤ 5 * x.log2.log2 := by exact_mod_cast omegaGroups_bound _ hL
    have h3 := log2_le_logb hL
    have h4 : Real.logb 2 (x.log2 : ℝ) ≤ Real.logb 2 (1 + Real.logb 2 x) :=
      Real.logb_le_logb_of_le (by norm_num) (by exact_mod_cast hL) (by linarith)
    push_cast
    linarith

/-- Fibonacci numbers grow like the powers of the golden ratio. -/
theorem goldenRatio_pow_le_fib (k : Nat) : Real.goldenRatio ^ k ≤ (fib (k + 2) : ℝ) := by
  induction k using Nat.strongRecOn with
  | ind k ih =>
    match k with
    | 0 => simp [fib]
    | 1 =>
      have := Real.goldenRatio_lt_two
      rw [pow_one, show fib (1 + 2) = 2 by decide]
      exact_mod_cast this.le
    | k + 2 =>
      rw [pow_add, Real.goldenRatio_sq, mul_add, mul_one, ← pow_succ, show fib (k + 2 + 2) = fib (k + 2) + fib (k + 1 + 2) from rfl]
      have h1 := ih k (by omega)
      have h2 := ih (k + 1) (by omega)
      push_cast
      linarith

/-- C132, Fibonacci: at most 1.44… (the logarithm of 2 to base φ) of the entropy, and 2 bits per value. -/
theorem C132_fibonacci (c : Cfg) (xs : List Nat) (h : SmallIsFrequent xs) (hx : ∀ x ∈ xs, x < fib 93) :
    ∃ bits, encodeAll (fibonacci c) dequeWrite xs [] = .ok (.ok (), bits) ∧
      bits.length ≤ Real.logb Real.goldenRatio 2 * idealBits xs + 2 * xs.length := by
  have hc : CodeOf c true (fibonacci c) FibDom fibWord := .fibonacci
  have hD : ∀ x ∈ xs, FibDom x := fun x hx' => ⟨h.1 x hx', hx x hx'⟩
  obtain ⟨bits, hb⟩ := encodeAll_ok c true hc xs hD
  refine ⟨bits, hb, ?_⟩
  rw [encodeAll_length c true hc xs hD hb]
  have hg := Real.one_lt_goldenRatio
  refine upper_linear h (Real.logb_nonneg hg (by norm_num)) fun x hx' => ?_
  have h1 := h.1 x hx'
  have hx0 : (0 : ℝ) < x := by exact_mod_cast h1
  rw [Real.mul_logb (by norm_num) (by norm_num) (by norm_num)]
  rw [fibWord, List.length_append, zeck_length, List.length_singleton]
  have hlow : (fibLen x : ℝ) - 1 ≤ Real.logb Real.goldenRatio x := by
    rcases (fibLen_spec x).2 with h0 | h2
    · have : 0 ≤ Real.logb Real.goldenRatio x := Real.logb_nonneg hg (by exact_mod_cast h1)
      rw [h0]
      push_cast
      linarith
    · rcases Nat.eq_zero_or_pos (fibLen x) with h0 | h0
      · have : 0 ≤ Real.logb Real.goldenRatio x := Real.logb_nonneg hg (by exact_mod_cast h1)
        rw [h0]
        push_cast
        linarith
      · have h3 := goldenRatio_pow_le_fib (fibLen x - 1)
        rw [show fibLen x - 1 + 2 = fibLen x + 1 by omega] at h3
        rw [Real.le_logb_iff_rpow_le hg hx0]
        have e : (fibLen x : ℝ) - 1 = ((fibLen x - 1 : Nat) : ℝ) := by rw [Nat.cast_sub h0]; simp
        rw [e, Real.rpow_natCast]
        exact h3.trans (by exact_mod_cast h2)
  push_cast
  linarith

/-- C132, `Comma(n)`: at most `n / log2 (2^n - 1)` of the entropy, and `2n` bits per value. -/
theorem C132_comma (c : Cfg) {n : Nat} (h2 : 2 ≤ n) (hn : n ≤ 63) (xs : List Nat) (h : SmallIsFrequent xs) (hx : ∀ x ∈ xs, x < 2 ^ 64) :
    ∃ bits, encodeAll (comma c n) dequeWrite xs [] = .ok (.ok (), bits) ∧
      bits.length ≤ n * Real.logb (2 ^ n - 1) 2 * idealBits xs + 2 * n * xs.length := by
  have hc : CodeOf c true (comma c n) (· < 2 ^ 64) (commaWord n) := .comma h2 hn
  obtain ⟨bits, hb⟩ := encodeAll_ok c true hc xs hx
  refine ⟨bits, hb, ?_⟩
  rw [encodeAll_length c true hc xs hx hb]
  have h4 : 2 ^ 2 ≤ 2 ^ n := Nat.pow_le_pow_right (by omega) h2
  have hbase : (1 : ℝ) < 2 ^ n - 1 := by
    have : ((2 ^ 2 : Nat) : ℝ) ≤ ((2 ^ n : Nat) : ℝ) := by exact_mod_cast h4
    push_cast at this
    linarith
  refine upper_linear h (mul_nonneg (by positivity) (Real.logb_nonneg hbase (by norm_num))) fun x hx' => ?_
  have h1 := h.1 x hx'
  have hx0 : (0 : ℝ) < x := by exact_mod_cast h1
  rw [mul_assoc, Real.mul_logb (by norm_num) (by norm_num) (by norm_num)]
  -- the number of digits
  have hd : ∀ v, 1 ≤ v → ∃ d, (digitsOf (2 ^ n - 1) v).length = d + 1 ∧ (2 ^ n - 1) ^ d ≤ v := by
    intro v hv
    induction v using Nat.strongRecOn with
    | ind v ih =>
      rw [digitsOf_pos (by omega) hv, List.length_append, List.length_singleton]
      rcases Nat.eq_zero_or_pos (v / (2 ^ n - 1)) with h0 | h0
      · exact ⟨0, by rw [h0, digitsOf_zero]; rfl, by simpa using hv⟩
      · obtain ⟨d, e1, e2⟩ := ih _ (Nat.div_lt_self hv (by omega)) h0
        refine ⟨d + 1, by rw [e1], ?_⟩
        rw [Nat.pow_succ]
        exact (Nat.le_div_iff_mul_le (by omega)).1 e2
  obtain ⟨d, e1, e2⟩ := hd x h1
  have hl : (commaWord n x).length = n * (d + 2) := by
    rw [commaWord, List.length_append, natBits_length, List.length_flatMap,
      show (fun a => (natBits n a).length) = fun _ => n from funext fun a => natBits_length n a, List.map_const', List.sum_replicate_nat, e1]
    ring
  have hlow : (d : ℝ) ≤ Real.logb (2 ^ n - 1) x := by
    rw [Real.le_logb_iff_rpow_le hbase hx0, Real.rpow_natCast]
    have : (((2 ^ n - 1) ^ d : Nat) : ℝ) ≤ x := by exact_mod_cast e2
    rw [Nat.cast_pow, Nat.cast_sub (Nat.one_le_two_pow)] at this
    push_cast at this
    exact this
  rw [hl]
  push_cast
  have hn0 : (0 : ℝ) ≤ n := by positivity
  nlinarith [mul_le_mul_of_nonneg_left hlow hn0]

/-- Unary is not universal: the values from 1 to `2^k`, each once, have entropy `k` bits, and Unary writes
`(2^k + 3) / 2` bits per value. -/
theorem C132_unary_counterexample (c : Cfg) (k : Nat) (hk : k ≤ 63) :
    SmallIsFrequent (List.range' 1 (2 ^ k)) ∧ idealBits (List.range' 1 (2 ^ k)) = 2 ^ k * k ∧
    ∃ bits, encodeAll (unary c) dequeWrite (List.range' 1 (2 ^ k)) [] = .ok (.ok (), bits) ∧ 2 * bits.length = 2 ^ k * (2 ^ k + 3) := by
  have hnd : (List.range' 1 (2 ^ k)).Nodup := List.nodup_range'
  have hcount : ∀ a, (List.range' 1 (2 ^ k)).count a = if 1 ≤ a ∧ a ≤ 2 ^ k then 1 else 0 := by
    intro a
    split
    · rename_i h
      exact List.count_eq_one_of_mem hnd (by rw [List.mem_range'_1]; omega)
    · rename_i h
      exact List.count_eq_zero.2 (by rw [List.mem_range'_1]; omega)
  refine ⟨⟨fun x hx => ?_, fun a b h1 h2 => ?_⟩, ?_, ?_⟩
  · rw [List.mem_range'_1] at hx
    exact hx.1
  · rw [hcount, hcount]
    split <;> split <;> omega
  · rw [idealBits, List.map_congr_left (g := fun _ => (k : ℝ))]
    · rw [List.map_const', List.sum_replicate, List.length_range', nsmul_eq_mul]
      push_cast
      rfl
    · intro x hx
      rw [List.mem_range'_1] at hx
      rw [hcount, if_pos (by omega), List.length_range']
      push_cast
      rw [div_one, Real.logb_pow, Real.logb_self_eq_one (by norm_num), mul_one]
  · have hc : CodeOf c true (unary c) (· < 2 ^ 64) unaryWord := .unary
    have hp := Nat.pow_le_pow_right (n := 2) (by omega) hk
    have hD : ∀ x ∈ List.range' 1 (2 ^ k), x < 2 ^ 64 := by
      intro x hx
      rw [List.mem_range'_1] at hx
      omega
    obtain ⟨bits, hb⟩ := encodeAll_ok c true hc _ hD
    refine ⟨bits, hb, ?_⟩
    rw [encodeAll_length c true hc _ hD hb]
    have hs : ∀ n, 2 * ((List.range' 1 n).map fun x => (unaryWord x).length).sum = n * (n + 3) := by
      intro n
      induction n with
      | zero => rfl
      | succ n ih =>
        rw [List.range'_1_concat, List.map_append, List.sum_append, Nat.mul_add, ih]
        simp [unaryWord]
        ring
    exact hs _

theorem idealBits_1123 : idealBits [1, 1, 2, 3] = 6 := by
  have h4 : Real.logb 2 4 = 2 := by
    rw [show (4 : ℝ) = 2 ^ 2 by norm_num, Real.logb_pow, Real.logb_self_eq_one (by norm_num)]
    norm_num
  have h2 : Real.logb 2 2 = 1 := Real.logb_self_eq_one (by norm_num)
  simp only [idealBits, List.map_cons, List.map_nil, List.sum_cons, List.sum_nil, List.length_cons, List.length_nil,
    show [1, 1, 2, 3].count 1 = 2 by decide, show [1, 1, 2, 3].count 2 = 1 by decide, show [1, 1, 2, 3].count 3 = 1 by decide]
  norm_num [h4, h2]

theorem small_1123 : SmallIsFrequent [1, 1, 2, 3] := by
  refine ⟨by decide, fun a b h1 h2 => ?_⟩
  simp only [List.count_cons, List.count_nil, beq_iff_eq]
  split_ifs <;> omega

/-- 1, 1, 2, 3 have entropy 1.5 bits, 6 bits together. Gamma writes 8 bits, which is between 6 and 16. -/
example (c : Cfg) : ∃ bits, encodeAll (gamma c) dequeWrite [1, 1, 2, 3] [] = .ok (.ok (), bits) ∧ bits.length = 8 ∧
    (6 : ℝ) ≤ bits.length ∧ (bits.length : ℝ) ≤ 2 * 6 + 1 * 4 := by
  obtain ⟨bits, hb, hl⟩ := C132_gamma c [1, 1, 2, 3] small_1123 (by decide)
  have hc := (C62_gamma_delta c true).1
  have hD : ∀ x ∈ [1, 1, 2, 3], Pos64 x := by decide
  have h1 := C132_entropy_bound c true hc [1, 1, 2, 3] hD hb
  have h2 := encodeAll_length c true hc [1, 1, 2, 3] hD hb
  rw [idealBits_1123] at hl h1
  refine ⟨bits, hb, by rw [h2]; decide +kernel, h1, ?_⟩
  simpa using hl

/-- The values from 1 to 1024: 10 bits of entropy each, and 513.5 bits each in Unary. -/
example (c : Cfg) : idealBits (List.range' 1 (2 ^ 10)) = 2 ^ 10 * (10 : Nat) ∧
    ∃ bits, encodeAll (unary c) dequeWrite (List.range' 1 (2 ^ 10)) [] = .ok (.ok (), bits) ∧ 2 * bits.length = 1024 * 1027 :=
  (C132_unary_counterexample c 10 (by decide)).2

/-! Each theorem of this file that has hypotheses is applied to concrete data in `Verif/Instances/Universal.lean`. -/

end Succinct
