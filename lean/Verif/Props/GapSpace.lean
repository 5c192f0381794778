import Verif.Props.Gaps
import Verif.Props.Universal
import Mathlib.Data.Finset.Powerset
/-!
How many bits a set of `n` integers below `U` takes as coded gaps (`Verif.Props.Gaps`), and how many any representation needs.
-/
namespace Succinct
open Spec

/-! ### Gaps -/

theorem gapsFrom_length (xs : List Nat) : ∀ next, (gapsFrom next xs).length = xs.length := by
  induction xs with
  | nil => intro _; rfl
  | cons x xs ih => intro _; rw [gapsFrom, List.length_cons, ih, List.length_cons]

theorem gapsFrom_sum (xs : List Nat) : ∀ {next U : Nat}, next ≤ U → xs.Pairwise (· < ·) → (∀ x ∈ xs, next ≤ x) → (∀ x ∈ xs, x < U) →
    next + ((gapsFrom next xs).map (· + 1)).sum ≤ U := by
  induction xs with
  | nil => intro next U h _ _ _; simpa [gapsFrom] using h
  | cons x xs ih =>
    intro next U _ hi h1 h2
    rw [List.pairwise_cons] at hi
    have h3 := ih (next := x + 1) (U := U) (h2 x (by simp)) hi.2 (fun y hy => hi.1 y hy) (fun y hy => h2 y (by simp [hy]))
    have h4 := h1 x (by simp)
    rw [gapsFrom, List.map_cons, List.sum_cons]
    omega

/-! ### Averages of logarithms -/

/-- The average of the logarithms is at most the logarithm of the average. -/
theorem sum_logb_le {ys : List Nat} {f : Nat → ℝ} {m : ℝ} (hm : 0 < m) (hf : ∀ y ∈ ys, 0 < f y) (hs : (ys.map f).sum ≤ m * ys.length) :
    (ys.map fun y => Real.logb 2 (f y)).sum ≤ Real.logb 2 m * ys.length := by
  have h2 : 0 < Real.log 2 := Real.log_pos (by norm_num)
  refine (sum_le_sum_of (g := fun y => (Real.log 2)⁻¹ * m⁻¹ * f y + (Real.logb 2 m - (Real.log 2)⁻¹)) fun y hy => ?_).trans ?_
  · have h3 := Real.log_le_sub_one_of_pos (x := f y / m) (div_pos (hf y hy) hm)
    rw [Real.log_div (hf y hy).ne' hm.ne'] at h3
    have h4 := div_le_div_of_nonneg_right h3 h2.le
    rw [Real.logb, Real.logb]
    have : (Real.log 2)⁻¹ * m⁻¹ * f y + (Real.log m / Real.log 2 - (Real.log 2)⁻¹) = (f y / m - 1) / Real.log 2 + Real.log m / Real.log 2 := by
      field_simp
      ring
    rw [this]
    have : (Real.log (f y) - Real.log m) / Real.log 2 = Real.log (f y) / Real.log 2 - Real.log m / Real.log 2 := by ring
    linarith
  · rw [List.sum_map_add, List.sum_map_mul_left, List.map_const', List.sum_replicate, nsmul_eq_mul]
    have h3 : (Real.log 2)⁻¹ * m⁻¹ * (ys.map f).sum ≤ (Real.log 2)⁻¹ * ys.length := by
      have := mul_le_mul_of_nonneg_left hs (a := (Real.log 2)⁻¹ * m⁻¹) (by positivity)
      refine this.trans (le_of_eq ?_)
      field_simp
    linarith [h3]

/-- What the gaps have in common: their number, and their logarithms. -/
theorem gaps_logb {xs : List Nat} {U : Nat} (hi : xs.Pairwise (· < ·)) (hU : ∀ x ∈ xs, x < U) (h0 : xs ≠ []) :
    (1 : ℝ) ≤ U / xs.length ∧
    ((gapsFrom 0 xs).map fun d => Real.logb 2 ((d + 1 : Nat) : ℝ)).sum ≤ Real.logb 2 (U / xs.length) * xs.length := by
  have hn : (0 : ℝ) < xs.length := by exact_mod_cast List.length_pos_iff.2 h0
  have h1 := gapsFrom_sum xs (Nat.zero_le U) hi (fun _ _ => Nat.zero_le _) hU
  rw [Nat.zero_add] at h1
  have h2 : xs.length ≤ U := by
    refine le_trans ?_ h1
    rw [← gapsFrom_length xs 0]
    generalize gapsFrom 0 xs = g
    induction g with
    | nil => simp
    | cons d g ih => simp only [List.length_cons, List.map_cons, List.sum_cons]; omega
  have h3 : (1 : ℝ) ≤ U / xs.length := by
    rw [le_div_iff₀ hn, one_mul]
    exact_mod_cast h2
  refine ⟨h3, ?_⟩
  have := sum_logb_le (ys := gapsFrom 0 xs) (f := fun d => ((d + 1 : Nat) : ℝ)) (m := U / xs.length) (by linarith)
    (fun d _ => by positivity) (by
      rw [gapsFrom_length, div_mul_cancel₀ _ hn.ne']
      have e : ((gapsFrom 0 xs).map fun d => ((d + 1 : Nat) : ℝ)).sum = ((((gapsFrom 0 xs).map (· + 1)).sum : Nat) : ℝ) := by
        rw [Nat.cast_list_sum, List.map_map]
        rfl
      rw [e]
      exact_mod_cast h1)
  rwa [gapsFrom_length] at this

theorem flatMap_length_cast (word : Nat → List Bool) (g : List Nat) :
    ((g.flatMap word).length : ℝ) = (g.map fun d => ((word d).length : ℝ)).sum := by
  rw [List.length_flatMap, Nat.cast_list_sum, List.map_map]
  rfl

/-- C162, Gamma (from 0 on): at most `2 log2 (U / n) + 1` bits per member of a set of `n` integers below `U`. -/
theorem C162_gamma (xs : List Nat) (U : Nat) (hi : xs.Pairwise (· < ·)) (hU : ∀ x ∈ xs, x < U) (h0 : xs ≠ []) :
    (((gapsFrom 0 xs).flatMap fun v => gammaWord (v + 1)).length : ℝ) ≤ (2 * Real.logb 2 (U / xs.length) + 1) * xs.length := by
  obtain ⟨-, h1⟩ := gaps_logb hi hU h0
  rw [flatMap_length_cast]
  refine (sum_le_sum_of (g := fun d => 2 * Real.logb 2 ((d + 1 : Nat) : ℝ) + 1) fun d _ => ?_).trans ?_
  · have hl : (gammaWord (d + 1)).length = 2 * (d + 1).log2 + 1 := by simp [gammaWord, eliasWord, unaryWord]; omega
    have := log2_le_logb (v := d + 1) (by omega)
    rw [hl]
    push_cast at this ⊢
    linarith
  · rw [List.sum_map_add, List.sum_map_mul_left, List.map_const', List.sum_replicate, nsmul_eq_mul, gapsFrom_length]
    linarith

/-- C162, Delta (from 0 on): at most `log2 (U / n) + 2 log2 (1 + log2 (U / n)) + 1` bits per member. -/
theorem C162_delta (xs : List Nat) (U : Nat) (hi : xs.Pairwise (· < ·)) (hU : ∀ x ∈ xs, x < U) (h0 : xs ≠ []) :
    (((gapsFrom 0 xs).flatMap fun v => deltaWord (v + 1)).length : ℝ) ≤
      (Real.logb 2 (U / xs.length) + 2 * Real.logb 2 (1 + Real.logb 2 (U / xs.length)) + 1) * xs.length := by
  obtain ⟨h3, h1⟩ := gaps_logb hi hU h0
  have hp : 0 ≤ Real.logb 2 (U / xs.length) := Real.logb_nonneg (by norm_num) h3
  have hn : ∀ d : Nat, 0 ≤ Real.logb 2 ((d + 1 : Nat) : ℝ) := fun d => Real.logb_nonneg (by norm_num) (by exact_mod_cast Nat.le_add_left 1 d)
  have h2 := sum_logb_le (ys := gapsFrom 0 xs) (f := fun d => 1 + Real.logb 2 ((d + 1 : Nat) : ℝ)) (m := 1 + Real.logb 2 (U / xs.length))
    (by linarith) (fun d _ => by linarith [hn d]) (by
      rw [List.sum_map_add, List.map_const', List.sum_replicate, nsmul_eq_mul, gapsFrom_length]
      linarith)
  rw [gapsFrom_length] at h2
  rw [flatMap_length_cast]
  refine (sum_le_sum_of (g := fun d => Real.logb 2 ((d + 1 : Nat) : ℝ) + (2 * Real.logb 2 (1 + Real.logb 2 ((d + 1 : Nat) : ℝ)) + 1))
    fun d _ => ?_).trans ?_
  · have e1 := log2_le_logb (v := d + 1) (by omega)
    have e2 := log2_le_logb (v := (d + 1).log2 + 1) (by omega)
    have e3 : Real.logb 2 (((d + 1).log2 + 1 : Nat) : ℝ) ≤ Real.logb 2 (1 + Real.logb 2 ((d + 1 : Nat) : ℝ)) := by
      refine Real.logb_le_logb_of_le (by norm_num) (by positivity) ?_
      rw [Nat.cast_add, Nat.cast_one]
      linarith
    rw [deltaWord_length]
    rw [Nat.cast_add, Nat.cast_add, Nat.cast_mul, Nat.cast_one, Nat.cast_ofNat]
    linarith
  · rw [List.sum_map_add, List.sum_map_add, List.sum_map_mul_left, List.map_const', List.sum_replicate, nsmul_eq_mul, gapsFrom_length]
    linarith

/-! ### What any representation needs -/

/-- A bit string as the number with these digits after a leading one. -/
private def strNat : List Bool → Nat
  | [] => 1
  | b :: l => 2 * strNat l + b.toNat

private theorem strNat_pos (l : List Bool) : 0 < strNat l := by
  induction l with
  | nil => decide
  | cons b l ih => rw [strNat]; omega

private theorem strNat_lt (l : List Bool) : strNat l < 2 ^ (l.length + 1) := by
  induction l with
  | nil => decide
  | cons b l ih =>
    have : b.toNat ≤ 1 := Bool.toNat_le b
    rw [strNat, List.length_cons, pow_succ]
    omega

private theorem strNat_inj : ∀ {l l' : List Bool}, strNat l = strNat l' → l = l'
  | [], [], _ => rfl
  | [], b :: l, h => by have := strNat_pos l; simp only [strNat] at h; omega
  | b :: l, [], h => by have := strNat_pos l; simp only [strNat] at h; omega
  | b :: l, b' :: l', h => by
    have h1 : b.toNat ≤ 1 := Bool.toNat_le b
    have h2 : b'.toNat ≤ 1 := Bool.toNat_le b'
    simp only [strNat] at h
    have h3 : l = l' := strNat_inj (by omega)
    have h4 : b.toNat = b'.toNat := by omega
    rw [h3]
    revert h4
    cases b <;> cases b' <;> simp

/-- There are at least `(U / n) ^ n` sets of `n` integers below `U`. -/
theorem pow_le_choose_mul (U n : Nat) (h : n ≤ U) : U ^ n ≤ U.choose n * n ^ n := by
  induction n generalizing U with
  | zero => simp
  | succ n ih =>
    obtain ⟨V, rfl⟩ : ∃ V, U = V + 1 := ⟨U - 1, by omega⟩
    have h1 := ih V (by omega)
    have h2 : (V + 1) * V.choose n = (V + 1).choose (n + 1) * (n + 1) := Nat.add_one_mul_choose_eq V n
    rcases Nat.eq_zero_or_pos n with rfl | hn
    · simp
    · -- (V + 1) / (n + 1) is at most V / n
      have h3 : (V + 1) ^ n * n ^ n ≤ V ^ n * (n + 1) ^ n := by
        rw [← mul_pow, ← mul_pow]
        refine Nat.pow_le_pow_left ?_ n
        have : n ≤ V := by omega
        nlinarith
      have h4 : (V + 1) ^ n * n ^ n ≤ V.choose n * (n + 1) ^ n * n ^ n := by
        calc _ ≤ V ^ n * (n + 1) ^ n := h3
          _ ≤ V.choose n * n ^ n * (n + 1) ^ n := Nat.mul_le_mul_right _ h1
          _ = _ := by ring
      have h5 : (V + 1) ^ n ≤ V.choose n * (n + 1) ^ n := Nat.le_of_mul_le_mul_right h4 (Nat.pow_pos hn)
      calc (V + 1) ^ (n + 1) = (V + 1) ^ n * (V + 1) := pow_succ _ _
        _ ≤ V.choose n * (n + 1) ^ n * (V + 1) := Nat.mul_le_mul_right _ h5
        _ = ((V + 1) * V.choose n) * (n + 1) ^ n := by ring
        _ = _ := by rw [h2, pow_succ]; ring

/-- C162: whatever the representation, some set of `n` integers below `U` takes more than `n log2 (U / n) - 1` bits. -/
theorem C162_any (U n : Nat) (h0 : 0 < n) (h : n ≤ U) (enc : Finset Nat → List Bool)
    (hinj : ∀ S T, S ⊆ Finset.range U → T ⊆ Finset.range U → S.card = n → T.card = n → enc S = enc T → S = T) :
    ∃ S ⊆ Finset.range U, S.card = n ∧ n * Real.logb 2 (U / n) < (enc S).length + 1 := by
  by_contra hno
  push Not at hno
  have hn : (0 : ℝ) < n := by exact_mod_cast h0
  have hU : (0 : ℝ) < U := by exact_mod_cast (by omega : 0 < U)
  let F := Finset.powersetCard n (Finset.range U)
  have hF : ∀ {S}, S ∈ F ↔ S ⊆ Finset.range U ∧ S.card = n := Finset.mem_powersetCard
  have hne : F.Nonempty := by
    rw [← Finset.card_pos, Finset.card_powersetCard, Finset.card_range]
    exact Nat.choose_pos h
  -- the longest representation
  obtain ⟨S0, hS0, hmax⟩ := Finset.exists_max_image F (fun S => (enc S).length) hne
  have h1' : F.card < 2 ^ ((enc S0).length + 1) := by
    have h2 : F.card ≤ ((Finset.range (2 ^ ((enc S0).length + 1))).erase 0).card := by
      refine Finset.card_le_card_of_injOn (fun S => strNat (enc S)) (fun S hS => ?_) ?_
      · rw [Finset.mem_coe, Finset.mem_erase, Finset.mem_range]
        exact ⟨(strNat_pos _).ne', lt_of_lt_of_le (strNat_lt _) (Nat.pow_le_pow_right (by decide) (Nat.succ_le_succ (hmax S hS)))⟩
      · intro S hS T hT e
        rw [Finset.mem_coe, hF] at hS hT
        exact hinj S T hS.1 hT.1 hS.2 hT.2 (strNat_inj e)
    rw [Finset.card_erase_of_mem (by simp), Finset.card_range] at h2
    have : 0 < 2 ^ ((enc S0).length + 1) := Nat.pow_pos (by decide)
    omega
  have hcard : F.card = U.choose n := by
    rw [Finset.card_powersetCard, Finset.card_range]
  rw [hcard] at h1'
  have h2 := pow_le_choose_mul U n h
  have h3 : ((U : ℝ) / n) ^ n < 2 ^ ((enc S0).length + 1) := by
    have h4 : (U : ℝ) ^ n ≤ U.choose n * n ^ n := by exact_mod_cast h2
    have h5 : (U.choose n : ℝ) < 2 ^ ((enc S0).length + 1) := by exact_mod_cast h1'
    rw [div_pow, div_lt_iff₀ (by positivity)]
    exact lt_of_le_of_lt h4 (mul_lt_mul_of_pos_right h5 (by positivity))
  have h4 := Real.logb_lt_logb (b := 2) (by norm_num) (by positivity) h3
  rw [Real.logb_pow, Real.logb_pow, Real.logb_self_eq_one (by norm_num), mul_one] at h4
  have h5 := hno S0 (hF.1 hS0).1 (hF.1 hS0).2
  push_cast at h4
  linarith

end Succinct
