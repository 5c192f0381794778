import Verif.Props.CodeLengths
/-!
C135: which of the codes of the crate is shortest for which values. For every pair of `GAMMA`, `DELTA`, `Omega`,
`Fibonacci` and `COMMA`, and for each of them against 64-bit words, all values are listed for which one is shorter, equal
or longer, and `Unary` is compared with all of them.
-/
namespace Succinct
open Spec

/-- The value at `v` of a function that is constant between the points listed: the entry of the last point that is not
beyond `v`. The points are listed in increasing order. -/
def Spec.stepAt (d : β) : List (Nat × β) → Nat → β
  | [], _ => d
  | (p, b) :: T, v => if p ≤ v then stepAt b T v else d

/-- `A` and `B` both write a codeword for `v` to an empty queue, and the lengths of these codewords compare as `o`. -/
def CompareLengths (A B : Code) (v : Nat) (o : Ordering) : Prop :=
  ∃ a b, A.encode dequeWrite v [] = .ok (.ok (), a) ∧ B.encode dequeWrite v [] = .ok (.ok (), b) ∧
    compare a.length b.length = o

/-! ### Step functions -/

theorem stepAt_congr (d : β) (T : List (Nat × β)) {u v : Nat} (h : ∀ p ∈ T.map Prod.fst, p ≤ u ↔ p ≤ v) :
    stepAt d T u = stepAt d T v := by
  induction T generalizing d with
  | nil => rfl
  | cons x T ih =>
    obtain ⟨p, b⟩ := x
    have h1 : p ≤ u ↔ p ≤ v := h p List.mem_cons_self
    simp only [stepAt, h1, ih b (fun q hq => h q (List.mem_cons_of_mem _ hq))]

theorem stepAt_single {v : Nat} (h1 : 1 ≤ v) (d n : Nat) : stepAt d [(1, n)] v = n := by
  simp only [stepAt, if_pos h1]

/-- The last of the points up to `v`. -/
theorem exists_last (P : List Nat) {v : Nat} (h : ∃ p ∈ P, p ≤ v) : ∃ u ∈ P, ∀ p ∈ P, p ≤ u ↔ p ≤ v := by
  have : ∃ u ∈ P, u ≤ v ∧ ∀ p ∈ P, p ≤ v → p ≤ u := by
    induction P with
    | nil => obtain ⟨p, hp, -⟩ := h; cases hp
    | cons q P ih =>
      by_cases hP : ∃ p ∈ P, p ≤ v
      · obtain ⟨u, hu, huv, hm⟩ := ih hP
        by_cases hq : q ≤ v ∧ u < q
        · refine ⟨q, List.mem_cons_self, hq.1, fun p hp hpv => ?_⟩
          rcases List.mem_cons.1 hp with h | h
          · omega
          · have := hm p h hpv; omega
        · refine ⟨u, List.mem_cons_of_mem _ hu, huv, fun p hp hpv => ?_⟩
          rcases List.mem_cons.1 hp with h | h
          · omega
          · exact hm p h hpv
      · obtain ⟨p, hp, hpv⟩ := h
        rcases List.mem_cons.1 hp with h | h
        · subst h
          refine ⟨p, List.mem_cons_self, hpv, fun r hr hrv => ?_⟩
          rcases List.mem_cons.1 hr with h | h
          · omega
          · exact absurd ⟨r, h, hrv⟩ hP
        · exact absurd ⟨p, h, hpv⟩ hP
  obtain ⟨u, hu, huv, hm⟩ := this
  exact ⟨u, hu, fun p hp => ⟨fun h => by omega, hm p hp⟩⟩

/-- The comparison of two step functions is known when it is known at their points. -/
theorem crossing {TA TB : List (Nat × Nat)} {T : List (Nat × Ordering)} {v : Nat}
    (h : (1 :: (TA.map Prod.fst ++ TB.map Prod.fst ++ T.map Prod.fst)).all
      (fun u => u = 0 ∨ compare (stepAt 0 TA u) (stepAt 0 TB u) = stepAt .eq T u) = true) (h1 : 1 ≤ v) :
    compare (stepAt 0 TA v) (stepAt 0 TB v) = stepAt .eq T v := by
  obtain ⟨u, hu, hp⟩ := exists_last (1 :: (TA.map Prod.fst ++ TB.map Prod.fst ++ T.map Prod.fst)) ⟨1, List.mem_cons_self, h1⟩
  have h3 := List.all_eq_true.1 h u hu
  have h0 : 1 ≤ u := (hp 1 List.mem_cons_self).2 h1
  rw [decide_eq_true_eq] at h3
  rw [← stepAt_congr 0 TA (fun p h => hp p (by simp only [List.mem_cons, List.mem_append]; exact .inr (.inl (.inl h)))),
    ← stepAt_congr 0 TB (fun p h => hp p (by simp only [List.mem_cons, List.mem_append]; exact .inr (.inl (.inr h)))),
    ← stepAt_congr .eq T (fun p h => hp p (by simp only [List.mem_cons, List.mem_append]; exact .inr (.inr h)))]
  exact h3.resolve_left (by omega)

/-- A table of a function of the interval in which `v` lies. -/
theorem stepAt_table (t g : Nat → Nat) (ht : ∀ i j, i ≤ j → t i ≤ t j) {k v : Nat} (hk : t k ≤ v) (hk2 : v < t (k + 1)) :
    ∀ (n a d : Nat), a ≤ k → k < a + n → stepAt d ((List.range' a n).map fun i => (t i, g i)) v = g k := by
  intro n
  induction n with
  | zero => intro a d h1 h2; omega
  | succ n ih =>
    intro a d h1 h2
    have h3 := ht a k h1
    rw [List.range'_succ, List.map_cons, stepAt, if_pos (by omega)]
    rcases Nat.lt_or_ge a k with h4 | h4
    · exact ih (a + 1) _ (by omega) (by omega)
    · have e : a = k := by omega
      subst e
      cases n with
      | zero => rfl
      | succ n => rw [List.range'_succ, List.map_cons, stepAt, if_neg (by omega)]

/-! ### The lengths as step functions -/

/-- Lengths of `GAMMA`: 1, then 3 from 2, 5 from 4, 7 from 8, … -/
def gammaSteps : List (Nat × Nat) := (List.range' 0 64).map fun k => (2 ^ k, 2 * k + 1)

def deltaSteps : List (Nat × Nat) := (List.range' 0 64).map fun k => (2 ^ k, k + 2 * (k + 1).log2 + 1)

/-- The length of the groups of `Omega`, with fuel. -/
def omegaLen : Nat → Nat → Nat
  | 0, _ => 0
  | f + 1, v => if v ≤ 1 then 0 else omegaLen f v.log2 + (v.log2 + 1)

def omegaSteps : List (Nat × Nat) := (List.range' 0 64).map fun k => (2 ^ k, if k = 0 then 1 else omegaLen 64 k + (k + 1) + 1)

def fibSteps : List (Nat × Nat) := (List.range' 1 91).map fun k => (fib (k + 1), k + 1)

def commaSteps : List (Nat × Nat) := (List.range' 0 41).map fun k => (3 ^ k, 2 * (k + 2))

theorem omegaGroups_len (f v : Nat) (h : v ≤ f) : (omegaGroups v).length = omegaLen f v := by
  induction f generalizing v with
  | zero => rw [omegaGroups, dif_pos (by omega)]; rfl
  | succ f ih =>
    rw [omegaGroups, omegaLen]
    split
    · rfl
    · have : v.log2 < v := (Nat.log2_lt (by omega)).2 Nat.lt_two_pow_self
      rw [List.length_append, List.length_reverse, natBits_length, ih _ (by omega)]

theorem log2_spec {v : Nat} (h1 : 1 ≤ v) (h2 : v < 2 ^ 64) : v.log2 < 64 ∧ 2 ^ v.log2 ≤ v ∧ v < 2 ^ (v.log2 + 1) :=
  ⟨(Nat.log2_lt (by omega)).2 h2, Nat.log2_self_le (by omega), Nat.lt_log2_self⟩

theorem len_gamma (c : Cfg) {v : Nat} (h1 : 1 ≤ v) (h2 : v < 2 ^ 64) :
    ∃ a, (gamma c).encode dequeWrite v [] = .ok (.ok (), a) ∧ a.length = stepAt 0 gammaSteps v := by
  obtain ⟨hk, ha, hb⟩ := log2_spec h1 h2
  refine ⟨_, C68_written c false (C62_gamma_delta c false).1 ⟨h1, h2⟩ [], ?_⟩
  rw [gammaSteps, stepAt_table (2 ^ ·) (fun k => 2 * k + 1) (fun i j h => Nat.pow_le_pow_right (by omega) h) ha hb 64 0 0 (by omega)
    (by omega)]
  simp [gammaWord, eliasWord, unaryWord]
  omega

theorem len_delta (c : Cfg) {v : Nat} (h1 : 1 ≤ v) (h2 : v < 2 ^ 64) :
    ∃ a, (delta c).encode dequeWrite v [] = .ok (.ok (), a) ∧ a.length = stepAt 0 deltaSteps v := by
  obtain ⟨hk, ha, hb⟩ := log2_spec h1 h2
  refine ⟨_, C68_written c false (C62_gamma_delta c false).2 ⟨h1, h2⟩ [], ?_⟩
  rw [deltaSteps, stepAt_table (2 ^ ·) (fun k => k + 2 * (k + 1).log2 + 1) (fun i j h => Nat.pow_le_pow_right (by omega) h) ha hb 64
    0 0 (by omega) (by omega)]
  simp [deltaWord, gammaWord, eliasWord, unaryWord]
  omega

theorem len_omega (c : Cfg) {v : Nat} (h1 : 1 ≤ v) (h2 : v < 2 ^ 64) :
    ∃ a, (omegaCode c).encode dequeWrite v [] = .ok (.ok (), a) ∧ a.length = stepAt 0 omegaSteps v := by
  obtain ⟨hk, ha, hb⟩ := log2_spec h1 h2
  refine ⟨_, C68_written c false .omega ⟨h1, h2⟩ [], ?_⟩
  rw [omegaSteps, stepAt_table (2 ^ ·) (fun k => if k = 0 then 1 else omegaLen 64 k + (k + 1) + 1)
    (fun i j h => Nat.pow_le_pow_right (by omega) h) ha hb 64 0 0 (by omega) (by omega)]
  rw [List.nil_append, omegaWord, List.length_append, omegaGroups]
  split
  · rename_i h
    have : v.log2 = 0 := by have : v = 1 := by omega
                            subst this; decide
    rw [if_pos this]; rfl
  · rename_i h
    have : v.log2 ≠ 0 := by
      have := (Nat.le_log2 (k := 1) (by omega : v ≠ 0)).2 (by omega)
      omega
    rw [if_neg this, List.length_append, List.length_reverse, natBits_length, omegaGroups_len 64 _ (by omega)]
    rfl

theorem len_fibonacci (c : Cfg) {v : Nat} (h1 : 1 ≤ v) (h2 : v < fib 93) :
    ∃ a, (fibonacci c).encode dequeWrite v [] = .ok (.ok (), a) ∧ a.length = stepAt 0 fibSteps v := by
  obtain ⟨hb, ha⟩ := fibLen_spec v
  have h3 := fibLen_bound h2
  have h4 : fibLen v ≠ 0 := by
    intro h
    rw [h] at hb
    have : fib (0 + 2) = 1 := rfl
    omega
  refine ⟨_, C68_written c true .fibonacci ⟨h1, h2⟩ [], ?_⟩
  rw [fibSteps, stepAt_table (fun k => fib (k + 1)) (fun k => k + 1) (fun i j h => fib_mono (by omega)) (ha.resolve_left h4) hb 91 1 0
    (by omega) (by omega)]
  simp [fibWord, zeck_length]

theorem len_comma (c : Cfg) {v : Nat} (h1 : 1 ≤ v) (h2 : v < 2 ^ 64) :
    ∃ a, (comma c 2).encode dequeWrite v [] = .ok (.ok (), a) ∧ a.length = stepAt 0 commaSteps v := by
  have : ∃ k, k < 41 ∧ 3 ^ k ≤ v ∧ v < 3 ^ (k + 1) := by
    have : ∀ n, v < 3 ^ n → ∃ k, k < n ∧ 3 ^ k ≤ v ∧ v < 3 ^ (k + 1) := by
      intro n
      induction n with
      | zero => intro h; simp at h; omega
      | succ n ih =>
        intro h
        rcases Nat.lt_or_ge v (3 ^ n) with h' | h'
        · obtain ⟨k, hk, hh⟩ := ih h'
          exact ⟨k, by omega, hh⟩
        · exact ⟨n, by omega, h', h⟩
    exact this 41 (Nat.lt_trans h2 (by decide))
  obtain ⟨k, hk, ha, hb⟩ := this
  refine ⟨_, C68_written c false (.comma (by omega) (by omega)) h2 [], ?_⟩
  rw [commaSteps, stepAt_table (3 ^ ·) (fun k => 2 * (k + 2)) (fun i j h => Nat.pow_le_pow_right (by omega) h) ha hb 41 0 0 (by omega)
    (by omega), List.nil_append, C68_comma 2 v (k + 1) (by omega) hb (.inr ha)]

theorem compareLengths {A B : Code} {v : Nat} {TA TB : List (Nat × Nat)} {T : List (Nat × Ordering)} (h1 : 1 ≤ v)
    (hA : ∃ a, A.encode dequeWrite v [] = .ok (.ok (), a) ∧ a.length = stepAt 0 TA v)
    (hB : ∃ b, B.encode dequeWrite v [] = .ok (.ok (), b) ∧ b.length = stepAt 0 TB v)
    (h : (1 :: (TA.map Prod.fst ++ TB.map Prod.fst ++ T.map Prod.fst)).all
      (fun u => u = 0 ∨ compare (stepAt 0 TA u) (stepAt 0 TB u) = stepAt .eq T u) = true) :
    CompareLengths A B v (stepAt .eq T v) := by
  obtain ⟨a, ha, ea⟩ := hA
  obtain ⟨b, hb, eb⟩ := hB
  exact ⟨a, b, ha, hb, by rw [ea, eb, crossing h h1]⟩

/-! ### The comparisons -/

/-- C135. `GAMMA` against `DELTA`. -/
theorem C135_gamma_delta (c : Cfg) {v : Nat} (h1 : 1 ≤ v) (h2 : v < 2 ^ 64) :
    CompareLengths (gamma c) (delta c) v (stepAt .eq
      [(1, .eq), (2, .lt), (4, .eq), (8, .lt), (16, .eq), (32, .gt)] v) :=
  compareLengths h1 (len_gamma c h1 h2) (len_delta c h1 h2) (by decide +kernel)

/-- C135. `GAMMA` against `Omega`. -/
theorem C135_gamma_omega (c : Cfg) {v : Nat} (h1 : 1 ≤ v) (h2 : v < 2 ^ 64) :
    CompareLengths (gamma c) (omegaCode c) v (stepAt .eq
      [(1, .eq), (4, .lt), (8, .eq), (16, .lt), (64, .eq), (128, .gt)] v) :=
  compareLengths h1 (len_gamma c h1 h2) (len_omega c h1 h2) (by decide +kernel)

/-- C135. `GAMMA` against `Fibonacci`. -/
theorem C135_gamma_fibonacci (c : Cfg) {v : Nat} (h1 : 1 ≤ v) (h2 : v < fib 93) :
    CompareLengths (gamma c) (fibonacci c) v (stepAt .eq
      [(1, .lt), (2, .eq), (3, .lt), (4, .gt), (5, .eq), (8, .gt), (13, .eq), (16, .gt)] v) :=
  compareLengths h1 (len_gamma c h1 (Nat.lt_trans h2 fib_93_lt)) (len_fibonacci c h1 h2) (by decide +kernel)

/-- C135. `GAMMA` against `COMMA`. -/
theorem C135_gamma_comma (c : Cfg) {v : Nat} (h1 : 1 ≤ v) (h2 : v < 2 ^ 64) :
    CompareLengths (gamma c) (comma c 2) v (stepAt .eq
      [(1, .lt), (8, .gt), (9, .lt), (16, .gt), (27, .lt), (32, .gt)] v) :=
  compareLengths h1 (len_gamma c h1 h2) (len_comma c h1 h2) (by decide +kernel)

/-- C135. `GAMMA` against 64 bits for every value. -/
theorem C135_gamma_word (c : Cfg) {v : Nat} (h1 : 1 ≤ v) (h2 : v < 2 ^ 64) :
    ∃ a, (gamma c).encode dequeWrite v [] = .ok (.ok (), a) ∧ compare a.length 64 = stepAt .eq
      [(1, .lt), (2 ^ 32, .gt)] v := by
  obtain ⟨a, ha, e⟩ := len_gamma c h1 h2
  refine ⟨a, ha, ?_⟩
  rw [e, ← crossing (TA := gammaSteps) (TB := [(1, 64)]) (by decide +kernel) h1, stepAt_single h1]

/-- C135. `DELTA` against `Omega`. -/
theorem C135_delta_omega (c : Cfg) {v : Nat} (h1 : 1 ≤ v) (h2 : v < 2 ^ 64) :
    CompareLengths (delta c) (omegaCode c) v (stepAt .eq
      [(1, .eq), (2, .gt), (4, .lt), (8, .gt), (16, .lt), (128, .eq), (2 ^ 8, .lt), (2 ^ 15, .gt), (2 ^ 16, .lt),
      (2 ^ 63, .eq)] v) :=
  compareLengths h1 (len_delta c h1 h2) (len_omega c h1 h2) (by decide +kernel)

/-- C135. `DELTA` against `Fibonacci`. -/
theorem C135_delta_fibonacci (c : Cfg) {v : Nat} (h1 : 1 ≤ v) (h2 : v < fib 93) :
    CompareLengths (delta c) (fibonacci c) v (stepAt .eq
      [(1, .lt), (2, .gt), (3, .eq), (4, .gt), (5, .eq), (8, .gt), (55, .eq), (64, .gt), (89, .eq), (128, .gt), (987, .eq),
      (2 ^ 10, .gt), (1597, .eq), (2 ^ 11, .gt), (2584, .eq), (2 ^ 12, .gt), (4181, .eq), (6765, .lt), (2 ^ 13, .eq),
      (10946, .lt), (2 ^ 14, .eq), (17711, .lt), (2 ^ 15, .gt), (46368, .eq), (2 ^ 16, .gt), (75025, .eq), (fib 26, .lt),
      (2 ^ 17, .eq), (fib 27, .lt), (2 ^ 18, .eq), (fib 28, .lt)] v) :=
  compareLengths h1 (len_delta c h1 (Nat.lt_trans h2 fib_93_lt)) (len_fibonacci c h1 h2) (by decide +kernel)

/-- C135. `DELTA` against `COMMA`. -/
theorem C135_delta_comma (c : Cfg) {v : Nat} (h1 : 1 ≤ v) (h2 : v < 2 ^ 64) :
    CompareLengths (delta c) (comma c 2) v (stepAt .eq
      [(1, .lt), (2, .eq), (3, .lt), (8, .gt), (9, .eq), (16, .gt), (27, .lt), (32, .eq), (64, .gt), (81, .lt), (128, .gt),
      (243, .eq), (2 ^ 8, .gt), (729, .eq), (2 ^ 10, .gt), (2187, .eq), (2 ^ 12, .gt), (6561, .lt), (2 ^ 13, .eq),
      (2 ^ 14, .gt), (19683, .lt), (2 ^ 15, .gt), (59049, .eq), (2 ^ 16, .gt), (3 ^ 11, .eq), (2 ^ 18, .gt), (3 ^ 12, .eq),
      (2 ^ 20, .gt), (3 ^ 13, .lt), (2 ^ 21, .eq), (2 ^ 22, .gt), (3 ^ 14, .lt), (2 ^ 23, .eq), (3 ^ 15, .lt),
      (2 ^ 25, .eq), (3 ^ 16, .lt), (2 ^ 31, .eq), (3 ^ 20, .lt), (2 ^ 33, .eq), (3 ^ 21, .lt)] v) :=
  compareLengths h1 (len_delta c h1 h2) (len_comma c h1 h2) (by decide +kernel)

/-- C135. `DELTA` against 64 bits for every value. -/
theorem C135_delta_word (c : Cfg) {v : Nat} (h1 : 1 ≤ v) (h2 : v < 2 ^ 64) :
    ∃ a, (delta c).encode dequeWrite v [] = .ok (.ok (), a) ∧ compare a.length 64 = stepAt .eq
      [(1, .lt), (2 ^ 53, .eq), (2 ^ 54, .gt)] v := by
  obtain ⟨a, ha, e⟩ := len_delta c h1 h2
  refine ⟨a, ha, ?_⟩
  rw [e, ← crossing (TA := deltaSteps) (TB := [(1, 64)]) (by decide +kernel) h1, stepAt_single h1]

/-- C135. `Omega` against `Fibonacci`. -/
theorem C135_omega_fibonacci (c : Cfg) {v : Nat} (h1 : 1 ≤ v) (h2 : v < fib 93) :
    CompareLengths (omegaCode c) (fibonacci c) v (stepAt .eq
      [(1, .lt), (2, .eq), (3, .lt), (4, .gt), (13, .eq), (16, .gt), (6765, .eq), (2 ^ 13, .gt), (10946, .eq), (2 ^ 14, .gt),
      (17711, .eq), (28657, .lt), (2 ^ 15, .eq), (46368, .lt), (2 ^ 16, .gt), (fib 33, .eq), (2 ^ 22, .gt), (fib 34, .eq),
      (2 ^ 23, .gt), (fib 35, .eq), (fib 36, .lt), (2 ^ 24, .eq), (fib 37, .lt), (2 ^ 25, .eq), (fib 38, .lt)] v) :=
  compareLengths h1 (len_omega c h1 (Nat.lt_trans h2 fib_93_lt)) (len_fibonacci c h1 h2) (by decide +kernel)

/-- C135. `Omega` against `COMMA`. -/
theorem C135_omega_comma (c : Cfg) {v : Nat} (h1 : 1 ≤ v) (h2 : v < 2 ^ 64) :
    CompareLengths (omegaCode c) (comma c 2) v (stepAt .eq
      [(1, .lt), (4, .eq), (8, .gt), (9, .lt), (16, .gt), (243, .eq), (2 ^ 8, .gt), (6561, .eq), (2 ^ 13, .gt), (19683, .eq),
      (2 ^ 15, .gt), (59049, .lt), (2 ^ 16, .gt), (3 ^ 17, .eq), (2 ^ 27, .gt), (3 ^ 18, .eq), (2 ^ 29, .gt), (3 ^ 19, .eq),
      (2 ^ 31, .gt), (3 ^ 20, .lt), (2 ^ 32, .gt), (3 ^ 21, .eq), (2 ^ 34, .gt), (3 ^ 22, .lt), (2 ^ 35, .eq),
      (2 ^ 36, .gt), (3 ^ 23, .lt), (2 ^ 37, .eq), (2 ^ 38, .gt), (3 ^ 24, .lt), (2 ^ 39, .eq), (3 ^ 25, .lt),
      (2 ^ 41, .eq), (3 ^ 26, .lt)] v) :=
  compareLengths h1 (len_omega c h1 h2) (len_comma c h1 h2) (by decide +kernel)

/-- C135. `Omega` against 64 bits for every value. -/
theorem C135_omega_word (c : Cfg) {v : Nat} (h1 : 1 ≤ v) (h2 : v < 2 ^ 64) :
    ∃ a, (omegaCode c).encode dequeWrite v [] = .ok (.ok (), a) ∧ compare a.length 64 = stepAt .eq
      [(1, .lt), (2 ^ 51, .eq), (2 ^ 52, .gt)] v := by
  obtain ⟨a, ha, e⟩ := len_omega c h1 h2
  refine ⟨a, ha, ?_⟩
  rw [e, ← crossing (TA := omegaSteps) (TB := [(1, 64)]) (by decide +kernel) h1, stepAt_single h1]

/-- C135. `Fibonacci` against `COMMA`. -/
theorem C135_fibonacci_comma (c : Cfg) {v : Nat} (h1 : 1 ≤ v) (h2 : v < fib 93) :
    CompareLengths (fibonacci c) (comma c 2) v (stepAt .eq
      [(1, .lt), (8, .eq), (9, .lt), (21, .eq), (27, .lt), (55, .eq), (81, .lt), (144, .eq), (233, .gt), (243, .lt),
      (377, .eq), (610, .gt), (729, .lt), (987, .eq), (1597, .gt), (2187, .lt), (2584, .eq), (4181, .gt), (6561, .lt),
      (6765, .eq), (10946, .gt), (19683, .eq), (28657, .gt), (59049, .eq), (75025, .gt), (3 ^ 11, .eq), (fib 27, .gt)] v) :=
  compareLengths h1 (len_fibonacci c h1 h2) (len_comma c h1 (Nat.lt_trans h2 fib_93_lt)) (by decide +kernel)

/-- C135. `Fibonacci` against 64 bits for every value. -/
theorem C135_fibonacci_word (c : Cfg) {v : Nat} (h1 : 1 ≤ v) (h2 : v < fib 93) :
    ∃ a, (fibonacci c).encode dequeWrite v [] = .ok (.ok (), a) ∧ compare a.length 64 = stepAt .eq
      [(1, .lt), (fib 64, .eq), (fib 65, .gt)] v := by
  obtain ⟨a, ha, e⟩ := len_fibonacci c h1 h2
  refine ⟨a, ha, ?_⟩
  rw [e, ← crossing (TA := fibSteps) (TB := [(1, 64)]) (by decide +kernel) h1, stepAt_single h1]

/-- C135. `COMMA` against 64 bits for every value. -/
theorem C135_comma_word (c : Cfg) {v : Nat} (h1 : 1 ≤ v) (h2 : v < 2 ^ 64) :
    ∃ a, (comma c 2).encode dequeWrite v [] = .ok (.ok (), a) ∧ compare a.length 64 = stepAt .eq
      [(1, .lt), (3 ^ 30, .eq), (3 ^ 31, .gt)] v := by
  obtain ⟨a, ha, e⟩ := len_comma c h1 h2
  refine ⟨a, ha, ?_⟩
  rw [e, ← crossing (TA := commaSteps) (TB := [(1, 64)]) (by decide +kernel) h1, stepAt_single h1]

/-! ### Unary -/

def unarySteps : List (Nat × Nat) := (List.range' 1 127).map fun k => (k, k + 1)

theorem stepAt_le {m : Nat} (T : List (Nat × Nat)) (v : Nat) (h : ∀ p ∈ T, p.2 ≤ m) : ∀ d, d ≤ m → stepAt d T v ≤ m := by
  induction T with
  | nil => intro d hd; exact hd
  | cons x T ih =>
    intro d hd
    obtain ⟨p, b⟩ := x
    rw [stepAt]
    split
    · exact ih (fun q hq => h q (List.mem_cons_of_mem _ hq)) b (h (p, b) List.mem_cons_self)
    · exact hd

/-- Compared with lengths up to 127, it does not matter where beyond 127 the codeword of `Unary` ends. -/
theorem unary_compare {v b : Nat} (h1 : 1 ≤ v) (hb : b ≤ 127) : compare (v + 1) b = compare (stepAt 0 unarySteps v) b := by
  rcases Nat.lt_or_ge v 128 with h | h
  · rw [unarySteps, stepAt_table (fun k => k) (fun k => k + 1) (fun i j h => h) (Nat.le_refl v) (Nat.lt_succ_self v) 127 1 0 h1
      (by omega)]
  · have e : stepAt 0 unarySteps v = stepAt 0 unarySteps 127 := by
      refine (stepAt_congr 0 _ fun p hp => ?_).symm
      simp only [unarySteps, List.map_map, List.mem_map, List.mem_range', Function.comp] at hp
      obtain ⟨a, ⟨i, hi, rfl⟩, rfl⟩ := hp
      omega
    rw [e, show stepAt 0 unarySteps 127 = 128 by decide +kernel, Nat.compare_eq_gt.2 (by omega), Nat.compare_eq_gt.2 (by omega)]

theorem unary_compareLengths (c : Cfg) {B : Code} {v : Nat} {TB : List (Nat × Nat)} {T : List (Nat × Ordering)} (h1 : 1 ≤ v)
    (h2 : v < 2 ^ 64) (hB : ∃ b, B.encode dequeWrite v [] = .ok (.ok (), b) ∧ b.length = stepAt 0 TB v)
    (hm : TB.all (fun p => p.2 ≤ 127) = true)
    (h : (1 :: (unarySteps.map Prod.fst ++ TB.map Prod.fst ++ T.map Prod.fst)).all
      (fun u => u = 0 ∨ compare (stepAt 0 unarySteps u) (stepAt 0 TB u) = stepAt .eq T u) = true) :
    CompareLengths (unary c) B v (stepAt .eq T v) := by
  obtain ⟨b, hb, eb⟩ := hB
  refine ⟨_, b, C68_written c false .unary h2 [], hb, ?_⟩
  have hl : stepAt 0 TB v ≤ 127 :=
    stepAt_le TB v (fun p hp => by simpa using List.all_eq_true.1 hm p hp) 0 (by omega)
  rw [eb, List.nil_append, unaryWord, List.length_append, List.length_replicate, List.length_singleton, unary_compare h1 hl,
    crossing h h1]

/-- C135. `Unary` is never shorter than `GAMMA` or `Fibonacci`; it is shorter than `DELTA` only at 2 and than `Omega` only
at 4; it is shorter than `COMMA` up to 4. -/
theorem C135_unary (c : Cfg) {v : Nat} (h1 : 1 ≤ v) (h2 : v < 2 ^ 64) :
    CompareLengths (unary c) (gamma c) v (stepAt .eq [(1, .gt), (2, .eq), (3, .gt), (4, .eq), (5, .gt)] v) ∧
    CompareLengths (unary c) (delta c) v (stepAt .eq [(1, .gt), (2, .lt), (3, .eq), (5, .gt)] v) ∧
    CompareLengths (unary c) (omegaCode c) v (stepAt .eq [(1, .gt), (2, .eq), (3, .gt), (4, .lt), (5, .eq), (6, .gt)] v) ∧
    (v < fib 93 → CompareLengths (unary c) (fibonacci c) v (stepAt .eq [(1, .eq), (4, .gt)] v)) ∧
    CompareLengths (unary c) (comma c 2) v (stepAt .eq [(1, .lt), (5, .eq), (6, .gt)] v) ∧
    ∃ a, (unary c).encode dequeWrite v [] = .ok (.ok (), a) ∧ compare a.length 64 = stepAt .eq [(1, .lt), (63, .eq), (64, .gt)] v := by
  refine ⟨unary_compareLengths c h1 h2 (len_gamma c h1 h2) (by decide +kernel) (by decide +kernel),
    unary_compareLengths c h1 h2 (len_delta c h1 h2) (by decide +kernel) (by decide +kernel),
    unary_compareLengths c h1 h2 (len_omega c h1 h2) (by decide +kernel) (by decide +kernel),
    fun h3 => unary_compareLengths c h1 h2 (len_fibonacci c h1 h3) (by decide +kernel) (by decide +kernel),
    unary_compareLengths c h1 h2 (len_comma c h1 h2) (by decide +kernel) (by decide +kernel), ?_⟩
  refine ⟨_, C68_written c false .unary h2 [], ?_⟩
  rw [List.nil_append, unaryWord, List.length_append, List.length_replicate, List.length_singleton, unary_compare h1 (by omega)]
  have := crossing (TA := unarySteps) (TB := [(1, 64)]) (T := [(1, .lt), (63, .eq), (64, .gt)]) (by decide +kernel) h1
  rwa [stepAt_single h1] at this

/-- What the tables say at 1000: `GAMMA` is longer than `DELTA`, and `DELTA` is exactly as long as `Fibonacci`. -/
example : stepAt Ordering.eq [(1, .eq), (2, .lt), (4, .eq), (8, .lt), (16, .eq), (32, .gt)] 1000 = .gt ∧
    (gammaWord 1000).length = 19 ∧ (deltaWord 1000).length = 16 ∧ (fibWord 1000).length = 16 := by decide +kernel

example (c : Cfg) : CompareLengths (delta c) (fibonacci c) 1000 .eq := C135_delta_fibonacci c (v := 1000) (by decide) (by decide +kernel)

example (c : Cfg) : CompareLengths (omegaCode c) (delta c) 40000 .lt := by
  obtain ⟨a, b, ha, hb, e⟩ := C135_delta_omega c (v := 40000) (by decide) (by decide)
  exact ⟨b, a, hb, ha, by rw [← Nat.compare_swap, e]; rfl⟩

/-- `DELTA` is shorter than a 64-bit word for all values below `2^53`, and longer from `2^54` on. -/
example (c : Cfg) : ∃ a, (delta c).encode dequeWrite (2 ^ 53 - 1) [] = .ok (.ok (), a) ∧ compare a.length 64 = .lt := by
  obtain ⟨a, ha, e⟩ := C135_delta_word c (v := 2 ^ 53 - 1) (by decide) (by decide)
  exact ⟨a, ha, by rw [e]; decide +kernel⟩

/-! Each theorem of this file that has hypotheses is applied to concrete data in `Verif/Instances/WhichCode.lean`. -/

end Succinct
