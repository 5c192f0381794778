import Verif.Lemmas.CodingTotal
/-! # Lemmas about the Fibonacci code -/
namespace Succinct
open Spec Lean.Order

theorem fib_add_two (n : Nat) : fib (n + 2) = fib n + fib (n + 1) := by rw [fib]
theorem fib_add_three (n : Nat) : fib (n + 3) = fib (n + 1) + fib (n + 2) := fib_add_two (n + 1)

theorem fib_93 : fib 93 = 12200160415121876738 := by decide +kernel
theorem fib_94 : fib 94 = 19740274219868223167 := by decide +kernel

theorem fib_pos (n : Nat) : 1 ≤ fib (n + 1) := by
  induction n with
  | zero => decide
  | succ n ih => rw [fib_add_two]; omega

theorem fib_le_succ (n : Nat) : fib n ≤ fib (n + 1) := by
  cases n with
  | zero => decide
  | succ n => rw [fib_add_two]; omega

theorem fib_mono {m n : Nat} (h : m ≤ n) : fib m ≤ fib n := by
  induction h with
  | refl => exact Nat.le_refl _
  | step _ ih => exact Nat.le_trans ih (fib_le_succ _)

theorem fib_lt_succ (n : Nat) : fib (n + 2) < fib (n + 3) := by
  rw [fib_add_three]
  have := fib_pos n
  omega

theorem fib_fits (n : Nat) : fib n < 2 ^ 64 ↔ n ≤ 93 := by
  constructor
  · intro h
    apply Nat.le_of_not_lt
    intro h2
    have := fib_mono (show 94 ≤ n by omega)
    rw [fib_94] at this
    omega
  · intro h
    have := fib_mono h
    rw [fib_93] at this
    omega

/-- The generator after `k` calls of `next`. -/
def fibAt (k : Nat) : Fib := ⟨fib (k + 1), fib (k + 2)⟩

theorem fib_next (k : Nat) : (fibAt k).next = if fib (k + 3) < 2 ^ 64 then some (fibAt (k + 1)) else none := by
  unfold Fib.next checkedAdd fibAt
  rw [fib_add_three]
  simp only
  by_cases h : fib (k + 1) + fib (k + 2) < 2 ^ 64
  · rw [if_pos h, if_pos h]
  · rw [if_neg h, if_neg h]

theorem fib_prev (c : Cfg) (k : Nat) : (fibAt (k + 1)).prev c = .ok (fibAt k) := by
  unfold Fib.prev fibAt
  simp only
  rw [fib_add_two (k + 1), subN_ok (by omega), Res.ok_bind, Nat.add_sub_cancel]

theorem tryNext_ok {σ : Type} (k : Nat) (h : fib (k + 3) < 2 ^ 64) : (Fibonacci.tryNext (fibAt k) : SM σ Fib) = pure (fibAt (k + 1)) := by
  rw [Fibonacci.tryNext, fib_next, if_pos h]
theorem tryNext_err {σ : Type} (k : Nat) (h : ¬ fib (k + 3) < 2 ^ 64) : (Fibonacci.tryNext (fibAt k) : SM σ Fib) = tooManyBits := by
  rw [Fibonacci.tryNext, fib_next, if_neg h]

/-- Position of the leading one of the representation, plus one: least `k` with `v < fib (k + 2)`. -/
def fibLen (v : Nat) : Nat := go v 0 (v + 1)
where
  go (v k : Nat) : Nat → Nat
    | 0 => k
    | fuel + 1 => if v < fib (k + 2) then k else go v (k + 1) fuel

theorem fib_gt_self (n : Nat) : n < fib (n + 2) := by
  induction n with
  | zero => decide
  | succ n ih =>
    have := fib_lt_succ n
    show n + 1 < fib (n + 3)
    omega

theorem fibLen_go (v k fuel : Nat) (h : v < fib (k + fuel + 2)) (hk : k = 0 ∨ fib (k + 1) ≤ v) :
    v < fib (fibLen.go v k fuel + 2) ∧ (fibLen.go v k fuel = 0 ∨ fib (fibLen.go v k fuel + 1) ≤ v) := by
  induction fuel generalizing k with
  | zero => exact ⟨h, hk⟩
  | succ fuel ih =>
    rw [fibLen.go]
    split
    · exact ⟨by assumption, hk⟩
    · apply ih (k + 1) (by rwa [show k + 1 + fuel + 2 = k + (fuel + 1) + 2 by omega])
      right
      rw [show k + 1 + 1 = k + 2 by omega]
      omega

theorem fibLen_spec (v : Nat) : v < fib (fibLen v + 2) ∧ (fibLen v = 0 ∨ fib (fibLen v + 1) ≤ v) := by
  apply fibLen_go
  · have := fib_gt_self (0 + (v + 1))
    omega
  · exact .inl rfl

theorem fibLen_pos {v : Nat} (h : 1 ≤ v) : 1 ≤ fibLen v := by
  have := (fibLen_spec v).1
  rcases Nat.eq_zero_or_pos (fibLen v) with h0 | h0
  · rw [h0] at this
    have : fib (0 + 2) = 1 := by decide
    omega
  · exact h0

theorem fibLen_unique {v k : Nat} (h1 : v < fib (k + 2)) (h2 : k = 0 ∨ fib (k + 1) ≤ v) : fibLen v = k := by
  obtain ⟨h3, h4⟩ := fibLen_spec v
  apply Nat.le_antisymm
  · apply Nat.le_of_not_lt
    intro h
    rcases h4 with h4 | h4
    · omega
    · have := fib_mono (show k + 2 ≤ fibLen v + 1 by omega)
      omega
  · apply Nat.le_of_not_lt
    intro h
    rcases h2 with h2 | h2
    · omega
    · have := fib_mono (show fibLen v + 2 ≤ k + 1 by omega)
      omega

/-- The greedy representation, `k` bits, lowest Fibonacci number first. -/
def zeck : Nat → Nat → List Bool
  | 0, _ => []
  | k + 1, v => if fib (k + 2) ≤ v then zeck k (v - fib (k + 2)) ++ [true] else zeck k v ++ [false]

/-- The Fibonacci codeword. -/
def fibWord (v : Nat) : List Bool := zeck (fibLen v) v ++ [true]

theorem zeck_length (k v : Nat) : (zeck k v).length = k := by
  induction k generalizing v with
  | zero => rfl
  | succ k ih => rw [zeck]; split <;> simp [ih]

/-! ### encoding -/

theorem fib_climb {σ : Type} (v k : Nat) (hk : k = 0 ∨ fib (k + 1) ≤ v) (hk2 : k ≤ 91) :
    (Fibonacci.climb v (fibAt k) : SM σ Fib) =
      if v < fib 93 then pure (fibAt (fibLen v)) else tooManyBits := by
  generalize hm : v + 1 - k = m
  induction m generalizing k with
  | zero =>
    have := fib_gt_self k
    rcases hk with hk | hk
    · omega
    · have h1 := fib_gt_self (k - 1)
      rw [show k - 1 + 2 = k + 1 by omega] at h1
      omega
  | succ m ih =>
    rw [Fibonacci.climb]
    by_cases h : (fibAt k).i ≤ v
    · rw [if_pos h]
      replace h : fib (k + 2) ≤ v := h
      by_cases h2 : fib (k + 3) < 2 ^ 64
      · rw [tryNext_ok k h2, SM.pure_bind]
        rw [fib_fits] at h2
        exact ih (k + 1) (.inr h) (by omega) (by omega)
      · rw [tryNext_err k h2, if_neg]
        · rfl
        · rw [fib_fits] at h2
          have := fib_mono (show 93 ≤ k + 2 by omega)
          omega
    · rw [if_neg h]
      replace h : ¬ fib (k + 2) ≤ v := h
      rw [fibLen_unique (show v < fib (k + 2) by omega) hk]
      have := fib_mono (show k + 2 ≤ 93 by omega)
      rw [if_pos (by omega)]

theorem fib_descend (c : Cfg) (k v : Nat) (hv : v < 2 ^ 64) (stack : List Bool) :
    Fibonacci.descend c (fibAt k) v stack = .ok (zeck k v ++ stack) := by
  induction k generalizing v stack with
  | zero =>
    rw [Fibonacci.descend, if_neg (by decide)]
    rfl
  | succ k ih =>
    have h1 : (fibAt (k + 1)).i > 1 := by
      have := fib_mono (show 3 ≤ k + 3 by omega)
      have h3 : fib 3 = 2 := by decide
      show fib (k + 3) > 1
      omega
    rw [Fibonacci.descend, if_pos h1, zeck]
    by_cases h : fib (k + 2) ≤ v
    · rw [if_pos h, if_pos (show (fibAt (k + 1)).i1 ≤ v from h), subN_ok (show (fibAt (k + 1)).i1 ≤ v from h)]
      simp only [Res.ok_bind]
      rw [fib_prev]
      simp only [Res.ok_bind]
      rw [show v - (fibAt (k + 1)).i1 = v - fib (k + 2) from rfl, ih _ (by omega), List.append_assoc]
      rfl
    · rw [if_neg h, if_neg (show ¬ (fibAt (k + 1)).i1 ≤ v from h)]
      simp only [Res.ok_bind]
      rw [fib_prev]
      simp only [Res.ok_bind]
      rw [ih _ hv, List.append_assoc]
      rfl

theorem popBits_eq (W : BitWrite σ) (l : List Bool) : popBits W l = writeAll W l := by
  induction l with
  | nil => rfl
  | cons b l ih => rw [popBits, writeAll, ih]

theorem fibonacci_encode_eq (c : Cfg) {σ : Type} (W : BitWrite σ) {v : Nat} (h1 : 1 ≤ v) (h2 : v < 2 ^ 64) :
    (fibonacci c).encode W v = if v < fib 93 then writeAll W (fibWord v) else tooManyBits := by
  show Fibonacci.encode c W v = _
  rw [Fibonacci.encode, assertR_true (by omega), SM.lift_ok_bind, show Fib.new = fibAt 0 from rfl,
    fib_climb v 0 (.inl rfl) (by omega)]
  split
  · rw [SM.pure_bind, fib_descend c _ _ h2, SM.lift_ok_bind, popBits_eq]
    rfl
  · rfl

theorem fibonacci_encode (c : Cfg) : EncodesBy (fibonacci c) (fun v => 1 ≤ v ∧ v < fib 93) fibWord := by
  intro v ⟨h1, h2⟩ σ W
  rw [fibonacci_encode_eq c W h1 (by rw [fib_93] at h2; omega), if_pos h2]

/-! ### Zeckendorf representations -/

theorem fibSum_append (k : Nat) (a b : List Bool) : fibSum k (a ++ b) = fibSum k a + fibSum (k + a.length) b := by
  induction a generalizing k with
  | nil => simp [fibSum]
  | cons x a ih =>
    rw [List.cons_append, fibSum, fibSum, ih, List.length_cons, show k + 1 + a.length = k + (a.length + 1) by omega]
    omega

theorem zeck_sum (k v : Nat) (h : v < fib (k + 2)) : fibSum 2 (zeck k v) = v := by
  induction k generalizing v with
  | zero =>
    have : fib (0 + 2) = 1 := by decide
    rw [zeck, fibSum]
    omega
  | succ k ih =>
    rw [show k + 1 + 2 = k + 3 by omega, fib_add_three] at h
    have hm := fib_mono (show k + 1 ≤ k + 2 by omega)
    rw [zeck]
    split
    · rw [fibSum_append, zeck_length, ih _ (by omega), fibSum, fibSum, if_pos rfl, Nat.add_comm 2 k]
      omega
    · rw [fibSum_append, ih _ (by omega)]
      simp [fibSum]

theorem noAdj_snoc_false {l : List Bool} : NoAdj (l ++ [false]) ↔ NoAdj l := by
  induction l with
  | nil => simp [NoAdj]
  | cons a l ih =>
    cases a with
    | false => simpa [NoAdj] using ih
    | true =>
      cases l with
      | nil => simp [NoAdj]
      | cons b l =>
        cases b with
        | false => simpa [NoAdj] using ih
        | true => simp [NoAdj]

theorem noAdj_snoc_true {l : List Bool} : NoAdj (l ++ [true]) ↔ NoAdj l ∧ l.getLast? ≠ some true := by
  induction l with
  | nil => simp [NoAdj]
  | cons a l ih =>
    cases l with
    | nil => cases a <;> simp [NoAdj]
    | cons b l =>
      rw [List.getLast?_cons_cons]
      cases a with
      | false => simpa [NoAdj] using ih
      | true =>
        cases b with
        | false => simpa [NoAdj] using ih
        | true => simp [NoAdj]

theorem zeck_last (k v : Nat) (h : v < fib (k + 1)) : (zeck k v).getLast? ≠ some true := by
  cases k with
  | zero => simp [zeck]
  | succ k =>
    rw [zeck, if_neg (by rw [show k + 1 + 1 = k + 2 by omega] at h; omega)]
    simp

theorem zeck_noAdj (k v : Nat) (h : v < fib (k + 2)) : NoAdj (zeck k v) := by
  induction k generalizing v with
  | zero => simp [zeck, NoAdj]
  | succ k ih =>
    rw [show k + 1 + 2 = k + 3 by omega, fib_add_three] at h
    have hm := fib_mono (show k + 1 ≤ k + 2 by omega)
    rw [zeck]
    split
    · rw [noAdj_snoc_true]
      exact ⟨ih _ (by omega), zeck_last _ _ (by omega)⟩
    · rw [noAdj_snoc_false]
      exact ih _ (by omega)

/-- A representation without adjacent ones is small. -/
theorem noAdj_sum_lt (l : List Bool) (h : NoAdj l) : fibSum 2 l < fib (l.length + 2) := by
  generalize hn : l.length = n
  induction n using Nat.strongRecOn generalizing l with
  | _ n ih =>
    rcases List.eq_nil_or_concat l with rfl | ⟨l, b, rfl⟩
    · subst hn; decide
    · rw [List.concat_eq_append] at *
      have hn' : n = l.length + 1 := by rw [← hn]; simp
      subst hn'
      rw [fibSum_append, show l.length + 1 + 2 = l.length + 3 by omega, fib_add_three]
      cases b with
      | false =>
        have := ih l.length (by omega) l (noAdj_snoc_false.1 h) rfl
        simp only [fibSum, Bool.false_eq_true, if_false]
        omega
      | true =>
        obtain ⟨h1, h2⟩ := noAdj_snoc_true.1 h
        simp only [fibSum, if_true]
        rw [Nat.add_comm 2 l.length]
        have : fibSum 2 l < fib (l.length + 1) := by
          rcases List.eq_nil_or_concat l with rfl | ⟨l, b, rfl⟩
          · decide
          · rw [List.concat_eq_append] at *
            have hb : b = false := by simpa using h2
            subst hb
            have := ih l.length (by simp; omega) l (noAdj_snoc_false.1 h1) rfl
            rw [fibSum_append]
            simp only [fibSum, Bool.false_eq_true, if_false]
            rw [List.length_append]
            simpa using this
        omega

/-- Representations without adjacent ones are greedy. -/
theorem noAdj_zeck (l : List Bool) (h : NoAdj l) : zeck l.length (fibSum 2 l) = l := by
  generalize hn : l.length = n
  induction n generalizing l with
  | zero =>
    rw [List.length_eq_zero_iff.1 hn]
    rfl
  | succ n ih =>
    rcases List.eq_nil_or_concat l with rfl | ⟨l, b, rfl⟩
    · simp at hn
    · rw [List.concat_eq_append] at *
      have hn' : l.length = n := by simpa using hn
      subst hn'
      rw [zeck, fibSum_append, Nat.add_comm 2 l.length]
      cases b with
      | false =>
        have h1 := noAdj_snoc_false.1 h
        have := noAdj_sum_lt l h1
        simp only [fibSum, Bool.false_eq_true, if_false, Nat.add_zero]
        rw [if_neg (by omega), ih l h1 rfl]
      | true =>
        have h1 := (noAdj_snoc_true.1 h).1
        simp only [fibSum, if_true, Nat.add_zero]
        rw [if_pos (by omega), Nat.add_sub_cancel, ih l h1 rfl]

theorem zeck_isZeckendorf {v : Nat} (h : 1 ≤ v) : IsZeckendorf v (zeck (fibLen v) v) := by
  obtain ⟨h1, h2⟩ := fibLen_spec v
  refine ⟨zeck_sum _ _ h1, zeck_noAdj _ _ h1, ?_⟩
  have h3 := fibLen_pos h
  rcases h2 with h2 | h2
  · omega
  · obtain ⟨k, hk⟩ : ∃ k, fibLen v = k + 1 := ⟨fibLen v - 1, by omega⟩
    rw [hk] at h2 ⊢
    rw [zeck, if_pos h2]
    simp

theorem isZeckendorf_eq {v : Nat} {z : List Bool} (h : IsZeckendorf v z) : 1 ≤ v ∧ z = zeck (fibLen v) v := by
  have h1 := noAdj_sum_lt z h.noAdj
  have h2 := noAdj_zeck z h.noAdj
  rw [h.sum] at h1 h2
  rcases List.eq_nil_or_concat z with rfl | ⟨y, b, rfl⟩
  · have := h.last
    simp at this
  · rw [List.concat_eq_append] at *
    have hb : b = true := by simpa using h.last
    subst hb
    have h3 := h.sum
    rw [fibSum_append] at h3
    simp only [fibSum, if_true] at h3
    have h4 : fib ((y ++ [true]).length + 1) ≤ v := by
      rw [List.length_append]
      simp only [List.length_cons, List.length_nil, Nat.zero_add]
      rw [show y.length + 1 + 1 = 2 + y.length by omega]
      omega
    have h5 := fib_pos (y ++ [true]).length
    rw [fibLen_unique h1 (.inr h4), h2]
    exact ⟨by omega, rfl⟩

theorem isFibWord_iff {v : Nat} {l : List Bool} : IsFibWord v l ↔ 1 ≤ v ∧ l = fibWord v := by
  constructor
  · rintro ⟨z, hz, rfl⟩
    obtain ⟨h1, h2⟩ := isZeckendorf_eq hz
    exact ⟨h1, by rw [fibWord, ← h2]⟩
  · rintro ⟨h1, rfl⟩
    exact ⟨_, zeck_isZeckendorf h1, rfl⟩

/-! ### decoding -/

theorem noAdj_tail {a : Bool} {l : List Bool} (h : NoAdj (a :: l)) : NoAdj l := by
  cases a with
  | false => exact h
  | true =>
    cases l with
    | nil => trivial
    | cons b l =>
      cases b with
      | false => exact h
      | true => exact absurd h (by simp [NoAdj])

theorem noAdj_append_left {a b : List Bool} (h : NoAdj (a ++ b)) : NoAdj a := by
  induction a with
  | nil => trivial
  | cons x a ih =>
    have := ih (noAdj_tail h)
    cases x with
    | false => exact this
    | true =>
      cases a with
      | nil => trivial
      | cons y a =>
        cases y with
        | false => exact this
        | true => exact absurd h (by simp [NoAdj])

theorem fib_loop_reads (c : Cfg) (R : BitRead σ) (z : List Bool) {s s' : σ} (h : Reads R s z s') (j r : Nat) (prev : Bool)
    (hz : NoAdj (prev :: z)) (hr : r + fibSum (j + 2) z < 2 ^ 64) (hj : j + z.length ≤ 91) :
    Fibonacci.decodeLoop c R r (fibAt j) prev s =
      Fibonacci.decodeLoop c R (r + fibSum (j + 2) z) (fibAt (j + z.length)) ((prev :: z).getLast (by simp)) s' := by
  induction z generalizing s r j prev with
  | nil => cases h; simp [fibSum]
  | cons b z ih =>
    cases h with
    | cons h1 h2 =>
      rw [List.length_cons] at hj
      have hb : (b && prev) = false := by
        cases b with
        | false => rfl
        | true =>
          cases prev with
          | false => rfl
          | true => exact absurd hz (by simp [NoAdj])
      rw [fibSum] at hr
      have hnext : fib (j + 3) < 2 ^ 64 := (fib_fits _).2 (by omega)
      have hadd : (if b = true then addN c 64 r (fibAt j).i else Res.ok r) = .ok (r + if b then fib (j + 2) else 0) := by
        cases b with
        | false => rfl
        | true =>
          simp only [if_true] at hr ⊢
          exact addN_ok (by show r + fib (j + 2) < 2 ^ 64; omega)
      rw [Fibonacci.decodeLoop, SM.bind_run_ok h1]
      simp only [hb, Bool.false_eq_true, if_false]
      rw [hadd, SM.lift_ok_bind, tryNext_ok j hnext, SM.pure_bind, ih h2 (j + 1) _ b (noAdj_tail hz) (by rw [show j + 1 + 2 = j + 2 + 1 by omega]; omega) (by omega)]
      congr 1
      · rw [fibSum, show j + 1 + 2 = j + 2 + 1 by omega, Nat.add_assoc]
      · rw [List.length_cons]; congr 1; omega

theorem fibLen_bound {v : Nat} (h : v < fib 93) : fibLen v ≤ 91 := by
  rcases (fibLen_spec v).2 with h1 | h1
  · omega
  · apply Nat.le_of_not_lt
    intro h2
    have := fib_mono (show 93 ≤ fibLen v + 1 by omega)
    omega

theorem fib_93_lt : fib 93 < 2 ^ 64 := (fib_fits 93).2 (by omega)

theorem fibonacci_decode (c : Cfg) : DecodesBy (fibonacci c) (fun v => 1 ≤ v ∧ v < fib 93) fibWord := by
  intro v ⟨h1, h2⟩ σ R s s' h
  obtain ⟨s1, h3, h4⟩ := Reads.split h
  have hz := zeck_isZeckendorf h1
  have h64 := fib_93_lt
  show Fibonacci.decodeLoop c R 0 (fibAt 0) false s = _
  rw [fib_loop_reads c R _ h3 0 0 false hz.noAdj (by rw [Nat.zero_add, hz.sum]; omega)
    (by rw [zeck_length]; have := fibLen_bound h2; omega)]
  have hlast : (false :: zeck (fibLen v) v).getLast (by simp) = true := by
    have := hz.last
    rw [List.getLast?_eq_some_iff] at this
    obtain ⟨y, hy⟩ := this
    simp only [hy, ← List.cons_append, List.getLast_concat]
  rw [hlast]
  cases h4 with
  | cons h5 h6 =>
    cases h6
    rw [Fibonacci.decodeLoop, SM.bind_run_ok h5]
    simp only [Bool.and_self, if_true]
    rw [Nat.zero_add, hz.sum]
    rfl

theorem fib_loop_stop (c : Cfg) (R : BitRead σ) {s : σ} (h : NoBit (R.readBit s)) (r : Nat) (f : Fib) (prev : Bool) :
    Fibonacci.decodeLoop c R r f prev s =
      stopWith (if r = 0 then .ok none else .error .unexpectedEof) (R.readBit s) := by
  rw [Fibonacci.decodeLoop]
  apply bind_noBit h
  intro s
  simp only
  split <;> rfl

theorem fibonacci_ends (c : Cfg) : EndsWell (fibonacci c) := by
  intro σ R s h
  exact fib_loop_stop c R h 0 _ false

theorem fibSum_eq_zero (k : Nat) (l : List Bool) : fibSum (k + 1) l = 0 ↔ true ∉ l := by
  induction l generalizing k with
  | nil => simp [fibSum]
  | cons b l ih =>
    have := fib_pos k
    rw [fibSum]
    cases b with
    | false => simpa using ih (k + 1)
    | true => simp; omega

/-- On a truncated codeword: `UnexpectedEof` if a one has been read, otherwise `Ok(None)`. -/
theorem fibonacci_trunc (c : Cfg) (v : Nat) (h1 : 1 ≤ v) (h2 : v < fib 93) (p q : List Bool) (e : fibWord v = p ++ q)
    (hq : q ≠ []) {σ : Type} (R : BitRead σ) (s s' : σ) (h : Reads R s p s') (hs : NoBit (R.readBit s')) :
    (fibonacci c).decode R s = stopWith (if true ∈ p then .error .unexpectedEof else .ok none) (R.readBit s') := by
  obtain ⟨q', e', -⟩ := prefix_snoc e hq
  have hz := zeck_isZeckendorf h1
  have h64 := fib_93_lt
  have hna := hz.noAdj
  have hsum := hz.sum
  have hlen := congrArg List.length e'
  rw [zeck_length, List.length_append] at hlen
  rw [e'] at hna hsum
  rw [fibSum_append] at hsum
  have hb := fibLen_bound h2
  show Fibonacci.decodeLoop c R 0 (fibAt 0) false s = _
  rw [fib_loop_reads c R p h 0 0 false (noAdj_append_left hna) (by rw [Nat.zero_add, Nat.zero_add]; omega) (by omega),
    fib_loop_stop c R hs, Nat.zero_add]
  congr 1
  by_cases hp : true ∈ p
  · rw [if_pos hp, if_neg]
    rw [fibSum_eq_zero 1]
    exact fun h => h hp
  · rw [if_neg hp, if_pos]
    rwa [fibSum_eq_zero 1]

/-! ### arbitrary sources -/

theorem noAdj_snoc {y : List Bool} {b : Bool} (h : NoAdj y) (hb : (b && (y.getLast? == some true)) = false) :
    NoAdj (y ++ [b]) := by
  cases b with
  | false => exact noAdj_snoc_false.2 h
  | true =>
    refine noAdj_snoc_true.2 ⟨h, ?_⟩
    simpa using hb

theorem fibSum_snoc (y : List Bool) (b : Bool) : fibSum 2 (y ++ [b]) = fibSum 2 y + if b then fib (y.length + 2) else 0 := by
  rw [fibSum_append, fibSum, fibSum, Nat.add_comm 2 y.length]
  rfl

theorem fib_loop_some (c : Cfg) (R : BitRead σ) (r : Nat) (f : Fib) (prev : Bool) (s s' : σ) (v : Nat)
    (h : Fibonacci.decodeLoop c R r f prev s = .ok (.ok (some v), s')) (y : List Bool) (hr : r = fibSum 2 y)
    (hf : f = fibAt y.length) (hp : prev = (y.getLast? == some true)) (hy : NoAdj y) (hl : y.length ≤ 91) :
    ∃ z, Reads R s (z ++ [true]) s' ∧ IsZeckendorf v (y ++ z) ∧ v < fib 93 := by
  suffices H : ∀ r f prev s a s', Fibonacci.decodeLoop c R r f prev s = .ok (.ok a, s') → ∀ y, r = fibSum 2 y →
      f = fibAt y.length → prev = (y.getLast? == some true) → NoAdj y → y.length ≤ 91 → ∀ v, a = some v →
      ∃ z, Reads R s (z ++ [true]) s' ∧ IsZeckendorf v (y ++ z) ∧ v < fib 93 from
    H r f prev s _ s' h y hr hf hp hy hl v rfl
  apply Fibonacci.decodeLoop.fixpoint_induct c R (fun F => ∀ r f prev s a s', F r f prev s = .ok (.ok a, s') →
      ∀ y, r = fibSum 2 y →
      f = fibAt y.length → prev = (y.getLast? == some true) → NoAdj y → y.length ≤ 91 → ∀ v, a = some v →
      ∃ z, Reads R s (z ++ [true]) s' ∧ IsZeckendorf v (y ++ z) ∧ v < fib 93)
  · apply admissible_pi_apply (fun r (g : Fib → Bool → SM σ (Option Nat)) => ∀ f prev s a s', g f prev s = .ok (.ok a, s') →
      ∀ y, r = fibSum 2 y →
      f = fibAt y.length → prev = (y.getLast? == some true) → NoAdj y → y.length ≤ 91 → ∀ v, a = some v →
      ∃ z, Reads R s (z ++ [true]) s' ∧ IsZeckendorf v (y ++ z) ∧ v < fib 93)
    intro r
    apply admissible_pi_apply (fun f (g : Bool → SM σ (Option Nat)) => ∀ prev s a s', g prev s = .ok (.ok a, s') →
      ∀ y, r = fibSum 2 y →
      f = fibAt y.length → prev = (y.getLast? == some true) → NoAdj y → y.length ≤ 91 → ∀ v, a = some v →
      ∃ z, Reads R s (z ++ [true]) s' ∧ IsZeckendorf v (y ++ z) ∧ v < fib 93)
    intro f
    exact admissible_ok _
  · intro F ih r f prev s a s' h y hr hf hp hy hl v ha
    subst ha hr hf hp
    obtain ⟨o, s1, h1, h2⟩ := SM.of_bind_ok h
    cases o with
    | none =>
      simp only at h2
      split at h2 <;> cases h2
    | some bit =>
      simp only at h2
      by_cases hb : (bit && (y.getLast? == some true)) = true
      · rw [if_pos hb] at h2
        cases h2
        obtain ⟨hb1, hb2⟩ := Bool.and_eq_true_iff.1 hb
        subst hb1
        refine ⟨[], .cons h1 (.nil _), ?_, ?_⟩
        · rw [List.append_nil]
          exact ⟨rfl, hy, by simpa using hb2⟩
        · have := noAdj_sum_lt y hy
          have := fib_mono (show y.length + 2 ≤ 93 by omega)
          omega
      · rw [if_neg hb] at h2
        obtain ⟨r', h3, h4⟩ := SM.of_lift_bind h2
        have hb' : (bit && (y.getLast? == some true)) = false := by simpa using hb
        have hy' := noAdj_snoc hy hb'
        have hlt := noAdj_sum_lt _ hy'
        rw [List.length_append, fibSum_snoc] at hlt
        simp only [List.length_cons, List.length_nil, Nat.zero_add] at hlt
        by_cases hn : fib (y.length + 3) < 2 ^ 64
        · rw [tryNext_ok _ hn, SM.pure_bind] at h4
          rw [show y.length + 1 + 2 = y.length + 3 by omega] at hlt
          have hn' := (fib_fits _).1 hn
          have hr' : r' = fibSum 2 (y ++ [bit]) := by
            rw [fibSum_snoc]
            cases bit with
            | false => cases h3; rfl
            | true =>
              simp only [if_true] at h3 hlt ⊢
              rw [addN_ok (by show fibSum 2 y + fib (y.length + 2) < 2 ^ 64; omega)] at h3
              cases h3
              rfl
          obtain ⟨z, h5, h6, h7⟩ := ih _ _ _ _ _ _ h4 (y ++ [bit]) hr' (by simp) (by cases bit <;> simp) hy'
            (by simp; omega) v rfl
          rw [List.append_assoc] at h6
          exact ⟨bit :: z, .cons h1 h5, h6, h7⟩
        · rw [tryNext_err _ hn] at h4
          cases h4

theorem fibonacci_only (c : Cfg) : DecodesOnly (fibonacci c) (fun v => 1 ≤ v ∧ v < fib 93) fibWord := by
  intro σ R s s' v h
  obtain ⟨z, h1, h2, h3⟩ := fib_loop_some c R 0 (fibAt 0) false s s' v h [] rfl rfl rfl trivial (by decide)
  obtain ⟨h4, h5⟩ := isFibWord_iff.1 ⟨z, h2, rfl⟩
  exact ⟨_, h1, fun _ => ⟨⟨h4, h3⟩, h5⟩⟩

theorem fib_loop_total (c : Cfg) {R : BitRead σ} {Rep : σ → List Bool → Prop} (hR : LawfulSource R Rep)
    (bits : List Bool) (s : σ) (y : List Bool) (prev : Bool) (r : Nat)
    (hd : c.debug = true → y.length + bits.length < 92 ∧ r = fibSum 2 y ∧ prev = (y.getLast? == some true) ∧ NoAdj y)
    (hs : Rep s bits) :
    ∃ o s' k, Fibonacci.decodeLoop c R r (fibAt y.length) prev s = .ok (o, s') ∧ Rep s' (bits.drop k) := by
  induction bits generalizing s y prev r with
  | nil =>
    obtain ⟨s1, h1, h2⟩ := hR.none hs
    rw [fib_loop_stop c R (by rw [h1]; intro b s; simp), h1]
    exact ⟨_, s1, 0, rfl, h2⟩
  | cons b bits ih =>
    obtain ⟨s1, h1, h2⟩ := hR.some hs
    rw [Fibonacci.decodeLoop, SM.bind_run_ok h1]
    simp only
    by_cases hb : (b && prev) = true
    · rw [if_pos hb]
      exact ⟨_, s1, 1, rfl, h2⟩
    · rw [if_neg hb]
      have hadd : ∃ r', (if b = true then addN c 64 r (fibAt y.length).i else Res.ok r) = .ok r' ∧
          (c.debug = true → r' = fibSum 2 (y ++ [b]) ∧ NoAdj (y ++ [b])) := by
        by_cases hdb : c.debug = true
        · obtain ⟨h3, h4, h5, h6⟩ := hd hdb
          rw [List.length_cons] at h3
          subst h5
          have hy' := noAdj_snoc (b := b) h6 (by simpa using hb)
          have hlt := noAdj_sum_lt _ hy'
          rw [List.length_append, fibSum_snoc] at hlt
          simp only [List.length_cons, List.length_nil, Nat.zero_add] at hlt
          have hm := fib_mono (show y.length + 1 + 2 ≤ 93 by omega)
          have h64 := fib_93_lt
          refine ⟨fibSum 2 (y ++ [b]), ?_, fun _ => ⟨rfl, hy'⟩⟩
          rw [fibSum_snoc, h4]
          cases b with
          | false => rfl
          | true =>
            simp only [if_true] at hlt ⊢
            exact addN_ok (by show fibSum 2 y + fib (y.length + 2) < 2 ^ 64; omega)
        · cases b with
          | false => exact ⟨r, rfl, fun h => absurd h hdb⟩
          | true =>
            simp only [if_true]
            unfold addN overflow
            split
            · exact ⟨_, rfl, fun h => absurd h hdb⟩
            · exact ⟨_, rfl, fun h => absurd h hdb⟩
      obtain ⟨r', h3, h4⟩ := hadd
      rw [h3, SM.lift_ok_bind]
      by_cases hn : fib (y.length + 3) < 2 ^ 64
      · rw [tryNext_ok _ hn, SM.pure_bind]
        obtain ⟨o, s', k, h5, h6⟩ := ih s1 (y ++ [b]) b r' (fun h => by
          obtain ⟨h7, -⟩ := hd h
          obtain ⟨h8, h9⟩ := h4 h
          refine ⟨?_, h8, ?_, h9⟩
          · simp at h7 ⊢; omega
          · cases b <;> simp) h2
        rw [List.length_append] at h5
        exact ⟨o, s', k + 1, h5, h6⟩
      · rw [tryNext_err _ hn]
        exact ⟨_, s1, 1, rfl, h2⟩

end Succinct
