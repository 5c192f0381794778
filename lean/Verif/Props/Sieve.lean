import Mathlib.Data.Nat.Prime.Defs
import Verif.Props.Neighbours
import Verif.Props.BitVector
/-! Property C173: the primes below a bound as a bit vector, counted by rank and listed by select. The program here is not in the crate;
it calls its `with_fill`, `get_bit`, `set_bit`, `Rank9` and `select`. -/
namespace Succinct
open Spec

/-- Which numbers below `n` are prime. -/
def Spec.primeBits (n : Nat) : List Bool := (List.range n).map fun m => decide (Nat.Prime m)

section
variable (c : Cfg)

/-- `while j < n { v.set_bit(j, false); j += i }` -/
def sieveCross (n i j : Nat) (v : VB 64) : Res (VB 64) :=
  if j < n then do
    let v ← (bvBitVecMut c 64).setBit v j false
    let j ← addN c 64 j i
    sieveCross n i j v
  else .ok v
partial_fixpoint

/-- `let mut v = BitVector::with_fill(n, true); for i in 0 .. min(2, n) { v.set_bit(i, false) }
for i in 2 .. n { if v.get_bit(i) { let mut j = i + i; while j < n { … } } }` -/
def sieve (n : Nat) : Res (VB 64) := do
  let v ← BV.withFill c 64 n true
  let v ← forRange 0 (min 2 n) v fun i v => (bvBitVecMut c 64).setBit v i false
  forRange 2 n v fun i v => do
    let b ← (bvBitVec c 64).getBit v i
    if b then do
      let j ← addN c 64 i i
      sieveCross c n i j v
    else .ok v
end

/-- Bits given by what holds of their places. -/
def bitsOf (n : Nat) (P : Nat → Prop) [DecidablePred P] : List Bool := (List.range n).map fun m => decide (P m)

section
variable {c : Cfg} {n : Nat}

theorem bitsOf_length (P : Nat → Prop) [DecidablePred P] : (bitsOf n P).length = n := by simp [bitsOf]

theorem bitsOf_getElem? (P : Nat → Prop) [DecidablePred P] {m : Nat} (hm : m < n) : (bitsOf n P)[m]? = some (decide (P m)) := by
  simp [bitsOf, hm]

theorem bitsOf_congr {P Q : Nat → Prop} [DecidablePred P] [DecidablePred Q] (h : ∀ m < n, P m ↔ Q m) : bitsOf n P = bitsOf n Q := by
  apply List.map_congr_left
  intro m hm
  simp [h m (List.mem_range.1 hm)]

theorem bitsOf_clear {P : Nat → Prop} [DecidablePred P] (j : Nat) : (bitsOf n P).set j false = bitsOf n fun m => P m ∧ m ≠ j := by
  apply List.ext_getElem?
  intro m
  by_cases hm : m < n
  · rw [bitsOf_getElem? _ hm, List.getElem?_set, bitsOf_length, bitsOf_getElem? _ hm]
    by_cases e : j = m
    · simp [e, hm]
    · simp [e, Ne.symm e]
  · rw [List.getElem?_eq_none (by simp [bitsOf_length]; omega), List.getElem?_eq_none (by rw [bitsOf_length]; omega)]

theorem sieveCross_ok {i : Nat} (hi : 0 < i) (hin : i < n) (hn : n ≤ 2 ^ 63) {j : Nat} (hd : i ∣ j) {P : Nat → Prop} [DecidablePred P] {v : VB 64}
    (hR : bvR c 64 v (bitsOf n P)) :
    ∃ v', sieveCross c n i j v = .ok v' ∧ bvR c 64 v' (bitsOf n fun m => P m ∧ ¬ (i ∣ m ∧ j ≤ m)) := by
  generalize hk : n - j = k
  induction k using Nat.strongRecOn generalizing j v P with
  | ind k ih =>
    rw [sieveCross]
    split
    · next hj =>
      obtain ⟨v1, e1, r1⟩ := (bv_mut_law c isBlk64).setBit hR j false (by rw [bitsOf_length]; exact hj)
      rw [bitsOf_clear] at r1
      obtain ⟨v2, e2, r2⟩ := ih (n - (j + i)) (by omega) (Nat.dvd_add hd (Nat.dvd_refl i)) r1 rfl
      refine ⟨v2, by rw [e1, Res.ok_bind, addN_ok (by omega), Res.ok_bind, e2], ?_⟩
      rwa [bitsOf_congr (Q := fun m => P m ∧ ¬ (i ∣ m ∧ j ≤ m))] at r2
      intro m _
      constructor
      · rintro ⟨⟨h1, h2⟩, h3⟩
        refine ⟨h1, fun ⟨h4, h5⟩ => h3 ⟨h4, ?_⟩⟩
        have h6 := Nat.dvd_sub h4 hd
        have := Nat.le_of_dvd (by omega) h6
        omega
      · rintro ⟨h1, h2⟩
        refine ⟨⟨h1, fun e => h2 ?_⟩, fun ⟨h4, h5⟩ => h2 ⟨h4, by omega⟩⟩
        subst e
        exact ⟨hd, Nat.le_refl _⟩
    · next hj =>
      refine ⟨v, rfl, ?_⟩
      rwa [bitsOf_congr (Q := fun m => P m ∧ ¬ (i ∣ m ∧ j ≤ m))] at hR
      intro m hm
      exact ⟨fun h => ⟨h, fun h' => by omega⟩, fun h => h.1⟩

/-- Not crossed out by a prime below `i`. -/
def Uncrossed (i m : Nat) : Prop := 2 ≤ m ∧ ∀ p < i, Nat.Prime p → p ∣ m → p = m

instance (i : Nat) : DecidablePred (Uncrossed i) := fun m => by unfold Uncrossed; infer_instance

theorem uncrossed_prime {i : Nat} : Uncrossed i i ↔ Nat.Prime i := by
  constructor
  · rintro ⟨h1, h2⟩
    by_contra h
    have h3 : i.minFac < i := Nat.lt_of_le_of_ne (Nat.minFac_le (by omega)) fun e => h (e ▸ Nat.minFac_prime (by omega))
    exact absurd (h2 _ h3 (Nat.minFac_prime (by omega)) (Nat.minFac_dvd i)) (by omega)
  · intro h
    refine ⟨h.two_le, fun p hp hpp hd => ?_⟩
    exact (Nat.prime_dvd_prime_iff_eq hpp h).1 hd

theorem uncrossed_all {m : Nat} (hm : m < n) : Uncrossed n m ↔ Nat.Prime m := by
  rw [← uncrossed_prime]
  refine ⟨fun h => ⟨h.1, fun p hp => h.2 p (by omega)⟩, fun h => ⟨h.1, fun p _ hpp hd => ?_⟩⟩
  have := Nat.le_of_dvd (by have := h.1; omega) hd
  rcases Nat.lt_or_ge p m with q | q
  · exact h.2 p q hpp hd
  · omega

theorem sieve_ok (c : Cfg) (hf : Fits c.usz 64 n) (hn : n ≤ 2 ^ 63) : ∃ v, sieve c n = .ok v ∧ bvR c 64 v (primeBits n) := by
  obtain ⟨v, e1, r1⟩ := (C17_fill c isBlk64).1 n true hf
  have r1 : bvR c 64 v (bitsOf n fun m => 0 ≤ m) := by
    have e : List.replicate n true = bitsOf n fun m => 0 ≤ m := by simp [bitsOf, List.map_const']
    rw [← e]
    exact r1.rep isBlk64
  have hm := bv_mut_law c isBlk64
  obtain ⟨v1, e2, r2⟩ := forRange_inv (lo := 0) (hi := min 2 n) (s := v) (f := fun i v => (bvBitVecMut c 64).setBit v i false)
    (fun i v => bvR c 64 v (bitsOf n fun m => i ≤ m)) (Nat.zero_le _) r1 (fun i v _ hi hR => by
      obtain ⟨v', h1, h2⟩ := hm.setBit hR i false (by rw [bitsOf_length]; omega)
      rw [bitsOf_clear, bitsOf_congr (Q := fun m => i + 1 ≤ m) (fun m _ => by omega)] at h2
      exact ⟨v', h1, h2⟩)
  rw [sieve, e1, Res.ok_bind, e2, Res.ok_bind]
  by_cases h2n : n ≤ 2
  · refine ⟨v1, ?_, ?_⟩
    · rw [forRange, Nat.sub_eq_zero_of_le h2n]; rfl
    · rw [primeBits, ← bitsOf]
      rwa [bitsOf_congr (Q := Nat.Prime)] at r2
      intro m hm'
      exact ⟨fun h => by omega, fun h => by have := h.two_le; omega⟩
  · have r2 : bvR c 64 v1 (bitsOf n (Uncrossed 2)) := by
      rwa [bitsOf_congr (Q := Uncrossed 2)] at r2
      intro m _
      constructor
      · intro h
        exact ⟨by omega, fun p hp hpp => by have := hpp.two_le; omega⟩
      · intro h
        have := h.1
        omega
    obtain ⟨v2, e3, r3⟩ := forRange_inv (lo := 2) (hi := n) (s := v1) (f := fun i v => do
        let b ← (bvBitVec c 64).getBit v i
        if b then do
          let j ← addN c 64 i i
          sieveCross c n i j v
        else .ok v)
      (fun i v => bvR c 64 v (bitsOf n (Uncrossed i))) (by omega) r2 (fun i v hlo hi hR => by
        rw [(bv_law c isBlk64).getBit hR i (by omega), bitsOf_getElem? _ hi, expectR_some, Res.ok_bind]
        by_cases hp : Uncrossed i i
        · rw [if_pos (by simpa using hp), addN_ok (by omega), Res.ok_bind]
          obtain ⟨v', h1, h2⟩ := sieveCross_ok (by omega) hi hn (Nat.dvd_add (Nat.dvd_refl i) (Nat.dvd_refl i)) hR
          refine ⟨v', h1, ?_⟩
          rwa [bitsOf_congr (Q := Uncrossed (i + 1))] at h2
          intro m _
          constructor
          · rintro ⟨⟨h3, h4⟩, h5⟩
            refine ⟨h3, fun p hlt hpp hd => ?_⟩
            rcases Nat.lt_or_ge p i with q | q
            · exact h4 p q hpp hd
            · have e : p = i := by omega
              subst e
              obtain ⟨t, rfl⟩ := hd
              have : t = 1 := by
                by_contra ht
                have h0 : t ≠ 0 := by rintro rfl; simp at h3
                exact h5 ⟨Nat.dvd_mul_right _ _, by rw [← Nat.mul_two]; exact Nat.mul_le_mul_left _ (by omega)⟩
              rw [this, Nat.mul_one]
          · rintro ⟨h3, h4⟩
            refine ⟨⟨h3, fun p hlt => h4 p (by omega)⟩, fun ⟨h5, h6⟩ => ?_⟩
            have := h4 i (by omega) (uncrossed_prime.1 hp) h5
            omega
        · rw [if_neg (by simpa using hp)]
          refine ⟨v, rfl, ?_⟩
          rwa [bitsOf_congr (Q := Uncrossed (i + 1))] at hR
          intro m _
          refine ⟨fun h => ⟨h.1, fun p hlt hpp hd => ?_⟩, fun h => ⟨h.1, fun p hlt => h.2 p (by omega)⟩⟩
          rcases Nat.lt_or_ge p i with q | q
          · exact h.2 p q hpp hd
          · have e : p = i := by omega
            subst e
            exact absurd (uncrossed_prime.2 hpp) hp)
    refine ⟨v2, e3, ?_⟩
    rw [primeBits, ← bitsOf]
    rwa [bitsOf_congr (Q := Nat.Prime) (fun m hm' => uncrossed_all hm')] at r3
end

/-- How many primes there are below `n`. -/
def Spec.primesBelow (n : Nat) : Nat := (List.range n).countP fun m => decide (Nat.Prime m)

theorem occ_primeBits {n p : Nat} (hp : p ≤ n) : occ true (primeBits n) p = primesBelow p := by
  rw [occ, primeBits, ← List.map_take, List.take_range, Nat.min_eq_left hp, List.count, List.countP_map, primesBelow]
  congr 1
  funext m
  simp

/-- C173: the program leaves a one exactly at the primes; `rank1` then counts the primes up to any place and `select1` gives them in
order. -/
theorem C173_sieve (c : Cfg) {n : Nat} (hf : Fits c.usz 64 n) (hn : n ≤ 2 ^ 63) (hu : blocksFor 64 n + 8 < 2 ^ c.usz) :
    ∃ v r, sieve c n = .ok v ∧ BvReach c 64 v ((List.range n).map fun m => decide (Nat.Prime m)) ∧
      Rank9.new c (bvBitVec c 64) v = .ok r ∧
      (∀ p < n, (Rank9.ops c (bvBitVec c 64)).rank1 r p = .ok (primesBelow (p + 1))) ∧
      ∀ k, k + 1 < 2 ^ 64 → ∃ o, BinSearchSelect.select1 c (Rank9.ops c (bvBitVec c 64)) (.new r) k = .ok o ∧
        (∀ q, o = some q → q < n ∧ Nat.Prime q ∧ primesBelow q = k) ∧ (o = none → primesBelow n ≤ k) := by
  obtain ⟨v, e1, r1⟩ := sieve_ok c hf hn
  have hl : (primeBits n).length = n := by simp [primeBits]
  obtain ⟨r, e2, -, hr⟩ := C39_rank9 (bv_law c isBlk64) (bv_block c isBlk64).toBVBlockRead r1 (by rw [hl]; exact hu)
  refine ⟨v, r, e1, bvR.reach isBlk64 r1, e2, fun p hp => ?_, fun k hk => ?_⟩
  · rw [hr.rank1 p (by rw [hl]; exact hp)]
    congr 1
    exact occ_primeBits hp
  · obtain ⟨o, h1, h2⟩ := (C44_select_partial c hr hk).1
    refine ⟨o, h1, fun q hq => ?_, fun ho => ?_⟩
    · subst hq
      obtain ⟨h3, h4⟩ := h2
      have hq : q < n := by
        have := (List.getElem?_eq_some_iff.1 h3).1
        rwa [hl] at this
      rw [occ_primeBits (by omega)] at h4
      rw [primeBits, List.getElem?_map, List.getElem?_range hq] at h3
      exact ⟨hq, by simpa using h3, h4⟩
    · subst ho
      have h3 : (primeBits n).count true ≤ k := h2
      rw [← occ_primeBits (Nat.le_refl n), occ, List.take_of_length_le (by rw [hl])]
      exact h3

end Succinct
