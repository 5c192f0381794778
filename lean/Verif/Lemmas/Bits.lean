import Verif.Spec
/-! Helper lemmas about the specification vocabulary (lists of bits). -/
namespace Succinct
open Spec

theorem lt_blocksFor {w n i : Nat} (hw : 0 < w) : i < blocksFor w n ↔ i * w < n := by
  unfold blocksFor
  rw [show (i < (n + (w - 1)) / w) ↔ i + 1 ≤ (n + (w - 1)) / w from Iff.rfl,
    Nat.le_div_iff_mul_le hw, Nat.succ_mul]
  omega

theorem blocksFor_le {w n i : Nat} (hw : 0 < w) : blocksFor w n ≤ i ↔ n ≤ i * w := by
  have := lt_blocksFor (w := w) (n := n) (i := i) hw
  omega

theorem blocksFor_mul (w k : Nat) (hw : 0 < w) : blocksFor w (k * w) = k := by
  apply Nat.le_antisymm
  · rw [blocksFor_le hw]; omega
  · rcases k with _ | k
    · omega
    · have := (lt_blocksFor (w := w) (n := (k + 1) * w) (i := k) hw).2 (by rw [Nat.succ_mul]; omega)
      omega

@[simp] theorem blocksFor_zero (w : Nat) : blocksFor w 0 = 0 := by
  unfold blocksFor
  rcases w with _ | w
  · simp
  · simp

theorem le_blocksFor_mul {w : Nat} (n : Nat) (hw : 0 < w) : n ≤ blocksFor w n * w :=
  (blocksFor_le hw).1 (Nat.le_refl _)

theorem blocksFor_mul_lt {w n : Nat} (hw : 0 < w) : blocksFor w n * w < n + w := by
  rcases hb : blocksFor w n with _ | k
  · omega
  · have := (lt_blocksFor (w := w) (n := n) (i := k) hw).1 (by omega)
    rw [Nat.succ_mul]; omega

theorem blocksFor_mono {w m n : Nat} (h : m ≤ n) : blocksFor w m ≤ blocksFor w n := by
  unfold blocksFor
  exact Nat.div_le_div_right (by omega)

theorem divmod_cases (w i : Nat) (hw : 0 < w) : ∃ q r, r < w ∧ i = q * w + r ∧ i / w = q ∧ i % w = r := by
  refine ⟨i / w, i % w, Nat.mod_lt _ hw, ?_, rfl, rfl⟩
  have := Nat.div_add_mod i w
  rw [Nat.mul_comm] at this
  omega

theorem mul_add_div' {w q r : Nat} (h : r < w) : (q * w + r) / w = q := by
  rw [Nat.mul_comm, Nat.mul_add_div (by omega), Nat.div_eq_of_lt h, Nat.add_zero]
theorem mul_add_mod' {w q r : Nat} (h : r < w) : (q * w + r) % w = r := by
  rw [Nat.mul_comm, Nat.mul_add_mod, Nat.mod_eq_of_lt h]

theorem Spec.Fits.mono {u w m n : Nat} (h : Fits u w n) (hm : m ≤ n) : Fits u w m :=
  ⟨by
    have := h.1
    have := Nat.mul_le_mul_right w (blocksFor_mono (w := w) hm)
    omega, Nat.lt_of_le_of_lt (blocksFor_mono hm) h.2⟩

theorem Spec.Fits.lt {u w n : Nat} (h : Fits u w n) (hw : 0 < w) : n + w < 2 ^ 64 := by
  have := h.1
  have := le_blocksFor_mul n hw
  omega

theorem Spec.Fits.pad {u w n : Nat} (h : Fits u w n) (hw : 0 < w) : Fits u w (blocksFor w n * w) := by
  unfold Fits
  rw [blocksFor_mul w _ hw]
  exact h

/-- block indices of a vector that fits are small -/
theorem Spec.Fits.div_lt {u w n i : Nat} (h : Fits u w n) (hw : 0 < w) (hi : i < n) : i / w < 2 ^ u := by
  have : i / w < blocksFor w n := by
    rw [lt_blocksFor hw]
    have := Nat.div_mul_le_self i w
    omega
  have := h.2
  omega

/-! ### `bitsVal` and `natBits` -/

theorem bitsVal_lt (l : List Bool) : bitsVal l < 2 ^ l.length := by
  induction l with
  | nil => simp [bitsVal]
  | cons b l ih =>
    simp only [bitsVal, List.length_cons, Nat.pow_succ]
    cases b <;> simp <;> omega

theorem testBit_bitsVal (l : List Bool) (j : Nat) : (bitsVal l).testBit j = l[j]?.getD false := by
  induction l generalizing j with
  | nil => simp [bitsVal]
  | cons b l ih =>
    rcases j with _ | j
    · cases b <;> simp [bitsVal, Nat.testBit_zero] <;> omega
    · rw [Nat.testBit_succ, show (bitsVal (b :: l)) / 2 = bitsVal l by
        cases b <;> simp [bitsVal] <;> omega, ih]
      simp

@[simp] theorem length_natBits (n x : Nat) : (natBits n x).length = n := by simp [natBits]

theorem getElem?_natBits (n x i : Nat) : (natBits n x)[i]? = if i < n then some (x.testBit i) else none := by
  unfold natBits
  rw [List.getElem?_map]
  split
  · next h => simp [List.getElem?_range h]
  · next h => rw [List.getElem?_eq_none (by simp; omega)]; rfl

theorem bitsVal_natBits (n x : Nat) : bitsVal (natBits n x) = x % 2 ^ n := by
  apply Nat.eq_of_testBit_eq
  intro i
  rw [testBit_bitsVal, getElem?_natBits, Nat.testBit_mod_two_pow]
  by_cases h : i < n <;> simp [h]

theorem natBits_bitsVal (l : List Bool) : natBits l.length (bitsVal l) = l := by
  apply List.ext_getElem?
  intro i
  rw [getElem?_natBits, testBit_bitsVal]
  by_cases h : i < l.length
  · simp [h]
  · simp [h]

theorem natBits_congr {n x y : Nat} (h : x % 2 ^ n = y % 2 ^ n) : natBits n x = natBits n y := by
  apply List.ext_getElem?
  intro i
  rw [getElem?_natBits, getElem?_natBits]
  by_cases hi : i < n
  · have := congrArg (fun z => z.testBit i) h
    simp only [Nat.testBit_mod_two_pow, hi, decide_true, Bool.true_and] at this
    simp [hi, this]
  · simp [hi]

@[simp] theorem length_blockBits (b : BitVec w) : (blockBits b).length = w := by simp [blockBits]

theorem getElem?_blockBits (b : BitVec w) (i : Nat) :
    (blockBits b)[i]? = if i < w then some (b.getLsbD i) else none := getElem?_natBits _ _ _

theorem getD_blockBits (b : BitVec w) (i : Nat) : (blockBits b)[i]?.getD false = b.getLsbD i := by
  rw [getElem?_blockBits]
  split
  · rfl
  · next h => rw [BitVec.getLsbD_of_ge b i (by omega)]; rfl

@[simp] theorem length_arrayBits (v : List (BitVec w)) : (arrayBits v).length = v.length * w := by
  induction v with
  | nil => simp [arrayBits]
  | cons b v ih =>
    simp only [arrayBits, List.flatMap_cons, List.length_append, length_blockBits,
      List.length_cons, Nat.succ_mul] at *
    omega

/-- bit `i` of an array of blocks (false past the end) -/
def vbit (v : List (BitVec w)) (i : Nat) : Bool := (v[i / w]?.getD 0).getLsbD (i % w)

theorem vbit_of_ge {v : List (BitVec w)} {i : Nat} (hw : 0 < w) (h : v.length * w ≤ i) : vbit v i = false := by
  have : v.length ≤ i / w := (Nat.le_div_iff_mul_le hw).2 h
  simp [vbit, List.getElem?_eq_none this]

theorem arrayBits_cons (b : BitVec w) (v : List (BitVec w)) : arrayBits (b :: v) = blockBits b ++ arrayBits v := by
  simp [arrayBits]

theorem arrayBits_append (u v : List (BitVec w)) : arrayBits (u ++ v) = arrayBits u ++ arrayBits v := by
  simp [arrayBits]

theorem getElem?_arrayBits (v : List (BitVec w)) (hw : 0 < w) (i : Nat) :
    (arrayBits v)[i]? = if i < v.length * w then some (vbit v i) else none := by
  induction v generalizing i with
  | nil => simp [arrayBits]
  | cons b v ih =>
    rw [arrayBits_cons, List.getElem?_append, length_blockBits]
    by_cases h : i < w
    · rw [if_pos h, getElem?_blockBits, if_pos h, if_pos (by simp [Nat.succ_mul]; omega)]
      simp [vbit, Nat.div_eq_of_lt h, Nat.mod_eq_of_lt h]
    · rw [if_neg h, ih]
      have e1 : i / w = (i - w) / w + 1 := by
        rw [Nat.div_eq i w, if_pos ⟨hw, by omega⟩]
      have e2 : i % w = (i - w) % w := Nat.mod_eq_sub_mod (by omega)
      have e3 : vbit (b :: v) i = vbit v (i - w) := by
        simp [vbit, e1, e2]
      rw [e3]
      by_cases h2 : i - w < v.length * w
      · rw [if_pos h2, if_pos (by simp [Nat.succ_mul]; omega)]
      · rw [if_neg h2, if_neg (by simp [Nat.succ_mul]; omega)]

theorem getD_arrayBits (v : List (BitVec w)) (hw : 0 < w) (i : Nat) :
    (arrayBits v)[i]?.getD false = vbit v i := by
  rw [getElem?_arrayBits v hw]
  split
  · rfl
  · next h => rw [vbit_of_ge hw (by omega)]; rfl

/-- two bit lists of equal length with equal bits are equal -/
theorem bits_ext {l m : List Bool} (hl : l.length = m.length)
    (h : ∀ i, i < l.length → l[i]?.getD false = m[i]?.getD false) : l = m := by
  apply List.ext_getElem hl
  intro i h1 h2
  have := h i h1
  simpa [List.getElem?_eq_getElem h1, List.getElem?_eq_getElem h2] using this

theorem block_ext {a b : BitVec w} (h : blockBits a = blockBits b) : a = b := by
  apply BitVec.eq_of_getLsbD_eq
  intro i _
  rw [← getD_blockBits, ← getD_blockBits, h]

/-! ### `overwrite` -/

theorem length_overwrite {l : List α} {p : Nat} {new : List α} (h : p + new.length ≤ l.length) :
    (overwrite l p new).length = l.length := by
  simp [overwrite]; omega

theorem getElem?_overwrite {l : List α} {p : Nat} {new : List α} (h : p + new.length ≤ l.length) (i : Nat) :
    (overwrite l p new)[i]? = if p ≤ i ∧ i < p + new.length then new[i - p]? else l[i]? := by
  unfold overwrite
  have hp : (l.take p).length = p := by simp; omega
  rw [List.append_assoc, List.getElem?_append, hp]
  by_cases h1 : i < p
  · rw [if_pos h1, if_neg (by omega), List.getElem?_take, if_pos h1]
  · rw [if_neg h1, List.getElem?_append]
    by_cases h2 : i - p < new.length
    · rw [if_pos h2, if_pos (by omega)]
    · rw [if_neg h2, if_neg (by omega), List.getElem?_drop]
      congr 1; omega

/-- the number at a span of a bit list, bit by bit -/
theorem testBit_span (bits : List Bool) (s n j : Nat) :
    (bitsVal ((bits.drop s).take n)).testBit j = (decide (j < n) && bits[s + j]?.getD false) := by
  rw [testBit_bitsVal, List.getElem?_take]
  split
  · next h => simp [h, List.getElem?_drop]
  · next h => simp [h]

theorem span_lt (bits : List Bool) (s n w : Nat) (h : n ≤ w) : bitsVal ((bits.drop s).take n) < 2 ^ w := by
  have h1 := bitsVal_lt ((bits.drop s).take n)
  have h2 : ((bits.drop s).take n).length ≤ n := by simp; omega
  have h3 := Nat.pow_le_pow_right (n := 2) (by omega) (Nat.le_trans h2 h)
  omega

theorem eq_ofNat_span {y : BitVec w} {bits : List Bool} {s n : Nat} (h : n ≤ w)
    (hy : ∀ j, y.getLsbD j = (decide (j < n) && bits[s + j]?.getD false)) :
    y = BitVec.ofNat w (bitsVal ((bits.drop s).take n)) := by
  apply BitVec.eq_of_toNat_eq
  rw [BitVec.toNat_ofNat, Nat.mod_eq_of_lt (span_lt _ _ _ _ h)]
  apply Nat.eq_of_testBit_eq
  intro j
  rw [testBit_span]
  exact hy j

end Succinct
