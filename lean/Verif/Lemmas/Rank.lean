import Verif.Lemmas.Law
import Verif.Model.Rank
/-! Counting ones in blocks and in bit lists. -/
namespace Succinct
open Spec

theorem countOnes_eq (x : BitVec w) : countOnes x = (blockBits x).count true := by
  unfold countOnes blockBits natBits
  rw [List.count_eq_countP, List.countP_map]
  apply List.countP_congr
  intro i hi
  simp [BitVec.getLsbD]

theorem countOnes_le (x : BitVec w) : countOnes x ≤ w := by
  rw [countOnes_eq]
  have := List.count_le_length (a := true) (l := blockBits x)
  rwa [length_blockBits] at this

theorem countOnes_mask (x : BitVec w) {k : Nat} (hk : k ≤ w) : countOnes (x &&& maskB w k) = ones (blockBits x) k := by
  have h1 : blockBits (x &&& maskB w k) = (blockBits x).take k ++ List.replicate (w - k) false := by
    apply bits_ext
    · rw [length_blockBits, List.length_append, List.length_take, length_blockBits, List.length_replicate]; omega
    · intro i hi
      rw [length_blockBits] at hi
      rw [getD_blockBits, BitVec.getLsbD_and, getLsbD_maskB, List.getElem?_append, List.length_take, length_blockBits,
        Nat.min_eq_left hk]
      split
      · rename_i hik
        rw [List.getElem?_take, if_pos hik, getD_blockBits]
        simp [hi, hik]
      · rename_i hik
        rw [List.getElem?_replicate, if_pos (by omega)]
        simp [hik]
  rw [countOnes_eq, h1, List.count_append, List.count_replicate]
  simp [ones]

theorem ones_add (bits : List Bool) (a k : Nat) : ones bits (a + k) = ones bits a + ((bits.drop a).take k).count true := by
  unfold ones
  rw [List.take_add, List.count_append]

theorem ones_le (bits : List Bool) (k : Nat) : ones bits k ≤ k := by
  unfold ones
  exact Nat.le_trans (List.count_le_length) (by rw [List.length_take]; omega)

theorem ones_le_length (bits : List Bool) (k : Nat) : ones bits k ≤ bits.length := by
  unfold ones
  exact Nat.le_trans (List.count_le_length) (by rw [List.length_take]; omega)

theorem ones_mono (bits : List Bool) {j k : Nat} (h : j ≤ k) : ones bits j ≤ ones bits k := by
  obtain ⟨d, rfl⟩ := Nat.exists_eq_add_of_le h
  rw [ones_add]; omega

theorem ones_succ (bits : List Bool) {k : Nat} (h : k < bits.length) : ones bits (k + 1) = ones bits k + (bits[k]).toNat := by
  rw [ones_add]
  congr 1
  rw [List.drop_eq_getElem_cons h, List.take_succ_cons, List.take_zero]
  cases bits[k] <;> rfl

theorem ones_add_zeros (bits : List Bool) (k : Nat) : ones bits k + zeros bits k = min k bits.length := by
  unfold ones zeros
  rw [← List.length_take]
  induction bits.take k with
  | nil => rfl
  | cons b l ih => cases b <;> simp <;> omega

theorem zeros_eq (bits : List Bool) {k : Nat} (h : k ≤ bits.length) : zeros bits k = k - ones bits k := by
  have := ones_add_zeros bits k
  rw [Nat.min_eq_left h] at this
  omega

/-- `rank1` on a word. -/
theorem primRank1_ok (c : Cfg) (h : IsBlk w) (x : BitVec w) {p : Nat} (hp : p < w) :
    primRank1 c x p = .ok (ones (blockBits x) (p + 1)) := by
  have := h.le
  unfold primRank1
  have h1 : (p + 1) % 2 ^ c.usz = p + 1 := Nat.mod_eq_of_lt (by have := h.lt_usz c; omega)
  rw [debugAssert_true hp, Res.ok_bind, addN_ok (by omega), Res.ok_bind, asUsize, h1, lowMask_ok c h hp, Res.ok_bind,
    countOnes_mask x hp]

/-- Number of ones in the first `i` blocks. -/
def prefixOnes (blk : Nat → BitVec w) : Nat → Nat
  | 0 => 0
  | i + 1 => prefixOnes blk i + countOnes (blk i)

theorem prefixOnes_le (blk : Nat → BitVec w) (i d : Nat) : prefixOnes blk (i + d) ≤ prefixOnes blk i + d * w := by
  induction d with
  | zero => simp
  | succ d ih =>
    show prefixOnes blk (i + d) + countOnes (blk (i + d)) ≤ _
    have := countOnes_le (blk (i + d))
    rw [Nat.succ_mul]; omega

theorem prefixOnes_mono (blk : Nat → BitVec w) {i j : Nat} (h : i ≤ j) : prefixOnes blk i ≤ prefixOnes blk j := by
  obtain ⟨d, rfl⟩ := Nat.exists_eq_add_of_le h
  induction d with
  | zero => exact Nat.le_refl _
  | succ d ih =>
    exact Nat.le_trans (ih (by omega)) (Nat.le_add_right _ _)

/-- What the block view of a bit vector says about its bits. -/
structure BlocksOf (o : BitVecOps w S) (s : S) (bits : List Bool) (blk : Nat → BitVec w) : Prop where
  get : ∀ i < blocksFor w bits.length, o.getBlock s i = .ok (blk i)
  bit : ∀ i j, j < w → i * w + j < bits.length → some ((blk i).toNat.testBit j) = bits[i * w + j]?

theorem BVBlockRead.blocks {o : BitVecOps w S} {R : S → List Bool → Prop} (hw : 0 < w) (h : BVBlockRead o R)
    {s : S} {bits : List Bool} (hR : R s bits) : ∃ blk, BlocksOf o s bits blk := by
  classical
  refine ⟨fun i => if hi : i < blocksFor w bits.length then (h.getBlock hR i hi).choose else 0, ?_, ?_⟩
  · intro i hi
    rw [dif_pos hi]
    exact (h.getBlock hR i hi).choose_spec.1
  · intro i j hj hij
    have hi : i < blocksFor w bits.length := (lt_blocksFor hw).2 (by omega)
    rw [dif_pos hi]
    exact (h.getBlock hR i hi).choose_spec.2 j hj hij

theorem BlocksOf.window {o : BitVecOps w S} (h : BlocksOf o s bits blk) {i k : Nat} (hk : k ≤ w)
    (hik : i * w + k ≤ bits.length) : (bits.drop (i * w)).take k = (blockBits (blk i)).take k := by
  apply List.ext_getElem?
  intro j
  rw [List.getElem?_take, List.getElem?_take]
  split
  · rename_i hj
    rw [List.getElem?_drop, ← h.bit i j (by omega) (by omega), blockBits, getElem?_natBits, if_pos (by omega)]
  · rfl

theorem BlocksOf.ones_mul {o : BitVecOps w S} (h : BlocksOf o s bits blk) {i : Nat} (hi : i * w ≤ bits.length) :
    ones bits (i * w) = prefixOnes blk i := by
  induction i with
  | zero => simp [ones, prefixOnes]
  | succ i ih =>
    rw [Nat.succ_mul] at hi ⊢
    rw [ones_add, ih (by omega), h.window (Nat.le_refl _) hi, List.take_of_length_le (by simp), ← countOnes_eq]
    rfl

/-- Rank at a position: the ones in the blocks before, plus those in the block. -/
theorem BlocksOf.ones_split {o : BitVecOps w S} (h : BlocksOf o s bits blk) {p : Nat} (hw : 0 < w) (hp : p < bits.length) :
    ones bits (p + 1) = prefixOnes blk (p / w) + ones (blockBits (blk (p / w))) (p % w + 1) := by
  obtain ⟨q, r, hr, rfl, h1, h2⟩ := divmod_cases w p hw
  rw [h1, h2, Nat.add_assoc, ones_add, h.ones_mul (by omega), h.window (by omega) (by omega)]
  rfl

theorem BlocksOf.prefix_le {o : BitVecOps w S} {R : S → List Bool → Prop} (hw : 0 < w) (hp : BVPadLaw o R) (hR : R s bits)
    (h : BlocksOf o s bits blk) {i : Nat} (hi : i ≤ blocksFor w bits.length) : prefixOnes blk i ≤ bits.length := by
  by_cases him : i * w ≤ bits.length
  · rw [← h.ones_mul him]; exact ones_le_length _ _
  · rcases i with _ | i
    · simp at him
    · have hlt : i < blocksFor w bits.length := hi
      have hil := (lt_blocksFor hw).1 hlt
      have hb := h.get i hlt
      rw [hp.getBlock hR i hlt] at hb
      have hb := Res.ok.inj hb
      show prefixOnes blk i + countOnes (blk i) ≤ _
      rw [← h.ones_mul (by omega), ← hb, countOnes_eq]
      have hpad : blockBits (BitVec.ofNat w (bitsVal ((bits.drop (i * w)).take w))) =
          (bits.drop (i * w)).take w ++ List.replicate (w - ((bits.drop (i * w)).take w).length) false := by
        apply bits_ext
        · rw [length_blockBits, List.length_append, List.length_replicate, List.length_take]; omega
        · intro j hj
          rw [length_blockBits] at hj
          rw [getD_blockBits, BitVec.getLsbD_ofNat, testBit_bitsVal, List.getElem?_append]
          simp only [hj, decide_true, Bool.true_and]
          split
          · rfl
          · rename_i hjl
            rw [List.getElem?_eq_none (by omega), List.getElem?_replicate, if_pos (by omega)]; rfl
      rw [hpad, List.count_append, List.count_replicate]
      have h1 : ((bits.drop (i * w)).take w).count true ≤ bits.length - i * w :=
        Nat.le_trans List.count_le_length (by rw [List.length_take, List.length_drop]; omega)
      have h2 := ones_le bits (i * w)
      simp
      omega

end Succinct
