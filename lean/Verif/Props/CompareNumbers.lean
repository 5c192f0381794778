import Verif.Props.BigNumbers
/-! Property C187: numbers of any length in bit vectors, compared a block at a time from the top. The program here is not in the crate; it calls its
`block_len` and `get_block`. -/
namespace Succinct
open Spec

section
variable {S T : Type} {w : Nat}

/-- `for i in (0 .. m).rev() { let (x, y) = (a.get_block(i), b.get_block(i)); if x < y { return Less } if y < x { return Greater } } Equal` -/
def compareFrom (oa : BitVecOps w S) (ob : BitVecOps w T) (a : S) (b : T) : Nat → Res Ordering
  | 0 => .ok .eq
  | i + 1 => do
    let x ← oa.getBlock a i
    let y ← ob.getBlock b i
    if x.toNat < y.toNat then .ok .lt
    else if y.toNat < x.toNat then .ok .gt
    else compareFrom oa ob a b i

/-- The above from `a.block_len()` down. -/
def compareNumber (oa : BitVecOps w S) (ob : BitVecOps w T) (a : S) (b : T) : Res Ordering := do
  let n ← oa.blockLen a
  compareFrom oa ob a b n
end

/-- The higher parts decide, if they differ. -/
theorem compare_high {p l m x y : Nat} (hl : l < 2 ^ p) (hm : m < 2 ^ p) :
    compare (l + 2 ^ p * x) (m + 2 ^ p * y) = if x < y then .lt else if y < x then .gt else compare l m := by
  have high {l m x y : Nat} (hl : l < 2 ^ p) (h : x < y) : l + 2 ^ p * x < m + 2 ^ p * y := by
    have : 2 ^ p * (x + 1) ≤ 2 ^ p * y := Nat.mul_le_mul_left _ h
    rw [Nat.mul_succ] at this
    omega
  by_cases h1 : x < y
  · rw [if_pos h1]
    exact Nat.compare_eq_lt.2 (high hl h1)
  · by_cases h2 : y < x
    · rw [if_neg h1, if_pos h2]
      exact Nat.compare_eq_gt.2 (high hm h2)
    · obtain rfl : x = y := by omega
      rw [if_neg h1, if_neg h1]
      rcases Nat.lt_trichotomy l m with q | q | q
      · rw [Nat.compare_eq_lt.2 q, Nat.compare_eq_lt.2 (by omega)]
      · rw [q, Nat.compare_eq_eq.2 rfl, Nat.compare_eq_eq.2 rfl]
      · rw [Nat.compare_eq_gt.2 q, Nat.compare_eq_gt.2 (by omega)]

variable {S T : Type} {w : Nat}

theorem compareFrom_ok (hw : 0 < w) {oa : BitVecOps w S} {ob : BitVecOps w T} {R : S → List Bool → Prop} {Q : T → List Bool → Prop} (ha : BVPadLaw oa R)
    (hb : BVPadLaw ob Q) {a : S} {b : T} {as bs : List Bool} (hR : R a as) (hQ : Q b bs) (hl : as.length = bs.length) {m : Nat}
    (hm : m ≤ blocksFor w as.length) :
    compareFrom oa ob a b m = .ok (compare (bitsVal (as.take (m * w))) (bitsVal (bs.take (m * w)))) := by
  induction m with
  | zero =>
    rw [compareFrom, Nat.zero_mul, List.take_zero, List.take_zero]
    rfl
  | succ m ih =>
    have hp : m * w < as.length := (lt_blocksFor hw).1 hm
    have val (l : List Bool) : (BitVec.ofNat w (bitsVal ((l.drop (m * w)).take w))).toNat = bitsVal ((l.drop (m * w)).take w) := by
      have := bitsVal_lt ((l.drop (m * w)).take w)
      rw [BitVec.toNat_ofNat, Nat.mod_eq_of_lt (Nat.lt_of_lt_of_le this (Nat.pow_le_pow_right (by decide) (by rw [List.length_take]; omega)))]
    have low (l : List Bool) (h : m * w ≤ l.length) : bitsVal (l.take (m * w)) < 2 ^ (m * w) := by
      have := bitsVal_lt (l.take (m * w))
      rwa [List.length_take, Nat.min_eq_left h] at this
    rw [compareFrom, ha.getBlock hR m hm, Res.ok_bind, hb.getBlock hQ m (by rw [← hl]; exact hm), Res.ok_bind, val, val, Nat.succ_mul,
      take_split as (by omega), take_split bs (by omega), compare_high (low as (by omega)) (low bs (by omega)), ih (by omega)]
    split
    · rfl
    · split <;> rfl

/-- C187: over vectors of the same length whose last blocks read as zero beyond the end, the comparison is that of the numbers. -/
theorem C187_compare (hw : IsBlk w) {oa : BitVecOps w S} {ob : BitVecOps w T} {R : S → List Bool → Prop} {Q : T → List Bool → Prop} (hr : BVBlockRead oa R)
    (ha : BVPadLaw oa R) (hb : BVPadLaw ob Q) {a : S} {b : T} {as bs : List Bool} (hR : R a as) (hQ : Q b bs) (hl : as.length = bs.length) :
    compareNumber oa ob a b = .ok (compare (bitsVal as) (bitsVal bs)) := by
  have h := le_blocksFor_mul as.length hw.pos
  rw [compareNumber, hr.blockLen hR, Res.ok_bind, compareFrom_ok hw.pos ha hb hR hQ hl (Nat.le_refl _), List.take_of_length_le h,
    List.take_of_length_le (by omega)]

/-- C187 for two `BitVector`s. -/
theorem C187_bit_vector (c : Cfg) (hw : IsBlk w) {a b : VB w} {as bs : List Bool} (ha : BvReach c w a as) (hb : BvReach c w b bs)
    (hl : as.length = bs.length) : compareNumber (bvBitVec c w) (bvBitVec c w) a b = .ok (compare (bitsVal as) (bitsVal bs)) :=
  C187_compare hw (bv_block c hw).toBVBlockRead (bv_pad c hw) (bv_pad c hw) (ha.rep hw) (hb.rep hw) hl

/-- C187: numbers of the same length are the same only if all bits are, so that `Equal` means equal vectors. -/
theorem C187_equal (c : Cfg) (hw : IsBlk w) {a b : VB w} {as bs : List Bool} (ha : BvReach c w a as) (hb : BvReach c w b bs)
    (hl : as.length = bs.length) : compareNumber (bvBitVec c w) (bvBitVec c w) a b = .ok .eq ↔ as = bs := by
  rw [C187_bit_vector c hw ha hb hl, Res.ok.injEq, Nat.compare_eq_eq]
  refine ⟨fun h => List.ext_getElem hl fun i h1 h2 => ?_, fun h => by rw [h]⟩
  have e := congrArg (·.testBit i) h
  simp only [testBit_bitsVal] at e
  rwa [List.getElem?_eq_getElem h1, List.getElem?_eq_getElem h2] at e

/-! Each theorem of this file that has hypotheses is applied to concrete data in `Verif/Instances/CompareNumbers.lean`. -/

end Succinct
