import Verif.Model.OwnBlocks
import Verif.Lemmas.Builds
import Verif.Lemmas.Rank
/-!
# The generic code over block types with their own methods

`Honest c w`: the methods of the block type of width `w` meet their specification. Every function of `Verif.Model.OwnBlocks` is
shown to agree with the function of the crate's own block types, in the sense of `Agree`.
-/
namespace Succinct.OwnBlk
open Spec

/-- What the methods of a block type of `w` bits have to return on arguments in their range; `usz` is the width of `usize`. They
may do anything at all on arguments out of range: where the default bodies panic or overflow (storage.rs:59-205). -/
structure BlockMethods.Lawful (usz : Nat) (m : BlockMethods w) : Prop where
  checkedDivNbits : ∀ i, m.checkedDivNbits i = .ok (if i / w < 2 ^ usz then some (i / w) else none)
  ceilDivNbits : ∀ i, i + (w - 1) < 2 ^ 64 → m.ceilDivNbits i = .ok ((i + (w - 1)) / w % 2 ^ usz)
  checkedCeilDivNbits : ∀ i, i + (w - 1) < 2 ^ 64 →
    m.checkedCeilDivNbits i = .ok (if (i + (w - 1)) / w < 2 ^ usz then some ((i + (w - 1)) / w) else none)
  modNbits : ∀ i, m.modNbits i = .ok (i % w)
  mulNbits : ∀ i, m.mulNbits i = .ok (i * w % 2 ^ 64)
  lastBlockBits : ∀ n, m.lastBlockBits n = .ok (if n % w = 0 then w else n % w)
  lowMask : ∀ k, k ≤ w → ∃ y, m.lowMask k = .ok y ∧ y.toNat = 2 ^ k - 1
  getBit : ∀ x i, i < w → m.getBit x i = .ok (x.toNat.testBit i)
  withBit : ∀ x i v, i < w → ∃ y, m.withBit x i v = .ok y ∧
    ∀ j, y.toNat.testBit j = if j = i then v else x.toNat.testBit j
  getBits : ∀ x p n, p + n ≤ w → ∃ y, m.getBits x p n = .ok y ∧ ∀ j, y.toNat.testBit j = (decide (j < n) && x.toNat.testBit (p + j))
  withBits : ∀ x p n v, p + n ≤ w → ∃ y, m.withBits x p n v = .ok y ∧
    ∀ j, y.toNat.testBit j = if p ≤ j ∧ j < p + n then v.toNat.testBit (j - p) else x.toNat.testBit j
  rank1 : ∀ x p, p < w → m.rank1 x p = .ok (ones (blockBits x) (p + 1))

/-- The same machine, with overflow checks and debug assertions. -/
def OCfg.dbg (c : OCfg) : Cfg := { c.toCfg with debug := true, asserts := true }

/-- The block type of width `w` is of a supported width and its methods are lawful. -/
class Honest (c : OCfg) (w : Nat) : Prop where
  blk : IsBlk w
  law : (c.own w).Lawful c.usz

theorem dbg_usz (c : OCfg) : c.dbg.usz = c.toCfg.usz := rfl
theorem dbg_ptr (c : OCfg) : c.dbg.ptr = c.toCfg.ptr := rfl
theorem dbg_asUsize (c : OCfg) (x : Nat) : Succinct.asUsize c.dbg x = Succinct.asUsize c.toCfg x := rfl
theorem dbg_toUsize (c : OCfg) (x : Nat) : Succinct.toUsize c.dbg x = Succinct.toUsize c.toCfg x := rfl

/-- The build is the one with all checks, less some. -/
theorem OCfg.build_eq (c : OCfg) : c.toCfg = c.dbg.fewer ⟨c.debug, c.asserts⟩ := rfl

/-- Assemble an agreement proof. -/
macro "own_agree" : tactic => `(tactic|
  ((try simp only [dbg_usz, dbg_ptr, dbg_asUsize, dbg_toUsize, OwnBlk.addN, OwnBlk.subN, OwnBlk.mulN, OwnBlk.shrN, OwnBlk.shlB,
     OwnBlk.shrB, OwnBlk.asUsize, OwnBlk.toUsize, OwnBlk.ceilDiv, OwnBlk.ceilLg])
   repeat' (first | infer_instance | refine Agree.bind' ?_ (fun _ => ?_) | (intro _) | split)))

macro "own_vec" : tactic => `(tactic| (unfold Succinct.vecBitVecMut OwnBlk.vecBitVecMut Succinct.vecBitVec OwnBlk.vecBitVec; dsimp only; own_agree))
macro "own_bv" : tactic => `(tactic| (unfold Succinct.bvBitVecPush OwnBlk.bvBitVecPush Succinct.bvBitVecMut OwnBlk.bvBitVecMut Succinct.bvBitVec OwnBlk.bvBitVec; dsimp only; own_agree))
macro "own_iv" : tactic => `(tactic| (unfold Succinct.ivBitVecMut OwnBlk.ivBitVecMut Succinct.ivBitVec OwnBlk.ivBitVec; dsimp only; own_agree))
macro "own_slice" : tactic => `(tactic| (unfold Succinct.sliceBitVec OwnBlk.sliceBitVec; dsimp only; own_agree))
macro "own_rank" : tactic => `(tactic| (unfold Succinct.rankOps OwnBlk.rankOps; dsimp only; own_agree))

variable {d e : Bool}

/-- Functions that do not call methods of the block type. -/
theorem Agree.build (c : OCfg) {f : Cfg → Res α} (h : ∀ kp, Agree d e (f c.dbg) (f (c.dbg.fewer kp))) : Agree d e (f c.dbg) (f c.toCfg) := by
  rw [c.build_eq]
  exact h _

section Arith
variable (c : OCfg) (n a b : Nat)
instance : Agree d e (Succinct.addN c.dbg n a b) (Succinct.addN c.toCfg n a b) := Agree.build c (f := fun c => Succinct.addN c n a b) fun _ => inferInstance
instance : Agree d e (Succinct.subN c.dbg n a b) (Succinct.subN c.toCfg n a b) := Agree.build c (f := fun c => Succinct.subN c n a b) fun _ => inferInstance
instance : Agree d e (Succinct.mulN c.dbg n a b) (Succinct.mulN c.toCfg n a b) := Agree.build c (f := fun c => Succinct.mulN c n a b) fun _ => inferInstance
instance : Agree d e (Succinct.shrN c.dbg n a b) (Succinct.shrN c.toCfg n a b) := Agree.build c (f := fun c => Succinct.shrN c n a b) fun _ => inferInstance
instance : Agree d e (Succinct.ceilDiv c.dbg n a b) (Succinct.ceilDiv c.toCfg n a b) :=
  Agree.build c (f := fun c => Succinct.ceilDiv c n a b) fun _ => inferInstance
variable {w : Nat} (x : BitVec w)
instance : Agree d e (Succinct.shlB c.dbg x n) (Succinct.shlB c.toCfg x n) := Agree.build c (f := fun c => Succinct.shlB c x n) fun _ => inferInstance
instance : Agree d e (Succinct.shrB c.dbg x n) (Succinct.shrB c.toCfg x n) := Agree.build c (f := fun c => Succinct.shrB c x n) fun _ => inferInstance
instance : Agree d e (Succinct.ceilLg c.dbg x) (Succinct.ceilLg c.toCfg x) := Agree.build c (f := fun c => Succinct.ceilLg c x) fun _ => inferInstance
variable (s : IV w)
instance : Agree d e (Succinct.IV.withCapacity c.dbg w a b) (Succinct.IV.withCapacity c.toCfg w a b) :=
  Agree.build c (f := fun c => Succinct.IV.withCapacity c w a b) fun _ => inferInstance
instance : Agree d e (Succinct.IV.push c.dbg s x) (Succinct.IV.push c.toCfg s x) := Agree.build c (f := fun c => Succinct.IV.push c s x) fun _ => inferInstance
instance : Agree d e (Succinct.IV.get c.dbg s n) (Succinct.IV.get c.toCfg s n) := Agree.build c (f := fun c => Succinct.IV.get c s n) fun _ => inferInstance
end Arith

/-! ### The methods -/

section Methods
variable (c : OCfg) (w : Nat) [h : Honest c w] (i n : Nat) (x y : BitVec w) (v : Bool)

theorem addN_dbg {n a b : Nat} (h : ¬ a + b < 2 ^ n) : Succinct.addN c.dbg n a b = .panic := by
  unfold Succinct.addN
  rw [if_neg h]; rfl

/-- two blocks with the same bits -/
theorem blk_ext {x y : BitVec w} (h : ∀ j, x.toNat.testBit j = y.toNat.testBit j) : x = y :=
  BitVec.eq_of_toNat_eq (Nat.eq_of_testBit_eq h)

instance : Agree d e (Succinct.checkedDivNbits c.dbg w i) (OwnBlk.checkedDivNbits c w i) := by
  unfold OwnBlk.checkedDivNbits
  rw [checkedDivNbits_eq _ h.blk, h.law.checkedDivNbits]
  exact Agree.refl _
instance : Agree d e (Succinct.ceilDivNbits c.dbg w i) (OwnBlk.ceilDivNbits c w i) := by
  unfold OwnBlk.ceilDivNbits
  by_cases hi : i + (w - 1) < 2 ^ 64
  · rw [ceilDivNbits_eq _ h.blk hi, h.law.ceilDivNbits i hi]
    exact Agree.refl _
  · unfold Succinct.ceilDivNbits
    rw [subN_ok h.blk.pos, Res.ok_bind, addN_dbg c hi]
    exact Agree.panic
instance : Agree d e (Succinct.checkedCeilDivNbits c.dbg w i) (OwnBlk.checkedCeilDivNbits c w i) := by
  unfold OwnBlk.checkedCeilDivNbits
  by_cases hi : i + (w - 1) < 2 ^ 64
  · rw [checkedCeilDivNbits_eq _ h.blk hi, h.law.checkedCeilDivNbits i hi]
    exact Agree.refl _
  · unfold Succinct.checkedCeilDivNbits
    rw [subN_ok h.blk.pos, Res.ok_bind, addN_dbg c hi]
    exact Agree.panic
instance : Agree d e (Succinct.modNbits c.dbg w i) (OwnBlk.modNbits c w i) := by
  unfold OwnBlk.modNbits
  rw [modNbits_eq _ h.blk, h.law.modNbits]
  exact Agree.refl _
instance : Agree d e (Succinct.mulNbits c.dbg w i) (OwnBlk.mulNbits c w i) := by
  unfold OwnBlk.mulNbits
  rw [mulNbits_eq _ h.blk, h.law.mulNbits]
  exact Agree.refl _
instance : Agree d e (Succinct.lastBlockBits c.dbg w i) (OwnBlk.lastBlockBits c w i) := by
  unfold OwnBlk.lastBlockBits
  rw [lastBlockBits_eq _ h.blk, h.law.lastBlockBits]
  exact Agree.refl _
instance : Agree d e (Succinct.lowMask c.dbg w i) (OwnBlk.lowMask c w i) := by
  unfold OwnBlk.lowMask
  by_cases hi : i ≤ w
  · obtain ⟨z, hz, hz'⟩ := h.law.lowMask i hi
    rw [lowMask_ok _ h.blk hi, hz, BitVec.eq_of_toNat_eq (hz'.trans (maskB_toNat hi).symm)]
    exact Agree.refl _
  · unfold Succinct.lowMask debugAssert
    rw [if_pos (show c.dbg.asserts = true from rfl), assertR_false hi]
    exact Agree.panic
variable {w} in
instance : Agree d e (Succinct.blkGetBit c.dbg x i) (OwnBlk.blkGetBit c x i) := by
  unfold OwnBlk.blkGetBit
  rw [blkGetBit_eq]
  by_cases hi : i < w
  · rw [if_pos hi, h.law.getBit x i hi]
    exact Agree.refl _
  · rw [if_neg hi]
    exact Agree.panic
variable {w} in
instance : Agree d e (Succinct.blkWithBit c.dbg x i v) (OwnBlk.blkWithBit c x i v) := by
  unfold OwnBlk.blkWithBit
  by_cases hi : i < w
  · obtain ⟨y, hy, hy'⟩ := blkWithBit_eq c.dbg x v hi
    obtain ⟨z, hz, hz'⟩ := h.law.withBit x i v hi
    rw [hy, hz, blk_ext w fun j => (hy' j).trans (hz' j).symm]
    exact Agree.refl _
  · unfold Succinct.blkWithBit
    rw [assertR_false hi]
    exact Agree.panic
variable {w} in
instance : Agree d e (Succinct.blkGetBits c.dbg x i n) (OwnBlk.blkGetBits c x i n) := by
  unfold OwnBlk.blkGetBits
  by_cases hi : i + n ≤ w
  · obtain ⟨y, hy, hy'⟩ := blkGetBits_eq c.dbg h.blk x hi
    obtain ⟨z, hz, hz'⟩ := h.law.getBits x i n hi
    rw [hy, hz, blk_ext w fun j => (hy' j).trans (hz' j).symm]
    exact Agree.refl _
  · unfold Succinct.blkGetBits
    by_cases hu : i + n < 2 ^ c.dbg.usz
    · rw [addN_ok hu, Res.ok_bind, assertR_false hi]
      exact Agree.panic
    · rw [addN_dbg c hu]
      exact Agree.panic
variable {w} in
instance : Agree d e (Succinct.blkWithBits c.dbg x i n y) (OwnBlk.blkWithBits c x i n y) := by
  unfold OwnBlk.blkWithBits
  by_cases hi : i + n ≤ w
  · obtain ⟨a, ha, ha'⟩ := blkWithBits_eq c.dbg h.blk x y hi
    obtain ⟨z, hz, hz'⟩ := h.law.withBits x i n y hi
    rw [ha, hz, blk_ext w fun j => (ha' j).trans (hz' j).symm]
    exact Agree.refl _
  · unfold Succinct.blkWithBits
    by_cases hu : i + n < 2 ^ c.dbg.usz
    · rw [addN_ok hu, Res.ok_bind, assertR_false hi]
      exact Agree.panic
    · rw [addN_dbg c hu]
      exact Agree.panic
variable {w} in
instance : Agree d e (Succinct.primRank1 c.dbg x i) (OwnBlk.primRank1 c x i) := by
  unfold OwnBlk.primRank1
  by_cases hi : i < w
  · rw [primRank1_ok _ h.blk x hi, h.law.rank1 x i hi]
    exact Agree.refl _
  · unfold Succinct.primRank1 debugAssert
    rw [if_pos (show c.dbg.asserts = true from rfl), assertR_false hi]
    exact Agree.panic
instance : Agree d e (Succinct.Address.new c.dbg w i) (OwnBlk.Address.new c w i) := by
  unfold Succinct.Address.new OwnBlk.Address.new; own_agree
end Methods

/-! ### The generic code -/

section Defaults
variable {w : Nat} {S : Type} (c : OCfg) [Honest c w] {bitLen bitLen' blockLen blockLen' : S → Res Nat}
  {getBit getBit' : S → Nat → Res Bool} {getBlock getBlock' : S → Nat → Res (BitVec w)} {setBit setBit' : S → Nat → Bool → Res S}
  {setBlock setBlock' : S → Nat → BitVec w → Res S} {pushBit pushBit' alignBlock alignBlock' : S → Bool → Res S}
  (s : S) (i n : Nat) (b : Bool) (x : BitVec w)

instance [∀ s, Agree d e (bitLen s) (bitLen' s)] : Agree d e (Succinct.dfltBlockLen c.dbg n bitLen s) (OwnBlk.dfltBlockLen c n bitLen' s) := by
  unfold Succinct.dfltBlockLen OwnBlk.dfltBlockLen; own_agree
instance [∀ s, Agree d e (bitLen s) (bitLen' s)] [∀ s i, Agree d e (getBlock s i) (getBlock' s i)] :
    Agree d e (Succinct.dfltGetBit c.dbg bitLen getBlock s i) (OwnBlk.dfltGetBit c bitLen' getBlock' s i) := by
  unfold Succinct.dfltGetBit OwnBlk.dfltGetBit; own_agree
instance [∀ s, Agree d e (bitLen s) (bitLen' s)] [∀ s, Agree d e (blockLen s) (blockLen' s)] [∀ s i, Agree d e (getBit s i) (getBit' s i)] :
    Agree d e (Succinct.dfltGetBlock (w := w) c.dbg bitLen blockLen getBit s i) (OwnBlk.dfltGetBlock c bitLen' blockLen' getBit' s i) := by
  unfold Succinct.dfltGetBlock OwnBlk.dfltGetBlock; own_agree
instance [∀ s, Agree d e (bitLen s) (bitLen' s)] [∀ s i, Agree d e (getBlock s i) (getBlock' s i)] :
    Agree d e (Succinct.dfltGetBits c.dbg bitLen getBlock s i n) (OwnBlk.dfltGetBits c bitLen' getBlock' s i n) := by
  unfold Succinct.dfltGetBits OwnBlk.dfltGetBits; own_agree
instance [∀ s, Agree d e (bitLen s) (bitLen' s)] [∀ s i, Agree d e (getBlock s i) (getBlock' s i)]
    [∀ s i x, Agree d e (setBlock s i x) (setBlock' s i x)] :
    Agree d e (Succinct.dfltSetBit c.dbg bitLen getBlock setBlock s i b) (OwnBlk.dfltSetBit c bitLen' getBlock' setBlock' s i b) := by
  unfold Succinct.dfltSetBit OwnBlk.dfltSetBit; own_agree
instance [∀ s, Agree d e (bitLen s) (bitLen' s)] [∀ s, Agree d e (blockLen s) (blockLen' s)]
    [∀ s i b, Agree d e (setBit s i b) (setBit' s i b)] :
    Agree d e (Succinct.dfltSetBlock c.dbg bitLen blockLen setBit s i x) (OwnBlk.dfltSetBlock c bitLen' blockLen' setBit' s i x) := by
  unfold Succinct.dfltSetBlock OwnBlk.dfltSetBlock; own_agree
instance [∀ s, Agree d e (bitLen s) (bitLen' s)] [∀ s i, Agree d e (getBlock s i) (getBlock' s i)]
    [∀ s i x, Agree d e (setBlock s i x) (setBlock' s i x)] :
    Agree d e (Succinct.dfltSetBits c.dbg bitLen getBlock setBlock s i n x) (OwnBlk.dfltSetBits c bitLen' getBlock' setBlock' s i n x) := by
  unfold Succinct.dfltSetBits OwnBlk.dfltSetBits; own_agree
instance [∀ s b, Agree d e (alignBlock s b) (alignBlock' s b)] [∀ s b, Agree d e (pushBit s b) (pushBit' s b)] :
    Agree d e (Succinct.dfltPushBlock c.dbg alignBlock pushBit s x) (OwnBlk.dfltPushBlock c alignBlock' pushBit' s x) := by
  unfold Succinct.dfltPushBlock OwnBlk.dfltPushBlock; own_agree
instance alignBlock_agree [Honest c n] [h1 : ∀ d e s, Agree d e (bitLen s) (bitLen' s)] [h2 : ∀ d e s b, Agree d e (pushBit s b) (pushBit' s b)] :
    Agree d e (Succinct.dfltAlignBlock c.dbg n bitLen pushBit s b) (OwnBlk.dfltAlignBlock c n bitLen' pushBit' s b) := by
  apply Agree.both
  · apply Succinct.dfltAlignBlock.fixpoint_induct c.dbg n bitLen pushBit b
      (fun f => ∀ s, Agree true false (f s) (OwnBlk.dfltAlignBlock c n bitLen' pushBit' s b)) (Agree.adm1 _)
    intro f ih s
    rw [OwnBlk.dfltAlignBlock]
    own_agree
  · apply OwnBlk.dfltAlignBlock.fixpoint_induct c n bitLen' pushBit' b
      (fun f => ∀ s, Agree false true (Succinct.dfltAlignBlock c.dbg n bitLen pushBit s b) (f s)) (Agree.adm1' _)
    intro f ih s
    rw [Succinct.dfltAlignBlock]
    own_agree
end Defaults

instance vec_agree (c : OCfg) (w : Nat) [Honest c w] : AgreeBVM (Succinct.vecBitVecMut c.dbg w) (OwnBlk.vecBitVecMut c w) where
  base := ⟨fun _ _ _ => by own_vec, fun _ _ _ => Agree.refl _, fun _ _ _ _ => by own_vec, fun _ _ _ _ => Agree.refl _,
    fun _ _ _ _ _ => by own_vec⟩
  setBit := fun _ _ _ _ _ => by own_vec
  setBlock := fun _ _ _ _ _ => Agree.refl _
  setBits := fun _ _ _ _ _ _ => by own_vec

instance vec_agree_read (c : OCfg) (w : Nat) [Honest c w] : AgreeBV (Succinct.vecBitVec c.dbg w) (OwnBlk.vecBitVec c w) :=
  (vec_agree c w).base

section VectorBase
variable (c : OCfg) {w : Nat} [Honest c w] (s : VB w) (eb i n : Nat) (b : Bool) (x : BitVec w)
instance : Agree d e (Succinct.lenToBlockLen c.dbg w eb n) (OwnBlk.lenToBlockLen c w eb n) := by
  unfold Succinct.lenToBlockLen OwnBlk.lenToBlockLen; cases checkedMul 64 n eb <;> dsimp only <;> own_agree
instance : Agree d e (Succinct.VB.clearExtraBits c.dbg s eb) (OwnBlk.VB.clearExtraBits c s eb) := by
  unfold Succinct.VB.clearExtraBits OwnBlk.VB.clearExtraBits; cases s.vec.getLast? <;> dsimp only <;> own_agree
instance : Agree d e (Succinct.VB.setLenFromBlocks c.dbg s eb) (OwnBlk.VB.setLenFromBlocks c s eb) := by
  unfold Succinct.VB.setLenFromBlocks OwnBlk.VB.setLenFromBlocks; own_agree
instance : Agree d e (Succinct.VB.withCapacity c.dbg w eb n) (OwnBlk.VB.withCapacity c w eb n) := by
  unfold Succinct.VB.withCapacity OwnBlk.VB.withCapacity; own_agree
instance : Agree d e (Succinct.VB.blockWithFill c.dbg eb n x) (OwnBlk.VB.blockWithFill c eb n x) := by
  unfold Succinct.VB.blockWithFill OwnBlk.VB.blockWithFill; own_agree
instance : Agree d e (Succinct.VB.setBlock c.dbg s eb i x) (OwnBlk.VB.setBlock c s eb i x) := by
  unfold Succinct.VB.setBlock OwnBlk.VB.setBlock; own_agree
instance : Agree d e (Succinct.VB.getBits c.dbg s eb i n) (OwnBlk.VB.getBits c s eb i n) := by
  unfold Succinct.VB.getBits OwnBlk.VB.getBits; own_agree
instance : Agree d e (Succinct.VB.setBits c.dbg s eb i n x) (OwnBlk.VB.setBits c s eb i n x) := by
  unfold Succinct.VB.setBits OwnBlk.VB.setBits; own_agree
instance : Agree d e (Succinct.VB.withFill c.dbg eb n x) (OwnBlk.VB.withFill c eb n x) := by
  unfold Succinct.VB.withFill OwnBlk.VB.withFill; own_agree
instance : Agree d e (Succinct.VB.getBit c.dbg s i) (OwnBlk.VB.getBit c s i) := by
  unfold Succinct.VB.getBit OwnBlk.VB.getBit; own_agree
instance : Agree d e (Succinct.VB.setBit c.dbg s i b) (OwnBlk.VB.setBit c s i b) := by
  unfold Succinct.VB.setBit OwnBlk.VB.setBit; own_agree
instance : Agree d e (Succinct.VB.pushBlock c.dbg s eb x) (OwnBlk.VB.pushBlock c s eb x) := by
  unfold Succinct.VB.pushBlock OwnBlk.VB.pushBlock; own_agree
instance : Agree d e (Succinct.VB.popBlock c.dbg s eb) (OwnBlk.VB.popBlock c s eb) := by
  unfold Succinct.VB.popBlock OwnBlk.VB.popBlock; own_agree
instance : Agree d e (Succinct.VB.pushBits c.dbg s eb x) (OwnBlk.VB.pushBits c s eb x) := by
  unfold Succinct.VB.pushBits OwnBlk.VB.pushBits; own_agree
instance : Agree d e (Succinct.VB.popBits c.dbg s eb) (OwnBlk.VB.popBits c s eb) := by
  unfold Succinct.VB.popBits OwnBlk.VB.popBits; own_agree
instance : Agree d e (Succinct.VB.pushBit c.dbg s b) (OwnBlk.VB.pushBit c s b) := by
  unfold Succinct.VB.pushBit OwnBlk.VB.pushBit; own_agree
instance : Agree d e (Succinct.VB.popBit c.dbg s) (OwnBlk.VB.popBit c s) := by
  unfold Succinct.VB.popBit OwnBlk.VB.popBit; own_agree
instance : Agree d e (Succinct.VB.blockTruncate c.dbg s eb n) (OwnBlk.VB.blockTruncate c s eb n) := by
  unfold Succinct.VB.blockTruncate OwnBlk.VB.blockTruncate; own_agree
instance : Agree d e (Succinct.VB.truncate c.dbg s eb n) (OwnBlk.VB.truncate c s eb n) := by
  unfold Succinct.VB.truncate OwnBlk.VB.truncate; own_agree
instance : Agree d e (Succinct.VB.blockResize c.dbg s eb n x) (OwnBlk.VB.blockResize c s eb n x) := by
  unfold Succinct.VB.blockResize OwnBlk.VB.blockResize; own_agree
instance : Agree d e (Succinct.VB.resize c.dbg s eb n x) (OwnBlk.VB.resize c s eb n x) := by
  unfold Succinct.VB.resize OwnBlk.VB.resize; own_agree
instance : Agree d e (Succinct.BV.withCapacity c.dbg w n) (OwnBlk.BV.withCapacity c w n) := by
  unfold Succinct.BV.withCapacity OwnBlk.BV.withCapacity; own_agree
instance : Agree d e (Succinct.BV.blockWithFill c.dbg n x) (OwnBlk.BV.blockWithFill c n x) := by
  unfold Succinct.BV.blockWithFill OwnBlk.BV.blockWithFill; own_agree
instance : Agree d e (Succinct.BV.withFill c.dbg w n b) (OwnBlk.BV.withFill c w n b) := by
  unfold Succinct.BV.withFill OwnBlk.BV.withFill; own_agree
instance : Agree d e (Succinct.BV.blockResize c.dbg s n x) (OwnBlk.BV.blockResize c s n x) := by
  unfold Succinct.BV.blockResize OwnBlk.BV.blockResize; own_agree
instance : Agree d e (Succinct.BV.resize c.dbg s n b) (OwnBlk.BV.resize c s n b) := by
  unfold Succinct.BV.resize OwnBlk.BV.resize; own_agree
instance : Agree d e (Succinct.BV.truncate c.dbg s n) (OwnBlk.BV.truncate c s n) := by
  unfold Succinct.BV.truncate OwnBlk.BV.truncate; own_agree
instance : Agree d e (Succinct.BV.blockTruncate c.dbg s n) (OwnBlk.BV.blockTruncate c s n) := by
  unfold Succinct.BV.blockTruncate OwnBlk.BV.blockTruncate; own_agree
end VectorBase

instance bv_agree (c : OCfg) (w : Nat) [Honest c w] : AgreeBVP (Succinct.bvBitVecPush c.dbg w) (OwnBlk.bvBitVecPush c w) where
  base := {
    base := ⟨fun _ _ _ => Agree.refl _, fun _ _ _ => by own_bv,
      fun _ _ _ _ => by own_bv, fun _ _ _ _ => Agree.refl _,
      fun _ _ _ _ _ => by own_bv⟩
    setBit := fun _ _ _ _ _ => by own_bv
    setBlock := fun _ _ _ _ _ => by own_bv
    setBits := fun _ _ _ _ _ _ => by own_bv }
  pushBit := fun _ _ _ _ => by own_bv
  popBit := fun _ _ _ => by own_bv
  alignBlock := fun _ _ _ _ => by own_bv
  pushBlock := fun _ _ _ _ => by own_bv

section IntVector
variable (c : OCfg) {w : Nat} [Honest c w] (s : IV w) (eb i j n : Nat) (x : BitVec w)
instance : Agree d e (Succinct.IV.checkValueRandom c.dbg eb x) (OwnBlk.IV.checkValueRandom c eb x) := by
  unfold Succinct.IV.checkValueRandom OwnBlk.IV.checkValueRandom; own_agree
instance : Agree d e (Succinct.IV.checkValue c.dbg s x) (OwnBlk.IV.checkValue c s x) := by
  unfold Succinct.IV.checkValue OwnBlk.IV.checkValue; own_agree
instance : Agree d e (Succinct.IV.withCapacity c.dbg w eb n) (OwnBlk.IV.withCapacity c w eb n) := by
  unfold Succinct.IV.withCapacity OwnBlk.IV.withCapacity; own_agree
instance : Agree d e (Succinct.IV.withFill c.dbg eb n x) (OwnBlk.IV.withFill c eb n x) := by
  unfold Succinct.IV.withFill OwnBlk.IV.withFill; own_agree
instance : Agree d e (Succinct.IV.blockWithFill c.dbg eb n x) (OwnBlk.IV.blockWithFill c eb n x) := by
  unfold Succinct.IV.blockWithFill OwnBlk.IV.blockWithFill; own_agree
instance : Agree d e (Succinct.IV.getRandom c.dbg s i eb j) (OwnBlk.IV.getRandom c s i eb j) := by
  unfold Succinct.IV.getRandom OwnBlk.IV.getRandom; own_agree
instance : Agree d e (Succinct.IV.setRandom c.dbg s i eb j x) (OwnBlk.IV.setRandom c s i eb j x) := by
  unfold Succinct.IV.setRandom OwnBlk.IV.setRandom; own_agree
instance : Agree d e (Succinct.IV.push c.dbg s x) (OwnBlk.IV.push c s x) := by
  unfold Succinct.IV.push OwnBlk.IV.push; own_agree
instance : Agree d e (Succinct.IV.pop c.dbg s) (OwnBlk.IV.pop c s) := by
  unfold Succinct.IV.pop OwnBlk.IV.pop; own_agree
instance : Agree d e (Succinct.IV.resize c.dbg s n x) (OwnBlk.IV.resize c s n x) := by
  unfold Succinct.IV.resize OwnBlk.IV.resize; own_agree
instance : Agree d e (Succinct.IV.blockResize c.dbg s n x) (OwnBlk.IV.blockResize c s n x) := by
  unfold Succinct.IV.blockResize OwnBlk.IV.blockResize; own_agree
instance : Agree d e (Succinct.IV.truncate c.dbg s n) (OwnBlk.IV.truncate c s n) := by
  unfold Succinct.IV.truncate OwnBlk.IV.truncate; own_agree
instance : Agree d e (Succinct.IV.blockTruncate c.dbg s n) (OwnBlk.IV.blockTruncate c s n) := by
  unfold Succinct.IV.blockTruncate OwnBlk.IV.blockTruncate; own_agree
instance : Agree d e (Succinct.IV.get c.dbg s i) (OwnBlk.IV.get c s i) := by
  unfold Succinct.IV.get OwnBlk.IV.get; own_agree
instance : Agree d e (Succinct.IV.set c.dbg s i x) (OwnBlk.IV.set c s i x) := by
  unfold Succinct.IV.set OwnBlk.IV.set; own_agree
instance : Agree d e (Succinct.IV.setBlock c.dbg s i x) (OwnBlk.IV.setBlock c s i x) := by
  unfold Succinct.IV.setBlock OwnBlk.IV.setBlock; own_agree
end IntVector

instance iv_agree (c : OCfg) (w : Nat) [Honest c w] : AgreeBVM (Succinct.ivBitVecMut c.dbg w) (OwnBlk.ivBitVecMut c w) where
  base := ⟨fun _ _ _ => by own_iv, fun _ _ _ => Agree.refl _,
    fun _ _ _ _ => by own_iv, fun _ _ _ _ => Agree.refl _,
    fun _ _ _ _ _ => by own_iv⟩
  setBit := fun _ _ _ _ _ => by own_iv
  setBlock := fun _ _ _ _ _ => by own_iv
  setBits := fun _ _ _ _ _ _ => by own_iv

section Iter
variable (c : OCfg) {w : Nat} [Honest c w] (it : VIter w) (n : Nat)
instance : Agree d e (Succinct.VIter.next c.dbg it) (OwnBlk.VIter.next c it) := by
  unfold Succinct.VIter.next OwnBlk.VIter.next; own_agree
instance : Agree d e (Succinct.VIter.len c.dbg it) (OwnBlk.VIter.len c it) := by
  unfold Succinct.VIter.len OwnBlk.VIter.len; own_agree
instance : Agree d e (Succinct.VIter.sizeHint c.dbg it) (OwnBlk.VIter.sizeHint c it) := by
  unfold Succinct.VIter.sizeHint OwnBlk.VIter.sizeHint; simp only [dbg_ptr]; cases c.ptr <;> dsimp only <;> own_agree
instance : Agree d e (Succinct.VIter.count c.dbg it) (OwnBlk.VIter.count c it) := by
  unfold Succinct.VIter.count OwnBlk.VIter.count; own_agree
instance : Agree d e (Succinct.VIter.nextBack c.dbg it) (OwnBlk.VIter.nextBack c it) := by
  unfold Succinct.VIter.nextBack OwnBlk.VIter.nextBack; own_agree
instance : Agree d e (Succinct.VIter.last c.dbg it) (OwnBlk.VIter.last c it) := by
  unfold Succinct.VIter.last OwnBlk.VIter.last; own_agree
instance : Agree d e (Succinct.VIter.nth c.dbg it n) (OwnBlk.VIter.nth c it n) := by
  unfold Succinct.VIter.nth OwnBlk.VIter.nth; own_agree
instance forEach_agree (acc : α) (f : α → BitVec w → Res α) :
    Agree d e (Succinct.VIter.forEach c.dbg it acc f) (OwnBlk.VIter.forEach c it acc f) := by
  apply Agree.both
  · apply Succinct.VIter.forEach.fixpoint_induct c.dbg f
      (fun g => ∀ it acc, Agree true false (g it acc) (OwnBlk.VIter.forEach c it acc f)) (Agree.adm2 _)
    intro g ih it acc
    rw [OwnBlk.VIter.forEach]
    refine Agree.bind' inferInstance fun r => ?_
    obtain ⟨r | r, it'⟩ := r <;> dsimp only <;> own_agree
  · apply OwnBlk.VIter.forEach.fixpoint_induct c f
      (fun g => ∀ it acc, Agree false true (Succinct.VIter.forEach c.dbg it acc f) (g it acc)) (Agree.adm2' _)
    intro g ih it acc
    rw [Succinct.VIter.forEach]
    refine Agree.bind' inferInstance fun r => ?_
    obtain ⟨r | r, it'⟩ := r <;> dsimp only <;> own_agree
instance (s : VB w) : Agree d e (Succinct.BV.fmtBinary c.dbg s) (OwnBlk.BV.fmtBinary c s) := by
  unfold Succinct.BV.fmtBinary OwnBlk.BV.fmtBinary; own_agree
instance (s : IV w) : Agree d e (Succinct.IV.fmtDebug c.dbg s) (OwnBlk.IV.fmtDebug c s) := by
  unfold Succinct.IV.fmtDebug OwnBlk.IV.fmtDebug; own_agree
end Iter

section Slice
variable (c : OCfg) {w : Nat} [Honest c w] {S : Type} (s : Slice S) (r : RangeArg) (i n : Nat) (b : Bool) (x : BitVec w)
instance : Agree d e (Succinct.Slice.slice c.dbg s r) (OwnBlk.Slice.slice c s r) := by
  unfold Succinct.Slice.slice OwnBlk.Slice.slice; own_agree
section
variable {o o' : BitVecOps w S} [AgreeBV o o']
instance : Agree d e (Succinct.Slice.getBit c.dbg o s i) (OwnBlk.Slice.getBit c o' s i) := by
  unfold Succinct.Slice.getBit OwnBlk.Slice.getBit; own_agree
instance : Agree d e (Succinct.Slice.getBits c.dbg o s i n) (OwnBlk.Slice.getBits c o' s i n) := by
  unfold Succinct.Slice.getBits OwnBlk.Slice.getBits; own_agree
instance : Agree d e (Succinct.Slice.getBlock c.dbg o s i) (OwnBlk.Slice.getBlock c o' s i) := by
  unfold Succinct.Slice.getBlock OwnBlk.Slice.getBlock; own_agree
end
section
variable {o o' : BitVecMutOps w S} [AgreeBVM o o']
instance : Agree d e (Succinct.Slice.setBit c.dbg o s i b) (OwnBlk.Slice.setBit c o' s i b) := by
  unfold Succinct.Slice.setBit OwnBlk.Slice.setBit; own_agree
instance : Agree d e (Succinct.Slice.setBits c.dbg o s i n x) (OwnBlk.Slice.setBits c o' s i n x) := by
  unfold Succinct.Slice.setBits OwnBlk.Slice.setBits; own_agree
instance : Agree d e (Succinct.Slice.setBlock c.dbg o s i x) (OwnBlk.Slice.setBlock c o' s i x) := by
  unfold Succinct.Slice.setBlock OwnBlk.Slice.setBlock; own_agree
end
instance slice_agree_read {o o' : BitVecOps w S} [AgreeBV o o'] : AgreeBV (Succinct.sliceBitVec c.dbg o) (OwnBlk.sliceBitVec c o') :=
  ⟨fun _ _ _ => Agree.refl _, fun _ _ _ => by own_slice,
    fun _ _ _ _ => by own_slice, fun _ _ _ _ => by own_slice,
    fun _ _ _ _ _ => by own_slice⟩
instance slice_agree {o o' : BitVecMutOps w S} [AgreeBVM o o'] : AgreeBVM (Succinct.sliceBitVecMut c.dbg o) (OwnBlk.sliceBitVecMut c o') where
  base := slice_agree_read c
  setBit := fun _ _ _ _ _ => by unfold Succinct.sliceBitVecMut OwnBlk.sliceBitVecMut; dsimp only; own_agree
  setBlock := fun _ _ _ _ _ => by unfold Succinct.sliceBitVecMut OwnBlk.sliceBitVecMut; dsimp only; own_agree
  setBits := fun _ _ _ _ _ _ => by unfold Succinct.sliceBitVecMut OwnBlk.sliceBitVecMut; dsimp only; own_agree
end Slice

section Rank
variable (c : OCfg) {w : Nat} {S : Type} (i : Nat)
instance {rank1 rank1' : S → Nat → Res Nat} [∀ s p, Agree d e (rank1 s p) (rank1' s p)] (s : S) :
    Agree d e (Succinct.dfltRank0 c.dbg rank1 s i) (OwnBlk.dfltRank0 c rank1' s i) := by
  unfold Succinct.dfltRank0 OwnBlk.dfltRank0; own_agree
instance rankOps_agree {limit limit' : S → Res Nat} {rank1 rank1' : S → Nat → Res Nat} [∀ d e s, Agree d e (limit s) (limit' s)]
    [∀ d e s p, Agree d e (rank1 s p) (rank1' s p)] : AgreeRank (Succinct.rankOps c.dbg limit rank1) (OwnBlk.rankOps c limit' rank1') :=
  ⟨fun _ _ _ _ _ => by own_rank, fun _ _ _ => by own_rank,
    fun _ _ _ _ => by own_rank, fun _ _ _ _ => by own_rank⟩

variable [Honest c w] {o o' : BitVecOps w S} [AgreeBV o o'] (bits : S)
instance (n : Nat) (l : Jacobson.Loop) : Agree d e (Succinct.Jacobson.step c.dbg o bits n i l) (OwnBlk.Jacobson.step c o' bits n i l) := by
  unfold Succinct.Jacobson.step OwnBlk.Jacobson.step; own_agree
instance jacobson_new_agree : Agree d e (Succinct.Jacobson.new c.dbg o bits) (OwnBlk.Jacobson.new c o' bits) := by
  unfold Succinct.Jacobson.new OwnBlk.Jacobson.new; own_agree
instance (s : Jacobson S) : Agree d e (Succinct.Jacobson.rank1 c.dbg o s i) (OwnBlk.Jacobson.rank1 c o' s i) := by
  unfold Succinct.Jacobson.rank1 OwnBlk.Jacobson.rank1; own_agree
instance jacobson_agree : AgreeRank (Succinct.Jacobson.ops c.dbg o) (OwnBlk.Jacobson.ops c o') := rankOps_agree c
end Rank

section Select
variable (c : OCfg) (n x y : Nat)
instance : Agree d e (Succinct.average c.dbg n x y) (OwnBlk.average c n x y) := by
  unfold Succinct.average OwnBlk.average; own_agree
theorem searchLoop_agree {f g : Nat → Res Nat} (h : ∀ d e i, Agree d e (f i) (g i)) (value start limit : Nat) :
    Agree d e (Succinct.searchLoop c.dbg n f value start limit) (OwnBlk.searchLoop c n g value start limit) := by
  apply Agree.both
  · apply Succinct.searchLoop.fixpoint_induct c.dbg n f value
      (fun k => ∀ a b, Agree true false (k a b) (OwnBlk.searchLoop c n g value a b)) (Agree.adm2 _)
    intro k ih a b
    rw [OwnBlk.searchLoop]
    own_agree
  · apply OwnBlk.searchLoop.fixpoint_induct c n g value
      (fun k => ∀ a b, Agree false true (Succinct.searchLoop c.dbg n f value a b) (k a b)) (Agree.adm2' _)
    intro k ih a b
    rw [Succinct.searchLoop]
    own_agree
instance binarySearch_agree {f g : Nat → Res Nat} [h : ∀ d e i, Agree d e (f i) (g i)] (start limit value : Nat) :
    Agree d e (Succinct.binarySearch c.dbg n start limit value f) (OwnBlk.binarySearch c n start limit value g) := by
  have := fun v a b => searchLoop_agree (d := d) (e := e) c n h v a b
  unfold Succinct.binarySearch OwnBlk.binarySearch; own_agree
instance binSearch_agree {r r' : RankOps S} [AgreeRank r r'] :
    AgreeSelect (Succinct.BinSearchSelect.ops c.dbg r) (OwnBlk.BinSearchSelect.ops c r') :=
  ⟨fun _ _ _ _ => by
      unfold Succinct.BinSearchSelect.ops OwnBlk.BinSearchSelect.ops Succinct.BinSearchSelect.select1 OwnBlk.BinSearchSelect.select1 Succinct.BinSearchSelect.selectBy OwnBlk.BinSearchSelect.selectBy Succinct.BinSearchSelect.rankOps; dsimp only; own_agree,
    fun _ _ _ _ => by
      unfold Succinct.BinSearchSelect.ops OwnBlk.BinSearchSelect.ops Succinct.BinSearchSelect.select0 OwnBlk.BinSearchSelect.select0 Succinct.BinSearchSelect.selectBy OwnBlk.BinSearchSelect.selectBy Succinct.BinSearchSelect.rankOps; dsimp only; own_agree,
    fun _ _ _ _ _ => by
      unfold Succinct.BinSearchSelect.ops OwnBlk.BinSearchSelect.ops Succinct.BinSearchSelect.select OwnBlk.BinSearchSelect.select Succinct.BinSearchSelect.selectBy OwnBlk.BinSearchSelect.selectBy Succinct.BinSearchSelect.rankOps; dsimp only; own_agree⟩
end Select

end Succinct.OwnBlk
