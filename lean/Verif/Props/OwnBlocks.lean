import Verif.Lemmas.OwnBlocks
import Verif.Props.Builds
import Verif.Props.IntVector
import Verif.Props.Rank
import Verif.Props.Select
/-!
Property C152: vectors, slices, iterators, rank and select over block types whose methods are their own.

All methods of `BlockType` but two have default bodies that an implementation may replace. Here it is shown that the generic code
uses nothing but their meaning on arguments in range.
-/
namespace Succinct.OwnBlk
open Spec

/-! ### The methods of the crate -/

/-- The methods of the block types of the crate. -/
def crate (c : Cfg) (w : Nat) : BlockMethods w where
  checkedDivNbits := Succinct.checkedDivNbits c w
  ceilDivNbits := Succinct.ceilDivNbits c w
  checkedCeilDivNbits := Succinct.checkedCeilDivNbits c w
  modNbits := Succinct.modNbits c w
  mulNbits := Succinct.mulNbits c w
  lastBlockBits := Succinct.lastBlockBits c w
  lowMask := Succinct.lowMask c w
  getBit := Succinct.blkGetBit c
  withBit := Succinct.blkWithBit c
  getBits := Succinct.blkGetBits c
  withBits := Succinct.blkWithBits c
  rank1 := Succinct.primRank1 c

/-- The configuration with the methods of the crate. -/
def std (c : Cfg) : OCfg := { c with own := crate c }

/-- C152. The methods of the crate are lawful, in every build. -/
theorem C152_crate (c : Cfg) (h : IsBlk w) : (crate c w).Lawful c.usz where
  checkedDivNbits := checkedDivNbits_eq c h
  ceilDivNbits := fun _ hi => ceilDivNbits_eq c h hi
  checkedCeilDivNbits := fun _ hi => checkedCeilDivNbits_eq c h hi
  modNbits := modNbits_eq c h
  mulNbits := mulNbits_eq c h
  lastBlockBits := lastBlockBits_eq c h
  lowMask := fun _ hk => ⟨_, lowMask_ok c h hk, maskB_toNat hk⟩
  getBit := fun x i hi => (blkGetBit_eq c x i).trans (if_pos hi)
  withBit := fun x _ v hi => blkWithBit_eq c x v hi
  getBits := fun x _ _ hi => blkGetBits_eq c h x hi
  withBits := fun x _ _ v hi => blkWithBits_eq c h x v hi
  rank1 := fun x _ hp => primRank1_ok c h x hp

/-- An implementation that replaces `low_mask` only, as the macro `fn_low_mask!` does: the default bodies of `get_bits` and
`with_bits` (storage.rs:180-205) call the new mask. -/
def inherit (c : Cfg) (w : Nat) (mask : Nat → Res (BitVec w)) : BlockMethods w :=
  { crate c w with
    lowMask := mask
    getBits := fun x start len => do
      let e ← Succinct.addN c c.usz start len
      assertR (e ≤ w)
      if len = 0 then .ok 0
      else do
        let y ← Succinct.shrB c x start
        let m ← mask len
        .ok (y &&& m)
    withBits := fun x start len value => do
      let e ← Succinct.addN c c.usz start len
      assertR (e ≤ w)
      if len = 0 then .ok x
      else do
        let m ← mask len
        let mask ← Succinct.shlB c m start
        let shifted ← Succinct.shlB c value start
        .ok ((x &&& ~~~ mask) ||| (shifted &&& mask)) }

/-- C152. Any `low_mask` that returns masks makes a lawful block type. -/
theorem C152_inherit (c : Cfg) (h : IsBlk w) {mask : Nat → Res (BitVec w)} (hm : ∀ k ≤ w, ∃ y, mask k = .ok y ∧ y.toNat = 2 ^ k - 1) :
    (inherit c w mask).Lawful c.usz := by
  have hmk : ∀ k ≤ w, mask k = Succinct.lowMask c w k := by
    intro k hk
    obtain ⟨y, hy, hy'⟩ := hm k hk
    rw [hy, lowMask_ok c h hk]
    exact congrArg Res.ok (BitVec.eq_of_toNat_eq (hy'.trans (maskB_toNat hk).symm))
  refine { C152_crate c h with lowMask := hm, getBits := fun x p n hn => ?_, withBits := fun x p n v hn => ?_ }
  · obtain ⟨y, hy, hy'⟩ := (C152_crate c h).getBits x p n hn
    refine ⟨y, Eq.trans ?_ hy, hy'⟩
    show _ = Succinct.blkGetBits c x p n
    unfold Succinct.blkGetBits inherit
    dsimp only
    rw [hmk n (by omega)]
  · obtain ⟨y, hy, hy'⟩ := (C152_crate c h).withBits x p n v hn
    refine ⟨y, Eq.trans ?_ hy, hy'⟩
    show _ = Succinct.blkWithBits c x p n v
    unfold Succinct.blkWithBits inherit
    dsimp only
    rw [hmk n (by omega)]

/-- C152. In particular the default body of `low_mask`, which every implementation in the crate replaces. -/
theorem C152_default_mask (c : Cfg) (h : IsBlk w) : (inherit c w (lowMaskDefault c w)).Lawful c.usz :=
  C152_inherit c h fun _ hk => ⟨_, lowMaskDefault_ok c h hk, maskB_toNat hk⟩

/-- C152. With the methods of the crate this model is the other one. -/
theorem C152_same (c : Cfg) (w : Nat) :
    bvBitVecPush (std c) w = Succinct.bvBitVecPush c w ∧ ivBitVecMut (std c) w = Succinct.ivBitVecMut c w ∧
    vecBitVecMut (std c) w = Succinct.vecBitVecMut c w ∧
    (∀ {S : Type} (o : BitVecMutOps w S), sliceBitVecMut (std c) o = Succinct.sliceBitVecMut c o) ∧
    (∀ {S : Type} (o : BitVecOps w S), Jacobson.new (std c) o = Succinct.Jacobson.new c o ∧
      Jacobson.ops (std c) o = Succinct.Jacobson.ops c o) ∧
    (∀ {S : Type} (r : RankOps S), BinSearchSelect.ops (std c) r = Succinct.BinSearchSelect.ops c r) ∧
    (BV.withCapacity (std c) w = Succinct.BV.withCapacity c w ∧ BV.withFill (std c) w = Succinct.BV.withFill c w ∧
      BV.blockWithFill (w := w) (std c) = Succinct.BV.blockWithFill c ∧ BV.resize (w := w) (std c) = Succinct.BV.resize c ∧
      BV.blockResize (w := w) (std c) = Succinct.BV.blockResize c ∧ BV.truncate (w := w) (std c) = Succinct.BV.truncate c ∧
      BV.blockTruncate (w := w) (std c) = Succinct.BV.blockTruncate c) ∧
    (IV.withCapacity (std c) w = Succinct.IV.withCapacity c w ∧ IV.withFill (w := w) (std c) = Succinct.IV.withFill c ∧
      IV.blockWithFill (w := w) (std c) = Succinct.IV.blockWithFill c ∧ IV.get (w := w) (std c) = Succinct.IV.get c ∧
      IV.set (w := w) (std c) = Succinct.IV.set c ∧ IV.getRandom (w := w) (std c) = Succinct.IV.getRandom c ∧
      IV.setRandom (w := w) (std c) = Succinct.IV.setRandom c ∧ IV.push (w := w) (std c) = Succinct.IV.push c ∧
      IV.pop (w := w) (std c) = Succinct.IV.pop c ∧ IV.resize (w := w) (std c) = Succinct.IV.resize c ∧
      IV.blockResize (w := w) (std c) = Succinct.IV.blockResize c ∧ IV.truncate (w := w) (std c) = Succinct.IV.truncate c ∧
      IV.blockTruncate (w := w) (std c) = Succinct.IV.blockTruncate c) ∧
    (VIter.next (w := w) (std c) = Succinct.VIter.next c ∧ VIter.nextBack (w := w) (std c) = Succinct.VIter.nextBack c ∧
      VIter.nth (w := w) (std c) = Succinct.VIter.nth c ∧ VIter.last (w := w) (std c) = Succinct.VIter.last c ∧
      VIter.sizeHint (w := w) (std c) = Succinct.VIter.sizeHint c ∧ VIter.count (w := w) (std c) = Succinct.VIter.count c) ∧
    BV.fmtBinary (w := w) (std c) = Succinct.BV.fmtBinary c ∧ IV.fmtDebug (w := w) (std c) = Succinct.IV.fmtDebug c := by
  with_unfolding_all
    exact ⟨rfl, rfl, rfl, fun _ => rfl, fun _ => ⟨rfl, rfl⟩, fun _ => rfl, ⟨rfl, rfl, rfl, rfl, rfl, rfl, rfl⟩,
      ⟨rfl, rfl, rfl, rfl, rfl, rfl, rfl, rfl, rfl, rfl, rfl, rfl, rfl⟩, ⟨rfl, rfl, rfl, rfl, rfl, rfl⟩, rfl, rfl⟩

/-! ### Every call -/

variable {c : OCfg} {w : Nat}

/-- C152. Over lawful methods, every call does what it does over the crate's own methods in a build with checks, unless that call
panics: bit vectors, integer vectors, vectors of blocks, and slices of any of them. -/
theorem C152_vectors (h : IsBlk w) (hm : (c.own w).Lawful c.usz) :
    BuildsPush (Succinct.bvBitVecPush c.dbg w) (bvBitVecPush c w) ∧ BuildsMut (Succinct.ivBitVecMut c.dbg w) (ivBitVecMut c w) ∧
    BuildsMut (Succinct.vecBitVecMut c.dbg w) (vecBitVecMut c w) ∧
    (∀ (S : Type) (o o' : BitVecOps w S), BuildsRead o o' → BuildsRead (Succinct.sliceBitVec c.dbg o) (sliceBitVec c o')) ∧
    (∀ (S : Type) (o o' : BitVecMutOps w S), BuildsMut o o' → BuildsMut (Succinct.sliceBitVecMut c.dbg o) (sliceBitVecMut c o')) ∧
    ∀ (S : Type) (s : Slice S) r, Builds (Succinct.Slice.slice c.dbg s r) (Slice.slice c s r) := by
  haveI : Honest c w := ⟨h, hm⟩
  refine ⟨.of inferInstance, .of inferInstance, .of inferInstance, fun S o o' ho => ?_, fun S o o' ho => ?_,
    fun S s r => .of fun _ _ => inferInstance⟩
  · have := ho.agree
    exact .of inferInstance
  · have := ho.agree
    exact .of inferInstance

/-- C152. The inherent methods of bit vectors and integer vectors, iterators and formatting. -/
theorem C152_inherent (h : IsBlk w) (hm : (c.own w).Lawful c.usz) :
    (∀ n b (x : BitVec w), Builds (Succinct.BV.withCapacity c.dbg w n) (BV.withCapacity c w n) ∧
      Builds (Succinct.BV.withFill c.dbg w n b) (BV.withFill c w n b) ∧ Builds (Succinct.BV.blockWithFill c.dbg n x) (BV.blockWithFill c n x)) ∧
    (∀ (s : VB w) n b x, Builds (Succinct.BV.resize c.dbg s n b) (BV.resize c s n b) ∧
      Builds (Succinct.BV.blockResize c.dbg s n x) (BV.blockResize c s n x) ∧ Builds (Succinct.BV.truncate c.dbg s n) (BV.truncate c s n) ∧
      Builds (Succinct.BV.blockTruncate c.dbg s n) (BV.blockTruncate c s n)) ∧
    (∀ k n (x : BitVec w), Builds (Succinct.IV.withCapacity c.dbg w k n) (IV.withCapacity c w k n) ∧
      Builds (Succinct.IV.withFill c.dbg k n x) (IV.withFill c k n x) ∧ Builds (Succinct.IV.blockWithFill c.dbg k n x) (IV.blockWithFill c k n x)) ∧
    (∀ (s : IV w) i j n x, Builds (Succinct.IV.get c.dbg s i) (IV.get c s i) ∧ Builds (Succinct.IV.set c.dbg s i x) (IV.set c s i x) ∧
      Builds (Succinct.IV.getRandom c.dbg s i n j) (IV.getRandom c s i n j) ∧
      Builds (Succinct.IV.setRandom c.dbg s i n j x) (IV.setRandom c s i n j x) ∧
      Builds (Succinct.IV.push c.dbg s x) (IV.push c s x) ∧ Builds (Succinct.IV.pop c.dbg s) (IV.pop c s) ∧
      Builds (Succinct.IV.resize c.dbg s n x) (IV.resize c s n x) ∧ Builds (Succinct.IV.blockResize c.dbg s n x) (IV.blockResize c s n x) ∧
      Builds (Succinct.IV.truncate c.dbg s n) (IV.truncate c s n) ∧ Builds (Succinct.IV.blockTruncate c.dbg s n) (IV.blockTruncate c s n)) ∧
    (∀ (it : VIter w) n, Builds (Succinct.VIter.next c.dbg it) (VIter.next c it) ∧
      Builds (Succinct.VIter.nextBack c.dbg it) (VIter.nextBack c it) ∧ Builds (Succinct.VIter.nth c.dbg it n) (VIter.nth c it n) ∧
      Builds (Succinct.VIter.last c.dbg it) (VIter.last c it) ∧ Builds (Succinct.VIter.count c.dbg it) (VIter.count c it) ∧
      Builds (Succinct.VIter.sizeHint c.dbg it) (VIter.sizeHint c it)) ∧
    (∀ s : VB w, Builds (Succinct.BV.fmtBinary c.dbg s) (BV.fmtBinary c s)) ∧
    ∀ s : IV w, Builds (Succinct.IV.fmtDebug c.dbg s) (IV.fmtDebug c s) := by
  haveI : Honest c w := ⟨h, hm⟩
  refine ⟨fun _ _ _ => ⟨?_, ?_, ?_⟩, fun _ _ _ _ => ⟨?_, ?_, ?_, ?_⟩, fun _ _ _ => ⟨?_, ?_, ?_⟩,
    fun _ _ _ _ _ => ⟨?_, ?_, ?_, ?_, ?_, ?_, ?_, ?_, ?_, ?_⟩, fun _ _ => ⟨?_, ?_, ?_, ?_, ?_, ?_⟩, fun _ => ?_, fun _ => ?_⟩ <;>
  exact .of fun _ _ => inferInstance

/-! ### Sequences of calls -/

/-- one call on a bit vector -/
def bvStep (c : OCfg) (s : VB w) : BvOp w → Res (BvOut w × VB w)
  | .pushBit b => do let s ← (bvBitVecPush c w).pushBit s b; .ok (.unit, s)
  | .popBit => do let (o, s) ← (bvBitVecPush c w).popBit s; .ok (.optBit o, s)
  | .setBit i b => do let s ← (bvBitVecMut c w).setBit s i b; .ok (.unit, s)
  | .setBlock i x => do let s ← (bvBitVecMut c w).setBlock s i x; .ok (.unit, s)
  | .setBits p n x => do let s ← (bvBitVecMut c w).setBits s p n x; .ok (.unit, s)
  | .pushBlock x => do let s ← (bvBitVecPush c w).pushBlock s x; .ok (.unit, s)
  | .alignBlock b => do let s ← (bvBitVecPush c w).alignBlock s b; .ok (.unit, s)
  | .resize n b => do let s ← BV.resize c s n b; .ok (.unit, s)
  | .blockResize n x => do let s ← BV.blockResize c s n x; .ok (.unit, s)
  | .truncate n => do let s ← BV.truncate c s n; .ok (.unit, s)
  | .blockTruncate n => do let s ← BV.blockTruncate c s n; .ok (.unit, s)
  | .clear => .ok (.unit, s.clear)
  | .bitLen => do let n ← (bvBitVec c w).bitLen s; .ok (.num n, s)
  | .blockLen => do let n ← (bvBitVec c w).blockLen s; .ok (.num n, s)
  | .getBit i => do let b ← (bvBitVec c w).getBit s i; .ok (.bit b, s)
  | .getBlock i => do let x ← (bvBitVec c w).getBlock s i; .ok (.block x, s)
  | .getBits p n => do let x ← (bvBitVec c w).getBits s p n; .ok (.block x, s)

/-- a sequence of calls -/
def bvRun (c : OCfg) (s : VB w) : List (BvOp w) → Res (List (BvOut w) × VB w)
  | [] => .ok ([], s)
  | op :: ops => do
    let (o, s) ← bvStep c s op
    let (os, s) ← bvRun c s ops
    .ok (o :: os, s)

/-- constructors -/
def bvInit (c : OCfg) : BvInit w → Res (VB w)
  | .new => .ok VB.new
  | .withCapacity n => BV.withCapacity c w n
  | .withFill n b => BV.withFill c w n b
  | .blockWithFill n x => BV.blockWithFill c n x

/-- one call on an integer vector -/
def ivStep (c : OCfg) (s : IV w) : IvOp w → Res (IvOut × IV w)
  | .push x => do let s ← IV.push c s x; .ok (.unit, s)
  | .pop => do let (o, s) ← IV.pop c s; .ok (.optNum (o.map BitVec.toNat), s)
  | .set i x => do let s ← IV.set c s i x; .ok (.unit, s)
  | .setRandom off n i x => do let s ← IV.setRandom c s off n i x; .ok (.unit, s)
  | .setBlock i x => do let s ← (ivBitVecMut c w).setBlock s i x; .ok (.unit, s)
  | .truncate n => do let s ← IV.truncate c s n; .ok (.unit, s)
  | .blockTruncate n => do let s ← IV.blockTruncate c s n; .ok (.unit, s)
  | .resize n x => do let s ← IV.resize c s n x; .ok (.unit, s)
  | .blockResize n x => do let s ← IV.blockResize c s n x; .ok (.unit, s)
  | .clear => .ok (.unit, s.clear)
  | .len => .ok (.num s.len, s)
  | .isEmpty => .ok (.flag s.isEmpty, s)
  | .get i => do let x ← IV.get c s i; .ok (.num x.toNat, s)
  | .getRandom off n i => do let x ← IV.getRandom c s off n i; .ok (.num x.toNat, s)

/-- a sequence of calls -/
def ivRun (c : OCfg) (s : IV w) : List (IvOp w) → Res (List IvOut × IV w)
  | [] => .ok ([], s)
  | op :: ops => do
    let (o, s) ← ivStep c s op
    let (os, s) ← ivRun c s ops
    .ok (o :: os, s)

/-- constructors -/
def ivInit (c : OCfg) (k : Nat) : IvInit w → Res (IV w)
  | .new => IV.new w k
  | .withCapacity n => IV.withCapacity c w k n
  | .blockWithCapacity _ => IV.blockWithCapacity w k
  | .withFill n x => IV.withFill c k n x
  | .blockWithFill n x => IV.blockWithFill c k n x

section
variable {d e : Bool} [Honest c w]

instance bvStep_agree (s : VB w) (op : BvOp w) : Agree d e (Succinct.bvStep c.dbg s op) (bvStep c s op) := by
  have hm := (bv_agree c w).base
  have hr := hm.base
  cases op <;> unfold Succinct.bvStep bvStep
  case setBit => exact Agree.bind' (hm.setBit _ _ _ _ _) fun _ => Agree.refl _
  case setBlock => exact Agree.bind' (hm.setBlock _ _ _ _ _) fun _ => Agree.refl _
  case setBits => exact Agree.bind' (hm.setBits _ _ _ _ _ _) fun _ => Agree.refl _
  case bitLen => exact Agree.bind' (hr.bitLen _ _ _) fun _ => Agree.refl _
  case blockLen => exact Agree.bind' (hr.blockLen _ _ _) fun _ => Agree.refl _
  case getBit => exact Agree.bind' (hr.getBit _ _ _ _) fun _ => Agree.refl _
  case getBlock => exact Agree.bind' (hr.getBlock _ _ _ _) fun _ => Agree.refl _
  case getBits => exact Agree.bind' (hr.getBits _ _ _ _ _) fun _ => Agree.refl _
  all_goals own_agree

instance bvInit_agree (i : BvInit w) : Agree d e (Succinct.bvInit c.dbg i) (bvInit c i) := by
  cases i <;> unfold Succinct.bvInit bvInit <;> own_agree

instance ivStep_agree (s : IV w) (op : IvOp w) : Agree d e (Succinct.ivStep c.dbg s op) (ivStep c s op) := by
  cases op <;> unfold Succinct.ivStep ivStep <;> own_agree

instance ivInit_agree (k : Nat) (i : IvInit w) : Agree d e (Succinct.ivInit c.dbg k i) (ivInit c k i) := by
  cases i <;> unfold Succinct.ivInit ivInit <;> own_agree

end

/-! ### Calls that must panic -/

theorem panics {x : Res α} {f : α → Res β} (hx : x ≠ .diverge) (h : ∀ a, x = .ok a → f a = .panic) : (x >>= f) = .panic := by
  cases x with
  | ok a => exact h a rfl
  | panic => rfl
  | diverge => exact absurd rfl hx

theorem addN_ne (c : Cfg) (n x y : Nat) : Succinct.addN c n x y ≠ .diverge := by
  unfold Succinct.addN overflow; split <;> (try split) <;> simp
theorem mulN_ne (c : Cfg) (n x y : Nat) : Succinct.mulN c n x y ≠ .diverge := by
  unfold Succinct.mulN overflow; split <;> (try split) <;> simp
theorem subN_ne (c : Cfg) (n x y : Nat) : Succinct.subN c n x y ≠ .diverge := by
  unfold Succinct.subN overflow; split <;> (try split) <;> simp
theorem assertR_ne (p : Prop) [Decidable p] : assertR p ≠ .diverge := by
  unfold assertR; split <;> simp
theorem expectR_ne (o : Option α) : expectR o ≠ .diverge := by cases o <;> simp [expectR]

/-- A field that ends behind the last bit cannot be read, however the sum of its position and length is computed. -/
theorem getBits_panics (h : Honest c w) {S : Type} {bitLen : S → Res Nat} {getBlock : S → Nat → Res (BitVec w)} {s : S} {p n m : Nat}
    (hb : bitLen s = .ok m) (hs : p + n < 2 ^ 64 → m < p + n) (hg : 2 ^ 64 ≤ p + n → getBlock s (p / w) = .panic) :
    dfltGetBits c bitLen getBlock s p n = .panic := by
  unfold dfltGetBits
  refine panics (addN_ne _ _ _ _) fun l hl => ?_
  rw [hb, Res.ok_bind]
  rcases Nat.lt_or_ge (p + n) (2 ^ 64) with hlt | hge
  · have hl := (addN_ok hlt).symm.trans hl
    cases hl
    rw [assertR_false (by have := hs hlt; omega)]; rfl
  · refine panics (assertR_ne _) fun _ _ => ?_
    unfold Address.new OwnBlk.checkedDivNbits OwnBlk.modNbits
    rw [h.law.checkedDivNbits, h.law.modNbits, Res.ok_bind]
    split
    · simp only [expectR_some, Res.ok_bind]
      refine panics (subN_ne _ _ _ _) fun margin _ => ?_
      rw [hg hge]
      split
      · rfl
      · exact panics (subN_ne _ _ _ _) fun _ _ => rfl
    · rfl

theorem setBits_panics (h : Honest c w) {S : Type} {bitLen : S → Res Nat} {getBlock : S → Nat → Res (BitVec w)}
    {setBlock : S → Nat → BitVec w → Res S} {s : S} {p n m : Nat} {x : BitVec w}
    (hb : bitLen s = .ok m) (hs : p + n < 2 ^ 64 → m < p + n) (hg : 2 ^ 64 ≤ p + n → getBlock s (p / w) = .panic) :
    dfltSetBits c bitLen getBlock setBlock s p n x = .panic := by
  unfold dfltSetBits
  refine panics (addN_ne _ _ _ _) fun l hl => ?_
  rw [hb, Res.ok_bind]
  rcases Nat.lt_or_ge (p + n) (2 ^ 64) with hlt | hge
  · have hl := (addN_ok hlt).symm.trans hl
    cases hl
    rw [assertR_false (by have := hs hlt; omega)]; rfl
  · refine panics (assertR_ne _) fun _ _ => ?_
    unfold Address.new OwnBlk.checkedDivNbits OwnBlk.modNbits
    rw [h.law.checkedDivNbits, h.law.modNbits, Res.ok_bind]
    split
    · simp only [expectR_some, Res.ok_bind]
      refine panics (subN_ne _ _ _ _) fun margin _ => ?_
      rw [hg hge]
      split
      · rfl
      · exact panics (subN_ne _ _ _ _) fun _ _ => rfl
    · rfl

/-- The block at the end of the address space is not one of the vector. -/
theorem last_block {c₀ : Cfg} {eb : Nat} (h : IsBlk w) {s : VB w} {bits} (hR : VR c₀ w eb s bits) {p n : Nat} (hn : n ≤ w) (hge : 2 ^ 64 ≤ p + n) :
    vecGet s.vec (p / w) = .panic := by
  have hf := hR.fits.1
  have hw := h.pos
  have : blocksFor w bits.length ≤ p / w := by
    rw [Nat.le_div_iff_mul_le hw]; omega
  unfold vecGet
  rw [List.getElem?_eq_none (by rw [hR.blocks]; exact this)]; rfl

theorem vb_getBits_panics (h : Honest c w) {c₀ : Cfg} {eb : Nat} {s : VB w} {bits} (hR : VR c₀ w eb s bits) {p n : Nat} (hn : n ≤ w)
    (hl : bits.length < p + n) : VB.getBits c s eb p n = .panic := by
  have hw := h.blk.pos
  have hf := hR.fits.1
  have hlen := hR.fits.lt hw
  unfold VB.getBits
  refine panics (addN_ne _ _ _ _) fun l hl' => ?_
  have hmul : mulN c 64 s.len eb = .ok (s.len * eb) := mulN_ok (by rw [hR.len]; omega)
  rw [hmul, hR.len, Res.ok_bind]
  rcases Nat.lt_or_ge (p + n) (2 ^ 64) with hlt | hge
  · have hl' := (addN_ok hlt).symm.trans hl'
    cases hl'
    rw [assertR_false (by omega)]; rfl
  · refine panics (assertR_ne _) fun _ _ => ?_
    have hb : mulN c 64 s.vec.length w = .ok (s.vec.length * w) := mulN_ok (by rw [hR.blocks]; omega)
    show dfltGetBits c (fun s : List (BitVec w) => mulN c 64 s.length w) (fun s i => vecGet s i) s.vec p n = .panic
    exact getBits_panics h hb (fun hlt => absurd hlt (Nat.not_lt.2 hge)) (fun _ => last_block h.blk hR hn hge)

theorem vb_setBits_panics (h : Honest c w) {c₀ : Cfg} {eb : Nat} {s : VB w} {bits} (hR : VR c₀ w eb s bits) {p n : Nat} (hn : n ≤ w)
    {x : BitVec w} (hl : bits.length < p + n) : VB.setBits c s eb p n x = .panic := by
  have hw := h.blk.pos
  have hf := hR.fits.1
  have hlen := hR.fits.lt hw
  unfold VB.setBits
  refine panics (addN_ne _ _ _ _) fun l hl' => ?_
  have hmul : mulN c 64 s.len eb = .ok (s.len * eb) := mulN_ok (by rw [hR.len]; omega)
  rw [hmul, hR.len, Res.ok_bind]
  rcases Nat.lt_or_ge (p + n) (2 ^ 64) with hlt | hge
  · have hl' := (addN_ok hlt).symm.trans hl'
    cases hl'
    rw [assertR_false (by omega)]; rfl
  · refine panics (assertR_ne _) fun _ _ => ?_
    have hb : mulN c 64 s.vec.length w = .ok (s.vec.length * w) := mulN_ok (by rw [hR.blocks]; omega)
    have : (vecBitVecMut c w).setBits s.vec p n x = .panic := by
      show dfltSetBits c (fun s : List (BitVec w) => mulN c 64 s.length w) (fun s i => vecGet s i) _ s.vec p n x = .panic
      exact setBits_panics h hb (fun hlt => absurd hlt (Nat.not_lt.2 hge)) (fun _ => last_block h.blk hR hn hge)
    rw [this]; rfl

theorem vb_setBlock_panics {c₀ : Cfg} {eb eb' : Nat} {s : VB w} {bits} (hR : VR c₀ w eb s bits) {i : Nat} {x : BitVec w}
    (hi : ¬ i < blocksFor w bits.length) : VB.setBlock c s eb' i x = .panic := by
  unfold VB.setBlock vecSet
  rw [if_neg (by rw [hR.blocks]; exact hi)]; rfl

theorem vb_getBlock_panics {c₀ : Cfg} {eb : Nat} {s : VB w} {bits} (hR : VR c₀ w eb s bits) {i : Nat}
    (hi : ¬ i < blocksFor w bits.length) : VB.getBlock s i = .panic := by
  unfold VB.getBlock vecGet
  rw [List.getElem?_eq_none (by rw [hR.blocks]; omega)]; rfl

theorem bv_getBits_panics (h : Honest c w) {c₀ : Cfg} {s : VB w} {bits} (hR : bvR c₀ w s bits) {p n : Nat} (hn : n ≤ w)
    (hl : bits.length < p + n) : (bvBitVec c w).getBits s p n = .panic := by
  have hlen : s.len = bits.length := by have := hR.len; omega
  have hb : (bvBitVec c w).bitLen s = .ok bits.length := by rw [← hlen]; rfl
  have hg : 2 ^ 64 ≤ p + n → (bvBitVec c w).getBlock s (p / w) = .panic := fun hge => last_block h.blk hR hn hge
  exact getBits_panics (bitLen := (bvBitVec c w).bitLen) (getBlock := (bvBitVec c w).getBlock) h hb (fun _ => hl) hg

theorem bv_setBits_panics (h : Honest c w) {c₀ : Cfg} {s : VB w} {bits} (hR : bvR c₀ w s bits) {p n : Nat} {x : BitVec w} (hn : n ≤ w)
    (hl : bits.length < p + n) : (bvBitVecMut c w).setBits s p n x = .panic := by
  have hlen : s.len = bits.length := by have := hR.len; omega
  have hb : (bvBitVec c w).bitLen s = .ok bits.length := by rw [← hlen]; rfl
  have hg : 2 ^ 64 ≤ p + n → (bvBitVec c w).getBlock s (p / w) = .panic := fun hge => last_block h.blk hR hn hge
  have he : (bvBitVecMut c w).setBits s p n x =
    dfltSetBits c (bvBitVec c w).bitLen (bvBitVec c w).getBlock (fun s i v => VB.setBlock c s 1 i v) s p n x := rfl
  rw [he]
  exact setBits_panics h hb (fun _ => hl) hg

theorem bvStep_panics (h : Honest c w) {c₀ : Cfg} {s : VB w} {bits} (hR : bvR c₀ w s bits) (op : BvOp w) (hok : op.Ok c.usz w bits)
    (hs : bvSpec w bits op = none) : bvStep c s op = .panic := by
  have hlen : s.len = bits.length := by have := hR.len; omega
  cases op <;> unfold bvSpec at hs <;> simp only [reduceCtorEq] at hs <;> unfold bvStep <;> dsimp only
  case setBit i b =>
    rw [ite_eq_right_iff] at hs
    have hi : ¬ i < bits.length := fun hi => absurd (hs hi) (by simp)
    show VB.setBit c s i b >>= _ = _
    unfold VB.setBit
    rw [hlen, assertR_false hi]; rfl
  case setBlock i x =>
    rw [ite_eq_right_iff] at hs
    have hi : ¬ i < blocksFor w bits.length := fun hi => absurd (hs hi) (by simp)
    show VB.setBlock c s 1 i x >>= _ = _
    rw [vb_setBlock_panics hR hi]; rfl
  case setBits p n x =>
    rw [ite_eq_right_iff] at hs
    have hi : ¬ p + n ≤ bits.length := fun hi => absurd (hs hi) (by simp)
    rw [bv_setBits_panics h hR hok.2.2 (Nat.lt_of_not_le hi)]; rfl
  case getBit i =>
    have hi : ¬ i < bits.length := fun hi => by rw [List.getElem?_eq_getElem hi] at hs; simp at hs
    show VB.getBit c s i >>= _ = _
    unfold VB.getBit
    rw [hlen, assertR_false hi]; rfl
  case getBlock i =>
    rw [ite_eq_right_iff] at hs
    have hi : ¬ i < blocksFor w bits.length := fun hi => absurd (hs hi) (by simp)
    show VB.getBlock s i >>= _ = _
    rw [vb_getBlock_panics hR hi]; rfl
  case getBits p n =>
    rw [ite_eq_right_iff] at hs
    have hi : ¬ p + n ≤ bits.length := fun hi => absurd (hs hi) (by simp)
    rw [bv_getBits_panics h hR hok.2.2 (Nat.lt_of_not_le hi)]; rfl

theorem checkValue_panics (h : Honest c w) {k : Nat} (hk : k ≤ w) {x : BitVec w} (hx : ¬ x.toNat < 2 ^ k) :
    IV.checkValueRandom c k x = .panic := by
  unfold IV.checkValueRandom OwnBlk.lowMask
  obtain ⟨y, hy, hy'⟩ := h.law.lowMask k hk
  have := Nat.two_pow_pos k
  rw [hy, Res.ok_bind, hy', assertR_false (by omega)]

theorem checkValue_ok (h : Honest c w) {k : Nat} (hk : k ≤ w) {x : BitVec w} (hx : x.toNat < 2 ^ k) :
    IV.checkValueRandom c k x = .ok () := by
  unfold IV.checkValueRandom OwnBlk.lowMask
  obtain ⟨y, hy, hy'⟩ := h.law.lowMask k hk
  rw [hy, Res.ok_bind, hy', assertR_true (by omega)]

theorem ivStep_panics (h : Honest c w) {c₀ : Cfg} {k : Nat} {s : IV w} {xs} (hR : IR c₀ w k s xs) (op : IvOp w)
    (hok : op.Ok c.usz w k xs) (hs : ivSpec w k xs op = none) : ivStep c s op = .panic := by
  have hw := h.blk.pos
  have hlen := length_packBits k xs
  have hp := hR.pos
  cases op <;> unfold ivSpec at hs <;> simp only [reduceCtorEq] at hs <;> unfold ivStep <;> dsimp only
  case push x =>
    rw [ite_eq_right_iff] at hs
    have hx : ¬ x.toNat < 2 ^ k := fun hx => absurd (hs hx) (by simp)
    unfold IV.push IV.checkValue
    rw [hR.eb, checkValue_panics h hR.le hx]; rfl
  case set i x =>
    rw [ite_eq_right_iff] at hs
    have hx : ¬ (i < xs.length ∧ x.toNat < 2 ^ k) := fun hx => absurd (hs hx) (by simp)
    have : IV.set c s i x = .panic := by
      unfold IV.set IV.isBlockSized
      rw [hR.eb]
      by_cases hkw : k = w
      · subst hkw
        have hi : xs.length ≤ i := by have := x.isLt; omega
        rw [if_pos (by simp), asUsize, Succinct.asUsize, Nat.mod_eq_of_lt (hok.2 rfl),
          vb_setBlock_panics hR.rep (by rw [hlen, blocksFor_mul _ _ hw]; omega)]; rfl
      · rw [if_neg (by simpa using hkw), IV.checkValue, hR.eb]
        by_cases hx' : x.toNat < 2 ^ k
        · rw [checkValue_ok h hR.le hx', Res.ok_bind, IV.computeAddress]
          refine panics (expectR_ne _) fun a ha => ?_
          unfold checkedMul at ha
          split at ha
          · cases ha
            have := span_end' (k := k) hp (show xs.length ≤ i by omega)
            rw [vb_setBits_panics h hR.rep hR.le (by rw [hlen, hR.eb]; exact this)]; rfl
          · cases ha
        · rw [checkValue_panics h hR.le hx']; rfl
    rw [this]; rfl
  case setRandom off n i x =>
    rw [ite_eq_right_iff] at hs
    have hx : ¬ (off + i * n + n ≤ xs.length * k ∧ x.toNat < 2 ^ n) := fun hx => absurd (hs hx) (by simp)
    have hn : n ≤ w := hok.2.2.2
    unfold IV.setRandom
    by_cases hx' : x.toNat < 2 ^ n
    · rw [checkValue_ok h hn hx', Res.ok_bind]
      rcases addressRandom_cases off n i with ha | ⟨ha, hlt⟩
      · rw [ha]; rfl
      · rw [ha, Res.ok_bind, hR.eb, vb_setBits_panics h hR.rep hn (by rw [hlen]; omega)]; rfl
    · rw [checkValue_panics h hn hx']; rfl
  case setBlock i x =>
    rw [ite_eq_right_iff] at hs
    have hi : ¬ i < blocksFor w (xs.length * k) := fun hx => absurd (hs hx) (by simp)
    show IV.setBlock c s i x >>= _ = _
    unfold IV.setBlock
    rw [vb_setBlock_panics hR.rep (by rw [hlen]; exact hi)]; rfl
  case get i =>
    have hi : xs.length ≤ i := by
      rcases Nat.lt_or_ge i xs.length with hi | hi
      · rw [List.getElem?_eq_getElem hi] at hs; simp at hs
      · exact hi
    have : IV.get c s i = .panic := by
      unfold IV.get IV.isBlockSized
      rw [hR.eb]
      by_cases hkw : k = w
      · subst hkw
        rw [if_pos (by simp), asUsize, Succinct.asUsize, Nat.mod_eq_of_lt (hok.2 rfl),
          vb_getBlock_panics hR.rep (by rw [hlen, blocksFor_mul _ _ hw]; omega)]
      · rw [if_neg (by simpa using hkw), IV.computeAddress]
        refine panics (expectR_ne _) fun a ha => ?_
        unfold checkedMul at ha
        split at ha
        · cases ha
          rw [hR.eb]
          exact vb_getBits_panics h hR.rep hR.le (by rw [hlen]; exact span_end' (k := k) hp hi)
        · cases ha
    rw [this]; rfl
  case getRandom off n i =>
    rw [ite_eq_right_iff] at hs
    have hx : ¬ (off + i * n + n ≤ xs.length * k) := fun hx => absurd (hs hx) (by simp)
    have hn : n ≤ w := hok.2.2.2
    unfold IV.getRandom
    rcases addressRandom_cases off n i with ha | ⟨ha, hlt⟩
    · rw [ha]; rfl
    · rw [ha, Res.ok_bind, hR.eb, vb_getBits_panics h hR.rep hn (by rw [hlen]; omega)]; rfl

/-! ### Vectors are lists -/

theorem bvStep_refines (h : Honest c w) {s : VB w} {bits} (hR : bvR c.dbg w s bits) (op : BvOp w) (hok : op.Ok c.usz w bits) :
    Refines (bvR c.dbg w) (bvStep c s op) (bvSpec w bits op) := by
  have h1 := Succinct.bvStep_refines c.dbg h.blk hR op hok
  rcases hs : bvSpec w bits op with _ | ⟨o, bits'⟩
  · exact bvStep_panics h hR op hok hs
  · rw [hs] at h1
    obtain ⟨s', h1, hR'⟩ := h1
    refine ⟨s', ?_, hR'⟩
    rcases (bvStep_agree (c := c) s op).cases with h2 | h2
    · rw [h1] at h2; cases h2
    · exact h2.symm.trans h1

theorem bvRun_refines (h : Honest c w) (ops : List (BvOp w)) {s : VB w} {bits} (hR : bvR c.dbg w s bits)
    (hok : bvOpsOk c.usz w bits ops) : Refines (bvR c.dbg w) (bvRun c s ops) (bvSpecRun w bits ops) := by
  induction ops generalizing s bits with
  | nil => exact ⟨s, rfl, hR⟩
  | cons op ops ih =>
    have h1 := bvStep_refines h hR op hok.1
    have h2 := hok.2
    unfold bvRun bvSpecRun
    rcases hsp : bvSpec w bits op with _ | ⟨o, bits'⟩
    · rw [hsp] at h1
      have h1 : bvStep c s op = .panic := h1
      exact by rw [h1]; rfl
    · rw [hsp] at h1
      obtain ⟨s', hs', hR'⟩ := h1
      have h3 := ih hR' (h2 _ hsp)
      rcases hsp2 : bvSpecRun w bits' ops with _ | ⟨os, bits''⟩
      · rw [hsp2] at h3
        have h3 : bvRun c s' ops = .panic := h3
        simp only [hs', Res.ok_bind, h3, Option.bind_eq_bind, Option.bind_some, hsp2, Option.bind_none]
        rfl
      · rw [hsp2] at h3
        obtain ⟨s'', hs'', hR''⟩ := h3
        simp only [hs', Res.ok_bind, hs'', Option.bind_eq_bind, Option.bind_some, hsp2]
        exact ⟨s'', rfl, hR''⟩

/-- C152. Over lawful methods a bit vector is a list of booleans: any sequence of calls returns what it returns on the list, and
panics exactly when the list operation is out of range, in every build. -/
theorem C152_bit_vector (h : IsBlk w) (hm : (c.own w).Lawful c.usz) (i : BvInit w) (ops : List (BvOp w)) (hi : i.Ok c.usz)
    (hops : bvOpsOk c.usz w i.bits ops) :
    ∃ s0, bvInit c i = .ok s0 ∧
      (match bvSpecRun w i.bits ops with
        | some (os, bits) => ∃ s, bvRun c s0 ops = .ok (os, s) ∧ s.len = bits.length ∧
            ∀ k < 2 ^ 64, (bvBitVec c w).getBit s k = expectR bits[k]?
        | none => bvRun c s0 ops = .panic) := by
  haveI hh : Honest c w := ⟨h, hm⟩
  obtain ⟨s0, h0, hR0⟩ := bvInit_ok c.dbg h i hi
  refine ⟨s0, ?_, ?_⟩
  · rcases (bvInit_agree (c := c) i).cases with h2 | h2
    · rw [h0] at h2; cases h2
    · exact h2.symm.trans h0
  have hr := bvRun_refines hh ops hR0 hops
  rcases hs : bvSpecRun w i.bits ops with _ | ⟨os, bits⟩
  · rw [hs] at hr; exact hr
  · rw [hs] at hr
    obtain ⟨s, hrun, hR⟩ := hr
    have hlen : s.len = bits.length := by have := hR.len; omega
    refine ⟨s, hrun, hlen, fun k hk => ?_⟩
    have hg := (bv_law c.dbg h).getBit hR k hk
    rcases ((bv_agree c w).base.base.getBit false false s k).cases with h2 | h2
    · have hn : bits[k]? = none := by
        rcases hb : bits[k]? with _ | b
        · rfl
        · rw [hb] at hg
          have : (Succinct.bvBitVec c.dbg w).getBit s k = .panic := h2
          rw [this] at hg; cases hg
      rw [hn]
      show VB.getBit c s k = .panic
      unfold VB.getBit
      rw [assertR_false (by rw [hlen]; have := List.getElem?_eq_none_iff.1 hn; omega)]; rfl
    · exact h2.symm.trans hg

theorem ivStep_refines (h : Honest c w) {k : Nat} {s : IV w} {xs} (hR : IR c.dbg w k s xs) (op : IvOp w) (hok : op.Ok c.usz w k xs) :
    Refines (IR c.dbg w k) (ivStep c s op) (ivSpec w k xs op) := by
  have h1 := Succinct.ivStep_refines c.dbg h.blk hR op hok
  rcases hs : ivSpec w k xs op with _ | ⟨o, xs'⟩
  · exact ivStep_panics h hR op hok hs
  · rw [hs] at h1
    obtain ⟨s', h1, hR'⟩ := h1
    refine ⟨s', ?_, hR'⟩
    rcases (ivStep_agree (c := c) s op).cases with h2 | h2
    · rw [h1] at h2; cases h2
    · exact h2.symm.trans h1

theorem ivRun_refines (h : Honest c w) {k : Nat} (ops : List (IvOp w)) {s : IV w} {xs} (hR : IR c.dbg w k s xs)
    (hok : ivOpsOk c.usz w k xs ops) : Refines (IR c.dbg w k) (ivRun c s ops) (ivSpecRun w k xs ops) := by
  induction ops generalizing s xs with
  | nil => exact ⟨s, rfl, hR⟩
  | cons op ops ih =>
    have h1 := ivStep_refines h hR op hok.1
    have h2 := hok.2
    unfold ivRun ivSpecRun
    rcases hsp : ivSpec w k xs op with _ | ⟨o, xs'⟩
    · rw [hsp] at h1
      have h1 : ivStep c s op = .panic := h1
      exact by rw [h1]; rfl
    · rw [hsp] at h1
      obtain ⟨s', hs', hR'⟩ := h1
      have h3 := ih hR' (h2 _ hsp)
      rcases hsp2 : ivSpecRun w k xs' ops with _ | ⟨os, xs''⟩
      · rw [hsp2] at h3
        have h3 : ivRun c s' ops = .panic := h3
        simp only [hs', Res.ok_bind, h3, Option.bind_eq_bind, Option.bind_some, hsp2, Option.bind_none]
        rfl
      · rw [hsp2] at h3
        obtain ⟨s'', hs'', hR''⟩ := h3
        simp only [hs', Res.ok_bind, hs'', Option.bind_eq_bind, Option.bind_some, hsp2]
        exact ⟨s'', rfl, hR''⟩

/-- C152. Over lawful methods an integer vector of `k`-bit elements is a list of numbers below `2^k`: any sequence of calls returns
what it returns on the list, and panics exactly when the list operation is out of range or the value does not fit. -/
theorem C152_int_vector (h : IsBlk w) (hm : (c.own w).Lawful c.usz) {k : Nat} (hk : 1 ≤ k) (hkw : k ≤ w) (i : IvInit w)
    (ops : List (IvOp w)) (hi : i.Ok c.usz k) (hops : ivOpsOk c.usz w k (i.elems k) ops) :
    ∃ s0, ivInit c k i = .ok s0 ∧
      (match ivSpecRun w k (i.elems k) ops with
        | some (os, xs) => ∃ s, ivRun c s0 ops = .ok (os, s) ∧ s.len = xs.length ∧ (∀ x ∈ xs, x < 2 ^ k) ∧
            ∀ j, ∀ hj : j < xs.length, ∃ x, IV.get c s j = .ok x ∧ x.toNat = xs[j]
        | none => ivRun c s0 ops = .panic) := by
  haveI hh : Honest c w := ⟨h, hm⟩
  obtain ⟨s0, h0, hR0⟩ := ivInit_ok c.dbg h hk hkw i hi
  refine ⟨s0, ?_, ?_⟩
  · rcases (ivInit_agree (c := c) k i).cases with h2 | h2
    · rw [h0] at h2; cases h2
    · exact h2.symm.trans h0
  have hr := ivRun_refines hh ops hR0 hops
  rcases hs : ivSpecRun w k (i.elems k) ops with _ | ⟨os, xs⟩
  · rw [hs] at hr; exact hr
  · rw [hs] at hr
    obtain ⟨s, hrun, hR⟩ := hr
    refine ⟨s, hrun, hR.len, hR.lt, fun j hj => ?_⟩
    obtain ⟨x, h1, h2⟩ := hR.get_ok h hj
    refine ⟨x, ?_, h2⟩
    have ha : Agree false false (Succinct.IV.get c.dbg s j) (IV.get c s j) := inferInstance
    rcases ha.cases with h3 | h3
    · rw [h1] at h3; cases h3
    · exact h3.symm.trans h1

/-! ### Rank and select -/

theorem ok_of_agree {x y : Res α} {a : α} (h : Agree false false x y) (hx : x = .ok a) : y = .ok a := by
  rcases h.cases with h2 | h2
  · rw [hx] at h2; cases h2
  · exact h2.symm.trans hx

/-- C152. Jacobson's rank structure, over any vector (`o'`) of such blocks that behaves like a lawful one (`o`): it can be built and
answers every rank query, and select by binary search on top of it answers every select query. -/
theorem C152_rank_select (h : IsBlk w) (hm : (c.own w).Lawful c.usz) {S : Type} {o o' : BitVecOps w S} (ho : BuildsRead o o')
    {R : S → List Bool → Prop} (hl : BVLaw c.dbg o R) (hbl : BVBlockRead o R) (hpad : BVPadLaw o R) {s : S} {bits : List Bool}
    (hR : R s bits) (hmem : InMemory c.usz bits.length) (h2 : 2 ≤ bits.length) :
    ∃ j, Jacobson.new c o' s = .ok j ∧ j.inner = s ∧ RankLaw (Jacobson.ops c o') j bits ∧
      ∀ k v, k + 1 < 2 ^ 64 → ∃ x, (BinSearchSelect.ops c (Jacobson.ops c o')).select (.new j) k v = .ok x ∧ IsSelect v bits k x := by
  haveI hh : Honest c w := ⟨h, hm⟩
  have hag := ho.agree
  obtain ⟨j, hj, hin, hlaw⟩ := C37_jacobson (c := c.dbg) h hl hbl hpad hR hmem h2
  have hr : AgreeRank (Succinct.Jacobson.ops c.dbg o) (Jacobson.ops c o') := inferInstance
  refine ⟨j, ok_of_agree inferInstance hj, hin, ⟨hlaw.small, ok_of_agree (hr.limit _ _ _) hlaw.limit,
    fun p hp => ok_of_agree (hr.rank1 _ _ _ _) (hlaw.rank1 p hp), fun p hp => ok_of_agree (hr.rank0 _ _ _ _) (hlaw.rank0 p hp),
    fun p hp v => ok_of_agree (hr.rank _ _ _ _ _) (hlaw.rank p hp v)⟩, fun k v hk => ?_⟩
  obtain ⟨x, hx, hx'⟩ := (C44_select_partial c.dbg hlaw hk).2.2 v
  have hs : AgreeSelect (Succinct.BinSearchSelect.ops c.dbg (Succinct.Jacobson.ops c.dbg o)) (BinSearchSelect.ops c (Jacobson.ops c o')) :=
    inferInstance
  exact ⟨x, ok_of_agree (hs.select _ _ _ _ _) hx, hx'⟩

/-- C152. For instance over the bit vector that a sequence of calls has made. -/
theorem C152_rank_bit_vector (h : IsBlk w) (hm : (c.own w).Lawful c.usz) {i : BvInit w} {ops : List (BvOp w)} (hi : i.Ok c.usz)
    (hops : bvOpsOk c.usz w i.bits ops) {os bits} (hs : bvSpecRun w i.bits ops = some (os, bits)) (hmem : InMemory c.usz bits.length)
    (h2 : 2 ≤ bits.length) :
    ∃ s0 s j, bvInit c i = .ok s0 ∧ bvRun c s0 ops = .ok (os, s) ∧ Jacobson.new c (bvBitVec c w) s = .ok j ∧
      RankLaw (Jacobson.ops c (bvBitVec c w)) j bits ∧
      ∀ k v, k + 1 < 2 ^ 64 →
        ∃ x, (BinSearchSelect.ops c (Jacobson.ops c (bvBitVec c w))).select (.new j) k v = .ok x ∧ IsSelect v bits k x := by
  haveI hh : Honest c w := ⟨h, hm⟩
  obtain ⟨s0, h0, hR0⟩ := bvInit_ok c.dbg h i hi
  have hr := bvRun_refines hh ops hR0 hops
  rw [hs] at hr
  obtain ⟨s, hrun, hR⟩ := hr
  obtain ⟨j, hj, -, hl, hsel⟩ := C152_rank_select h hm (o' := bvBitVec c w) (C152_vectors h hm).1.write.read (bv_law c.dbg h)
    (bv_block c.dbg h).toBVBlockRead (bv_pad c.dbg h) hR hmem h2
  exact ⟨s0, s, j, ok_of_agree inferInstance h0, hrun, hj, hl, hsel⟩

/-! ### A block type that shares no code with the crate -/

/-- Blocks with methods of their own, written with division and multiplication, that return something on every argument. -/
def flags (usz w : Nat) : BlockMethods w where
  checkedDivNbits := fun i => .ok (if i / w < 2 ^ usz then some (i / w) else none)
  ceilDivNbits := fun i => .ok ((i + (w - 1)) / w % 2 ^ usz)
  checkedCeilDivNbits := fun i => .ok (if (i + (w - 1)) / w < 2 ^ usz then some ((i + (w - 1)) / w) else none)
  modNbits := fun i => .ok (i - i / w * w)
  mulNbits := fun i => .ok (i * w % 2 ^ 64)
  lastBlockBits := fun n => .ok (if n % w = 0 then w else n % w)
  lowMask := fun k => .ok (BitVec.ofNat w (2 ^ k - 1))
  getBit := fun x i => .ok (x.toNat / 2 ^ i % 2 = 1)
  withBit := fun x i v => .ok (BitVec.ofNat w (x.toNat / 2 ^ (i + 1) * 2 ^ (i + 1) + v.toNat * 2 ^ i + x.toNat % 2 ^ i))
  getBits := fun x p n => .ok (BitVec.ofNat w (x.toNat / 2 ^ p % 2 ^ n))
  withBits := fun x p n v =>
    .ok (BitVec.ofNat w (x.toNat / 2 ^ (p + n) * 2 ^ (p + n) + v.toNat % 2 ^ n * 2 ^ p + x.toNat % 2 ^ p))
  rank1 := fun x p => .ok (ones (blockBits x) (p + 1))

/-- Three parts of a number next to each other. -/
theorem three_parts {a m l p n w : Nat} (hl : l < 2 ^ p) (hm : m < 2 ^ n) (ha : a < 2 ^ (w - (p + n))) (hw : p + n ≤ w) :
    a * 2 ^ (p + n) + m * 2 ^ p + l < 2 ^ w ∧
    ∀ j, (a * 2 ^ (p + n) + m * 2 ^ p + l).testBit j =
      if j < p then l.testBit j else if j < p + n then m.testBit (j - p) else a.testBit (j - (p + n)) := by
  have h1 : a * 2 ^ (p + n) + m * 2 ^ p + l = 2 ^ p * (2 ^ n * a + m) + l := by
    rw [Nat.mul_add, ← Nat.mul_assoc, ← Nat.pow_add, Nat.mul_comm a, Nat.mul_comm m]
  rw [h1]
  constructor
  · have h2 : 2 ^ n * a + m < 2 ^ (w - p) := by
      have h3 : 2 ^ n * (a + 1) ≤ 2 ^ n * 2 ^ (w - (p + n)) := Nat.mul_le_mul_left _ ha
      rw [← Nat.pow_add, show n + (w - (p + n)) = w - p by omega, Nat.mul_succ] at h3
      omega
    have h3 : 2 ^ p * (2 ^ n * a + m + 1) ≤ 2 ^ p * 2 ^ (w - p) := Nat.mul_le_mul_left _ h2
    rw [← Nat.pow_add, show p + (w - p) = w by omega, Nat.mul_succ] at h3
    omega
  · intro j
    rw [Nat.testBit_two_pow_mul_add _ hl]
    split
    · rfl
    · rw [Nat.testBit_two_pow_mul_add _ hm]
      by_cases h4 : j < p + n
      · rw [if_pos (by omega), if_pos h4]
      · rw [if_neg (by omega), if_neg h4, Nat.sub_sub]

/-- C152. That block type is lawful. -/
theorem C152_flags (usz w : Nat) : (flags usz w).Lawful usz where
  checkedDivNbits := fun _ => rfl
  ceilDivNbits := fun _ _ => rfl
  checkedCeilDivNbits := fun _ _ => rfl
  modNbits := fun i => by
    have := Nat.div_add_mod i w
    rw [Nat.mul_comm] at this
    show Res.ok (i - i / w * w) = _
    congr 1; omega
  mulNbits := fun _ => rfl
  lastBlockBits := fun _ => rfl
  lowMask := fun k hk => ⟨_, rfl, by
    have h1 := Nat.two_pow_pos k
    have h2 : 2 ^ k ≤ 2 ^ w := Nat.pow_le_pow_right (by decide) hk
    rw [BitVec.toNat_ofNat, Nat.mod_eq_of_lt (by omega)]⟩
  getBit := fun x i _ => by
    show Res.ok (decide _) = _
    rw [Nat.testBit_eq_decide_div_mod_eq]
  withBit := fun x i v hi => ⟨_, rfl, fun j => by
    have hx : x.toNat / 2 ^ (i + 1) < 2 ^ (w - (i + 1)) := by
      rw [Nat.div_lt_iff_lt_mul (Nat.two_pow_pos _), ← Nat.pow_add, show w - (i + 1) + (i + 1) = w by omega]
      exact x.isLt
    obtain ⟨h1, h2⟩ := three_parts (p := i) (n := 1) (l := x.toNat % 2 ^ i) (m := v.toNat)
      (Nat.mod_lt _ (Nat.two_pow_pos _)) (by cases v <;> decide) hx hi
    rw [BitVec.toNat_ofNat, Nat.mod_eq_of_lt h1, h2]
    by_cases hj : j < i
    · rw [if_pos hj, if_neg (by omega), Nat.testBit_mod_two_pow]; simp [hj]
    · rw [if_neg hj]
      by_cases hj' : j = i
      · subst hj'; rw [if_pos (by omega), if_pos rfl, Nat.sub_self]; cases v <;> rfl
      · rw [if_neg (by omega), if_neg hj', Nat.testBit_div_two_pow]
        congr 1; omega⟩
  getBits := fun x p n hn => ⟨_, rfl, fun j => by
    have h1 : x.toNat / 2 ^ p % 2 ^ n < 2 ^ w :=
      Nat.lt_of_le_of_lt (Nat.le_trans (Nat.mod_le _ _) (Nat.div_le_self _ _)) x.isLt
    rw [BitVec.toNat_ofNat, Nat.mod_eq_of_lt h1, Nat.testBit_mod_two_pow, Nat.testBit_div_two_pow, Nat.add_comm j]⟩
  withBits := fun x p n v hn => ⟨_, rfl, fun j => by
    have hx : x.toNat / 2 ^ (p + n) < 2 ^ (w - (p + n)) := by
      rw [Nat.div_lt_iff_lt_mul (Nat.two_pow_pos _), ← Nat.pow_add, show w - (p + n) + (p + n) = w by omega]
      exact x.isLt
    obtain ⟨h1, h2⟩ := three_parts (p := p) (n := n) (l := x.toNat % 2 ^ p) (m := v.toNat % 2 ^ n)
      (Nat.mod_lt _ (Nat.two_pow_pos _)) (Nat.mod_lt _ (Nat.two_pow_pos _)) hx hn
    rw [BitVec.toNat_ofNat, Nat.mod_eq_of_lt h1, h2]
    by_cases hj : j < p
    · rw [if_pos hj, if_neg (by omega), Nat.testBit_mod_two_pow]; simp [hj]
    · rw [if_neg hj]
      by_cases hj' : j < p + n
      · rw [if_pos hj', if_pos ⟨by omega, hj'⟩, Nat.testBit_mod_two_pow]
        simp [show j - p < n by omega]
      · rw [if_neg hj', if_neg (by omega), Nat.testBit_div_two_pow]
        congr 1; omega⟩
  rank1 := fun _ _ _ => rfl

/-- a build with such blocks -/
def flagsCfg (c : Cfg) : OCfg := { c with own := flags c.usz }

/-- Bit vectors of 8-bit blocks of that type, pushing across a block boundary, in a release build: the calls return what the
specification returns. -/
example : (do let s ← bvInit (w := 8) (flagsCfg ⟨false, .p32, false⟩) (.withFill 6 true)
              let (os, s) ← bvRun (flagsCfg ⟨false, .p32, false⟩) s
                [.pushBit false, .pushBlock 0x35#8, .setBits 5 6 0x2a#8, .getBits 3 8, .popBit, .getBit 9, .bitLen]
              .ok (os, s.len)) =
    .ok ([.unit, .unit, .unit, .block 0xab#8, .optBit (some false), .bit false, .num 15], 15) := by decide +kernel

example : (bvSpecRun 8 (BvInit.withFill (w := 8) 6 true).bits
    [.pushBit false, .pushBlock 0x35#8, .setBits 5 6 0x2a#8, .getBits 3 8, .popBit, .getBit 9, .bitLen]).map (·.1) =
    some [.unit, .unit, .unit, .block 0xab#8, .optBit (some false), .bit false, .num 15] := by decide +kernel

/-- Integer vectors with 5-bit elements over 8-bit blocks; the value 32 does not fit. -/
example : (do let s ← ivInit (w := 8) (flagsCfg ⟨false, .p64, false⟩) 5 (.withFill 3 9#8)
              let (os, s) ← ivRun (flagsCfg ⟨false, .p64, false⟩) s [.push 31#8, .set 1 20#8, .get 0, .get 1, .get 3, .pop, .len]
              .ok (os, s.len)) =
    .ok ([.unit, .unit, .num 9, .num 20, .num 31, .optNum (some 31), .num 3], 3) := by decide +kernel
example : (do let s ← ivInit (w := 8) (flagsCfg ⟨false, .p64, false⟩) 5 (.withFill 3 9#8); ivStep (flagsCfg ⟨false, .p64, false⟩) s (.push 32#8)) =
    .panic := by decide +kernel

/-! ### No clause is idle -/

/-- What a sequence of calls returns on a fresh vector of 8-bit blocks with the given methods. -/
def outs8 (own : (w : Nat) → BlockMethods w) (ops : List (BvOp 8)) : Res (List (BvOut 8)) := do
  let c : OCfg := ⟨⟨true, .p64, true⟩, own⟩
  let s ← bvInit c .new
  let (os, _) ← bvRun c s ops
  .ok os

/-- what they should return -/
def right8 (ops : List (BvOp 8)) : Option (List (BvOut 8)) := (bvSpecRun 8 [] ops).map (·.1)

/-- The same for integer vectors of 3-bit elements. -/
def ints8 (own : (w : Nat) → BlockMethods w) (ops : List (IvOp 8)) : Res (List IvOut) := do
  let c : OCfg := ⟨⟨true, .p64, true⟩, own⟩
  let s ← ivInit (w := 8) c 3 .new
  let (os, _) ← ivRun c s ops
  .ok os

/-- C152. Every clause of lawfulness is needed: for each method there is a block type that fails on a single argument of that
method, and a sequence of calls (the same for all lawful types) that panics or returns something else than the list. -/
theorem C152_each :
    let f := flags 64
    let a : List (BvOp 8) := [.resize 9 false, .getBit 8]
    let b : List (BvOp 8) := [.resize 9 true, .truncate 5, .resize 9 true, .getBit 8]
    let d : List (BvOp 8) := [.pushBit true, .setBits 0 1 0#8, .getBits 0 1]
    (outs8 f a = .ok [.unit, .bit false] ∧ right8 a = some [.unit, .bit false]) ∧
    (outs8 f b = .ok [.unit, .unit, .unit, .bit true] ∧ right8 b = some [.unit, .unit, .unit, .bit true]) ∧
    (outs8 f d = .ok [.unit, .unit, .block 0#8] ∧ right8 d = some [.unit, .unit, .block 0#8]) ∧
    outs8 (fun w => { f w with checkedDivNbits := fun i => if i = 8 then .ok none else (f w).checkedDivNbits i }) a = .panic ∧
    outs8 (fun w => { f w with ceilDivNbits := fun i => if i = 9 then .ok 1 else (f w).ceilDivNbits i }) b = .panic ∧
    outs8 (fun w => { f w with checkedCeilDivNbits := fun i => if i = 9 then .ok none else (f w).checkedCeilDivNbits i }) a = .panic ∧
    outs8 (fun w => { f w with modNbits := fun i => if i = 8 then .ok 1 else (f w).modNbits i }) b ≠ .ok [.unit, .unit, .unit, .bit true] ∧
    outs8 (fun w => { f w with mulNbits := fun i => if i = 2 then .ok 8 else (f w).mulNbits i }) a = .panic ∧
    outs8 (fun w => { f w with lastBlockBits := fun i => if i = 5 then .ok 9 else (f w).lastBlockBits i }) b = .panic ∧
    outs8 (fun w => { f w with lowMask := fun k => if k = 1 then .ok 0 else (f w).lowMask k }) b ≠ .ok [.unit, .unit, .unit, .bit true] ∧
    outs8 (fun w => { f w with getBit := fun x i => if x = 1 ∧ i = 0 then .ok false else (f w).getBit x i }) b ≠
      .ok [.unit, .unit, .unit, .bit true] ∧
    outs8 (fun w => { f w with withBit := fun x i v => if x = 0 ∧ i = 0 then .panic else (f w).withBit x i v }) d = .panic ∧
    outs8 (fun w => { f w with getBits := fun x p n => if x = 0 ∧ p = 0 ∧ n = 1 then .ok 1 else (f w).getBits x p n }) d =
      .ok [.unit, .unit, .block 1#8] ∧
    outs8 (fun w => { f w with withBits := fun x p n v => if x = 1 ∧ p = 0 ∧ n = 1 ∧ v = 0 then .ok 1 else (f w).withBits x p n v }) d =
      .ok [.unit, .unit, .block 1#8] ∧
    ints8 f [.push 7#8] = .ok [.unit] ∧
    ints8 (fun w => { f w with lowMask := fun k => if k = 3 then .ok 3 else (f w).lowMask k }) [.push 7#8] = .panic := by
  decide +kernel

/-- The clause for `rank1`, with a vector of one block. -/
theorem C152_each_rank :
    let rank := fun (own : (w : Nat) → BlockMethods w) => do
      let c : OCfg := ⟨⟨true, .p64, true⟩, own⟩
      let j ← Jacobson.new c (vecBitVec c 8) [0x55#8]
      (Jacobson.ops c (vecBitVec c 8)).rank1 j 4
    rank (flags 64) = .ok 3 ∧
    rank (fun w => { flags 64 w with rank1 := fun x p => if p = 4 then .ok 2 else (flags 64 w).rank1 x p }) = .ok 2 := by
  decide +kernel

/-! Each theorem of this file that has hypotheses is applied to concrete data in `Verif/Instances/OwnBlocks.lean`. -/

end Succinct.OwnBlk
