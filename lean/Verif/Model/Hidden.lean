import Verif.Model.Select
import Verif.Model.Slice
import Verif.Model.Stream
/-!
# Vectors with hidden state

A method that takes `&self` can change its receiver all the same, if that holds a `Cell`, a `RefCell`, an
atomic or a lock: a vector that caches the block it read last, counts its calls, or fetches blocks on demand. The
other models let `&self` methods leave `self` as it is. Here every method of a bit vector may change it, and the
generic code of the crate that is written over the bit-vector traits is given once more, call by call: the
default methods of bit_vec/traits.rs, the slices, the rank structures, select and `BitBuffer`.

Simplification: a panic ends the program (no state after it), as in the other models.
-/
namespace Succinct

/-- A call on a receiver of type `S`, which it may change. -/
abbrev HM (S α : Type) := StateT S Res α

namespace HM

/-- A call that does not change the receiver. -/
def look (f : S → Res α) : HM S α := fun s => do let a ← f s; .ok (a, s)

/-- A call that gives back the new receiver only. -/
def act (f : S → Res S) : HM S Unit := fun s => do let s ← f s; .ok ((), s)

/-- A call on the field `get` of the receiver. -/
def on (get : B → S) (put : B → S → B) (m : HM S α) : HM B α := fun b => do
  let (a, s) ← m (get b)
  .ok (a, put b s)

/-- `n` iterations of a loop body, with index `i, i+1, …` and local variables `a`. -/
def loop : Nat → Nat → α → (Nat → α → HM S α) → HM S α
  | 0, _, a, _ => pure a
  | n + 1, i, a, f => do
    let a ← f i a
    loop n (i + 1) a f

/-- `for i in lo .. hi` -/
def range (lo hi : Nat) (a : α) (f : Nat → α → HM S α) : HM S α := loop (hi - lo) lo a f

end HM

/-- `trait BitVec`, traits.rs:11-99. -/
structure HVec (w : Nat) (S : Type) where
  bitLen : HM S Nat
  blockLen : HM S Nat
  getBit : Nat → HM S Bool
  getBlock : Nat → HM S (BitVec w)
  getBits : Nat → Nat → HM S (BitVec w)

/-- `trait BitVecMut: BitVec`, traits.rs:107-187. -/
structure HVecMut (w : Nat) (S : Type) extends HVec w S where
  setBit : Nat → Bool → HM S Unit
  setBlock : Nat → BitVec w → HM S Unit
  setBits : Nat → Nat → BitVec w → HM S Unit

/-- `trait BitVecPush: BitVecMut`, traits.rs:190-220. -/
structure HVecPush (w : Nat) (S : Type) extends HVecMut w S where
  pushBit : Bool → HM S Unit
  popBit : HM S (Option Bool)
  alignBlock : Bool → HM S Unit
  pushBlock : BitVec w → HM S Unit

/-- A vector without hidden state. -/
def BitVecOps.still (o : BitVecOps w S) : HVec w S where
  bitLen := HM.look o.bitLen
  blockLen := HM.look o.blockLen
  getBit i := HM.look fun s => o.getBit s i
  getBlock i := HM.look fun s => o.getBlock s i
  getBits i n := HM.look fun s => o.getBits s i n

def BitVecMutOps.still (o : BitVecMutOps w S) : HVecMut w S where
  toHVec := o.toBitVecOps.still
  setBit i b := HM.act fun s => o.setBit s i b
  setBlock i x := HM.act fun s => o.setBlock s i x
  setBits i n x := HM.act fun s => o.setBits s i n x

def BitVecPushOps.still (o : BitVecPushOps w S) : HVecPush w S where
  toHVecMut := o.toBitVecMutOps.still
  pushBit b := HM.act fun s => o.pushBit s b
  popBit := o.popBit
  alignBlock b := HM.act fun s => o.alignBlock s b
  pushBlock x := HM.act fun s => o.pushBlock s x

namespace HVec

/-- `impl_bit_vec_adapter!`, macros.rs:34-57. -/
def on (get : B → S) (put : B → S → B) (h : HVec w S) : HVec w B where
  bitLen := h.bitLen.on get put
  blockLen := h.blockLen.on get put
  getBit i := (h.getBit i).on get put
  getBlock i := (h.getBlock i).on get put
  getBits i n := (h.getBits i n).on get put

end HVec

namespace Hidden
variable {w : Nat} {S : Type} (c : Cfg)

/-! ### The default methods, bit_vec/traits.rs -/

/-- `BitVec::block_len`, traits.rs:19-21. -/
def blockLen (w : Nat) (bitLen : HM S Nat) : HM S Nat := do
  let n ← bitLen
  let q ← ceilDiv c 64 n w
  pure (asUsize c q)

/-- `BitVec::get_bit`, traits.rs:31-37. -/
def getBit (bitLen : HM S Nat) (getBlock : Nat → HM S (BitVec w)) (position : Nat) : HM S Bool := do
  let n ← bitLen
  assertR (position < n)
  let a ← Address.new c w position
  let block ← getBlock a.blockIndex
  blkGetBit c block a.bitOffset

/-- The body of the loop of `BitVec::get_block`, traits.rs:59-66. -/
def getBlockStep (bitLen : HM S Nat) (getBit : Nat → HM S Bool) (bitPosition i : Nat) (r : BitVec w × BitVec w) :
    HM S (BitVec w × BitVec w) := do
  let p ← addN c 64 bitPosition i
  let n ← bitLen
  let b ← (if p < n then do
      let p ← addN c 64 bitPosition i
      getBit p
    else pure false)
  let mask ← shlB c r.2 1
  pure (if b then r.1 ||| r.2 else r.1, mask)

/-- `BitVec::get_block`, traits.rs:52-69. -/
def getBlock (bitLen blockLen : HM S Nat) (getBit : Nat → HM S Bool) (position : Nat) : HM S (BitVec w) := do
  let bl ← blockLen
  assertR (position < bl)
  let bitPosition ← mulN c 64 position w
  let r ← HM.range 0 w ((0 : BitVec w), (1 : BitVec w)) (getBlockStep c bitLen getBit bitPosition)
  pure r.1

/-- `BitVec::get_bits`, traits.rs:77-98. -/
def getBits (bitLen : HM S Nat) (getBlock : Nat → HM S (BitVec w)) (start count : Nat) : HM S (BitVec w) := do
  let limit ← addN c 64 start count
  let n ← bitLen
  assertR (limit ≤ n)
  let a ← Address.new c w start
  let margin ← subN c c.usz w a.bitOffset
  if margin ≥ count then do
    let block ← getBlock a.blockIndex
    blkGetBits c block a.bitOffset count
  else do
    let extra ← subN c c.usz count margin
    let block1 ← getBlock a.blockIndex
    let i2 ← addN c c.usz a.blockIndex 1
    let block2 ← getBlock i2
    let low ← blkGetBits c block1 a.bitOffset margin
    let high ← blkGetBits c block2 0 extra
    let h ← shlB c high margin
    pure (h ||| low)

/-- `BitVecMut::set_bit`, traits.rs:115-122. -/
def setBit (bitLen : HM S Nat) (getBlock : Nat → HM S (BitVec w)) (setBlock : Nat → BitVec w → HM S Unit)
    (position : Nat) (value : Bool) : HM S Unit := do
  let n ← bitLen
  assertR (position < n)
  let a ← Address.new c w position
  let old ← getBlock a.blockIndex
  let new ← blkWithBit c old a.bitOffset value
  setBlock a.blockIndex new

/-- The body of the loop of `BitVecMut::set_block`, traits.rs:146-150. -/
def setBlockStep (setBit : Nat → Bool → HM S Unit) (start i : Nat) (value : BitVec w) : HM S (BitVec w) := do
  let p ← addN c 64 start i
  setBit p (value &&& 1 != 0)
  shrB c value 1

/-- `BitVecMut::set_block`, traits.rs:138-151. -/
def setBlock (bitLen blockLen : HM S Nat) (setBit : Nat → Bool → HM S Unit) (position : Nat) (value : BitVec w) :
    HM S Unit := do
  let p1 ← addN c c.usz position 1
  let bl ← blockLen
  let limit ← (if p1 = bl then do
      let n ← bitLen
      lastBlockBits c w n
    else pure w)
  let start ← mulNbits c w position
  let _ ← HM.range 0 limit value (setBlockStep c setBit start)
  pure ()

/-- `BitVecMut::set_bits`, traits.rs:159-186. -/
def setBits (bitLen : HM S Nat) (getBlock : Nat → HM S (BitVec w)) (setBlock : Nat → BitVec w → HM S Unit)
    (start count : Nat) (value : BitVec w) : HM S Unit := do
  let limit ← addN c 64 start count
  let n ← bitLen
  assertR (limit ≤ n)
  let a ← Address.new c w start
  let margin ← subN c c.usz w a.bitOffset
  if margin ≥ count then do
    let old ← getBlock a.blockIndex
    let new ← blkWithBits c old a.bitOffset count value
    setBlock a.blockIndex new
  else do
    let extra ← subN c c.usz count margin
    let old1 ← getBlock a.blockIndex
    let i2 ← addN c c.usz a.blockIndex 1
    let old2 ← getBlock i2
    let high ← shrB c value margin
    let new1 ← blkWithBits c old1 a.bitOffset margin value
    let new2 ← blkWithBits c old2 0 extra high
    setBlock a.blockIndex new1
    let i2 ← addN c c.usz a.blockIndex 1
    setBlock i2 new2

/-- `BitVecPush::align_block`, traits.rs:199-203. -/
def alignBlock (w : Nat) (bitLen : HM S Nat) (pushBit : Bool → HM S Unit) (value : Bool) : HM S Unit := do
  let n ← bitLen
  let m ← modNbits c w n
  if m ≠ 0 then do
    pushBit value
    alignBlock w bitLen pushBit value
  else pure ()
partial_fixpoint

/-- The body of the loop of `BitVecPush::push_block`, traits.rs:215-218. -/
def pushBlockStep (pushBit : Bool → HM S Unit) (_i : Nat) (value : BitVec w) : HM S (BitVec w) := do
  pushBit (value &&& 1 != 0)
  shrB c value 1

/-- `BitVecPush::push_block`, traits.rs:211-219. -/
def pushBlock (alignBlock : Bool → HM S Unit) (pushBit : Bool → HM S Unit) (value : BitVec w) : HM S Unit := do
  alignBlock false
  let _ ← HM.range 0 w value (pushBlockStep c pushBit)
  pure ()

/-! ### Slices, bit_vec/bit_slice.rs -/

/-- `BitSlice::new`, `BitSliceMut::new`, bit_slice.rs:25-33 and 52-60. -/
def sliceNew (h : HVec w S) (r : RangeArg) (base : S) : Res (Slice S) := do
  let (n, base) ← h.bitLen base
  let (a, b) := r.intoRange 0 n
  let (n, base) ← h.bitLen base
  assertR (b ≤ n)
  .ok ⟨base, a, b - a⟩

/-- The base of a slice. -/
def base (m : HM S α) : HM (Slice S) α := m.on Slice.data fun s d => { s with data := d }

/-- `get_bits`, bit_slice.rs:103-108 and 129-134. -/
def sliceGetBits (h : HVec w S) (position count : Nat) : HM (Slice S) (BitVec w) := do
  let s ← get
  let e ← expectR (checkedAdd 64 position count)
  assertR (e ≤ s.len)
  let p ← addN c 64 s.start position
  base (h.getBits p count)

/-- `impl BitVec for BitSlice` / `BitSliceMut`, bit_slice.rs:89-139. -/
def slice (h : HVec w S) : HVec w (Slice S) where
  bitLen := HM.look fun s => .ok s.len
  blockLen := blockLen c w (HM.look fun s : Slice S => .ok s.len)
  getBit position := do
    let s ← get
    assertR (position < s.len)
    let p ← addN c 64 s.start position
    base (h.getBit p)
  getBlock position := do
    let p ← mulNbits c w position
    sliceGetBits c h p w
  getBits := sliceGetBits c h

/-- `set_bits`, bit_slice.rs:148-153. -/
def sliceSetBits (h : HVecMut w S) (position count : Nat) (value : BitVec w) : HM (Slice S) Unit := do
  let s ← get
  let e ← expectR (checkedAdd 64 position count)
  assertR (e ≤ s.len)
  let p ← addN c 64 s.start position
  base (h.setBits p count value)

/-- `impl BitVecMut for BitSliceMut`, bit_slice.rs:141-159. -/
def sliceMut (h : HVecMut w S) : HVecMut w (Slice S) where
  toHVec := slice c h.toHVec
  setBit position value := do
    let s ← get
    assertR (position < s.len)
    let p ← addN c 64 s.start position
    base (h.setBit p value)
  setBlock position value := do
    let p ← mulNbits c w position
    sliceSetBits c h p w value
  setBits := sliceSetBits c h

/-! ### Rank -/

/-- `RankSupport` and `BitRankSupport`, rank/traits.rs:6-41. -/
structure HRank (S : Type) where
  rank : Nat → Bool → HM S Nat
  limit : HM S Nat
  rank1 : Nat → HM S Nat
  rank0 : Nat → HM S Nat

/-- `BitRankSupport::rank0`, rank/traits.rs:38-40. -/
def rank0 (rank1 : Nat → HM S Nat) (position : Nat) : HM S Nat := do
  let p ← addN c 64 position 1
  let r ← rank1 position
  subN c 64 p r

/-- As `rankOps`: the `rank` of every implementation in the crate. -/
def rankBy (limit : HM S Nat) (rank1 : Nat → HM S Nat) : HRank S where
  rank p v := if v then rank1 p else rank0 c rank1 p
  limit := limit
  rank1 := rank1
  rank0 := rank0 c rank1

/-- The body of the loop of `JacobsonRank::new`, rank/jacobson.rs:47-60. -/
def jacobsonStep (h : HVec w S) (smallPerLarge i : Nat) (l : Jacobson.Loop) : HM S Jacobson.Loop := do
  let l ← (if l.index = 0 then do
      let large ← l.large.push c (BitVec.ofNat 64 l.current)
      pure { l with large := large, last := l.current }
    else pure l)
  let excess ← subN c 64 l.current l.last
  let small ← l.small.push c (BitVec.ofNat 64 excess)
  let b ← h.getBlock i
  let current ← addN c 64 l.current (countOnes b)
  let index ← addN c c.usz l.index 1
  pure { large := l.large, small := small, current := current, last := l.last,
         index := if index = smallPerLarge then 0 else index }

/-- `JacobsonRank::new`, rank/jacobson.rs:23-73, up to the construction of the result. -/
def jacobsonParts (h : HVec w S) : HM S (Nat × IV 64 × IV 64) := do
  let n ← h.bitLen
  let lg ← ceilLg c (BitVec.ofNat 64 n)
  let lg2 ← mulN c c.usz lg lg
  let smallPerLarge ← ceilDiv c c.usz lg2 w
  let largeBlockSize ← mulN c c.usz w smallPerLarge
  let q ← divN n largeBlockSize
  let largeCount ← addN c 64 q 1
  let q ← divN n w
  let smallCount ← addN c 64 q 1
  let n1 ← addN c 64 n 1
  let largeMeta ← ceilLg c (BitVec.ofNat 64 n1)
  let l1 ← addN c c.usz largeBlockSize 1
  let smallMeta ← ceilLg c (BitVec.ofNat c.usz l1)
  let large ← IV.withCapacity c 64 largeMeta largeCount
  let small ← IV.withCapacity c 64 smallMeta smallCount
  let m ← h.blockLen
  let l ← HM.range 0 m (Jacobson.Loop.mk large small 0 0 0) (jacobsonStep c h smallPerLarge)
  let large ← l.large.push c (BitVec.ofNat 64 l.current)
  let excess ← subN c 64 l.current l.last
  let small ← l.small.push c (BitVec.ofNat 64 excess)
  pure (largeBlockSize, large, small)

/-- `JacobsonRank::new`, rank/jacobson.rs:67-72. -/
def jacobsonNew (h : HVec w S) (bits : S) : Res (Jacobson S) := do
  let (p, bits) ← jacobsonParts c h bits
  .ok ⟨bits, p.1, p.2.1, p.2.2⟩

/-- The vector inside a Jacobson structure. -/
def inJacobson (m : HM S α) : HM (Jacobson S) α := m.on Jacobson.bitStore fun j d => { j with bitStore := d }

/-- `rank1`, rank/jacobson.rs:99-112. -/
def jacobsonRank1 (h : HVec w S) (position : Nat) : HM (Jacobson S) Nat := do
  let s ← get
  let n ← inJacobson h.bitLen
  assertR (position < n)
  let largeBlock ← divN position s.largeBlockSize
  let a ← Address.new c w position
  let largeRank ← s.largeBlockRanks.get c largeBlock
  let smallRank ← s.smallBlockRanks.get c a.blockIndex
  let b ← inJacobson (h.getBlock a.blockIndex)
  let bitsRank ← primRank1 c b a.bitOffset
  let r ← addN c 64 largeRank.toNat smallRank.toNat
  addN c 64 r bitsRank

/-- `impl RankSupport, BitRankSupport for JacobsonRank`, rank/jacobson.rs:86-113. -/
def jacobson (h : HVec w S) : HRank (Jacobson S) := rankBy c (inJacobson h.bitLen) (jacobsonRank1 c h)

/-- The body of the loop of `Rank9::new`, rank/rank9.rs:103-109. -/
def rank9Step (h : HVec 64 S) (i : Nat) (l : Rank9.Loop) : HM S Rank9.Loop := do
  let l ← Rank9.storeCounts c i l
  let b ← h.getBlock i
  let l1 ← addN c 64 l.level1Count (countOnes b)
  let l2 ← addN c 64 l.level2Count (countOnes b)
  pure { l with level1Count := l1, level2Count := l2 }

/-- `Rank9::new`, rank/rank9.rs:76-114. -/
def rank9Parts (h : HVec 64 S) : HM S (List Rank9Cell) := do
  let m ← h.blockLen
  let bbCount ← ceilDiv c c.usz m 8
  let _capacity ← addN c c.usz bbCount 1
  let m ← h.blockLen
  let l ← HM.range 0 m (Rank9.Loop.mk [] 0 0) (rank9Step c h)
  let m ← h.blockLen
  let l ← Rank9.storeCounts c m l
  pure l.result

/-- `Rank9::new`, rank/rank9.rs:115-118. -/
def rank9New (h : HVec 64 S) (bits : S) : Res (Rank9 S) := do
  let (counts, bits) ← rank9Parts c h bits
  .ok ⟨bits, counts⟩

/-- The vector inside a `Rank9`. -/
def inRank9 (m : HM S α) : HM (Rank9 S) α := m.on Rank9.bitStore fun r d => { r with bitStore := d }

/-- `rank1`, rank/rank9.rs:133-149. -/
def rank9Rank1 (h : HVec 64 S) (position : Nat) : HM (Rank9 S) Nat := do
  let s ← get
  let bbIndex ← expectR (toUsize c (position / 512))
  let wordIndex ← expectR (toUsize c (position / 64))
  let cell ← vecGet s.counts bbIndex
  let wordPortion ← Rank9.level2Get c cell.level2 (wordIndex % 8)
  let b ← inRank9 (h.getBlock wordIndex)
  let bitPortion ← primRank1 c b (position % 64)
  let r ← addN c 64 cell.level1 wordPortion.toNat
  addN c 64 r bitPortion

/-- `impl RankSupport, BitRankSupport for Rank9`, rank/rank9.rs:132-162. -/
def rank9 (h : HVec 64 S) : HRank (Rank9 S) := rankBy c (inRank9 h.bitLen) (rank9Rank1 c h)

/-! ### Select -/

/-- The loop of `binary_search_function`, internal/search.rs:29-43. -/
def searchLoop (bits : Nat) (f : Nat → HM S Nat) (value start limit : Nat) : HM S (Option Nat) := do
  if start < limit then do
    let mid ← average c bits start limit
    let y ← f mid
    if value ≤ y then do
      let m ← subN c bits mid 1
      let z ← f m
      if z < value then pure (some mid)
      else searchLoop bits f value start mid
    else do
      let start ← addN c bits mid 1
      searchLoop bits f value start limit
  else pure none
partial_fixpoint

/-- `binary_search_function`, internal/search.rs:16-44. -/
def binarySearch (bits start limit value : Nat) (f : Nat → HM S Nat) : HM S (Option Nat) := do
  if limit ≤ start then pure none
  else do
    let y ← f start
    if value ≤ y then pure (some start)
    else do
      let start ← addN c bits start 1
      searchLoop c bits f value start limit

/-- The rank structure inside a `BinSearchSelect`. -/
def inSelect (m : HM S α) : HM (BinSearchSelect S) α := m.on BinSearchSelect.rankSupport fun _ d => ⟨d⟩

/-- `select1`, `select0` and `select`, select/bin_search.rs:55-72, for a given rank function. -/
def selectBy (r : HRank S) (rank : Nat → HM S Nat) (index : Nat) : HM (BinSearchSelect S) (Option Nat) := do
  let n ← inSelect r.limit
  let v ← addN c 64 index 1
  binarySearch c 64 0 n v fun i => inSelect (rank i)

/-! ### `BitBuffer`, stream/bit_buffer.rs -/

/-- The vector inside a buffer. -/
def inBuf (m : HM S α) : HM (BitBuf S) α := m.on BitBuf.data fun b d => { b with data := d }

/-- `BitBuffer::append`, bit_buffer.rs:42-48. -/
def bufAppend (h : HVec w S) (vec : S) : Res (BitBuf S) := do
  let (len, vec) ← h.bitLen vec
  .ok ⟨vec, len⟩

/-- `BitBuffer::seek`, bit_buffer.rs:51-59. -/
def bufSeek (h : HVec w S) (position : Nat) : SM (BitBuf S) Unit := fun s => do
  let (n, d) ← h.bitLen s.data
  if position ≤ n then .ok (.ok (), ⟨d, position⟩)
  else .ok (.error .notFound, ⟨d, s.pos⟩)

/-- `impl BitVec for BitBuffer`, bit_buffer.rs:83-100. -/
def buf (h : HVec w S) : HVec w (BitBuf S) where
  bitLen := inBuf h.bitLen
  blockLen := inBuf h.blockLen
  getBlock i := inBuf (h.getBlock i)
  getBit := getBit c (inBuf h.bitLen) fun i => inBuf (h.getBlock i)
  getBits := getBits c (inBuf h.bitLen) fun i => inBuf (h.getBlock i)

/-- `impl BitVecMut for BitBuffer`, bit_buffer.rs:102-107. -/
def bufMut (h : HVecMut w S) : HVecMut w (BitBuf S) where
  toHVec := buf c h.toHVec
  setBlock i x := inBuf (h.setBlock i x)
  setBit := setBit c (inBuf h.bitLen) (fun i => inBuf (h.getBlock i)) fun i x => inBuf (h.setBlock i x)
  setBits := setBits c (inBuf h.bitLen) (fun i => inBuf (h.getBlock i)) fun i x => inBuf (h.setBlock i x)

/-- The body of `read_bit`, bit_buffer.rs:110-118. -/
def bufReadBit (h : HVec w S) : HM (BitBuf S) (Option Bool) := do
  let s ← get
  let n ← (buf c h).bitLen
  if s.pos < n then do
    let result ← (buf c h).getBit s.pos
    let p ← addN c 64 s.pos 1
    modify fun s => { s with pos := p }
    pure (some result)
  else pure none

/-- `impl BitRead for BitBuffer`, bit_buffer.rs:109-119. -/
def bufRead (h : HVec w S) : BitRead (BitBuf S) where
  readBit s := do
    let (r, s) ← bufReadBit c h s
    .ok (.ok r, s)

/-- The `while` loop of `write_bit`, bit_buffer.rs:123-125. -/
def bufPad (h : HVecPush w S) : HM (BitBuf S) Unit := do
  let s ← get
  let n ← (buf c h.toHVec).bitLen
  if s.pos ≥ n then do
    inBuf (h.pushBit false)
    bufPad h
  else pure ()
partial_fixpoint

/-- The body of `write_bit`, bit_buffer.rs:122-132. -/
def bufWriteBit (h : HVecPush w S) (value : Bool) : HM (BitBuf S) Unit := do
  bufPad c h
  let s ← get
  (bufMut c h.toHVecMut).setBit s.pos value
  let p ← addN c 64 s.pos 1
  modify fun s => { s with pos := p }

/-- `impl BitWrite for BitBuffer`, bit_buffer.rs:121-133. -/
def bufWrite (h : HVecPush w S) : BitWrite (BitBuf S) where
  writeBit value s := do
    let (_, s) ← bufWriteBit c h value s
    .ok (.ok (), s)

end Hidden
end Succinct
