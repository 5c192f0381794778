import Verif.Model.Slice
import Verif.Model.Iter
import Verif.Model.Select
/-!
# Block types with their own methods

`BlockType` (storage.rs:23-237) is a public trait, and all of its methods except the two for I/O have default bodies, which
an implementation may replace. The crate itself does so for `low_mask` (storage.rs:240-257). Here the generic code of the
crate is modelled over block types whose methods are their own: `BlockMethods w` holds the methods that the generic code calls,
and every function below is the one of the same name in `Verif.Model.BitVecTrait`, `VectorBase`, `Slice`, `Iter`, `Rank` and
`Select`, with calls of these methods in place of calls of the crate's own. The `PrimInt` operations (shifts, `&`, `|`,
comparison, `count_ones`, `zero`, `one`) stay those of an unsigned integer of `w` bits and `nbits()` is `w`; `u64` and `usize`,
which the crate uses for positions and for the directories of `JacobsonRank` (rank/jacobson.rs:14-19), keep the crate's methods.
The configuration `OCfg` is not a `Cfg`, so that no function of the other model can be called by mistake.
-/
namespace Succinct.OwnBlk

/-- The methods of `BlockType` (storage.rs:23-237) and of the `BitRankSupport` it demands (rank/traits.rs:30-41) that generic
code calls on a block type of `w` bits. -/
structure BlockMethods (w : Nat) where
  checkedDivNbits : Nat → Res (Option Nat)
  ceilDivNbits : Nat → Res Nat
  checkedCeilDivNbits : Nat → Res (Option Nat)
  modNbits : Nat → Res Nat
  mulNbits : Nat → Res Nat
  lastBlockBits : Nat → Res Nat
  lowMask : Nat → Res (BitVec w)
  getBit : BitVec w → Nat → Res Bool
  withBit : BitVec w → Nat → Bool → Res (BitVec w)
  getBits : BitVec w → Nat → Nat → Res (BitVec w)
  withBits : BitVec w → Nat → Nat → BitVec w → Res (BitVec w)
  rank1 : BitVec w → Nat → Res Nat

/-- A build together with a block type for every width. -/
structure OCfg extends Cfg where
  own : (w : Nat) → BlockMethods w

/-! ### The machine operations, in the build of the configuration -/

abbrev addN (c : OCfg) (bits x y : Nat) : Res Nat := Succinct.addN c.toCfg bits x y
abbrev subN (c : OCfg) (bits x y : Nat) : Res Nat := Succinct.subN c.toCfg bits x y
abbrev mulN (c : OCfg) (bits x y : Nat) : Res Nat := Succinct.mulN c.toCfg bits x y
abbrev shrN (c : OCfg) (bits x k : Nat) : Res Nat := Succinct.shrN c.toCfg bits x k
abbrev shlB (c : OCfg) (x : BitVec w) (k : Nat) : Res (BitVec w) := Succinct.shlB c.toCfg x k
abbrev shrB (c : OCfg) (x : BitVec w) (k : Nat) : Res (BitVec w) := Succinct.shrB c.toCfg x k
abbrev asUsize (c : OCfg) (x : Nat) : Nat := Succinct.asUsize c.toCfg x
abbrev toUsize (c : OCfg) (x : Nat) : Option Nat := Succinct.toUsize c.toCfg x
/-- `ceil_div` of `u64` and `usize` -/
abbrev ceilDiv (c : OCfg) (bits x d : Nat) : Res Nat := Succinct.ceilDiv c.toCfg bits x d
/-- `ceil_lg` of `u64` and `usize` -/
abbrev ceilLg (c : OCfg) (x : BitVec w) : Res Nat := Succinct.ceilLg c.toCfg x

/-! ### Calls of the methods of the block type -/

def checkedDivNbits (c : OCfg) (w index : Nat) : Res (Option Nat) := (c.own w).checkedDivNbits index
def ceilDivNbits (c : OCfg) (w index : Nat) : Res Nat := (c.own w).ceilDivNbits index
def checkedCeilDivNbits (c : OCfg) (w index : Nat) : Res (Option Nat) := (c.own w).checkedCeilDivNbits index
def modNbits (c : OCfg) (w index : Nat) : Res Nat := (c.own w).modNbits index
def mulNbits (c : OCfg) (w index : Nat) : Res Nat := (c.own w).mulNbits index
def lastBlockBits (c : OCfg) (w len : Nat) : Res Nat := (c.own w).lastBlockBits len
def lowMask (c : OCfg) (w k : Nat) : Res (BitVec w) := (c.own w).lowMask k
def blkGetBit (c : OCfg) (x : BitVec w) (i : Nat) : Res Bool := (c.own w).getBit x i
def blkWithBit (c : OCfg) (x : BitVec w) (i : Nat) (v : Bool) : Res (BitVec w) := (c.own w).withBit x i v
def blkGetBits (c : OCfg) (x : BitVec w) (start len : Nat) : Res (BitVec w) := (c.own w).getBits x start len
def blkWithBits (c : OCfg) (x : BitVec w) (start len : Nat) (value : BitVec w) : Res (BitVec w) :=
  (c.own w).withBits x start len value
def primRank1 (c : OCfg) (x : BitVec w) (position : Nat) : Res Nat := (c.own w).rank1 x position

/-- `Address::new`, storage.rs:353-359. -/
def Address.new (c : OCfg) (w bitIndex : Nat) : Res Address := do
  let bi ← checkedDivNbits c w bitIndex
  let bi ← expectR bi
  let bo ← modNbits c w bitIndex
  .ok ⟨bi, bo⟩

/-! ### `bit_vec/traits.rs` -/

/-- default `BitVec::block_len`, traits.rs:19-21. -/
def dfltBlockLen {S : Type} (c : OCfg) (w : Nat) (bitLen : S → Res Nat) (s : S) : Res Nat := do
  let n ← bitLen s
  let q ← ceilDiv c 64 n w
  .ok (asUsize c q)

/-- default `BitVec::get_bit`, traits.rs:31-37. -/
def dfltGetBit {w : Nat} {S : Type} (c : OCfg) (bitLen : S → Res Nat) (getBlock : S → Nat → Res (BitVec w)) (s : S)
    (position : Nat) : Res Bool := do
  let n ← bitLen s
  assertR (position < n)
  let a ← Address.new c w position
  let block ← getBlock s a.blockIndex
  blkGetBit c block a.bitOffset

/-- default `BitVec::get_block`, traits.rs:52-69. Loop state: `(result, mask)`. -/
def dfltGetBlock {w : Nat} {S : Type} (c : OCfg) (bitLen blockLen : S → Res Nat) (getBit : S → Nat → Res Bool) (s : S)
    (position : Nat) : Res (BitVec w) := do
  let bl ← blockLen s
  assertR (position < bl)
  let bitPosition ← mulN c 64 position w
  let r ← forRange 0 w ((0 : BitVec w), (1 : BitVec w)) fun i (result, mask) => do
    let p ← addN c 64 bitPosition i
    let n ← bitLen s
    let b ← (if p < n then do
        let p ← addN c 64 bitPosition i
        getBit s p
      else .ok false)
    let result := if b then result ||| mask else result
    let mask ← shlB c mask 1
    .ok (result, mask)
  .ok r.1

/-- default `BitVec::get_bits`, traits.rs:77-98. -/
def dfltGetBits {w : Nat} {S : Type} (c : OCfg) (bitLen : S → Res Nat) (getBlock : S → Nat → Res (BitVec w)) (s : S)
    (start count : Nat) : Res (BitVec w) := do
  let limit ← addN c 64 start count
  let n ← bitLen s
  assertR (limit ≤ n)
  let a ← Address.new c w start
  let margin ← subN c c.usz w a.bitOffset
  if margin ≥ count then do
    let block ← getBlock s a.blockIndex
    blkGetBits c block a.bitOffset count
  else do
    let extra ← subN c c.usz count margin
    let block1 ← getBlock s a.blockIndex
    let i2 ← addN c c.usz a.blockIndex 1
    let block2 ← getBlock s i2
    let low ← blkGetBits c block1 a.bitOffset margin
    let high ← blkGetBits c block2 0 extra
    let h ← shlB c high margin
    .ok (h ||| low)

/-- default `BitVecMut::set_bit`, traits.rs:115-122. -/
def dfltSetBit {w : Nat} {S : Type} (c : OCfg) (bitLen : S → Res Nat) (getBlock : S → Nat → Res (BitVec w))
    (setBlock : S → Nat → BitVec w → Res S) (s : S) (position : Nat) (value : Bool) : Res S := do
  let n ← bitLen s
  assertR (position < n)
  let a ← Address.new c w position
  let old ← getBlock s a.blockIndex
  let new ← blkWithBit c old a.bitOffset value
  setBlock s a.blockIndex new

/-- default `BitVecMut::set_block`, traits.rs:138-151. Loop state: `(self, value)`. -/
def dfltSetBlock {w : Nat} {S : Type} (c : OCfg) (bitLen blockLen : S → Res Nat) (setBit : S → Nat → Bool → Res S) (s : S)
    (position : Nat) (value : BitVec w) : Res S := do
  let p1 ← addN c c.usz position 1
  let bl ← blockLen s
  let limit ← (if p1 = bl then do
      let n ← bitLen s
      lastBlockBits c w n
    else .ok w)
  let start ← mulNbits c w position
  let r ← forRange 0 limit (s, value) fun i (s, value) => do
    let bit := value &&& 1 != 0
    let p ← addN c 64 start i
    let s ← setBit s p bit
    let value ← shrB c value 1
    .ok (s, value)
  .ok r.1

/-- default `BitVecMut::set_bits`, traits.rs:159-186. -/
def dfltSetBits {w : Nat} {S : Type} (c : OCfg) (bitLen : S → Res Nat) (getBlock : S → Nat → Res (BitVec w))
    (setBlock : S → Nat → BitVec w → Res S) (s : S) (start count : Nat) (value : BitVec w) :
    Res S := do
  let limit ← addN c 64 start count
  let n ← bitLen s
  assertR (limit ≤ n)
  let a ← Address.new c w start
  let margin ← subN c c.usz w a.bitOffset
  if margin ≥ count then do
    let old ← getBlock s a.blockIndex
    let new ← blkWithBits c old a.bitOffset count value
    setBlock s a.blockIndex new
  else do
    let extra ← subN c c.usz count margin
    let old1 ← getBlock s a.blockIndex
    let i2 ← addN c c.usz a.blockIndex 1
    let old2 ← getBlock s i2
    let high ← shrB c value margin
    let new1 ← blkWithBits c old1 a.bitOffset margin value
    let new2 ← blkWithBits c old2 0 extra high
    let s ← setBlock s a.blockIndex new1
    let i2 ← addN c c.usz a.blockIndex 1
    setBlock s i2 new2

/-- default `BitVecPush::align_block`, traits.rs:199-203 (an unbounded `while` loop). -/
def dfltAlignBlock {S : Type} (c : OCfg) (w : Nat) (bitLen : S → Res Nat) (pushBit : S → Bool → Res S) (s : S)
    (value : Bool) : Res S := do
  let n ← bitLen s
  let m ← modNbits c w n
  if m ≠ 0 then do
    let s ← pushBit s value
    dfltAlignBlock c w bitLen pushBit s value
  else .ok s
partial_fixpoint

/-- default `BitVecPush::push_block`, traits.rs:212-219. Loop state: `(self, value)`. -/
def dfltPushBlock {w : Nat} {S : Type} (c : OCfg) (alignBlock : S → Bool → Res S) (pushBit : S → Bool → Res S) (s : S)
    (value : BitVec w) : Res S := do
  let s ← alignBlock s false
  let r ← forRange 0 w (s, value) fun _ (s, value) => do
    let s ← pushBit s (value &&& 1 != 0)
    let value ← shrB c value 1
    .ok (s, value)
  .ok r.1

/-- `impl BitVec for [Block]` / `&[Block]` / `&mut [Block]` / `Vec<Block>`,
traits.rs:222-239, 248-265, 267-284, 293-310 (four textually identical impls, modelled once). -/
def vecBitVec (c : OCfg) (w : Nat) : BitVecOps w (List (BitVec w)) :=
  let bitLen := fun s : List (BitVec w) => mulN c 64 s.length w
  let getBlock := fun (s : List (BitVec w)) i => vecGet s i
  { bitLen := bitLen
    blockLen := fun s => .ok s.length
    getBit := dfltGetBit c bitLen getBlock
    getBlock := getBlock
    getBits := dfltGetBits c bitLen getBlock }

/-- `impl BitVecMut for [Block]` / `&mut [Block]` / `Vec<Block>`, traits.rs:241-246, 286-291, 312-317. -/
def vecBitVecMut (c : OCfg) (w : Nat) : BitVecMutOps w (List (BitVec w)) :=
  let setBlock := fun (s : List (BitVec w)) i x => vecSet s i x
  { vecBitVec c w with
    setBit := dfltSetBit c (vecBitVec c w).bitLen (vecBitVec c w).getBlock setBlock
    setBlock := setBlock
    setBits := dfltSetBits c (vecBitVec c w).bitLen (vecBitVec c w).getBlock setBlock }

/-! ### `internal/vector_base.rs`, `bit_vec/bit_vector.rs`, `int_vec/int_vector.rs` -/

/-- `len_to_block_len`, vector_base.rs:31-34. -/
def lenToBlockLen (c : OCfg) (w eb len : Nat) : Res (Option Nat) :=
  match checkedMul 64 len eb with
  | none => .ok none
  | some n => checkedCeilDivNbits c w n

namespace VB
variable {w : Nat} {S : Type} (c : OCfg)

/-- `clear_extra_bits`, vector_base.rs:39-45. The closure runs only if there is a last block. -/
def clearExtraBits (s : VB w) (eb : Nat) : Res (VB w) := do
  let bitLen ← mulN c 64 s.len eb
  match s.vec.getLast? with
  | none => .ok s
  | some block => do
    let n ← lastBlockBits c w bitLen
    let mask ← lowMask c w n
    .ok { s with vec := s.vec.set (s.vec.length - 1) (block &&& mask) }

/-- `set_len_from_blocks`, vector_base.rs:49-52. -/
def setLenFromBlocks (s : VB w) (eb : Nat) : Res (VB w) := do
  let n ← mulNbits c w s.vec.length
  let len ← divN n eb
  clearExtraBits c { s with len := len } eb

/-- `with_capacity`, vector_base.rs:68-72. -/
def withCapacity (w eb capacity : Nat) : Res (VB w) := do
  let o ← lenToBlockLen c w eb capacity
  let _ ← expectR o
  .ok VB.new

/-- `block_with_fill`, vector_base.rs:75-84. -/
def blockWithFill (eb blockLen : Nat) (fill : BitVec w) : Res (VB w) :=
  setLenFromBlocks c ⟨0, List.replicate blockLen fill⟩ eb

/-- `set_block`, vector_base.rs:109-115. -/
def setBlock (s : VB w) (eb i : Nat) (value : BitVec w) : Res (VB w) := do
  let v ← vecSet s.vec i value
  let i1 ← addN c c.usz i 1
  if i1 = v.length then clearExtraBits c { s with vec := v } eb
  else .ok { s with vec := v }

/-- `get_bits`, vector_base.rs:118-124. -/
def getBits (s : VB w) (eb index count : Nat) : Res (BitVec w) := do
  let e ← addN c 64 index count
  let n ← mulN c 64 s.len eb
  assertR (e ≤ n)
  (vecBitVec c w).getBits s.vec index count

/-- `set_bits`, vector_base.rs:127-133. -/
def setBits (s : VB w) (eb index count : Nat) (value : BitVec w) : Res (VB w) := do
  let e ← addN c 64 index count
  let n ← mulN c 64 s.len eb
  assertR (e ≤ n)
  let v ← (vecBitVecMut c w).setBits s.vec index count value
  .ok { s with vec := v }

/-- `with_fill`, vector_base.rs:87-101. -/
def withFill (eb len : Nat) (value : BitVec w) : Res (VB w) := do
  let o ← lenToBlockLen c w eb len
  let blockLen ← expectR o
  forRange 0 len ⟨len, List.replicate blockLen 0⟩ fun i result => do
    let p ← mulN c 64 i eb
    setBits c result eb p eb value

/-- `get_bit`, vector_base.rs:137-140. -/
def getBit (s : VB w) (index : Nat) : Res Bool := do
  assertR (index < s.len)
  (vecBitVec c w).getBit s.vec index

/-- `set_bit`, vector_base.rs:144-147. -/
def setBit (s : VB w) (index : Nat) (value : Bool) : Res (VB w) := do
  assertR (index < s.len)
  let v ← (vecBitVecMut c w).setBit s.vec index value
  .ok { s with vec := v }

/-- `push_block`, vector_base.rs:150-153. -/
def pushBlock (s : VB w) (eb : Nat) (value : BitVec w) : Res (VB w) :=
  setLenFromBlocks c { s with vec := s.vec ++ [value] } eb

/-- `pop_block`, vector_base.rs:156-160. -/
def popBlock (s : VB w) (eb : Nat) : Res (Option (BitVec w) × VB w) := do
  let s' ← setLenFromBlocks c { s with vec := s.vec.dropLast } eb
  .ok (s.vec.getLast?, s')

/-- `push_bits`, vector_base.rs:163-172. -/
def pushBits (s : VB w) (eb : Nat) (value : BitVec w) : Res (VB w) := do
  let l1 ← addN c 64 s.len 1
  let need ← mulN c 64 eb l1
  let have_ ← mulNbits c w s.vec.length
  let v := if need > have_ then s.vec ++ [0] else s.vec
  let len ← addN c 64 s.len 1
  let p ← mulN c 64 s.len eb
  setBits c ⟨len, v⟩ eb p eb value

/-- `pop_bits`, vector_base.rs:175-188. -/
def popBits (s : VB w) (eb : Nat) : Res (Option (BitVec w) × VB w) :=
  if s.len = 0 then .ok (none, s)
  else do
    let l1 ← subN c 64 s.len 1
    let bitLen ← mulN c 64 eb l1
    let blockLen ← ceilDivNbits c w bitLen
    let result ← getBits c s eb bitLen eb
    let s1 ← setBits c s eb bitLen eb 0
    let len ← subN c 64 s1.len 1
    let v := if s1.vec.length > blockLen then s1.vec.dropLast else s1.vec
    .ok (some result, ⟨len, v⟩)

/-- `push_bit`, vector_base.rs:192-200. -/
def pushBit (s : VB w) (value : Bool) : Res (VB w) := do
  let l1 ← addN c 64 s.len 1
  let have_ ← mulNbits c w s.vec.length
  let v := if l1 > have_ then s.vec ++ [0] else s.vec
  let len ← addN c 64 s.len 1
  setBit c ⟨len, v⟩ s.len value

/-- `pop_bit`, vector_base.rs:203-215. -/
def popBit (s : VB w) : Res (Option Bool × VB w) :=
  if s.len = 0 then .ok (none, s)
  else do
    let newLen ← subN c 64 s.len 1
    let result ← getBit c s newLen
    let s1 ← setBit c s newLen false
    let blockLen ← ceilDivNbits c w newLen
    let v := if s1.vec.length > blockLen then s1.vec.dropLast else s1.vec
    .ok (some result, ⟨newLen, v⟩)

/-- `block_truncate`, vector_base.rs:243-248. -/
def blockTruncate (s : VB w) (eb blockLen : Nat) : Res (VB w) :=
  if blockLen < s.vec.length then setLenFromBlocks c { s with vec := s.vec.take blockLen } eb
  else .ok s

/-- `truncate`, vector_base.rs:251-258. -/
def truncate (s : VB w) (eb len : Nat) : Res (VB w) :=
  if len < s.len then do
    let n ← mulN c 64 len eb
    let blockLen ← ceilDivNbits c w n
    clearExtraBits c ⟨len, s.vec.take blockLen⟩ eb
  else .ok s

/-- `block_resize`, vector_base.rs:303-307. -/
def blockResize (s : VB w) (eb blockLen : Nat) (fill : BitVec w) : Res (VB w) :=
  setLenFromBlocks c { s with vec := vecResize s.vec blockLen fill } eb

/-- `resize`, vector_base.rs:310-326. -/
def resize (s : VB w) (eb len : Nat) (fill : BitVec w) : Res (VB w) := do
  let o ← lenToBlockLen c w eb len
  let blockLen ← expectR o
  let s1 : VB w := ⟨len, vecResize s.vec blockLen 0⟩
  if len ≤ s.len then clearExtraBits c s1 eb
  else forRange s.len len s1 fun i s => do
    let p ← mulN c 64 i eb
    setBits c s eb p eb fill

end VB

namespace BV
variable {w : Nat} {S : Type} (c : OCfg)

/-- `BitVector::with_capacity`, bit_vector.rs:29-31. -/
def withCapacity (w capacity : Nat) : Res (VB w) := VB.withCapacity c w 1 capacity

/-- `BitVector::block_with_fill`, bit_vector.rs:56-58. -/
def blockWithFill (blockLen : Nat) (value : BitVec w) : Res (VB w) := VB.blockWithFill c 1 blockLen value

/-- `BitVector::with_fill`, bit_vector.rs:46-53. -/
def withFill (w len : Nat) (value : Bool) : Res (VB w) := do
  let o ← checkedCeilDivNbits c w len
  let blockSize ← expectR o
  let blockValue : BitVec w := if value then ~~~ 0 else 0
  let result ← blockWithFill c blockSize blockValue
  VB.truncate c result 1 len

/-- `BitVector::block_resize`, bit_vector.rs:98-100. -/
def blockResize (s : VB w) (newLen : Nat) (value : BitVec w) : Res (VB w) :=
  VB.blockResize c s 1 newLen value

/-- `BitVector::resize`, bit_vector.rs:78-94. -/
def resize (s : VB w) (newLen : Nat) (value : Bool) : Res (VB w) := do
  let o ← checkedCeilDivNbits c w newLen
  let newBlockLen ← expectR o
  let s ← (if newLen < s.len ∨ value = false then blockResize c s newBlockLen 0
    else do
      let trailing ← lastBlockBits c w s.len
      let remaining ← subN c c.usz w trailing
      let s ← forRange 0 remaining s fun _ s => VB.pushBit c s true
      blockResize c s newBlockLen (~~~ 0))
  VB.truncate c s 1 newLen

/-- `BitVector::truncate`, bit_vector.rs:162-164. -/
def truncate (s : VB w) (len : Nat) : Res (VB w) := VB.truncate c s 1 len

/-- `BitVector::block_truncate`, bit_vector.rs:169-171. -/
def blockTruncate (s : VB w) (blockLen : Nat) : Res (VB w) := VB.blockTruncate c s 1 blockLen

end BV

/-- `impl BitVec for BitVector`, bit_vector.rs:184-200: `block_len` and `get_bits` are the trait defaults. -/
def bvBitVec (c : OCfg) (w : Nat) : BitVecOps w (VB w) :=
  let bitLen := fun s : VB w => Res.ok s.len
  { bitLen := bitLen
    blockLen := dfltBlockLen c w bitLen
    getBit := fun s i => VB.getBit c s i
    getBlock := fun s i => VB.getBlock s i
    getBits := dfltGetBits c bitLen (fun s i => VB.getBlock s i) }

/-- `impl BitVecMut for BitVector`, bit_vector.rs:202-211: `set_bits` is the trait default. -/
def bvBitVecMut (c : OCfg) (w : Nat) : BitVecMutOps w (VB w) :=
  { bvBitVec c w with
    setBit := fun s i v => VB.setBit c s i v
    setBlock := fun s i v => VB.setBlock c s 1 i v
    setBits := dfltSetBits c (bvBitVec c w).bitLen (bvBitVec c w).getBlock (fun s i v => VB.setBlock c s 1 i v) }

/-- `impl BitVecPush for BitVector`, bit_vector.rs:213-225: `align_block` is the trait default. -/
def bvBitVecPush (c : OCfg) (w : Nat) : BitVecPushOps w (VB w) :=
  { bvBitVecMut c w with
    pushBit := fun s v => VB.pushBit c s v
    popBit := fun s => VB.popBit c s
    alignBlock := dfltAlignBlock c w (bvBitVec c w).bitLen (fun s v => VB.pushBit c s v)
    pushBlock := fun s v => VB.pushBlock c s 1 v }

namespace IV
variable {w : Nat} {S : Type} (c : OCfg)

/-- `check_value_random`, int_vector.rs:30-33. -/
def checkValueRandom (eb : Nat) (value : BitVec w) : Res Unit := do
  let m ← lowMask c w eb
  assertR (value.toNat ≤ m.toNat)

/-- `check_value`, int_vector.rs:35-37. -/
def checkValue (s : IV w) (value : BitVec w) : Res Unit := checkValueRandom c s.elementBits value

/-- `with_capacity`, int_vector.rs:80-83. -/
def withCapacity (w eb capacity : Nat) : Res (IV w) := do
  let b ← VB.withCapacity c w eb capacity
  IV.create eb b

/-- `with_fill`, int_vector.rs:94-97. -/
def withFill (eb len : Nat) (value : BitVec w) : Res (IV w) := do
  let b ← VB.withFill c eb len value
  IV.create eb b

/-- `block_with_fill`, int_vector.rs:104-110. -/
def blockWithFill (eb blockLen : Nat) (value : BitVec w) : Res (IV w) := do
  let b ← VB.blockWithFill c eb blockLen value
  IV.create eb b

/-- `get_random`, int_vector.rs:125-133. -/
def getRandom (s : IV w) (bitOffset eb index : Nat) : Res (BitVec w) := do
  let a ← IV.computeAddressRandom bitOffset eb index
  VB.getBits c s.base s.elementBits a eb

/-- `set_random`, int_vector.rs:151-160. -/
def setRandom (s : IV w) (bitOffset eb index : Nat) (value : BitVec w) : Res (IV w) := do
  checkValueRandom c eb value
  let a ← IV.computeAddressRandom bitOffset eb index
  let b ← VB.setBits c s.base s.elementBits a eb value
  .ok { s with base := b }

/-- `push`, int_vector.rs:164-167. -/
def push (s : IV w) (value : BitVec w) : Res (IV w) := do
  checkValue c s value
  let b ← VB.pushBits c s.base s.elementBits value
  .ok { s with base := b }

/-- `pop`, int_vector.rs:170-172. -/
def pop (s : IV w) : Res (Option (BitVec w) × IV w) := do
  let (r, b) ← VB.popBits c s.base s.elementBits
  .ok (r, { s with base := b })

/-- `resize`, int_vector.rs:186-188. -/
def resize (s : IV w) (n : Nat) (fill : BitVec w) : Res (IV w) := do
  let b ← VB.resize c s.base s.elementBits n fill
  .ok { s with base := b }

/-- `block_resize`, int_vector.rs:191-193. -/
def blockResize (s : IV w) (n : Nat) (fill : BitVec w) : Res (IV w) := do
  let b ← VB.blockResize c s.base s.elementBits n fill
  .ok { s with base := b }

/-- `truncate`, int_vector.rs:264-266. -/
def truncate (s : IV w) (n : Nat) : Res (IV w) := do
  let b ← VB.truncate c s.base s.elementBits n
  .ok { s with base := b }

/-- `block_truncate`, int_vector.rs:271-273. -/
def blockTruncate (s : IV w) (n : Nat) : Res (IV w) := do
  let b ← VB.blockTruncate c s.base s.elementBits n
  .ok { s with base := b }

/-- `IntVec::get`, int_vector.rs:305-312. -/
def get (s : IV w) (index : Nat) : Res (BitVec w) :=
  if s.isBlockSized then VB.getBlock s.base (asUsize c index)
  else do
    let a ← IV.computeAddress s index
    VB.getBits c s.base s.elementBits a s.elementBits

/-- `IntVecMut::set`, int_vector.rs:320-333. -/
def set (s : IV w) (index : Nat) (value : BitVec w) : Res (IV w) :=
  if s.isBlockSized then do
    let b ← VB.setBlock c s.base s.elementBits (asUsize c index) value
    .ok { s with base := b }
  else do
    checkValue c s value
    let a ← IV.computeAddress s index
    let b ← VB.setBits c s.base s.elementBits a s.elementBits value
    .ok { s with base := b }

/-- `BitVecMut::set_block`, int_vector.rs:353-355. -/
def setBlock (s : IV w) (i : Nat) (value : BitVec w) : Res (IV w) := do
  let b ← VB.setBlock c s.base s.elementBits i value
  .ok { s with base := b }

end IV

/-- `impl BitVec for IntVector`, int_vector.rs:336-350: `get_bit`, `get_bits` are the defaults. -/
def ivBitVec (c : OCfg) (w : Nat) : BitVecOps w (IV w) :=
  let bitLen := fun s : IV w => mulN c 64 s.elementBits s.base.len
  let getBlock := fun (s : IV w) i => VB.getBlock s.base i
  { bitLen := bitLen
    blockLen := fun s => .ok s.base.vec.length
    getBit := dfltGetBit c bitLen getBlock
    getBlock := getBlock
    getBits := dfltGetBits c bitLen getBlock }

/-- `impl BitVecMut for IntVector`, int_vector.rs:352-356: `set_bit`, `set_bits` are the defaults. -/
def ivBitVecMut (c : OCfg) (w : Nat) : BitVecMutOps w (IV w) :=
  let setBlock := fun (s : IV w) i v => IV.setBlock c s i v
  { ivBitVec c w with
    setBit := dfltSetBit c (ivBitVec c w).bitLen (ivBitVec c w).getBlock setBlock
    setBlock := setBlock
    setBits := dfltSetBits c (ivBitVec c w).bitLen (ivBitVec c w).getBlock setBlock }

/-! ### `bit_vec/bit_slice.rs` -/

namespace Slice
variable {w : Nat} {S : Type} (c : OCfg)

/-- `BitSlice::slice`, bit_slice.rs:39-47; `BitSliceMut::slice_mut`, 66-75; `BitSliceMut::slice`, 78-86. -/
def slice (s : Slice S) (r : RangeArg) : Res (Slice S) := do
  let (a, b) := r.intoRange 0 s.len
  assertR (b ≤ s.len)
  let st ← addN c 64 s.start a
  .ok ⟨s.data, st, b - a⟩

/-- `get_bit`, bit_slice.rs:98-101 and 124-127. -/
def getBit (o : BitVecOps w S) (s : Slice S) (position : Nat) : Res Bool := do
  assertR (position < s.len)
  let p ← addN c 64 s.start position
  o.getBit s.data p

/-- `get_bits`, bit_slice.rs:103-108 and 129-134. -/
def getBits (o : BitVecOps w S) (s : Slice S) (position count : Nat) : Res (BitVec w) := do
  let e ← expectR (checkedAdd 64 position count)
  assertR (e ≤ s.len)
  let p ← addN c 64 s.start position
  o.getBits s.data p count

/-- `get_block`, bit_slice.rs:110-112 and 136-138. -/
def getBlock (o : BitVecOps w S) (s : Slice S) (position : Nat) : Res (BitVec w) := do
  let p ← mulNbits c w position
  getBits c o s p w

/-- `set_bit`, bit_slice.rs:143-146. -/
def setBit (o : BitVecMutOps w S) (s : Slice S) (position : Nat) (value : Bool) : Res (Slice S) := do
  assertR (position < s.len)
  let p ← addN c 64 s.start position
  let d ← o.setBit s.data p value
  .ok { s with data := d }

/-- `set_bits`, bit_slice.rs:148-153. -/
def setBits (o : BitVecMutOps w S) (s : Slice S) (position count : Nat) (value : BitVec w) : Res (Slice S) := do
  let e ← expectR (checkedAdd 64 position count)
  assertR (e ≤ s.len)
  let p ← addN c 64 s.start position
  let d ← o.setBits s.data p count value
  .ok { s with data := d }

/-- `set_block`, bit_slice.rs:155-158. -/
def setBlock (o : BitVecMutOps w S) (s : Slice S) (position : Nat) (value : BitVec w) : Res (Slice S) := do
  let p ← mulNbits c w position
  setBits c o s p w value

end Slice

/-- `impl BitVec for BitSlice` / `BitSliceMut`, bit_slice.rs:89-139: `block_len` is the default. -/
def sliceBitVec (c : OCfg) (o : BitVecOps w S) : BitVecOps w (Slice S) :=
  let bitLen := fun s : Slice S => Res.ok s.len
  { bitLen := bitLen
    blockLen := dfltBlockLen c w bitLen
    getBit := Slice.getBit c o
    getBlock := Slice.getBlock c o
    getBits := Slice.getBits c o }

/-- `impl BitVecMut for BitSliceMut`, bit_slice.rs:141-159. -/
def sliceBitVecMut (c : OCfg) (o : BitVecMutOps w S) : BitVecMutOps w (Slice S) :=
  { sliceBitVec c o.toBitVecOps with
    setBit := Slice.setBit c o
    setBlock := Slice.setBlock c o
    setBits := Slice.setBits c o }

/-! ### Iterators -/

namespace VIter
variable {w : Nat} {S : Type} (c : OCfg)

/-- `Iterator::next`, vector_base.rs:353-362. -/
def next (it : VIter w) : Res (Option (BitVec w) × VIter w) :=
  if it.start < it.limit then do
    let p ← mulN c 64 it.elementBits it.start
    let r ← VB.getBits c it.data it.elementBits p it.elementBits
    let s ← addN c 64 it.start 1
    .ok (some r, { it with start := s })
  else .ok (none, it)

/-- `ExactSizeIterator::len`, vector_base.rs:398-412 (same body for both pointer widths). -/
def len (it : VIter w) : Res Nat := do
  let n ← subN c 64 it.limit it.start
  .ok (asUsize c n)

/-- `Iterator::size_hint`, vector_base.rs:364-379 (one body per pointer width). -/
def sizeHint (it : VIter w) : Res (Nat × Option Nat) :=
  match c.ptr with
  | .p32 => do
    let n ← subN c 64 it.limit it.start
    match toUsize c n with
    | some len => .ok (len, some len)
    | none => .ok (0, none)
  | .p64 => do
    let n ← VIter.len c it
    .ok (n, some n)

/-- `Iterator::count`, vector_base.rs:381-384. -/
def count (it : VIter w) : Res Nat := VIter.len c it

/-- `DoubleEndedIterator::next_back`, vector_base.rs:415-424. -/
def nextBack (it : VIter w) : Res (Option (BitVec w) × VIter w) :=
  if it.start < it.limit then do
    let l ← subN c 64 it.limit 1
    let p ← mulN c 64 it.elementBits l
    let r ← VB.getBits c it.data it.elementBits p it.elementBits
    .ok (some r, { it with limit := l })
  else .ok (none, it)

/-- `Iterator::last`, vector_base.rs:386-389. -/
def last (it : VIter w) : Res (Option (BitVec w)) := do
  let (r, _) ← VIter.nextBack c it
  .ok r

/-- `Iterator::nth`, vector_base.rs:391-395. -/
def nth (it : VIter w) (n : Nat) : Res (Option (BitVec w) × VIter w) :=
  VIter.next c { it with start := (checkedAdd 64 it.start n).getD it.limit }

/-- A `for` loop over an iterator: `next` until `None` (std desugaring). -/
def forEach {α : Type} (c : OCfg) (it : VIter w) (acc : α) (f : α → BitVec w → Res α) : Res α := do
  let (r, it) ← VIter.next c it
  match r with
  | some x => do
    let acc ← f acc x
    VIter.forEach c it acc f
  | none => .ok acc
partial_fixpoint

end VIter

/-- `fmt::Binary for BitVector`, bit_vector.rs:227-236; the text written to the formatter, assuming the
formatter accepts all writes. -/
def BV.fmtBinary (c : OCfg) (s : VB w) : Res String :=
  VIter.forEach c (BV.iter s) "" fun out x => .ok (out ++ if bitItem x then "1" else "0")

/-- `fmt::Debug for IntVector`, int_vector.rs:408-422; the text written to the formatter. Numbers are
printed in decimal by `{:?}` and `{}` (std). -/
def IV.fmtDebug (c : OCfg) (s : IV w) : Res String := do
  let out := "IntVector { element_bits: " ++ Nat.repr s.elementBits ++ ", elements: { "
  let out ← VIter.forEach c s.iter out fun out x => .ok (out ++ (Nat.repr x.toNat ++ ", "))
  .ok (out ++ "} }")

/-! ### `rank/jacobson.rs` -/

/-- `BitRankSupport::rank0`, rank/traits.rs:38-40. -/
def dfltRank0 (c : OCfg) (rank1 : S → Nat → Res Nat) (s : S) (position : Nat) : Res Nat := do
  let p ← addN c 64 position 1
  let r ← rank1 s position
  subN c 64 p r

/-- The `rank` of every implementation in the crate (rank/prim.rs:11-13, rank/jacobson.rs:89-91,
rank/rank9.rs:155-157, broadword.rs:40-42), given its `rank1`; `rank0` is the trait's default. -/
def rankOps (c : OCfg) (limit : S → Res Nat) (rank1 : S → Nat → Res Nat) : RankOps S where
  rank s p v := if v then rank1 s p else dfltRank0 c rank1 s p
  limit := limit
  rank1 := rank1
  rank0 := dfltRank0 c rank1

namespace Jacobson
variable {w : Nat} {S : Type} (c : OCfg)

/-- The body of the loop, rank/jacobson.rs:47-60. -/
def step (o : BitVecOps w S) (bits : S) (smallPerLarge i : Nat) (l : Jacobson.Loop) : Res Jacobson.Loop := do
  let l ← (if l.index = 0 then do
      let large ← l.large.push c.toCfg (BitVec.ofNat 64 l.current)
      .ok { l with large := large, last := l.current }
    else .ok l)
  let excess ← subN c 64 l.current l.last
  let small ← l.small.push c.toCfg (BitVec.ofNat 64 excess)
  let b ← o.getBlock bits i
  let current ← addN c 64 l.current (countOnes b)
  let index ← addN c c.usz l.index 1
  .ok { large := l.large, small := small, current := current, last := l.last,
        index := if index = smallPerLarge then 0 else index }

/-- `JacobsonRank::new`, rank/jacobson.rs:23-73. `n`, the ranks and the counts are `u64`, the block sizes
`usize`. -/
def new (o : BitVecOps w S) (bits : S) : Res (Jacobson S) := do
  let n ← o.bitLen bits
  let lg ← ceilLg c (BitVec.ofNat 64 n)
  let lg2 ← mulN c c.usz lg lg
  let smallPerLarge ← ceilDiv c c.usz lg2 w
  let largeBlockSize ← mulN c c.usz w smallPerLarge
  let q ← divN n largeBlockSize
  let largeCount ← addN c 64 q 1
  let q ← divN n w
  let smallCount ← addN c 64 q 1
  let n1 ← addN c 64 n 1
  let largeMeta ← ceilLg c (BitVec.ofNat 64 n1)
  let l1 ← addN c c.usz largeBlockSize 1
  let smallMeta ← ceilLg c (BitVec.ofNat c.usz l1)
  let large ← Succinct.IV.withCapacity c.toCfg 64 largeMeta largeCount
  let small ← Succinct.IV.withCapacity c.toCfg 64 smallMeta smallCount
  let m ← o.blockLen bits
  let l ← forRange 0 m (Jacobson.Loop.mk large small 0 0 0) (step c o bits smallPerLarge)
  let large ← l.large.push c.toCfg (BitVec.ofNat 64 l.current)
  let excess ← subN c 64 l.current l.last
  let small ← l.small.push c.toCfg (BitVec.ofNat 64 excess)
  .ok ⟨bits, largeBlockSize, large, small⟩

/-- `rank1`, rank/jacobson.rs:99-112. -/
def rank1 (o : BitVecOps w S) (s : Jacobson S) (position : Nat) : Res Nat := do
  let n ← o.bitLen s.bitStore
  assertR (position < n)
  let largeBlock ← divN position s.largeBlockSize
  let a ← Address.new c w position
  let largeRank ← s.largeBlockRanks.get c.toCfg largeBlock
  let smallRank ← s.smallBlockRanks.get c.toCfg a.blockIndex
  let b ← o.getBlock s.bitStore a.blockIndex
  let bitsRank ← primRank1 c b a.bitOffset
  let r ← addN c 64 largeRank.toNat smallRank.toNat
  addN c 64 r bitsRank

/-- `impl RankSupport, BitRankSupport for JacobsonRank`, rank/jacobson.rs:86-113. -/
def ops (o : BitVecOps w S) : RankOps (Jacobson S) :=
  rankOps c (fun s => o.bitLen s.bitStore) (rank1 c o)

end Jacobson

/-! ### `internal/search.rs`, `select/bin_search.rs` -/

/-- `average`, internal/search.rs:4-9, for an unsigned type of `bits` bits. -/
def average (c : OCfg) (bits x y : Nat) : Res Nat := do
  let a ← shrN c bits x 1
  let b ← shrN c bits y 1
  let almost ← addN c bits a b
  let s ← addN c bits (x &&& 1) (y &&& 1)
  let extra ← shrN c bits s 1
  addN c bits almost extra

/-- The loop of `binary_search_function`, internal/search.rs:29-43. -/
def searchLoop (c : OCfg) (bits : Nat) (f : Nat → Res Nat) (value start limit : Nat) : Res (Option Nat) := do
  if start < limit then do
    let mid ← average c bits start limit
    let y ← f mid
    if value ≤ y then do
      let m ← subN c bits mid 1
      let z ← f m
      if z < value then .ok (some mid)
      else searchLoop c bits f value start mid
    else do
      let start ← addN c bits mid 1
      searchLoop c bits f value start limit
  else .ok none
partial_fixpoint

/-- `binary_search_function`, internal/search.rs:16-44. The domain `D` is an unsigned type of `bits` bits, the
result type `R` of `f` is `u64` (as in every use in the crate). -/
def binarySearch (c : OCfg) (bits start limit value : Nat) (f : Nat → Res Nat) : Res (Option Nat) := do
  if limit ≤ start then .ok none
  else do
    let y ← f start
    if value ≤ y then .ok (some start)
    else do
      let start ← addN c bits start 1
      searchLoop c bits f value start limit

namespace BinSearchSelect
variable {w : Nat} {S : Type} (c : OCfg)

/-- `select1` and `select0`, select/bin_search.rs:55-58, and `select`, 69-72, for a given rank function. -/
def selectBy (c : OCfg) (r : RankOps S) (rank : S → Nat → Res Nat) (s : BinSearchSelect S) (index : Nat) :
    Res (Option Nat) := do
  let n ← (BinSearchSelect.rankOps r).limit s
  let v ← addN c 64 index 1
  binarySearch c 64 0 n v (fun i => rank s.rankSupport i)

/-- `select1`, select/bin_search.rs:55-58 and 63. -/
def select1 (c : OCfg) (r : RankOps S) : BinSearchSelect S → Nat → Res (Option Nat) := selectBy c r r.rank1

/-- `select0`, select/bin_search.rs:55-58 and 64. -/
def select0 (c : OCfg) (r : RankOps S) : BinSearchSelect S → Nat → Res (Option Nat) := selectBy c r r.rank0

/-- `select`, select/bin_search.rs:69-72. -/
def select (c : OCfg) (r : RankOps S) (s : BinSearchSelect S) (index : Nat) (value : Bool) : Res (Option Nat) :=
  selectBy c r (fun s i => r.rank s i value) s index

end BinSearchSelect

/-- `impl Select1Support`, `Select0Support`, `SelectSupport for BinSearchSelect`, select/bin_search.rs:45-73. -/
def BinSearchSelect.ops (c : OCfg) (r : RankOps S) : SelectOps (BinSearchSelect S) where
  select1 := BinSearchSelect.select1 c r
  select0 := BinSearchSelect.select0 c r
  select := BinSearchSelect.select c r

end Succinct.OwnBlk
