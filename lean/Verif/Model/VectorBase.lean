import Verif.Model.BitVecTrait
/-!
# `internal/vector_base.rs`, `bit_vec/bit_vector.rs`, `int_vec/int_vector.rs`

`Vec<Block>` is a list; its capacity is not part of this model (see `Verif/Model/Capacity.lean`).
Allocations do not fail here, see `Verif/Model/Memory.lean`.
-/
namespace Succinct

/-- `struct VectorBase`, vector_base.rs:24-28. Equality is the derived one: same `len`, same blocks. -/
structure VB (w : Nat) where
  len : Nat
  vec : List (BitVec w)
deriving DecidableEq, Repr

/-- `Vec::resize(n, x)` (std) -/
def vecResize (v : List α) (n : Nat) (x : α) : List α := v.take n ++ List.replicate (n - v.length) x

/-- `len_to_block_len`, vector_base.rs:31-34. -/
def lenToBlockLen (c : Cfg) (w eb len : Nat) : Res (Option Nat) :=
  match checkedMul 64 len eb with
  | none => .ok none
  | some n => checkedCeilDivNbits c w n

namespace VB

variable {w : Nat} (c : Cfg)

/-- `clear_extra_bits`, vector_base.rs:39-45. The closure runs only if there is a last block. -/
def clearExtraBits (s : VB w) (eb : Nat) : Res (VB w) := do
  let bitLen ← mulN c 64 s.len eb
  match s.vec.getLast? with
  | none => .ok s
  | some block => do
    let n ← lastBlockBits c w bitLen
    let mask ← lowMask c w n
    .ok { s with vec := s.vec.set (s.vec.length - 1) (block &&& mask) }

/-- `set_len_from_blocks`, vector_base.rs:49-52. -/
def setLenFromBlocks (s : VB w) (eb : Nat) : Res (VB w) := do
  let n ← mulNbits c w s.vec.length
  let len ← divN n eb
  clearExtraBits c { s with len := len } eb

/-- `new` and `block_with_capacity`, vector_base.rs:55-65 (capacity is not modelled here); `BitVector::new`
(bit_vector.rs:17-19) and `BitVector::default` (bit_vector.rs:246-250) forward to it. `block_len` and `len`
(vector_base.rs:217-225) are `vec.length` and `len`. -/
def new : VB w := ⟨0, []⟩

/-- `is_empty`, vector_base.rs:227-230 (not called from the crate). -/
def isEmpty (s : VB w) : Bool := s.vec.isEmpty

/-- `with_capacity`, vector_base.rs:68-72. -/
def withCapacity (w eb capacity : Nat) : Res (VB w) := do
  let o ← lenToBlockLen c w eb capacity
  let _ ← expectR o
  .ok new

/-- `block_with_fill`, vector_base.rs:75-84. -/
def blockWithFill (eb blockLen : Nat) (fill : BitVec w) : Res (VB w) :=
  setLenFromBlocks c ⟨0, List.replicate blockLen fill⟩ eb

/-- `get_block`, vector_base.rs:104-106. -/
def getBlock (s : VB w) (i : Nat) : Res (BitVec w) := vecGet s.vec i

/-- `set_block`, vector_base.rs:109-115. -/
def setBlock (s : VB w) (eb i : Nat) (value : BitVec w) : Res (VB w) := do
  let v ← vecSet s.vec i value
  let i1 ← addN c c.usz i 1
  if i1 = v.length then clearExtraBits c { s with vec := v } eb
  else .ok { s with vec := v }

/-- `get_bits`, vector_base.rs:118-124. -/
def getBits (s : VB w) (eb index count : Nat) : Res (BitVec w) := do
  let e ← addN c 64 index count
  let n ← mulN c 64 s.len eb
  assertR (e ≤ n)
  (vecBitVec c w).getBits s.vec index count

/-- `set_bits`, vector_base.rs:127-133. -/
def setBits (s : VB w) (eb index count : Nat) (value : BitVec w) : Res (VB w) := do
  let e ← addN c 64 index count
  let n ← mulN c 64 s.len eb
  assertR (e ≤ n)
  let v ← (vecBitVecMut c w).setBits s.vec index count value
  .ok { s with vec := v }

/-- `with_fill`, vector_base.rs:87-101. -/
def withFill (eb len : Nat) (value : BitVec w) : Res (VB w) := do
  let o ← lenToBlockLen c w eb len
  let blockLen ← expectR o
  forRange 0 len ⟨len, List.replicate blockLen 0⟩ fun i result => do
    let p ← mulN c 64 i eb
    setBits c result eb p eb value

/-- `get_bit`, vector_base.rs:137-140. -/
def getBit (s : VB w) (index : Nat) : Res Bool := do
  assertR (index < s.len)
  (vecBitVec c w).getBit s.vec index

/-- `set_bit`, vector_base.rs:144-147. -/
def setBit (s : VB w) (index : Nat) (value : Bool) : Res (VB w) := do
  assertR (index < s.len)
  let v ← (vecBitVecMut c w).setBit s.vec index value
  .ok { s with vec := v }

/-- `push_block`, vector_base.rs:150-153. -/
def pushBlock (s : VB w) (eb : Nat) (value : BitVec w) : Res (VB w) :=
  setLenFromBlocks c { s with vec := s.vec ++ [value] } eb

/-- `pop_block`, vector_base.rs:156-160. -/
def popBlock (s : VB w) (eb : Nat) : Res (Option (BitVec w) × VB w) := do
  let s' ← setLenFromBlocks c { s with vec := s.vec.dropLast } eb
  .ok (s.vec.getLast?, s')

/-- `push_bits`, vector_base.rs:163-172. -/
def pushBits (s : VB w) (eb : Nat) (value : BitVec w) : Res (VB w) := do
  let l1 ← addN c 64 s.len 1
  let need ← mulN c 64 eb l1
  let have_ ← mulNbits c w s.vec.length
  let v := if need > have_ then s.vec ++ [0] else s.vec
  let len ← addN c 64 s.len 1
  let p ← mulN c 64 s.len eb
  setBits c ⟨len, v⟩ eb p eb value

/-- `pop_bits`, vector_base.rs:175-188. -/
def popBits (s : VB w) (eb : Nat) : Res (Option (BitVec w) × VB w) :=
  if s.len = 0 then .ok (none, s)
  else do
    let l1 ← subN c 64 s.len 1
    let bitLen ← mulN c 64 eb l1
    let blockLen ← ceilDivNbits c w bitLen
    let result ← getBits c s eb bitLen eb
    let s1 ← setBits c s eb bitLen eb 0
    let len ← subN c 64 s1.len 1
    let v := if s1.vec.length > blockLen then s1.vec.dropLast else s1.vec
    .ok (some result, ⟨len, v⟩)

/-- `push_bit`, vector_base.rs:192-200. -/
def pushBit (s : VB w) (value : Bool) : Res (VB w) := do
  let l1 ← addN c 64 s.len 1
  let have_ ← mulNbits c w s.vec.length
  let v := if l1 > have_ then s.vec ++ [0] else s.vec
  let len ← addN c 64 s.len 1
  setBit c ⟨len, v⟩ s.len value

/-- `pop_bit`, vector_base.rs:203-215. -/
def popBit (s : VB w) : Res (Option Bool × VB w) :=
  if s.len = 0 then .ok (none, s)
  else do
    let newLen ← subN c 64 s.len 1
    let result ← getBit c s newLen
    let s1 ← setBit c s newLen false
    let blockLen ← ceilDivNbits c w newLen
    let v := if s1.vec.length > blockLen then s1.vec.dropLast else s1.vec
    .ok (some result, ⟨newLen, v⟩)

/-- `block_truncate`, vector_base.rs:243-248. -/
def blockTruncate (s : VB w) (eb blockLen : Nat) : Res (VB w) :=
  if blockLen < s.vec.length then setLenFromBlocks c { s with vec := s.vec.take blockLen } eb
  else .ok s

/-- `truncate`, vector_base.rs:251-258. -/
def truncate (s : VB w) (eb len : Nat) : Res (VB w) :=
  if len < s.len then do
    let n ← mulN c 64 len eb
    let blockLen ← ceilDivNbits c w n
    clearExtraBits c ⟨len, s.vec.take blockLen⟩ eb
  else .ok s

/-- `clear`, vector_base.rs:261-264; `BitVector::clear` (bit_vector.rs:174-176) forwards to it. -/
def clear (_ : VB w) : VB w := ⟨0, []⟩

/-- `block_resize`, vector_base.rs:303-307. -/
def blockResize (s : VB w) (eb blockLen : Nat) (fill : BitVec w) : Res (VB w) :=
  setLenFromBlocks c { s with vec := vecResize s.vec blockLen fill } eb

/-- `resize`, vector_base.rs:310-326. -/
def resize (s : VB w) (eb len : Nat) (fill : BitVec w) : Res (VB w) := do
  let o ← lenToBlockLen c w eb len
  let blockLen ← expectR o
  let s1 : VB w := ⟨len, vecResize s.vec blockLen 0⟩
  if len ≤ s.len then clearExtraBits c s1 eb
  else forRange s.len len s1 fun i s => do
    let p ← mulN c 64 i eb
    setBits c s eb p eb fill

/-- derived `Ord::cmp` of `VectorBase`, vector_base.rs:24-28: `len` first, then the blocks,
lexicographically (the order of `Vec`); blocks compare as unsigned numbers. `BitVector` derives the
same order (bit_vector.rs:12-13). -/
def cmp (a b : VB w) : Ordering := (compare a.len b.len).then (List.compareLex compare a.vec b.vec)

end VB

/-! ## `BitVector`, bit_vector.rs -/

namespace BV

variable {w : Nat} (c : Cfg)

/-- `BitVector::with_capacity`, bit_vector.rs:29-31. -/
def withCapacity (w capacity : Nat) : Res (VB w) := VB.withCapacity c w 1 capacity

/-- `BitVector::block_with_fill`, bit_vector.rs:56-58. -/
def blockWithFill (blockLen : Nat) (value : BitVec w) : Res (VB w) := VB.blockWithFill c 1 blockLen value

/-- `BitVector::with_fill`, bit_vector.rs:46-53. -/
def withFill (w len : Nat) (value : Bool) : Res (VB w) := do
  let o ← checkedCeilDivNbits c w len
  let blockSize ← expectR o
  let blockValue : BitVec w := if value then ~~~ 0 else 0
  let result ← blockWithFill c blockSize blockValue
  VB.truncate c result 1 len

/-- `BitVector::block_resize`, bit_vector.rs:98-100. -/
def blockResize (s : VB w) (newLen : Nat) (value : BitVec w) : Res (VB w) :=
  VB.blockResize c s 1 newLen value

/-- `BitVector::resize`, bit_vector.rs:78-94. -/
def resize (s : VB w) (newLen : Nat) (value : Bool) : Res (VB w) := do
  let o ← checkedCeilDivNbits c w newLen
  let newBlockLen ← expectR o
  let s ← (if newLen < s.len ∨ value = false then blockResize c s newBlockLen 0
    else do
      let trailing ← lastBlockBits c w s.len
      let remaining ← subN c c.usz w trailing
      let s ← forRange 0 remaining s fun _ s => VB.pushBit c s true
      blockResize c s newBlockLen (~~~ 0))
  VB.truncate c s 1 newLen

/-- `BitVector::truncate`, bit_vector.rs:162-164. -/
def truncate (s : VB w) (len : Nat) : Res (VB w) := VB.truncate c s 1 len

/-- `BitVector::block_truncate`, bit_vector.rs:169-171. -/
def blockTruncate (s : VB w) (blockLen : Nat) : Res (VB w) := VB.blockTruncate c s 1 blockLen

end BV

/-- `impl BitVec for BitVector`, bit_vector.rs:184-200: `block_len` and `get_bits` are the trait
defaults. -/
def bvBitVec (c : Cfg) (w : Nat) : BitVecOps w (VB w) :=
  let bitLen := fun s : VB w => Res.ok s.len
  { bitLen := bitLen
    blockLen := dfltBlockLen c w bitLen
    getBit := fun s i => VB.getBit c s i
    getBlock := fun s i => VB.getBlock s i
    getBits := dfltGetBits c bitLen (fun s i => VB.getBlock s i) }

/-- `impl BitVecMut for BitVector`, bit_vector.rs:202-211: `set_bits` is the trait default. -/
def bvBitVecMut (c : Cfg) (w : Nat) : BitVecMutOps w (VB w) :=
  { bvBitVec c w with
    setBit := fun s i v => VB.setBit c s i v
    setBlock := fun s i v => VB.setBlock c s 1 i v
    setBits := dfltSetBits c (bvBitVec c w).bitLen (bvBitVec c w).getBlock (fun s i v => VB.setBlock c s 1 i v) }

/-- `impl BitVecPush for BitVector`, bit_vector.rs:213-225: `align_block` is the trait default. -/
def bvBitVecPush (c : Cfg) (w : Nat) : BitVecPushOps w (VB w) :=
  { bvBitVecMut c w with
    pushBit := fun s v => VB.pushBit c s v
    popBit := fun s => VB.popBit c s
    alignBlock := dfltAlignBlock c w (bvBitVec c w).bitLen (fun s v => VB.pushBit c s v)
    pushBlock := fun s v => VB.pushBlock c s 1 v }

/-! ## `IntVector`, int_vector.rs -/

/-- `struct IntVector`, int_vector.rs:15-19. -/
structure IV (w : Nat) where
  elementBits : Nat
  base : VB w
deriving DecidableEq, Repr

namespace IV

variable {w : Nat} (c : Cfg)

/-- `check_element_bits`, int_vector.rs:23-28. -/
def checkElementBits (w eb : Nat) : Res Unit := do
  assertR (eb ≠ 0)
  assertR (eb ≤ w)

/-- `check_value_random`, int_vector.rs:30-33. -/
def checkValueRandom (eb : Nat) (value : BitVec w) : Res Unit := do
  let m ← lowMask c w eb
  assertR (value.toNat ≤ m.toNat)

/-- `check_value`, int_vector.rs:35-37. -/
def checkValue (s : IV w) (value : BitVec w) : Res Unit := checkValueRandom c s.elementBits value

/-- `create`, int_vector.rs:40-46. -/
def create (eb : Nat) (base : VB w) : Res (IV w) := do
  checkElementBits w eb
  .ok ⟨eb, base⟩

/-- `compute_address_random`, int_vector.rs:49-55. -/
def computeAddressRandom (bitOffset eb index : Nat) : Res Nat :=
  expectR ((checkedMul 64 index eb).bind fun offset => checkedAdd 64 offset bitOffset)

/-- `compute_address`, int_vector.rs:58-62. -/
def computeAddress (s : IV w) (index : Nat) : Res Nat := expectR (checkedMul 64 index s.elementBits)

/-- `new`, int_vector.rs:74-76. -/
def new (w eb : Nat) : Res (IV w) := create eb VB.new

/-- `with_capacity`, int_vector.rs:80-83. -/
def withCapacity (w eb capacity : Nat) : Res (IV w) := do
  let b ← VB.withCapacity c w eb capacity
  create eb b

/-- `block_with_capacity`, int_vector.rs:87-91. -/
def blockWithCapacity (w eb : Nat) : Res (IV w) := create eb VB.new

/-- `with_fill`, int_vector.rs:94-97. -/
def withFill (eb len : Nat) (value : BitVec w) : Res (IV w) := do
  let b ← VB.withFill c eb len value
  create eb b

/-- `block_with_fill`, int_vector.rs:104-110. -/
def blockWithFill (eb blockLen : Nat) (value : BitVec w) : Res (IV w) := do
  let b ← VB.blockWithFill c eb blockLen value
  create eb b

/-- `get_random`, int_vector.rs:125-133. -/
def getRandom (s : IV w) (bitOffset eb index : Nat) : Res (BitVec w) := do
  let a ← computeAddressRandom bitOffset eb index
  VB.getBits c s.base s.elementBits a eb

/-- `set_random`, int_vector.rs:151-160. -/
def setRandom (s : IV w) (bitOffset eb index : Nat) (value : BitVec w) : Res (IV w) := do
  checkValueRandom c eb value
  let a ← computeAddressRandom bitOffset eb index
  let b ← VB.setBits c s.base s.elementBits a eb value
  .ok { s with base := b }

/-- `push`, int_vector.rs:164-167. -/
def push (s : IV w) (value : BitVec w) : Res (IV w) := do
  checkValue c s value
  let b ← VB.pushBits c s.base s.elementBits value
  .ok { s with base := b }

/-- `pop`, int_vector.rs:170-172. -/
def pop (s : IV w) : Res (Option (BitVec w) × IV w) := do
  let (r, b) ← VB.popBits c s.base s.elementBits
  .ok (r, { s with base := b })

/-- `resize`, int_vector.rs:186-188. -/
def resize (s : IV w) (n : Nat) (fill : BitVec w) : Res (IV w) := do
  let b ← VB.resize c s.base s.elementBits n fill
  .ok { s with base := b }

/-- `block_resize`, int_vector.rs:191-193. -/
def blockResize (s : IV w) (n : Nat) (fill : BitVec w) : Res (IV w) := do
  let b ← VB.blockResize c s.base s.elementBits n fill
  .ok { s with base := b }

/-- `truncate`, int_vector.rs:264-266. -/
def truncate (s : IV w) (n : Nat) : Res (IV w) := do
  let b ← VB.truncate c s.base s.elementBits n
  .ok { s with base := b }

/-- `block_truncate`, int_vector.rs:271-273. -/
def blockTruncate (s : IV w) (n : Nat) : Res (IV w) := do
  let b ← VB.blockTruncate c s.base s.elementBits n
  .ok { s with base := b }

/-- `clear`, int_vector.rs:276-278. -/
def clear (s : IV w) : IV w := { s with base := s.base.clear }

/-- `is_block_sized`, int_vector.rs:287-289. -/
def isBlockSized (s : IV w) : Bool := s.elementBits = w

/-- `is_aligned`, int_vector.rs:293-295. -/
def isAligned (s : IV w) : Res Bool := do
  let r ← remN w s.elementBits
  .ok (r = 0)

/-- `IntVec::len`, int_vector.rs:301-303; `IntVec::element_bits` (int_vector.rs:314-316) is the field. -/
def len (s : IV w) : Nat := s.base.len

/-- `IntVec::is_empty` (trait default), int_vec/traits.rs:13-15. -/
def isEmpty (s : IV w) : Bool := s.len = 0

/-- `IntVec::get`, int_vector.rs:305-312. -/
def get (s : IV w) (index : Nat) : Res (BitVec w) :=
  if s.isBlockSized then VB.getBlock s.base (asUsize c index)
  else do
    let a ← computeAddress s index
    VB.getBits c s.base s.elementBits a s.elementBits

/-- `IntVecMut::set`, int_vector.rs:320-333. -/
def set (s : IV w) (index : Nat) (value : BitVec w) : Res (IV w) :=
  if s.isBlockSized then do
    let b ← VB.setBlock c s.base s.elementBits (asUsize c index) value
    .ok { s with base := b }
  else do
    checkValue c s value
    let a ← computeAddress s index
    let b ← VB.setBits c s.base s.elementBits a s.elementBits value
    .ok { s with base := b }

/-- derived `Ord::cmp` of `IntVector`, int_vector.rs:15-19: `element_bits` first, then `base`. -/
def cmp (a b : IV w) : Ordering := (compare a.elementBits b.elementBits).then (VB.cmp a.base b.base)

/-- `BitVecMut::set_block`, int_vector.rs:353-355. -/
def setBlock (s : IV w) (i : Nat) (value : BitVec w) : Res (IV w) := do
  let b ← VB.setBlock c s.base s.elementBits i value
  .ok { s with base := b }

end IV

/-- `impl BitVec for IntVector`, int_vector.rs:336-350: `get_bit`, `get_bits` are the defaults. -/
def ivBitVec (c : Cfg) (w : Nat) : BitVecOps w (IV w) :=
  let bitLen := fun s : IV w => mulN c 64 s.elementBits s.base.len
  let getBlock := fun (s : IV w) i => VB.getBlock s.base i
  { bitLen := bitLen
    blockLen := fun s => .ok s.base.vec.length
    getBit := dfltGetBit c bitLen getBlock
    getBlock := getBlock
    getBits := dfltGetBits c bitLen getBlock }

/-- `impl BitVecMut for IntVector`, int_vector.rs:352-356: `set_bit`, `set_bits` are the defaults. -/
def ivBitVecMut (c : Cfg) (w : Nat) : BitVecMutOps w (IV w) :=
  let setBlock := fun (s : IV w) i v => IV.setBlock c s i v
  { ivBitVec c w with
    setBit := dfltSetBit c (ivBitVec c w).bitLen (ivBitVec c w).getBlock setBlock
    setBlock := setBlock
    setBits := dfltSetBits c (ivBitVec c w).bitLen (ivBitVec c w).getBlock setBlock }

end Succinct
