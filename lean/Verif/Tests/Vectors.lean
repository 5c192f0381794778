import Verif.Tests.Basic
import Verif.Model.Capacity
import Verif.Model.Iter
import Verif.Model.Slice
/-! Tests of bit_vec/bit_vector.rs:304-513 and int_vec/int_vector.rs:434-645, and the example of `IntoRange`
(bit_vec/bit_slice.rs:178-185). -/
namespace Succinct.Tests

/-- `new`, bit_vector.rs:314-319. -/
def bvNewTest (c : Cfg) : Res Unit := do
  let o := bvBitVec c c.usz
  assertEq 0 (← o.bitLen VB.new)
  assertEq 0 (← o.blockLen VB.new)
example : passes bvNewTest := by decide +kernel

/-- `capacity`, bit_vector.rs:321-328. -/
def bvCapacityTest (c : Cfg) : Res Unit := do
  assertEq 0 (← CVB.capacity c (⟨VB.new, 0, 0⟩ : CVB 32) 1)
  let v ← CVB.withCapacity c Alloc.exact 32 1 65
  assertEq 96 (← v.capacity c 1)
example : passes bvCapacityTest := by decide +kernel

/-- `push_bit` for each of the bits. -/
def pushAll (c : Cfg) (v : VB w) (bits : List Bool) : Res (VB w) := do
  let mut v := v
  for b in bits do
    v ← (bvBitVecPush c w).pushBit v b
  .ok v

/-- `push_binary`, bit_vector.rs:330-337. -/
def bvPushBinaryTest (c : Cfg) : Res Unit := do
  let v : VB c.usz ← pushAll c VB.new [true, false, false]
  assertEq "100" (← BV.fmtBinary c v)
#guard passes bvPushBinaryTest

/-- `block_with_fill`, bit_vector.rs:339-344. -/
def bvBlockWithFillTest (c : Cfg) : Res Unit := do
  let v : VB 8 ← BV.blockWithFill c 3 0b101
  assertEq 3 v.vec.length
  assertEq "101000001010000010100000" (← BV.fmtBinary c v)
#guard passes bvBlockWithFillTest

/-- `with_fill`, bit_vector.rs:346-356. -/
def bvWithFillTest (c : Cfg) : Res Unit := do
  let v0 ← BV.withFill c c.usz 20 false
  let v1 ← BV.withFill c c.usz 20 true
  assertEq false (← (bvBitVec c c.usz).getBit v0 3)
  assertEq true (← (bvBitVec c c.usz).getBit v1 3)
  assertEq "00000000000000000000" (← BV.fmtBinary c v0)
  assertEq "11111111111111111111" (← BV.fmtBinary c v1)
#guard passes bvWithFillTest

/-- `push_pop`, bit_vector.rs:358-368. -/
def bvPushPopTest (c : Cfg) : Res Unit := do
  let mut v : VB c.usz ← pushAll c VB.new [true, false, false]
  for e in [some false, some false, some true, none] do
    let (x, v1) ← (bvBitVecPush c c.usz).popBit v
    v := v1
    assertEq e x
example : passes bvPushPopTest := by decide +kernel

/-- `push_get`, bit_vector.rs:370-381. -/
def bvPushGetTest (c : Cfg) : Res Unit := do
  let o := bvBitVec c c.usz
  let v : VB c.usz ← pushAll c VB.new [true, false, false]
  assertEq 3 (← o.bitLen v)
  assertEq 1 (← o.blockLen v)
  assertEq true (← o.getBit v 0)
  assertEq false (← o.getBit v 1)
  assertEq false (← o.getBit v 2)
example : passes bvPushGetTest := by decide +kernel

/-- `get_oob`, bit_vector.rs:383-389, `#[should_panic]`. -/
def bvGetOobTest (c : Cfg) : Res Bool := do
  let v : VB c.usz ← pushAll c VB.new [true]
  (bvBitVec c c.usz).getBit v 3
example : panics bvGetOobTest := by decide +kernel

/-- `push_block`, bit_vector.rs:391-396. -/
def bvPushBlockTest (c : Cfg) : Res Unit := do
  let v ← (bvBitVecPush c 32).pushBlock VB.new 0
  assertEq "00000000000000000000000000000000" (← BV.fmtBinary c v)
#guard passes bvPushBlockTest

/-- `push_bits_get_block`, bit_vector.rs:398-408. -/
def bvPushBitsGetBlockTest (c : Cfg) : Res Unit := do
  let v : VB c.usz ← pushAll c VB.new [true, true, false, false, true]
  assertEq 19 (← (bvBitVec c c.usz).getBlock v 0)
example : passes bvPushBitsGetBlockTest := by decide +kernel

/-- `push_block_get_block`, bit_vector.rs:410-417. -/
def bvPushBlockGetBlockTest (c : Cfg) : Res Unit := do
  let o := bvBitVecPush c c.usz
  let v ← o.pushBlock VB.new 358
  let v ← o.pushBlock v (~~~ 0)
  assertEq 358 (← o.getBlock v 0)
  assertEq (~~~ 0) (← o.getBlock v 1)
example : passes bvPushBlockGetBlockTest := by decide +kernel

/-- `get_block_oob`, bit_vector.rs:419-425, `#[should_panic]`. -/
def bvGetBlockOobTest (c : Cfg) : Res (BitVec c.usz) := do
  let v : VB c.usz ← pushAll c VB.new [true]
  (bvBitVec c c.usz).getBlock v 3
example : panics (α := Unit) (fun c => do let _ ← bvGetBlockOobTest c; .ok ()) := by decide +kernel

/-- `push_block_get_bit`, bit_vector.rs:427-437. -/
def bvPushBlockGetBitTest (c : Cfg) : Res Unit := do
  let o := bvBitVecPush c c.usz
  let v ← o.pushBlock VB.new 0b10101
  assertEq true (← o.getBit v 0)
  assertEq false (← o.getBit v 1)
  assertEq true (← o.getBit v 2)
  assertEq false (← o.getBit v 3)
  assertEq true (← o.getBit v 4)
  assertEq false (← o.getBit v 5)
example : passes bvPushBlockGetBitTest := by decide +kernel

/-- `push_block_set_get`, bit_vector.rs:439-453. -/
def bvPushBlockSetGetTest (c : Cfg) : Res Unit := do
  let o := bvBitVecPush c c.usz
  let mut v ← o.pushBlock VB.new 0
  for (i, b) in [(0, true), (1, true), (2, false), (3, true), (4, false)] do
    v ← o.setBit v i b
  for (i, b) in [(0, true), (1, true), (2, false), (3, true), (4, false)] do
    assertEq b (← o.getBit v i)
example : passes bvPushBlockSetGetTest := by decide +kernel

/-- `set_block_mask`, bit_vector.rs:455-466. -/
def bvSetBlockMaskTest (c : Cfg) : Res Unit := do
  let o := bvBitVecPush c c.usz
  let v ← o.pushBit VB.new false
  let v ← o.setBlock v 0 0b11
  assertEq 0b01 (← o.getBlock v 0)
  let v ← o.pushBit v false
  let v ← o.setBlock v 0 0b11
  assertEq 0b11 (← o.getBlock v 0)
example : passes bvSetBlockMaskTest := by decide +kernel

/-- `resize`, bit_vector.rs:468-493. -/
def bvResizeTest (c : Cfg) : Res Unit := do
  let v : VB 8 ← pushAll c VB.new [true, false, true]
  assertEq "101" (← BV.fmtBinary c v)
  let v ← BV.resize c v 21 false
  assertEq "101000000000000000000" (← BV.fmtBinary c v)
  let v ← BV.resize c v 22 false
  assertEq "1010000000000000000000" (← BV.fmtBinary c v)
  let v ← BV.resize c v 5 false
  assertEq "10100" (← BV.fmtBinary c v)
  let v ← BV.resize c v 21 true
  assertEq "101001111111111111111" (← BV.fmtBinary c v)
  let v ← BV.resize c v 4 true
  assertEq "1010" (← BV.fmtBinary c v)
  let v ← (bvBitVecPush c 8).pushBlock v 0b11111111
  assertEq "1010000011111111" (← BV.fmtBinary c v)
#guard passes bvResizeTest

/-- `block_resize`, bit_vector.rs:495-512. -/
def bvBlockResizeTest (c : Cfg) : Res Unit := do
  let v : VB 8 ← pushAll c VB.new [true, false, true]
  assertEq "101" (← BV.fmtBinary c v)
  let v ← BV.blockResize c v 1 0
  assertEq "10100000" (← BV.fmtBinary c v)
  let v ← BV.blockResize c v 3 0b01000101
  assertEq "101000001010001010100010" (← BV.fmtBinary c v)
  let v ← BV.blockResize c v 2 0
  assertEq "1010000010100010" (← BV.fmtBinary c v)
#guard passes bvBlockResizeTest

/-- `create_empty`, int_vector.rs:439-443. -/
def ivCreateEmptyTest (c : Cfg) : Res Unit := do
  let v ← IV.new c.usz 4
  assertEq true v.isEmpty
example : passes ivCreateEmptyTest := by decide +kernel

/-- `block_sized`, int_vector.rs:445-465. -/
def ivBlockSizedTest (c : Cfg) : Res Unit := do
  let v : IV 32 ← IV.withFill c 32 10 0
  assertEq 10 v.len
  assertEq 0 (← v.get c 0)
  assertEq 0 (← v.get c 9)
  let v ← v.set c 0 89
  assertEq 89 (← v.get c 0)
  assertEq 0 (← v.get c 1)
  let v ← v.set c 0 56
  let v ← v.set c 1 34
  assertEq 56 (← v.get c 0)
  assertEq 34 (← v.get c 1)
  assertEq 0 (← v.get c 2)
  let v ← v.set c 9 12
  assertEq 12 (← v.get c 9)
example : passes ivBlockSizedTest := by decide +kernel

/-- `aligned`, int_vector.rs:474-497, and `unaligned`, 506-529, for the element widths 4 and 5. -/
def ivAlignedTest (eb : Nat) (c : Cfg) : Res Unit := do
  let v : IV 32 ← IV.withFill c eb 20 0
  assertEq 20 v.len
  assertEq 0 (← v.get c 0)
  assertEq 0 (← v.get c 9)
  let v ← v.set c 0 13
  assertEq 13 (← v.get c 0)
  assertEq 0 (← v.get c 1)
  let v ← v.set c 1 15
  assertEq 13 (← v.get c 0)
  assertEq 15 (← v.get c 1)
  assertEq 0 (← v.get c 2)
  let v ← v.set c 1 4
  let v ← v.set c 19 9
  assertEq 13 (← v.get c 0)
  assertEq 4 (← v.get c 1)
  assertEq 0 (← v.get c 2)
  assertEq 9 (← v.get c 19)
example : passes (ivAlignedTest 4) := by decide +kernel
example : passes (ivAlignedTest 5) := by decide +kernel

/-- `block_sized_oob`, `aligned_oob`, `unaligned_oob`, int_vector.rs:467-472, 499-504, 531-536, `#[should_panic]`. -/
def ivOobTest (eb len : Nat) (c : Cfg) : Res Unit := do
  let v : IV 32 ← IV.withFill c eb len 0
  assertEq 0 (← v.get c len)
example : panics (ivOobTest 32 10) := by decide +kernel
example : panics (ivOobTest 4 20) := by decide +kernel
example : panics (ivOobTest 5 20) := by decide +kernel

/-- `push` for each of the values. -/
def ivPushAll (c : Cfg) (v : IV w) (xs : List (BitVec w)) : Res (IV w) := do
  let mut v := v
  for x in xs do
    v ← v.push c x
  .ok v

/-- `pop` with the expected results. -/
def ivPops (c : Cfg) (v : IV w) (xs : List (Option (BitVec w))) : Res (IV w) := do
  let mut v := v
  for e in xs do
    let (x, v1) ← v.pop c
    v := v1
    assertEq e x
  .ok v

/-- `pop`, int_vector.rs:538-554. -/
def ivPopTest (c : Cfg) : Res Unit := do
  let v ← IV.new 32 7
  let v ← ivPops c v [none]
  let v ← ivPushAll c v [1, 2, 3]
  let v ← ivPops c v [some 3]
  let v ← ivPushAll c v [4, 5]
  let _ ← ivPops c v [some 5, some 4, some 2, some 1, none]
example : passes ivPopTest := by decide +kernel

/-- `iter`, int_vector.rs:556-566. -/
def ivIterTest (c : Cfg) : Res Unit := do
  let v ← IV.new 16 13
  let v ← ivPushAll c v [1, 1, 2, 3, 5]
  let xs ← v.iter.forEach c [] fun acc x => .ok (acc ++ [x])
  assertEq [1, 1, 2, 3, 5] xs
#guard passes ivIterTest

/-- `debug`, int_vector.rs:568-579. -/
def ivDebugTest (c : Cfg) : Res Unit := do
  let v ← IV.new 16 13
  let v ← ivPushAll c v [1, 1, 2, 3, 5]
  assertEq "IntVector { element_bits: 13, elements: { 1, 1, 2, 3, 5, } }" (← v.fmtDebug c)
#guard passes ivDebugTest

/-- `value_overflow`, int_vector.rs:581-586, `#[should_panic]`. -/
def ivValueOverflowTest (c : Cfg) : Res (IV 32) := do
  let v ← IV.new 32 3
  v.push c 78
example : panics ivValueOverflowTest := by decide +kernel

/-- `bit_vec`, int_vector.rs:588-607. -/
def ivBitVecTest (c : Cfg) : Res Unit := do
  let o := ivBitVecMut c 32
  let v ← IV.new 32 1
  let v ← ivPushAll c v [1, 0, 0, 1]
  assertEq true (← o.getBit v 0)
  assertEq false (← o.getBit v 1)
  assertEq false (← o.getBit v 2)
  assertEq true (← o.getBit v 3)
  let v ← o.setBit v 1 true
  assertEq true (← o.getBit v 0)
  assertEq true (← o.getBit v 1)
  assertEq false (← o.getBit v 2)
  assertEq true (← o.getBit v 3)
example : passes ivBitVecTest := by decide +kernel

/-- `push_pop_equals`, int_vector.rs:609-624. -/
def ivPushPopEqualsTest (c : Cfg) : Res Unit := do
  let v ← IV.new 32 5
  let u ← IV.new 32 5
  let v ← v.push c 5
  let u ← u.push c 5
  assertR (v = u)
  let v ← v.push c 6
  let u ← u.push c 7
  assertR (v ≠ u)
  let (_, v) ← v.pop c
  let (_, u) ← u.pop c
  assertR (v = u)
example : passes ivPushPopEqualsTest := by decide +kernel

/-- `block_size_elements_u16`, int_vector.rs:626-634, and `block_size_elements_u64`, 636-644. -/
def ivBlockSizeElementsTest (w : Nat) (c : Cfg) : Res Unit := do
  let v ← IV.new w w
  let v ← ivPushAll c v [0, ~~~ 0]
  let _ ← ivPops c v [some (~~~ 0), some 0, none]
example : passes (ivBlockSizeElementsTest 16) := by decide +kernel
example : passes (ivBlockSizeElementsTest 64) := by decide +kernel

/-- The example of `IntoRange`, bit_slice.rs:180-184. -/
example : (RangeArg.range 3 5).intoRange 0 8 = (3, 5) ∧ (RangeArg.to 5).intoRange 0 8 = (0, 5) ∧
    (RangeArg.from 3).intoRange 0 8 = (3, 8) ∧ RangeArg.full.intoRange 0 8 = (0, 8) := by decide

end Succinct.Tests
