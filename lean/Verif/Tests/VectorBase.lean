import Verif.Tests.Basic
import Verif.Model.Capacity
/-! Tests of internal/vector_base.rs:437-824. Those that ask for a capacity use the model with an exact allocator. -/
namespace Succinct.Tests
set_option linter.unusedVariables false

/-- `block_with_fill_7`, vector_base.rs:499-504. -/
def vbBlockWithFill7Test (c : Cfg) : Res Unit := do
  let v : VB 8 ← VB.blockWithFill c 7 3 0b01010101
  assertEq 0b01010101 (← v.getBlock 0)
  assertEq 0b01010101 (← v.getBlock 1)
  assertEq 0b00010101 (← v.getBlock 2)
  .ok ()
example : passes vbBlockWithFill7Test := by decide +kernel

/-- `with_fill`, vector_base.rs:507-515. -/
def vbWithFillTest (c : Cfg) : Res Unit := do
  let mut v : VB 8 ← VB.withFill c 5 5 0b10110
  assertEq 5 v.len
  assertEq 4 v.vec.length
  for _ in List.range 5 do
    let (x, v1) ← v.popBits c 5
    v := v1
    assertEq (some 0b10110) x
  assertEq 0 v.len
  .ok ()
example : passes vbWithFillTest := by decide +kernel

/-- `set_block_5`, vector_base.rs:518-526. -/
def vbSetBlock5Test (c : Cfg) : Res Unit := do
  let mut v : VB 8 ← VB.blockWithFill c 5 3 0b01010101
  assertEq 0b01010101 (← v.getBlock 0)
  assertEq 0b01010101 (← v.getBlock 1)
  assertEq 0b00000101 (← v.getBlock 2)
  v ← v.setBlock c 5 2 0b11111111
  assertEq 0b00001111 (← v.getBlock 2)
  .ok ()
example : passes vbSetBlock5Test := by decide +kernel

/-- `get_bits`, vector_base.rs:529-534. -/
def vbGetBitsTest (c : Cfg) : Res Unit := do
  let v : VB 8 ← VB.blockWithFill c 5 5 0b01010101
  assertEq 0b10101 (← v.getBits c 5 0 5)
  assertEq 0b101 (← v.getBits c 5 0 3)
  assertEq 0b010101 (← v.getBits c 5 6 6)
  .ok ()
example : passes vbGetBitsTest := by decide +kernel

/-- `set_bits`, vector_base.rs:537-550. -/
def vbSetBitsTest (c : Cfg) : Res Unit := do
  let mut v : VB 8 ← VB.blockWithFill c 5 10 0
  assertEq 0 (← v.getBits c 5 0 5)
  assertEq 0 (← v.getBits c 5 5 5)
  assertEq 0 (← v.getBits c 5 10 5)
  v ← v.setBits c 5 0 5 17
  v ← v.setBits c 5 5 5 2
  v ← v.setBits c 5 10 5 8
  assertEq 17 (← v.getBits c 5 0 5)
  assertEq  2 (← v.getBits c 5 5 5)
  assertEq  8 (← v.getBits c 5 10 5)
  .ok ()
example : passes vbSetBitsTest := by decide +kernel

/-- `set_bit`, vector_base.rs:553-574. -/
def vbSetBitTest (c : Cfg) : Res Unit := do
  let mut v : VB 8 ← VB.blockWithFill c 1 2 0
  assertEq 16 v.len
  assertEq false (← v.getBit c 0)
  assertEq false (← v.getBit c 1)
  assertEq false (← v.getBit c 2)
  assertEq false (← v.getBit c 3)
  assertEq false (← v.getBit c 4)
  assertEq false (← v.getBit c 5)
  v ← v.setBit c 1 true
  v ← v.setBit c 2 true
  v ← v.setBit c 5 true
  assertEq false (← v.getBit c 0)
  assertEq true (← v.getBit c 1)
  assertEq true (← v.getBit c 2)
  assertEq false (← v.getBit c 3)
  assertEq false (← v.getBit c 4)
  assertEq true (← v.getBit c 5)
  .ok ()
example : passes vbSetBitTest := by decide +kernel

/-- `push_block`, vector_base.rs:577-590. -/
def vbPushBlockTest (c : Cfg) : Res Unit := do
  let mut v : VB 8 := VB.new
  v ← v.pushBlock c 6 0b11111111
  assertEq 0b00111111 (← v.getBlock 0)
  assertEq 1 v.len
  v ← v.pushBlock c 6 0b11111111
  assertEq 0b00001111 (← v.getBlock 1)
  assertEq 2 v.len
  v ← v.pushBlock c 6 0b11111111
  assertEq 0b11111111 (← v.getBlock 2)
  assertEq 4 v.len
  .ok ()
example : passes vbPushBlockTest := by decide +kernel

/-- `pop_block_after_push`, vector_base.rs:593-602. -/
def vbPopBlockAfterPushTest (c : Cfg) : Res Unit := do
  let mut v : VB 8 := VB.new
  v ← v.pushBlock c 6 0b11111111
  v ← v.pushBlock c 6 0b11111111
  v ← v.pushBlock c 6 0b11111111
  let (x, v1) ← v.popBlock c 6
  v := v1
  assertEq (some 0b11111111) x
  let (x, v1) ← v.popBlock c 6
  v := v1
  assertEq (some 0b00001111) x
  let (x, v1) ← v.popBlock c 6
  v := v1
  assertEq (some 0b00111111) x
  let (x, v1) ← v.popBlock c 6
  v := v1
  assertEq none x
  .ok ()
example : passes vbPopBlockAfterPushTest := by decide +kernel

/-- `pop_block_after_fill`, vector_base.rs:605-614. -/
def vbPopBlockAfterFillTest (c : Cfg) : Res Unit := do
  let mut v : VB 8 ← VB.blockWithFill c 6 3 0b11111111
  assertEq 0b11111111 (← v.getBlock 0)
  assertEq 0b11111111 (← v.getBlock 1)
  assertEq 0b11111111 (← v.getBlock 2)
  let (x, v1) ← v.popBlock c 6
  v := v1
  assertEq (some 0b11111111) x
  let (x, v1) ← v.popBlock c 6
  v := v1
  assertEq (some 0b00001111) x
  let (x, v1) ← v.popBlock c 6
  v := v1
  assertEq (some 0b00111111) x
  let (x, v1) ← v.popBlock c 6
  v := v1
  assertEq none x
  .ok ()
example : passes vbPopBlockAfterFillTest := by decide +kernel

/-- `push_bits`, vector_base.rs:617-626. -/
def vbPushBitsTest (c : Cfg) : Res Unit := do
  let mut v : VB 8 := VB.new
  v ← v.pushBits c 6 0b100110
  v ← v.pushBits c 6 0b010100
  v ← v.pushBits c 6 0b001111
  assertEq 0b00100110 (← v.getBlock 0)
  assertEq 0b11110101 (← v.getBlock 1)
  assertEq 0b00000000 (← v.getBlock 2)
  .ok ()
example : passes vbPushBitsTest := by decide +kernel

/-- `pop_bits`, vector_base.rs:629-641. -/
def vbPopBitsTest (c : Cfg) : Res Unit := do
  let mut v : VB 8 := VB.new
  v ← v.pushBits c 6 0b100110
  v ← v.pushBits c 6 0b010100
  v ← v.pushBits c 6 0b001111
  let (x, v1) ← v.popBits c 6
  v := v1
  assertEq (some 0b001111) x
  assertEq 0b00000101 (← v.getBlock 1)
  let (x, v1) ← v.popBits c 6
  v := v1
  assertEq (some 0b010100) x
  assertEq 0b00100110 (← v.getBlock 0)
  let (x, v1) ← v.popBits c 6
  v := v1
  assertEq (some 0b100110) x
  let (x, v1) ← v.popBits c 6
  v := v1
  assertEq none x
  .ok ()
example : passes vbPopBitsTest := by decide +kernel

/-- `push_bit`, vector_base.rs:644-666. -/
def vbPushBitTest (c : Cfg) : Res Unit := do
  let mut v : VB 8 := VB.new
  v ← v.pushBit c false
  v ← v.pushBit c false
  v ← v.pushBit c true
  assertEq 3 v.len
  assertEq 1 v.vec.length
  v ← v.pushBit c false
  v ← v.pushBit c true
  v ← v.pushBit c true
  assertEq 0b00110100 (← v.getBlock 0)
  v ← v.pushBit c true
  v ← v.pushBit c false
  assertEq 8 v.len
  assertEq 1 v.vec.length
  v ← v.pushBit c true
  assertEq 9 v.len
  assertEq 2 v.vec.length
  assertEq 0b01110100 (← v.getBlock 0)
  assertEq 0b00000001 (← v.getBlock 1)
  .ok ()
example : passes vbPushBitTest := by decide +kernel

/-- `pop_bit`, vector_base.rs:669-684. -/
def vbPopBitTest (c : Cfg) : Res Unit := do
  let mut v : VB 8 ← VB.blockWithFill c 1 2 0b01010101
  assertEq 2 v.vec.length
  assertEq 16 v.len
  for _ in List.range 8 do
    let (x, v1) ← v.popBit c
    v := v1
    assertEq (some false) x
    let (x, v1) ← v.popBit c
    v := v1
    assertEq (some true) x
  let (x, v1) ← v.popBit c
  v := v1
  assertEq none x
  assertEq 0 v.vec.length
  assertEq 0 v.len
  .ok ()
example : passes vbPopBitTest := by decide +kernel

/-- `block_truncate`, vector_base.rs:687-699. -/
def vbBlockTruncateTest (c : Cfg) : Res Unit := do
  let mut v : VB 8 := VB.new
  v ← v.pushBits c 5 17
  v ← v.pushBits c 5 30
  v ← v.pushBits c 5 4
  assertEq 3 v.len
  assertEq 2 v.vec.length
  v ← v.blockTruncate c 5 1
  assertEq 1 v.len
  assertEq 1 v.vec.length
  let (x, v1) ← v.popBits c 5
  v := v1
  assertEq (some 17) x
  .ok ()
example : passes vbBlockTruncateTest := by decide +kernel

/-- `truncate`, vector_base.rs:702-723. -/
def vbTruncateTest (c : Cfg) : Res Unit := do
  let mut v : VB 8 := VB.new
  v ← v.pushBits c 5 0b10001
  v ← v.pushBits c 5 0b11110
  v ← v.pushBits c 5 0b00100
  v ← v.truncate c 5 2
  assertEq 2 v.len
  assertEq 2 v.vec.length
  assertEq 0b10001 (← v.getBits c 5 0 5)
  assertEq 0b11110 (← v.getBits c 5 5 5)
  assertEq 0b11010001 (← v.getBlock 0)
  assertEq 0b00000011 (← v.getBlock 1)
  v ← v.truncate c 5 1
  assertEq 1 v.len
  assertEq 1 v.vec.length
  assertEq 0b10001 (← v.getBits c 5 0 5)
  assertEq 0b00010001 (← v.getBlock 0)
  v ← v.truncate c 5 2
  .ok ()
example : passes vbTruncateTest := by decide +kernel

/-- `block_resize`, vector_base.rs:736-748. -/
def vbBlockResizeTest (c : Cfg) : Res Unit := do
  let mut v : VB 8 := VB.new
  v ← v.pushBits c 5 0b11010
  v ← v.blockResize c 5 3 0b11111111
  assertEq 0b11010 (← v.getBits c 5 0 5)
  assertEq 0b11000 (← v.getBits c 5 5 5)
  assertEq 0b11111 (← v.getBits c 5 10 5)
  v ← v.blockResize c 5 1 0b11111111
  assertEq 1 v.vec.length
  assertEq 1 v.len
  assertEq 0b00011010 (← v.getBlock 0)
  .ok ()
example : passes vbBlockResizeTest := by decide +kernel

/-- `resize`, vector_base.rs:751-769. -/
def vbResizeTest (c : Cfg) : Res Unit := do
  let mut v : VB 8 := VB.new
  v ← v.pushBits c 5 0b11010
  assertEq 1 v.len
  assertEq 0b00011010 (← v.getBlock 0)
  v ← v.resize c 5 3 0b01010
  assertEq 3 v.len
  assertEq 0b11010 (← v.getBits c 5 0 5)
  assertEq 0b01010 (← v.getBits c 5 5 5)
  assertEq 0b01010 (← v.getBits c 5 10 5)
  assertEq 0b01011010 (← v.getBlock 0)
  assertEq 0b00101001 (← v.getBlock 1)
  v ← v.resize c 5 1 0b01010
  assertEq 1 v.vec.length
  assertEq 1 v.len
  assertEq 0b00011010 (← v.getBlock 0)
  .ok ()
example : passes vbResizeTest := by decide +kernel

/-- `get_block_oob`, vector_base.rs:777-780. -/
def vbGetBlockOobTest (c : Cfg) : Res Unit := do
  let v : VB 8 := VB.new
  let _ ← v.getBlock 0
  .ok ()
example : panics vbGetBlockOobTest := by decide +kernel

/-- `set_block_oob`, vector_base.rs:783-786. -/
def vbSetBlockOobTest (c : Cfg) : Res Unit := do
  let mut v : VB 8 ← VB.blockWithFill c 5 2 0
  v ← v.setBlock c 5 2 0
  .ok ()
example : panics vbSetBlockOobTest := by decide +kernel

/-- `get_bits_oob1`, vector_base.rs:789-793. -/
def vbGetBitsOob1Test (c : Cfg) : Res Unit := do
  let mut v : VB 8 := VB.new
  v ← v.pushBits c 5 0
  let _ ← v.getBits c 5 5 5
  .ok ()
example : panics vbGetBitsOob1Test := by decide +kernel

/-- `get_bits_oob2`, vector_base.rs:796-799. -/
def vbGetBitsOob2Test (c : Cfg) : Res Unit := do
  let v : VB 8 ← VB.withFill c 5 2 0
  let _ ← v.getBits c 5 6 5
  .ok ()
example : panics vbGetBitsOob2Test := by decide +kernel

/-- `set_bits_oob`, vector_base.rs:802-805. -/
def vbSetBitsOobTest (c : Cfg) : Res Unit := do
  let mut v : VB 8 ← VB.withFill c 5 2 0
  v ← v.setBits c 5 10 5 0
  .ok ()
example : panics vbSetBitsOobTest := by decide +kernel

/-- `get_bit_oob`, vector_base.rs:808-811. -/
def vbGetBitOobTest (c : Cfg) : Res Unit := do
  let v : VB 8 ← VB.withFill c 1 6 0
  let _ ← v.getBit c 6
  .ok ()
example : panics vbGetBitOobTest := by decide +kernel

/-- `set_bit_oob`, vector_base.rs:814-817. -/
def vbSetBitOobTest (c : Cfg) : Res Unit := do
  let mut v : VB 8 ← VB.withFill c 1 5 0
  v ← v.setBit c 6 true
  .ok ()
example : panics vbSetBitOobTest := by decide +kernel

/-- `new`, vector_base.rs:443-450. -/
def vbNewTest (c : Cfg) : Res Unit := do
  let v : CVB 8 ← .ok ⟨VB.new, 0, 0⟩
  assertEq 0 v.base.len
  assertEq 0 v.base.vec.length
  assertEq 0 (← v.capacity c 5)
  assertEq 0 v.blockCapacity
example : passes vbNewTest := by decide +kernel

/-- `block_with_capacity`, vector_base.rs:452-461. -/
def vbBlockWithCapacityTest (c : Cfg) : Res Unit := do
  let v : CVB 8 := CVB.blockWithCapacity Alloc.exact 7
  assertEq 0 v.base.len
  assertEq 0 v.base.vec.length
  assertEq 7 (← v.capacity c 8)
  assertEq 14 (← v.capacity c 4)
  assertEq 11 (← v.capacity c 5)
  assertEq 7 v.blockCapacity
example : passes vbBlockWithCapacityTest := by decide +kernel

/-- `with_capacity`, vector_base.rs:463-471. -/
def vbWithCapacityTest (c : Cfg) : Res Unit := do
  let v ← CVB.withCapacity c Alloc.exact 8 5 5
  assertEq 0 v.base.len
  assertEq 0 v.base.vec.length
  assertEq 6 (← v.capacity c 5)
  assertEq 32 (← v.capacity c 1)
  assertEq 4 v.blockCapacity
example : passes vbWithCapacityTest := by decide +kernel

/-- `block_with_fill`, vector_base.rs:473-497; `vec![fill; n]` has capacity `n`. -/
def vbBlockWithFillTest (c : Cfg) : Res Unit := do
  let v : VB 8 ← VB.blockWithFill c 5 3 0b01010101
  assertEq 3 v.vec.length
  assertEq 4 v.len
  let cv : CVB 8 := ⟨v, 3, 0⟩
  assertEq 3 cv.blockCapacity
  assertEq 4 (← cv.capacity c 5)
  assertEq true (← v.getBit c 0)
  assertEq false (← v.getBit c 1)
  assertEq true (← v.getBit c 2)
  assertEq false (← v.getBit c 3)
  assertEq 0b01010101 (← v.getBlock 0)
  assertEq 0b01010101 (← v.getBlock 1)
  assertEq 0b00000101 (← v.getBlock 2)
  assertEq 0b10101 (← v.getBits c 5 0 5)
  assertEq 0b01010 (← v.getBits c 5 1 5)
  assertEq 0b10101 (← v.getBits c 5 2 5)
  assertEq 0b01010 (← v.getBits c 5 3 5)
  assertEq 0b10101 (← v.getBits c 5 4 5)
  assertEq 0b01010 (← v.getBits c 5 5 5)
example : passes vbBlockWithFillTest := by decide +kernel

/-- `shrink_to_fit`, vector_base.rs; the allocator starts with room for 8 blocks, so that there is something to
shrink. -/
def vbShrinkToFitTest (c : Cfg) : Res Unit := do
  let mut v : CVB 8 := ⟨VB.new, 8, 0⟩
  for i in List.range 5 do
    v ← v.pushBits c Alloc.exact 5 (BitVec.ofNat 8 i)
  v := v.shrinkToFit Alloc.exact
  assertEq 4 v.blockCapacity
example : passes vbShrinkToFitTest := by decide +kernel

/-- `with_capacity_overflow`, `#[should_panic]`. -/
example : panics fun c => CVB.withCapacity c Alloc.exact 8 5 (2 ^ 64 - 1) := by decide +kernel

/-- `reserve_overflow`, `#[should_panic]`. -/
example : panics fun c => CVB.reserve c Alloc.exact (⟨VB.new, 0, 0⟩ : CVB 8) 5 (2 ^ 64 - 1) := by decide +kernel

end Succinct.Tests
