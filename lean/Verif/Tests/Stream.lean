import Verif.Tests.Basic
import Verif.Model.Coding
/-! Tests of stream/traits.rs:111-242, stream/bit_buffer.rs:137-178 and of the modules of coding/. The quickcheck
properties are proved for all inputs in `Verif/Props/Tests.lean`. -/
namespace Succinct.Tests

/-- `read_bit`, traits.rs:117-127. -/
def readBitTest (_ : Cfg) : Res Unit := do
  let mut vd := [true, true, false]
  for e in [some true, some true, some false, none] do
    let (x, vd1) ← unwrap (dequeRead.readBit vd)
    vd := vd1
    assertEq e x
example : passes readBitTest := by decide +kernel

/-- Writes the bits to a `VecDeque`. -/
def writeBits (vd : List Bool) (bits : List Bool) : Res (List Bool) := do
  let mut vd := vd
  for b in bits do
    let (_, vd1) ← unwrap (dequeWrite.writeBit b vd)
    vd := vd1
  .ok vd

/-- `write_bit`, traits.rs:129-141; `pop_front` is the same as reading. -/
def writeBitTest (_ : Cfg) : Res Unit := do
  let mut vd ← writeBits [] [false, true, true]
  for e in [some false, some true, some true, none] do
    assertEq e vd.head?
    vd := vd.tail
example : passes writeBitTest := by decide +kernel

/-- `read_int`, traits.rs:143-171, and `read_int_be`, 173-201: write some bits, read that many, with the expected
value. -/
def readIntTest (read : Cfg → Nat → SM (List Bool) (Option (BitVec 32))) (cases : List (List Bool × BitVec 32)) (c : Cfg) :
    Res Unit := do
  let mut vd := []
  for (bits, e) in cases do
    vd ← writeBits vd bits
    let (x, vd1) ← unwrap (read c bits.length vd)
    vd := vd1
    assertEq (some e) x
example : passes (readIntTest (fun c n => readInt c dequeRead 32 n)
  [([false], 0), ([true], 1), ([true, false], 1), ([false, true], 2), ([true, true], 3),
    ([true, true, false, false], 3)]) := by decide +kernel
example : passes (readIntTest (fun c n => readIntBe c dequeRead 32 n)
  [([false], 0), ([true], 1), ([true, false], 2), ([false, true], 1), ([true, true], 3),
    ([true, true, false, false], 12)]) := by decide +kernel

/-- `write_int`, traits.rs:203-221, and `write_int_be`, 223-241; the literals are `i32`. -/
def writeIntTest (write : Cfg → Nat → BitVec 32 → SM (List Bool) Unit)
    (read : Cfg → Nat → SM (List Bool) (Option (BitVec 32))) (c : Cfg) : Res Unit := do
  let cases : List (Nat × BitVec 32) := [(5, 6), (5, 7), (5, 2), (4, 3), (4, 1), (4, 0), (4, 6)]
  let mut vd := []
  for (n, x) in cases do
    let (_, vd1) ← unwrap (write c n x vd)
    vd := vd1
  for (n, x) in cases do
    let (y, vd1) ← unwrap (read c n vd)
    vd := vd1
    assertEq (some x) y
example : passes (writeIntTest (fun c n x => writeInt c true dequeWrite n x) fun c n => readInt c dequeRead 32 n) := by
  decide +kernel
example : passes (writeIntTest (fun c n x => writeIntBe c true dequeWrite n x) fun c n => readIntBe c dequeRead 32 n) := by
  decide +kernel

/-- `reader`, bit_buffer.rs:142-159. -/
def readerTest (c : Cfg) : Res Unit := do
  let o := bvBitVecPush c c.usz
  let mut vec : VB c.usz := VB.new
  for b in [false, true, false, false, true] do
    vec ← o.pushBit vec b
  let mut reader := BitBuf.from_ vec
  for e in [some false, some true, some false, some false, some true, none] do
    let (x, r) ← unwrap ((BitBuf.read c (bvBitVec c c.usz)).readBit reader)
    reader := r
    assertEq e x
example : passes readerTest := by decide +kernel

/-- `writer`, bit_buffer.rs:161-177. -/
def writerTest (c : Cfg) : Res Unit := do
  let o := bvBitVecPush c c.usz
  let mut writer ← BitBuf.new c c.usz
  for b in [true, false, false, true, true] do
    let (_, r) ← unwrap ((BitBuf.write c o).writeBit b writer)
    writer := r
  let mut vec := writer.inner
  for e in [some true, some true, some false, some false, some true, none] do
    let (x, v) ← o.popBit vec
    vec := v
    assertEq e x
#guard passes writerTest

/-- The tests of the codes: encode the numbers, decode them, and then find the end of the stream (`test234` in
unary.rs, `gamma`, `delta`, `omega` in elias.rs, `enc234` in fib.rs and comma.rs). -/
def codeTest (K : Cfg → Code) (xs : List Nat) (c : Cfg) : Res Unit := do
  let mut dv := []
  for x in xs do
    let (_, d) ← unwrap ((K c).encode dequeWrite x dv)
    dv := d
  for x in xs do
    let (y, d) ← unwrap ((K c).decode dequeRead dv)
    dv := d
    assertEq (some x) y
  let (y, _) ← unwrap ((K c).decode dequeRead dv)
  assertEq none y

#guard passes (codeTest unary [2, 3, 4])
#guard passes (codeTest gamma [2, 3, 4])
#guard passes (codeTest delta [2, 3, 38932, 4])
#guard passes (codeTest omegaCode [2, 3, 38932, 4])
#guard passes (codeTest fibonacci [2, 3, 4])
#guard passes (codeTest (fun c => comma c 2) [2, 3, 4])

end Succinct.Tests
