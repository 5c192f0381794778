import Verif.Tests.Basic
import Verif.Model.Rank
/-! Tests of storage.rs:370-508 and rank/prim.rs:42-89. -/
namespace Succinct.Tests

def lowMaskTest (c : Cfg) : Res Unit := do
  assertEq (0b00011111 : BitVec 8) (← lowMask c 8 5)
  assertEq (0b0011111111111111 : BitVec 16) (← lowMask c 16 14)
  assertEq (0b1111111111111111 : BitVec 16) (← lowMask c 16 16)
example : passes lowMaskTest := by decide +kernel

def nthMaskTest (c : Cfg) : Res Unit := do
  assertEq (0b10000000 : BitVec 8) (← nthMask c 8 7)
  assertEq (0b01000000 : BitVec 8) (← nthMask c 8 6)
  assertEq (0b00100000 : BitVec 8) (← nthMask c 8 5)
  assertEq (0b00000010 : BitVec 8) (← nthMask c 8 1)
  assertEq (0b00000001 : BitVec 8) (← nthMask c 8 0)
example : passes nthMaskTest := by decide +kernel

def getBitsTest (c : Cfg) : Res Unit := do
  let x : BitVec 16 := 0b0100110001110000
  assertEq 0b0 (← blkGetBits c x 0 0)
  assertEq 0b010 (← blkGetBits c x 13 3)
  assertEq 0b110001 (← blkGetBits c x 6 6)
  assertEq 0b10000 (← blkGetBits c x 0 5)
  assertEq 0b0100110001110000 (← blkGetBits c x 0 16)
example : passes getBitsTest := by decide +kernel

def withBitsTest (c : Cfg) : Res Unit := do
  let x : BitVec 16 := 0b0110001111000001
  assertEq 0b0111111111000001 (← blkWithBits c x 10 3 0b111)
  assertEq 0b0101110111000001 (← blkWithBits c x 9 5 0b01110)
  assertEq 0b0110001111000001 (← blkWithBits c x 14 0 0b01110)
  assertEq 0b0110001110101010 (← blkWithBits c x 0 8 0b10101010)
  assertEq 0b0000000000000010 (← blkWithBits c x 0 16 0b10)
example : passes withBitsTest := by decide +kernel

def getBitTest (c : Cfg) : Res Unit := do
  let x : BitVec 8 := 0b00000000
  let y : BitVec 8 := 0b10101010
  assertEq false (← blkGetBit c x 0)
  assertEq false (← blkGetBit c x 1)
  assertEq false (← blkGetBit c x 2)
  assertEq false (← blkGetBit c x 3)
  assertEq false (← blkGetBit c x 7)
  assertEq false (← blkGetBit c y 0)
  assertEq true (← blkGetBit c y 1)
  assertEq false (← blkGetBit c y 2)
  assertEq true (← blkGetBit c y 3)
  assertEq true (← blkGetBit c y 7)
example : passes getBitTest := by decide +kernel

def withBitTest (c : Cfg) : Res Unit := do
  let x : BitVec 8 := 0b00000000
  let y : BitVec 8 := 0b10101010
  assertEq 0b00100000 (← blkWithBit c x 5 true)
  assertEq 0b00000000 (← blkWithBit c x 5 false)
  assertEq 0b10101010 (← blkWithBit c y 7 true)
  assertEq 0b00101010 (← blkWithBit c y 7 false)
  assertEq 0b10101011 (← blkWithBit c y 0 true)
  assertEq 0b10101010 (← blkWithBit c y 0 false)
example : passes withBitTest := by decide +kernel

/-- The fixed cases; the quickcheck property is `C102_floor_lg`. -/
def floorLgTest (c : Cfg) : Res Unit := do
  assertEq 0 (← floorLg c (1 : BitVec 32))
  assertEq 1 (← floorLg c (2 : BitVec 32))
  assertEq 1 (← floorLg c (3 : BitVec 32))
  assertEq 2 (← floorLg c (4 : BitVec 32))
  assertEq 2 (← floorLg c (5 : BitVec 32))
  assertEq 2 (← floorLg c (7 : BitVec 32))
  assertEq 3 (← floorLg c (8 : BitVec 32))
example : passes floorLgTest := by decide +kernel

/-- The fixed cases; the quickcheck property is `C102_ceil_lg`. -/
def ceilLgTest (c : Cfg) : Res Unit := do
  assertEq 0 (← ceilLg c (1 : BitVec 32))
  assertEq 1 (← ceilLg c (2 : BitVec 32))
  assertEq 2 (← ceilLg c (3 : BitVec 32))
  assertEq 2 (← ceilLg c (4 : BitVec 32))
  assertEq 3 (← ceilLg c (5 : BitVec 32))
  assertEq 3 (← ceilLg c (7 : BitVec 32))
  assertEq 3 (← ceilLg c (8 : BitVec 32))
  assertEq 4 (← ceilLg c (9 : BitVec 32))
example : passes ceilLgTest := by decide +kernel

/-- The fixed cases; the quickcheck property is `C102_ceil_div`. -/
def ceilDivTest (c : Cfg) : Res Unit := do
  assertEq 6 (← ceilDiv c 32 12 2)
  assertEq 4 (← ceilDiv c 32 12 3)
  assertEq 3 (← ceilDiv c 32 12 4)
  assertEq 3 (← ceilDiv c 32 12 5)
  assertEq 2 (← ceilDiv c 32 12 6)
  assertEq 2 (← ceilDiv c 32 12 7)
  assertEq 2 (← ceilDiv c 32 12 11)
  assertEq 1 (← ceilDiv c 32 12 12)
example : passes ceilDivTest := by decide +kernel

def primRank1Test (c : Cfg) : Res Unit := do
  let r := (primRank c 8).rank1
  assertEq 0 (← r 0b00000000 0)
  assertEq 0 (← r 0b00000000 7)
  assertEq 1 (← r 0b01010101 0)
  assertEq 1 (← r 0b01010101 1)
  assertEq 2 (← r 0b01010101 2)
  assertEq 2 (← r 0b01010101 3)
  assertEq 3 (← r 0b00001111 2)
  assertEq 4 (← r 0b00001111 3)
  assertEq 4 (← r 0b00001111 4)
  assertEq 4 (← r 0b00001111 5)
  assertEq 4 (← r 0b00001111 7)
  assertEq 0 (← r 0b11110000 0)
  assertEq 0 (← r 0b11110000 3)
  assertEq 1 (← r 0b11110000 4)
  assertEq 2 (← r 0b11110000 5)
  assertEq 4 (← r 0b11110000 7)
example : passes primRank1Test := by decide +kernel

def primRank0Test (c : Cfg) : Res Unit := do
  let r := (primRank c 8).rank0
  assertEq 1 (← r 0b00000000 0)
  assertEq 8 (← r 0b00000000 7)
  assertEq 0 (← r 0b01010101 0)
  assertEq 1 (← r 0b01010101 1)
  assertEq 1 (← r 0b01010101 2)
  assertEq 2 (← r 0b01010101 3)
example : passes primRank0Test := by decide +kernel

def primRankTest (c : Cfg) : Res Unit := do
  let r := (primRank c 8).rank
  assertEq 1 (← r 0b00000000 0 false)
  assertEq 8 (← r 0b00000000 7 false)
  assertEq 0 (← r 0b01010101 0 false)
  assertEq 1 (← r 0b01010101 1 false)
  assertEq 1 (← r 0b01010101 2 false)
  assertEq 2 (← r 0b01010101 3 false)
  assertEq 0 (← r 0b00000000 0 true)
  assertEq 0 (← r 0b00000000 7 true)
  assertEq 1 (← r 0b01010101 0 true)
  assertEq 1 (← r 0b01010101 1 true)
  assertEq 2 (← r 0b01010101 2 true)
  assertEq 2 (← r 0b01010101 3 true)
example : passes primRankTest := by decide +kernel

end Succinct.Tests
