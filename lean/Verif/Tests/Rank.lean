import Verif.Tests.Basic
import Verif.Model.SpaceUsage
/-! Tests of rank/jacobson.rs:130-173, rank/rank9.rs:179-258, select/bin_search.rs:80-142 and
space_usage.rs:154-206. -/
namespace Succinct.Tests

def sample32 : BitVec 32 := 0b00000000000001110000000000000001

/-- `rank1`, jacobson.rs:135-156. -/
def jacobsonRank1Test (c : Cfg) : Res Unit := do
  let o := vecBitVec c 32
  let r ← Jacobson.new c o (List.replicate 1024 sample32)
  for (e, i) in [(1, 0), (1, 1), (1, 2), (1, 7), (2, 16), (3, 17), (4, 18), (4, 19), (4, 20), (16, 4 * 32 - 1),
      (17, 4 * 32), (2048, 512 * 32 - 1), (2049, 512 * 32), (4096, 1024 * 32 - 1)] do
    assertEq e (← (Jacobson.ops c o).rank1 r i)
#guard passes jacobsonRank1Test

/-- `rank1`, rank9.rs:221-242. -/
def rank9Rank1Test (c : Cfg) : Res Unit := do
  let o := vecBitVec c 64
  let r ← Rank9.new c o (List.replicate 1024 (sample32.zeroExtend 64))
  for (e, i) in [(1, 0), (1, 1), (1, 2), (1, 7), (2, 16), (3, 17), (4, 18), (4, 19), (4, 20), (16, 4 * 64 - 1),
      (17, 4 * 64), (2048, 512 * 64 - 1), (2049, 512 * 64), (4096, 1024 * 64 - 1)] do
    assertEq e (← (Rank9.ops c o).rank1 r i)
#guard passes rank9Rank1Test

/-- `select1`, `select2`, `select3`, bin_search.rs:85-141: 1024 copies of a word, with the expected ranks and
positions. -/
def selectTest (x : BitVec 32) (ranks : List (Nat × Nat)) (selects : List (Option Nat × Nat)) (c : Cfg) : Res Unit := do
  let o := vecBitVec c 32
  let r ← Jacobson.new c o (List.replicate 1024 x)
  let s := BinSearchSelect.new r
  for (e, i) in ranks do
    assertEq e (← (BinSearchSelect.rankOps (Jacobson.ops c o)).rank1 s i)
  for (e, i) in selects do
    assertEq e (← BinSearchSelect.select1 c (Jacobson.ops c o) s i)

#guard passes (selectTest sample32
  [(1, 0), (1, 1), (1, 2), (1, 15), (2, 16), (3, 17), (4, 18), (4, 19), (4, 20), (5, 32)]
  [(some 0, 0), (some 16, 1), (some 17, 2), (some 18, 3), (some 32, 4), (some 3200, 400), (some 3216, 401),
    (some (8 * 4092), 4092), (some (8 * 4092 + 16), 4093), (some (8 * 4092 + 17), 4094),
    (some (8 * 4092 + 18), 4095), (none, 4096)])
#guard passes (selectTest 0b10101010101010101010101010101010 []
  [(some 1, 0), (some 3, 1), (some 5, 2), (some 7, 3), (some 919, 459)])
#guard passes (selectTest 0b11111111111111111111111111111111 []
  [(some 0, 0), (some 1, 1), (some 2, 2), (some 32767, 32767), (none, 32768)])

/-! `space`, jacobson.rs:160-172 and rank9.rs:215-226; sizes of a 64-bit target: `Vec` 24, `&[u32]` 16,
`VectorBase` and `BitVector` 32, `IntVector` 40. The directories' vectors have the capacity they were created with,
and are not reallocated. The quotient of bytes is compared as a fraction. -/

def blockTy (w : Nat) : SpaceOps.Ty := ⟨BitVec w, SpaceOps.block w⟩

/-- A vector with no spare capacity. -/
def full (l : List α) : CVec α := ⟨l, l.length⟩

/-- rank9.rs:215-226. -/
def rank9SpaceTest (c : Cfg) : Res Unit := do
  for i in List.range 50 do
    let vec : List (BitVec 64) := List.replicate (1000 + i) 0
    let S := SpaceOps.vec c 24 (SpaceOps.block 64)
    let vecBytes ← SpaceOps.totalBytes c S (full vec)
    let r ← Rank9.new c (vecBitVec c 64) vec
    let t ← SpaceOps.totalBytes c (SpaceOps.rank9 c 24 48 S) ⟨full vec, full r.counts⟩
    assertR (t * 10 < vecBytes * 13)
#guard passes rank9SpaceTest

/-- jacobson.rs:160-172; the store is a reference. -/
def jacobsonSpaceTest (c : Cfg) : Res Unit := do
  for i in List.range 50 do
    let vec : List (BitVec 32) := List.replicate (1000 + i) 0b10000000000000001110000000000000
    let vecBytes ← SpaceOps.totalBytes c (SpaceOps.vec c 24 (SpaceOps.block 32)) (full vec)
    let r ← Jacobson.new c (vecBitVec c 32) vec
    let iv := fun (v : IV 64) => SpaceOps.CIV.mk v.elementBits (⟨v.base, v.base.vec.length, 0⟩ : CVB 64)
    let t ← SpaceOps.totalBytes c (SpaceOps.jacobson c 24 32 40 112 (SpaceOps.stackOnly _ 16))
      ⟨vec, iv r.largeBlockRanks, iv r.smallBlockRanks⟩
    assertR (t * 10 < vecBytes * 15)
#guard passes jacobsonSpaceTest

/-- `is_stack_only`, space_usage.rs:159-167. -/
def isStackOnlyTest (c : Cfg) : Res Unit := do
  assertEq true (SpaceOps.block 32).isStackOnly
  assertEq true (SpaceOps.block c.usz).isStackOnly
  assertEq false (SpaceOps.vec c 24 (SpaceOps.block 64)).isStackOnly
  assertEq false (SpaceOps.vec c 24 (SpaceOps.vec c 24 (SpaceOps.block 64))).isStackOnly
  assertEq true (SpaceOps.tupleIsStackOnly [blockTy 32, blockTy 32, blockTy 32])
  assertEq false (SpaceOps.tupleIsStackOnly [blockTy 32, ⟨_, SpaceOps.vec c 24 (SpaceOps.block 32)⟩, blockTy 32])
example : passes isStackOnlyTest := by decide +kernel

/-- `int_size`, space_usage.rs:169-174. -/
def intSizeTest (c : Cfg) : Res Unit := do
  assertEq 2 (← SpaceOps.totalBytes c (SpaceOps.block 16) 0)
  assertEq 4 (← SpaceOps.totalBytes c (SpaceOps.block 32) 0)
  assertEq 8 (← SpaceOps.totalBytes c (SpaceOps.block 64) 0)
example : passes intSizeTest := by decide +kernel

/-- `vec_size`, space_usage.rs:183-190. -/
def vecSizeTest (c : Cfg) : Res Unit := do
  let v : CVec (BitVec 64) := ⟨[], 8⟩
  let S := SpaceOps.vec c 24 (SpaceOps.block 64)
  assertEq 64 (← S.heapBytes v)
  assertEq (64 + 24) (← SpaceOps.totalBytes c S v)
example : passes vecSizeTest := by decide +kernel

/-- `vec_vec_size`, space_usage.rs:192-201. -/
def vecVecSizeTest (c : Cfg) : Res Unit := do
  let v : CVec (BitVec 64) := ⟨[], 8⟩
  let S := SpaceOps.vec c 24 (SpaceOps.vec c 24 (SpaceOps.block 64))
  assertEq (128 + 2 * 24 + 24) (← SpaceOps.totalBytes c S ⟨[v, v], 2⟩)
example : passes vecVecSizeTest := by decide +kernel

/-- `level2`, rank/rank9.rs:179-215. -/
def level2Test (c : Cfg) : Res Unit := do
  let check (l : BitVec 64) (es : List (BitVec 64)) : Res Unit :=
    forRange 0 8 () fun i _ => do assertEq es[i]? (some (← Rank9.level2Get c l i))
  let l2 : BitVec 64 := 0b0110010000000000000000000001000001110000001000100000000000000101
  check l2 [0, 5, 256, 8, 14, 1, 0, 400]
  let l2 ← Rank9.level2Set c l2 3 45
  check l2 [0, 5, 256, 45, 14, 1, 0, 400]
  let l2 ← Rank9.level2Set c l2 7 511
  check l2 [0, 5, 256, 45, 14, 1, 0, 511]
example : passes level2Test := by decide +kernel

end Succinct.Tests
