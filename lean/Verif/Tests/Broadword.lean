import Verif.Tests.Basic
import Verif.Model.Broadword
/-! Tests of broadword.rs:109-405 and internal/search.rs:46-156. The quickcheck properties are proved for all inputs
in `Verif/Props/Tests.lean`. -/
namespace Succinct.Tests

/-- `count_ones_0` … `count_ones_ffff_ffff_ffff_ffff`, broadword.rs:118-141. -/
def countOnesTest (c : Cfg) : Res Unit := do
  assertEq 0 (← bwCountOnes c 0)
  assertEq 1 (← bwCountOnes c 1)
  assertEq 1 (← bwCountOnes c 0x0000000000000010)
  assertEq 1 (← bwCountOnes c 0x1000000000000000)
  assertEq 64 (← bwCountOnes c 0xFFFFFFFFFFFFFFFF)
example : passes countOnesTest := by decide +kernel

/-- `select1_0_0` … `select1_3_13`, broadword.rs:161-194. -/
def select1Test (c : Cfg) : Res Unit := do
  assertEq none (← bwSelect1 c 0 0)
  assertEq (some 0) (← bwSelect1 c 0 1)
  assertEq (some 1) (← bwSelect1 c 0 2)
  assertEq (some 0) (← bwSelect1 c 0 3)
  assertEq none (← bwSelect1 c 1 2)
  assertEq (some 1) (← bwSelect1 c 1 3)
  assertEq none (← bwSelect1 c 3 0b1101)
example : passes select1Test := by decide +kernel

/-- The helpers `u` and `i`, broadword.rs:383-398: eight bytes, the first the most significant; negative numbers
in two's complement. -/
def bytes (l : List Int) : BitVec 64 := l.foldl (fun acc x => acc <<< 8 ||| (BitVec.ofInt 8 x).zeroExtend 64) 0
/-- The helper `b`, broadword.rs:377-381: the top bit of each byte. -/
def tops (l : List Int) : BitVec 64 := bytes (l.map (128 * ·))

/-- `u_nz8_works`, broadword.rs:238-251. -/
def uNz8Test (c : Cfg) : Res Unit := do
  assertEq (tops [0, 0, 0, 0, 0, 0, 0, 0]) (← uNz8 c (bytes [0, 0, 0, 0, 0, 0, 0, 0]))
  assertEq (tops [1, 1, 0, 1, 0, 1, 1, 1]) (← uNz8 c (bytes [45, 12, 0, 129, 0, 3, 80, 1]))
  assertEq (tops [1, 1, 1, 1, 1, 1, 1, 1]) (← uNz8 c (bytes [1, 2, 3, 4, 5, 6, 7, 8]))
  assertEq (tops [1, 1, 1, 1, 0, 1, 1, 1]) (← uNz8 c 0xFFFFFFFF00FFFFFF)
example : passes uNz8Test := by decide +kernel

/-- `le8_works`, broadword.rs:331-352. All of its bytes are compared correctly, also those of different sign;
see `C49_different_signs` for when that is so. -/
def le8Test (c : Cfg) : Res Unit := do
  assertEq (tops [1, 1, 1, 1, 0, 0, 0, 0])
    (← le8 c (bytes [0, 0, 0, 0, 0, 0, 0, 0]) (bytes [3, 2, 1, 0, -1, -2, -3, -4]))
  assertEq (tops [0, 0, 0, 1, 1, 1, 1, 1])
    (← le8 c (bytes [3, 2, 1, 0, -1, -2, -3, -4]) (bytes [0, 0, 0, 0, 0, 0, 0, 0]))
  assertEq (tops [0, 0, 1, 1, 1, 1, 1, 1])
    (← le8 c (bytes [19, 18, 17, 16, 15, 0, -1, -2]) (bytes [17, 17, 17, 17, 17, 17, 17, 17]))
  assertEq (tops [1, 1, 0, 0, 0, 0, 0, 0])
    (← le8 c (bytes [-9, -8, -7, 0, 1, 2, 3, 4]) (bytes [-8, -8, -8, -8, -8, -8, -8, -8]))
  assertEq (tops [0, 1, 0, 1, 1, 0, 1, 0])
    (← le8 c (bytes [8, 3, 46, 0, 0, 0, -6, -1]) (bytes [7, 3, 24, 1, 0, -9, 5, -2]))
example : passes le8Test := by decide +kernel

/-- `u_le8_works`, broadword.rs:354-371. -/
def uLe8Test (c : Cfg) : Res Unit := do
  assertEq (tops [1, 1, 1, 1, 1, 1, 1, 1])
    (← uLe8 c (bytes [0, 0, 0, 0, 0, 0, 0, 0]) (bytes [7, 6, 5, 4, 3, 2, 1, 0]))
  assertEq (tops [1, 0, 0, 0, 0, 0, 0, 0])
    (← uLe8 c (bytes [0, 1, 2, 3, 4, 5, 6, 7]) (bytes [0, 0, 0, 0, 0, 0, 0, 0]))
  assertEq (tops [0, 0, 1, 1, 1, 1, 1, 1])
    (← uLe8 c (bytes [19, 18, 17, 16, 15, 14, 13, 12]) (bytes [17, 17, 17, 17, 17, 17, 17, 17]))
  assertEq (tops [0, 1, 0, 1, 1, 0, 1, 0])
    (← uLe8 c (bytes [8, 3, 46, 0, 0, 9, 3, 2]) (bytes [7, 3, 24, 1, 0, 0, 5, 1]))
example : passes uLe8Test := by decide +kernel

/-- `avg_2_4` … `avg_big`, search.rs:50-78. -/
def averageTest (c : Cfg) : Res Unit := do
  assertEq 3 (← average c c.usz 2 4)
  assertEq 3 (← average c c.usz 2 5)
  assertEq 3 (← average c c.usz 3 4)
  assertEq 4 (← average c c.usz 3 5)
  let big := 2 ^ c.usz - 1
  assertEq (big - 1) (← average c c.usz big (big - 1))
  assertEq (big - 1) (← average c c.usz big (big - 2))
  assertEq (big - 1) (← average c c.usz (big - 1) (big - 1))
  assertEq (big - 2) (← average c c.usz (big - 2) (big - 1))
  assertEq (big - 2) (← average c c.usz (big - 2) (big - 2))
  assertEq (big - 2) (← average c c.usz (big - 1) (big - 3))
example : passes averageTest := by decide +kernel

/-- `search_slice`, search.rs:80-83. -/
def searchSlice (c : Cfg) (value : Nat) (l : List Nat) : Res (Option Nat) :=
  binarySearch c c.usz 0 l.length value fun i => match l[i]? with | some x => .ok x | none => .panic

/-- `binary_search_01` and `binary_search_02`, search.rs:87-121: `big` is 1 and 2. -/
def binarySearch0Test (big : Nat) (c : Cfg) : Res Unit := do
  for len in List.range 33 do
    for result in List.range len do
      assertEq (some result) (← searchSlice c 1 (List.replicate result 0 ++ List.replicate (len - result) big))
    assertEq none (← searchSlice c 1 (List.replicate len 0))
#guard passes (binarySearch0Test 1)
#guard passes (binarySearch0Test 2)

/-- `binary_search_iota`, search.rs:123-137. -/
def binarySearchIotaTest (c : Cfg) : Res Unit := do
  for len in List.range 33 do
    for i in List.range len do
      assertEq (some i) (← searchSlice c i (List.range len))
    assertEq none (← searchSlice c len (List.range len))
#guard passes binarySearchIotaTest

end Succinct.Tests
