import Verif.Tests.Basic
import Verif.Model.Broadword
import Verif.Model.Coding
/-! The quickcheck properties of the crate's tests, as functions. `TestResult` is an `Option Bool`: `none` for a
discarded case. The properties are proved (or refuted) for all arguments in `Verif/Props/Tests.lean`. -/
namespace Succinct.Tests

/-- `count_ones_prop`, broadword.rs:143-145. -/
def countOnesProp (c : Cfg) (word : BitVec 64) : Res Bool := do
  let n ← bwCountOnes c word
  .ok (n == countOnes word)

/-- `select1_prop`, broadword.rs:196-203; `r: u8`. -/
def select1Prop (c : Cfg) (r : Nat) (x : BitVec 64) : Res (Option Bool) :=
  if 64 < r then .ok none
  else do
    let a ← bwSelect1 c r x
    let b ← BinSearchSelect.select1 c (primRank c 64) (.new x) r
    .ok (some (a == b))

/-- A `for` loop that returns `false` early. -/
def allR (l : List Nat) (p : Nat → Res Bool) : Res Bool :=
  match l with
  | [] => .ok true
  | i :: l => do if ← p i then allR l p else .ok false

/-- `u_nz8_prop`, broadword.rs:219-231, of the hashed word. -/
def uNz8Prop (c : Cfg) (n : BitVec 64) : Res Bool := do
  let r ← uNz8 c n
  allR (List.range 8) fun i => do
    let ni ← blkGetBits c n (8 * i) 8
    let ri ← blkGetBits c r (8 * i) 8
    .ok (decide (ni ≠ 0) == decide (ri = 0x80))

/-- `u_le8_prop`, broadword.rs:306-318. -/
def uLe8Prop (c : Cfg) (n m : BitVec 64) : Res Bool := do
  let r ← uLe8 c n m
  allR (List.range 8) fun i => do
    let ni ← blkGetBits c n (8 * i) 8
    let mi ← blkGetBits c m (8 * i) 8
    let ri ← blkGetBits c r (8 * i) 8
    .ok (decide (ni ≤ mi) == decide (ri = 0x80))

/-- `2u64.pow(e)`: overflows like a multiplication. -/
def pow2 (c : Cfg) (e : Nat) : Res Nat :=
  if 2 ^ e < 2 ^ 64 then .ok (2 ^ e) else overflow c (2 ^ e % 2 ^ 64)

/-- The property in `floor_lg`, storage.rs:453-459; `&&` does not evaluate its second operand when the first is
false. -/
def floorLgProp (c : Cfg) (n : BitVec 64) : Res (Option Bool) :=
  if n = 0 then .ok none
  else do
    let a ← floorLg c n
    let x ← pow2 c a
    if x ≤ n.toNat then do
      let b ← floorLg c n
      let e ← addN c 32 b 1
      let y ← pow2 c e
      .ok (some (decide (n.toNat < y)))
    else .ok (some false)

/-- The property in `ceil_lg`, storage.rs:475-481. -/
def ceilLgProp (c : Cfg) (n : BitVec 64) : Res (Option Bool) :=
  if n ≤ 1 then .ok none
  else do
    let a ← ceilLg c n
    let x ← pow2 c a
    if n.toNat ≤ x then do
      let b ← ceilLg c n
      let e ← subN c 32 b 1
      let y ← pow2 c e
      .ok (some (decide (y < n.toNat)))
    else .ok (some false)

/-- The property in `ceil_div`, storage.rs:497-503. -/
def ceilDivProp (c : Cfg) (n m : Nat) : Res (Option Bool) := do
  let p ← mulN c 64 n m
  if p = 0 then .ok none
  else do
    let q ← ceilDiv c 64 n m
    let x ← mulN c 64 m q
    if n ≤ x then do
      let q ← ceilDiv c 64 n m
      let q1 ← subN c 64 q 1
      let y ← mulN c 64 m q1
      .ok (some (decide (y < n)))
    else .ok (some false)

/-- The first loop of `code_decode`, coding/mod.rs:33-35. -/
def encodeSucc (c : Cfg) (K : Code) : List Nat → List Bool → Res (List Bool)
  | [], dv => .ok dv
  | i :: vec, dv => do
    let i1 ← addN c 64 i 1
    let (_, dv) ← unwrap (K.encode dequeWrite i1 dv)
    encodeSucc c K vec dv

/-- The second loop of `code_decode`, coding/mod.rs:37-40. -/
def decodePred (c : Cfg) (K : Code) (dv : List Bool) (vec2 : List Nat) : Res (List Nat) := do
  match ← K.decode dequeRead dv with
  | (.ok (some i), dv) => do
    let i1 ← subN c 64 i 1
    decodePred c K dv (vec2 ++ [i1])
  | _ => .ok vec2
partial_fixpoint

/-- `code_decode`, coding/mod.rs:30-43. -/
def codeDecode (c : Cfg) (K : Code) (vec : List Nat) : Res Bool := do
  let dv ← encodeSucc c K vec []
  let vec2 ← decodePred c K dv []
  .ok (vec2 == vec)

end Succinct.Tests
