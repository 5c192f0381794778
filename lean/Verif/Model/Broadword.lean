import Verif.Model.Select
/-! Broadword operations (src/broadword.rs). Shifts by literals below 64 cannot overflow and are written as
plain shifts; `+`, `-` are checked. -/
namespace Succinct

/-- `L8`, broadword.rs:54. -/
def bwL8 : BitVec 64 := 0x0101010101010101
/-- `H8`, broadword.rs:57. -/
def bwH8 : BitVec 64 := 0x8080808080808080

/-- `count_ones`, broadword.rs:62-67. -/
def bwCountOnes (c : Cfg) (x : BitVec 64) : Res Nat := do
  let x ← subB c x ((x &&& 0xAAAAAAAAAAAAAAAA) >>> 1)
  let x ← addB c (x &&& 0x3333333333333333) ((x >>> 2) &&& 0x3333333333333333)
  let y ← addB c x (x >>> 4)
  let x := y &&& 0x0F0F0F0F0F0F0F0F
  .ok (asUsize c ((x * bwL8) >>> 56).toNat)

/-- `u_le8`, broadword.rs:94-96. -/
def uLe8 (c : Cfg) (x y : BitVec 64) : Res (BitVec 64) := do
  let d ← subB c (y ||| bwH8) (x &&& ~~~ bwH8)
  .ok (((d ||| (x ^^^ y)) ^^^ (x &&& ~~~ y)) &&& bwH8)

/-- `le8`, broadword.rs:99-101. -/
def le8 (c : Cfg) (x y : BitVec 64) : Res (BitVec 64) := do
  let d ← subB c (y ||| bwH8) (x &&& ~~~ bwH8)
  .ok ((d ^^^ x ^^^ y) &&& bwH8)

/-- `u_nz8`, broadword.rs:104-106. -/
def uNz8 (c : Cfg) (x : BitVec 64) : Res (BitVec 64) := do
  let d ← subB c (x ||| bwH8) bwL8
  .ok ((d ||| x) &&& bwH8)

/-- `x.wrapping_shr(b as u32)` for `u64`. -/
def wrappingShr64 (x b : BitVec 64) : BitVec 64 := x >>> (b.toNat % 2 ^ 32 % 64)

/-- `select1_raw`, broadword.rs:80-91; `r: usize`. -/
def select1Raw (c : Cfg) (r : Nat) (x : BitVec 64) : Res Nat := do
  let r := BitVec.ofNat 64 r
  let s ← subB c x ((x &&& 0xAAAAAAAAAAAAAAAA) >>> 1)
  let s ← addB c (s &&& 0x3333333333333333) ((s >>> 2) &&& 0x3333333333333333)
  let t ← addB c s (s >>> 4)
  let s := (t &&& 0x0F0F0F0F0F0F0F0F) * bwL8
  let m ← le8 c s (r * bwL8)
  let b := ((m >>> 7) * bwL8) >>> 53
  let l ← subB c r (wrappingShr64 (s <<< 8) b &&& 0xFF)
  let nz ← uNz8 c (((wrappingShr64 x b &&& 0xFF) * bwL8) &&& 0x8040201008040201)
  let s := (nz >>> 7) * bwL8
  let m ← le8 c s (l * bwL8)
  let p ← addB c b (((m >>> 7) * bwL8) >>> 56)
  .ok (asUsize c p.toNat)

/-- `select1`, broadword.rs:72-75. -/
def bwSelect1 (c : Cfg) (r : Nat) (x : BitVec 64) : Res (Option Nat) := do
  let result ← select1Raw c r x
  .ok (if result = 72 then none else some result)

/-- `Broadword::rank1`, broadword.rs:31-34. -/
def bwRank1 (c : Cfg) (x : BitVec 64) (position : Nat) : Res Nat := do
  debugAssert c (position < 64)
  let k ← addN c c.usz (asUsize c position) 1
  let mask ← lowMask c 64 k
  bwCountOnes c (x &&& mask)

/-- `impl BitRankSupport, RankSupport for Broadword`, broadword.rs:30-45. -/
def bwRank (c : Cfg) : RankOps (BitVec 64) := rankOps c (fun _ => .ok 64) (bwRank1 c)

/-- `impl Select1Support for Broadword`, broadword.rs:47-51. -/
def bwSelectSupport (c : Cfg) (x : BitVec 64) (index : Nat) : Res (Option Nat) := bwSelect1 c (asUsize c index) x

end Succinct
