import Verif.Model.VectorBase
/-! Rank support: words, `JacobsonRank`, `Rank9` (src/rank/*.rs). -/
namespace Succinct

/-- `RankSupport<Over = bool>` together with `BitRankSupport`, rank/traits.rs:6-41. -/
structure RankOps (S : Type) where
  rank : S → Nat → Bool → Res Nat
  limit : S → Res Nat
  rank1 : S → Nat → Res Nat
  rank0 : S → Nat → Res Nat

/-- `BitRankSupport::rank0`, rank/traits.rs:38-40. -/
def dfltRank0 (c : Cfg) (rank1 : S → Nat → Res Nat) (s : S) (position : Nat) : Res Nat := do
  let p ← addN c 64 position 1
  let r ← rank1 s position
  subN c 64 p r

/-- The `rank` of every implementation in the crate (rank/prim.rs:11-13, rank/jacobson.rs:89-91,
rank/rank9.rs:155-157, broadword.rs:40-42), given its `rank1`; `rank0` is the trait's default. -/
def rankOps (c : Cfg) (limit : S → Res Nat) (rank1 : S → Nat → Res Nat) : RankOps S where
  rank s p v := if v then rank1 s p else dfltRank0 c rank1 s p
  limit := limit
  rank1 := rank1
  rank0 := dfltRank0 c rank1

/-! ### Words -/

/-- `rank1` on a word, rank/prim.rs:21-26. -/
def primRank1 (c : Cfg) (x : BitVec w) (position : Nat) : Res Nat := do
  debugAssert c (position < w)
  let p ← addN c 64 position 1
  let mask ← lowMask c w (asUsize c p)
  .ok (countOnes (x &&& mask))

/-- `impl RankSupport, BitRankSupport for u8/u16/u32/u64/usize`, rank/prim.rs:4-35. -/
def primRank (c : Cfg) (w : Nat) : RankOps (BitVec w) := rankOps c (fun _ => .ok w) (primRank1 c)

/-! ### Jacobson -/

/-- `struct JacobsonRank`, rank/jacobson.rs:14-19. -/
structure Jacobson (S : Type) where
  bitStore : S
  largeBlockSize : Nat
  largeBlockRanks : IV 64
  smallBlockRanks : IV 64

namespace Jacobson
variable {w : Nat} {S : Type} (c : Cfg)

/-- The mutable variables of the loop in `JacobsonRank::new`. -/
structure Loop where
  large : IV 64
  small : IV 64
  current : Nat
  last : Nat
  index : Nat

/-- The body of the loop, rank/jacobson.rs:47-60. -/
def step (o : BitVecOps w S) (bits : S) (smallPerLarge i : Nat) (l : Loop) : Res Loop := do
  let l ← (if l.index = 0 then do
      let large ← l.large.push c (BitVec.ofNat 64 l.current)
      .ok { l with large := large, last := l.current }
    else .ok l)
  let excess ← subN c 64 l.current l.last
  let small ← l.small.push c (BitVec.ofNat 64 excess)
  let b ← o.getBlock bits i
  let current ← addN c 64 l.current (countOnes b)
  let index ← addN c c.usz l.index 1
  .ok { large := l.large, small := small, current := current, last := l.last,
        index := if index = smallPerLarge then 0 else index }

/-- `JacobsonRank::new`, rank/jacobson.rs:23-73. `n`, the ranks and the counts are `u64`, the block sizes
`usize`. -/
def new (o : BitVecOps w S) (bits : S) : Res (Jacobson S) := do
  let n ← o.bitLen bits
  let lg ← ceilLg c (BitVec.ofNat 64 n)
  let lg2 ← mulN c c.usz lg lg
  let smallPerLarge ← ceilDiv c c.usz lg2 w
  let largeBlockSize ← mulN c c.usz w smallPerLarge
  let q ← divN n largeBlockSize
  let largeCount ← addN c 64 q 1
  let q ← divN n w
  let smallCount ← addN c 64 q 1
  let n1 ← addN c 64 n 1
  let largeMeta ← ceilLg c (BitVec.ofNat 64 n1)
  let l1 ← addN c c.usz largeBlockSize 1
  let smallMeta ← ceilLg c (BitVec.ofNat c.usz l1)
  let large ← IV.withCapacity c 64 largeMeta largeCount
  let small ← IV.withCapacity c 64 smallMeta smallCount
  let m ← o.blockLen bits
  let l ← forRange 0 m (Loop.mk large small 0 0 0) (step c o bits smallPerLarge)
  let large ← l.large.push c (BitVec.ofNat 64 l.current)
  let excess ← subN c 64 l.current l.last
  let small ← l.small.push c (BitVec.ofNat 64 excess)
  .ok ⟨bits, largeBlockSize, large, small⟩

/-- `inner` and `into_inner`, rank/jacobson.rs:76-83. -/
def inner (s : Jacobson S) : S := s.bitStore

/-- `rank1`, rank/jacobson.rs:99-112. -/
def rank1 (o : BitVecOps w S) (s : Jacobson S) (position : Nat) : Res Nat := do
  let n ← o.bitLen s.bitStore
  assertR (position < n)
  let largeBlock ← divN position s.largeBlockSize
  let a ← Address.new c w position
  let largeRank ← s.largeBlockRanks.get c largeBlock
  let smallRank ← s.smallBlockRanks.get c a.blockIndex
  let b ← o.getBlock s.bitStore a.blockIndex
  let bitsRank ← primRank1 c b a.bitOffset
  let r ← addN c 64 largeRank.toNat smallRank.toNat
  addN c 64 r bitsRank

/-- `impl RankSupport, BitRankSupport for JacobsonRank`, rank/jacobson.rs:86-113. -/
def ops (o : BitVecOps w S) : RankOps (Jacobson S) :=
  rankOps c (fun s => o.bitLen s.bitStore) (rank1 c o)

end Jacobson

/-- `impl_bit_vec_adapter!`, macros.rs:34-57: every method of `BitVec` is forwarded to a field. -/
def adaptBitVec (field : T → S) (o : BitVecOps w S) : BitVecOps w T where
  bitLen s := o.bitLen (field s)
  blockLen s := o.blockLen (field s)
  getBlock s := o.getBlock (field s)
  getBit s := o.getBit (field s)
  getBits s := o.getBits (field s)

/-- `impl BitVec for JacobsonRank`, rank/jacobson.rs:115-117. -/
def Jacobson.bitVec (o : BitVecOps w S) : BitVecOps w (Jacobson S) := adaptBitVec Jacobson.bitStore o

/-! ### Rank9 -/

/-- `struct Rank9Cell`, rank/rank9.rs:15-20; `Level2` (22-24) is its `u64`, and
`Level2::new` (rank/rank9.rs:27) is 0. -/
structure Rank9Cell where
  level1 : Nat
  level2 : BitVec 64
deriving DecidableEq, Repr

/-- `struct Rank9`, rank/rank9.rs:9-13. -/
structure Rank9 (S : Type) where
  bitStore : S
  counts : List Rank9Cell

namespace Rank9
variable {S : Type} (c : Cfg)

/-- The shift of field `t` in `Level2::get`/`set`, rank/rank9.rs:33-34, 42-43 (64-bit) and 55-56, 64-65
(32-bit): `t.wrapping_sub(1)`, then `t.wrapping_add(t >> 60 & 8) * 9` (28 instead of 60 on 32-bit). -/
def level2Shift (t : Nat) : Res Nat := do
  let t : BitVec c.usz := BitVec.ofNat c.usz t - 1
  let u := t + ((t >>> (c.usz - 4)) &&& 8)
  mulN c c.usz u.toNat 9

/-- `Level2::get`, rank/rank9.rs:30-36 and 52-58. -/
def level2Get (l : BitVec 64) (t : Nat) : Res (BitVec 64) := do
  debugAssert c (t < 8)
  let shift ← level2Shift c t
  let x ← shrB c l shift
  .ok (x &&& 0x1FF)

/-- `Level2::set`, rank/rank9.rs:39-49 and 61-71. -/
def level2Set (l : BitVec 64) (t : Nat) (value : BitVec 64) : Res (BitVec 64) := do
  debugAssert c (t < 8)
  let shift ← level2Shift c t
  let m ← shlB c (0x1FF : BitVec 64) shift
  let oldPart := l &&& ~~~ m
  let newPart ← shlB c (value &&& 0x1FF) shift
  .ok (oldPart ||| newPart)

/-- The mutable variables of `Rank9::new`. -/
structure Loop where
  result : List Rank9Cell
  level1Count : Nat
  level2Count : Nat

/-- The closure `store_counts`, rank/rank9.rs:85-101. -/
def storeCounts (i : Nat) (l : Loop) : Res Loop := do
  let basicBlockIndex := i / 8
  let wordOffset := i % 8
  if wordOffset = 0 then
    .ok { l with result := l.result ++ [⟨l.level1Count, 0⟩], level2Count := 0 }
  else do
    let cell ← vecGet l.result basicBlockIndex
    let l2 ← level2Set c cell.level2 wordOffset (BitVec.ofNat 64 l.level2Count)
    let result ← vecSet l.result basicBlockIndex { cell with level2 := l2 }
    .ok { l with result := result }

/-- The body of the loop, rank/rank9.rs:103-109. -/
def step (o : BitVecOps 64 S) (bits : S) (i : Nat) (l : Loop) : Res Loop := do
  let l ← storeCounts c i l
  let b ← o.getBlock bits i
  let wordCount := countOnes b
  let l1 ← addN c 64 l.level1Count wordCount
  let l2 ← addN c 64 l.level2Count wordCount
  .ok { l with level1Count := l1, level2Count := l2 }

/-- `Rank9::new`, rank/rank9.rs:76-119. -/
def new (o : BitVecOps 64 S) (bits : S) : Res (Rank9 S) := do
  let m ← o.blockLen bits
  let bbCount ← ceilDiv c c.usz m 8
  let _capacity ← addN c c.usz bbCount 1
  let m ← o.blockLen bits
  let l ← forRange 0 m (Loop.mk [] 0 0) (step c o bits)
  let m ← o.blockLen bits
  let l ← storeCounts c m l
  .ok ⟨bits, l.result⟩

/-- `inner` and `into_inner`, rank/rank9.rs:122-129. -/
def inner (s : Rank9 S) : S := s.bitStore

/-- `rank1`, rank/rank9.rs:133-149. -/
def rank1 (o : BitVecOps 64 S) (s : Rank9 S) (position : Nat) : Res Nat := do
  let bbIndex ← expectR (toUsize c (position / 512))
  let wordIndex ← expectR (toUsize c (position / 64))
  let wordOffset := wordIndex % 8
  let bitOffset := position % 64
  let cell ← vecGet s.counts bbIndex
  let wordPortion ← level2Get c cell.level2 wordOffset
  let b ← o.getBlock s.bitStore wordIndex
  let bitPortion ← primRank1 c b bitOffset
  let r ← addN c 64 cell.level1 wordPortion.toNat
  addN c 64 r bitPortion

/-- `impl RankSupport, BitRankSupport for Rank9`, rank/rank9.rs:132-162. -/
def ops (o : BitVecOps 64 S) : RankOps (Rank9 S) :=
  rankOps c (fun s => o.bitLen s.bitStore) (rank1 c o)

end Rank9

/-- `impl BitVec for Rank9`, rank/rank9.rs:164-166. -/
def Rank9.bitVec (o : BitVecOps 64 S) : BitVecOps 64 (Rank9 S) := adaptBitVec Rank9.bitStore o

end Succinct
