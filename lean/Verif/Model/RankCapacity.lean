import Verif.Model.SpaceUsage
/-!
# The constructors of the rank structures, with capacities

`Rank9::new` and `JacobsonRank::new` of `Verif/Model/Rank.lean` again, with the capacities of the directories and a count
(not in the code) of how often each has been reallocated to grow. As in `Verif/Model/Capacity.lean`, `Vec`'s choices are
an `Alloc`. Forgetting the capacities gives the model without them (`rank9_newC_sim`, `jacobson_newC_sim` in Verif/Lemmas/RankCapacity.lean).
-/
namespace Succinct

/-- A `Vec` with its capacity and the number of reallocations so far. -/
structure GVec (α : Type) where
  elems : List α
  cap : Nat
  moves : Nat
deriving DecidableEq, Repr

/-- `Vec::with_capacity` (std). -/
def GVec.withCapacity (A : Alloc) (n : Nat) : GVec α := ⟨[], A.withCapacity n, 0⟩

/-- `Vec::push` (std): reserves room for one more element if there is none. -/
def GVec.push (A : Alloc) (v : GVec α) (a : α) : GVec α :=
  if 1 ≤ v.cap - v.elems.length then { v with elems := v.elems ++ [a] }
  else ⟨v.elems ++ [a], A.grow v.elems.length v.cap 1, v.moves + 1⟩

namespace Rank9
variable {S : Type} (c : Cfg) (A : Alloc)

/-- The mutable variables of `Rank9::new`. -/
structure CLoop where
  result : GVec Rank9Cell
  level1Count : Nat
  level2Count : Nat

/-- The closure `store_counts`, rank/rank9.rs:85-101. -/
def storeCountsC (i : Nat) (l : CLoop) : Res CLoop := do
  let basicBlockIndex := i / 8
  let wordOffset := i % 8
  if wordOffset = 0 then
    .ok { l with result := l.result.push A ⟨l.level1Count, 0⟩, level2Count := 0 }
  else do
    let cell ← vecGet l.result.elems basicBlockIndex
    let l2 ← level2Set c cell.level2 wordOffset (BitVec.ofNat 64 l.level2Count)
    let result ← vecSet l.result.elems basicBlockIndex { cell with level2 := l2 }
    .ok { l with result := { l.result with elems := result } }

/-- The body of the loop, rank/rank9.rs:103-109. -/
def stepC (o : BitVecOps 64 S) (bits : S) (i : Nat) (l : CLoop) : Res CLoop := do
  let l ← storeCountsC c A i l
  let b ← o.getBlock bits i
  let wordCount := countOnes b
  let l1 ← addN c 64 l.level1Count wordCount
  let l2 ← addN c 64 l.level2Count wordCount
  .ok { l with level1Count := l1, level2Count := l2 }

/-- `Rank9::new`, rank/rank9.rs:76-119: the cells, with their capacity. -/
def newC (o : BitVecOps 64 S) (bits : S) : Res (S × GVec Rank9Cell) := do
  let m ← o.blockLen bits
  let bbCount ← ceilDiv c c.usz m 8
  let capacity ← addN c c.usz bbCount 1
  let m ← o.blockLen bits
  let l ← forRange 0 m (CLoop.mk (.withCapacity A capacity) 0 0) (stepC c A o bits)
  let m ← o.blockLen bits
  let l ← storeCountsC c A m l
  .ok (bits, l.result)

end Rank9

/-- `IntVector::with_capacity`, int_vector.rs:80-83. -/
def SpaceOps.CIV.withCapacity (c : Cfg) (A : Alloc) (w eb capacity : Nat) : Res (SpaceOps.CIV w) := do
  let b ← CVB.withCapacity c A w eb capacity
  let v ← IV.create eb b.base
  .ok ⟨v.elementBits, b⟩

/-- `IntVector::push`, int_vector.rs:164-167: pushes at most one block. -/
def SpaceOps.CIV.push (c : Cfg) (A : Alloc) (s : SpaceOps.CIV w) (value : BitVec w) : Res (SpaceOps.CIV w) := do
  let v ← IV.push c ⟨s.elementBits, s.base.base⟩ value
  .ok ⟨v.elementBits, s.base.change A v.base⟩

namespace Jacobson
variable {w : Nat} {S : Type} (c : Cfg) (A : Alloc)

/-- The mutable variables of the loop in `JacobsonRank::new`. -/
structure CLoop where
  large : SpaceOps.CIV 64
  small : SpaceOps.CIV 64
  current : Nat
  last : Nat
  index : Nat

/-- The body of the loop, rank/jacobson.rs:47-60. -/
def stepC (o : BitVecOps w S) (bits : S) (smallPerLarge i : Nat) (l : CLoop) : Res CLoop := do
  let l ← (if l.index = 0 then do
      let large ← l.large.push c A (BitVec.ofNat 64 l.current)
      .ok { l with large := large, last := l.current }
    else .ok l)
  let excess ← subN c 64 l.current l.last
  let small ← l.small.push c A (BitVec.ofNat 64 excess)
  let b ← o.getBlock bits i
  let current ← addN c 64 l.current (countOnes b)
  let index ← addN c c.usz l.index 1
  .ok { large := l.large, small := small, current := current, last := l.last,
        index := if index = smallPerLarge then 0 else index }

/-- `JacobsonRank::new`, rank/jacobson.rs:23-73: the directories, with their capacities. -/
def newC (o : BitVecOps w S) (bits : S) : Res (Nat × SpaceOps.CJacobson S) := do
  let n ← o.bitLen bits
  let lg ← ceilLg c (BitVec.ofNat 64 n)
  let lg2 ← mulN c c.usz lg lg
  let smallPerLarge ← ceilDiv c c.usz lg2 w
  let largeBlockSize ← mulN c c.usz w smallPerLarge
  let q ← divN n largeBlockSize
  let largeCount ← addN c 64 q 1
  let q ← divN n w
  let smallCount ← addN c 64 q 1
  let n1 ← addN c 64 n 1
  let largeMeta ← ceilLg c (BitVec.ofNat 64 n1)
  let l1 ← addN c c.usz largeBlockSize 1
  let smallMeta ← ceilLg c (BitVec.ofNat c.usz l1)
  let large ← SpaceOps.CIV.withCapacity c A 64 largeMeta largeCount
  let small ← SpaceOps.CIV.withCapacity c A 64 smallMeta smallCount
  let m ← o.blockLen bits
  let l ← forRange 0 m (CLoop.mk large small 0 0 0) (stepC c A o bits smallPerLarge)
  let large ← l.large.push c A (BitVec.ofNat 64 l.current)
  let excess ← subN c 64 l.current l.last
  let small ← l.small.push c A (BitVec.ofNat 64 excess)
  .ok (largeBlockSize, ⟨bits, large, small⟩)

end Jacobson
end Succinct
