import Verif.Model.Memory
import Verif.Model.RankCapacity
import Verif.Model.Coding
/-!
# Rank directories, encoders and bit buffers in a memory that may be exhausted

As in `Verif/Model/Memory.lean`, a refused allocation is a `panic` (in Rust: a panic if more than `isize::MAX` bytes are asked for, else
the process is aborted). Modelled again here, with the allocations they make: the constructors of the rank structures (which
`Verif/Model/RankCapacity.lean` has with capacities); the encoders that keep their digits in a `Vec` until they can be written
(`Omega`, `Comma`, `Fibonacci`); and a `BitVector` with its capacity as the vector inside a `BitBuffer`. Decoders do not allocate.
-/
namespace Succinct

/-! ### `Vec` -/

/-- `Vec::with_capacity` (std). -/
def GVec.tryWithCapacity (H : Heap) (n : Nat) : Res (GVec α) := do
  assertR (H.Grants (H.withCapacity n))
  .ok (.withCapacity H.toAlloc n)

/-- `Vec::push` (std). -/
def GVec.tryPush (H : Heap) (v : GVec α) (a : α) : Res (GVec α) :=
  if 1 ≤ v.cap - v.elems.length then .ok { v with elems := v.elems ++ [a] }
  else do
    assertR (H.Grants (H.grow v.elems.length v.cap 1))
    .ok ⟨v.elems ++ [a], H.grow v.elems.length v.cap 1, v.moves + 1⟩

/-- `Vec::new` (std): allocates nothing. -/
def GVec.new : GVec α := ⟨[], 0, 0⟩

/-- The elements of a `Vec` used as a stack, the top first. -/
def GVec.stack (v : GVec α) : List α := v.elems.reverse

/-! ### `Rank9::new` -/

namespace Rank9
variable {S : Type} (c : Cfg) (H : Heap)

/-- The closure `store_counts`, rank/rank9.rs:85-101. -/
def storeCountsH (i : Nat) (l : CLoop) : Res CLoop := do
  let basicBlockIndex := i / 8
  let wordOffset := i % 8
  if wordOffset = 0 then do
    let result ← l.result.tryPush H ⟨l.level1Count, 0⟩
    .ok { l with result := result, level2Count := 0 }
  else do
    let cell ← vecGet l.result.elems basicBlockIndex
    let l2 ← level2Set c cell.level2 wordOffset (BitVec.ofNat 64 l.level2Count)
    let result ← vecSet l.result.elems basicBlockIndex { cell with level2 := l2 }
    .ok { l with result := { l.result with elems := result } }

/-- The body of the loop, rank/rank9.rs:103-109. -/
def stepH (o : BitVecOps 64 S) (bits : S) (i : Nat) (l : CLoop) : Res CLoop := do
  let l ← storeCountsH c H i l
  let b ← o.getBlock bits i
  let wordCount := countOnes b
  let l1 ← addN c 64 l.level1Count wordCount
  let l2 ← addN c 64 l.level2Count wordCount
  .ok { l with level1Count := l1, level2Count := l2 }

/-- `Rank9::new`, rank/rank9.rs:76-119: the cells, with their capacity. -/
def newH (o : BitVecOps 64 S) (bits : S) : Res (S × GVec Rank9Cell) := do
  let m ← o.blockLen bits
  let bbCount ← ceilDiv c c.usz m 8
  let capacity ← addN c c.usz bbCount 1
  let result ← GVec.tryWithCapacity H capacity
  let m ← o.blockLen bits
  let l ← forRange 0 m (CLoop.mk result 0 0) (stepH c H o bits)
  let m ← o.blockLen bits
  let l ← storeCountsH c H m l
  .ok (bits, l.result)

end Rank9

/-! ### `JacobsonRank::new` -/

/-- `IntVector::with_capacity`, int_vector.rs:80-83. -/
def SpaceOps.CIV.tryWithCapacity (c : Cfg) (H : Heap) (w eb capacity : Nat) : Res (SpaceOps.CIV w) := do
  let b ← CVB.tryWithCapacity c H w eb capacity
  let v ← IV.create eb b.base
  .ok ⟨v.elementBits, b⟩

/-- `IntVector::push`, int_vector.rs:164-167: pushes at most one block. -/
def SpaceOps.CIV.tryPush (c : Cfg) (H : Heap) (s : SpaceOps.CIV w) (value : BitVec w) : Res (SpaceOps.CIV w) := do
  let v ← IV.push c ⟨s.elementBits, s.base.base⟩ value
  let b ← s.base.tryChange H v.base
  .ok ⟨v.elementBits, b⟩

namespace Jacobson
variable {w : Nat} {S : Type} (c : Cfg) (H : Heap)

/-- The body of the loop, rank/jacobson.rs:47-60. -/
def stepH (o : BitVecOps w S) (bits : S) (smallPerLarge i : Nat) (l : CLoop) : Res CLoop := do
  let l ← (if l.index = 0 then do
      let large ← l.large.tryPush c H (BitVec.ofNat 64 l.current)
      .ok { l with large := large, last := l.current }
    else .ok l)
  let excess ← subN c 64 l.current l.last
  let small ← l.small.tryPush c H (BitVec.ofNat 64 excess)
  let b ← o.getBlock bits i
  let current ← addN c 64 l.current (countOnes b)
  let index ← addN c c.usz l.index 1
  .ok { large := l.large, small := small, current := current, last := l.last,
        index := if index = smallPerLarge then 0 else index }

/-- `JacobsonRank::new`, rank/jacobson.rs:23-73: the directories, with their capacities. -/
def newH (o : BitVecOps w S) (bits : S) : Res (Nat × SpaceOps.CJacobson S) := do
  let n ← o.bitLen bits
  let lg ← ceilLg c (BitVec.ofNat 64 n)
  let lg2 ← mulN c c.usz lg lg
  let smallPerLarge ← ceilDiv c c.usz lg2 w
  let largeBlockSize ← mulN c c.usz w smallPerLarge
  let q ← divN n largeBlockSize
  let largeCount ← addN c 64 q 1
  let q ← divN n w
  let smallCount ← addN c 64 q 1
  let n1 ← addN c 64 n 1
  let largeMeta ← ceilLg c (BitVec.ofNat 64 n1)
  let l1 ← addN c c.usz largeBlockSize 1
  let smallMeta ← ceilLg c (BitVec.ofNat c.usz l1)
  let large ← SpaceOps.CIV.tryWithCapacity c H 64 largeMeta largeCount
  let small ← SpaceOps.CIV.tryWithCapacity c H 64 smallMeta smallCount
  let m ← o.blockLen bits
  let l ← forRange 0 m (CLoop.mk large small 0 0 0) (stepH c H o bits smallPerLarge)
  let large ← l.large.tryPush c H (BitVec.ofNat 64 l.current)
  let excess ← subN c 64 l.current l.last
  let small ← l.small.tryPush c H (BitVec.ofNat 64 excess)
  .ok (largeBlockSize, ⟨bits, large, small⟩)

end Jacobson

/-! ### Encoders -/

namespace Omega

/-- The first loop of `Omega::encode`, elias.rs:61-65. -/
def pushH (c : Cfg) (H : Heap) (stack : GVec (Nat × Nat)) (value : Nat) : Res (GVec (Nat × Nat)) :=
  if value > 1 then do
    let nbits ← subN c 32 64 (leadingZeros 64 value)
    let stack ← stack.tryPush H (nbits, value)
    let v ← subN c 64 nbits 1
    pushH c H stack v
  else .ok stack
partial_fixpoint

/-- `Omega::encode`, elias.rs:58-73. -/
def encodeH (c : Cfg) (H : Heap) (W : BitWrite σ) (value : Nat) : SM σ Unit := do
  let stack ← SM.lift (pushH c H .new value)
  pop c W stack.stack
  W.writeBit false

end Omega

namespace Comma

/-- The first loop of `Comma::encode`, comma.rs:16-19. -/
def pushH (H : Heap) (base : Nat) (stack : GVec Nat) (value : Nat) : Res (GVec Nat) :=
  if value > 0 then do
    let d ← remN value base
    let stack ← stack.tryPush H d
    let v ← divN value base
    pushH H base stack v
  else .ok stack
partial_fixpoint

/-- `Comma::encode`, comma.rs:12-28. -/
def encodeH (c : Cfg) (H : Heap) (n : Nat) (W : BitWrite σ) (value : Nat) : SM σ Unit := do
  let b ← SM.lift (base c n)
  let stack ← SM.lift (pushH H b .new value)
  pop c W n stack.stack
  writeInt c false W n (BitVec.ofNat 64 b)

end Comma

namespace Fibonacci

/-- The second loop of `Fibonacci::encode`, fib.rs:53-62. -/
def descendH (c : Cfg) (H : Heap) (f : Fib) (value : Nat) (stack : GVec Bool) : Res (GVec Bool) :=
  if f.i > 1 then do
    let (value, stack) ← (if f.i1 ≤ value then do
        let v ← subN c 64 value f.i1
        let stack ← stack.tryPush H true
        .ok (v, stack)
      else do
        let stack ← stack.tryPush H false
        .ok (value, stack))
    let f ← f.prev c
    descendH c H f value stack
  else .ok stack
partial_fixpoint

/-- `vec![true]`, fib.rs:52. -/
def startH (H : Heap) : Res (GVec Bool) := do
  assertR (H.Grants (H.withCapacity 1))
  .ok ⟨[true], H.withCapacity 1, 0⟩

/-- `Fibonacci::encode`, fib.rs:40-69. -/
def encodeH (c : Cfg) (H : Heap) (W : BitWrite σ) (value : Nat) : SM σ Unit := do
  SM.lift (assertR (value ≠ 0))
  let f ← climb value Fib.new
  let stack ← SM.lift (startH H)
  let stack ← SM.lift (descendH c H f value stack)
  popBits W stack.stack

end Fibonacci

/-! ### A `BitVector` as the vector of a `BitBuffer` -/

/-- `BitVector` with its capacity, in a memory that may be exhausted: the methods of `BitVec`, `BitVecMut` and `BitVecPush`. -/
def heapBitVec (c : Cfg) (H : Heap) (w : Nat) : BitVecPushOps w (CVB w) :=
  let o := bvBitVecPush c w
  let on := fun (s : CVB w) (x : Res (VB w)) => do
    let b ← x
    s.tryChange H b
  { bitLen := fun s => o.bitLen s.base
    blockLen := fun s => o.blockLen s.base
    getBlock := fun s => o.getBlock s.base
    getBit := fun s => o.getBit s.base
    getBits := fun s => o.getBits s.base
    setBlock := fun s i x => on s (o.setBlock s.base i x)
    setBit := fun s i x => on s (o.setBit s.base i x)
    setBits := fun s i n x => on s (o.setBits s.base i n x)
    pushBlock := fun s x => on s (o.pushBlock s.base x)
    pushBit := fun s x => on s (o.pushBit s.base x)
    popBit := fun s => do
      let (r, b) ← o.popBit s.base
      let s ← s.tryChange H b
      .ok (r, s)
    alignBlock := fun s x => on s (o.alignBlock s.base x) }

end Succinct
