import Verif.Model.Capacity
import Verif.Model.Rank
import Verif.Model.Select
/-!
# `space_usage.rs` and the `SpaceUsage` implementations

`std::mem::size_of` is not modelled: the sizes of the types are parameters. `usize` arithmetic is checked.
-/
namespace Succinct

/-- A `Vec` with its capacity. -/
structure CVec (α : Type) where
  elems : List α
  cap : Nat

/-- `trait SpaceUsage`, space_usage.rs:30-70. -/
structure SpaceOps (α : Type) where
  isStackOnly : Bool
  stackBytes : Nat
  heapBytes : α → Res Nat

namespace SpaceOps
variable (c : Cfg)

/-- default `total_bytes`, space_usage.rs:38-41. -/
def totalBytes (S : SpaceOps α) (a : α) : Res Nat := do
  let h ← S.heapBytes a
  addN c c.usz S.stackBytes h

/-- `impl_stack_only_space_usage!` (macros.rs:22-32; the primitive types, space_usage.rs:72-84, `Rank9Cell` and
`Level2`, rank9.rs:168-169), references (space_usage.rs:86-94), `BitSlice` and `BitSliceMut`
(bit_slice.rs:161-169). -/
def stackOnly (α : Type) (size : Nat) : SpaceOps α where
  isStackOnly := true
  stackBytes := size
  heapBytes _ := .ok 0

/-- A type with its implementation of `SpaceUsage`. -/
structure Ty where
  α : Type
  ops : SpaceOps α

/-- A tuple whose components have the given types. -/
inductive Tuple : List Ty → Type 1
  | nil : Tuple []
  | cons {t : Ty} {ts : List Ty} : t.α → Tuple ts → Tuple (t :: ts)

/-- The sum `x + $( $tv.heap_bytes() )+`, from left to right. -/
def tupleSum : {ts : List Ty} → Tuple ts → Nat → Res Nat
  | _, .nil, acc => .ok acc
  | _, .cons (t := t) a as, acc => do
    let h ← t.ops.heapBytes a
    let acc ← addN c c.usz acc h
    tupleSum as acc

/-- `impl_tuple_space_usage!`, space_usage.rs:96-125, for tuples of any size: `heap_bytes`. -/
def tupleHeapBytes {ts : List Ty} (a : Tuple ts) : Res Nat := tupleSum c a 0
/-- `impl_tuple_space_usage!`: `is_stack_only`. -/
def tupleIsStackOnly (ts : List Ty) : Bool := ts.all fun t => t.ops.isStackOnly

/-- The loop of `heap_bytes` for `Vec`. -/
def vecSum (S : SpaceOps α) : List α → Nat → Res Nat
  | [], acc => .ok acc
  | a :: as, acc => do
    let h ← S.heapBytes a
    let acc ← addN c c.usz acc h
    vecSum S as acc

/-- `impl SpaceUsage for Vec<A>`, space_usage.rs:127-142. -/
def vec (size : Nat) (S : SpaceOps α) : SpaceOps (CVec α) where
  isStackOnly := false
  stackBytes := size
  heapBytes v := do
    let result ← mulN c c.usz v.cap S.stackBytes
    if !S.isStackOnly then vecSum c S v.elems result else .ok result

/-- `impl SpaceUsage for Box<A>`, space_usage.rs:144-157. `is_stack_only` is false. -/
def box (size : Nat) (S : SpaceOps α) : SpaceOps α where
  isStackOnly := false
  stackBytes := size
  heapBytes a := totalBytes c S a

/-- A type whose heap is that of one of its fields, and which says it is not stack-only: `VectorBase`
(vector_base.rs:427-435), `BitVector` (bit_vector.rs:238-244), `IntVector` (int_vector.rs:424-432). -/
def wrapper (size : Nat) (field : α → β) (S : SpaceOps β) : SpaceOps α where
  isStackOnly := false
  stackBytes := size
  heapBytes a := S.heapBytes (field a)

/-- The blocks (`w` bits, `w / 8` bytes). -/
def block (w : Nat) : SpaceOps (BitVec w) := stackOnly _ (w / 8)

/-- `VectorBase`; `vecSize` is the size of a `Vec`, `size` that of a `VectorBase`. -/
def vectorBase (w vecSize size : Nat) : SpaceOps (CVB w) :=
  wrapper size (fun s => CVec.mk s.base.vec s.cap) (vec c vecSize (block w))

/-- `IntVector` with the capacity of its base. -/
structure CIV (w : Nat) where
  elementBits : Nat
  base : CVB w

/-- `BitVector`, bit_vector.rs:238-244. -/
def bitVector (w vecSize baseSize size : Nat) : SpaceOps (CVB w) := wrapper size id (vectorBase c w vecSize baseSize)

/-- `IntVector`, int_vector.rs:424-432. -/
def intVector (w vecSize baseSize size : Nat) : SpaceOps (CIV w) := wrapper size CIV.base (vectorBase c w vecSize baseSize)

/-- A `Rank9` with the capacity of its `counts`. -/
structure CRank9 (S : Type) where
  bitStore : S
  counts : CVec Rank9Cell

/-- `impl SpaceUsage for Rank9`, rank9.rs:171-177; `Rank9Cell` is two `u64`s, `#[repr(C)]`. -/
def rank9 (vecSize size : Nat) (S : SpaceOps α) : SpaceOps (CRank9 α) where
  isStackOnly := false
  stackBytes := size
  heapBytes r := do
    let a ← S.heapBytes r.bitStore
    let b ← (vec c vecSize (stackOnly Rank9Cell 16)).heapBytes r.counts
    addN c c.usz a b

/-- A `JacobsonRank` with the capacities of its directories. -/
structure CJacobson (S : Type) where
  bitStore : S
  large : CIV 64
  small : CIV 64

/-- `impl SpaceUsage for JacobsonRank`, jacobson.rs:119-128. -/
def jacobson (vecSize baseSize ivSize size : Nat) (S : SpaceOps α) : SpaceOps (CJacobson α) where
  isStackOnly := false
  stackBytes := size
  heapBytes j := do
    let a ← (intVector c 64 vecSize baseSize ivSize).heapBytes j.large
    let b ← (intVector c 64 vecSize baseSize ivSize).heapBytes j.small
    let ab ← addN c c.usz a b
    let d ← S.heapBytes j.bitStore
    addN c c.usz ab d

/-- `impl SpaceUsage for BinSearchSelect`, bin_search.rs:75-78. -/
def binSearchSelect (size : Nat) (S : SpaceOps α) : SpaceOps (BinSearchSelect α) where
  isStackOnly := S.isStackOnly
  stackBytes := size
  heapBytes s := S.heapBytes s.rankSupport

end SpaceOps
end Succinct
