import Verif.Model.VectorBase
/-!
# Capacity of `VectorBase`, `BitVector`, `IntVector`

The model of `Verif/Model/VectorBase.lean` with the capacity of the underlying `Vec<Block>` added. Where `Vec`
leaves the capacity to its discretion, it is decided by an `Alloc`, about which only `Vec`'s documented
contract is known. The contents are those of the model without capacity. Allocations that fail are
added in `Verif/Model/Memory.lean`.
-/
namespace Succinct

/-- The decisions `Vec` makes: the capacity after `with_capacity(n)`, after an allocation by `reserve` (and by
`push` and `resize`, which reserve), after one by `reserve_exact`, and after `shrink_to_fit`. The arguments
are the length and capacity before, and the number of additional elements requested. -/
structure Alloc where
  withCapacity : Nat → Nat
  grow : (len cap additional : Nat) → Nat
  growExact : (len cap additional : Nat) → Nat
  shrink : (len cap : Nat) → Nat

/-- The documented contract of `Vec` (std). -/
structure Alloc.Lawful (A : Alloc) : Prop where
  withCapacity : ∀ n, n ≤ A.withCapacity n
  grow : ∀ len cap additional, len + additional ≤ A.grow len cap additional
  growExact : ∀ len cap additional, len + additional ≤ A.growExact len cap additional
  shrink : ∀ len cap, len ≤ cap → len ≤ A.shrink len cap ∧ A.shrink len cap ≤ cap

/-- An allocator that never allocates more than it is asked for. -/
def Alloc.exact : Alloc where
  withCapacity n := n
  grow len _ additional := len + additional
  growExact len _ additional := len + additional
  shrink len _ := len

/-- A `VectorBase` with the capacity of its `Vec`, and a counter (not in the code) of how often the `Vec` has
been reallocated in order to grow. -/
structure CVB (w : Nat) where
  base : VB w
  cap : Nat
  moves : Nat
deriving DecidableEq, Repr

namespace CVB
variable {w : Nat} (c : Cfg) (A : Alloc)

/-- `Vec::reserve` (std): does nothing if there is room for `additional` more elements. -/
def vecReserve (s : CVB w) (additional : Nat) : CVB w :=
  if additional ≤ s.cap - s.base.vec.length then s
  else { s with cap := A.grow s.base.vec.length s.cap additional, moves := s.moves + 1 }

/-- `Vec::reserve_exact` (std). -/
def vecReserveExact (s : CVB w) (additional : Nat) : CVB w :=
  if additional ≤ s.cap - s.base.vec.length then s
  else { s with cap := A.growExact s.base.vec.length s.cap additional, moves := s.moves + 1 }

/-- A change of the contents by one `Vec` operation: `push` and `resize` reserve room for the elements they
add; `pop`, `truncate`, `clear` and element updates keep the capacity. -/
def change (s : CVB w) (b : VB w) : CVB w :=
  { vecReserve A s (b.vec.length - s.base.vec.length) with base := b }

/-- `block_with_capacity`, vector_base.rs:60-65; `BitVector::block_with_capacity` (bit_vector.rs:35-37) forwards to
it. -/
def blockWithCapacity (n : Nat) : CVB w := ⟨VB.new, A.withCapacity n, 0⟩

/-- `with_capacity`, vector_base.rs:68-72. -/
def withCapacity (w eb capacity : Nat) : Res (CVB w) := do
  let o ← lenToBlockLen c w eb capacity
  let n ← expectR o
  .ok (blockWithCapacity A n)

/-- `block_capacity`, vector_base.rs:233-235; `block_capacity` of `BitVector` (bit_vector.rs:66-68) and of
`IntVector` (int_vector.rs:181-183) forward to it. -/
def blockCapacity (s : CVB w) : Nat := s.cap

/-- `capacity`, vector_base.rs:238-240; `BitVector::capacity` (bit_vector.rs:61-63) is the case `eb = 1`,
`IntVector::capacity` (int_vector.rs:175-177) the case `eb = element_bits`. -/
def capacity (s : CVB w) (eb : Nat) : Res Nat := do
  let n ← mulNbits c w s.blockCapacity
  divN n eb

/-- `shrink_to_fit`, vector_base.rs:267-269; `shrink_to_fit` of `BitVector` (bit_vector.rs:155-157) and of
`IntVector` (int_vector.rs:257-259) forward to it. -/
def shrinkToFit (s : CVB w) : CVB w := { s with cap := A.shrink s.base.vec.length s.cap }

/-- `block_reserve`, vector_base.rs:272-274; `block_reserve` of `BitVector` (bit_vector.rs:124-126) and of
`IntVector` (int_vector.rs:220-222) forward to it. -/
def blockReserve (s : CVB w) (additional : Nat) : CVB w := vecReserve A s additional

/-- `block_reserve_exact`, vector_base.rs:277-279; `block_reserve_exact` of `BitVector` (bit_vector.rs:150-152)
and of `IntVector` (int_vector.rs:252-254) forward to it. -/
def blockReserveExact (s : CVB w) (additional : Nat) : CVB w := vecReserveExact A s additional

/-- `additional_blocks`, vector_base.rs:281-288. -/
def additionalBlocks (s : CVB w) (eb additional : Nat) : Res Nat := do
  let o ← match (checkedAdd 64 s.base.len additional).bind fun e => checkedMul 64 e eb with
    | none => .ok none
    | some n => checkedCeilDivNbits c w n
  let n ← expectR o
  .ok (n - s.cap)

/-- `reserve`, vector_base.rs:291-294; `BitVector::reserve` (bit_vector.rs:111-113) is the case `eb = 1`,
`IntVector::reserve` (int_vector.rs:207-209) the case `eb = element_bits`. -/
def reserve (s : CVB w) (eb additional : Nat) : Res (CVB w) := do
  let difference ← additionalBlocks c s eb additional
  .ok (blockReserve A s difference)

/-- `reserve_exact`, vector_base.rs:297-300; `BitVector::reserve_exact` (bit_vector.rs:137-139) is the case `eb = 1`,
`IntVector::reserve_exact` (int_vector.rs:236-238) the case `eb = element_bits`. -/
def reserveExact (s : CVB w) (eb additional : Nat) : Res (CVB w) := do
  let difference ← additionalBlocks c s eb additional
  .ok (blockReserveExact A s difference)

/-- `push_bits`, vector_base.rs:163-172: pushes at most one block. -/
def pushBits (s : CVB w) (eb : Nat) (value : BitVec w) : Res (CVB w) := do
  let b ← VB.pushBits c s.base eb value
  .ok (change A s b)

/-- `push_bit`, vector_base.rs:192-200: pushes at most one block. -/
def pushBit (s : CVB w) (value : Bool) : Res (CVB w) := do
  let b ← VB.pushBit c s.base value
  .ok (change A s b)

/-- `pop_bits`, vector_base.rs:175-188. -/
def popBits (s : CVB w) (eb : Nat) : Res (Option (BitVec w) × CVB w) := do
  let (r, b) ← VB.popBits c s.base eb
  .ok (r, change A s b)

/-- `truncate`, vector_base.rs:251-258. -/
def truncate (s : CVB w) (eb len : Nat) : Res (CVB w) := do
  let b ← VB.truncate c s.base eb len
  .ok (change A s b)

/-- `clear`, vector_base.rs:261-264. -/
def clear (s : CVB w) : CVB w := change A s s.base.clear

/-- `resize`, vector_base.rs:310-326: one `Vec::resize`. -/
def resize (s : CVB w) (eb len : Nat) (fill : BitVec w) : Res (CVB w) := do
  let b ← VB.resize c s.base eb len fill
  .ok (change A s b)

end CVB

/-- Push a list of elements, one after another. -/
def pushAllBits (c : Cfg) (A : Alloc) (eb : Nat) : List (BitVec w) → CVB w → Res (CVB w)
  | [], s => .ok s
  | x :: xs, s => do
    let s ← CVB.pushBits c A s eb x
    pushAllBits c A eb xs s

/-- Push a list of bits, one after another. -/
def pushAllBit (c : Cfg) (A : Alloc) : List Bool → CVB w → Res (CVB w)
  | [], s => .ok s
  | x :: xs, s => do
    let s ← CVB.pushBit c A s x
    pushAllBit c A xs s

/-- The operations that can change the length or the capacity. -/
inductive CapOp (w : Nat) where
  | push (x : BitVec w)
  | pop
  | truncate (n : Nat)
  | clear
  | resize (n : Nat) (fill : BitVec w)
  | reserve (n : Nat)
  | reserveExact (n : Nat)
  | blockReserve (n : Nat)
  | blockReserveExact (n : Nat)
  | shrinkToFit
deriving DecidableEq, Repr

/-- One of those operations on a vector of `eb`-bit elements. -/
def capStep (c : Cfg) (A : Alloc) (eb : Nat) (s : CVB w) : CapOp w → Res (CVB w)
  | .push x => s.pushBits c A eb x
  | .pop => do
    let (_, s) ← s.popBits c A eb
    .ok s
  | .truncate n => s.truncate c A eb n
  | .clear => .ok (s.clear A)
  | .resize n x => s.resize c A eb n x
  | .reserve n => s.reserve c A eb n
  | .reserveExact n => s.reserveExact c A eb n
  | .blockReserve n => .ok (s.blockReserve A n)
  | .blockReserveExact n => .ok (s.blockReserveExact A n)
  | .shrinkToFit => .ok (s.shrinkToFit A)

/-- A sequence of those operations. -/
def capRun (c : Cfg) (A : Alloc) (eb : Nat) : List (CapOp w) → CVB w → Res (CVB w)
  | [], s => .ok s
  | op :: ops, s => do
    let s ← capStep c A eb s op
    capRun c A eb ops s

/-- A call on a vector with a capacity: a method of the model without capacity, or one of the methods that only
concern the capacity. -/
inductive CapCall (Op : Type) where
  | edit (op : Op)
  | reserve (n : Nat)
  | reserveExact (n : Nat)
  | blockReserve (n : Nat)
  | blockReserveExact (n : Nat)
  | shrinkToFit
deriving DecidableEq, Repr

/-- Such a call, given the methods of the model without capacity as `step`. Each of them lengthens the `Vec` by at
most one operation: `push_bit` and `push_bits` (vector_base.rs:163-172, 192-200) push at most one block, `push_block`
(vector_base.rs:150-153) exactly one, `resize` and `block_resize` (vector_base.rs:303-326) call `Vec::resize` once.
`BitVector::resize` (bit_vector.rs:78-94) first pushes bits, but only up to the end of the last block, and
`align_block` (bit_vec/traits.rs:199-203) likewise. -/
def capCall (c : Cfg) (A : Alloc) (eb : Nat) (step : VB w → Op → Res (O × VB w)) (s : CVB w) :
    CapCall Op → Res (Option O × CVB w)
  | .edit op => do
    let (o, b) ← step s.base op
    .ok (some o, s.change A b)
  | .reserve n => do
    let s ← s.reserve c A eb n
    .ok (none, s)
  | .reserveExact n => do
    let s ← s.reserveExact c A eb n
    .ok (none, s)
  | .blockReserve n => .ok (none, s.blockReserve A n)
  | .blockReserveExact n => .ok (none, s.blockReserveExact A n)
  | .shrinkToFit => .ok (none, s.shrinkToFit A)

/-- A sequence of such calls. -/
def capCalls (c : Cfg) (A : Alloc) (eb : Nat) (step : VB w → Op → Res (O × VB w)) :
    List (CapCall Op) → CVB w → Res (List (Option O) × CVB w)
  | [], s => .ok ([], s)
  | op :: ops, s => do
    let (o, s) ← capCall c A eb step s op
    let (os, s) ← capCalls c A eb step ops s
    .ok (o :: os, s)

end Succinct
