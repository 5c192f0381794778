import Verif.Model.Capacity
/-!
# Vectors in a memory that may be exhausted

The model of `Verif/Model/Capacity.lean` with allocations that may fail. In Rust a request for more than
`isize::MAX` bytes panics ("capacity overflow") and a request the allocator cannot meet aborts the process;
both are `panic` here. Since a failed allocation ends the call in either case, it does not matter when within
a call it is noticed, and it is noticed here at the end of the call.
-/
namespace Succinct

/-- `Vec`'s decisions (`Alloc`), and which capacities, in blocks, can be allocated. -/
structure Heap extends Alloc where
  allow : Nat → Bool

/-- A capacity of zero needs no allocation. -/
def Heap.Grants (H : Heap) (n : Nat) : Prop := n = 0 ∨ H.allow n = true

instance (H : Heap) (n : Nat) : Decidable (H.Grants n) := by unfold Heap.Grants; infer_instance

namespace CVB
variable {w : Nat} (c : Cfg) (H : Heap)

/-- `Vec::reserve` (std), which also `push` and `resize` call. -/
def tryReserve (s : CVB w) (additional : Nat) : Res (CVB w) :=
  if additional ≤ s.cap - s.base.vec.length then .ok s
  else do
    assertR (H.Grants (H.grow s.base.vec.length s.cap additional))
    .ok (vecReserve H.toAlloc s additional)

/-- `Vec::reserve_exact` (std). -/
def tryReserveExact (s : CVB w) (additional : Nat) : Res (CVB w) :=
  if additional ≤ s.cap - s.base.vec.length then .ok s
  else do
    assertR (H.Grants (H.growExact s.base.vec.length s.cap additional))
    .ok (vecReserveExact H.toAlloc s additional)

/-- A change of the contents, see `CVB.change`. -/
def tryChange (s : CVB w) (b : VB w) : Res (CVB w) := do
  let s ← tryReserve H s (b.vec.length - s.base.vec.length)
  .ok { s with base := b }

/-- `Vec::shrink_to_fit` (std): reallocates unless the capacity is to stay. -/
def tryShrink (s : CVB w) : Res (CVB w) :=
  if H.shrink s.base.vec.length s.cap = s.cap then .ok s
  else do
    assertR (H.Grants (H.shrink s.base.vec.length s.cap))
    .ok (shrinkToFit H.toAlloc s)

/-- `Vec::with_capacity(n)` and `vec![x; n]` (std): the vector `b` in a new allocation for `n` blocks. -/
def tryNew (b : VB w) (n : Nat) : Res (CVB w) := do
  assertR (H.Grants (H.withCapacity n))
  .ok ⟨b, H.withCapacity n, 0⟩

/-- `with_capacity`, vector_base.rs:68-72. -/
def tryWithCapacity (w eb capacity : Nat) : Res (CVB w) := do
  let o ← lenToBlockLen c w eb capacity
  let n ← expectR o
  tryNew H VB.new n

end CVB

/-- A call, see `capCall`. -/
def heapCall (c : Cfg) (H : Heap) (eb : Nat) (step : VB w → Op → Res (O × VB w)) (s : CVB w) :
    CapCall Op → Res (Option O × CVB w)
  | .edit op => do
    let (o, b) ← step s.base op
    let s ← s.tryChange H b
    .ok (some o, s)
  | .reserve n => do
    let difference ← s.additionalBlocks c eb n
    let s ← s.tryReserve H difference
    .ok (none, s)
  | .reserveExact n => do
    let difference ← s.additionalBlocks c eb n
    let s ← s.tryReserveExact H difference
    .ok (none, s)
  | .blockReserve n => do
    let s ← s.tryReserve H n
    .ok (none, s)
  | .blockReserveExact n => do
    let s ← s.tryReserveExact H n
    .ok (none, s)
  | .shrinkToFit => do
    let s ← s.tryShrink H
    .ok (none, s)

/-- A sequence of calls. -/
def heapCalls (c : Cfg) (H : Heap) (eb : Nat) (step : VB w → Op → Res (O × VB w)) :
    List (CapCall Op) → CVB w → Res (List (Option O) × CVB w)
  | [], s => .ok ([], s)
  | op :: ops, s => do
    let (o, s) ← heapCall c H eb step s op
    let (os, s) ← heapCalls c H eb step ops s
    .ok (o :: os, s)

end Succinct
