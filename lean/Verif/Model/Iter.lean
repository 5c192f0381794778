import Verif.Model.VectorBase
/-! Iterators over vectors (vector_base.rs:329-425, bit_vector.rs:254-292, int_vector.rs:358-398) and
formatting (bit_vector.rs:227-236, int_vector.rs:409-422). -/
namespace Succinct

/-- `struct Iter`, vector_base.rs:330-335. The borrowed vector is held by value: it cannot change while
it is borrowed. -/
structure VIter (w : Nat) where
  start : Nat
  limit : Nat
  elementBits : Nat
  data : VB w
deriving DecidableEq, Repr

namespace VIter

variable {w : Nat} (c : Cfg)

/-- `Iter::new`, vector_base.rs:339-346. -/
def new (eb : Nat) (data : VB w) : VIter w := ⟨0, data.len, eb, data⟩

/-- `Iterator::next`, vector_base.rs:353-362. -/
def next (it : VIter w) : Res (Option (BitVec w) × VIter w) :=
  if it.start < it.limit then do
    let p ← mulN c 64 it.elementBits it.start
    let r ← it.data.getBits c it.elementBits p it.elementBits
    let s ← addN c 64 it.start 1
    .ok (some r, { it with start := s })
  else .ok (none, it)

/-- `ExactSizeIterator::len`, vector_base.rs:398-412 (same body for both pointer widths). -/
def len (it : VIter w) : Res Nat := do
  let n ← subN c 64 it.limit it.start
  .ok (asUsize c n)

/-- `Iterator::size_hint`, vector_base.rs:364-379 (one body per pointer width). -/
def sizeHint (it : VIter w) : Res (Nat × Option Nat) :=
  match c.ptr with
  | .p32 => do
    let n ← subN c 64 it.limit it.start
    match toUsize c n with
    | some len => .ok (len, some len)
    | none => .ok (0, none)
  | .p64 => do
    let n ← it.len c
    .ok (n, some n)

/-- `Iterator::count`, vector_base.rs:381-384. -/
def count (it : VIter w) : Res Nat := it.len c

/-- `DoubleEndedIterator::next_back`, vector_base.rs:415-424. -/
def nextBack (it : VIter w) : Res (Option (BitVec w) × VIter w) :=
  if it.start < it.limit then do
    let l ← subN c 64 it.limit 1
    let p ← mulN c 64 it.elementBits l
    let r ← it.data.getBits c it.elementBits p it.elementBits
    .ok (some r, { it with limit := l })
  else .ok (none, it)

/-- `Iterator::last`, vector_base.rs:386-389. -/
def last (it : VIter w) : Res (Option (BitVec w)) := do
  let (r, _) ← it.nextBack c
  .ok r

/-- `Iterator::nth`, vector_base.rs:391-395. -/
def nth (it : VIter w) (n : Nat) : Res (Option (BitVec w) × VIter w) :=
  VIter.next c { it with start := (checkedAdd 64 it.start n).getD it.limit }

/-- A `for` loop over an iterator: `next` until `None` (std desugaring). -/
def forEach (it : VIter w) (acc : α) (f : α → BitVec w → Res α) : Res α := do
  let (r, it) ← it.next c
  match r with
  | some x => do
    let acc ← f acc x
    forEach it acc f
  | none => .ok acc
partial_fixpoint

end VIter

/-- `BitVector::iter`, bit_vector.rs:179-181, and `IntoIterator for &BitVector`, bit_vector.rs:294-301. -/
def BV.iter (s : VB w) : VIter w := VIter.new 1 s

/-- The item adapter of `bit_vector::Iter`: `bit != Block::zero()`, bit_vector.rs:258-292. The wrapper
forwards every other method. -/
def bitItem (x : BitVec w) : Bool := x != 0

/-- `IntVector::iter`, int_vector.rs:281-283, and `IntoIterator for &IntVector`, int_vector.rs:400-407. -/
def IV.iter (s : IV w) : VIter w := VIter.new s.elementBits s.base

/-- `fmt::Binary for BitVector`, bit_vector.rs:227-236; the text written to the formatter, assuming the
formatter accepts all writes. -/
def BV.fmtBinary (c : Cfg) (s : VB w) : Res String :=
  (BV.iter s).forEach c "" fun out x => .ok (out ++ if bitItem x then "1" else "0")

/-- `fmt::Debug for IntVector`, int_vector.rs:408-422; the text written to the formatter. Numbers are
printed in decimal by `{:?}` and `{}` (std). -/
def IV.fmtDebug (c : Cfg) (s : IV w) : Res String := do
  let out := "IntVector { element_bits: " ++ Nat.repr s.elementBits ++ ", elements: { "
  let out ← s.iter.forEach c out fun out x => .ok (out ++ (Nat.repr x.toNat ++ ", "))
  .ok (out ++ "} }")

end Succinct
