import Verif.Model.Iter
import Verif.Model.BlockIO
/-!
# Derived `Eq`, `Ord` and `Hash`

`#[derive(Hash)]` feeds the fields to the hasher in order. What std does for the field types is assumed here:
`u64` and `usize` call `write_u64` and `write_usize`; `Vec<T>` writes its length with `write_usize` (the default
of `write_length_prefix`) and then, for integer `T`, the bytes of all elements in native order with one `write`.
-/
namespace Succinct

/-- A call of a method of `std::hash::Hasher`. -/
inductive HashCall where
  | u64 (x : Nat)
  | usize (x : Nat)
  | write (bs : List (BitVec 8))
deriving DecidableEq, Repr

/-- `Hash::hash` for `VectorBase`, vector_base.rs:24-28 (derived: `len`, then `vec`), and for `BitVector`,
bit_vector.rs:12-13 (derived: the `VectorBase`). `T` is the target's byte order. -/
def VB.hashCalls (T : Endian) (s : VB w) : List HashCall :=
  [.u64 s.len, .usize s.vec.length, .write (s.vec.flatMap fun b => T.bytes (w / 8) b.toNat)]

/-- `Hash::hash` for `IntVector`, int_vector.rs:15-19 (derived: `element_bits`, then `base`). -/
def IV.hashCalls (T : Endian) (s : IV w) : List HashCall := .usize s.elementBits :: s.base.hashCalls T

/-- A hasher: a state changed by each call. -/
structure HasherOps (H : Type) where
  call : H → HashCall → H
  finish : H → Nat

/-- Feeding a hasher. -/
def HasherOps.feed (K : HasherOps H) (h : H) (cs : List HashCall) : H := cs.foldl K.call h

/-- What a call amounts to for a hasher that implements only `write`: the defaults of `write_u64` and
`write_usize` call `write` with the native bytes. -/
def HashCall.bytes (c : Cfg) (T : Endian) : HashCall → List (BitVec 8)
  | .u64 x => T.bytes 8 x
  | .usize x => T.bytes (c.usz / 8) x
  | .write bs => bs

/-- All bytes written by a list of calls. -/
def hashBytes (c : Cfg) (T : Endian) (cs : List HashCall) : List (BitVec 8) := cs.flatMap (HashCall.bytes c T)

/-- derived `Ord::cmp` of `Address`, storage.rs:336-342: the block index first, then the offset. -/
def Address.cmp (a b : Address) : Ordering :=
  (compare a.blockIndex b.blockIndex).then (compare a.bitOffset b.bitOffset)

/-- derived `PartialEq::eq` of `vector_base::Iter`, vector_base.rs:329-335, and of the `Iter`s around it, bit_vector.rs:253-255
and int_vector.rs:359-361: all fields are compared, the borrowed vector by contents. -/
def VIter.eq (a b : VIter w) : Bool :=
  a.start == b.start && a.limit == b.limit && a.elementBits == b.elementBits && (a.data.len == b.data.len && a.data.vec == b.data.vec)

/-- derived `Ord::cmp` of the iterators: the fields in order. -/
def VIter.cmp (a b : VIter w) : Ordering :=
  (compare a.start b.start).then ((compare a.limit b.limit).then
    ((compare a.elementBits b.elementBits).then (VB.cmp a.data b.data)))

/-- derived `Hash::hash` of the iterators: the fields in order. -/
def VIter.hashCalls (T : Endian) (it : VIter w) : List HashCall :=
  .u64 it.start :: .u64 it.limit :: .usize it.elementBits :: it.data.hashCalls T

end Succinct
