/-!
# Specification vocabulary

Small definitions the properties are stated with. Nothing here refers to the model of the code;
the definitions use only core types (`Nat`, `Bool`, `List`, `BitVec.toNat`).
-/
namespace Succinct.Spec

/-- The little-endian number with the given bits. -/
def bitsVal : List Bool → Nat
  | [] => 0
  | b :: bs => b.toNat + 2 * bitsVal bs

/-- The low `n` bits of `x`, least significant first. -/
def natBits (n x : Nat) : List Bool := (List.range n).map x.testBit

/-- The bits of a block, least significant first. -/
def blockBits (b : BitVec w) : List Bool := natBits w b.toNat

/-- The bits stored in an array of blocks: block 0 first, least significant bit first. -/
def arrayBits (v : List (BitVec w)) : List Bool := v.flatMap blockBits

/-- `n` is the least number with `n * d ≥ x`. -/
def IsCeilDiv (x d n : Nat) : Prop := x ≤ n * d ∧ ∀ m, x ≤ m * d → n ≤ m

/-- `n` is the largest number with `2^n ≤ x`. -/
def IsFloorLg (x n : Nat) : Prop := 2 ^ n ≤ x ∧ ∀ m, 2 ^ m ≤ x → m ≤ n

/-- `n` is the least number with `x ≤ 2^n`. -/
def IsCeilLg (x n : Nat) : Prop := x ≤ 2 ^ n ∧ ∀ m, x ≤ 2 ^ m → n ≤ m

/-- number of ones among the first `n` bits -/
def ones (bs : List Bool) (n : Nat) : Nat := (bs.take n).count true
/-- number of zeros among the first `n` bits -/
def zeros (bs : List Bool) (n : Nat) : Nat := (bs.take n).count false

end Succinct.Spec

namespace Succinct.Spec

/-- Number of blocks of `w` bits needed for `n` bits. -/
def blocksFor (w n : Nat) : Nat := (n + (w - 1)) / w

/-- Replace the elements of `l` starting at position `p` by `new` (same length as before). -/
def overwrite (l : List α) (p : Nat) (new : List α) : List α :=
  l.take p ++ new ++ l.drop (p + new.length)

/-- `n` bits in blocks of `w` bits are addressable: the bit count rounded up to whole blocks, plus
one more block, is a `u64`, and the number of blocks is a `usize` (of `usz` bits). Every vector that
fits in the memory of a machine with at most 2^60 bytes satisfies this. -/
def Fits (usz w n : Nat) : Prop := blocksFor w n * w + w < 2 ^ 64 ∧ blocksFor w n < 2 ^ usz

instance : Decidable (Fits usz w n) := by unfold Fits; infer_instance

/-- Pad with zeros to a multiple of `w` bits. -/
def padTo (w : Nat) (bits : List Bool) : List Bool :=
  bits ++ List.replicate (blocksFor w bits.length * w - bits.length) false

/-- Drop the bits after the last whole group of `k`. -/
def floorTo (k : Nat) (bits : List Bool) : List Bool := bits.take (bits.length / k * k)

/-- The bits of a list of numbers, each written with `k` bits. -/
def packBits (k : Nat) (xs : List Nat) : List Bool := xs.flatMap (natBits k)

end Succinct.Spec

namespace Succinct.Spec

/-- The `n` elements from position `a` on. -/
def window (l : List α) (a n : Nat) : List α := (l.drop a).take n

end Succinct.Spec

namespace Succinct.Spec

/-- `n` bits occupy at most 2^31 bytes on a 32-bit machine (Rust limits allocations to `isize::MAX`
bytes), and at most 2^60 bytes on a 64-bit machine. -/
def InMemory (usz n : Nat) : Prop := n ≤ if usz = 32 then 2 ^ 34 else 2 ^ 63

instance : Decidable (InMemory usz n) := by unfold InMemory; infer_instance

end Succinct.Spec

namespace Succinct.Spec

/-- Occurrences of `v` among the first `n` bits. -/
def occ (v : Bool) (bits : List Bool) (n : Nat) : Nat := (bits.take n).count v

/-- `r` is the least point of `start..limit` satisfying `P`, or `none` if there is none. -/
def FirstIn (start limit : Nat) (P : Nat → Prop) (r : Option Nat) : Prop :=
  match r with
  | some d => start ≤ d ∧ d < limit ∧ P d ∧ ∀ e, start ≤ e → e < d → ¬ P e
  | none => ∀ e, start ≤ e → e < limit → ¬ P e

/-- `r` is the position of the `k`-th (from 0) occurrence of `v`, or `none` if there are at most `k`. -/
def IsSelect (v : Bool) (bits : List Bool) (k : Nat) (r : Option Nat) : Prop :=
  match r with
  | some p => bits[p]? = some v ∧ occ v bits p = k
  | none => bits.count v ≤ k

end Succinct.Spec

namespace Succinct.Spec

/-- Byte `i` (from the least significant) of a word. -/
def byteOf (x : BitVec 64) (i : Nat) : Nat := x.toNat / 256 ^ i % 256

/-- A byte read as a two's complement number. -/
def signed8 (a : Nat) : Int := if a < 128 then a else (a : Int) - 256

end Succinct.Spec
