import Verif.Spec
import Verif.Model.BitVecTrait
/-!
# The contract of the bit-vector traits

What it means for an implementation of `BitVec`/`BitVecMut`/`BitVecPush` to be *lawful*:
there is a representation relation `R s bits` between states and plain lists of booleans, and every
method does what the list operation does, panicking exactly when the list operation is out of range.
These structures are specifications: theorems in `Verif/Props` prove them for the crate's types and
use them as hypotheses for generic code (rank structures, slices, buffers).
-/
namespace Succinct
open Spec

/-- Bit-level reading. -/
structure BVLaw (c : Cfg) (o : BitVecOps w S) (R : S → List Bool → Prop) : Prop where
  fits : ∀ {s bits}, R s bits → Fits c.usz w bits.length
  bitLen : ∀ {s bits}, R s bits → o.bitLen s = .ok bits.length
  getBit : ∀ {s bits}, R s bits → ∀ i < 2 ^ 64, o.getBit s i = expectR bits[i]?
  getBits : ∀ {s bits}, R s bits → ∀ p n, 1 ≤ n → n ≤ w → p + n ≤ bits.length →
    o.getBits s p n = .ok (BitVec.ofNat w (bitsVal ((bits.drop p).take n)))
  getBits_panic : ∀ {s bits}, R s bits → ∀ p n, n ≤ w → p + n < 2 ^ 64 → bits.length < p + n →
    o.getBits s p n = .panic

/-- Block-level reading: block `i` holds the bits `i*w …` of the vector, least significant first;
bits of the last block beyond the length are unspecified. -/
structure BVBlockRead (o : BitVecOps w S) (R : S → List Bool → Prop) : Prop where
  blockLen : ∀ {s bits}, R s bits → o.blockLen s = .ok (blocksFor w bits.length)
  getBlock : ∀ {s bits}, R s bits → ∀ i, i < blocksFor w bits.length →
    ∃ b, o.getBlock s i = .ok b ∧
      ∀ j < w, i * w + j < bits.length → some (b.toNat.testBit j) = bits[i * w + j]?

/-- Block-level reading, with every block index at or beyond the end rejected. -/
structure BVBlockLaw (c : Cfg) (o : BitVecOps w S) (R : S → List Bool → Prop) : Prop extends BVBlockRead o R where
  getBlock_panic : ∀ {s bits}, R s bits → ∀ i, blocksFor w bits.length ≤ i → i < 2 ^ c.usz →
    o.getBlock s i = .panic

/-- Block-level reading where the bits beyond the length read as zero. -/
structure BVPadLaw (o : BitVecOps w S) (R : S → List Bool → Prop) : Prop where
  getBlock : ∀ {s bits}, R s bits → ∀ i, i < blocksFor w bits.length →
    o.getBlock s i = .ok (BitVec.ofNat w (bitsVal ((bits.drop (i * w)).take w)))

/-- Writing. -/
structure BVMutLaw (c : Cfg) (o : BitVecMutOps w S) (R : S → List Bool → Prop) : Prop where
  setBit : ∀ {s bits}, R s bits → ∀ i v, i < bits.length →
    ∃ s', o.setBit s i v = .ok s' ∧ R s' (bits.set i v)
  setBit_panic : ∀ {s bits}, R s bits → ∀ i v, bits.length ≤ i → i < 2 ^ 64 → o.setBit s i v = .panic
  setBits : ∀ {s bits}, R s bits → ∀ p n (v : BitVec w), 1 ≤ n → n ≤ w → p + n ≤ bits.length →
    ∃ s', o.setBits s p n v = .ok s' ∧ R s' (overwrite bits p (natBits n v.toNat))
  setBits_panic : ∀ {s bits}, R s bits → ∀ p n (v : BitVec w), n ≤ w → p + n < 2 ^ 64 →
    bits.length < p + n → o.setBits s p n v = .panic
  setBlock : ∀ {s bits}, R s bits → ∀ i (v : BitVec w), i < blocksFor w bits.length →
    ∃ s', o.setBlock s i v = .ok s' ∧
      R s' (overwrite bits (i * w) ((blockBits v).take (bits.length - i * w)))
  setBlock_panic : ∀ {s bits}, R s bits → ∀ i (v : BitVec w), blocksFor w bits.length ≤ i →
    i < 2 ^ c.usz → i * w < 2 ^ 64 → o.setBlock s i v = .panic

/-- Writing single bits and spans only. -/
structure BVWriteLaw (o : BitVecMutOps w S) (R : S → List Bool → Prop) : Prop where
  setBit : ∀ {s bits}, R s bits → ∀ i v, i < bits.length →
    ∃ s', o.setBit s i v = .ok s' ∧ R s' (bits.set i v)
  setBit_panic : ∀ {s bits}, R s bits → ∀ i v, bits.length ≤ i → i < 2 ^ 64 → o.setBit s i v = .panic
  setBits : ∀ {s bits}, R s bits → ∀ p n (v : BitVec w), 1 ≤ n → n ≤ w → p + n ≤ bits.length →
    ∃ s', o.setBits s p n v = .ok s' ∧ R s' (overwrite bits p (natBits n v.toNat))
  setBits_panic : ∀ {s bits}, R s bits → ∀ p n (v : BitVec w), n ≤ w → p + n < 2 ^ 64 →
    bits.length < p + n → o.setBits s p n v = .panic

/-- Growing and shrinking; `Fit n` says that a vector of `n` bits is representable. -/
structure BVPushLaw (w : Nat) (o : BitVecPushOps w S) (R : S → List Bool → Prop) (Fit : Nat → Prop) :
    Prop where
  pushBit : ∀ {s bits}, R s bits → ∀ v, Fit (bits.length + 1) →
    ∃ s', o.pushBit s v = .ok s' ∧ R s' (bits ++ [v])
  popBit : ∀ {s bits}, R s bits → ∃ s', o.popBit s = .ok (bits.getLast?, s') ∧ R s' bits.dropLast
  alignBlock : ∀ {s bits}, R s bits → ∀ v, Fit (blocksFor w bits.length * w) →
    ∃ s', o.alignBlock s v = .ok s' ∧
      R s' (bits ++ List.replicate (blocksFor w bits.length * w - bits.length) v)
  pushBlock : ∀ {s bits}, R s bits → ∀ b : BitVec w, Fit (blocksFor w bits.length * w + w) →
    ∃ s', o.pushBlock s b = .ok s' ∧
      R s' (bits ++ List.replicate (blocksFor w bits.length * w - bits.length) false ++ blockBits b)

end Succinct
