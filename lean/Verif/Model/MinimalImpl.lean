import Verif.Model.BitVecTrait
/-!
# Implementations of the bit-vector traits that give as little as possible

traits.rs:5-10 and 101-106: "Minimal complete definition is `get_bit` or `get_block`, since each is
defined in terms of the other", and the same for `set_bit` and `set_block`; `BitVecPush` requires
`push_bit` and `pop_bit` only (traits.rs:190-196). The functions below are the dictionaries the compiler
builds from an `impl` block which gives exactly those methods, the rest being the trait's defaults.
-/
namespace Succinct

section
variable {w : Nat} {S : Type} (c : Cfg)

/-- `impl BitVec` giving `bit_len` and `get_bit`. -/
def implGetBit (w : Nat) (bitLen : S → Res Nat) (getBit : S → Nat → Res Bool) : BitVecOps w S :=
  let blockLen := dfltBlockLen c w bitLen
  let getBlock := dfltGetBlock c bitLen blockLen getBit
  { bitLen, blockLen, getBit, getBlock, getBits := dfltGetBits c bitLen getBlock }

/-- `impl BitVec` giving `bit_len` and `get_block`. -/
def implGetBlock (bitLen : S → Res Nat) (getBlock : S → Nat → Res (BitVec w)) : BitVecOps w S where
  bitLen := bitLen
  blockLen := dfltBlockLen c w bitLen
  getBit := dfltGetBit c bitLen getBlock
  getBlock := getBlock
  getBits := dfltGetBits c bitLen getBlock

/-- `impl BitVecMut` giving `set_bit`, for a type with the given `impl BitVec`. -/
def implSetBit (o : BitVecOps w S) (setBit : S → Nat → Bool → Res S) : BitVecMutOps w S :=
  let setBlock := dfltSetBlock c o.bitLen o.blockLen setBit
  { o with setBit, setBlock, setBits := dfltSetBits c o.bitLen o.getBlock setBlock }

/-- `impl BitVecMut` giving `set_block`. -/
def implSetBlock (o : BitVecOps w S) (setBlock : S → Nat → BitVec w → Res S) : BitVecMutOps w S :=
  { o with
    setBit := dfltSetBit c o.bitLen o.getBlock setBlock
    setBlock := setBlock
    setBits := dfltSetBits c o.bitLen o.getBlock setBlock }

/-- `impl BitVecPush` giving `push_bit` and `pop_bit`. -/
def implPush (o : BitVecMutOps w S) (pushBit : S → Bool → Res S) (popBit : S → Res (Option Bool × S)) :
    BitVecPushOps w S :=
  let alignBlock := dfltAlignBlock c w o.bitLen pushBit
  { o with pushBit, popBit, alignBlock, pushBlock := dfltPushBlock c alignBlock pushBit }

end

/-! ### An `impl` block that gives neither

The compiler accepts it: every method it leaves out has a default. The defaults then call each other. -/

section Mono
open Lean.Order
variable {w : Nat} {S : Type} {c : Cfg} {γ : Type} [PartialOrder γ]

@[partial_fixpoint_monotone]
theorem monotone_forLoop {σ : Type} (n i : Nat) (s : σ) (f : γ → Nat → σ → Res σ) (hf : monotone f) :
    monotone (fun x => forLoop n i s (f x)) := by
  induction n generalizing i s with
  | zero => exact monotone_const _
  | succ n ih =>
    apply monotone_bind
    · exact monotone_apply s _ (monotone_apply i _ hf)
    · exact monotone_of_monotone_apply _ fun s => ih (i + 1) s

@[partial_fixpoint_monotone]
theorem monotone_forRange {σ : Type} (lo hi : Nat) (s : σ) (f : γ → Nat → σ → Res σ) (hf : monotone f) :
    monotone (fun x => forRange lo hi s (f x)) := monotone_forLoop _ _ _ f hf

@[partial_fixpoint_monotone]
theorem monotone_dfltGetBit (bitLen : S → Res Nat) (g : γ → S → Nat → Res (BitVec w)) (hg : monotone g)
    (s : S) (p : Nat) : monotone (fun x => dfltGetBit c bitLen (g x) s p) := by
  unfold dfltGetBit
  repeat' first | (exact monotone_apply _ _ (monotone_apply _ _ hg)) | monotonicity

@[partial_fixpoint_monotone]
theorem monotone_dfltGetBlock (bitLen blockLen : S → Res Nat) (g : γ → S → Nat → Res Bool) (hg : monotone g)
    (s : S) (p : Nat) : monotone (fun x => (dfltGetBlock c bitLen blockLen (g x) s p : Res (BitVec w))) := by
  unfold dfltGetBlock
  repeat' first | (exact monotone_apply _ _ (monotone_apply _ _ hg)) | monotonicity

@[partial_fixpoint_monotone]
theorem monotone_dfltSetBit (bitLen : S → Res Nat) (getBlock : S → Nat → Res (BitVec w))
    (g : γ → S → Nat → BitVec w → Res S) (hg : monotone g) (s : S) (p : Nat) (v : Bool) :
    monotone (fun x => dfltSetBit c bitLen getBlock (g x) s p v) := by
  unfold dfltSetBit
  repeat' first | (exact monotone_apply _ _ (monotone_apply _ _ (monotone_apply _ _ hg))) | monotonicity

@[partial_fixpoint_monotone]
theorem monotone_dfltSetBlock (bitLen blockLen : S → Res Nat) (g : γ → S → Nat → Bool → Res S) (hg : monotone g)
    (s : S) (p : Nat) (v : BitVec w) : monotone (fun x => dfltSetBlock c bitLen blockLen (g x) s p v) := by
  unfold dfltSetBlock
  repeat' first | (exact monotone_apply _ _ (monotone_apply _ _ (monotone_apply _ _ hg))) | monotonicity

end Mono

section
variable {S : Type} (c : Cfg) (w : Nat)

mutual
/-- `get_bit` when neither it nor `get_block` is given. -/
def neitherGetBit (bitLen : S → Res Nat) (s : S) (position : Nat) : Res Bool :=
  dfltGetBit c bitLen (fun s i => neitherGetBlock bitLen s i) s position
partial_fixpoint
/-- `get_block` when neither it nor `get_bit` is given. -/
def neitherGetBlock (bitLen : S → Res Nat) (s : S) (position : Nat) : Res (BitVec w) :=
  dfltGetBlock c bitLen (dfltBlockLen c w bitLen) (fun s i => neitherGetBit bitLen s i) s position
partial_fixpoint
end

variable {w}
mutual
/-- `set_bit` when neither it nor `set_block` is given. -/
def neitherSetBit (o : BitVecOps w S) (s : S) (position : Nat) (value : Bool) : Res S :=
  dfltSetBit c o.bitLen o.getBlock (fun s i v => neitherSetBlock o s i v) s position value
partial_fixpoint
/-- `set_block` when neither it nor `set_bit` is given. -/
def neitherSetBlock (o : BitVecOps w S) (s : S) (position : Nat) (value : BitVec w) : Res S :=
  dfltSetBlock c o.bitLen o.blockLen (fun s i v => neitherSetBit o s i v) s position value
partial_fixpoint
end
end
end Succinct
