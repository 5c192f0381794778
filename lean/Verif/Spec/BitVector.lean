import Verif.Spec
/-!
# A bit vector is a list of booleans

The operations of a growable bit vector with block size `w`, and what they do to a plain list of
booleans. `none` means the call must panic. Nothing here refers to the model of the code.
-/
namespace Succinct.Spec

/-- one call on a bit vector (`x`, `b` are values, `i`, `p`, `n` positions and lengths) -/
inductive BvOp (w : Nat) where
  | pushBit (b : Bool)
  | popBit
  | setBit (i : Nat) (b : Bool)
  | setBlock (i : Nat) (x : BitVec w)
  | setBits (p n : Nat) (x : BitVec w)
  | pushBlock (x : BitVec w)
  | alignBlock (b : Bool)
  | resize (n : Nat) (b : Bool)
  | blockResize (n : Nat) (x : BitVec w)
  | truncate (n : Nat)
  | blockTruncate (n : Nat)
  | clear
  | bitLen
  | blockLen
  | getBit (i : Nat)
  | getBlock (i : Nat)
  | getBits (p n : Nat)
deriving DecidableEq, Repr

/-- what a call returns -/
inductive BvOut (w : Nat) where
  | unit
  | bit (b : Bool)
  | optBit (o : Option Bool)
  | num (n : Nat)
  | block (x : BitVec w)
deriving DecidableEq, Repr

/-- The effect of a call on a list of booleans. -/
def bvSpec (w : Nat) (bits : List Bool) : BvOp w → Option (BvOut w × List Bool)
  | .pushBit b => some (.unit, bits ++ [b])
  | .popBit => some (.optBit bits.getLast?, bits.dropLast)
  | .setBit i b => if i < bits.length then some (.unit, bits.set i b) else none
  | .setBlock i x =>
    if i < blocksFor w bits.length then
      some (.unit, overwrite bits (i * w) ((blockBits x).take (bits.length - i * w)))
    else none
  | .setBits p n x =>
    if p + n ≤ bits.length then some (.unit, overwrite bits p (natBits n x.toNat)) else none
  | .pushBlock x => some (.unit, padTo w bits ++ blockBits x)
  | .alignBlock b => some (.unit, bits ++ List.replicate (blocksFor w bits.length * w - bits.length) b)
  | .resize n b => some (.unit, bits.take n ++ List.replicate (n - bits.length) b)
  | .blockResize n x =>
    some (.unit, (padTo w bits).take (n * w) ++
      (List.replicate (n - blocksFor w bits.length) (blockBits x)).flatten)
  | .truncate n => some (.unit, bits.take n)
  | .blockTruncate n => some (.unit, bits.take (n * w))
  | .clear => some (.unit, [])
  | .bitLen => some (.num bits.length, bits)
  | .blockLen => some (.num (blocksFor w bits.length), bits)
  | .getBit i => bits[i]?.map fun b => (.bit b, bits)
  | .getBlock i =>
    if i < blocksFor w bits.length then
      some (.block (BitVec.ofNat w (bitsVal ((bits.drop (i * w)).take w))), bits)
    else none
  | .getBits p n =>
    if p + n ≤ bits.length then some (.block (BitVec.ofNat w (bitsVal ((bits.drop p).take n))), bits)
    else none

/-- Arguments are machine numbers of their Rust type, a bit field is not empty and at most one block
wide, and the vector stays addressable. -/
def BvOp.Ok (usz w : Nat) (bits : List Bool) : BvOp w → Prop
  | .pushBit _ => Fits usz w (bits.length + 1)
  | .setBit i _ => i < 2 ^ 64
  | .setBlock i _ => i < 2 ^ usz
  | .setBits p n _ => p < 2 ^ 64 ∧ 1 ≤ n ∧ n ≤ w
  | .pushBlock _ => Fits usz w (blocksFor w bits.length * w + w)
  | .resize n _ => Fits usz w n
  | .blockResize n _ => Fits usz w (n * w)
  | .truncate n => n < 2 ^ 64
  | .blockTruncate n => n < 2 ^ usz
  | .getBit i => i < 2 ^ 64
  | .getBlock i => i < 2 ^ usz
  | .getBits p n => p < 2 ^ 64 ∧ 1 ≤ n ∧ n ≤ w
  | _ => True

/-- A sequence of calls; stops at the first panic. -/
def bvSpecRun (w : Nat) (bits : List Bool) : List (BvOp w) → Option (List (BvOut w) × List Bool)
  | [] => some ([], bits)
  | op :: ops => do
    let (o, bits) ← bvSpec w bits op
    let (os, bits) ← bvSpecRun w bits ops
    some (o :: os, bits)

/-- Every call of the sequence is `Ok` where it is made. -/
def bvOpsOk (usz w : Nat) (bits : List Bool) : List (BvOp w) → Prop
  | [] => True
  | op :: ops => op.Ok usz w bits ∧ ∀ r, bvSpec w bits op = some r → bvOpsOk usz w r.2 ops

/-- constructors -/
inductive BvInit (w : Nat) where
  | new
  | withCapacity (n : Nat)
  | withFill (n : Nat) (b : Bool)
  | blockWithFill (n : Nat) (x : BitVec w)
deriving DecidableEq, Repr

/-- the bits a constructor makes -/
def BvInit.bits : BvInit w → List Bool
  | .new => []
  | .withCapacity _ => []
  | .withFill n b => List.replicate n b
  | .blockWithFill n x => (List.replicate n (blockBits x)).flatten

/-- the requested size is addressable -/
def BvInit.Ok (usz : Nat) : BvInit w → Prop
  | .new => True
  | .withCapacity n => Fits usz w n
  | .withFill n _ => Fits usz w n
  | .blockWithFill n _ => Fits usz w (n * w)

end Succinct.Spec
