import Verif.Spec
/-!
# A vector of `k`-bit integers is a list of numbers below `2^k`

The elements sit next to each other in one bit string (`packBits`), which some operations expose.
`none` means the call must panic. Nothing here refers to the model of the code.
-/
namespace Succinct.Spec

/-- Cut a bit string into `k`-bit numbers (an incomplete last group is dropped). -/
def unpack (k : Nat) (bits : List Bool) : List Nat :=
  (List.range (bits.length / k)).map fun i => bitsVal ((bits.drop (i * k)).take k)

/-- one call on an integer vector with block size `w` -/
inductive IvOp (w : Nat) where
  | push (x : BitVec w)
  | pop
  | set (i : Nat) (x : BitVec w)
  | setRandom (off n i : Nat) (x : BitVec w)
  | setBlock (i : Nat) (x : BitVec w)
  | truncate (n : Nat)
  | blockTruncate (n : Nat)
  | resize (n : Nat) (x : BitVec w)
  | blockResize (n : Nat) (x : BitVec w)
  | clear
  | len
  | isEmpty
  | get (i : Nat)
  | getRandom (off n i : Nat)
deriving DecidableEq, Repr

/-- what a call returns -/
inductive IvOut where
  | unit
  | num (n : Nat)
  | optNum (o : Option Nat)
  | flag (b : Bool)
deriving DecidableEq, Repr

/-- The effect of a call on the list of elements; `k` is the element width. -/
def ivSpec (w k : Nat) (xs : List Nat) : IvOp w → Option (IvOut × List Nat)
  | .push x => if x.toNat < 2 ^ k then some (.unit, xs ++ [x.toNat]) else none
  | .pop => some (.optNum xs.getLast?, xs.dropLast)
  | .set i x => if i < xs.length ∧ x.toNat < 2 ^ k then some (.unit, xs.set i x.toNat) else none
  | .setRandom off n i x =>
    if off + i * n + n ≤ xs.length * k ∧ x.toNat < 2 ^ n then
      some (.unit, unpack k (overwrite (packBits k xs) (off + i * n) (natBits n x.toNat)))
    else none
  | .setBlock i x =>
    if i < blocksFor w (xs.length * k) then
      some (.unit, unpack k (overwrite (packBits k xs) (i * w) ((blockBits x).take (xs.length * k - i * w))))
    else none
  | .truncate n => some (.unit, xs.take n)
  | .blockTruncate n => some (.unit, unpack k ((packBits k xs).take (n * w)))
  | .resize n x => some (.unit, xs.take n ++ List.replicate (n - xs.length) (x.toNat % 2 ^ k))
  | .blockResize n x =>
    some (.unit, unpack k ((padTo w (packBits k xs)).take (n * w) ++
      (List.replicate (n - blocksFor w (xs.length * k)) (blockBits x)).flatten))
  | .clear => some (.unit, [])
  | .len => some (.num xs.length, xs)
  | .isEmpty => some (.flag xs.isEmpty, xs)
  | .get i => xs[i]?.map fun x => (.num x, xs)
  | .getRandom off n i =>
    if off + i * n + n ≤ xs.length * k then
      some (.num (bitsVal (((packBits k xs).drop (off + i * n)).take n)), xs)
    else none

/-- Arguments are machine numbers of their Rust type, a reinterpreted element is not empty and at most
one block wide, the vector stays addressable, and an index into a vector of block-sized elements is a
`usize` (it is a `u64` in the API, see `C76`). -/
def IvOp.Ok (usz w k : Nat) (xs : List Nat) : IvOp w → Prop
  | .push _ => Fits usz w (xs.length * k + k)
  | .set i _ => i < 2 ^ 64 ∧ (k = w → i < 2 ^ usz)
  | .setRandom off n i _ => off < 2 ^ 64 ∧ i < 2 ^ 64 ∧ 1 ≤ n ∧ n ≤ w
  | .setBlock i _ => i < 2 ^ usz
  | .truncate n => n < 2 ^ 64
  | .blockTruncate n => n < 2 ^ usz
  | .resize n _ => Fits usz w (n * k)
  | .blockResize n _ => Fits usz w (n * w)
  | .get i => i < 2 ^ 64 ∧ (k = w → i < 2 ^ usz)
  | .getRandom off n i => off < 2 ^ 64 ∧ i < 2 ^ 64 ∧ 1 ≤ n ∧ n ≤ w
  | _ => True

/-- A sequence of calls; stops at the first panic. -/
def ivSpecRun (w k : Nat) (xs : List Nat) : List (IvOp w) → Option (List IvOut × List Nat)
  | [] => some ([], xs)
  | op :: ops => do
    let (o, xs) ← ivSpec w k xs op
    let (os, xs) ← ivSpecRun w k xs ops
    some (o :: os, xs)

/-- Every call of the sequence is `Ok` where it is made. -/
def ivOpsOk (usz w k : Nat) (xs : List Nat) : List (IvOp w) → Prop
  | [] => True
  | op :: ops => op.Ok usz w k xs ∧ ∀ r, ivSpec w k xs op = some r → ivOpsOk usz w k r.2 ops

/-- constructors, all taking the element width `k` -/
inductive IvInit (w : Nat) where
  | new
  | withCapacity (n : Nat)
  | blockWithCapacity (n : Nat)
  | withFill (n : Nat) (x : BitVec w)
  | blockWithFill (n : Nat) (x : BitVec w)
deriving DecidableEq, Repr

/-- the elements a constructor makes -/
def IvInit.elems (k : Nat) : IvInit w → List Nat
  | .new => []
  | .withCapacity _ => []
  | .blockWithCapacity _ => []
  | .withFill n x => List.replicate n (x.toNat % 2 ^ k)
  | .blockWithFill n x => unpack k (List.replicate n (blockBits x)).flatten

/-- the requested size is addressable -/
def IvInit.Ok (usz k : Nat) : IvInit w → Prop
  | .new => True
  | .withCapacity n => Fits usz w (n * k)
  | .blockWithCapacity _ => True
  | .withFill n _ => Fits usz w (n * k)
  | .blockWithFill n _ => Fits usz w (n * w)

end Succinct.Spec
