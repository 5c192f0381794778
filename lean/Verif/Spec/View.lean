import Verif.Spec.BitVector
/-!
# Views of a bit vector

Reading and writing a bit vector directly or through slices of slices, on a plain list of booleans. `none` means the call must
panic. Nothing here refers to the model of the code.
-/
namespace Succinct.Spec

/-- a range `lo..hi`, where either end may be left out -/
structure Rng where
  lo : Option Nat
  hi : Option Nat
deriving DecidableEq, Repr

/-- its ends in a sequence of `n` bits -/
def Rng.ends (r : Rng) (n : Nat) : Nat × Nat := (r.lo.getD 0, r.hi.getD n)

/-- Start and length of what is left of the `n` bits from `a` on, each range counting within the one before. -/
def cut (a n : Nat) : List Rng → Option (Nat × Nat)
  | [] => some (a, n)
  | r :: rs => if (r.ends n).2 ≤ n then cut (a + (r.ends n).1) ((r.ends n).2 - (r.ends n).1) rs else none

/-- No range is reversed. -/
def cutOk (n : Nat) : List Rng → Prop
  | [] => True
  | r :: rs => (r.ends n).2 ≤ n → (r.ends n).1 ≤ (r.ends n).2 ∧ cutOk ((r.ends n).2 - (r.ends n).1) rs

/-- a call that reads -/
inductive RdOp where
  | len
  | bit (i : Nat)
  | bits (p n : Nat)
deriving DecidableEq, Repr

/-- a call that writes -/
inductive WrOp (w : Nat) where
  | bit (i : Nat) (b : Bool)
  | bits (p n : Nat) (x : BitVec w)
deriving DecidableEq, Repr

/-- Reading through slices: within the window, as if the window were all there is. -/
def readSpec (w : Nat) (l : List Bool) (rs : List Rng) (op : RdOp) : Option (BvOut w) :=
  match cut 0 l.length rs with
  | none => none
  | some (a, n) =>
    let v := (l.drop a).take n
    match op with
    | .len => some (.num n)
    | .bit i => v[i]?.map .bit
    | .bits p m => if p + m ≤ n then some (.block (BitVec.ofNat w (bitsVal ((v.drop p).take m)))) else none

/-- Writing through slices: bits outside the window are out of reach. -/
def writeSpec (l : List Bool) (rs : List Rng) (op : WrOp w) : Option (List Bool) :=
  match cut 0 l.length rs with
  | none => none
  | some (a, n) =>
    match op with
    | .bit i b => if i < n then some (l.set (a + i) b) else none
    | .bits p m x => if p + m ≤ n then some (overwrite l (a + p) (natBits m x.toNat)) else none

/-- positions are machine numbers, a bit field is not empty and at most one block wide -/
def RdOp.Ok (w : Nat) : RdOp → Prop
  | .len => True
  | .bit i => i < 2 ^ 64
  | .bits p n => 1 ≤ n ∧ n ≤ w ∧ p + n < 2 ^ 64

def WrOp.Ok : WrOp w → Prop
  | .bit i _ => i < 2 ^ 64
  | .bits p n _ => 1 ≤ n ∧ n ≤ w ∧ p + n < 2 ^ 64

end Succinct.Spec
