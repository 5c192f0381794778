import Verif.Spec
import Verif.Rust
/-!
# A bit buffer is a file of bits with a cursor

The operations of a bit buffer and what they do to a list of booleans with a cursor. `none` means the
call must panic. Of the model only the type of I/O errors is used.
-/
namespace Succinct.Spec

/-- one call on a bit buffer -/
inductive BufOp where
  | write (b : Bool)
  | read
  | seek (p : Nat)
  | position
  | bitLen
  | getBit (i : Nat)
  | setBit (i : Nat) (b : Bool)
deriving DecidableEq, Repr

/-- what a call returns -/
inductive BufOut where
  | unit
  | optBit (o : Option Bool)
  | num (n : Nat)
  | bit (b : Bool)
  | err (e : IoErr)
deriving DecidableEq, Repr

/-- the contents of the file and the cursor -/
structure BitFile where
  bits : List Bool
  pos : Nat
deriving DecidableEq, Repr

/-- the effect of a call -/
def bufSpec (f : BitFile) : BufOp → Option (BufOut × BitFile)
  | .write b => some (.unit, ⟨f.bits.take f.pos ++ b :: f.bits.drop (f.pos + 1), f.pos + 1⟩)
  | .read =>
    match f.bits[f.pos]? with
    | some b => some (.optBit (some b), ⟨f.bits, f.pos + 1⟩)
    | none => some (.optBit none, f)
  | .seek p => if p ≤ f.bits.length then some (.unit, ⟨f.bits, p⟩) else some (.err .notFound, f)
  | .position => some (.num f.pos, f)
  | .bitLen => some (.num f.bits.length, f)
  | .getBit i => f.bits[i]?.map fun b => (.bit b, f)
  | .setBit i b => if i < f.bits.length then some (.unit, ⟨f.bits.set i b, f.pos⟩) else none

/-- Arguments are `u64`s, and a write at the end leaves a vector of acceptable length. -/
def BufOp.Ok (Fit : Nat → Prop) (f : BitFile) : BufOp → Prop
  | .write _ => f.pos = f.bits.length → Fit (f.bits.length + 1)
  | .seek p => p < 2 ^ 64
  | .getBit i => i < 2 ^ 64
  | .setBit i _ => i < 2 ^ 64
  | _ => True

/-- A sequence of calls; stops at the first panic. -/
def bufSpecRun (f : BitFile) : List BufOp → Option (List BufOut × BitFile)
  | [] => some ([], f)
  | op :: ops => do
    let (o, f) ← bufSpec f op
    let (os, f) ← bufSpecRun f ops
    some (o :: os, f)

/-- Every call of the sequence is `Ok` where it is made. -/
def bufOpsOk (Fit : Nat → Prop) (f : BitFile) : List BufOp → Prop
  | [] => True
  | op :: ops => op.Ok Fit f ∧ ∀ r, bufSpec f op = some r → bufOpsOk Fit r.2 ops

end Succinct.Spec
