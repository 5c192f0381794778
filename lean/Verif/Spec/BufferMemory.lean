import Verif.Spec.EncodeMemory
import Verif.Spec.Buffer
/-!
# A file of bits in blocks of memory that may be refused

The file of `Verif/Spec/Buffer.lean` with the capacity, in blocks, of the memory it is kept in.
-/
namespace Succinct

/-- The capacity after `k` more entries. -/
def Heap.capAfter (H : Heap) : Nat → Nat → Nat → Nat
  | _, cap, 0 => cap
  | len, cap, k + 1 => H.capAfter (len + 1) (H.after len cap) k

namespace Spec

/-- the file, and the capacity -/
structure HeldFile extends BitFile where
  cap : Nat
deriving DecidableEq, Repr

/-- The blocks that `n` more bits need. -/
def moreBlocks (w : Nat) (bits : List Bool) (n : Nat) : Nat := blocksFor w (bits.length + n) - blocksFor w bits.length

/-- `n` more bits can be had. -/
def HeldFile.CanExtend (H : Heap) (w : Nat) (f : HeldFile) (n : Nat) : Prop := H.CanPush (blocksFor w f.bits.length) f.cap (moreBlocks w f.bits n)

instance (H : Heap) (w : Nat) (f : HeldFile) (n : Nat) : Decidable (f.CanExtend H w n) := by unfold HeldFile.CanExtend; infer_instance

/-- The capacity then. -/
def HeldFile.extended (H : Heap) (w : Nat) (f : HeldFile) (n : Nat) : Nat := H.capAfter (blocksFor w f.bits.length) f.cap (moreBlocks w f.bits n)

/-- The effect of a call: only a write at the end may need memory. -/
def heldSpec (H : Heap) (w : Nat) (f : HeldFile) (op : BufOp) : Option (BufOut × HeldFile) :=
  match op, bufSpec f.toBitFile op with
  | .write _, some (o, g) =>
    let n := g.bits.length - f.bits.length
    if f.CanExtend H w n then some (o, ⟨g, f.extended H w n⟩) else none
  | _, some (o, g) => some (o, ⟨g, f.cap⟩)
  | _, none => none

/-- A sequence of calls; stops at the first panic. -/
def heldSpecRun (H : Heap) (w : Nat) (f : HeldFile) : List BufOp → Option (List BufOut × HeldFile)
  | [] => some ([], f)
  | op :: ops => do
    let (o, f) ← heldSpec H w f op
    let (os, f) ← heldSpecRun H w f ops
    some (o :: os, f)

/-- Arguments are `u64`s. -/
def BufOp.Arg : BufOp → Prop
  | .seek p => p < 2 ^ 64
  | .getBit i => i < 2 ^ 64
  | .setBit i _ => i < 2 ^ 64
  | _ => True

/-- How encoding a list of values at the end of a file ends. -/
inductive EncAllOutcome where
  /-- all values have been written -/
  | written (f : HeldFile)
  /-- the error `InvalidData`, and what has been written before -/
  | invalid (f : HeldFile)
  | panics
  | hangs
deriving DecidableEq, Repr

/-- Encoding values one after another at the end of a file. -/
noncomputable def encAllOut (M : Stacks) (H : Heap) (w : Nat) (debug : Bool) (k : CodeName) : List Nat → HeldFile → EncAllOutcome
  | [], f => .written f
  | v :: vs, f =>
    match k.encOutH M debug v with
    | .word l =>
      if f.CanExtend H w l.length then
        encAllOut M H w debug k vs ⟨⟨f.bits ++ l, f.bits.length + l.length⟩, f.extended H w l.length⟩
      else .panics
    | .invalid => .invalid f
    | .panics => .panics
    | .hangs => .hangs

end Spec
end Succinct
