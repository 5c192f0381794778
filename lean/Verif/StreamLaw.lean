import Verif.Spec
import Verif.Model.Stream
/-!
# Sources and sinks of bits

How the stream properties talk about an arbitrary implementation of `BitRead`/`BitWrite`.
Nothing is assumed of an implementation unless a theorem says so: `Reads` describes what a source
happened to deliver, `writeAll` is the plain writing of a list of bits, one by one, stopping at the
first error, and `LawfulSource`/`LawfulSink` are the contracts of a queue of bits.
-/
namespace Succinct
open Spec

/-- Starting in state `s` the source delivers the bits `bits`, one per `read_bit`, and is then in
state `s'`. -/
inductive Reads (R : BitRead σ) : σ → List Bool → σ → Prop
  | nil (s : σ) : Reads R s [] s
  | cons {s s1 s2 : σ} {b : Bool} {bs : List Bool} :
      R.readBit s = .ok (.ok (some b), s1) → Reads R s1 bs s2 → Reads R s (b :: bs) s2

/-- The source does not deliver a bit: it is at its end, or fails, or panics, or hangs. -/
def NoBit (r : Res (Except IoErr (Option Bool) × σ)) : Prop :=
  ∀ b s, r ≠ .ok (.ok (some b), s)

/-- What a reading method returns when its source stops delivering bits with outcome `r`: the end of
the stream is reported as `eof`, everything else is passed on as it is. -/
def stopWith (eof : Except IoErr α) : Res (Except IoErr (Option Bool) × σ) → Res (Except IoErr α × σ)
  | .ok (.ok _, s) => .ok (eof, s)
  | .ok (.error e, s) => .ok (.error e, s)
  | .panic => .panic
  | .diverge => .diverge

/-- Write the bits one after another; stop at the first error. -/
def writeAll (W : BitWrite σ) : List Bool → SM σ Unit
  | [] => pure ()
  | b :: bs => do
    W.writeBit b
    writeAll W bs

/-- The mathematical value of an integer of a signed or unsigned type. -/
def intVal (sg : Bool) (v : BitVec w) : Int := if sg then v.toInt else v.toNat

/-- A source that delivers a finite list of bits and then reports the end of the stream, forever. -/
structure LawfulSource (R : BitRead σ) (Rep : σ → List Bool → Prop) : Prop where
  some : ∀ {s b l}, Rep s (b :: l) → ∃ s', R.readBit s = .ok (.ok (some b), s') ∧ Rep s' l
  none : ∀ {s}, Rep s [] → ∃ s', R.readBit s = .ok (.ok none, s') ∧ Rep s' []

/-- A sink that accepts every bit, as long as the list of bits received is of a length satisfying
`Fit`. -/
structure LawfulSink (W : BitWrite σ) (Rep : σ → List Bool → Prop) (Fit : Nat → Prop) : Prop where
  write : ∀ {s l}, Rep s l → ∀ b, Fit (l.length + 1) →
    ∃ s', W.writeBit b s = .ok (.ok (), s') ∧ Rep s' (l ++ [b])

end Succinct
