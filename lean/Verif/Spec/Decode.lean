import Verif.Spec.Codes
import Verif.CodeLaw
/-!
# What a decoder makes of a finite stream of bits
-/
namespace Succinct
open Spec

/-- The outcome of decoding a finite stream of bits. -/
inductive Outcome where
  /-- `Ok(Some(v))`, and `rest` is left in the source -/
  | value (v : Nat) (rest : List Bool)
  /-- `Ok(None)`, and the source is empty -/
  | nothing
  /-- the error `UnexpectedEof`, and the source is empty -/
  | eof
  /-- the error `InvalidData`, and `rest` is left in the source -/
  | invalid (rest : List Bool)
  | panics
deriving DecidableEq, Repr

/-- From any source holding `bits`, however it is implemented, decoding has the outcome `o`. -/
def Yields (K : Code) (bits : List Bool) (o : Outcome) : Prop :=
  ∀ (σ : Type) (R : BitRead σ) (Rep : σ → List Bool → Prop), LawfulSource R Rep → ∀ s, Rep s bits →
    match o with
    | .value v rest => ∃ s', K.decode R s = .ok (.ok (some v), s') ∧ Rep s' rest
    | .nothing => ∃ s', K.decode R s = .ok (.ok none, s') ∧ Rep s' []
    | .eof => ∃ s', K.decode R s = .ok (.error .unexpectedEof, s') ∧ Rep s' []
    | .invalid rest => ∃ s', K.decode R s = .ok (.error .invalidData, s') ∧ Rep s' rest
    | .panics => K.decode R s = .panic

/-- Unary: the number of zeros before the first one. -/
def unaryOut (bits : List Bool) : Outcome :=
  match bits.dropWhile (fun b => !b) with
  | [] => if bits = [] then .nothing else .eof
  | _ :: rest => .value (bits.takeWhile (fun b => !b)).length rest

/-- Elias: the header tells the number of further bits, at most 63. -/
def eliasOut : Outcome → Outcome
  | .value n rest =>
    if 63 < n then .invalid rest
    else if rest.length < n then .eof
    else .value (2 ^ n + bitsVal (rest.take n)) (rest.drop n)
  | o => o

/-- Lift0: one less; 0 is out of range. -/
def lift0Out (debug : Bool) : Outcome → Outcome
  | .value 0 rest => if debug then .panics else .value (2 ^ 64 - 1) rest
  | .value (n + 1) rest => .value n rest
  | o => o

/-- Omega, having decoded `r` so far: a 0 ends the word; after a 1, the next number is the 1 followed by `r`
more bits. For `64 ≤ r` the code goes wrong: `result as usize` loses the high bits of `r` on 32-bit targets,
`result as u32` on all targets, and the shift overflows. -/
def omegaOut (c : Cfg) (r : Nat) : List Bool → Outcome
  | [] => if r = 1 then .nothing else .eof
  | false :: rest => .value r rest
  | true :: rest =>
    if rest.length < r % 2 ^ c.usz then .eof
    else if c.debug = true ∧ 64 ≤ r % 2 ^ 32 then .panics
    else omegaOut c (bitsVal (rest.take (r % 2 ^ c.usz)).reverse % 2 ^ 64 ||| 2 ^ (r % 64)) (rest.drop (r % 2 ^ c.usz))
termination_by bits => bits.length
decreasing_by simp; omega

end Succinct
