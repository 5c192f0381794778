import Verif.Spec.CodeName
import Verif.Spec.Decode
/-!
# What every code makes of every value and of every stream

Also where the code goes wrong: values and parameters no code is meant for, and bits that are no codeword. Nothing here
refers to the model of the codes.
-/
namespace Succinct

/-- The outcome of encoding a value. -/
inductive EncOutcome where
  /-- these bits are written -/
  | word (l : List Bool)
  /-- the error `InvalidData`, and nothing is written -/
  | invalid
  /-- before anything is written -/
  | panics
  /-- an endless loop, before anything is written -/
  | hangs
deriving DecidableEq, Repr

namespace Spec

/-- the Fibonacci codeword of a positive number -/
noncomputable def fibWordOf (v : Nat) : List Bool :=
  open Classical in
  if h : ∃ l, IsFibWord v l then h.choose else []

/-- `Comma(n)` computes the base and the comma from `n % 64`, without overflow checks. Base 0 is a division by zero, base 1
an endless loop. -/
def commaEnc (debug : Bool) (n v : Nat) : EncOutcome :=
  if debug = true ∧ 64 ≤ n then .panics
  else
    let base := 2 ^ (n % 64) - 1
    if v ≠ 0 ∧ base = 0 then .panics
    else if v ≠ 0 ∧ base = 1 then .hangs
    else .word ((digitsOf base v).flatMap (natBits n) ++ natBits n base)

/-- What encoding a `u64` does. Omega takes 0 for 1. -/
noncomputable def CodeName.encOut (debug : Bool) : CodeName → Nat → EncOutcome
  | .unary, v => .word (unaryWord v)
  | .omega, v => .word (omegaWord v)
  | .comma n, v => commaEnc debug n v
  | .fibonacci, v => if v = 0 then .panics else if v < fib 93 then .word (fibWordOf v) else .invalid
  | .elias k, v =>
    if v = 0 then .panics
    else match k.encOut debug v.log2 with
      | .word h => .word (h ++ natBits v.log2 v)
      | o => o
  | .lift0 k, v => if v + 1 < 2 ^ 64 then k.encOut debug (v + 1) else .invalid

/-- The digits before the first comma, and what follows the comma if there is one. A digit is `n` bits, of which the
lowest 64 count. -/
def commaSplit (n comma : Nat) (bits : List Bool) : List Nat × Option (List Bool) :=
  if _h : n = 0 ∨ bits.length < n then ([], none)
  else if bitsVal (bits.take n) % 2 ^ 64 = comma then ([], some (bits.drop n))
  else
    let r := commaSplit n comma (bits.drop n)
    (bitsVal (bits.take n) % 2 ^ 64 :: r.1, r.2)
termination_by bits.length
decreasing_by simp; omega

/-- Comma: the number with the given digits. -/
def commaOut (debug : Bool) (n : Nat) (bits : List Bool) : Outcome :=
  if n = 0 then .value 0 bits
  else if debug = true ∧ 64 ≤ n then .panics
  else
    let base := 2 ^ (n % 64) - 1
    let r := commaSplit n base bits
    let v := r.1.foldl (fun v d => v * base + d) 0
    if debug = true ∧ 2 ^ 64 ≤ v then .panics
    else match r.2 with
      | some rest => .value (v % 2 ^ 64) rest
      | none => if bits = [] then .nothing else .eof

/-- The bits up to the first of two adjacent ones, and what follows the second. -/
def fibSplit : List Bool → Option (List Bool × List Bool)
  | [] => none
  | true :: true :: rest => some ([true], rest)
  | b :: bits => (fibSplit bits).map fun r => (b :: r.1, r.2)

/-- Fibonacci: at most 92 bits are read. Zeros alone count as the end of the stream. -/
def fibOut (debug : Bool) (bits : List Bool) : Outcome :=
  let long := if debug = true ∧ 2 ^ 64 ≤ fibSum 2 (bits.take 92) then Outcome.panics else .invalid (bits.drop 92)
  match fibSplit bits with
  | some (z, rest) => if z.length < 92 then .value (fibSum 2 z) rest else long
  | none => if bits.length < 92 then (if true ∈ bits then .eof else .nothing) else long

/-- What decoding a stream of bits does. -/
def CodeName.decOut (c : Cfg) : CodeName → List Bool → Outcome
  | .unary, bits => unaryOut bits
  | .omega, bits => omegaOut c 1 bits
  | .comma n, bits => commaOut c.debug n bits
  | .fibonacci, bits => fibOut c.debug bits
  | .elias k, bits => eliasOut (k.decOut c bits)
  | .lift0 k, bits => lift0Out c.debug (k.decOut c bits)

end Spec
end Succinct
