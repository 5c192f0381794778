import Verif.Spec
/-!
# The codewords of the universal codes

Each code is specified by its codewords, in the way the literature defines them. Nothing here
refers to the model of the code.
-/
namespace Succinct.Spec

/-- Unary: `n` zeros and a one. -/
def unaryWord (n : Nat) : List Bool := List.replicate n false ++ [true]

/-- An Elias code: the header is the word of ⌊lg v⌋, followed by the low ⌊lg v⌋ bits of `v`. -/
def eliasWord (header : Nat → List Bool) (v : Nat) : List Bool := header v.log2 ++ natBits v.log2 v

/-- Elias gamma. -/
def gammaWord (v : Nat) : List Bool := eliasWord unaryWord v

/-- Elias delta: the header is the gamma word of ⌊lg v⌋ + 1. -/
def deltaWord (v : Nat) : List Bool := eliasWord (fun n => gammaWord (n + 1)) v

/-- The groups of an omega word: `v` in binary, preceded by the groups of ⌊lg v⌋. -/
def omegaGroups (v : Nat) : List Bool :=
  if _h : v ≤ 1 then [] else omegaGroups v.log2 ++ (natBits (v.log2 + 1) v).reverse
termination_by v
decreasing_by exact (Nat.log2_lt (by omega)).2 Nat.lt_two_pow_self

/-- Elias omega. -/
def omegaWord (v : Nat) : List Bool := omegaGroups v ++ [false]

/-- The digits of `v` in base `b`, most significant first, without leading zeros. -/
def digitsOf (b v : Nat) : List Nat :=
  if _h : v = 0 ∨ b ≤ 1 then [] else digitsOf b (v / b) ++ [v % b]
termination_by v
decreasing_by exact Nat.div_lt_self (by omega) (by omega)

/-- The comma code: base `2^n - 1`, `n` bits per digit, terminated by the digit `2^n - 1`. -/
def commaWord (n v : Nat) : List Bool :=
  (digitsOf (2 ^ n - 1) v).flatMap (natBits n) ++ natBits n (2 ^ n - 1)

/-- The Fibonacci numbers. -/
def fib : Nat → Nat
  | 0 => 0
  | 1 => 1
  | n + 2 => fib n + fib (n + 1)

/-- The sum of the Fibonacci numbers `fib k, fib (k + 1), …` selected by the bits. -/
def fibSum (k : Nat) : List Bool → Nat
  | [] => 0
  | b :: bs => (if b then fib k else 0) + fibSum (k + 1) bs

/-- No two adjacent ones. -/
def NoAdj : List Bool → Prop
  | true :: true :: _ => False
  | _ :: bs => NoAdj bs
  | [] => True

/-- `z` is the Zeckendorf representation of `v`: it selects Fibonacci numbers from `fib 2` on that
sum up to `v`, no two of them adjacent, the last bit being a one. -/
structure IsZeckendorf (v : Nat) (z : List Bool) : Prop where
  sum : fibSum 2 z = v
  noAdj : NoAdj z
  last : z.getLast? = some true

/-- `l` is the Fibonacci codeword of `v`: its Zeckendorf representation followed by a one. -/
def IsFibWord (v : Nat) (l : List Bool) : Prop := ∃ z, IsZeckendorf v z ∧ l = z ++ [true]

end Succinct.Spec
