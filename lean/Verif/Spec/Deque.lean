/-! A double-ended queue: what an iterator over a sequence is. -/
namespace Succinct.Spec

/-- calls that advance an iterator -/
inductive ItOp where
  | next
  | nextBack
  | nth (n : Nat)
deriving DecidableEq, Repr

/-- the result of a call and the elements left -/
def deque (xs : List α) : ItOp → Option α × List α
  | .next => (xs.head?, xs.tail)
  | .nextBack => (xs.getLast?, xs.dropLast)
  | .nth n => (xs[n]?, xs.drop (n + 1))

/-- a sequence of calls -/
def dequeRun (xs : List α) : List ItOp → List (Option α) × List α
  | [] => ([], xs)
  | op :: ops =>
    let (o, xs) := deque xs op
    let (os, xs) := dequeRun xs ops
    (o :: os, xs)

/-- `nth(n)` is never called with more than the number of elements left, `n ≤ len`. -/
def nthInRange (xs : List α) : List ItOp → Prop
  | [] => True
  | op :: ops => (∀ n, op = .nth n → n ≤ xs.length) ∧ nthInRange (deque xs op).2 ops

/-- The two positions of an iterator over `u64` positions that does not clip `nth`: the next element to give
from the front, and the end of those to give from the back. They cross when `nth` skips past the end. -/
def cursor : Nat × Nat → ItOp → Nat × Nat
  | (lo, hi), .next => if lo < hi then (lo + 1, hi) else (lo, hi)
  | (lo, hi), .nextBack => if lo < hi then (lo, hi - 1) else (lo, hi)
  | (lo, hi), .nth n =>
    if lo + n < hi then (lo + n + 1, hi) else if lo + n < 2 ^ 64 then (lo + n, hi) else (hi, hi)

end Succinct.Spec
