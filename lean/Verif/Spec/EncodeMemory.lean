import Verif.Spec.CodeOutcome
import Verif.Model.Memory
/-!
# What encoding does when memory may be refused

The encoders of `Omega`, `Comma` and `Fibonacci` keep what they will write on a stack that grows one entry at a time. Whether a stack can
grow depends only on the allocator, not on the entries.
-/
namespace Succinct

/-- The allocators of the stacks of the encoders, with capacities in entries: pairs of a `usize` and a `u64`, `u64`s, `bool`s. -/
structure Stacks where
  omega : Heap
  comma : Heap
  fib : Heap

/-- There is room for one more entry, or a larger allocation is granted. -/
def Heap.CanGrow (H : Heap) (len cap : Nat) : Prop := len < cap ∨ H.Grants (H.grow len cap 1)

/-- The capacity after one more entry. -/
def Heap.after (H : Heap) (len cap : Nat) : Nat := if len < cap then cap else H.grow len cap 1

/-- `k` more entries can be pushed. -/
def Heap.CanPush (H : Heap) : Nat → Nat → Nat → Prop
  | _, _, 0 => True
  | len, cap, k + 1 => H.CanGrow len cap ∧ H.CanPush (len + 1) (H.after len cap) k

instance (H : Heap) (len cap : Nat) : Decidable (H.CanGrow len cap) := by unfold Heap.CanGrow; infer_instance

instance Heap.decCanPush (H : Heap) : (len cap k : Nat) → Decidable (H.CanPush len cap k)
  | _, _, 0 => .isTrue trivial
  | len, cap, k + 1 =>
    have := H.decCanPush (len + 1) (H.after len cap) k
    inferInstanceAs (Decidable (_ ∧ _))

namespace Spec

/-- The groups of the omega codeword of `v`: `v`, `⌊lg v⌋`, `⌊lg ⌊lg v⌋⌋`, … while greater than 1. -/
def omegaDepth (v : Nat) : Nat :=
  if _h : v ≤ 1 then 0 else omegaDepth v.log2 + 1
decreasing_by exact (Nat.log2_lt (by omega)).2 Nat.lt_two_pow_self

/-- The number of digits before the closing 1 of the Fibonacci codeword. -/
noncomputable def fibDigits (v : Nat) : Nat := (fibWordOf v).length - 1

/-- What encoding a `u64` does, with stacks in memory given by `M`. -/
noncomputable def CodeName.encOutH (M : Stacks) (debug : Bool) : CodeName → Nat → EncOutcome
  | .unary, v => .word (unaryWord v)
  | .omega, v => open Classical in if M.omega.CanPush 0 0 (omegaDepth v) then .word (omegaWord v) else .panics
  | .comma n, v =>
    match commaEnc debug n v with
    | .word l => open Classical in if M.comma.CanPush 0 0 (digitsOf (2 ^ (n % 64) - 1) v).length then .word l else .panics
    | .hangs => open Classical in if ∀ k, M.comma.CanPush 0 0 k then .hangs else .panics
    | o => o
  | .fibonacci, v =>
    if v = 0 then .panics
    else if v < fib 93 then
      open Classical in
      if M.fib.Grants (M.fib.withCapacity 1) ∧ M.fib.CanPush 1 (M.fib.withCapacity 1) (fibDigits v) then .word (fibWordOf v) else .panics
    else .invalid
  | .elias k, v =>
    if v = 0 then .panics
    else match k.encOutH M debug v.log2 with
      | .word h => .word (h ++ natBits v.log2 v)
      | o => o
  | .lift0 k, v => if v + 1 < 2 ^ 64 then k.encOutH M debug (v + 1) else .invalid

end Spec
end Succinct
