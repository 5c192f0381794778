import Verif.Instances.Data
import Verif.Props.PriorityQueue
/-! `Verif.Props.PriorityQueue`: each theorem applied to concrete data, see `Verif.Instances.Data`. -/
namespace Succinct.Ex
open Succinct Spec

def queueOps : List (QueueOp 8) := [.put 9, .put 3, .take, .put 1, .put 30, .take, .take, .put 1, .take, .take, .take]

theorem queueOps_small : ∀ x, QueueOp.put x ∈ queueOps → x.toNat < 2 ^ 5 := by
  intro x hx
  simp [queueOps] at hx
  rcases hx with rfl | rfl | rfl | rfl | rfl <;> decide

example := C168_new_queue rel isBlk8 (k := 5) (by decide) (by decide) queueOps queueOps_small (by decide) (by decide)

/-- What it says. -/
example : ∃ s rs s', IV.new 8 5 = .ok s ∧ queueRun cfg queueOps s = .ok (rs, s') ∧
    rs.map (Option.map BitVec.toNat) = [some 3, some 1, some 9, some 1, some 30, none] :=
  C168_new_queue cfg isBlk8 (k := 5) (by decide) (by decide) queueOps queueOps_small (by decide) (by decide)

/-- [1, 3, 2, 7] is a heap. -/
abbrev ivHeap : IV 8 := ⟨3, ⟨4, [0x99#8, 0x0e#8]⟩⟩
theorem ivHeap_reach (c : Cfg) : IvReach c 8 3 ivHeap [1, 3, 2, 7] :=
  (C120_int_vector c isBlk8 _ _ _).2 ⟨by decide, by decide, by decide,
    by rcases c with ⟨_, _ | _, _⟩ <;> decide +revert, rfl, rfl, by decide⟩
theorem ivHeap_heap : IsHeap [1, 3, 2, 7] := by
  intro k k0 kl
  have : ∀ k, k < 4 → 0 < k → [1, 3, 2, 7].getD ((k - 1) / 2) 0 ≤ [1, 3, 2, 7].getD k 0 := by decide
  exact this k kl k0

example := C168_queue cfg isBlk8 [.take, .put 5, .take] (ivHeap_reach cfg) ivHeap_heap (.refl _) (by intro x hx; simp at hx; subst hx; decide) (by decide) (by decide)

/-- The vector [5, 2, 7, 1] is none: the first take would not return the least. -/
example : ¬ IsHeap ints := fun h => absurd (h 1 (by decide) (by decide)) (by decide)

end Succinct.Ex
