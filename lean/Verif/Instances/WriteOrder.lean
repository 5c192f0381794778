import Verif.Instances.Data
import Verif.Props.WriteOrder
/-! `Verif.Props.WriteOrder`: each theorem applied to concrete data, see `Verif.Instances.Data`. -/
namespace Succinct.Ex
open Succinct Spec

instance (len : Nat) (x : WriteCall 8) : Decidable (x.Ok len) := by
  cases x <;> unfold WriteCall.Ok <;> infer_instance
theorem apart : ([.bits 1 3 5#8, .block 1 0xff#8, .bit 7 true] : List (WriteCall 8)).Pairwise
    fun x y => (x.asWrite bits.length).Apart (y.asWrite bits.length) := by
  have h : ∀ (p q : Nat) (a b : List Bool), p + a.length ≤ q ∨ q + b.length ≤ p → Write.Apart ⟨p, a⟩ ⟨q, b⟩ := by
    intro p q a b h i
    simp only [Write.at]
    by_cases h1 : p ≤ i ∧ i - p < a.length
    · right
      split
      · rw [List.getElem?_eq_none_iff]; omega
      · rfl
    · left
      split
      · rw [List.getElem?_eq_none_iff]; omega
      · rfl
  refine .cons (fun y hy => ?_) (.cons (fun y hy => ?_) (.cons nofun .nil))
  · simp only [List.mem_cons, List.not_mem_nil, or_false] at hy
    rcases hy with rfl | rfl <;> exact h _ _ _ _ (by decide)
  · simp only [List.mem_cons, List.not_mem_nil, or_false] at hy
    subst hy
    exact h _ _ _ _ (by decide)

example := C143_any_order isBlk8 (c := cfg) [.bits 1 3 5#8, .block 1 0xff#8, .bit 7 true] [.block 1 0xff#8, .bits 1 3 5#8, .bit 7 true] (.swap _ _ _)
    (.inl (bv_mut_law cfg isBlk8)) ((bv_reach cfg).rep isBlk8) (by decide) apart
example := C143_bit_vector isBlk8 (c := cfg) [.bits 1 3 5#8, .block 1 0xff#8, .bit 8 true] [.block 1 0xff#8, .bits 1 3 5#8]
    (bv_reach cfg) (by decide) (by decide) (by decide)
example := C143_int_vector (w := 8) (k := 3) (xs := ints) (h := by conc) (c := cfg) (ops := [(0, 3#8), (2, 6#8), (0, 1#8)])
    (ops' := [(2, 6#8), (0, 1#8)]) (s := iv) (hr := by conc) (hok := by conc) (hok' := by conc) (hl := by conc)
example := C143_last_wins isBlk8 (c := cfg) [.bits 1 3 5#8, .block 1 0xff#8, .bit 9 false]
    (.inl (bv_mut_law cfg isBlk8)) ((bv_reach cfg).rep isBlk8) (by decide)
example := C143_same isBlk8 (c := cfg) [.bits 1 3 5#8, .block 1 0xff#8, .bit 8 true] [.block 1 0xff#8, .bits 1 3 5#8]
    (.inl (bv_mut_law cfg isBlk8)) ((bv_reach cfg).rep isBlk8) (by decide) (by decide) (by decide)

end Succinct.Ex
