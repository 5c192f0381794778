import Verif.Instances.Data
import Verif.Props.Neighbours
/-! `Verif.Props.Neighbours`: each theorem applied to concrete data, see `Verif.Instances.Data`. -/
namespace Succinct.Ex
open Succinct Spec

example := C155_last_up_to cfg jac_law (p := 5) (by decide) true
example := C155_first_from cfg jac_law (p := 4) (by decide) true
example := C155_first_from cfg r9_law (p := 65) (by decide) false
example := C155_count_in cfg r9_law (a := 5) (b := 66) (by decide) (by decide) true
example := C155_collect cfg jac_law (by decide) true
example := C155_bit_vector cfg (bv70_reach cfg) (by decide) (by decide)

/-- What they say: the ones of `bits`, the one before 5 and the one after 4. -/
example : collect cfg (Jacobson.ops cfg (bvBitVec cfg 8)) jac true 0 [] = .ok [0, 2, 3, 6, 8, 9] := by
  rw [C155_collect cfg jac_law (by decide) true]; rfl
example : lastUpTo cfg (Jacobson.ops cfg (bvBitVec cfg 8)) jac 5 true = .ok (some 3) := by
  obtain ⟨x, h1, h2⟩ := C155_last_up_to cfg jac_law (p := 5) (by decide) true
  rw [h1]
  cases x with
  | none => exact absurd rfl (h2 3 (by decide))
  | some q =>
    obtain ⟨h3, h4, h5⟩ := h2
    have : q ≥ 3 := Nat.le_of_not_lt fun h => h5 3 h (by decide) rfl
    obtain rfl | rfl | rfl : q = 3 ∨ q = 4 ∨ q = 5 := by omega
    · rfl
    · exact absurd h4 (by decide)
    · exact absurd h4 (by decide)

end Succinct.Ex
