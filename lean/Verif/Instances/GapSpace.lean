import Verif.Instances.Data
import Verif.Props.GapSpace
/-! `Verif.Props.GapSpace`: each theorem applied to concrete data, see `Verif.Instances.Data`. -/
namespace Succinct.Ex
open Succinct Spec

example := C162_gamma [0, 2, 4, 1000] 1024 (by decide) (by decide) (by decide)
example := C162_delta [0, 2, 4, 1000] 1024 (by decide) (by decide) (by decide)
/-- The set as the string of `U` bits with ones at its members. -/
example := C162_any 1024 4 (by decide) (by decide) (fun S => (List.range 1024).map fun i => decide (i ∈ S)) (by
  intro S T hS hT _ _ e
  ext i
  by_cases h : i < 1024
  · have := congrArg (fun l => l[i]?) e
    simpa [h] using this
  · exact ⟨fun hi => absurd (Finset.mem_range.1 (hS hi)) h, fun hi => absurd (Finset.mem_range.1 (hT hi)) h⟩)

/-- What it says: in Gamma at most 68 bits, and 4 log2 256 - 1 = 31 bits are needed. -/
example : ((gapsFrom 0 [0, 2, 4, 1000]).flatMap fun v => gammaWord (v + 1)).length ≤ 68 := by
  have h := C162_gamma [0, 2, 4, 1000] 1024 (by decide) (by decide) (by decide)
  have : Real.logb 2 ((1024 : Nat) / ([0, 2, 4, 1000] : List Nat).length) = 8 := by
    rw [Real.logb_eq_iff_rpow_eq (by norm_num) (by norm_num) (by norm_num)]
    norm_num
  rw [this, show (2 * 8 + 1 : ℝ) * ([0, 2, 4, 1000] : List Nat).length = (68 : Nat) by norm_num] at h
  exact Nat.cast_le.1 h

end Succinct.Ex
