import Verif.Instances.IntVecTrait
import Verif.Props.Fenwick
/-! `Verif.Props.Fenwick`: each theorem applied to concrete data, see `Verif.Instances.Data`. -/
namespace Succinct.Ex
open Succinct Spec

/-- The vector [1, 2, 5, 7] holds the sums of [1, 1, 5, 0]. -/
abbrev fwAs : List Nat := [1, 1, 5, 0]
theorem fw_holds : HoldsSums fwAs [1, 2, 5, 7] where
  len := rfl
  part i h0 h := by
    have : i = 1 ∨ i = 2 ∨ i = 3 ∨ i = 4 := by simp at h; omega
    rcases this with rfl | rfl | rfl | rfl <;> simp [lowOne]

example : fwSum cfg (ivIntVec cfg 8) ivSorted 3 0 = .ok 7 := C177_sum cfg ivLaw (by decide) (ivSorted_reach cfg) fw_holds (by decide) (i := 3) (by decide)
example := C177_add rel (C166_int_vector rel isBlk8 3) (by decide) (ivSorted_reach rel) fw_holds (by decide) (i := 1) (d := 0) (by decide) (by decide)

/-- The first two of [1, 1, 5, 0] make at most 6, the first three more. -/
example : fwFind cfg (ivIntVec cfg 8) 4 ivSorted 4 0 6 = .ok 2 := by
  obtain ⟨pos, e, h1, h2⟩ := C177_find cfg ivLaw (ivSorted_reach cfg) fw_holds (by decide) (j := 2) (by decide) (by decide) 6
  have a := (h2 2 (by decide)).1 (by decide)
  have b := mt (h2 3 (by decide)).2 (by decide)
  obtain rfl : pos = 2 := by omega
  exact e

/-- Six numbers, five additions, four questions. -/
abbrev sumOps : List SumOp := [.add 2 7, .add 5 1, .sum 3, .add 0 4, .sum 2, .sum 6, .add 2 9, .add 3 30, .sum 4]
example : sums sumOps (List.replicate 6 0) = [7, 4, 12, 50] := by decide
example := C177_new (k := 6) rel isBlk8 (by decide) (by decide) (n := 6) (by decide) (by decide) sumOps (by decide) (by simp [sumOps, SumOp.Below])
example := C177_sums cfg ivLaw (by decide) [.sum 2, .add 3 0, .sum 4] (ivSorted_reach cfg) fw_holds (by decide) (by decide) (by simp [SumOp.Below])

/-- Elements of three bits cannot keep a sum of ten. -/
example : ¬ 7 + added [.add 0 3] < 2 ^ 3 := by decide
/-- [5, 2, 7, 1] holds the sums of no numbers: the first would be 5, and the first two 2. -/
example : ¬ ∃ as, HoldsSums as ints := by
  rintro ⟨as, h⟩
  have a := h.part 1 (by decide) (by decide)
  have b := h.part 2 (by decide) (by decide)
  have := sum_take_le (as.take 2) 1
  rw [List.take_take] at this
  simp [lowOne, ints] at a b this
  omega

end Succinct.Ex
