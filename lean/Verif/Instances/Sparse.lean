import Verif.Instances.Data
import Verif.Props.Sparse
/-! `Verif.Props.Sparse`: each theorem applied to concrete data, see `Verif.Instances.Data`. -/
namespace Succinct.Ex
open Succinct Spec

/-- Six places, three of them with a value. -/
abbrev gaps : List (Option Nat) := [none, some 6, none, none, some 0, some 5]

abbrev gaps_built (c : Cfg) := C180_new c (k := 3) (by decide) (by decide) gaps (by intro x h; simp at h; omega)
  (by rcases c with ⟨_, _ | _, _⟩ <;> decide +revert) (by rcases c with ⟨_, _ | _, _⟩ <;> decide +revert) (by rcases c with ⟨_, _ | _, _⟩ <;> decide +revert)

/-- Place 4 has the value 0, place 3 has none, there is no place 6; the last of the three values is 5, at place 5. -/
example : ∃ A, sparseNew rel 3 gaps = .ok A ∧ A.get rel 4 = .ok (some 0#64) ∧ A.get rel 3 = .ok none ∧ A.get rel 6 = .panic ∧
    A.entry rel 2 = .ok (5, 5#64) ∧ A.values.len = 3 := by
  obtain ⟨A, e, h, hl⟩ := gaps_built rel
  exact ⟨A, e, C180_get h (i := 4) (by decide), C180_get h (i := 3) (by decide), C180_outside h (by decide) (by decide),
    C180_entry h (i := 5) (by decide) rfl, hl⟩

/-- The value at place 4 becomes 7, and then the others are as before; a gap is not filled. -/
example : ∃ A A' A'', sparseNew cfg 3 gaps = .ok A ∧ A.put cfg 4 7#64 = .ok (true, A') ∧ A'.get cfg 4 = .ok (some 7#64) ∧ A'.get cfg 5 = .ok (some 5#64) ∧
    A'.put cfg 0 1#64 = .ok (false, A'') ∧ A''.get cfg 0 = .ok none := by
  obtain ⟨A, e, h, -⟩ := gaps_built cfg
  obtain ⟨A', e1, h1⟩ := C180_put h (i := 4) (by decide) (x := 7#64) (by decide)
  obtain ⟨A'', e2, h2⟩ := C180_put h1 (i := 0) (by decide) (x := 1#64) (by decide)
  exact ⟨A, A', A'', e, e1, C180_get h1 (i := 4) (by decide), C180_get h1 (i := 5) (by decide), e2, C180_get h2 (i := 0) (by decide)⟩

end Succinct.Ex
