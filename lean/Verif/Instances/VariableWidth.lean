import Verif.Instances.Data
import Verif.Props.VariableWidth
/-! `Verif.Props.VariableWidth`: the theorem applied to concrete data, see `Verif.Instances.Data`. -/
namespace Succinct.Ex
open Succinct Spec

/-- Numbers of one, two, one, sixteen and three pieces of four bits. -/
def mixed : List (BitVec 64) := [5, 200, 0, 0x8000000000000001, 0x123]

example := C170_variable_width rel (b := 4) (by decide) (by decide) mixed (by decide) (by decide)

example : mixed.map (fun x => pieces 4 x.toNat) = [1, 2, 1, 16, 3] := by decide

/-- What it says: twenty-three pieces; the fourth number is read back whole, and there is no sixth. -/
example : ∃ ls, dacNew cfg 4 mixed = .ok ls ∧ (ls.map fun l => l.1.len).sum = 23 ∧ dacGet cfg 4 ls 3 = .ok 0x8000000000000001 ∧
    dacGet cfg 4 ls 2 = .ok 0 ∧ dacGet cfg 4 ls 5 = .panic := by
  obtain ⟨ls, h1, h2, h3, h4, -⟩ := C170_variable_width cfg (b := 4) (by decide) (by decide) mixed (by decide) (by decide)
  exact ⟨ls, h1, h4, h2 3 (by decide), h2 2 (by decide), h3 5 (by decide)⟩

end Succinct.Ex
