import Verif.Instances.Data
import Verif.Props.Sorted
/-! `Verif.Props.Sorted`: the theorem applied to concrete data, see `Verif.Instances.Data`. -/
namespace Succinct.Ex
open Succinct Spec

example := C157_sorted cfg (l := 2) (by decide) (by decide) [3#64, 7#64, 7#64, 20#64] (by decide) (by decide) (by decide) (by decide)
example := C157_sorted rel (l := 63) (by decide) (by decide) [0#64, 0x8000000000000000#64, 0x8000000000000001#64] (by decide) (by decide) (by decide) (by decide)

/-- What it says: element 3 is 20, and three elements are below 8. -/
example : ∃ t, sortedNew cfg 2 [3#64, 7#64, 7#64, 20#64] = .ok t ∧ sortedGet cfg 2 t 3 = .ok (some 20#64) ∧
    sortedGet cfg 2 t 4 = .ok none ∧ sortedRank cfg 2 t 8#64 = .ok 3 := by
  obtain ⟨t, h1, -, -, h2, h3⟩ :=
    C157_sorted cfg (l := 2) (by decide) (by decide) [3#64, 7#64, 7#64, 20#64] (by decide) (by decide) (by decide) (by decide)
  exact ⟨t, h1, h2 3 (by decide), h2 4 (by decide), h3 8#64⟩

end Succinct.Ex
