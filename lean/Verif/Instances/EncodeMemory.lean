import Verif.Instances.Data
import Verif.Props.EncodeMemory
/-! `Verif.Props.EncodeMemory`: each theorem applied to concrete data, see `Verif.Instances.Data`. -/
namespace Succinct.Ex
open Succinct Spec

example := C127_encode (c := cfg) (M := smallStacks 3) (k := gam) (v := 38) (hv := by conc)
example := C127_ends (M := smallStacks 3) (hA := smallHeap_lawful 3) (m := 3) (hm := fun _ h => of_decide_eq_true h)
    (d := true) (k := .comma 1) (v := 38)
/-- Room for a hundred entries is enough. -/
example := C127_enough (smallStacks 100) (fun l c _ _ => Or.inr (decide_eq_true (show l + 1 ≤ 100 by omega)))
    (fun l c _ _ => Or.inr (decide_eq_true (show l + 1 ≤ 100 by omega))) (fun l c _ _ => Or.inr (decide_eq_true (show l + 1 ≤ 100 by omega)))
    (Or.inr (by decide)) true gam 38 (by decide) (by simp only [CodeName.encOut]; decide)
example := C127_omega (M := ⟨{ Alloc.amortized with allow := fun n => n ≤ 3 }, smallHeap 3, smallHeap 3⟩) (h4 := by conc)
    (d := true) (v := 38) (hv := by conc)

end Succinct.Ex
