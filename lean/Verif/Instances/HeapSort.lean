import Verif.Instances.IntVecTrait
import Verif.Props.HeapSort
/-! `Verif.Props.HeapSort`: each theorem applied to concrete data, see `Verif.Instances.Data`. -/
namespace Succinct.Ex
open Succinct Spec

example := C175_sort_down rel packedLaw packed_bv (by decide)
example := C175_sort rel packedLaw packed_bv (by decide)

/-- [5, 2, 7, 1] becomes [1, 2, 5, 7]. -/
example : ∃ s', heapSort cfg (ivIntVec cfg 8) iv = .ok s' ∧ IvReach cfg 8 3 s' [1, 2, 5, 7] := by
  obtain ⟨s', ys, e, h1, h2, h3⟩ := C175_sort cfg ivLaw (iv_reach cfg) (by decide)
  have : ys = [1, 2, 5, 7] := List.Perm.eq_of_pairwise (le := (· ≤ ·)) (by intros; omega) h3 (by decide) (h2.trans (by decide))
  exact ⟨s', e, this ▸ h1⟩

/-- The middle of it alone: [5, 7, 2, 1]. -/
example : ∃ s', heapSortDown cfg (window cfg (ivIntVec cfg 8) 1 2) iv = .ok s' ∧ IvReach cfg 8 3 s' [5, 7, 2, 1] := by
  obtain ⟨s', ys, e, ⟨-, h1⟩, h2, h3⟩ := C175_sort_down cfg (C166_window cfg ivLaw [5] [1] 2) (s := iv) (xs := [2, 7]) ⟨rfl, iv_reach cfg⟩ (by decide)
  have : ys = [7, 2] := List.Perm.eq_of_pairwise (le := (· ≥ ·)) (by intros; omega) h3 (by decide) (h2.trans (by decide))
  subst this
  exact ⟨s', e, h1⟩

end Succinct.Ex
