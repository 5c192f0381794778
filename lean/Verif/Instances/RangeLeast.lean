import Verif.Instances.IntVecTrait
import Verif.Props.RangeLeast
/-! `Verif.Props.RangeLeast`: each theorem applied to concrete data, see `Verif.Instances.Data`. -/
namespace Succinct.Ex
open Succinct Spec

/-- 2 is the least of [5, 2, 7]. -/
theorem least_two : LeastIn ints 0 3 2 :=
  ⟨⟨1, by decide, by decide, rfl⟩, fun i x _ h hx => by
    have : ∀ i < 3, ∀ x ∈ ints[i]?, 2 ≤ x := by decide
    exact this i h x hx⟩
example : ¬ LeastIn ints 0 3 5 := fun h => absurd (C184_unique h least_two) (by decide)
/-- 1 is not in that range. -/
example : ¬ LeastIn ints 0 3 1 := fun h => absurd (C184_unique h least_two) (by decide)
example : LeastIn ints 3 4 1 := leastIn_one rfl
example : LeastIn ints 0 4 1 := leastIn_join (by decide) (by decide) (by decide) least_two (leastIn_one (i := 3) (x := 1) rfl)
example := leastLog_ok cfg (d := 11) (k := 0) (p := 1) (by decide) rfl (by decide)

/-- The table over [5, 2, 7, 1] has two rows more; made in any build, it tells that 2 is the least of the first three. -/
theorem least_made (c : Cfg) : ∃ s' ts, leastTable c iv = .ok s' ∧ IvReach c 8 3 s' ts ∧ LeastRows ints 2 ts :=
  C184_table isBlk8 (iv_reach c) (by decide) (by decide) (by rcases c with ⟨_, _ | _, _⟩ <;> decide +revert)
example (c : Cfg) : ∃ s', leastTable c iv = .ok s' ∧ leastGet c 4 s' 0 3 = .ok 2#8 := by
  obtain ⟨s', ts, e, r, h⟩ := least_made c
  obtain ⟨v, e', hv⟩ := C184_least isBlk8 h (by decide) r (i := 0) (j := 3) (by decide) (by decide)
  have : v = 2#8 := BitVec.eq_of_toNat_eq (C184_unique hv least_two)
  exact ⟨s', e, this ▸ e'⟩

example := leastAt_ok isBlk8 (leastRows_zero ints) (more := []) ((iv_reach cfg).rep isBlk8) (i := 1) (by decide) (by decide)
example := leastRow_ok isBlk8 (leastRows_zero ints) (by decide) (by decide) (i := 0) rfl (more := []) ((iv_reach cfg).rep isBlk8) rfl (by decide)
  (fun j hj => by omega)
example := leastRows_ok isBlk8 (xs := ints) (m := 2) (by decide) (by decide) (by decide) (a := 0) rfl (by decide) ((iv_reach cfg).rep isBlk8)
  (leastRows_zero ints)

end Succinct.Ex
