import Verif.Instances.IntVecTrait
import Verif.Props.Queue
/-! `Verif.Props.Queue`: each theorem applied to concrete data, see `Verif.Instances.Data`. -/
namespace Succinct.Ex
open Succinct Spec

/-- In [5, 2, 7, 1] from place 2 on around: the queue 7, 1, 5. -/
theorem ring_holds : HoldsRing ints 2 [7, 1, 5] := ⟨by decide, by decide, by decide⟩
example : ¬ HoldsRing ints 2 [7, 1, 2] := fun h => absurd (h.num 2 (by decide)) (by decide)
/-- There is room for one more, at place 1. -/
example := C186_push (c := cfg) ivLaw (q := ⟨iv, 2, 3⟩) (iv_reach cfg) ring_holds rfl (x := 6#8) (by decide)
example : (Ring.mk iv 2 3).push cfg (ivIntVec cfg 8) 6#8 = .ok (true, ⟨⟨3, ⟨4, [0xf5#8, 0x03#8]⟩⟩, 2, 4⟩) := by decide +kernel
example : ∃ q', (Ring.mk iv 2 3).pop cfg (ivIntVec cfg 8) = .ok (some 7#8, q') ∧ HoldsRing ints q'.head [1, 5] := by
  obtain ⟨x, q', e, hx, -, h, -⟩ := C186_pop (c := cfg) ivLaw (q := ⟨iv, 2, 3⟩) (iv_reach cfg) ring_holds rfl
  match x, hx with
  | some x, hx =>
    have : x.toNat = 7 := by simpa using hx
    obtain rfl : x = 7#8 := BitVec.eq_of_toNat_eq this
    exact ⟨q', e, h⟩

/-- Room for three: the fourth is refused, and after one is taken there is room again. -/
abbrev ringOps : List RingOp := [.pop, .push 3, .push 1, .push 7, .push 2, .pop, .push 5, .pop, .pop, .pop, .pop]
example : ringAns 3 ringOps [] = [.first none, .room true, .room true, .room true, .room false, .first (some 3), .room true, .first (some 1),
  .first (some 7), .first (some 5), .first none] := by decide
example := C186_new (k := 3) rel isBlk8 (by decide) (by decide) (n := 3) (by decide) ringOps (by simp [ringOps, RingOp.Below])
example := C186_new (k := 3) cfg isBlk8 (by decide) (by decide) (n := 0) (by decide) ringOps (by simp [ringOps, RingOp.Below])
example := C186_calls (c := cfg) ivLaw (by decide) ringOps (by simp [ringOps, RingOp.Below]) (q := ⟨iv, 2, 3⟩) (iv_reach cfg) ring_holds rfl

end Succinct.Ex
