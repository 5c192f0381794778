import Verif.Instances.Data
import Verif.Props.WaveletRange
/-! `Verif.Props.WaveletRange`: the theorem applied to concrete data, see `Verif.Instances.Data`. -/
namespace Succinct.Ex
open Succinct Spec

/-- Numbers below eight. -/
def scores : List (BitVec 64) := [3, 7, 1, 4, 1, 6, 0]

example := C172_ranges rel (k := 3) (by decide) scores (by simp [scores]) (by decide) (by decide)

/-- What it says of `7, 1, 4, 1, 6` and the bound 5: three are below, one lies between 5 and 7, the next is 6 and the one before 4;
there is none below 1. -/
example : ∃ ts, levels cfg 3 scores = .ok ts ∧ levelsBelow cfg 5 ts 1 6 0 = .ok 3 ∧ levelsBetween cfg ts 1 6 5 7 = .ok 1 ∧
    levelsNext cfg ts 1 6 5 = .ok (some 6) ∧ levelsPrev cfg ts 1 6 5 = .ok (some 4) ∧ levelsPrev cfg ts 1 6 1 = .ok none := by
  obtain ⟨ts, h0, h⟩ := C172_ranges cfg (k := 3) (by decide) scores (by simp [scores]) (by decide) (by decide)
  obtain ⟨h1, h2, ⟨n, h3, h4, h5⟩, ⟨p, h6, h7, h8⟩⟩ := h 1 6 (by decide) (by decide) 5 (by decide)
  obtain ⟨-, -, -, ⟨q, h9, h10, -⟩⟩ := h 1 6 (by decide) (by decide) 1 (by decide)
  refine ⟨ts, h0, h1, h2 7 (by decide) (by decide), ?_, ?_, ?_⟩
  · cases n with
    | none => exact absurd (h5 rfl 6 (by decide)) (by decide)
    | some y =>
      obtain ⟨a1, a2, a3⟩ := h4 y rfl
      have : y = 6 := by
        have b := a3 6 (by decide) (by decide)
        have a1 : y ∈ ([7, 1, 4, 1, 6] : List (BitVec 64)) := a1
        simp only [List.mem_cons, List.not_mem_nil, or_false] at a1
        rcases a1 with rfl | rfl | rfl | rfl | rfl
        · exact absurd b (by decide)
        · exact absurd a2 (by decide)
        · exact absurd a2 (by decide)
        · exact absurd a2 (by decide)
        · rfl
      rw [h3, this]
  · cases p with
    | none => exact absurd (h8 rfl 4 (by decide)) (by decide)
    | some y =>
      obtain ⟨a1, a2, a3⟩ := h7 y rfl
      have : y = 4 := by
        have b := a3 4 (by decide) (by decide)
        have a1 : y ∈ ([7, 1, 4, 1, 6] : List (BitVec 64)) := a1
        simp only [List.mem_cons, List.not_mem_nil, or_false] at a1
        rcases a1 with rfl | rfl | rfl | rfl | rfl
        · exact absurd a2 (by decide)
        · exact absurd b (by decide)
        · rfl
        · exact absurd b (by decide)
        · exact absurd a2 (by decide)
      rw [h6, this]
  · cases q with
    | none => exact h9
    | some y =>
      obtain ⟨a1, a2, -⟩ := h10 y rfl
      have a1 : y ∈ ([7, 1, 4, 1, 6] : List (BitVec 64)) := a1
      simp only [List.mem_cons, List.not_mem_nil, or_false] at a1
      exact absurd a2 (by rcases a1 with rfl | rfl | rfl | rfl | rfl <;> decide)

end Succinct.Ex
