import Verif.Instances.Data
import Verif.Props.UnionFind
/-! `Verif.Props.UnionFind`: each theorem applied to concrete data, see `Verif.Instances.Data`. -/
namespace Succinct.Ex
open Succinct Spec

/-- Four numbers in the vector [5, 2, 7, 1]. -/
abbrev ufOps : List UnionOp := [.find 3, .join 3 1, .join 2 0, .find 3, .join 3 2, .find 3]

example := C174_init (C166_int_vector rel isBlk8 3) (by decide) (iv_reach rel) (by decide)

/-- 3 is alone at first, then with 1, then with all. -/
example : ∃ s0 s', ufInit (ivIntVec cfg 8) iv = .ok s0 ∧ ufRun (ivIntVec cfg 8) ufOps s0 = .ok ([3, 1, 0], s') := by
  obtain ⟨s0, rs, s', e0, e1, a, x1, rfl, h1, b, x2, rfl, h2, d, x3, rfl, h3, rfl⟩ :=
    C174_classes (C166_int_vector cfg isBlk8 3) (by decide) (iv_reach cfg) (by decide) ufOps (by simp [ufOps, UnionOp.Below])
  have q1 : a = 3 := (connected_nil h1.2.1).symm
  have q3 : d = 0 := Nat.le_zero.1 (h3.2.2 0 (by decide) (.trans (y := 2) (.pair (by decide)) (.pair (by decide))))
  have q2 : b = 1 := by
    have l := h2.2.2 1 (by decide) (.pair (by decide))
    rcases Nat.le_one_iff_eq_zero_or_eq_one.1 l with rfl | h
    · have := h2.2.1.cons
      rcases this with h | ⟨h, h'⟩ | ⟨h, h'⟩
      · rcases h.cons with h | ⟨h, h'⟩ | ⟨h, h'⟩
        · exact absurd (connected_nil h) (by decide)
        · exact absurd (connected_nil h') (by decide)
        · exact absurd (connected_nil h) (by decide)
      · rcases h.cons with h | ⟨h, h'⟩ | ⟨h, h'⟩
        · exact absurd (connected_nil h) (by decide)
        · exact absurd (connected_nil h') (by decide)
        · exact absurd (connected_nil h) (by decide)
      · rcases h.cons with h | ⟨h, h'⟩ | ⟨h, h'⟩
        · exact absurd (connected_nil h) (by decide)
        · exact absurd (connected_nil h') (by decide)
        · exact absurd (connected_nil h) (by decide)
    · exact h
  subst q1 q2 q3
  exact ⟨s0, s', e0, e1⟩

/-- A vector that keeps the classes {0, 1, 3} and {2}: [0, 0, 2, 1] in elements of three bits. -/
abbrev ufVec : IV 8 := ⟨3, ⟨4, [0x80#8, 0x02#8]⟩⟩
theorem ufVec_reach (c : Cfg) : IvReach c 8 3 ufVec [0, 0, 2, 1] :=
  (C120_int_vector c isBlk8 _ _ _).2 ⟨by decide, by decide, by decide,
    by rcases c with ⟨_, _ | _, _⟩ <;> decide +revert, rfl, rfl, by decide⟩
theorem ufVec_keeps : KeepsClasses [(1, 3), (0, 1)] [0, 0, 2, 1] where
  le := by decide
  conn i hi := by
    match i, hi with
    | 0, _ => exact .refl _
    | 1, _ => exact .symm (.pair (by simp))
    | 2, _ => exact .refl _
    | 3, _ => exact .symm (.pair (by simp))
  one i j hi hj e1 e2 hc := by
    have n : ∀ a b, Connected [(1, 3), (0, 1)] a b → (a = 2 ↔ b = 2) := fun a b h => by
      induction h with
      | pair h => simp at h; omega
      | refl => exact Iff.rfl
      | symm _ ih => exact ih.symm
      | trans _ _ i1 i2 => exact i1.trans i2
    have := n i j hc
    match i, j, hi, hj with
    | 0, 0, _, _ => rfl
    | 2, 2, _, _ => rfl
    | 0, 2, _, _ => omega
    | 2, 0, _, _ => omega
    | 1, _, _, _ => simp at e1
    | 3, _, _, _ => simp at e1
    | 0, 1, _, _ => simp at e2
    | 0, 3, _, _ => simp at e2
    | 2, 1, _, _ => simp at e2
    | 2, 3, _, _ => simp at e2

example := C174_find (C166_int_vector rel isBlk8 3) 3 (ufVec_reach rel) ufVec_keeps (by decide)
example := C174_join (C166_int_vector rel isBlk8 3) (by decide) (ufVec_reach rel) ufVec_keeps (x := 2) (y := 3) (by decide) (by decide) (by decide)
example := C174_count rel (C166_int_vector rel isBlk8 3) (ufVec_reach rel) ufVec_keeps
example : ufFind (ivIntVec rel 8) ufVec 4 = .panic := C174_out_of_range rel isBlk8 (ufVec_reach rel) (by decide) (by decide)

end Succinct.Ex
