import Verif.Instances.Data
import Verif.Props.TextSearch
/-! `Verif.Props.TextSearch`: the theorem applied to concrete data, see `Verif.Instances.Data`. -/
namespace Succinct.Ex
open Succinct Spec

/-- `banana` with a, b, n for 1, 2, 3. -/
def banana : List (BitVec 64) := [2, 1, 3, 1, 3, 1]

example := C164_text_search rel (k := 8) (by decide) ([] : List (BitVec 64)) (by simp) (by decide) (by decide) (by decide)
example := C164_text_search rel (k := 2) (by decide) banana (by simp [banana]) (by decide) (by decide) (by decide)

/-- What it says: `ana` occurs twice in `banana`, at 1 and 3; `nab` does not; the index gives `banana` back. -/
example : ∃ t, textNew cfg 2 banana = .ok t ∧ t.count cfg [1, 3, 1] = .ok 2 ∧ (∃ l, t.find cfg [1, 3, 1] = .ok l ∧ l.Perm [1, 3]) ∧
    t.count cfg [3, 1, 2] = .ok 0 ∧ t.text cfg 0 [] = .ok banana := by
  obtain ⟨t, h1, h2, h3⟩ := C164_text_search cfg (k := 2) (by decide) banana (by simp [banana]) (by decide) (by decide) (by decide)
  obtain ⟨l, a1, a2, a3, a4⟩ := h2 [1, 3, 1] (by simp)
  obtain ⟨m, b1, b2, b3, b4⟩ := h2 [3, 1, 2] (by simp)
  have ha : l.Perm [1, 3] := (List.perm_ext_iff_of_nodup a2 (by decide)).2 fun i => by
    rw [a3]
    constructor
    · rintro ⟨h, h'⟩
      have : ∀ i, i ≤ 6 → [1, 3, 1] <+: banana.drop i → i ∈ [1, 3] := by decide
      exact this i h h'
    · intro h
      have : ∀ i ∈ [1, 3], i ≤ 6 ∧ [1, 3, 1] <+: banana.drop i := by decide
      exact this i h
  have hb : m = [] := List.eq_nil_iff_forall_not_mem.2 fun i hi => by
    obtain ⟨h, h'⟩ := (b3 i).1 hi
    have : ∀ i, i ≤ 6 → ¬ [3, 1, 2] <+: banana.drop i := by decide
    exact this i h h'
  refine ⟨t, h1, ?_, ⟨l, a1, ha⟩, ?_, h3⟩
  · rw [a4, ha.length_eq]; rfl
  · rw [b4, hb]; rfl

/-- A text with zeros, or a pattern with them, is outside: the zero at the end would be found as well. -/
example : ¬ ∀ x ∈ [2#64, 0#64], 0 < x.toNat ∧ x.toNat < 2 ^ 2 := by simp

end Succinct.Ex
