import Verif.Instances.Data
import Verif.Props.Ancestors
/-! `Verif.Props.Ancestors`: each theorem applied to concrete data, see `Verif.Instances.Data`. -/
namespace Succinct.Ex
open Succinct Spec

/-- Node 0 with the children 1 and 4, of which 1 has the children 2 and 3; and node 5, a tree by itself. -/
abbrev family : Forest := .cons (.cons (.cons .nil (.cons .nil .nil)) (.cons .nil .nil)) (.cons .nil .nil)
abbrev familyParents : List (Option Nat) := [none, some 0, some 1, some 1, some 0, none]
example : family.parents 0 none = familyParents := by decide

abbrev family_ancestors := C181_ancestors cfg family (by decide) (by decide)

/-- 0 is an ancestor of 3, and 2 is none of it. -/
example : ∃ r b d, bpNew cfg family = .ok r ∧ bpIsAncestor cfg r 0 3 = .ok b ∧ b = true ∧ bpIsAncestor cfg r 2 3 = .ok d ∧ d ≠ true := by
  obtain ⟨r, e, h⟩ := family_ancestors
  obtain ⟨b, e1, h1⟩ := (h 0 3 (by decide) (by decide)).1
  obtain ⟨d, e2, h2⟩ := (h 2 3 (by decide) (by decide)).1
  refine ⟨r, b, d, e, e1, h1.2 (.up (p := 1) rfl (.up (p := 0) rfl .self)), e2, fun q => ?_⟩
  cases h2.1 q with
  | up h hp =>
    cases h
    cases hp with
    | up h hp =>
      cases h
      cases hp with
      | up h _ => cases h

theorem family_lca : IsLca familyParents 2 3 (some 1) := by
  refine ⟨.up (p := 1) rfl .self, .up (p := 1) rfl .self, fun x hx hy => ?_⟩
  cases hx with
  | up h hp => cases h; exact hp
  | self =>
    cases hy with
    | up h hp =>
      cases h
      cases hp with
      | up h hp =>
        cases h
        cases hp with
        | up h _ => cases h

/-- The lowest common ancestor of 2 and 3 is 1. -/
example : ∃ r, bpNew cfg family = .ok r ∧ bpLca cfg r 2 3 = .ok (some 1) := by
  obtain ⟨r, e, h⟩ := family_ancestors
  obtain ⟨w, e1, h1⟩ := (h 2 3 (by decide) (by decide)).2
  obtain rfl := C181_unique family (by decide) h1 family_lca
  exact ⟨r, e, e1⟩

end Succinct.Ex
