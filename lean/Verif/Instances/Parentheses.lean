import Verif.Instances.Data
import Verif.Props.Parentheses
/-! `Verif.Props.Parentheses`: the theorems applied to concrete data, see `Verif.Instances.Data`. -/
namespace Succinct.Ex
open Succinct Spec

/-- A tree whose root (0) has three children (1, 2, 6); the second of them has two (3, 4), and the second of these has one (5); and
after it a tree of one node (7). -/
def forest : Forest := .cons (.cons .nil (.cons (.cons .nil (.cons (.cons .nil .nil) .nil)) (.cons .nil .nil))) (.cons .nil .nil)

example : forest.bp = [true, true, false, true, true, false, true, true, false, false, false, true, false, false, true, false] := by decide
example : forest.depths 0 = [0, 1, 1, 2, 2, 3, 1, 0] := by decide
example : forest.sizes = [7, 1, 4, 1, 2, 1, 1, 1] := by decide
example : forest.parents 0 none = [none, some 0, some 0, some 2, some 2, some 4, some 0, none] := by decide
example : forest.firstChildren 0 = [some 1, none, some 3, none, some 5, none, none, none] := by decide
example : forest.nextSiblings 0 = [some 7, some 2, some 6, some 4, none, none, none, none] := by decide

example := C169_parentheses rel forest (by decide) (by decide)

/-- What it says: sixteen bits; node 4 lies at depth 2, its tree has two nodes, its parent is node 2, its first child node 5, and it has
no next sibling, while node 2 has node 6. -/
example : ∃ r, bpNew cfg forest = .ok r ∧ (bvBitVec cfg 64).bitLen r.inner = .ok 16 ∧ bpDepth cfg r 4 = .ok 2 ∧ bpSize cfg r 4 = .ok 2 ∧
    bpParent cfg r 4 = .ok (some 2) ∧ bpFirstChild cfg r 4 = .ok (some 5) ∧ bpNextSibling cfg r 4 = .ok none ∧
    bpNextSibling cfg r 2 = .ok (some 6) := by
  obtain ⟨r, h1, h2, h3⟩ := C169_parentheses cfg forest (by decide) (by decide)
  obtain ⟨⟨_, a1, b1⟩, ⟨_, a2, b2⟩, ⟨_, a3, b3⟩, ⟨_, a4, b4⟩, ⟨_, a5, b5⟩⟩ := h3 4 (by decide)
  obtain ⟨-, -, -, -, ⟨_, a6, b6⟩⟩ := h3 2 (by decide)
  cases b1; cases b2; cases b3; cases b4; cases b5; cases b6
  exact ⟨r, h1, h2, a1, a2, a3, a4, a5, a6⟩

/-- Dropping the last tree changes the bits. -/
example : forest.bp ≠ (Forest.cons .nil .nil).bp := fun h => absurd (C169_one_forest (x := []) (y := []).1 h) (by decide)

end Succinct.Ex
