import Verif.Instances.Data
import Verif.Props.Trees
/-! `Verif.Props.Trees`: the theorem applied to concrete data, see `Verif.Instances.Data`. -/
namespace Succinct.Ex
open Succinct Spec

/-- A root with three children; the second of them has two, and the second of these has one. -/
def tree : OTree := .node [.node [], .node [.node [], .node [.node []]], .node []]

example := C161_trees rel tree (by decide) (by decide)

example : tree.size = 7 := by decide

/-- What it says: thirteen bits; the root's second child is node 2 and has two children, the second of them being node 5, whose child
is node 6. -/
example : ∃ r, treeNew cfg tree = .ok r ∧ (bvBitVec cfg 64).bitLen r.inner = .ok 13 ∧ treeDegree cfg r 2 = .ok 2 ∧
    (∃ j, treeWalk cfg r [1, 1] 0 = .ok (some j) ∧ (nodes tree)[j]? = some (.node [.node []])) ∧ treeWalk cfg r [1, 2] 0 = .ok none := by
  obtain ⟨r, h1, h2, -, h3, -, -, h4⟩ := C161_trees cfg tree (by decide) (by decide)
  have hn : (nodes tree)[2]? = some (.node [.node [], .node [.node []]]) := by simp [nodes, OTree.levelOrder, OTree.children, tree]
  refine ⟨r, h1, h2, (h3 2 _ hn).1, ?_, ?_⟩
  · obtain ⟨x, e1, e2, -⟩ := h4 [1, 1]
    rw [show tree.at [1, 1] = some (.node [.node []]) by simp [OTree.at, OTree.children, tree]] at e2
    cases x with
    | none => cases e2
    | some j => exact ⟨j, e1, e2⟩
  · obtain ⟨x, e1, e2, e3⟩ := h4 [1, 2]
    rw [show tree.at [1, 2] = none by simp [OTree.at, OTree.children, tree]] at e2
    cases x with
    | none => exact e1
    | some j =>
      have h5 := e3 j rfl
      have h6 : (nodes tree).length = tree.size := nodes_length tree
      have h7 : (nodes tree)[j]? = none := e2
      rw [List.getElem?_eq_none_iff] at h7
      omega

end Succinct.Ex
