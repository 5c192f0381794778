import Verif.Instances.Data
import Verif.Props.Graph
/-! `Verif.Props.Graph`: each theorem applied to concrete data, see `Verif.Instances.Data`. -/
namespace Succinct.Ex
open Succinct Spec

/-- Five nodes: a cycle 0, 1, 2 with a shorter way back, and 3, 4 apart from it. -/
abbrev graph : List (List Nat) := [[1, 2], [2], [0], [4], []]

abbrev graph_built (c : Cfg) := C176_graph c (k := 3) (by decide) (by decide) graph (by decide)
  (by rcases c with ⟨_, _ | _, _⟩ <;> decide +revert) (by rcases c with ⟨_, _ | _, _⟩ <;> decide +revert) (by rcases c with ⟨_, _ | _, _⟩ <;> decide +revert)

/-- Node 0 has two edges, the second to node 2. -/
example : ∃ G x, graphNew rel 3 graph = .ok G ∧ G.nodes rel = .ok 5 ∧ G.degree rel 0 = .ok 2 ∧ G.target rel 0 1 = .ok x ∧ x.toNat = 2 := by
  obtain ⟨G, h1, -, h2, h3⟩ := graph_built rel
  obtain ⟨h4, h5⟩ := h3 0 (by decide)
  obtain ⟨x, h6, h7⟩ := h5 1 (by decide)
  exact ⟨G, x, h1, h2, h4, h6, h7⟩

/-- From 1 the nodes 0, 1, 2 are reached. -/
example : ∃ G seen, graphNew cfg 3 graph = .ok G ∧ G.reach cfg 1 = .ok seen ∧ BvReach cfg 64 seen [true, true, true, false, false] := by
  obtain ⟨G, h1, hG, h2, -⟩ := graph_built cfg
  obtain ⟨seen, h3, h4⟩ := C176_reach hG h2 (by decide) (by decide) (s := 1) (by decide)
  have h5 : Reaches graph 1 2 := .edge (ts := [2]) .here rfl (by decide)
  have h6 : Reaches graph 1 0 := .edge (ts := [0]) h5 rfl (by decide)
  have h7 : ∀ u, Reaches graph 1 u → u < 3 := fun u hu => by
    induction hu with
    | here => decide
    | @edge u x ts _ h2 h3 ih =>
      match u, ih with
      | 0, _ => cases h2; simp at h3; omega
      | 1, _ => cases h2; simp at h3; omega
      | 2, _ => cases h2; simp at h3; omega
  have h8 : ¬ Reaches graph 1 3 := fun h => absurd (h7 3 h) (by decide)
  have h9 : ¬ Reaches graph 1 4 := fun h => absurd (h7 4 h) (by decide)
  refine ⟨G, seen, h1, h3, ?_⟩
  have e : List.range graph.length = [0, 1, 2, 3, 4] := rfl
  rw [e] at h4
  simpa [h5, h6, h8, h9, Reaches.here] using h4

end Succinct.Ex
