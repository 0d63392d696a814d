import Verif.Lemmas.Adjacency
import Verif.Props.Validator

/-! Property C42. -/

namespace Golem
variable {T : Theory}

/-- C42. The incoming list of a vertex consists of the ids of exactly the edges into it, in edge order; the outgoing list
of the ids of exactly the edges that have it among their sources, each once even if the vertex occurs several times;
the nodes are the vertices plus entry and exit, each once. -/
theorem C42_adjacency_exact (G : Graph T) (hG : G.IdsNodup) (q : Pred) :
    (adjacency G).inEdges q = (G.filter fun e => decide (e.tgt = q)).map Edge.id ∧
    (adjacency G).outEdges q = (G.filter fun e => decide (q ∈ e.src)).map Edge.id ∧
    ((adjacency G).inEdges q).Nodup ∧ ((adjacency G).outEdges q).Nodup ∧
    (∀ e ∈ G, (e.id ∈ (adjacency G).inEdges q ↔ e.tgt = q) ∧ (e.id ∈ (adjacency G).outEdges q ↔ q ∈ e.src)) ∧
    (q ∈ (adjacency G).nodes ↔ (G.Vertex q ∨ q = .tru ∨ q = .fls)) ∧ (adjacency G).nodes.Nodup := by
  have hi := adjacency_in G q
  have ho := adjacency_out hG q
  have sub : ∀ p : Edge T → Bool, ((G.filter p).map Edge.id).Nodup := fun p =>
    List.Nodup.sublist (List.filter_sublist.map _) hG
  refine ⟨hi, ho, hi ▸ sub _, ho ▸ sub _, ?_, mem_nodes, nodes_nodup G⟩
  intro e he
  rw [hi, ho]
  simp only [List.mem_map, List.mem_filter, decide_eq_true_eq]
  constructor
  · constructor
    · rintro ⟨e', ⟨he', h⟩, hid⟩
      rw [← hG.eq he' he hid]; exact h
    · exact fun h => ⟨e, ⟨he, h⟩, rfl⟩
  · constructor
    · rintro ⟨e', ⟨he', h⟩, hid⟩
      rw [← hG.eq he' he hid]; exact h
    · exact fun h => ⟨e, ⟨he, h⟩, rfl⟩

/-- A hyperedge that uses `p0` twice is listed once. -/
example : ValidatorEx.unsafeG.IdsNodup ∧ (adjacency ValidatorEx.unsafeG).outEdges (.p 0) = [1, 2] ∧
    (adjacency ValidatorEx.unsafeG).inEdges (.p 0) = [0, 1] := by
  refine ⟨by unfold Graph.IdsNodup; decide, by decide +kernel, by decide +kernel⟩

end Golem
