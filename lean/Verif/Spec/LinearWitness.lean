import Verif.Spec.Witness
import Verif.Model.LinearGraph

/-!
Specification of witnesses for linear graphs, the analogue of `Verif.Spec.Witness`: an edge relates one source fact to one
target fact.
-/

namespace Golem
variable {T : Theory}

/-- `e` leads from the fact `f` to the fact `g`. -/
def LEdge.Fires (R : PRepr) (e : LEdge T) (f g : Fact T) : Prop :=
  ∃ ρ : Valuation T, e.fla.holds ρ ∧ f = e.srcFact R ρ ∧ g = e.tgtFact R ρ

/-- A feasible path: consecutive facts are related by the edges of the list. -/
inductive LFeasible (R : PRepr) : List (LEdge T) → Fact T → Fact T → Prop where
  | nil (f : Fact T) : LFeasible R [] f f
  | cons {e : LEdge T} {es : List (LEdge T)} {f g h : Fact T} (hf : e.Fires R f g) (hp : LFeasible R es g h) :
      LFeasible R (e :: es) f h

/-- `false` can be reached from `true` in a linear graph. -/
def LGraph.Unsafe (R : PRepr) (G : LGraph T) : Prop :=
  ∃ es : List (LEdge T), (∀ e ∈ es, e ∈ G) ∧ LFeasible R es trueFact falseFact

/-- A step is justified by the edge it names. -/
def LStepOK (R : PRepr) (G : LGraph T) (ds : List (DStep T)) (i : Nat) (d : DStep T) : Prop :=
  ∃ e ∈ G, d.clauseId = some e.id ∧ ∃ j p, d.premises = [j] ∧ j < i ∧ ds[j]? = some p ∧ e.Fires R p.fact d.fact

/-- An UNSAFE witness for a linear graph. -/
structure LUnsafeWitness (R : PRepr) (G : LGraph T) (ds : List (DStep T)) : Prop where
  first : ∃ d, ds.head? = some d ∧ d.fact = trueFact ∧ d.clauseId = none
  last : ∃ d, ds.getLast? = some d ∧ d.fact = falseFact
  steps : ∀ (i : Nat) (d : DStep T), 0 < i → ds[i]? = some d → LStepOK R G ds i d

def LGraph.Vertex (G : LGraph T) (p : Pred) : Prop := ∃ e ∈ G, p = e.tgt ∨ p = e.src

/-- A SAFE witness for a linear graph: an interpretation of the vertices, over their arguments, closed under all edges. -/
structure LSafeWitness (R : PRepr) (G : LGraph T) (D : Defs T) : Prop where
  closed : ∀ p d, D.get p = some d → ∀ x ∈ d.vars, x ∈ R.baseVars p
  tru : D.get .tru = some .tt
  fls : D.get .fls = some .ff
  model : ∀ e ∈ G, ∀ f g, e.Fires R f g → D.interp R f → D.interp R g
  complete : ∀ p, G.Vertex p → (D.get p).isSome
  only : ∀ p, (D.get p).isSome → G.Vertex p ∨ p = .tru ∨ p = .fls

end Golem
