import Verif.Spec.Witness
import Verif.Model.Transformers.Pipeline
import Verif.Lemmas.ChainSteps

/-! What it means that a stage of a pipeline translates witnesses. -/

namespace Golem
variable {T : Theory}

/-- The invariant of the graphs in a pipeline. -/
structure GS.Inv (R : PRepr) (st : GS T) : Prop where
  ok : st.Ok R
  ends : st.edges.Ends

/-- If the graph consists of edges from the entry to the exit only, the derivation has just the two steps `true`, `false`.
(The back-translation of the trivial-edge pruner is right only for such derivations, and engines produce no others.) -/
def ShortFor (G : Graph T) (ds : List (DStep T)) : Prop := (∀ e ∈ G, e.src = [.tru] ∧ e.tgt = .fls) → ds.length = 2

/-- `st'` has the same verdict as `st`, and `b` translates witnesses of `st'` to witnesses of `st`, or to empty witnesses. -/
structure Translates (R : PRepr) (st st' : GS T) (b : OBack T) : Prop where
  verdict : st.edges.Unsafe R ↔ st'.edges.Unsafe R
  safe : ∀ D D', SafeGood R st'.edges D → b.safe D = .done D' → D' = [] ∨ SafeGood R st.edges D'
  uns : ∀ ds ds', UnsafeWitness R st'.edges ds → ShortFor st'.edges ds → b.uns ds = .done ds' →
    ds' = [] ∨ (UnsafeWitness R st.edges ds' ∧ ShortFor st.edges ds')
  unsNil : b.uns [] = .done []

/-- A stage that keeps the invariant, the verdict and translates witnesses. -/
def StageOk (R : PRepr) (s : Stage T) : Prop := ∀ st st' b, st.Inv R → s st = .done (st', b) →
  st'.Inv R ∧ Translates R st st' b

/-- On `st`, the stage succeeds, and every witness of its output is translated to a (complete) witness of its input. -/
def TotalAt (R : PRepr) (s : Stage T) (st : GS T) : Prop := ∃ st' b, s st = .done (st', b) ∧ st'.Inv R ∧
  (∀ D, SafeWitness R st'.edges D → ∃ D', b.safe D = .done D' ∧ SafeWitness R st.edges D') ∧
  (∀ ds, UnsafeWitness R st'.edges ds → ShortFor st'.edges ds →
    ∃ ds', b.uns ds = .done ds' ∧ UnsafeWitness R st.edges ds' ∧ ShortFor st.edges ds')

/-- `M` interprets the defined predicates as `D` does. -/
def Defs.AgreesWith (R : PRepr) (D : Defs T) (M : Fact T → Prop) : Prop := ∀ f, (D.get f.1).isSome → (M f ↔ D.interp R f)

/-- A SAFE witness that is a model however the predicates without a definition are interpreted. -/
structure SafeFlex (R : PRepr) (G : Graph T) (D : Defs T) : Prop where
  closed : D.Closed R
  tru : D.get .tru = some .tt
  fls : D.get .fls = some .ff
  only : ∀ p, (D.get p).isSome → G.Vertex p ∨ p = .tru ∨ p = .fls
  model : ∀ M, D.AgreesWith R M → IsModel (graphRules R G) M

end Golem
