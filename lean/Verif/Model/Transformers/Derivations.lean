import Verif.Model.ErrorPath
import Verif.Model.Transformers.NodeEliminator

/-!
Rewriting derivations: `src/transformers/CommonUtils.cc:15-221`, and the back-translation of UNSAFE witnesses of
`src/transformers/NodeEliminator.cc:70-121`. Where the code reads past the end of a vector the model says `thrown`.
-/

namespace Golem
variable {T : Theory}

/-- The update of a later step (`src/transformers/CommonUtils.cc:95-104, 206-215`). -/
def shiftStep (k diff : Nat) (d : DStep T) : DStep T :=
  { d with premises := d.premises.map fun j => if k ≤ j then j + diff else j }

/-- Replacing step `k` by new steps (`src/transformers/CommonUtils.cc:24, 93-107` and `125, 204-218`). -/
def spliceSteps (ds : List (DStep T)) (k : Nat) (news : List (DStep T)) : List (DStep T) :=
  ds.take k ++ (news ++ (ds.drop (k + 1)).map (shiftStep k (news.length - 1)))

/-- `EdgeConverter` on a chain (`src/transformers/CommonUtils.cc:32-34`, `src/transformers/CommonUtils.h:14-53`). -/
def normalChain (R : PRepr) (chain : List (Edge T)) : List (LEdge T) :=
  chain.map fun e => toNormalEdge R (e.src.headD .tru) e

/-- The substitution for the end points (`src/transformers/CommonUtils.cc:40-52`). -/
def endSubst (R : PRepr) (rep : Edge T) (n : Nat) (prem step : DStep T) : Option (SubstMap T) :=
  (mapFromPredicate ((R.stateVars rep.tgt).map (shift n)) step.fact.2).bind fun m1 =>
    (mapFromPredicate (R.stateVars (rep.src.headD .tru)) prem.fact.2).map fun m2 => m1 ++ m2

/-- The steps that derive the inner vertices (`src/transformers/CommonUtils.cc:63-86`), `k` being the index of the first and
`j` the premise of the replaced step. -/
def chainSteps (R : PRepr) (ρ : Valuation T) (es : List (LEdge T)) (k j : Nat) : List (DStep T) :=
  (es.zip es.tail).zipIdx.map fun p =>
    ⟨[if p.2 = 0 then j else k + p.2 - 1], pathFact R ρ p.1.2.src (p.2 + 1), some p.1.1.id⟩

/-- The step that derives the last vertex (`src/transformers/CommonUtils.cc:88-94`); `size` is the number of steps so far. -/
def chainLast (es : List (LEdge T)) (size : Nat) (step : DStep T) : DStep T :=
  { step with premises := step.premises.set 0 (size - 1), clauseId := es.getLast?.map LEdge.id }

/-- `replaceSummarizingStep` (`src/transformers/CommonUtils.cc:15-110`). -/
def replaceSummarizingStep (S : Smt T) (R : PRepr) (ds : List (DStep T)) (k : Nat) (chain : List (Edge T)) (rep : Edge T) :
    Outcome (List (DStep T)) :=
  match ds[k]? with
  | none => .thrown
  | some step =>
    match step.premises.head? with
    | none => .thrown
    | some j =>
      match ds[j]? with
      | none => .thrown
      | some prem =>
        match endSubst R rep chain.length prem step with
        | none => .thrown
        | some m =>
          let q := varSubstitute (Fla.conj (pathQuery (normalChain R chain))) m
          if S.check [q] = .sat then
            let inner := chainSteps R (S.model [q]) (normalChain R chain) k j
            .done (spliceSteps ds k (inner ++ [chainLast (normalChain R chain) (k + inner.length) step]))
          else .thrown

/-- The values of the sources of the replaced edge (`src/transformers/CommonUtils.cc:156-166`), with the check of their
order. -/
def expandSubst (R : PRepr) (ds : List (DStep T)) (rep : Edge T) (step : DStep T) : Option (SubstMap T) :=
  if premFacts' ds step.premises = some rep.src then
    (mapFromPredicate (R.tgtVars rep.tgt) step.fact.2).bind fun m1 =>
      (fillSources R ds (instances rep.src) step.premises).map fun m2 => m1 ++ m2
  else none
where
  /-- The predicates of the premises. -/
  premFacts' (ds : List (DStep T)) (js : List Nat) : Option (List Pred) := js.mapM fun j => (ds[j]?).map fun d => d.fact.1

/-- The assertions (`src/transformers/CommonUtils.cc:137-146, 168-173`). -/
def expandQuery (R : PRepr) (inc out : Edge T) (m : SubstMap T) : List (Fla T) :=
  varSubstitute (.and inc.fla out.fla) (srcToTgt R inc.tgt) :: m.map fun p => .eq (.var p.1) p.2

/-- The premises of the outgoing edge's step (`src/transformers/CommonUtils.cc:188-202`); `pos` is the position of the
contracted vertex, `idx` the index of its step. -/
def expandPremises (entry : Bool) (js : List Nat) (pos idx j : Nat) : List Nat :=
  if entry then js.insertIdx pos idx else js.map fun i => if i = j then idx else i

/-- `originalSourcePremiseIndex` (`src/transformers/CommonUtils.cc:184-193`). -/
def expandPremise (entry : Bool) (js : List Nat) (pos : Nat) : Option Nat := if entry then some 0 else js[pos]?

/-- The two steps that replace the contracted one (`src/transformers/CommonUtils.cc:175-205`). -/
def expandSteps (R : PRepr) (ρ : Valuation T) (inc out : Edge T) (step : DStep T) (k pos j : Nat) (entry : Bool) :
    List (DStep T) :=
  [⟨[j], (inc.tgt, (R.tgtVars inc.tgt).map ρ), some inc.id⟩,
    { step with premises := expandPremises entry step.premises pos k j, clauseId := some out.id }]

/-- `expandStepWithHyperEdge` (`src/transformers/CommonUtils.cc:112-221`). -/
def expandStepWithHyperEdge (S : Smt T) (R : PRepr) (ds : List (DStep T)) (k : Nat) (rep inc out : Edge T) :
    Outcome (List (DStep T)) :=
  match ds[k]? with
  | none => .thrown
  | some step =>
    match expandSubst R ds rep step with
    | none => .thrown
    | some m =>
      let q := expandQuery R inc out m
      let entry := decide (inc.src.headD .tru = .tru)
      let pos := out.src.idxOf inc.tgt
      if S.check q = .sat then
        match expandPremise entry step.premises pos with
        | none => .thrown
        | some j => .done (spliceSteps ds k (expandSteps R (S.model q) inc out step k pos j entry))
      else .thrown

/-- `findContractionInfo` (`src/transformers/NodeEliminator.cc:73-86`): the replaced edge with its two edges. -/
def findContraction (rs : List (Pred × Contraction T)) (id : Nat) : Option (Edge T × Edge T × Edge T) :=
  (rs.flatMap fun r => r.2.replacing).find? fun t => t.1.id == id

/-- The first step that uses a replaced edge (`src/transformers/NodeEliminator.cc:91-94`), from index `i`. -/
def findReplaced (find : Nat → Option (Edge T × Edge T × Edge T)) :
    List (DStep T) → Nat → Option (Nat × Edge T × Edge T × Edge T)
  | [], _ => none
  | d :: ds, i => match d.clauseId.bind find with
    | some t => some (i, t)
    | none => findReplaced find ds (i + 1)

/-- One replacement (`src/transformers/NodeEliminator.cc:95-113`). -/
def expandOne (S : Smt T) (R : PRepr) (ds : List (DStep T)) (k : Nat) (t : Edge T × Edge T × Edge T) :
    Outcome (List (DStep T)) :=
  if t.2.2.src.length = 1 then replaceSummarizingStep S R ds k [t.2.1, t.2.2] t.1
  else expandStepWithHyperEdge S R ds k t.1 t.2.1 t.2.2

/-- The `while` loop (`src/transformers/NodeEliminator.cc:87-119`), with bounded recursion. -/
def elimUnsLoop (S : Smt T) (R : PRepr) (rs : List (Pred × Contraction T)) : Nat → List (DStep T) → Outcome (List (DStep T))
  | fuel, ds =>
    match findReplaced (findContraction rs) ds 0 with
    | none => .done ds
    | some (k, t) =>
      match fuel with
      | 0 => .outOfFuel
      | fuel + 1 =>
        match expandOne S R ds k t with
        | .done ds' => elimUnsLoop S R rs fuel ds'
        | r => r

/-- A bound on the number of iterations of that loop: an edge is replaced by two edges with smaller ids. -/
def derivationWeight (ds : List (DStep T)) : Nat := (ds.map fun d => 3 ^ d.clauseId.getD 0).sum

/-- `NodeEliminator::BackTranslator::translate(InvalidityWitness)` (`src/transformers/NodeEliminator.cc:69-121`). The loop
has no bound in the code; `C12_terminates` shows that this one is never reached. -/
def elimUns (S : Smt T) (R : PRepr) (rs : List (Pred × Contraction T)) (ds : List (DStep T)) : Outcome (List (DStep T)) :=
  elimUnsLoop S R rs (derivationWeight ds) ds

end Golem
