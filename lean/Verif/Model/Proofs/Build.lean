import Verif.Model.Proofs.Simplify
import Verif.Spec.AletheProof

/-!
Alethe proofs from derivations (`src/proofs/ProofSteps.cc:215-324, 624-776, 879-885`), after the let terms have been expanded.

The derivation (`src/Witnesses.h:40-45`) comes with the values of the variables (`getInstPairs`), which are an input here. A predicate without arguments is a `var` of sort Bool, as in the parser
(`src/ChcInterpreter.cc`: a terminal of type VAR). A failed assertion, an exception and undefined behaviour are `none`.
-/

namespace Golem
namespace Alethe

mutual
/-- `InstantiateVisitor` (`src/proofs/Term.cc:74-122`). -/
def inst (σ : Inst) : Term → Term
  | .num n => .num n
  | .bool b => .bool b
  | .var s k =>
    match σ.lookup s with
    | some v => lit v
    | none => .var s k
  | .name s => .name s
  | .op o args => .op o (insts σ args)
  | .app f args => .app f (insts σ args)
  | .named t s => .named t s
  | .all _ b => inst σ b
def insts (σ : Inst) : List Term → List Term
  | [] => []
  | t :: l => inst σ t :: insts σ l
end

mutual
/-- `CollectVariables` (`src/proofs/ProofSteps.cc:625-648`); a quantifier throws. -/
def collect : Term → Option (List Str)
  | .var s _ => some [s]
  | .op _ args => collects args
  | .app _ args => collects args
  | .all _ _ => none
  | _ => some []
def collects : List Term → Option (List Str)
  | [] => some []
  | t :: l =>
    match collect t, collects l with
    | some a, some b => some (a ++ b)
    | _, _ => none
end

/-- `removeUnusedQuantifiers` (`src/proofs/ProofSteps.cc:650-675`). -/
def removeUnused : Term → Option (Term × Bool)
  | .all xs b =>
    match collect b with
    | none => none
    | some used =>
      let newVars := xs.filter fun x => decide (x.1 ∈ used)
      if newVars = [] then some (b, true)
      else if newVars.length = xs.length then some (.all xs b, false)
      else some (.all newVars b, true)
  | t => some (t, false)

/-- `recordForallInstStep` (`src/proofs/ProofSteps.cc:158-160`). -/
def St.recordInst (st : St) (clause : List Term) (args : List Term) : St :=
  { st with steps := st.steps ++ [⟨false, clause, "forall_inst", [], args⟩] }

/-- `recordAssumption` (`src/proofs/ProofSteps.cc:162-164`). -/
def St.assume (st : St) (clause : List Term) : St :=
  { st with steps := st.steps ++ [⟨true, clause, " ", [], []⟩] }

/-- The first part of `instantiationSteps` (`src/proofs/ProofSteps.cc:687-696`): the term that stands for the clause and the step that says it. -/
def clearSteps (c : Nat) (cleared : Term) (changed : Bool) (st : St) : Term × Nat × St :=
  if changed then
    let st1 := st.record [eqn (.name (.a c)) cleared] "qnt_rm_unused" []
    let st2 := st1.record [neg (.name (.a c)), cleared] "equiv1" [st1.last]
    let st3 := st2.record [cleared] "resolution" [c, st2.last]
    (cleared, st3.last, st3)
  else (.name (.a c), c, st)

/-- `instantiationSteps` (`src/proofs/ProofSteps.cc:679-723`). -/
def instantiationSteps (i : Nat) (cs : Coarse) (assertion : Term) (st : St) : Option (Term × Nat × St) :=
  match removeUnused assertion with
  | none => none
  | some (cleared, changed) =>
    let r := clearSteps cs.clause cleared changed st
    if cs.σ = [] then some (cleared, r.2.1, r.2.2)
    else
      match cleared with
      | .all xs _ =>
        if xs.all fun x => (cs.σ.lookup x.1).isSome then
          let t := inst cs.σ cleared
          let n := Name.i (i - 1)
          let st1 := r.2.2.recordInst [.op .or [neg r.1, .named t n]] (xs.filterMap fun x => (cs.σ.lookup x.1).map lit)
          let st2 := st1.record [neg r.1, .name n] "or" [st1.last]
          let st3 := st2.record [.name n] "resolution" [st2.last, r.2.1]
          some (t, st3.last, st3)
        else none
      | _ => none

/-- `getOrCreateTrueStep` (`src/proofs/ProofSteps.cc:879-885`). -/
def St.trueOf (st : St) : Nat × St :=
  if st.trueStep = 0 then (st.steps.length, { st.record [.bool true] "true" [] with trueStep := st.steps.length })
  else (st.trueStep, st)

/-- `deriveLHSWithoutConstraint` (`src/proofs/ProofSteps.cc:743-775`). -/
def deriveLHS (simplified : Term) (premises : List Nat) (st : St) : Option (Nat × St) :=
  match simplified with
  | .op .and args =>
    let st1 := st.record (.op .and args :: args.map neg) "and_neg" []
    let st2 := st1.record [.op .and args] "resolution" (premises ++ [st1.last])
    some (st2.last, st2)
  | .app _ _ =>
    match premises with
    | [p] => some (p, st)
    | _ => none
  | .var _ _ =>
    match premises with
    | [p] => some (p, st)
    | _ => none
  | .bool true => some st.trueOf
  | _ => none

/-- The left-hand side (`src/proofs/ProofSteps.cc:302-318`): the step that says it. -/
def lhsSteps (l : Term) (n : Name) (premises : List Nat) (st : St) : Option (Nat × St) :=
  match simplify l (some n) st with
  | none => none
  | some (some (l', _), st1) =>
    match deriveLHS l' premises st1 with
    | none => none
    | some (k, st2) =>
      let st3 := st2.record [.name n, neg l'] "equiv2" [st1.last]
      let st4 := st3.record [.name n] "resolution" [k, st3.last]
      some (st4.last, st4)
  | some (none, st1) => deriveLHS l premises st1

/-- `derivePredicateFromClause` (`src/proofs/ProofSteps.cc:281-324`). -/
def derivePredicate (clause : Term) (clauseStep : Nat) (premises : List Nat) (st : St) : Option (Term × Nat × St) :=
  match clause with
  | .app f args => some (.app f args, clauseStep, st)
  | .op _ (l :: r :: _) =>
    let n := Name.lhs clauseStep
    let st1 := st.record [neg (.named l n), r] "implies" [st.last]
    match lhsSteps l n premises st1 with
    | none => none
    | some (k, st2) =>
      let st3 := st2.record [r] "resolution" [st1.last, k]
      some (r, st3.last, st3)
  | _ => none

/-- The last part of an iteration (`src/proofs/ProofSteps.cc:259-271`): the step that says the derived fact. The assertion
that the simplified predicate is the derived fact is not modelled; that it holds is proved. -/
def factSteps (pred : Term) (predStep : Nat) (st : St) : Option (Nat × St) :=
  match simplify pred none st with
  | none => none
  | some (some (t, _), st1) =>
    let st2 := st1.record [neg pred, t] "equiv1" [st1.last]
    let st3 := st2.record [t] "resolution" [st2.last, predStep]
    some (st3.last, st3)
  | some (none, st1) => some (predStep, st1)

/-- One iteration of `buildAletheProof` (`src/proofs/ProofSteps.cc:236-272`); `m` is `coarseStepToAletheStep`. -/
def buildStep (assertions : List Term) (i : Nat) (cs : Coarse) (m : List (Nat × Nat)) (st : St) :
    Option (List (Nat × Nat) × St) :=
  if cs.premises = [] then some (m, st)
  else
    match assertions[cs.clause]? with
    | none => none
    | some a =>
      match instantiationSteps i cs a st with
      | none => none
      | some (c, k, st1) =>
        let ps := cs.premises.filter (· ≠ 0)
        if ps.all fun p => (m.lookup p).isSome then
          match derivePredicate c k (ps.filterMap fun p => m.lookup p) st1 with
          | none => none
          | some (p, k', st2) =>
            match factSteps p k' st2 with
            | none => none
            | some (k'', st3) => some ((i, k'') :: m, st3)
        else none

/-- The loop (`src/proofs/ProofSteps.cc:235-273`). -/
def buildSteps (assertions : List Term) : Nat → List Coarse → List (Nat × Nat) → St → Option St
  | _, [], _, st => some st
  | i, cs :: l, m, st =>
    match buildStep assertions i cs m st with
    | none => none
    | some (m', st') => buildSteps assertions (i + 1) l m' st'

/-- `buildAssumptionSteps` (`src/proofs/ProofSteps.cc:725-740`) without let terms. -/
def assumptions : List Term → St → St
  | [], st => st
  | a :: l, st => assumptions l (st.assume [.named a (.a st.steps.length)])

/-- `buildAletheProof` (`src/proofs/ProofSteps.cc:228-279`). -/
def buildProof (assertions : List Term) (derivation : List Coarse) : Option (List Step) :=
  match buildSteps assertions 0 derivation [] (assumptions assertions ⟨[], 0, 0⟩) with
  | none => none
  | some st =>
    let st1 := st.record [neg (.bool false)] "false" []
    let st2 := st1.record [] "resolution" [st1.steps.length - 2, st1.steps.length - 1]
    some st2.steps

end Alethe
end Golem
