import Verif.Model.Proofs.Build
import Verif.Spec.Intermediate

/-!
Proofs in the intermediate format (`src/proofs/ProofSteps.cc:166-213`). As for Alethe proofs the values of the variables are an input and the
assertions have no let terms. The number of a step is its position. A failed assertion, an exception and undefined behaviour are `none`.
-/

namespace Golem
namespace Alethe

/-- The instance and the line before it (`src/proofs/ProofSteps.cc:176-193`). -/
def instanceOf (a : Term) (σ : Inst) : Option (Term × List IStep) :=
  if σ = [] then some (a, [])
  else
    match a with
    | .all xs b =>
      if xs.all fun x => (σ.lookup x.1).isSome then
        some (inst σ (.all xs b), [.clause (.all xs b) (xs.filterMap fun x => (σ.lookup x.1).map lit)])
      else none
    | _ => none

/-- One iteration (`src/proofs/ProofSteps.cc:170-212`); `m` is `coarseStepToIntermediateStep`. -/
def intermediateStep (assertions : List Term) (ds : List Coarse) (i : Nat) (cs : Coarse) (m : List (Nat × Nat)) (ss : List IStep) :
    Option (List (Nat × Nat) × List IStep) :=
  if cs.premises = [] then some (m, ss)
  else
    match assertions[cs.clause]? with
    | none => none
    | some a =>
      match instanceOf a cs.σ with
      | none => none
      | some (t, pre) =>
        let ps := cs.premises.filter (· ≠ 0)
        if cs.premises.all (fun p => (ds[p]?).isSome) && ps.all fun p => (m.lookup p).isSome then
          let ss' := ss ++ pre ++ [.ground t, .implies (cs.premises.filterMap fun p => ds[p]?.map Coarse.fact) cs.fact]
          some ((i, ss'.length) :: m, ss' ++ [.fact cs.fact (ps.filterMap fun p => m.lookup p)])
        else none

/-- The loop (`src/proofs/ProofSteps.cc:170-213`). -/
def intermediateSteps (assertions : List Term) (ds : List Coarse) : Nat → List Coarse → List (Nat × Nat) → List IStep → Option (List IStep)
  | _, [], _, ss => some ss
  | i, cs :: l, m, ss =>
    match intermediateStep assertions ds i cs m ss with
    | none => none
    | some (m', ss') => intermediateSteps assertions ds (i + 1) l m' ss'

/-- `buildIntermediateProof` (`src/proofs/ProofSteps.cc:166-213`). -/
def buildIntermediate (assertions : List Term) (ds : List Coarse) : Option (List IStep) := intermediateSteps assertions ds 0 ds [] []

end Alethe
end Golem
