import Verif.Model.ErrorPath
import Verif.Model.QE
import Verif.Model.Engines.TransitionSystem

/-!
Graphs of the shape of a transition system: `src/TransformationUtils.cc:11-139, 230-246`, `src/Witnesses.cc:120-250`.
-/

namespace Golem
variable {T : Theory}

/-- `TrivialQuantifierElimination::tryEliminateVarsExcept(vars, fla)`, which `Verif.Model.TrivialQE` models in detail. -/
abbrev ElimExcept (T : Theory) := List Var → Fla T → Fla T

/-- Its contract (C33): the result is implied by the formula, every solution of the result can be changed outside `vars` to
become a solution of the formula, and there are no new variables. -/
structure ElimExcept.Exact (E : ElimExcept T) : Prop where
  weaker : ∀ vs f (ρ : Valuation T), f.holds ρ → (E vs f).holds ρ
  lift : ∀ vs f (ρ : Valuation T), (E vs f).holds ρ → ∃ ρ' : Valuation T, (∀ x ∈ vs, ρ' x = ρ x) ∧ f.holds ρ'
  vars : ∀ vs f, ∀ x ∈ (E vs f).vars, x ∈ f.vars

/-- `isTransitionSystem` (`src/TransformationUtils.cc:12-36`). -/
def isTransitionSystem (G : LGraph T) : Bool :=
  match reversePostOrder G with
  | some [beg, loop, fin] =>
    decide (beg = .tru) && decide (fin = .fls) &&
    ((G.out beg).length == 1) && ((G.out beg).all fun e => decide (e.tgt = loop)) &&
    ((G.out loop).length == 2) &&
    ((G.out loop).any fun e => decide (e.tgt = loop)) &&
    ((G.out loop).any fun e => decide (e.tgt = fin)) &&
    (G.out fin).isEmpty
  | _ => false

/-- `auxiliaryVars` of `getVariablesFromEdge` (`src/TransformationUtils.cc:238-245`). -/
def edgeAux (R : PRepr) (e : LEdge T) : List Var :=
  e.fla.vars.filter fun x => decide (x ∉ R.stateVars e.src) && decide (x ∉ R.nextVars e.tgt)

/-- The last edge of the graph with a property. -/
def lastEdge (p : LEdge T → Bool) (G : LGraph T) : Option (LEdge T) := (G.filter p).getLast?

/-- `toTransitionSystem(graph)` (`src/TransformationUtils.cc:53-117`), with `allowNoQuery = false`. Assignments in
`forEachEdge` overwrite earlier ones; a missing edge (assertion) is `none`. -/
def toTransitionSystem (R : PRepr) (E : ElimExcept T) (G : LGraph T) : Option (TS T) :=
  match reversePostOrder G with
  | some [v0, v1, v2] => do
    let self ← lastEdge (fun e => decide (e.src = e.tgt)) G
    let init ← lastEdge (fun e => decide (e.src = v0 ∧ e.tgt = v1)) G
    let loop ← lastEdge (fun e => decide (e.src = v1 ∧ e.tgt = v1)) G
    let fin ← lastEdge (fun e => decide (e.src = v1 ∧ e.tgt = v2)) G
    let stateVars := R.stateVars self.src
    let nextVars := R.nextVars self.tgt
    return {
      stateVars := stateVars
      auxVars := G.flatMap (edgeAux R)
      init := varSubstitute (E nextVars init.fla) (nextVars.zip (stateVars.map Tm.var))
      trans := loop.fla
      query := E stateVars fin.fla }
  | _ => none

/-- `QuantifierElimination(logic).eliminate(fla, vars)` as a service; `none` is an exception or a run without end. -/
abbrev QElim (T : Theory) := Fla T → List Var → Option (Fla T)

/-- Its contract, proved in C36. -/
def QElim.Exact (Q : QElim T) : Prop := ∀ f vs g, Q f vs = some g →
  (∀ x ∈ g.vars, x ∈ f.vars ∧ x ∉ vs) ∧
  ∀ ρ : Valuation T, g.holds ρ ↔ ∃ ρ' : Valuation T, (∀ x, x ∉ vs → ρ' x = ρ x) ∧ f.holds ρ'

/-- One half of `ensureNoAuxiliaryVariablesInInitAndQuery` (`src/TransformationUtils.cc:123-133`). -/
def elimAux (Q : QElim T) (aux : List Var) (f : Fla T) : Option (Fla T) :=
  let vs := f.vars.filter fun x => decide (x ∈ aux)
  if vs.isEmpty then some f else Q f vs

/-- `ensureNoAuxiliaryVariablesInInitAndQuery` (`src/TransformationUtils.cc:119-139`). -/
def ensureNoAux (Q : QElim T) (ts : TS T) : Option (TS T) :=
  if ts.auxVars.isEmpty then some ts
  else do
    let init ← elimAux Q ts.auxVars ts.init
    let query ← elimAux Q ts.auxVars ts.query
    return { ts with init := init, query := query }

/-- `ensureNoAuxiliaryVariablesInQuery` (`src/TransformationUtils.cc:141-154`). -/
def ensureNoAuxQuery (Q : QElim T) (ts : TS T) : Option (TS T) :=
  if ts.auxVars.isEmpty then some ts
  else do
    let query ← elimAux Q ts.auxVars ts.query
    return { ts with query := query }

/-- Insertion into a sorted set of predicate symbols. -/
def insertPred (p : Nat) : List Nat → List Nat
  | [] => [p]
  | q :: qs => if p < q then p :: q :: qs else if p = q then q :: qs else q :: insertPred p qs

def Pred.num : Pred → Option Nat
  | .p n => some n
  | _ => none

/-- `ChcDirectedGraph::getVertices` (`src/graph/ChcGraph.cc:422-433`): a set ordered by symbol number; `true` and `false`
are the first symbols of every logic. -/
def getVertices (G : LGraph T) : List Pred :=
  .tru :: .fls :: (((G.flatMap fun e => [e.src, e.tgt]).filterMap Pred.num).foldl (fun l p => insertPred p l) []).map .p

/-- `ErrorPath::fromTransitionSystem` (`src/Witnesses.cc:163-183`); `none` where the C++ code dereferences an end
iterator. -/
def errorPathFromTS (G : LGraph T) (unrollings : Nat) : Option (List Nat) :=
  if isTransitionSystem G then do
    let v ← (getVertices G).find? fun p => decide (p ≠ .tru ∧ p ≠ .fls)
    let loop ← (G.inc v).find? fun e => decide (e.src = e.tgt)
    let start ← (G.out .tru).head?
    let fin ← (G.inc .fls).head?
    return start.id :: (List.replicate unrollings loop.id ++ [fin.id])
  else some []

/-- `ValidityWitness::fromTransitionSystem` (`src/Witnesses.cc:185-209`). -/
def validityFromTS (R : PRepr) (G : LGraph T) (ts : TS T) (inv : Fla T) : Option (Defs T) :=
  if isTransitionSystem G then do
    let v ← (getVertices G)[2]?
    let subs : SubstMap T := ts.stateVars.zip ((R.args v).map fun n => Tm.var (.base n))
    return trivialDefinitions ++ [(v, varSubstitute inv subs)]
  else some []

/-- `translateTransitionSystemResult` (`src/Witnesses.cc:211-223`). -/
def translateTSResult (S : Smt T) (R : PRepr) (G : LGraph T) (ts : TS T) : TSResult T → Outcome (VerificationResult T)
  | .safeInv I =>
    match validityFromTS R G ts I with
    | some D => .done ⟨.safe, .validity D⟩
    | none => .thrown
  | .unsafeAt k =>
    match errorPathFromTS G k with
    | some path =>
      match fromErrorPath S R G path with
      | .done ds => .done ⟨.unsafeAns, .invalidity ds⟩
      | .thrown => .thrown
      | .outOfFuel => .outOfFuel
    | none => .thrown
  | .unknown => .done ⟨.unknown, .none⟩

/-- `TransitionSystemVerificationResult::answer`. -/
def TSResult.answer : TSResult T → VAnswer
  | .safeInv _ => .safe
  | .unsafeAt _ => .unsafeAns
  | .unknown => .unknown

/-- The transition-system branch of `TransitionSystemEngine::solve` (`src/engine/TransitionSystemEngine.cc:34-39`), of
`BMC::solveTransitionSystem` (`src/engine/Bmc.cc:28-32`, where `prep` does nothing) and of `Kind::solveTransitionSystem`
(`src/engine/Kind.cc:34-42`). -/
def solveTSGraph (S : Smt T) (R : PRepr) (E : ElimExcept T) (prep : TS T → Option (TS T))
    (solve : TS T → Outcome (TSResult T)) (computeWitness : Bool) (G : LGraph T) : Outcome (VerificationResult T) :=
  match (toTransitionSystem R E G).bind prep with
  | none => .thrown
  | some ts =>
    match solve ts with
    | .done r => if computeWitness then translateTSResult S R G ts r else .done ⟨r.answer, .none⟩
    | .thrown => .thrown
    | .outOfFuel => .outOfFuel

end Golem
