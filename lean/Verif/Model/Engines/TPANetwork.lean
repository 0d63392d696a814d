import Verif.Model.Engines.TPA
import Verif.Model.SingleLoop

/-!
The graph level of TPA: `detectLoop` and `isTransitionSystemDAG` (`src/TransformationUtils.cc:155-231`), the network of transition
systems (`src/engine/TPA.cc:1383-1675`) and `TPAEngine::solve` (`src/engine/TPA.cc:39-93`).
-/

namespace Golem
variable {T : Theory}

/-! ### Acyclicity -/

/-- The state of the search for a loop: `visitedVertices`, `verticesOnStack`, `loop`. -/
structure LoopState (T : Theory) where
  visited : List Pred
  stack : List Pred
  loop : List (LEdge T)

/-- The `for` loop of `visit` (`src/TransformationUtils.cc:168-187`); `rec` is `visit` itself. -/
def loopFold (rec : Pred → LoopState T → Option (LoopState T)) (node : Pred) :
    List (LEdge T) → LoopState T → Option (LoopState T)
  | [], st => some st
  | e :: es, st =>
    if e.tgt = node then loopFold rec node es st
    else if e.tgt ∉ st.visited then
      match rec e.tgt st with
      | none => none
      | some st' =>
        if st'.loop.isEmpty then loopFold rec node es st'
        else if (∃ f ∈ st'.loop.head?, e.tgt ≠ f.tgt) ∧ (∃ f ∈ st'.loop.getLast?, e.tgt = f.src) then
          some { st' with loop := st'.loop ++ [e] }
        else some st'
    else if e.tgt ∈ st.stack then some { st with loop := st.loop ++ [e] }
    else loopFold rec node es st

/-- `visit` (`src/TransformationUtils.cc:161-190`), with recursion depth bounded by fuel. -/
def loopVisit (G : LGraph T) : Nat → Pred → LoopState T → Option (LoopState T)
  | 0, _, _ => none
  | fuel + 1, node, st =>
    (loopFold (loopVisit G fuel) node (G.out node) { st with visited := node :: st.visited, stack := node :: st.stack }).map
      fun st => { st with stack := st.stack.filter fun v => decide (v ≠ node) }

/-- `detectLoop` (`src/TransformationUtils.cc:193-203`). The recursion depth never exceeds the number of vertices. -/
def detectLoop (G : LGraph T) : Option (List (LEdge T)) :=
  if (getVertices G).length ≤ 3 then some []
  else (loopVisit G (G.length + 2) .tru ⟨[], [], []⟩).map fun st => st.loop.reverse

/-- `isTransitionSystemDAG` (`src/TransformationUtils.cc:205-231`). -/
def isTransitionSystemDAG (G : LGraph T) : Bool :=
  if (getVertices G).length < 3 then false
  else match reversePostOrder G, detectLoop G with
    | some vs, some [] =>
      (vs.tail.dropLast.all fun v => (G.out v).any (fun e => decide (e.tgt = v)) && (G.out v).any (fun e => decide (e.tgt ≠ v))) &&
      !(G.out .tru).any (fun e => decide (e.tgt = .fls))
    | _, _ => false

/-! ### The network -/

/-- `NetworkNode` (`src/engine/TPA.cc:1400-1407`). The solver is its current system and state (`none` for entry and exit);
`reasons` are the first `blocked_children` entries of `blockedReason`; `steps` is `reachedStates.steps` of the solver. -/
structure NetNode (T : Theory) where
  solver : Option (TS T × TpaState T)
  pre : Fla T
  post : Fla T
  children : List (LEdge T)
  reasons : List (Fla T)
  steps : Nat

/-- `networkMap`. -/
abbrev Net (T : Theory) := Pred → NetNode T

def Net.set (net : Net T) (v : Pred) (n : NetNode T) : Net T := fun u => if u = v then n else net u

/-- `getSelfLoopFor` (`src/graph/ChcGraph.cc:250-255`). -/
def selfLoopFor (G : LGraph T) (v : Pred) : Option (LEdge T) := (G.out v).find? fun e => decide (e.tgt = v)

/-- `constructTransitionSystemFor` (`src/engine/TPA.cc:1604-1612`). The substitution of `transitionFormulaInSystemType` is the
identity. -/
def loopSystem (R : PRepr) (G : LGraph T) (v : Pred) : Option (TS T) :=
  (selfLoopFor G v).map fun e => ⟨R.stateVars v, edgeAux R e, .tt, e.fla, .tt⟩

/-- The first loop of `initNetwork` (`src/engine/TPA.cc:1451-1462`). -/
def netNodes (core : Core) (simpT : Fla T → Fla T) (R : PRepr) (G : LGraph T) : List Pred → Option (Net T)
  | [] => some fun _ => ⟨none, .ff, .ff, [], [], 0⟩
  | v :: vs => do
    let net ← netNodes core simpT R G vs
    if v = .tru ∨ v = .fls then return net
    else
      let ts ← loopSystem R G v
      let s ← tpaStart core simpT ts
      return net.set v { net v with solver := some s }

/-- The second loop of `initNetwork` (`src/engine/TPA.cc:1463-1475`). -/
def netChildren (G : LGraph T) : List Pred → Net T → Net T
  | [], net => net
  | v :: vs, net =>
    let es := if v = .tru then [] else (G.inc v).filter fun e => decide (e.src ≠ e.tgt)
    netChildren G vs (es.foldl (fun net e => net.set e.src { net e.src with children := (net e.src).children ++ [e] }) net)

/-- `initNetwork` (`src/engine/TPA.cc:1449-1476`). -/
def initNetwork (core : Core) (simpT : Fla T → Fla T) (R : PRepr) (G : LGraph T) : Option (Net T) := do
  let net ← netNodes core simpT R G (getVertices G)
  let vs ← reversePostOrder G
  return netChildren G vs net

/-- The services of the network: those of TPA; `nrm` stands for the simplifications of the term constructors; `M` is the
projection of `queryEdge`. -/
structure NetEnv (T : Theory) where
  V : TpaEnv T
  core : Core
  simpT : Fla T → Fla T
  nrm : Fla T → Fla T
  M : Mbp T
  fuel : Nat

/-- A query result: REACHABLE or UNREACHABLE with an explanation (`src/engine/TPA.cc:1411-1414`). -/
inductive NetRes (T : Theory) where
  | reach (g : Fla T)
  | block (g : Fla T)

/-- `queryEdge` (`src/engine/TPA.cc:1614-1648`). -/
def queryEdge (X : NetEnv T) (R : PRepr) (e : LEdge T) (src tgt : Fla T) : Outcome (NetRes T) :=
  let fs := [src, e.fla, sendFla tgt 1]
  match X.V.S.check fs with
  | .sat =>
    (Outcome.orThrow (mbpKeepOnly X.M (Fla.conj fs) (R.nextVars e.tgt) (X.V.S.model fs))).andThen fun g =>
    .done (.reach (sendFla g (-1)))
  | .unsat => .done (.block (X.nrm (.not (X.V.S.itp [e.fla, sendFla tgt 1] [src]))))
  | _ => .thrown

/-- The answer of a solver object for new init and query: `resetInitialStates`, `resetQueryStates`, `solve`
(`src/engine/TPA.cc:1653-1655`); the assertions of the resets stop the run. -/
def askSolver (X : NetEnv T) (s : TS T × TpaState T) (src tgt : Fla T) : Outcome (TS T × TpaState T × TpaAnswer T) :=
  (tpaOps X.V X.core X.fuel [.resetInit src, .resetQuery tgt, .solve] s).andThen fun l =>
  match l with
  | [r] => .done r
  | _ => .thrown

/-- `queryTransitionSystem` (`src/engine/TPA.cc:1650-1675`); also the explanation of the solver, for `getInductiveInvariant`. -/
def queryTS (X : NetEnv T) (n : NetNode T) (src tgt : Fla T) : Outcome (NetRes T × NetNode T × Option (Expl T)) :=
  (Outcome.orThrow n.solver).andThen fun s =>
  (askSolver X s src tgt).andThen fun r =>
  match r.2.2 with
  | .reached g k => .done (.reach g, { n with solver := some (r.1, r.2.1), steps := k }, none)
  | .safe e =>
    (Outcome.orThrow (tpaExplanation X.V.S r.1 e)).andThen fun f =>
    .done (.block f, { n with solver := some (r.1, r.2.1) }, some e)

/-- `Entry` (`src/engine/TPA.cc:1480-1486`). -/
inductive PathEntry (T : Theory) where
  | pre (v : Pred) (e : LEdge T) (reached : Fla T)
  | post (v : Pred) (reached : Fla T)

/-- `extractPath` (`src/engine/TPA.cc:1490-1496`); the head of the list is the top of the path. -/
def extractPath (path : List (PathEntry T)) : List (LEdge T) :=
  path.reverse.filterMap fun x => match x with
    | .pre _ e _ => some e
    | .post _ _ => none

/-- How the search ends. -/
inductive NetEnd (T : Theory) where
  | found (path : List (LEdge T)) (net : Net T)
  | exhausted (net : Net T)

/-- The `while` loop of `TransitionSystemNetworkManager::solve` (`src/engine/TPA.cc:1504-1556`). -/
def netLoop (X : NetEnv T) (R : PRepr) : Nat → List (PathEntry T) → Net T → Outcome (NetEnd T)
  | _, [], net => .done (.exhausted net)
  | 0, _ :: _, _ => .outOfFuel
  | fuel + 1, .pre v e reached :: path, net =>
    (queryTS X (net v) reached (X.nrm (.not (net v).post))).andThen fun r =>
    match r.1 with
    | .reach g => netLoop X R fuel (.post v g :: .pre v e reached :: path) (net.set v r.2.1)
    | .block f => netLoop X R fuel path (net.set v { r.2.1 with pre := X.nrm (.or (net v).pre f) })
  | fuel + 1, .post v reached :: path, net =>
    match (net v).children[(net v).reasons.length]? with
    | none =>
      netLoop X R fuel path
        (net.set v { net v with post := X.nrm (.or (net v).post (X.nrm (Fla.conj (net v).reasons))), reasons := [] })
    | some e =>
      (queryEdge X R e reached (X.nrm (.not (net e.tgt).pre))).andThen fun r =>
      match r with
      | .reach g =>
        let path' := .pre e.tgt e g :: .post v reached :: path
        if e.tgt = .fls then .done (.found (extractPath path') net) else netLoop X R fuel path' net
      | .block f => netLoop X R fuel (.post v reached :: path) (net.set v { net v with reasons := (net v).reasons ++ [f] })

/-- The error path (`src/engine/TPA.cc:1562-1573`). -/
def netErrorPath (G : LGraph T) (net : Net T) : List (LEdge T) → Option (List Nat)
  | [] => some []
  | e :: es => do
    let rest ← netErrorPath G net es
    if e.tgt = .fls then return e.id :: rest
    else
      let loop ← selfLoopFor G e.tgt
      return e.id :: (List.replicate (net e.tgt).steps loop.id ++ rest)

/-- The loop of `computeValidityWitness` (`src/engine/TPA.cc:1581-1600`). A missing invariant is undefined behaviour in the code. -/
def netDefs (X : NetEnv T) (R : PRepr) (net : Net T) : List Pred → Outcome (Option (Defs T))
  | [] => .done (some [])
  | v :: vs =>
    if v = .tru ∨ v = .fls then netDefs X R net vs
    else
      (queryTS X (net v) (net v).pre (X.nrm (.not (net v).post))).andThen fun r =>
      match r.1, r.2.1.solver, r.2.2 with
      | .block _, some s, some e =>
        (tpaInvariant X.V s.1 s.2 e).andThen fun I =>
        (Outcome.orThrow I).andThen fun I =>
        (netDefs X R net vs).andThen fun D =>
        .done (D.map fun D => (v, varSubstitute I (s.1.stateVars.zip ((R.args v).map fun n => Tm.var (.base n)))) :: D)
      | _, _, _ => .done none

/-- `TransitionSystemNetworkManager::solve` (`src/engine/TPA.cc:1500-1560`) and the witnesses (`src/engine/TPA.cc:1562-1602`). -/
def netSolve (X : NetEnv T) (R : PRepr) (w : Bool) (G : LGraph T) : Outcome (VerificationResult T) :=
  (Outcome.orThrow (initNetwork X.core X.simpT R G)).andThen fun net =>
  (netLoop X R X.fuel [.post .tru .tt] net).andThen fun r =>
  match r with
  | .found path net =>
    if w then
      (Outcome.orThrow (netErrorPath G net path)).andThen fun ids =>
      (fromErrorPath X.V.S R G ids).andThen fun ds => .done ⟨.unsafeAns, .invalidity ds⟩
    else .done ⟨.unsafeAns, .none⟩
  | .exhausted net =>
    if w then
      (netDefs X R net (getVertices G)).andThen fun D =>
      match D with
      | some D => .done ⟨.safe, .validity (trivialDefinitions ++ D)⟩
      | none => .done ⟨.safe, .none⟩
    else .done ⟨.safe, .none⟩

/-! ### The engine -/

/-- `solveTransitionSystem` on a fresh solver object: the system it keeps, its state and its answer. -/
def tpaRun (X : NetEnv T) (ts : TS T) : Outcome (TS T × TpaState T × TpaAnswer T) :=
  (Outcome.orThrow (tpaStart X.core X.simpT ts)).andThen fun s =>
  (tpaSolve X.V X.core s.1 X.fuel s.2).andThen fun r => .done (s.1, r.2, r.1)

/-- The witness for one system (`src/engine/TPA.cc:46-60, 80-92`): `translate` is the translation of results of the system. -/
def tpaAnswerResult (X : NetEnv T) (w : Bool) (translate : TSResult T → Outcome (VerificationResult T))
    (r : TS T × TpaState T × TpaAnswer T) : Outcome (VerificationResult T) :=
  match r.2.2 with
  | .reached _ n => if w then translate (.unsafeAt n) else .done ⟨.unsafeAns, .none⟩
  | .safe e =>
    if w then
      (tpaInvariant X.V r.1 r.2.1 e).andThen fun I =>
      match I with
      | some I => translate (.safeInv I)
      | none => .done ⟨.safe, .none⟩
    else .done ⟨.safe, .none⟩

/-- `TPAEngine::solve` (`src/engine/TPA.cc:39-93`) without the option SIMPLIFY_NESTED. `Q` eliminates auxiliary variables, `K` and
`simp` belong to the translation of the single-loop transformation. -/
def tpaGraph (X : NetEnv T) (R : PRepr) (E : ElimExcept T) (Q : QElim T) (K : KeepOnly T) (simp : Fla T → Fla T) (N : Pred)
    (forceTS hasArrays w : Bool) (G : LGraph T) : Outcome (VerificationResult T) :=
  if isTrivial G then .done (solveTrivial X.V.S G)
  else if hasArrays then .done ⟨.unknown, .none⟩
  else if isTransitionSystem G then
    match (toTransitionSystem R E G).bind (ensureNoAux Q) with
    | none => .thrown
    | some ts => (tpaRun X ts).andThen (tpaAnswerResult X w (translateTSResult X.V.S R G ts))
  else if isTransitionSystemDAG G && !forceTS then netSolve X R w G
  else
    match singleLoop X.V.S R E N G with
    | none => .thrown
    | some ts => (tpaRun X ts).andThen (tpaAnswerResult X w (slTranslate X.V.S K simp R N G))

end Golem
