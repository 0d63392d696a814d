import Verif.Model.Engines.LinearBmc
import Verif.Model.KTo1
import Verif.Model.Transformers.Simple

/-!
One loop for a whole linear graph: `ChcDirectedGraph::contractVertices` (`src/graph/ChcGraph.cc:580-712`),
`EdgeTranslator` (`src/transformers/CommonUtils.cc:228-281`) and `SingleLoopTransformation`
(`src/transformers/SingleLoopTransformation.cc`).
-/

namespace Golem
variable {T : Theory}

/-! ### Location and argument variables -/

/-- `.loc_<symbol>` (`src/graph/ChcGraph.cc:618-621`). -/
def locName (p : Pred) : Name := .loc p.symNo

/-- `.arg_<symbol>_<position>` (`src/graph/ChcGraph.cc:623-631`). -/
def argNames (R : PRepr) (p : Pred) : List Name := (List.range (R.args p).length).map (Name.arg p.symNo)

/-- `locationVars.at(p)` sent `k` steps through time, as a formula. -/
def locFla (p : Pred) (k : Int) : Fla T := .atom (.var (.ver (locName p) k))

/-- The argument variables of the contracted vertex (`src/graph/ChcGraph.cc:651-662`). The C++ code lists them in the order
of a hash map; here the locations come in the order of the vertices, then the arguments. -/
def contractedArgs (R : PRepr) (vs : List Pred) : List Name := vs.map locName ++ vs.flatMap (argNames R)

/-- `predicates.addRepresentation(newRef, vars)` (`src/graph/ChcGraph.cc:664-666`). -/
def PRepr.contract (R : PRepr) (N : Pred) (vs : List Pred) : PRepr :=
  ⟨fun q => if q = N then contractedArgs R vs else R.args q⟩

/-! ### EdgeTranslator -/

/-- The substitution of `EdgeTranslator::translateEdge` (`src/transformers/CommonUtils.cc:228-259`); `k` is the number of
auxiliary variables introduced before. -/
def etSubst (R : PRepr) (k : Nat) (e : LEdge T) : SubstMap T :=
  let aux := firstOcc (edgeAux R e)
  aux.zip ((List.range aux.length).map fun i => Tm.var (.ver (.et (k + i)) 0)) ++
  ((R.stateVars e.src).zip ((argNames R e.src).map fun n => Tm.var (.ver n 0)) ++
   (R.nextVars e.tgt).zip ((argNames R e.tgt).map fun n => Tm.var (.ver n 1)))

/-- `updatedLocation` (`src/transformers/CommonUtils.cc:265-275`). -/
def otherLocs (vs : List Pred) (s t : Pred) : Fla T :=
  Fla.conj (vs.flatMap fun p =>
    (if p ≠ t then [.not (locFla p 1)] else []) ++ (if p ≠ s then [.not (locFla p 0)] else []))

/-- `EdgeTranslator::translateEdge` (`src/transformers/CommonUtils.cc:228-283`). -/
def translateEdge (R : PRepr) (vs : List Pred) (k : Nat) (e : LEdge T) : Fla T :=
  Fla.conj [if e.src = .tru then .tt else locFla e.src 0, varSubstitute e.fla (etSubst R k e), locFla e.tgt 1,
    otherLocs vs e.src e.tgt]

/-- `transitionRelationComponents`: all edges between the contracted vertices, translated one after the other
(`src/graph/ChcGraph.cc:634-645`). -/
def loopParts (R : PRepr) (vs : List Pred) : Nat → List (LEdge T) → List (Fla T)
  | _, [] => []
  | k, e :: es => translateEdge R vs k e :: loopParts R vs (k + (firstOcc (edgeAux R e)).length) es

/-! ### contractVertices -/

/-- The update of an edge that leaves or enters the contracted set (`src/graph/ChcGraph.cc:671-710`). -/
def crossEdge (R : PRepr) (N : Pred) (vs : List Pred) (e : LEdge T) : LEdge T :=
  if e.src ∈ vs then
    { e with
      src := N
      fla := varSubstitute (.and e.fla (locFla e.src 0))
        ((R.stateVars e.src).zip ((argNames R e.src).map fun n => Tm.var (.ver n 0))) }
  else if e.tgt ∈ vs then
    { e with
      tgt := N
      fla := Fla.conj [Fla.conj ((vs.filter fun p => decide (p ≠ e.tgt)).map fun p => .not (locFla p 1)), locFla e.tgt 1,
        varSubstitute e.fla ((R.nextVars e.tgt).zip ((argNames R e.tgt).map fun n => Tm.var (.ver n 1)))] }
  else e

def innerEdge (vs : List Pred) (e : LEdge T) : Bool := decide (e.src ∈ vs) && decide (e.tgt ∈ vs)

/-- The new self loop (`src/graph/ChcGraph.cc:668`); the id is a new one. -/
def loopEdge (R : PRepr) (N : Pred) (vs : List Pred) (G : LGraph T) : LEdge T :=
  ⟨N, N, Fla.disj (loopParts R vs 0 (G.filter (innerEdge vs))), (G.map LEdge.id).foldl max 0 + 1⟩

/-- `ChcDirectedGraph::contractVertices` (`src/graph/ChcGraph.cc:610-712`), with `N` the symbol of the new vertex. -/
def contractVertices (R : PRepr) (N : Pred) (vs : List Pred) (G : LGraph T) : LGraph T :=
  (G.filter fun e => !innerEdge vs e).map (crossEdge R N vs) ++ [loopEdge R N vs G]

/-! ### SingleLoopTransformation -/

/-- The vertices to contract (`src/transformers/SingleLoopTransformation.cc:20-21`). -/
def loopVertices (G : LGraph T) : List Pred := (getVertices G).filter fun p => decide (p ≠ .tru) && decide (p ≠ .fls)

/-- `contractedGraph` (`src/transformers/SingleLoopTransformation.cc:17-22`). -/
def contractedGraph (R : PRepr) (N : Pred) (G : LGraph T) : LGraph T := contractVertices R N (loopVertices G) G

/-- `finalGraph` (`src/transformers/SingleLoopTransformation.cc:23-26`). -/
def finalGraph (S : Smt T) (R : PRepr) (N : Pred) (G : LGraph T) : LGraph T :=
  let R' := R.contract N (loopVertices G)
  toNormalGraph R' (multiEdgeMerger S R' (toHyperGraph R' (contractedGraph R N G))).1

/-- `toTransitionSystem(graph, true)` (`src/TransformationUtils.cc:53-117`): a graph without query gets the query `true`. -/
def toTransitionSystemNoQuery (R : PRepr) (E : ElimExcept T) (G : LGraph T) : Option (TS T) :=
  match reversePostOrder G with
  | some [v0, v1] => do
    let self ← lastEdge (fun e => decide (e.src = e.tgt)) G
    let init ← lastEdge (fun e => decide (e.src = v0 ∧ e.tgt = v1)) G
    let loop ← lastEdge (fun e => decide (e.src = v1 ∧ e.tgt = v1)) G
    let stateVars := R.stateVars self.src
    let nextVars := R.nextVars self.tgt
    return {
      stateVars := stateVars
      auxVars := G.flatMap (edgeAux R)
      init := varSubstitute (E nextVars init.fla) (nextVars.zip (stateVars.map Tm.var))
      trans := loop.fla
      query := .tt }
  | _ => toTransitionSystem R E G

/-- `SingleLoopTransformation::transform` (`src/transformers/SingleLoopTransformation.cc:15-31`), the transition system. -/
def singleLoop (S : Smt T) (R : PRepr) (E : ElimExcept T) (N : Pred) (G : LGraph T) : Option (TS T) :=
  toTransitionSystemNoQuery (R.contract N (loopVertices G)) E (finalGraph S R N G)

/-! ### Back-translation -/

/-- The query of `translateErrorPath` (`src/transformers/SingleLoopTransformation.cc:54-84`). -/
def slQuery (Gc : LGraph T) (k : Nat) : List (Fla T) :=
  let inputs := (Gc.filter fun e => decide (e.src = .tru)).map fun e => sendFla e.fla (-1)
  let outputs := (Gc.filter fun e => decide (e.src ≠ .tru ∧ e.tgt = .fls)).map LEdge.fla
  let trans := (lastEdge (fun e => decide (e.src ≠ .tru ∧ e.tgt ≠ .fls)) Gc).map LEdge.fla
  Fla.disj inputs :: ((List.range k).map (fun (i : Nat) => sendFla (trans.getD .ff) (i : Int)) ++ [sendFla (Fla.disj outputs) k])

/-- `canBeTaken` (`src/transformers/SingleLoopTransformation.cc:93-100`). -/
def canBeTaken (m : Valuation T) (k i : Nat) (e : LEdge T) : Bool :=
  if e.tgt = .fls then i == k + 1 else if i = k + 1 then false else T.truth (m (.ver (locName e.tgt) i))

/-- The loop of `translateErrorPath` (`src/transformers/SingleLoopTransformation.cc:89-107`): `n` iterations from `i` on.
`none` is `NoWitness`: no edge, or more than one, can be taken. -/
def slWalk (m : Valuation T) (k : Nat) (G : LGraph T) : Nat → Nat → Pred → Option (List Nat)
  | 0, _, _ => some []
  | n + 1, i, v =>
    match (G.out v).filter (canBeTaken m k i) with
    | [e] => (slWalk m k G n (i + 1) e.tgt).map (e.id :: ·)
    | _ => none

/-- `translateErrorPath` (`src/transformers/SingleLoopTransformation.cc:53-114`); `done none` is `NoWitness`. -/
def slErrorPath (S : Smt T) (R : PRepr) (N : Pred) (G : LGraph T) (k : Nat) : Outcome (Option (List (DStep T))) :=
  let q := slQuery (contractedGraph R N G) k
  if S.check q = .sat then
    match slWalk (S.model q) k G (k + 2) 0 .tru with
    | none => .done none
    | some path =>
      match fromErrorPath S R G path with
      | .done ds => .done (some ds)
      | .thrown => .thrown
      | .outOfFuel => .outOfFuel
  else .thrown

/-- The variables of the positions of `p` (`src/transformers/SingleLoopTransformation.cc:181-188`). -/
def positionVars (R : PRepr) (p : Pred) : List Var := (argNames R p).map (Var.ver · 0)

/-- The locations fixed to being at `p` (`src/transformers/SingleLoopTransformation.cc:123-136`). -/
def locSubst (vs : List Pred) (p : Pred) : SubstMap T :=
  vs.map fun q => (.ver (locName q) 0, .const (if q = p then T.vT else T.vF))

/-- The definition of one vertex (`src/transformers/SingleLoopTransformation.cc:131-176`). `simp` stands for the OpenSMT
simplifications of lines 140-150, `Q` for quantifier elimination; `none` is an exception of the latter. -/
def vertexInvariant (Q : KeepOnly T) (simp : Fla T → Fla T) (R : PRepr) (vs : List Pred) (inv : Fla T) (p : Pred) :
    Option (Fla T) :=
  let f := simp (varSubstitute inv (locSubst vs p))
  let g := if f.vars.any fun x => decide (x ∉ positionVars R p) then (Q (.not f) (positionVars R p)).map Fla.not else some f
  g.map fun g => varSubstitute g ((positionVars R p).zip ((R.args p).map fun n => Tm.var (.base n)))

/-- `translateInvariant` (`src/transformers/SingleLoopTransformation.cc:116-179`). -/
def slInvariant (Q : KeepOnly T) (simp : Fla T → Fla T) (R : PRepr) (G : LGraph T) (inv : Fla T) : Option (Defs T) :=
  ((loopVertices G).mapM fun p => (vertexInvariant Q simp R (loopVertices G) inv p).map fun f => (p, f)).map
    (trivialDefinitions ++ ·)

/-- `WitnessBackTranslator::translate` (`src/transformers/SingleLoopTransformation.cc:34-51`). -/
def slTranslate (S : Smt T) (Q : KeepOnly T) (simp : Fla T → Fla T) (R : PRepr) (N : Pred) (G : LGraph T) :
    TSResult T → Outcome (VerificationResult T)
  | .unsafeAt k =>
    match slErrorPath S R N G k with
    | .done (some ds) => .done ⟨.unsafeAns, .invalidity ds⟩
    | .done none => .done ⟨.unsafeAns, .none⟩
    | .thrown => .thrown
    | .outOfFuel => .outOfFuel
  | .safeInv I =>
    match slInvariant Q simp R G I with
    | some D => .done ⟨.safe, .validity D⟩
    | none => .thrown
  | .unknown => .done ⟨.unknown, .none⟩

/-- The last branch of `TransitionSystemEngine::solve` (`src/engine/TransitionSystemEngine.cc:39-43`) and of `BMC::solve`
(`src/engine/Bmc.cc:22-26`). -/
def solveSingleLoop (S : Smt T) (R : PRepr) (E : ElimExcept T) (Q : KeepOnly T) (simp : Fla T → Fla T) (N : Pred)
    (solve : TS T → Outcome (TSResult T)) (w : Bool) (G : LGraph T) : Outcome (VerificationResult T) :=
  match singleLoop S R E N G with
  | none => .thrown
  | some ts =>
    match solve ts with
    | .done r => if w then slTranslate S Q simp R N G r else .done ⟨r.answer, .none⟩
    | .thrown => .thrown
    | .outOfFuel => .outOfFuel

/-- `TransitionSystemEngine::solve(ChcDirectedGraph)` (`src/engine/TransitionSystemEngine.cc:30-44`): `prep` is
`dealWithAuxiliaryVariables`, `solve` the overload for transition systems. The single-loop system is not preprocessed. -/
def tsEngineGraph (S : Smt T) (R : PRepr) (E : ElimExcept T) (Q : KeepOnly T) (simp : Fla T → Fla T) (N : Pred)
    (prep : TS T → Option (TS T)) (solve : TS T → Outcome (TSResult T)) (w : Bool) (G : LGraph T) :
    Outcome (VerificationResult T) :=
  if isTrivial G then .done (solveTrivial S G)
  else if isTransitionSystem G then solveTSGraph S R E prep solve w G
  else solveSingleLoop S R E Q simp N solve w G

end Golem
