import Verif.Model.ErrorPath
import Verif.Model.ToTS
import Verif.Model.TransitionSystem
import Verif.Model.Engines.SymbolicExecution
import Verif.Model.Engines.Hyper

/-!
Lazy abstraction with interpolants (`lawi`): `src/engine/Lawi.cc`. An abstract reachability tree (ART) of the linear graph is unwound;
its vertices are labelled with formulas, strengthened by path interpolants of refuted error paths, and can be covered by earlier
vertices of the same location.
-/

namespace Golem
variable {T : Theory}

/-- A vertex of the tree (`src/engine/Lawi.cc:51-66`): `toOriginalLoc`, `parentOf` (source and original edge), and the label
(`LabelingFunction`, `src/engine/Lawi.cc:178-198`). Vertices are numbered in the order of their creation. -/
structure LwNode (T : Theory) where
  loc : Pred
  parent : Option (Nat × LEdge T)
  label : Fla T
deriving DecidableEq

/-- The mutable members of `LawiContext` (`src/engine/Lawi.cc:274-289`): the tree with its labels, the covering relation as pairs
(coveree, coverer), and `leavesToCheck`. -/
structure LwState (T : Theory) where
  nodes : List (LwNode T)
  cover : List (Nat × Nat)
  leaves : List Nat

/-- What is fixed during a run: the solver of implication checks, the interpolating solver, the graph, `simplifyMax` (which the code
applies to conjunctions and disjunctions only), the option `FORCED_COVERING`, and the order in which `std::partition` leaves the
outgoing edges (the edges to the error location come first; the order is otherwise unspecified). -/
structure LwEnv (T : Theory) where
  S : Smt T
  I : Smt T
  R : PRepr
  G : LGraph T
  simp : Fla T → Fla T
  arrange : List (LEdge T) → List (LEdge T)
  forced : Bool

/-! ### The tree -/

/-- `getOriginalLocation` (`src/engine/Lawi.cc:102-105`). -/
def LwState.loc (s : LwState T) (v : Nat) : Pred := ((s.nodes[v]?).map LwNode.loc).getD .tru

/-- `LabelingFunction::getLabel` (`src/engine/Lawi.cc:182-185`). -/
def LwState.label (s : LwState T) (v : Nat) : Fla T := ((s.nodes[v]?).map LwNode.label).getD .tt

/-- `parentOf` (`src/engine/Lawi.cc:64`). -/
def LwState.parent (s : LwState T) (v : Nat) : Option (Nat × LEdge T) := (s.nodes[v]?).bind LwNode.parent

/-- The loop of `getAncestorPathUntil` (`src/engine/Lawi.cc:661-672`), last edge first: source, original edge and target of every edge of
the tree. The fuel bounds the iterations of the model only: parents have smaller numbers. -/
def LwState.up (s : LwState T) (stop : Nat) : Nat → Nat → List (Nat × LEdge T × Nat)
  | 0, _ => []
  | fuel + 1, v =>
    if v = stop then []
    else match s.parent v with
      | none => []
      | some (u, e) => (u, e, v) :: s.up stop fuel u

/-- `getAncestorPathUntil` (`src/engine/Lawi.cc:661-672`). -/
def LwState.path (s : LwState T) (v stop : Nat) : List (Nat × LEdge T × Nat) := (s.up stop (v + 1) v).reverse

/-- `getAncestorsOfExcluding` (`src/engine/Lawi.cc:685-689`). -/
def LwState.ancestors (s : LwState T) (v : Nat) : List Nat := (s.path v 0).map fun p => p.1

/-- `getAncestorsOfIncluding` (`src/engine/Lawi.cc:674-683`). -/
def LwState.ancestorsIncl (s : LwState T) (v : Nat) : List Nat := v :: s.ancestors v

/-- The loop of `isAncestor` (`src/engine/Lawi.cc:637-645`). -/
def LwState.isAncestorLoop (s : LwState T) (a : Nat) : Nat → Nat → Bool
  | 0, _ => false
  | fuel + 1, v =>
    if v = a then true
    else if v = 0 then false
    else match s.parent v with
      | none => false
      | some (u, _) => s.isAncestorLoop a fuel u

/-- `isAncestor` (`src/engine/Lawi.cc:637-645`). -/
def LwState.isAncestor (s : LwState T) (a v : Nat) : Bool := s.isAncestorLoop a (v + 1) v

/-- `getChildrenOf` (`src/engine/Lawi.cc:691-703`). -/
def LwState.children (s : LwState T) (v : Nat) : List Nat :=
  (List.range s.nodes.length).filter fun w => decide ((s.parent w).map Prod.fst = some v)

/-- `fillDescendantsRecusively` (`src/engine/Lawi.cc:647-653`); the fuel bounds the depth. -/
def LwState.descLoop (s : LwState T) : Nat → Nat → List Nat
  | 0, v => [v]
  | fuel + 1, v => v :: (s.children v).flatMap (s.descLoop fuel)

/-- `getDescendantsOfIncluding` (`src/engine/Lawi.cc:655-659`). -/
def LwState.descendants (s : LwState T) (v : Nat) : List Nat := s.descLoop s.nodes.length v

/-- `getEarlierForSameLocationAs` (`src/engine/Lawi.cc:705-717`): from the latest to the earliest, without the root. -/
def LwState.earlier (s : LwState T) (v : Nat) : List Nat :=
  (List.range v).reverse.filter fun w => decide (0 < w ∧ s.loc w = s.loc v)

/-- The loop of `nearestCommonAncestor` (`src/engine/Lawi.cc:768-780`). -/
def LwState.ncaLoop (s : LwState T) (preds : List Nat) : Nat → Nat → Nat
  | 0, v => v
  | fuel + 1, v =>
    if v = 0 then v
    else if v ∈ preds then v
    else match s.parent v with
      | none => v
      | some (u, _) => s.ncaLoop preds fuel u

/-- `nearestCommonAncestor` (`src/engine/Lawi.cc:768-780`). -/
def LwState.nca (s : LwState T) (v1 v2 : Nat) : Nat := s.ncaLoop (s.ancestorsIncl v1) (v2 + 1) v2

/-! ### Covering -/

/-- `CoveringRelation::isCovered` (`src/engine/Lawi.cc:605-611`). -/
def LwState.isCovered (s : LwState T) (v : Nat) : Bool := (s.ancestorsIncl v).any fun a => s.cover.any fun c => c.1 == a

/-- `CoveringRelation::updateWith` (`src/engine/Lawi.cc:591-603`). -/
def LwState.updateCover (s : LwState T) (coveree coverer : Nat) : LwState T :=
  { s with cover := (s.cover.filter fun c => decide (c.2 ∉ s.descendants coveree)) ++ [(coveree, coverer)] }

/-- `CoveringRelation::vertexStrengthened` (`src/engine/Lawi.cc:613-618`). -/
def LwState.strengthened (s : LwState T) (v : Nat) : LwState T := { s with cover := s.cover.filter fun c => decide (c.2 ≠ v) }

/-- `ImplicationChecker::checkImplication` (`src/engine/Lawi.cc:204-230`): is the result VALID? The cache is not modelled: the solver is a
function of its query. -/
def lwImplies (S : Smt T) (a c : Fla T) : Bool :=
  if a = c ∨ a = .ff ∨ c = .tt then true
  else if a = .tt ∨ c = .ff then false
  else decide (S.check [.and a (.not c)] = .unsat)

/-- `ImplicationChecker::checkImplicationWithHints` (`src/engine/Lawi.cc:232-267`): is the result VALID, and the models found so far. -/
def lwImpliesHints (S : Smt T) (a c : Fla T) (models : List (Valuation T)) : Bool × List (Valuation T) :=
  if a = c ∨ a = .ff ∨ c = .tt then (true, models)
  else if a = .tt ∨ c = .ff then (false, models)
  else if models.any fun ρ => decide (¬ c.holds ρ) then (false, models)
  else match S.check [.and a (.not c)] with
    | .unsat => (true, models)
    | .sat => (false, models ++ [S.model [.and a (.not c)]])
    | _ => (false, models)

/-- `coverWithHints` (`src/engine/Lawi.cc:580-589`). -/
def LwState.coverHints (S : Smt T) (s : LwState T) (coveree coverer : Nat) (models : List (Valuation T)) :
    LwState T × Bool × List (Valuation T) :=
  if s.isCovered coveree then (s, true, models)
  else if s.loc coveree ≠ s.loc coverer ∨ s.isAncestor coveree coverer then (s, false, models)
  else
    let r := lwImpliesHints S (s.label coveree) (s.label coverer) models
    if r.1 then (s.updateCover coveree coverer, true, r.2) else (s, false, r.2)

/-- The loop of `close` (`src/engine/Lawi.cc:374-383`). -/
def lwCloseLoop (S : Smt T) (v : Nat) : List Nat → LwState T → List (Valuation T) → LwState T
  | [], s, _ => s
  | earlier :: rest, s, models =>
    if s.isCovered earlier then lwCloseLoop S v rest s models
    else
      let r := s.coverHints S v earlier models
      if r.2.1 then r.1 else lwCloseLoop S v rest r.1 r.2.2

/-- `LawiContext::close` (`src/engine/Lawi.cc:374-383`). -/
def LwState.close (S : Smt T) (s : LwState T) (v : Nat) : LwState T := lwCloseLoop S v (s.earlier v) s []

/-! ### Labels -/

/-- `LabelingFunction::replaceLabel` (`src/engine/Lawi.cc:192-196`). -/
def LwState.setLabel (s : LwState T) (v : Nat) (f : Fla T) : LwState T :=
  { s with nodes := s.nodes.modify v fun n => { n with label := f } }

/-- The body of the loop of `strengthenLabelsAlongPath` (`src/engine/Lawi.cc:804-817`). -/
def lwStrengthenStep (S : Smt T) (c : LwState T × List Nat) (p : Nat × Fla T) : LwState T × List Nat :=
  if lwImplies S (c.1.label p.1) p.2 then c
  else ((c.1.setLabel p.1 (.and p.2 (c.1.label p.1))).strengthened p.1, c.2 ++ [p.1])

/-- `strengthenLabelsAlongPath` (`src/engine/Lawi.cc:800-819`): the new state and the strengthened vertices. -/
def LwState.strengthenPath (S : Smt T) (s : LwState T) (path : List (Nat × LEdge T × Nat)) (itps : List (Fla T)) : LwState T × List Nat :=
  ((path.map fun p => p.2.2).zip itps).foldl (lwStrengthenStep S) (s, [])

/-- `normalizeInterpolants` (`src/engine/Lawi.cc:791-798`). -/
def lwNormalize (itps : List (Fla T)) : List (Fla T) := itps.zipIdx.map fun p => sendFla p.1 (-((p.2 : Int) + 1))

/-- `getPathInterpolants` (`src/engine/Lawi.cc:551-565`) for the assertions `fs` and a path of the given size: masks of the first
assertions, and false. -/
def lwPathItps (I : Smt T) (fs : List (Fla T)) (pathSize : Nat) : List (Fla T) :=
  (List.range (pathSize - 1)).map (fun (i : Nat) => I.itp (fs.take (i + 1)) (fs.drop (i + 1))) ++ [.ff]

/-- `removeLeaf` (`src/engine/Lawi.cc:291-293`). -/
def LwState.removeLeaf (s : LwState T) (v : Nat) : LwState T := { s with leaves := s.leaves.filter fun w => decide (w ≠ v) }

/-- `refine` (`src/engine/Lawi.cc:513-549`): the edges of a real error path, or the new state and the strengthened vertices. -/
def LwEnv.refine (E : LwEnv T) (s : LwState T) (v : Nat) : Outcome (List (LEdge T) ⊕ (LwState T × List Nat)) :=
  let path := s.path v 0
  let fs := pathQuery (path.map fun p => p.2.1)
  match E.I.check fs with
  | .sat => .done (.inl (path.map fun p => p.2.1))
  | .unsat =>
    let r := s.strengthenPath E.S path (lwNormalize (lwPathItps E.I fs path.length))
    .done (.inr (r.1.removeLeaf v, r.2))
  | _ => .thrown

/-- One candidate in `applyForcedCovering` (`src/engine/Lawi.cc:467-501`); `none`: continue with the next one. The label of the nearest
common ancestor is the first assertion, so the masks of `getPathInterpolants` are off by one. -/
def LwEnv.forceOne (E : LwEnv T) (s : LwState T) (v candidate : Nat) : Option (LwState T) :=
  if s.isCovered candidate then none
  else
    let nca := s.nca candidate v
    let path := s.path v nca
    let fs := s.label nca :: (pathQuery (path.map fun p => p.2.1) ++ [.not (sendFla (s.label candidate) path.length)])
    if E.I.check fs = .unsat then
      let r := s.strengthenPath E.S path (lwNormalize (lwPathItps E.I fs path.length))
      some (r.1.setLabel v (r.1.label candidate))
    else none

/-- `applyForcedCovering` with `forceCoveringLimit = 1` (`src/engine/Lawi.cc:287, 465-502`). -/
def LwEnv.force (E : LwEnv T) (s : LwState T) (v : Nat) : LwState T :=
  (((s.earlier v).take 1).findSome? fun c => E.forceOne s v c).getD s

/-! ### Unwinding -/

/-- `expand` (`src/engine/Lawi.cc:504-511, 620-635`): the new state with the children. They get their label `true`
(`src/engine/Lawi.cc:453`) here. -/
def LwEnv.expand (E : LwEnv T) (s : LwState T) (v : Nat) : LwState T × List Nat :=
  let es := E.arrange (E.G.out (s.loc v))
  let children := (List.range es.length).map (fun (i : Nat) => s.nodes.length + i)
  (LwState.removeLeaf ⟨s.nodes ++ es.map (fun e => ⟨e.tgt, some (v, e), .tt⟩), s.cover, s.leaves ++ children⟩ v, children)

/-- `DFS` for one vertex, without the recursive calls (`src/engine/Lawi.cc:435-463`): an error path, or the new state and the children to
visit. -/
def LwEnv.visit (E : LwEnv T) (s : LwState T) (v : Nat) : Outcome (List (LEdge T) ⊕ (LwState T × List Nat)) :=
  let s := s.close E.S v
  if s.isCovered v then .done (.inr (s, []))
  else if s.loc v = .fls then
    match E.refine s v with
    | .done (.inr r) => .done (.inr (r.2.foldl (fun s w => s.close E.S w) r.1, []))
    | r => r
  else
    let r := E.expand s v
    .done (.inr (if E.forced then r.2.foldl E.force r.1 else r.1, r.2))

/-- `DFS` (`src/engine/Lawi.cc:435-463`): the pending calls are an explicit stack (nothing happens between the call for a child and the
call for the next one). -/
def LwEnv.dfs (E : LwEnv T) : Nat → List Nat → LwState T → Outcome (List (LEdge T) ⊕ LwState T)
  | _, [], s => .done (.inr s)
  | 0, _ :: _, _ => .outOfFuel
  | fuel + 1, v :: stack, s =>
    match E.visit s v with
    | .done (.inl es) => .done (.inl es)
    | .done (.inr (s', children)) => E.dfs fuel (children ++ stack) s'
    | .thrown => .thrown
    | .outOfFuel => .outOfFuel

/-- `getUncoveredLeaf` (`src/engine/Lawi.cc:782-789`). -/
def LwState.uncoveredLeaf (s : LwState T) : Option Nat := s.leaves.reverse.find? fun v => !s.isCovered v

/-- `closeAllAncestors` (`src/engine/Lawi.cc:299-303`). -/
def LwState.closeAncestors (S : Smt T) (s : LwState T) (v : Nat) : LwState T := (s.ancestors v).foldl (fun s w => s.close S w) s

/-- The labels of the vertices of a location that are not covered (`src/engine/Lawi.cc:405-413`). -/
def LwState.finalLabels (s : LwState T) (p : Pred) : List (Fla T) :=
  ((s.descendants 0).filter fun v => !s.isCovered v && decide (s.loc v = p)).map s.label

/-- The validity witness (`src/engine/Lawi.cc:414-431`). -/
def LwEnv.definitions (E : LwEnv T) (s : LwState T) : Defs T :=
  trivialDefinitions ++ ((getVertices E.G).filter fun p => decide (p ≠ .tru ∧ p ≠ .fls)).map fun p =>
    (p, if s.finalLabels p = [] then .ff else (E.simp (Fla.disj (s.finalLabels p))).rename verToBase)

/-- `unwind` (`src/engine/Lawi.cc:386-432`). -/
def LwEnv.unwind (E : LwEnv T) (w : Bool) : Nat → LwState T → Outcome (VerificationResult T)
  | 0, _ => .outOfFuel
  | fuel + 1, s =>
    match s.uncoveredLeaf with
    | none => .done ⟨.safe, if w then .validity (E.definitions s) else .none⟩
    | some v =>
      match E.dfs fuel [v] (s.closeAncestors E.S v) with
      | .done (.inl es) =>
        if w then
          match fromErrorPath E.S E.R E.G (es.map LEdge.id) with
          | .done ds => .done ⟨.unsafeAns, .invalidity ds⟩
          | .thrown => .thrown
          | .outOfFuel => .outOfFuel
        else .done ⟨.unsafeAns, .none⟩
      | .done (.inr s') => E.unwind w fuel s'
      | .thrown => .thrown
      | .outOfFuel => .outOfFuel

/-- The constructor of `LawiContext` (`src/engine/Lawi.cc:356-361`). -/
def lwStart : LwState T := ⟨[⟨.tru, none, .tt⟩], [], [0]⟩

/-- `Lawi::solve(ChcDirectedGraph)` (`src/engine/Lawi.cc:844-847`). -/
def lawi (E : LwEnv T) (w : Bool) (fuel : Nat) : Outcome (VerificationResult T) := E.unwind w fuel lwStart

/-- `Lawi::solve(ChcDirectedHyperGraph)` (`src/engine/Lawi.cc:835-842`); `hasArrays` is `logic.hasArrays()`. -/
def lawiSolve (S I : Smt T) (R : PRepr) (simp : Fla T → Fla T) (arrange : List (LEdge T) → List (LEdge T)) (forced hasArrays w : Bool)
    (G : Graph T) (fuel : Nat) : Outcome (VerificationResult T) :=
  if hasArrays then .done ⟨.unknown, .none⟩
  else normalSolve R (fun G => lawi ⟨S, I, R, G, simp, arrange, forced⟩ w fuel) G

end Golem
