import Verif.Model.Entailment
import Verif.Model.Merge
import Verif.Model.ToTS
import Verif.Model.Validator
import Verif.Model.Transformers.NodeEliminator
import Verif.Model.Engines.SymbolicExecution

/-!
The predicate abstraction engine (`pa`): `src/engine/ArgBasedEngine.cc`. It unfolds an abstract reachability graph (ARG), whose
nodes carry the predicates that hold at them, and refines the abstraction with tree interpolants of refuted proofs.
-/

namespace Golem
variable {T : Theory}

/-! ### The backend: masks of partitions -/

/-- The assertions whose numbers are (`b = true`) or are not in the mask. -/
def maskPart (fs : List (Fla T)) (mask : List Nat) (b : Bool) : List (Fla T) :=
  (fs.zipIdx.filter fun p => decide (p.2 ∈ mask) == b).map Prod.fst

/-- `getSingleInterpolant(interpolants, mask)` (`src/engine/ArgBasedEngine.cc:653`): the A-part are the assertions whose bits are
set in the mask. -/
def Smt.itpMask (S : Smt T) (fs : List (Fla T)) (mask : List Nat) : Fla T :=
  S.itp (maskPart fs mask true) (maskPart fs mask false)

/-! ### The clean-up of local variables -/

/-- One edge of `AuxCleanupPass::transform` (`src/engine/ArgBasedEngine.cc:671-709`); `k` is `auxVarCounter`. The order in which
`matchingSubTerms` finds the local variables is that of their first occurrence. -/
def pauxEdge (R : PRepr) (Ex : ElimExcept T) (k : Nat) (e : Edge T) : Edge T × Nat :=
  let predicateVars := R.tgtVars e.tgt ++ R.keys (instances e.src)
  let constraint := Ex predicateVars e.fla
  let localVars := firstOcc (constraint.vars.filter fun x => decide (x ∉ predicateVars))
  ({ e with fla := varSubstitute constraint ((localVars.zipIdx k).map fun p => (p.1, .var (.base (.paux p.2)))) },
    k + localVars.length)

/-- `AuxCleanupPass::transform` (`src/engine/ArgBasedEngine.cc:671-709`): all edges, with one counter. -/
def pauxPass (R : PRepr) (Ex : ElimExcept T) : Nat → Graph T → Graph T
  | _, [] => []
  | k, e :: es => (pauxEdge R Ex k e).1 :: pauxPass R Ex (pauxEdge R Ex k e).2 es

/-! ### The abstract reachability graph -/

/-- `ARGNode` (`src/engine/ArgBasedEngine.cc:85-89`) with its satisfied predicates. -/
structure PaNode (T : Theory) where
  sym : Pred
  preds : List (Fla T)
deriving DecidableEq

/-- `ARG::Edge` (`src/engine/ArgBasedEngine.cc:95-99`). The clause itself is kept instead of its identifier. -/
structure ArgEdge (T : Theory) where
  sources : List Nat
  target : Nat
  clause : Edge T
deriving DecidableEq

/-- `UnprocessedEdge` (`src/engine/ArgBasedEngine.cc:196-199`). The clause itself is kept instead of its identifier. -/
structure PaEdge (T : Theory) where
  edge : Edge T
  sources : List Nat
deriving DecidableEq

/-- The mutable members of `ARG` and `Algorithm` (`src/engine/ArgBasedEngine.cc:104-109, 285-288`). `man` is the
`PredicateAbstractionManager`; the map `instances` is not kept: the instances of a symbol are the nodes with that symbol, in
the order of their creation (`paInstances`). -/
structure PaState (T : Theory) where
  man : Pred → List (Fla T)
  nodes : List (PaNode T)
  incoming : List (ArgEdge T)
  covered : List (Nat × Nat)
  queue : List (PaEdge T)

/-- What is fixed during a run: the solver for feasibility and entailment checks (`WitnessProduction::NONE`), the solver for
interpolation trees (`MODEL_AND_INTERPOLANTS`), the graph after the clean-up, and what the code leaves to the library: the order
`ord` of a `std::set<PTRef>`, the iteration order `ordC` of the `unordered_map` `coveredNodes`, and the order `verts` of
`getVertices`. -/
structure PaEnv (T : Theory) where
  S : Smt T
  I : Smt T
  R : PRepr
  G : Graph T
  ord : List (Fla T) → List (Fla T)
  ordC : List (Nat × Nat) → List (Nat × Nat)
  verts : List Pred

/-- `ARG::getPredicateSymbol` (`src/engine/ArgBasedEngine.cc:125`). -/
def PaState.sym (s : PaState T) (i : Nat) : Pred := ((s.nodes[i]?).map PaNode.sym).getD .tru

/-- `satisfiedPredicates` of a node (`src/engine/ArgBasedEngine.cc:53`). -/
def PaState.preds (s : PaState T) (i : Nat) : List (Fla T) := ((s.nodes[i]?).map PaNode.preds).getD []

/-- `ARG::getInstancesFor` (`src/engine/ArgBasedEngine.cc:164-168`). -/
def PaState.instances (s : PaState T) (p : Pred) : List Nat :=
  (List.range s.nodes.length).filter fun i => decide (s.sym i = p)

/-- `ARG::isCovered` (`src/engine/ArgBasedEngine.cc:178`). -/
def PaState.isCovered (s : PaState T) (i : Nat) : Bool := s.covered.any fun c => c.1 == i

/-- `isCoveredByExistingInstance` (`src/engine/ArgBasedEngine.cc:185-193`). -/
def paCovers (candidate existing : List (Fla T)) : Bool :=
  if existing = [] then true
  else if candidate.length < existing.length then false
  else existing.all fun f => decide (f ∈ candidate)

/-- `ARG::tryInsertNode` (`src/engine/ArgBasedEngine.cc:131-147`): the new state and the flag `covered`; the identifier of the new
node is the number of nodes before. -/
def PaState.tryInsert (s : PaState T) (p : Pred) (preds : List (Fla T)) : PaState T × Bool :=
  match (s.instances p).find? fun i => paCovers preds (s.preds i) with
  | some c => ({ s with nodes := s.nodes ++ [⟨p, preds⟩], covered := s.covered ++ [(s.nodes.length, c)] }, true)
  | none => ({ s with nodes := s.nodes ++ [⟨p, preds⟩] }, false)

/-- The reached states of the sources, renamed to source variables; equal symbols are numbered in the order of the sources
(`src/engine/ArgBasedEngine.cc:337-345, 828-836`). -/
def PaState.srcStates (s : PaState T) (sources : List Nat) : List (Fla T) :=
  (sources.zip (Golem.instances (sources.map s.sym))).map fun q => (Fla.conj (s.preds q.1)).rename (toSrc q.2.2)

/-- `Checker::isFeasible` (`src/engine/ArgBasedEngine.cc:337-351`): everything but UNSAT counts as feasible. -/
def PaEnv.feasible (E : PaEnv T) (s : PaState T) (q : PaEdge T) : Bool :=
  decide (E.S.check (q.edge.fla :: s.srcStates q.sources) ≠ .unsat)

/-- `ARG::computePropagatedPredicates` (`src/engine/ArgBasedEngine.cc:820-846`). -/
def PaEnv.propagated (E : PaEnv T) (s : PaState T) (candidates : List (Fla T)) (sources : List Nat) (label : Fla T) : List (Fla T) :=
  (checkEntailmentOneByOne E.S (label :: s.srcStates sources) (candidates.map (Fla.rename toTgt))).map (Fla.rename tgtToBase)

/-- `Algorithm::computeTarget` (`src/engine/ArgBasedEngine.cc:435-441`). -/
def PaEnv.computeTarget (E : PaEnv T) (s : PaState T) (q : PaEdge T) : PaState T × Bool :=
  s.tryInsert q.edge.tgt (E.ord (E.propagated s (s.man q.edge.tgt) q.sources q.edge.fla))

/-! ### The queue -/

/-- `EdgeQueue::addEdge` (`src/engine/ArgBasedEngine.cc:729-736`): queries first. -/
def PaState.enqueue (s : PaState T) (q : PaEdge T) : PaState T :=
  if q.edge.tgt = .fls then { s with queue := q :: s.queue } else { s with queue := s.queue ++ [q] }

/-- `EdgeQueue::has` (`src/engine/ArgBasedEngine.cc:201-203, 749-751`). -/
def PaState.has (s : PaState T) (q : PaEdge T) : Bool := s.queue.any fun q' => q'.edge.id == q.edge.id && q'.sources == q.sources

/-- The carry of `increment` (`src/engine/ArgBasedEngine.cc:317-324`), from the last index to the second; the flag says whether the
index before has to be incremented. -/
def paCarry : List Nat → List (List Nat) → List Nat × Bool
  | i :: is, l :: ls =>
    let r := paCarry is ls
    if r.2 then (if i + 1 = l.length then (0 :: r.1, true) else ((i + 1) :: r.1, false)) else (i :: r.1, false)
  | is, _ => (is, true)

/-- `increment` (`src/engine/ArgBasedEngine.cc:315-325`): the first index is never reset. -/
def paIncrement : List Nat → List (List Nat) → List Nat
  | i :: is, _ :: ls => if (paCarry is ls).2 then (i + 1) :: (paCarry is ls).1 else i :: (paCarry is ls).1
  | is, _ => is

/-- `argSources` for the current indices (`src/engine/ArgBasedEngine.cc:422-425`). -/
def paPick (indices : List Nat) (lists : List (List Nat)) : List Nat := List.zipWith (fun i (l : List Nat) => l.getD i 0) indices lists

/-- The loop over the tuples of instances (`src/engine/ArgBasedEngine.cc:418-432`); `fuel` bounds the number of iterations of the
model only (`paTuples_mem` shows that `paTuples` gives it enough). -/
def paTupleLoop (lists : List (List Nat)) : Nat → List Nat → List (List Nat)
  | 0, _ => []
  | fuel + 1, indices =>
    if indices.head? = lists.head?.map List.length then []
    else paPick indices lists :: paTupleLoop lists fuel (paIncrement indices lists)

/-- All tuples in the order in which the loop visits them (`src/engine/ArgBasedEngine.cc:413-432`). -/
def paTuples (lists : List (List Nat)) : List (List Nat) :=
  if lists.any fun l => l.isEmpty then []
  else paTupleLoop lists ((lists.map List.length).foldr (· * ·) 1 + 1) (lists.map fun _ => 0)

/-- The body of the loop over tuples (`src/engine/ArgBasedEngine.cc:426-431`). -/
def PaState.considerTuple (id : Nat) (e : Edge T) (s : PaState T) (tuple : List Nat) : PaState T :=
  if id ∉ tuple then s else if s.has ⟨e, tuple⟩ then s else s.enqueue ⟨e, tuple⟩

/-- The body of the loop over outgoing clauses (`src/engine/ArgBasedEngine.cc:404-432`). -/
def PaState.considerClause (id : Nat) (s : PaState T) (e : Edge T) : PaState T :=
  (paTuples (e.src.map fun p => (s.instances p).filter fun i => !s.isCovered i)).foldl (PaState.considerTuple id e) s

/-- `Algorithm::computeNewUnprocessedEdges` (`src/engine/ArgBasedEngine.cc:401-433`). -/
def PaEnv.newEdges (E : PaEnv T) (s : PaState T) (id : Nat) : PaState T :=
  (E.G.outEdges (s.sym id)).foldl (PaState.considerClause id) s

/-! ### Interpolation trees -/

/-- `InterpolationTree::Node` (`src/engine/ArgBasedEngine.cc:218-225`). The children are not kept: they are the nodes with this
parent in the order of their creation (`paChildren`). `arg` records the node of the ARG that was unfolded; no code of the
engine reads it. -/
structure PaTree (T : Theory) where
  parent : Option Nat
  clause : Edge T
  arg : Option Nat
deriving DecidableEq

/-- `children` of a node (`src/engine/ArgBasedEngine.cc:239-242, 551`). -/
def paChildren (tree : List (PaTree T)) (n : Nat) : List Nat :=
  (List.range tree.length).filter fun i => decide ((tree[i]?).bind PaTree.parent = some n)

/-- `ARG::getIncomingEdge` (`src/engine/ArgBasedEngine.cc:153-157`). -/
def PaState.incomingEdge (s : PaState T) (i : Nat) : Option (ArgEdge T) := s.incoming.find? fun e => e.target == i

/-- The loop of `InterpolationTree::make` (`src/engine/ArgBasedEngine.cc:545-553`); the top of the stack is the head of the list. A
node of the ARG without incoming edge would be undefined behaviour: `thrown`. -/
def paMakeLoop (s : PaState T) : Nat → List (PaTree T) → List (Nat × Nat) → Outcome (List (PaTree T))
  | 0, _, _ => .outOfFuel
  | _ + 1, tree, [] => .done tree
  | fuel + 1, tree, (current, parent) :: stack =>
    if current = 0 then paMakeLoop s fuel tree stack
    else match s.incomingEdge current with
      | none => .thrown
      | some e => paMakeLoop s fuel (tree ++ [⟨some parent, e.clause, some current⟩])
          (e.sources.map (fun a => (a, tree.length)) ++ stack)

/-- The number of iterations needed below every node of the ARG (not in the code; it bounds the iterations of the model). -/
def PaState.sizes (s : PaState T) : List Nat :=
  (List.range s.nodes.length).foldl (fun acc i =>
    acc ++ [1 + (((s.incomingEdge i).map ArgEdge.sources).getD []).foldr (fun a n => acc.getD a 0 + n) 0]) []

/-- `InterpolationTree::make` without the labels (`src/engine/ArgBasedEngine.cc:529-553`). -/
def paMake (s : PaState T) (q : PaEdge T) : Outcome (List (PaTree T)) :=
  paMakeLoop s (q.sources.foldr (fun a n => s.sizes.getD a 0 + n) 0 + 1) [⟨none, q.edge, none⟩] (q.sources.map fun a => (a, 0))

/-- The loop over the children of a node in `computeLabels` (`src/engine/ArgBasedEngine.cc:583-599`): each child gets the next
number of its symbol. -/
def paAssign : List (Nat × Pred) → (Pred → Nat) × List (Nat × Nat) → (Pred → Nat) × List (Nat × Nat)
  | [], c => c
  | (child, p) :: rest, (cnt, vers) => paAssign rest (fun q => if q = p then cnt p + 1 else cnt q, vers ++ [(child, cnt p)])

/-- The loop of `computeLabels` as far as the numbers of the instances are concerned (`src/engine/ArgBasedEngine.cc:567-620`). The
children are pushed in order, so the last one is handled first. The labels only depend on the numbers, and are computed
afterwards (`paLabel`). -/
def paVersLoop (tree : List (PaTree T)) : Nat → List Nat → (Pred → Nat) × List (Nat × Nat) → List (Nat × Nat)
  | 0, _, c => c.2
  | _ + 1, [], c => c.2
  | fuel + 1, current :: stack, c =>
    let children := paChildren tree current
    paVersLoop tree fuel (children.reverse ++ stack)
      (paAssign (children.zip (((tree[current]?).map fun t => t.clause.src).getD [])) c)

/-- `nodeToSymbolInstance`: the number of the instance of the symbol at each node but the root. -/
def paVersions (tree : List (PaTree T)) : List (Nat × Nat) := paVersLoop tree (tree.length + 1) [0] (fun _ => 0, [])

/-- The number of the instance at a node. -/
def paVersion (vers : List (Nat × Nat)) (n : Nat) : Nat := (List.lookup n vers).getD 0

/-- The arguments of an instance of a predicate: `getVarVersionZero` and `sendFlaThroughTime`
(`src/engine/ArgBasedEngine.cc:589-592`). -/
def PRepr.verVars (R : PRepr) (p : Pred) (k : Nat) : List Var := (R.args p).map (Var.ver · k)

/-- `substitutions` before the auxiliary variables (`src/engine/ArgBasedEngine.cc:574-600`). -/
def paSubst (R : PRepr) (tree : List (PaTree T)) (vers : List (Nat × Nat)) (n : Nat) (e : Edge T) : List (Var × Var) :=
  (if e.tgt = .fls then [] else (R.tgtVars e.tgt).zip (R.verVars e.tgt (paVersion vers n))) ++
  ((paChildren tree n).zip (instances e.src)).flatMap fun c => (R.srcVars c.2.1 c.2.2).zip (R.verVars c.2.1 (paVersion vers c.1))

/-- `sendVarThroughTime(getVarVersionZero(var), current)` (`src/engine/ArgBasedEngine.cc:609-611`). The code asserts that the variable
has no version; after the clean-up it has no tag either. -/
def paAux (n : Nat) : Var → Var
  | .base m => .ver m n
  | x => x

/-- The label of a node (`src/engine/ArgBasedEngine.cc:601-616`): variables that are neither source nor target variables get the
identifier of the node as their version. -/
def paLabel (R : PRepr) (tree : List (PaTree T)) (vers : List (Nat × Nat)) (n : Nat) (e : Edge T) : Fla T :=
  let m := paSubst R tree vers n e
  let aux := firstOcc (e.fla.vars.filter fun x => decide (List.lookup x m = none))
  varSubstitute e.fla ((m ++ aux.map fun x => (x, paAux n x)).map fun p => (p.1, .var p.2))

/-- All labels, in the order of the nodes (`src/engine/ArgBasedEngine.cc:627-630`). -/
def paLabels (R : PRepr) (tree : List (PaTree T)) : List (Fla T) :=
  tree.zipIdx.map fun t => paLabel R tree (paVersions tree) t.2 t.1.clause

/-- One iteration of the loop that computes the partitions (`src/engine/ArgBasedEngine.cc:641-646`). -/
def paMaskStep (tree : List (PaTree T)) (masks : List (List Nat)) (id : Nat) : List (List Nat) :=
  let masks := masks.modify id fun m => id :: m
  match (tree[id]?).bind PaTree.parent with
  | none => masks
  | some p => masks.modify p fun m => m ++ masks.getD id []

/-- The partitions: for every node the bits of the nodes below it (`src/engine/ArgBasedEngine.cc:639-646`). -/
def paMasks (tree : List (PaTree T)) : List (List Nat) :=
  (List.range tree.length).reverse.foldl (paMaskStep tree) (tree.map fun _ => [])

/-- The predicates for the refinement (`src/engine/ArgBasedEngine.cc:455-463`), as pairs of symbol and predicate. -/
def PaEnv.refinement (E : PaEnv T) (tree : List (PaTree T)) : List (Pred × Fla T) :=
  let fs := paLabels E.R tree
  tree.zipIdx.filterMap fun t =>
    if t.1.parent = none then none
    else
      let itp := E.I.itpMask fs ((paMasks tree).getD t.2 [])
      if itp = .tt then none else some (t.1.clause.tgt, itp.rename verToBase)

/-! ### Witnesses -/

/-- `derivedFact` (`src/engine/ArgBasedEngine.cc:497-503`). -/
def paFact (R : PRepr) (tree : List (PaTree T)) (ρ : Valuation T) (n : Nat) (t : PaTree T) : Fact T :=
  if t.parent = none then falseFact
  else (t.clause.tgt, (R.verVars t.clause.tgt (paVersion (paVersions tree) n)).map ρ)

/-- One iteration of the loop of `computeInvalidityWitness` (`src/engine/ArgBasedEngine.cc:495-521`). `premiseMap` has an entry for a
node as soon as one of its children was visited. -/
def paDeriveStep (R : PRepr) (tree : List (PaTree T)) (ρ : Valuation T) (c : List (DStep T) × (Nat → List Nat)) (t : PaTree T × Nat) :
    List (DStep T) × (Nat → List Nat) :=
  let fact := paFact R tree ρ t.2 t.1
  let found := c.1.findIdx? fun d => decide (d.fact = fact)
  let index := found.getD c.1.length
  let steps := if found = none then
    c.1 ++ [⟨if c.2 t.2 = [] then [0] else c.2 t.2, fact, some t.1.clause.id⟩] else c.1
  match t.1.parent with
  | none => (steps, c.2)
  | some p => (steps, fun n => if n = p then index :: c.2 p else c.2 n)

/-- `Algorithm::computeInvalidityWitness` (`src/engine/ArgBasedEngine.cc:479-525`). -/
def paDerivation (R : PRepr) (tree : List (PaTree T)) (ρ : Valuation T) : List (DStep T) :=
  (tree.zipIdx.reverse.foldl (paDeriveStep R tree ρ) ([⟨[], trueFact, none⟩], fun _ => [])).1

/-! ### Refinement -/

/-- The new predicates for a symbol: `refinementInfo[symbol]`. -/
def paNew (info : List (Pred × Fla T)) (p : Pred) : List (Fla T) := (info.filter fun q => decide (q.1 = p)).map Prod.snd

/-- The body of the loop of `ARG::refine` (`src/engine/ArgBasedEngine.cc:758-785`); `changed` lists the nodes whose flag is set. -/
def PaEnv.refineNode (E : PaEnv T) (info : List (Pred × Fla T)) (s : PaState T) (changed : List Nat) (nid : Nat) :
    Outcome (PaState T × List Nat) :=
  match s.incoming.filter fun e => e.target == nid with
  | [e] =>
    let sourceChanged := e.sources.any fun a => decide (a ∈ changed)
    let new := paNew info (s.sym nid)
    if !sourceChanged && new.isEmpty then .done (s, changed)
    else
      let existing := s.man (s.sym nid)
      let candidates := E.ord ((new.filter fun c => decide (c ∉ existing)) ++
        if sourceChanged then existing.filter fun c => decide (c ∉ s.preds nid) else [])
      if candidates.isEmpty then .done (s, changed)
      else
        let implied := E.propagated s candidates e.sources e.clause.fla
        if implied.isEmpty then .done (s, changed)
        else .done ({ s with nodes := s.nodes.modify nid fun a => { a with preds := E.ord (a.preds ++ implied) } }, nid :: changed)
  | _ => .thrown

/-- The loop of `ARG::refine` (`src/engine/ArgBasedEngine.cc:757-785`). -/
def PaEnv.refineLoop (E : PaEnv T) (info : List (Pred × Fla T)) : List Nat → PaState T → List Nat → Outcome (PaState T)
  | [], s, _ => .done s
  | nid :: rest, s, changed =>
    match E.refineNode info s changed nid with
    | .done (s', changed') => E.refineLoop info rest s' changed'
    | .thrown => .thrown
    | .outOfFuel => .outOfFuel

/-- The update of the predicate manager at the end of `ARG::refine` (`src/engine/ArgBasedEngine.cc:787-791`). -/
def PaEnv.addPredicates (E : PaEnv T) (info : List (Pred × Fla T)) (s : PaState T) : PaState T :=
  { s with man := fun p => if (paNew info p).isEmpty then s.man p else E.ord (s.man p ++ paNew info p) }

/-- The new coverer of a covered node, if there is one (`src/engine/ArgBasedEngine.cc:798-812`). -/
def PaState.recheck (s : PaState T) (c : Nat × Nat) : Option Nat :=
  if paCovers (s.preds c.1) (s.preds c.2) then some c.2
  else (s.instances (s.sym c.1)).find? fun o =>
    decide (o ≠ c.1) && !s.isCovered o && paCovers (s.preds c.1) (s.preds o)

/-- `ARG::recheckCoveredNodes` (`src/engine/ArgBasedEngine.cc:795-819`): the new state and the uncovered nodes. Changing a coverer
does not influence the other nodes, as only the keys of the map are read. -/
def PaEnv.recheckCovered (E : PaEnv T) (s : PaState T) : PaState T × List Nat :=
  ({ s with covered := s.covered.filterMap fun c => (s.recheck c).map fun a => (c.1, a) },
    ((E.ordC s.covered).filter fun c => (s.recheck c).isNone).map Prod.fst)

/-- `Algorithm::refine` (`src/engine/ArgBasedEngine.cc:468-477`). -/
def PaEnv.refine (E : PaEnv T) (info : List (Pred × Fla T)) (s : PaState T) : Outcome (PaState T) :=
  match E.refineLoop info ((List.range s.nodes.length).drop 1) s [] with
  | .done s1 =>
    let r := E.recheckCovered (E.addPredicates info s1)
    .done (r.2.foldl E.newEdges r.1)
  | .thrown => .thrown
  | .outOfFuel => .outOfFuel

/-! ### The main loop -/

/-- The validity witness (`src/engine/ArgBasedEngine.cc:382-398`). -/
def PaEnv.definitions (E : PaEnv T) (s : PaState T) : Defs T :=
  [(.tru, .tt), (.fls, .ff)] ++ (E.verts.filter fun p => decide (p ≠ .tru ∧ p ≠ .fls)).map fun p =>
    (p, Fla.disj ((s.instances p).map fun i => Fla.conj (s.preds i)))

/-- `Algorithm::isRealProof` followed by the refinement (`src/engine/ArgBasedEngine.cc:366-375, 443-466, 624-657`): the result, or the
refined state. -/
def PaEnv.query (E : PaEnv T) (w : Bool) (s : PaState T) (q : PaEdge T) : Outcome (VerificationResult T ⊕ PaState T) :=
  match paMake s q with
  | .done tree =>
    let fs := paLabels E.R tree
    match E.I.check fs with
    | .sat => .done (.inl ⟨.unsafeAns, if w then .invalidity (paDerivation E.R tree (E.I.model fs)) else .none⟩)
    | .unsat =>
      match E.refine (E.refinement tree) s with
      | .done s' => .done (.inr s')
      | .thrown => .thrown
      | .outOfFuel => .outOfFuel
    | _ => .thrown
  | .thrown => .thrown
  | .outOfFuel => .outOfFuel

/-- One iteration of `Algorithm::run` for the edge taken from the queue (`src/engine/ArgBasedEngine.cc:359-381`). -/
def PaEnv.step (E : PaEnv T) (w : Bool) (s : PaState T) (q : PaEdge T) : Outcome (VerificationResult T ⊕ PaState T) :=
  if !E.feasible s q then .done (.inr s)
  else if q.edge.tgt = .fls then E.query w s q
  else
    let r := E.computeTarget s q
    let s' := if r.2 then r.1 else E.newEdges r.1 s.nodes.length
    .done (.inr { s' with incoming := s'.incoming ++ [⟨q.sources, s.nodes.length, q.edge⟩] })

/-- `Algorithm::run` (`src/engine/ArgBasedEngine.cc:357-399`). -/
def PaEnv.run (E : PaEnv T) (w : Bool) : Nat → PaState T → Outcome (VerificationResult T)
  | 0, _ => .outOfFuel
  | fuel + 1, s =>
    match s.queue with
    | [] => .done ⟨.safe, if w then .validity (E.definitions s) else .none⟩
    | q :: rest =>
      match E.step w { s with queue := rest } q with
      | .done (.inl r) => .done r
      | .done (.inr s') => E.run w fuel s'
      | .thrown => .thrown
      | .outOfFuel => .outOfFuel

/-- The constructors of `ARG` and `Algorithm` (`src/engine/ArgBasedEngine.cc:114-120, 264-276`). -/
def PaEnv.init (E : PaEnv T) : PaState T :=
  (E.G.outEdges .tru).foldl (fun s e => s.enqueue ⟨e, [0]⟩) ⟨fun _ => [], [⟨.tru, []⟩], [], [], []⟩

/-- `ARGBasedEngine::solve` (`src/engine/ArgBasedEngine.cc:715-721`). -/
def paSolve (S I : Smt T) (Ex : ElimExcept T) (ord : List (Fla T) → List (Fla T)) (ordC : List (Nat × Nat) → List (Nat × Nat))
    (verts : Graph T → List Pred) (w hasArrays : Bool) (fuel : Nat) (R : PRepr) (st : GS T) : Outcome (VerificationResult T) :=
  if hasArrays then .done ⟨.unknown, .none⟩
  else
    let E : PaEnv T := ⟨S, I, R, pauxPass R Ex 0 st.edges, ord, ordC, verts st.edges⟩
    E.run w fuel E.init

end Golem
