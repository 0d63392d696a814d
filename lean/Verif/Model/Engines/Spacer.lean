import Verif.Model.Merge
import Verif.Model.QE
import Verif.Model.Validator
import Verif.Model.Transformers.NodeEliminator

/-!
The Spacer engine: `src/engine/Spacer.cc`.
-/

namespace Golem
variable {T : Theory}

/-- `VersionManager::sourceFormulaToTarget` on variables (`src/TermUtils.cc:785-787`): the instance number is dropped. -/
def srcToTarget : Var → Var
  | .src n _ => .tgt n
  | x => x

/-- `ProofObligation` (`src/engine/Spacer.cc:68-72`). -/
structure Pob (T : Theory) where
  vertex : Pred
  bound : Nat
  constraint : Fla T
deriving DecidableEq

/-- `DerivationDatabase::Entry` (`src/engine/Spacer.cc:97-109`); `edge = none` is `static_cast<std::size_t>(-1)`. -/
structure DbEntry (T : Theory) where
  fact : Fla T
  node : Pred
  edge : Option Nat
  premises : List Nat
deriving DecidableEq

/-- The mutable members of `SpacerContext` (`src/engine/Spacer.cc:155-169`). A set of components is kept as the list of
its elements in insertion order. -/
structure SpState (T : Theory) where
  over : Nat → Pred → List (Fla T)
  under : Nat → Pred → List (Fla T)
  db : List (DbEntry T)
  lowest : Nat

/-- What is fixed during a run: backend, projection, graph, the final simplification, and everything the code leaves to
the library: the iteration order `ord` of an `unordered_set` filled in the given order (`src/engine/Spacer.cc:55`), the order
`verts` of `getVertices` (`src/graph/ChcGraph.cc:441-452`), and which proof obligation is on top of the queue (`pick`, given
the current bound, the iteration and the queue). The queue orders by bound and vertex number (`src/engine/Spacer.cc:74-93`)
and leaves ties to the heap; the model allows every choice. -/
structure SpEnv (T : Theory) where
  S : Smt T
  M : Mbp T
  R : PRepr
  G : Graph T
  simp : Fla T → Fla T
  logProof : Bool
  ord : List (Fla T) → List (Fla T)
  verts : List Pred
  pick : Nat → Nat → List (Pob T) → Nat

/-- `ApproxMap::insert` (`src/engine/Spacer.cc:38-43`). -/
def apInsert (m : Nat → Pred → List (Fla T)) (v : Pred) (b : Nat) (c : Fla T) : Nat → Pred → List (Fla T) :=
  fun b' v' => if b' = b ∧ v' = v then (if c ∈ m b v then m b v else m b v ++ [c]) else m b' v'

/-- `addMaySummary` (`src/engine/Spacer.cc:171`). -/
def SpState.addMay (st : SpState T) (v : Pred) (b : Nat) (c : Fla T) : SpState T := { st with over := apInsert st.over v b c }

/-- `addMustSummary` (`src/engine/Spacer.cc:173`). -/
def SpState.addMust (st : SpState T) (v : Pred) (b : Nat) (c : Fla T) : SpState T :=
  { st with under := apInsert st.under v b c }

/-- `getMustSummary` (`src/engine/Spacer.cc:175`). -/
def SpEnv.must (E : SpEnv T) (st : SpState T) (b : Nat) (v : Pred) : Fla T := Fla.disj (E.ord (st.under b v))

/-- `getMaySummary` (`src/engine/Spacer.cc:177`). -/
def SpEnv.may (E : SpEnv T) (st : SpState T) (b : Nat) (v : Pred) : Fla T := Fla.conj (E.ord (st.over b v))

/-- The common part of `getEdgeMustSummary` and `getEdgeMaySummary` (`src/engine/Spacer.cc:615-651`): the label and the
summary of every source, renamed to the instance of that source. -/
def edgeSummary (sum : Pred → Fla T) (e : Edge T) : Fla T :=
  Fla.conj (e.fla :: (instances e.src).map fun q => (sum q.1).rename (toSrc q.2))

/-- `getEdgeMustSummary` (`src/engine/Spacer.cc:615-632`). -/
def SpEnv.edgeMust (E : SpEnv T) (st : SpState T) (b : Nat) (e : Edge T) : Fla T := edgeSummary (E.must st b) e

/-- `getEdgeMaySummary` (`src/engine/Spacer.cc:634-651`). -/
def SpEnv.edgeMay (E : SpEnv T) (st : SpState T) (b : Nat) (e : Edge T) : Fla T := edgeSummary (E.may st b) e

/-- `getEdgeMixedSummary` (`src/engine/Spacer.cc:653-672`). -/
def SpEnv.edgeMixed (E : SpEnv T) (st : SpState T) (b : Nat) (e : Edge T) (last : Nat) : Fla T :=
  Fla.conj (((instances e.src).zipIdx.map fun q =>
    ((if q.2 ≤ last then E.may st b q.1.1 else E.must st b q.1.1).rename (toSrc q.1.2))) ++ [e.fla])

/-- `SpacerContext::sat` (`src/engine/Spacer.cc:357-381`). The shortcut for a first argument that simplifies to `false` is
taken here only for the literal `false`; a backend that answers `UNSAT` for such a query models the other cases. -/
def spSat (S : Smt T) (A B : Fla T) : Answer := if A = .ff then .unsat else S.check [A, B]

/-- A term without variables is folded to a constant when it is built (OpenSMT's `mkAnd`, `mkEq`, `mkLeq`, ...). -/
def foldClosed (f : Fla T) : Fla T :=
  if f.vars = [] then (if f.holds (fun _ => T.vT) then .tt else .ff) else f

/-- `projectFormula` (`src/engine/Spacer.cc:597-613`): eliminate all variables but `toVars`. -/
def SpEnv.project (E : SpEnv T) (f : Fla T) (toVars : List Var) (ρ : Valuation T) : Option (Fla T) :=
  (E.M f (firstOcc (f.vars.filter fun x => decide (x ∉ toVars))) ρ).map foldClosed

/-- `DerivationDatabase::getIdFor` (`src/engine/Spacer.cc:144-149`); `none` is the exception. -/
def dbFind (db : List (DbEntry T)) (c : Fla T) (v : Pred) : Option Nat :=
  db.findIdx? fun d => decide (d.node = v ∧ d.fact = c)

/-- The premise for one source in `logNewFactIntoDatabase` (`src/engine/Spacer.cc:680-694`): the first component of the must
summary that is true in the model. -/
def SpEnv.premise (E : SpEnv T) (st : SpState T) (b : Nat) (ρ : Valuation T) (q : Pred × Nat) : Option Nat := do
  let c ← (E.ord (st.under b q.1)).find? fun c => decide ((c.rename (toSrc q.2)).holds ρ)
  dbFind st.db c q.1

/-- `logNewFactIntoDatabase` (`src/engine/Spacer.cc:674-697`). -/
def SpEnv.logFact (E : SpEnv T) (st : SpState T) (c : Fla T) (v : Pred) (b : Nat) (e : Edge T) (ρ : Valuation T) :
    Option (SpState T) := do
  let ps ← (instances e.src).mapM (E.premise st b ρ)
  return { st with db := st.db ++ [⟨c, v, some e.id, ps⟩] }

/-- The first edge whose must summary is true in the model (`src/engine/Spacer.cc:426-439`): project it, store the
projection, log it. -/
def SpEnv.useEdge (E : SpEnv T) (st : SpState T) (pob : Pob T) (e : Edge T) (ρ : Valuation T) : Option (SpState T) := do
  let p ← E.project (E.edgeMust st (pob.bound - 1) e) (E.R.tgtVars pob.vertex) ρ
  let c := p.rename tgtToBase
  let st1 := st.addMust pob.vertex pob.bound c
  if E.logProof then E.logFact st1 c pob.vertex (pob.bound - 1) e ρ else some st1

/-- `checkMustReachability` (`src/engine/Spacer.cc:410-445`): `some st'` is the answer `true` with the updated state, `none`
the answer `false`. Only `SAT` counts as reached. The final `return true` behind `assert(false)` is kept. -/
def SpEnv.checkMust (E : SpEnv T) (st : SpState T) (pob : Pob T) : Outcome (Option (SpState T)) :=
  let edges := E.G.inEdges pob.vertex
  let any := Fla.disj (edges.map (E.edgeMust st (pob.bound - 1)))
  match spSat E.S any pob.constraint with
  | .sat =>
    let ρ := E.S.model [any, pob.constraint]
    match edges.find? fun e => decide ((E.edgeMust st (pob.bound - 1) e).holds ρ) with
    | none => .done (some st)
    | some e =>
      match E.useEdge st pob e ρ with
      | some st' => .done (some st')
      | none => .thrown
  | _ => .done none

/-- The new proof obligation for a source (`src/engine/Spacer.cc:468-474, 498-506`). -/
def SpEnv.newPob (E : SpEnv T) (f : Fla T) (q : Pred × Nat) (b : Nat) (ρ : Valuation T) : Option (Pob T) := do
  let p ← E.project f (E.R.srcVars q.1 q.2) ρ
  return ⟨q.1, b, p.rename srcToTarget⟩

/-- The `while` loop for hyperedges (`src/engine/Spacer.cc:492-516`): the first source whose over-approximation makes the
edge feasible. `qs` are the sources still to be tried, the first of them with index `i`; running out of sources is an
out-of-range access. -/
def SpEnv.refine (E : SpEnv T) (st : SpState T) (e : Edge T) (pob : Pob T) :
    List (Pred × Nat) → Nat → Outcome (Option (Pob T))
  | [], _ => .thrown
  | q :: qs, i =>
    let mixed := E.edgeMixed st (pob.bound - 1) e i
    match spSat E.S mixed pob.constraint with
    | .sat =>
      match E.newPob (.and mixed pob.constraint) q (pob.bound - 1) (E.S.model [mixed, pob.constraint]) with
      | some p => .done (some p)
      | none => .thrown
    | .unsat => E.refine st e pob qs (i + 1)
    | _ => .thrown

/-- `computePredecessor` (`src/engine/Spacer.cc:457-517`), with `mayReachable` (`src/engine/Spacer.cc:447-455`). -/
def SpEnv.predecessor (E : SpEnv T) (st : SpState T) (pob : Pob T) (e : Edge T) : Outcome (Option (Pob T)) :=
  let may := E.edgeMay st (pob.bound - 1) e
  match instances e.src with
  | [q] =>
    match spSat E.S may pob.constraint with
    | .sat =>
      match E.newPob (.and may pob.constraint) q (pob.bound - 1) (E.S.model [may, pob.constraint]) with
      | some p => .done (some p)
      | none => .thrown
    | .unsat => .done none
    | _ => .thrown
  | qs =>
    match spSat E.S may pob.constraint with
    | .sat => E.refine st e pob qs 0
    | .unsat => .done none
    | _ => .thrown

/-- The loop over the incoming edges (`src/engine/Spacer.cc:320-324`). -/
def SpEnv.predecessors (E : SpEnv T) (st : SpState T) (pob : Pob T) : List (Edge T) → Outcome (List (Pob T))
  | [] => .done []
  | e :: es =>
    match E.predecessor st pob e with
    | .done r =>
      match E.predecessors st pob es with
      | .done ps => .done (r.toList ++ ps)
      | .thrown => .thrown
      | .outOfFuel => .outOfFuel
    | .thrown => .thrown
    | .outOfFuel => .outOfFuel

/-- A blocked proof obligation (`src/engine/Spacer.cc:325-345`): the interpolant becomes a lemma. -/
def SpEnv.block (E : SpEnv T) (st : SpState T) (pob : Pob T) : Option (SpState T) :=
  let A := Fla.disj ((E.G.inEdges pob.vertex).map (E.edgeMay st (pob.bound - 1)))
  match E.S.check [A, pob.constraint] with
  | .unsat =>
    let lemma := (E.S.itp [A] [pob.constraint]).rename tgtToBase
    let st1 := st.addMay pob.vertex pob.bound lemma
    some (if pob.bound < st1.lowest then { st1 with lowest := pob.bound } else st1)
  | _ => none

/-- `pqueue.peek()`: some element of the queue, and the queue without it. -/
def SpEnv.top (E : SpEnv T) (cur n : Nat) (q : List (Pob T)) : Option (Pob T × List (Pob T)) :=
  let i := E.pick cur n q % q.length
  (q[i]?).map fun p => (p, q.eraseIdx i)

/-- The main cycle of `boundSafety` (`src/engine/Spacer.cc:306-354`); the answer `true` is `SAFE`. An obligation with bound
zero at a vertex other than the entry would make `pob.bound - 1` wrap around (the code asserts `pob.bound > 0`): thrown. -/
def SpEnv.boundLoop (E : SpEnv T) (cur : Nat) : Nat → List (Pob T) → SpState T → Outcome (Bool × SpState T)
  | 0, _, _ => .outOfFuel
  | n + 1, q, st =>
    match E.top cur n q with
    | none => .done (true, st)
    | some (pob, rest) =>
      if pob.vertex = .tru then .done (false, st)
      else if pob.bound = 0 then .thrown
      else
        match E.checkMust st pob with
        | .thrown => .thrown
        | .outOfFuel => .outOfFuel
        | .done (some st') => if pob.vertex = .fls then .done (false, st') else E.boundLoop cur n rest st'
        | .done none =>
          match E.predecessors st pob (E.G.inEdges pob.vertex) with
          | .thrown => .thrown
          | .outOfFuel => .outOfFuel
          | .done [] =>
            match E.block st pob with
            | some st' => E.boundLoop cur n rest st'
            | none => .thrown
          | .done (p :: ps) => E.boundLoop cur n (q ++ p :: ps) st

/-- `boundSafety` (`src/engine/Spacer.cc:300-355`). -/
def SpEnv.boundSafety (E : SpEnv T) (cur fuel : Nat) (st : SpState T) : Outcome (Bool × SpState T) :=
  E.boundLoop cur fuel [⟨.fls, cur, .tt⟩] { st with lowest := cur }

/-- `tryPushComponents` (`src/engine/Spacer.cc:578-595`). -/
def SpEnv.tryPush (E : SpEnv T) (st : SpState T) (v : Pred) (level : Nat) (body : Fla T) : Outcome (Bool × SpState T) :=
  let cands := ((E.ord (st.over level v)).filter fun c => decide (c ∉ st.over (level + 1) v)).map (·.rename toTgt)
  if cands.length = 0 then .done (true, st)
  else
    match impliedBy E.S [body] cands with
    | .done pushed =>
      .done (decide (pushed.length = cands.length),
        pushed.foldl (fun s c => s.addMay v (level + 1) (c.rename tgtToBase)) st)
    | .thrown => .thrown
    | .outOfFuel => .outOfFuel

/-- The loop over the vertices in `isInductive` (`src/engine/Spacer.cc:524-541`). -/
def SpEnv.pushAll (E : SpEnv T) (level : Nat) : List Pred → SpState T → Outcome (Bool × SpState T)
  | [], st => .done (true, st)
  | v :: vs, st =>
    if v = .tru then E.pushAll level vs st
    else
      match E.tryPush st v level (Fla.disj ((E.G.inEdges v).map (E.edgeMay st level))) with
      | .done (all, st1) =>
        match E.pushAll level vs st1 with
        | .done (all', st2) => .done (all && all', st2)
        | .thrown => .thrown
        | .outOfFuel => .outOfFuel
      | .thrown => .thrown
      | .outOfFuel => .outOfFuel

/-- `isInductive` (`src/engine/Spacer.cc:520-545`): `n` levels from `level` on; the answer is the inductive level. -/
def SpEnv.inductiveFrom (E : SpEnv T) : Nat → Nat → SpState T → Outcome (Option Nat × SpState T)
  | 0, _, st => .done (none, st)
  | n + 1, level, st =>
    match E.pushAll level E.verts st with
    | .done (true, st') => .done (some level, st')
    | .done (false, st') => E.inductiveFrom n (level + 1) st'
    | .thrown => .thrown
    | .outOfFuel => .outOfFuel

def SpEnv.isInductive (E : SpEnv T) (maxLevel : Nat) (st : SpState T) : Outcome (Option Nat × SpState T) :=
  E.inductiveFrom (maxLevel + 1 - st.lowest) st.lowest st

/-- The solution of a safe system (`src/engine/Spacer.cc:267-285`). -/
def SpEnv.solution (E : SpEnv T) (st : SpState T) (level : Nat) : Defs T :=
  (.tru, .tt) :: (.fls, .ff) ::
    (E.verts.filter fun v => decide (v ≠ .tru) && decide (v ≠ .fls)).map fun v => (v, E.simp (E.may st level v))

/-- `Entry` of the traversal (`src/engine/Spacer.cc:700-704`). -/
structure RecEntry (T : Theory) where
  id : Nat
  inst : Fact T
  prems : List (Fact T)

/-- The edge constraint with the values of the derived fact for the target variables (`src/engine/Spacer.cc:729-741`). -/
def recLabel (R : PRepr) (e : Edge T) (inst : Fact T) : Fla T :=
  if e.tgt ≠ .fls then varSubstitute e.fla ((R.tgtVars e.tgt).zip (inst.2.map Tm.const)) else e.fla

/-- `computePremiseInstances` (`src/engine/Spacer.cc:706-755`); `none` is the exception. -/
def SpEnv.premiseInstances (E : SpEnv T) (db : List (DbEntry T)) (d : DbEntry T) (inst : Fact T) :
    Option (List (Fact T)) := do
  let e ← E.G.find (← d.edge)
  let ps ← d.premises.mapM fun i => db[i]?
  let qs := ps.zip (instances e.src)
  let query := (qs.map fun q => q.1.fact.rename (toSrc q.2.2)) ++ [recLabel E.R e inst]
  if E.S.check query = .sat then
    some (qs.map fun q => (q.1.node, (E.R.srcVars q.1.node q.2.2).map (E.S.model query)))
  else none

/-- The instances of the premises, computed once (`src/engine/Spacer.cc:776-778`). -/
def SpEnv.getPrems (E : SpEnv T) (db : List (DbEntry T)) (d : DbEntry T) (en : RecEntry T) : Option (List (Fact T)) :=
  if d.premises ≠ [] ∧ en.prems = [] then E.premiseInstances db d en.inst else some en.prems

/-- `derivationSteps.find(fact)`: the step that derived it (`src/engine/Spacer.cc:782`). -/
def stepOf (ds : List (DStep T)) (f : Fact T) : Option Nat := ds.findIdx? fun d => decide (d.fact = f)

/-- The fact a step derives; the final step is patched (`src/engine/Spacer.cc:791-804`). -/
def recFact (d : DbEntry T) (f : Fact T) : Fact T := if d.node = .fls then falseFact else f

/-- The traversal of the database (`src/engine/Spacer.cc:769-807`); the head of the list is the back of the deque. -/
def SpEnv.recLoop (E : SpEnv T) (db : List (DbEntry T)) (root : Nat) :
    Nat → List (RecEntry T) → List (DStep T) → Outcome (List (DStep T))
  | 0, _, _ => .outOfFuel
  | _ + 1, [], ds => .done ds
  | n + 1, en :: stack, ds =>
    if en.id ≠ root ∧ (stepOf ds en.inst).isSome then E.recLoop db root n stack ds
    else
      match db[en.id]? with
      | none => .thrown
      | some d =>
        match E.getPrems db d en with
        | none => .thrown
        | some prems =>
          let missing := (d.premises.zip prems).filter fun p => (stepOf ds p.2).isNone
          if missing.isEmpty then
            E.recLoop db root n stack (ds ++ [⟨prems.filterMap (stepOf ds), recFact d en.inst, d.edge⟩])
          else
            E.recLoop db root n ((missing.map fun p => ⟨p.1, p.2, []⟩).reverse ++ ⟨en.id, en.inst, prems⟩ :: stack) ds

/-- `reconstructInvalidityWitness` (`src/engine/Spacer.cc:758-811`). -/
def SpEnv.reconstruct (E : SpEnv T) (db : List (DbEntry T)) (fuel : Nat) : Outcome (List (DStep T)) :=
  if E.logProof then
    match dbFind db .tt .fls with
    | none => .thrown
    | some root => E.recLoop db root fuel [⟨root, trueFact, []⟩] []
  else .done []

/-- The constructor (`src/engine/Spacer.cc:240-254`). -/
def SpEnv.init (E : SpEnv T) : SpState T :=
  let zero : Nat → Pred → List (Fla T) := fun b v =>
    if b = 0 ∧ v ∈ E.verts then [if v = .tru then .tt else .ff] else []
  ⟨zero, zero, [⟨.tt, .tru, none, []⟩], 0⟩

/-- The start of a round (`src/engine/Spacer.cc:259-260`). -/
def SpState.enter (st : SpState T) (cur : Nat) : SpState T := (st.addMay .tru cur .tt).addMust .tru cur .tt

/-- `SpacerContext::run` (`src/engine/Spacer.cc:256-294`): at most `n` rounds from bound `cur` on, each with `fuel`
iterations. -/
def SpEnv.run (E : SpEnv T) (fuel : Nat) : Nat → Nat → SpState T → Outcome (VerificationResult T)
  | 0, _, _ => .outOfFuel
  | n + 1, cur, st =>
    match E.boundSafety cur fuel (st.enter cur) with
    | .thrown => .thrown
    | .outOfFuel => .outOfFuel
    | .done (false, st1) =>
      match E.reconstruct st1.db fuel with
      | .done ds => .done ⟨.unsafeAns, .invalidity ds⟩
      | .thrown => .thrown
      | .outOfFuel => .outOfFuel
    | .done (true, st1) =>
      match E.isInductive cur st1 with
      | .thrown => .thrown
      | .outOfFuel => .outOfFuel
      | .done (some level, st2) => .done ⟨.safe, .validity (E.solution st2 level)⟩
      | .done (none, st2) => E.run fuel n (cur + 1) st2

/-- `Spacer::solve` (`src/engine/Spacer.cc:233-238`). -/
def spacer (E : SpEnv T) (hasArrays : Bool) (fuel : Nat) : Outcome (VerificationResult T) :=
  if hasArrays then .done ⟨.unknown, .none⟩ else E.run fuel fuel 1 E.init

end Golem
