import Verif.Model.Engines.Bse
import Verif.Model.KTo1

/-!
Forward symbolic execution: `src/engine/SymbolicExecution.cc` (all of it). Hash-consing of terms is syntactic equality; the queue
loop has fuel. `simp` is `TermUtils::simplifyMax`, `E` is `TrivialQuantifierElimination::tryEliminateVarsExcept` and `Q` is
`QuantifierElimination::keepOnly`.
-/

namespace Golem
variable {T : Theory}

/-- `State` (`src/engine/SymbolicExecution.cc:19-24`). -/
structure SxState (T : Theory) where
  node : Pred
  fla : Fla T
  id : Nat
deriving DecidableEq

/-- The local variables of `run` (`src/engine/SymbolicExecution.cc:98-120`): the queue, `DiscoveredArgNodes`, and `Predecessors` with
the newest entry of its map first; `states.length` is not used for `nextId` because states are recorded with witnesses only. -/
structure SxSt (T : Theory) where
  queue : List (SxState T)
  nodes : List (Pred × Fla T)
  states : List (SxState T)
  preds : List (Nat × (Nat × Nat))
  nextId : Nat

/-- The loop of `getInvalidityWitness` (`src/engine/SymbolicExecution.cc:58-68`): edges on the way back to the entry, nearest
first. `none` stands for a failed `at` (or for a loop that does not end). -/
def sxWalk (states : List (SxState T)) (preds : List (Nat × (Nat × Nat))) : Nat → Nat → Option (List Nat)
  | 0, _ => none
  | fuel + 1, id =>
    match states[id]? with
    | none => none
    | some s =>
      if s.node = .tru then some []
      else match preds.lookup id with
        | none => none
        | some (j, eid) => (sxWalk states preds fuel j).map (eid :: ·)

/-- `getInvalidityWitness` (`src/engine/SymbolicExecution.cc:55-72`). -/
def sxInvalidity (S : Smt T) (R : PRepr) (G : LGraph T) (st : SxSt T) (eid id : Nat) : Outcome (VerificationResult T) :=
  match sxWalk st.states st.preds (id + 1) id with
  | none => .thrown
  | some ids =>
    match fromErrorPath S R G (eid :: ids).reverse with
    | .done ds => .done ⟨.unsafeAns, .invalidity ds⟩
    | .thrown => .thrown
    | .outOfFuel => .outOfFuel

/-- `versionedFormulaToUnversioned` (`src/TermUtils.h:283-290`), on formulas over state variables. -/
def verToBase : Var → Var
  | .ver n _ => .base n
  | x => x

/-- `getValidityWitness` (`src/engine/SymbolicExecution.cc:74-93`). A definition never replaces an earlier one (`emplace`), as
`lookup` takes the first; the order of the map's iteration does not matter. `none`: quantifier elimination failed. -/
def sxValidity (Q : KeepOnly T) (R : PRepr) (states : List (SxState T)) : Option (Defs T) :=
  (states.mapM fun s => (Q s.fla (R.stateVars s.node)).map fun f => (s.node, f)).map fun reached =>
    trivialDefinitions ++ (states.map SxState.node).map fun p =>
      (p, (Fla.disj ((reached.filter fun r => decide (r.1 = p)).map Prod.snd)).rename verToBase)

/-- What the loop over the outgoing edges comes to. -/
inductive SxRes (T : Theory) where
  | ret (r : Outcome (VerificationResult T))
  | cont (st : SxSt T)

/-- The formula of the successor along an edge (`src/engine/SymbolicExecution.cc:142-146`). -/
def sxPost (R : PRepr) (E : ElimExcept T) (simp : Fla T → Fla T) (cur : SxState T) (e : LEdge T) : Fla T :=
  sendFla (E (R.nextVars e.tgt) (simp (.and cur.fla e.fla))) (-1)

/-- A new state (`src/engine/SymbolicExecution.cc:147-160`). -/
def sxAdd (w : Bool) (cur : SxState T) (e : LEdge T) (f : Fla T) (st : SxSt T) : SxSt T :=
  if (e.tgt, f) ∈ st.nodes then st
  else
    { queue := st.queue ++ [⟨e.tgt, f, st.nextId⟩]
      nodes := st.nodes ++ [(e.tgt, f)]
      states := if w then st.states ++ [⟨e.tgt, f, st.nextId⟩] else st.states
      preds := if w then (st.nextId, (cur.id, e.id)) :: st.preds else st.preds
      nextId := st.nextId + 1 }

/-- The loop over the outgoing edges (`src/engine/SymbolicExecution.cc:124-161`). -/
def sxExpand (S : Smt T) (R : PRepr) (E : ElimExcept T) (simp : Fla T → Fla T) (w : Bool) (G : LGraph T) (cur : SxState T) :
    List (LEdge T) → SxSt T → SxRes T
  | [], st => .cont st
  | e :: es, st =>
    if e.tgt = .fls then
      match S.check [cur.fla, e.fla] with
      | .sat => .ret (if w then sxInvalidity S R G st e.id cur.id else .done ⟨.unsafeAns, .none⟩)
      | .unsat => sxExpand S R E simp w G cur es st
      | _ => .ret (.done ⟨.unknown, .none⟩)
    else sxExpand S R E simp w G cur es (sxAdd w cur e (sxPost R E simp cur e) st)

/-- The loop over the queue (`src/engine/SymbolicExecution.cc:121-164`). -/
def sxLoop (S : Smt T) (R : PRepr) (E : ElimExcept T) (Q : KeepOnly T) (simp : Fla T → Fla T) (w : Bool) (G : LGraph T) :
    Nat → SxSt T → Outcome (VerificationResult T)
  | 0, _ => .outOfFuel
  | fuel + 1, st =>
    match st.queue with
    | [] =>
      if w then
        match sxValidity Q R st.states with
        | some D => .done ⟨.safe, .validity D⟩
        | none => .thrown
      else .done ⟨.safe, .none⟩
    | cur :: queue =>
      match sxExpand S R E simp w G cur (G.out cur.node) { st with queue := queue } with
      | .ret r => r
      | .cont st' => sxLoop S R E Q simp w G fuel st'

/-- The state before the loop (`src/engine/SymbolicExecution.cc:117-120`). -/
def sxStart : SxSt T := ⟨[⟨.tru, .tt, 0⟩], [(.tru, .tt)], [⟨.tru, .tt, 0⟩], [], 1⟩

/-- `DirectForwardSymbolicExecution::run` (`src/engine/SymbolicExecution.cc:97-165`). -/
def symbolicExecution (S : Smt T) (R : PRepr) (E : ElimExcept T) (Q : KeepOnly T) (simp : Fla T → Fla T) (w : Bool) (G : LGraph T)
    (fuel : Nat) : Outcome (VerificationResult T) :=
  sxLoop S R E Q simp w G fuel sxStart

end Golem
