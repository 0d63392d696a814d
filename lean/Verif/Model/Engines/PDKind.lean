import Verif.Model.Engines.TransitionSystem
import Verif.Model.MBP

/-!
Property-directed k-induction: `src/engine/PDKind.cc`.

`unsigned` arithmetic is modelled by natural numbers. The loops that need not end have fuel. Every `push` of the main loop is
called with `k = n + 1` (`src/engine/PDKind.cc:215`), so `k` is not a parameter here and `n - k + 1` is zero.
-/

namespace Golem
variable {T : Theory}

/-- `IFrameElement` with its `CounterExample` (`src/engine/PDKind.cc:25-51`). -/
structure PdEl (T : Theory) where
  lem : Fla T
  ctx : Fla T
  steps : Nat
deriving DecidableEq

/-- `IFrameElement::operator==` (`src/engine/PDKind.cc:40-42`); `operator<` (44-50) has the same equivalence. The number of
steps is not compared. -/
def PdEl.same (a b : PdEl T) : Bool := decide (a.lem = b.lem) && decide (a.ctx = b.ctx)

/-- `InductionFrame::insert` (`std::set`, `src/engine/PDKind.cc:56`): nothing happens if an equal element is there. -/
def pdInsert (F : List (PdEl T)) (e : PdEl T) : List (PdEl T) := if F.any (PdEl.same e) then F else F ++ [e]

/-- `InductionFrame::erase`. -/
def pdErase (F : List (PdEl T)) (e : PdEl T) : List (PdEl T) := F.filter fun x => !PdEl.same e x

/-- `operator==` of two frames (`src/engine/PDKind.cc:223`): they have the same elements. -/
def pdEq (F G : List (PdEl T)) : Bool := F.all (fun a => G.any a.same) && G.all (fun a => F.any a.same)

/-- What the engine is given: the solver, the model-based projection, the simplifications of `Logic::mkAnd`, `mkOr`, `mkNot`
where the result becomes a part of a frame element (it is compared with other elements), and the order in which `std::set`
enumerates a frame (by term numbers). -/
structure PdEnv (T : Theory) where
  S : Smt T
  M : Mbp T
  norm : Fla T → Fla T
  ord : List (PdEl T) → List (PdEl T)

/-- `ReachabilityResult` (`src/engine/PDKind.cc:75-83`). -/
inductive PdReach (T : Theory) where
  | reach (steps : Nat)
  | unreach (explanation : Fla T)
deriving DecidableEq

/-- `RFrames` (`src/engine/PDKind.cc:115-136`): the lemmas of every frame; a frame that does not exist yet has none. -/
abbrev PdR (T : Theory) := Nat → List (Fla T)

/-- `RFrames::addLemma` (`src/engine/PDKind.cc:120-123`). -/
def PdR.add (R : PdR T) (k : Nat) (f : Fla T) : PdR T := fun i => if i = k then R i ++ [f] else R i

/-- `generalize` (`src/engine/PDKind.cc:238-243`). -/
def pdGeneralize (E : PdEnv T) (ts : TS T) (ρ : Valuation T) (trans f : Fla T) : Option (Fla T) :=
  mbpKeepOnly E.M (.and trans f) ts.stateVars ρ

/-- `ReachabilityChecker::zeroStepReachability` (`src/engine/PDKind.cc:387-404`). -/
def pdZero (S : Smt T) (ts : TS T) (f : Fla T) : Outcome (PdReach T) :=
  match S.check [ts.init, f] with
  | .unsat => .done (.unreach (S.itp [ts.init] [f]))
  | .sat => .done (.reach 0)
  | _ => .thrown

/-- The assertions of `FrameSolver::checkFeasibility` (`src/engine/PDKind.cc:412-415`). -/
def pdQuery (ts : TS T) (R : PdR T) (k : Nat) (f : Fla T) : List (Fla T) := [Fla.conj (R k), ts.trans, sendFla f 1]

/-- The loop of `ReachabilityChecker::reachable` for `k + 1` steps (`src/engine/PDKind.cc:446-471`); `rec` is the recursive
call for `k` steps. -/
def pdReachLoop (E : PdEnv T) (ts : TS T) (rec : Fla T → PdR T → Outcome (PdReach T × PdR T)) (k : Nat) (f : Fla T) :
    Nat → PdR T → Outcome (PdReach T × PdR T)
  | 0, _ => .outOfFuel
  | fuel + 1, R =>
    match E.S.check (pdQuery ts R k f) with
    | .sat =>
      match pdGeneralize E ts (E.S.model (pdQuery ts R k f)) ts.trans (sendFla f 1) with
      | none => .thrown
      | some g =>
        match rec g R with
        | .done (.reach m, R') => .done (.reach m, R')
        | .done (.unreach e, R') => pdReachLoop E ts rec k f fuel (R'.add k e)
        | .thrown => .thrown
        | .outOfFuel => .outOfFuel
    | .unsat =>
      let lem := sendFla (E.S.itp [Fla.conj (R k), ts.trans] [sendFla f 1]) (-1)
      match pdZero E.S ts f with
      | .done (.unreach e) => .done (.unreach (E.norm (.or lem e)), R)
      | .done (.reach _) => .thrown
      | .thrown => .thrown
      | .outOfFuel => .outOfFuel
    | _ => .thrown

/-- `ReachabilityChecker::reachable` (`src/engine/PDKind.cc:439-472`). -/
def pdReachable (E : PdEnv T) (ts : TS T) (fuel : Nat) : Nat → Fla T → PdR T → Outcome (PdReach T × PdR T)
  | 0, f, R =>
    match pdZero E.S ts f with
    | .done r => .done (r, R)
    | .thrown => .thrown
    | .outOfFuel => .outOfFuel
  | k + 1, f, R => pdReachLoop E ts (pdReachable E ts fuel k) k f fuel R

/-- `ReachabilityChecker::checkReachability` (`src/engine/PDKind.cc:481-493`): `m` rounds from `i` on. -/
def pdCheck (E : PdEnv T) (ts : TS T) (fuel : Nat) (f : Fla T) : Nat → Nat → PdR T → Outcome (PdReach T × PdR T)
  | 0, _, _ => .thrown
  | m + 1, i, R =>
    match pdReachable E ts fuel i f R with
    | .done (.reach _, R') => .done (.reach i, R')
    | .done (.unreach e, R') => if m = 0 then .done (.unreach e, R') else pdCheck E ts fuel f m (i + 1) R'
    | .thrown => .thrown
    | .outOfFuel => .outOfFuel

/-- `checkReachability(from, to, formula)`. -/
def pdCheckFromTo (E : PdEnv T) (ts : TS T) (fuel lo hi : Nat) (f : Fla T) (R : PdR T) : Outcome (PdReach T × PdR T) :=
  pdCheck E ts fuel f (hi + 1 - lo) lo R

/-- The conjunction of the lemmas of a frame (`src/engine/PDKind.cc:279-285, 379-383`). -/
def pdAbs (E : PdEnv T) (F : List (PdEl T)) : Fla T := Fla.conj ((E.ord F).map PdEl.lem)

/-- `kTransition` (`src/engine/PDKind.cc:264-270`). -/
def pdKTrans (ts : TS T) (k : Nat) : Fla T := Fla.conj ((List.range k).map fun i : Nat => sendFla ts.trans i)

/-- `transitionRestriction` (`src/engine/PDKind.cc:288-294`). -/
def pdRestrict (abs : Fla T) (k : Nat) : Fla T := Fla.conj ((List.range k).map fun i : Nat => sendFla abs i)

/-- The assertions of `kinductionChecker` (`src/engine/PDKind.cc:272-273, 304-307, 316-319`). -/
def pdKQuery (E : PdEnv T) (ts : TS T) (F : List (PdEl T)) (k : Nat) (f : Fla T) : List (Fla T) :=
  [pdKTrans ts k, pdRestrict (pdAbs E F) k, sendFla f k]

/-- The state of the loop of `push`. -/
structure PdSt (T : Theory) where
  frame : List (PdEl T)
  newFrame : List (PdEl T)
  queue : List (PdEl T)
  np : Nat
  R : PdR T

/-- One round of the loop of `push` (`src/engine/PDKind.cc:275-370`) for the obligation `o`, already removed from the queue:
either the number of steps of a counterexample or the next state. -/
def pdRound (E : PdEnv T) (ts : TS T) (fuel n : Nat) (o : PdEl T) (st : PdSt T) : Outcome (Nat ⊕ PdSt T) :=
  let k := n + 1
  match E.S.check (pdKQuery E ts st.frame k (.not o.lem)) with
  | .unsat => .done (.inr { st with newFrame := pdInsert st.newFrame o })
  | .sat =>
    if E.S.check (pdKQuery E ts st.frame k o.ctx) = .sat then
      match pdGeneralize E ts (E.S.model (pdKQuery E ts st.frame k o.ctx)) (pdKTrans ts k) (sendFla o.ctx k) with
      | none => .thrown
      | some g =>
        match pdCheckFromTo E ts fuel 0 n g st.R with
        | .done (.reach s, _) => .done (.inl (o.steps + k + s))
        | .done (.unreach e, R) =>
          let o' : PdEl T := ⟨e, g, o.steps + k⟩
          .done (.inr { st with frame := pdInsert st.frame o', queue := st.queue ++ [o', o], R := R })
        | .thrown => .thrown
        | .outOfFuel => .outOfFuel
    else
      match pdGeneralize E ts (E.S.model (pdKQuery E ts st.frame k (.not o.lem))) (pdKTrans ts k) (sendFla (.not o.lem) k) with
      | none => .thrown
      | some g =>
        match pdCheckFromTo E ts fuel 0 n g st.R with
        | .done (.reach s, R) =>
          match pdCheckFromTo E ts fuel (n + 1) (s + k) (.not o.lem) R with
          | .done (.reach s', R') =>
            let o' : PdEl T := ⟨E.norm (.not o.ctx), o.ctx, o.steps⟩
            .done (.inr { st with frame := pdInsert st.frame o', newFrame := pdInsert st.newFrame o', np := min st.np s', R := R' })
          | .done (.unreach _, _) => .thrown
          | .thrown => .thrown
          | .outOfFuel => .outOfFuel
        | .done (.unreach e, R) =>
          let o' : PdEl T := ⟨E.norm (.and o.lem e), o.ctx, o.steps⟩
          .done (.inr { st with frame := pdErase (pdInsert st.frame o') o, queue := st.queue ++ [o'], R := R })
        | .thrown => .thrown
        | .outOfFuel => .outOfFuel
  | _ => .thrown

/-- The loop of `push` (`src/engine/PDKind.cc:275-370`). -/
def pdPushLoop (E : PdEnv T) (ts : TS T) (rfuel n : Nat) : Nat → PdSt T → Outcome (Nat ⊕ PdSt T)
  | 0, _ => .outOfFuel
  | fuel + 1, st =>
    match st.queue with
    | [] => .done (.inr st)
    | o :: q =>
      match pdRound E ts rfuel n o { st with queue := q } with
      | .done (.inl s) => .done (.inl s)
      | .done (.inr st') => pdPushLoop E ts rfuel n fuel st'
      | .thrown => .thrown
      | .outOfFuel => .outOfFuel

/-- `Context::push` (`src/engine/PDKind.cc:248-373`) with `k = n + 1`. -/
def pdPush (E : PdEnv T) (ts : TS T) (rfuel fuel n : Nat) (F : List (PdEl T)) (R : PdR T) : Outcome (Nat ⊕ PdSt T) :=
  pdPushLoop E ts rfuel n fuel ⟨F, [], E.ord F, n + (n + 1), R⟩

/-- The main loop of `Context::solve` (`src/engine/PDKind.cc:214-232`). -/
def pdLoop (E : PdEnv T) (computeWitness : Bool) (ts : TS T) (rfuel pfuel : Nat) :
    Nat → Nat → List (PdEl T) → PdR T → Outcome (TSResult T)
  | 0, _, _, _ => .outOfFuel
  | fuel + 1, n, F, R =>
    match pdPush E ts rfuel pfuel n F R with
    | .done (.inl s) => .done (.unsafeAt s)
    | .done (.inr st) =>
      if pdEq st.frame st.newFrame then
        if computeWitness then
          match kinductiveToInductive E.S ts (pdAbs E st.frame) st.np with
          | some I => .done (.safeInv I)
          | none => .thrown
        else .done (.safeInv .ff)
      else pdLoop E computeWitness ts rfuel pfuel fuel st.np st.newFrame st.R
    | .thrown => .thrown
    | .outOfFuel => .outOfFuel

/-- `PDKind::solve` (`src/engine/PDKind.cc:179-182`) and `Context::solve` (`src/engine/PDKind.cc:188-233`). -/
def pdkindSolve (E : PdEnv T) (computeWitness hasArrays : Bool) (ts : TS T) (rfuel pfuel fuel : Nat) : Outcome (TSResult T) :=
  if hasArrays then .done .unknown
  else if E.S.check [ts.init] = .unsat then .done (.safeInv .ff)
  else if E.S.check [ts.init, ts.query] = .sat then .done (.unsafeAt 0)
  else pdLoop E computeWitness ts rfuel pfuel fuel 0 [⟨E.norm (.not ts.query), ts.query, 0⟩] (fun _ => [])

end Golem
