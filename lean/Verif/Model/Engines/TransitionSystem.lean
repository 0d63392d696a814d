import Verif.Model.KTo1
import Verif.Model.Entailment

/-!
Engines that work on a single transition system: `src/engine/Bmc.cc:35-70`, `src/engine/Kind.cc:45-143`,
`src/engine/IMC.cc:17-132`.

The solver object is modelled by the list of formulas on its assertion stack. The bound
`numeric_limits<size_t>::max()` of the main loops is replaced by fuel; running out of it is not an answer.
-/

namespace Golem
variable {T : Theory}

/-- `TransitionSystemVerificationResult` (`src/engine/EngineCommon.h`): an invariant formula or the length of the path. -/
inductive TSResult (T : Theory) where
  | safeInv (inv : Fla T)
  | unsafeAt (k : Nat)
  | unknown
deriving DecidableEq

/-- The main loop of `BMC::solveTransitionSystemInternal` (`src/engine/Bmc.cc:53-69`). `stack` is what the solver has
asserted at level zero. Every answer except SAT continues the loop. -/
def bmcLoop (S : Smt T) (ts : TS T) : Nat → Nat → List (Fla T) → Outcome (TSResult T)
  | 0, _, _ => .outOfFuel
  | fuel + 1, k, stack =>
    if S.check (stack ++ [sendFla ts.query k]) = .sat then .done (.unsafeAt k)
    else bmcLoop S ts fuel (k + 1) (stack ++ [sendFla ts.trans k])

/-- `BMC::solveTransitionSystemInternal` (`src/engine/Bmc.cc:35-70`). -/
def bmcSolve (S : Smt T) (ts : TS T) (fuel : Nat) : Outcome (TSResult T) :=
  if S.check [ts.init] = .unsat then .done (.safeInv .ff)
  else bmcLoop S ts fuel 0 [ts.init]

/-- `Kind::invariantFromForwardInduction` (`src/engine/Kind.cc:130-134`). -/
def invariantFromForwardInduction (S : Smt T) (ts : TS T) (k : Nat) : Option (Fla T) :=
  kinductiveToInductive S ts (.not ts.query) k

/-- `Kind::invariantFromBackwardInduction` (`src/engine/Kind.cc:136-143`). -/
def invariantFromBackwardInduction (S : Smt T) (ts : TS T) (k : Nat) : Option (Fla T) :=
  (kinductiveToInductive S ts.reverse (.not ts.reverse.query) k).map .not

/-- Packs the SAFE answer of `Kind`: with witness the invariant (an exception if there is none), without it `true`. -/
def kindSafe (computeWitness : Bool) (inv : Option (Fla T)) : Outcome (TSResult T) :=
  if computeWitness then
    match inv with
    | some I => .done (.safeInv I)
    | none => .thrown
  else .done (.safeInv .tt)

/-- The main loop of `Kind::solveTransitionSystemInternal` (`src/engine/Kind.cc:77-127`); `base`, `fwd`, `bwd` are the
assertion stacks of the three solvers. -/
def kindLoop (S : Smt T) (computeWitness : Bool) (ts : TS T) :
    Nat → Nat → List (Fla T) → List (Fla T) → List (Fla T) → Outcome (TSResult T)
  | 0, _, _, _, _ => .outOfFuel
  | fuel + 1, k, base, fwd, bwd =>
    if S.check (base ++ [sendFla ts.query k]) = .sat then
      .done (.unsafeAt (if computeWitness then k else 0))
    else if S.check fwd = .unsat then kindSafe computeWitness (invariantFromForwardInduction S ts k)
    else if S.check bwd = .unsat then kindSafe computeWitness (invariantFromBackwardInduction S ts k)
    else kindLoop S computeWitness ts fuel (k + 1) (base ++ [sendFla ts.trans k])
      (fwd ++ [sendFla ts.reverseTransition k, sendFla (.not ts.query) (k + 1)])
      (bwd ++ [sendFla ts.trans k, sendFla (.not ts.init) (k + 1)])

/-- `Kind::solveTransitionSystemInternal` (`src/engine/Kind.cc:45-128`). -/
def kindSolve (S : Smt T) (computeWitness : Bool) (ts : TS T) (fuel : Nat) : Outcome (TSResult T) :=
  if S.check [ts.init] = .unsat then .done (.safeInv .ff)
  else kindLoop S computeWitness ts fuel 0 [ts.init] [ts.query] [ts.init]

/-- The suffix formula of `IMC::finiteRun` (`src/engine/IMC.cc:52-60`). -/
def imcSuffix (ts : TS T) (k : Nat) : Fla T :=
  Fla.conj ((List.range (k - 1)).map (fun i : Nat => sendFla ts.trans ((i : Int) + 1)) ++ [sendFla ts.query k])

/-- `IMC::implies` (`src/engine/IMC.cc:101-108`). -/
def imcImplies (S : Smt T) (a c : Fla T) : Bool := S.check [.and a (.not c)] == .unsat

/-- `IMC::computeFinalInductiveInvariant` (`src/engine/IMC.cc:122-132`). -/
def computeFinalInductiveInvariant (S : Smt T) (inv : Fla T) (k : Nat) (ts : TS T) : Option (Fla T) :=
  if S.check [inv, ts.query] = .unsat then some inv
  else kinductiveToInductive S ts (.and inv (.not ts.query)) k

/-- The loop of `IMC::finiteRun` (`src/engine/IMC.cc:63-98`). A solver answer other than SAT and UNSAT makes
`getInterpolationContext` fail (`thrown`). Hash-consing makes `movingInit == ts.getInit()` syntactic equality. -/
def imcRun (S : Smt T) (computeWitness : Bool) (ts : TS T) (k : Nat) :
    Nat → Nat → Fla T → Fla T → Outcome (TSResult T)
  | 0, _, _, _ => .outOfFuel
  | fuel + 1, iter, movingInit, reached =>
    match S.check [imcSuffix ts k, ts.trans, movingInit] with
    | .sat => if movingInit = ts.init then .done (.unsafeAt (iter + k)) else .done .unknown
    | .unsat =>
      let itp := sendFla (S.itp [ts.trans, movingInit] [imcSuffix ts k]) (-1)
      if imcImplies S itp reached then
        if computeWitness then
          match computeFinalInductiveInvariant S reached k ts with
          | some I => .done (.safeInv I)
          | none => .thrown
        else .done (.safeInv .tt)
      else imcRun S computeWitness ts k fuel (iter + 1) itp (.or reached itp)
    | _ => .thrown

/-- The main loop of `IMC::solve` (`src/engine/IMC.cc:28-31`); every call of `finiteRun` gets the same fuel. -/
def imcLoop (S : Smt T) (computeWitness : Bool) (ts : TS T) (inner : Nat) : Nat → Nat → Outcome (TSResult T)
  | 0, _ => .outOfFuel
  | fuel + 1, k =>
    match imcRun S computeWitness ts k inner 0 ts.init ts.init with
    | .done .unknown => imcLoop S computeWitness ts inner fuel (k + 1)
    | r => r

/-- `IMC::solve` (`src/engine/IMC.cc:17-33`); `hasArrays` is `logic.hasArrays()`. -/
def imcSolve (S : Smt T) (computeWitness hasArrays : Bool) (ts : TS T) (inner fuel : Nat) : Outcome (TSResult T) :=
  if S.check [ts.init, ts.query] = .sat then .done (.unsafeAt 0)
  else if hasArrays then .done .unknown
  else imcLoop S computeWitness ts inner fuel 1

end Golem
