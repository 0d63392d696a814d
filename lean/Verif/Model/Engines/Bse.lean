import Verif.Model.Engines.LinearBmc
import Verif.Model.Engines.TransitionSystem

/-!
Backward symbolic execution `BSE::run` (`src/engine/Kind.cc:147-196`) and the dispatch of `Kind::solve` and `BMC::solve`
(`src/engine/Kind.cc:24-43`, `src/engine/Bmc.cc:17-33`).
-/

namespace Golem
variable {T : Theory}

/-- `ARGNode` (`src/engine/Kind.cc:154-157`). -/
structure ArgNode (T : Theory) where
  pred : Pred
  fla : Fla T
deriving DecidableEq

/-- The loop over the incoming edges (`src/engine/Kind.cc:178-192`); `none` is the answer UNSAFE. Hash-consing makes
`candidate.fla == other.fla` syntactic equality. -/
def bseExpand (S : Smt T) (R : PRepr) (E : ElimExcept T) (shifted : Fla T) :
    List (LEdge T) → List (ArgNode T) → Option (List (ArgNode T))
  | [], queue => some queue
  | e :: es, queue =>
    let node : ArgNode T := ⟨e.src, E (R.stateVars e.src) (.and shifted e.fla)⟩
    if node ∈ queue then bseExpand S R E shifted es queue
    else if S.check [node.fla] = .sat then
      if e.src = .tru then none
      else bseExpand S R E shifted es (queue ++ [node])
    else bseExpand S R E shifted es queue

/-- The loop over the queue (`src/engine/Kind.cc:174-195`). -/
def bseLoop (S : Smt T) (R : PRepr) (E : ElimExcept T) (G : LGraph T) :
    Nat → List (ArgNode T) → Outcome (VerificationResult T)
  | 0, _ => .outOfFuel
  | _ + 1, [] => .done ⟨.safe, .none⟩
  | fuel + 1, n :: queue =>
    match bseExpand S R E (sendFla n.fla 1) (G.inc n.pred) queue with
    | none => .done ⟨.unsafeAns, .none⟩
    | some queue' => bseLoop S R E G fuel queue'

/-- `BSE::run` (`src/engine/Kind.cc:147-196`). -/
def bse (S : Smt T) (R : PRepr) (E : ElimExcept T) (G : LGraph T) (fuel : Nat) : Outcome (VerificationResult T) :=
  bseLoop S R E G fuel [⟨.fls, .tt⟩]

/-- `Kind::solve` (`src/engine/Kind.cc:24-43`); `hasArrays` is `logic.hasArrays()`. The transition system is computed twice
here (once to look at its auxiliary variables). -/
def kindGraph (S : Smt T) (R : PRepr) (E : ElimExcept T) (Q : QElim T) (w hasArrays : Bool) (G : LGraph T) (fuel : Nat) :
    Outcome (VerificationResult T) :=
  if isTrivial G then .done (solveTrivial S G)
  else if isTransitionSystem G then
    if hasArrays && ((toTransitionSystem R E G).map fun ts => !ts.auxVars.isEmpty).getD false then bse S R E G fuel
    else solveTSGraph S R E (ensureNoAux Q) (fun ts => kindSolve S w ts fuel) w G
  else bse S R E G fuel

/-- `BMC::solve` (`src/engine/Bmc.cc:17-33`); `single` is the branch taken with `forceTransitionSystem` for graphs that are no
transition systems. -/
def bmcGraph (S : Smt T) (R : PRepr) (E : ElimExcept T) (w force : Bool)
    (single : LGraph T → Outcome (VerificationResult T)) (G : LGraph T) (fuel : Nat) : Outcome (VerificationResult T) :=
  if isTrivial G then .done (solveTrivial S G)
  else if isTransitionSystem G then solveTSGraph S R E some (fun ts => bmcSolve S ts fuel) w G
  else if force then single G
  else linearBmc S R w G fuel

end Golem
