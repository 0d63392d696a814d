import Verif.Model.SingleLoop
import Verif.Model.Termination.Pipeline

/-! From the graph to a transition system, in the termination front end (`src/termination/Frontend.cc:445-452, 478-489`). -/

namespace Golem
variable {T : Theory}

/-- `isTransitionSystemWithoutQuery` (`src/TransformationUtils.cc:37-51`). -/
def isTSWithoutQuery (G : LGraph T) : Bool :=
  match reversePostOrder G with
  | some [beg, loop] =>
    decide (beg = .tru) && ((G.out beg).length == 1) && ((G.out beg).all fun e => decide (e.tgt = loop)) &&
    ((G.out loop).length == 1) && ((G.out loop).all fun e => decide (e.tgt = loop))
  | _ => false

/-- `isTriviallyTerminating` (`src/termination/Frontend.cc:445-452`). -/
def isTriviallyTerminating (G : LGraph T) : Bool :=
  G.isEmpty || G.all fun e => decide (e.src = .tru)

/-- The transition system of the graph (`src/termination/Frontend.cc:485-489`); `none` is an assertion, or undefined behaviour
without assertions. `N` is the symbol of the vertex the single-loop transformation makes. -/
def extractTS (S : Smt T) (R : PRepr) (E : ElimExcept T) (N : Pred) (G : LGraph T) : Option (TS T) :=
  if isTSWithoutQuery G then toTransitionSystemNoQuery R E G else singleLoop S R E N G

end Golem
