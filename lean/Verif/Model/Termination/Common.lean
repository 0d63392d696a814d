import Verif.Model.Normalizer
import Verif.Model.TransitionSystem
import Verif.Model.Engines.TransitionSystem
import Verif.Model.Engines.Hyper

/-!
What the termination back ends share: a transition system is handed to a safety engine as three Horn clauses.
`src/termination/ReachabilityNonterm.cc:21-63`, `src/termination/ReachabilityTerm.cc:48-84`.
-/

namespace Golem
variable {T : Theory}

/-- `EngineFactory(logic, options).getEngine(name)->solve(*hypergraph)`: a safety engine as a service. The representation
is that of the graph. No preprocessing is run before it (`src/termination/LassoDetector.cc:112`). -/
abbrev Engine (T : Theory) := PRepr → Graph T → Outcome (VerificationResult T)

/-- Normalize the clauses, build the graph and run the engine (`src/termination/LassoDetector.cc:107-116`,
`src/termination/ReachabilityTerm.cc:78-89`). -/
def solveClauses (E : Engine T) (cs : List (Clause T)) : Outcome (VerificationResult T) :=
  E (normalize cs).1.repr (buildGraph (normalize cs).2)

/-- The clauses `init(x) → P(x)`, `P(x) ∧ transition(x,x') → P(x')`, `P(x) ∧ query(x) → false`
(`src/termination/ReachabilityNonterm.cc:36-58`, `src/termination/ReachabilityTerm.cc:60-76`). `P` is the `k`-th
predicate symbol. -/
def systemClauses (k : Nat) (vars : List Var) (init trans query : Fla T) : List (Clause T) :=
  [⟨(.p k, vars.map Tm.var), init, []⟩,
   ⟨(.p k, vars.map fun x => Tm.var (shift 1 x)), trans, [(.p k, vars.map Tm.var)]⟩,
   ⟨(.fls, []), query, [(.p k, vars.map Tm.var)]⟩]

/-- Answers of the back ends (`LassoDetector.h:21`, `ReachabilityTerm.h:20`, `ReachabilityNonterm.h:21`). -/
inductive LassoAnswer where | lasso | noLasso | unknown | error
deriving DecidableEq, Repr

inductive TermAnswer where | yes | no | unknown | error
deriving DecidableEq, Repr

end Golem
