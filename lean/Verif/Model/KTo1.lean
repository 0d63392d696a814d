import Verif.Model.TransitionSystem

/-!
From k-inductive to inductive invariants: `src/TransitionSystem.cc:174-365`.
-/

namespace Golem
variable {T : Theory}

/-- `buildConjunct(index)` (`src/TransitionSystem.cc:323-329`): `Init(x_i) ∨ (Inv(x_{i-1}) ∧ Tr(x_{i-1},x_i))`. -/
def kConjunct (ts : TS T) (inv : Fla T) (index : Nat) : Fla T :=
  .or (sendFla ts.init index) (.and (sendFla inv ((index : Int) - 1)) (sendFla ts.trans ((index : Int) - 1)))

/-- The assertions of `unfoldSingleQuery` (`src/TransitionSystem.cc:331-335`). -/
def kQuery (ts : TS T) (inv : Fla T) (k : Nat) : List (Fla T) :=
  (List.range k).map (fun i => kConjunct ts inv (i + 1)) ++ [.not (sendFla inv k)]

/-- `KTo1Inductive::unfoldSingleQuery` (`src/TransitionSystem.cc:319-357`); `none` is the exception
"Query must be UNSAT!". -/
def unfoldSingleQuery (S : Smt T) (ts : TS T) (inv : Fla T) (k : Nat) : Option (Fla T) :=
  if S.check (kQuery ts inv k) = .unsat then
    some (Fla.conj ((S.pathItp (kQuery ts inv k)).zipIdx.map fun p => sendFla p.1 (-((p.2 : Int) + 1))))
  else none

/-- `kinductiveToInductive` (`src/TransitionSystem.cc:359-365`). -/
def kinductiveToInductive (S : Smt T) (ts : TS T) (inv : Fla T) (k : Nat) : Option (Fla T) :=
  if k = 1 then some inv else unfoldSingleQuery S ts inv k

/-- `buildFormula` (`src/TransitionSystem.cc:232-242`). -/
def buildFormula (ts : TS T) (inv : Fla T) : Nat → Fla T
  | 0 => .tt
  | n + 1 => .or (sendFla ts.init ((n : Int) + 1))
      (.and (buildFormula ts inv n) (.and (sendFla inv n) (sendFla ts.trans n)))

/-- `KTo1Inductive::unfoldHalving` (`src/TransitionSystem.cc:265-296`). `TermUtils::conjoin` is modelled as a conjunction
(it is equivalent to one: C31). -/
def unfoldHalving (S : Smt T) (ts : TS T) (inv : Fla T) (k : Nat) : Option (Fla T) :=
  if h : 1 < k then
    let j := k / 2
    let i := k - j
    let A := [buildFormula ts inv i]
    let B := [.and (sendFla (buildFormula ts inv j) i) (.not (sendFla inv k))]
    if S.check (A ++ B) = .unsat then
      unfoldHalving S ts (.and inv (sendFla (S.itp A B) (-(i : Int)))) i
    else none
  else some inv
termination_by k
decreasing_by omega

/-- The quantifier elimination service used by `KTo1Inductive::qe`: `QuantifierElimination(logic).keepOnly(fla, vars)`
(`src/QuantifierElimination.cc:46-54`); `none` is an exception. -/
abbrev KeepOnly (T : Theory) := Fla T → List Var → Option (Fla T)

/-- Its contract (what C36 proves of the implementation): the result mentions kept variables only and is equivalent to
the existential quantification of the others. -/
def KeepOnly.Exact (Q : KeepOnly T) : Prop := ∀ f vs g, Q f vs = some g →
  (∀ x ∈ g.vars, x ∈ vs) ∧
  ∀ ρ : Valuation T, g.holds ρ ↔ ∃ ρ' : Valuation T, (∀ x ∈ vs, ρ' x = ρ x) ∧ f.holds ρ'

/-- The loop of `KTo1Inductive::qe` (`src/TransitionSystem.cc:219-223`), for `i = n, ..., 1`. -/
def qeAcc (ts : TS T) (inv : Fla T) : Nat → Fla T → Fla T
  | 0, acc => acc
  | n + 1, acc => qeAcc ts inv n
      (.and (.or acc (.not (sendFla inv ((n : Int) + 1)))) (.and (sendFla inv n) (sendFla ts.trans n)))

/-- `KTo1Inductive::qe` (`src/TransitionSystem.cc:211-228`). The final `toNNF` is omitted (it is equivalent: C29). -/
def kqe (Q : KeepOnly T) (ts : TS T) (inv : Fla T) (k : Nat) : Option (Fla T) :=
  match Q (qeAcc ts inv (k - 1) .ff) ts.stateVars with
  | some g => some (.and (.not g) inv)
  | none => none

end Golem
