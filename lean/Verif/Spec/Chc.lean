import Verif.Model.Logic

/-!
Independent specification of constrained Horn clauses: ground rules, derivability, models, derivations.
Nothing here mentions graphs, engines or solvers.
-/

namespace Golem

/-- Predicate symbols. `tru`/`fls` are the logical constants golem uses as entry and exit vertex
(`src/graph/ChcGraph.h:198-199`: `logic.getSym_true()`, `logic.getSym_false()`); `p n` is the `n`-th uninterpreted one. -/
inductive Pred where
  | tru
  | fls
  | p (n : Nat)
deriving DecidableEq, Repr, Inhabited

/-- A ground fact: a predicate applied to values. -/
abbrev Fact (T : Theory) := Pred × List T.Val

/-- A ground rule: if all body facts are derived, the head is. -/
structure GRule (T : Theory) where
  body : List (Fact T)
  head : Fact T

abbrev Rules (T : Theory) := GRule T → Prop

variable {T : Theory}

def trueFact : Fact T := (Pred.tru, [])
def falseFact : Fact T := (Pred.fls, [])

/-- The least set of facts that contains `true` and is closed under the rules. -/
inductive Derivable (R : Rules T) : Fact T → Prop where
  | entry : Derivable R trueFact
  | step (r : GRule T) (hr : R r) (hb : ∀ b ∈ r.body, Derivable R b) : Derivable R r.head

/-- `M` satisfies every rule (with `true` interpreted as true). -/
def SatisfiesRules (R : Rules T) (M : Fact T → Prop) : Prop :=
  M trueFact ∧ ∀ r, R r → (∀ b ∈ r.body, M b) → M r.head

/-- `M` is a model: all rules hold and `false` is interpreted as false. -/
def IsModel (R : Rules T) (M : Fact T → Prop) : Prop := SatisfiesRules R M ∧ ¬ M falseFact

/-- The system has a model (the CHC verdict "sat"). -/
def Satisfiable (R : Rules T) : Prop := ∃ M, IsModel R M

/-- One step of a derivation: a rule instance given by the premises (indices of steps) and the derived fact. -/
structure SpecStep (T : Theory) where
  premises : List Nat
  fact : Fact T

/-- A derivation: step 0 is `true`; every later step is the head of a rule instance whose body facts are the facts of
its premises, in order, and every premise is an earlier step; the last step is `false`. -/
def IsRefutation (R : Rules T) (ds : List (SpecStep T)) : Prop :=
  (∃ d, ds.head? = some d ∧ d.fact = trueFact) ∧
  (∃ d, ds.getLast? = some d ∧ d.fact = falseFact) ∧
  ∀ i d, 0 < i → ds[i]? = some d →
    (∀ j ∈ d.premises, j < i) ∧
    R ⟨d.premises.filterMap (fun j => (ds[j]?).map SpecStep.fact), d.fact⟩

/-- An atom of a clause: a predicate applied to terms. -/
abbrev PAtom (T : Theory) := Pred × List (Tm T)

/-- A Horn clause `constraint ∧ body → head` (`src/ChcSystem.h:50-90`). -/
structure Clause (T : Theory) where
  head : PAtom T
  constraint : Fla T
  body : List (PAtom T)
deriving DecidableEq

def PAtom.ground (ρ : Valuation T) (a : PAtom T) : Fact T := (a.1, a.2.map (Tm.eval ρ))

/-- The ground instances of a list of clauses. -/
def clauseRules (cs : List (Clause T)) : Rules T := fun r =>
  ∃ c ∈ cs, ∃ ρ : Valuation T, c.constraint.holds ρ ∧
    r = ⟨c.body.map (PAtom.ground ρ), PAtom.ground ρ c.head⟩

end Golem
