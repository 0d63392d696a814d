import Verif.Model.Graph

/-!
`src/Normalizer.cc`, `src/Normalizer.h`, `src/graph/ChcGraphBuilder.cc`.
-/

namespace Golem
variable {T : Theory}

/-- Mutable state of `Normalizer` (`src/Normalizer.h:35-39`): the representations added so far and the counter. -/
structure NState where
  reps : List (Pred × List Name)
  counter : Nat

/-- The canonical representation stored in the state; predicates without one have no arguments. -/
def NState.repr (st : NState) : PRepr := ⟨fun p => (List.lookup p st.reps).getD []⟩

/-- Initial state: `normalize(ChcSystem)` first adds empty representations for true and false
(`src/Normalizer.cc:11-12`). -/
def NState.init : NState := ⟨[(.tru, []), (.fls, [])], 0⟩

/-- `createUniqueRepresentation` guarded by `hasRepresentationFor` (`src/Normalizer.h:50-60`, `src/Normalizer.cc:84-86`). -/
def NState.ensure (st : NState) (p : Pred) (arity : Nat) : NState :=
  match List.lookup p st.reps with
  | some _ => st
  | none => ⟨st.reps ++ [(p, (List.range arity).map fun i => .pr (st.counter + i))], st.counter + arity⟩

def NState.ensureAll (st : NState) : List (PAtom T) → NState
  | [] => st
  | a :: as => (st.ensure a.1 a.2.length).ensureAll as

/-- `Normalizer::Equality` (`src/Normalizer.h:26-29`). -/
abbrev NEq (T : Theory) := Var × Tm T

/-- The loop over `topLevelEqualities` (`src/Normalizer.cc:127-135`). -/
def processEqs : List (NEq T) → SubstMap T → List (Fla T) → SubstMap T × List (Fla T)
  | [], σ, E => (σ, E)
  | (nv, arg) :: rest, σ, E =>
    match arg with
    | .var x =>
      match σ.find x with
      | none => processEqs rest (σ ++ [(x, .var nv)]) E
      | some v => processEqs rest σ (E ++ [.eq (.var nv) v])
    | _ => processEqs rest σ (E ++ [.eq (.var nv) arg])

/-- Equalities of the head, then of the body with counted instances (`src/Normalizer.cc:89-96,108-121`). The arguments
are paired by position (`assert` on equal sizes). -/
def clauseEqs (R : PRepr) (c : Clause T) : List (NEq T) :=
  List.zip (R.tgtVars c.head.1) c.head.2 ++
  (List.zip (instances (c.body.map Prod.fst)) c.body).flatMap fun (q, a) => List.zip (R.srcVars q.1 q.2) a.2

/-- Interpreted part after `normalize(ChcBody)` (`src/Normalizer.cc:123-141`). -/
def normalizedBody (R : PRepr) (c : Clause T) : Fla T :=
  let (σ, E) := processEqs (clauseEqs R c) [] []
  varSubstitute (if E.isEmpty then c.constraint else .and c.constraint (Fla.conj E)) σ

/-- Predicate variables of the normalized clause (`src/Normalizer.cc:42-52`). -/
def predicateVars (R : PRepr) (c : Clause T) : List Var :=
  R.tgtVars c.head.1 ++ R.keys (instances (c.body.map Prod.fst))

/-- Distinct elements, in order of last occurrence (`matchingSubTerms` returns each subterm once). -/
def dedup {α : Type} [DecidableEq α] : List α → List α
  | [] => []
  | x :: xs => if x ∈ xs then dedup xs else x :: dedup xs

/-- Local variables (`src/Normalizer.cc:55-58`). -/
def localVars (R : PRepr) (c : Clause T) (body : Fla T) : List Var :=
  dedup (body.vars.filter fun x => decide (x ∉ predicateVars R c))

/-- `aux#k` names for the local variables (`src/Normalizer.cc:61-69`). -/
def auxSubst (counter : Nat) : List Var → SubstMap T
  | [] => []
  | x :: xs => (x, .var (.ver (.aux counter) 0)) :: auxSubst (counter + 1) xs

/-- The clause `normalize` + `normalizeAuxiliaryVariables` produce for a fixed representation and counter
(`src/Normalizer.cc:39-77`). -/
def normClauseWith (R : PRepr) (k : Nat) (c : Clause T) : Clause T :=
  let body := normalizedBody R c
  ⟨(c.head.1, (R.tgtVars c.head.1).map .var), varSubstitute body (auxSubst k (localVars R c body)),
   (instances (c.body.map Prod.fst)).map fun q => (q.1, (R.srcVars q.1 q.2).map .var)⟩

/-- `Normalizer::normalize(ChClause)` (`src/Normalizer.cc:26-37`). -/
def normalizeClause (st : NState) (c : Clause T) : NState × Clause T :=
  let st1 := (st.ensure c.head.1 c.head.2.length).ensureAll c.body
  (⟨st1.reps, st1.counter + (localVars st1.repr c (normalizedBody st1.repr c)).length⟩,
   normClauseWith st1.repr st1.counter c)

def normalizeFrom (st : NState) : List (Clause T) → NState × List (Clause T)
  | [] => (st, [])
  | c :: cs =>
    let r := normalizeClause st c
    let rest := normalizeFrom r.1 cs
    (rest.1, r.2 :: rest.2)

/-- `Normalizer::normalize(ChcSystem)` (`src/Normalizer.cc:10-24`). -/
def normalize (cs : List (Clause T)) : NState × List (Clause T) := normalizeFrom NState.init cs

/-- One clause as an edge (`src/graph/ChcGraphBuilder.cc:17-27`). -/
def clauseEdge (id : Nat) (c : Clause T) : Edge T :=
  let from_ := c.body.map Prod.fst
  ⟨if from_.isEmpty then [.tru] else from_, c.head.1, c.constraint, id⟩

def buildFrom (id : Nat) : List (Clause T) → Graph T
  | [] => []
  | c :: cs => clauseEdge id c :: buildFrom (id + 1) cs

/-- `ChcGraphBuilder::buildGraph` (`src/graph/ChcGraphBuilder.cc:10-29`); ids are assigned by the graph constructor
(`src/graph/ChcGraph.h:255-263`). -/
def buildGraph (cs : List (Clause T)) : Graph T := buildFrom 0 cs

end Golem
