import Verif.Model.SExpr
import Verif.Spec.Script

/-!
Specification of VMT files: the meaning of the definitions, the transition system a file describes, and when its property
holds. A file is a list of S-expressions; every definition carries at most one of the annotations of the format.
-/

namespace Golem
namespace Vmt
open SExpr (SExp)
open Front (ofB)
variable {T : Theory}

/-- The operators of arithmetic and the numerals. -/
structure VSem (T : Theory) where
  num : List Char → Option T.Val
  leq : List T.Val → T.Val
  plus : List T.Val → T.Val
  neg : T.Val → T.Val
  minus : List T.Val → T.Val
  times : List T.Val → T.Val

/-- All values of a list are equal. -/
def allEq : List T.Val → Bool
  | a :: b :: l => decide (a = b) && allEq (b :: l)
  | _ => true

/-- The value of an operator. -/
def VSem.apply (M : VSem T) (op : List Char) (vs : List T.Val) : Option T.Val :=
  if op = "and".toList then some (ofB (vs.all T.truth))
  else if op = "or".toList then some (ofB (vs.any T.truth))
  else if op = "not".toList then (match vs with | [v] => some (ofB (!T.truth v)) | _ => none)
  else if op = "=".toList then some (ofB (allEq vs))
  else if op = "<=".toList then some (M.leq vs)
  else if op = "+".toList then some (M.plus vs)
  else if op = "-".toList then some (match vs with | [v] => M.neg v | vs => M.minus vs)
  else if op = "*".toList then some (M.times vs)
  else none

mutual
/-- The value of a term, given the values of the names. -/
def value (M : VSem T) (env : List Char → Option T.Val) : SExp → Option T.Val
  | .atom s => match env s with
    | some v => some v
    | none => M.num s
  | .list (.atom op :: args) => (values M env args).bind (M.apply op)
  | .list _ => none

def values (M : VSem T) (env : List Char → Option T.Val) : List SExp → Option (List T.Val)
  | [] => some []
  | e :: es => (value M env e).bind fun v => (values M env es).bind fun vs => some (v :: vs)
end

/-- What a definition is for. -/
inductive Role where
  | plain | init | trans | next (x : List Char) | invar (i : List Char) | live (i : List Char)
deriving DecidableEq

/-- The term of a definition and its role: `(! t :init)` or `(! t :init true)`, `(! t :trans)` or `(! t :trans true)`,
`(! t :next x)`, `(! t :invar-property i)`, `(! t :live-property i)`, or a term without annotation. -/
inductive Body : SExp → SExp → Role → Prop where
  | plain {op args} (h : op ≠ "!".toList) : Body (.list (.atom op :: args)) (.list (.atom op :: args)) .plain
  | init {t} : Body (.list [.atom "!".toList, t, .atom ":init".toList]) t .init
  | initTrue {t} : Body (.list [.atom "!".toList, t, .atom ":init".toList, .atom "true".toList]) t .init
  | trans {t} : Body (.list [.atom "!".toList, t, .atom ":trans".toList]) t .trans
  | transTrue {t} : Body (.list [.atom "!".toList, t, .atom ":trans".toList, .atom "true".toList]) t .trans
  | next {x y} : Body (.list [.atom "!".toList, .atom x, .atom ":next".toList, .atom y]) (.atom x) (.next y)
  | invar {t i} : Body (.list [.atom "!".toList, t, .atom ":invar-property".toList, .atom i]) t (.invar i)
  | live {t i} : Body (.list [.atom "!".toList, t, .atom ":live-property".toList, .atom i]) t (.live i)

/-- A definition: name, term and role. -/
structure Def where
  name : List Char
  term : SExp
  role : Role

/-- `Command e vs ds`: the command `e` declares the variables `vs` and makes the definitions `ds`. -/
inductive Command : SExp → List (List Char × List Char) → List Def → Prop where
  | declare {x ty} : Command (.list [.atom "declare-fun".toList, .atom x, .list [], .atom ty]) [(x, ty)] []
  | define {x ty b t r} (h : Body b t r) :
      Command (.list [.atom "define-fun".toList, .atom x, .list [], .atom ty, b]) [] [⟨x, t, r⟩]
  | info {es} : Command (.list (.atom "set-info".toList :: es)) [] []

/-- The contents of a file: its variables (name and type) and its definitions, in order. -/
inductive Contents : List SExp → List (List Char × List Char) → List Def → Prop where
  | nil : Contents [] [] []
  | cons {e es vs ds vs' ds'} (h : Command e vs ds) (hs : Contents es vs' ds') : Contents (e :: es) (vs ++ vs') (ds ++ ds')

/-- The values of the definitions, given the values of the variables: a definition may use those before it. A variable hides a
definition of the same name, an earlier definition a later one. -/
def defValues (M : VSem T) (isVar : List Char → Bool) (ρ : List Char → T.Val) :
    List Def → List (List Char × T.Val) → Option (List (Role × T.Val))
  | [], _ => some []
  | d :: ds, env =>
    (value M (fun s => if isVar s then some (ρ s) else env.lookup s) d.term).bind fun v =>
      (defValues M isVar ρ ds (env ++ [(d.name, v)])).bind fun vs => some ((d.role, v) :: vs)

/-- The definition with role `r` is true. -/
def Holds (M : VSem T) (vars : List (List Char)) (ds : List Def) (r : Role) (ρ : List Char → T.Val) : Prop :=
  ∃ vs v, defValues M (vars.contains ·) ρ ds [] = some vs ∧ (r, v) ∈ vs ∧ T.truth v = true

/-- The pairs of a state variable and its next-state variable. -/
def statePairs : List Def → List (List Char × List Char)
  | [] => []
  | d :: ds =>
    match d.term, d.role with
    | .atom x, .next y => (x, y) :: statePairs ds
    | _, _ => statePairs ds

/-- The states reachable in the system of a file: a state is the tuple of the values of the state variables. The values of all
other variables are arbitrary in every step. -/
inductive Reach (M : VSem T) (vars : List (List Char)) (ds : List Def) : List T.Val → Prop where
  | init {ρ : List Char → T.Val} (h : Holds M vars ds .init ρ) : Reach M vars ds ((statePairs ds).map fun p => ρ p.1)
  | step {ρ : List Char → T.Val} (hr : Reach M vars ds ((statePairs ds).map fun p => ρ p.1)) (h : Holds M vars ds .trans ρ) :
      Reach M vars ds ((statePairs ds).map fun p => ρ p.2)

/-- The property with role `r` is true in every reachable state. -/
def Safe (M : VSem T) (vars : List (List Char)) (ds : List Def) (r : Role) : Prop :=
  ∀ ρ : List Char → T.Val, Reach M vars ds ((statePairs ds).map fun p => ρ p.1) → Holds M vars ds r ρ

/-- `Visits … s₀ s n`: a run from the initial state `s₀` to the state `s`; in `n` of its steps the definition with role `r` is
true. -/
inductive Visits (M : VSem T) (vars : List (List Char)) (ds : List Def) (r : Role) : List T.Val → List T.Val → Nat → Prop where
  | init {ρ : List Char → T.Val} (h : Holds M vars ds .init ρ) :
      Visits M vars ds r ((statePairs ds).map fun p => ρ p.1) ((statePairs ds).map fun p => ρ p.1) 0
  | hit {s0 : List T.Val} {n : Nat} {ρ : List Char → T.Val} (hv : Visits M vars ds r s0 ((statePairs ds).map fun p => ρ p.1) n)
      (h : Holds M vars ds .trans ρ) (hp : Holds M vars ds r ρ) : Visits M vars ds r s0 ((statePairs ds).map fun p => ρ p.2) (n + 1)
  | miss {s0 : List T.Val} {n : Nat} {ρ : List Char → T.Val} (hv : Visits M vars ds r s0 ((statePairs ds).map fun p => ρ p.1) n)
      (h : Holds M vars ds .trans ρ) (hp : ¬ Holds M vars ds r ρ) : Visits M vars ds r s0 ((statePairs ds).map fun p => ρ p.2) n

/-- An infinite run: the valuations of its steps. -/
structure InfRun (M : VSem T) (vars : List (List Char)) (ds : List Def) (ρ : Nat → List Char → T.Val) : Prop where
  init : Holds M vars ds .init (ρ 0)
  trans : ∀ k, Holds M vars ds .trans (ρ k)
  linked : ∀ k, (statePairs ds).map (fun p => ρ (k + 1) p.1) = (statePairs ds).map fun p => ρ k p.2

/-- The property with role `r` is, on every infinite run, true from some point on (`F G`): the meaning of `:live-property` in the
VMT format. -/
def EventuallyAlways (M : VSem T) (vars : List (List Char)) (ds : List Def) (r : Role) : Prop :=
  ∀ ρ, InfRun M vars ds ρ → ∃ N, ∀ k, N ≤ k → Holds M vars ds r (ρ k)

/-- The property with role `r` is, on every infinite run, false from some point on. -/
def EventuallyNever (M : VSem T) (vars : List (List Char)) (ds : List Def) (r : Role) : Prop :=
  ∀ ρ, InfRun M vars ds ρ → ∃ N, ∀ k, N ≤ k → ¬ Holds M vars ds r (ρ k)

/-- Exactly one definition has role `r`. -/
def Once (ds : List Def) (r : Role) : Prop := (ds.filter fun d => d.role = r).length = 1

/-- A file of the format with one property, of role `r`: one definition of the initial states, one of the transition relation
and one property; the state and next-state variables are declared. -/
structure Problem (file : List SExp) (vars : List (List Char × List Char)) (ds : List Def) (r : Role) : Prop where
  contents : Contents file vars ds
  init : Once ds .init
  trans : Once ds .trans
  prop : Once ds r
  only : ∀ d ∈ ds, (∀ i, d.role = .invar i → Role.invar i = r) ∧ ∀ i, d.role = .live i → Role.live i = r
  declared : ∀ d ∈ ds, ∀ y, d.role = .next y → y ∈ vars.map Prod.fst ∧ ∃ x, d.term = .atom x ∧ x ∈ vars.map Prod.fst

end Vmt
end Golem
