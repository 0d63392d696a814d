import Verif.Spec.Script
import Verif.Model.Frontend.Clause

/-! Specification for the translation of assertions into clauses: what a clause says, and which terms are Horn clauses. -/

namespace Golem
namespace Front
variable {T : Theory}

/-- What a clause says under a valuation. -/
def PClause.Holds (I : Interp T) (ρ : String → Srt → T.Val) (c : PClause T) : Prop :=
  (∀ b ∈ c.body, b.Holds I ρ) → c.constraint.Holds I ρ → c.head.Holds I ρ

/-- The term is the application of a declared predicate. -/
def PT.Declared (known : List Nat) (t : PT T) : Prop := ∃ p args, t = .pred p args ∧ p ∈ known

/-- A clause of the right form: the head is a predicate or `false`, the body consists of predicates, the constraint contains
none. -/
structure PClause.Horn (known : List Nat) (c : PClause T) : Prop where
  head : c.head = .ff ∨ c.head.Declared known
  body : ∀ b ∈ c.body, b.Declared known
  constraint : ∀ q ∈ c.constraint.preds, q.1 ∉ known

/-- `Disjunct s t s' d`: read as a disjunction, the formula `t` (`s = true`) or `¬t` (`s = false`) has the disjunct `d`
(`s' = true`) or `¬d` (`s' = false`), where `d` is no negation. -/
inductive Disjunct : Bool → PT T → Bool → PT T → Prop where
  | not {s t s' d} (h : Disjunct (!s) t s' d) : Disjunct s (.not t) s' d
  | or {ts t s' d} (ht : t ∈ ts) (h : Disjunct true t s' d) : Disjunct true (.or ts) s' d
  | and {ts t s' d} (ht : t ∈ ts) (h : Disjunct false t s' d) : Disjunct false (.and ts) s' d
  | atom {s t} (h1 : ∀ u, t ≠ .not u) (h2 : ∀ us, s = true → t ≠ .or us) (h3 : ∀ us, s = false → t ≠ .and us) :
      Disjunct s t s t

/-- A disjunction that is a Horn clause: at most one disjunct is a predicate, and predicates occur nowhere but as disjuncts
and negated disjuncts. -/
structure PT.HornTerm (known : List Nat) (t : PT T) : Prop where
  one : ∀ d d', Disjunct true t true d → Disjunct true t true d' → d.Declared known → d'.Declared known → d = d'
  rest : ∀ s d, Disjunct true t s d → d.Declared known ∨ ∀ q ∈ d.preds, q.1 ∉ known

end Front
end Golem
