import Verif.Model.Frontend.Parse

/-!
Independent specification of the meaning of SMT-LIB terms and assertions: `let` binds in parallel, the innermost binding of a
name counts, quantifiers at the top range over all values. Nothing here mentions the parser's records or the clauses.
-/

namespace Golem
namespace Front
variable {T : Theory}

/-- The meaning of literals and of the names of the theory (including the Boolean connectives). -/
structure Sem (T : Theory) where
  lit : String → T.Val
  fn : String → List T.Val → T.Val

/-- A truth value as a value. -/
def ofB (b : Bool) : T.Val := if b then T.vT else T.vF

/-- An interpretation of the declared predicates. -/
abbrev Interp (T : Theory) := Nat → List T.Val → Bool

/-- The meaning of a name applied to values: a declared predicate, or a function of the theory. -/
def Sem.apply (M : Sem T) (D : Decls) (I : Interp T) (f : String) (vs : List T.Val) : T.Val :=
  match D.find f vs.length with
  | some p => ofB (I p vs)
  | none => M.fn f vs

section
variable (M : Sem T) (D : Decls) (I : Interp T)

mutual
/-- The value of a quantifier-free term, given the values of the bound names (the first entry for a name counts). -/
def Ast.den : Ast → List (String × T.Val) → T.Val
  | .num c, _ => M.lit c
  | .qid x, env => (env.lookup x).getD (M.apply D I x [])
  | .lqid f args, env => M.apply D I f (Ast.dens args env)
  | .letE names vals body, env => body.den (names.zip (Ast.dens vals env) ++ env)
  | .all _ _, _ => T.vF
  | .other, _ => T.vF

def Ast.dens : List Ast → List (String × T.Val) → List T.Val
  | [], _ => []
  | a :: as, env => a.den env :: Ast.dens as env
end

/-- An assertion holds: quantifiers at the top range over all values; of two variables with the same name the last counts. -/
def Ast.Holds : Ast → List (String × T.Val) → Prop
  | .all vs body, env => ∀ vals : List T.Val, vals.length = vs.length →
      body.Holds (((vs.map Prod.fst).zip vals).reverse ++ env)
  | a, env => T.truth (a.den M D I env) = true
end

/-- The variables quantified at the top. -/
def Ast.quantified : Ast → List (String × Srt)
  | .all vs body => vs ++ body.quantified
  | _ => []

/-- No Boolean variable quantified at the top has the name of a declared predicate without arguments. -/
def Ast.NoClash (D : Decls) (a : Ast) : Prop := ∀ v ∈ a.quantified, v.2 = boolSort → D.find v.1 0 = none

mutual
/-- The value of a term of the logic. -/
def PT.eval (I : Interp T) (ρ : String → Srt → T.Val) : PT T → T.Val
  | .var x s => ρ x s
  | .const v => v
  | .ap1 f a => T.ap1 f (a.eval I ρ)
  | .ap2 f a b => T.ap2 f (a.eval I ρ) (b.eval I ρ)
  | .ap3 f a b c => T.ap3 f (a.eval I ρ) (b.eval I ρ) (c.eval I ρ)
  | .pred p args => ofB (I p (PT.evals I ρ args))
  | .tt => T.vT
  | .ff => T.vF
  | .eq a b => ofB (decide (a.eval I ρ = b.eval I ρ))
  | .not a => ofB (!T.truth (a.eval I ρ))
  | .and ts => ofB ((PT.evals I ρ ts).all T.truth)
  | .or ts => ofB ((PT.evals I ρ ts).any T.truth)

def PT.evals (I : Interp T) (ρ : String → Srt → T.Val) : List (PT T) → List T.Val
  | [] => []
  | t :: ts => t.eval I ρ :: PT.evals I ρ ts
end

/-- A Boolean term holds. -/
def PT.Holds (I : Interp T) (ρ : String → Srt → T.Val) (t : PT T) : Prop := T.truth (t.eval I ρ) = true

mutual
/-- The predicates of a term, with the number of their arguments. -/
def PT.preds : PT T → List (Nat × Nat)
  | .pred p args => (p, args.length) :: PT.predsL args
  | .var _ _ | .const _ | .tt | .ff => []
  | .ap1 _ a | .not a => a.preds
  | .ap2 _ a b | .eq a b => a.preds ++ b.preds
  | .ap3 _ a b c => a.preds ++ b.preds ++ c.preds
  | .and ts | .or ts => PT.predsL ts

def PT.predsL : List (PT T) → List (Nat × Nat)
  | [] => []
  | t :: ts => t.preds ++ PT.predsL ts
end

mutual
/-- The arguments of predicates contain no predicates. -/
def PT.Plain : PT T → Prop
  | .pred _ args => PT.predsL args = []
  | .var _ _ | .const _ | .tt | .ff => True
  | .ap1 _ a | .not a => a.Plain
  | .ap2 _ a b | .eq a b => a.Plain ∧ b.Plain
  | .ap3 _ a b c => a.Plain ∧ b.Plain ∧ c.Plain
  | .and ts | .or ts => PT.PlainL ts

def PT.PlainL : List (PT T) → Prop
  | [] => True
  | t :: ts => t.Plain ∧ PT.PlainL ts
end

/-- What is expected of the logic: it builds terms with the right meaning out of the given ones. -/
structure Logic.Ok (L : Logic T) (M : Sem T) : Prop where
  lit : ∀ c, L.lit c = M.lit c
  theory : ∀ f args t, L.theory f args = some t → ∀ I ρ, t.eval I ρ = M.fn f (PT.evals I ρ args)
  mkAnd : ∀ ts I ρ, (L.mkAnd ts).Holds I ρ ↔ ∀ t ∈ ts, t.Holds I ρ
  mkOr : ∀ ts I ρ, (L.mkOr ts).Holds I ρ ↔ ∃ t ∈ ts, t.Holds I ρ
  theoryPreds : ∀ f args t, L.theory f args = some t → (∀ q ∈ t.preds, q ∈ PT.predsL args) ∧ (PT.PlainL args → t.Plain)
  mkAndPreds : ∀ ts, (∀ q ∈ (L.mkAnd ts).preds, q ∈ PT.predsL ts) ∧ (PT.PlainL ts → (L.mkAnd ts).Plain)
  mkOrPreds : ∀ ts, (∀ q ∈ (L.mkOr ts).preds, q ∈ PT.predsL ts) ∧ (PT.PlainL ts → (L.mkOr ts).Plain)

end Front
end Golem
