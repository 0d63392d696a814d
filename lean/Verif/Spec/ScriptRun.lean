import Verif.Spec.HornTerm
import Verif.Model.Frontend.Script

/-! Specification for scripts: the declarations and assertions of a script, and which assertions are in the scope. -/

namespace Golem
namespace Front
variable {T : Theory}

/-- The symbol a command declares: its result is Boolean and the sorts of its arguments are known. -/
def Cmd.declares : Cmd → Option (String × Nat)
  | .declareFun f args ret => if ret = some boolSort ∧ ∀ a ∈ args, a ≠ none then some (f, args.length) else none
  | _ => none

/-- The symbols declared by a script, in the order of their first declaration. -/
def declarations (cmds : List Cmd) : Decls :=
  (cmds.filterMap Cmd.declares).foldl (fun D d => if d ∈ D then D else D ++ [d]) []

/-- The assertions of a script. -/
def assertions (cmds : List Cmd) : List Ast :=
  cmds.filterMap fun c => match c with
    | .assert a => some a
    | _ => none

/-- The assertions have a model: an interpretation of the declared predicates that makes them all true. -/
def AssertionsSat (M : Sem T) (D : Decls) (as : List Ast) : Prop :=
  ∃ I : Interp T, ∀ a ∈ as, a.Holds M D I []

mutual
/-- Whether a term contains a declared predicate, given for every bound name whether what it stands for does. -/
def Ast.usesPred (D : Decls) : Ast → List (String × Bool) → Bool
  | .num _, _ => false
  | .qid x, env => (env.lookup x).getD (D.find x 0).isSome
  | .lqid f args, env => (D.find f args.length).isSome || (Ast.usePreds D args env).any id
  | .letE names vals body, env => body.usesPred D (names.zip (Ast.usePreds D vals env) ++ env)
  | .all vs body, env => body.usesPred D ((vs.map fun v => (v.1, false)) ++ env)
  | .other, _ => false

def Ast.usePreds (D : Decls) : List Ast → List (String × Bool) → List Bool
  | [], _ => []
  | a :: as, env => a.usesPred D env :: Ast.usePreds D as env
end

mutual
/-- No declared predicate occurs in an argument of a declared predicate. -/
def Ast.Clean (D : Decls) : Ast → List (String × Bool) → Prop
  | .num _, _ => True
  | .qid _, _ => True
  | .lqid f args, env => Ast.Cleans D args env ∧ ((D.find f args.length).isSome → ∀ b ∈ Ast.usePreds D args env, b = false)
  | .letE names vals body, env => Ast.Cleans D vals env ∧ body.Clean D (names.zip (Ast.usePreds D vals env) ++ env)
  | .all vs body, env => body.Clean D ((vs.map fun v => (v.1, false)) ++ env)
  | .other, _ => True

def Ast.Cleans (D : Decls) : List Ast → List (String × Bool) → Prop
  | [], _ => True
  | a :: as, env => a.Clean D env ∧ Ast.Cleans D as env
end

/-- The names of declared predicates are not names of the theory. -/
def Logic.Apart (L : Logic T) (D : Decls) : Prop := ∀ f n, (f, n) ∈ D → ∀ ts, ts.length = n → L.theory f ts = none

/-- What is expected of the Boolean connectives on terms. -/
structure BoolTerms.Ok (B : BoolTerms T) : Prop where
  not1 : ∀ a μ, (B.not1 a).eval μ = ofB (!T.truth (a.eval μ))
  and2 : ∀ a b μ, (B.and2 a b).eval μ = ofB (T.truth (a.eval μ) && T.truth (b.eval μ))
  or2 : ∀ a b μ, (B.or2 a b).eval μ = ofB (T.truth (a.eval μ) || T.truth (b.eval μ))
  eq2 : ∀ a b μ, (B.eq2 a b).eval μ = ofB (decide (a.eval μ = b.eval μ))
  vars : ∀ a b x, (x ∈ (B.not1 a).vars → x ∈ a.vars) ∧ (x ∈ (B.and2 a b).vars → x ∈ a.vars ∨ x ∈ b.vars) ∧
    (x ∈ (B.or2 a b).vars → x ∈ a.vars ∨ x ∈ b.vars) ∧ (x ∈ (B.eq2 a b).vars → x ∈ a.vars ∨ x ∈ b.vars)

end Front
end Golem
