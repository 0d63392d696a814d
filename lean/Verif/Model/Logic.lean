/-
Terms and formulas: the part of OpenSMT's term layer the rest of golem is written against.

Models: `src/include/osmt_terms.h` (PTRef terms, `logic.mk*`), `src/TermUtils.h:49-57` (`varSubstitute`),
`src/TermUtils.h:25` (`getVars`).  Simplifications: binary connectives, one value domain, function symbols of
arity at most three, constructors that do not simplify.
-/

namespace Golem

/-- Theory: an arbitrary value domain with arbitrary functions on it (OpenSMT's `Logic`, which golem treats as an
opaque service: `src/include/osmt_terms.h`). `truth` is the reading of a value as a Boolean. -/
structure Theory where
  Val : Type
  Sym : Type
  decVal : DecidableEq Val
  decSym : DecidableEq Sym
  ap1 : Sym → Val → Val
  ap2 : Sym → Val → Val → Val
  ap3 : Sym → Val → Val → Val → Val
  truth : Val → Bool
  vT : Val
  vF : Val
  truth_vT : truth vT = true
  truth_vF : truth vF = false

instance (T : Theory) : DecidableEq T.Val := T.decVal
instance (T : Theory) : DecidableEq T.Sym := T.decSym
instance (T : Theory) : Inhabited T.Val := ⟨T.vT⟩

/-- Base names of variables. The C++ code builds them as strings:
`user` input names; `pr k` = `"x#k"` (`src/Normalizer.h:47`); `aux k` = `"aux#k"` (`src/Normalizer.cc:65`);
`gaux k` = `"gaux#k"` (`src/graph/ChcGraph.cc:310`); `auxg k` = `"aux#g#k"` (`src/graph/ChcGraph.h:330`);
`loc p` = `".loc_p"`, `arg p i` = `".arg_p_i"` (`src/graph/ChcGraph.cc:592,600`);
`et k` = `"golem::et::aux" k` (`src/transformers/CommonUtils.h:95`); `ei i` = `"$ei" i`
(`src/transformers/EdgeInliner.cc:246`); `bmc p k` = `"golem_bmc" p '#' k` (`src/engine/Bmc.cc:79`);
`act k` = `".act" k` (`src/utils/SmtSolver.cc:72`); `trlId` = `"trl_id"`, `trlLc k` = `"trl_lc" k`, `trlDiff i` =
`"trl::diff" i` (`src/engine/TRL.cc:47, 449, 274`); `paux k` = `"paux#k"` (`src/engine/ArgBasedEngine.cc:702`). The string encoding is treated in `Verif.Model.Names`. -/
inductive Name where
  | user (s : String)
  | pr (k : Nat)
  | aux (k : Nat)
  | gaux (k : Nat)
  | auxg (k : Nat)
  | loc (p : Nat)
  | arg (p i : Nat)
  | et (k : Nat)
  | ei (i : Nat)
  | bmc (p k : Nat)
  | act (k : Nat)
  | trlId
  | trlLc (k : Nat)
  | trlDiff (i : Nat)
  | paux (k : Nat)
deriving DecidableEq, Repr, Inhabited

/-- Variables: a base name with the tag golem encodes into the string (`src/TermUtils.h:180-383`):
`base n` = `n`, `src n i` = `n__s##i`, `tgt n` = `n__t`, `ver n k` = `n##k`. -/
inductive Var where
  | base (n : Name)
  | src (n : Name) (i : Int)
  | tgt (n : Name)
  | ver (n : Name) (k : Int)
deriving DecidableEq, Repr, Inhabited

/-- Terms (PTRef of non-Boolean or Boolean-variable kind). -/
inductive Tm (T : Theory) where
  | var (x : Var)
  | const (v : T.Val)
  | ap1 (f : T.Sym) (a : Tm T)
  | ap2 (f : T.Sym) (a b : Tm T)
  | ap3 (f : T.Sym) (a b c : Tm T)
deriving DecidableEq

/-- Formulas (PTRef of sort Bool). `atom t` is a Boolean term used as a formula; `iff` is Boolean equality. -/
inductive Fla (T : Theory) where
  | tt
  | ff
  | atom (t : Tm T)
  | eq (a b : Tm T)
  | not (f : Fla T)
  | and (f g : Fla T)
  | or (f g : Fla T)
  | iff (f g : Fla T)
deriving DecidableEq

variable {T : Theory}

abbrev Valuation (T : Theory) := Var → T.Val

/-- Value of a term (`Model::evaluate`). -/
def Tm.eval (ρ : Valuation T) : Tm T → T.Val
  | .var x => ρ x
  | .const v => v
  | .ap1 f a => T.ap1 f (a.eval ρ)
  | .ap2 f a b => T.ap2 f (a.eval ρ) (b.eval ρ)
  | .ap3 f a b c => T.ap3 f (a.eval ρ) (b.eval ρ) (c.eval ρ)

/-- Truth of a formula under a valuation. -/
def Fla.holds (ρ : Valuation T) : Fla T → Prop
  | .tt => True
  | .ff => False
  | .atom t => T.truth (t.eval ρ) = true
  | .eq a b => a.eval ρ = b.eval ρ
  | .not f => ¬ f.holds ρ
  | .and f g => f.holds ρ ∧ g.holds ρ
  | .or f g => f.holds ρ ∨ g.holds ρ
  | .iff f g => (f.holds ρ ↔ g.holds ρ)

instance Fla.decHolds (ρ : Valuation T) : (f : Fla T) → Decidable (f.holds ρ)
  | .tt => isTrue trivial
  | .ff => isFalse id
  | .atom t => inferInstanceAs (Decidable (T.truth (t.eval ρ) = true))
  | .eq a b => inferInstanceAs (Decidable (a.eval ρ = b.eval ρ))
  | .not f => @instDecidableNot _ (decHolds ρ f)
  | .and f g => @instDecidableAnd _ _ (decHolds ρ f) (decHolds ρ g)
  | .or f g => @instDecidableOr _ _ (decHolds ρ f) (decHolds ρ g)
  | .iff f g => @instDecidableIff _ _ (decHolds ρ f) (decHolds ρ g)

/-- Variables of a term (`TermUtils::getVars`, `src/TermUtils.h:29`). -/
def Tm.vars : Tm T → List Var
  | .var x => [x]
  | .const _ => []
  | .ap1 _ a => a.vars
  | .ap2 _ a b => a.vars ++ b.vars
  | .ap3 _ a b c => a.vars ++ b.vars ++ c.vars

def Fla.vars : Fla T → List Var
  | .tt => []
  | .ff => []
  | .atom t => t.vars
  | .eq a b => a.vars ++ b.vars
  | .not f => f.vars
  | .and f g => f.vars ++ g.vars
  | .or f g => f.vars ++ g.vars
  | .iff f g => f.vars ++ g.vars

/-- Simultaneous substitution of terms for variables (`Substitutor::rewrite`, used by
`TermUtils::varSubstitute`, `src/TermUtils.h:49-57`). -/
def Tm.subst (σ : Var → Tm T) : Tm T → Tm T
  | .var x => σ x
  | .const v => .const v
  | .ap1 f a => .ap1 f (a.subst σ)
  | .ap2 f a b => .ap2 f (a.subst σ) (b.subst σ)
  | .ap3 f a b c => .ap3 f (a.subst σ) (b.subst σ) (c.subst σ)

def Fla.subst (σ : Var → Tm T) : Fla T → Fla T
  | .tt => .tt
  | .ff => .ff
  | .atom t => .atom (t.subst σ)
  | .eq a b => .eq (a.subst σ) (b.subst σ)
  | .not f => .not (f.subst σ)
  | .and f g => .and (f.subst σ) (g.subst σ)
  | .or f g => .or (f.subst σ) (g.subst σ)
  | .iff f g => .iff (f.subst σ) (g.subst σ)

/-- `TermUtils::substitutions_map` (`src/TermUtils.h:23`): a finite map. Entries are appended; the first entry for a key
counts, which is exactly `unordered_map::insert` (no effect when the key is present). -/
abbrev SubstMap (T : Theory) := List (Var × Tm T)

def SubstMap.find (m : SubstMap T) (x : Var) : Option (Tm T) := List.lookup x m

def SubstMap.fn (m : SubstMap T) (x : Var) : Tm T := (m.find x).getD (.var x)

/-- `TermUtils::varSubstitute` (`src/TermUtils.h:49-57`). -/
def varSubstitute (f : Fla T) (m : SubstMap T) : Fla T := f.subst m.fn

/-- Renaming of variables: `Rewriter` with a config that only maps variables
(`TimeMachine::sendFlaThroughTime`, `VersionManager::rewrite`, `src/TermUtils.h:185-206,327-330`). -/
def Fla.rename (r : Var → Var) (f : Fla T) : Fla T := f.subst (fun x => .var (r x))

def Tm.rename (r : Var → Var) (t : Tm T) : Tm T := t.subst (fun x => .var (r x))

/-- `logic.mkAnd(vec)`. -/
def Fla.conj : List (Fla T) → Fla T
  | [] => .tt
  | f :: fs => .and f (Fla.conj fs)

/-- `logic.mkOr(vec)`. -/
def Fla.disj : List (Fla T) → Fla T
  | [] => .ff
  | f :: fs => .or f (Fla.disj fs)

def Fla.imp (f g : Fla T) : Fla T := .or (.not f) g

/-- A formula depends only on the variables in `S`. -/
def Fla.DependsOn (f : Fla T) (S : Var → Prop) : Prop :=
  ∀ ρ ρ' : Valuation T, (∀ x, S x → ρ x = ρ' x) → (f.holds ρ ↔ f.holds ρ')

end Golem
