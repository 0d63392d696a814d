import Verif.Model.Proofs.ProofText
import Verif.Props.AletheEx
import Verif.Props.WitnessPrint

/-!
C83: the text of an Alethe proof.
-/

namespace Golem
namespace Alethe

open SExpr
open Names (showNat)
open LetPrint (Reads delim_sp delim_rp lex_sp lex_lp lex_rp)
open WitnessPrint (lex_nl plain_showNat)

/-! ### Specification: steps as expressions -/

mutual
/-- A term as an expression. -/
def termExp : Term → SExp
  | .num n => if n < 0 then .list [.atom ['-'], .atom (showNat n.natAbs)] else .atom (showNat n.natAbs)
  | .bool b => .atom (boolText b)
  | .var s _ => .atom s
  | .name s => .atom (nameText s)
  | .op o args => .list (.atom (opText o) :: termExps args)
  | .app f args => .list (.atom f :: termExps args)
  | .named t s => .list [.atom ['!'], termExp t, .atom ":named".toList, .atom (nameText s)]
  | .all xs b => .list [.atom "forall".toList, .list (xs.map fun x => .list [.atom x.1, .atom (sortText x.2)]), termExp b]
def termExps : List Term → List SExp
  | [] => []
  | t :: l => termExp t :: termExps l
end

/-- A step as an expression: `(assume t0 F)` or `(step t5 (cl F …) :rule r :premises (t1 …) :args (c …))`. -/
def stepExp (k : Nat) (s : Step) : SExp :=
  .list (.atom (if s.assume then "assume".toList else "step".toList) :: .atom ('t' :: showNat k) ::
    ((if s.assume then termExps s.clause else [.list (.atom ['c', 'l'] :: termExps s.clause)]) ++
    ((if s.rule = " " then [] else [.atom ":rule".toList, .atom s.rule.toList]) ++
    ((if s.premises = [] then [] else [.atom ":premises".toList, .list (s.premises.map fun p => .atom ('t' :: showNat p))]) ++
    (if s.args = [] then [] else [.atom ":args".toList, .list (termExps s.args)])))))

def proofExp : Nat → List Step → List SExp
  | _, [] => []
  | k, s :: l => stepExp k s :: proofExp (k + 1) l

mutual
/-- The names of variables and predicates are read as single symbols. -/
def Named : Term → Prop
  | .var s _ => Reads s (.atom s)
  | .op _ args => Nameds args
  | .app f args => Reads f (.atom f) ∧ Nameds args
  | .named t _ => Named t
  | .all xs b => (∀ x ∈ xs, Reads x.1 (.atom x.1)) ∧ Named b
  | _ => True
def Nameds : List Term → Prop
  | [] => True
  | t :: l => Named t ∧ Nameds l
end

def NamedStep (s : Step) : Prop := Nameds s.clause ∧ Nameds s.args ∧ (s.rule = " " ∨ PlainWord s.rule.toList)

/-! ### Specification: names that cannot be taken for something else -/

/-- A variable is not a number, a truth value or a name of the proof. -/
def VarName (s : Str) : Prop := s ≠ boolText true ∧ s ≠ boolText false ∧ ∀ c r, s = c :: r → c ≠ '@' ∧ Names.isDigit c = false

/-- A predicate is not an operator, a quantifier or the sign for names. -/
def PredName (f : Str) : Prop := (∀ o, f ≠ opText o) ∧ f ≠ ['!'] ∧ f ≠ "forall".toList

mutual
/-- Names are as above, every variable has one sort, and subtraction has two arguments. -/
def Clear (sortOf : Str → Sort') : Term → Prop
  | .var s k => k = sortOf s ∧ VarName s
  | .op o args => (o = .sub → args.length = 2) ∧ Clears sortOf args
  | .app f args => PredName f ∧ Clears sortOf args
  | .named t _ => Clear sortOf t
  | .all _ b => Clear sortOf b
  | _ => True
def Clears (sortOf : Str → Sort') : List Term → Prop
  | [] => True
  | t :: l => Clear sortOf t ∧ Clears sortOf l
end

/-- So for all terms of a step; an assumption is one formula. -/
def ClearStep (sortOf : Str → Sort') (s : Step) : Prop :=
  Clears sortOf s.clause ∧ Clears sortOf s.args ∧ (s.assume = true → ∃ t, s.clause = [t])

/-! ### Reading -/

/-- The text goes on with a blank or a parenthesis. -/
def Tail (X : Str) : Prop := ∃ d t, X = d :: t ∧ (isWhiteSpace d = true ∨ d = '(' ∨ d = ')')

theorem reads_tail {w : Str} {e : SExp} (h : Reads w e) {X : Str} (hX : Tail X) : lex .idle (w ++ X) = e.toks ++ lex .idle X := by
  obtain ⟨d, t, rfl, hd⟩ := hX
  exact h d hd t

theorem reads_word {w : Str} (h : PlainWord w) : Reads w (.atom w) := fun _ hd r => lex_plain_word h hd r

theorem tail_sp (X : Str) : Tail (' ' :: X) := ⟨_, _, rfl, delim_sp⟩
theorem tail_rp (X : Str) : Tail (')' :: X) := ⟨_, _, rfl, delim_rp⟩

theorem reads_showNat (n : Nat) : Reads (showNat n) (.atom (showNat n)) := reads_word (plain_showNat n)

theorem plain_append {p : Str} (hp : PlainWord p) (n : Nat) : PlainWord (p ++ showNat n) := by
  obtain ⟨h1, h2, h3⟩ := hp
  obtain ⟨-, -, g3⟩ := plain_showNat n
  refine ⟨by simp [h1], ?_, fun c hc => ?_⟩
  · cases p with
    | nil => exact absurd rfl h1
    | cons a p => exact h2
  · rcases List.mem_append.1 hc with h | h
    · exact h3 c h
    · exact g3 c h

theorem reads_stepId (k : Nat) : Reads (stepId k) (.atom ('t' :: showNat k)) :=
  reads_word (plain_append (p := ['t']) (by unfold PlainWord; decide +kernel) k)

theorem reads_name (s : Name) : Reads (nameText s) (.atom (nameText s)) := by
  refine reads_word ?_
  cases s with
  | a n => exact plain_append (p := ['@', 'a']) (by unfold PlainWord; decide +kernel) n
  | i n => exact plain_append (p := ['@', 'i']) (by unfold PlainWord; decide +kernel) n
  | lhs n => exact plain_append (p := ['@', 'L', 'H', 'S']) (by unfold PlainWord; decide +kernel) n
  | t n => exact plain_append (p := ['@', 'T']) (by unfold PlainWord; decide +kernel) n

theorem reads_op (o : OpSym) : Reads (opText o) (.atom (opText o)) := by
  refine reads_word ?_
  cases o <;> (unfold PlainWord; decide +kernel)

theorem reads_sort (k : Sort') : Reads (sortText k) (.atom (sortText k)) := by
  refine reads_word ?_
  cases k <;> (unfold PlainWord; decide +kernel)

theorem reads_bool (b : Bool) : Reads (boolText b) (.atom (boolText b)) := by
  refine reads_word ?_
  cases b <;> (unfold PlainWord; decide +kernel)

/-- From tails to `Reads`. -/
theorem reads_of {w : Str} {e : SExp} (h : ∀ X, Tail X → lex .idle (w ++ X) = e.toks ++ lex .idle X) : Reads w e := fun d hd r => h _ ⟨d, r, rfl, hd⟩

theorem tokss_map_append (l l' : List SExp) : SExp.tokss (l ++ l') = SExp.tokss l ++ SExp.tokss l' := by
  induction l with
  | nil => rfl
  | cons a l ih => simp only [List.cons_append, SExp.tokss, ih, List.append_assoc]

theorem joined_lex {α : Type} (f : α → Str) (g : α → SExp) : ∀ (l : List α), (∀ a ∈ l, Reads (f a) (g a)) → ∀ X, Tail X →
    lex .idle (joined (l.map f) ++ X) = SExp.tokss (l.map g) ++ lex .idle X
  | [], _, _, _ => rfl
  | [a], h, X, hX => by
    simp only [List.map_cons, List.map_nil, joined, SExp.tokss, List.append_nil]
    exact reads_tail (h a (by simp)) hX
  | a :: b :: l, h, X, hX => by
    have ih := joined_lex f g (b :: l) (fun x hx => h x (by simp [hx])) X hX
    rw [List.map_cons, List.map_cons, joined, List.append_assoc, List.cons_append, reads_tail (h a (by simp)) (tail_sp _), lex_sp]
    rw [← List.map_cons, ih]
    simp only [List.map_cons, SExp.tokss, List.append_assoc]

theorem reads_bound {x : Str × Sort'} (h : Reads x.1 (.atom x.1)) : Reads (boundText x) (.list [.atom x.1, .atom (sortText x.2)]) := by
  refine reads_of fun X hX => ?_
  have e : boundText x ++ X = '(' :: (x.1 ++ (' ' :: (sortText x.2 ++ (')' :: X)))) := by simp [boundText]
  rw [e, lex_lp, reads_tail h (tail_sp _), lex_sp, reads_tail (reads_sort _) (tail_rp _), lex_rp]
  simp [SExp.toks, SExp.tokss]

mutual
theorem reads_term : ∀ t : Term, Named t → Reads (termText t) (termExp t)
  | .num n, _ => by
    simp only [termText, numText, termExp]
    split
    · refine reads_of fun X hX => ?_
      have e : ('(' :: '-' :: ' ' :: (showNat n.natAbs ++ [')'])) ++ X = '(' :: (['-'] ++ (' ' :: (showNat n.natAbs ++ (')' :: X)))) := by simp
      rw [e, lex_lp, reads_tail (reads_word (w := ['-']) (by unfold PlainWord; decide +kernel)) (tail_sp _), lex_sp, reads_tail (reads_showNat _) (tail_rp _), lex_rp]
      simp [SExp.toks, SExp.tokss]
    · exact reads_showNat _
  | .bool b, _ => by simp only [termText, termExp]; exact reads_bool b
  | .var s k, h => by simp only [termText, termExp]; exact h
  | .name s, _ => by simp only [termText, termExp]; exact reads_name s
  | .op o args, h => by
    simp only [Named] at h
    refine reads_of fun X hX => ?_
    have e : termText (.op o args) ++ X = '(' :: (opText o ++ (argsText args ++ ')' :: X)) := by simp [termText]
    have ht : Tail (argsText args ++ ')' :: X) := by
      cases args with
      | nil => exact tail_rp _
      | cons a l => exact tail_sp _
    rw [e, lex_lp, reads_tail (reads_op o) ht, reads_args args h _ (tail_rp _), lex_rp]
    simp [termExp, SExp.toks, SExp.tokss]
  | .app f args, h => by
    simp only [Named] at h
    refine reads_of fun X hX => ?_
    have e : termText (.app f args) ++ X = '(' :: (f ++ (argsText args ++ ')' :: X)) := by simp [termText]
    have ht : Tail (argsText args ++ ')' :: X) := by
      cases args with
      | nil => exact tail_rp _
      | cons a l => exact tail_sp _
    rw [e, lex_lp, reads_tail h.1 ht, reads_args args h.2 _ (tail_rp _), lex_rp]
    simp [termExp, SExp.toks, SExp.tokss]
  | .named t s, h => by
    simp only [Named] at h
    refine reads_of fun X hX => ?_
    have e : termText (.named t s) ++ X = '(' :: (['!'] ++ (' ' :: (termText t ++ (' ' :: (":named".toList ++ (' ' :: (nameText s ++ (')' :: X)))))))) := by
      simp [termText]
    rw [e, lex_lp, reads_tail (reads_word (by unfold PlainWord; decide +kernel)) (tail_sp _), lex_sp, reads_tail (reads_term t h) (tail_sp _), lex_sp,
      reads_tail (reads_word (by unfold PlainWord; decide +kernel)) (tail_sp _), lex_sp, reads_tail (reads_name s) (tail_rp _), lex_rp]
    simp only [termExp, SExp.toks, SExp.tokss, List.cons_append, List.nil_append, List.append_assoc]
  | .all xs b, h => by
    simp only [Named] at h
    refine reads_of fun X hX => ?_
    have e : termText (.all xs b) ++ X = '(' :: ("forall".toList ++ (' ' :: '(' :: (joined (xs.map boundText) ++ (')' :: ' ' :: (termText b ++ (')' :: X)))))) := by
      simp [termText]
    rw [e, lex_lp, reads_tail (reads_word (by unfold PlainWord; decide +kernel)) (tail_sp _), lex_sp, lex_lp,
      joined_lex boundText (fun x => .list [.atom x.1, .atom (sortText x.2)]) xs (fun x hx => reads_bound (h.1 x hx)) _ (tail_rp _), lex_rp, lex_sp,
      reads_tail (reads_term b h.2) (tail_rp _), lex_rp]
    simp only [termExp, SExp.toks, SExp.tokss, List.cons_append, List.nil_append, List.append_assoc]
theorem reads_args : ∀ l : List Term, Nameds l → ∀ X, Tail X → lex .idle (argsText l ++ X) = SExp.tokss (termExps l) ++ lex .idle X
  | [], _, X, _ => rfl
  | t :: l, h, X, hX => by
    simp only [Nameds] at h
    have ht : Tail (argsText l ++ X) := by
      cases l with
      | nil => exact hX
      | cons a l => exact tail_sp _
    simp only [argsText, List.cons_append, List.append_assoc]
    rw [lex_sp, reads_tail (reads_term t h.1) ht, reads_args l h.2 X hX]
    simp only [termExps, SExp.tokss, List.append_assoc]
end

theorem termExps_eq : ∀ l : List Term, termExps l = l.map termExp
  | [] => rfl
  | t :: l => by simp only [termExps, List.map_cons, termExps_eq l]

theorem nameds_mem : ∀ {l : List Term}, Nameds l → ∀ t ∈ l, Named t
  | [], _, t, ht => by cases ht
  | a :: l, h, t, ht => by
    simp only [Nameds] at h
    rcases List.mem_cons.1 ht with rfl | ht
    · exact h.1
    · exact nameds_mem h.2 t ht

theorem joined_terms {l : List Term} (h : Nameds l) {X : Str} (hX : Tail X) :
    lex .idle (joined (l.map termText) ++ X) = SExp.tokss (termExps l) ++ lex .idle X := by
  rw [termExps_eq]
  exact joined_lex termText termExp l (fun t ht => reads_term t (nameds_mem h t ht)) X hX

/-- A part of a line: blank or empty at the front, read as some expressions. -/
def Part (w : Str) (es : List SExp) : Prop := ∀ X, Tail X → Tail (w ++ X) ∧ lex .idle (w ++ X) = SExp.tokss es ++ lex .idle X

theorem Part.nil : Part [] [] := fun X hX => ⟨hX, rfl⟩

theorem Part.append {w w' : Str} {es es' : List SExp} (h : Part w es) (h' : Part w' es') : Part (w ++ w') (es ++ es') := by
  intro X hX
  obtain ⟨h1, h2⟩ := h' X hX
  obtain ⟨h3, h4⟩ := h _ h1
  rw [List.append_assoc]
  exact ⟨h3, by rw [h4, h2, tokss_map_append, List.append_assoc]⟩

theorem part_clause {s : Step} (h : Nameds s.clause) :
    Part (clausePart s) (if s.assume then termExps s.clause else [.list (.atom ['c', 'l'] :: termExps s.clause)]) := by
  intro X hX
  unfold clausePart
  cases ha : s.assume with
  | true =>
    simp only [if_true, List.nil_append, List.append_nil]
    by_cases hc : s.clause = []
    · simp only [hc, if_true, List.nil_append, termExps, SExp.tokss]
      exact ⟨hX, trivial⟩
    · rw [if_neg hc, List.cons_append]
      refine ⟨tail_sp _, ?_⟩
      rw [lex_sp, joined_terms h hX]
  | false =>
    simp only [Bool.false_eq_true, if_false]
    refine ⟨tail_sp _, ?_⟩
    by_cases hc : s.clause = []
    · have e : (' ' :: '(' :: ['c', 'l']) ++ ((if s.clause = [] then [] else ' ' :: joined (s.clause.map termText)) ++ [')']) ++ X =
          ' ' :: '(' :: (['c', 'l'] ++ (')' :: X)) := by simp [hc]
      rw [e, lex_sp, lex_lp, reads_tail (reads_word (by unfold PlainWord; decide +kernel)) (tail_rp _), lex_rp]
      simp [hc, termExps, SExp.toks, SExp.tokss]
    · have e : (' ' :: '(' :: ['c', 'l']) ++ ((if s.clause = [] then [] else ' ' :: joined (s.clause.map termText)) ++ [')']) ++ X =
          ' ' :: '(' :: (['c', 'l'] ++ (' ' :: (joined (s.clause.map termText) ++ (')' :: X)))) := by simp [hc]
      rw [e, lex_sp, lex_lp, reads_tail (reads_word (by unfold PlainWord; decide +kernel)) (tail_sp _), lex_sp, joined_terms h (tail_rp _), lex_rp]
      simp [SExp.toks, SExp.tokss]

theorem part_rule {s : Step} (h : s.rule = " " ∨ PlainWord s.rule.toList) :
    Part (rulePart s) (if s.rule = " " then [] else [.atom ":rule".toList, .atom s.rule.toList]) := by
  unfold rulePart
  split
  · exact .nil
  · rename_i hr
    have hw := h.resolve_left hr
    intro X hX
    refine ⟨tail_sp _, ?_⟩
    simp only [List.cons_append, List.append_assoc]
    rw [lex_sp, reads_tail (reads_word (by unfold PlainWord; decide +kernel)) (tail_sp _), lex_sp, reads_tail (reads_word hw) hX]
    simp only [SExp.toks, SExp.tokss, List.cons_append, List.nil_append, List.append_assoc]

theorem part_premises (s : Step) :
    Part (premisePart s) (if s.premises = [] then [] else [.atom ":premises".toList, .list (s.premises.map fun p => .atom ('t' :: showNat p))]) := by
  unfold premisePart
  split
  · exact .nil
  · intro X hX
    refine ⟨tail_sp _, ?_⟩
    simp only [List.cons_append, List.append_assoc, List.nil_append]
    rw [lex_sp, reads_tail (reads_word (by unfold PlainWord; decide +kernel)) (tail_sp _), lex_sp, lex_lp,
      joined_lex stepId (fun p => .atom ('t' :: showNat p)) s.premises (fun p _ => reads_stepId p) _ (tail_rp _), lex_rp]
    simp only [SExp.toks, SExp.tokss, List.cons_append, List.nil_append, List.append_assoc]

theorem part_args {s : Step} (h : Nameds s.args) : Part (argPart s) (if s.args = [] then [] else [.atom ":args".toList, .list (termExps s.args)]) := by
  unfold argPart
  split
  · exact .nil
  · intro X hX
    refine ⟨tail_sp _, ?_⟩
    simp only [List.cons_append, List.append_assoc, List.nil_append]
    rw [lex_sp, reads_tail (reads_word (by unfold PlainWord; decide +kernel)) (tail_sp _), lex_sp, lex_lp, joined_terms h (tail_rp _), lex_rp]
    simp only [SExp.toks, SExp.tokss, List.cons_append, List.nil_append, List.append_assoc]

theorem step_text_lex (k : Nat) (s : Step) (h : NamedStep s) (r : Str) :
    lex .idle (stepText k s ++ r) = (stepExp k s).toks ++ lex .idle r := by
  obtain ⟨h1, h2, h3⟩ := h
  have hp := ((part_clause h1).append ((part_rule h3).append ((part_premises s).append (part_args h2)))) (')' :: '\n' :: r) (tail_rp _)
  have hw : Reads (if s.assume then "assume".toList else "step".toList) (.atom (if s.assume then "assume".toList else "step".toList)) := by
    refine reads_word ?_
    cases s.assume <;> (unfold PlainWord; decide +kernel)
  unfold stepExp stepText
  generalize (if s.assume = true then "assume".toList else "step".toList) = w at *
  have e : ('(' :: (w ++ ' ' :: (stepId k ++ (clausePart s ++ (rulePart s ++ (premisePart s ++ (argPart s ++ [')', '\n']))))))) ++ r =
      '(' :: (w ++ (' ' :: (stepId k ++ ((clausePart s ++ (rulePart s ++ (premisePart s ++ argPart s))) ++ (')' :: '\n' :: r))))) := by simp
  rw [e, lex_lp, reads_tail hw (tail_sp _), lex_sp, reads_tail (reads_stepId k) hp.1, hp.2, lex_rp, lex_nl]
  simp only [SExp.toks, SExp.tokss, List.cons_append, List.nil_append, List.append_assoc]

theorem proof_text_lex : ∀ (ss : List Step) (k : Nat), (∀ s ∈ ss, NamedStep s) → lex .idle (proofText k ss) = SExp.tokss (proofExp k ss)
  | [], _, _ => by simp [proofText, proofExp, lex, SExp.tokss]
  | s :: l, k, h => by
    rw [proofText, proofExp, SExp.tokss, step_text_lex k s (h s (by simp)), proof_text_lex l (k + 1) fun x hx => h x (by simp [hx])]

/-- **C83 (the text of a proof).** The text of a proof is, as a sequence of tokens, that of its steps in order. -/
theorem C83_text (ss : List Step) (h : ∀ s ∈ ss, NamedStep s) : lex .idle (proofText 0 ss) = SExp.tokss (proofExp 0 ss) := proof_text_lex ss 0 h

theorem proofExp_list : ∀ (ss : List Step) (k : Nat), ∃ es : List (List SExp), proofExp k ss = es.map .list
  | [], _ => ⟨[], rfl⟩
  | s :: l, k => by
    obtain ⟨es, e⟩ := proofExp_list l (k + 1)
    exact ⟨_ :: es, by rw [proofExp, e, stepExp, List.map_cons]⟩

/-- **C83 (reading back).** The reader of expressions reads the text as the list of the steps. -/
theorem C83_read_back (ss : List Step) (h : ∀ s ∈ ss, NamedStep s) (hv : nul ∉ proofText 0 ss)
    (hc : visible (proofText 0 ss) = some (proofText 0 ss)) (n : Nat) (hn : (proofText 0 ss).length < n) :
    readLoop n [] (start (proofText 0 ss)) = .done (proofExp 0 ss) := by
  obtain ⟨es, e⟩ := proofExp_list ss 0
  rw [e]
  exact (C40_read_exact _ _ hv hc n hn).1 es (by rw [C83_text ss h, e])

/-! ### The text determines the proof -/

/-- What kind of term an expression is. -/
def kind : SExp → Nat
  | .atom s => if s = boolText true ∨ s = boolText false then 1 else
    match s with
    | [] => 2
    | c :: _ => if c = '@' then 3 else if Names.isDigit c then 0 else 2
  | .list (.atom f :: es) => if f = ['!'] then 6 else if f = "forall".toList then 7 else if f = ['-'] ∧ es.length = 1 then 0 else
    if ∃ o ∈ [OpSym.eq, .lt, .le, .gt, .ge, .and, .or, .not, .ite, .add, .sub, .mul, .mod, .div, .imp], f = opText o then 4 else 5
  | _ => 8

def tkind : Term → Nat
  | .num _ => 0
  | .bool _ => 1
  | .var _ _ => 2
  | .name _ => 3
  | .op _ _ => 4
  | .app _ _ => 5
  | .named _ _ => 6
  | .all _ _ => 7

theorem kind_showNat (n : Nat) : kind (.atom (showNat n)) = 0 := by
  obtain ⟨c, r, e, h⟩ := Names.showNat_head n
  have h1 : ¬ (showNat n = boolText true ∨ showNat n = boolText false) := by
    rw [e]
    rintro (h' | h') <;> (cases h'; exact absurd h (by decide))
  have h2 : c ≠ '@' := fun h' => by subst h'; exact absurd h (by decide)
  simp only [kind, if_neg h1]
  rw [e]
  simp only [if_neg h2, h, if_true]

theorem op_not_special (o : OpSym) : opText o ≠ ['!'] ∧ opText o ≠ "forall".toList ∧ (opText o = ['-'] → o = .sub) := by
  cases o <;> decide +kernel

theorem all_ops (o : OpSym) : o ∈ [OpSym.eq, .lt, .le, .gt, .ge, .and, .or, .not, .ite, .add, .sub, .mul, .mod, .div, .imp] := by
  cases o <;> decide

theorem length_termExps : ∀ l : List Term, (termExps l).length = l.length
  | [] => rfl
  | t :: l => by simp only [termExps, List.length_cons, length_termExps l]

theorem kind_exp {sortOf : Str → Sort'} : ∀ t : Term, Clear sortOf t → kind (termExp t) = tkind t
  | .num n, _ => by
    simp only [termExp, tkind]
    split
    · have h : (['-'] : Str) ≠ ['!'] ∧ (['-'] : Str) ≠ "forall".toList := by decide +kernel
      simp only [kind, if_neg h.1, if_neg h.2, List.length_singleton, and_self, if_true]
    · exact kind_showNat _
  | .bool b, _ => by cases b <;> simp [termExp, kind, tkind]
  | .var s k, h => by
    simp only [Clear, VarName] at h
    obtain ⟨-, h1, h2, h3⟩ := h
    simp only [termExp, kind, tkind, h1, h2, or_self, if_false]
    cases s with
    | nil => rfl
    | cons c r =>
      obtain ⟨h4, h5⟩ := h3 c r rfl
      simp [h4, h5]
  | .name s, _ => by cases s <;> simp [termExp, kind, tkind, nameText, boolText]
  | .op o args, h => by
    simp only [Clear] at h
    obtain ⟨h1, h2, h3⟩ := op_not_special o
    have h4 : ¬ (opText o = ['-'] ∧ (termExps args).length = 1) := by
      rintro ⟨a, b⟩
      have := h.1 (h3 a)
      rw [length_termExps] at b
      omega
    simp only [termExp, kind, tkind, if_neg h1, if_neg h2, if_neg h4]
    rw [if_pos ⟨o, all_ops o, rfl⟩]
  | .app f args, h => by
    simp only [Clear, PredName] at h
    obtain ⟨⟨h1, h2, h3⟩, -⟩ := h
    have h4 : ¬ (f = ['-'] ∧ (termExps args).length = 1) := fun e => h1 .sub e.1
    simp only [termExp, kind, tkind, if_neg h2, if_neg h3, if_neg h4]
    rw [if_neg (fun ⟨o, _, e⟩ => h1 o e)]
  | .named t s, _ => by simp [termExp, kind, tkind]
  | .all xs b, _ => by
    have h : "forall".toList ≠ (['!'] : Str) := by decide +kernel
    simp only [termExp, kind, tkind, if_neg h, if_true]

theorem nameText_inj {a b : Name} (h : nameText a = nameText b) : a = b := by
  cases a <;> cases b <;> simp [nameText] at h <;> rw [Names.showNat_inj h]

theorem opText_inj {a b : OpSym} (h : opText a = opText b) : a = b := by
  revert h
  cases a <;> cases b <;> decide

theorem bounds_inj : ∀ (xs ys : List (Str × Sort')), (xs.map fun x => SExp.list [.atom x.1, .atom (sortText x.2)]) =
    (ys.map fun x => SExp.list [.atom x.1, .atom (sortText x.2)]) → xs = ys
  | [], [], _ => rfl
  | [], _ :: _, h => by cases h
  | _ :: _, [], h => by cases h
  | (x, k) :: xs, (y, l) :: ys, h => by
    simp only [List.map_cons, List.cons.injEq, SExp.list.injEq, SExp.atom.injEq, and_true] at h
    obtain ⟨⟨h1, h2⟩, h3⟩ := h
    rw [h1, bounds_inj xs ys h3]
    cases k <;> cases l <;> simp [sortText] at h2 <;> rfl

mutual
theorem termExp_inj {sortOf : Str → Sort'} : ∀ (t t' : Term), Clear sortOf t → Clear sortOf t' → termExp t = termExp t' → t = t'
  | .num n, t', h, h', e => by
    have hk : tkind t' = 0 := by rw [← kind_exp t' h', ← e, kind_exp _ h]; rfl
    cases t' <;> simp only [tkind] at hk <;> try omega
    rename_i m
    simp only [termExp] at e
    split at e <;> split at e
    · simp only [SExp.list.injEq, List.cons.injEq, SExp.atom.injEq, true_and, and_true] at e
      have := Names.showNat_inj e
      congr 1; omega
    · cases e
    · cases e
    · simp only [SExp.atom.injEq] at e
      have := Names.showNat_inj e
      congr 1; omega
  | .bool b, t', h, h', e => by
    have hk : tkind t' = 1 := by rw [← kind_exp t' h', ← e, kind_exp _ h]; rfl
    cases t' <;> simp only [tkind] at hk <;> try omega
    rename_i c
    cases b <;> cases c <;> simp [termExp, boolText] at e <;> rfl
  | .var s k, t', h, h', e => by
    have hk : tkind t' = 2 := by rw [← kind_exp t' h', ← e, kind_exp _ h]; rfl
    cases t' <;> simp only [tkind] at hk <;> try omega
    simp only [termExp, SExp.atom.injEq] at e
    simp only [Clear] at h h'
    rw [e, h.1, h'.1, e]
  | .name s, t', h, h', e => by
    have hk : tkind t' = 3 := by rw [← kind_exp t' h', ← e, kind_exp _ h]; rfl
    cases t' <;> simp only [tkind] at hk <;> try omega
    simp only [termExp, SExp.atom.injEq] at e
    rw [nameText_inj e]
  | .op o args, t', h, h', e => by
    have hk : tkind t' = 4 := by rw [← kind_exp t' h', ← e, kind_exp _ h]; rfl
    cases t' <;> simp only [tkind] at hk <;> try omega
    simp only [termExp, SExp.list.injEq, List.cons.injEq, SExp.atom.injEq] at e
    simp only [Clear] at h h'
    rw [opText_inj e.1, termExps_inj args _ h.2 h'.2 e.2]
  | .app f args, t', h, h', e => by
    have hk : tkind t' = 5 := by rw [← kind_exp t' h', ← e, kind_exp _ h]; rfl
    cases t' <;> simp only [tkind] at hk <;> try omega
    simp only [termExp, SExp.list.injEq, List.cons.injEq, SExp.atom.injEq] at e
    simp only [Clear] at h h'
    rw [e.1, termExps_inj args _ h.2 h'.2 e.2]
  | .named t s, t', h, h', e => by
    have hk : tkind t' = 6 := by rw [← kind_exp t' h', ← e, kind_exp _ h]; rfl
    cases t' <;> simp only [tkind] at hk <;> try omega
    simp only [termExp, SExp.list.injEq, List.cons.injEq, SExp.atom.injEq, true_and, and_true] at e
    simp only [Clear] at h h'
    rw [termExp_inj t _ h h' e.1, nameText_inj e.2]
  | .all xs b, t', h, h', e => by
    have hk : tkind t' = 7 := by rw [← kind_exp t' h', ← e, kind_exp _ h]; rfl
    cases t' <;> simp only [tkind] at hk <;> try omega
    simp only [termExp, SExp.list.injEq, List.cons.injEq, true_and, and_true] at e
    simp only [Clear] at h h'
    rw [bounds_inj _ _ e.1, termExp_inj b _ h h' e.2]
theorem termExps_inj {sortOf : Str → Sort'} : ∀ (l l' : List Term), Clears sortOf l → Clears sortOf l' → termExps l = termExps l' → l = l'
  | [], [], _, _, _ => rfl
  | [], _ :: _, _, _, e => by cases e
  | _ :: _, [], _, _, e => by cases e
  | t :: l, t' :: l', h, h', e => by
    simp only [termExps, List.cons.injEq] at e
    simp only [Clears] at h h'
    rw [termExp_inj t t' h.1 h'.1 e.1, termExps_inj l l' h.2 h'.2 e.2]
end

theorem ids_inj : ∀ (l l' : List Nat), (l.map fun p => SExp.atom ('t' :: showNat p)) = (l'.map fun p => SExp.atom ('t' :: showNat p)) → l = l'
  | [], [], _ => rfl
  | [], _ :: _, h => by cases h
  | _ :: _, [], h => by cases h
  | a :: l, b :: l', h => by
    simp only [List.map_cons, List.cons.injEq, SExp.atom.injEq, true_and] at h
    rw [Names.showNat_inj h.1, ids_inj l l' h.2]

/-- The part of a step after its clause. -/
theorem options_inj {sortOf : Str → Sort'} {s s' : Step} (h : Clears sortOf s.args) (h' : Clears sortOf s'.args)
    (e : ((if s.rule = " " then [] else [SExp.atom ":rule".toList, .atom s.rule.toList]) ++
      ((if s.premises = [] then [] else [.atom ":premises".toList, .list (s.premises.map fun p => .atom ('t' :: showNat p))]) ++
      (if s.args = [] then [] else [.atom ":args".toList, .list (termExps s.args)]))) =
      ((if s'.rule = " " then [] else [SExp.atom ":rule".toList, .atom s'.rule.toList]) ++
      ((if s'.premises = [] then [] else [.atom ":premises".toList, .list (s'.premises.map fun p => .atom ('t' :: showNat p))]) ++
      (if s'.args = [] then [] else [.atom ":args".toList, .list (termExps s'.args)])))) :
    s.rule = s'.rule ∧ s.premises = s'.premises ∧ s.args = s'.args := by
  have n1 : ":rule".toList ≠ ":premises".toList := by decide +kernel
  have n2 : ":rule".toList ≠ ":args".toList := by decide +kernel
  have n3 : ":premises".toList ≠ ":args".toList := by decide +kernel
  generalize ":rule".toList = a at *
  generalize ":premises".toList = b at *
  generalize ":args".toList = c at *
  have f1 := fun x => (termExps_inj s.args s'.args h h' x)
  have f2 := ids_inj s.premises s'.premises
  have f3 : s.rule.toList = s'.rule.toList → s.rule = s'.rule := fun x => String.toList_inj.1 x
  generalize termExps s.args = A at *
  generalize termExps s'.args = A' at *
  generalize (s.premises.map fun p => SExp.atom ('t' :: showNat p)) = P at *
  generalize (s'.premises.map fun p => SExp.atom ('t' :: showNat p)) = P' at *
  generalize s.rule.toList = R at *
  generalize s'.rule.toList = R' at *
  by_cases c1 : s.rule = " " <;> by_cases c1' : s'.rule = " " <;> by_cases c2 : s.premises = [] <;> by_cases c2' : s'.premises = [] <;>
    by_cases c3 : s.args = [] <;> by_cases c3' : s'.args = [] <;>
    simp [c1, c1', c2, c2', c3, c3', n1, n2, n3, n1.symm, n2.symm, n3.symm] at e <;> simp_all

theorem step_ext : ∀ {s s' : Step}, s.assume = s'.assume → s.clause = s'.clause → s.rule = s'.rule → s.premises = s'.premises → s.args = s'.args →
    s = s'
  | ⟨_, _, _, _, _⟩, ⟨_, _, _, _, _⟩, rfl, rfl, rfl, rfl, rfl => rfl

theorem stepExp_inj {sortOf : Str → Sort'} {k : Nat} {s s' : Step} (h : ClearStep sortOf s) (h' : ClearStep sortOf s') (e : stepExp k s = stepExp k s') :
    s = s' := by
  obtain ⟨h1, h2, h3⟩ := h
  obtain ⟨h1', h2', h3'⟩ := h'
  have n : "assume".toList ≠ "step".toList := by decide +kernel
  simp only [stepExp, SExp.list.injEq, List.cons.injEq, SExp.atom.injEq, true_and] at e
  obtain ⟨e1, e2⟩ := e
  have ha : s.assume = s'.assume := by
    generalize "assume".toList = a at *
    generalize "step".toList = b at *
    cases h : s.assume <;> cases h' : s'.assume <;> simp only [h, h', if_true, Bool.false_eq_true, if_false] at e1
    · rfl
    · exact absurd e1.symm n
    · exact absurd e1 n
    · rfl
  have key : s.clause = s'.clause ∧ s.rule = s'.rule ∧ s.premises = s'.premises ∧ s.args = s'.args := by
    cases hs : s.assume with
    | true =>
      obtain ⟨t, ht⟩ := h3 hs
      obtain ⟨t', ht'⟩ := h3' (ha ▸ hs)
      rw [← ha, hs, if_pos rfl, if_pos rfl, ht, ht'] at e2
      simp only [termExps, List.cons_append, List.nil_append, List.cons.injEq] at e2
      rw [ht, Clears] at h1
      rw [ht', Clears] at h1'
      refine ⟨by rw [ht, ht', termExp_inj t t' h1.1 h1'.1 e2.1], options_inj h2 h2' e2.2⟩
    | false =>
      rw [← ha, hs, if_neg Bool.false_ne_true, if_neg Bool.false_ne_true] at e2
      simp only [List.cons_append, List.nil_append, List.cons.injEq, SExp.list.injEq, true_and] at e2
      exact ⟨termExps_inj _ _ h1 h1' e2.1, options_inj h2 h2' e2.2⟩
  exact step_ext ha key.1 key.2.1 key.2.2.1 key.2.2.2

/-- **C83 (the text determines the proof).** Proofs with the same text are the same. -/
theorem C83_determined (sortOf : Str → Sort') (ss ss' : List Step) (h : ∀ s ∈ ss, NamedStep s ∧ ClearStep sortOf s)
    (h' : ∀ s ∈ ss', NamedStep s ∧ ClearStep sortOf s) (e : proofText 0 ss = proofText 0 ss') : ss = ss' := by
  have e1 : SExp.tokss (proofExp 0 ss) = SExp.tokss (proofExp 0 ss') := by
    rw [← C83_text ss fun s hs => (h s hs).1, ← C83_text ss' fun s hs => (h' s hs).1, e]
  have key : ∀ (l l' : List Step) (k : Nat), (∀ s ∈ l, ClearStep sortOf s) → (∀ s ∈ l', ClearStep sortOf s) →
      SExp.tokss (proofExp k l) = SExp.tokss (proofExp k l') → l = l' := by
    intro l
    induction l with
    | nil =>
      intro l' k _ _ e
      cases l' with
      | nil => rfl
      | cons s l' => rw [proofExp, proofExp, stepExp, SExp.tokss, SExp.tokss, SExp.toks] at e; cases e
    | cons s l ih =>
      intro l' k h h' e
      cases l' with
      | nil => rw [proofExp, proofExp, stepExp, SExp.tokss, SExp.tokss, SExp.toks] at e; cases e
      | cons s' l' =>
        rw [proofExp, proofExp, SExp.tokss, SExp.tokss] at e
        obtain ⟨e1, e2⟩ := toks_inj _ _ _ _ e
        rw [stepExp_inj (h s (by simp)) (h' s' (by simp)) e1,
          ih l' (k + 1) (fun x hx => h x (by simp [hx])) (fun x hx => h' x (by simp [hx])) e2]
  exact key ss ss' 0 (fun s hs => (h s hs).2) (fun s hs => (h' s hs).2) e1

/-! ### A case: the proof of C78 -/

instance : DecidablePred PlainWord := fun s => by unfold PlainWord; infer_instance

mutual
/-- The conditions on names, computed. -/
def goodNames (sortOf : Str → Sort') : Term → Bool
  | .var s k => decide (PlainWord s) && decide (k = sortOf s) && decide (s ≠ boolText true) && decide (s ≠ boolText false) &&
    match s with
    | [] => true
    | c :: _ => c ≠ '@' && !Names.isDigit c
  | .op o args => (o ≠ .sub || args.length == 2) && goodNamess sortOf args
  | .app f args => decide (PlainWord f) && (kind (.list (.atom f :: termExps args)) == 5 && f ≠ ['-']) && goodNamess sortOf args
  | .named t _ => goodNames sortOf t
  | .all xs b => (xs.all fun x => decide (PlainWord x.1)) && goodNames sortOf b
  | _ => true
def goodNamess (sortOf : Str → Sort') : List Term → Bool
  | [] => true
  | t :: l => goodNames sortOf t && goodNamess sortOf l
end

mutual
theorem good_ok {sortOf : Str → Sort'} : ∀ t : Term, goodNames sortOf t = true → Named t ∧ Clear sortOf t
  | .num _, _ => by simp only [Named, Clear]; exact ⟨trivial, trivial⟩
  | .bool _, _ => by simp only [Named, Clear]; exact ⟨trivial, trivial⟩
  | .name _, _ => by simp only [Named, Clear]; exact ⟨trivial, trivial⟩
  | .var s k, h => by
    simp only [goodNames, Bool.and_eq_true, decide_eq_true_eq] at h
    obtain ⟨⟨⟨⟨h1, h2⟩, h3⟩, h4⟩, h5⟩ := h
    simp only [Named, Clear, VarName]
    refine ⟨reads_word h1, h2, h3, h4, fun c r e => ?_⟩
    subst e
    simpa using h5
  | .op o args, h => by
    simp only [goodNames, Bool.and_eq_true] at h
    obtain ⟨g1, g2⟩ := goods_ok args h.2
    simp only [Named, Clear]
    refine ⟨g1, fun e => ?_, g2⟩
    have := h.1
    subst e
    simpa using this
  | .app f args, h => by
    simp only [goodNames, Bool.and_eq_true, decide_eq_true_eq, beq_iff_eq] at h
    obtain ⟨⟨h1, h2, h3⟩, h4⟩ := h
    obtain ⟨g1, g2⟩ := goods_ok args h4
    simp only [Named, Clear, PredName]
    refine ⟨⟨reads_word h1, g1⟩, ⟨fun o e => ?_, fun e => ?_, fun e => ?_⟩, g2⟩
    · simp only [kind] at h2
      split at h2
      · cases h2
      · split at h2
        · cases h2
        · split at h2
          · cases h2
          · split at h2
            · cases h2
            · rename_i hn
              exact hn ⟨o, all_ops o, e⟩
    · simp only [kind, if_pos e] at h2
      cases h2
    · simp only [kind, if_pos e] at h2
      split at h2 <;> cases h2
  | .named t _, h => by
    simp only [goodNames] at h
    simp only [Named, Clear]
    exact good_ok t h
  | .all xs b, h => by
    simp only [goodNames, Bool.and_eq_true, List.all_eq_true, decide_eq_true_eq] at h
    simp only [Named, Clear]
    exact ⟨⟨fun x hx => reads_word (h.1 x hx), (good_ok b h.2).1⟩, (good_ok b h.2).2⟩
theorem goods_ok {sortOf : Str → Sort'} : ∀ l : List Term, goodNamess sortOf l = true → Nameds l ∧ Clears sortOf l
  | [], _ => by simp only [Nameds, Clears]; exact ⟨trivial, trivial⟩
  | t :: l, h => by
    simp only [goodNamess, Bool.and_eq_true] at h
    simp only [Nameds, Clears]
    exact ⟨⟨(good_ok t h.1).1, (goods_ok l h.2).1⟩, (good_ok t h.1).2, (goods_ok l h.2).2⟩
end

/-- The proof of C78 for three clauses meets the conditions. -/
theorem exProof_names (ss : List Step) (h : buildProof exClauses exDeriv = some ss) : ∀ s ∈ ss, NamedStep s ∧ ClearStep (fun _ => .int) s := by
  have key : ((buildProof exClauses exDeriv).map fun ss => ss.all fun s => goodNamess (fun _ => .int) s.clause && goodNamess (fun _ => .int) s.args &&
      (decide (s.rule = " ") || decide (PlainWord s.rule.toList)) && (!s.assume || s.clause.length == 1)) = some true := by decide +kernel
  rw [h] at key
  simp only [Option.map_some, Option.some.injEq, List.all_eq_true, Bool.and_eq_true, Bool.or_eq_true, decide_eq_true_eq, beq_iff_eq] at key
  intro s hs
  obtain ⟨⟨⟨h1, h2⟩, h3⟩, h4⟩ := key s hs
  obtain ⟨a1, a2⟩ := goods_ok _ h1
  obtain ⟨b1, b2⟩ := goods_ok _ h2
  refine ⟨⟨a1, b1, h3⟩, a2, b2, fun ha => ?_⟩
  rw [ha] at h4
  exact List.length_eq_one_iff.1 (by simpa using h4)

/-- So its text is read as its steps. -/
example (ss : List Step) (h : buildProof exClauses exDeriv = some ss) : lex .idle (proofText 0 ss) = SExp.tokss (proofExp 0 ss) :=
  C83_text ss fun s hs => (exProof_names ss h s hs).1

/-- A line. -/
example : stepText 2 ⟨false, [neg (.named (.app cP [.num (-1)]) (.lhs 1)), .bool false], "implies", [1, 0], [.num 0]⟩ =
    "(step t2 (cl (not (! (P (- 1)) :named @LHS1)) false) :rule implies :premises (t1 t0) :args (0))\n".toList := by
  have h0 : showNat 0 = ['0'] := by rw [showNat]; rfl
  have h1 : showNat 1 = ['1'] := by rw [showNat]; rfl
  have h2 : showNat 2 = ['2'] := by rw [showNat]; rfl
  have h3 : ((-1 : Int)).natAbs = 1 := rfl
  simp [stepText, clausePart, rulePart, premisePart, argPart, joined, termText, argsText, neg, numText, boolText, nameText, stepId, cP, opText, h0, h1, h2, h3]

end Alethe
end Golem
