import Verif.Model.WitnessPrint
import Verif.Props.LetPrint

/-!
C81: a printed witness can be read back.
-/

namespace Golem
namespace WitnessPrint

open SExpr
open Names (Str showNat)
open LetPrint

/-! ### Specification -/

/-- `(define-fun name ((x S) …) Bool body)`; `rd` reads the texts of names and sorts. -/
def defExp (rd : Str → SExp) (boolText : Str) (d : PDef) (body : SExp) : SExp :=
  .list [.atom "define-fun".toList, rd d.name, .list (d.args.map fun a => .list [rd a.1, rd a.2]), rd boolText, body]

/-- The expressions define, one by one and in order, what the entries say: same name, same arguments, and a body that is the definition once
its let bindings are expanded. -/
def Defines (rd : Str → SExp) (name : Nat → Str) (leaf : Nat → SExp) (boolText : Str) : List PDef → List SExp → Prop
  | [], [] => True
  | d :: ds, e :: es =>
    (∃ body, e = defExp rd boolText d body ∧ expand [] body = plainExp name leaf d.body) ∧ Defines rd name leaf boolText ds es
  | _, _ => False

/-- The texts of an entry can be read. -/
structure DOk (L : PLogic) (name : Nat → Str) (leaf : Nat → SExp) (rd : Str → SExp) (d : PDef) : Prop where
  nm : Reads d.name (rd d.name)
  args : ∀ a ∈ d.args, Reads a.1 (rd a.1) ∧ Reads a.2 (rd a.2)
  body : POk L name leaf d.body

/-- A line of a derivation as tokens: its number, the fact, and if there are premises an arrow and their numbers. -/
def lineToks (rd : Str → SExp) (i : Nat) (s : PStep) : List Tok :=
  .atom (showNat i ++ [':']) :: ((rd s.fact).toks ++ if s.premises = [] then [] else .atom "->".toList :: s.premises.map fun p => .atom (showNat p))

def linesToks (rd : Str → SExp) : Nat → List PStep → List Tok
  | _, [] => []
  | i, s :: l => lineToks rd i s ++ linesToks rd (i + 1) l

/-! ### The model -/

theorem delim_nl : isWhiteSpace '\n' = true ∨ '\n' = '(' ∨ '\n' = ')' := Or.inl rfl
theorem delim_lp : isWhiteSpace '(' = true ∨ '(' = '(' ∨ '(' = ')' := Or.inr (Or.inl rfl)
theorem delim_tab : isWhiteSpace '\t' = true ∨ '\t' = '(' ∨ '\t' = ')' := Or.inl rfl
theorem lex_nl (r : Str) : lex .idle ('\n' :: r) = lex .idle r := by simp [lex, isWhiteSpace]
theorem lex_tab (r : Str) : lex .idle ('\t' :: r) = lex .idle r := by simp [lex, isWhiteSpace]

theorem argsOut_lex (rd : Str → SExp) : ∀ (l : List (Str × Str)), (∀ a ∈ l, Reads a.1 (rd a.1) ∧ Reads a.2 (rd a.2)) → ∀ r,
    lex .idle (argsOut l ++ ')' :: r) = SExp.tokss (l.map fun a => .list [rd a.1, rd a.2]) ++ .rp :: lex .idle r
  | [], _, r => by
    rw [argsOut, List.nil_append, lex_rp]
    rfl
  | [a], h, r => by
    obtain ⟨h1, h2⟩ := h a List.mem_cons_self
    have e : argsOut [a] ++ ')' :: r = '(' :: (a.1 ++ ' ' :: (a.2 ++ ')' :: (')' :: r))) := by simp [argsOut]
    rw [e, lex_lp, h1 ' ' delim_sp, lex_sp, h2 ')' delim_rp, lex_rp, lex_rp]
    simp [SExp.toks, SExp.tokss]
  | a :: b :: l, h, r => by
    obtain ⟨h1, h2⟩ := h a List.mem_cons_self
    have ih := argsOut_lex rd (b :: l) (fun x hx => h x (List.mem_cons_of_mem _ hx)) r
    have e : argsOut (a :: b :: l) ++ ')' :: r = '(' :: (a.1 ++ ' ' :: (a.2 ++ ')' :: (' ' :: (argsOut (b :: l) ++ ')' :: r)))) := by
      simp [argsOut]
    rw [e, lex_lp, h1 ' ' delim_sp, lex_sp, h2 ')' delim_rp, lex_rp, lex_sp, ih]
    rw [List.map_cons (l := b :: l), SExp.tokss]
    simp [SExp.toks, SExp.tokss]

theorem reads_defineFun : Reads "define-fun".toList (.atom "define-fun".toList) := fun d hd r =>
  lex_plain_word (by unfold PlainWord; decide +kernel) hd r

theorem defOut_lex {L : PLogic} {name : Nat → Str} {leaf : Nat → SExp} {rd : Str → SExp} {boolText : Str} {fuel : Nat} {d : PDef}
    (hd : DOk L name leaf rd d) (hb : Reads boolText (rd boolText)) (hf : 2 * size d.body ≤ fuel) :
    ∃ txt body, defOut L fuel boolText d = some txt ∧ expand [] body = plainExp name leaf d.body ∧
      ∀ r, lex .idle (txt ++ r) = (defExp rd boolText d body).toks ++ lex .idle r := by
  obtain ⟨t, E, e, hr, hx⟩ := C39_let_printing L name leaf d.body hd.body fuel hf
  refine ⟨_, E, by rw [defOut, e]; rfl, hx, ?_⟩
  intro r
  have e1 : "  (define-fun ".toList ++ (d.name ++ (" (".toList ++ (argsOut d.args ++ (") ".toList ++ (boolText ++ ("\n    ".toList ++
      (t ++ ")\n".toList))))))) ++ r =
      ' ' :: ' ' :: '(' :: ("define-fun".toList ++ ' ' :: (d.name ++ ' ' :: '(' :: (argsOut d.args ++ ')' :: ' ' :: (boolText ++ '\n' ::
        ' ' :: ' ' :: ' ' :: ' ' :: (t ++ ')' :: '\n' :: r))))) := by simp
  rw [e1, lex_sp, lex_sp, lex_lp, reads_defineFun ' ' delim_sp, lex_sp, hd.nm ' ' delim_sp, lex_sp, lex_lp, argsOut_lex rd d.args hd.args,
    lex_sp, hb '\n' delim_nl, lex_nl, lex_sp, lex_sp, lex_sp, lex_sp, hr ')' delim_rp, lex_rp, lex_nl]
  simp only [defExp, SExp.toks, SExp.tokss, List.cons_append, List.append_assoc, List.nil_append]

theorem defsOut_lex {L : PLogic} {name : Nat → Str} {leaf : Nat → SExp} {rd : Str → SExp} {boolText : Str} {fuel : Nat}
    (hb : Reads boolText (rd boolText)) : ∀ (ds : List PDef),
    (∀ d ∈ ds, d.constant = false → DOk L name leaf rd d ∧ 2 * size d.body ≤ fuel) →
    ∃ txt es, defsOut L fuel boolText ds = some txt ∧ Defines rd name leaf boolText (ds.filter fun d => !d.constant) es ∧
      ∀ r, lex .idle (txt ++ r) = SExp.tokss es ++ lex .idle r
  | [], _ => ⟨[], [], rfl, trivial, fun r => rfl⟩
  | d :: ds, h => by
    obtain ⟨t2, es, e2, h2, k2⟩ := defsOut_lex hb ds fun x hx => h x (List.mem_cons_of_mem _ hx)
    cases hc : d.constant with
    | true =>
      refine ⟨t2, es, by rw [defsOut, hc, if_pos rfl, e2], ?_, k2⟩
      rw [List.filter_cons, hc]
      exact h2
    | false =>
      obtain ⟨h0, hf⟩ := h d List.mem_cons_self hc
      obtain ⟨t1, body, e1, h1, k1⟩ := defOut_lex h0 hb hf
      refine ⟨t1 ++ t2, defExp rd boolText d body :: es, by rw [defsOut, hc, e1, e2]; rfl, ?_, ?_⟩
      · rw [List.filter_cons, hc]
        exact ⟨⟨body, rfl, h1⟩, h2⟩
      · intro r
        rw [List.append_assoc, k1, k2, SExp.tokss, List.append_assoc]

/-- **C81 (the printed model).** The text printed for a model is one expression: the list, in order, of the definitions of the interpreted
predicates (`true` and `false` left out), each with the name, the arguments with their sorts, the result sort and a body that is the
interpretation once its let bindings are expanded. -/
theorem C81_model (L : PLogic) (name : Nat → Str) (leaf : Nat → SExp) (rd : Str → SExp) (boolText : Str) (fuel : Nat) (ds : List PDef)
    (hd : ∀ d ∈ ds, d.constant = false → DOk L name leaf rd d ∧ 2 * size d.body ≤ fuel) (hb : Reads boolText (rd boolText)) :
    ∃ txt es, printModel L fuel boolText ds = some txt ∧ lex .idle txt = (SExp.list es).toks ∧
      Defines rd name leaf boolText (ds.filter fun d => !d.constant) es := by
  obtain ⟨t, es, e, h, k⟩ := defsOut_lex hb ds hd
  refine ⟨_, es, by rw [printModel, e]; rfl, ?_, h⟩
  have e1 : "(\n".toList ++ (t ++ ")\n".toList) = '(' :: '\n' :: (t ++ ')' :: '\n' :: []) := by simp
  show lex .idle ("(\n".toList ++ (t ++ ")\n".toList)) = _
  rw [e1, lex_lp, lex_nl, k, lex_rp, lex_nl]
  simp [SExp.toks, lex]

/-- **C81 (the printed model is read back).** The reader of the program's own expressions reads this text as this list. -/
theorem C81_model_read_back (L : PLogic) (name : Nat → Str) (leaf : Nat → SExp) (rd : Str → SExp) (boolText : Str) (fuel : Nat)
    (ds : List PDef) (hd : ∀ d ∈ ds, d.constant = false → DOk L name leaf rd d ∧ 2 * size d.body ≤ fuel)
    (hb : Reads boolText (rd boolText)) (txt : Str) (h : printModel L fuel boolText ds = some txt) (hv : nul ∉ txt)
    (hc : visible txt = some txt) :
    ∃ es, (∀ n, txt.length < n → readLoop n [] (start txt) = .done [.list es]) ∧
      Defines rd name leaf boolText (ds.filter fun d => !d.constant) es := by
  obtain ⟨txt', es, e, hl, hD⟩ := C81_model L name leaf rd boolText fuel ds hd hb
  rw [h] at e
  cases e
  refine ⟨es, fun n hn => ?_, hD⟩
  exact (C40_read_exact txt txt hv hc n hn).1 [es] (by rw [hl]; simp [SExp.tokss])

/-! ### The derivation -/

theorem plain_number (i : Nat) : PlainWord (showNat i ++ [':']) := by
  have hd : ∀ c, Names.isDigit c = true → isWhiteSpace c = false ∧ c ≠ '(' ∧ c ≠ ')' ∧ c ≠ ';' ∧ c ≠ nul := by
    intro c h
    refine ⟨?_, ?_, ?_, ?_, ?_⟩
    · cases hw : isWhiteSpace c with
      | false => rfl
      | true =>
        simp only [isWhiteSpace, Bool.or_eq_true, beq_iff_eq] at hw
        rcases hw with ((rfl | rfl) | rfl) | rfl <;> exact absurd h (by decide)
    all_goals (intro e; subst e; exact absurd h (by decide))
  refine ⟨by simp, ?_, ?_⟩
  · obtain ⟨c, r, e, h⟩ := Names.showNat_head i
    rw [e]
    simp only [List.cons_append, List.head?_cons, ne_eq, Option.some.injEq]
    intro e; subst e; exact absurd h (by decide)
  · intro c hc
    rcases List.mem_append.1 hc with hc | hc
    · exact hd c (Names.showNat_digits i c hc)
    · rw [List.mem_singleton] at hc
      subst hc
      decide

theorem plain_showNat (i : Nat) : PlainWord (showNat i) := by
  obtain ⟨_, h2, h3⟩ := plain_number i
  obtain ⟨c, r, e, _⟩ := Names.showNat_head i
  refine ⟨Names.showNat_ne_nil i, ?_, fun c hc => h3 c (List.mem_append_left _ hc)⟩
  rw [e] at h2 ⊢
  exact h2

theorem premises_lex : ∀ (l : List Nat) (r : Str), lex .idle (premisesOut l ++ '\n' :: r) = l.map (fun p => Tok.atom (showNat p)) ++ lex .idle r
  | [], r => by rw [premisesOut, List.nil_append, lex_nl]; rfl
  | [p], r => by
    have e : premisesOut [p] ++ '\n' :: r = ' ' :: (showNat p ++ '\n' :: r) := by simp [premisesOut]
    rw [e, lex_sp, lex_plain_word (plain_showNat p) delim_nl, lex_nl]
    rfl
  | p :: q :: l, r => by
    have e : premisesOut (p :: q :: l) ++ '\n' :: r = ' ' :: (showNat p ++ ' ' :: (showNat q ++ premisesOut l ++ '\n' :: r)) := by
      simp [premisesOut]
    have e2 : premisesOut (q :: l) ++ '\n' :: r = ' ' :: (showNat q ++ premisesOut l ++ '\n' :: r) := by simp [premisesOut]
    rw [e, lex_sp, lex_plain_word (plain_showNat p) delim_sp, ← e2, premises_lex (q :: l) r]
    rfl

theorem step_lex {rd : Str → SExp} (i : Nat) (s : PStep) (h : Reads s.fact (rd s.fact)) (r : Str) :
    lex .idle (stepOut i s ++ r) = lineToks rd i s ++ lex .idle r := by
  unfold lineToks
  have e : stepOut i s ++ r = (showNat i ++ [':']) ++ '\t' :: (s.fact ++ ((if s.premises = [] then [] else " -> ".toList ++ premisesOut s.premises) ++
      '\n' :: r)) := by simp [stepOut]
  rw [e, lex_plain_word (plain_number i) delim_tab, lex_tab]
  by_cases hp : s.premises = []
  · rw [if_pos hp, if_pos hp, List.nil_append, h '\n' delim_nl, lex_nl]
    simp
  · rw [if_neg hp, if_neg hp]
    have e2 : " -> ".toList ++ premisesOut s.premises ++ '\n' :: r = ' ' :: ("->".toList ++ ' ' :: (premisesOut s.premises ++ '\n' :: r)) := by
      simp
    rw [e2, h ' ' delim_sp, lex_sp, lex_plain_word (by unfold PlainWord; decide +kernel) delim_sp, lex_sp, premises_lex]
    simp

/-- **C81 (the printed derivation).** The text printed for a derivation consists, line by line, of the number of the step, its fact and, if
it has premises, an arrow and their numbers. -/
theorem C81_derivation (rd : Str → SExp) (l : List PStep) (h : ∀ s ∈ l, Reads s.fact (rd s.fact)) :
    lex .idle (printDerivation l) = linesToks rd 0 l := by
  have : ∀ (l : List PStep) (i : Nat), (∀ s ∈ l, Reads s.fact (rd s.fact)) → ∀ r, lex .idle (stepsOut i l ++ r) = linesToks rd i l ++ lex .idle r := by
    intro l
    induction l with
    | nil => intro i _ r; rfl
    | cons s l ih =>
      intro i h r
      rw [stepsOut, List.append_assoc, step_lex i s (h s List.mem_cons_self), ih (i + 1) (fun x hx => h x (List.mem_cons_of_mem _ hx)),
        linesToks, List.append_assoc]
  rw [printDerivation, this l 0 h, lex_nl]
  simp [lex]

/-- The tokens are none or start with the number of a line. -/
def Line (X : List Tok) : Prop := X = [] ∨ ∃ i Y, X = .atom (showNat i ++ [':']) :: Y

theorem colon_ne (i p : Nat) : showNat i ++ [':'] ≠ showNat p := by
  intro e
  have : ':' ∈ showNat p := by rw [← e]; simp
  exact Names.showNat_not (by decide) p this

theorem arrow_ne (i : Nat) : showNat i ++ [':'] ≠ "->".toList := by
  intro e
  have : ':' ∈ "->".toList := by rw [← e]; simp
  revert this
  decide +kernel

theorem premises_inj : ∀ (p p' : List Nat) (X X' : List Tok), Line X → Line X' →
    p.map (fun p => Tok.atom (showNat p)) ++ X = p'.map (fun p => Tok.atom (showNat p)) ++ X' → p = p' ∧ X = X'
  | [], [], X, X', _, _, e => ⟨rfl, e⟩
  | [], q :: p', X, X', h, _, e => by
    rcases h with rfl | ⟨i, Y, rfl⟩
    · cases e
    · simp only [List.map_nil, List.nil_append, List.map_cons, List.cons_append, List.cons.injEq, Tok.atom.injEq] at e
      exact absurd e.1 (colon_ne i q)
  | q :: p, [], X, X', _, h, e => by
    rcases h with rfl | ⟨i, Y, rfl⟩
    · cases e
    · simp only [List.map_nil, List.nil_append, List.map_cons, List.cons_append, List.cons.injEq, Tok.atom.injEq] at e
      exact absurd e.1.symm (colon_ne i q)
  | q :: p, q' :: p', X, X', h, h', e => by
    simp only [List.map_cons, List.cons_append, List.cons.injEq, Tok.atom.injEq] at e
    obtain ⟨h1, h2⟩ := premises_inj p p' X X' h h' e.2
    exact ⟨by rw [Names.showNat_inj e.1, h1], h2⟩

theorem lines_line (rd : Str → SExp) (i : Nat) (l : List PStep) : Line (linesToks rd i l) := by
  cases l with
  | nil => exact Or.inl rfl
  | cons s l => exact Or.inr ⟨i, _, rfl⟩

theorem lines_inj (rd : Str → SExp) : ∀ (l l' : List PStep) (i : Nat), linesToks rd i l = linesToks rd i l' →
    l.map (fun s => (rd s.fact, s.premises)) = l'.map fun s => (rd s.fact, s.premises)
  | [], [], _, _ => rfl
  | [], s :: l, i, e => by cases e
  | s :: l, [], i, e => by cases e
  | s :: l, s' :: l', i, e => by
    simp only [linesToks, lineToks, List.cons_append, List.cons.injEq, true_and, List.append_assoc] at e
    obtain ⟨h1, e⟩ := toks_inj _ _ _ _ e
    have hl := lines_line rd (i + 1) l
    have hl' := lines_line rd (i + 1) l'
    have key : s.premises = s'.premises ∧ linesToks rd (i + 1) l = linesToks rd (i + 1) l' := by
      by_cases hp : s.premises = []
      · rw [if_pos hp] at e
        by_cases hp' : s'.premises = []
        · rw [if_pos hp'] at e
          exact ⟨by rw [hp, hp'], e⟩
        · rw [if_neg hp'] at e
          rcases hl with h | ⟨j, Y, h⟩
          · rw [h] at e; cases e
          · rw [h] at e
            simp only [List.nil_append, List.cons_append, List.cons.injEq, Tok.atom.injEq] at e
            exact absurd e.1 (arrow_ne j)
      · rw [if_neg hp] at e
        by_cases hp' : s'.premises = []
        · rw [if_pos hp'] at e
          rcases hl' with h | ⟨j, Y, h⟩
          · rw [h] at e; cases e
          · rw [h] at e
            simp only [List.nil_append, List.cons_append, List.cons.injEq, Tok.atom.injEq] at e
            exact absurd e.1.symm (arrow_ne j)
        · rw [if_neg hp'] at e
          simp only [List.cons_append, List.cons.injEq, true_and] at e
          exact premises_inj _ _ _ _ hl hl' e
    rw [List.map_cons, List.map_cons, h1, key.1, lines_inj rd l l' (i + 1) key.2]

/-- **C81 (the text determines the derivation).** Derivations with the same text have the same facts and the same premises. -/
theorem C81_derivation_determined (rd : Str → SExp) (l l' : List PStep) (h : ∀ s ∈ l, Reads s.fact (rd s.fact))
    (h' : ∀ s ∈ l', Reads s.fact (rd s.fact)) (e : printDerivation l = printDerivation l') :
    l.map (fun s => (rd s.fact, s.premises)) = l'.map fun s => (rd s.fact, s.premises) :=
  lines_inj rd l l' 0 (by rw [← C81_derivation rd l h, ← C81_derivation rd l' h', e])

/-- **C81 (what is printed).** A model is printed for a safe result, whatever the format; a derivation for an unsafe one in the legacy format;
without a witness, or in a format that is not one of the three, nothing is. -/
theorem C81_printed (L : PLogic) (fuel : Nat) (boolText : Str) (alethe intermediate : List PStep → Option Str) (format : Str)
    (ds : List PDef) (l : List PStep) :
    printWitness L fuel boolText alethe intermediate format (.safe (some ds)) = printModel L fuel boolText ds ∧
    (printWitness L fuel boolText alethe intermediate "legacy".toList (.bad (some l)) = some (printDerivation l)) ∧
    (printWitness L fuel boolText alethe intermediate "alethe".toList (.bad (some l)) = alethe l) ∧
    (printWitness L fuel boolText alethe intermediate "intermediate".toList (.bad (some l)) = intermediate l) ∧
    (∀ w, w = .safe none ∨ w = .bad none ∨ w = .unknown → printWitness L fuel boolText alethe intermediate format w = some []) ∧
    (format ≠ "legacy".toList → format ≠ "alethe".toList → format ≠ "intermediate".toList →
      printWitness L fuel boolText alethe intermediate format (.bad (some l)) = some []) := by
  refine ⟨rfl, ?_, ?_, ?_, ?_, ?_⟩
  · rw [printWitness, if_pos rfl]
  · rw [printWitness, if_neg (by decide +kernel), if_pos rfl]
  · rw [printWitness, if_neg (by decide +kernel), if_neg (by decide +kernel), if_pos rfl]
  · rintro w (rfl | rfl | rfl) <;> rfl
  · intro h1 h2 h3
    rw [printWitness, if_neg h1, if_neg h2, if_neg h3]

/-! ### Cases -/

/-- Facts `(P 0)` and `false`, the second from the first. -/
def sampleSteps : List PStep := [⟨"true".toList, []⟩, ⟨"(P 0)".toList, [0]⟩, ⟨"false".toList, [1, 1]⟩]

example : printDerivation sampleSteps = "0:\ttrue\n1:\t(P 0) ->  0\n2:\tfalse ->  1 1\n\n".toList := by
  have h0 : showNat 0 = ['0'] := by rw [showNat]; rfl
  have h1 : showNat 1 = ['1'] := by rw [showNat]; rfl
  have h2 : showNat 2 = ['2'] := by rw [showNat]; rfl
  simp [printDerivation, sampleSteps, stepsOut, stepOut, premisesOut, h0, h1, h2]

/-- A model with one predicate, `P`, over `x` and `y`, defined by `(or (and x y) y (and x y))`, and an entry for `true`. -/
def sampleModel : List PDef := [⟨true, "true".toList, [], .node 4 []⟩, ⟨false, ['P'], [(['x'], "Bool".toList), (['y'], "Bool".toList)], Ex.root⟩]

example : ∃ txt body, printModel Ex.L 100 "Bool".toList sampleModel = some txt ∧
    lex .idle txt = (SExp.list [.list [.atom "define-fun".toList, .atom ['P'], .list [.list [.atom ['x'], .atom "Bool".toList],
      .list [.atom ['y'], .atom "Bool".toList]], .atom "Bool".toList, body]]).toks ∧
    expand [] body = .list [.atom ['o', 'r'], .list [.atom ['a', 'n', 'd'], .atom ['x'], .atom ['y']], .atom ['y'],
      .list [.atom ['a', 'n', 'd'], .atom ['x'], .atom ['y']]] := by
  have rw1 : ∀ w : Str, PlainWord w → Reads w (.atom w) := fun w hw d hd r => lex_plain_word hw hd r
  obtain ⟨txt, es, e, h1, h2⟩ := C81_model Ex.L Ex.symText (fun f => .atom (Ex.symText f)) SExp.atom "Bool".toList 100 sampleModel (by
    intro d hd hc
    simp only [sampleModel, List.mem_cons, List.not_mem_nil, or_false] at hd
    rcases hd with rfl | rfl
    · cases hc
    · refine ⟨⟨rw1 _ (by unfold PlainWord; decide +kernel), ?_, LetPrint.Ex.rootOk⟩, by decide⟩
      intro a ha
      simp only [List.mem_cons, List.not_mem_nil, or_false] at ha
      rcases ha with rfl | rfl <;>
        exact ⟨rw1 _ (by unfold PlainWord; decide +kernel), rw1 _ (by unfold PlainWord; decide +kernel)⟩)
    (rw1 _ (by unfold PlainWord; decide +kernel))
  match es, h2 with
  | [x], ⟨⟨body, hx, hb⟩, _⟩ =>
    subst hx
    exact ⟨txt, body, e, h1, hb⟩

/-- The facts can be read. -/
example : ∃ rd : Str → SExp, (∀ s ∈ sampleSteps, Reads s.fact (rd s.fact)) ∧ rd "(P 0)".toList = .list [.atom ['P'], .atom ['0']] := by
  refine ⟨fun s => if s = "(P 0)".toList then .list [.atom ['P'], .atom ['0']] else .atom s, ?_, if_pos rfl⟩
  intro s hs
  simp only [sampleSteps, List.mem_cons, List.not_mem_nil, or_false] at hs
  rcases hs with rfl | rfl | rfl
  · show Reads _ (if _ = _ then _ else _)
    rw [if_neg (by decide +kernel)]
    exact fun d hd r => lex_plain_word (by unfold PlainWord; decide +kernel) hd r
  · show Reads _ (if _ = _ then _ else _)
    rw [if_pos rfl]
    intro d hd r
    have e : "(P 0)".toList ++ d :: r = '(' :: (['P'] ++ ' ' :: (['0'] ++ ')' :: d :: r)) := by simp
    rw [e, lex_lp, lex_plain_word (by unfold PlainWord; decide +kernel) delim_sp, lex_sp, lex_plain_word (by unfold PlainWord; decide +kernel) delim_rp, lex_rp]
    simp [SExp.toks, SExp.tokss]
  · show Reads _ (if _ = _ then _ else _)
    rw [if_neg (by decide +kernel)]
    exact fun d hd r => lex_plain_word (by unfold PlainWord; decide +kernel) hd r

end WitnessPrint
end Golem
