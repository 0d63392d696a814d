import Verif.Model.Proofs.IntermediateText
import Verif.Props.ProofTextBuilt
import Verif.Props.Intermediate

/-!
C82: the text of a proof in the intermediate format.
-/

namespace Golem
namespace Alethe

open SExpr
open Names (showNat)
open LetPrint (Reads delim_sp delim_rp lex_sp lex_lp lex_rp)
open WitnessPrint (lex_nl lex_tab delim_tab delim_nl plain_showNat)

/-! ### Specification -/

/-- The expression of a line. -/
def iExp : IStep → SExp
  | .clause t _ => termExp t
  | .ground t => termExp t
  | .implies ps f => .list (.atom ['=', '>'] :: (termExps ps ++ [termExp f]))
  | .fact f _ => termExp f

/-- The values on a line: those of the variables of a clause. -/
def iValues : IStep → List Term
  | .clause _ vs => vs
  | .ground _ => []
  | .implies _ _ => []
  | .fact _ _ => []

/-- The lines that a line cites: those of the premises of a fact. -/
def iCited : IStep → List Nat
  | .clause _ _ => []
  | .ground _ => []
  | .implies _ _ => []
  | .fact _ ks => ks

/-- A line as tokens: its number, its expression, the values if any, the numbers of the premises if any. -/
def iLine (k : Nat) (s : IStep) : List Tok :=
  .atom (showNat k) :: ((iExp s).toks ++ ((if iValues s = [] then [] else .atom ":args".toList :: (SExp.list (termExps (iValues s))).toks) ++
    (if iCited s = [] then [] else .atom ":premises".toList :: (iCited s).map fun p => .atom (showNat p))))

def iLines : Nat → List IStep → List Tok
  | _, [] => []
  | k, s :: l => iLine k s ++ iLines (k + 1) l

/-- The names on a line are read as symbols. -/
def INamed : IStep → Prop
  | .clause t as => Named t ∧ Nameds as
  | .ground t => Named t
  | .implies ps f => Nameds ps ∧ Named f
  | .fact f _ => Named f

/-! ### Reading -/

theorem reads_iTerm (s : IStep) (h : INamed s) : Reads (iTermText s) (iExp s) := by
  cases s with
  | clause t as => exact reads_term t h.1
  | ground t => exact reads_term t h
  | fact f _ => exact reads_term f h
  | implies ps f =>
    obtain ⟨h1, h2⟩ := h
    refine reads_of fun X hX => ?_
    have e : iTermText (.implies ps f) ++ X = '(' :: (['=', '>'] ++ (' ' :: (joined (ps.map termText) ++ (' ' :: (termText f ++ (')' :: X)))))) := by
      simp [iTermText]
    rw [e, lex_lp, reads_tail (reads_word (by decide +kernel)) (tail_sp _), lex_sp, joined_terms h1 (tail_sp _), lex_sp,
      reads_tail (reads_term f h2) (tail_rp _), lex_rp]
    simp only [iExp, SExp.toks, SExp.tokss, tokss_map_append, List.cons_append, List.nil_append, List.append_assoc]

theorem numbers_lex : ∀ (l : List Nat) (r : Str), lex .idle (numbersText l ++ r) = l.map (fun p => Tok.atom (showNat p)) ++ lex .idle r
  | [], _ => rfl
  | p :: l, r => by
    simp only [numbersText, List.append_assoc, List.cons_append]
    rw [reads_tail (reads_showNat p) (tail_sp _), lex_sp, numbers_lex l r]
    rfl

theorem args_named {s : IStep} (h : INamed s) : Nameds s.args := by
  cases s with
  | clause t as => exact h.2
  | _ => simp only [IStep.args, Nameds]

theorem args_eq (s : IStep) : iValues s = s.args := by cases s <;> rfl
theorem premises_eq (s : IStep) : iCited s = s.premises := by cases s <;> rfl

theorem line_lex (k : Nat) (s : IStep) (h : INamed s) (r : Str) : lex .idle (lineText k s ++ r) = iLine k s ++ lex .idle r := by
  have e : lineText k s ++ r = showNat k ++ ('\t' :: ' ' :: (iTermText s ++ (' ' ::
      ((if s.args = [] then [] else ' ' :: (":args".toList ++ ' ' :: '(' :: (joined (s.args.map termText) ++ [')']))) ++
      ((if s.premises = [] then [] else ' ' :: (":premises".toList ++ ' ' :: numbersText s.premises)) ++ ('\n' :: r)))))) := by
    unfold lineText
    generalize (if s.args = [] then [] else ' ' :: (":args".toList ++ ' ' :: '(' :: (joined (s.args.map termText) ++ [')']))) = A
    generalize (if s.premises = [] then [] else ' ' :: (":premises".toList ++ ' ' :: numbersText s.premises)) = B
    simp only [List.append_assoc, List.cons_append, List.nil_append]
  have tt : ∀ X, Tail ('\t' :: X) := fun X => ⟨_, _, rfl, delim_tab⟩
  rw [e, reads_tail (reads_showNat k) (tt _), lex_tab, lex_sp, reads_tail (reads_iTerm s h) (tail_sp _), lex_sp]
  have h2 : lex .idle ((if s.premises = [] then [] else ' ' :: (":premises".toList ++ ' ' :: numbersText s.premises)) ++ ('\n' :: r)) =
      (if s.premises = [] then [] else .atom ":premises".toList :: s.premises.map fun p => .atom (showNat p)) ++ lex .idle r := by
    split
    · rw [List.nil_append, List.nil_append, lex_nl]
    · simp only [List.cons_append, List.append_assoc]
      rw [lex_sp, reads_tail (reads_word (by decide +kernel)) (tail_sp _), lex_sp, numbers_lex, lex_nl]
      simp only [SExp.toks, List.cons_append, List.nil_append]
  have h1 : ∀ Y, lex .idle ((if s.args = [] then [] else ' ' :: (":args".toList ++ ' ' :: '(' :: (joined (s.args.map termText) ++ [')']))) ++ Y) =
      (if s.args = [] then [] else .atom ":args".toList :: (SExp.list (termExps s.args)).toks) ++ lex .idle Y := by
    intro Y
    split
    · rfl
    · simp only [List.cons_append, List.append_assoc, List.nil_append]
      rw [lex_sp, reads_tail (reads_word (by decide +kernel)) (tail_sp _), lex_sp, lex_lp, joined_terms (args_named h) (tail_rp _), lex_rp]
      simp only [SExp.toks, List.cons_append, List.nil_append, List.append_assoc]
  rw [h1, h2]
  simp only [iLine, args_eq, premises_eq, SExp.toks, List.cons_append, List.nil_append, List.append_assoc]

/-- **C82 (the text).** The text of a proof in the intermediate format consists, line by line, of the number of the line, its expression, the values and the
numbers of the premises. -/
theorem C82_text (ss : List IStep) (h : ∀ s ∈ ss, INamed s) : lex .idle (intermediateText 0 ss) = iLines 0 ss := by
  have : ∀ (l : List IStep) (k : Nat), (∀ s ∈ l, INamed s) → lex .idle (intermediateText k l) = iLines k l := by
    intro l
    induction l with
    | nil => intro k _; simp [intermediateText, iLines, lex]
    | cons s l ih =>
      intro k h
      rw [intermediateText, line_lex k s (h s (by simp)), ih (k + 1) fun x hx => h x (by simp [hx]), iLines]
  exact this ss 0 h

/-- **C82 (a line is determined by its text).** Lines with the same text have the same expression, the same values and the same premises. -/
theorem C82_line_determined (sortOf : Str → Sort') (k : Nat) (s s' : IStep) (h : INamed s) (h' : INamed s') (hc : Clears sortOf (iValues s))
    (hc' : Clears sortOf (iValues s')) (e : lineText k s = lineText k s') : iExp s = iExp s' ∧ iValues s = iValues s' ∧ iCited s = iCited s' := by
  have e1 : iLine k s ++ lex .idle [] = iLine k s' ++ lex .idle [] := by
    rw [← line_lex k s h, ← line_lex k s' h', e]
  have e2 := List.append_cancel_right e1
  unfold iLine at e2
  rw [args_eq] at hc hc'
  simp only [args_eq, premises_eq] at e2 ⊢
  rw [List.cons.injEq] at e2
  obtain ⟨e3, e4⟩ := toks_inj _ _ _ _ e2.2
  refine ⟨e3, ?_⟩
  have n : ":args".toList ≠ ":premises".toList := by decide +kernel
  generalize ":args".toList = a at *
  generalize ":premises".toList = b at *
  have pinj : ∀ p p' : List Nat, (if p = [] then [] else Tok.atom b :: p.map fun p => Tok.atom (showNat p)) =
      (if p' = [] then [] else Tok.atom b :: p'.map fun p => Tok.atom (showNat p)) → p = p' := by
    intro p p' e
    have key : ∀ p p' : List Nat, (p.map fun p => Tok.atom (showNat p)) = (p'.map fun p => Tok.atom (showNat p)) → p = p' := by
      intro p
      induction p with
      | nil => intro p' e; cases p' with
        | nil => rfl
        | cons q p' => cases e
      | cons q p ih => intro p' e; cases p' with
        | nil => cases e
        | cons q' p' =>
          simp only [List.map_cons, List.cons.injEq, Tok.atom.injEq] at e
          rw [Names.showNat_inj e.1, ih p' e.2]
    by_cases hp : p = [] <;> by_cases hp' : p' = []
    · rw [hp, hp']
    · rw [if_pos hp, if_neg hp'] at e; cases e
    · rw [if_neg hp, if_pos hp'] at e; cases e
    · rw [if_neg hp, if_neg hp', List.cons.injEq] at e
      exact key p p' e.2
  by_cases ha : s.args = [] <;> by_cases ha' : s'.args = []
  · rw [if_pos ha, if_pos ha', List.nil_append, List.nil_append] at e4
    exact ⟨by rw [ha, ha'], pinj _ _ e4⟩
  · rw [if_pos ha, if_neg ha', List.nil_append, List.cons_append] at e4
    by_cases hq : s.premises = []
    · rw [if_pos hq] at e4; cases e4
    · rw [if_neg hq, List.cons.injEq, Tok.atom.injEq] at e4
      exact absurd e4.1.symm n
  · rw [if_neg ha, if_pos ha', List.nil_append, List.cons_append] at e4
    by_cases hq : s'.premises = []
    · rw [if_pos hq] at e4; cases e4
    · rw [if_neg hq, List.cons.injEq, Tok.atom.injEq] at e4
      exact absurd e4.1 n
  · rw [if_neg ha, if_neg ha', List.cons_append, List.cons_append, List.cons.injEq] at e4
    obtain ⟨e5, e6⟩ := toks_inj _ _ _ _ e4.2
    rw [SExp.list.injEq] at e5
    exact ⟨termExps_inj _ _ hc hc' e5, pinj _ _ e6⟩

/-! ### Proofs that are built -/

section
variable {sortOf : Str → Sort'}

/-- The conditions on a line. -/
def IG (sortOf : Str → Sort') (s : IStep) : Prop := INamed s ∧ Clears sortOf s.args

theorem instanceOf_g {a t : Term} {σ : Inst} {pre : List IStep} (h : instanceOf a σ = some (t, pre)) (ha : GT sortOf a) :
    GT sortOf t ∧ ∀ s ∈ pre, IG sortOf s := by
  unfold instanceOf at h
  split at h
  · cases h
    exact ⟨ha, fun s hs => absurd hs (List.not_mem_nil)⟩
  · split at h
    · rename_i xs b
      split at h
      · cases h
        refine ⟨g_inst σ _ ha, fun s hs => ?_⟩
        cases List.mem_singleton.1 hs
        have hl : ∀ t ∈ xs.filterMap (fun x => (σ.lookup x.1).map lit), GT sortOf t := by
          intro t ht
          obtain ⟨x, _, hx⟩ := List.mem_filterMap.1 ht
          cases e : σ.lookup x.1 with
          | none => rw [e] at hx; cases hx
          | some v => rw [e] at hx; cases hx; exact g_lit v
        have := (gs_iff _).2 hl
        exact ⟨⟨ha.1, this.1⟩, this.2⟩
      · cases h
    · cases h

theorem intermediateStep_g {as : List Term} {ds : List Coarse} {i : Nat} {cs : Coarse} {m m' : List (Nat × Nat)} {ss ss' : List IStep}
    (h : intermediateStep as ds i cs m ss = some (m', ss')) (ha : ∀ A ∈ as, GT sortOf A) (hd : ∀ d ∈ ds, GT sortOf d.fact) (hc : GT sortOf cs.fact)
    (hs : ∀ s ∈ ss, IG sortOf s) : ∀ s ∈ ss', IG sortOf s := by
  unfold intermediateStep at h
  split at h
  · cases h; exact hs
  split at h
  · cases h
  rename_i a hA
  split at h
  · cases h
  rename_i t pre hi
  obtain ⟨h1, h2⟩ := instanceOf_g hi (ha a (List.mem_of_getElem? hA))
  dsimp only at h
  split at h
  · cases h
    have hl : ∀ t ∈ cs.premises.filterMap (fun p => ds[p]?.map Coarse.fact), GT sortOf t := by
      intro t ht
      obtain ⟨p, _, hx⟩ := List.mem_filterMap.1 ht
      cases e : ds[p]? with
      | none => rw [e] at hx; cases hx
      | some d => rw [e] at hx; cases hx; exact hd d (List.mem_of_getElem? e)
    have hn : Clears sortOf ([] : List Term) := by simp only [Clears]
    intro s hs'
    simp only [List.mem_append, List.mem_cons, List.not_mem_nil, or_false] at hs'
    rcases hs' with ((h | h) | rfl | rfl) | rfl
    · exact hs s h
    · exact h2 s h
    · exact ⟨h1.1, hn⟩
    · exact ⟨⟨((gs_iff _).2 hl).1, hc.1⟩, hn⟩
    · exact ⟨hc.1, hn⟩
  · cases h

theorem intermediateSteps_g {as : List Term} {ds : List Coarse} (ha : ∀ A ∈ as, GT sortOf A) (hd : ∀ d ∈ ds, GT sortOf d.fact) :
    ∀ (l : List Coarse) (i : Nat) (m : List (Nat × Nat)) (ss ss' : List IStep), (∀ d ∈ l, GT sortOf d.fact) → (∀ s ∈ ss, IG sortOf s) →
      intermediateSteps as ds i l m ss = some ss' → ∀ s ∈ ss', IG sortOf s
  | [], _, _, ss, ss', _, hs, h => by rw [intermediateSteps] at h; cases h; exact hs
  | cs :: l, i, m, ss, ss', hl, hs, h => by
    rw [intermediateSteps] at h
    split at h
    · cases h
    · rename_i m1 ss1 h1
      exact intermediateSteps_g ha hd l (i + 1) m1 ss1 ss' (fun d hd' => hl d (List.mem_cons_of_mem _ hd'))
        (intermediateStep_g h1 ha hd (hl cs List.mem_cons_self) hs) h
end

/-- **C82 (built proofs).** The conditions on names hold of every proof that is built from clauses and facts that meet them, so its text is its lines. -/
theorem C82_text_built (sortOf : Str → Sort') (assertions : List Term) (ds : List Coarse) (ha : ∀ A ∈ assertions, Named A ∧ Clear sortOf A)
    (hd : ∀ d ∈ ds, Named d.fact ∧ Clear sortOf d.fact) (ss : List IStep) (h : buildIntermediate assertions ds = some ss) :
    (∀ s ∈ ss, INamed s ∧ Clears sortOf (iValues s)) ∧ lex .idle (intermediateText 0 ss) = iLines 0 ss := by
  have := intermediateSteps_g (sortOf := sortOf) ha hd ds 0 [] [] ss hd (fun s hs => absurd hs (List.not_mem_nil)) h
  exact ⟨fun s hs => by rw [args_eq]; exact this s hs, C82_text ss fun s hs => (this s hs).1⟩

/-! ### Cases -/

/-- The clauses and the facts of the derivation in C82 meet the conditions. -/
example : (∀ A ∈ iClauses, Named A ∧ Clear (fun _ => .int) A) ∧ ∀ d ∈ exDeriv, Named d.fact ∧ Clear (fun _ => .int) d.fact :=
  ⟨fun A hA => good_ok A (List.all_eq_true.1 (by decide +kernel : (iClauses.all (goodNames fun _ => .int)) = true) A hA),
   fun d hd => good_ok d.fact (List.all_eq_true.1 (by decide +kernel : (exDeriv.all fun d => goodNames (fun _ => .int) d.fact) = true) d hd)⟩

example : lineText 0 (.clause (.all [(cX, .int)] (.op .imp [.op .eq [vx, .num 0], .app cP [vx]])) [.num 0]) =
    "0\t (forall ((x Int)) (=> (= x 0) (P x)))  :args (0)\n".toList := by
  have h0 : showNat 0 = ['0'] := by rw [showNat]; rfl
  simp [lineText, iTermText, IStep.args, IStep.premises, termText, argsText, joined, boundText, sortText, opText, numText, cX, cP, vx, h0]

example : lineText 1 (.implies [.app cP [.num 0], .bool true] (.bool false)) = "1\t (=> (P 0) true false) \n".toList := by
  have h0 : showNat 0 = ['0'] := by rw [showNat]; rfl
  have h1 : showNat 1 = ['1'] := by rw [showNat]; rfl
  simp [lineText, iTermText, IStep.args, IStep.premises, termText, argsText, joined, boolText, numText, cP, h0, h1]

example : lineText 2 (.fact (.bool false) [1, 0]) = "2\t false  :premises 1 0 \n".toList := by
  have h0 : showNat 0 = ['0'] := by rw [showNat]; rfl
  have h1 : showNat 1 = ['1'] := by rw [showNat]; rfl
  have h2 : showNat 2 = ['2'] := by rw [showNat]; rfl
  simp [lineText, iTermText, IStep.args, IStep.premises, termText, numbersText, boolText, h0, h1, h2]

end Alethe
end Golem
