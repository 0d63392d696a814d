import Verif.Model.SExpr
/-
C40: s-expression printing and parsing.
-/

namespace Golem
namespace SExpr

/-! ### Specification: comments, tokens, and the token sequence of an expression -/

/-- The input with comments (from `;` up to the end of the line) removed; `none` if a comment is not closed by a
newline. The flag tells whether we are inside a comment. -/
def clean : Bool → List Char → Option (List Char)
  | false, [] => some []
  | true, [] => none
  | false, c :: r => if c = ';' then clean true r else (clean false r).map (c :: ·)
  | true, c :: r => if c = '\n' then (clean false r).map ('\n' :: ·) else clean true r

/-- Tokens; `cut` stands for input that ends inside a token. -/
inductive Tok where
  | lp
  | rp
  | atom (s : List Char)
  | cut

/-- What the tokenizer is reading. -/
inductive Mode where
  | idle
  | word (s : List Char)
  | quote (s : List Char)

/-- The tokens of a text without comments: parentheses, words ended by white space or a parenthesis, and quoted words
`|...|`. -/
def lex : Mode → List Char → List Tok
  | .idle, [] => []
  | .word _, [] => [.cut]
  | .quote _, [] => [.cut]
  | .idle, c :: s =>
    if isWhiteSpace c then lex .idle s
    else if c = '(' then .lp :: lex .idle s
    else if c = ')' then .rp :: lex .idle s
    else if c = '|' then lex (.quote []) s
    else lex (.word [c]) s
  | .word w, c :: s =>
    if isWhiteSpace c then .atom w :: lex .idle s
    else if c = '(' then .atom w :: .lp :: lex .idle s
    else if c = ')' then .atom w :: .rp :: lex .idle s
    else lex (.word (w ++ [c])) s
  | .quote w, c :: s =>
    if c = '|' then .atom w :: lex .idle s else lex (.quote (w ++ [c])) s

mutual
/-- The tokens of an expression. -/
def SExp.toks : SExp → List Tok
  | .atom s => [.atom s]
  | .list es => .lp :: (SExp.tokss es ++ [.rp])
def SExp.tokss : List SExp → List Tok
  | [] => []
  | e :: es => SExp.toks e ++ SExp.tokss es
end

/-- A word that needs no quotes. -/
def PlainWord (s : List Char) : Prop :=
  s ≠ [] ∧ s.head? ≠ some '|' ∧
    ∀ c ∈ s, isWhiteSpace c = false ∧ c ≠ '(' ∧ c ≠ ')' ∧ c ≠ ';' ∧ c ≠ nul

mutual
/-- All atoms are plain words. -/
def SExp.Plain : SExp → Prop
  | .atom s => PlainWord s
  | .list es => SExp.Plains es
def SExp.Plains : List SExp → Prop
  | [] => True
  | e :: es => SExp.Plain e ∧ SExp.Plains es
end

/-! ### An expression is determined by its tokens -/

theorem toks_head (e : SExp) : ∃ t r, e.toks = t :: r ∧ t ≠ .rp := by
  cases e with
  | atom s => exact ⟨_, _, rfl, by simp⟩
  | list es => exact ⟨_, _, rfl, by simp⟩

mutual
theorem toks_inj : ∀ (e e' : SExp) (t t' : List Tok), e.toks ++ t = e'.toks ++ t' → e = e' ∧ t = t'
  | .atom s, .atom s', t, t', h => by
    simp only [SExp.toks, List.cons_append, List.nil_append, List.cons.injEq, Tok.atom.injEq] at h
    exact ⟨by rw [h.1], h.2⟩
  | .atom s, .list es, t, t', h => by simp [SExp.toks] at h
  | .list es, .atom s, t, t', h => by simp [SExp.toks] at h
  | .list es, .list es', t, t', h => by
    simp only [SExp.toks, List.cons_append, List.cons.injEq, true_and, List.append_assoc, List.nil_append] at h
    obtain ⟨h1, h2⟩ := tokss_inj es es' t t' h
    exact ⟨by rw [h1], h2⟩
theorem tokss_inj : ∀ (es es' : List SExp) (t t' : List Tok),
    SExp.tokss es ++ .rp :: t = SExp.tokss es' ++ .rp :: t' → es = es' ∧ t = t'
  | [], [], t, t', h => by simpa [SExp.tokss] using h
  | [], e :: es, t, t', h => by
    obtain ⟨x, r, hx, hr⟩ := toks_head e
    simp only [SExp.tokss, hx, List.nil_append, List.cons_append, List.cons.injEq] at h
    exact absurd h.1.symm hr
  | e :: es, [], t, t', h => by
    obtain ⟨x, r, hx, hr⟩ := toks_head e
    simp only [SExp.tokss, hx, List.nil_append, List.cons_append, List.cons.injEq] at h
    exact absurd h.1 hr
  | e :: es, e' :: es', t, t', h => by
    simp only [SExp.tokss, List.append_assoc] at h
    obtain ⟨h1, h2⟩ := toks_inj e e' _ _ h
    obtain ⟨h3, h4⟩ := tokss_inj es es' _ _ h2
    exact ⟨by rw [h1, h3], h4⟩
end

/-! ### The character stream -/

/-- `v` is what the parser will still see. -/
def View (st : St) (v : List Char) : Prop :=
  nul ∉ st.rest ∧
    ((st.good = true ∧ st.token ≠ nul ∧ ∃ r, clean false st.rest = some r ∧ v = st.token :: r) ∨
      (st.good = false ∧ st.token = eofChar ∧ v = []))

theorem skipComment_clean : ∀ (r v : List Char), nul ∉ r → clean true r = some v →
    ∃ st', skipComment r = .done st' ∧ View st' v
  | [], v, _, h => by simp [clean] at h
  | c :: r, v, hn, h => by
    have hc : c ≠ nul := fun h => hn (by rw [h]; exact List.mem_cons_self)
    have hr : nul ∉ r := fun h => hn (List.mem_cons_of_mem _ h)
    rw [clean] at h
    rw [skipComment]
    by_cases h1 : c = '\n'
    · rw [if_pos h1] at h
      rw [if_pos (Or.inl h1)]
      cases hv : clean false r with
      | none => rw [hv] at h; cases h
      | some w =>
        rw [hv] at h
        simp only [Option.map_some, Option.some.injEq] at h
        exact ⟨_, rfl, hr, Or.inl ⟨rfl, hc, w, hv, by rw [← h, h1]⟩⟩
    · rw [if_neg h1] at h
      rw [if_neg (by simp [h1, hc])]
      exact skipComment_clean r v hr h

theorem View.cons {st : St} {c : Char} {v : List Char} (h : View st (c :: v)) :
    st.token = c ∧ c ≠ nul ∧ st.good = true ∧ nul ∉ st.rest ∧ clean false st.rest = some v := by
  obtain ⟨h1, ⟨h2, h3, r, h4, h5⟩ | ⟨_, _, h5⟩⟩ := h
  · cases h5; exact ⟨rfl, h3, h2, h1, h4⟩
  · cases h5

theorem View.nil {st : St} (h : View st []) : st.token = eofChar ∧ st.good = false := by
  obtain ⟨_, ⟨_, _, r, _, h5⟩ | ⟨h2, h3, _⟩⟩ := h
  · cases h5
  · exact ⟨h3, h2⟩

theorem clean_view {r v : List Char} (hn : nul ∉ r) (h : clean false r = some v) {t : Char} :
    ∃ st', (let st' := get ⟨t, r, true⟩; if st'.token = ';' then skipComment st'.rest else .done st') = .done st' ∧
      View st' v := by
  cases r with
  | nil =>
    simp only [clean, Option.some.injEq] at h
    subst h
    refine ⟨⟨eofChar, [], false⟩, ?_, by simp, Or.inr ⟨rfl, rfl, rfl⟩⟩
    simp only [get, if_true]
    rw [if_neg (by decide)]
  | cons c r =>
    have hc : c ≠ nul := fun h => hn (by rw [h]; exact List.mem_cons_self)
    have hr : nul ∉ r := fun h => hn (List.mem_cons_of_mem _ h)
    simp only [get, if_true]
    rw [clean] at h
    by_cases h1 : c = ';'
    · rw [if_pos h1] at h ⊢
      exact skipComment_clean r v hr h
    · rw [if_neg h1] at h ⊢
      cases hv : clean false r with
      | none => rw [hv] at h; cases h
      | some w =>
        rw [hv] at h
        simp only [Option.map_some, Option.some.injEq] at h
        exact ⟨_, rfl, hr, Or.inl ⟨rfl, hc, w, hv, h.symm⟩⟩

theorem advance_view {st : St} {c : Char} {v : List Char} (h : View st (c :: v)) :
    ∃ st', advance st = .done st' ∧ View st' v := by
  obtain ⟨h1, h2, h3, h4, h5⟩ := h.cons
  obtain ⟨st', e, hv⟩ := clean_view h4 h5 (t := st.token)
  refine ⟨st', ?_, hv⟩
  unfold advance
  rw [if_pos h3]
  have : st = ⟨st.token, st.rest, true⟩ := by cases st; simp_all
  rw [this]; exact e

theorem advance_end {st : St} (h : View st []) : advance st = .thrown := by
  unfold advance; rw [h.nil.2]; rfl

theorem skip_view : ∀ (n : Nat) (st : St) (v : List Char), View st v → v.length < n →
    ∃ st', skipWhitespace n st = .done st' ∧ View st' (v.dropWhile isWhiteSpace)
  | 0, _, _, _, h => by omega
  | n + 1, st, [], hv, _ => by
    refine ⟨st, ?_, hv⟩
    rw [skipWhitespace, hv.nil.1, if_neg (by decide)]
  | n + 1, st, c :: v, hv, hl => by
    rw [skipWhitespace, hv.cons.1]
    by_cases hc : isWhiteSpace c = true
    · rw [if_pos hc]
      obtain ⟨st', e, hv'⟩ := advance_view hv
      rw [e]
      simp only
      obtain ⟨st'', e', hv''⟩ := skip_view n st' v hv' (by simp at hl; omega)
      exact ⟨st'', e', by rw [List.dropWhile_cons, if_pos hc]; exact hv''⟩
    · rw [if_neg hc]
      exact ⟨st, rfl, by rw [List.dropWhile_cons, if_neg hc]; exact hv⟩

theorem lex_dropWhile (v : List Char) : lex .idle (v.dropWhile isWhiteSpace) = lex .idle v := by
  induction v with
  | nil => rfl
  | cons c v ih =>
    rw [List.dropWhile_cons]
    split
    · rename_i h; rw [ih]; conv => rhs; rw [lex]
      rw [if_pos h]
    · rfl

theorem length_dropWhile (v : List Char) : (v.dropWhile isWhiteSpace).length ≤ v.length :=
  (List.dropWhile_suffix _).length_le

/-- The loop for words. -/
theorem word_view : ∀ (n : Nat) (st : St) (v w : List Char), View st v → v.length < n →
    (tokenLoop false n w st = .thrown ∧ lex (.word w) v = [.cut]) ∨
      ∃ s st' v', tokenLoop false n w st = .done (s, st') ∧ View st' v' ∧ v'.length ≤ v.length ∧
        lex (.word w) v = .atom s :: lex .idle v'
  | 0, _, _, _, _, h => by omega
  | n + 1, st, [], w, hv, _ => by
    left
    refine ⟨?_, rfl⟩
    rw [tokenLoop, hv.nil.1, if_neg (by decide), if_neg (by decide), if_neg (by decide), advance_end hv]
  | n + 1, st, c :: v, w, hv, hl => by
    obtain ⟨ht, hn, _⟩ := hv.cons
    rw [tokenLoop, ht, if_neg hn, if_neg (by simp)]
    by_cases hc : isWhiteSpace c = true ∨ c = '(' ∨ c = ')'
    · rw [if_pos ⟨rfl, hc⟩]
      right
      refine ⟨w, st, c :: v, rfl, hv, Nat.le_refl _, ?_⟩
      rcases hc with hc | hc | hc
      · simp [lex, hc]
      · subst hc; simp [lex, isWhiteSpace]
      · subst hc; simp [lex, isWhiteSpace]
    · rw [if_neg (by simp only [true_and]; exact hc)]
      obtain ⟨st', e, hv'⟩ := advance_view hv
      rw [e]
      simp only
      have el : lex (.word w) (c :: v) = lex (.word (w ++ [c])) v := by
        conv => lhs; rw [lex]
        rw [if_neg fun h => hc (Or.inl h), if_neg fun h => hc (Or.inr (Or.inl h)), if_neg fun h => hc (Or.inr (Or.inr h))]
      rw [el]
      rcases word_view n st' v (w ++ [c]) hv' (by simp at hl; omega) with h | ⟨s, st'', v', h1, h2, h3, h4⟩
      · exact Or.inl h
      · exact Or.inr ⟨s, st'', v', h1, h2, by simp; omega, h4⟩

/-- The loop for quoted words. -/
theorem quote_view : ∀ (n : Nat) (st : St) (v w : List Char), View st v → v.length < n →
    (tokenLoop true n w st = .thrown ∧ lex (.quote w) v = [.cut]) ∨
      ∃ s st' v', tokenLoop true n w st = .done (s, st') ∧ View st' v' ∧ v'.length ≤ v.length ∧
        lex (.quote w) v = .atom s :: lex .idle v'
  | 0, _, _, _, _, h => by omega
  | n + 1, st, [], w, hv, _ => by
    left
    refine ⟨?_, rfl⟩
    rw [tokenLoop, hv.nil.1, if_neg (by decide), if_neg (by decide), if_neg (by decide), advance_end hv]
  | n + 1, st, c :: v, w, hv, hl => by
    obtain ⟨ht, hn, _⟩ := hv.cons
    obtain ⟨st', e, hv'⟩ := advance_view hv
    rw [tokenLoop, ht, if_neg hn]
    by_cases hc : c = '|'
    · rw [if_pos ⟨rfl, hc⟩, e]
      right
      exact ⟨w, st', v, rfl, hv', by simp, by simp [lex, hc]⟩
    · rw [if_neg (by simp [hc]), if_neg (by simp), e]
      simp only
      have el : lex (.quote w) (c :: v) = lex (.quote (w ++ [c])) v := by
        conv => lhs; rw [lex]
        rw [if_neg hc]
      rw [el]
      rcases quote_view n st' v (w ++ [c]) hv' (by simp at hl; omega) with h | ⟨s, st'', v', h1, h2, h3, h4⟩
      · exact Or.inl h
      · exact Or.inr ⟨s, st'', v', h1, h2, by simp; omega, h4⟩

/-- Outcome of reading one expression: either the error, and the tokens do not start with an expression, or that
expression, and the rest of the tokens remain. -/
def ReadOk (r : Outcome (SExp × St)) (v : List Char) : Prop :=
  (r = .thrown ∧ ∀ e t, lex .idle v ≠ SExp.toks e ++ t) ∨
    ∃ e st' v', r = .done (e, st') ∧ View st' v' ∧ v'.length < v.length ∧ lex .idle v = e.toks ++ lex .idle v'

theorem cut_not (e : SExp) (t : List Tok) : [Tok.cut] ≠ e.toks ++ t := by
  cases e <;> simp [SExp.toks]

theorem skip_id {n : Nat} {st : St} {c : Char} {v : List Char} (hv : View st (c :: v)) (hc : isWhiteSpace c = false) :
    skipWhitespace (n + 1) st = .done st := by
  rw [skipWhitespace, hv.cons.1, hc]; rfl

theorem parseToken_view {n : Nat} {st : St} {v : List Char} (hv : View st v) (hl : v.length < n + 1)
    (hw : ∀ c r, v = c :: r → isWhiteSpace c = false ∧ c ≠ '(' ∧ c ≠ ')') :
    ReadOk (match parseToken (n + 1) st with
      | .done (s, st) => .done (.atom s, st)
      | .thrown => .thrown
      | .outOfFuel => .outOfFuel) v := by
  have fin : ∀ {r : Outcome (List Char × St)} {ts : List Tok}, lex .idle v = ts →
      ((r = .thrown ∧ ts = [.cut]) ∨ ∃ s st' v', r = .done (s, st') ∧ View st' v' ∧ v'.length < v.length ∧
        ts = .atom s :: lex .idle v') →
      ReadOk (match r with | .done (s, st) => .done (.atom s, st) | .thrown => .thrown | .outOfFuel => .outOfFuel) v := by
    intro r ts e h
    rcases h with ⟨rfl, h⟩ | ⟨s, st', v', rfl, h1, h2, h3⟩
    · left; exact ⟨rfl, fun e' t he => cut_not e' t (by rw [← he, e, h])⟩
    · right; exact ⟨.atom s, st', v', rfl, h1, h2, by rw [e, h3]; rfl⟩
  cases v with
  | nil =>
    have hs : skipWhitespace (n + 1) st = .done st := by
      rw [skipWhitespace, hv.nil.1, if_neg (by decide)]
    have hp : parseToken (n + 1) st = .thrown := by
      unfold parseToken
      rw [hs]
      simp only
      rw [hv.nil.1, if_neg (by decide), tokenLoop, hv.nil.1, if_neg (by decide), if_neg (by decide),
        if_neg (by decide), advance_end hv]
    rw [hp]
    left
    refine ⟨rfl, fun e t h => ?_⟩
    obtain ⟨x, r, hx, _⟩ := toks_head e
    rw [hx] at h; simp [lex] at h
  | cons c v =>
    obtain ⟨hc1, hc2, hc3⟩ := hw c v rfl
    have hs : skipWhitespace (n + 1) st = .done st := skip_id hv hc1
    obtain ⟨ht, hn, _⟩ := hv.cons
    unfold parseToken
    rw [hs]
    simp only
    by_cases hp : c = '|'
    · rw [ht, if_pos hp]
      obtain ⟨st', e, hv'⟩ := advance_view hv
      rw [e]
      simp only
      have el : lex .idle (c :: v) = lex (.quote []) v := by subst hp; simp [lex, isWhiteSpace]
      refine fin el ?_
      rcases quote_view (n + 1) st' v [] hv' (by simp at hl; omega) with h | ⟨s, st'', v', h1, h2, h3, h4⟩
      · exact Or.inl h
      · exact Or.inr ⟨s, st'', v', h1, h2, by simp; omega, h4⟩
    · rw [ht, if_neg hp]
      have el : lex .idle (c :: v) = lex (.word [c]) v := by
        rw [lex, if_neg (by simp [hc1]), if_neg hc2, if_neg hc3, if_neg hp]
      refine fin el ?_
      obtain ⟨st', e, hv'⟩ := advance_view hv
      have e2 : tokenLoop false (n + 1) [] st = tokenLoop false n [c] st' := by
        rw [tokenLoop, ht, if_neg hn, if_neg (by simp),
          if_neg (by simp only [true_and, not_or]; exact ⟨by simp [hc1], hc2, hc3⟩), e]
        rfl
      rw [e2]
      rcases word_view n st' v [c] hv' (by simp at hl; omega) with h | ⟨s, st'', v', h1, h2, h3, h4⟩
      · exact Or.inl h
      · exact Or.inr ⟨s, st'', v', h1, h2, by simp; omega, h4⟩

theorem lex_word_not_rp : ∀ (v w : List Char) (t : List Tok), lex (.word w) v ≠ .rp :: t
  | [], w, t => by simp [lex]
  | c :: v, w, t => by
    rw [lex]
    repeat' split
    all_goals first | (simp; done) | exact lex_word_not_rp v _ t

theorem lex_quote_not_rp : ∀ (v w : List Char) (t : List Tok), lex (.quote w) v ≠ .rp :: t
  | [], w, t => by simp [lex]
  | c :: v, w, t => by
    rw [lex]
    repeat' split
    all_goals first | (simp; done) | exact lex_quote_not_rp v _ t

theorem lex_not_rp {v : List Char} (h : ∀ c r, v = c :: r → isWhiteSpace c = false ∧ c ≠ ')') (t : List Tok) :
    lex .idle v ≠ .rp :: t := by
  cases v with
  | nil => simp [lex]
  | cons c v =>
    obtain ⟨h1, h2⟩ := h c v rfl
    rw [lex, if_neg (by simp [h1])]
    split
    · simp
    · split
      · exact lex_quote_not_rp _ _ _
      · exact lex_word_not_rp _ _ _

theorem dropWhile_head {v : List Char} : ∀ c r, v.dropWhile isWhiteSpace = c :: r → isWhiteSpace c = false := by
  induction v with
  | nil => intro c r h; cases h
  | cons d v ih =>
    intro c r h
    rw [List.dropWhile_cons] at h
    split at h
    · exact ih c r h
    · rename_i hd; cases h; simpa using hd

/-- The loop over sub-expressions. -/
theorem subLoop_view (parse : St → Outcome (SExp × St)) (ws : St → Outcome St) (N : Nat)
    (hp : ∀ st v, View st v → v.length < N → (∀ c r, v = c :: r → isWhiteSpace c = false ∧ c ≠ ')') → ReadOk (parse st) v)
    (hws : ∀ st v, View st v → v.length < N → ∃ st', ws st = .done st' ∧ View st' (v.dropWhile isWhiteSpace)) :
    ∀ (m : Nat) (es : List SExp) (st : St) (v : List Char), View st v → v.length < m → v.length < N →
      (∀ c r, v = c :: r → isWhiteSpace c = false) →
      (subLoop parse ws m es st = .thrown ∧ ∀ es' t, lex .idle v ≠ SExp.tokss es' ++ .rp :: t) ∨
        ∃ es' st' v', subLoop parse ws m es st = .done (es ++ es', st') ∧ View st' (')' :: v') ∧
          v'.length < v.length ∧ lex .idle v = SExp.tokss es' ++ .rp :: lex .idle v' := by
  intro m
  induction m with
  | zero => intro es st v _ h; omega
  | succ m ih =>
    intro es st v hv hm hN hw
    rw [subLoop]
    by_cases hr : ∃ r, v = ')' :: r
    · obtain ⟨r, rfl⟩ := hr
      right
      rw [hv.cons.1, if_neg (by simp)]
      exact ⟨[], st, r, by simp, hv, by simp, by simp [lex, isWhiteSpace, SExp.tokss]⟩
    · have hw' : ∀ c r, v = c :: r → isWhiteSpace c = false ∧ c ≠ ')' :=
        fun c r h => ⟨hw c r h, fun hc => hr ⟨r, by rw [h, hc]⟩⟩
      have hcond : st.token ≠ nul ∧ st.token ≠ ')' := by
        cases v with
        | nil => rw [hv.nil.1]; decide
        | cons c v => rw [hv.cons.1]; exact ⟨hv.cons.2.1, (hw' c v rfl).2⟩
      rw [if_pos hcond]
      have hnorp := lex_not_rp hw'
      rcases hp st v hv hN hw' with ⟨e, hno⟩ | ⟨x, st1, v1, e, hv1, hl1, hx⟩
      · left
        rw [e]
        refine ⟨rfl, fun es' t h => ?_⟩
        cases es' with
        | nil => exact hnorp t h
        | cons y ys => exact hno y (SExp.tokss ys ++ .rp :: t) (by rw [h, SExp.tokss, List.append_assoc])
      · rw [e]
        simp only
        obtain ⟨st2, e2, hv2⟩ := hws st1 v1 hv1 (by omega)
        rw [e2]
        simp only
        have hd := length_dropWhile v1
        rcases ih (es ++ [x]) st2 _ hv2 (by omega) (by omega) dropWhile_head with ⟨e3, hno⟩ | ⟨es', st3, v3, e3, hv3, hl3, h3⟩
        · left
          refine ⟨e3, fun es' t h => ?_⟩
          cases es' with
          | nil => exact hnorp t h
          | cons y ys =>
            rw [hx, SExp.tokss, List.append_assoc] at h
            obtain ⟨_, h2⟩ := toks_inj _ _ _ _ h
            exact hno ys t (by rw [lex_dropWhile, h2])
        · right
          refine ⟨x :: es', st3, v3, by rw [e3]; simp, hv3, by omega, ?_⟩
          rw [hx, ← lex_dropWhile v1, h3, SExp.tokss, List.append_assoc]

/-- Reading one expression. -/
theorem parse_view : ∀ (n : Nat) (st : St) (v : List Char), View st v → v.length < n →
    (∀ t, lex .idle v ≠ .rp :: t) → ReadOk (parseExpression n st) v := by
  intro n
  induction n with
  | zero => intro st v _ h; omega
  | succ n ih =>
    intro st v hv hl hrp
    rw [parseExpression]
    obtain ⟨st1, e1, hv1⟩ := skip_view (n + 1) st v hv hl
    rw [e1]
    simp only
    have hd := length_dropWhile v
    have hw := dropWhile_head (v := v)
    have hlex := lex_dropWhile v
    -- transfer from the trimmed text
    have tr : ∀ {r : Outcome (SExp × St)}, ReadOk r (v.dropWhile isWhiteSpace) → ReadOk r v := by
      intro r h
      rcases h with ⟨h1, h2⟩ | ⟨e, st', v', h1, h2, h3, h4⟩
      · exact Or.inl ⟨h1, by rw [← hlex]; exact h2⟩
      · exact Or.inr ⟨e, st', v', h1, h2, by omega, by rw [← hlex]; exact h4⟩
    refine tr ?_
    rw [← hlex] at hrp
    clear tr hlex e1 hv
    generalize v.dropWhile isWhiteSpace = u at hv1 hw hrp hd ⊢
    by_cases hp : ∃ r, u = '(' :: r
    · obtain ⟨r, rfl⟩ := hp
      rw [if_pos hv1.cons.1]
      obtain ⟨st2, e2, hv2⟩ := advance_view hv1
      rw [e2]
      simp only
      obtain ⟨st3, e3, hv3⟩ := skip_view (n + 1) st2 r hv2 (by simp at hd; omega)
      rw [e3]
      simp only
      have hd2 := length_dropWhile r
      have elex : lex .idle ('(' :: r) = .lp :: lex .idle r := by simp [lex, isWhiteSpace]
      rcases subLoop_view (parseExpression n) (skipWhitespace (n + 1)) n
          (fun st v h1 h2 h3 => ih st v h1 h2 (lex_not_rp h3))
          (fun st v h1 h2 => skip_view (n + 1) st v h1 (by omega)) (n + 1) [] st3 _ hv3
          (by simp at hd; omega) (by simp at hd; omega) dropWhile_head with ⟨e4, hno⟩ | ⟨es, st4, v4, e4, hv4, hl4, h4⟩
      · rw [e4]
        left
        refine ⟨rfl, fun e t h => ?_⟩
        rw [elex] at h
        cases e with
        | atom s => simp [SExp.toks] at h
        | list es =>
          simp only [SExp.toks, List.cons_append, List.cons.injEq, true_and, List.append_assoc, List.nil_append] at h
          exact hno es t (by rw [lex_dropWhile]; exact h)
      · rw [e4]
        simp only [List.nil_append]
        rw [if_neg (by rw [hv4.cons.1]; simp)]
        right
        refine ⟨.list es, _, ' ' :: v4, rfl, ?_, by simp; omega, ?_⟩
        · obtain ⟨_, _, h3, h4, h5⟩ := hv4.cons
          exact ⟨h4, Or.inl ⟨h3, by show ' ' ≠ nul; decide, v4, h5, rfl⟩⟩
        · have : lex .idle (' ' :: v4) = lex .idle v4 := by simp [lex, isWhiteSpace]
          rw [elex, ← lex_dropWhile r, h4, this]
          simp [SExp.toks]
    · have hne : st1.token ≠ '(' := by
        cases u with
        | nil => rw [hv1.nil.1]; decide
        | cons c r => rw [hv1.cons.1]; intro h; exact hp ⟨r, by rw [h]⟩
      rw [if_neg hne]
      refine parseToken_view hv1 (by omega) fun c r h => ⟨hw c r h, fun hc => hp ⟨r, by rw [h, hc]⟩, fun hc => ?_⟩
      subst h; subst hc
      exact hrp (lex .idle r) (by simp [lex, isWhiteSpace])

/-! ### Printing -/

/-- The tokens of printed text. -/
theorem lex_word : ∀ (s w r : List Char), (∀ c ∈ s, isWhiteSpace c = false ∧ c ≠ '(' ∧ c ≠ ')') →
    ∀ d, (isWhiteSpace d = true ∨ d = '(' ∨ d = ')') →
      lex (.word w) (s ++ d :: r) = .atom (w ++ s) :: lex .idle (d :: r)
  | [], w, r, _, d, hd => by
    rcases hd with hd | hd | hd
    · simp [lex, hd]
    · subst hd; simp [lex, isWhiteSpace]
    · subst hd; simp [lex, isWhiteSpace]
  | c :: s, w, r, h, d, hd => by
    obtain ⟨h1, h2, h3⟩ := h c List.mem_cons_self
    have e : lex (.word w) (c :: (s ++ d :: r)) = lex (.word (w ++ [c])) (s ++ d :: r) := by
      conv => lhs; rw [lex]
      rw [if_neg (by simp [h1]), if_neg h2, if_neg h3]
    rw [List.cons_append, e, lex_word s (w ++ [c]) r (fun c hc => h c (List.mem_cons_of_mem _ hc)) d hd]
    simp

theorem lex_plain_word {s : List Char} (h : PlainWord s) {d : Char} (hd : isWhiteSpace d = true ∨ d = '(' ∨ d = ')')
    (r : List Char) : lex .idle (s ++ d :: r) = .atom s :: lex .idle (d :: r) := by
  obtain ⟨h1, h2, h3⟩ := h
  cases s with
  | nil => exact absurd rfl h1
  | cons c s =>
    obtain ⟨a1, a2, a3, _⟩ := h3 c List.mem_cons_self
    have a4 : c ≠ '|' := by intro h; subst h; simp at h2
    have e : lex .idle (c :: (s ++ d :: r)) = lex (.word [c]) (s ++ d :: r) := by
      conv => lhs; rw [lex]
      rw [if_neg (by simp [a1]), if_neg a2, if_neg a3, if_neg a4]
    rw [List.cons_append, e,
      lex_word s [c] r (fun c hc => ⟨(h3 c (List.mem_cons_of_mem _ hc)).1, (h3 c (List.mem_cons_of_mem _ hc)).2.1,
        (h3 c (List.mem_cons_of_mem _ hc)).2.2.1⟩) d hd]
    rfl

mutual
theorem lex_toStr : ∀ (e : SExp), e.Plain → ∀ (d : Char), (isWhiteSpace d = true ∨ d = '(' ∨ d = ')') → ∀ r,
    lex .idle (e.toStr ++ d :: r) = e.toks ++ lex .idle (d :: r)
  | .atom s, h, d, hd, r => by
    rw [SExp.Plain] at h
    simp only [SExp.toStr, SExp.toks]
    exact lex_plain_word h hd r
  | .list es, h, d, hd, r => by
    rw [SExp.Plain] at h
    have e : (SExp.list es).toStr ++ d :: r = '(' :: (SExp.toStrs es ++ ')' :: (d :: r)) := by
      simp [SExp.toStr]
    have e1 : lex .idle ('(' :: (SExp.toStrs es ++ ')' :: (d :: r))) = .lp :: lex .idle (SExp.toStrs es ++ ')' :: (d :: r)) := by
      simp [lex, isWhiteSpace]
    have e2 : lex .idle (')' :: (d :: r)) = .rp :: lex .idle (d :: r) := by
      rw [lex, if_neg (by decide), if_neg (by decide), if_pos rfl]
    rw [e, e1, lex_toStrs es h (d :: r), e2]
    simp [SExp.toks]
theorem lex_toStrs : ∀ (es : List SExp), SExp.Plains es → ∀ r,
    lex .idle (SExp.toStrs es ++ ')' :: r) = SExp.tokss es ++ lex .idle (')' :: r)
  | [], _, r => by simp [SExp.toStrs, SExp.tokss]
  | [e], h, r => by
    rw [SExp.Plains] at h
    rw [SExp.toStrs, lex_toStr e h.1 ')' (Or.inr (Or.inr rfl)) r]
    simp [SExp.tokss]
  | e :: e' :: es, h, r => by
    rw [SExp.Plains] at h
    have h1 : SExp.toStrs (e :: e' :: es) ++ ')' :: r = e.toStr ++ ' ' :: (SExp.toStrs (e' :: es) ++ ')' :: r) := by
      simp [SExp.toStrs]
    have h2 : ∀ x, lex .idle (' ' :: x) = lex .idle x := by intro x; simp [lex, isWhiteSpace]
    rw [h1, lex_toStr e h.1 ' ' (Or.inl rfl), h2, lex_toStrs (e' :: es) h.2 r]
    simp [SExp.tokss]
end

/-- Characters that are neither `;` nor the zero character. -/
def Clean (s : List Char) : Prop := ∀ c ∈ s, c ≠ ';' ∧ c ≠ nul

theorem clean_append {s r v : List Char} (h : Clean s) (hr : clean false r = some v) :
    clean false (s ++ r) = some (s ++ v) := by
  induction s with
  | nil => exact hr
  | cons c s ih =>
    rw [List.cons_append, clean, if_neg (h c List.mem_cons_self).1, ih fun d hd => h d (List.mem_cons_of_mem _ hd)]
    rfl

mutual
theorem clean_toStr : ∀ (e : SExp), e.Plain → Clean e.toStr
  | .atom s, h => by
    rw [SExp.Plain] at h
    intro c hc
    exact (h.2.2 c hc).2.2.2
  | .list es, h => by
    rw [SExp.Plain] at h
    intro c hc
    simp only [SExp.toStr, List.mem_cons, List.mem_append, List.not_mem_nil, or_false] at hc
    rcases hc with hc | hc | hc
    · subst hc; decide
    · exact clean_toStrs es h c hc
    · subst hc; decide
theorem clean_toStrs : ∀ (es : List SExp), SExp.Plains es → Clean (SExp.toStrs es)
  | [], _ => by intro c hc; cases hc
  | [e], h => by rw [SExp.Plains] at h; rw [SExp.toStrs]; exact clean_toStr e h.1
  | e :: e' :: es, h => by
    rw [SExp.Plains] at h
    intro c hc
    simp only [SExp.toStrs, List.mem_append, List.mem_cons] at hc
    rcases hc with hc | hc | hc
    · exact clean_toStr e h.1 c hc
    · subst hc; decide
    · exact clean_toStrs (e' :: es) h.2 c hc
end

theorem start_view {c : Char} {s v : List Char} (hn : nul ∉ c :: s) (h : clean false s = some v) :
    View (start (c :: s)) (c :: v) :=
  ⟨fun hc => hn (List.mem_cons_of_mem _ hc),
    Or.inl ⟨rfl, fun hc => hn (by rw [← hc]; exact List.mem_cons_self), v, h, rfl⟩⟩

theorem start_nil : View (start []) [] := ⟨by simp [start, get], Or.inr ⟨rfl, rfl, rfl⟩⟩

/-- What the parser sees of an input: the first character is read without the check for a comment. -/
def visible : List Char → Option (List Char)
  | [] => some []
  | c :: s => (clean false s).map (c :: ·)

theorem start_visible {s v : List Char} (hn : nul ∉ s) (h : visible s = some v) : View (start s) v := by
  cases s with
  | nil => cases h; exact start_nil
  | cons c s =>
    rw [visible] at h
    cases hc : clean false s with
    | none => rw [hc] at h; cases h
    | some w => rw [hc] at h; cases h; exact start_view hn hc

/-- The reading loop. -/
theorem readLoop_view : ∀ (n : Nat) (acc : List SExp) (st : St) (v : List Char), View st v → v.length < n →
    (readLoop n acc st = .thrown ∧ ¬ ∃ es : List (List SExp), lex .idle v = SExp.tokss (es.map .list)) ∨
      ∃ es : List (List SExp), readLoop n acc st = .done (acc ++ es.map .list) ∧ lex .idle v = SExp.tokss (es.map .list)
  | 0, _, _, _, _, h => by omega
  | n + 1, acc, st, v, hv, hl => by
    rw [readLoop]
    obtain ⟨st1, e1, hv1⟩ := skip_view (n + 1) st v hv hl
    have hd := length_dropWhile v
    have hw := dropWhile_head (v := v)
    rw [← lex_dropWhile v]
    unfold isEOF
    rw [e1]
    simp only
    clear e1 hv
    generalize v.dropWhile isWhiteSpace = u at hv1 hw hd ⊢
    cases u with
    | nil =>
      rw [hv1.nil.2]
      right
      exact ⟨[], by simp, rfl⟩
    | cons c u =>
      rw [hv1.cons.2.2.1]
      simp only [Bool.not_true, Bool.false_eq_true, if_false]
      by_cases hrp : ∃ t, lex .idle (c :: u) = .rp :: t
      · -- a closing parenthesis is read as an empty atom, which the front ends reject
        obtain ⟨t, ht⟩ := hrp
        left
        have hc : c = ')' := by
          apply Classical.byContradiction
          intro hc
          exact lex_not_rp (v := c :: u) (fun c' r h => by cases h; exact ⟨hw c u rfl, hc⟩) t ht
        subst hc
        have hs : skipWhitespace (n + 1) st1 = .done st1 := skip_id hv1 (by decide)
        have hp : parseExpression (n + 1) st1 = .done (.atom [], st1) := by
          rw [parseExpression, hs]
          simp only
          rw [hv1.cons.1, if_neg (by decide)]
          unfold parseToken
          rw [hs]
          simp only
          rw [hv1.cons.1, if_neg (by decide), tokenLoop, hv1.cons.1, if_neg (by decide), if_neg (by decide),
            if_pos (by decide)]
        rw [hp]
        refine ⟨rfl, ?_⟩
        rintro ⟨es, he⟩
        cases es with
        | nil => rw [ht] at he; simp [SExp.tokss] at he
        | cons e es => rw [ht] at he; simp [SExp.tokss, SExp.toks] at he
      · rcases parse_view (n + 1) st1 (c :: u) hv1 (by omega) (fun t h => hrp ⟨t, h⟩) with ⟨e, hno⟩ | ⟨x, st2, v2, e, hv2, hl2, hx⟩
        · rw [e]
          left
          refine ⟨rfl, ?_⟩
          rintro ⟨es, he⟩
          cases es with
          | nil =>
            -- the text is not blank
            have : ∀ (w : List Char) (v : List Char), lex (.word w) v ≠ [] := by
              intro w v
              induction v generalizing w with
              | nil => simp [lex]
              | cons d v ih => rw [lex]; repeat' split
                               all_goals first | (simp; done) | exact ih _
            have hq : ∀ (w : List Char) (v : List Char), lex (.quote w) v ≠ [] := by
              intro w v
              induction v generalizing w with
              | nil => simp [lex]
              | cons d v ih => rw [lex]; repeat' split
                               all_goals first | (simp; done) | exact ih _
            simp only [List.map_nil, SExp.tokss] at he
            rw [lex, if_neg (by simp [hw c u rfl])] at he
            split at he
            · cases he
            · split at he
              · cases he
              · split at he
                · exact hq _ _ he
                · exact this _ _ he
          | cons y ys => exact hno (.list y) (SExp.tokss (ys.map .list)) he
        · rw [e]
          cases x with
          | atom s =>
            left
            refine ⟨rfl, ?_⟩
            rintro ⟨es, he⟩
            rw [hx] at he
            cases es with
            | nil => simp [SExp.tokss, SExp.toks] at he
            | cons y ys => simp [SExp.tokss, SExp.toks] at he
          | list l =>
            simp only
            rcases readLoop_view n (acc ++ [.list l]) st2 v2 hv2 (by omega) with ⟨e3, hno⟩ | ⟨es, e3, hes⟩
            · left
              refine ⟨e3, ?_⟩
              rintro ⟨es, he⟩
              rw [hx] at he
              cases es with
              | nil => simp [SExp.tokss, SExp.toks] at he
              | cons y ys =>
                rw [List.map_cons, SExp.tokss] at he
                exact hno ⟨ys, (toks_inj _ _ _ _ he).2⟩
            · right
              exact ⟨l :: es, by rw [e3]; simp, by rw [hx, hes]; rfl⟩

end SExpr

open SExpr

/-- **C40** Parsing the printed form of an s-expression whose atoms are plain words returns it and leaves the rest of the
input (up to the simulated blank after a closing parenthesis). Words must be followed by a delimiter. -/
theorem C40_round_trip (e : SExp) (he : e.Plain) (d : Char) (hd : isWhiteSpace d = true ∨ d = '(' ∨ d = ')')
    (rest v : List Char) (hn : nul ∉ rest) (hv : clean false rest = some v) (n : Nat)
    (hfuel : e.toStr.length + v.length + 1 < n) :
    ∃ st' v', parseExpression n (start (e.toStr ++ d :: rest)) = .done (e, st') ∧ View st' v' ∧
      lex .idle v' = lex .idle (d :: v) := by
  have hc := clean_toStr e he
  have hd' : Clean [d] := by
    intro c hc; simp only [List.mem_singleton] at hc; subst hc
    rcases hd with hd | hd | hd
    · constructor <;> · intro h; subst h; revert hd; decide
    · subst hd; decide
    · subst hd; decide
  have hnul : nul ∉ e.toStr ++ d :: rest := by
    intro h
    rcases List.mem_append.1 h with h | h
    · exact (hc _ h).2 rfl
    · rcases List.mem_cons.1 h with h | h
      · exact (hd' d (by simp)).2 h.symm
      · exact hn h
  have hcl : clean false (e.toStr ++ d :: rest) = some (e.toStr ++ d :: v) :=
    clean_append hc (clean_append hd' hv)
  have hview : View (start (e.toStr ++ d :: rest)) (e.toStr ++ d :: v) := by
    apply start_visible hnul
    cases hs : e.toStr ++ d :: rest with
    | nil => simp at hs
    | cons c s =>
      rw [hs] at hcl
      have hc2 : c ≠ ';' := by
        cases ht : e.toStr with
        | nil => rw [ht] at hs; cases hs; exact (hd' _ (by simp)).1
        | cons a t => rw [ht] at hs; cases hs; exact (hc _ (by rw [ht]; simp)).1
      rw [clean, if_neg hc2] at hcl
      exact hcl
  have hlex := lex_toStr e he d hd v
  rcases parse_view n _ _ hview (by simp; omega) (by
      intro t h
      obtain ⟨x, r, hx, hr⟩ := toks_head e
      rw [hlex, hx] at h
      exact hr (List.cons.inj h).1) with ⟨_, hno⟩ | ⟨e', st', v', h1, h2, _, h4⟩
  · exact absurd hlex (hno _ _)
  · rw [hlex] at h4
    obtain ⟨a, b⟩ := toks_inj _ _ _ _ h4
    subst a
    exact ⟨st', v', h1, h2, b.symm⟩

/-- **C40** Reading a whole input (the loop of the front ends) accepts exactly the inputs whose tokens are those of a
sequence of parenthesized expressions, returns these expressions, and raises the error on every other input: too few or
too many parentheses, text outside parentheses, an unfinished word or quotation. -/
theorem C40_read_exact (input v : List Char) (hn : nul ∉ input) (hv : visible input = some v) (n : Nat)
    (hfuel : v.length < n) :
    (∀ es : List (List SExp), lex .idle v = SExp.tokss (es.map .list) →
      readLoop n [] (start input) = .done (es.map .list)) ∧
    (∀ es, readLoop n [] (start input) = .done es →
      (∃ l : List (List SExp), es = l.map .list) ∧ lex .idle v = SExp.tokss es) ∧
    ((¬ ∃ es : List (List SExp), lex .idle v = SExp.tokss (es.map .list)) → readLoop n [] (start input) = .thrown) := by
  have tok_inj : ∀ a b : List (List SExp), SExp.tokss (a.map .list) = SExp.tokss (b.map .list) → a = b := by
    intro a b h
    have := (tokss_inj (a.map .list) (b.map .list) [] [] (by rw [h])).1
    exact (List.map_inj_right (fun x y h => by cases h; rfl)).1 this
  rcases readLoop_view n [] _ _ (start_visible hn hv) hfuel with ⟨h1, h2⟩ | ⟨es, h1, h2⟩
  · exact ⟨fun es h => absurd ⟨es, h⟩ h2, fun es h => (by rw [h1] at h; cases h), fun _ => h1⟩
  · refine ⟨fun es' h => ?_, fun es' h => ?_, fun h => absurd ⟨es, h2⟩ h⟩
    · rw [tok_inj es' es (by rw [← h, h2])]; simpa using h1
    · rw [h1] at h
      simp only [List.nil_append, Outcome.done.injEq] at h
      subst h
      exact ⟨⟨es, rfl⟩, h2⟩

/-- The number of opening minus closing parentheses. -/
def SExpr.depth : List Tok → Int
  | [] => 0
  | .lp :: t => 1 + depth t
  | .rp :: t => -1 + depth t
  | _ :: t => depth t

theorem SExpr.depth_append (a b : List Tok) : depth (a ++ b) = depth a + depth b := by
  induction a with
  | nil => simp [depth]
  | cons t a ih => cases t <;> simp [depth, ih] <;> omega

mutual
theorem SExpr.depth_toks : ∀ e : SExp, depth e.toks = 0
  | .atom s => rfl
  | .list es => by simp [SExp.toks, depth, depth_append, SExpr.depth_tokss es]
theorem SExpr.depth_tokss : ∀ es : List SExp, depth (SExp.tokss es) = 0
  | [] => rfl
  | e :: es => by rw [SExp.tokss, depth_append, SExpr.depth_toks e, SExpr.depth_tokss es]; rfl
end

/-- **C40** Unbalanced input raises the parsing error. -/
theorem C40_unbalanced_throws (input v : List Char) (hn : nul ∉ input) (hv : visible input = some v)
    (hu : depth (lex .idle v) ≠ 0) (n : Nat) (hfuel : v.length < n) : readLoop n [] (start input) = .thrown :=
  (C40_read_exact input v hn hv n hfuel).2.2 fun ⟨_, h⟩ => hu (by rw [h]; exact SExpr.depth_tokss _)

/-- **C40** A single call of the parser raises the error on an expression that is not closed. -/
theorem C40_unclosed_throws (input v : List Char) (hn : nul ∉ input) (hv : visible input = some v)
    (hu : ∀ e t, lex .idle v ≠ SExp.toks e ++ t) (hrp : ∀ t, lex .idle v ≠ .rp :: t) (n : Nat)
    (hfuel : v.length < n) : parseExpression n (start input) = .thrown := by
  rcases parse_view n _ _ (start_visible hn hv) hfuel hrp with h | ⟨e, _, v', _, _, _, h⟩
  · exact h.1
  · exact absurd h (hu e _)

/-- The parser itself does not reject a stray closing parenthesis: it returns an empty atom and consumes nothing. -/
theorem C40_stray_parenthesis_is_empty_atom (rest : List Char) (n : Nat) :
    parseExpression (n + 1) (start (')' :: rest)) = .done (.atom [], start (')' :: rest)) := by
  rfl

/-- An input that ends inside a comment is never finished, whatever the number of steps. -/
theorem C40_unfinished_comment_diverges (c : List Char) (hc : ∀ x ∈ c, x ≠ '\n' ∧ x ≠ nul) (n : Nat) :
    readLoop (n + 1) [] (start (' ' :: ';' :: c)) = .outOfFuel := by
  have h : ∀ c : List Char, (∀ x ∈ c, x ≠ '\n' ∧ x ≠ nul) → skipComment c = .outOfFuel := by
    intro c
    induction c with
    | nil => intro _; rfl
    | cons a c ih =>
      intro hc
      rw [skipComment, if_neg (by simp [hc a List.mem_cons_self]), ih fun x hx => hc x (List.mem_cons_of_mem _ hx)]
  have ha : advance (start (' ' :: ';' :: c)) = .outOfFuel := by
    exact h c hc
  have hs : skipWhitespace (n + 1) (start (' ' :: ';' :: c)) = .outOfFuel := by
    rw [skipWhitespace, ha]; rfl
  rw [readLoop]
  unfold isEOF
  rw [hs]

/-- Non-vacuity: a nested expression, a quoted word and a comment. -/
example : readLoop 40 [] (start "(a (b)) ; x\n(|c d|)".toList) =
    .done [.list [.atom ['a'], .list [.atom ['b']]], .list [.atom ['c', ' ', 'd']]] := by rfl
example : readLoop 40 [] (start "(a (b)".toList) = .thrown := by rfl
example : (SExp.list [.atom ['a'], .list []]).Plain := by
  simp only [SExp.Plain, SExp.Plains, PlainWord]; decide

end Golem
