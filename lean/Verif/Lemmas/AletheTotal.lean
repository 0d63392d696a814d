import Verif.Lemmas.Alethe

/-! Simplification succeeds on closed terms, and finds the value. -/

namespace Golem
namespace Alethe

theorem eval_lit (I : Interp) (v : Val) : eval I (lit v) = v := by cases v <;> simp only [lit, eval]

theorem evals_lit (I : Interp) : ∀ vs : List Val, evals I (vs.map lit) = vs
  | [] => by simp only [List.map_nil, evals]
  | v :: l => by simp only [List.map_cons, evals, eval_lit, evals_lit I l]

theorem lit_inj {a b : Val} (h : lit a = lit b) : a = b := by
  cases a <;> cases b <;> simp_all [lit]

theorem asNums_lit : ∀ {vs : List Val} {ns : List Int}, ints vs = some ns → asNums (vs.map lit) = some ns
  | [], ns, h => by cases h; rfl
  | .int n :: l, ns, h => by
    simp only [ints, Option.map_eq_some_iff] at h
    obtain ⟨ms, h1, rfl⟩ := h
    simp only [List.map_cons, lit, asNums, asNum, asNums_lit h1]
  | .bool _ :: _, _, h => by cases h

theorem andArgs_lit : ∀ {vs : List Val} {bs : List Bool}, bools vs = some bs →
    andArgs (vs.map lit) = some (if bs.all id then .inr [] else .inl (.bool false))
  | [], bs, h => by cases h; rfl
  | .bool b :: l, bs, h => by
    simp only [bools, Option.map_eq_some_iff] at h
    obtain ⟨ms, h1, rfl⟩ := h
    cases b
    · rfl
    · simp only [List.map_cons, lit, andArgs, asBool, andArgs_lit h1, List.all_cons, id_eq, Bool.true_and]
  | .int _ :: _, _, h => by cases h

theorem or_lit : ∀ {vs : List Val} {bs : List Bool}, bools vs = some bs →
    (vs.map lit).any (fun t => asBool t == some true) = bs.any id ∧ (vs.map lit).all (fun t => asBool t == some false) = !bs.any id
  | [], bs, h => by cases h; exact ⟨rfl, rfl⟩
  | .bool b :: l, bs, h => by
    simp only [bools, Option.map_eq_some_iff] at h
    obtain ⟨ms, h1, rfl⟩ := h
    obtain ⟨h2, h3⟩ := or_lit h1
    simp only [List.map_cons, List.any_cons, List.all_cons, h2, h3]
    cases b <;> simp [show lit (.bool false) = .bool false from rfl, show lit (.bool true) = .bool true from rfl, asBool]
  | .int _ :: _, _, h => by cases h

theorem evalDirect_total {o : OpSym} {vs : List Val} {v : Val} (h : opVal o vs = some v) (hg : o ≠ .gt) (hg' : o ≠ .ge) :
    ∃ r, evalDirect o (vs.map lit) = some (lit v, r) := by
  unfold opVal at h
  split at h
  · cases h; exact ⟨_, rfl⟩
  · cases h; exact ⟨_, rfl⟩
  · cases h; exact ⟨_, rfl⟩
  · cases h
    refine ⟨"comp_simplify", ?_⟩
    simp only [List.map_cons, List.map_nil, lit, evalDirect, Option.some.injEq, Prod.mk.injEq, Term.bool.injEq, and_true]
    exact decide_eq_decide.2 Int.le_iff_lt_or_eq.symm
  · exact absurd rfl hg
  · exact absurd rfl hg'
  · obtain ⟨bs, h1, rfl⟩ := Option.map_eq_some_iff.1 h
    refine ⟨"and_simplify", ?_⟩
    simp only [evalDirect, andArgs_lit h1]
    cases bs.all id <;> rfl
  · obtain ⟨bs, h1, rfl⟩ := Option.map_eq_some_iff.1 h
    refine ⟨"or_simplify", ?_⟩
    simp only [evalDirect, (or_lit h1).1, (or_lit h1).2]
    cases bs.any id <;> rfl
  · cases h; exact ⟨_, rfl⟩
  · obtain ⟨ns, h1, rfl⟩ := Option.map_eq_some_iff.1 h
    refine ⟨"sum_simplify", ?_⟩
    have hne : ns ≠ [] := by
      rename_i w l
      cases w with
      | int n => simp only [ints, Option.map_eq_some_iff] at h1; obtain ⟨ms, _, rfl⟩ := h1; simp
      | bool b => cases h1
    simp only [evalDirect, asNums_lit h1, Option.bind_some, if_neg hne, lit]
  · cases h; exact ⟨_, rfl⟩
  · cases h; exact ⟨_, rfl⟩
  · split at h
    · cases h
    · rename_i hb
      cases h
      exact ⟨"mod_simplify", by simp only [List.map_cons, List.map_nil, lit, evalDirect, if_neg hb, divmod_eq hb]⟩
  · split at h
    · cases h
    · rename_i hb
      cases h
      exact ⟨"div_simplify", by simp only [List.map_cons, List.map_nil, lit, evalDirect, if_neg hb, divmod_eq hb]⟩
  · cases h

theorem direct1_total {o : OpSym} {vs : List Val} {v : Val} (h : opVal o vs = some v) (hg : o ≠ .gt) (hg' : o ≠ .ge) (st : St) :
    ∃ st', direct1 o (vs.map lit) st = some (lit v, st') := by
  obtain ⟨r, hr⟩ := evalDirect_total h hg hg'
  exact ⟨st.record [eqn (.op o (vs.map lit)) (lit v)] r [], by simp only [direct1, hr]⟩

theorem fst_some {α β : Type} {o : Option (α × β)} {a : α} (h : o.map Prod.fst = some a) : ∃ b, o = some (a, b) := by
  obtain ⟨⟨x, b⟩, h1, rfl⟩ := Option.map_eq_some_iff.1 h
  exact ⟨b, h1⟩

theorem simplifyOpDirect_total {o : OpSym} {vs : List Val} {v : Val} (h : opVal o vs = some v) (st : St) :
    ∃ st', simplifyOpDirect o (vs.map lit) st = some (lit v, st') := by
  by_cases hg : o = .gt
  · subst hg
    have : ∃ a b, vs = [.int a, .int b] := by
      unfold opVal at h
      split at h <;> first | exact ⟨_, _, rfl⟩ | (cases ‹OpSym.gt = _›; done) | (cases ‹OpSym.ge = _›; done) | (cases h; done)
    obtain ⟨a, b, rfl⟩ := this
    cases h
    refine fst_some ?_
    simp only [simplifyOpDirect, List.map_cons, List.map_nil, lit, direct1, evalDirect, Option.map_some, Option.some.injEq]
    rw [← decide_not]
    exact congrArg Term.bool (decide_eq_decide.2 (by omega))
  · by_cases hg' : o = .ge
    · subst hg'
      have : ∃ a b, vs = [.int a, .int b] := by
        unfold opVal at h
        split at h <;> first | exact ⟨_, _, rfl⟩ | (cases ‹OpSym.gt = _›; done) | (cases ‹OpSym.ge = _›; done) | (cases h; done)
      obtain ⟨a, b, rfl⟩ := this
      cases h
      refine fst_some ?_
      · simp only [simplifyOpDirect, List.map_cons, List.map_nil, lit, direct1, evalDirect, Option.map_some, Option.some.injEq]
        exact congrArg Term.bool (decide_eq_decide.2 (by omega))
    · obtain ⟨st', h'⟩ := direct1_total h hg hg' st
      refine ⟨st', ?_⟩
      rw [← h']
      cases o <;> first | exact absurd rfl hg | exact absurd rfl hg' | rfl

theorem newArgs_none : ∀ {as : List Term} {rs : List Result}, as.length = rs.length → rs.all Option.isNone = true → newArgs as rs = as
  | [], [], _, _ => rfl
  | a :: as, none :: rs, h, h' => by
    simp only [newArgs]
    rw [newArgs_none (by simpa using h) (by simpa using h')]
  | a :: as, some _ :: rs, _, h' => by simp at h'
  | [], _ :: _, h, _ => by simp at h
  | _ :: _, [], h, _ => by simp at h

theorem value_op {o : OpSym} (ho : o ≠ .ite) (args : List Term) : value (.op o args) = (values args).bind (opVal o) := by
  rw [value]
  intro c a b h
  exact absurd h ho

theorem bind_ite (o : Option (List Val)) (v : Val) : ¬ o.bind (opVal .ite) = some v := by
  intro h
  obtain ⟨_, _, h⟩ := Option.bind_eq_some_iff.1 h
  cases h

mutual
theorem simplify_total : ∀ (t : Term) (nm : Option Name) (st : St) (v : Val), value t = some v →
    ∃ r st', simplify t nm st = some (r, st') ∧ (r.map Prod.fst).getD t = lit v
  | .num n, nm, st, v, h => by cases h; exact ⟨none, st, by simp only [simplify], rfl⟩
  | .bool n, nm, st, v, h => by cases h; exact ⟨none, st, by simp only [simplify], rfl⟩
  | .var _ _, _, _, _, h => by cases h
  | .name _, _, _, _, h => by cases h
  | .named _ _, _, _, _, h => by cases h
  | .all _ _, _, _, _, h => by cases h
  | .app _ _, _, _, _, h => by cases h
  | .op o args, nm, st, v, h => by
    by_cases ho : o = .ite
    · subst ho
      match args, h with
      | [], h => simp [value, values, opVal] at h
      | [_], h => exact absurd h (by rw [value] <;> first | exact bind_ite _ _ | (intro _ _ _ _ e; cases e))
      | [_, _], h => exact absurd h (by rw [value] <;> first | exact bind_ite _ _ | (intro _ _ _ _ e; cases e))
      | _ :: _ :: _ :: _ :: _, h => exact absurd h (by rw [value] <;> first | exact bind_ite _ _ | (intro _ _ _ _ e; cases e))
      | [c, a, b], h =>
        rw [value] at h
        split at h
        · rename_i hc
          obtain ⟨r1, st1, s1, e1⟩ := simplify_total c none st _ hc
          rw [simplify, s1]
          simp only [e1, lit, if_true]
          obtain ⟨r2, st2, s2, e2⟩ := simplify_total a none
            ((iteCong (.op .ite [c, a, b]) (.op .ite [.bool true, a, b]) r1 st1).record [eqn (.op .ite [.bool true, a, b]) a] "ite_simplify" []) v h
          simp only [s2]
          exact ⟨_, _, rfl, e2⟩
        · rename_i hc
          obtain ⟨r1, st1, s1, e1⟩ := simplify_total c none st _ hc
          rw [simplify, s1]
          simp only [e1, lit, Bool.false_eq_true, if_false]
          obtain ⟨r2, st2, s2, e2⟩ := simplify_total b none
            ((iteCong (.op .ite [c, a, b]) (.op .ite [.bool false, a, b]) r1 st1).record [eqn (.op .ite [.bool false, a, b]) b] "ite_simplify" []) v h
          simp only [s2]
          exact ⟨_, _, rfl, e2⟩
        · cases h
    · rw [value_op ho] at h
      obtain ⟨vs, h1, h2⟩ := Option.bind_eq_some_iff.1 h
      obtain ⟨rs, st1, s1, e1, l1⟩ := simplifyArgs_total args st vs h1
      rw [simplify_op ho, s1]
      by_cases hall : rs.all Option.isNone = true
      · simp only [hall, if_true]
        rw [newArgs_none l1 hall] at e1
        obtain ⟨st2, s2⟩ := simplifyOpDirect_total h2 st1
        rw [← e1] at s2
        simp only [s2]
        exact ⟨_, _, rfl, rfl⟩
      · simp only [hall, if_false, Bool.false_eq_true, e1]
        obtain ⟨st2, s2⟩ := simplifyOpDirect_total h2 (processResults (.op o args) (.op o (vs.map lit)) nm rs st1).2
        simp only [s2]
        exact ⟨_, _, rfl, rfl⟩
theorem simplifyArgs_total : ∀ (l : List Term) (st : St) (vs : List Val), values l = some vs →
    ∃ rs st', simplifyArgs l st = some (rs, st') ∧ newArgs l rs = vs.map lit ∧ l.length = rs.length
  | [], st, vs, h => by cases h; exact ⟨[], st, by simp only [simplifyArgs], rfl, rfl⟩
  | t :: l, st, vs, h => by
    rw [values] at h
    split at h
    · rename_i v vs' h1 h2
      cases h
      obtain ⟨r, st1, s1, e1⟩ := simplify_total t none st v h1
      obtain ⟨rs, st2, s2, e2, l2⟩ := simplifyArgs_total l st1 vs' h2
      refine ⟨r :: rs, st2, ?_, ?_, by simp [l2]⟩
      · rw [simplifyArgs]
        simp only [s1, s2]
      · cases r with
        | none => simp only [newArgs, e2, List.map_cons]; rw [← e1]; rfl
        | some q => obtain ⟨t', k⟩ := q; simp only [newArgs, e2, List.map_cons]; rw [← e1]; rfl
    · cases h
end

theorem simplify_app {f : Str} {args : List Term} {vs : List Val} (h : values args = some vs) (nm : Option Name) (st : St) :
    ∃ r st', simplify (.app f args) nm st = some (r, st') ∧ (r.map Prod.fst).getD (.app f args) = .app f (vs.map lit) := by
  obtain ⟨rs, st1, s1, e1, l1⟩ := simplifyArgs_total args st vs h
  rw [simplify, s1]
  by_cases hall : rs.all Option.isNone = true
  · rw [newArgs_none l1 hall] at e1
    simp only [hall, if_true]
    exact ⟨none, st1, rfl, by rw [e1]; rfl⟩
  · simp only [hall, Bool.false_eq_true, if_false, e1]
    exact ⟨_, _, rfl, rfl⟩

end Alethe
end Golem
