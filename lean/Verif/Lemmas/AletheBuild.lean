import Verif.Lemmas.AletheTotal
import Verif.Model.Proofs.Build

/-! From derivations to proofs: one clause. -/

namespace Golem
namespace Alethe

/-! ### Instances -/

theorem lit_value (v : Val) : value (lit v) = some v := by cases v <;> rfl

mutual
theorem value_inst (σ : Inst) : ∀ (t : Term) (v : Val), valueIn σ t = some v → value (inst σ t) = some v
  | .num _, v, h => by cases h; rfl
  | .bool _, v, h => by cases h; rfl
  | .var s k, v, h => by
    simp only [valueIn, Option.bind_eq_some_iff] at h
    obtain ⟨w, h1, h2⟩ := h
    split at h2
    · cases h2
      simp only [inst, h1]
      exact lit_value v
    · cases h2
  | .name _, _, h => by cases h
  | .named _ _, _, h => by cases h
  | .all _ _, _, h => by cases h
  | .app _ _, _, h => by cases h
  | .op o args, v, h => by
    by_cases ho : o = .ite
    · subst ho
      match args, h with
      | [], h => exact absurd h (by rw [valueIn] <;> first | exact bind_ite _ _ | (intro _ _ _ _ e; cases e))
      | [_], h => exact absurd h (by rw [valueIn] <;> first | exact bind_ite _ _ | (intro _ _ _ _ e; cases e))
      | [_, _], h => exact absurd h (by rw [valueIn] <;> first | exact bind_ite _ _ | (intro _ _ _ _ e; cases e))
      | _ :: _ :: _ :: _ :: _, h => exact absurd h (by rw [valueIn] <;> first | exact bind_ite _ _ | (intro _ _ _ _ e; cases e))
      | [c, a, b], h =>
        rw [valueIn] at h
        simp only [inst, insts]
        rw [value]
        split at h
        · rename_i hc
          rw [value_inst σ c _ hc]
          exact value_inst σ a _ h
        · rename_i hc
          rw [value_inst σ c _ hc]
          exact value_inst σ b _ h
        · cases h
    · have h' : (valuesIn σ args).bind (opVal o) = some v := by
        rw [← h, valueIn]
        intro c a b e
        exact absurd e ho
      obtain ⟨vs, h1, h2⟩ := Option.bind_eq_some_iff.1 h'
      simp only [inst]
      rw [value_op ho, values_inst σ args vs h1]
      exact h2
theorem values_inst (σ : Inst) : ∀ (l : List Term) (vs : List Val), valuesIn σ l = some vs → values (insts σ l) = some vs
  | [], vs, h => by cases h; rfl
  | t :: l, vs, h => by
    rw [valuesIn] at h
    split at h
    · rename_i v vs' h1 h2
      cases h
      simp only [insts, values, value_inst σ t v h1, values_inst σ l vs' h2]
    · cases h
end

/-- Facts are predicates. -/
def IsFact (t : Term) : Prop := (∃ f as, t = .app f as) ∨ ∃ s, t = .var s .bool

theorem atomFact_inst {σ : Inst} {t f : Term} (h : atomFact σ t = some f) (nm : Option Name) (st : St) : IsFact f ∧
    ∃ r st', simplify (inst σ t) nm st = some (r, st') ∧ (r.map Prod.fst).getD (inst σ t) = f := by
  unfold atomFact at h
  split at h
  · obtain ⟨vs, h1, rfl⟩ := Option.map_eq_some_iff.1 h
    exact ⟨.inl ⟨_, _, rfl⟩, simplify_app (values_inst σ _ vs h1) nm st⟩
  · split at h
    · rename_i s hl
      cases h
      have : inst σ (.var s .bool) = .var s .bool := by simp only [inst, Option.isNone_iff_eq_none.1 hl]
      rw [this]
      exact ⟨.inr ⟨_, rfl⟩, none, st, by simp only [simplify], rfl⟩
    · cases h
  · cases h

/-- The conjunction of facts as it is printed. -/
def conj : List Term → Term
  | [] => .bool true
  | [t] => t
  | l => .op .and l

theorem bodyFacts_args {σ : Inst} : ∀ {l : List Term} {fs : List Term}, bodyFacts σ l = some fs → ∀ st : St, (∀ f ∈ fs, IsFact f) ∧
    ∃ rs st', simplifyArgs (insts σ l) st = some (rs, st') ∧ (insts σ l).length = rs.length ∧ andArgs (newArgs (insts σ l) rs) = some (.inr fs)
  | [], fs, h, st => by
    cases h
    exact ⟨by simp, [], st, by simp only [insts, simplifyArgs], rfl, rfl⟩
  | t :: l, fs, h, st => by
    rw [bodyFacts] at h
    split at h
    · rename_i hv
      obtain ⟨r, st1, s1, e1⟩ := simplify_total (inst σ t) none st _ (value_inst σ t _ hv)
      obtain ⟨hf, rs, st2, s2, l2, e2⟩ := bodyFacts_args h st1
      refine ⟨hf, r :: rs, st2, by simp only [insts, simplifyArgs, s1, s2], by simp [insts, l2], ?_⟩
      have : newArgs (insts σ (t :: l)) (r :: rs) = .bool true :: newArgs (insts σ l) rs := by
        have e1' : (r.map Prod.fst).getD (inst σ t) = .bool true := e1
        cases r with
        | none => simp only [insts, newArgs]; rw [← e1']; rfl
        | some q => obtain ⟨t', k⟩ := q; simp only [insts, newArgs]; rw [← e1']; rfl
      rw [this]
      simp only [andArgs, asBool, e2]
    · split at h
      · rename_i f fs' h1 h2
        cases h
        obtain ⟨hff, r, st1, s1, e1⟩ := atomFact_inst h1 none st
        obtain ⟨hf, rs, st2, s2, l2, e2⟩ := bodyFacts_args h2 st1
        refine ⟨?_, r :: rs, st2, by simp only [insts, simplifyArgs, s1, s2], by simp [insts, l2], ?_⟩
        · intro g hg
          rcases List.mem_cons.1 hg with rfl | hg
          · exact hff
          · exact hf g hg
        · have : newArgs (insts σ (t :: l)) (r :: rs) = f :: newArgs (insts σ l) rs := by
            cases r with
            | none => simp only [insts, newArgs]; rw [← e1]; rfl
            | some q => obtain ⟨t', k⟩ := q; simp only [insts, newArgs]; rw [← e1]; rfl
          rw [this]
          rcases hff with ⟨g, as, rfl⟩ | ⟨s, rfl⟩
          · simp only [andArgs, asBool, isFormula, e2, if_true]
          · simp only [andArgs, asBool, isFormula, e2, decide_true, if_true]
      · cases h

theorem evalDirect_and {as fs : List Term} (h : andArgs as = some (.inr fs)) : evalDirect .and as = some (conj fs, "and_simplify") := by
  simp only [evalDirect, h]
  match fs with
  | [] => rfl
  | [t] => rfl
  | _ :: _ :: _ => rfl

theorem lhs_total {σ : Inst} {l : Term} {fs : List Term} (h : bodyFacts σ (conjuncts l) = some fs) (nm : Option Name) (st : St) :
    (∀ f ∈ fs, IsFact f) ∧ ∃ r st', simplify (inst σ l) nm st = some (r, st') ∧ (r.map Prod.fst).getD (inst σ l) = conj fs := by
  by_cases hl : ∃ as, l = .op .and as
  · obtain ⟨as, rfl⟩ := hl
    obtain ⟨hf, rs, st1, s1, l1, e1⟩ := bodyFacts_args (l := as) h st
    refine ⟨hf, ?_⟩
    simp only [inst]
    rw [simplify_op (by decide), s1]
    by_cases hall : rs.all Option.isNone = true
    · rw [newArgs_none l1 hall] at e1
      simp only [hall, if_true, simplifyOpDirect, direct1, evalDirect_and e1]
      exact ⟨_, _, rfl, rfl⟩
    · simp only [hall, Bool.false_eq_true, if_false, simplifyOpDirect, direct1, evalDirect_and e1]
      exact ⟨_, _, rfl, rfl⟩
  · have hc : conjuncts l = [l] := by
      unfold conjuncts
      split
      · exact absurd ⟨_, rfl⟩ hl
      · rfl
    rw [hc, bodyFacts] at h
    split at h
    · rename_i hv
      cases h
      exact ⟨by simp, simplify_total (inst σ l) nm st _ (value_inst σ l _ hv)⟩
    · split at h
      · rename_i f fs' h1 h2
        cases h2
        cases h
        obtain ⟨hf, h3⟩ := atomFact_inst h1 nm st
        exact ⟨by simpa using hf, h3⟩
      · cases h

/-! ### What steps say -/

/-- Step `k` says `t`. -/
def Says (ss : List Step) (k : Nat) (t : Term) : Prop := ∃ s X, ss[k]? = some s ∧ s.clause = [X] ∧ ∀ I, Respects I ss → eval I X = eval I t

theorem Says.lt {ss : List Step} {k : Nat} {t : Term} (h : Says ss k t) : k < ss.length := by
  obtain ⟨s, X, h, -⟩ := h
  exact (List.getElem?_eq_some_iff.1 h).1

theorem Says.mono {a b : St} (hb : Adds a b) {k : Nat} {t : Term} (h : Says a.steps k t) : Says b.steps k t := by
  have hk := h.lt
  obtain ⟨s, X, h1, h2, h3⟩ := h
  exact ⟨s, X, by rw [hb.get hk]; exact h1, h2, fun I hI => h3 I (hb.respects hI)⟩

theorem holds_one {I : Interp} {X : Term} : Holds I [X] ↔ (eval I X).toBool = true := by simp [Holds]

theorem holds_two {I : Interp} {X Y : Term} : Holds I [X, Y] ↔ (eval I X).toBool = true ∨ (eval I Y).toBool = true := by simp [Holds]

/-- The premise is used for a step recorded now. -/
theorem Says.use {st : St} {k : Nat} {t : Term} (h : Says st.steps k t) {I : Interp} {c : List Term} {r : String} {ps : List Nat}
    (hr : Respects I (st.record c r ps).steps) (hp : ∀ s, st.steps[k]? = some s → Holds I s.clause) : (eval I t).toBool = true := by
  obtain ⟨s, X, h1, h2, h3⟩ := h
  have := hp s h1
  rw [h2, holds_one, h3 I (respects_left hr)] at this
  exact this

theorem says_record {st : St} {t : Term} {r : String} {ps : List Nat} : Says (st.record [t] r ps).steps st.steps.length t :=
  ⟨_, t, record_get st _ _ _, rfl, fun _ _ => rfl⟩

theorem LogStd.eqStd {I : Interp} (h : LogStd I) : EqStd I := h .eq (by simp)

theorem eval_neg {I : Interp} (h : LogStd I) (t : Term) : (eval I (neg t)).toBool = !(eval I t).toBool := by
  simp only [neg, eval, evals, h .not (by simp), stdOp]
  rfl

theorem eval_imp {I : Interp} (h : LogStd I) (a b : Term) : (eval I (.op .imp [a, b])).toBool = (!(eval I a).toBool || (eval I b).toBool) := by
  simp only [eval, evals, h .imp (by simp), stdOp]
  rfl

theorem eval_or {I : Interp} (h : LogStd I) (a b : Term) : (eval I (.op .or [a, b])).toBool = ((eval I a).toBool || (eval I b).toBool) := by
  simp only [eval, evals, h .or (by simp), stdOp, List.any_cons, List.any_nil, Bool.or_false]
  rfl

theorem Std.logStd {I : Interp} (h : Std I) : LogStd I := fun o _ => by rw [show I.opv = stdOp from h]

/-- A step that uses the meaning of the connectives. -/
theorem adds_log {st : St} {c : List Term} {r : String} {ps : List Nat} (hr : r ∈ ["resolution", "equiv1", "equiv2", "implies", "or"])
    (hp : ∀ p ∈ ps, p < st.steps.length)
    (h : ∀ I, LogStd I → Respects I (st.record c r ps).steps →
      (∀ p ∈ ps, ∀ s', st.steps[p]? = some s' → Holds I s'.clause) → Holds I c) : Adds st (st.record c r ps) := by
  refine Adds.record hp (fun _ => ?_) fun I hI hrs hps => h I ?_ hrs hps
  · simp only [List.mem_cons, List.not_mem_nil, or_false] at hr ⊢
    rcases hr with h | h | h | h | h <;> simp [h]
  · unfold Scope at hI
    rwa [if_neg, if_pos hr] at hI
    simp only [List.mem_cons, List.not_mem_nil, or_false] at hr
    rcases hr with rfl | rfl | rfl | rfl | rfl <;> decide

/-- A step without premises. -/
theorem adds_std {st : St} {c : List Term} {r : String}
    (hr : r ∉ ["cong", "trans"]) (hr' : r ∉ ["resolution", "equiv1", "equiv2", "implies", "or"])
    (h : ∀ I, Std I → Respects I (st.record c r []).steps → Holds I c) : Adds st (st.record c r []) := by
  refine Adds.record (by simp) (fun h => absurd rfl h) fun I hI hrs _ => h I ?_ hrs
  unfold Scope at hI
  rwa [if_neg hr, if_neg hr'] at hI

/-! ### The left-hand side -/

theorem trueOf_ok {st : St} (ht : TrueOk st) : Adds st st.trueOf.2 ∧ Says st.trueOf.2.steps st.trueOf.1 (.bool true) := by
  unfold St.trueOf
  split
  · rename_i h0
    have a : Adds st (st.record [.bool true] "true" []) := adds_std (by decide) (by decide) fun I _ _ => by
      rw [holds_one]; simp only [eval, Val.toBool]
    refine ⟨?_, ⟨_, _, record_get st _ _ _, rfl, fun _ _ => rfl⟩⟩
    obtain ⟨m, e, ok, -, na⟩ := a
    exact ⟨m, e, ok, fun _ => .inr ⟨_, record_get st _ _ _, rfl⟩, na⟩
  · rename_i h0
    rcases ht with ht | ⟨s, h1, h2⟩
    · exact absurd ht h0
    · exact ⟨.refl _, s, _, h1, h2, fun _ _ => rfl⟩

theorem All2.mem_left {α β : Type} {R : α → β → Prop} : ∀ {l : List α} {l' : List β}, All2 R l l' → ∀ a ∈ l, ∃ b ∈ l', R a b
  | _, _, .nil, _, h => by cases h
  | _, _, .cons h hs, a, ha => by
    rcases List.mem_cons.1 ha with rfl | ha
    · exact ⟨_, by simp, h⟩
    · obtain ⟨b, hb, hr⟩ := hs.mem_left a ha
      exact ⟨b, List.mem_cons_of_mem _ hb, hr⟩

theorem All2.mem_right {α β : Type} {R : α → β → Prop} : ∀ {l : List α} {l' : List β}, All2 R l l' → ∀ b ∈ l', ∃ a ∈ l, R a b
  | _, _, .nil, _, h => by cases h
  | _, _, .cons h hs, a, ha => by
    rcases List.mem_cons.1 ha with rfl | ha
    · exact ⟨_, by simp, h⟩
    · obtain ⟨b, hb, hr⟩ := hs.mem_right a ha
      exact ⟨b, List.mem_cons_of_mem _ hb, hr⟩

theorem All2.imp {α β : Type} {R S : α → β → Prop} (hRS : ∀ a b, R a b → S a b) : ∀ {l : List α} {l' : List β}, All2 R l l' → All2 S l l'
  | _, _, .nil => .nil
  | _, _, .cons h hs => .cons (hRS _ _ h) (hs.imp hRS)

theorem all_false {l : List Val} (h : l.all Val.toBool = false) : ∃ v ∈ l, v.toBool = false := by
  induction l with
  | nil => cases h
  | cons a l ih =>
    simp only [List.all_cons, Bool.and_eq_false_iff] at h
    rcases h with h | h
    · exact ⟨a, by simp, h⟩
    · obtain ⟨v, hv, h'⟩ := ih h
      exact ⟨v, List.mem_cons_of_mem _ hv, h'⟩

theorem mem_evals {I : Interp} : ∀ {l : List Term} {v : Val}, v ∈ evals I l → ∃ t ∈ l, eval I t = v
  | [], v, h => by simp only [evals] at h; cases h
  | t :: l, v, h => by
    simp only [evals, List.mem_cons] at h
    rcases h with rfl | h
    · exact ⟨t, by simp, rfl⟩
    · obtain ⟨u, hu, e⟩ := mem_evals h
      exact ⟨u, List.mem_cons_of_mem _ hu, e⟩

theorem deriveLHS_ok {fs : List Term} {ps : List Nat} {st : St} (ht : TrueOk st) (hf : ∀ f ∈ fs, IsFact f)
    (hs : All2 (fun f p => Says st.steps p f) fs ps) :
    ∃ k st', deriveLHS (conj fs) ps st = some (k, st') ∧ Adds st st' ∧ Says st'.steps k (conj fs) := by
  match fs, hs, hf with
  | [], hs, _ =>
    have := trueOf_ok ht
    exact ⟨_, _, rfl, this.1, this.2⟩
  | [f], hs, hf =>
    cases hs with
    | cons h h' =>
      cases h'
      rcases hf f (by simp) with ⟨g, as, rfl⟩ | ⟨s, rfl⟩
      · exact ⟨_, _, rfl, .refl _, h⟩
      · exact ⟨_, _, rfl, .refl _, h⟩
  | a :: b :: l, hs, hf =>
    have hc : conj (a :: b :: l) = .op .and (a :: b :: l) := rfl
    rw [hc]
    simp only [deriveLHS]
    generalize hL : a :: b :: l = L at *
    have a1 : Adds st (st.record (.op .and L :: L.map neg) "and_neg" []) := adds_std (by decide) (by decide) fun I hI _ => by
      by_cases h : ((evals I L).all Val.toBool) = true
      · refine ⟨.op .and L, by simp, ?_⟩
        simp only [eval, show I.opv = stdOp from hI, stdOp, h, Val.toBool]
      · obtain ⟨v, hv, h'⟩ := all_false (Bool.eq_false_iff.2 h)
        obtain ⟨t, ht, rfl⟩ := mem_evals hv
        refine ⟨neg t, List.mem_cons_of_mem _ (List.mem_map_of_mem ht), ?_⟩
        rw [eval_neg hI.logStd, h']
        rfl
    have g1 := record_get st (.op .and L :: L.map neg) "and_neg" []
    rw [record_last st]
    generalize st.record (.op .and L :: L.map neg) "and_neg" [] = st1 at *
    have s1 : All2 (fun f p => Says st1.steps p f) L ps := hs.imp fun _ _ h => h.mono a1
    refine ⟨_, _, rfl, a1.trans (adds_log (by decide) ?_ fun I hI hr hp => ?_), ?_⟩
    · intro p hp
      rcases List.mem_append.1 hp with hp | hp
      · obtain ⟨f, _, h⟩ := s1.mem_right p hp
        exact h.lt
      · cases List.mem_singleton.1 hp
        exact (List.getElem?_eq_some_iff.1 g1).1
    · obtain ⟨t, ht, hb⟩ := hp st.steps.length (by simp) _ g1
      rcases List.mem_cons.1 ht with rfl | ht
      · exact holds_one.2 hb
      · obtain ⟨f, hfm, rfl⟩ := List.mem_map.1 ht
        obtain ⟨p, hpm, h⟩ := s1.mem_left f hfm
        have := h.use hr (hp p (List.mem_append_left _ hpm))
        rw [eval_neg hI, this] at hb
        cases hb
    · rw [record_last]; exact says_record

theorem lhsSteps_ok {σ : Inst} {l : Term} {fs : List Term} (hb : bodyFacts σ (conjuncts l) = some fs) {n : Name} {ps : List Nat} {st : St}
    (ht : TrueOk st) (hn : ∀ I, Respects I st.steps → I.name n = eval I (inst σ l)) (hs : All2 (fun f p => Says st.steps p f) fs ps) :
    ∃ k st', lhsSteps (inst σ l) n ps st = some (k, st') ∧ Adds st st' ∧ Says st'.steps k (inst σ l) := by
  obtain ⟨hf, r, st1, s1, e1⟩ := lhs_total hb (some n) st
  obtain ⟨a1, r1, l1, -⟩ := simplify_ok _ _ _ (fun m hm I hI => by cases hm; exact hn I hI) _ _ s1
  have hs1 : All2 (fun f p => Says st1.steps p f) fs ps := hs.imp fun _ _ h => h.mono a1
  have ht1 : TrueOk st1 := a1.choose_spec.2.2.1 ht
  obtain ⟨k, st2, d2, a2, y2⟩ := deriveLHS_ok ht1 hf hs1
  simp only [lhsSteps, s1]
  cases r with
  | none =>
    have e1' : inst σ l = conj fs := e1
    simp only [e1']
    exact ⟨k, st2, d2, a1.trans a2, y2⟩
  | some q =>
    obtain ⟨l', j⟩ := q
    have e1' : l' = conj fs := e1
    subst e1'
    simp only [d2]
    have hj : j = st1.last := l1 _ _ rfl
    subst hj
    have q1 := (r1 _ _ rfl).1
    have q2 := q1.mono a2
    have n2 : ∀ I, Respects I st2.steps → I.name n = eval I (inst σ l) := fun I hI => hn I ((a1.trans a2).respects hI)
    have a3 : Adds st2 (st2.record [.name n, neg (conj fs)] "equiv2" [st1.last]) := by
      refine adds_log (by decide) (by simp only [List.mem_singleton, forall_eq]; exact q2.lt) fun I hI hr hp => ?_
      have := q2.rec_use hI.eqStd hr (hp _ (by simp))
      rw [holds_two, eval_neg hI, ← this]
      simp only [eval]
      rw [n2 I (respects_left hr)]
      cases (eval I (inst σ l)).toBool <;> simp
    have g3 := record_get st2 [.name n, neg (conj fs)] "equiv2" [st1.last]
    rw [record_last st2]
    have y3 := y2.mono a3
    have n3 : ∀ I, Respects I (st2.record [.name n, neg (conj fs)] "equiv2" [st1.last]).steps → I.name n = eval I (inst σ l) :=
      fun I hI => n2 I (a3.respects hI)
    generalize st2.record [.name n, neg (conj fs)] "equiv2" [st1.last] = st3 at *
    refine ⟨_, _, rfl, ((a1.trans a2).trans a3).trans (adds_log (by decide) ?_ fun I hI hr hp => ?_), ?_⟩
    · intro p hp
      simp only [List.mem_cons, List.not_mem_nil, or_false] at hp
      rcases hp with rfl | rfl
      · exact y3.lt
      · exact (List.getElem?_eq_some_iff.1 g3).1
    · have h1 := y3.use hr (hp _ (by simp))
      have h2 := hp st2.steps.length (by simp) _ g3
      rw [holds_two, eval_neg hI, h1] at h2
      rw [holds_one]
      simpa using h2
    · rw [record_last]
      refine ⟨_, _, record_get .., rfl, fun I hr => ?_⟩
      simp only [eval]
      exact n3 I (respects_left hr)

/-! ### One clause -/

theorem derivePredicate_ok {σ : Inst} {l r : Term} {fs : List Term} (hb : bodyFacts σ (conjuncts l) = some fs) {c : Nat} {ps : List Nat} {st : St}
    (ht : TrueOk st) (hc : c = st.last) (hy : Says st.steps c (inst σ (.op .imp [l, r]))) (hs : All2 (fun f p => Says st.steps p f) fs ps) :
    ∃ k st', derivePredicate (inst σ (.op .imp [l, r])) c ps st = some (inst σ r, k, st') ∧ Adds st st' ∧ k = st'.last ∧
      st.steps.length < st'.steps.length ∧ Says st'.steps k (inst σ r) := by
  simp only [inst, insts, derivePredicate] at hy ⊢
  have a1 : Adds st (st.record [neg (.named (inst σ l) (.lhs c)), inst σ r] "implies" [st.last]) := by
    refine adds_log (by decide) (by simp only [List.mem_singleton, forall_eq]; rw [← hc]; exact hy.lt) fun I hI hr hp => ?_
    have := hy.use hr (by rw [hc]; exact hp _ (by simp))
    rw [eval_imp hI] at this
    rw [holds_two, eval_neg hI]
    simp only [eval]
    simpa using this
  have g1 := record_get st [neg (.named (inst σ l) (.lhs c)), inst σ r] "implies" [st.last]
  have n1 : ∀ I, Respects I (st.record [neg (.named (inst σ l) (.lhs c)), inst σ r] "implies" [st.last]).steps →
      I.name (.lhs c) = eval I (inst σ l) := fun I hr =>
    hr _ (List.mem_of_getElem? g1) (.lhs c, inst σ l) (by simp [neg, defss, defs])
  rw [record_last st]
  generalize st.record [neg (.named (inst σ l) (.lhs c)), inst σ r] "implies" [st.last] = st1 at *
  obtain ⟨k, st2, e2, a2, y2⟩ := lhsSteps_ok hb (a1.choose_spec.2.2.1 ht) n1 (hs.imp fun _ _ h => h.mono a1)
  simp only [e2]
  have g2 : st2.steps[st.steps.length]? = _ := (a2.get (List.getElem?_eq_some_iff.1 g1).1).trans g1
  refine ⟨_, _, rfl, (a1.trans a2).trans (adds_log (by decide) ?_ fun I hI hr hp => ?_), rfl, ?_, ?_⟩
  · intro p hp
    simp only [List.mem_cons, List.not_mem_nil, or_false] at hp
    rcases hp with rfl | rfl
    · exact (List.getElem?_eq_some_iff.1 g2).1
    · exact y2.lt
  · have h1 := y2.use hr (hp _ (by simp))
    have h2 := hp st.steps.length (by simp) _ g2
    rw [holds_two, eval_neg hI] at h2
    simp only [eval, h1] at h2
    rw [holds_one]
    simpa using h2
  · have := (List.getElem?_eq_some_iff.1 g2).1
    rw [record_len]; omega
  · rw [record_last]; exact says_record

theorem headFact_inst {σ : Inst} {t f : Term} (h : headFact σ t = some f) (st : St) :
    ∃ r st', simplify (inst σ t) none st = some (r, st') ∧ (r.map Prod.fst).getD (inst σ t) = f := by
  unfold headFact at h
  split at h
  · cases h
    exact ⟨none, st, by simp only [inst, simplify], by simp only [inst]; rfl⟩
  · exact (atomFact_inst h none st).2

theorem factSteps_ok {σ : Inst} {r fact : Term} (hh : headFact σ r = some fact) {k : Nat} {st : St} (hk : k = st.last)
    (hy : Says st.steps k (inst σ r)) :
    ∃ j st', factSteps (inst σ r) k st = some (j, st') ∧ Adds st st' ∧ j = st'.last ∧ Says st'.steps j fact := by
  obtain ⟨q, st1, s1, e1⟩ := headFact_inst hh st
  obtain ⟨a1, r1, l1, u1⟩ := simplify_ok _ _ _ (NameOk.none _ _) _ _ s1
  simp only [factSteps, s1]
  cases q with
  | none =>
    have e1' : inst σ r = fact := e1
    have := u1 rfl
    subst this
    exact ⟨k, st1, rfl, .refl _, hk, by rw [← e1']; exact hy⟩
  | some q =>
    obtain ⟨t, j⟩ := q
    have e1' : t = fact := e1
    subst e1'
    have hj : j = st1.last := l1 _ _ rfl
    subst hj
    have q1 := (r1 _ _ rfl).1
    simp only
    have a2 : Adds st1 (st1.record [neg (inst σ r), t] "equiv1" [st1.last]) := by
      refine adds_log (by decide) (by simp only [List.mem_singleton, forall_eq]; exact q1.lt) fun I hI hr hp => ?_
      have := q1.rec_use hI.eqStd hr (hp _ (by simp))
      rw [holds_two, eval_neg hI, this]
      cases (eval I t).toBool <;> simp
    have g2 := record_get st1 [neg (inst σ r), t] "equiv1" [st1.last]
    have y2 := (hy.mono a1).mono a2
    rw [record_last st1]
    generalize st1.record [neg (inst σ r), t] "equiv1" [st1.last] = st2 at *
    refine ⟨_, _, rfl, (a1.trans a2).trans (adds_log (by decide) ?_ fun I hI hr hp => ?_), rfl, ?_⟩
    · intro p hp
      simp only [List.mem_cons, List.not_mem_nil, or_false] at hp
      rcases hp with rfl | rfl
      · exact (List.getElem?_eq_some_iff.1 g2).1
      · exact y2.lt
    · have h1 := y2.use hr (hp k (by simp))
      have h2 := hp st1.steps.length (by simp) _ g2
      rw [holds_two, eval_neg hI, h1] at h2
      rw [holds_one]
      simpa using h2
    · rw [record_last]; exact says_record

end Alethe
end Golem
