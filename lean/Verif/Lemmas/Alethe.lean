import Verif.Model.Proofs.Simplify

/-! Simplification with proof steps: the steps are right. -/

namespace Golem
namespace Alethe

theorem respects_left {I : Interp} {a b : List Step} (h : Respects I (a ++ b)) : Respects I a :=
  fun s hs => h s (List.mem_append_left _ hs)

theorem getElem?_left {a b : List Step} {k : Nat} (h : k < a.length) : (a ++ b)[k]? = a[k]? := List.getElem?_append_left h

theorem StepOk.mono {a b : List Step} {k : Nat} (hk : k < a.length) (h : StepOk a k) : StepOk (a ++ b) k := by
  intro s hs hass
  rw [getElem?_left hk] at hs
  obtain ⟨h1, h2, h3⟩ := h s hs hass
  refine ⟨h1, h2, fun I hI hr hp => h3 I hI (respects_left hr) fun p hp' s' hs' => hp p hp' s' ?_⟩
  rw [getElem?_left (Nat.lt_trans (h1 p hp') hk)]
  exact hs'

/-- The step for `true`, if there is one, says `true`. -/
def TrueOk (st : St) : Prop := st.trueStep = 0 ∨ ∃ s, st.steps[st.trueStep]? = some s ∧ s.clause = [.bool true]

/-- The steps added are right. -/
def Adds (st st' : St) : Prop := ∃ more, st'.steps = st.steps ++ more ∧ (∀ k, st.steps.length ≤ k → StepOk st'.steps k) ∧
  (TrueOk st → TrueOk st') ∧ ∀ s ∈ more, s.assume = false

theorem stepOk_beyond {ss : List Step} {k : Nat} (h : ss.length ≤ k) : StepOk ss k := by
  intro s hs
  rw [List.getElem?_eq_none h] at hs
  cases hs

theorem Adds.refl (st : St) : Adds st st := ⟨[], by simp, fun _ h => stepOk_beyond h, id, by simp⟩

theorem Adds.trans {a b c : St} (h : Adds a b) (h' : Adds b c) : Adds a c := by
  obtain ⟨m, e, h1, t1, n1⟩ := h
  obtain ⟨m', e', h2, t2, n2⟩ := h'
  refine ⟨m ++ m', by rw [e', e, List.append_assoc], fun k hk => ?_, t2 ∘ t1, fun s hs => (List.mem_append.1 hs).elim (n1 s) (n2 s)⟩
  by_cases hb : k < b.steps.length
  · rw [e']; exact (h1 k hk).mono hb
  · exact h2 k (by omega)

theorem Adds.len {a b : St} (h : Adds a b) : a.steps.length ≤ b.steps.length := by
  obtain ⟨m, e, _⟩ := h
  rw [e, List.length_append]; omega

theorem Adds.respects {a b : St} (h : Adds a b) {I : Interp} (hr : Respects I b.steps) : Respects I a.steps := by
  obtain ⟨m, e, _⟩ := h
  rw [e] at hr
  exact respects_left hr

theorem Adds.get {a b : St} (h : Adds a b) {k : Nat} (hk : k < a.steps.length) : b.steps[k]? = a.steps[k]? := by
  obtain ⟨m, e, _⟩ := h
  rw [e]; exact getElem?_left hk

theorem Adds.name {a b : St} (h : Adds a b) (n : Nat) : Adds a { b with nameIndex := n } := h

theorem TrueOk.record {st : St} (h : TrueOk st) (c : List Term) (r : String) (ps : List Nat) : TrueOk (st.record c r ps) := by
  rcases h with h | ⟨s, h1, h2⟩
  · exact .inl h
  · refine .inr ⟨s, ?_, h2⟩
    simp only [St.record]
    rw [getElem?_left (List.getElem?_eq_some_iff.1 h1).1]
    exact h1

theorem Adds.record {st : St} {c : List Term} {rule : String} {ps : List Nat} (h1 : ∀ p ∈ ps, p < st.steps.length)
    (h2 : ps ≠ [] → rule ∈ ["cong", "trans", "resolution", "equiv1", "equiv2", "implies", "or"])
    (h3 : ∀ I : Interp, Scope rule I → Respects I (st.record c rule ps).steps →
      (∀ p ∈ ps, ∀ s', st.steps[p]? = some s' → Holds I s'.clause) → Holds I c) : Adds st (st.record c rule ps) := by
  refine ⟨_, rfl, fun k hk s hs _ => ?_, fun h => h.record _ _ _, by simp⟩
  by_cases hk' : k = st.steps.length
  · subst hk'
    simp only [St.record, List.getElem?_concat_length, Option.some.injEq] at hs
    subst hs
    refine ⟨h1, h2, fun I hI hr hp => h3 I hI hr fun p hp' s' hs' => hp p hp' s' ?_⟩
    simp only [St.record]
    rw [getElem?_left (h1 p hp')]
    exact hs'
  · have : (st.record c rule ps).steps.length ≤ k := by simp [St.record]; omega
    exact stepOk_beyond this s hs ‹_›

theorem record_len (st : St) (c : List Term) (r : String) (ps : List Nat) : (st.record c r ps).steps.length = st.steps.length + 1 := by
  simp [St.record]

theorem record_last (st : St) (c : List Term) (r : String) (ps : List Nat) : (st.record c r ps).last = st.steps.length := by
  simp [St.last, record_len]

theorem record_get (st : St) (c : List Term) (r : String) (ps : List Nat) :
    (st.record c r ps).steps[st.steps.length]? = some ⟨false, c, r, ps, []⟩ := by
  simp [St.record]

/-- Step `k` says that `t` equals `t'`. -/
def EqStep (ss : List Step) (k : Nat) (t t' : Term) : Prop := ∃ s X, ss[k]? = some s ∧ s.clause = [eqn X t'] ∧
  ∀ I, Respects I ss → eval I X = eval I t

theorem EqStep.lt {ss : List Step} {k : Nat} {t t' : Term} (h : EqStep ss k t t') : k < ss.length := by
  obtain ⟨s, X, h, -⟩ := h
  exact (List.getElem?_eq_some_iff.1 h).1

theorem EqStep.mono {a b : St} (hb : Adds a b) {k : Nat} {t t' : Term} (h : EqStep a.steps k t t') : EqStep b.steps k t t' := by
  have hk := h.lt
  obtain ⟨s, X, h1, h2, h3⟩ := h
  exact ⟨s, X, by rw [hb.get hk]; exact h1, h2, fun I hI => h3 I (hb.respects hI)⟩

theorem holds_eqn {I : Interp} (hI : EqStd I) {x y : Term} : Holds I [eqn x y] ↔ eval I x = eval I y := by
  have h : I.opv .eq = stdOp .eq := hI
  simp only [Holds, List.mem_singleton, exists_eq_left, eqn, eval, evals]
  rw [h]
  simp only [stdOp, Val.toBool, decide_eq_true_eq]

theorem EqStep.use {ss : List Step} {k : Nat} {t t' : Term} (h : EqStep ss k t t') {I : Interp} (hI : EqStd I) (hr : Respects I ss)
    (hp : ∀ s, ss[k]? = some s → Holds I s.clause) : eval I t = eval I t' := by
  obtain ⟨s, X, h1, h2, h3⟩ := h
  have := hp s h1
  rw [h2, holds_eqn hI] at this
  rw [← h3 I hr]; exact this

theorem eqStep_record {st : St} {x y : Term} {r : String} {ps : List Nat} :
    EqStep (st.record [eqn x y] r ps).steps st.steps.length x y :=
  ⟨_, x, record_get st _ _ _, rfl, fun _ _ => rfl⟩

theorem Std.eqStd {I : Interp} (h : Std I) : EqStd I := by unfold EqStd; rw [h]

/-! ### The values -/

theorem divmod_eq {m n : Int} (h : n ≠ 0) : divmod m n = (m / n, m % n) := by
  have hq : (if n > 0 then m.fdiv n else -((-m).fdiv n)) = m / n := by
    split
    · rename_i hn
      exact Int.fdiv_eq_ediv_of_nonneg m (by omega)
    · rename_i hn
      have h1 : (-m).fdiv n = m.fdiv (-n) := by
        have := Int.neg_fdiv_neg m (-n)
        rw [Int.neg_neg] at this
        exact this
      rw [h1, Int.fdiv_eq_ediv_of_nonneg m (by omega), Int.ediv_neg, Int.neg_neg]
  unfold divmod
  simp only [hq]
  rw [Int.emod_def]

theorem asNums_eval {I : Interp} : ∀ {l : List Term} {ns : List Int}, asNums l = some ns → evals I l = ns.map Val.int
  | [], ns, h => by cases h; rfl
  | t :: l, ns, h => by
    simp only [asNums] at h
    split at h
    · rename_i n ns' h1 h2
      cases h
      cases t with
      | num k => cases h1; simp only [evals, eval, asNums_eval h2, List.map_cons]
      | _ => cases h1
    · cases h

theorem isFormula_bool {I : Interp} (hI : Std I) {t : Term} (h : isFormula t = true) : ∃ b, eval I t = .bool b := by
  cases t with
  | bool b => exact ⟨b, by simp only [eval]⟩
  | var s k => cases k with
    | int => simp [isFormula] at h
    | bool => exact ⟨I.varB s, by simp only [eval]⟩
  | app f as => exact ⟨I.app f (evals I as), by simp only [eval]⟩
  | op o as =>
    simp only [eval, show I.opv = stdOp from hI]
    generalize evals I as = l
    simp only [isFormula, decide_eq_true_eq] at h
    cases o <;> first | (exact absurd h (by decide)) | skip
    all_goals unfold stdOp; split <;> first | exact ⟨_, rfl⟩ | simp_all
  | num n => cases h
  | name n => cases h
  | named n s => cases h
  | all n s => cases h

theorem andArgs_eval {I : Interp} : ∀ {l : List Term} {r : Term ⊕ List Term}, andArgs l = some r →
    (∀ t, r = .inl t → t = .bool false ∧ (evals I l).all Val.toBool = false) ∧
    ∀ l', r = .inr l' → (evals I l).all Val.toBool = (evals I l').all Val.toBool ∧ ∀ t ∈ l', isFormula t = true
  | [], r, h => by
    cases h
    exact ⟨fun t e => (by cases e), fun l' e => (by cases e; exact ⟨rfl, by simp⟩)⟩
  | t :: l, r, h => by
    simp only [andArgs] at h
    split at h
    · rename_i hb
      have ht : t = .bool true := by cases t <;> simp_all [asBool]
      subst ht
      have := andArgs_eval (I := I) h
      refine ⟨fun u e => ⟨(this.1 u e).1, ?_⟩, fun l' e => ⟨?_, (this.2 l' e).2⟩⟩
      · simp only [evals, eval, List.all_cons, (this.1 u e).2, Bool.and_false]
      · simp only [evals, eval, List.all_cons, (this.2 l' e).1, Val.toBool, Bool.true_and]
    · rename_i hb
      have ht : t = .bool false := by cases t <;> simp_all [asBool]
      subst ht
      cases h
      refine ⟨fun u e => ?_, fun l' e => by cases e⟩
      cases e
      exact ⟨rfl, by simp only [evals, eval, List.all_cons, Val.toBool, Bool.false_and]⟩
    · split at h
      · rename_i hf
        split at h
        · rename_i u hu
          cases h
          have := (andArgs_eval (I := I) hu).1 u rfl
          refine ⟨fun u' e => ?_, fun l' e => by cases e⟩
          cases e
          exact ⟨this.1, by simp only [evals, List.all_cons, this.2, Bool.and_false]⟩
        · rename_i l' hl
          cases h
          have := (andArgs_eval (I := I) hl).2 l' rfl
          refine ⟨fun u' e => (by cases e), fun l'' e => ?_⟩
          cases e
          refine ⟨by simp only [evals, List.all_cons, this.1], fun u hu => ?_⟩
          rcases List.mem_cons.1 hu with rfl | hu
          · exact hf
          · exact this.2 u hu
        · cases h
      · cases h

theorem or_any {I : Interp} : ∀ {l : List Term}, l.any (fun t => asBool t == some true) = true → (evals I l).any Val.toBool = true
  | [], h => by cases h
  | t :: l, h => by
    simp only [List.any_cons, Bool.or_eq_true, evals] at h ⊢
    rcases h with h | h
    · left
      cases t with
      | bool b => cases b with
        | true => rfl
        | false => cases h
      | _ => cases h
    · exact .inr (or_any h)

theorem or_all {I : Interp} : ∀ {l : List Term}, l.all (fun t => asBool t == some false) = true → (evals I l).any Val.toBool = false
  | [], _ => rfl
  | t :: l, h => by
    simp only [List.all_cons, Bool.and_eq_true, evals, List.any_cons, Bool.or_eq_false_iff] at h ⊢
    refine ⟨?_, or_all h.2⟩
    cases t with
    | bool b => cases b with
      | true => cases h.1
      | false => rfl
    | _ => cases h.1

def simplRules : List String := ["eq_simplify", "equiv_simplify", "comp_simplify", "and_simplify", "or_simplify", "not_simplify", "ite_simplify",
  "sum_simplify", "minus_simplify", "prod_simplify", "mod_simplify", "div_simplify"]

theorem scope_simpl {r : String} (h : r ∈ simplRules) {I : Interp} (hI : Scope r I) : Std I := by
  unfold Scope at hI
  rwa [if_neg, if_neg] at hI
  · simp only [simplRules, List.mem_cons, List.not_mem_nil, or_false] at h
    rcases h with rfl | rfl | rfl | rfl | rfl | rfl | rfl | rfl | rfl | rfl | rfl | rfl <;> decide
  · simp only [simplRules, List.mem_cons, List.not_mem_nil, or_false] at h
    rcases h with rfl | rfl | rfl | rfl | rfl | rfl | rfl | rfl | rfl | rfl | rfl | rfl <;> decide

theorem evalDirect_ok {o : OpSym} {args : List Term} {t : Term} {r : String} (h : evalDirect o args = some (t, r)) :
    r ∈ simplRules ∧ ∀ I : Interp, Std I → eval I (.op o args) = eval I t := by
  unfold evalDirect at h
  split at h
  · cases h; exact ⟨by decide, fun I hI => by simp [eval, evals, show I.opv = stdOp from hI, stdOp]⟩
  · cases h; exact ⟨by decide, fun I hI => by simp [eval, evals, show I.opv = stdOp from hI, stdOp]⟩
  · cases h
    refine ⟨by decide, fun I hI => ?_⟩
    simp only [eval, evals, show I.opv = stdOp from hI, stdOp, Val.toInt]
    exact congrArg Val.bool (decide_eq_decide.2 Iff.rfl)
  · cases h
    refine ⟨by decide, fun I hI => ?_⟩
    simp only [eval, evals, show I.opv = stdOp from hI, stdOp, Val.toInt]
    exact congrArg Val.bool (decide_eq_decide.2 Int.le_iff_lt_or_eq)
  · split at h
    · rename_i t' ha
      cases h
      refine ⟨by decide, fun I hI => ?_⟩
      obtain ⟨e, hh⟩ := (andArgs_eval (I := I) ha).1 t rfl
      subst e
      simp only [eval, show I.opv = stdOp from hI, stdOp, hh]
    · rename_i ha
      cases h
      refine ⟨by decide, fun I hI => ?_⟩
      have := ((andArgs_eval (I := I) ha).2 _ rfl).1
      simp only [evals, List.all_nil] at this
      simp only [eval, show I.opv = stdOp from hI, stdOp, this]
    · rename_i t' ha
      cases h
      refine ⟨by decide, fun I hI => ?_⟩
      obtain ⟨h1, h2⟩ := (andArgs_eval (I := I) ha).2 _ rfl
      obtain ⟨b, hb⟩ := isFormula_bool hI (h2 t (by simp))
      simp only [evals, List.all_cons, List.all_nil, Bool.and_true, hb, Val.toBool] at h1
      rw [hb]
      simp only [eval, show I.opv = stdOp from hI, stdOp, h1]
    · rename_i l' _ _ ha
      cases h
      refine ⟨by decide, fun I hI => ?_⟩
      have := ((andArgs_eval (I := I) ha).2 _ rfl).1
      simp only [eval, show I.opv = stdOp from hI, stdOp, this]
    · cases h
  · split at h
    · rename_i ha
      cases h
      exact ⟨by decide, fun I hI => by simp only [eval, show I.opv = stdOp from hI, stdOp, or_any ha]⟩
    · split at h
      · rename_i ha
        cases h
        exact ⟨by decide, fun I hI => by simp only [eval, show I.opv = stdOp from hI, stdOp, or_all ha]⟩
      · cases h
  · cases h; exact ⟨by decide, fun I hI => by simp [eval, evals, show I.opv = stdOp from hI, stdOp, Val.toBool]⟩
  · rename_i c a b
    cases h
    exact ⟨by decide, fun I hI => by cases c <;> simp [eval, evals, show I.opv = stdOp from hI, stdOp, Val.toBool]⟩
  · obtain ⟨ns, h1, h2⟩ := Option.bind_eq_some_iff.1 h
    split at h2
    · cases h2
    · cases h2
      refine ⟨by decide, fun I hI => ?_⟩
      simp only [eval, show I.opv = stdOp from hI, stdOp, asNums_eval h1, List.map_map]
      congr 2
      exact (List.map_congr_left fun _ _ => rfl).trans (List.map_id _)
  · cases h; exact ⟨by decide, fun I hI => by simp [eval, evals, show I.opv = stdOp from hI, stdOp, Val.toInt]⟩
  · cases h; exact ⟨by decide, fun I hI => by simp [eval, evals, show I.opv = stdOp from hI, stdOp, Val.toInt]⟩
  · split at h
    · cases h
    · rename_i hn
      cases h
      exact ⟨by decide, fun I hI => by simp [eval, evals, show I.opv = stdOp from hI, stdOp, Val.toInt, divmod_eq hn]⟩
  · split at h
    · cases h
    · rename_i hn
      cases h
      exact ⟨by decide, fun I hI => by simp [eval, evals, show I.opv = stdOp from hI, stdOp, Val.toInt, divmod_eq hn]⟩
  · cases h


/-! ### One operator -/

theorem EqStep.imp {ss : List Step} {k : Nat} {t u t' : Term} (h : EqStep ss k t t') (he : ∀ I, Respects I ss → eval I t = eval I u) :
    EqStep ss k u t' := by
  obtain ⟨s, X, h1, h2, h3⟩ := h
  exact ⟨s, X, h1, h2, fun I hI => (h3 I hI).trans (he I hI)⟩

theorem scope_eqStd {r : String} (h : r = "cong" ∨ r = "trans") {I : Interp} (hI : Scope r I) : EqStd I := by
  unfold Scope at hI
  rwa [if_pos] at hI
  rcases h with rfl | rfl <;> decide

/-- A congruence or transitivity step. -/
theorem adds_eqStep {st : St} {x y : Term} {r : String} {ps : List Nat} (hr : r = "cong" ∨ r = "trans")
    (hp : ∀ p ∈ ps, p < st.steps.length)
    (h : ∀ I, EqStd I → Respects I (st.record [eqn x y] r ps).steps →
      (∀ p ∈ ps, ∀ s', st.steps[p]? = some s' → Holds I s'.clause) → eval I x = eval I y) :
    Adds st (st.record [eqn x y] r ps) := by
  refine Adds.record hp (fun _ => ?_) fun I hI hrs hps => ?_
  · rcases hr with rfl | rfl <;> decide
  · have := scope_eqStd hr hI
    exact (holds_eqn this).2 (h I this hrs hps)

theorem adds_simpl {st : St} {x y : Term} {r : String} (hr : r ∈ simplRules) (h : ∀ I, Std I → eval I x = eval I y) :
    Adds st (st.record [eqn x y] r []) := by
  refine Adds.record (by simp) (fun h => absurd rfl h) fun I hI _ _ => ?_
  have := scope_simpl hr hI
  exact (holds_eqn this.eqStd).2 (h I this)

theorem direct1_ok {o : OpSym} {args : List Term} {st st' : St} {e : Term} (h : direct1 o args st = some (e, st')) :
    Adds st st' ∧ st'.last = st.steps.length ∧ EqStep st'.steps st'.last (.op o args) e ∧ st'.nameIndex = st.nameIndex ∧
      ∀ I : Interp, Std I → eval I (.op o args) = eval I e := by
  unfold direct1 at h
  split at h
  · rename_i t rule hd
    cases h
    obtain ⟨h1, h2⟩ := evalDirect_ok hd
    refine ⟨adds_simpl h1 h2, record_last .., ?_, rfl, h2⟩
    rw [record_last]
    exact eqStep_record
  · cases h

theorem EqStep.rec' {st : St} {k : Nat} {t t' : Term} (h : EqStep st.steps k t t') {c : List Term} {r : String} {ps : List Nat} :
    EqStep (st.record c r ps).steps k t t' := by
  have hk := h.lt
  obtain ⟨s, X, h1, h2, h3⟩ := h
  refine ⟨s, X, ?_, h2, fun I hI => h3 I (respects_left hI)⟩
  simp only [St.record]
  rw [getElem?_left hk]
  exact h1

theorem EqStep.rec_use {st : St} {k : Nat} {t t' : Term} (h : EqStep st.steps k t t') {c : List Term} {r : String} {ps : List Nat}
    {I : Interp} (hI : EqStd I) (hr : Respects I (st.record c r ps).steps)
    (hp : ∀ s, st.steps[k]? = some s → Holds I s.clause) : eval I t = eval I t' :=
  h.use hI (respects_left hr) hp

theorem eval_op_congr {I : Interp} {o : OpSym} {as bs : List Term} (h : evals I as = evals I bs) : eval I (.op o as) = eval I (.op o bs) := by
  simp only [eval, h]

theorem simplifyOpDirect_ok {o : OpSym} {args : List Term} {st st' : St} {e : Term} (h : simplifyOpDirect o args st = some (e, st')) :
    Adds st st' ∧ EqStep st'.steps st'.last (.op o args) e ∧ st'.nameIndex = st.nameIndex ∧
      ∀ I : Interp, Std I → eval I (.op o args) = eval I e := by
  unfold simplifyOpDirect at h
  split at h
  · -- gt
    simp only at h
    have hlen : ∀ (I : Interp), Std I → ∀ c st2, direct1 .le args (st.record [eqn (.op .gt args) (neg (.op .le args))] "comp_simplify" []) = some (c, st2) →
        eval I (.op .gt args) = eval I (neg (.op .le args)) := by
      intro I hI c st2 hd
      have h2 : ∃ m n, args = [.num m, .num n] := by
        unfold direct1 at hd
        split at hd
        · rename_i hd'
          unfold evalDirect at hd'
          split at hd' <;> first | (rename_i heq _; cases heq; done) | skip
          all_goals first | exact ⟨_, _, rfl⟩ | (rename_i heq; cases heq) | cases hd'
        · cases hd
      obtain ⟨m, n, rfl⟩ := h2
      simp only [neg, eval, evals, show I.opv = stdOp from hI, stdOp, Val.toInt, Val.toBool]
      refine congrArg Val.bool ?_
      show decide (m > n) = !decide (m ≤ n)
      rw [← decide_not]
      exact decide_eq_decide.2 (by omega)
    split at h
    · cases h
    · rename_i c st2 hd
      have hs := fun I hI => hlen I hI c st2 hd
      have a1 : Adds st (st.record [eqn (.op .gt args) (neg (.op .le args))] "comp_simplify" []) := adds_simpl (by decide) hs
      have e1 : EqStep (st.record [eqn (.op .gt args) (neg (.op .le args))] "comp_simplify" []).steps st.steps.length
        (.op .gt args) (neg (.op .le args)) := eqStep_record
      have n1 : (st.record [eqn (.op .gt args) (neg (.op .le args))] "comp_simplify" []).nameIndex = st.nameIndex := rfl
      rw [record_last st] at h
      generalize st.record [eqn (.op .gt args) (neg (.op .le args))] "comp_simplify" [] = st1 at *
      obtain ⟨a2, l2, e2, n2, v2⟩ := direct1_ok hd
      have a3 : Adds st2 (st2.record [eqn (neg (.op .le args)) (neg c)] "cong" [st2.last]) := by
        refine adds_eqStep (.inl rfl) (by simp only [List.mem_singleton, forall_eq]; exact e2.lt) fun I hI hr hp => ?_
        have := e2.rec_use hI hr (hp _ (by simp))
        exact eval_op_congr (by simp only [evals, this])
      have e3 : EqStep (st2.record [eqn (neg (.op .le args)) (neg c)] "cong" [st2.last]).steps st2.steps.length
        (neg (.op .le args)) (neg c) := eqStep_record
      rw [record_last st2] at h
      have n3 : (st2.record [eqn (neg (.op .le args)) (neg c)] "cong" [st2.last]).nameIndex = st2.nameIndex := rfl
      generalize st2.record [eqn (neg (.op .le args)) (neg c)] "cong" [st2.last] = st3 at *
      split at h
      · cases h
      · rename_i d st4 hd'
        obtain ⟨a4, l4, e4, n4, v4⟩ := direct1_ok hd'
        cases h
        have f1 := e1.mono ((a2.trans a3).trans a4)
        have f3 := e3.mono a4
        refine ⟨((a1.trans a2).trans (a3.trans a4)).trans (adds_eqStep (.inr rfl) ?_ fun I hI hr hp => ?_), ?_, ?_, fun I hI => ?_⟩
        · intro p hp
          simp only [List.mem_cons, List.not_mem_nil, or_false] at hp
          rcases hp with rfl | rfl | rfl
          · exact f1.lt
          · exact f3.lt
          · exact e4.lt
        · exact ((f1.rec_use hI hr (hp _ (by simp))).trans (f3.rec_use hI hr (hp _ (by simp)))).trans
            (e4.rec_use hI hr (hp _ (by simp)))
        · rw [record_last]; exact eqStep_record
        · exact n4.trans (n3.trans (n2.trans n1))
        · exact ((hs I hI).trans (eval_op_congr (by simp only [evals, v2 I hI]))).trans (v4 I hI)
  · -- ge
    split at h
    · rename_i a b
      simp only at h
      split at h
      · cases h
      · rename_i c st2 hd
        have hs : ∀ I, Std I → eval I (.op .ge [a, b]) = eval I (.op .le [b, a]) := by
          intro I hI
          simp only [eval, evals, show I.opv = stdOp from hI, stdOp, ge_iff_le]
        have a1 : Adds st (st.record [eqn (.op .ge [a, b]) (.op .le [b, a])] "comp_simplify" []) := adds_simpl (by decide) hs
        have e1 : EqStep (st.record [eqn (.op .ge [a, b]) (.op .le [b, a])] "comp_simplify" []).steps st.steps.length
          (.op .ge [a, b]) (.op .le [b, a]) := eqStep_record
        rw [record_last st] at h
        obtain ⟨a2, l2, e2, n2, v2⟩ := direct1_ok hd
        cases h
        have f1 := e1.mono a2
        refine ⟨(a1.trans a2).trans (adds_eqStep (.inr rfl) ?_ fun I hI hr hp => ?_), ?_, ?_, fun I hI => ?_⟩
        · intro p hp
          simp only [List.mem_cons, List.not_mem_nil, or_false] at hp
          rcases hp with rfl | rfl
          · exact f1.lt
          · exact e2.lt
        · exact (f1.rec_use hI hr (hp _ (by simp))).trans (e2.rec_use hI hr (hp _ (by simp)))
        · rw [record_last]; exact eqStep_record
        · exact n2
        · exact (hs I hI).trans (v2 I hI)
    · cases h
  · obtain ⟨h1, h2, h3, h4, h5⟩ := direct1_ok h
    exact ⟨h1, h3, h4, h5⟩


/-! ### Terms -/

inductive All2 {α β : Type} (R : α → β → Prop) : List α → List β → Prop
  | nil : All2 R [] []
  | cons {a : α} {b : β} {l : List α} {l' : List β} : R a b → All2 R l l' → All2 R (a :: l) (b :: l')

/-- A result is right: the step says that the term equals its simplification, and it does. -/
def ResOk (st : St) (t : Term) (r : Result) : Prop := ∀ t' k, r = some (t', k) →
  EqStep st.steps k t t' ∧ ∀ I, Std I → eval I t = eval I t'

theorem ResOk.mono {a b : St} (h : Adds a b) {t : Term} {r : Result} (hr : ResOk a t r) : ResOk b t r :=
  fun t' k e => ⟨(hr t' k e).1.mono h, (hr t' k e).2⟩

theorem newArgs_eval {st : St} {I : Interp} (hI : EqStd I) (hr : Respects I st.steps) : ∀ {as : List Term} {rs : List Result},
    All2 (ResOk st) as rs → (∀ p ∈ congPremises rs, ∀ s, st.steps[p]? = some s → Holds I s.clause) →
    evals I as = evals I (newArgs as rs)
  | _, _, .nil, _ => by simp only [evals, newArgs]
  | _, _, .cons (a := a) (b := r) h hs, hp => by
    cases r with
    | none =>
      simp only [newArgs, evals]
      rw [← newArgs_eval hI hr hs fun p hp' => hp p (by simpa [congPremises] using hp')]
    | some q =>
      obtain ⟨t, k⟩ := q
      simp only [newArgs, evals]
      rw [← newArgs_eval hI hr hs fun p hp' => hp p (by simp only [congPremises, List.filterMap_cons, Option.map_some]; exact List.mem_cons_of_mem _ hp')]
      rw [(h t k rfl).1.use hI hr (hp k (by simp [congPremises]))]

theorem newArgs_std {st : St} {I : Interp} (hI : Std I) : ∀ {as : List Term} {rs : List Result},
    All2 (ResOk st) as rs → evals I as = evals I (newArgs as rs)
  | _, _, .nil => by simp only [evals, newArgs]
  | _, _, .cons (a := a) (b := r) h hs => by
    cases r with
    | none =>
      simp only [newArgs, evals]
      rw [← newArgs_std hI hs]
    | some q =>
      obtain ⟨t, k⟩ := q
      simp only [newArgs, evals]
      rw [← newArgs_std hI hs, (h t k rfl).2 I hI]

theorem premises_lt {st : St} : ∀ {as : List Term} {rs : List Result}, All2 (ResOk st) as rs →
    ∀ p ∈ congPremises rs, p < st.steps.length
  | _, _, .nil, p, hp => by simp [congPremises] at hp
  | _, _, .cons (a := a) (b := r) h hs, p, hp => by
    cases r with
    | none => exact premises_lt hs p (by simpa [congPremises] using hp)
    | some q =>
      obtain ⟨t, k⟩ := q
      simp only [congPremises, List.filterMap_cons, Option.map_some, List.mem_cons] at hp
      rcases hp with rfl | hp
      · exact (h t _ rfl).1.lt
      · exact premises_lt hs p hp

/-- The name given to the term, if any, has its value. -/
def NameOk (st : St) (t : Term) (nm : Option Name) : Prop := ∀ n, nm = some n → ∀ I, Respects I st.steps → I.name n = eval I t

theorem NameOk.none (st : St) (t : Term) : NameOk st t none := fun _ h => by cases h

theorem processResults_ok {st : St} {t t' : Term} {nm : Option Name} {rs : List Result} (hnm : NameOk st t nm)
    (hlt : ∀ p ∈ congPremises rs, p < st.steps.length)
    (h : ∀ I, EqStd I → Respects I st.steps → (∀ p ∈ congPremises rs, ∀ s, st.steps[p]? = some s → Holds I s.clause) → eval I t = eval I t') :
    Adds st (processResults t t' nm rs st).2 ∧ (processResults t t' nm rs st).2.last = st.steps.length ∧
      EqStep (processResults t t' nm rs st).2.steps (processResults t t' nm rs st).2.last t t' ∧
      ∀ I, Respects I (processResults t t' nm rs st).2.steps → I.name (processResults t t' nm rs st).1 = eval I t := by
  cases nm with
  | some n =>
    simp only [processResults]
    refine ⟨adds_eqStep (.inl rfl) hlt fun I hI hr hp => ?_, record_last .., ?_, fun I hr => hnm n rfl I (respects_left hr)⟩
    · simp only [eval]
      rw [hnm n rfl I (respects_left hr)]
      exact h I hI (respects_left hr) hp
    · rw [record_last]
      refine eqStep_record.imp fun I hr => ?_
      simp only [eval]
      exact hnm n rfl I (respects_left hr)
  | none =>
    simp only [processResults]
    refine ⟨?_, record_last .., ?_, fun I hr => ?_⟩
    · refine Adds.name (adds_eqStep (.inl rfl) hlt fun I hI hr hp => ?_) _
      simp only [eval]
      exact h I hI (respects_left hr) hp
    · show EqStep _ (St.last (St.record st _ _ _)) _ _
      rw [record_last]
      refine EqStep.imp eqStep_record fun I hr => ?_
      simp only [eval]
    · exact hr ⟨false, [eqn (.named t (.t st.nameIndex)) t'], "cong", congPremises rs, []⟩ (by simp [St.record]) (.t st.nameIndex, t)
        (by simp [eqn, defss, defs])

/-- `ite` aside, an operator. -/
theorem simplify_op {o : OpSym} (ho : o ≠ .ite) (args : List Term) (nm : Option Name) (st : St) : simplify (.op o args) nm st =
    match simplifyArgs args st with
    | none => none
    | some (rs, st1) =>
      if rs.all Option.isNone then
        match simplifyOpDirect o args st1 with
        | none => none
        | some (e, st2) => some (some (e, st2.last), st2)
      else
        let as := newArgs args rs
        let r := processResults (.op o args) (.op o as) nm rs st1
        match simplifyOpDirect o as r.2 with
        | none => none
        | some (e, st3) =>
          let st4 := st3.record [eqn (.name r.1) e] "trans" [r.2.last, st3.last]
          some (some (e, st4.last), st4) := by
  cases o <;> first | exact absurd rfl ho | (rw [simplify] <;> first | rfl | (intros; simp_all))

mutual
theorem simplify_ok : ∀ (t : Term) (nm : Option Name) (st : St), NameOk st t nm → ∀ r st', simplify t nm st = some (r, st') →
    Adds st st' ∧ ResOk st' t r ∧ (∀ t' k, r = some (t', k) → k = st'.last) ∧ (r = none → st' = st)
  | .num _, _, st, _, r, st', h => by
    simp only [simplify] at h; cases h; exact ⟨.refl _, fun _ _ e => (by cases e), fun _ _ e => (by cases e), fun _ => rfl⟩
  | .bool _, _, st, _, r, st', h => by
    simp only [simplify] at h; cases h; exact ⟨.refl _, fun _ _ e => (by cases e), fun _ _ e => (by cases e), fun _ => rfl⟩
  | .var _ _, _, st, _, r, st', h => by
    simp only [simplify] at h; cases h; exact ⟨.refl _, fun _ _ e => (by cases e), fun _ _ e => (by cases e), fun _ => rfl⟩
  | .name _, _, st, _, r, st', h => by
    simp only [simplify] at h; cases h; exact ⟨.refl _, fun _ _ e => (by cases e), fun _ _ e => (by cases e), fun _ => rfl⟩
  | .named _ _, _, _, _, r, st', h => by simp only [simplify] at h; cases h
  | .all _ _, _, _, _, r, st', h => by simp only [simplify] at h; cases h
  | .app f args, nm, st, hnm, r, st', h => by
    rw [simplify] at h
    split at h
    · cases h
    · rename_i rs st1 hs
      obtain ⟨a1, f1, u1⟩ := simplifyArgs_ok args st rs st1 hs
      split at h
      · rename_i hall
        cases h
        exact ⟨a1, fun _ _ e => (by cases e), fun _ _ e => (by cases e), fun _ => u1 hall⟩
      · simp only at h
        cases h
        obtain ⟨a2, l2, e2, -⟩ := processResults_ok (t := .app f args) (t' := .app f (newArgs args rs)) (nm := nm) (rs := rs) (st := st1)
          (fun n hn I hI => hnm n hn I (a1.respects hI)) (premises_lt f1)
          (fun I hI hr hp => by simp only [eval, newArgs_eval hI hr f1 hp])
        refine ⟨a1.trans a2, fun t' k e => ?_, fun t' k e => ?_, fun e => (by cases e)⟩
        · cases e
          exact ⟨e2, fun I hI => by simp only [eval, newArgs_std hI f1]⟩
        · cases e; rfl
  | .op o args, nm, st, hnm, r, st', h => by
    by_cases ho : o = .ite
    · subst ho
      match args, h with
      | [], h => simp only [simplify] at h; cases h
      | [_], h => simp only [simplify] at h; cases h
      | [_, _], h => simp only [simplify] at h; cases h
      | _ :: _ :: _ :: _ :: _, h => simp only [simplify] at h; cases h
      | [c, a, b], h =>
        rw [simplify] at h
        split at h
        · cases h
        · rename_i res st1 hs
          obtain ⟨a1, f1, l1, u1⟩ := simplify_ok c none st (NameOk.none _ _) res st1 hs
          have hc : ∀ I, Std I → eval I c = eval I ((res.map Prod.fst).getD c) := by
            intro I hI
            cases res with
            | none => rfl
            | some q => exact (f1 q.1 q.2 rfl).2 I hI
          simp only at h
          -- the congruence step
          have hst2 : ∃ st2, iteCong (Term.op .ite [c, a, b]) (Term.op .ite [(res.map Prod.fst).getD c, a, b]) res st1 = st2 ∧ Adds st1 st2 ∧
              (res.isSome = true → EqStep st2.steps st2.last (Term.op .ite [c, a, b]) (Term.op .ite [(res.map Prod.fst).getD c, a, b])) := by
            cases res with
            | none => exact ⟨_, rfl, .refl _, fun e => (by cases e)⟩
            | some q =>
              obtain ⟨c', k⟩ := q
              have ek := (f1 c' k rfl).1
              refine ⟨_, rfl, adds_eqStep (.inl rfl) (by simp only [List.mem_singleton, forall_eq]; exact ek.lt) fun I hI hr hp => ?_, fun _ => ?_⟩
              · refine eval_op_congr ?_
                simp only [evals, Option.map_some, Option.getD_some]
                rw [ek.rec_use hI hr (hp k (by simp))]
              · show EqStep (St.record ..).steps (St.record ..).last _ _
                rw [record_last]; exact eqStep_record
          obtain ⟨st2, e2, a2, f2⟩ := hst2
          rw [e2] at h
          clear e2
          generalize hc' : (res.map Prod.fst).getD c = c' at *
          split at h
          · rename_i v
            generalize hbr : (if v = true then a else b) = branch at *
            have hs3 : ∀ I, Std I → eval I (Term.op .ite [.bool v, a, b]) = eval I branch := by
              intro I hI
              subst hbr
              cases v <;> simp [eval, evals, show I.opv = stdOp from hI, stdOp, Val.toBool]
            have a3 : Adds st2 (st2.record [eqn (Term.op .ite [.bool v, a, b]) branch] "ite_simplify" []) := adds_simpl (by decide) hs3
            have e3 : EqStep (st2.record [eqn (Term.op .ite [.bool v, a, b]) branch] "ite_simplify" []).steps st2.steps.length
              (Term.op .ite [.bool v, a, b]) branch := eqStep_record
            have l3 := record_last st2 [eqn (Term.op .ite [.bool v, a, b]) branch] "ite_simplify" []
            generalize st2.record [eqn (Term.op .ite [.bool v, a, b]) branch] "ite_simplify" [] = st3 at *
            have key : ∀ bres st4, (if v = true then simplify a none st3 else simplify b none st3) = some (bres, st4) →
                Adds st3 st4 ∧ ResOk st4 branch bres ∧ (∀ t' k, bres = some (t', k) → k = st4.last) ∧ (bres = none → st4 = st3) := by
              intro bres st4 hb
              cases v with
              | true =>
                have e : branch = a := hbr.symm
                rw [e]
                exact simplify_ok a none st3 (NameOk.none _ _) bres st4 hb
              | false =>
                have e : branch = b := hbr.symm
                rw [e]
                exact simplify_ok b none st3 (NameOk.none _ _) bres st4 hb
            split at h
            · cases h
            · rename_i bres st4 hb
              obtain ⟨a4, f4, l4, u4⟩ := key bres st4 hb
              have hval : ∀ I, Std I → eval I (Term.op .ite [c, a, b]) = eval I ((bres.map Prod.fst).getD branch) := by
                intro I hI
                have h1 : eval I (Term.op .ite [c, a, b]) = eval I (Term.op .ite [.bool v, a, b]) :=
                  eval_op_congr (by simp only [evals, hc I hI])
                rw [h1, hs3 I hI]
                cases bres with
                | none => rfl
                | some q => exact (f4 q.1 q.2 rfl).2 I hI
              have g3 : EqStep st4.steps st3.last (Term.op .ite [.bool v, a, b]) branch := by
                rw [l3]; exact e3.mono a4
              have g2 : res.isSome = true → EqStep st4.steps st2.last (Term.op .ite [c, a, b]) (Term.op .ite [.bool v, a, b]) :=
                fun hres => ((f2 hres).mono a3).mono a4
              cases h
              by_cases hx : (bres.isSome || res.isSome) = true
              · rw [if_pos hx]
                have a5 : Adds st4 (st4.record [eqn (.op .ite [c, a, b]) ((bres.map Prod.fst).getD branch)] "trans"
                    ((if res.isSome = true then [st2.last] else []) ++ [st3.last] ++ (bres.map Prod.snd).toList)) := by
                  refine adds_eqStep (.inr rfl) ?_ fun I hI hr hp => ?_
                  · intro p hp
                    simp only [List.mem_append, List.mem_singleton] at hp
                    rcases hp with (hp | rfl) | hp
                    · split at hp
                      · rename_i hres
                        cases List.mem_singleton.1 hp
                        exact (g2 hres).lt
                      · cases hp
                    · exact g3.lt
                    · cases bres with
                      | none => cases hp
                      | some q =>
                        obtain ⟨t', k⟩ := q
                        have : p = k := by simpa using hp
                        subst this
                        exact (f4 t' p rfl).1.lt
                  · have h1 : eval I (Term.op .ite [c, a, b]) = eval I (Term.op .ite [.bool v, a, b]) := by
                      by_cases hres : res.isSome = true
                      · exact (g2 hres).rec_use hI hr (hp _ (by simp [hres]))
                      · have : c = .bool v := by
                          cases res with
                          | none => simpa using hc'
                          | some _ => exact absurd rfl hres
                        rw [this]
                    have h2 := g3.rec_use hI hr (hp _ (by simp))
                    refine (h1.trans h2).trans ?_
                    cases bres with
                    | none => rfl
                    | some q => exact (f4 q.1 q.2 rfl).1.rec_use hI hr (hp _ (by simp))
                refine ⟨(((a1.trans a2).trans a3).trans a4).trans a5, fun t' k e => ?_, fun t' k e => ?_, fun e => (by cases e)⟩
                · cases e
                  refine ⟨?_, hval⟩
                  rw [record_last]; exact eqStep_record
                · cases e; rfl
              · rw [if_neg hx]
                refine ⟨((a1.trans a2).trans a3).trans a4, fun t' k e => ?_, fun t' k e => ?_, fun e => (by cases e)⟩
                · cases e
                  refine ⟨?_, hval⟩
                  cases bres with
                  | some _ => exact absurd rfl hx
                  | none =>
                    cases res with
                    | some _ => exact absurd rfl hx
                    | none =>
                      have hcc : c = .bool v := by simpa using hc'
                      have h4 := u4 rfl
                      subst h4
                      rw [hcc]
                      exact g3
                · cases e; rfl
          · cases h
    · rw [simplify_op ho] at h
      split at h
      · cases h
      · rename_i rs st1 hs
        obtain ⟨a1, f1, -⟩ := simplifyArgs_ok args st rs st1 hs
        split at h
        · split at h
          · cases h
          · rename_i e st2 hd
            obtain ⟨a2, e2, -, v2⟩ := simplifyOpDirect_ok hd
            cases h
            refine ⟨a1.trans a2, fun t' k e => ?_, fun t' k e => ?_, fun e => (by cases e)⟩
            · cases e; exact ⟨e2, v2⟩
            · cases e; rfl
        · simp only at h
          obtain ⟨a2, l2, e2, n2⟩ := processResults_ok (t := .op o args) (t' := .op o (newArgs args rs)) (nm := nm) (rs := rs) (st := st1)
            (fun n hn I hI => hnm n hn I (a1.respects hI)) (premises_lt f1)
            (fun I hI hr hp => eval_op_congr (newArgs_eval hI hr f1 hp))
          generalize processResults (.op o args) (.op o (newArgs args rs)) nm rs st1 = q at *
          obtain ⟨nn, stq⟩ := q
          simp only at h a2 l2 e2 n2
          split at h
          · cases h
          · rename_i e st3 hd
            obtain ⟨a3, e3, -, v3⟩ := simplifyOpDirect_ok hd
            cases h
            have f2 := e2.mono a3
            have n3 : ∀ I, Respects I (st3.record [eqn (.name nn) e] "trans" [stq.last, st3.last]).steps → I.name nn = eval I (.op o args) :=
              fun I hr => n2 I (a3.respects (respects_left hr))
            refine ⟨((a1.trans a2).trans a3).trans (adds_eqStep (.inr rfl) ?_ fun I hI hr hp => ?_), fun t' k e => ?_, fun t' k e => ?_, fun e => (by cases e)⟩
            · intro p hp
              simp only [List.mem_cons, List.not_mem_nil, or_false] at hp
              rcases hp with rfl | rfl
              · exact f2.lt
              · exact e3.lt
            · simp only [eval]
              rw [n3 I hr]
              exact (f2.rec_use hI hr (hp _ (by simp))).trans (e3.rec_use hI hr (hp _ (by simp)))
            · cases e
              refine ⟨?_, fun I hI => (eval_op_congr (newArgs_std hI f1)).trans (v3 I hI)⟩
              rw [record_last]
              refine EqStep.imp eqStep_record fun I hr => ?_
              simp only [eval]
              rw [n3 I hr, eval]
            · cases e; rfl
theorem simplifyArgs_ok : ∀ (l : List Term) (st : St) (rs : List Result) (st' : St), simplifyArgs l st = some (rs, st') →
    Adds st st' ∧ All2 (ResOk st') l rs ∧ (rs.all Option.isNone = true → st' = st)
  | [], st, rs, st', h => by
    simp only [simplifyArgs] at h; cases h
    exact ⟨.refl _, .nil, fun _ => rfl⟩
  | t :: l, st, rs, st', h => by
    rw [simplifyArgs] at h
    split at h
    · cases h
    · rename_i r st1 h1
      split at h
      · cases h
      · rename_i rs' st2 h2
        cases h
        obtain ⟨a1, f1, -, u1⟩ := simplify_ok t none st (NameOk.none _ _) r st1 h1
        obtain ⟨a2, f2, u2⟩ := simplifyArgs_ok l st1 rs' st' h2
        refine ⟨a1.trans a2, .cons (f1.mono a2) f2, fun hall => ?_⟩
        simp only [List.all_cons, Bool.and_eq_true] at hall
        rw [u2 hall.2]
        exact u1 (Option.isNone_iff_eq_none.1 hall.1)
end

end Alethe
end Golem
