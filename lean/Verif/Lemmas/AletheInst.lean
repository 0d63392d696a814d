import Verif.Lemmas.AletheBuild

/-! From derivations to proofs: instances of clauses. -/

namespace Golem
namespace Alethe

/-! ### Values and variables -/

/-- The interpretations agree on everything but variables and names. -/
def Same (I J : Interp) : Prop := I.opv = J.opv ∧ I.app = J.app

mutual
theorem eval_inst {I J : Interp} (hs : Same I J) (σ : Inst) : ∀ t : Term, plain t = true →
    (∀ x ∈ vars t, eval J (.var x.1 x.2) = eval I (inst σ (.var x.1 x.2))) → eval I (inst σ t) = eval J t
  | .num _, _, _ => by simp only [inst, eval]
  | .bool _, _, _ => by simp only [inst, eval]
  | .var s k, _, h => (h (s, k) (by simp [vars])).symm
  | .name _, hp, _ => by cases hp
  | .named _ _, hp, _ => by cases hp
  | .all _ _, hp, _ => by cases hp
  | .app f args, hp, h => by
    simp only [plain, vars] at hp h
    simp only [inst, eval, hs.2, evals_inst hs σ args hp h]
  | .op o args, hp, h => by
    simp only [plain, vars] at hp h
    simp only [inst, eval, hs.1, evals_inst hs σ args hp h]
theorem evals_inst {I J : Interp} (hs : Same I J) (σ : Inst) : ∀ l : List Term, plains l = true →
    (∀ x ∈ varss l, eval J (.var x.1 x.2) = eval I (inst σ (.var x.1 x.2))) → evals I (insts σ l) = evals J l
  | [], _, _ => by simp only [insts, evals]
  | t :: l, hp, h => by
    simp only [plains, Bool.and_eq_true, varss, List.mem_append] at hp h
    simp only [insts, evals, eval_inst hs σ t hp.1 fun x hx => h x (.inl hx), evals_inst hs σ l hp.2 fun x hx => h x (.inr hx)]
end

mutual
theorem inst_nil : ∀ t : Term, plain t = true → inst [] t = t
  | .num _, _ => by simp only [inst]
  | .bool _, _ => by simp only [inst]
  | .var s k, _ => by simp only [inst, List.lookup]
  | .name _, hp => by cases hp
  | .named _ _, hp => by cases hp
  | .all _ _, hp => by cases hp
  | .app f args, hp => by simp only [plain] at hp; simp only [inst, insts_nil args hp]
  | .op o args, hp => by simp only [plain] at hp; simp only [inst, insts_nil args hp]
theorem insts_nil : ∀ l : List Term, plains l = true → insts [] l = l
  | [], _ => by simp only [insts]
  | t :: l, hp => by
    simp only [plains, Bool.and_eq_true] at hp
    simp only [insts, inst_nil t hp.1, insts_nil l hp.2]
end

theorem eval_agree {I J : Interp} (hs : Same I J) {t : Term} (hp : plain t = true)
    (h : ∀ x ∈ vars t, eval J (.var x.1 x.2) = eval I (.var x.1 x.2)) : eval I t = eval J t := by
  have := eval_inst hs [] t hp fun x hx => by
    rw [inst_nil _ rfl]; exact h x hx
  rwa [inst_nil t hp] at this

mutual
theorem collect_plain : ∀ t : Term, plain t = true → collect t = some ((vars t).map Prod.fst)
  | .num _, _ => rfl
  | .bool _, _ => rfl
  | .var s k, _ => rfl
  | .name _, hp => by cases hp
  | .named _ _, hp => by cases hp
  | .all _ _, hp => by cases hp
  | .app f args, hp => by simp only [plain] at hp; simp only [collect, vars, collects_plain args hp]
  | .op o args, hp => by simp only [plain] at hp; simp only [collect, vars, collects_plain args hp]
theorem collects_plain : ∀ l : List Term, plains l = true → collects l = some ((varss l).map Prod.fst)
  | [], _ => rfl
  | t :: l, hp => by
    simp only [plains, Bool.and_eq_true] at hp
    simp only [collects, collect_plain t hp.1, collects_plain l hp.2, varss, List.map_append]
end

/-- The quantified formula is true. -/
def AllTrue (I : Interp) (xs : List (Str × Sort')) (b : Term) : Prop :=
  ∀ (wi : Str → Int) (wb : Str → Bool), (∀ x, (x, .int) ∉ xs → wi x = I.varI x) →
    (∀ x, (x, .bool) ∉ xs → wb x = I.varB x) → (eval { I with varI := wi, varB := wb } b).toBool = true

open Classical in
theorem eval_all_val {I : Interp} {xs : List (Str × Sort')} {b : Term} : eval I (.all xs b) = .bool (decide (AllTrue I xs b)) := by
  rw [eval]; rfl

theorem eval_all {I : Interp} {xs : List (Str × Sort')} {b : Term} : (eval I (.all xs b)).toBool = true ↔ AllTrue I xs b := by
  rw [eval_all_val]
  simp only [Val.toBool, decide_eq_true_eq]

theorem eval_all_eq {I : Interp} {xs ys : List (Str × Sort')} {b : Term} (h : AllTrue I xs b ↔ AllTrue I ys b) :
    eval I (.all xs b) = eval I (.all ys b) := by
  have hb : ∀ zs, ∃ v, eval I (.all zs b) = .bool v := fun zs => ⟨_, eval_all_val⟩
  obtain ⟨v, hv⟩ := hb xs
  obtain ⟨w, hw⟩ := hb ys
  rw [← eval_all, ← eval_all, hv, hw] at h
  rw [hv, hw]
  simp only [Val.toBool] at h
  cases v <;> cases w <;> simp_all

theorem eval_all_nil {I : Interp} {b : Term} (hb : ∃ v, eval I b = .bool v) : eval I (.all [] b) = eval I b := by
  have h : AllTrue I [] b ↔ (eval I b).toBool = true := by
    constructor
    · intro h
      exact h I.varI I.varB (fun _ _ => rfl) (fun _ _ => rfl)
    · intro h wi wb h1 h2
      have e1 : wi = I.varI := funext fun x => h1 x (by simp)
      have e2 : wb = I.varB := funext fun x => h2 x (by simp)
      subst e1 e2
      exact h
  obtain ⟨v, hv⟩ := hb
  have : ∃ w, eval I (.all [] b) = .bool w := ⟨_, eval_all_val⟩
  obtain ⟨w, hw⟩ := this
  rw [← eval_all, hv, hw] at h
  rw [hv, hw]
  simp only [Val.toBool] at h
  cases v <;> cases w <;> simp_all

open Classical in
/-- Quantifiers for variables that do not occur may be dropped. -/
theorem eval_unused {I : Interp} {xs : List (Str × Sort')} {b : Term} (hp : plain b = true) :
    eval I (.all xs b) = eval I (.all (xs.filter fun x => decide (x.1 ∈ (vars b).map Prod.fst)) b) := by
  refine eval_all_eq ⟨fun h wi wb h1 h2 => h wi wb (fun x hx => h1 x fun hm => hx (List.mem_filter.1 hm).1)
    (fun x hx => h2 x fun hm => hx (List.mem_filter.1 hm).1), fun h wi wb h1 h2 => ?_⟩
  generalize hys : (xs.filter fun x => decide (x.1 ∈ (vars b).map Prod.fst)) = ys at h
  have := h (fun x => if (x, .int) ∈ ys then wi x else I.varI x) (fun x => if (x, .bool) ∈ ys then wb x else I.varB x)
    (fun x hx => if_neg hx) (fun x hx => if_neg hx)
  rw [← this]
  congr 1
  refine eval_agree (I := { I with varI := wi, varB := wb }) (J := { I with
    varI := fun x => if (x, .int) ∈ ys then wi x else I.varI x
    varB := fun x => if (x, .bool) ∈ ys then wb x else I.varB x }) ⟨rfl, rfl⟩ hp fun x hx => ?_
  obtain ⟨s, k⟩ := x
  have hm : (s, k) ∈ xs → (s, k) ∈ ys := fun hxs => by
    rw [← hys]
    exact List.mem_filter.2 ⟨hxs, decide_eq_true (List.mem_map.2 ⟨(s, k), hx, rfl⟩)⟩
  cases k with
  | int =>
    simp only [eval]
    split
    · rfl
    · rename_i hn
      rw [h1 s fun hxs => hn (hm hxs)]
  | bool =>
    simp only [eval]
    split
    · rfl
    · rename_i hn
      rw [h2 s fun hxs => hn (hm hxs)]

/-- The value for an integer variable. -/
def instI (σ : Inst) (I : Interp) (s : Str) : Int := match σ.lookup s with | some (.int n) => n | _ => I.varI s
def instB (σ : Inst) (I : Interp) (s : Str) : Bool := match σ.lookup s with | some (.bool n) => n | _ => I.varB s

open Classical in
/-- An instance follows. -/
theorem eval_instance {I : Interp} {xs : List (Str × Sort')} {b : Term} {σ : Inst} (hp : plain b = true)
    (h1 : ∀ x ∈ vars b, ∀ v, σ.lookup x.1 = some v → x ∈ xs ∧ v.sort = x.2)
    (h2 : ∀ x ∈ xs, (σ.lookup x.1).isSome = true) (h : (eval I (.all xs b)).toBool = true) : (eval I (inst σ b)).toBool = true := by
  rw [eval_all] at h
  have := h (fun x => if (x, .int) ∈ xs then instI σ I x else I.varI x) (fun x => if (x, .bool) ∈ xs then instB σ I x else I.varB x)
    (fun x hx => if_neg hx) (fun x hx => if_neg hx)
  rw [← this]
  congr 1
  refine eval_inst (I := I) (J := { I with
    varI := fun x => if (x, .int) ∈ xs then instI σ I x else I.varI x
    varB := fun x => if (x, .bool) ∈ xs then instB σ I x else I.varB x }) ⟨rfl, rfl⟩ σ b hp fun x hx => ?_
  obtain ⟨s, k⟩ := x
  have h1' := h1 (s, k) hx
  have h2' := h2 (s, k)
  cases hl : σ.lookup s with
  | none =>
    have hn : (s, k) ∉ xs := fun hm => by
      have := h2' hm
      simp only [hl] at this
      cases this
    simp only [inst, hl]
    cases k with
    | int => simp only [eval, if_neg hn]
    | bool => simp only [eval, if_neg hn]
  | some v =>
    obtain ⟨hm, hv⟩ := h1' v hl
    simp only [inst, hl]
    rw [eval_lit]
    cases k with
    | int =>
      cases v with
      | int n => simp only [eval, if_pos hm, instI, hl]
      | bool _ => cases hv
    | bool =>
      cases v with
      | bool n => simp only [eval, if_pos hm, instB, hl]
      | int _ => cases hv

/-! ### The steps -/

theorem recordInst_ok {st : St} {c as : List Term} (h : ∀ I, Std I → Respects I (st.recordInst c as).steps → Holds I c) :
    Adds st (st.recordInst c as) := by
  refine ⟨_, rfl, fun k hk s hs _ => ?_, fun ht => ?_, by simp⟩
  · by_cases hk' : k = st.steps.length
    · subst hk'
      simp only [St.recordInst, List.getElem?_concat_length, Option.some.injEq] at hs
      subst hs
      refine ⟨by simp, fun h => absurd rfl h, fun I hI hr _ => h I ?_ hr⟩
      unfold Scope at hI
      rwa [if_neg (by show ¬ "forall_inst" ∈ _; decide), if_neg (by show ¬ "forall_inst" ∈ _; decide)] at hI
    · have : (st.recordInst c as).steps.length ≤ k := by simp [St.recordInst]; omega
      exact stepOk_beyond this s hs ‹_›
  · rcases ht with h | ⟨s, h1, h2⟩
    · exact .inl h
    · refine .inr ⟨s, ?_, h2⟩
      simp only [St.recordInst]
      rw [getElem?_left (List.getElem?_eq_some_iff.1 h1).1]
      exact h1

theorem recordInst_get (st : St) (c as : List Term) : (st.recordInst c as).steps[st.steps.length]? = some ⟨false, c, "forall_inst", [], as⟩ := by
  simp [St.recordInst]

theorem recordInst_last (st : St) (c as : List Term) : (st.recordInst c as).last = st.steps.length := by
  simp [St.last, St.recordInst]

/-- Dropping the quantifiers. -/
theorem clearSteps_ok {c : Nat} {A cleared : Term} {st : St} (hA : Says st.steps c A)
    (hn : ∀ I, Respects I st.steps → I.name (.a c) = eval I A) (hv : ∀ I, Std I → eval I A = eval I cleared) :
    ∃ k st', clearSteps c cleared true st = (cleared, k, st') ∧ Adds st st' ∧ k = st'.last ∧ Says st'.steps k cleared := by
  simp only [clearSteps, if_true]
  have a1 : Adds st (st.record [eqn (.name (.a c)) cleared] "qnt_rm_unused" []) := adds_std (by decide) (by decide) fun I hI hr => by
    rw [holds_eqn hI.eqStd]
    simp only [eval]
    rw [hn I (respects_left hr)]
    exact hv I hI
  have e1 : EqStep (st.record [eqn (.name (.a c)) cleared] "qnt_rm_unused" []).steps st.steps.length (.name (.a c)) cleared := eqStep_record
  rw [record_last st]
  generalize st.record [eqn (.name (.a c)) cleared] "qnt_rm_unused" [] = st1 at *
  have a2 : Adds st1 (st1.record [neg (.name (.a c)), cleared] "equiv1" [st.steps.length]) := by
    refine adds_log (by decide) (by simp only [List.mem_singleton, forall_eq]; exact e1.lt) fun I hI hr hp => ?_
    have := e1.rec_use hI.eqStd hr (hp _ (by simp))
    rw [holds_two, eval_neg hI, this]
    cases (eval I cleared).toBool <;> simp
  have g2 := record_get st1 [neg (.name (.a c)), cleared] "equiv1" [st.steps.length]
  have y2 := (hA.mono a1).mono a2
  rw [record_last st1]
  have n2 : ∀ I, Respects I (st1.record [neg (.name (.a c)), cleared] "equiv1" [st.steps.length]).steps → I.name (.a c) = eval I A :=
    fun I hr => hn I ((a1.trans a2).respects hr)
  generalize st1.record [neg (.name (.a c)), cleared] "equiv1" [st.steps.length] = st2 at *
  refine ⟨_, _, rfl, (a1.trans a2).trans (adds_log (by decide) ?_ fun I hI hr hp => ?_), rfl, ?_⟩
  · intro p hp
    simp only [List.mem_cons, List.not_mem_nil, or_false] at hp
    rcases hp with rfl | rfl
    · exact y2.lt
    · exact (List.getElem?_eq_some_iff.1 g2).1
  · have h1 := y2.use hr (hp c (by simp))
    have h2 := hp st1.steps.length (by simp) _ g2
    rw [holds_two, eval_neg hI] at h2
    simp only [eval] at h2
    rw [n2 I (respects_left hr), h1] at h2
    rw [holds_one]
    simpa using h2
  · rw [record_last]; exact says_record

/-- Instantiating. -/
theorem instance_ok {T t : Term} {q : Nat} {n : Name} {as : List Term} {st : St} (hq : Says st.steps q T)
    (hv : ∀ I, Std I → Respects I st.steps → (eval I T).toBool = true → (eval I t).toBool = true) :
    let st1 := st.recordInst [.op .or [neg T, .named t n]] as
    let st2 := st1.record [neg T, .name n] "or" [st1.last]
    let st3 := st2.record [.name n] "resolution" [st2.last, q]
    Adds st st3 ∧ Says st3.steps st3.last t := by
  simp only
  have a1 : Adds st (st.recordInst [.op .or [neg T, .named t n]] as) := recordInst_ok fun I hI hr => by
    rw [holds_one, eval_or hI.logStd, eval_neg hI.logStd]
    simp only [eval]
    have := hv I hI (respects_left hr)
    cases h : (eval I T).toBool
    · rfl
    · rw [this h]; rfl
  have g1 := recordInst_get st [.op .or [neg T, .named t n]] as
  have n1 : ∀ I, Respects I (st.recordInst [.op .or [neg T, .named t n]] as).steps → I.name n = eval I t := fun I hr =>
    hr _ (List.mem_of_getElem? g1) (n, t) (by simp [neg, defss, defs])
  rw [recordInst_last st]
  generalize st.recordInst [.op .or [neg T, .named t n]] as = st1 at *
  have a2 : Adds st1 (st1.record [neg T, .name n] "or" [st.steps.length]) := by
    refine adds_log (by decide) (by simp only [List.mem_singleton, forall_eq]; exact (List.getElem?_eq_some_iff.1 g1).1) fun I hI hr hp => ?_
    have := hp st.steps.length (by simp) _ g1
    rw [holds_one, eval_or hI, Bool.or_eq_true] at this
    rw [holds_two]
    simp only [eval] at this ⊢
    rw [n1 I (respects_left hr)]
    exact this
  have g2 := record_get st1 [neg T, .name n] "or" [st.steps.length]
  have y2 := (hq.mono a1).mono a2
  have n2 : ∀ I, Respects I (st1.record [neg T, .name n] "or" [st.steps.length]).steps → I.name n = eval I t :=
    fun I hr => n1 I (a2.respects hr)
  rw [record_last st1]
  generalize st1.record [neg T, .name n] "or" [st.steps.length] = st2 at *
  refine ⟨(a1.trans a2).trans (adds_log (by decide) ?_ fun I hI hr hp => ?_), ?_⟩
  · intro p hp
    simp only [List.mem_cons, List.not_mem_nil, or_false] at hp
    rcases hp with rfl | rfl
    · exact (List.getElem?_eq_some_iff.1 g2).1
    · exact y2.lt
  · have h1 := y2.use hr (hp q (by simp))
    have h2 := hp st1.steps.length (by simp) _ g2
    rw [holds_two, eval_neg hI, h1] at h2
    rw [holds_one]
    simpa using h2
  · rw [record_last]
    refine ⟨_, _, record_get .., rfl, fun I hr => ?_⟩
    simp only [eval]
    exact n2 I (respects_left hr)

theorem imp_bool {I : Interp} (hI : Std I) (l r : Term) : ∃ v, eval I (.op .imp [l, r]) = .bool v := by
  simp only [eval, evals, show I.opv = stdOp from hI, stdOp]
  exact ⟨_, rfl⟩

theorem instantiation_ok {i : Nat} {d : Coarse} {xs : List (Str × Sort')} {l r : Term} {st : St}
    (hA : Says st.steps d.clause (.all xs (.op .imp [l, r])))
    (hn : ∀ I, Respects I st.steps → I.name (.a d.clause) = eval I (.all xs (.op .imp [l, r])))
    (hpl : plain l = true) (hpr : plain r = true)
    (h1 : ∀ x ∈ vars l ++ vars r, ∀ v, d.σ.lookup x.1 = some v → x ∈ xs ∧ v.sort = x.2)
    (h2 : ∀ x ∈ xs, (∃ k, (x.1, k) ∈ vars l ++ vars r) → (d.σ.lookup x.1).isSome = true)
    (h3 : (∀ x ∈ xs, ¬ ∃ k, (x.1, k) ∈ vars l ++ vars r) → d.σ = []) :
    ∃ k st', instantiationSteps i d (.all xs (.op .imp [l, r])) st = some (inst d.σ (.op .imp [l, r]), k, st') ∧ Adds st st' ∧
      k = st'.last ∧ Says st'.steps k (inst d.σ (.op .imp [l, r])) := by
  have hp : plain (.op .imp [l, r]) = true := by simp [plain, plains, hpl, hpr]
  have hvars : vars (.op .imp [l, r]) = vars l ++ vars r := by simp [vars, varss]
  rw [← hvars] at h1 h2 h3
  have huse : ∀ I, eval I (.all xs (.op .imp [l, r])) = _ := fun I => eval_unused (I := I) (xs := xs) hp
  have hbool := fun I hI => imp_bool (I := I) hI l r
  generalize Term.op .imp [l, r] = b at *
  simp only [instantiationSteps, removeUnused, collect_plain b hp]
  have hmem : ∀ x, x ∈ (xs.filter fun x => decide (x.1 ∈ (vars b).map Prod.fst)) ↔ x ∈ xs ∧ ∃ k, (x.1, k) ∈ vars b := by
    intro x
    rw [List.mem_filter, decide_eq_true_eq]
    refine and_congr_right fun _ => ?_
    rw [List.mem_map]
    constructor
    · rintro ⟨⟨s, k⟩, hm, e⟩; exact ⟨k, by rw [← e]; exact hm⟩
    · rintro ⟨k, hm⟩; exact ⟨_, hm, rfl⟩
  have hlen : (xs.filter fun x => decide (x.1 ∈ (vars b).map Prod.fst)).length = xs.length →
      (xs.filter fun x => decide (x.1 ∈ (vars b).map Prod.fst)) = xs := fun h => List.filter_eq_self.2 (by
        have := List.length_filter_eq_length_iff.1 h; exact this)
  generalize (xs.filter fun x => decide (x.1 ∈ (vars b).map Prod.fst)) = ys at *
  have h1y : ∀ x ∈ vars b, ∀ v, d.σ.lookup x.1 = some v → x ∈ ys ∧ v.sort = x.2 := fun x hx v hv =>
    ⟨(hmem x).2 ⟨(h1 x hx v hv).1, x.2, hx⟩, (h1 x hx v hv).2⟩
  have h2y : ∀ x ∈ ys, (d.σ.lookup x.1).isSome = true := fun x hx => h2 x ((hmem x).1 hx).1 ((hmem x).1 hx).2
  by_cases hy : ys = []
  · have hσ : d.σ = [] := h3 fun x hx hk => by
      have := (hmem x).2 ⟨hx, hk⟩
      rw [hy] at this; cases this
    subst hy
    simp only [if_true, hσ]
    obtain ⟨k, st', e, a, hk, hs⟩ := clearSteps_ok (cleared := b) hA hn fun I hI => by
      rw [huse I]; exact eval_all_nil (hbool I hI)
    rw [e]
    exact ⟨k, st', by rw [inst_nil b hp], a, hk, by rw [inst_nil b hp]; exact hs⟩
  · have hσ : d.σ ≠ [] := by
      obtain ⟨x, l', rfl⟩ := List.exists_cons_of_ne_nil hy
      have := h2y x (by simp)
      intro h
      rw [h] at this
      cases this
    have hall : (ys.all fun x => (d.σ.lookup x.1).isSome) = true := List.all_eq_true.2 h2y
    simp only [if_neg hy]
    by_cases hl : ys.length = xs.length
    · have hys := hlen hl
      subst hys
      simp only [clearSteps, if_neg hσ, hall, if_true, Bool.false_eq_true, if_false]
      have := instance_ok (T := .name (.a d.clause)) (t := inst d.σ b) (n := .i (i - 1)) (st := st) (q := d.clause)
        (as := ys.filterMap fun x => (d.σ.lookup x.1).map lit) (by
          obtain ⟨s, X, g1, g2, g3⟩ := hA
          refine ⟨s, X, g1, g2, fun I hr => ?_⟩
          rw [g3 I hr]
          exact (by rw [eval, hn I hr] : eval I (.name (.a d.clause)) = eval I (.all ys b)).symm) (by
          intro I hI hr ht
          rw [eval, hn I hr] at ht
          exact eval_instance hp h1y h2y ht)
      exact ⟨_, _, rfl, this.1, rfl, this.2⟩
    · simp only [if_neg hl]
      obtain ⟨k, st', e, a, hk, hs⟩ := clearSteps_ok (cleared := .all ys b) hA hn fun I hI => huse I
      rw [e]
      simp only [if_neg hσ, hall, if_true]
      have := instance_ok (T := .all ys b) (t := inst d.σ b) (n := .i (i - 1)) (st := st') (q := k)
        (as := ys.filterMap fun x => (d.σ.lookup x.1).map lit) hs (fun I hI hr ht => eval_instance hp h1y h2y ht)
      exact ⟨_, _, rfl, a.trans this.1, rfl, this.2⟩

end Alethe
end Golem
