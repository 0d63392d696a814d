import Verif.Lemmas.SpacerLoop
import Verif.Props.TrivialQE

/-! Spacer: pushing lemmas, inductive levels, the model of a safe system. -/

namespace Golem
variable {T : Theory} {E : SpEnv T}

theorem Tm.subst_subst (σ τ : Var → Tm T) (t : Tm T) : (t.subst σ).subst τ = t.subst fun x => (σ x).subst τ := by
  induction t with
  | var x => rfl
  | const v => rfl
  | ap1 f a ha => simp only [Tm.subst, ha]
  | ap2 f a b ha hb => simp only [Tm.subst, ha, hb]
  | ap3 f a b c ha hb hc => simp only [Tm.subst, ha, hb, hc]

theorem Fla.subst_subst (σ τ : Var → Tm T) (f : Fla T) : (f.subst σ).subst τ = f.subst fun x => (σ x).subst τ := by
  induction f with
  | tt => rfl
  | ff => rfl
  | atom t => simp only [Fla.subst, Tm.subst_subst]
  | eq a b => simp only [Fla.subst, Tm.subst_subst]
  | not f hf => simp only [Fla.subst, hf]
  | and f g hf hg => simp only [Fla.subst, hf, hg]
  | or f g hf hg => simp only [Fla.subst, hf, hg]
  | iff f g hf hg => simp only [Fla.subst, hf, hg]

theorem rename_back {R : PRepr} {v : Pred} {c : Fla T} (h : ∀ x ∈ c.vars, x ∈ R.baseVars v) :
    (c.rename toTgt).rename tgtToBase = c := by
  unfold Fla.rename
  rw [Fla.subst_subst]
  refine Fla.subst_id fun x hx => ?_
  obtain ⟨n, _, rfl⟩ := R.mem_baseVars.1 (h x hx)
  rfl

theorem noAct_src {R : PRepr} {v : Pred} {c : Fla T} (h : ∀ x ∈ c.vars, x ∈ R.baseVars v) (i : Nat) :
    NoAct (c.rename (toSrc i)) := by
  intro k hk
  obtain ⟨y, hy, e⟩ := Fla.mem_vars_rename.1 hk
  obtain ⟨n, _, rfl⟩ := R.mem_baseVars.1 (h y hy)
  cases e

theorem noAct_tgt {R : PRepr} {v : Pred} {c : Fla T} (h : ∀ x ∈ c.vars, x ∈ R.baseVars v) : NoAct (c.rename toTgt) := by
  intro k hk
  obtain ⟨y, hy, e⟩ := Fla.mem_vars_rename.1 hk
  obtain ⟨n, _, rfl⟩ := R.mem_baseVars.1 (h y hy)
  cases e

theorem may_closed (hE : E.WF) {cur : Nat} {st : SpState T} (h : SpInv E cur st) (n : Nat) (v : Pred) :
    ∀ x ∈ (E.may st n v).vars, x ∈ E.R.baseVars v := by
  intro x hx
  unfold SpEnv.may at hx
  obtain ⟨c, hc, hx⟩ := Fla.mem_vars_conj.1 hx
  exact h.closedOver n v c ((hE.ord _ _).1 hc) x hx

theorem body_noAct (hE : E.WF) {cur : Nat} {st : SpState T} (h : SpInv E cur st) (n : Nat) (v : Pred) :
    NoAct (Fla.disj ((E.G.inEdges v).map (E.edgeMay st n))) := by
  intro k hk
  obtain ⟨f, hf, hk⟩ := Fla.mem_vars_disj.1 hk
  obtain ⟨e, he, rfl⟩ := List.mem_map.1 hf
  have he' : e ∈ E.G ∧ e.tgt = v := by simpa [Graph.inEdges] using he
  unfold SpEnv.edgeMay edgeSummary at hk
  obtain ⟨g, hg, hk⟩ := Fla.mem_vars_conj.1 hk
  rcases List.mem_cons.1 hg with rfl | hg
  · exact hE.act e he'.1 k hk
  · obtain ⟨q, _, rfl⟩ := List.mem_map.1 hg
    exact noAct_src (may_closed hE h n q.1) q.2 k hk

/-- Only the given level changes, and summaries only grow. -/
structure Grows (level : Nat) (st st' : SpState T) : Prop where
  sub : ∀ n v, ∀ c ∈ st.over n v, c ∈ st'.over n v
  same : ∀ n, n ≠ level + 1 → st'.over n = st.over n
  under : st'.under = st.under
  db : st'.db = st.db
  lowest : st'.lowest = st.lowest

theorem Grows.refl (level : Nat) (st : SpState T) : Grows level st st :=
  ⟨fun _ _ _ h => h, fun _ _ => rfl, rfl, rfl, rfl⟩

theorem Grows.trans {level : Nat} {a b c : SpState T} (h : Grows level a b) (g : Grows level b c) : Grows level a c :=
  ⟨fun n v d hd => g.sub n v d (h.sub n v d hd), fun n hn => (g.same n hn).trans (h.same n hn), g.under.trans h.under,
    g.db.trans h.db, g.lowest.trans h.lowest⟩

theorem Grows.addMay (level : Nat) (st : SpState T) (v : Pred) (c : Fla T) : Grows level st (st.addMay v (level + 1) c) := by
  refine ⟨fun n w d hd => apInsert_mem.2 (.inl hd), fun n hn => ?_, rfl, rfl, rfl⟩
  funext w
  simp [SpState.addMay, apInsert, hn]

theorem Grows.edgeMay {level : Nat} {st st' : SpState T} (h : Grows level st st') (e : Edge T) :
    E.edgeMay st' level e = E.edgeMay st level e := by
  unfold SpEnv.edgeMay SpEnv.may
  rw [h.same level (by omega)]

/-- Pushing entailed candidates keeps the invariant. -/
theorem push_fold (hE : E.WF) {cur : Nat} {v : Pred} (hv : v ≠ .tru) {level : Nat} {st : SpState T} (h : SpInv E cur st)
    {cs : List (Fla T)}
    (hcs : ∀ d ∈ cs, ∃ c : Fla T, d = c.rename toTgt ∧ (∀ x ∈ c.vars, x ∈ E.R.baseVars v) ∧
      ∀ e ∈ E.G, e.tgt = v → ∀ ρ, (E.edgeMay st level e).holds ρ → c.holds (fun x => ρ (toTgt x))) :
    SpInv E cur (cs.foldl (fun s c => s.addMay v (level + 1) (c.rename tgtToBase)) st) ∧
    Grows level st (cs.foldl (fun s c => s.addMay v (level + 1) (c.rename tgtToBase)) st) ∧
    ∀ d ∈ cs, d.rename tgtToBase ∈ (cs.foldl (fun s c => s.addMay v (level + 1) (c.rename tgtToBase)) st).over (level + 1) v := by
  induction cs generalizing st with
  | nil => exact ⟨h, Grows.refl _ _, by simp⟩
  | cons d cs ih =>
    obtain ⟨c, rfl, hcl, hcs0⟩ := hcs d (by simp)
    simp only [List.foldl_cons]
    rw [rename_back hcl]
    have g1 := Grows.addMay level st v c
    have i1 : SpInv E cur (st.addMay v (level + 1) c) := h.addMay hE hv hcl hcs0
    obtain ⟨j1, j2, j3⟩ := ih i1 (fun d hd => by
      obtain ⟨c', e1, e2, e3⟩ := hcs d (by simp [hd])
      exact ⟨c', e1, e2, fun e he ht ρ hm => e3 e he ht ρ (by rwa [g1.edgeMay] at hm)⟩)
    refine ⟨j1, g1.trans j2, fun d hd => ?_⟩
    rcases List.mem_cons.1 hd with rfl | hd
    · rw [rename_back hcl]
      exact j2.sub _ _ _ (apInsert_mem.2 (.inr ⟨rfl, rfl, rfl⟩))
    · exact j3 d hd

theorem tryPush_inv (hE : E.WF) {cur : Nat} {v : Pred} (hv : v ≠ .tru) {level : Nat} {st st' : SpState T} (h : SpInv E cur st)
    {all : Bool} (hr : E.tryPush st v level (Fla.disj ((E.G.inEdges v).map (E.edgeMay st level))) = .done (all, st')) :
    SpInv E cur st' ∧ Grows level st st' ∧ (all = true → ∀ c ∈ st.over level v, c ∈ st'.over (level + 1) v) := by
  classical
  unfold SpEnv.tryPush at hr
  simp only at hr
  have hcl : ∀ c ∈ (E.ord (st.over level v)).filter (fun c => decide (c ∉ st.over (level + 1) v)),
      ∀ x ∈ c.vars, x ∈ E.R.baseVars v := by
    intro c hc
    exact h.closedOver level v c ((hE.ord _ _).1 (List.mem_filter.1 hc).1)
  have hrest : ∀ c ∈ st.over level v, c ∈ st.over (level + 1) v ∨
      c ∈ (E.ord (st.over level v)).filter (fun c => decide (c ∉ st.over (level + 1) v)) := by
    intro c hc
    by_cases hm : c ∈ st.over (level + 1) v
    · exact .inl hm
    · exact .inr (List.mem_filter.2 ⟨(hE.ord _ _).2 hc, by simpa using hm⟩)
  generalize (E.ord (st.over level v)).filter (fun c => decide (c ∉ st.over (level + 1) v)) = cands at hr hcl hrest
  split at hr
  · rename_i h0
    simp only [Outcome.done.injEq, Prod.mk.injEq] at hr
    obtain ⟨rfl, rfl⟩ := hr
    refine ⟨h, Grows.refl _ _, fun _ c hc => ?_⟩
    rcases hrest c hc with hc | hc
    · exact hc
    · have : cands = [] := by simpa using h0
      rw [this] at hc; simp at hc
  · rcases C38_impliedBy_exact E.S hE.smt [Fla.disj ((E.G.inEdges v).map (E.edgeMay st level))] (cands.map (·.rename toTgt))
      (by intro f hf; rw [List.mem_singleton] at hf; subst hf; exact body_noAct hE h level v)
      (by
        intro f hf
        obtain ⟨c, hc, rfl⟩ := List.mem_map.1 hf
        exact noAct_tgt (hcl c hc)) with hi | ⟨hi, _⟩
    · rw [hi] at hr
      simp only [Outcome.done.injEq, Prod.mk.injEq] at hr
      obtain ⟨rfl, rfl⟩ := hr
      obtain ⟨j1, j2, j3⟩ := push_fold hE hv (level := level) h
        (cs := (cands.map (·.rename toTgt)).filter (fun c => decide (Entails [Fla.disj ((E.G.inEdges v).map (E.edgeMay st level))] c))) (by
          intro d hd
          obtain ⟨hd, hent⟩ := List.mem_filter.1 hd
          obtain ⟨c, hc, rfl⟩ := List.mem_map.1 hd
          refine ⟨c, rfl, hcl c hc, fun e he ht ρ hm => ?_⟩
          simp only [decide_eq_true_eq] at hent
          have := hent ρ (by
            intro f hf
            rw [List.mem_singleton] at hf
            subst hf
            rw [Fla.holds_disj]
            exact ⟨_, List.mem_map_of_mem (a := e) (by simpa [Graph.inEdges] using ⟨he, ht⟩), hm⟩)
          rwa [Fla.holds_rename] at this)
      refine ⟨j1, j2, fun hall c hc => ?_⟩
      simp only [decide_eq_true_eq] at hall
      rcases hrest c hc with hc | hc
      · exact j2.sub _ _ c hc
      · have hf := List.length_filter_eq_length_iff.1 hall
        have := j3 (c.rename toTgt) (List.mem_filter.2 ⟨List.mem_map_of_mem hc, hf _ (List.mem_map_of_mem hc)⟩)
        rwa [rename_back (hcl c hc)] at this
    · rw [hi] at hr; simp at hr

theorem pushAll_inv (hE : E.WF) {cur level : Nat} {vs : List Pred} {st st' : SpState T} (h : SpInv E cur st) {all : Bool}
    (hr : E.pushAll level vs st = .done (all, st')) :
    SpInv E cur st' ∧ Grows level st st' ∧
      (all = true → ∀ v ∈ vs, v ≠ .tru → ∀ c ∈ st'.over level v, c ∈ st'.over (level + 1) v) := by
  induction vs generalizing st all with
  | nil =>
    simp only [SpEnv.pushAll, Outcome.done.injEq, Prod.mk.injEq] at hr
    obtain ⟨rfl, rfl⟩ := hr
    exact ⟨h, Grows.refl _ _, by simp⟩
  | cons v vs ih =>
    simp only [SpEnv.pushAll] at hr
    split at hr
    · rename_i hv
      obtain ⟨a, b, c⟩ := ih h hr
      refine ⟨a, b, fun hall w hw hne => ?_⟩
      rcases List.mem_cons.1 hw with rfl | hw
      · exact absurd hv hne
      · exact c hall w hw hne
    · rename_i hv
      split at hr
      · rename_i a1 st1 h1
        obtain ⟨i1, i2, i3⟩ := tryPush_inv hE hv h h1
        split at hr
        · rename_i a2 st2 h2
          simp only [Outcome.done.injEq, Prod.mk.injEq] at hr
          obtain ⟨rfl, rfl⟩ := hr
          obtain ⟨j1, j2, j3⟩ := ih i1 h2
          refine ⟨j1, i2.trans j2, fun hall w hw hne c hc => ?_⟩
          simp only [Bool.and_eq_true] at hall
          rcases List.mem_cons.1 hw with rfl | hw
          · rw [(i2.trans j2).same level (by omega)] at hc
            exact j2.sub _ _ c (i3 hall.1 c hc)
          · exact j3 hall.2 w hw hne c hc
        · simp at hr
        · simp at hr
      · simp at hr
      · simp at hr

/-- The inductive level: every lemma of the level is a lemma of the next one. -/
theorem inductiveFrom_inv (hE : E.WF) {cur n level : Nat} {st st' : SpState T} (h : SpInv E cur st) {r : Option Nat}
    (hr : E.inductiveFrom n level st = .done (r, st')) :
    SpInv E cur st' ∧ (∀ m v, ∀ c ∈ st.over m v, c ∈ st'.over m v) ∧ st'.db = st.db ∧ st'.under = st.under ∧
      ∀ l, r = some l → level ≤ l ∧ l < level + n ∧
        ∀ v ∈ E.verts, v ≠ .tru → ∀ c ∈ st'.over l v, c ∈ st'.over (l + 1) v := by
  induction n generalizing level st with
  | zero =>
    simp only [SpEnv.inductiveFrom, Outcome.done.injEq, Prod.mk.injEq] at hr
    obtain ⟨rfl, rfl⟩ := hr
    exact ⟨h, fun _ _ _ hc => hc, rfl, rfl, by simp⟩
  | succ n ih =>
    simp only [SpEnv.inductiveFrom] at hr
    split at hr
    · rename_i st1 h1
      simp only [Outcome.done.injEq, Prod.mk.injEq] at hr
      obtain ⟨rfl, rfl⟩ := hr
      obtain ⟨a, b, c⟩ := pushAll_inv hE h h1
      refine ⟨a, b.sub, b.db, b.under, fun l hl => ?_⟩
      cases hl
      exact ⟨Nat.le_refl _, by omega, c rfl⟩
    · rename_i st1 h1
      obtain ⟨a, b, c⟩ := pushAll_inv hE h h1
      obtain ⟨d1, d2, d3, d4, d5⟩ := ih a hr
      refine ⟨d1, fun m v c hc => d2 m v c (b.sub m v c hc), d3.trans b.db, d4.trans b.under, fun l hl => ?_⟩
      obtain ⟨e1, e2, e3⟩ := d5 l hl
      exact ⟨by omega, by omega, e3⟩
    · simp at hr
    · simp at hr

theorem lookup_filter_map {α β : Type} [DecidableEq α] {p : α → Bool} {g : α → β} {l : List α} {a : α} :
    List.lookup a ((l.filter p).map fun v => (v, g v)) = if a ∈ l ∧ p a = true then some (g a) else none := by
  induction l with
  | nil => simp
  | cons b l ih =>
    simp only [List.filter_cons]
    by_cases hpb : p b = true
    · rw [if_pos hpb]
      simp only [List.map_cons, List.lookup]
      by_cases hab : a = b
      · subst hab; simp [hpb]
      · have : (a == b) = false := by simpa using hab
        rw [this]
        simp only
        rw [ih]
        simp [hab]
    · rw [if_neg hpb, ih]
      by_cases hab : a = b
      · subst hab; simp [hpb]
      · simp [hab]

theorem solution_get (E : SpEnv T) (st : SpState T) (level : Nat) (v : Pred) : (E.solution st level).get v =
    if v = .tru then some .tt else if v = .fls then some .ff else
      if v ∈ E.verts then some (E.simp (E.may st level v)) else none := by
  unfold SpEnv.solution
  rw [Defs.get_cons, Defs.get_cons]
  by_cases h1 : v = .tru
  · subst h1; simp
  · by_cases h2 : v = .fls
    · subst h2; simp
    · have e1 : ¬ Pred.tru = v := fun h => h1 h.symm
      have e2 : ¬ Pred.fls = v := fun h => h2 h.symm
      have := lookup_filter_map (p := fun v => decide (v ≠ .tru) && decide (v ≠ .fls))
        (g := fun v => E.simp (E.may st level v)) (l := E.verts) (a := v)
      simp only [h1, h2, if_false, e1, e2, Defs.get]
      rw [this]
      simp [h1, h2]

/-- At an inductive level whose exit is blocked, the may summaries are a model. -/
theorem solution_safe (hE : E.WF) {cur level : Nat} {st : SpState T} (h : SpInv E cur st) (hb : Blocked st level)
    (hi : ∀ v ∈ E.verts, v ≠ .tru → ∀ c ∈ st.over level v, c ∈ st.over (level + 1) v) :
    SafeWitness E.R E.G (E.solution st level) := by
  have hnf : E.R.baseVars .fls = [] := by simp [PRepr.baseVars, hE.repr.fls]
  have hnt : E.R.baseVars .tru = [] := by simp [PRepr.baseVars, hE.repr.tru]
  refine ⟨⟨?_, ?_, ?_, ⟨⟨?_, ?_⟩, ?_⟩⟩, ?_, ?_⟩
  · intro p d hd x hx
    rw [solution_get] at hd
    split at hd
    · cases hd; simp [Fla.vars] at hx
    · split at hd
      · cases hd; simp [Fla.vars] at hx
      · split at hd
        · cases hd
          exact may_closed hE h level p x (hE.simp.vars _ x hx)
        · simp at hd
  · rw [solution_get]; simp
  · rw [solution_get]; simp
  · refine ⟨.tt, by rw [solution_get]; simp [trueFact], fun _ => T.vT, ?_, trivial⟩
    simp [trueFact, hnt]
  · rintro r ⟨e, he, ρ, hl, rfl⟩ hbody
    have hv : ∀ q ∈ instances e.src, q.1 ∈ E.verts := fun q hq => (hE.verts _).2 (.inl ⟨e, he, .inr (mem_of_mem_instances hq)⟩)
    have hmay : (E.edgeMay st level e).holds ρ := by
      rw [edgeMay_holds hE]
      refine ⟨hl, fun q hq c hc => ?_⟩
      have hq' : (E.solution st level).interp E.R (q.1, (E.R.srcVars q.1 q.2).map ρ) :=
        hbody _ (List.mem_map_of_mem (f := fun q : Pred × Nat => (q.1, (E.R.srcVars q.1 q.2).map ρ)) hq)
      obtain ⟨d, hd, σ, hσ, hdσ⟩ := hq'
      simp only at hd hσ
      rw [solution_get] at hd
      split at hd
      · rename_i h0
        rw [h0] at hc
        rw [h.overTru level c hc]
        trivial
      · split at hd
        · cases hd; exact absurd hdσ id
        · rw [if_pos (hv q hq)] at hd
          cases hd
          have h1 := (may_holds hE).1 ((hE.simp.equiv _ σ).1 hdσ) c hc
          refine (closed_congr (h.closedOver level q.1 c hc) ?_).1 h1
          rw [hσ, srcVars_map]
    by_cases ht : e.tgt = .tru
    · refine ⟨.tt, by rw [solution_get]; simp [Edge.rule, Edge.tgtFact, ht], fun _ => T.vT, ?_, trivial⟩
      simp [Edge.rule, Edge.tgtFact, ht, PRepr.tgtVars, PRepr.baseVars, hE.repr.tru]
    · have hstep : ∀ c ∈ st.over (level + 1) e.tgt, c.holds (fun x => ρ (toTgt x)) := fun c hc =>
        h.step level e.tgt ht c hc e he rfl ρ hmay
      have htv : e.tgt ∈ E.verts := (hE.verts _).2 (.inl ⟨e, he, .inl rfl⟩)
      by_cases hf : e.tgt = .fls
      · exfalso
        obtain ⟨c, hc, hcu⟩ := hb
        exact hcu _ (hstep c (by rw [hf]; exact hi .fls ((hE.verts _).2 (.inr (.inr rfl))) (by simp) c hc))
      · refine ⟨E.simp (E.may st level e.tgt), ?_, fun x => ρ (toTgt x), ?_, ?_⟩
        · rw [solution_get]; simp [Edge.rule, Edge.tgtFact, ht, hf, htv]
        · simp only [Edge.rule, Edge.tgtFact]; exact tgtVars_map _ _ _
        · refine (hE.simp.equiv _ _).2 ((may_holds hE).2 fun c hc => hstep c (hi _ htv ht c hc))
  · rintro ⟨d, hd, σ, _, hdσ⟩
    rw [solution_get] at hd
    simp only [falseFact] at hd
    cases hd
    exact hdσ
  · intro p hp
    rw [solution_get]
    split
    · rfl
    · split
      · rfl
      · rw [if_pos ((hE.verts p).2 (.inl hp))]; rfl
  · intro p hp
    rw [solution_get] at hp
    split at hp
    · rename_i h0; exact .inr (.inl h0)
    · split at hp
      · rename_i h0; exact .inr (.inr h0)
      · split at hp
        · rename_i h0; exact (hE.verts p).1 h0
        · simp at hp

end Golem
