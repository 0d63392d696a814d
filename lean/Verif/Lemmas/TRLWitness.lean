import Verif.Lemmas.TRLSearch
import Verif.Lemmas.SpacerTotal
import Verif.Lemmas.NodeElimSafe
import Verif.Props.QE

/-! Lemmas for C66: the invariant computed after an exhausted search; and that nothing is thrown. -/

namespace Golem

variable {ts : TS LIA}

/-- The contract of `keepOnly` that the engine relies on (C36: exact where the internal name of the projection does not occur). -/
def KeepInt (K : KeepOnly LIA) : Prop := ∀ f vs g, mbpTmp ∉ f.vars → K f vs = some g →
  (∀ x ∈ g.vars, x ∈ vs) ∧ ∀ ρ : Valuation LIA, g.holds ρ ↔ ∃ ρ' : Valuation LIA, (∀ x ∈ vs, ρ' x = ρ x) ∧ f.holds ρ'

/-- The system whose steps are those of the given relations. -/
def relSys (ts : TS LIA) (rels : List (Fla LIA)) : STS (TS.State LIA) := ⟨ts.sem.Init, fun s t => ∃ r ∈ rels, RelSem ts r s t, ts.sem.Bad⟩

theorem relSem_disj {rels : List (Fla LIA)} {s t : TS.State LIA} : RelSem ts (Fla.disj rels) s t ↔ ∃ r ∈ rels, RelSem ts r s t := by
  constructor
  · rintro ⟨ρ, h, h1, h2⟩
    obtain ⟨r, hr, h⟩ := Fla.holds_disj.1 h
    exact ⟨r, hr, ρ, h, h1, h2⟩
  · rintro ⟨r, hr, ρ, h, h1, h2⟩
    exact ⟨ρ, Fla.holds_disj.2 ⟨r, hr, h⟩, h1, h2⟩

theorem relVars_disj {rels : List (Fla LIA)} (h : ∀ r ∈ rels, RelVars ts r) : RelVars ts (Fla.disj rels) := by
  intro x hx
  obtain ⟨r, hr, hx⟩ := Fla.mem_vars_disj.1 hx
  exact h r hr x hx

theorem posts_spec (hr : TrlReady ts) {K : KeepOnly LIA} (hK : KeepInt K) {rels : List (Fla LIA)} (hv : ∀ r ∈ rels, RelVars ts r)
    (n i : Nat) (cur : Fla LIA) (hcur : ∀ x ∈ cur.vars, (∃ y ∈ ts.stateVars, x = shift i y) ∨ x ∈ ts.init.vars) {gs : List (Fla LIA)}
    (h : trlPosts K ts (Fla.disj rels) n i cur = some gs) :
    (∀ g ∈ gs, ts.Over g) ∧ ∀ u, (∃ g ∈ gs, ts.den g u) ↔
      ∃ m, 1 ≤ m ∧ m ≤ n ∧ ∃ ρ : Valuation LIA, cur.holds ρ ∧ (relSys ts rels).Path m (ts.stateAt ρ i) u := by
  induction n generalizing i cur gs with
  | zero =>
    simp only [trlPosts, Option.some.injEq] at h
    subst h
    exact ⟨fun g hg => (by cases hg), fun u => ⟨fun ⟨g, hg, _⟩ => (by cases hg), fun ⟨m, h1, h2, _⟩ => (by omega)⟩⟩
  | succ n ih =>
    simp only [trlPosts, Option.bind_eq_bind, Option.bind_eq_some_iff, Option.pure_def, Option.some.injEq] at h
    obtain ⟨g, hg, gs', hgs, rfl⟩ := h
    have hev := relVars_disj hv
    have hcv : ∀ x ∈ (Fla.and cur (sendFla (Fla.disj rels) i)).vars, x.versioned := by
      intro x hx
      simp only [Fla.vars, List.mem_append] at hx
      rcases hx with hx | hx
      · rcases hcur x hx with ⟨y, hy, rfl⟩ | hx
        · exact versioned_shift (versioned_of_isCurrent (hr.wf.stateCur y hy)) _
        · rcases hr.wf.init x hx with h | h
          · exact versioned_of_isCurrent (hr.wf.stateCur x h)
          · exact versioned_of_isCurrent (hr.wf.auxCur x h)
      · exact sendFla_versioned (relVars_versioned hr hev) _ x hx
    obtain ⟨g1, g2⟩ := hK _ _ _ (tmp_notin hcv) hg
    have hgv : ∀ x ∈ g.vars, ∃ y ∈ ts.stateVars, x = shift ((i + 1 : Nat) : Int) y := by
      intro x hx
      obtain ⟨y, hy, e⟩ := List.mem_map.1 (g1 x hx)
      exact ⟨y, hy, e.symm⟩
    have hstep : ∀ u, (∃ ρ : Valuation LIA, g.holds ρ ∧ ts.stateAt ρ ((i + 1 : Nat) : Int) = u) ↔
        ∃ ρ : Valuation LIA, cur.holds ρ ∧ ∃ r ∈ rels, RelSem ts r (ts.stateAt ρ i) u := by
      intro u
      constructor
      · rintro ⟨ρ, hρ, rfl⟩
        obtain ⟨σ, hag, hc, he⟩ := (g2 ρ).1 hρ
        refine ⟨σ, hc, relSem_disj.1 ⟨_, sendFla_holds.1 he, rfl, ?_⟩⟩
        unfold TS.nextVars TS.stateAt
        rw [List.map_map]
        refine List.map_congr_left fun y hy => ?_
        simp only [Function.comp]
        rw [shift_shift, ← hag (shift ((i + 1 : Nat) : Int) y) (List.mem_map.2 ⟨y, hy, rfl⟩)]
        congr 2
        omega
      · rintro ⟨ρ, hc, hrel⟩
        obtain ⟨τ, ht, h1, h2⟩ := relSem_disj.2 hrel
        let σ := stepVal ts ρ i (Fla.disj rels) τ 0
        refine ⟨σ, (g2 σ).2 ⟨σ, fun _ _ => rfl, ?_, stepVal_rel hr hev ht h1⟩, ?_⟩
        · refine (stepVal_holds hr fun x hx => ?_).2 hc
          rcases hcur x hx with ⟨y, hy, rfl⟩ | hx
          · exact oldVar_state hr.wf hy (Nat.le_refl i)
          · exact init_old hr i x hx
        · rw [← h2]; exact stepVal_next hr
    have hden : ∀ u, ts.den (sendFla g (-((i : Int) + 1))) u ↔ ∃ ρ : Valuation LIA, g.holds ρ ∧ ts.stateAt ρ ((i + 1 : Nat) : Int) = u := by
      intro u
      constructor
      · rintro ⟨ρ, hρ, rfl⟩
        refine ⟨_, sendFla_holds.1 hρ, ?_⟩
        rw [TS.stateAt_shift, show -((i : Int) + 1) + ((i + 1 : Nat) : Int) = 0 by omega, TS.stateAt_zero]
      · rintro ⟨ρ, hρ, rfl⟩
        refine ⟨fun x => ρ (shift ((i + 1 : Nat) : Int) x), sendFla_holds.2 ?_, rfl⟩
        refine (Fla.holds_congr fun x _ => ?_).1 hρ
        simp only
        rw [shift_shift, show -((i : Int) + 1) + ((i + 1 : Nat) : Int) = 0 by omega, shift_zero]
    obtain ⟨i1, i2⟩ := ih (i + 1) g (fun x hx => .inl (hgv x hx)) hgs
    refine ⟨fun g' hg' => ?_, fun u => ?_⟩
    · rcases List.mem_cons.1 hg' with rfl | hg'
      · intro x hx
        obtain ⟨z, hz, rfl⟩ := mem_vars_sendFla.1 hx
        obtain ⟨y, hy, rfl⟩ := hgv z hz
        rw [shift_shift, show ((i + 1 : Nat) : Int) + -((i : Int) + 1) = 0 by omega, shift_zero]
        exact hy
      · exact i1 g' hg'
    · constructor
      · rintro ⟨g', hg', hd⟩
        rcases List.mem_cons.1 hg' with rfl | hg'
        · obtain ⟨ρ, hρ, hs⟩ := (hstep u).1 ((hden u).1 hd)
          exact ⟨1, Nat.le_refl 1, by omega, ρ, hρ, .snoc (.refl _) hs⟩
        · obtain ⟨m, m1, m2, ρ, hρ, hp⟩ := (i2 u).1 ⟨g', hg', hd⟩
          obtain ⟨σ, hσ, hs⟩ := (hstep _).1 ⟨ρ, hρ, rfl⟩
          exact ⟨m + 1, by omega, by omega, σ, hσ, .cons hs hp⟩
      · rintro ⟨m, m1, m2, ρ, hρ, hp⟩
        obtain ⟨m, rfl⟩ : ∃ k, m = k + 1 := ⟨m - 1, by omega⟩
        obtain ⟨t, hs, hp⟩ := hp.uncons
        obtain ⟨σ, hσ, rfl⟩ := (hstep t).2 ⟨ρ, hρ, hs⟩
        by_cases h0 : m = 0
        · subst h0
          cases hp
          exact ⟨_, List.mem_cons_self, (hden _).2 ⟨σ, hσ, rfl⟩⟩
        · obtain ⟨g', hg', hd⟩ := (i2 u).2 ⟨m, by omega, by omega, σ, hσ, hp⟩
          exact ⟨g', List.mem_cons_of_mem _ hg', hd⟩

/-- The invariant: the states reached in at most `d` steps of the learned relations. -/
theorem invariant_spec (hr : TrlReady ts) {K : KeepOnly LIA} (hK : KeepInt K) {rels : List (Fla LIA)} (hv : ∀ r ∈ rels, RelVars ts r)
    {d : Nat} {inv : Fla LIA} (h : trlInvariant K ts rels d = some inv) :
    ((∀ x ∈ ts.init.vars, x ∈ ts.stateVars) → ts.Over inv) ∧ ∀ u, ts.den inv u ↔ ∃ m ≤ d, (relSys ts rels).ReachIn m u := by
  simp only [trlInvariant, Option.map_eq_some_iff] at h
  obtain ⟨gs, hgs, rfl⟩ := h
  obtain ⟨h1, h2⟩ := posts_spec hr hK hv d 0 ts.init (fun x hx => .inr hx) hgs
  refine ⟨fun hi x hx => ?_, fun u => ?_⟩
  · obtain ⟨g, hg, hx⟩ := Fla.mem_vars_disj.1 hx
    rcases List.mem_cons.1 hg with rfl | hg
    · exact hi x hx
    · exact h1 g hg x hx
  · have hd : ts.den (Fla.disj (ts.init :: gs)) u ↔ ts.den ts.init u ∨ ∃ g ∈ gs, ts.den g u := by
      constructor
      · rintro ⟨ρ, h, e⟩
        obtain ⟨g, hg, h⟩ := Fla.holds_disj.1 h
        rcases List.mem_cons.1 hg with rfl | hg
        · exact .inl ⟨ρ, h, e⟩
        · exact .inr ⟨g, hg, ρ, h, e⟩
      · rintro (⟨ρ, h, e⟩ | ⟨g, hg, ρ, h, e⟩)
        · exact ⟨ρ, Fla.holds_disj.2 ⟨_, List.mem_cons_self, h⟩, e⟩
        · exact ⟨ρ, Fla.holds_disj.2 ⟨g, List.mem_cons_of_mem _ hg, h⟩, e⟩
    rw [hd, h2]
    constructor
    · rintro (h | ⟨m, m1, m2, ρ, hρ, hp⟩)
      · exact ⟨0, Nat.zero_le _, u, h, .refl _⟩
      · exact ⟨m, m2, ts.stateAt ρ 0, ⟨ρ, hρ, (TS.stateAt_zero ts ρ).symm⟩, hp⟩
    · rintro ⟨m, hm, s, ⟨ρ, hρ, rfl⟩, hp⟩
      by_cases h0 : m = 0
      · subst h0
        cases hp
        exact .inl ⟨ρ, hρ, rfl⟩
      · refine .inr ⟨m, by omega, hm, ρ, hρ, ?_⟩
        have : ts.stateAt ρ ((0 : Nat) : Int) = ts.stateVars.map ρ := TS.stateAt_zero ts ρ
        rw [this]; exact hp

/-- All levels know all relations. -/
def Saturated (st : TrlState) : Prop := ∀ l ∈ st.levels, l.rels = st.relations

theorem saturated_sys {st : TrlState} (hs : Saturated st) (hne : st.levels ≠ []) {s t : TS.State LIA} :
    (commonSys ts st.levels).Step s t ↔ (relSys ts st.relations).Step s t := by
  constructor
  · rintro ⟨i, r, h, hrel⟩
    obtain ⟨l, ls, e⟩ := List.exists_cons_of_ne_nil hne
    have h0 := h 0 l (by rw [e]; rfl)
    rw [hs l (by rw [e]; exact List.mem_cons_self)] at h0
    exact ⟨r, List.mem_of_getElem? h0, hrel⟩
  · rintro ⟨r, hr, hrel⟩
    obtain ⟨i, hi⟩ := List.mem_iff_getElem?.1 hr
    exact ⟨i, r, fun j l hj => by rw [hs l (List.mem_of_getElem? hj)]; exact hi, hrel⟩

theorem saturated_path {st : TrlState} (hs : Saturated st) (hne : st.levels ≠ []) {n : Nat} {s t : TS.State LIA} :
    (commonSys ts st.levels).Path n s t ↔ (relSys ts st.relations).Path n s t := by
  constructor
  · intro h
    induction h with
    | refl => exact .refl _
    | snoc _ st ih => exact .snoc ih ((saturated_sys hs hne).1 st)
  · intro h
    induction h with
    | refl => exact .refl _
    | snoc _ st ih => exact .snoc ih ((saturated_sys hs hne).2 st)

/-- What is reached on the levels is reached by the learned relations. -/
theorem reached_path {st : TrlState} (hl : LevelsOk ts st.relations st.levels) {m : Nat} (hm : m ≤ st.levels.length) {u : TS.State LIA}
    (h : Reached ts st.levels m u) : (relSys ts st.relations).ReachIn m u := by
  obtain ⟨ρ, hup, rfl⟩ := h
  refine ⟨ts.stateVars.map ρ, ⟨ρ, hup.1, rfl⟩, ?_⟩
  have : ∀ k, k ≤ m → (relSys ts st.relations).Path k (ts.stateVars.map ρ) (ts.stateAt ρ k) := by
    intro k
    induction k with
    | zero => intro _; rw [show ts.stateAt ρ ((0 : Nat) : Int) = ts.stateVars.map ρ from TS.stateAt_zero ts ρ]; exact .refl _
    | succ k ih =>
      intro hk
      refine .snoc (ih (by omega)) ?_
      obtain ⟨l, hlk⟩ : ∃ l, st.levels[k]? = some l := ⟨_, List.getElem?_eq_getElem (by omega)⟩
      obtain ⟨v, r, h1, h2, -⟩ := (allHold_level.1 (hup.2 k (by omega) l hlk)).2.1
      refine ⟨r, List.mem_of_getElem? (rels_index hl hlk h1), _, sendFla_holds.1 h2, rfl, ?_⟩
      unfold TS.nextVars TS.stateAt
      rw [List.map_map]
      refine List.map_congr_left fun y hy => ?_
      simp only [Function.comp]
      rw [shift_shift]
      congr 2
      omega
  exact this m (Nat.le_refl m)

/-! ### Nothing is thrown -/

theorem collect_nnf {T : Theory} {ρ : Valuation T} (xs : List Var) {f : Fla T} (hn : IsNNF f) (h : f.holds ρ) (st : List (Fla T) × List (Lit T)) :
    ∃ st', collectImplicant ρ xs f st = some st' := by
  induction hn generalizing st with
  | @lit f hl =>
    obtain ⟨seen, lits⟩ := st
    cases hl with
    | pos ha => cases f <;> simp_all [collectImplicant, Fla.isAtom] <;> (split <;> exact ⟨_, _, rfl⟩)
    | neg ha => simp only [collectImplicant, ha, if_true]; split <;> exact ⟨_, rfl⟩
  | @and f g _ _ ihf ihg =>
    obtain ⟨seen, lits⟩ := st
    simp only [collectImplicant]
    split
    · exact ⟨_, rfl⟩
    · obtain ⟨st1, h1⟩ := ihf h.1 (Fla.and f g :: seen, lits)
      obtain ⟨st2, h2⟩ := ihg h.2 st1
      exact ⟨st2, by simp [h1, h2]⟩
  | @or f g _ _ ihf ihg =>
    obtain ⟨seen, lits⟩ := st
    simp only [collectImplicant]
    split
    · exact ⟨_, rfl⟩
    · split
      · exact ⟨_, rfl⟩
      · split
        · rename_i hf; exact ihf hf _
        · rename_i hf
          have hg : g.holds ρ := h.resolve_left hf
          rw [if_pos hg]
          exact ihg hg _

theorem projectTo_total {M : Mbp LIA} (hM : MbpInt M) (ht : M.Total) {f : Fla LIA} (hf : mbpTmp ∉ f.vars) (keep : List Var) {ρ : Valuation LIA}
    (h : f.holds ρ) : ∃ g, projectTo M f keep ρ = some g := by
  obtain ⟨p, hp⟩ := ht f (f.vars.filter fun x => decide (x ∉ keep)) ρ h
  have h1 := (C35_keepOnly (hM f _ hf (fun hx => hf (List.mem_filter.1 hx).1)) ρ p h hp).1
  obtain ⟨n, hn, hnn, heq⟩ := C29_nnf p
  obtain ⟨st, hst⟩ := collect_nnf n.vars hnn ((heq ρ).2 h1) ([], [])
  refine ⟨Fla.conj ((st.2.map Lit.fla).filter fun f => decide (f ≠ .tt)), ?_⟩
  have hk : mbpKeepOnly M f keep ρ = some p := hp
  simp only [projectTo, hk, Option.bind_eq_bind, Option.bind_some, hn, hst]
  rfl

theorem trace_total (hr : TrlReady ts) {V : TrlEnv} (hM : MbpInt V.M) (ht : V.M.Total) {st : TrlState} (h : LevelsOk ts st.relations st.levels)
    {ρ : Valuation LIA} (hρ : AllHold ρ (trlStack ts st.levels)) {k : Nat} (hk : k + 1 = st.levels.length) :
    ∃ tr, trlTrace V ts st.relations ρ k = some tr := by
  refine mapM_some_of fun i hi => ?_
  rw [List.mem_range] at hi
  obtain ⟨v, r, g1, g2, g3⟩ := step_relation h hρ (i := i) (by omega)
  have hv := h.vars r (List.mem_of_getElem? g1)
  obtain ⟨g, hg⟩ := projectTo_total hM ht (tmp_notin (sendFla_versioned (relVars_versioned hr hv) _))
    ((ts.stateVars ++ ts.nextVars).map (shift i)) g3
  rw [g2, Int.toNat_natCast, g1]
  exact Option.isSome_iff_exists.2 ⟨g, hg⟩

/-- The solver call for the model of the loop and the blocking relation succeeds. -/
theorem learn_total (hr : TrlReady ts) {V : TrlEnv} (hS : V.S.Correct) (hc : V.S.Complete) (hM : MbpInt V.M) (ht : V.M.Total)
    (hs : SimpOk V.simp) {st : TrlState} (h : TrlInv ts st)
    {ρ : Valuation LIA} {tr : List (Fla LIA)} {l : TrlLoop} (hlen : 0 < l.len)
    (htr : ∀ (i : Nat) t, tr[i]? = some t → t.holds ρ ∧ ∀ x ∈ t.vars, ∃ y ∈ ts.stateVars ++ ts.nextVars, x = shift i y) :
    ∃ st', trlLearn V ts st tr ρ l = some st' := by
  have hfin : ∀ r, RelVars ts r → (∃ σ : Valuation LIA, r.holds σ ∧ ∀ p ∈ loopValuation ts l ρ, (σ p.1 : Int) = p.2) →
      V.S.check ((loopValuation ts l ρ).map (fun p => Fla.eq (.var p.1) (.const (p.2 : Int))) ++ [r]) = .sat ∧
      ∃ b, computeBlockingClause V ts l r (V.S.model ((loopValuation ts l ρ).map (fun p => Fla.eq (.var p.1) (.const (p.2 : Int))) ++ [r])) = some b := by
    rintro r hv ⟨σ, h1, h2⟩
    have hsat : V.S.check ((loopValuation ts l ρ).map (fun p => Fla.eq (.var p.1) (.const (p.2 : Int))) ++ [r]) = .sat := by
      refine (hc _).resolve_right fun hu => hS.unsat _ hu ⟨σ, fun f hf => ?_⟩
      rcases List.mem_append.1 hf with hf | hf
      · obtain ⟨p, hp, rfl⟩ := List.mem_map.1 hf
        exact h2 p hp
      · rw [List.mem_singleton.1 hf]; exact h1
    refine ⟨hsat, ?_⟩
    obtain ⟨g, hg⟩ := projectTo_total hM ht (tmp_notin (relVars_versioned hr hv)) ((ts.stateVars ++ ts.nextVars).map (shift ((0 : Nat) : Int)))
      (hS.sat _ hsat r (by simp))
    have hg' : trlProject V.M ts r (V.S.model ((loopValuation ts l ρ).map (fun p => Fla.eq (.var p.1) (.const (p.2 : Int))) ++ [r])) 0 = some g := hg
    exact ⟨_, by simp only [computeBlockingClause, hg', Option.bind_eq_bind, Option.bind_some]; exact rfl⟩
  have hinj : ∀ p ∈ loopValuation ts l ρ, ∀ q ∈ loopValuation ts l ρ, p.1 = q.1 → p.2 = q.2 := by
    intro p hp q hq e
    unfold loopValuation TS.nextVars at hp hq
    simp only [List.mem_append, List.mem_map, List.map_map, Function.comp] at hp hq
    rcases hp with ⟨x, hx, rfl⟩ | ⟨x, hx, rfl⟩ <;> rcases hq with ⟨y, hy, rfl⟩ | ⟨y, hy, rfl⟩
    · simp only at e ⊢; rw [e]
    · have := shift_state_inj hr.wf hx hy (i := 0) (j := 1) (by simpa using e)
      omega
    · have := shift_state_inj hr.wf hx hy (i := 1) (j := 0) (by simpa using e)
      omega
    · have := shift_state_inj hr.wf hx hy e
      simp only; rw [this.1]
  simp only [trlLearn]
  split
  · rename_i r hfind
    have hmem := List.mem_of_mem_drop (List.mem_of_find?_eq_some hfind)
    obtain ⟨hsat, b, hb⟩ := hfin r (h.levels.vars r hmem) (by
      have hp := List.find?_some hfind
      simp only [Bool.and_eq_true, Bool.or_eq_true, decide_eq_true_eq] at hp
      have hmod : ∃ σ : Valuation LIA, (V.simp (varSubstitute r ((loopValuation ts l ρ).map fun p => (p.1, Tm.const (p.2 : Int))))).holds σ := by
        rcases hp.2 with h | h
        · exact ⟨fun _ => (0 : Int), by rw [h]; trivial⟩
        · exact ⟨_, hS.sat _ h _ (by simp)⟩
      obtain ⟨σ, hσ⟩ := hmod
      rw [hs.equiv _ σ, varSubstitute_holds] at hσ
      refine ⟨_, hσ, fun p hp => ?_⟩
      obtain ⟨t, ht⟩ := Option.isSome_iff_exists.1 (SubstMap.find_isSome_of_mem
        (m := (loopValuation ts l ρ).map fun p => (p.1, Tm.const (T := LIA) (p.2 : Int))) (x := p.1) (t := Tm.const (T := LIA) p.2)
        (List.mem_map.2 ⟨p, hp, rfl⟩))
      have hin := SubstMap.find_some_mem ht
      obtain ⟨q, hq, e⟩ := List.mem_map.1 hin
      simp only [Prod.mk.injEq] at e
      simp only [SubstMap.fn, ht, Option.getD_some]
      rw [← e.2]
      exact (hinj q hq p hp e.1))
    simp [hsat, hb]
  · obtain ⟨hf1, hf2⟩ := loop_formula hr.wf htr l.start l.len
    have hpr : ∃ p, transitiveProjection V ts st.counter (Fla.conj ((tr.drop l.start).take l.len)) ρ l = some p := by
      obtain ⟨pr, hpr⟩ := projectTo_total hM ht (extended_tmp hr V l hf2) ((trlDiffs V ts l).map fun d => trlDiff d.1) (extended_holds hr V l hf2 hf1)
      obtain ⟨pb, hpb⟩ := projectTo_total hM ht (tmp_notin hf2) (ts.varsAtStep l.start) hf1
      obtain ⟨pe, hpe⟩ := projectTo_total hM ht (tmp_notin hf2) (ts.varsAtStep (l.start + l.len)) hf1
      exact ⟨_, by simp only [transitiveProjection, hpr, hpb, hpe, Option.bind_eq_bind, Option.bind_some]; exact rfl⟩
    obtain ⟨p, hp⟩ := hpr
    obtain ⟨F, hF, rfl⟩ := transitiveProjection_spec hr hM hf2 hf1 hp
    obtain ⟨hsat, b, hb⟩ := hfin _ (learned_vars hr hlen hF) (by
      let θ : Valuation LIA := fun x => if x = shift l.start (trlCounter st.counter) then (1 : Int) else ρ x
      have hne : ∀ (y : Var) (k : Int), y ∈ ts.stateVars → shift k y ≠ shift l.start (trlCounter st.counter) := by
        intro y k hy e
        have h1 := hr.wf.stateCur y hy
        have h2 := congrArg Var.cur e
        rw [Var.cur_shift h1, Var.cur_shift (x := trlCounter st.counter) rfl] at h2
        exact (hr.cnt st.counter).1 (h2 ▸ hy)
      have hθ : ∀ k : Int, ts.stateAt θ k = ts.stateAt ρ k := fun k => List.map_congr_left fun y hy => if_neg (hne y k hy)
      have hholds := hF.once θ (if_pos rfl) (hθ _) (hθ _)
      obtain ⟨σ, hσ, e1, e2⟩ := (learned_sem hr hlen hF _ _).2 ⟨θ, hholds, hθ l.start, hθ _⟩
      refine ⟨σ, hσ, fun q hq => ?_⟩
      unfold loopValuation at hq
      rcases List.mem_append.1 hq with hq | hq
      · obtain ⟨x, hx, rfl⟩ := List.mem_map.1 hq
        exact List.map_inj_left.1 e1 x hx
      · obtain ⟨x, hx, rfl⟩ := List.mem_map.1 hq
        obtain ⟨y, hy, rfl⟩ := List.mem_map.1 hx
        unfold TS.nextVars TS.stateAt at e2
        rw [List.map_map] at e2
        simp only
        rw [shift_shift, show (1 : Int) + (((l.start + l.len : Nat) : Int) - 1) = ((l.start + l.len : Nat) : Int) by omega]
        exact List.map_inj_left.1 e2 y hy)
    simp [hp, hsat, hb]

end Golem
