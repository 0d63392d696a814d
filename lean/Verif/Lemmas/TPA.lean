import Verif.Model.Engines.TPA
import Verif.Lemmas.TransitionSystem
import Verif.Props.Reverse
import Verif.Props.NormalForms
import Verif.Props.QE

/-! Formulas over the current and the next state as relations on states. -/

namespace Golem
variable {T : Theory}

/-- The relation between states a formula over current and next variables describes. -/
def TS.rel (ts : TS T) (f : Fla T) (s t : TS.State T) : Prop :=
  ∃ ρ : Valuation T, f.holds ρ ∧ ts.stateAt ρ 0 = s ∧ ts.stateAt ρ 1 = t

/-- Only current and next state variables occur. -/
def TS.PureTr (ts : TS T) (f : Fla T) : Prop := ∀ x ∈ f.vars, x ∈ ts.varsAt 0 ∨ x ∈ ts.varsAt 1

variable {ts : TS T}

theorem TS.pureTrans_iff {f : Fla T} : ts.pureTrans f = true ↔ ts.PureTr f := by
  simp [TS.pureTrans, TS.PureTr, List.all_eq_true]

theorem TS.varsAt_zero (ts : TS T) : ts.varsAt 0 = ts.stateVars := by
  unfold TS.varsAt
  exact (List.map_congr_left fun x _ => shift_zero x).trans (List.map_id _)

theorem TS.pureState_iff {f : Fla T} : ts.pureState f = true ↔ ts.Over f := by
  simp [TS.pureState, TS.Over, List.all_eq_true, TS.varsAt_zero]

theorem TS.mem_varsAt {k : Int} {x : Var} : x ∈ ts.varsAt k ↔ ∃ y ∈ ts.stateVars, shift k y = x := by
  simp [TS.varsAt]

theorem TS.stateAt_congr {ρ ρ' : Valuation T} {i j : Int} :
    ts.stateAt ρ i = ts.stateAt ρ' j ↔ ∀ x ∈ ts.stateVars, ρ (shift i x) = ρ' (shift j x) := by
  unfold TS.stateAt
  exact List.map_inj_left

theorem TS.rel_of_at {f : Fla T} {ρ : Valuation T} {i : Int} (h : (sendFla f i).holds ρ) :
    ts.rel f (ts.stateAt ρ i) (ts.stateAt ρ (i + 1)) :=
  ⟨_, sendFla_holds.1 h, by rw [TS.stateAt_shift]; simp, by rw [TS.stateAt_shift]⟩

theorem TS.rel_holds {f : Fla T} {ρ : Valuation T} (h : f.holds ρ) :
    ts.rel f (ts.stateAt ρ 0) (ts.stateAt ρ 1) := ⟨ρ, h, rfl, rfl⟩

theorem TS.rel_iff {f : Fla T} (hf : ts.PureTr f) {ρ : Valuation T} :
    ts.rel f (ts.stateAt ρ 0) (ts.stateAt ρ 1) ↔ f.holds ρ := by
  refine ⟨?_, TS.rel_holds⟩
  rintro ⟨ρ', h, e0, e1⟩
  rw [TS.stateAt_congr] at e0 e1
  refine (Fla.holds_congr fun x hx => ?_).1 h
  rcases hf x hx with hm | hm <;> obtain ⟨y, hy, rfl⟩ := TS.mem_varsAt.1 hm
  · exact e0 y hy
  · exact e1 y hy

theorem TS.rel_at {f : Fla T} (hf : ts.PureTr f) {ρ : Valuation T} {i : Int} :
    ts.rel f (ts.stateAt ρ i) (ts.stateAt ρ (i + 1)) ↔ (sendFla f i).holds ρ := by
  rw [sendFla_holds, ← TS.rel_iff hf, TS.stateAt_shift, TS.stateAt_shift]; simp

theorem TS.rel_trans {s t : TS.State T} : ts.rel ts.trans s t ↔ ts.sem.Step s t := by
  simp only [TS.rel, TS.sem, TS.nextVars_map, TS.stateAt, shift_zero]

theorem TS.rel_rep {f : Fla T} {s t} (h : ts.rel f s t) : ts.Rep s ∧ ts.Rep t := by
  obtain ⟨ρ, _, e0, e1⟩ := h
  exact ⟨e0 ▸ TS.rep_stateAt ts ρ 0, e1 ▸ TS.rep_stateAt ts ρ 1⟩

theorem TS.rel_and {f g : Fla T} (hg : ts.PureTr g) {s t} : ts.rel (.and f g) s t ↔ ts.rel f s t ∧ ts.rel g s t := by
  constructor
  · rintro ⟨ρ, h, e0, e1⟩
    rw [Fla.holds] at h
    exact ⟨⟨ρ, h.1, e0, e1⟩, ⟨ρ, h.2, e0, e1⟩⟩
  · rintro ⟨⟨ρ, h, e0, e1⟩, h2⟩
    subst e0; subst e1
    exact ⟨ρ, ⟨h, (TS.rel_iff hg).1 h2⟩, rfl, rfl⟩

theorem shift_current_inj {x y : Var} (hx : x.isCurrent) (hy : y.isCurrent) {i j : Int} (h : shift i x = shift j y) :
    i = j ∧ x = y := by
  cases x <;> cases y <;> simp [shift, Var.isCurrent] at * <;> (subst hx; subst hy; refine ⟨by omega, by simp_all⟩)

theorem TS.varsAt_disjoint (hw : ts.WF) {i j : Int} (hij : i ≠ j) {x : Var} (hx : x ∈ ts.varsAt i) : x ∉ ts.varsAt j := by
  intro hj
  obtain ⟨y, hy, rfl⟩ := TS.mem_varsAt.1 hx
  obtain ⟨z, hz, e⟩ := TS.mem_varsAt.1 hj
  exact hij (shift_current_inj (hw.stateCur z hz) (hw.stateCur y hy) e).1.symm

theorem TS.varsAt_nodup (hw : ts.WF) (k : Int) : (ts.varsAt k).Nodup := by
  unfold TS.varsAt
  refine List.Nodup.map ?_ hw.nodup
  intro a b h; exact shift_inj h

/-- Moving the variables of one instant to another. -/
theorem TS.move_holds (hw : ts.WF) {f : Fla T} {a b c : Int} (hab : a ≠ b) (hf : ∀ x ∈ f.vars, x ∈ ts.varsAt a ∨ x ∈ ts.varsAt b)
    {ρ ρ' : Valuation T} (ha : ts.stateAt ρ' a = ts.stateAt ρ a) (hb : ts.stateAt ρ' b = ts.stateAt ρ c) :
    (varSubstitute f ((ts.varsAt b).zip ((ts.varsAt c).map Tm.var))).holds ρ ↔ f.holds ρ' := by
  rw [varSubstitute_holds]
  rw [TS.stateAt_congr] at ha hb
  refine Fla.holds_congr fun x hx => ?_
  rcases hf x hx with hm | hm
  · rw [SubstMap.fn_zip_notin (TS.varsAt_disjoint hw hab hm)]
    obtain ⟨y, hy, rfl⟩ := TS.mem_varsAt.1 hm
    exact (ha y hy).symm
  · obtain ⟨y, hy, rfl⟩ := TS.mem_varsAt.1 hm
    unfold TS.varsAt
    rw [SubstMap.fn_zip_map (TS.varsAt_nodup hw b) hy]
    exact (hb y hy).symm

theorem TS.move_vars (hw : ts.WF) {f : Fla T} {a b c : Int} (hab : a ≠ b) (hf : ∀ x ∈ f.vars, x ∈ ts.varsAt a ∨ x ∈ ts.varsAt b) :
    ∀ x ∈ (varSubstitute f ((ts.varsAt b).zip ((ts.varsAt c).map Tm.var))).vars, x ∈ ts.varsAt a ∨ x ∈ ts.varsAt c := by
  intro x hx
  unfold varSubstitute at hx
  rw [Fla.mem_vars_subst] at hx
  obtain ⟨z, hz, hx⟩ := hx
  rcases hf z hz with hm | hm
  · rw [SubstMap.fn_zip_notin (TS.varsAt_disjoint hw hab hm)] at hx
    simp [Tm.vars] at hx
    subst hx; exact .inl hm
  · obtain ⟨y, hy, rfl⟩ := TS.mem_varsAt.1 hm
    unfold TS.varsAt at hx
    rw [SubstMap.fn_zip_map (TS.varsAt_nodup hw b) hy] at hx
    simp [Tm.vars] at hx
    subst hx; exact .inr (TS.mem_varsAt.2 ⟨y, hy, rfl⟩)

/-- Any sequence of states has a valuation. -/
theorem TS.exists_val (hw : ts.WF) (ss : Nat → TS.State T) (hr : ∀ i, ts.Rep (ss i)) :
    ∃ ρ : Valuation T, ∀ i : Nat, ts.stateAt ρ i = ss i := by
  classical
  obtain ⟨v, hv⟩ : ∃ v : Nat → Valuation T, ∀ i, ts.stateVars.map (v i) = ss i :=
    ⟨fun i => (hr i).choose, fun i => (hr i).choose_spec⟩
  refine ⟨fun x => v x.time x.cur, fun i => (List.map_congr_left fun x hx => ?_).trans (hv i)⟩
  have hc := hw.stateCur x hx
  simp only [Var.cur_shift hc, Var.time_shift hc]

theorem TS.exists_val3 (hw : ts.WF) {a b c : TS.State T} (ha : ts.Rep a) (hb : ts.Rep b) (hc : ts.Rep c) :
    ∃ ρ : Valuation T, ts.stateAt ρ 0 = a ∧ ts.stateAt ρ 1 = b ∧ ts.stateAt ρ 2 = c := by
  obtain ⟨ρ, h⟩ := TS.exists_val hw (fun i => if i = 0 then a else if i = 1 then b else c)
    (fun i => by by_cases h0 : i = 0 <;> by_cases h1 : i = 1 <;> simp [*])
  exact ⟨ρ, by simpa using h 0, by simpa using h 1, by simpa using h 2⟩

/-- `shiftOnlyNextVars`: the relation between instants 0 and 2. -/
theorem TS.shiftNext_holds (hw : ts.WF) {f : Fla T} (hf : ts.PureTr f) {ρ : Valuation T} :
    (ts.shiftNext f).holds ρ ↔ ts.rel f (ts.stateAt ρ 0) (ts.stateAt ρ 2) := by
  obtain ⟨ρ', h0, h1, _⟩ := TS.exists_val3 hw (TS.rep_stateAt ts ρ 0) (TS.rep_stateAt ts ρ 2) (TS.rep_stateAt ts ρ 2)
  unfold TS.shiftNext
  rw [TS.move_holds hw (by decide) hf h0 h1, ← TS.rel_iff hf, h0, h1]

/-- `cleanInterpolant`: what relates instants 0 and 2 becomes a relation between 0 and 1. -/
theorem TS.cleanItp_pure (hw : ts.WF) {f : Fla T} (hf : ∀ x ∈ f.vars, x ∈ ts.varsAt 0 ∨ x ∈ ts.varsAt 2) :
    ts.PureTr (ts.cleanItp f) := TS.move_vars hw (by decide) hf

theorem TS.cleanItp_rel (hw : ts.WF) {f : Fla T} (hf : ∀ x ∈ f.vars, x ∈ ts.varsAt 0 ∨ x ∈ ts.varsAt 2) {ρ : Valuation T} :
    ts.rel (ts.cleanItp f) (ts.stateAt ρ 0) (ts.stateAt ρ 2) ↔ f.holds ρ := by
  obtain ⟨ρ', h0, h1, h2⟩ := TS.exists_val3 hw (TS.rep_stateAt ts ρ 0) (TS.rep_stateAt ts ρ 2) (TS.rep_stateAt ts ρ 2)
  rw [← h0, ← h1, TS.rel_iff (TS.cleanItp_pure hw hf)]
  unfold TS.cleanItp
  rw [TS.move_holds hw (by decide) hf h0.symm (by rw [h1])]

theorem TS.identity_pure : ts.PureTr ts.identity := by
  intro x hx
  unfold TS.identity at hx
  rw [Fla.mem_vars_conj] at hx
  obtain ⟨f, hf, hx⟩ := hx
  obtain ⟨y, hy, rfl⟩ := List.mem_map.1 hf
  simp [Fla.vars, Tm.vars] at hx
  rcases hx with rfl | rfl
  · exact .inl (TS.mem_varsAt.2 ⟨_, hy, by simp⟩)
  · exact .inr (TS.mem_varsAt.2 ⟨_, hy, rfl⟩)

theorem TS.identity_at {ρ : Valuation T} : ts.identity.holds ρ ↔ ts.stateAt ρ 0 = ts.stateAt ρ 1 := by
  rw [TS.stateAt_congr]
  unfold TS.identity
  rw [Fla.holds_conj]
  simp [Fla.holds, Tm.eval]

theorem TS.rel_identity (hw : ts.WF) {s t} : ts.rel ts.identity s t ↔ s = t ∧ ts.Rep s := by
  constructor
  · intro h
    have := (TS.rel_rep h).1
    obtain ⟨ρ, h, rfl, rfl⟩ := h
    exact ⟨TS.identity_at.1 h, this⟩
  · rintro ⟨rfl, hr⟩
    obtain ⟨ρ, h0, h1, _⟩ := TS.exists_val3 hw hr hr hr
    exact ⟨ρ, TS.identity_at.2 (h0.trans h1.symm), h0, h1⟩

theorem TS.den_rep {f : Fla T} {s} (h : ts.den f s) : ts.Rep s := by
  obtain ⟨ρ, _, e⟩ := h; exact ⟨ρ, e⟩

theorem TS.path_rep {n s t} (hs : ts.Rep s) (p : ts.sem.Path n s t) : ts.Rep t := TS.rep_path hs p

theorem TS.path_rep_pos {n s t} (hn : 0 < n) (p : ts.sem.Path n s t) : ts.Rep s ∧ ts.Rep t := by
  obtain ⟨m, rfl⟩ : ∃ m, n = m + 1 := ⟨n - 1, by omega⟩
  obtain ⟨u, hu, p'⟩ := p.uncons
  exact ⟨TS.rep_src hu, TS.rep_path (TS.rep_tgt hu) p'⟩

theorem purify_vars (f : Fla T) : (purify f).1.vars = f.vars := by
  induction f <;> simp_all [purify, Fla.vars]

theorem Lit.fla_vars (l : Lit T) : (Lit.fla l).vars = l.1.vars := by
  unfold Lit.fla; split <;> simp [Fla.vars]

theorem junctArgs_vars {J : Junction} {l : Lit T} {args : List (Lit T)} (h : junctArgs J l = some args) :
    ∀ a ∈ args, ∀ x ∈ a.1.vars, x ∈ l.1.vars := by
  unfold junctArgs at h
  split at h <;> simp only [Option.some.injEq, reduceCtorEq] at h <;> subst h <;>
    · intro a ha x hx
      simp only [List.mem_cons, List.not_mem_nil, or_false] at ha
      simp only [Fla.vars, List.mem_append]
      rcases ha with rfl | rfl <;> rw [purify_vars] at hx
      · exact .inl hx
      · exact .inr hx

theorem junctLoop_vars {J : Junction} {vs : List Var} (queue dup : List (Lit T)) (res : List (Fla T))
    (hq : ∀ l ∈ queue, ∀ x ∈ l.1.vars, x ∈ vs) (hr : ∀ f ∈ res, ∀ x ∈ f.vars, x ∈ vs) :
    ∀ f ∈ junctLoop J (fun _ => true) queue dup res, ∀ x ∈ f.vars, x ∈ vs := by
  induction queue, dup, res using junctLoop.induct J (fun _ => true) with
  | case1 dup res => rw [junctLoop]; exact hr
  | case2 l q dup res hmem ih =>
    rw [junctLoop, if_pos hmem]; exact ih (fun l hl => hq l (by simp [hl])) hr
  | case3 l q dup res hmem args hargs ih =>
    rw [junctLoop, if_neg hmem]
    split
    · rename_i args' h
      rw [hargs] at h; cases h
      refine ih ?_ hr
      intro a ha x hx
      rcases List.mem_append.1 ha with ha | ha
      · exact hq l (by simp) x (junctArgs_vars hargs a (List.mem_reverse.1 ha) x hx)
      · exact hq a (by simp [ha]) x hx
    · rename_i h; rw [hargs] at h; cases h
  | case4 l q dup res hmem hargs ih =>
    rw [junctLoop, if_neg hmem]
    split
    · rename_i h; rw [hargs] at h; cases h
    · refine ih (fun l hl => hq l (by simp [hl])) ?_
      intro f hf
      simp at hf
      rcases hf with hf | rfl
      · exact hr f hf
      · rw [Lit.fla_vars]; exact hq l (by simp)

/-- Top-level conjuncts or disjuncts have no new variables. -/
theorem juncts_vars {J : Junction} {root f : Fla T} (h : f ∈ getTopLevelJuncts J root (fun _ => true)) :
    ∀ x ∈ f.vars, x ∈ root.vars :=
  junctLoop_vars [purify root] [] [] (by simp [purify_vars]) (by simp) f h

end Golem
