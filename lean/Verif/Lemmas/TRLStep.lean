import Verif.Lemmas.TRL
import Verif.Lemmas.LinearGraph
import Verif.Props.QE

/-! Lemmas for C66: projections, learned relations, blocking clauses. -/

namespace Golem

/-- The contract of model-based projection that the engine relies on (C35: the projection of integers has one internal name). -/
def MbpInt (M : Mbp LIA) : Prop := ∀ f vs, mbpTmp ∉ f.vars → mbpTmp ∉ vs → M.SoundAt f vs

theorem intMbp_int (isBool : Var → Bool) : MbpInt (intMbp isBool) := fun f vs h1 h2 => C35_int isBool f vs h1 h2

variable {ts : TS LIA} {M : Mbp LIA}

/-! ### Projection -/

theorem projectTo_spec (hM : MbpInt M) {f : Fla LIA} (hf : mbpTmp ∉ f.vars) {keep : List Var} {ρ : Valuation LIA} (h : f.holds ρ)
    {g : Fla LIA} (hg : projectTo M f keep ρ = some g) :
    g.holds ρ ∧ (∀ x ∈ g.vars, x ∈ f.vars ∧ x ∈ keep) ∧
    ∀ ρ' : Valuation LIA, g.holds ρ' → ∃ ρ'', (∀ x ∈ keep, ρ'' x = ρ' x) ∧ f.holds ρ'' := by
  simp only [projectTo, Option.bind_eq_bind, Option.bind_eq_some_iff, Option.pure_def, Option.some.injEq, Prod.exists] at hg
  obtain ⟨p, hp, n, hn, seen, lits, hc, rfl⟩ := hg
  obtain ⟨h1, h2, h3⟩ := C35_keepOnly (hM f _ hf (fun hx => hf (List.mem_filter.1 hx).1)) ρ p h hp
  obtain ⟨n', hn', -, heq⟩ := C29_nnf p
  rw [hn] at hn'
  obtain rfl := Option.some.inj hn'
  have hv := toNNF_vars hn
  have hok := collect_spec ((heq ρ).2 h1) (fun g hg => by cases hg) hc
  refine ⟨?_, fun x hx => ?_, fun ρ' h' => ?_⟩
  · rw [Fla.holds_conj]
    intro f hf
    obtain ⟨l, hl, rfl⟩ := List.mem_map.1 (List.mem_filter.1 hf).1
    rcases hok.new l hl with h | h
    · cases h
    · exact h.1
  · obtain ⟨f, hf, hx⟩ := Fla.mem_vars_conj.1 hx
    obtain ⟨l, hl, rfl⟩ := List.mem_map.1 (List.mem_filter.1 hf).1
    have hx' : x ∈ l.1.vars := by
      unfold Lit.fla at hx
      split at hx <;> exact hx
    rcases hok.new l hl with h | h
    · cases h
    · exact h2 x (hv x (h.2 x hx'))
  · refine h3 ρ' ((heq ρ').1 (hok.entails ρ' fun l hl => ?_))
    by_cases ht : Lit.fla l = .tt
    · rw [ht]; trivial
    · exact Fla.holds_conj.1 h' _ (List.mem_filter.2 ⟨List.mem_map.2 ⟨l, hl, rfl⟩, decide_eq_true ht⟩)

/-- Variables with a version. -/
def Var.versioned : Var → Prop
  | .ver _ _ => True
  | .src _ _ => True
  | _ => False

theorem versioned_of_isCurrent {x : Var} (h : x.isCurrent) : x.versioned := by
  cases x <;> simp_all [Var.isCurrent, Var.versioned]

theorem versioned_shift {x : Var} (h : x.versioned) (k : Int) : (shift k x).versioned := by
  cases x <;> simp_all [Var.versioned, shift]

theorem tmp_notin {f : Fla LIA} (h : ∀ x ∈ f.vars, x.versioned) : mbpTmp ∉ f.vars := fun hx => h _ hx

theorem relVars_versioned (hr : TrlReady ts) {r : Fla LIA} (h : RelVars ts r) : ∀ x ∈ r.vars, x.versioned := by
  intro x hx
  rcases h x hx with h | h | h
  · exact versioned_of_isCurrent (hr.wf.stateCur x h)
  · simp only [TS.nextVars, List.mem_map] at h
    obtain ⟨y, hy, rfl⟩ := h
    exact versioned_shift (versioned_of_isCurrent (hr.wf.stateCur y hy)) 1
  · exact versioned_of_isCurrent h.1

theorem sendFla_versioned {f : Fla LIA} (h : ∀ x ∈ f.vars, x.versioned) (k : Int) : ∀ x ∈ (sendFla f k).vars, x.versioned := by
  intro x hx
  obtain ⟨y, hy, rfl⟩ := mem_vars_sendFla.1 hx
  exact versioned_shift (h y hy) k

/-! ### Moving relations -/

theorem shift_state_inj (hw : ts.WF) {x y : Var} (hx : x ∈ ts.stateVars) (hy : y ∈ ts.stateVars) {i j : Int} (h : shift i x = shift j y) :
    x = y ∧ i = j := by
  have h1 := hw.stateCur x hx
  have h2 := hw.stateCur y hy
  cases x <;> cases y <;> simp_all [Var.isCurrent, shift]

theorem nodup_shift (hw : ts.WF) (k : Int) : (ts.stateVars.map (shift k)).Nodup :=
  (List.nodup_map_iff_inj_on hw.nodup).2 fun _ _ _ _ h => shift_inj h

theorem shiftTo_fn_state (hw : ts.WF) (a b : Nat) {y : Var} (hy : y ∈ ts.stateVars) :
    SubstMap.fn (T := LIA) (ts.stateVars.zip (ts.stateVars.map fun x => Tm.var (shift a x)) ++
      ts.nextVars.zip (ts.nextVars.map fun x => Tm.var (shift ((b : Int) - 1) x))) y = .var (shift a y) := by
  have := map_fn_zip (T := LIA) ts.stateVars (fun x => x) (shift a) (by simpa using hw.nodup) hy
    (ts.nextVars.zip (ts.nextVars.map fun x => Tm.var (shift ((b : Int) - 1) x)))
  simpa using this

theorem shiftTo_fn_next (hw : ts.WF) (a b : Nat) {y : Var} (hy : y ∈ ts.stateVars) :
    SubstMap.fn (T := LIA) (ts.stateVars.zip (ts.stateVars.map fun x => Tm.var (shift a x)) ++
      ts.nextVars.zip (ts.nextVars.map fun x => Tm.var (shift ((b : Int) - 1) x))) (shift 1 y) = .var (shift b y) := by
  have h1 := fn_zip_skip (T := LIA) ts.stateVars (fun x => x) (fun x => Tm.var (shift a x)) (x := shift 1 y)
    (fun n hn e => by
      have := shift_state_inj hw hn hy (i := 0) (j := 1) (by simpa using e)
      omega)
    (ts.nextVars.zip (ts.nextVars.map fun x => Tm.var (shift ((b : Int) - 1) x)))
  simp only [List.map_id'] at h1
  rw [h1]
  have h2 := map_fn_zip (T := LIA) ts.stateVars (shift 1) (fun x => shift ((b : Int) - 1) (shift 1 x)) (nodup_shift hw 1) hy []
  rw [List.append_nil] at h2
  unfold TS.nextVars
  rw [List.map_map]
  rw [show ((fun x => Tm.var (T := LIA) (shift ((b : Int) - 1) x)) ∘ shift 1) = fun x => Tm.var (shift ((b : Int) - 1) (shift 1 x)) from rfl, h2,
    shift_shift, show (1 : Int) + ((b : Int) - 1) = b by omega]

theorem unshift_fn_state (hw : ts.WF) (b : Nat) {y : Var} (hy : y ∈ ts.stateVars) :
    SubstMap.fn (T := LIA) ((ts.stateVars.map (shift ((0 : Nat) : Int))).zip (ts.stateVars.map Tm.var) ++
      (ts.nextVars.map (shift ((b : Int) - 1))).zip (ts.nextVars.map Tm.var)) y = .var y := by
  have := map_fn_zip (T := LIA) ts.stateVars (fun x => x) (fun x => x) (by simpa using hw.nodup) hy
    ((ts.nextVars.map (shift ((b : Int) - 1))).zip (ts.nextVars.map Tm.var))
  have e : ts.stateVars.map (shift ((0 : Nat) : Int)) = ts.stateVars := by
    conv_rhs => rw [← List.map_id' ts.stateVars]
    exact List.map_congr_left fun x _ => shift_zero x
  rw [e]
  simpa using this

theorem unshift_fn_next (hw : ts.WF) {b : Nat} (hb : 0 < b) {y : Var} (hy : y ∈ ts.stateVars) :
    SubstMap.fn (T := LIA) ((ts.stateVars.map (shift ((0 : Nat) : Int))).zip (ts.stateVars.map Tm.var) ++
      (ts.nextVars.map (shift ((b : Int) - 1))).zip (ts.nextVars.map Tm.var)) (shift b y) = .var (shift 1 y) := by
  have h1 := fn_zip_skip (T := LIA) ts.stateVars (shift ((0 : Nat) : Int)) Tm.var (x := shift b y)
    (fun n hn e => by
      have := shift_state_inj hw hn hy e
      omega)
    ((ts.nextVars.map (shift ((b : Int) - 1))).zip (ts.nextVars.map Tm.var))
  rw [h1]
  have h2 := map_fn_zip (T := LIA) ts.stateVars (fun x => shift ((b : Int) - 1) (shift 1 x)) (shift 1) (by
    have := nodup_shift hw ((b : Int))
    refine (List.nodup_map_iff_inj_on hw.nodup).2 fun x _ y _ h => shift_inj (shift_inj h)) hy []
  rw [List.append_nil] at h2
  unfold TS.nextVars
  rw [List.map_map, List.map_map]
  rw [shift_shift, show (1 : Int) + ((b : Int) - 1) = b by omega] at h2
  exact h2

theorem unshift_fn_other (b : Nat) {x : Var} (h : ∀ y ∈ ts.stateVars, ∀ k, x ≠ shift k y) :
    SubstMap.fn (T := LIA) ((ts.stateVars.map (shift ((0 : Nat) : Int))).zip (ts.stateVars.map Tm.var) ++
      (ts.nextVars.map (shift ((b : Int) - 1))).zip (ts.nextVars.map Tm.var)) x = .var x := by
  have h1 := fn_zip_skip (T := LIA) ts.stateVars (shift ((0 : Nat) : Int)) Tm.var (x := x)
    (fun n hn e => h n hn _ e.symm)
    ((ts.nextVars.map (shift ((b : Int) - 1))).zip (ts.nextVars.map Tm.var))
  rw [h1]
  have h2 := fn_zip_skip (T := LIA) ts.nextVars (shift ((b : Int) - 1)) Tm.var (x := x)
    (fun n hn e => by
      simp only [TS.nextVars, List.mem_map] at hn
      obtain ⟨y, hy, rfl⟩ := hn
      rw [shift_shift] at e
      exact h y hy _ e.symm) []
  rw [List.append_nil] at h2
  rw [h2]
  rfl

/-! ### Blocking clauses -/

theorem blockingClause_spec (hr : TrlReady ts) {V : TrlEnv} (hM : MbpInt V.M) {l : TrlLoop} (hlen : 0 < l.len) {r : Fla LIA}
    (hv : RelVars ts r) {ρ : Valuation LIA} (hρ : r.holds ρ) {c : Fla LIA} (hc : computeBlockingClause V ts l r ρ = some c) :
    (∀ x ∈ c.vars, (∃ y ∈ ts.stateVars, ∃ m : Nat, m ≤ l.start + l.len ∧ x = shift m y) ∨ x = shift l.start trlIdx) ∧
    (∀ σ : Valuation LIA, ¬ c.holds σ → RelSem ts r (ts.stateAt σ l.start) (ts.stateAt σ ((l.start + l.len : Nat) : Int)) ∧
      (l.len = 1 → (σ (shift l.start trlIdx) : Int) ≤ 0)) ∧
    ∀ σ : Valuation LIA, ts.stateAt σ l.start = ts.stateVars.map ρ → ts.stateAt σ ((l.start + l.len : Nat) : Int) = ts.nextVars.map ρ →
      (l.len = 1 → (σ (shift l.start trlIdx) : Int) ≤ 0) → ¬ c.holds σ := by
  simp only [computeBlockingClause, trlProject, Option.bind_eq_bind, Option.bind_eq_some_iff, Option.pure_def, Option.some.injEq] at hc
  obtain ⟨p, hp, rfl⟩ := hc
  obtain ⟨h1, h2, h3⟩ := projectTo_spec hM (tmp_notin (relVars_versioned hr hv)) hρ hp
  have e0 : (ts.stateVars ++ ts.nextVars).map (shift ((0 : Nat) : Int)) = ts.stateVars ++ ts.nextVars := by
    conv_rhs => rw [← List.map_id' (ts.stateVars ++ ts.nextVars)]
    exact List.map_congr_left fun x _ => shift_zero x
  rw [e0] at h2 h3
  -- the shifted projection
  have hsh : ∀ σ : Valuation LIA, (trlShiftTo ts (.not p) l.start (l.start + l.len)).holds σ ↔ ¬ p.holds (fun x =>
      (SubstMap.fn (T := LIA) (ts.stateVars.zip (ts.stateVars.map fun x => Tm.var (shift l.start x)) ++
      ts.nextVars.zip (ts.nextVars.map fun x => Tm.var (shift (((l.start + l.len : Nat) : Int) - 1) x))) x).eval σ) := by
    intro σ
    unfold trlShiftTo
    rw [varSubstitute_holds]
    rfl
  have hval : ∀ (σ : Valuation LIA), (ts.stateVars.map fun x =>
      (SubstMap.fn (T := LIA) (ts.stateVars.zip (ts.stateVars.map fun x => Tm.var (shift l.start x)) ++
      ts.nextVars.zip (ts.nextVars.map fun x => Tm.var (shift (((l.start + l.len : Nat) : Int) - 1) x))) x).eval σ) = ts.stateAt σ l.start := by
    intro σ
    refine List.map_congr_left fun y hy => ?_
    rw [shiftTo_fn_state hr.wf _ _ hy]; rfl
  have hval' : ∀ (σ : Valuation LIA), (ts.nextVars.map fun x =>
      (SubstMap.fn (T := LIA) (ts.stateVars.zip (ts.stateVars.map fun x => Tm.var (shift l.start x)) ++
      ts.nextVars.zip (ts.nextVars.map fun x => Tm.var (shift (((l.start + l.len : Nat) : Int) - 1) x))) x).eval σ) =
      ts.stateAt σ ((l.start + l.len : Nat) : Int) := by
    intro σ
    unfold TS.nextVars
    rw [List.map_map]
    refine List.map_congr_left fun y hy => ?_
    have := shiftTo_fn_next hr.wf l.start (l.start + l.len) hy
    unfold TS.nextVars at this
    simp only [Function.comp]
    rw [this]; rfl
  have hviol : ∀ σ : Valuation LIA, ¬ (trlShiftTo ts (.not p) l.start (l.start + l.len)).holds σ →
      RelSem ts r (ts.stateAt σ l.start) (ts.stateAt σ ((l.start + l.len : Nat) : Int)) := by
    intro σ hσ
    rw [hsh, Classical.not_not] at hσ
    obtain ⟨ρ'', hag, hh⟩ := h3 _ hσ
    refine ⟨ρ'', hh, ?_, ?_⟩
    · rw [← hval σ]
      exact List.map_congr_left fun x hx => hag x (List.mem_append_left _ hx)
    · rw [← hval' σ]
      exact List.map_congr_left fun x hx => hag x (List.mem_append_right _ hx)
  have hconv : ∀ σ : Valuation LIA, ts.stateAt σ l.start = ts.stateVars.map ρ → ts.stateAt σ ((l.start + l.len : Nat) : Int) = ts.nextVars.map ρ →
      ¬ (trlShiftTo ts (.not p) l.start (l.start + l.len)).holds σ := by
    intro σ e1 e2
    rw [hsh, Classical.not_not]
    refine (Fla.holds_congr fun x hx => ?_).1 h1
    have hk := (h2 x hx).2
    rw [← hval σ] at e1
    rw [← hval' σ] at e2
    rcases List.mem_append.1 hk with hk | hk
    · exact (List.map_inj_left.1 e1 x hk).symm
    · exact (List.map_inj_left.1 e2 x hk).symm
  have hvars : ∀ x ∈ (trlShiftTo ts (.not p) l.start (l.start + l.len)).vars, ∃ y ∈ ts.stateVars, ∃ m : Nat, m ≤ l.start + l.len ∧ x = shift m y := by
    intro x hx
    unfold trlShiftTo varSubstitute at hx
    obtain ⟨z, hz, hxz⟩ := Fla.mem_vars_subst.1 hx
    have hz' : z ∈ p.vars := hz
    rcases List.mem_append.1 (h2 z hz').2 with hk | hk
    · rw [shiftTo_fn_state hr.wf _ _ hk] at hxz
      simp only [Tm.vars, List.mem_singleton] at hxz
      exact ⟨z, hk, l.start, by omega, hxz⟩
    · simp only [TS.nextVars, List.mem_map] at hk
      obtain ⟨y, hy, rfl⟩ := hk
      rw [shiftTo_fn_next hr.wf _ _ hy] at hxz
      simp only [Tm.vars, List.mem_singleton] at hxz
      exact ⟨y, hy, l.start + l.len, Nat.le_refl _, hxz⟩
  have hpos : ∀ σ : Valuation LIA, (trlPos (shift l.start trlIdx)).holds σ ↔ 0 < (σ (shift l.start trlIdx) : Int) := by
    intro σ
    simp only [trlPos, Fla.holds, Tm.eval]
    by_cases h : (σ (shift l.start trlIdx) : Int) ≤ 0
    · simp [h]
    · simp only [h]
      exact ⟨fun _ => Int.not_le.1 h, fun _ => by simp⟩
  split
  · rename_i hone
    refine ⟨fun x hx => ?_, fun σ hσ => ?_, fun σ e1 e2 e3 hσ => ?_⟩
    · simp only [Fla.vars, trlPos, Tm.vars, List.mem_append, List.mem_singleton, List.not_mem_nil, or_false] at hx
      rcases hx with hx | hx
      · exact .inl (hvars x hx)
      · exact .inr hx
    · simp only [Fla.holds, not_or] at hσ
      exact ⟨hviol σ hσ.1, fun _ => Int.not_lt.1 fun h => hσ.2 ((hpos σ).2 h)⟩
    · rcases hσ with hσ | hσ
      · exact hconv σ e1 e2 hσ
      · exact absurd ((hpos σ).1 hσ) (Int.not_lt.2 (e3 hone))
  · rename_i hone
    exact ⟨fun x hx => .inl (hvars x hx), fun σ hσ => ⟨hviol σ hσ, fun h => absurd h hone⟩, fun σ e1 e2 _ => hconv σ e1 e2⟩

/-! ### Learned relations -/

theorem backVar_eval (ds : List (Nat × Var × Var)) (θ : Valuation LIA) (x : Var) : (trlBackVar ds x).eval θ = trlExtend ds θ x := by
  unfold trlBackVar trlExtend
  cases ds.find? fun d => decide (trlDiff d.1 = x) <;> simp

theorem back_eval (ds : List (Nat × Var × Var)) (p : Poly Int) (θ : Valuation LIA) :
    (trlBack ds p).eval θ = (p.vars.map fun x => p.coeff x * (trlExtend ds θ x : Int)).sum := by
  unfold trlBack Poly.norm
  induction p.vars with
  | nil => simp
  | cons x xs ih =>
    simp only [List.map_cons, List.foldr_cons, List.sum_cons, Poly.eval_add] at ih ⊢
    rw [ih, Poly.eval_smul, backVar_eval]

theorem back_coeff {ds : List (Nat × Var × Var)} {p : Poly Int} (hall : (p.vars.all fun x => ds.any fun d => decide (trlDiff d.1 = x)) = true)
    {x : Var} (h : (trlBack ds p).coeff x ≠ 0) : ∃ d ∈ ds, x = d.2.1 ∨ x = d.2.2 := by
  unfold trlBack Poly.norm at h
  simp only at h
  generalize hvs : p.vars = vs at *
  clear hvs
  induction vs with
  | nil => simp at h
  | cons y ys ih =>
    simp only [List.map_cons, List.foldr_cons, Poly.coeff_add, List.all_cons, Bool.and_eq_true] at h hall
    by_cases h0 : (List.foldr (fun (m : Var × Int) q => (Poly.smul m.2 (trlBackVar ds m.1)).add q) (.const 0)
        (ys.map fun x => (x, p.coeff x))).coeff x = 0
    · rw [h0, add_zero, Poly.coeff_smul] at h
      have h := right_ne_zero_of_mul h
      unfold trlBackVar at h
      cases hf : ds.find? fun d => decide (trlDiff d.1 = y) with
      | none =>
        obtain ⟨d, hd, he⟩ := List.any_eq_true.1 hall.1
        exact absurd he (by simpa using List.find?_eq_none.1 hf d hd)
      | some d =>
        rw [hf] at h
        refine ⟨d, List.mem_of_find?_eq_some hf, ?_⟩
        simp only [Poly.coeff_sub, Poly.coeff_ofVar] at h
        by_cases e1 : d.2.1 = x
        · exact .inl e1.symm
        · by_cases e2 : d.2.2 = x
          · exact .inr e2.symm
          · simp [e1, e2] at h
    · exact ih hall.2 h0

/-- A recurrent literal: its variables, its meaning, and that it adds up. -/
theorem recurrent_spec {ds : List (Nat × Var × Var)} {n : Var} {f g : Fla LIA} (h : recurrentLit ds n f = some g) :
    (∀ x ∈ g.vars, x = n ∨ ∃ d ∈ ds, x = d.2.1 ∨ x = d.2.2) ∧
    (∀ θ ρ : Valuation LIA, (θ n : Int) = 1 → (∀ d ∈ ds, (θ d.2.1 : Int) - θ d.2.2 = (ρ d.2.1 : Int) - ρ d.2.2) →
      (g.holds θ ↔ f.holds (trlExtend ds ρ))) ∧
    ∀ θ₁ θ₂ θ : Valuation LIA, (θ n : Int) = θ₁ n + θ₂ n →
      (∀ d ∈ ds, (θ d.2.1 : Int) - θ d.2.2 = ((θ₁ d.2.1 : Int) - θ₁ d.2.2) + ((θ₂ d.2.1 : Int) - θ₂ d.2.2)) →
      g.holds θ₁ → g.holds θ₂ → g.holds θ := by
  have key : ∀ p : Poly Int, (p.vars.all fun x => ds.any fun d => decide (trlDiff d.1 = x)) = true →
      (∀ x, ((trlBack ds p).add (.smul p.k (.ofVar n))).coeff x ≠ 0 → x = n ∨ ∃ d ∈ ds, x = d.2.1 ∨ x = d.2.2) ∧
      (∀ θ ρ : Valuation LIA, (θ n : Int) = 1 → (∀ d ∈ ds, (θ d.2.1 : Int) - θ d.2.2 = (ρ d.2.1 : Int) - ρ d.2.2) →
        ((trlBack ds p).add (.smul p.k (.ofVar n))).eval θ = p.eval (trlExtend ds ρ)) ∧
      (∀ θ₁ θ₂ θ : Valuation LIA, (θ n : Int) = θ₁ n + θ₂ n →
        (∀ d ∈ ds, (θ d.2.1 : Int) - θ d.2.2 = ((θ₁ d.2.1 : Int) - θ₁ d.2.2) + ((θ₂ d.2.1 : Int) - θ₂ d.2.2)) →
        ((trlBack ds p).add (.smul p.k (.ofVar n))).eval θ =
          ((trlBack ds p).add (.smul p.k (.ofVar n))).eval θ₁ + ((trlBack ds p).add (.smul p.k (.ofVar n))).eval θ₂) := by
    intro p hall
    refine ⟨fun x hx => ?_, fun θ ρ h1 hd => ?_, fun θ₁ θ₂ θ hn hd => ?_⟩
    · rw [Poly.coeff_add, Poly.coeff_smul, Poly.coeff_ofVar] at hx
      by_cases e : n = x
      · exact .inl e.symm
      · refine .inr (back_coeff hall ?_)
        simpa [e] using hx
    · rw [Poly.eval_add, Poly.eval_smul, Poly.eval_ofVar, back_eval, ← Poly.eval_norm p]
      unfold Poly.eval Poly.norm
      simp only [List.map_map]
      rw [show (θ n : Int) = 1 from h1, mul_one]
      congr 2
      refine List.map_congr_left fun x hx => ?_
      obtain ⟨d, hdm, he⟩ := List.any_eq_true.1 (List.all_eq_true.1 hall x hx)
      simp only [Function.comp]
      congr 1
      unfold trlExtend
      cases hf : ds.find? fun d => decide (trlDiff d.1 = x) with
      | none => exact absurd he (by simpa using List.find?_eq_none.1 hf d hdm)
      | some d' => exact hd d' (List.mem_of_find?_eq_some hf)
    · simp only [Poly.eval_add, Poly.eval_smul, Poly.eval_ofVar]
      have hs : (p.vars.map fun x => p.coeff x * (trlExtend ds θ x : Int)).sum =
          (p.vars.map fun x => p.coeff x * trlExtend ds θ₁ x).sum + (p.vars.map fun x => p.coeff x * trlExtend ds θ₂ x).sum := by
        rw [← List.sum_map_add]
        congr 1
        refine List.map_congr_left fun x hx => ?_
        obtain ⟨d, hdm, he⟩ := List.any_eq_true.1 (List.all_eq_true.1 hall x hx)
        unfold trlExtend
        cases hf : ds.find? fun d => decide (trlDiff d.1 = x) with
        | none => exact absurd he (by simpa using List.find?_eq_none.1 hf d hdm)
        | some d' =>
          simp only
          rw [hd d' (List.mem_of_find?_eq_some hf)]
          ring
      rw [back_eval, back_eval, back_eval, hs, show (θ n : Int) = θ₁ n + θ₂ n from hn]
      ring
  unfold recurrentLit at h
  split at h
  · rename_i p hp
    split at h
    · rename_i hall
      obtain rfl := Option.some.inj h
      obtain ⟨k1, k2, k3⟩ := key p hall
      have hparse := (MAtom.parse_spec hp).1
      refine ⟨fun x hx => k1 x ?_, fun θ ρ h1 hd => ?_, fun θ₁ θ₂ θ hn hd h1 h2 => ?_⟩
      · exact MLit.fla_vars (md := fun a b => a % b) (l := (.eq ((trlBack ds p).add (.smul p.k (.ofVar n))), true)) hx
      · rw [MAtom.fla_holds, ← hparse]
        simp only [MAtom.Holds]
        rw [k2 θ ρ h1 hd]
      · rw [MAtom.fla_holds] at h1 h2 ⊢
        simp only [MAtom.Holds] at h1 h2 ⊢
        rw [k3 θ₁ θ₂ θ hn hd, h1, h2]; rfl
    · cases h
  · rename_i p hp
    split at h
    · rename_i hall
      obtain rfl := Option.some.inj h
      obtain ⟨k1, k2, k3⟩ := key p hall
      have hparse := (MAtom.parse_spec hp).1
      refine ⟨fun x hx => k1 x ?_, fun θ ρ h1 hd => ?_, fun θ₁ θ₂ θ hn hd h1 h2 => ?_⟩
      · exact MLit.fla_vars (md := fun a b => a % b) (l := (.leq ((trlBack ds p).add (.smul p.k (.ofVar n))), true)) hx
      · rw [MAtom.fla_holds, ← hparse]
        simp only [MAtom.Holds]
        rw [k2 θ ρ h1 hd]
      · rw [MAtom.fla_holds] at h1 h2 ⊢
        simp only [MAtom.Holds] at h1 h2 ⊢
        rw [k3 θ₁ θ₂ θ hn hd]
        exact Int.add_nonneg h1 h2
    · cases h
  · cases h


theorem pos_holds (x : Var) (σ : Valuation LIA) : (trlPos x).holds σ ↔ 0 < (σ x : Int) := by
  simp only [trlPos, Fla.holds, Tm.eval]
  by_cases h : (σ x : Int) ≤ 0
  · simp [h]
  · simp only [h]
    exact ⟨fun _ => Int.not_le.1 h, fun _ => by simp⟩

theorem pos_vars (x : Var) : (trlPos x).vars = [x] := rfl

theorem diffs_spec {V : TrlEnv} {l : TrlLoop} {d : Nat × Var × Var} (h : d ∈ trlDiffs V ts l) :
    ∃ y ∈ ts.stateVars, d.2.1 = shift ((l.start + l.len : Nat) : Int) y ∧ d.2.2 = shift l.start y := by
  simp only [trlDiffs, List.mem_map, List.mem_filter] at h
  obtain ⟨p, ⟨hp, -⟩, rfl⟩ := h
  exact ⟨p.1, (List.mem_zipIdx_iff_getElem?.1 hp |> List.mem_of_getElem?), rfl, rfl⟩

/-- What `transitiveProjection` returns, before it is moved to time zero. -/
structure Projection (ts : TS LIA) (l : TrlLoop) (c : Nat) (ρ : Valuation LIA) (F : Fla LIA) : Prop where
  vars : ∀ x ∈ F.vars, (∃ y ∈ ts.stateVars, x = shift l.start y) ∨ (∃ y ∈ ts.stateVars, x = shift ((l.start + l.len : Nat) : Int) y) ∨
    x = shift l.start (trlCounter c)
  compose : ∀ θ₁ θ₂ θ : Valuation LIA, (θ (shift l.start (trlCounter c)) : Int) = θ₁ (shift l.start (trlCounter c)) + θ₂ (shift l.start (trlCounter c)) →
    ts.stateAt θ l.start = ts.stateAt θ₁ l.start → ts.stateAt θ₁ ((l.start + l.len : Nat) : Int) = ts.stateAt θ₂ l.start →
    ts.stateAt θ ((l.start + l.len : Nat) : Int) = ts.stateAt θ₂ ((l.start + l.len : Nat) : Int) → F.holds θ₁ → F.holds θ₂ → F.holds θ
  once : ∀ θ : Valuation LIA, (θ (shift l.start (trlCounter c)) : Int) = 1 → ts.stateAt θ l.start = ts.stateAt ρ l.start →
    ts.stateAt θ ((l.start + l.len : Nat) : Int) = ts.stateAt ρ ((l.start + l.len : Nat) : Int) → F.holds θ

theorem extended_tmp (hr : TrlReady ts) (V : TrlEnv) (l : TrlLoop) {f : Fla LIA} (hf : ∀ x ∈ f.vars, x.versioned) :
    mbpTmp ∉ (Fla.and f (Fla.conj ((trlDiffs V ts l).map fun d => (MAtom.eq ((Poly.ofVar (trlDiff d.1)).sub ((Poly.ofVar d.2.1).sub (.ofVar d.2.2)))).fla))).vars := by
  intro hx
  simp only [Fla.vars, List.mem_append] at hx
  rcases hx with hx | hx
  · exact hf _ hx
  · obtain ⟨g, hg, hx⟩ := Fla.mem_vars_conj.1 hx
    obtain ⟨d, hd, rfl⟩ := List.mem_map.1 hg
    have hx := MLit.fla_vars (md := fun a b => a % b)
      (l := (.eq ((Poly.ofVar (trlDiff d.1)).sub ((Poly.ofVar d.2.1).sub (.ofVar d.2.2))), true)) hx
    simp only [MLit.Has, MAtom.poly, Poly.coeff_sub, Poly.coeff_ofVar] at hx
    obtain ⟨y, hy, q1, q2⟩ := diffs_spec hd
    have hc := versioned_of_isCurrent (hr.wf.stateCur y hy)
    rw [if_neg (by simp [trlDiff, mbpTmp]), if_neg, if_neg] at hx
    · simp at hx
    · rw [q2]; intro e
      have := versioned_shift hc l.start
      rw [e] at this
      exact this
    · rw [q1]; intro e
      have := versioned_shift hc ((l.start + l.len : Nat) : Int)
      rw [e] at this
      exact this

theorem extended_holds (hr : TrlReady ts) (V : TrlEnv) (l : TrlLoop) {f : Fla LIA} (hf : ∀ x ∈ f.vars, x.versioned) {ρ : Valuation LIA} (hρ : f.holds ρ) :
    (Fla.and f (Fla.conj ((trlDiffs V ts l).map fun d => (MAtom.eq ((Poly.ofVar (trlDiff d.1)).sub ((Poly.ofVar d.2.1).sub (.ofVar d.2.2)))).fla))).holds (trlExtend (trlDiffs V ts l) ρ) := by
  have hext : ∀ x : Var, x.versioned → trlExtend (trlDiffs V ts l) ρ x = ρ x := by
    intro x hx
    unfold trlExtend
    cases hf : (trlDiffs V ts l).find? fun d => decide (trlDiff d.1 = x) with
    | none => rfl
    | some d =>
      have := List.find?_some hf
      simp only [decide_eq_true_eq] at this
      rw [← this] at hx
      exact hx.elim
  refine ⟨(Fla.holds_congr fun x hx => (hext x (hf x hx)).symm).1 hρ, ?_⟩
  rw [Fla.holds_conj]
  intro g hg
  obtain ⟨d, hd, rfl⟩ := List.mem_map.1 hg
  obtain ⟨y, hy, q1, q2⟩ := diffs_spec hd
  have hc := versioned_of_isCurrent (hr.wf.stateCur y hy)
  rw [MAtom.fla_holds]
  simp only [MAtom.Holds, Poly.eval_sub, Poly.eval_ofVar]
  rw [hext d.2.1 (q1 ▸ versioned_shift hc _), hext d.2.2 (q2 ▸ versioned_shift hc _)]
  have : trlExtend (trlDiffs V ts l) ρ (trlDiff d.1) = (ρ d.2.1 : Int) - ρ d.2.2 := by
    unfold trlExtend
    cases hf : (trlDiffs V ts l).find? fun d' => decide (trlDiff d'.1 = trlDiff d.1) with
    | none => exact absurd (decide_eq_true rfl) (List.find?_eq_none.1 hf d hd)
    | some d' =>
      have h1 := List.find?_some hf
      simp only [trlDiff, decide_eq_true_eq, Var.base.injEq, Name.trlDiff.injEq] at h1
      have : d' = d := by
        have h2 := List.mem_of_find?_eq_some hf
        simp only [trlDiffs, List.mem_map, List.mem_filter] at h2 hd
        obtain ⟨p, ⟨hp, -⟩, rfl⟩ := h2
        obtain ⟨q, ⟨hq, -⟩, rfl⟩ := hd
        simp only at h1
        have a1 := List.mem_zipIdx_iff_getElem?.1 hp
        have a2 := List.mem_zipIdx_iff_getElem?.1 hq
        rw [h1, a2] at a1
        rw [h1, Option.some.inj a1]
      rw [this]
  rw [this]
  exact Int.sub_self _

theorem transitiveProjection_spec (hr : TrlReady ts) {V : TrlEnv} (hM : MbpInt V.M) {c : Nat} {f : Fla LIA} (hf : ∀ x ∈ f.vars, x.versioned)
    {ρ : Valuation LIA} (hρ : f.holds ρ) {l : TrlLoop} {p : Fla LIA} (h : transitiveProjection V ts c f ρ l = some p) :
    ∃ F, Projection ts l c ρ F ∧ p = sendFla F (-(l.start : Int)) := by
  simp only [transitiveProjection, Option.bind_eq_bind, Option.bind_eq_some_iff, Option.pure_def, Option.some.injEq] at h
  obtain ⟨pr, hpr, pb, hpb, pe, hpe, rfl⟩ := h
  obtain ⟨b1, b2, -⟩ := projectTo_spec hM (tmp_notin hf) hρ hpb
  obtain ⟨e1, e2, -⟩ := projectTo_spec hM (tmp_notin hf) hρ hpe
  have hprj : pr.holds (trlExtend (trlDiffs V ts l) ρ) :=
    (projectTo_spec hM (extended_tmp hr V l hf) (extended_holds hr V l hf hρ) hpr).1
  refine ⟨_, ⟨fun x hx => ?_, fun θ₁ θ₂ θ hn h0 h1 h2 hF1 hF2 => ?_, fun θ hn h0 h1 => ?_⟩, rfl⟩
  · replace hx := Fla.mem_vars_conj.1 hx
    obtain ⟨g, hg, hx⟩ := hx
    simp only [List.mem_cons, List.not_mem_nil, or_false] at hg
    rcases hg with rfl | rfl | rfl | rfl
    · rw [pos_vars, List.mem_singleton] at hx
      exact .inr (.inr hx)
    · obtain ⟨g, hg, hx⟩ := Fla.mem_vars_conj.1 hx
      obtain ⟨a, -, ha⟩ := List.mem_filterMap.1 hg
      rcases (recurrent_spec ha).1 x hx with h | ⟨d, hd, h⟩
      · exact .inr (.inr h)
      · obtain ⟨y, hy, q1, q2⟩ := diffs_spec hd
        rcases h with h | h
        · exact .inr (.inl ⟨y, hy, h.trans q1⟩)
        · exact .inl ⟨y, hy, h.trans q2⟩
    · obtain ⟨y, hy, he⟩ := List.mem_map.1 (b2 x hx).2
      exact .inl ⟨y, hy, he.symm⟩
    · obtain ⟨y, hy, he⟩ := List.mem_map.1 (e2 x hx).2
      exact .inr (.inl ⟨y, hy, he.symm⟩)
  · rw [Fla.holds_conj] at hF1 hF2 ⊢
    simp only [List.mem_cons, List.not_mem_nil, or_false, forall_eq_or_imp, forall_eq] at hF1 hF2 ⊢
    refine ⟨?_, ?_, ?_, ?_⟩
    · rw [pos_holds, hn]
      exact Int.add_pos ((pos_holds _ _).1 hF1.1) ((pos_holds _ _).1 hF2.1)
    · rw [Fla.holds_conj]
      intro g hg
      obtain ⟨a, -, ha⟩ := List.mem_filterMap.1 hg
      refine (recurrent_spec ha).2.2 θ₁ θ₂ θ hn (fun d hd => ?_) (Fla.holds_conj.1 hF1.2.1 g hg) (Fla.holds_conj.1 hF2.2.1 g hg)
      obtain ⟨y, hy, q1, q2⟩ := diffs_spec hd
      rw [q1, q2]
      have a0 := List.map_inj_left.1 h0 y hy
      have a1 := List.map_inj_left.1 h1 y hy
      have a2 := List.map_inj_left.1 h2 y hy
      rw [a0, a2, ← a1]
      ring
    · refine (Fla.holds_congr fun x hx => ?_).1 hF1.2.2.1
      obtain ⟨y, hy, rfl⟩ := List.mem_map.1 (b2 x hx).2
      exact (List.map_inj_left.1 h0 y hy).symm
    · refine (Fla.holds_congr fun x hx => ?_).1 hF2.2.2.2
      obtain ⟨y, hy, rfl⟩ := List.mem_map.1 (e2 x hx).2
      exact (List.map_inj_left.1 h2 y hy).symm

  · rw [Fla.holds_conj]
    simp only [List.mem_cons, List.not_mem_nil, or_false, forall_eq_or_imp, forall_eq]
    refine ⟨?_, ?_, ?_, ?_⟩
    · rw [pos_holds, hn]; exact Int.one_pos
    · rw [Fla.holds_conj]
      intro g hg
      obtain ⟨a, ha0, ha⟩ := List.mem_filterMap.1 hg
      refine ((recurrent_spec ha).2.1 θ ρ hn (fun d hd => ?_)).2 (((C31_juncts_recompose .conj pr _).2 hprj) a ha0)
      obtain ⟨y, hy, q1, q2⟩ := diffs_spec hd
      rw [q1, q2, List.map_inj_left.1 h0 y hy, List.map_inj_left.1 h1 y hy]
    · refine (Fla.holds_congr fun x hx => ?_).1 b1
      obtain ⟨y, hy, rfl⟩ := List.mem_map.1 (b2 x hx).2
      exact (List.map_inj_left.1 h0 y hy).symm
    · refine (Fla.holds_congr fun x hx => ?_).1 e1
      obtain ⟨y, hy, rfl⟩ := List.mem_map.1 (e2 x hx).2
      exact (List.map_inj_left.1 h1 y hy).symm

/-- The learned relation relates the states at the beginning and at the end of the loop. -/
theorem learned_sem (hr : TrlReady ts) {l : TrlLoop} (hlen : 0 < l.len) {c : Nat} {ρ₀ : Valuation LIA} {F : Fla LIA} (hF : Projection ts l c ρ₀ F) (a b : TS.State LIA) :
    RelSem ts (trlUnshiftFrom ts (sendFla F (-(l.start : Int))) 0 l.len) a b ↔
      ∃ θ : Valuation LIA, F.holds θ ∧ ts.stateAt θ l.start = a ∧ ts.stateAt θ ((l.start + l.len : Nat) : Int) = b := by
  have hcnt := hr.cnt c
  have key : ∀ ρ : Valuation LIA, (trlUnshiftFrom ts (sendFla F (-(l.start : Int))) 0 l.len).holds ρ ↔ F.holds fun x =>
      (SubstMap.fn (T := LIA) ((ts.stateVars.map (shift ((0 : Nat) : Int))).zip (ts.stateVars.map Tm.var) ++
      (ts.nextVars.map (shift ((l.len : Int) - 1))).zip (ts.nextVars.map Tm.var)) (shift (-(l.start : Int)) x)).eval ρ := by
    intro ρ
    unfold trlUnshiftFrom
    rw [varSubstitute_holds, sendFla_holds]
  have hs : ∀ (ρ : Valuation LIA) y, y ∈ ts.stateVars → (SubstMap.fn (T := LIA) ((ts.stateVars.map (shift ((0 : Nat) : Int))).zip (ts.stateVars.map Tm.var) ++
      (ts.nextVars.map (shift ((l.len : Int) - 1))).zip (ts.nextVars.map Tm.var)) (shift (-(l.start : Int)) (shift l.start y))).eval ρ = ρ y := by
    intro ρ y hy
    rw [shift_shift, show (l.start : Int) + -(l.start : Int) = 0 by omega, shift_zero, unshift_fn_state hr.wf _ hy]
    rfl
  have hn : ∀ (ρ : Valuation LIA) y, y ∈ ts.stateVars → (SubstMap.fn (T := LIA) ((ts.stateVars.map (shift ((0 : Nat) : Int))).zip (ts.stateVars.map Tm.var) ++
      (ts.nextVars.map (shift ((l.len : Int) - 1))).zip (ts.nextVars.map Tm.var)) (shift (-(l.start : Int)) (shift ((l.start + l.len : Nat) : Int) y))).eval ρ = ρ (shift 1 y) := by
    intro ρ y hy
    rw [shift_shift, show ((l.start + l.len : Nat) : Int) + -(l.start : Int) = l.len by omega, unshift_fn_next hr.wf hlen hy]
    rfl
  have hc : ∀ (ρ : Valuation LIA), (SubstMap.fn (T := LIA) ((ts.stateVars.map (shift ((0 : Nat) : Int))).zip (ts.stateVars.map Tm.var) ++
      (ts.nextVars.map (shift ((l.len : Int) - 1))).zip (ts.nextVars.map Tm.var)) (shift (-(l.start : Int)) (shift l.start (trlCounter c)))).eval ρ = ρ (trlCounter c) := by
    intro ρ
    rw [shift_shift, show (l.start : Int) + -(l.start : Int) = 0 by omega, shift_zero, unshift_fn_other]
    · rfl
    · intro y hy k e
      have h1 := hr.wf.stateCur y hy
      cases y <;> simp [trlCounter, shift, Var.isCurrent] at e h1
      obtain ⟨rfl, e⟩ := e
      subst h1
      exact hcnt.1 hy
  constructor
  · rintro ⟨ρ, h, rfl, rfl⟩
    refine ⟨_, (key ρ).1 h, List.map_congr_left fun y hy => hs ρ y hy, ?_⟩
    have e : ts.nextVars.map ρ = ts.stateVars.map fun y => ρ (shift 1 y) := by
      unfold TS.nextVars
      rw [List.map_map]; rfl
    rw [e]
    exact List.map_congr_left fun y hy => hn ρ y hy
  · rintro ⟨θ, h, rfl, rfl⟩
    let ρ : Valuation LIA := fun x => if x.cur ∈ ts.stateVars ∧ x.time = 1 then θ (shift ((l.start + l.len : Nat) : Int) x.cur) else θ (shift l.start x)
    have r0 : ∀ y ∈ ts.stateVars, ρ y = θ (shift l.start y) := by
      intro y hy
      have h0 : y.time = 0 := by
        have h1 := hr.wf.stateCur y hy
        have := Var.time_shift (x := y) h1 0
        rwa [show ((0 : Nat) : Int) = 0 from rfl, shift_zero] at this
      simp [ρ, h0]
    have r1 : ∀ y ∈ ts.stateVars, ρ (shift 1 y) = θ (shift ((l.start + l.len : Nat) : Int) y) := by
      intro y hy
      have h1 := hr.wf.stateCur y hy
      have h2 : (shift 1 y).time = 1 := Var.time_shift (x := y) h1 1
      have h3 := Var.cur_shift (x := y) h1 1
      simp only [ρ, h2, h3, hy, and_self, if_true]
    have rc : ρ (trlCounter c) = θ (shift l.start (trlCounter c)) := by
      have : (trlCounter c).time = 0 := rfl
      simp [ρ, this]
    refine ⟨ρ, (key ρ).2 ((Fla.holds_congr fun x hx => ?_).1 h), List.map_congr_left r0, ?_⟩
    · rcases hF.vars x hx with ⟨y, hy, rfl⟩ | ⟨y, hy, rfl⟩ | rfl
      · rw [hs ρ y hy, r0 y hy]
      · rw [hn ρ y hy, r1 y hy]
      · rw [hc ρ, rc]
    · unfold TS.nextVars
      rw [List.map_map]
      exact List.map_congr_left r1

theorem learned_trans (hr : TrlReady ts) {l : TrlLoop} (hlen : 0 < l.len) {c : Nat} {ρ₀ : Valuation LIA} {F : Fla LIA} (hF : Projection ts l c ρ₀ F) {a b d : TS.State LIA}
    (h1 : RelSem ts (trlUnshiftFrom ts (sendFla F (-(l.start : Int))) 0 l.len) a b)
    (h2 : RelSem ts (trlUnshiftFrom ts (sendFla F (-(l.start : Int))) 0 l.len) b d) :
    RelSem ts (trlUnshiftFrom ts (sendFla F (-(l.start : Int))) 0 l.len) a d := by
  rw [learned_sem hr hlen hF] at h1 h2 ⊢
  obtain ⟨θ₁, f1, rfl, rfl⟩ := h1
  obtain ⟨θ₂, f2, e, rfl⟩ := h2
  let θ : Valuation LIA := fun x => if x.cur ∈ ts.stateVars then (if x.time = l.start then θ₁ x else θ₂ x)
    else (θ₁ x : Int) + θ₂ x
  have hs : ts.stateAt θ l.start = ts.stateAt θ₁ l.start := List.map_congr_left fun y hy => by
    have h1 := hr.wf.stateCur y hy
    have h2 := Var.time_shift (x := y) h1 l.start
    have h3 := Var.cur_shift (x := y) h1 l.start
    simp only [θ, h2, h3, hy, if_true]
  have hn : ts.stateAt θ ((l.start + l.len : Nat) : Int) = ts.stateAt θ₂ ((l.start + l.len : Nat) : Int) := List.map_congr_left fun y hy => by
    have h1 := hr.wf.stateCur y hy
    have h2 := Var.time_shift (x := y) h1 (l.start + l.len)
    have h3 := Var.cur_shift (x := y) h1 ((l.start + l.len : Nat) : Int)
    have : l.start + l.len ≠ l.start := by omega
    simp only [θ, h2, h3, hy, if_true, this, if_false]
  refine ⟨θ, hF.compose θ₁ θ₂ θ ?_ hs e.symm hn f1 f2, hs, hn⟩
  have : (shift (l.start : Int) (trlCounter c)).cur ∉ ts.stateVars := by
    rw [Var.cur_shift (x := trlCounter c) rfl]
    exact (hr.cnt c).1
  simp only [θ, this, if_false]

end Golem
