import Verif.Model.TransitionSystem

namespace Golem
variable {T : Theory}

@[simp] theorem shift_zero (x : Var) : shift 0 x = x := by cases x <;> simp [shift]

theorem shift_shift (i j : Int) (x : Var) : shift i (shift j x) = shift (j + i) x := by
  cases x <;> simp [shift] <;> omega

theorem shift_inj {i : Int} {x y : Var} (h : shift i x = shift i y) : x = y := by
  have := congrArg (shift (-i)) h
  simpa [shift_shift, Int.add_right_neg] using this

theorem sendFla_holds {ρ : Valuation T} {f : Fla T} {k : Int} :
    (sendFla f k).holds ρ ↔ f.holds (fun x => ρ (shift k x)) := by
  unfold sendFla
  split
  · rename_i h; subst h; simp
  · exact Fla.holds_rename _ _ _

theorem mem_vars_sendFla {f : Fla T} {k : Int} {y : Var} :
    y ∈ (sendFla f k).vars ↔ ∃ x ∈ f.vars, y = shift k x := by
  unfold sendFla
  split
  · rename_i h; subst h; simp
  · rw [Fla.mem_vars_rename]

/-- The state a valuation describes at time `i`. -/
def TS.stateAt (ts : TS T) (ρ : Valuation T) (i : Int) : TS.State T := ts.stateVars.map fun x => ρ (shift i x)

theorem TS.stateAt_zero (ts : TS T) (ρ : Valuation T) : ts.stateAt ρ 0 = ts.stateVars.map ρ := by
  simp [TS.stateAt]

theorem TS.nextVars_map (ts : TS T) (ρ : Valuation T) :
    ts.nextVars.map ρ = ts.stateVars.map fun x => ρ (shift 1 x) := by
  simp [TS.nextVars, List.map_map, Function.comp_def]

theorem TS.stateAt_shift (ts : TS T) (ρ : Valuation T) (i j : Int) :
    ts.stateAt (fun x => ρ (shift i x)) j = ts.stateAt ρ (i + j) := by
  simp only [TS.stateAt, shift_shift]
  congr 1; funext x; congr 2; omega

theorem TS.den_iff {ts : TS T} {f : Fla T} (hf : ts.Over f) {ρ : Valuation T} :
    ts.den f (ts.stateVars.map ρ) ↔ f.holds ρ := by
  constructor
  · rintro ⟨ρ', h, e⟩
    refine (Fla.holds_congr fun x hx => ?_).1 h
    exact (List.map_inj_left.1 e) x (hf x hx)
  · intro h; exact ⟨ρ, h, rfl⟩

theorem TS.den_at {ts : TS T} {f : Fla T} (hf : ts.Over f) {ρ : Valuation T} {i : Int} :
    ts.den f (ts.stateAt ρ i) ↔ (sendFla f i).holds ρ := by
  rw [sendFla_holds]; exact TS.den_iff hf

theorem TS.step_at {ts : TS T} {ρ : Valuation T} {i : Int} (h : (sendFla ts.trans i).holds ρ) :
    ts.sem.Step (ts.stateAt ρ i) (ts.stateAt ρ (i + 1)) := by
  refine ⟨_, sendFla_holds.1 h, rfl, ?_⟩
  rw [TS.nextVars_map]
  simp only [TS.stateAt, shift_shift]
  congr 1; funext x; congr 2; omega

theorem TS.init_at {ts : TS T} {ρ : Valuation T} {i : Int} (h : (sendFla ts.init i).holds ρ) :
    ts.sem.Init (ts.stateAt ρ i) := ⟨_, sendFla_holds.1 h, rfl⟩

theorem TS.bad_at {ts : TS T} {ρ : Valuation T} {i : Int} (h : (sendFla ts.query i).holds ρ) :
    ts.sem.Bad (ts.stateAt ρ i) := ⟨_, sendFla_holds.1 h, rfl⟩

theorem TS.NoAux.auxSep {ts : TS T} (h : ts.NoAux) (hw : ts.WF) : ts.AuxSep where
  it := fun x hx hi => absurd hx (hw.sep x (h.init x hi))
  iq := fun x hx hi => absurd hx (hw.sep x (h.init x hi))
  tq := fun x hx _ hq => absurd hx (hw.sep x (h.query x hq))

/-- A list of values is a state of the system. -/
def TS.Rep (ts : TS T) (s : TS.State T) : Prop := ∃ ρ : Valuation T, ts.stateVars.map ρ = s

theorem TS.rep_init {ts : TS T} {s} (h : ts.sem.Init s) : ts.Rep s := by
  obtain ⟨ρ, _, e⟩ := h; exact ⟨ρ, e⟩

theorem TS.rep_bad {ts : TS T} {s} (h : ts.sem.Bad s) : ts.Rep s := by
  obtain ⟨ρ, _, e⟩ := h; exact ⟨ρ, e⟩

theorem TS.rep_src {ts : TS T} {s t} (h : ts.sem.Step s t) : ts.Rep s := by
  obtain ⟨ρ, _, e, _⟩ := h; exact ⟨ρ, e⟩

theorem TS.rep_tgt {ts : TS T} {s t} (h : ts.sem.Step s t) : ts.Rep t := by
  obtain ⟨ρ, _, _, e⟩ := h; exact ⟨_, (ts.nextVars_map ρ).symm.trans e⟩

theorem TS.rep_stateAt (ts : TS T) (ρ : Valuation T) (i : Int) : ts.Rep (ts.stateAt ρ i) := ⟨_, rfl⟩

/-- Version zero of a variable's name. -/
def Var.cur : Var → Var
  | .ver n _ => .ver n 0
  | .src n _ => .src n 0
  | x => x

theorem Var.cur_of_isCurrent {x : Var} (h : x.isCurrent) : x.cur = x := by
  cases x <;> simp [Var.isCurrent, Var.cur] at * <;> exact h.symm

theorem Var.cur_shift {x : Var} (h : x.isCurrent) (i : Int) : (shift i x).cur = x := by
  cases x <;> simp [Var.isCurrent, Var.cur, shift] at * <;> exact h.symm

def Var.time : Var → Nat
  | .ver _ j => j.toNat
  | .src _ j => j.toNat
  | _ => 0

theorem Var.time_shift {x : Var} (h : x.isCurrent) (i : Nat) : (shift i x).time = i := by
  cases x <;> simp [Var.isCurrent, Var.time, shift] at * <;> omega

open Classical in
/-- One valuation for a whole path: state variables from `v`, auxiliary ones from the steps' own valuations. -/
noncomputable def TS.glue (ts : TS T) (v τ : Nat → Valuation T) (τI τQ : Valuation T) : Valuation T := fun x =>
  if x.cur ∈ ts.stateVars then v x.time x.cur
  else if x.cur ∈ ts.init.vars then τI x.cur
  else if x.cur ∈ ts.query.vars then τQ x.cur
  else τ x.time x.cur

theorem TS.glue_state {ts : TS T} (hw : ts.WF) (v τ : Nat → Valuation T) (τI τQ : Valuation T) (i : Nat) :
    ts.stateAt (ts.glue v τ τI τQ) i = ts.stateVars.map (v i) := by
  apply List.map_congr_left
  intro x hx
  have hc := hw.stateCur x hx
  simp [TS.glue, Var.cur_shift hc, hx, Var.time_shift hc]

theorem TS.glue_trans {ts : TS T} (hw : ts.WF) (hs : ts.AuxSep) (v τ : Nat → Valuation T) (τI τQ : Valuation T)
    (i : Nat) (ht : ts.trans.holds (τ i)) (h0 : ts.stateVars.map (τ i) = ts.stateVars.map (v i))
    (h1 : ts.nextVars.map (τ i) = ts.stateVars.map (v (i + 1))) :
    (sendFla ts.trans i).holds (ts.glue v τ τI τQ) := by
  rw [sendFla_holds]
  refine (Fla.holds_congr fun x hx => ?_).1 ht
  rcases hw.trans x hx with hm | hm | hm
  · have hc := hw.stateCur x hm
    simp [TS.glue, Var.cur_shift hc, hm, Var.time_shift hc]
    exact List.map_inj_left.1 h0 x hm
  · simp only [TS.nextVars, List.mem_map] at hm
    obtain ⟨y, hy, rfl⟩ := hm
    have hc := hw.stateCur y hy
    rw [TS.nextVars_map] at h1
    have := List.map_inj_left.1 h1 y hy
    rw [this, shift_shift]
    have e : (1 : Int) + i = ((i + 1 : Nat) : Int) := by omega
    rw [e]
    simp only [TS.glue, Var.cur_shift hc, hy, Var.time_shift hc, if_true]
  · have hc := hw.auxCur x hm
    have hns : x ∉ ts.stateVars := fun h => hw.sep x h hm
    have hni : x ∉ ts.init.vars := fun h => hs.it x hm h hx
    have hnq : x ∉ ts.query.vars := fun h => hs.tq x hm hx h
    simp [TS.glue, Var.cur_shift hc, Var.time_shift hc, hns, hni, hnq]

theorem TS.glue_init {ts : TS T} (hw : ts.WF) (v τ : Nat → Valuation T) (τI τQ : Valuation T)
    (i : Nat) (ht : ts.init.holds τI) (h0 : ts.stateVars.map τI = ts.stateVars.map (v i)) :
    (sendFla ts.init i).holds (ts.glue v τ τI τQ) := by
  rw [sendFla_holds]
  refine (Fla.holds_congr fun x hx => ?_).1 ht
  rcases hw.init x hx with hm | hm
  · have hc := hw.stateCur x hm
    simp [TS.glue, Var.cur_shift hc, hm, Var.time_shift hc]
    exact List.map_inj_left.1 h0 x hm
  · have hc := hw.auxCur x hm
    have hns : x ∉ ts.stateVars := fun h => hw.sep x h hm
    simp [TS.glue, Var.cur_shift hc, hns, hx]

theorem TS.glue_query {ts : TS T} (hw : ts.WF) (hs : ts.AuxSep) (v τ : Nat → Valuation T) (τI τQ : Valuation T)
    (i : Nat) (ht : ts.query.holds τQ) (h0 : ts.stateVars.map τQ = ts.stateVars.map (v i)) :
    (sendFla ts.query i).holds (ts.glue v τ τI τQ) := by
  rw [sendFla_holds]
  refine (Fla.holds_congr fun x hx => ?_).1 ht
  rcases hw.query x hx with hm | hm
  · have hc := hw.stateCur x hm
    simp [TS.glue, Var.cur_shift hc, hm, Var.time_shift hc]
    exact List.map_inj_left.1 h0 x hm
  · have hc := hw.auxCur x hm
    have hns : x ∉ ts.stateVars := fun h => hw.sep x h hm
    have hni : x ∉ ts.init.vars := fun h => hs.iq x hm h hx
    simp [TS.glue, Var.cur_shift hc, hns, hni, hx]

/-- A sequence of states is realized by one valuation, together with the transition formula at every position where two
consecutive states are related. -/
theorem TS.realize {ts : TS T} (hw : ts.WF) (hs : ts.AuxSep) (ss : Nat → TS.State T) (hr : ∀ i, ts.Rep (ss i))
    (a b : Nat) :
    ∃ ρ : Valuation T, (∀ i : Nat, ts.stateAt ρ i = ss i) ∧
      (∀ i : Nat, ts.sem.Step (ss i) (ss (i + 1)) → (sendFla ts.trans i).holds ρ) ∧
      (ts.sem.Init (ss a) → (sendFla ts.init a).holds ρ) ∧
      (ts.sem.Bad (ss b) → (sendFla ts.query b).holds ρ) := by
  classical
  have hv : ∃ v : Nat → Valuation T, ∀ i, ts.stateVars.map (v i) = ss i := by
    exact ⟨fun i => (hr i).choose, fun i => (hr i).choose_spec⟩
  obtain ⟨v, hv⟩ := hv
  have hτ : ∃ τ : Nat → Valuation T, ∀ i, ts.sem.Step (ss i) (ss (i + 1)) →
      ts.trans.holds (τ i) ∧ ts.stateVars.map (τ i) = ss i ∧ ts.nextVars.map (τ i) = ss (i + 1) := by
    refine ⟨fun i => if h : ts.sem.Step (ss i) (ss (i + 1)) then h.choose else v i, fun i h => ?_⟩
    simp only [h, dif_pos]
    exact h.choose_spec
  obtain ⟨τ, hτ⟩ := hτ
  have hI : ∃ τI : Valuation T, ts.sem.Init (ss a) → ts.init.holds τI ∧ ts.stateVars.map τI = ss a := by
    by_cases h : ts.sem.Init (ss a)
    · exact ⟨h.choose, fun _ => h.choose_spec⟩
    · exact ⟨v 0, fun h' => absurd h' h⟩
  obtain ⟨τI, hI⟩ := hI
  have hQ : ∃ τQ : Valuation T, ts.sem.Bad (ss b) → ts.query.holds τQ ∧ ts.stateVars.map τQ = ss b := by
    by_cases h : ts.sem.Bad (ss b)
    · exact ⟨h.choose, fun _ => h.choose_spec⟩
    · exact ⟨v 0, fun h' => absurd h' h⟩
  obtain ⟨τQ, hQ⟩ := hQ
  refine ⟨ts.glue v τ τI τQ, ?_, ?_, ?_, ?_⟩
  · intro i; rw [TS.glue_state hw, hv]
  · intro i h
    obtain ⟨h1, h2, h3⟩ := hτ i h
    exact TS.glue_trans hw hs _ _ _ _ i h1 (by rw [h2, hv]) (by rw [h3, hv])
  · intro h
    exact TS.glue_init hw _ _ _ _ a (hI h).1 (by rw [(hI h).2, hv])
  · intro h
    exact TS.glue_query hw hs _ _ _ _ b (hQ h).1 (by rw [(hQ h).2, hv])

/-- A path as a sequence of states. -/
theorem STS.Path.toSeq {σ : Type} {M : STS σ} {n : Nat} {s t : σ} (h : M.Path n s t) :
    ∃ ss : Nat → σ, ss 0 = s ∧ ss n = t ∧ (∀ i, n ≤ i → ss i = t) ∧ ∀ i, i < n → M.Step (ss i) (ss (i + 1)) := by
  induction h with
  | refl s => exact ⟨fun _ => s, rfl, rfl, fun _ _ => rfl, fun i h => by omega⟩
  | @snoc n s t u p st ih =>
    obtain ⟨ss, h0, hn, hc, hst⟩ := ih
    refine ⟨fun i => if i ≤ n then ss i else u, by simp [h0], by simp; omega, fun i hi => ?_, fun i hi => ?_⟩
    · simp; omega
    · by_cases hin : i < n
      · have h1 : i ≤ n := by omega
        have h2 : i + 1 ≤ n := hin
        simp only [h1, h2, if_true]; exact hst i hin
      · have : i = n := by omega
        subst this
        have h2 : ¬ i + 1 ≤ i := by omega
        simp only [h2, if_false, Nat.le_refl, if_true, hn]
        exact st

theorem STS.Path.ofSeq {σ : Type} {M : STS σ} (ss : Nat → σ) (n : Nat)
    (h : ∀ i, i < n → M.Step (ss i) (ss (i + 1))) : M.Path n (ss 0) (ss n) := by
  induction n with
  | zero => exact .refl _
  | succ n ih => exact .snoc (ih fun i hi => h i (by omega)) (h n (by omega))

theorem STS.PathIn.toSeq {σ : Type} {M : STS σ} {P : σ → Prop} {n : Nat} {s t : σ} (h : M.PathIn P n s t) :
    ∃ ss : Nat → σ, ss 0 = s ∧ ss n = t ∧ (∀ i, n ≤ i → ss i = t) ∧
      (∀ i, i < n → P (ss i)) ∧ ∀ i, i < n → M.Step (ss i) (ss (i + 1)) := by
  induction h with
  | refl s => exact ⟨fun _ => s, rfl, rfl, fun _ _ => rfl, fun i h => by omega, fun i h => by omega⟩
  | @snoc n s t u p pt st ih =>
    obtain ⟨ss, h0, hn, hc, hp, hst⟩ := ih
    refine ⟨fun i => if i ≤ n then ss i else u, by simp [h0], by simp; omega, fun i hi => ?_, fun i hi => ?_, fun i hi => ?_⟩
    · simp; omega
    · have h1 : i ≤ n := by omega
      simp only [h1, if_true]
      by_cases hin : i < n
      · exact hp i hin
      · have : i = n := by omega
        rw [this, hn]; exact pt
    · by_cases hin : i < n
      · have h1 : i ≤ n := by omega
        have h2 : i + 1 ≤ n := hin
        simp only [h1, h2, if_true]; exact hst i hin
      · have : i = n := by omega
        subst this
        have h2 : ¬ i + 1 ≤ i := by omega
        simp only [h2, if_false, Nat.le_refl, if_true, hn]
        exact st

theorem STS.PathIn.ofSeq {σ : Type} {M : STS σ} {P : σ → Prop} (ss : Nat → σ) (n : Nat)
    (hp : ∀ i, i < n → P (ss i)) (h : ∀ i, i < n → M.Step (ss i) (ss (i + 1))) : M.PathIn P n (ss 0) (ss n) := by
  induction n with
  | zero => exact .refl _
  | succ n ih =>
    exact .snoc (ih (fun i hi => hp i (by omega)) fun i hi => h i (by omega)) (hp n (by omega)) (h n (by omega))

theorem TS.rep_seq {ts : TS T} {ss : Nat → TS.State T} {n : Nat} {t : TS.State T} (hn : ∀ i, n ≤ i → ss i = t)
    (ht : ts.Rep t) (h : ∀ i, i < n → ts.sem.Step (ss i) (ss (i + 1))) : ∀ i, ts.Rep (ss i) := by
  intro i
  by_cases hi : i < n
  · exact TS.rep_src (h i hi)
  · rw [hn i (by omega)]; exact ht

theorem TS.rep_path {ts : TS T} {n s t} (hs : ts.Rep s) (p : ts.sem.Path n s t) : ts.Rep t := by
  cases p with
  | refl _ => exact hs
  | snoc _ st => exact TS.rep_tgt st

/-- The unrolled formula of length `n`. -/
def TS.UnrollSat (ts : TS T) (n : Nat) (ρ : Valuation T) : Prop :=
  ts.init.holds ρ ∧ (∀ i : Nat, i < n → (sendFla ts.trans i).holds ρ)

theorem TS.unroll_path {ts : TS T} {n : Nat} {ρ : Valuation T} (h : ∀ i : Nat, i < n → (sendFla ts.trans i).holds ρ) :
    ts.sem.Path n (ts.stateAt ρ 0) (ts.stateAt ρ n) := by
  have := STS.Path.ofSeq (M := ts.sem) (fun i : Nat => ts.stateAt ρ i) n (fun i hi => by
    have := TS.step_at (h i hi)
    simpa using this)
  simpa using this

theorem TS.unroll_sound {ts : TS T} {n : Nat} {ρ : Valuation T} (h : ts.UnrollSat n ρ)
    (hq : (sendFla ts.query n).holds ρ) : ts.sem.BadIn n := by
  refine ⟨ts.stateAt ρ n, ⟨ts.stateAt ρ 0, ?_, TS.unroll_path h.2⟩, TS.bad_at hq⟩
  exact ⟨ρ, h.1, (TS.stateAt_zero ts ρ).symm⟩

theorem TS.unroll_complete {ts : TS T} (hw : ts.WF) (hs : ts.AuxSep) {n : Nat} (h : ts.sem.BadIn n) :
    ∃ ρ, ts.UnrollSat n ρ ∧ (sendFla ts.query n).holds ρ := by
  obtain ⟨t, ⟨s, hi, p⟩, hb⟩ := h
  obtain ⟨ss, h0, hn, hc, hst⟩ := p.toSeq
  have hrt := TS.rep_bad hb
  obtain ⟨ρ, hρ, ht, hI, hQ⟩ := TS.realize hw hs ss (TS.rep_seq hc hrt hst) 0 n
  refine ⟨ρ, ⟨?_, fun i hin => ht i (hst i hin)⟩, ?_⟩
  · have := hI (by rw [h0]; exact hi)
    simpa [sendFla] using this
  · exact hQ (by rw [hn]; exact hb)

end Golem
