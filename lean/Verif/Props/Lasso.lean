import Verif.Model.Termination.Lasso
import Verif.Lemmas.Termination

/-! The lasso finder (`src/termination/LassoDetector.cc`). -/

namespace Golem
variable {T : Theory}

/-- Change the past versions and the flag. -/
def withStored (ρ σ : Valuation T) (fl : T.Val) : Valuation T := fun x =>
  if x = storedFlag then fl else
  match x with
  | .ver n (.negSucc 0) => σ (.ver n 0)
  | x => ρ x

theorem withStored_zero {ρ σ : Valuation T} {fl : T.Val} {n : Name} : withStored ρ σ fl (.ver n 0) = ρ (.ver n 0) := rfl
theorem withStored_one {ρ σ : Valuation T} {fl : T.Val} {n : Name} : withStored ρ σ fl (.ver n 1) = ρ (.ver n 1) := rfl
theorem withStored_past {ρ σ : Valuation T} {fl : T.Val} {n : Name} :
    withStored ρ σ fl (.ver n (-1)) = σ (.ver n 0) := rfl
theorem withStored_flag {ρ σ : Valuation T} {fl : T.Val} : withStored ρ σ fl storedFlag = fl := by simp [withStored]

theorem vT_ne_vF : T.vT ≠ T.vF := fun h => by
  have := T.truth_vT; rw [h, T.truth_vF] at this; cases this

section
variable {ts : TS T} {k : Nat} {dflt : Var → T.Val}

theorem lasso_user (hw : ts.WF) (hv : ts.Versioned) : ∀ c ∈ lassoClauses k dflt ts, c.User := by
  have hs : ∀ x ∈ ts.stateVars, x.Untagged := fun x hx => by obtain ⟨n, rfl⟩ := hv.state x hx; trivial
  have hn : ∀ x ∈ ts.nextVars, x.Untagged := fun x hx => by
    obtain ⟨y, hy, rfl⟩ := List.mem_map.1 hx
    obtain ⟨n, rfl⟩ := hv.state y hy; trivial
  have ha : ∀ x ∈ ts.auxVars, x.Untagged := fun x hx => by obtain ⟨n, rfl⟩ := hv.aux x hx; trivial
  have hp : ∀ x ∈ ts.stateVars, (shift (-1) x).Untagged := fun x hx => by obtain ⟨n, rfl⟩ := hv.state x hx; trivial
  have hi : ∀ x ∈ ts.init.vars, x.Untagged := fun x hx => (hw.init x hx).elim (hs x) (ha x)
  have ht : ∀ x ∈ ts.trans.vars, x.Untagged := fun x hx =>
    (hw.trans x hx).elim (hs x) fun h => h.elim (hn x) (ha x)
  have hN : ∀ x ∈ (notYetSaved dflt ts).flatMap Tm.vars, x.Untagged := by
    intro x hx
    simp only [notYetSaved, List.mem_flatMap, List.mem_append, List.mem_map, List.mem_singleton] at hx
    obtain ⟨t, (⟨y, hy, rfl⟩ | ⟨y, hy, rfl⟩) | rfl, hx⟩ := hx
    · simp only [Tm.vars, List.mem_singleton] at hx; subst hx; exact hs _ hy
    · simp [Tm.vars] at hx
    · simp [Tm.vars] at hx
  have hmap : ∀ (l : List Var), (∀ x ∈ l, x.Untagged) → ∀ x ∈ (l.map (Tm.var (T := T))).flatMap Tm.vars, x.Untagged := by
    intro l hl x hx
    simp only [List.mem_flatMap, List.mem_map] at hx
    obtain ⟨t, ⟨y, hy, rfl⟩, hx⟩ := hx
    simp only [Tm.vars, List.mem_singleton] at hx; subst hx; exact hl _ hy
  have hC : ∀ x ∈ (storedCopy ts).flatMap Tm.vars, x.Untagged := by
    intro x hx
    simp only [storedCopy, List.mem_flatMap, List.mem_map] at hx
    obtain ⟨t, ⟨y, hy, rfl⟩, hx⟩ := hx
    simp only [Tm.vars, List.mem_singleton] at hx; subst hx; exact hp _ hy
  have hf : storedFlag.Untagged := trivial
  intro c hc x hx
  simp only [lassoClauses, List.mem_cons, List.not_mem_nil, or_false] at hc
  rcases hc with rfl | rfl | rfl | rfl <;>
    simp only [Clause.vars, List.flatMap_append, List.flatMap_cons, List.flatMap_nil, List.append_nil, List.mem_append,
      Tm.vars, Fla.vars, List.mem_singleton, List.not_mem_nil, false_or] at hx
  · rcases hx with h | h
    · exact hi x h
    · exact hN x h
  · rcases hx with h | ((h | h) | h) | ((h | h) | h)
    · exact ht x h
    · exact hmap _ hn x h
    · exact hC x h
    · subst h; exact hf
    · exact hmap _ hs x h
    · exact hC x h
    · subst h; exact hf
  · rcases hx with h | (h | h) | h
    · exact ht x h
    · exact hmap _ hn x h
    · exact hmap _ hs x h
    · exact hN x h
  · rcases hx with h | h
    · exact hmap _ hs x h
    · exact hmap _ hs x h

theorem lasso_arity : ArityConsistent (fun p => match p with
    | .p _ => 2 * ts.stateVars.length + 1
    | _ => 0) (lassoClauses k dflt ts) := by
  refine ⟨rfl, rfl, ?_⟩
  intro c hc
  simp only [lassoClauses, List.mem_cons, List.not_mem_nil, or_false] at hc
  rcases hc with rfl | rfl | rfl | rfl <;>
    simp [notYetSaved, storedCopy, TS.nextVars] <;> omega

theorem split3 {α : Type} {a b a' b' : List α} {c c' : α} (ha : a.length = a'.length) (hb : b.length = b'.length)
    (h : a ++ b ++ [c] = a' ++ b' ++ [c']) : a = a' ∧ b = b' ∧ c = c' := by
  obtain ⟨h1, h2⟩ := List.append_inj h (by simp [ha, hb])
  obtain ⟨h3, h4⟩ := List.append_inj h1 ha
  exact ⟨h3, h4, by simpa using h2⟩

theorem lasso_of_derivable (h : Derivable (clauseRules (lassoClauses k dflt ts)) falseFact) : ts.sem.Lasso := by
  let M : Fact T → Prop := fun f => match f.1 with
    | .p _ => ∀ x s fl, x.length = ts.stateVars.length → s.length = ts.stateVars.length → f.2 = x ++ s ++ [fl] →
        (fl = T.vF → ts.sem.Reachable x) ∧
        (fl = T.vT → ts.sem.Reachable s ∧ ∃ n, ts.sem.Path (n + 1) s x)
    | .fls => ts.sem.Lasso
    | _ => True
  have hM : SatisfiesRules (clauseRules (lassoClauses k dflt ts)) M := by
    refine ⟨trivial, ?_⟩
    rintro r ⟨c, hc, ρ, hh, rfl⟩ hb
    simp only [lassoClauses, List.mem_cons, List.not_mem_nil, or_false] at hc
    rcases hc with rfl | rfl | rfl | rfl
    · intro x s fl hx hs e
      simp only [PAtom.ground, notYetSaved, List.map_append, List.map_map, List.map_cons, List.map_nil, Tm.eval] at e
      obtain ⟨rfl, rfl, rfl⟩ := split3 (by simp [hx]) (by simp [hs]) e
      exact ⟨fun _ => ⟨0, _, ⟨ρ, hh, rfl⟩, .refl _⟩, fun e => absurd e.symm vT_ne_vF⟩
    · intro x s fl hx hs e
      simp only [PAtom.ground, List.map_append, List.map_map, List.map_cons, List.map_nil, Tm.eval] at e
      obtain ⟨rfl, rfl, rfl⟩ := split3 (by simp [hx, TS.nextVars]) (by simp [storedCopy, hs]) e
      have hst : ts.sem.Step (ts.stateVars.map ρ) (ts.nextVars.map ρ) := ⟨ρ, hh, rfl, rfl⟩
      have h1 := hb _ (List.mem_singleton.2 rfl)
      have h2 := h1 (ts.stateVars.map ρ) ((storedCopy ts).map (Tm.eval ρ)) (ρ storedFlag) (by simp)
        (by simp [storedCopy]) (by simp [PAtom.ground, Function.comp_def, Tm.eval])
      constructor
      · intro hf
        obtain ⟨n, s0, hi, hp⟩ := h2.1 hf
        exact ⟨n + 1, s0, hi, .snoc hp hst⟩
      · intro hf
        obtain ⟨hr, n, hp⟩ := h2.2 hf
        exact ⟨hr, n + 1, .snoc hp hst⟩
    · intro x s fl hx hs e
      simp only [PAtom.ground, List.map_append, List.map_map, List.map_cons, List.map_nil, Tm.eval] at e
      obtain ⟨rfl, rfl, rfl⟩ := split3 (by simp [hx, TS.nextVars]) (by simp [hs]) e
      have hst : ts.sem.Step (ts.stateVars.map ρ) (ts.nextVars.map ρ) := ⟨ρ, hh, rfl, rfl⟩
      have h1 := hb _ (List.mem_singleton.2 rfl)
      have h2 := h1 (ts.stateVars.map ρ) (ts.stateVars.map dflt) T.vF (by simp) (by simp)
        (by simp [PAtom.ground, notYetSaved, Function.comp_def, Tm.eval])
      exact ⟨fun e => absurd e vT_ne_vF, fun _ => ⟨h2.1 rfl, 0, .snoc (.refl _) hst⟩⟩
    · have h1 := hb _ (List.mem_singleton.2 rfl)
      have h2 := h1 (ts.stateVars.map ρ) (ts.stateVars.map ρ) T.vT (by simp) (by simp)
        (by simp [PAtom.ground, Function.comp_def, Tm.eval])
      obtain ⟨hr, n, hp⟩ := h2.2 rfl
      exact ⟨_, n, hr, hp⟩
  exact h.sound hM

theorem lasso_step (hw : ts.WF) (hv : ts.Versioned) {x y s : List T.Val} {fl : T.Val} (hs : ts.Rep s)
    (hst : ts.sem.Step x y) (h : Derivable (clauseRules (lassoClauses k dflt ts)) (.p k, x ++ s ++ [fl])) :
    Derivable (clauseRules (lassoClauses k dflt ts)) (.p k, y ++ s ++ [fl]) := by
  obtain ⟨ρ, hh, rfl, rfl⟩ := hst
  obtain ⟨σ, rfl⟩ := hs
  have h0 : ts.stateVars.map (withStored ρ σ fl) = ts.stateVars.map ρ := List.map_congr_left fun x hx => by
    obtain ⟨n, rfl⟩ := hv.state x hx; rfl
  have h1 : ts.nextVars.map (withStored ρ σ fl) = ts.nextVars.map ρ := List.map_congr_left fun x hx => by
    obtain ⟨y, hy, rfl⟩ := List.mem_map.1 hx
    obtain ⟨n, rfl⟩ := hv.state y hy; rfl
  have h2 : (storedCopy ts).map (Tm.eval (withStored ρ σ fl)) = ts.stateVars.map σ := by
    simp only [storedCopy, List.map_map]
    refine List.map_congr_left fun x hx => ?_
    obtain ⟨n, rfl⟩ := hv.state x hx; rfl
  have h3 : ts.trans.holds (withStored ρ σ fl) := by
    refine (Fla.holds_congr ?_).2 hh
    intro x hx
    rcases hw.trans x hx with hx | hx | hx
    · obtain ⟨n, rfl⟩ := hv.state x hx; rfl
    · obtain ⟨y, hy, rfl⟩ := List.mem_map.1 hx
      obtain ⟨n, rfl⟩ := hv.state y hy; rfl
    · obtain ⟨n, rfl⟩ := hv.aux x hx; rfl
  have e : (fun x => Tm.eval (withStored ρ σ fl) (Tm.var x)) = withStored ρ σ fl := rfl
  refine Derivable.step ⟨[(.p k, ts.stateVars.map ρ ++ ts.stateVars.map σ ++ [fl])],
    (.p k, ts.nextVars.map ρ ++ ts.stateVars.map σ ++ [fl])⟩ ⟨_, List.mem_cons_of_mem _ List.mem_cons_self,
    withStored ρ σ fl, h3, ?_⟩ (by simpa using h)
  simp [PAtom.ground, Function.comp_def, Tm.eval, h0, h1, h2, withStored_flag]

theorem derivable_of_lasso (hw : ts.WF) (hv : ts.Versioned) (h : ts.sem.Lasso) :
    Derivable (clauseRules (lassoClauses k dflt ts)) falseFact := by
  obtain ⟨s, n, ⟨m, s0, hi, hp⟩, hl⟩ := h
  have hreach : ∀ {m x}, ts.sem.Path m s0 x →
      Derivable (clauseRules (lassoClauses k dflt ts)) (.p k, x ++ ts.stateVars.map dflt ++ [T.vF]) := by
    intro m x hp
    induction hp with
    | refl =>
      obtain ⟨ρ, hh, rfl⟩ := hi
      exact Derivable.step ⟨[], _⟩ ⟨_, List.mem_cons_self, ρ, hh,
        by simp [PAtom.ground, notYetSaved, Function.comp_def, Tm.eval]⟩ (by simp)
    | snoc hp st ih => exact lasso_step hw hv ⟨dflt, rfl⟩ st (ih hi ‹_›)
  obtain ⟨t, hst, hpt⟩ := hl.uncons
  have hrep : ts.Rep s := TS.rep_src hst
  have hsave : Derivable (clauseRules (lassoClauses k dflt ts)) (.p k, t ++ s ++ [T.vT]) := by
    have h1 := hreach hp
    obtain ⟨ρ, hh, rfl, rfl⟩ := hst
    exact Derivable.step ⟨[(.p k, ts.stateVars.map ρ ++ ts.stateVars.map dflt ++ [T.vF])], _⟩
      ⟨_, List.mem_cons_of_mem _ (List.mem_cons_of_mem _ List.mem_cons_self), ρ, hh,
        by simp [PAtom.ground, notYetSaved, Function.comp_def, Tm.eval]⟩ (by simpa using h1)
  have hloop : ∀ {n x}, ts.sem.Path n t x →
      Derivable (clauseRules (lassoClauses k dflt ts)) (.p k, x ++ s ++ [T.vT]) := by
    intro n x hp
    induction hp with
    | refl => exact hsave
    | snoc hp st ih => exact lasso_step hw hv hrep st (ih ‹_› ‹_› ‹_›)
  have hfin := hloop hpt
  obtain ⟨ρ, rfl⟩ := hrep
  exact Derivable.step ⟨[(.p k, ts.stateVars.map ρ ++ ts.stateVars.map ρ ++ [T.vT])], falseFact⟩
    ⟨_, List.mem_cons_of_mem _ (List.mem_cons_of_mem _ (List.mem_cons_of_mem _ List.mem_cons_self)), ρ, trivial,
      by simp [PAtom.ground, Function.comp_def, Tm.eval, falseFact]⟩ (by simpa using hfin)

end

/-- C52. The lasso finder, on top of an engine that answers right on the clauses it is given: the answer "lasso" means
that some reachable state is reached again from itself, hence that the system has an infinite run; the answer "no lasso"
means that there is no such state. -/
theorem C52_lasso {E : Engine T} {k : Nat} {dflt : Var → T.Val} {ts : TS T} (hw : ts.WF) (hv : ts.Versioned)
    (hE : E.RightOn (lassoClauses k dflt ts)) :
    (findLasso E k dflt ts = .done .lasso → ts.sem.Lasso ∧ ts.sem.InfiniteRun) ∧
    (findLasso E k dflt ts = .done .noLasso → ¬ ts.sem.Lasso) := by
  unfold findLasso
  cases h : solveClauses E (lassoClauses k dflt ts) with
  | thrown => simp
  | outOfFuel => simp
  | done r =>
    have hr := solveClauses_right (lasso_arity) (lasso_user hw hv) hE h
    cases ha : r.answer with
    | safe =>
      refine ⟨fun h => by simp [ha] at h, fun _ hl => hr.2 ha (derivable_of_lasso hw hv hl)⟩
    | unsafeAns =>
      refine ⟨fun _ => ?_, fun h => by simp [ha] at h⟩
      have := lasso_of_derivable (hr.1 ha)
      exact ⟨this, this.infiniteRun⟩
    | unknown => exact ⟨fun h => by simp [ha] at h, fun h => by simp [ha] at h⟩

end Golem
