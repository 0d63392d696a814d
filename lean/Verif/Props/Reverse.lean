import Verif.Lemmas.TransitionSystem
import Verif.Lemmas.Graph

/-!
C19: reversing a transition system.
-/

namespace Golem
variable {T : Theory}

theorem SubstMap.fn_zip_map {L : List Var} {f g : Var → Var} (hn : (L.map f).Nodup) {x : Var} (hx : x ∈ L) :
    SubstMap.fn (T := T) ((L.map f).zip ((L.map g).map Tm.var)) (f x) = .var (g x) := by
  apply SubstMap.fn_of_mem
  · rw [List.map_fst_zip (by simp)]; exact hn
  · clear hn
    induction L with
    | nil => simp at hx
    | cons y L ih =>
      simp only [List.map_cons, List.zip_cons_cons, List.mem_cons]
      rcases List.mem_cons.1 hx with rfl | h
      · exact Or.inl rfl
      · exact Or.inr (ih h)

theorem SubstMap.fn_zip_notin {K : List Var} {V : List (Tm T)} {x : Var} (hx : x ∉ K) :
    SubstMap.fn (T := T) (K.zip V) x = .var x := by
  unfold SubstMap.fn
  rw [SubstMap.find_none]
  · rfl
  · rintro ⟨a, b⟩ hp rfl
    exact hx (List.of_mem_zip hp).1

theorem map_shift_nodup {L : List Var} (h : L.Nodup) (i : Int) : (L.map (shift i)).Nodup := by
  rw [List.Nodup, List.pairwise_map]
  exact h.imp fun {a b} hne e => hne (shift_inj e)

theorem shift_ne {i j : Int} {x y : Var} (hx : x.isCurrent) (hy : y.isCurrent) (h : i ≠ j) : shift i x ≠ shift j y := by
  cases x <;> cases y <;> simp [Var.isCurrent, shift] at * <;>
  · intro _; omega

theorem shift_eq {i j : Int} {x y : Var} (hx : x.isCurrent) (hy : y.isCurrent) (h : shift i x = shift j y) :
    i = j ∧ x = y := by
  cases x <;> cases y <;> simp [Var.isCurrent, shift] at * <;>
  · subst hx; subst hy
    exact ⟨by omega, h.1, rfl⟩

/-- The effect of the three substitutions on a valuation. -/
def TS.swapped (ts : TS T) (ρ : Valuation T) : Valuation T := fun x =>
  if x ∈ ts.stateVars then ρ (shift 1 x) else if x ∈ ts.nextVars then ρ (shift (-1) x) else ρ x

theorem TS.reverseTransition_holds {ts : TS T} (hw : ts.WF) (ρ : Valuation T) :
    ts.reverseTransition.holds ρ ↔ ts.trans.holds (ts.swapped ρ) := by
  unfold TS.reverseTransition
  simp only [varSubstitute_holds]
  apply Fla.holds_congr
  intro x hx
  have hid : ts.stateVars = ts.stateVars.map (shift 0) := by
    have : shift 0 = id := by funext x; simp
    rw [this]; simp
  have nd0 : (ts.stateVars.map (shift 0)).Nodup := by rw [← hid]; exact hw.nodup
  have hk : ∀ y ∈ ts.stateVars, ∀ i : Int, i ≠ 0 → shift i y ∉ ts.stateVars := by
    intro y hy i hi hm
    have h1 := hw.stateCur _ hm
    have h2 := hw.stateCur _ hy
    cases y <;> simp [shift, Var.isCurrent] at * <;> omega
  by_cases h0 : x ∈ ts.stateVars
  · have e1 : SubstMap.fn (T := T) (ts.stateVars.zip ((ts.stateVars.map (shift 2)).map Tm.var)) x
        = .var (shift 2 x) := by
      have := SubstMap.fn_zip_map (T := T) (f := shift 0) (g := shift 2) nd0 h0
      rw [← hid] at this; simpa using this
    have e2 : SubstMap.fn (T := T) (ts.nextVars.zip (ts.stateVars.map Tm.var)) (shift 2 x) = .var (shift 2 x) := by
      apply SubstMap.fn_zip_notin
      simp only [TS.nextVars, List.mem_map, not_exists, not_and]
      intro y hy e
      exact shift_ne (hw.stateCur _ hy) (hw.stateCur _ h0) (by decide) e
    have e3 : SubstMap.fn (T := T) ((ts.stateVars.map (shift 2)).zip (ts.nextVars.map Tm.var)) (shift 2 x)
        = .var (shift 1 x) :=
      SubstMap.fn_zip_map (T := T) (f := shift 2) (g := shift 1) (map_shift_nodup hw.nodup 2) h0
    rw [e1]; simp only [Tm.eval]; rw [e2]; simp only [Tm.eval]; rw [e3]
    simp [Tm.eval, TS.swapped, h0]
  · have e1 : SubstMap.fn (T := T) (ts.stateVars.zip ((ts.stateVars.map (shift 2)).map Tm.var)) x = .var x :=
      SubstMap.fn_zip_notin h0
    rw [e1]
    simp only [Tm.eval]
    by_cases h1 : x ∈ ts.nextVars
    · have h1' := h1
      simp only [TS.nextVars, List.mem_map] at h1'
      obtain ⟨y, hy, rfl⟩ := h1'
      have e2 : SubstMap.fn (T := T) (ts.nextVars.zip (ts.stateVars.map Tm.var)) (shift 1 y) = .var y := by
        have := SubstMap.fn_zip_map (T := T) (f := shift 1) (g := shift 0) (map_shift_nodup hw.nodup 1) hy
        rw [← hid] at this; simpa [TS.nextVars] using this
      have e3 : SubstMap.fn (T := T) ((ts.stateVars.map (shift 2)).zip (ts.nextVars.map Tm.var)) y = .var y := by
        apply SubstMap.fn_zip_notin
        simp only [List.mem_map, not_exists, not_and]
        intro z hz e
        exact hk z hz 2 (by decide) (e ▸ hy)
      rw [e2]; simp only [Tm.eval]; rw [e3]
      simp [Tm.eval, TS.swapped, h0, h1, shift_shift]
    · have ha : x ∈ ts.auxVars := by
        rcases hw.trans x hx with h | h | h
        · exact absurd h h0
        · exact absurd h h1
        · exact h
      rw [SubstMap.fn_zip_notin h1]
      simp only [Tm.eval]
      have e3 : SubstMap.fn (T := T) ((ts.stateVars.map (shift 2)).zip (ts.nextVars.map Tm.var)) x = .var x := by
        apply SubstMap.fn_zip_notin
        simp only [List.mem_map, not_exists, not_and]
        intro z hz e
        have h1 := hw.auxCur _ ha
        have h2 := hw.stateCur _ hz
        rw [← e] at h1
        cases z <;> simp [shift, Var.isCurrent] at * <;> omega
      rw [e3]
      simp [Tm.eval, TS.swapped, h0, h1]

theorem TS.notin_state_shift {ts : TS T} (hw : ts.WF) {y : Var} (hy : y ∈ ts.stateVars) {i : Int} (hi : i ≠ 0) :
    shift i y ∉ ts.stateVars := by
  intro hm
  have h1 := hw.stateCur _ hm
  have h2 := hw.stateCur _ hy
  cases y <;> simp [shift, Var.isCurrent] at * <;> omega

theorem TS.swapped_state {ts : TS T} (ρ : Valuation T) : ts.stateVars.map (ts.swapped ρ) = ts.nextVars.map ρ := by
  rw [TS.nextVars_map]
  apply List.map_congr_left
  intro x hx
  simp [TS.swapped, hx]

theorem TS.swapped_next {ts : TS T} (hw : ts.WF) (ρ : Valuation T) :
    ts.nextVars.map (ts.swapped ρ) = ts.stateVars.map ρ := by
  rw [TS.nextVars_map]
  apply List.map_congr_left
  intro x hx
  have h1 : shift 1 x ∈ ts.nextVars := List.mem_map_of_mem hx
  simp [TS.swapped, TS.notin_state_shift hw hx, h1, shift_shift]

theorem TS.swapped_swapped {ts : TS T} (hw : ts.WF) (ρ : Valuation T) (x : Var) :
    ts.swapped (ts.swapped ρ) x = ρ x := by
  unfold TS.swapped
  by_cases h0 : x ∈ ts.stateVars
  · have h1 : shift 1 x ∈ ts.nextVars := List.mem_map_of_mem h0
    simp [h0, h1, TS.notin_state_shift hw h0, shift_shift]
  · by_cases h1 : x ∈ ts.nextVars
    · have h1' := h1
      simp only [TS.nextVars, List.mem_map] at h1'
      obtain ⟨y, hy, rfl⟩ := h1'
      simp [h0, h1, shift_shift, hy]
    · simp [h0, h1]

/-- **C19** The reversed transition relation relates states in exactly the opposite direction; initial and bad states are
exchanged. -/
theorem C19_reverse_semantics (ts : TS T) (hw : ts.WF) : ts.reverse.sem = ts.sem.rev := by
  have hstep : ts.reverse.sem.Step = ts.sem.rev.Step := by
    funext s t
    apply propext
    constructor
    · rintro ⟨ρ, h, h0, h1⟩
      exact ⟨ts.swapped ρ, (TS.reverseTransition_holds hw ρ).1 h, by rw [TS.swapped_state]; exact h1,
        by rw [TS.swapped_next hw]; exact h0⟩
    · rintro ⟨ρ, h, h0, h1⟩
      refine ⟨ts.swapped ρ, (TS.reverseTransition_holds hw _).2 ?_, ?_, ?_⟩
      · have : ts.swapped (ts.swapped ρ) = ρ := funext (TS.swapped_swapped hw ρ)
        rw [this]; exact h
      · exact (TS.swapped_state ρ).trans h1
      · exact (TS.swapped_next hw ρ).trans h0
  have hI : ts.reverse.sem.Init = ts.sem.rev.Init := rfl
  have hB : ts.reverse.sem.Bad = ts.sem.rev.Bad := rfl
  cases hr : ts.reverse.sem
  cases hr' : ts.sem.rev
  simp_all

theorem TS.reverseTransition_vars {ts : TS T} (hw : ts.WF) : ts.IsTransitionFormula ts.reverseTransition := by
  -- each variable of the result is the image of a variable of the original relation
  have hid : ts.stateVars = ts.stateVars.map (shift 0) := by
    have : shift 0 = id := by funext x; simp
    rw [this]; simp
  intro z hz
  unfold TS.reverseTransition at hz
  simp only [varSubstitute, Fla.mem_vars_subst] at hz
  obtain ⟨w, ⟨y, ⟨x, hx, hy⟩, hw'⟩, hz⟩ := hz
  have key : ∀ (K : List Var) (V : List (Tm T)) (a b : Var), b ∈ (SubstMap.fn (K.zip V) a).vars →
      (∃ t ∈ V, b ∈ t.vars ∧ a ∈ K) ∨ (b = a) := by
    intro K V a b hb
    unfold SubstMap.fn at hb
    cases hf : SubstMap.find (K.zip V) a with
    | none => rw [hf] at hb; simp [Tm.vars] at hb; exact Or.inr hb
    | some t =>
      rw [hf] at hb
      have := List.of_mem_zip (SubstMap.find_some_mem hf)
      exact Or.inl ⟨t, this.2, hb, this.1⟩
  -- third substitution
  rcases key _ _ _ _ hz with ⟨t, ht, hb, _⟩ | rfl
  · simp only [List.mem_map] at ht
    obtain ⟨u, hu, rfl⟩ := ht
    simp [Tm.vars] at hb; subst hb
    exact Or.inr (Or.inl hu)
  rcases key _ _ _ _ hw' with ⟨t, ht, hb, _⟩ | rfl
  · simp only [List.mem_map] at ht
    obtain ⟨u, hu, rfl⟩ := ht
    simp [Tm.vars] at hb; subst hb
    exact Or.inl hu
  rcases key _ _ _ _ hy with ⟨t, ht, hb, hk⟩ | rfl
  · -- impossible: helper variables are replaced by the third substitution
    exfalso
    simp only [List.mem_map] at ht
    obtain ⟨u, ⟨v, hv, rfl⟩, rfl⟩ := ht
    simp [Tm.vars] at hb; subst hb
    have e3 : SubstMap.fn (T := T) ((ts.stateVars.map (shift 2)).zip (ts.nextVars.map Tm.var)) (shift 2 v)
        = .var (shift 1 v) :=
      SubstMap.fn_zip_map (T := T) (f := shift 2) (g := shift 1) (map_shift_nodup hw.nodup 2) hv
    rw [e3] at hz
    simp [Tm.vars] at hz
    exact shift_ne (hw.stateCur _ hv) (hw.stateCur _ hv) (by decide) hz
  · exact hw.trans _ hx

/-- **C19** Reversing gives a well-formed system again. -/
theorem C19_reverse_wf (ts : TS T) (hw : ts.WF) : ts.reverse.WF where
  init := hw.query
  query := hw.init
  trans := TS.reverseTransition_vars hw
  stateCur := hw.stateCur
  auxCur := hw.auxCur
  nodup := hw.nodup
  sep := hw.sep

/-- **C19** The reversed system has a bad path of length `n` iff the original has; so one is safe iff the other is. -/
theorem C19_reverse_badIn (ts : TS T) (hw : ts.WF) (n : Nat) : ts.reverse.sem.BadIn n ↔ ts.sem.BadIn n := by
  rw [C19_reverse_semantics ts hw]
  constructor
  · rintro ⟨t, ⟨s, hs, p⟩, hb⟩
    exact ⟨s, ⟨t, hb, STS.Path.rev (M := ts.sem.rev) p⟩, hs⟩
  · rintro ⟨t, ⟨s, hs, p⟩, hb⟩
    exact ⟨s, ⟨t, hb, p.rev⟩, hs⟩

theorem C19_reverse_safe (ts : TS T) (hw : ts.WF) : ts.reverse.sem.Safe ↔ ts.sem.Safe := by
  simp only [STS.Safe, STS.Unsafe, C19_reverse_badIn ts hw]

/-- **C19** The negation of a safe inductive invariant of the reversed system is one of the original system
(`Kind::invariantFromBackwardInduction`, `src/engine/Kind.cc:136-143`). -/
theorem C19_reverse_invariant (ts : TS T) (hw : ts.WF) (I : Fla T) (hI : ts.Over I)
    (h : ts.reverse.sem.SafeInductive (ts.reverse.den I)) : ts.sem.SafeInductive (ts.den (.not I)) := by
  have hI' : ts.Over (.not I) := hI
  rw [C19_reverse_semantics ts hw] at h
  have hd : ts.reverse.den I = ts.den I := rfl
  rw [hd] at h
  refine ⟨⟨?_, ?_⟩, ?_⟩
  · intro s hs
    obtain ⟨ρ, h1, rfl⟩ := hs
    refine (TS.den_iff hI').2 fun hn => ?_
    exact h.safe _ ((TS.den_iff hI).2 hn) ⟨ρ, h1, rfl⟩
  · rintro s t hs hst
    obtain ⟨ρ, ht⟩ := TS.rep_tgt hst
    obtain ⟨ρ', hs'⟩ := TS.rep_src hst
    subst ht; subst hs'
    refine (TS.den_iff hI').2 fun hn => ?_
    exact (TS.den_iff hI').1 hs ((TS.den_iff hI).1 (h.step _ _ ((TS.den_iff hI).2 hn) hst))
  · intro s hs hb
    obtain ⟨ρ, h1, rfl⟩ := hb
    exact (TS.den_iff hI').1 hs ((TS.den_iff hI).1 (h.init _ ⟨ρ, h1, rfl⟩))

/-- **C19** Reversing twice gives an equivalent transition formula. -/
theorem C19_reverse_twice (ts : TS T) (hw : ts.WF) (ρ : Valuation T) :
    ts.reverse.reverse.trans.holds ρ ↔ ts.trans.holds ρ := by
  have h1 := TS.reverseTransition_holds (C19_reverse_wf ts hw) ρ
  have h2 := TS.reverseTransition_holds hw (ts.reverse.swapped ρ)
  have h3 : ts.swapped (ts.reverse.swapped ρ) = ρ := funext (TS.swapped_swapped hw ρ)
  rw [h3] at h2
  exact h1.trans h2

/-- A concrete system: one Boolean state variable `x` and one auxiliary variable `a`; `x' = a ∧ ¬x`. -/
def exTS : TS propTheory where
  stateVars := [.ver (.user "x") 0]
  auxVars := [.ver (.user "a") 0]
  init := .not (.atom (.var (.ver (.user "x") 0)))
  trans := .iff (.atom (.var (.ver (.user "x") 1)))
    (.and (.atom (.var (.ver (.user "a") 0))) (.not (.atom (.var (.ver (.user "x") 0)))))
  query := .atom (.var (.ver (.user "x") 0))

theorem exTS_wf : exTS.WF where
  init := by intro x hx; simp [exTS, Fla.vars, Tm.vars] at *; exact Or.inl hx
  query := by intro x hx; simp [exTS, Fla.vars, Tm.vars] at *; exact Or.inl hx
  trans := by
    intro x hx
    simp [exTS, Fla.vars, Tm.vars, TS.nextVars, shift] at *
    rcases hx with rfl | rfl | rfl <;> simp
  stateCur := by intro x hx; simp [exTS] at hx; subst hx; rfl
  auxCur := by intro x hx; simp [exTS] at hx; subst hx; rfl
  nodup := by simp [exTS]
  sep := by intro x hx; simp [exTS] at *; subst hx; simp

theorem exTS_noAux : exTS.NoAux where
  init := by intro x hx; simp [exTS, Fla.vars, Tm.vars] at *; exact hx
  query := by intro x hx; simp [exTS, Fla.vars, Tm.vars] at *; exact hx

/-- A run of `exTS`: `x` is false, then true. -/
def exTSVal : Valuation propTheory := fun x => x == .ver (.user "x") 1 || x == .ver (.user "a") 0

/-- The concrete system meets the hypotheses, is unsafe in one step, and so is its reverse. -/
theorem C19_example : exTS.WF ∧ exTS.sem.BadIn 1 ∧ exTS.reverse.sem.BadIn 1 := by
  have h : exTS.sem.BadIn 1 := by
    refine TS.unroll_sound (ρ := exTSVal) ⟨?_, ?_⟩ ?_
    · decide +kernel
    · intro i hi
      have : i = 0 := by omega
      subst this
      decide +kernel
    · decide +kernel
  exact ⟨exTS_wf, h, (C19_reverse_badIn exTS exTS_wf 1).2 h⟩

end Golem
