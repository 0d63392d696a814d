import Verif.Model.Termination.StepCounter
import Verif.Props.SpacerClauses

/-! The step counter (`src/termination/ReachabilityTerm.cc`). -/

namespace Golem

theorem absTm_eval (ρ : Valuation ctrTheory) (x : Var) : (absTm x).eval ρ = ((Int.natAbs (ρ x) : Nat) : Int) := by
  generalize hv : ρ x = v
  show (if (if (ρ x : Int) ≥ 0 then (1 : Int) else 0) ≠ 0 then (ρ x : Int) else -(ρ x : Int)) = _
  rw [hv]
  have : ∀ v : Int, (if (if v ≥ 0 then (1 : Int) else 0) ≠ 0 then v else -v) = ((Int.natAbs v : Nat) : Int) := by
    intro v
    by_cases h : v ≥ 0
    · rw [if_pos (by rw [if_pos h]; decide)]; omega
    · rw [if_neg (by rw [if_neg h]; decide)]; omega
  exact this v

theorem sumTm_eval (ρ : Valuation ctrTheory) : ∀ l : List Var,
    (sumTm (l.map absTm)).eval ρ = (((l.map fun x => Int.natAbs (ρ x)).sum : Nat) : Int)
  | [] => rfl
  | [x] => by simp [sumTm, absTm_eval]
  | x :: y :: l => by
    have ih := sumTm_eval ρ (y :: l)
    have h1 := absTm_eval ρ x
    show (show Int from (absTm x).eval ρ) + (show Int from (sumTm ((y :: l).map absTm)).eval ρ) = _
    rw [ih, h1]
    simp

theorem measureTm_eval (isInt : Var → Bool) (vars : List Var) (ρ : Valuation ctrTheory) :
    (measureTm isInt vars).eval ρ = ((sizeOfState (vars.map isInt) (vars.map ρ) : Nat) : Int) := by
  have hany : (vars.map isInt).any id = !((vars.filter isInt).map absTm).isEmpty := by
    induction vars with
    | nil => rfl
    | cons x l ih =>
      by_cases hx : isInt x = true
      · simp [hx]
      · simp only [Bool.not_eq_true] at hx
        simpa [hx] using ih
  unfold measureTm sizeOfState
  rw [hany]
  by_cases he : ((vars.filter isInt).map absTm).isEmpty = true
  · simp only [he, if_true, Bool.not_true, Bool.false_eq_true, if_false]; rfl
  · simp only [he, Bool.not_false, if_true, if_false, Bool.false_eq_true, sumTm_eval]
    congr 2
    clear he hany
    induction vars with
    | nil => rfl
    | cons x l ih =>
      by_cases hx : isInt x = true
      · simp [hx, ih]
      · simp only [Bool.not_eq_true] at hx
        simp [hx, ih]

/-- Change the counter now and in the next state. -/
def withCounter (ρ : Valuation ctrTheory) (c d : Int) : Valuation ctrTheory := fun x =>
  if x = counter0 then c else if x = counter1 then d else ρ x

section
variable {ts : TS ctrTheory} {isInt : Var → Bool} {m : Nat}

/-- No variable of the system is called `counter`. -/
def CounterFresh (ts : TS ctrTheory) : Prop := ∀ x ∈ ts.stateVars ++ ts.auxVars, x ≠ counter0

theorem counter_ne (hv : ts.Versioned) (hf : CounterFresh ts) :
    (∀ x ∈ ts.stateVars, x ≠ counter0 ∧ x ≠ counter1) ∧ (∀ x ∈ ts.nextVars, x ≠ counter0 ∧ x ≠ counter1) ∧
    ∀ x ∈ ts.auxVars, x ≠ counter0 ∧ x ≠ counter1 := by
  have key : ∀ n : Name, Var.ver n 0 ≠ counter1 := fun n h => by
    have : (0 : Int) = 0 + 1 := by simpa [counter1, counter0, shift] using (Var.ver.inj h).2
    omega
  refine ⟨fun x hx => ⟨hf x (by simp [hx]), ?_⟩, ?_, fun x hx => ⟨hf x (by simp [hx]), ?_⟩⟩
  · obtain ⟨n, rfl⟩ := hv.state x hx; exact key n
  · intro x hx
    obtain ⟨y, hy, rfl⟩ := List.mem_map.1 hx
    have h0 := hf y (by simp [hy])
    obtain ⟨n, rfl⟩ := hv.state y hy
    refine ⟨fun h => ?_, fun h => h0 ?_⟩
    · have : (0 : Int) + 1 = 0 := by simpa [counter0, shift] using (Var.ver.inj h).2
      omega
    · have : n = .user "counter" := by simpa [counter1, counter0, shift] using (Var.ver.inj h).1
      rw [this]; rfl
  · obtain ⟨n, rfl⟩ := hv.aux x hx; exact key n

theorem withCounter_map {l : List Var} {ρ : Valuation ctrTheory} {c d : Int} (h : ∀ x ∈ l, x ≠ counter0 ∧ x ≠ counter1) :
    l.map (withCounter ρ c d) = l.map ρ := List.map_congr_left fun x hx => by simp [withCounter, h x hx]

theorem withCounter_zero {ρ : Valuation ctrTheory} {c d : Int} : withCounter ρ c d counter0 = c := by simp [withCounter]
theorem withCounter_one {ρ : Valuation ctrTheory} {c d : Int} : withCounter ρ c d counter1 = d := by
  have : counter1 ≠ counter0 := by decide
  simp [withCounter, this]

theorem truth_iff (p : Prop) [Decidable p] : ctrTheory.truth (if p then (1 : Int) else 0 : Int) = true ↔ p := by
  show decide ((if p then (1 : Int) else 0) ≠ 0) = true ↔ p
  by_cases hp : p <;> simp [hp]

theorem counter_init (hw : ts.WF) (hv : ts.Versioned) (hf : CounterFresh ts) (u : List Int) :
    (counterSystem isInt m ts).sem.Init u ↔ ∃ (s : List Int) (c : Int), u = s ++ [c] ∧ ts.sem.Init s ∧
      c > m * (sizeOfState (ts.stateVars.map isInt) s : Int) := by
  obtain ⟨h1, h2, h3⟩ := counter_ne hv hf
  have hq : ∀ ρ : Valuation ctrTheory, (Fla.atom (T := ctrTheory) (.ap2 IntSym.gt (.var counter0)
      (.ap2 IntSym.times (intConst m) (measureTm isInt ts.stateVars)))).holds ρ ↔
      (ρ counter0 : Int) > m * (sizeOfState (ts.stateVars.map isInt) (ts.stateVars.map ρ) : Int) := by
    intro ρ
    rw [← measureTm_eval]
    exact truth_iff _
  constructor
  · rintro ⟨ρ, ⟨hi, hc⟩, rfl⟩
    exact ⟨ts.stateVars.map ρ, ρ counter0, by simp [counterSystem], ⟨ρ, hi, rfl⟩, (hq ρ).1 hc⟩
  · rintro ⟨s, c, rfl, ⟨ρ, hi, rfl⟩, hc⟩
    have hm := withCounter_map (ρ := ρ) (c := c) (d := c) h1
    refine ⟨withCounter ρ c c, ⟨(Fla.holds_congr fun x hx => ?_).2 hi, (hq _).2 ?_⟩, ?_⟩
    · have : x ≠ counter0 ∧ x ≠ counter1 := (hw.init x hx).elim (h1 x) (h3 x)
      simp [withCounter, this]
    · rw [hm, withCounter_zero]; exact hc
    · simp [counterSystem, hm, withCounter_zero]

theorem counter_step (hw : ts.WF) (hv : ts.Versioned) (hf : CounterFresh ts) (u v : List Int) :
    (counterSystem isInt m ts).sem.Step u v ↔ ∃ (s t : List Int) (c : Int), u = s ++ [c] ∧ v = t ++ [c - 1] ∧
      ts.sem.Step s t := by
  obtain ⟨h1, h2, h3⟩ := counter_ne hv hf
  have hn : (counterSystem isInt m ts).nextVars = ts.nextVars ++ [counter1] := by
    simp [TS.nextVars, counterSystem, counter1]
  constructor
  · rintro ⟨ρ, ⟨ht, hc⟩, rfl, rfl⟩
    have hc' : (ρ counter1 : Int) = ρ counter0 - 1 := hc
    refine ⟨ts.stateVars.map ρ, ts.nextVars.map ρ, ρ counter0, by simp [counterSystem], ?_, ⟨ρ, ht, rfl, rfl⟩⟩
    rw [hn, ← hc']; simp
  · rintro ⟨s, t, c, rfl, rfl, ⟨ρ, ht, rfl, rfl⟩⟩
    refine ⟨withCounter ρ c (c - 1), ⟨(Fla.holds_congr fun x hx => ?_).2 ht, ?_⟩, ?_, ?_⟩
    · have : x ≠ counter0 ∧ x ≠ counter1 := by
        rcases hw.trans x hx with h | h | h
        · exact h1 x h
        · exact h2 x h
        · exact h3 x h
      simp [withCounter, this]
    · show (withCounter ρ c (c - 1) counter1 : Int) = withCounter ρ c (c - 1) counter0 - 1
      rw [withCounter_zero, withCounter_one]
    · simp [counterSystem, withCounter_map h1, withCounter_zero]
    · rw [hn]; simp [withCounter_map h2, withCounter_one]

theorem counter_bad (u : List Int) (c : Int) (hv : ts.Versioned) (hf : CounterFresh ts) :
    (counterSystem isInt m ts).sem.Bad (u ++ [c]) ↔ c < 0 ∧ ts.Rep u := by
  obtain ⟨h1, -, -⟩ := counter_ne hv hf
  have hq : ∀ ρ : Valuation ctrTheory, (Fla.atom (T := ctrTheory) (.ap2 IntSym.lt (.var counter0) (intConst 0))).holds ρ ↔
      (ρ counter0 : Int) < 0 := fun ρ => truth_iff _
  constructor
  · rintro ⟨ρ, hh, e⟩
    simp only [counterSystem, List.map_append, List.map_cons, List.map_nil] at e
    obtain ⟨e1, e2⟩ := List.append_inj' e rfl
    simp only [List.cons.injEq, and_true] at e2
    exact ⟨e2 ▸ (hq ρ).1 hh, ρ, e1⟩
  · rintro ⟨hc, ρ, rfl⟩
    refine ⟨withCounter ρ c c, (hq _).2 (by rw [withCounter_zero]; exact hc), ?_⟩
    simp [counterSystem, withCounter_map h1, withCounter_zero]

theorem counter_path (hw : ts.WF) (hv : ts.Versioned) (hf : CounterFresh ts) {n : Nat} {s u : List Int} {c : Int}
    (h : (counterSystem isInt m ts).sem.Path n (s ++ [c]) u) : ∃ t, u = t ++ [c - n] ∧ ts.sem.Path n s t := by
  generalize hs : s ++ [c] = s0 at h
  induction h with
  | refl => exact ⟨s, by simp [hs], .refl _⟩
  | snoc hp st ih =>
    obtain ⟨t, rfl, ht⟩ := ih hs
    obtain ⟨s1, t1, c1, e1, rfl, h1⟩ := (counter_step hw hv hf _ _).1 st
    obtain ⟨rfl, e2⟩ := List.append_inj' e1 rfl
    simp only [List.cons.injEq, and_true] at e2
    refine ⟨t1, ?_, .snoc ht h1⟩
    rw [← e2]
    congr 2
    omega

theorem counter_path' (hw : ts.WF) (hv : ts.Versioned) (hf : CounterFresh ts) {n : Nat} {s t : List Int} (c : Int)
    (h : ts.sem.Path n s t) : (counterSystem isInt m ts).sem.Path n (s ++ [c]) (t ++ [c - n]) := by
  induction h with
  | refl => simpa using STS.Path.refl _
  | snoc hp st ih =>
    refine .snoc ih ((counter_step hw hv hf _ _).2 ⟨_, _, _, rfl, ?_, st⟩)
    congr 2
    omega

/-- The clauses handed to the engine are unsafe iff some run is longer than the bound. -/
theorem counter_unsafe (hw : ts.WF) (hv : ts.Versioned) (hf : CounterFresh ts) :
    (counterSystem isInt m ts).sem.Unsafe ↔
      ¬ ts.sem.BoundedBy fun s => m * sizeOfState (ts.stateVars.map isInt) s + 1 := by
  constructor
  · rintro ⟨n, u, ⟨s, hi, hp⟩, hb⟩ hB
    obtain ⟨s, c, rfl, hi, hc⟩ := (counter_init hw hv hf _).1 hi
    obtain ⟨t, rfl, hpt⟩ := counter_path hw hv hf hp
    have h1 := ((counter_bad _ _ hv hf).1 hb).1
    have h2 : n ≤ m * sizeOfState (ts.stateVars.map isInt) s + 1 := hB s hi n t hpt
    have h3 : ((m * sizeOfState (ts.stateVars.map isInt) s : Nat) : Int) < c := by push_cast; exact hc
    omega
  · intro hB
    simp only [STS.BoundedBy, Classical.not_forall] at hB
    obtain ⟨s, hi, n, t, hp, hlt⟩ := hB
    let c : Int := ((m * sizeOfState (ts.stateVars.map isInt) s : Nat) : Int) + 1
    have hrep : ts.Rep t := by
      cases hp with
      | refl => exact TS.rep_init hi
      | snoc _ st => exact TS.rep_tgt st
    refine ⟨n, t ++ [c - n], ⟨s ++ [c], (counter_init hw hv hf _).2 ⟨s, c, rfl, hi, ?_⟩, counter_path' hw hv hf c hp⟩,
      (counter_bad _ _ hv hf).2 ⟨?_, hrep⟩⟩
    · simp only [c]; push_cast; omega
    · have : c < n := by simp only [c]; omega
      omega

theorem counter_vars (hw : ts.WF) (hv : ts.Versioned) :
    (∀ x ∈ (counterSystem isInt m ts).stateVars, ∃ n, x = .ver n 0) ∧
    (∀ x ∈ (counterSystem isInt m ts).init.vars, x.Untagged) ∧
    (∀ x ∈ (counterSystem isInt m ts).trans.vars, x.Untagged) ∧
    (∀ x ∈ (counterSystem isInt m ts).query.vars, x.Untagged) := by
  have hs : ∀ x ∈ ts.stateVars, x.Untagged := fun x hx => by obtain ⟨n, rfl⟩ := hv.state x hx; trivial
  have hn : ∀ x ∈ ts.nextVars, x.Untagged := fun x hx => by
    obtain ⟨y, hy, rfl⟩ := List.mem_map.1 hx
    obtain ⟨n, rfl⟩ := hv.state y hy; trivial
  have ha : ∀ x ∈ ts.auxVars, x.Untagged := fun x hx => by obtain ⟨n, rfl⟩ := hv.aux x hx; trivial
  have h0 : counter0.Untagged := trivial
  have h1 : counter1.Untagged := trivial
  have hsum : ∀ l : List Var, ∀ x ∈ (sumTm (l.map absTm)).vars, x ∈ l := by
    intro l
    induction l with
    | nil => intro x hx; simp [sumTm, intConst, Tm.vars] at hx
    | cons y l ih =>
      intro x hx
      have habs : ∀ x ∈ (absTm y).vars, x = y := by
        intro x hx; simpa [absTm, Tm.vars, intConst] using hx
      cases l with
      | nil => simp [habs x hx]
      | cons z l =>
        have hx' : x ∈ (absTm y).vars ++ (sumTm ((z :: l).map absTm)).vars := hx
        rcases List.mem_append.1 hx' with h | h
        · simp [habs x h]
        · exact List.mem_cons_of_mem _ (ih x h)
  have hm : ∀ x ∈ (measureTm isInt ts.stateVars).vars, x.Untagged := by
    intro x hx
    unfold measureTm at hx
    simp only at hx
    split at hx
    · simp [intConst, Tm.vars] at hx
    · exact hs x (List.mem_of_mem_filter (hsum _ x hx))
  refine ⟨?_, ?_, ?_, ?_⟩
  · intro x hx
    rcases List.mem_append.1 hx with h | h
    · exact hv.state x h
    · exact ⟨_, List.mem_singleton.1 h⟩
  · intro x hx
    have hx' : x ∈ ts.init.vars ++ ([counter0] ++ ([] ++ (measureTm isInt ts.stateVars).vars)) := hx
    simp only [List.mem_append, List.mem_singleton, List.not_mem_nil, false_or] at hx'
    rcases hx' with h | rfl | h
    · exact (hw.init x h).elim (hs x) (ha x)
    · exact h0
    · exact hm x h
  · intro x hx
    have hx' : x ∈ ts.trans.vars ++ ([counter1] ++ ([counter0] ++ [])) := hx
    simp only [List.mem_append, List.mem_singleton, List.not_mem_nil, or_false] at hx'
    rcases hx' with h | rfl | rfl
    · rcases hw.trans x h with h | h | h
      · exact hs x h
      · exact hn x h
      · exact ha x h
    · exact h1
    · exact h0
  · intro x hx
    have hx' : x ∈ [counter0] ++ [] := hx
    simp only [List.append_nil, List.mem_singleton] at hx'
    subst hx'; exact h0

/-- The clauses for one multiplier. -/
def counterClauses (k : Nat) (isInt : Var → Bool) (m : Nat) (ts : TS ctrTheory) : List (Clause ctrTheory) :=
  let c := counterSystem isInt m ts
  systemClauses k c.stateVars c.init c.trans c.query

theorem counter_answer {E : Engine ctrTheory} {k : Nat} (hw : ts.WF) (hv : ts.Versioned) (hf : CounterFresh ts)
    (hE : E.RightOn (counterClauses k isInt m ts)) {r : VerificationResult ctrTheory}
    (h : solveClauses E (counterClauses k isInt m ts) = .done r) :
    (r.answer = .safe → ts.sem.BoundedBy fun s => m * sizeOfState (ts.stateVars.map isInt) s + 1) ∧
    (r.answer = .unsafeAns → ¬ ts.sem.BoundedBy fun s => m * sizeOfState (ts.stateVars.map isInt) s + 1) := by
  obtain ⟨h1, h2, h3, h4⟩ := counter_vars (isInt := isInt) (m := m) hw hv
  have hr := solveClauses_right systemClauses_arity (systemClauses_user h1 h2 h3 h4) hE h
  have hs : (mkTS (counterSystem isInt m ts).stateVars (counterSystem isInt m ts).init (counterSystem isInt m ts).trans
    (counterSystem isInt m ts).query).sem = (counterSystem isInt m ts).sem := rfl
  rw [systemClauses_unsafe, hs, counter_unsafe hw hv hf] at hr
  exact ⟨fun h => Classical.not_not.1 (hr.2 h), hr.1⟩

/-- The multipliers that are tried. -/
def multipliers : List Nat := [1, 2, 4, 8, 16, 32]

theorem stepCounterLoop_ok {E : Engine ctrTheory} {k : Nat} (hw : ts.WF) (hv : ts.Versioned) (hf : CounterFresh ts)
    (hE : ∀ m ∈ multipliers, E.RightOn (counterClauses k isInt m ts)) :
    ∀ (fuel j : Nat), j ≤ 6 → 6 - j < fuel →
      match stepCounterLoop E k isInt ts fuel (2 ^ j) with
      | .done .yes => ∃ m ∈ multipliers, ts.sem.BoundedBy fun s => m * sizeOfState (ts.stateVars.map isInt) s + 1
      | .done .no => False
      | .done .unknown => ∀ i, j ≤ i → i < 6 → ¬ ts.sem.BoundedBy fun s => 2 ^ i * sizeOfState (ts.stateVars.map isInt) s + 1
      | .done .error => ∃ m ∈ multipliers, ∃ r, solveClauses E (counterClauses k isInt m ts) = .done r ∧ r.answer = .unknown
      | .thrown => ∃ m ∈ multipliers, solveClauses E (counterClauses k isInt m ts) = .thrown
      | .outOfFuel => ∃ m ∈ multipliers, solveClauses E (counterClauses k isInt m ts) = .outOfFuel := by
  intro fuel
  induction fuel with
  | zero => intro j _ h; omega
  | succ fuel ih =>
    intro j hj hfu
    simp only [stepCounterLoop]
    by_cases h6 : j = 6
    · subst h6
      rw [if_neg (by decide)]
      intro i h1 h2; omega
    · have hlt : 2 ^ j < 64 := Nat.pow_lt_pow_right (a := 2) (by decide) (show j < 6 by omega)
      rw [if_pos hlt]
      have hm : 2 ^ j ∈ multipliers := by
        have : j = 0 ∨ j = 1 ∨ j = 2 ∨ j = 3 ∨ j = 4 ∨ j = 5 := by omega
        rcases this with rfl | rfl | rfl | rfl | rfl | rfl <;> decide
      change match (match solveClauses E (counterClauses k isInt (2 ^ j) ts) with
        | .done r => match r.answer with
          | .safe => .done .yes
          | .unknown => .done .error
          | .unsafeAns => stepCounterLoop E k isInt ts fuel (2 ^ j * 2)
        | .thrown => .thrown
        | .outOfFuel => .outOfFuel : Outcome TermAnswer) with
      | .done .yes => _
      | .done .no => _
      | .done .unknown => _
      | .done .error => _
      | .thrown => _
      | .outOfFuel => _
      cases hs : solveClauses E (counterClauses k isInt (2 ^ j) ts) with
      | thrown => exact ⟨_, hm, hs⟩
      | outOfFuel => exact ⟨_, hm, hs⟩
      | done r =>
        have hr := counter_answer hw hv hf (hE _ hm) hs
        cases ha : r.answer with
        | safe => simpa [ha] using ⟨_, hm, hr.1 ha⟩
        | unknown => simpa [ha] using ⟨_, hm, r, hs, ha⟩
        | unsafeAns =>
          have h2 := ih (j + 1) (by omega) (by omega)
          rw [Nat.pow_succ] at h2
          simp only [ha]
          revert h2
          cases hl : stepCounterLoop E k isInt ts fuel (2 ^ j * 2) with
          | thrown => exact id
          | outOfFuel => exact id
          | done a =>
            cases a with
            | yes => exact id
            | no => exact id
            | error => exact id
            | unknown =>
              intro h2 i h3 h4
              by_cases hij : i = j
              · subst hij; exact hr.2 ha
              · exact h2 i (by omega) h4

/-- C53. The step counter, on top of an engine that answers right on the clauses it is given: YES means that for one of the
multipliers every run from an initial state `s` has at most `m * |s| + 1` steps, where `|s|` sums the absolute values of
the integer components; hence every run is finite. UNKNOWN means that none of these bounds holds. NO is never answered,
and an error or a missing answer comes from the engine. -/
theorem C53_step_counter {E : Engine ctrTheory} {k : Nat} (hw : ts.WF) (hv : ts.Versioned) (hf : CounterFresh ts)
    (hE : ∀ m ∈ multipliers, E.RightOn (counterClauses k isInt m ts)) :
    (stepCounter E k isInt ts = .done .yes → ts.sem.Terminates ∧
      ∃ m ∈ [1, 2, 4, 8, 16, 32], ts.sem.BoundedBy fun s => m * sizeOfState (ts.stateVars.map isInt) s + 1) ∧
    (stepCounter E k isInt ts = .done .unknown → ∀ m ∈ [1, 2, 4, 8, 16, 32],
      ¬ ts.sem.BoundedBy fun s => m * sizeOfState (ts.stateVars.map isInt) s + 1) ∧
    stepCounter E k isInt ts ≠ .done .no ∧
    (stepCounter E k isInt ts = .outOfFuel → ∃ m ∈ multipliers,
      solveClauses E (counterClauses k isInt m ts) = .outOfFuel) := by
  have h := stepCounterLoop_ok (k := k) (isInt := isInt) hw hv hf hE 8 0 (by decide) (by decide)
  have e : stepCounterLoop E k isInt ts 8 (2 ^ 0) = stepCounter E k isInt ts := rfl
  rw [e] at h
  revert h
  cases stepCounter E k isInt ts with
  | thrown => simp
  | outOfFuel => intro h; exact ⟨by simp, by simp, by simp, fun _ => h⟩
  | done a =>
    cases a with
    | yes =>
      rintro ⟨m, hm, hB⟩
      exact ⟨fun _ => ⟨hB.terminates, m, hm, hB⟩, by simp, by simp, by simp⟩
    | no => simp
    | error => simp
    | unknown =>
      intro h
      refine ⟨by simp, fun _ m hm => ?_, by simp, by simp⟩
      simp only [List.mem_cons, List.not_mem_nil, or_false] at hm
      rcases hm with rfl | rfl | rfl | rfl | rfl | rfl
      · exact h 0 (by decide) (by decide)
      · exact h 1 (by decide) (by decide)
      · exact h 2 (by decide) (by decide)
      · exact h 3 (by decide) (by decide)
      · exact h 4 (by decide) (by decide)
      · exact h 5 (by decide) (by decide)

/-- C53 with Spacer as the engine: no assumption on the engine is left. -/
theorem C53_spacer {S : Smt ctrTheory} {M : Mbp ctrTheory} {simp : Fla ctrTheory → Fla ctrTheory} {logProof : Bool}
    {ord : List (Fla ctrTheory) → List (Fla ctrTheory)} {pick : Nat → Nat → List (Pob ctrTheory) → Nat} {hasArrays : Bool}
    {fuel : Nat} (hS : S.Sound) (hM : M.Sound) (hsimp : SimpOk simp) (hord : ∀ l f, f ∈ ord l ↔ f ∈ l) {k : Nat}
    (hw : ts.WF) (hv : ts.Versioned) (hf : CounterFresh ts) :
    (stepCounter (spacerEngine S M simp logProof ord pick hasArrays fuel) k isInt ts = .done .yes → ts.sem.Terminates ∧
      ∃ m ∈ [1, 2, 4, 8, 16, 32], ts.sem.BoundedBy fun s => m * sizeOfState (ts.stateVars.map isInt) s + 1) ∧
    (stepCounter (spacerEngine S M simp logProof ord pick hasArrays fuel) k isInt ts = .done .unknown →
      ∀ m ∈ [1, 2, 4, 8, 16, 32], ¬ ts.sem.BoundedBy fun s => m * sizeOfState (ts.stateVars.map isInt) s + 1) := by
  have h := C53_step_counter (E := spacerEngine S M simp logProof ord pick hasArrays fuel) (k := k) (isInt := isInt) hw hv hf
    (fun m _ => (spacer_system hS hM hsimp hord (counter_vars hw hv).1 (counter_vars hw hv).2.1 (counter_vars hw hv).2.2.1
      (counter_vars hw hv).2.2.2).right)
  exact ⟨h.1, h.2.1⟩

end

/-! ### Example -/
namespace StepEx

def x : Var := .ver (.user "x") 0
def x' : Var := .ver (.user "x") 1

/-- `while (x > 0) x := x - 1`, from any state. -/
def down : TS ctrTheory where
  stateVars := [x]
  auxVars := []
  init := .tt
  trans := .and (.atom (.ap2 IntSym.gt (.var x) (intConst 0))) (.eq (.var x') (.ap2 IntSym.minus (.var x) (intConst 1)))
  query := .ff

/-- `while (x > 0) skip`, from any state. -/
def stay : TS ctrTheory :=
  { down with trans := .and (.atom (.ap2 IntSym.gt (.var x) (intConst 0))) (.eq (.var x') (.var x)) }

theorem down_wf : down.WF := by
  refine ⟨fun y hy => by simp [down, Fla.vars] at hy, fun y hy => by simp [down, Fla.vars] at hy, ?_, ?_, by simp [down],
    by simp [down], by simp [down]⟩
  · intro y hy
    have : y = x ∨ y = x' := by simpa [down, Fla.vars, Tm.vars, intConst, or_comm, or_assoc] using hy
    rcases this with rfl | rfl
    · exact .inl (by simp [down])
    · exact .inr (.inl (by simp [down, TS.nextVars, x, x', shift]))
  · intro y hy
    have : y = x := by simpa [down] using hy
    subst this; rfl

theorem stay_wf : stay.WF := by
  refine ⟨fun y hy => by simp [stay, down, Fla.vars] at hy, fun y hy => by simp [stay, down, Fla.vars] at hy, ?_, ?_,
    by simp [stay, down], by simp [stay, down], by simp [stay, down]⟩
  · intro y hy
    have : y = x ∨ y = x' := by simpa [stay, Fla.vars, Tm.vars, intConst, or_comm, or_assoc] using hy
    rcases this with rfl | rfl
    · exact .inl (by simp [stay, down])
    · exact .inr (.inl (by simp [stay, down, TS.nextVars, x, x', shift]))
  · intro y hy
    have : y = x := by simpa [stay, down] using hy
    subst this; rfl

theorem down_versioned : down.Versioned :=
  ⟨fun y hy => ⟨.user "x", by simpa [down, x] using hy⟩, fun y hy => by simp [down] at hy⟩
theorem stay_versioned : stay.Versioned :=
  ⟨fun y hy => ⟨.user "x", by simpa [stay, down, x] using hy⟩, fun y hy => by simp [stay, down] at hy⟩
theorem down_fresh : CounterFresh down := by
  intro y hy h
  have : y = x := by simpa [down] using hy
  rw [this] at h; revert h; decide
theorem stay_fresh : CounterFresh stay := by
  intro y hy h
  have : y = x := by simpa [stay, down] using hy
  rw [this] at h; revert h; decide

theorem down_path {n : Nat} {v : Int} {t : List Int} (h : down.sem.Path n [v] t) : (n : Int) ≤ v.natAbs ∧ t = [v - n] := by
  generalize hs : [v] = s at h
  induction h with
  | refl => subst hs; simp
  | snoc hp st ih =>
    obtain ⟨h1, rfl⟩ := ih hs
    rename_i n _ _
    obtain ⟨ρ, ⟨hg, he⟩, e1, rfl⟩ := st
    have hg' : (ρ x : Int) > 0 := (truth_iff _).1 hg
    have he' : (ρ x' : Int) = ρ x - 1 := he
    have e : (ρ x : Int) = v - n := by simpa [down] using e1
    have e2 : down.nextVars.map ρ = [ρ x'] := by simp [down, TS.nextVars, x, x', shift]
    rw [e2, he', e]
    rw [e] at hg'
    have h2 : v - (n : Int) > 0 := hg'
    refine ⟨?_, ?_⟩
    · show ((n + 1 : Nat) : Int) ≤ (v.natAbs : Int)
      omega
    · have h3 : v - (n : Int) - 1 = v - ((n + 1 : Nat) : Int) := by omega
      exact congrArg (fun a : Int => [a]) h3

theorem down_bounded (m : Nat) (hm : 1 ≤ m) :
    down.sem.BoundedBy fun s => m * sizeOfState (down.stateVars.map fun _ => true) s + 1 := by
  rintro s ⟨ρ, -, rfl⟩ n t hp
  have hp' : down.sem.Path n [ρ x] t := hp
  obtain ⟨h, -⟩ := down_path hp'
  have : sizeOfState (down.stateVars.map fun _ => true) (down.stateVars.map ρ) = (ρ x : Int).natAbs := by
    simp [down, sizeOfState]
  show n ≤ m * sizeOfState _ _ + 1
  rw [this]
  have : (ρ x : Int).natAbs ≤ m * (ρ x : Int).natAbs := Nat.le_mul_of_pos_left _ hm
  omega

theorem stay_unbounded (b : List Int → Nat) : ¬ stay.sem.BoundedBy b := by
  have hst : stay.sem.Step [(1 : Int)] [(1 : Int)] := by
    refine ⟨fun _ => (1 : Int), ⟨(truth_iff ((1 : Int) > 0)).2 (by decide), rfl⟩, rfl, ?_⟩
    simp [stay, down, TS.nextVars]
  have hp : ∀ n, stay.sem.Path n [(1 : Int)] [(1 : Int)] := fun n => by
    induction n with
    | zero => exact .refl _
    | succ n ih => exact .snoc ih hst
  intro h
  have := h [(1 : Int)] ⟨fun _ => (1 : Int), trivial, rfl⟩ (b [(1 : Int)] + 1) _ (hp _)
  omega

/-- An engine with a fixed answer. -/
def constEngine (a : VAnswer) : Engine ctrTheory := fun _ _ => .done ⟨a, .none⟩

/-- The hypotheses of C53 are met, and both answers occur: a loop that counts down, and a loop that does nothing. -/
theorem C53_example :
    down.WF ∧ down.Versioned ∧ CounterFresh down ∧
    (∀ m ∈ multipliers, (constEngine .safe).RightOn (counterClauses 0 (fun _ => true) m down)) ∧
    stepCounter (constEngine .safe) 0 (fun _ => true) down = .done .yes ∧
    stay.WF ∧ stay.Versioned ∧ CounterFresh stay ∧
    (∀ m ∈ multipliers, (constEngine .unsafeAns).RightOn (counterClauses 0 (fun _ => true) m stay)) ∧
    stepCounter (constEngine .unsafeAns) 0 (fun _ => true) stay = .done .unknown := by
  refine ⟨down_wf, down_versioned, down_fresh, ?_, rfl, stay_wf, stay_versioned, stay_fresh, ?_, rfl⟩
  · intro m hm r hr
    cases hr
    have hm1 : 1 ≤ m := by
      simp only [multipliers, List.mem_cons, List.not_mem_nil, or_false] at hm; omega
    obtain ⟨h1, h2, h3, h4⟩ := counter_vars (isInt := fun _ => true) (m := m) down_wf down_versioned
    refine ⟨by simp, fun _ hu => ?_⟩
    have := (C04_input_to_graph _ _ systemClauses_arity (systemClauses_user h1 h2 h3 h4) _).1 hu
    exact (counter_unsafe down_wf down_versioned down_fresh).1 (systemClauses_unsafe.1 this) (down_bounded m hm1)
  · intro m hm r hr
    cases hr
    obtain ⟨h1, h2, h3, h4⟩ := counter_vars (isInt := fun _ => true) (m := m) stay_wf stay_versioned
    refine ⟨fun _ => ?_, by simp⟩
    refine (C04_input_to_graph _ _ systemClauses_arity (systemClauses_user h1 h2 h3 h4) _).2 ?_
    exact systemClauses_unsafe.2 ((counter_unsafe stay_wf stay_versioned stay_fresh).2 (stay_unbounded _))

end StepEx
end Golem
