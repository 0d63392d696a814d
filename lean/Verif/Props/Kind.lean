import Verif.Props.Bmc

/-! # C24: k-induction -/

namespace Golem
variable {T : Theory}

theorem TS.NoAux.reverse {ts : TS T} (h : ts.NoAux) : ts.reverse.NoAux := ⟨h.query, h.init⟩

/-- The stack of one induction-step solver: start in `init`, never return to it. -/
def stepStack (ts : TS T) : Nat → List (Fla T)
  | 0 => [ts.init]
  | k + 1 => stepStack ts k ++ [sendFla ts.trans k, sendFla (.not ts.init) ((k : Int) + 1)]

theorem allHold_stepStack {ts : TS T} {ρ : Valuation T} : ∀ {k : Nat}, AllHold ρ (stepStack ts k) ↔
    ts.init.holds ρ ∧ ∀ i : Nat, i < k → (sendFla ts.trans i).holds ρ ∧ ¬ (sendFla ts.init ((i : Int) + 1)).holds ρ
  | 0 => by simp [stepStack, AllHold]
  | k + 1 => by
    rw [stepStack, allHold_append, allHold_stepStack (k := k)]
    have hlast : AllHold ρ [sendFla ts.trans k, sendFla (.not ts.init) ((k : Int) + 1)] ↔
        (sendFla ts.trans k).holds ρ ∧ ¬ (sendFla ts.init ((k : Int) + 1)).holds ρ := by
      simp [AllHold, sendFla_holds]
    rw [hlast]
    constructor
    · rintro ⟨⟨h1, h2⟩, h3⟩
      refine ⟨h1, fun i hi => ?_⟩
      by_cases hik : i = k
      · subst hik; exact h3
      · exact h2 i (by omega)
    · rintro ⟨h1, h2⟩
      exact ⟨⟨h1, fun i hi => h2 i (by omega)⟩, h2 k (by omega)⟩

/-- If the step query is unsatisfiable, no path of `k` steps leads backwards through non-initial states into an initial
one. -/
theorem stepStack_unsat {ts : TS T} (hw : ts.WF) (hna : ts.NoAux) {k : Nat} (h : ¬ SatList (stepStack ts k)) :
    ∀ s t, ts.sem.rev.PathIn (fun s => ¬ ts.sem.Init s) k s t → ¬ ts.sem.Init t := by
  intro s t p hi
  obtain ⟨ss, h0, hk, hc, hp, hst⟩ := p.toSeq
  apply h
  have hstep : ∀ i, i < k → ts.sem.Step (ss (k - i)) (ss (k - (i + 1))) := by
    intro i hi
    have := hst (k - (i + 1)) (by omega)
    have e : k - (i + 1) + 1 = k - i := by omega
    rw [e] at this
    exact this
  have hrep : ∀ i, ts.Rep (ss (k - i)) := by
    intro i
    by_cases h0' : i = 0
    · subst h0'; rw [Nat.sub_zero, hk]; exact TS.rep_init hi
    · by_cases hik : i ≤ k
      · have := hstep (i - 1) (by omega)
        have e : i - 1 + 1 = i := by omega
        rw [e] at this
        exact TS.rep_tgt this
      · have e : k - i = k - k := by omega
        rw [e]
        by_cases hk0 : k = 0
        · subst hk0; rw [Nat.sub_zero, hk]; exact TS.rep_init hi
        · have := hstep (k - 1) (by omega)
          have e : k - 1 + 1 = k := by omega
          rw [e] at this
          exact TS.rep_tgt this
  obtain ⟨ρ, hρ, hT, hI, _⟩ := TS.realize hw (hna.auxSep hw) (fun i => ss (k - i)) hrep 0 0
  refine ⟨ρ, allHold_stepStack.2 ⟨?_, fun i hik => ⟨hT i (hstep i hik), fun hin => ?_⟩⟩⟩
  · have := hI (by simpa [hk] using hi)
    simpa [sendFla] using this
  · have h1 := TS.init_at hin
    have e : (i : Int) + 1 = ((i + 1 : Nat) : Int) := by omega
    rw [e, hρ (i + 1)] at h1
    exact hp (k - (i + 1)) (by omega) h1

theorem den_not_of {ts : TS T} {q : Fla T} (hq : ts.Over q) {s : TS.State T} (hr : ts.Rep s)
    (h : ¬ ts.den q s) : ts.den (.not q) s := by
  obtain ⟨ρ, rfl⟩ := hr
  exact ⟨ρ, fun hh => h ⟨ρ, hh, rfl⟩, rfl⟩

theorem den_not_elim {ts : TS T} {q : Fla T} (hq : ts.Over q) {s : TS.State T} (h : ts.den (.not q) s) :
    ¬ ts.den q s := by
  obtain ⟨ρ, hn, rfl⟩ := h
  intro hh
  exact hn ((TS.den_iff hq).1 hh)

/-- One direction of the induction step: "not bad" is 1-inductive. -/
theorem oneInductive {ts : TS T} (hw : ts.WF) (hna : ts.NoAux) (hb : ¬ ts.sem.BadIn 0)
    (h : ¬ SatList (stepStack ts.reverse 1)) : ts.sem.KInductive 1 (ts.den (.not ts.query)) where
  base := by
    intro m hm t hr
    have : m = 0 := by omega
    subst this
    have hrep : ts.Rep t := by
      obtain ⟨s, hs, p⟩ := hr
      cases p; exact TS.rep_init hs
    exact den_not_of hna.query hrep fun hd => hb ⟨t, hr, hd⟩
  step := by
    intro s t p
    have key := stepStack_unsat (C19_reverse_wf ts hw) hna.reverse h s t
    have hrep : ts.Rep t := by cases p with | snoc _ _ st => exact TS.rep_tgt st
    refine den_not_of hna.query hrep ?_
    refine key ?_
    rw [C19_reverse_semantics ts hw]
    cases p with
    | snoc p0 hP st =>
      cases p0
      exact .snoc (.refl _) (den_not_elim hna.query hP) st

theorem forward_invariant {S : Smt T} (hS : S.Sound) {ts : TS T} (hw : ts.WF) (hna : ts.NoAux)
    (hb : ¬ ts.sem.BadIn 0) {k : Nat} (h : ¬ SatList (stepStack ts.reverse k)) {I : Fla T}
    (hI : invariantFromForwardInduction S ts k = some I) : ts.Over I ∧ ts.sem.SafeInductive (ts.den I) := by
  have hq : ts.Over (.not ts.query) := hna.query
  have hres : ts.Over I ∧ ts.sem.Inductive (ts.den I) ∧ ∀ s, ts.den I s → ts.den (.not ts.query) s := by
    unfold invariantFromForwardInduction at hI
    by_cases hk : k = 1
    · subst hk
      exact C20_kinductiveToInductive S hS ts hw (hna.auxSep hw) _ hq 1 (oneInductive hw hna hb h) I hI
    · unfold kinductiveToInductive at hI
      rw [if_neg hk] at hI
      exact C20_unfoldSingleQuery S hS ts hw (hna.auxSep hw) _ hq k I hI
  exact ⟨hres.1, hres.2.1, fun s hs => den_not_elim hna.query (hres.2.2 s hs)⟩

theorem stepStack_reverse_reverse {ts : TS T} (hw : ts.WF) {k : Nat}
    (h : ¬ SatList (stepStack ts k)) : ¬ SatList (stepStack ts.reverse.reverse k) := by
  rintro ⟨ρ, hρ⟩
  refine h ⟨ρ, ?_⟩
  rw [allHold_stepStack] at hρ ⊢
  refine ⟨hρ.1, fun i hi => ⟨?_, (hρ.2 i hi).2⟩⟩
  have := (hρ.2 i hi).1
  rw [sendFla_holds] at this ⊢
  exact (C19_reverse_twice ts hw _).1 this

theorem backward_invariant {S : Smt T} (hS : S.Sound) {ts : TS T} (hw : ts.WF) (hna : ts.NoAux)
    (hb : ¬ ts.sem.BadIn 0) {k : Nat} (h : ¬ SatList (stepStack ts k)) {I : Fla T}
    (hI : invariantFromBackwardInduction S ts k = some I) : ts.Over I ∧ ts.sem.SafeInductive (ts.den I) := by
  unfold invariantFromBackwardInduction at hI
  rw [Option.map_eq_some_iff] at hI
  obtain ⟨J, hJ, rfl⟩ := hI
  have hwr := C19_reverse_wf ts hw
  have := forward_invariant hS hwr hna.reverse (by rw [C19_reverse_badIn ts hw]; exact hb)
    (stepStack_reverse_reverse hw h) hJ
  exact ⟨this.1, C19_reverse_invariant ts hw J this.1 this.2⟩

/-- Safety from the step query and the absence of short paths. -/
theorem step_safe {ts : TS T} (hw : ts.WF) (hna : ts.NoAux) {k : Nat} (hb : ∀ j, j < k → ¬ ts.sem.BadIn j)
    (h : ¬ SatList (stepStack ts.reverse k)) : ts.sem.Safe := by
  have hk : ts.sem.KInductive k (fun s => ¬ ts.sem.Bad s) := by
    refine ⟨fun m hm t hr hbad => hb m hm ⟨t, hr, hbad⟩, fun s t p => ?_⟩
    refine stepStack_unsat (C19_reverse_wf ts hw) hna.reverse h s t ?_
    rw [C19_reverse_semantics ts hw]
    exact p
  rintro ⟨n, t, hr, hbad⟩
  exact hk.reach n t hr hbad

theorem step_safe_backward {ts : TS T} (hw : ts.WF) (hna : ts.NoAux) {k : Nat} (hb : ∀ j, j < k → ¬ ts.sem.BadIn j)
    (h : ¬ SatList (stepStack ts k)) : ts.sem.Safe := by
  rw [← C19_reverse_safe ts hw]
  exact step_safe (C19_reverse_wf ts hw) hna.reverse (fun j hj => by rw [C19_reverse_badIn ts hw]; exact hb j hj)
    (stepStack_reverse_reverse hw h)

/-- What a run of the main loop can return. -/
theorem kindLoop_cases {S : Smt T} {w : Bool} {ts : TS T} :
    ∀ fuel k r, kindLoop S w ts fuel k (baseStack ts k) (stepStack ts.reverse k) (stepStack ts k) = r →
      r = .outOfFuel ∨ ∃ d, k ≤ d ∧
        (∀ j, k ≤ j → j < d → S.check (baseStack ts j ++ [sendFla ts.query j]) ≠ .sat ∧
          S.check (stepStack ts.reverse j) ≠ .unsat ∧ S.check (stepStack ts j) ≠ .unsat) ∧
        ((S.check (baseStack ts d ++ [sendFla ts.query d]) = .sat ∧ r = .done (.unsafeAt (if w then d else 0))) ∨
         (S.check (baseStack ts d ++ [sendFla ts.query d]) ≠ .sat ∧ S.check (stepStack ts.reverse d) = .unsat ∧
            r = kindSafe w (invariantFromForwardInduction S ts d)) ∨
         (S.check (baseStack ts d ++ [sendFla ts.query d]) ≠ .sat ∧ S.check (stepStack ts d) = .unsat ∧
            r = kindSafe w (invariantFromBackwardInduction S ts d))) := by
  intro fuel
  induction fuel with
  | zero => intro k r h; exact Or.inl h.symm
  | succ fuel ih =>
    intro k r h
    unfold kindLoop at h
    split at h
    · rename_i h1
      exact Or.inr ⟨k, Nat.le_refl _, fun j _ _ => by omega, Or.inl ⟨h1, h.symm⟩⟩
    rename_i h1
    split at h
    · rename_i h2
      exact Or.inr ⟨k, Nat.le_refl _, fun j _ _ => by omega, Or.inr (Or.inl ⟨h1, h2, h.symm⟩)⟩
    rename_i h2
    split at h
    · rename_i h3
      exact Or.inr ⟨k, Nat.le_refl _, fun j _ _ => by omega, Or.inr (Or.inr ⟨h1, h3, h.symm⟩)⟩
    rename_i h3
    rw [baseStack_succ] at h
    rcases ih (k + 1) r h with h' | ⟨d, hd, hj, hr⟩
    · exact Or.inl h'
    · refine Or.inr ⟨d, by omega, fun j hkj hjd => ?_, hr⟩
      by_cases hjk : j = k
      · subst hjk; exact ⟨h1, h2, h3⟩
      · exact hj j (by omega) hjd

/-- The same for the whole engine. -/
theorem kindSolve_cases {S : Smt T} {w : Bool} {ts : TS T} {fuel : Nat} {r}
    (h : kindSolve S w ts fuel = r) :
    (S.check [ts.init] = .unsat ∧ r = .done (.safeInv .ff)) ∨
      r = .outOfFuel ∨ ∃ d,
        (∀ j, j < d → S.check (baseStack ts j ++ [sendFla ts.query j]) ≠ .sat ∧
          S.check (stepStack ts.reverse j) ≠ .unsat ∧ S.check (stepStack ts j) ≠ .unsat) ∧
        ((S.check (baseStack ts d ++ [sendFla ts.query d]) = .sat ∧ r = .done (.unsafeAt (if w then d else 0))) ∨
         (S.check (baseStack ts d ++ [sendFla ts.query d]) ≠ .sat ∧ S.check (stepStack ts.reverse d) = .unsat ∧
            r = kindSafe w (invariantFromForwardInduction S ts d)) ∨
         (S.check (baseStack ts d ++ [sendFla ts.query d]) ≠ .sat ∧ S.check (stepStack ts d) = .unsat ∧
            r = kindSafe w (invariantFromBackwardInduction S ts d))) := by
  unfold kindSolve at h
  split at h
  · rename_i hu; exact Or.inl ⟨hu, h.symm⟩
  · rcases kindLoop_cases (S := S) (w := w) (ts := ts) fuel 0 r h with h' | ⟨d, _, hj, hr⟩
    · exact Or.inr (Or.inl h')
    · exact Or.inr (Or.inr ⟨d, fun j hj' => hj j (Nat.zero_le _) hj', hr⟩)

theorem kindSafe_safe {w : Bool} {o : Option (Fla T)} {I : Fla T} (h : kindSafe w o = .done (.safeInv I)) :
    (w = true ∧ o = some I) ∨ (w = false ∧ I = .tt) := by
  unfold kindSafe at h
  cases w
  · simp at h; exact Or.inr ⟨rfl, h.symm⟩
  · cases o <;> simp at h; exact Or.inl ⟨rfl, by rw [h]⟩

theorem kindSafe_not_unsafe {w : Bool} {o : Option (Fla T)} {k : Nat} (h : kindSafe w o = .done (.unsafeAt k)) : False := by
  unfold kindSafe at h
  cases w
  · simp at h
  · cases o <;> simp at h

theorem kindSafe_not_unknown {w : Bool} {o : Option (Fla T)} (h : kindSafe w o = .done .unknown) : False := by
  unfold kindSafe at h
  cases w
  · simp at h
  · cases o <;> simp at h

theorem base0_list (ts : TS T) : baseStack ts 0 ++ [sendFla ts.query (0 : Nat)] = [ts.init, ts.query] := by
  simp [baseStack, sendFla]

/-- **C24** UNSAFE is only answered if a bad state is reachable; with witness production the reported number is the length
of a path to it. This holds for every backend that is sound, whatever it does not know. -/
theorem C24_kind_unsafe (S : Smt T) (hS : S.Sound) (w : Bool) (ts : TS T) (fuel k : Nat)
    (h : kindSolve S w ts fuel = .done (.unsafeAt k)) : ts.sem.Unsafe ∧ (w = true → ts.sem.BadIn k) := by
  rcases kindSolve_cases h with ⟨_, h'⟩ | h' | ⟨d, hj, h' | h' | h'⟩
  · simp at h'
  · simp at h'
  · obtain ⟨h1, h2⟩ := h'
    have hb := base_sat hS h1
    refine ⟨⟨d, hb⟩, fun hw => ?_⟩
    simp only [hw, if_true, Outcome.done.injEq, TSResult.unsafeAt.injEq] at h2
    rw [h2]; exact hb
  · exact (kindSafe_not_unsafe h'.2.2.symm).elim
  · exact (kindSafe_not_unsafe h'.2.2.symm).elim

/-- **C24** With witness production, a SAFE answer carries a safe inductive invariant over the state variables; the only
thing the backend has to decide is whether an initial state is bad. -/
theorem C24_kind_safe_invariant (S : Smt T) (hS : S.Sound) (ts : TS T) (hw : ts.WF) (hna : ts.NoAux)
    (hdec : S.check [ts.init, ts.query] = .sat ∨ S.check [ts.init, ts.query] = .unsat) (fuel : Nat) (I : Fla T)
    (h : kindSolve S true ts fuel = .done (.safeInv I)) : ts.Over I ∧ ts.sem.SafeInductive (ts.den I) := by
  have hb0 : ∀ d, (∀ j, j < d → S.check (baseStack ts j ++ [sendFla ts.query j]) ≠ .sat) →
      S.check (baseStack ts d ++ [sendFla ts.query d]) ≠ .sat → ¬ ts.sem.BadIn 0 := by
    intro d hj hd
    have h0 : S.check (baseStack ts 0 ++ [sendFla ts.query (0 : Nat)]) ≠ .sat := by
      by_cases hd0 : d = 0
      · subst hd0; exact hd
      · exact hj 0 (by omega)
    refine base_unsat hS hw (hna.auxSep hw) ?_
    rw [base0_list] at h0 ⊢
    rcases hdec with h' | h'
    · exact absurd h' h0
    · exact h'
  rcases kindSolve_cases h with ⟨hu, h'⟩ | h' | ⟨d, hj, h' | h' | h'⟩
  · simp only [Outcome.done.injEq, TSResult.safeInv.injEq] at h'
    subst h'
    exact ⟨fun x hx => by simp [Fla.vars] at hx, safe_of_no_init (no_init hS hu)⟩
  · simp at h'
  · simp at h'
  · obtain ⟨h1, h2, h3⟩ := h'
    rcases kindSafe_safe h3.symm with ⟨_, e⟩ | ⟨e, _⟩
    · exact forward_invariant hS hw hna (hb0 d (fun j hjd => (hj j hjd).1) h1) (hS.unsat _ h2) e
    · cases e
  · obtain ⟨h1, h2, h3⟩ := h'
    rcases kindSafe_safe h3.symm with ⟨_, e⟩ | ⟨e, _⟩
    · exact backward_invariant hS hw hna (hb0 d (fun j hjd => (hj j hjd).1) h1) (hS.unsat _ h2) e
    · cases e

/-- **C24** The SAFE verdict is correct, with or without witness production, if the backend decides the base queries. -/
theorem C24_kind_safe (S : Smt T) (hS : S.Sound) (w : Bool) (ts : TS T) (hw : ts.WF) (hna : ts.NoAux)
    (hdec : ∀ j : Nat, S.check (baseStack ts j ++ [sendFla ts.query j]) = .sat ∨
      S.check (baseStack ts j ++ [sendFla ts.query j]) = .unsat) (fuel : Nat) (I : Fla T)
    (h : kindSolve S w ts fuel = .done (.safeInv I)) : ts.sem.Safe := by
  have hb : ∀ d : Nat, (∀ j : Nat, j < d → S.check (baseStack ts j ++ [sendFla ts.query j]) ≠ .sat) →
      ∀ j : Nat, j < d → ¬ ts.sem.BadIn j := by
    intro d hj j hjd
    refine base_unsat hS hw (hna.auxSep hw) ?_
    rcases hdec j with h' | h'
    · exact absurd h' (hj j hjd)
    · exact h'
  rcases kindSolve_cases h with ⟨hu, h'⟩ | h' | ⟨d, hj, h' | h' | h'⟩
  · exact (safe_of_no_init (no_init hS hu)).isSafe
  · simp at h'
  · simp at h'
  · exact step_safe hw hna (hb d fun j hjd => (hj j hjd).1) (hS.unsat _ h'.2.1)
  · exact step_safe_backward hw hna (hb d fun j hjd => (hj j hjd).1) (hS.unsat _ h'.2.1)

/-- **C24** With a backend that decides, a reachable bad state is found: the answer is UNSAFE with the length of a shortest
path (or 0 without witness production). -/
theorem C24_kind_finds (S : Smt T) (hS : S.Sound) (hc : S.Complete) (w : Bool) (ts : TS T) (hw : ts.WF) (hna : ts.NoAux)
    (d : Nat) (hb : ts.sem.BadIn d) (hmin : ∀ j, j < d → ¬ ts.sem.BadIn j) (fuel : Nat) (hf : d < fuel) :
    kindSolve S w ts fuel = .done (.unsafeAt (if w then d else 0)) := by
  have hs := hna.auxSep hw
  have key : ∀ fuel k, k ≤ d → d < fuel + k →
      kindLoop S w ts fuel k (baseStack ts k) (stepStack ts.reverse k) (stepStack ts k) =
        .done (.unsafeAt (if w then d else 0)) := by
    intro fuel
    induction fuel with
    | zero => intro k h1 h2; omega
    | succ fuel ih =>
      intro k h1 h2
      unfold kindLoop
      by_cases hk : k = d
      · subst hk
        rcases hc (baseStack ts k ++ [sendFla ts.query k]) with h | h
        · rw [if_pos h]
        · exact absurd hb (base_unsat hS hw hs h)
      · have hns : S.check (baseStack ts k ++ [sendFla ts.query k]) ≠ .sat := fun h =>
          hmin k (by omega) (base_sat hS h)
        have hnf : S.check (stepStack ts.reverse k) ≠ .unsat := fun h =>
          step_safe hw hna (fun j hj => hmin j (by omega)) (hS.unsat _ h) ⟨d, hb⟩
        have hnb : S.check (stepStack ts k) ≠ .unsat := fun h =>
          step_safe_backward hw hna (fun j hj => hmin j (by omega)) (hS.unsat _ h) ⟨d, hb⟩
        rw [if_neg hns, if_neg hnf, if_neg hnb, baseStack_succ]
        exact ih (k + 1) (by omega) (by omega)
  unfold kindSolve
  rw [if_neg]
  · exact key fuel 0 (Nat.zero_le _) (by omega)
  · intro h
    obtain ⟨t, ⟨s, hi, _⟩, _⟩ := hb
    exact no_init hS h s hi

theorem forward_isSome {S : Smt T} (hS : S.Sound) (hc : S.Complete) {ts : TS T} (hw : ts.WF) (hna : ts.NoAux) {k : Nat}
    (hb : ∀ j, j ≤ k → ¬ ts.sem.BadIn j) (h : ¬ SatList (stepStack ts.reverse k)) :
    (invariantFromForwardInduction S ts k).isSome := by
  unfold invariantFromForwardInduction kinductiveToInductive
  split
  · rfl
  by_cases hk : k = 0
  · subst hk
    unfold unfoldSingleQuery
    rcases hc (kQuery ts (.not ts.query) 0) with hq | hq
    · exfalso
      have := hS.sat _ hq
      apply h
      refine ⟨S.model (kQuery ts (.not ts.query) 0), allHold_stepStack.2 ⟨?_, fun i hi => by omega⟩⟩
      · have := this (.not (sendFla (.not ts.query) (0 : Nat))) (by simp [kQuery])
        have h2 : ¬ ¬ ts.query.holds (S.model (kQuery ts (.not ts.query) 0)) := by
          simpa [sendFla] using this
        exact Classical.not_not.1 h2
    · rw [if_pos hq]; rfl
  · refine C20_no_throw S hS hc ts (.not ts.query) hna.query k ⟨fun m hm t hr => ?_, fun s t p => ?_⟩
    · have hrep : ts.Rep t := by
        obtain ⟨s, hs, p⟩ := hr
        exact TS.rep_path (TS.rep_init hs) p
      exact den_not_of hna.query hrep fun hd => hb m (by omega) ⟨t, hr, hd⟩
    · have hrep : ts.Rep t := by
        cases p with
        | refl _ => exact absurd rfl hk
        | snoc _ _ st => exact TS.rep_tgt st
      refine den_not_of hna.query hrep ?_
      refine stepStack_unsat (C19_reverse_wf ts hw) hna.reverse h s t ?_
      rw [C19_reverse_semantics ts hw]
      obtain ⟨ss, h0, hn, _, hP, hst⟩ := p.toSeq
      subst h0; subst hn
      exact STS.PathIn.ofSeq ss k (fun i hi => den_not_elim hna.query (hP i hi)) hst

/-- **C24** With a backend that decides, the engine never fails with an exception: it answers or keeps running. -/
theorem C24_kind_no_throw (S : Smt T) (hS : S.Sound) (hc : S.Complete) (w : Bool) (ts : TS T) (hw : ts.WF)
    (hna : ts.NoAux) (fuel : Nat) : kindSolve S w ts fuel ≠ .thrown := by
  intro h
  have hb : ∀ d : Nat, (∀ j : Nat, j < d → S.check (baseStack ts j ++ [sendFla ts.query j]) ≠ .sat) →
      S.check (baseStack ts d ++ [sendFla ts.query d]) ≠ .sat → ∀ j : Nat, j ≤ d → ¬ ts.sem.BadIn j := by
    intro d hj hd j hjd
    refine base_unsat hS hw (hna.auxSep hw) ?_
    have hne : S.check (baseStack ts j ++ [sendFla ts.query j]) ≠ .sat := by
      by_cases e : j = d
      · subst e; exact hd
      · exact hj j (by omega)
    rcases hc (baseStack ts j ++ [sendFla ts.query j]) with h' | h'
    · exact absurd h' hne
    · exact h'
  rcases kindSolve_cases h with ⟨_, h'⟩ | h' | ⟨d, hj, h' | h' | h'⟩
  · simp at h'
  · simp at h'
  · simp at h'
  · obtain ⟨h1, h2, h3⟩ := h'
    obtain ⟨I, hI⟩ := Option.isSome_iff_exists.1
      (forward_isSome hS hc hw hna (hb d (fun j hjd => (hj j hjd).1) h1) (hS.unsat _ h2))
    rw [hI] at h3
    cases w <;> simp [kindSafe] at h3
  · obtain ⟨h1, h2, h3⟩ := h'
    have hwr := C19_reverse_wf ts hw
    have := forward_isSome hS hc hwr hna.reverse (k := d)
      (fun j hjd => by rw [C19_reverse_badIn ts hw]; exact hb d (fun j hjd => (hj j hjd).1) h1 j hjd)
      (stepStack_reverse_reverse hw (hS.unsat _ h2))
    obtain ⟨I, hI⟩ := Option.isSome_iff_exists.1 this
    unfold invariantFromForwardInduction at hI
    unfold invariantFromBackwardInduction at h3
    rw [hI] at h3
    cases w <;> simp [kindSafe] at h3

/-! ### The decidedness hypothesis is needed -/

/-- One state variable, initially true, true is bad, no transitions. -/
def exKind : TS propTheory where
  stateVars := [.ver (.user "x") 0]
  auxVars := []
  init := .atom (.var (.ver (.user "x") 0))
  trans := .ff
  query := .atom (.var (.ver (.user "x") 0))

/-- A sound backend that gives up on one query. -/
def shySmt : Smt propTheory where
  check := fun fs => if fs = [exKind.init, exKind.query] then .unknown else propSmt.check fs
  model := propSmt.model
  itp := propSmt.itp

theorem shySmt_sound : shySmt.Sound where
  sat := by
    intro fs h
    simp only [shySmt] at h ⊢
    split at h
    · cases h
    · exact propSmt_sound.sat fs h
  unsat := by
    intro fs h
    simp only [shySmt] at h
    split at h
    · cases h
    · exact propSmt_sound.unsat fs h
  itp := by
    intro fs A B h
    simp only [shySmt] at h ⊢
    split at h
    · cases h
    · exact propSmt_sound.itp fs A B h
  path := by
    intro fs A C B h
    simp only [shySmt] at h ⊢
    split at h
    · cases h
    · exact propSmt_sound.path fs A C B h

def exKindVal : Valuation propTheory := fun _ => true

/-- **C24** If the backend gives up on the base query, k-induction can answer SAFE on an unsafe system (it treats every
answer except SAT as "no path"). -/
theorem C24_unknown_base_query_unsound : shySmt.Sound ∧ exKind.sem.BadIn 0 ∧
    kindSolve shySmt true exKind 2 = .done (.safeInv (.not exKind.query)) := by
  refine ⟨shySmt_sound, ⟨_, ⟨_, ⟨exKindVal, by decide +kernel, rfl⟩, .refl _⟩, ⟨exKindVal, by decide +kernel, rfl⟩⟩,
    by decide +kernel⟩

/-- Concrete runs: a system proved safe with a 2-inductive property, and one refuted. -/
theorem C24_example : (∃ I, kindSolve propSmt true exTS2 3 = .done (.safeInv I)) ∧ exTS2.WF ∧ exTS2.NoAux ∧
    kindSolve propSmt true exTS 2 = .done (.unsafeAt 1) := by
  refine ⟨?_, exTS2_wf, exTS2_noAux, by decide +kernel⟩
  have : (match kindSolve propSmt true exTS2 3 with | .done (.safeInv _) => true | _ => false) = true := by
    decide +kernel
  revert this
  cases kindSolve propSmt true exTS2 3 with
  | done r => cases r <;> simp
  | thrown => simp
  | outOfFuel => simp

end Golem
