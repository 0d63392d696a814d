import Verif.Model.Engines.TransitionSystem
import Verif.Lemmas.TransitionSystem
import Verif.Props.KTo1Modes

/-! # C22: bounded model checking on a transition system -/

namespace Golem
variable {T : Theory}

/-- The unrolled prefix. -/
def baseStack (ts : TS T) (k : Nat) : List (Fla T) :=
  ts.init :: (List.range k).map fun i : Nat => sendFla ts.trans i

theorem baseStack_succ (ts : TS T) (k : Nat) : baseStack ts k ++ [sendFla ts.trans k] = baseStack ts (k + 1) := by
  simp [baseStack, List.range_succ]

theorem allHold_baseStack {ts : TS T} {k : Nat} {ρ : Valuation T} : AllHold ρ (baseStack ts k) ↔ ts.UnrollSat k ρ := by
  simp [baseStack, AllHold, TS.UnrollSat]

theorem base_sat {S : Smt T} (hS : S.Sound) {ts : TS T} {k : Nat}
    (h : S.check (baseStack ts k ++ [sendFla ts.query k]) = .sat) : ts.sem.BadIn k := by
  have := hS.sat _ h
  rw [allHold_append, allHold_baseStack] at this
  exact TS.unroll_sound this.1 (this.2 _ (by simp))

theorem base_unsat {S : Smt T} (hS : S.Sound) {ts : TS T} (hw : ts.WF) (hs : ts.AuxSep) {k : Nat}
    (h : S.check (baseStack ts k ++ [sendFla ts.query k]) = .unsat) : ¬ ts.sem.BadIn k := by
  intro hb
  obtain ⟨ρ, h1, h2⟩ := TS.unroll_complete hw hs hb
  exact hS.unsat _ h ⟨ρ, by rw [allHold_append, allHold_baseStack]; exact ⟨h1, by simpa [AllHold] using h2⟩⟩

theorem no_init {S : Smt T} (hS : S.Sound) {ts : TS T} (h : S.check [ts.init] = .unsat) (s : TS.State T) :
    ¬ ts.sem.Init s := by
  rintro ⟨ρ, h1, _⟩
  exact hS.unsat _ h ⟨ρ, by simpa [AllHold] using h1⟩

theorem safe_of_no_init {ts : TS T} (h : ∀ s, ¬ ts.sem.Init s) : ts.sem.SafeInductive (ts.den .ff) where
  init := fun s hs => absurd hs (h s)
  step := by rintro s t ⟨_, h, _⟩; exact absurd h id
  safe := by rintro s ⟨_, h, _⟩; exact absurd h id

theorem bmcLoop_unsafe {S : Smt T} (hS : S.Sound) {ts : TS T} :
    ∀ fuel k r, bmcLoop S ts fuel k (baseStack ts k) = .done r →
      ∃ d, r = .unsafeAt d ∧ k ≤ d ∧ ts.sem.BadIn d ∧
        ∀ j, k ≤ j → j < d → S.check (baseStack ts j ++ [sendFla ts.query j]) ≠ .sat := by
  intro fuel
  induction fuel with
  | zero => intro k r h; simp [bmcLoop] at h
  | succ fuel ih =>
    intro k r h
    unfold bmcLoop at h
    split at h
    · rename_i hsat
      simp only [Outcome.done.injEq] at h
      exact ⟨k, h.symm, Nat.le_refl _, base_sat hS hsat, fun j h1 h2 => by omega⟩
    · rename_i hsat
      rw [baseStack_succ] at h
      obtain ⟨d, e, hd, hb, hj⟩ := ih (k + 1) r h
      refine ⟨d, e, by omega, hb, fun j h1 h2 => ?_⟩
      by_cases hjk : j = k
      · subst hjk; exact hsat
      · exact hj j (by omega) h2

/-- **C22** UNSAFE(k) is only answered if a bad state is reachable in exactly `k` steps (whatever the backend does not
know, and also with auxiliary variables); SAFE is only answered if there is no initial state, and then `false` is a safe
inductive invariant. Nothing else is ever answered. -/
theorem C22_bmc_sound (S : Smt T) (hS : S.Sound) (ts : TS T) (fuel : Nat) (r : TSResult T)
    (h : bmcSolve S ts fuel = .done r) :
    (∃ k, r = .unsafeAt k ∧ ts.sem.BadIn k) ∨
    (r = .safeInv .ff ∧ (∀ s, ¬ ts.sem.Init s) ∧ ts.sem.SafeInductive (ts.den .ff)) := by
  unfold bmcSolve at h
  split at h
  · rename_i hu
    simp only [Outcome.done.injEq] at h
    exact Or.inr ⟨h.symm, no_init hS hu, safe_of_no_init (no_init hS hu)⟩
  · obtain ⟨d, e, _, hb, _⟩ := bmcLoop_unsafe hS fuel 0 r (by simpa [baseStack] using h)
    exact Or.inl ⟨d, e, hb⟩

/-- **C22** With a backend that decides, the reported path is a shortest one. -/
theorem C22_bmc_shortest (S : Smt T) (hS : S.Sound) (hc : S.Complete) (ts : TS T) (hw : ts.WF) (hs : ts.AuxSep)
    (fuel k : Nat) (h : bmcSolve S ts fuel = .done (.unsafeAt k)) : ∀ j, j < k → ¬ ts.sem.BadIn j := by
  unfold bmcSolve at h
  split at h
  · simp at h
  · obtain ⟨d, e, _, hb, hj⟩ := bmcLoop_unsafe hS fuel 0 _ (by simpa [baseStack] using h)
    cases e
    intro j hjk
    rcases hc (baseStack ts j ++ [sendFla ts.query j]) with h' | h'
    · exact absurd h' (hj j (Nat.zero_le _) hjk)
    · exact base_unsat hS hw hs h'

theorem bmcLoop_finds {S : Smt T} (hS : S.Sound) (hc : S.Complete) {ts : TS T} (hw : ts.WF) (hs : ts.AuxSep) {d : Nat}
    (hb : ts.sem.BadIn d) (hmin : ∀ j, j < d → ¬ ts.sem.BadIn j) :
    ∀ fuel k, k ≤ d → d < fuel + k → bmcLoop S ts fuel k (baseStack ts k) = .done (.unsafeAt d) := by
  intro fuel
  induction fuel with
  | zero => intro k h1 h2; omega
  | succ fuel ih =>
    intro k h1 h2
    unfold bmcLoop
    by_cases hk : k = d
    · subst hk
      rcases hc (baseStack ts k ++ [sendFla ts.query k]) with h | h
      · simp [h]
      · exact absurd hb (base_unsat hS hw hs h)
    · have hns : S.check (baseStack ts k ++ [sendFla ts.query k]) ≠ .sat := fun h =>
        hmin k (by omega) (base_sat hS h)
      rw [if_neg hns, baseStack_succ]
      exact ih (k + 1) (by omega) (by omega)

/-- **C22** If a bad state is reachable and the shortest path has length `d`, BMC with a backend that decides answers
UNSAFE(d) after checking the lengths `0, ..., d`. -/
theorem C22_bmc_finds_shortest (S : Smt T) (hS : S.Sound) (hc : S.Complete) (ts : TS T) (hw : ts.WF) (hs : ts.AuxSep)
    (d : Nat) (hb : ts.sem.BadIn d) (hmin : ∀ j, j < d → ¬ ts.sem.BadIn j) (fuel : Nat) (hf : d < fuel) :
    bmcSolve S ts fuel = .done (.unsafeAt d) := by
  unfold bmcSolve
  rw [if_neg]
  · exact bmcLoop_finds hS hc hw hs hb hmin fuel 0 (Nat.zero_le _) (by omega)
  · intro h
    obtain ⟨t, ⟨s, hi, _⟩, _⟩ := hb
    exact no_init hS h s hi

/-- A run on a concrete system (one step to the bad state) through the propositional backend. -/
theorem C22_example : bmcSolve propSmt exTS 2 = .done (.unsafeAt 1) ∧ exTS.WF ∧ exTS.AuxSep :=
  ⟨by decide +kernel, exTS_wf, exTS_noAux.auxSep exTS_wf⟩

end Golem
