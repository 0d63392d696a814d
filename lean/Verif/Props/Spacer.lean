import Verif.Lemmas.SpacerSafe
import Verif.Lemmas.SpacerWitness
import Verif.Lemmas.SpacerTotal
import Verif.Props.Pipeline

/-!
C48: the Spacer engine. For every graph, every order of the obligations and of the components, every sound backend and
every sound projection: a SAFE verdict comes with an inductive model of the whole graph, a returned derivation is a
derivation of `false`, and an UNSAFE verdict is right if the backend decides every query or the graph has no hyperedge.
-/

namespace Golem
variable {T : Theory}
variable {E : SpEnv T}

/-- What is known at the start of round `cur + 1`. -/
structure RoundInv (E : SpEnv T) (cur : Nat) (st : SpState T) : Prop where
  inv : SpInv E cur st
  db : DbInv E st.db
  blocked : ∀ n, 1 ≤ n → n ≤ cur → Blocked st n

theorem DbInv.init (E : SpEnv T) : DbInv E E.init.db := by
  refine ⟨rfl, ?_⟩
  intro i d hi hd
  simp only [SpEnv.init] at hd
  rw [List.getElem?_eq_none (by simp; omega)] at hd
  cases hd

theorem RoundInv.init (hE : E.WF) : RoundInv E 0 E.init := ⟨SpInv.init hE, DbInv.init E, fun n h1 h2 => by omega⟩

/-- What a result of Spacer must satisfy, before the reconstruction of a derivation is known to succeed. -/
structure SpacerResultOk (E : SpEnv T) (r : VerificationResult T) : Prop where
  safe : r.answer = .safe → ∃ D, r.witness = .validity D ∧ SafeWitness E.R E.G D
  unsafeAns : r.answer = .unsafeAns → (∃ ds, r.witness = .invalidity ds ∧ (ds ≠ [] → UnsafeWitness E.R E.G ds ∧ ShortFor E.G ds)) ∧
    (E.S.Complete ∨ isNormalGraph E.G = true → E.G.Unsafe E.R)

theorem run_ok (hE : E.WF) (hG : E.G.Ends) {fuel n cur : Nat} {st : SpState T} (h : RoundInv E cur st) {r : VerificationResult T}
    (hr : E.run fuel n (cur + 1) st = .done r) : SpacerResultOk E r ∧ r.answer ≠ .unknown := by
  induction n generalizing cur st with
  | zero => simp [SpEnv.run] at hr
  | succ n ih =>
    simp only [SpEnv.run] at hr
    have hent := h.inv.enter hE
    have hdb : DbInv E (st.enter (cur + 1)).db := h.db
    have hmono0 : ∀ m v, ∀ c ∈ st.over m v, c ∈ (st.enter (cur + 1)).over m v := fun m v c hc => apInsert_mem.2 (.inl hc)
    split at hr
    · simp at hr
    · simp at hr
    · rename_i st1 hb
      obtain ⟨_, hun⟩ := boundSafety_inv hE hent (by omega) hb
      have hdb1 := boundLoop_db (st := { st.enter (cur + 1) with lowest := cur + 1 }) hdb hb
      split at hr
      · rename_i ds hrec
        simp only [Outcome.done.injEq] at hr
        subst hr
        exact ⟨⟨by simp, fun _ => ⟨⟨ds, rfl, reconstruct_ok hE hG hdb1 hrec⟩, hun rfl⟩⟩, by simp⟩
      · simp at hr
      · simp at hr
    · rename_i st1 hb
      obtain ⟨hsafe, _⟩ := boundSafety_inv hE hent (by omega) hb
      obtain ⟨i1, m1, low, bl⟩ := hsafe rfl
      have hdb1 := boundLoop_db (st := { st.enter (cur + 1) with lowest := cur + 1 }) hdb hb
      have hblocked : ∀ k, 1 ≤ k → k ≤ cur + 1 → Blocked st1 k := by
        intro k hk1 hk2
        rcases Nat.lt_or_ge cur k with hk | hk
        · rw [show k = cur + 1 by omega]; exact bl
        · exact (h.blocked k hk1 hk).mono fun m v c hc => m1 m v c (hmono0 m v c hc)
      split at hr
      · simp at hr
      · simp at hr
      · rename_i level st2 hi
        simp only [Outcome.done.injEq] at hr
        subst hr
        obtain ⟨i2, m2, _, _, hind⟩ := inductiveFrom_inv hE i1 hi
        obtain ⟨l1, l2, hind⟩ := hind level rfl
        refine ⟨⟨fun _ => ⟨_, rfl, ?_⟩, by simp⟩, by simp⟩
        exact solution_safe hE i2 ((hblocked level (by omega) (by omega)).mono m2) hind
      · rename_i st2 hi
        obtain ⟨i2, m2, db2, _, _⟩ := inductiveFrom_inv hE i1 hi
        exact ih ⟨i2, by rw [db2]; exact hdb1, fun k h1 h2 => (hblocked k h1 h2).mono m2⟩ hr

/-- C48. A result of Spacer: SAFE comes with an inductive model of every vertex of the graph; the derivation returned with
UNSAFE, if there is one, is a derivation of `false`; UNSAFE itself is right when the backend decides every query or the
graph is linear; the only other answer is UNKNOWN for array logics. -/
theorem C48_spacer (hE : E.WF) (hG : E.G.Ends) {hasArrays : Bool} {fuel : Nat} {r : VerificationResult T}
    (hr : spacer E hasArrays fuel = .done r) :
    (r.answer = .safe → ∃ D, r.witness = .validity D ∧ SafeWitness E.R E.G D) ∧
    (r.answer = .unsafeAns → ∃ ds, r.witness = .invalidity ds ∧ (ds ≠ [] → UnsafeWitness E.R E.G ds ∧ ShortFor E.G ds)) ∧
    (r.answer = .unsafeAns → E.S.Complete ∨ isNormalGraph E.G = true → E.G.Unsafe E.R) ∧
    (r.answer = .unknown ↔ hasArrays = true) := by
  unfold spacer at hr
  split at hr
  · rename_i ha
    simp only [Outcome.done.injEq] at hr
    subst hr
    simp [ha]
  · rename_i ha
    obtain ⟨h, hu⟩ := run_ok hE hG (RoundInv.init hE) hr
    exact ⟨h.safe, fun hh => (h.unsafeAns hh).1, fun hh => (h.unsafeAns hh).2, by simp [ha, hu]⟩

/-- A finished reconstruction is not empty. -/
theorem recLoop_nonempty {db : List (DbEntry T)} {root fuel : Nat} {pre : List (RecEntry T)} {r : RecEntry T} {ds ds' : List (DStep T)}
    (hid : r.id = root) (h : E.recLoop db root fuel (pre ++ [r]) ds = .done ds') : ds' ≠ [] := by
  have grow : ∀ {fuel : Nat} {st : List (RecEntry T)} {ds ds' : List (DStep T)}, ds ≠ [] →
      E.recLoop db root fuel st ds = .done ds' → ds' ≠ [] := by
    intro fuel
    induction fuel with
    | zero => intro st ds ds' _ h; simp [SpEnv.recLoop] at h
    | succ n ih =>
      intro st ds ds' hne h
      cases st with
      | nil => simp only [SpEnv.recLoop, Outcome.done.injEq] at h; rw [← h]; exact hne
      | cons en st =>
        simp only [SpEnv.recLoop] at h
        split at h
        · exact ih hne h
        · split at h
          · simp at h
          · split at h
            · simp at h
            · split at h
              · exact ih (by simp) h
              · exact ih hne h
  induction fuel generalizing pre r ds with
  | zero => simp [SpEnv.recLoop] at h
  | succ n ih =>
    cases pre with
    | nil =>
      simp only [List.nil_append, SpEnv.recLoop] at h
      rw [if_neg (by simp [hid])] at h
      split at h
      · simp at h
      · split at h
        · simp at h
        · rename_i prems _
          split at h
          · exact grow (by simp) h
          · exact ih (r := ⟨r.id, r.inst, prems⟩) hid h
    | cons en pre =>
      simp only [List.cons_append, SpEnv.recLoop] at h
      split at h
      · exact ih hid h
      · split at h
        · simp at h
        · split at h
          · simp at h
          · split at h
            · exact ih hid h
            · exact ih (pre := _ ++ ⟨en.id, en.inst, _⟩ :: pre) (r := r) hid (by simpa using h)

/-- With proof logging a result UNSAFE always comes with a derivation. -/
theorem C48_logged (hE : E.WF) (hG : E.G.Ends) (hl : E.logProof = true) {hasArrays : Bool} {fuel : Nat} {r : VerificationResult T}
    (hr : spacer E hasArrays fuel = .done r) (hu : r.answer = .unsafeAns) :
    ∃ ds, r.witness = .invalidity ds ∧ ds ≠ [] ∧ UnsafeWitness E.R E.G ds := by
  obtain ⟨_, h2, _, _⟩ := C48_spacer hE hG hr
  obtain ⟨ds, hw, hds⟩ := h2 hu
  have hne : ds ≠ [] := by
    have key : ∀ n cur st, E.run fuel n cur st = .done r → ds ≠ [] := by
      intro n
      induction n with
      | zero => intro cur st h; simp [SpEnv.run] at h
      | succ n ih =>
        intro cur st h
        simp only [SpEnv.run] at h
        split at h
        · simp at h
        · simp at h
        · split at h
          · rename_i ds1 hrec
            simp only [Outcome.done.injEq] at h
            subst h
            simp only [Witness.invalidity.injEq] at hw
            subst hw
            unfold SpEnv.reconstruct at hrec
            rw [if_pos hl] at hrec
            split at hrec
            · simp at hrec
            · exact recLoop_nonempty (pre := []) (r := ⟨_, trueFact, []⟩) rfl hrec
          · simp at h
          · simp at h
        · split at h
          · simp at h
          · simp at h
          · simp only [Outcome.done.injEq] at h
            subst h
            simp at hu
          · exact ih _ _ h
    unfold spacer at hr
    split at hr
    · simp only [Outcome.done.injEq] at hr
      subst hr
      simp at hu
    · exact key _ _ _ hr
  exact ⟨ds, hw, hne, (hds hne).1⟩

/-- C48 in the form the pipeline expects (C15). -/
theorem C48_hyper (hE : E.WF) (hG : E.G.Ends) (hc : E.S.Complete ∨ isNormalGraph E.G = true ∨ E.logProof = true)
    {hasArrays : Bool} {fuel : Nat} {r : VerificationResult T} (hr : spacer E hasArrays fuel = .done r) :
    HyperResultOk E.R E.G r := by
  obtain ⟨h1, h2, h3, h4⟩ := C48_spacer hE hG hr
  refine ⟨?_, ?_, ?_, ?_⟩
  · intro hu
    rcases hc with hc | hc | hc
    · exact h3 hu (.inl hc)
    · exact h3 hu (.inr hc)
    · obtain ⟨ds, _, _, hw⟩ := C48_logged hE hG hc hr hu
      exact hw.unsafe
  · intro hs
    obtain ⟨D, _, hD⟩ := h1 hs
    exact hD.safe
  · intro D hD _
    cases ha : r.answer with
    | safe =>
      obtain ⟨D', e, hD'⟩ := h1 ha
      rw [hD] at e; cases e
      exact ⟨rfl, hD'.good⟩
    | unsafeAns =>
      obtain ⟨ds, e, _⟩ := h2 ha
      rw [hD] at e; cases e
    | unknown =>
      exfalso
      unfold spacer at hr
      rw [if_pos (h4.1 ha)] at hr
      simp only [Outcome.done.injEq] at hr
      subst hr
      cases hD
  · intro ds hds hne
    cases ha : r.answer with
    | safe =>
      obtain ⟨D', e, hD'⟩ := h1 ha
      rw [hds] at e; cases e
    | unsafeAns =>
      obtain ⟨ds', e, hw⟩ := h2 ha
      rw [hds] at e; cases e
      exact ⟨rfl, hw hne⟩
    | unknown =>
      exfalso
      unfold spacer at hr
      rw [if_pos (h4.1 ha)] at hr
      simp only [Outcome.done.injEq] at hr
      subst hr
      cases hds

theorem Covered.init (hE : E.WF) : Covered E E.init := by
  intro _ n v c hc
  simp only [SpEnv.init] at hc
  split at hc
  · rw [List.mem_singleton] at hc
    split at hc
    · rename_i hv
      exact .inr ⟨⟨.tt, .tru, none, []⟩, by simp [SpEnv.init], hv.symm, hc.symm⟩
    · exact .inl hc
  · simp at hc

theorem run_total (hE : E.WF) (hM : E.M.Total) (hcpl : E.S.Complete) {fuel n cur : Nat} {st : SpState T} (h : RoundInv E cur st)
    (hc : Covered E st) (hr : E.run fuel n (cur + 1) st = .thrown) :
    ∃ db root, dbFind db .tt .fls = some root ∧ E.logProof = true ∧ E.reconstruct db fuel = .thrown := by
  induction n generalizing cur st with
  | zero => simp [SpEnv.run] at hr
  | succ n ih =>
    simp only [SpEnv.run] at hr
    have hent := h.inv.enter hE
    have hcov : Covered E (st.enter (cur + 1)) := by
      intro hl m v c hcm
      rcases apInsert_mem.1 hcm with hcm | ⟨_, rfl, rfl⟩
      · exact hc hl m v c hcm
      · exact .inr ⟨⟨.tt, .tru, none, []⟩, List.mem_of_getElem? h.db.head, rfl, rfl⟩
    have hmono0 : ∀ m v, ∀ c ∈ st.over m v, c ∈ (st.enter (cur + 1)).over m v := fun m v c hc => apInsert_mem.2 (.inl hc)
    have htot := boundLoop_total (fuel := fuel) (st := { st.enter (cur + 1) with lowest := cur + 1 }) hE hM hcpl
      (hent.withLowest (cur + 1)) hcov (q := [exitPob (cur + 1)]) (by
        intro p hp; rw [List.mem_singleton] at hp; subst hp; exact exitPob_ok hE (by omega))
    rcases hb : E.boundSafety (cur + 1) fuel (st.enter (cur + 1)) with ⟨ans, st1⟩ | _ | _
    · have hb' := hb
      unfold SpEnv.boundSafety at hb'
      rw [show ([⟨.fls, cur + 1, .tt⟩] : List (Pob T)) = [exitPob (cur + 1)] from rfl] at hb'
      rw [hb'] at htot
      rcases htot with htot | ⟨ans', st', e, cov1, hroot⟩
      · simp at htot
      · simp only [Outcome.done.injEq, Prod.mk.injEq] at e
        obtain ⟨rfl, rfl⟩ := e
        rw [hb] at hr
        cases ans with
        | false =>
          simp only at hr
          split at hr
          · simp at hr
          · rename_i hrec
            by_cases hl : E.logProof = true
            · obtain ⟨i, hi⟩ := hroot rfl hl
              exact ⟨st1.db, i, hi, hl, hrec⟩
            · simp [SpEnv.reconstruct, hl] at hrec
          · simp at hr
        | true =>
          simp only at hr
          obtain ⟨hsafe, _⟩ := boundSafety_inv hE hent (by omega) hb
          obtain ⟨i1, m1, low, bl⟩ := hsafe rfl
          have hdb1 := boundLoop_db (st := { st.enter (cur + 1) with lowest := cur + 1 }) h.db hb
          obtain ⟨⟨r, st2⟩, h2⟩ := inductiveFrom_total hE hcpl i1 (n := cur + 1 + 1 - st1.lowest) (level := st1.lowest)
          unfold SpEnv.isInductive at hr
          rw [h2] at hr
          cases r with
          | some level => simp at hr
          | none =>
            simp only at hr
            obtain ⟨i2, m2, db2, un2, _⟩ := inductiveFrom_inv hE i1 h2
            refine ih ⟨i2, by rw [db2]; exact hdb1, fun k h1 h2 => ?_⟩ (fun hl => by rw [un2, db2]; exact cov1 hl) hr
            rcases Nat.lt_or_ge cur k with hk | hk
            · rw [show k = cur + 1 by omega]; exact bl.mono m2
            · exact (h.blocked k h1 hk).mono fun m v c hc => m2 m v c (m1 m v c (hmono0 m v c hc))
    · unfold SpEnv.boundSafety at hb
      rw [show ([⟨.fls, cur + 1, .tt⟩] : List (Pob T)) = [exitPob (cur + 1)] from rfl] at hb
      rw [hb] at htot
      rcases htot with htot | ⟨_, _, e, _⟩
      · simp at htot
      · simp at e
    · rw [hb] at hr
      simp at hr

/-- C48: with a backend that decides and a projection that never fails, Spacer raises no exception while it searches; the
only exception left is "Error in computing derivation!" when the derivation of a found counterexample is reconstructed. -/
theorem C48_no_error (hE : E.WF) (hM : E.M.Total) (hcpl : E.S.Complete) {hasArrays : Bool} {fuel : Nat}
    (hr : spacer E hasArrays fuel = .thrown) :
    ∃ db root, dbFind db .tt .fls = some root ∧ E.logProof = true ∧ E.reconstruct db fuel = .thrown := by
  unfold spacer at hr
  split at hr
  · simp at hr
  · exact run_total hE hM hcpl (RoundInv.init hE) (Covered.init hE) hr

/-- Without proof logging Spacer never raises an exception. -/
theorem C48_never_throws (hE : E.WF) (hM : E.M.Total) (hcpl : E.S.Complete) (hl : E.logProof = false) (hasArrays : Bool)
    (fuel : Nat) : spacer E hasArrays fuel ≠ .thrown := by
  intro hr
  obtain ⟨_, _, _, h, _⟩ := C48_no_error hE hM hcpl hr
  rw [hl] at h
  cases h

end Golem
