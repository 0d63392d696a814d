import Verif.Lemmas.TRLWitness

/-!
C66: transitive relation learning (`src/engine/TRL.cc`).

The answer SAFE is always right: if the search space is exhausted, no bad state is reachable, in any number of steps, although blocked
steps were replaced by learned ones. The learned relations are transitive and contain the step of the loop they were learned from. The
loop that is used is a shortest repetition in the trace. Nothing is thrown. The engine never answers UNSAFE. The invariant that is
computed as a witness consists of the states reached within the last depth by the learned relations; it is a safe inductive invariant if
all levels of the last stack know all learned relations. If some level does not, it may contain a bad state (`TrlEx.witness_gap`).
-/

namespace Golem

variable {ts : TS LIA}

/-- Whatever the engine answers, it is not UNSAFE; and if it is SAFE, then no bad state is reachable. -/
theorem C66_safe (hr : TrlReady ts) {V : TrlEnv} (hS : V.S.Correct) (hM : MbpInt V.M) {w : Bool} {fuel : Nat} {r : TSResult LIA}
    (h : trlSolve V w ts fuel = .done r) : r.answer ≠ .unsafeAns ∧ (r.answer = .safe → ts.sem.Safe) := by
  unfold trlSolve at h
  simp only [Outcome.andThen_done] at h
  obtain ⟨o, ho, h⟩ := h
  match o, ho, h with
  | none, _, h =>
    simp only [Outcome.done.injEq] at h
    subst h
    exact ⟨by simp [TSResult.answer], by simp [TSResult.answer]⟩
  | some st, ho, h =>
    obtain ⟨h1, h2⟩ := search_inv hr hS hM fuel (start_inv hr) ho
    have hs := trl_exhausted_safe hr h1.levels h2
    have : r.answer = .safe := by
      simp only at h
      split at h
      · simp only [Outcome.andThen_done, Outcome.done.injEq] at h
        obtain ⟨inv, _, rfl⟩ := h
        rfl
      · simp only [Outcome.done.injEq] at h
        subst h
        rfl
    exact ⟨by rw [this]; simp, fun _ => hs⟩

theorem search_levels {V : TrlEnv} (fuel : Nat) {st st' : TrlState} (h : trlSearch V ts fuel st = .done (some st')) : st'.levels ≠ [] := by
  induction fuel generalizing st with
  | zero => cases h
  | succ fuel ih =>
    unfold trlSearch at h
    simp only [Outcome.andThen_done] at h
    obtain ⟨o, ho, h⟩ := h
    match o, ho, h with
    | none, _, h => cases h
    | some (st1, false), _, h => exact ih h
    | some (st1, true), ho, h =>
      simp only [Outcome.done.injEq, Option.some.injEq] at h
      subst h
      unfold trlStep at ho
      simp only at ho
      split at ho
      · split at ho
        · simp only [Outcome.done.injEq, Option.some.injEq, Prod.mk.injEq, and_true] at ho
          subst ho
          simp
        · simp only [Outcome.andThen_done] at ho
          obtain ⟨tr, -, ho⟩ := ho
          split at ho
          · simp only [Outcome.andThen_done, Outcome.done.injEq, Option.some.injEq, Prod.mk.injEq] at ho
            obtain ⟨_, _, _, h⟩ := ho
            cases h
          · simp only [Outcome.done.injEq, Option.some.injEq, Prod.mk.injEq] at ho
            cases ho.2
        · cases ho
      · cases ho

/-- The contract on `keepOnly` is what C36 gives for the integer projection. -/
theorem keepInt_qe {S : Smt LIA} (hS : S.Correct) {M : Mbp LIA} (hM : MbpInt M) {simp : Fla LIA → Fla LIA} (hs : SimpOk simp) (fuel : Nat) :
    KeepInt fun f keep => match qeKeepOnly S M simp fuel f keep with
      | .done g => some g
      | _ => none := by
  intro f keep g hf h
  simp only at h
  split at h
  · rename_i g' hg
    cases h
    obtain ⟨f', hf', _⟩ := C29_nnf f
    obtain ⟨h1, h2⟩ := C36_eliminate_at hS hf' (hM f' _ (fun hx => hf (toNNF_vars hf' _ hx)) (fun hx => hf (List.mem_filter.1 hx).1)) hs fuel g hg
    refine ⟨fun x hx => ?_, fun ρ => ?_⟩
    · obtain ⟨a, b⟩ := h1 x hx
      simpa [a] using b
    · rw [h2]
      constructor
      · rintro ⟨ρ', a, b⟩
        exact ⟨ρ', fun x hx => a x (by simp [hx]), b⟩
      · rintro ⟨ρ', a, b⟩
        refine ⟨fun x => if x ∈ f.vars then ρ' x else ρ x, ?_, (Fla.holds_congr fun x hx => by simp [hx]).1 b⟩
        intro x hx
        by_cases hf : x ∈ f.vars
        · simp only [hf, if_true]
          simp [hf] at hx
          exact a x hx
        · simp [hf]
  · cases h

/-- The formula returned as a witness describes the states that are reached in at most as many steps of the learned relations as the last
stack has levels below the top. -/
theorem C66_invariant (hr : TrlReady ts) {V : TrlEnv} (hS : V.S.Correct) (hM : MbpInt V.M) {fuel : Nat} {st : TrlState}
    (h : trlSearch V ts fuel (trlStart ts) = .done (some st)) {K : KeepOnly LIA} (hK : KeepInt K) {inv : Fla LIA}
    (hinv : trlInvariant K ts st.relations (st.levels.length - 1) = some inv) (u : TS.State LIA) :
    ts.den inv u ↔ ∃ m < st.levels.length, (relSys ts st.relations).ReachIn m u := by
  obtain ⟨h1, h2⟩ := search_inv hr hS hM fuel (start_inv hr) h
  have hne := List.length_pos_of_ne_nil (search_levels fuel h)
  rw [(invariant_spec hr hK h1.levels.vars hinv).2]
  exact ⟨fun ⟨m, hm, h⟩ => ⟨m, by omega, h⟩, fun ⟨m, hm, h⟩ => ⟨m, by omega, h⟩⟩

/-- If all levels of the last stack know all learned relations, the witness is a safe inductive invariant. -/
theorem C66_witness (hr : TrlReady ts) {V : TrlEnv} (hS : V.S.Correct) (hM : MbpInt V.M) {fuel : Nat} {st : TrlState}
    (h : trlSearch V ts fuel (trlStart ts) = .done (some st)) (hsat : Saturated st) {K : KeepOnly LIA} (hK : KeepInt K) {inv : Fla LIA}
    (hinv : trlInvariant K ts st.relations (st.levels.length - 1) = some inv) :
    ((∀ x ∈ ts.init.vars, x ∈ ts.stateVars) → ts.Over inv) ∧ ts.sem.SafeInductive (ts.den inv) := by
  obtain ⟨h1, h2⟩ := search_inv hr hS hM fuel (start_inv hr) h
  have hne := search_levels fuel h
  have hpos := List.length_pos_of_ne_nil hne
  have hspec := C66_invariant hr hS hM h hK hinv
  have hshort : ∀ m u, (relSys ts st.relations).ReachIn m u → ∃ k < st.levels.length, Reached ts st.levels k u := by
    rintro m u ⟨s, hs, hp⟩
    obtain ⟨k, hk, -, hre⟩ := exhausted_reach hr h1.levels h2 (n := m) (u := u) ⟨s, hs, (saturated_path hsat hne).2 hp⟩
    exact ⟨k, hk, hre⟩
  refine ⟨(invariant_spec hr hK h1.levels.vars hinv).1, ⟨fun s hs => ?_, fun s t hs hst => ?_⟩, fun s hs => ?_⟩
  · exact (hspec s).2 ⟨0, hpos, s, hs, .refl _⟩
  · obtain ⟨m, hm, i, hi, hp⟩ := (hspec s).1 hs
    have hstep : (relSys ts st.relations).Step s t := ⟨ts.trans, List.mem_of_getElem? h1.first, hst⟩
    obtain ⟨k, hk, hre⟩ := hshort (m + 1) t ⟨i, hi, .snoc hp hstep⟩
    exact (hspec t).2 ⟨k, hk, reached_path h1.levels (by omega) hre⟩
  · obtain ⟨m, hm, hre⟩ := (hspec s).1 hs
    obtain ⟨k, hk, hre⟩ := hshort m s hre
    exact reached_not_bad hr h1.levels h2 hk hre

/-- `getLoop`: no loop if no step of the trace repeats an earlier one, and otherwise a repetition of least length. -/
theorem C66_loop (tr : List (Fla LIA)) :
    match getLoop tr with
    | none => ∀ (a b : Nat) f g, a < b → tr[a]? = some f → tr[b]? = some g → sendFla f (-(a : Int)) ≠ sendFla g (-(b : Int))
    | some l => (0 < l.len ∧ ∃ f g, tr[l.start]? = some f ∧ tr[l.start + l.len]? = some g ∧
        sendFla f (-(l.start : Int)) = sendFla g (-((l.start + l.len : Nat) : Int))) ∧
      ∀ (a b : Nat) f g, a < b → tr[a]? = some f → tr[b]? = some g → sendFla f (-(a : Int)) = sendFla g (-(b : Int)) → l.len ≤ b - a := by
  have hget : ∀ (i : Nat) f, (tr.zipIdx.map fun p => sendFla p.1 (-(p.2 : Int)))[i]? = some f ↔ ∃ g, tr[i]? = some g ∧ sendFla g (-(i : Int)) = f := by
    intro i f
    rw [List.getElem?_map, List.getElem?_zipIdx]
    cases tr[i]? <;> simp
  have hrep : ∀ (a b : Nat), Repeats (tr.zipIdx.map fun p => sendFla p.1 (-(p.2 : Int))) a b ↔
      a < b ∧ ∃ f g, tr[a]? = some f ∧ tr[b]? = some g ∧ sendFla f (-(a : Int)) = sendFla g (-(b : Int)) := by
    intro a b
    unfold Repeats
    refine and_congr Iff.rfl ⟨?_, ?_⟩
    · rintro ⟨f, h1, h2⟩
      obtain ⟨f1, e1, h1⟩ := (hget a f).1 h1
      obtain ⟨f2, e2, h2⟩ := (hget b f).1 h2
      exact ⟨f1, f2, e1, e2, by rw [h1, h2]⟩
    · rintro ⟨f, g, h1, h2, h3⟩
      exact ⟨_, (hget a _).2 ⟨f, h1, rfl⟩, (hget b _).2 ⟨g, h2, h3.symm⟩⟩
  have h := getLoop_spec tr
  split <;> rename_i e <;> rw [e] at h
  · intro a b f g hab hf hg heq
    exact h a b (List.getElem?_eq_some_iff.1 hg).1 ((hrep a b).2 ⟨hab, f, g, hf, hg, heq⟩)
  · rename_i l
    obtain ⟨⟨-, h2⟩, h3⟩ := h
    obtain ⟨h4, f, g, h5, h6, h7⟩ := (hrep _ _).1 h2
    refine ⟨⟨by omega, f, g, h5, h6, h7⟩, fun a b f g hab hf hg heq => ?_⟩
    exact h3 a b (List.getElem?_eq_some_iff.1 hg).1 ((hrep a b).2 ⟨hab, f, g, hf, hg, heq⟩)

/-- What is learned from a loop with the formula `f` of its steps and the model `ρ`: a transitive relation that contains the step from the
first to the last state of the loop in the model. -/
theorem C66_transitive (hr : TrlReady ts) {V : TrlEnv} (hM : MbpInt V.M) {c : Nat} {f : Fla LIA} (hf : ∀ x ∈ f.vars, x.versioned)
    {ρ : Valuation LIA} (hρ : f.holds ρ) {l : TrlLoop} (hlen : 0 < l.len) {p : Fla LIA} (h : transitiveProjection V ts c f ρ l = some p) :
    RelSem ts (trlUnshiftFrom ts p 0 l.len) (ts.stateAt ρ l.start) (ts.stateAt ρ ((l.start + l.len : Nat) : Int)) ∧
    ∀ a b d, RelSem ts (trlUnshiftFrom ts p 0 l.len) a b → RelSem ts (trlUnshiftFrom ts p 0 l.len) b d → RelSem ts (trlUnshiftFrom ts p 0 l.len) a d := by
  obtain ⟨F, hF, rfl⟩ := transitiveProjection_spec hr hM hf hρ h
  refine ⟨?_, fun a b d => learned_trans hr hlen hF⟩
  let θ : Valuation LIA := fun x => if x = shift l.start (trlCounter c) then (1 : Int) else ρ x
  have hne : ∀ (y : Var) (k : Int), y ∈ ts.stateVars → shift k y ≠ shift l.start (trlCounter c) := by
    intro y k hy e
    have h1 := hr.wf.stateCur y hy
    have h2 := congrArg Var.cur e
    rw [Var.cur_shift h1, Var.cur_shift (x := trlCounter c) rfl] at h2
    exact (hr.cnt c).1 (h2 ▸ hy)
  have hθ : ∀ k : Int, ts.stateAt θ k = ts.stateAt ρ k := fun k => List.map_congr_left fun y hy => if_neg (hne y k hy)
  exact (learned_sem hr hlen hF _ _).2 ⟨θ, hF.once θ (if_pos rfl) (hθ _) (hθ _), hθ l.start, hθ _⟩

theorem step_total (hr : TrlReady ts) {V : TrlEnv} (hS : V.S.Correct) (hc : V.S.Complete) (hM : MbpInt V.M) (ht : V.M.Total)
    (hs : SimpOk V.simp) {st : TrlState} (h : TrlInv ts st) : ∃ o, trlStep V ts st = .done o := by
  unfold trlStep
  simp only
  rcases hc (trlStack ts st.levels ++ [sendFla ts.query st.levels.length]) with e | e <;> rw [e]
  · exact ⟨_, rfl⟩
  · have hp := push_inv h (hS.unsat _ e)
    simp only
    rcases hc (trlStack ts (st.levels ++ [st.nextLevel])) with e2 | e2 <;> rw [e2]
    · have hρ := hS.sat _ e2
      obtain ⟨tr, htr⟩ := trace_total hr hM ht hp.levels hρ (k := st.levels.length) (by simp)
      simp only at htr
      simp only [htr, Outcome.orThrow, Outcome.andThen]
      cases hl : getLoop tr with
      | none => exact ⟨_, rfl⟩
      | some l =>
        simp only
        obtain ⟨st', hst'⟩ := learn_total hr hS hc hM ht hs hp (getLoop_some hl).1 (trace_spec hr hM hp.levels hρ (k := st.levels.length) (by simp) htr).2
        rw [hst']
        exact ⟨_, rfl⟩
    · exact ⟨_, rfl⟩

/-- With a solver that decides all queries and a projection that is defined on all models, nothing is thrown and no assertion fails. -/
theorem C66_total (hr : TrlReady ts) {V : TrlEnv} (hS : V.S.Correct) (hc : V.S.Complete) (hM : MbpInt V.M) (ht : V.M.Total)
    (hs : SimpOk V.simp) (fuel : Nat) : trlSolve V false ts fuel ≠ .thrown := by
  have key : ∀ st, TrlInv ts st → trlSearch V ts fuel st ≠ .thrown := by
    induction fuel with
    | zero => intro st _ h; cases h
    | succ fuel ih =>
      intro st hst h
      obtain ⟨o, ho⟩ := step_total hr hS hc hM ht hs hst
      unfold trlSearch at h
      rw [ho] at h
      match o, ho, h with
      | none, _, h => cases h
      | some (st1, true), _, h => cases h
      | some (st1, false), ho, h => exact ih st1 (step_inv hr hS hM hst ho).1 h
  intro h
  unfold trlSolve at h
  cases ho : trlSearch V ts fuel (trlStart ts) with
  | outOfFuel => rw [ho] at h; cases h
  | thrown => exact key _ (start_inv hr) ho
  | done o =>
    rw [ho] at h
    cases o with
    | none => cases h
    | some st => cases h

/-- Progress: the blocking clause computed from a loop excludes the model in which the loop was found, if the loop has more than one step
or its step is a transition of the system. -/
theorem C66_progress (hr : TrlReady ts) {V : TrlEnv} (hS : V.S.Correct) (hM : MbpInt V.M) {st st' : TrlState} (hi : TrlInv ts st)
    {tr : List (Fla LIA)} {ρ : Valuation LIA} {l : TrlLoop} (hlen : 0 < l.len)
    (htr : ∀ (i : Nat) t, tr[i]? = some t → t.holds ρ ∧ ∀ x ∈ t.vars, ∃ y ∈ ts.stateVars ++ ts.nextVars, x = shift i y)
    (h : trlLearn V ts st tr ρ l = some st') (hidx : l.len = 1 → (ρ (shift l.start trlIdx) : Int) = 0) :
    ∃ b, st'.blocks = st.blocks ++ [(b, l.start + l.len - 1)] ∧ st'.levels = st.levels.take l.start ∧ ¬ b.holds ρ := by
  simp only [trlLearn, Option.bind_eq_bind, Option.bind_eq_some_iff, Prod.exists] at h
  obtain ⟨r, R, c, hsel, h⟩ := h
  split at h
  · rename_i hsat
    simp only [Option.bind_eq_some_iff, Option.pure_def, Option.some.injEq] at h
    obtain ⟨b, hb, rfl⟩ := h
    refine ⟨b, rfl, rfl, ?_⟩
    have hrv : RelVars ts r := by
      split at hsel
      · rename_i r' hfind
        simp only [Option.some.injEq, Prod.mk.injEq] at hsel
        obtain ⟨rfl, -, -⟩ := hsel
        exact hi.levels.vars _ (List.mem_of_mem_drop (List.mem_of_find?_eq_some hfind))
      · simp only [Option.bind_eq_some_iff, Option.pure_def, Option.some.injEq, Prod.mk.injEq] at hsel
        obtain ⟨p, hp, rfl, -, -⟩ := hsel
        obtain ⟨hf1, hf2⟩ := loop_formula hr.wf htr l.start l.len
        obtain ⟨F, hF, rfl⟩ := transitiveProjection_spec hr hM hf2 hf1 hp
        exact learned_vars hr hlen hF
    have hm := hS.sat _ hsat
    have hval : ∀ p ∈ loopValuation ts l ρ, (V.S.model ((loopValuation ts l ρ).map (fun p => Fla.eq (.var p.1) (.const (p.2 : Int))) ++ [r]) p.1 : Int) = p.2 :=
      fun p hp => hm _ (List.mem_append_left _ (List.mem_map.2 ⟨p, hp, rfl⟩))
    refine (blockingClause_spec hr hM hlen hrv (hm r (by simp)) hb).2.2 ρ ?_ ?_ (fun e => Int.le_of_eq (hidx e))
    · refine List.map_congr_left fun x hx => ?_
      exact (hval (x, _) (List.mem_append_left _ (List.mem_map.2 ⟨x, hx, rfl⟩))).symm
    · unfold TS.stateAt TS.nextVars
      rw [List.map_map]
      refine List.map_congr_left fun x hx => ?_
      have := hval (shift 1 x, _) (List.mem_append_right _ (List.mem_map.2 ⟨shift 1 x, List.mem_map.2 ⟨x, hx, rfl⟩, rfl⟩))
      simp only [Function.comp]
      refine Eq.trans ?_ this.symm
      rw [shift_shift, show (1 : Int) + (((l.start + l.len : Nat) : Int) - 1) = ((l.start + l.len : Nat) : Int) by omega]
  · cases h

end Golem
