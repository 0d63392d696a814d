import Verif.Props.Kind

/-! # C25: interpolation-based model checking -/

namespace Golem
variable {T : Theory}

theorem TS.WF.within_trans0 {ts : TS T} (hw : ts.WF) : ts.Within 0 1 ts.trans := by
  have := hw.within_trans 0
  simpa [sendFla] using this

theorem imcSuffix_holds {ts : TS T} {k : Nat} (hk : 0 < k) {ρ : Valuation T} :
    AllHold ρ [imcSuffix ts k, ts.trans] ↔
      (∀ i : Nat, i < k → (sendFla ts.trans i).holds ρ) ∧ (sendFla ts.query k).holds ρ := by
  have h0 : ts.trans.holds ρ ↔ (sendFla ts.trans ((0 : Nat) : Int)).holds ρ := by simp [sendFla]
  simp only [AllHold, List.mem_cons, List.not_mem_nil, or_false, forall_eq_or_imp, forall_eq, imcSuffix, Fla.holds_conj,
    List.mem_append, List.mem_map, List.mem_range]
  rw [h0]
  constructor
  · rintro ⟨h1, h2⟩
    refine ⟨fun i hi => ?_, h1 _ (Or.inr rfl)⟩
    cases i with
    | zero => exact h2
    | succ i => exact h1 _ (Or.inl ⟨i, by omega, by simp⟩)
  · rintro ⟨h1, h2⟩
    refine ⟨?_, h1 0 hk⟩
    rintro f (⟨i, hi, rfl⟩ | rfl)
    · exact h1 (i + 1) (by omega)
    · exact h2

theorem imcSuffix_within {ts : TS T} (hw : ts.WF) (hna : ts.NoAux) {k : Nat} (hk : 0 < k) :
    ts.Within 1 k (imcSuffix ts k) := by
  refine TS.within_conj fun f hf => ?_
  simp only [List.mem_append, List.mem_map, List.mem_range, List.mem_singleton] at hf
  rcases hf with ⟨i, hi, rfl⟩ | rfl
  · exact (hw.within_trans _).mono (by omega) (by omega)
  · exact (TS.Over.within hna.query _).mono (by omega) (by omega)

/-- From no state of `P` is a bad state reachable in exactly `k` steps. -/
def TS.Clear (ts : TS T) (k : Nat) (P : TS.State T → Prop) : Prop :=
  ∀ s t, P s → ts.sem.Path k s t → ¬ ts.sem.Bad t

theorem imc_sat {S : Smt T} (hS : S.Sound) {ts : TS T} {k : Nat} (hk : 0 < k)
    (h : S.check [imcSuffix ts k, ts.trans, ts.init] = .sat) : ts.sem.BadIn k := by
  have hm := hS.sat _ h
  have h1 := (imcSuffix_holds (ts := ts) hk).1 (fun f hf => hm f (by
    simp only [List.mem_cons, List.not_mem_nil, or_false] at hf ⊢; rcases hf with e | e <;> simp [e]))
  exact TS.unroll_sound ⟨hm ts.init (by simp), h1.1⟩ h1.2

theorem imc_unsat {S : Smt T} (hS : S.Sound) {ts : TS T} (hw : ts.WF) (hna : ts.NoAux) {k : Nat} (hk : 0 < k)
    {M : Fla T} (hM : ts.Over M) (h : S.check [imcSuffix ts k, ts.trans, M] = .unsat) : ts.Clear k (ts.den M) := by
  intro s t hs p hb
  obtain ⟨ss, h0, hn, hc, hst⟩ := p.toSeq
  obtain ⟨ρ, hρ, hT, _, hQ⟩ := TS.realize hw (hna.auxSep hw) ss (TS.rep_seq hc (TS.rep_bad hb) hst) 0 k
  refine hS.unsat _ h ⟨ρ, ?_⟩
  have h1 := (imcSuffix_holds (ts := ts) hk (ρ := ρ)).2
    ⟨fun i hi => hT i (hst i hi), hQ (by rw [hn]; exact hb)⟩
  have h2 : M.holds ρ := by
    have := hρ 0
    rw [h0] at this
    rw [← this] at hs
    have := (TS.den_at hM).1 hs
    simpa [sendFla] using this
  intro f hf
  simp only [List.mem_cons, List.not_mem_nil, or_false] at hf
  rcases hf with rfl | rfl | rfl
  · exact h1 _ (by simp)
  · exact h1 _ (by simp)
  · exact h2

theorem imc_image {S : Smt T} (hS : S.Sound) {ts : TS T} (hw : ts.WF) (hna : ts.NoAux) {k : Nat} (hk : 0 < k)
    {M : Fla T} (hM : ts.Over M) (h : S.check [imcSuffix ts k, ts.trans, M] = .unsat) :
    ts.Over (sendFla (S.itp [ts.trans, M] [imcSuffix ts k]) (-1)) ∧
    ∀ s t, ts.den M s → ts.sem.Step s t → ts.den (sendFla (S.itp [ts.trans, M] [imcSuffix ts k]) (-1)) t := by
  have hi := hS.itp _ [ts.trans, M] [imcSuffix ts k] h (by
    intro f; simp only [List.mem_cons, List.not_mem_nil, or_false]
    constructor
    · rintro (h | h | h)
      · exact Or.inr h
      · exact Or.inl (Or.inl h)
      · exact Or.inl (Or.inr h)
    · rintro ((h | h) | h)
      · exact Or.inr (Or.inl h)
      · exact Or.inr (Or.inr h)
      · exact Or.inl h)
  have hover : ts.Over (sendFla (S.itp [ts.trans, M] [imcSuffix ts k]) (-1)) := by
    refine TS.shared_over hw (lo := 0) (hi := k) (m := 1) (A := [ts.trans, M]) (B := [imcSuffix ts k]) ?_ ?_ hi
    · intro f hf
      simp only [List.mem_cons, List.not_mem_nil, or_false] at hf
      rcases hf with rfl | rfl
      · exact hw.within_trans0
      · have := (TS.Over.within hM 0).mono (lo' := 0) (hi' := 1) (by omega) (by omega)
        simpa [sendFla] using this
    · intro f hf
      simp only [List.mem_cons, List.not_mem_nil, or_false] at hf
      subst hf
      exact imcSuffix_within hw hna hk
  refine ⟨hover, fun s t hs ⟨ρ, h1, h2, h3⟩ => ?_⟩
  subst h2
  have hI : (S.itp [ts.trans, M] [imcSuffix ts k]).holds ρ := hi.fromA ρ (by
    intro f hf
    simp only [List.mem_cons, List.not_mem_nil, or_false] at hf
    rcases hf with rfl | rfl
    · exact h1
    · exact (TS.den_iff hM).1 hs)
  have := (TS.itp_at (i := 1) hover).1 hI
  rw [← h3, TS.nextVars_map]
  exact this

theorem imcImplies_den {S : Smt T} (hS : S.Sound) {ts : TS T} {a c : Fla T} (hc : ts.Over c)
    (h : imcImplies S a c = true) {s : TS.State T} (hs : ts.den a s) : ts.den c s := by
  obtain ⟨ρ, h1, rfl⟩ := hs
  refine (TS.den_iff hc).2 (Classical.byContradiction fun hn => ?_)
  refine hS.unsat [.and a (.not c)] (by simpa [imcImplies] using h) ⟨ρ, ?_⟩
  simpa [AllHold] using ⟨h1, hn⟩

theorem den_or {ts : TS T} {a b : Fla T} {s : TS.State T} : ts.den (.or a b) s ↔ ts.den a s ∨ ts.den b s := by
  constructor
  · rintro ⟨ρ, h | h, e⟩
    · exact Or.inl ⟨ρ, h, e⟩
    · exact Or.inr ⟨ρ, h, e⟩
  · rintro (⟨ρ, h, e⟩ | ⟨ρ, h, e⟩)
    · exact ⟨ρ, Or.inl h, e⟩
    · exact ⟨ρ, Or.inr h, e⟩

/-- What `finiteRun` returns when started from states all of whose predecessors have been explored. -/
theorem imcRun_spec {S : Smt T} (hS : S.Sound) {w : Bool} {ts : TS T} (hw : ts.WF) (hna : ts.NoAux) {k : Nat}
    (hk : 0 < k) :
    ∀ fuel iter M R r, ts.Over M → ts.Over R → (∀ s, ts.sem.Init s → ts.den R s) → (∀ s, ts.den M s → ts.den R s) →
      (∀ s, ts.den R s → ts.den M s ∨ ((∀ t, ts.sem.Step s t → ts.den R t) ∧ ts.Clear k (· = s))) →
      (iter = 0 → M = ts.init) → (0 < iter → ¬ ts.sem.BadIn k) →
      imcRun S w ts k fuel iter M R = .done r →
      (r = .unsafeAt k ∧ ts.sem.BadIn k) ∨ (r = .unknown ∧ ¬ ts.sem.BadIn k) ∨
      (¬ ts.sem.BadIn k ∧ ∃ R', ts.Over R' ∧ ts.sem.Inductive (ts.den R') ∧ ts.Clear k (ts.den R') ∧
        ((w = false ∧ r = .safeInv .tt) ∨
          (w = true ∧ ∃ I, computeFinalInductiveInvariant S R' k ts = some I ∧ r = .safeInv I))) := by
  intro fuel
  induction fuel with
  | zero => intro iter M R r _ _ _ _ _ _ _ h; simp [imcRun] at h
  | succ fuel ih =>
    intro iter M R r hM hR hinit hMR hexp h0 hpos h
    unfold imcRun at h
    split at h
    · rename_i hsat
      split at h
      · rename_i e
        subst e
        have hb := imc_sat hS hk hsat
        have hi : iter = 0 := Classical.byContradiction fun hn => hpos (by omega) hb
        subst hi
        simp only [Outcome.done.injEq, Nat.zero_add] at h
        exact Or.inl ⟨h.symm, hb⟩
      · rename_i hne
        simp only [Outcome.done.injEq] at h
        refine Or.inr (Or.inl ⟨h.symm, hpos ?_⟩)
        exact Nat.pos_of_ne_zero fun e => hne (h0 e)
    · rename_i hun
      have hclear := imc_unsat hS hw hna hk hM hun
      obtain ⟨hover, himg⟩ := imc_image hS hw hna hk hM hun
      generalize sendFla (S.itp [ts.trans, M] [imcSuffix ts k]) (-1) = J at h hover himg
      have hnb : ¬ ts.sem.BadIn k := by
        by_cases e : iter = 0
        · have := h0 e
          subst this
          rintro ⟨t, ⟨s, hs, p⟩, hb⟩
          exact hclear s t hs p hb
        · exact hpos (by omega)
      simp only at h
      split at h
      · rename_i himp
        refine Or.inr (Or.inr ⟨hnb, R, hR, ⟨hinit, fun s t hs hst => ?_⟩, fun s t hs p => ?_, ?_⟩)
        · rcases hexp s hs with hm | ⟨h1, _⟩
          · exact imcImplies_den hS hR himp (himg s t hm hst)
          · exact h1 t hst
        · rcases hexp s hs with hm | ⟨_, h2⟩
          · exact hclear s t hm p
          · exact h2 s t rfl p
        · split at h
          · rename_i hw'
            split at h
            · rename_i I hI
              simp only [Outcome.done.injEq] at h
              exact Or.inr ⟨hw', I, hI, h.symm⟩
            · simp at h
          · rename_i hw'
            simp only [Outcome.done.injEq] at h
            exact Or.inl ⟨by simpa using hw', h.symm⟩
      · refine ih (iter + 1) J (.or R J) r hover ?_ ?_ ?_ ?_ ?_ (fun _ => hnb) h
        · intro x hx
          simp only [Fla.vars, List.mem_append] at hx
          rcases hx with hx | hx
          · exact hR x hx
          · exact hover x hx
        · exact fun s hs => den_or.2 (Or.inl (hinit s hs))
        · exact fun s hs => den_or.2 (Or.inr hs)
        · intro s hs
          rcases den_or.1 hs with hs | hs
          · right
            rcases hexp s hs with hm | ⟨h1, h2⟩
            · refine ⟨fun t ht => den_or.2 (Or.inr (himg s t hm ht)), fun s' t e p => ?_⟩
              subst e; exact hclear _ t hm p
            · exact ⟨fun t ht => den_or.2 (Or.inl (h1 t ht)), h2⟩
          · exact Or.inl hs
        · intro e; omega
    · simp at h

theorem imcRun_start {S : Smt T} (hS : S.Sound) {w : Bool} {ts : TS T} (hw : ts.WF) (hna : ts.NoAux) {k : Nat}
    (hk : 0 < k) {fuel : Nat} {r} (h : imcRun S w ts k fuel 0 ts.init ts.init = .done r) :
      (r = .unsafeAt k ∧ ts.sem.BadIn k) ∨ (r = .unknown ∧ ¬ ts.sem.BadIn k) ∨
      (¬ ts.sem.BadIn k ∧ ∃ R', ts.Over R' ∧ ts.sem.Inductive (ts.den R') ∧ ts.Clear k (ts.den R') ∧
        ((w = false ∧ r = .safeInv .tt) ∨
          (w = true ∧ ∃ I, computeFinalInductiveInvariant S R' k ts = some I ∧ r = .safeInv I))) :=
  imcRun_spec hS hw hna hk fuel 0 ts.init ts.init r hna.init hna.init (fun _ h => h) (fun _ h => h)
    (fun _ h => Or.inl h) (fun _ => rfl) (fun h => absurd h (by omega)) h

/-- `R ∧ ¬query` is k-inductive. -/
theorem imc_kinductive {ts : TS T} (hna : ts.NoAux) {k : Nat} (hk : 0 < k) {R : Fla T} (hR : ts.Over R)
    (hind : ts.sem.Inductive (ts.den R)) (hcl : ts.Clear k (ts.den R)) (hb : ∀ j, j < k → ¬ ts.sem.BadIn j) :
    ts.sem.KInductive k (ts.den (.and R (.not ts.query))) where
  base := by
    intro m hm t hr
    obtain ⟨s, hs, p⟩ := id hr
    have h1 := hind.reach (hind.init s hs) p
    obtain ⟨ρ, h2, rfl⟩ := h1
    exact ⟨ρ, ⟨h2, fun hq => hb m hm ⟨_, hr, ρ, hq, rfl⟩⟩, rfl⟩
  step := by
    intro s t p
    obtain ⟨ss, e0, ek, _, hP, hst⟩ := p.toSeq
    have pk := STS.Path.ofSeq ss k hst
    rw [e0, ek] at pk
    have hs : ts.den R s := by
      have := hP 0 hk
      rw [e0] at this
      obtain ⟨ρ, h, e⟩ := this
      exact ⟨ρ, h.1, e⟩
    obtain ⟨ρ, h2, rfl⟩ := hind.reach hs pk
    exact ⟨ρ, ⟨h2, fun hq => hcl s _ hs pk ⟨ρ, hq, rfl⟩⟩, rfl⟩

theorem imc_final {S : Smt T} (hS : S.Sound) {ts : TS T} (hw : ts.WF) (hna : ts.NoAux) {k : Nat} (hk : 0 < k)
    {R I : Fla T} (hR : ts.Over R)
    (hind : ts.sem.Inductive (ts.den R)) (hcl : ts.Clear k (ts.den R)) (hb : ∀ j, j < k → ¬ ts.sem.BadIn j)
    (h : computeFinalInductiveInvariant S R k ts = some I) : ts.Over I ∧ ts.sem.SafeInductive (ts.den I) := by
  unfold computeFinalInductiveInvariant at h
  split at h
  · rename_i hu
    simp only [Option.some.injEq] at h
    subst h
    refine ⟨hR, hind, fun s hs ⟨ρ, hq, e⟩ => ?_⟩
    subst e
    exact hS.unsat _ hu ⟨ρ, by simpa [AllHold] using ⟨(TS.den_iff hR).1 hs, hq⟩⟩
  · have hov : ts.Over (.and R (.not ts.query)) := by
      intro x hx
      simp only [Fla.vars, List.mem_append] at hx
      rcases hx with hx | hx
      · exact hR x hx
      · exact hna.query x hx
    obtain ⟨h1, h2, h3⟩ := C20_kinductiveToInductive S hS ts hw (hna.auxSep hw) _ hov k (imc_kinductive hna hk hR hind hcl hb) I h
    refine ⟨h1, h2, fun s hs hbad => ?_⟩
    obtain ⟨ρ, ⟨_, hn⟩, rfl⟩ := h3 s hs
    exact hn ((TS.den_iff hna.query).1 hbad)

theorem imcLoop_spec {S : Smt T} (hS : S.Sound) {w : Bool} {ts : TS T} (hw : ts.WF) (hna : ts.NoAux) {inner : Nat} :
    ∀ fuel k r, 0 < k → (∀ j, 0 < j → j < k → ¬ ts.sem.BadIn j) → imcLoop S w ts inner fuel k = .done r →
      ∃ d, 0 < d ∧ (∀ j, 0 < j → j < d → ¬ ts.sem.BadIn j) ∧
        ((r = .unsafeAt d ∧ ts.sem.BadIn d) ∨
        ∃ R', ts.Over R' ∧ ts.sem.Inductive (ts.den R') ∧ ts.Clear d (ts.den R') ∧
          ((w = false ∧ r = .safeInv .tt) ∨
            (w = true ∧ ∃ I, computeFinalInductiveInvariant S R' d ts = some I ∧ r = .safeInv I))) := by
  intro fuel
  induction fuel with
  | zero => intro k r _ _ h; simp [imcLoop] at h
  | succ fuel ih =>
    intro k r hk hj h
    unfold imcLoop at h
    split at h
    · rename_i hrun
      rcases imcRun_start hS hw hna hk hrun with ⟨e, _⟩ | ⟨_, hnb⟩ | ⟨hnb, _⟩
      · cases e
      all_goals
        refine ih (k + 1) r (by omega) (fun j h1 h2 => ?_) h
        by_cases e : j = k
        · subst e; exact hnb
        · exact hj j h1 (by omega)
    · rename_i hne
      rcases imcRun_start hS hw hna hk h with ⟨e, hb⟩ | ⟨e, _⟩ | ⟨_, hr⟩
      · exact ⟨k, hk, hj, Or.inl ⟨e, hb⟩⟩
      · subst e; exact absurd h hne
      · exact ⟨k, hk, hj, Or.inr hr⟩

/-- **C25** IMC answers UNSAFE(n) only if a bad state is reachable in exactly `n` steps. Moreover (apart from the initial
check) no shorter path of positive length exists. -/
theorem C25_imc_unsafe (S : Smt T) (hS : S.Sound) (w hasArrays : Bool) (ts : TS T) (hw : ts.WF) (hna : ts.NoAux)
    (inner fuel n : Nat) (h : imcSolve S w hasArrays ts inner fuel = .done (.unsafeAt n)) :
    ts.sem.BadIn n ∧ ∀ j, 0 < j → j < n → ¬ ts.sem.BadIn j := by
  unfold imcSolve at h
  split at h
  · rename_i hsat
    simp only [Outcome.done.injEq, TSResult.unsafeAt.injEq] at h
    subst h
    rw [← base0_list] at hsat
    exact ⟨base_sat hS hsat, fun j h1 h2 => by omega⟩
  split at h
  · simp at h
  obtain ⟨d, hd, hj, ⟨e, hb⟩ | ⟨R, _, _, _, ⟨_, e⟩ | ⟨_, I, _, e⟩⟩⟩ :=
    imcLoop_spec hS hw hna fuel 1 _ (by omega) (fun j h1 h2 => by omega) h
  · cases e; exact ⟨hb, hj⟩
  · cases e
  · cases e

/-- **C25** IMC answers SAFE only if no bad state is reachable, and with witness production the formula it returns is a
safe inductive invariant over the state variables. The backend has to decide whether an initial state is bad. -/
theorem C25_imc_safe (S : Smt T) (hS : S.Sound) (w hasArrays : Bool) (ts : TS T) (hw : ts.WF) (hna : ts.NoAux)
    (hdec : S.check [ts.init, ts.query] = .sat ∨ S.check [ts.init, ts.query] = .unsat)
    (inner fuel : Nat) (I : Fla T) (h : imcSolve S w hasArrays ts inner fuel = .done (.safeInv I)) :
    ts.sem.Safe ∧ (w = true → ts.Over I ∧ ts.sem.SafeInductive (ts.den I)) := by
  unfold imcSolve at h
  split at h
  · simp at h
  rename_i hns
  split at h
  · simp at h
  have hb0 : ¬ ts.sem.BadIn 0 := by
    refine base_unsat hS hw (hna.auxSep hw) ?_
    rw [base0_list]
    rcases hdec with h' | h'
    · exact absurd h' hns
    · exact h'
  obtain ⟨d, hd, hj, ⟨e, hb⟩ | ⟨R, hR, hind, hcl, hr⟩⟩ :=
    imcLoop_spec hS hw hna fuel 1 _ (by omega) (fun j h1 h2 => by omega) h
  · cases e
  have hj' : ∀ j, j < d → ¬ ts.sem.BadIn j := by
    intro j hjd
    by_cases e : j = 0
    · subst e; exact hb0
    · exact hj j (by omega) hjd
  refine ⟨?_, fun hwt => ?_⟩
  · rintro ⟨n, t, hr, hbad⟩
    have := (imc_kinductive hna hd hR hind hcl hj').reach n t hr
    obtain ⟨ρ, ⟨_, hn⟩, rfl⟩ := this
    exact hn ((TS.den_iff hna.query).1 hbad)
  · rcases hr with ⟨e, _⟩ | ⟨_, J, hJ, e⟩
    · rw [hwt] at e; cases e
    · cases e
      exact imc_final hS hw hna hd hR hind hcl hj' hJ

/-- **C25** The hypothesis is needed: if the backend gives up on "initial and bad", IMC can answer SAFE on an unsafe
system. -/
theorem C25_unknown_initial_query_unsound : shySmt.Sound ∧ exKind.sem.BadIn 0 ∧
    ∃ I, imcSolve shySmt true false exKind 2 2 = .done (.safeInv I) := by
  refine ⟨shySmt_sound, C24_unknown_base_query_unsound.2.1, ?_⟩
  have : (match imcSolve shySmt true false exKind 2 2 with | .done (.safeInv _) => true | _ => false) = true := by
    decide +kernel
  revert this
  cases imcSolve shySmt true false exKind 2 2 with
  | done r => cases r <;> simp
  | thrown => simp
  | outOfFuel => simp

/-- Concrete runs: one system proved safe, one refuted. -/
theorem C25_example : (∃ I, imcSolve propSmt true false exTS2 5 5 = .done (.safeInv I)) ∧ exTS2.WF ∧ exTS2.NoAux ∧
    imcSolve propSmt true false exTS 5 5 = .done (.unsafeAt 1) := by
  refine ⟨?_, exTS2_wf, exTS2_noAux, by decide +kernel⟩
  have : (match imcSolve propSmt true false exTS2 5 5 with | .done (.safeInv _) => true | _ => false) = true := by
    decide +kernel
  revert this
  cases imcSolve propSmt true false exTS2 5 5 with
  | done r => cases r <;> simp
  | thrown => simp
  | outOfFuel => simp

end Golem
