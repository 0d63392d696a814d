import Verif.Model.Termination.Nonterm
import Verif.Props.SpacerClauses
import Verif.Lemmas.SingleLoop

/-! Termination by safety checks (`src/termination/ReachabilityNonterm.cc`). -/

namespace Golem
variable {T : Theory}

theorem mkNot_holds {f : Fla T} {ρ : Valuation T} : (mkNot f).holds ρ ↔ ¬ f.holds ρ := by
  cases f <;> simp [mkNot, Fla.holds]

theorem mkNot_vars {f : Fla T} : ∀ x ∈ (mkNot f).vars, x ∈ f.vars := by
  cases f <;> simp [mkNot, Fla.vars]

/-- No infinite run starts in the state. -/
def STS.Dead {σ : Type} (M : STS σ) (s : σ) : Prop := ¬ ∃ r : Nat → σ, r 0 = s ∧ ∀ i, M.Step (r i) (r (i + 1))

/-- A formula over the variables at time `j` that only describes states without infinite runs. -/
structure DeadAt (vs : List Var) (trans : Fla T) (f : Fla T) (j : Nat) : Prop where
  over : ∀ x ∈ f.vars, x ∈ vs.map (shift j)
  dead : ∀ ρ : Valuation T, f.holds ρ → (mkTS vs .tt trans .ff).sem.Dead (vs.map fun x => ρ (shift j x))

theorem DeadAt.send {vs : List Var} {trans f : Fla T} {j : Nat} (h : DeadAt vs trans f (j + 1)) :
    DeadAt vs trans (sendFla f (-(j : Int))) 1 := by
  have e : ((j + 1 : Nat) : Int) + -(j : Int) = 1 := by push_cast; omega
  constructor
  · intro x hx
    obtain ⟨y, hy, rfl⟩ := mem_vars_sendFla.1 hx
    obtain ⟨z, hz, rfl⟩ := List.mem_map.1 (h.over y hy)
    refine List.mem_map.2 ⟨z, hz, ?_⟩
    rw [shift_shift, e]; rfl
  · intro ρ hρ
    rw [sendFla_holds] at hρ
    have := h.dead _ hρ
    simp only [shift_shift, e] at this
    exact this

/-- The result of the walk. -/
def WalkOk (vs : List Var) (trans : Fla T) : Option (NtBlock T) → Prop
  | none => True
  | some (.step block) => DeadAt vs trans block 1
  | some (.initial f) => DeadAt vs trans f 0

theorem ntWalk_ok {S : Smt T} (hS : S.Correct) (hC : S.Complete) {Q : KeepOnly T} (hQ : Q.Exact) {vs : List Var}
    {trace trans : Fla T} : ∀ (j : Nat) (result : Fla T), DeadAt vs trans result j →
    WalkOk vs trans (ntWalk S Q vs trace trans j result) := by
  intro j
  induction j with
  | zero => intro result h; exact h
  | succ j ih =>
    intro result h
    simp only [ntWalk]
    cases hq : Q trace (vs.map (shift j)) with
    | none => trivial
    | some base =>
      simp only
      by_cases hc : S.check [Fla.conj [base, sendFla trans j, mkNot result]] = .sat
      · rw [if_pos hc]; exact h.send
      · rw [if_neg hc]
        have hu := (hC [Fla.conj [base, sendFla trans j, mkNot result]]).resolve_left hc
        have hun := hS.unsat _ hu
        refine ih base ⟨(hQ _ _ _ hq).1, ?_⟩
        rintro ρ hρ ⟨r, hr0, hr⟩
        obtain ⟨σ, ht, hs, hn⟩ := hr 0
        let τ : Valuation T := fun x => σ (shift (-(j : Int)) x)
        have hτ : ∀ (x : Var) (i : Int), τ (shift (i + j) x) = σ (shift i x) := by
          intro x i
          simp only [τ, shift_shift]
          congr 2; omega
        have h1 : base.holds τ := by
          refine (Fla.holds_congr fun x hx => ?_).1 hρ
          obtain ⟨y, hy, rfl⟩ := List.mem_map.1 ((hQ _ _ _ hq).1 x hx)
          have e1 := hτ y 0
          rw [Int.zero_add, shift_zero] at e1
          rw [e1]
          have e2 : vs.map (fun x => ρ (shift j x)) = vs.map σ := by
            rw [← hr0]; exact hs.symm
          exact (List.map_inj_left.1 e2 y hy)
        have h2 : (sendFla trans j).holds τ := by
          rw [sendFla_holds]
          refine (Fla.holds_congr fun x _ => ?_).2 ht
          have := hτ x 0
          rwa [Int.zero_add, shift_zero] at this
        have h3 : result.holds τ := Classical.byContradiction fun hnr => by
          refine hun ⟨τ, ?_⟩
          intro f hf
          rw [List.mem_singleton.1 hf]
          simp only [Fla.holds_conj, List.mem_cons, List.not_mem_nil, or_false, forall_eq_or_imp, forall_eq]
          exact ⟨h1, h2, mkNot_holds.2 hnr⟩
        refine h.dead τ h3 ⟨fun i => r (i + 1), ?_, fun i => hr (i + 1)⟩
        refine hn.symm.trans ?_
        show List.map σ (List.map (shift 1) vs) = _
        rw [List.map_map]
        refine List.map_congr_left fun x _ => ?_
        have := hτ x 1
        have e : (1 : Int) + j = ((j + 1 : Nat) : Int) := by push_cast; omega
        rw [e] at this
        exact this.symm

/-- The invariant of the main loop. -/
structure NtInv (ts : TS T) (init trans sink : Fla T) : Prop where
  ivars : ∀ x ∈ init.vars, x ∈ ts.stateVars ∨ x ∈ ts.auxVars
  tvars : ∀ x ∈ trans.vars, x ∈ ts.stateVars ∨ x ∈ ts.nextVars ∨ x ∈ ts.auxVars
  svars : ∀ x ∈ sink.vars, x ∈ ts.stateVars
  sep : ∀ x ∈ ts.auxVars, x ∈ init.vars → x ∉ trans.vars
  dead : ∀ ρ : Valuation T, sink.holds ρ → ¬ trans.holds ρ
  run : (mkTS ts.stateVars init trans sink).sem.InfiniteRun ↔ ts.sem.InfiniteRun

section
variable {ts : TS T} {init trans sink : Fla T}

theorem sink_dead (h : ∀ ρ : Valuation T, sink.holds ρ → ¬ trans.holds ρ) (hv : ∀ x ∈ sink.vars, x ∈ ts.stateVars)
    (num : Nat) : DeadAt ts.stateVars trans (sendFla sink num) num := by
  constructor
  · intro x hx
    obtain ⟨y, hy, rfl⟩ := mem_vars_sendFla.1 hx
    exact List.mem_map.2 ⟨y, hv y hy, rfl⟩
  · rintro ρ hρ ⟨r, hr0, hr⟩
    obtain ⟨σ, ht, hs, -⟩ := hr 0
    rw [sendFla_holds] at hρ
    refine h σ ((Fla.holds_congr fun x hx => ?_).1 hρ) ht
    have e2 : ts.stateVars.map (fun x => ρ (shift num x)) = ts.stateVars.map σ := by
      rw [← hr0]; exact hs.symm
    exact List.map_inj_left.1 e2 x (hv x hx)

theorem NtInv.blockStep (hv : ts.Versioned) (h : NtInv ts init trans sink) {b : Fla T} (hb : DeadAt ts.stateVars trans b 1) :
    NtInv ts init (.and trans (mkNot b)) sink := by
  have hnx : ∀ x ∈ (mkNot b).vars, x ∈ ts.nextVars := fun x hx => hb.over x (mkNot_vars x hx)
  refine ⟨h.ivars, ?_, h.svars, ?_, fun ρ h1 h2 => h.dead ρ h1 h2.1, ?_⟩
  · intro x hx
    rcases List.mem_append.1 hx with hx | hx
    · exact h.tvars x hx
    · exact .inr (.inl (hnx x hx))
  · intro x hx hm hx'
    rcases List.mem_append.1 hx' with hx' | hx'
    · exact h.sep x hx hm hx'
    · obtain ⟨y, hy, rfl⟩ := List.mem_map.1 (hnx x hx')
      obtain ⟨n, rfl⟩ := hv.state y hy
      obtain ⟨n', e⟩ := hv.aux _ hx
      have : (0 : Int) + 1 = 0 := by simpa [shift] using (Var.ver.inj e).2
      omega
  · rw [← h.run]
    constructor
    · rintro ⟨r, hi, hr⟩
      refine ⟨r, hi, fun i => ?_⟩
      obtain ⟨ρ, ht, h1, h2⟩ := hr i
      exact ⟨ρ, ht.1, h1, h2⟩
    · rintro ⟨r, hi, hr⟩
      refine ⟨r, hi, fun i => ?_⟩
      obtain ⟨ρ, ht, h1, h2⟩ := hr i
      refine ⟨ρ, ⟨ht, mkNot_holds.2 fun hbh => ?_⟩, h1, h2⟩
      refine hb.dead ρ hbh ⟨fun k => r (i + 1 + k), ?_, fun k => hr (i + 1 + k)⟩
      refine h2.symm.trans ?_
      show List.map ρ (List.map (shift 1) ts.stateVars) = _
      rw [List.map_map]; rfl

theorem NtInv.blockInit (h : NtInv ts init trans sink) {b : Fla T} (hb : DeadAt ts.stateVars trans b 0) (hsep : ∀ x ∈ ts.stateVars, x ∉ ts.auxVars) :
    NtInv ts (.and init (mkNot b)) trans sink := by
  have hsv : ∀ x ∈ (mkNot b).vars, x ∈ ts.stateVars := fun x hx => by
    obtain ⟨y, hy, rfl⟩ := List.mem_map.1 (hb.over x (mkNot_vars x hx))
    have : shift ((0 : Nat) : Int) y = y := shift_zero y
    rw [this]; exact hy
  refine ⟨?_, h.tvars, h.svars, ?_, h.dead, ?_⟩
  · intro x hx
    rcases List.mem_append.1 hx with hx | hx
    · exact h.ivars x hx
    · exact .inl (hsv x hx)
  · intro x hx hm
    rcases List.mem_append.1 hm with hm | hm
    · exact h.sep x hx hm
    · exact absurd hx (hsep x (hsv x hm))
  · rw [← h.run]
    constructor
    · rintro ⟨r, ⟨ρ, hi, e⟩, hr⟩
      exact ⟨r, ⟨ρ, hi.1, e⟩, hr⟩
    · rintro ⟨r, ⟨ρ, hi, e⟩, hr⟩
      refine ⟨r, ⟨ρ, ⟨hi, mkNot_holds.2 fun hbh => ?_⟩, e⟩, hr⟩
      refine hb.dead ρ hbh ⟨r, ?_, hr⟩
      rw [← e]
      refine List.map_congr_left fun x _ => ?_
      have : shift ((0 : Nat) : Int) x = x := shift_zero x
      rw [this]

theorem vertex_of_clauses {ar : Pred → Nat} {cs : List (Clause T)} (har : ArityConsistent ar cs) (hu : ∀ c ∈ cs, c.User)
    {q : Pred} (h : (buildGraph (normalize cs).2).Vertex q) :
    q = .tru ∨ ∃ c ∈ cs, q = c.head.1 ∨ q ∈ c.body.map Prod.fst := by
  have hspec := normalizeFrom_spec (NState.init_inv har.1 har.2.1) cs hu har.2.2
  have hpr := (hspec.2.2 _ (NState.Ext.refl _)).preds
  obtain ⟨e, he, h⟩ := h
  obtain ⟨i, c, hc, rfl⟩ := mem_buildGraph he
  obtain ⟨c0, h0, hh, hb⟩ := hpr c (List.mem_of_getElem? hc)
  rcases h with rfl | h
  · exact .inr ⟨c0, h0, .inl hh⟩
  · simp only [clauseEdge] at h
    split at h
    · exact .inl (by simpa using h)
    · exact .inr ⟨c0, h0, .inr (hb ▸ h)⟩

theorem find_lookup {D : Defs T} {q : Pred} {d : Fla T}
    (h : D.find? (fun d => decide (d.1 ≠ .tru ∧ d.1 ≠ .fls)) = some (q, d)) : D.get q = some d ∧ q ≠ .tru ∧ q ≠ .fls := by
  have hq : q ≠ .tru ∧ q ≠ .fls := by simpa using List.find?_some h
  refine ⟨?_, hq⟩
  induction D with
  | nil => simp at h
  | cons a D ih =>
    obtain ⟨p, f⟩ := a
    rw [List.find?_cons] at h
    by_cases hp : p ≠ .tru ∧ p ≠ .fls
    · simp only [hp, ne_eq, not_false_eq_true, and_self, decide_true] at h
      cases h
      simp [Defs.get]
    · rw [decide_eq_false hp] at h
      have hne : q ≠ p := fun e => hp (e ▸ hq)
      rw [Defs.get, List.lookup_cons, beq_eq_false_iff_ne.2 hne]
      exact ih h

/-- Every reachable state satisfies the invariant read off the witness. -/
theorem ntInvariant_reach {E : Engine T} {k : Nat} {vs : List Var} {i t q : Fla T} (hu : ∀ c ∈ systemClauses k vs i t q, c.User)
    (hE : E.GoodOn (systemClauses k vs i t q)) {r : VerificationResult T} {D : Defs T} {inv : Fla T}
    (hr : solveClauses E (systemClauses k vs i t q) = .done r) (hw : r.witness = .validity D)
    (hi : ntInvariant (normalize (systemClauses k vs i t q)).1.repr vs D = some inv) {ρ : Valuation T}
    (hreach : (mkTS vs i t q).sem.Reachable (vs.map ρ)) : inv.holds ρ := by
  unfold ntInvariant at hi
  split at hi
  · simp at hi
  · rename_i p d hf
    simp only [Option.some.injEq] at hi
    subst hi
    obtain ⟨hget, hp1, hp2⟩ := find_lookup hf
    have hne : D ≠ [] := by rintro rfl; simp at hf
    obtain ⟨-, hgood⟩ := (hE r hr).validity D hw hne
    have hpk : p = .p k := by
      rcases hgood.only p (by simp [hget]) with h | h | h
      · rcases vertex_of_clauses systemClauses_arity hu h with h | ⟨c, hc, h⟩
        · exact absurd h hp1
        · simp only [systemClauses, List.mem_cons, List.not_mem_nil, or_false] at hc
          rcases hc with rfl | rfl | rfl
          · simpa using h
          · simpa using h
          · simp only [List.map_cons, List.map_nil, List.mem_singleton] at h
            exact h.resolve_left hp2
      · exact absurd h hp1
      · exact absurd h hp2
    subst hpk
    have hder := (C04_input_to_graph _ _ systemClauses_arity hu _).2 (systemClauses_reach (k := k).2 hreach)
    obtain ⟨d', hd', σ, hσ, hh⟩ := hder.sound hgood.model.1
    rw [hget] at hd'; cases hd'
    rw [varSubstitute_holds]
    refine (Fla.holds_congr fun x hx => ?_).1 hh
    have hx' := hgood.closed _ _ hget x hx
    have hR := (C03_normal_form _ _ systemClauses_arity hu).1
    have hnd := PRepr.baseVars_nodup hR (.p k)
    have hl : ((normalize (systemClauses k vs i t q)).1.repr.baseVars (.p k)).length = (vs.map (Tm.var (T := T))).length := by
      have := congrArg List.length hσ
      simpa using this
    have e := map_fn_zip' hnd hl ρ []
    rw [List.append_nil] at e
    have e2 : (vs.map (Tm.var (T := T))).map (Tm.eval ρ) = vs.map ρ := by simp [Function.comp_def, Tm.eval]
    rw [e2] at e
    exact (List.map_inj_left.1 (e.trans hσ.symm) x hx').symm

theorem infiniteRun_of_total {σ : Type} {M : STS σ} {s : σ} (hi : M.Init s)
    (h : ∀ s, M.Reachable s → ∃ t, M.Step s t) : M.InfiniteRun := by
  classical
  let f : { s // M.Reachable s } → { s // M.Reachable s } := fun x =>
    ⟨(h x.1 x.2).choose, by
      obtain ⟨n, s0, h0, hp⟩ := x.2
      exact ⟨n + 1, s0, h0, .snoc hp (h x.1 x.2).choose_spec⟩⟩
  let r : Nat → { s // M.Reachable s } := fun n => Nat.rec ⟨s, 0, s, hi, .refl s⟩ (fun _ x => f x) n
  exact ⟨fun n => (r n).1, hi, fun n => (h (r n).1 (r n).2).choose_spec⟩

/-- The engine gives right answers and witnesses for the clauses of every system over these variables. -/
def Engine.GoodSystems (E : Engine T) (k : Nat) (vs : List Var) : Prop :=
  ∀ i t q : Fla T, (∀ x ∈ i.vars, x.Untagged) → (∀ x ∈ t.vars, x.Untagged) → (∀ x ∈ q.vars, x.Untagged) →
    E.GoodOn (systemClauses k vs i t q)

theorem NtInv.untagged (hv : ts.Versioned) (h : NtInv ts init trans sink) : (∀ x ∈ init.vars, x.Untagged) ∧
    (∀ x ∈ trans.vars, x.Untagged) ∧ ∀ x ∈ sink.vars, x.Untagged := by
  have hs : ∀ x ∈ ts.stateVars, x.Untagged := fun x hx => by obtain ⟨n, rfl⟩ := hv.state x hx; trivial
  have hn : ∀ x ∈ ts.nextVars, x.Untagged := fun x hx => by
    obtain ⟨y, hy, rfl⟩ := List.mem_map.1 hx
    obtain ⟨n, rfl⟩ := hv.state y hy; trivial
  have ha : ∀ x ∈ ts.auxVars, x.Untagged := fun x hx => by obtain ⟨n, rfl⟩ := hv.aux x hx; trivial
  exact ⟨fun x hx => (h.ivars x hx).elim (hs x) (ha x),
    fun x hx => (h.tvars x hx).elim (hs x) fun h => h.elim (hn x) (ha x), fun x hx => hs x (h.svars x hx)⟩

/-- Initial state and first step, glued: there is none if `init ∧ trans` is unsatisfiable. -/
theorem NtInv.noStep (h : NtInv ts init trans sink) (hu : ¬ SatList [Fla.and init trans]) : ¬ ts.sem.InfiniteRun := by
  classical
  rw [← h.run]
  rintro ⟨r, ⟨ρ, hi, e0⟩, hr⟩
  obtain ⟨σ, ht, e1, -⟩ := hr 0
  let τ : Valuation T := fun x => if x ∈ init.vars then ρ x else σ x
  refine hu ⟨τ, fun f hf => ?_⟩
  rw [List.mem_singleton.1 hf]
  refine ⟨(Fla.holds_congr fun x hx => ?_).2 hi, (Fla.holds_congr fun x hx => ?_).2 ht⟩
  · have hx' : x ∈ init.vars := hx
    simp [τ, hx']
  · by_cases hx' : x ∈ init.vars
    · simp only [τ, hx', if_true]
      rcases h.ivars x hx' with hs | ha
      · exact List.map_inj_left.1 (e0.trans e1.symm) x hs
      · exact absurd hx (h.sep x ha hx')
    · simp [τ, hx']

/-- What the answers mean. -/
def NtOk (ts : TS T) : Outcome TermAnswer → Prop
  | .done .yes => ts.sem.Terminates
  | .done .no => ts.sem.InfiniteRun
  | _ => True

theorem ntLoop_ok {S : Smt T} (hS : S.Correct) (hC : S.Complete) {Q : KeepOnly T} (hQ : Q.Exact) {E : Engine T} {k : Nat}
    (hv : ts.Versioned) (hsep : ∀ x ∈ ts.stateVars, x ∉ ts.auxVars) (hE : E.GoodSystems k ts.stateVars) :
    ∀ (fuel : Nat) (init trans sink : Fla T), NtInv ts init trans sink →
      NtOk ts (ntLoop S Q E k ts.stateVars fuel init trans sink) := by
  intro fuel
  induction fuel with
  | zero => intros; trivial
  | succ fuel ih =>
    intro init trans sink h
    obtain ⟨u1, u2, u3⟩ := h.untagged hv
    have hu := systemClauses_user (k := k) hv.state u1 u2 u3
    have hgood := hE init trans sink u1 u2 u3
    simp only [ntLoop]
    split
    · trivial
    · trivial
    · rename_i r hr
      split
      · rename_i ds ha hw
        split
        · trivial
        · have hwalk := ntWalk_ok hS hC hQ (trace := ntTrace init trans sink (ds.length - 3)) (ds.length - 3) _
            (sink_dead h.dead h.svars (ds.length - 3))
          revert hwalk
          cases ntWalk S Q ts.stateVars (ntTrace init trans sink (ds.length - 3)) trans (ds.length - 3)
              (sendFla sink (ds.length - 3 : Nat)) with
          | none => intro _; trivial
          | some b =>
            cases b with
            | step b => intro hb; exact ih _ _ _ (h.blockStep hv hb)
            | initial b => intro hb; exact ih _ _ _ (h.blockInit hb hsep)
      · trivial
      · rename_i D ha hw
        split
        · trivial
        · rename_i inv hinv
          split
          · rename_i hun
            exact h.noStep (hS.unsat _ hun)
          · rename_i hun
            split
            · trivial
            · rename_i g hg
              obtain ⟨gv, gh⟩ := hQ _ _ _ hg
              split
              · rename_i hun2
                have hsat := hS.sat _ ((hC [Fla.and init trans]).resolve_right hun)
                have hno := hS.unsat _ hun2
                refine h.run.1 ?_
                have hinit : (mkTS ts.stateVars init trans sink).sem.Init (ts.stateVars.map (S.model [Fla.and init trans])) :=
                  ⟨_, (hsat _ (List.mem_singleton.2 rfl)).1, rfl⟩
                refine infiniteRun_of_total hinit fun s hs => ?_
                have hrep : ∃ ρ : Valuation T, ts.stateVars.map ρ = s := by
                  obtain ⟨n, s0, hi0, hp⟩ := hs
                  cases hp with
                  | refl => obtain ⟨ρ, -, e⟩ := hi0; exact ⟨ρ, e⟩
                  | snoc _ st =>
                    obtain ⟨ρ, -, -, e⟩ := st
                    refine ⟨fun x => ρ (shift 1 x), ?_⟩
                    rw [← e]
                    show _ = List.map ρ (List.map (shift 1) ts.stateVars)
                    rw [List.map_map]; rfl
                obtain ⟨ρ, rfl⟩ := hrep
                have h1 := ntInvariant_reach hu hgood hr hw hinv hs
                have h2 : g.holds ρ := Classical.byContradiction fun hg => hno ⟨ρ, fun f hf => by
                  rw [List.mem_singleton.1 hf]
                  simp only [Fla.holds_conj, List.mem_cons, List.not_mem_nil, or_false, forall_eq_or_imp, forall_eq]
                  exact ⟨h1, mkNot_holds.2 hg⟩⟩
                obtain ⟨ρ', e, ht⟩ := (gh ρ).1 h2
                exact ⟨_, ρ', ht, List.map_congr_left e, rfl⟩
              · refine ih _ _ _ ⟨h.ivars, h.tvars, fun x hx => gv x (mkNot_vars x hx), h.sep, ?_, h.run⟩
                intro ρ h1 h2
                exact mkNot_holds.1 h1 ((gh ρ).2 ⟨ρ, fun _ _ => rfl, h2⟩)
      · trivial
      · trivial

/-- C54. Termination by safety checks, on top of an engine that gives right answers and witnesses, an SMT solver that never
answers UNKNOWN and exact quantifier elimination: YES means that every run is finite; NO means that there is an infinite
run, provided the system has an initial state at all. -/
theorem C54_nonterm {S : Smt T} (hS : S.Correct) (hC : S.Complete) {Q : KeepOnly T} (hQ : Q.Exact) {E : Engine T} {k : Nat}
    (hw : ts.WF) (hv : ts.Versioned) (hsep : ts.AuxSep) (hE : E.GoodSystems k ts.stateVars) {fuel : Nat} :
    (nontermRun S Q E k ts fuel = .done .yes → ts.sem.Terminates) ∧
    (nontermRun S Q E k ts fuel = .done .no → (∃ s, ts.sem.Init s) → ts.sem.InfiniteRun) := by
  unfold nontermRun
  cases hq : Q ts.trans ts.stateVars with
  | none => simp
  | some g =>
    obtain ⟨gv, gh⟩ := hQ _ _ _ hq
    simp only
    split
    · rename_i hff
      refine ⟨by simp, fun _ ⟨s, hs⟩ => infiniteRun_of_total hs fun s hs => ?_⟩
      have hrep : ts.Rep s := by
        obtain ⟨n, s0, hi0, hp⟩ := hs
        cases hp with
        | refl => exact TS.rep_init hi0
        | snoc _ st => exact TS.rep_tgt st
      obtain ⟨ρ, rfl⟩ := hrep
      have hg : g.holds ρ := Classical.byContradiction fun hg => by
        have := mkNot_holds.2 hg
        rw [hff] at this
        exact this
      obtain ⟨ρ', e, ht⟩ := (gh ρ).1 hg
      exact ⟨_, ρ', ht, List.map_congr_left e, rfl⟩
    · have h : NtInv ts ts.init ts.trans (mkNot g) := ⟨hw.init, hw.trans, fun x hx => gv x (mkNot_vars x hx), hsep.it,
        fun ρ h1 h2 => mkNot_holds.1 h1 ((gh ρ).2 ⟨ρ, fun _ _ => rfl, h2⟩), Iff.rfl⟩
      have := ntLoop_ok hS hC hQ hv hw.sep hE fuel _ _ _ h
      constructor
      · intro e; rw [e] at this; exact this
      · intro e _; rw [e] at this; exact this

/-- C54 with Spacer as the engine. -/
theorem C54_spacer {S : Smt T} (hS : S.Sound) (hC : S.Complete) {Q : KeepOnly T} (hQ : Q.Exact) {M : Mbp T}
    {simp : Fla T → Fla T} {logProof : Bool} {ord : List (Fla T) → List (Fla T)} {pick : Nat → Nat → List (Pob T) → Nat}
    {hasArrays : Bool} {fuel n : Nat} (hM : M.Sound) (hsimp : SimpOk simp) (hord : ∀ l f, f ∈ ord l ↔ f ∈ l) {k : Nat}
    (hw : ts.WF) (hv : ts.Versioned) (hsep : ts.AuxSep) :
    (nontermRun S Q (spacerEngine S M simp logProof ord pick hasArrays n) k ts fuel = .done .yes → ts.sem.Terminates) ∧
    (nontermRun S Q (spacerEngine S M simp logProof ord pick hasArrays n) k ts fuel = .done .no →
      (∃ s, ts.sem.Init s) → ts.sem.InfiniteRun) :=
  C54_nonterm hS.correct hC hQ hw hv hsep fun _ _ _ hi ht hq => spacer_system hS hM hsimp hord hv.state hi ht hq

end
end Golem
