import Verif.Model.Engines.TPANetwork
import Verif.Props.TPA

/-! The network of transition systems: the two kinds of queries. -/

namespace Golem
variable {T : Theory}

/-- The states of a vertex (the values of its arguments) a formula describes. -/
def PRepr.den (R : PRepr) (v : Pred) (f : Fla T) (a : List T.Val) : Prop :=
  ∃ ρ : Valuation T, f.holds ρ ∧ (R.stateVars v).map ρ = a

/-- `f` mentions arguments of the vertex only. -/
def PRepr.OverV (R : PRepr) (v : Pred) (f : Fla T) : Prop := ∀ x ∈ f.vars, x ∈ R.stateVars v

/-- The self-loop of a vertex as a transition relation. -/
def loopSTS (R : PRepr) (G : LGraph T) (v : Pred) : STS (List T.Val) where
  Init := fun _ => True
  Step := fun a b => ∃ e, selfLoopFor G v = some e ∧ e.Fires R (v, a) (v, b)
  Bad := fun _ => True

/-- What is known about a solver object of a vertex. -/
structure SolverOk (X : NetEnv T) (R : PRepr) (G : LGraph T) (v : Pred) (s : TS T × TpaState T) : Prop where
  wf : s.1.WF
  noAux : s.1.NoAux
  vars : s.1.stateVars = R.stateVars v
  step : ∀ a b, s.1.sem.Step a b ↔ (loopSTS R G v).Step a b
  inv : TpaInv X.core s.1 X.V.S.Complete s.2

structure NetEnv.Ok (X : NetEnv T) : Prop where
  V : X.V.Ok
  simpT : SimpOk X.simpT
  nrm : SimpOk X.nrm
  M : X.M.Sound

variable {X : NetEnv T} {R : PRepr} {G : LGraph T} {v : Pred}

theorem PRepr.den_iff {f : Fla T} (hf : R.OverV v f) {ρ : Valuation T} : R.den v f ((R.stateVars v).map ρ) ↔ f.holds ρ := by
  constructor
  · rintro ⟨ρ', h, e⟩
    refine (Fla.holds_congr fun x hx => ?_).1 h
    exact (List.map_inj_left.1 e) x (hf x hx)
  · exact fun h => ⟨ρ, h, rfl⟩

theorem PRepr.den_not {f : Fla T} (hf : R.OverV v f) {a : List T.Val} (ha : ∃ ρ : Valuation T, (R.stateVars v).map ρ = a) :
    R.den v (.not f) a ↔ ¬ R.den v f a := by
  obtain ⟨ρ, rfl⟩ := ha
  rw [PRepr.den_iff hf, PRepr.den_iff (f := .not f) (by simpa [Fla.vars, PRepr.OverV] using hf)]
  simp [Fla.holds]

theorem PRepr.den_rep {f : Fla T} {a : List T.Val} (h : R.den v f a) : ∃ ρ : Valuation T, (R.stateVars v).map ρ = a :=
  let ⟨ρ, _, e⟩ := h; ⟨ρ, e⟩

theorem PRepr.den_or {f g : Fla T} {a : List T.Val} : R.den v (.or f g) a ↔ R.den v f a ∨ R.den v g a := by
  constructor
  · rintro ⟨ρ, h | h, e⟩
    · exact .inl ⟨ρ, h, e⟩
    · exact .inr ⟨ρ, h, e⟩
  · rintro (⟨ρ, h, e⟩ | ⟨ρ, h, e⟩)
    · exact ⟨ρ, .inl h, e⟩
    · exact ⟨ρ, .inr h, e⟩

theorem SimpOk.den {s : Fla T → Fla T} (hs : SimpOk s) {f : Fla T} {a : List T.Val} : R.den v (s f) a ↔ R.den v f a :=
  exists_congr fun ρ => and_congr_left fun _ => hs.equiv f ρ

theorem SimpOk.overV {s : Fla T → Fla T} (hs : SimpOk s) {f : Fla T} (h : R.OverV v f) : R.OverV v (s f) :=
  fun x hx => h x (hs.vars f x hx)

/-! ### The self-loop as a system -/

theorem selfLoopFor_mem {e : LEdge T} (h : selfLoopFor G v = some e) : e ∈ G ∧ e.src = v ∧ e.tgt = v := by
  have h1 := List.mem_of_find?_eq_some h
  have h2 := List.find?_some h
  simp only [decide_eq_true_eq] at h2
  exact ⟨(mem_out.1 h1).1, (mem_out.1 h1).2, h2⟩

theorem loopSystem_ok (hR : R.WF) (hl : ∀ e ∈ G, e.LabelOk R) {ts : TS T} (h : loopSystem R G v = some ts) :
    ts.WF ∧ ts.stateVars = R.stateVars v ∧ (∀ a b, ts.sem.Step a b ↔ (loopSTS R G v).Step a b) := by
  simp only [loopSystem, Option.map_eq_some_iff] at h
  obtain ⟨e, he, rfl⟩ := h
  obtain ⟨hm, hs, ht⟩ := selfLoopFor_mem he
  have hcur : ∀ x ∈ R.stateVars v, x.isCurrent := by
    intro x hx
    obtain ⟨n, _, rfl⟩ := List.mem_map.1 hx
    rfl
  have hnext : (R.stateVars v).map (shift 1) = R.nextVars v := by
    simp [PRepr.stateVars, PRepr.nextVars, shift, Function.comp_def]
  have haux : ∀ x ∈ edgeAux R e, R.AuxFor [v] x := by
    intro x hx
    simp only [edgeAux, List.mem_filter, Bool.and_eq_true, decide_eq_true_eq] at hx
    rcases hl e hm x hx.1 with h | h | h
    · exact absurd h hx.2.1
    · exact absurd h hx.2.2
    · rwa [hs] at h
  refine ⟨⟨?_, ?_, ?_, hcur, fun x hx => (haux x hx).isCurrent, ?_, fun x hx hx' => (haux x hx').not_state v hx⟩, rfl, ?_⟩
  · intro x hx; simp [Fla.vars] at hx
  · intro x hx; simp [Fla.vars] at hx
  · intro x hx
    simp only at hx
    by_cases h1 : x ∈ R.stateVars v
    · exact .inl h1
    · by_cases h2 : x ∈ R.nextVars v
      · right; left; show x ∈ List.map _ _; rw [hnext]; exact h2
      · right; right
        simp only [edgeAux, List.mem_filter, Bool.and_eq_true, decide_eq_true_eq, hs, ht]
        exact ⟨hx, h1, h2⟩
  · exact nodup_map_of_inj (fun a b h => by cases h; rfl) (hR.nodup v)
  · intro a b
    constructor
    · rintro ⟨ρ, h1, h2, h3⟩
      refine ⟨e, he, ρ, h1, ?_, ?_⟩
      · simp only [LEdge.srcFact, hs, ← h2]
      · simp only [LEdge.tgtFact, ht, ← h3]
        rw [← hnext]; rfl
    · rintro ⟨e', he', ρ, h1, h2, h3⟩
      rw [he] at he'; cases he'
      simp only [LEdge.srcFact, LEdge.tgtFact, hs, ht, Prod.mk.injEq, true_and] at h2 h3
      refine ⟨ρ, h1, h2.symm, ?_⟩
      rw [h3, ← hnext]; rfl

theorem tpaStart_ok (hT : SimpOk X.simpT) (hR : R.WF) (hl : ∀ e ∈ G, e.LabelOk R) {ts : TS T} (h : loopSystem R G v = some ts)
    {s : TS T × TpaState T} (hs : tpaStart X.core X.simpT ts = some s) : SolverOk X R G v s := by
  obtain ⟨h1, h2, h3⟩ := loopSystem_ok hR hl h
  unfold tpaStart at hs
  simp only [Option.bind_eq_bind, Option.bind_eq_some_iff] at hs
  obtain ⟨tp, hp, st0, hr, hs⟩ := hs
  simp only [Option.pure_def, Option.some.injEq] at hs
  subst hs
  obtain ⟨p1, p2, _, p4, _⟩ := C58_prepare hT h1 hp
  refine ⟨p1, p2, ?_, fun a b => (p4 a b).trans (h3 a b), tpaReset_ok p1 hr⟩
  unfold tpaPrepare at hp
  simp only [Option.bind_eq_bind, Option.bind_eq_some_iff] at hp
  obtain ⟨i, _, q, _, t, _, hp⟩ := hp
  split at hp
  · cases hp; exact h2
  · cases hp

/-! ### Queries on a system -/

/-- What a node keeps when its solver is asked. -/
structure NodeSame (n n' : NetNode T) : Prop where
  pre : n'.pre = n.pre
  post : n'.post = n.post
  children : n'.children = n.children
  reasons : n'.reasons = n.reasons

theorem queryTS_ok (hX : X.Ok) {n n' : NetNode T} {src tgt : Fla T} (hn : ∀ s, n.solver = some s → SolverOk X R G v s)
    (hg : src = tgt → src ≠ .ff → ∃ a, R.den v src a) {r : NetRes T} {oe : Option (Expl T)}
    (h : queryTS X n src tgt = .done (r, n', oe)) :
    NodeSame n n' ∧ R.OverV v src ∧ R.OverV v tgt ∧ (∃ s, n'.solver = some s ∧ SolverOk X R G v s ∧ s.1.init = src ∧ s.1.query = tgt ∧
        (∀ e, oe = some e → X.V.S.Complete → ExplBack s.1 s.2 e ∧ ExplOk s.1 s.2 e)) ∧ n.solver.isSome ∧
      match (generalizing := false) r with
      | .reach g => oe = none ∧ R.OverV v g ∧ (∃ a, R.den v g a) ∧ ∀ b, R.den v g b → R.den v tgt b ∧
          ∃ a, R.den v src a ∧ ∃ k, (loopSTS R G v).Path k a b ∧ (X.core = .split → k = n'.steps)
      | .block f => oe.isSome ∧ (X.V.S.Complete → R.OverV v f ∧ (∀ a, R.den v src a → R.den v f a) ∧
          ∀ k a b, R.den v f a → (loopSTS R G v).Path k a b → ¬ R.den v tgt b) := by
  unfold queryTS at h
  simp only [Outcome.andThen_done] at h
  obtain ⟨s, hs, ⟨ts', st', ans⟩, ha, h⟩ := h
  have hs : n.solver = some s := by
    cases hc : n.solver with
    | none => rw [hc] at hs; cases hs
    | some s' => rw [hc] at hs; cases hs; rfl
  have hso := hn s hs
  obtain ⟨ts, st⟩ := s
  simp only [askSolver, Outcome.andThen_done] at ha
  obtain ⟨l, hl, ha⟩ := ha
  have hl0 := hl
  simp only [tpaOps] at hl
  split at hl
  swap
  · cases hl
  rename_i hp1
  split at hl
  swap
  · cases hl
  rename_i hp2
  simp only [Outcome.andThen_done, Outcome.done.injEq] at hl
  obtain ⟨⟨a0, st0⟩, hsol, l1, hl1, hl⟩ := hl
  subst hl1
  subst hl
  simp only [Outcome.done.injEq, Prod.mk.injEq] at ha
  obtain ⟨rfl, rfl, rfl⟩ := ha
  have hsrc : R.OverV v src := fun x hx => hso.vars ▸ TS.pureState_iff.1 hp1 x hx
  have htgt : R.OverV v tgt := fun x hx => hso.vars ▸ TS.pureState_iff.1 hp2 x hx
  have hden : ∀ (f : Fla T) a, ({ ts with init := src, query := tgt } : TS T).den f a ↔ R.den v f a := by
    intro f a
    have e : ts.stateVars = R.stateVars v := hso.vars
    simp only [TS.den, PRepr.den, e]
  have hpath : ∀ k a b, ({ ts with init := src, query := tgt } : TS T).sem.Path k a b ↔ (loopSTS R G v).Path k a b := by
    intro k a b
    exact ⟨fun p => p.steps fun a b h => (hso.step a b).1 h, fun p => p.steps fun a b h => (hso.step a b).2 h⟩
  obtain ⟨b1, b2, ⟨st1, _, b4⟩, b5, b6⟩ := tpaOps_ok hX.V _ ts st _ hso.wf hso.noAux hso.inv hl0
    ({ ts with init := src, query := tgt }, st0, a0) (by simp) (by
    intro y hy _ he hne
    simp only [List.mem_singleton] at hy
    subst hy
    obtain ⟨a, ha⟩ := hg he hne
    exact ⟨a, (hden _ a).2 ha⟩)
  have hso' : SolverOk X R G v ({ ts with init := src, query := tgt }, st0) := ⟨b1, b2, hso.vars, hso.step, b5⟩
  have hex : ∀ e, a0 = .safe e → X.V.S.Complete → ExplBack { ts with init := src, query := tgt } st0 e ∧
      ExplOk { ts with init := src, query := tgt } st0 e := by
    rintro e rfl hc
    refine ⟨?_, b6 hc⟩
    revert b5 b4
    cases X.core with
    | split => exact fun _ b5 => .inr ⟨b5.1, b5.2.1⟩
    | basic => exact fun b4 _ => .inl (tpaSolve_basic_isLt b4)
  cases a0 with
  | reached g k =>
    simp only [Outcome.done.injEq, Prod.mk.injEq] at h
    obtain ⟨rfl, rfl, rfl⟩ := h
    refine ⟨⟨rfl, rfl, rfl, rfl⟩, hsrc, htgt, ⟨_, rfl, hso', rfl, rfl, fun e he => by cases he⟩, by simp [hs], rfl, ?_, ?_, ?_⟩
    · exact fun x hx => hso.vars ▸ b6.1 x hx
    · obtain ⟨a, ha⟩ := b6.2.1
      exact ⟨a, (hden g a).1 ha⟩
    · intro b hb
      obtain ⟨c1, a, c2, m, c3, c4⟩ := b6.2.2 b ((hden g b).2 hb)
      exact ⟨(hden tgt b).1 c1, a, (hden src a).1 c2, m, (hpath m a b).1 c3, c4⟩
  | safe e =>
    simp only [Outcome.andThen_done, Outcome.done.injEq, Prod.mk.injEq] at h
    obtain ⟨f, hf, rfl, rfl, rfl⟩ := h
    have hf : tpaExplanation X.V.S { ts with init := src, query := tgt } e = some f := by
      revert hf
      cases tpaExplanation X.V.S { ts with init := src, query := tgt } e with
      | none => intro hf; cases hf
      | some f' => intro hf; cases hf; rfl
    refine ⟨⟨rfl, rfl, rfl, rfl⟩, hsrc, htgt, ⟨_, rfl, hso', rfl, rfl, fun e' he hc => by cases he; exact hex _ rfl hc⟩,
      by simp [hs], rfl, fun hc => ?_⟩
    obtain ⟨d1, d2⟩ := hex e rfl hc
    obtain ⟨c1, c2, c3⟩ := tpaExplanation_ok hX.V.S b1 b2 d1 d2 hf
    refine ⟨fun x hx => hso.vars ▸ c1 x hx, fun a ha => (hden f a).1 (c2 a ((hden src a).2 ha)), fun k a b ha p hb => ?_⟩
    exact c3 k a b ((hden f a).2 ha) ((hpath k a b).2 p) ((hden tgt b).2 hb)

/-! ### Queries on an edge -/

theorem PRepr.nextVars_eq : R.nextVars v = (R.stateVars v).map (shift 1) := by
  simp [PRepr.stateVars, PRepr.nextVars, shift, Function.comp_def]

theorem PRepr.den_next {f : Fla T} (hf : R.OverV v f) {ρ : Valuation T} :
    (sendFla f 1).holds ρ ↔ R.den v f ((R.nextVars v).map ρ) := by
  rw [sendFla_holds, PRepr.nextVars_eq, List.map_map]
  exact (PRepr.den_iff hf (ρ := fun x => ρ (shift 1 x))).symm

theorem queryEdge_ok (hX : X.Ok) {e : LEdge T} {src tgt : Fla T} (hs : R.OverV e.src src) {r : NetRes T}
    (h : queryEdge X R e src tgt = .done r) :
    match (generalizing := false) r with
    | .reach g => R.OverV e.tgt g ∧ (∃ a, R.den e.tgt g a) ∧ ∀ b, R.den e.tgt g b →
        (R.OverV e.tgt tgt → R.den e.tgt tgt b) ∧ ∃ a, R.den e.src src a ∧ e.Fires R (e.src, a) (e.tgt, b)
    | .block f => R.OverV e.src f ∧ (∀ a, R.den e.src src a → R.den e.src f a) ∧ (R.OverV e.tgt tgt →
        ∀ a b, R.den e.src f a → e.Fires R (e.src, a) (e.tgt, b) → ¬ R.den e.tgt tgt b) := by
  unfold queryEdge at h
  simp only at h
  split at h
  · rename_i hsat
    simp only [Outcome.andThen_done, Outcome.done.injEq] at h
    obtain ⟨q, hq, rfl⟩ := h
    have hq : mbpKeepOnly X.M (Fla.conj [src, e.fla, sendFla tgt 1]) (R.nextVars e.tgt)
        (X.V.S.model [src, e.fla, sendFla tgt 1]) = some q := by
      revert hq
      cases mbpKeepOnly X.M (Fla.conj [src, e.fla, sendFla tgt 1]) (R.nextVars e.tgt)
        (X.V.S.model [src, e.fla, sendFla tgt 1]) with
      | none => intro hf; cases hf
      | some f' => intro hf; cases hf; rfl
    have hm := Fla.holds_conj.2 (hX.V.S.sat _ hsat)
    generalize X.V.S.model [src, e.fla, sendFla tgt 1] = m at hq hm
    obtain ⟨h1, h2, h3⟩ := hX.M _ _ m q hm hq
    have hov : ∀ x ∈ q.vars, x ∈ R.nextVars e.tgt := by
      intro x hx
      obtain ⟨ha, hb⟩ := h2 x hx
      by_cases hc : x ∈ R.nextVars e.tgt
      · exact hc
      · exact absurd (List.mem_filter.2 ⟨ha, by simpa using hc⟩) hb
    have hover : R.OverV e.tgt (sendFla q (-1)) := by
      intro x hx
      rw [mem_vars_sendFla] at hx
      obtain ⟨y, hy, rfl⟩ := hx
      have := hov y hy
      rw [PRepr.nextVars_eq] at this
      obtain ⟨z, hz, rfl⟩ := List.mem_map.1 this
      rw [shift_shift]
      simpa using hz
    refine ⟨hover, ⟨(R.nextVars e.tgt).map m, ?_⟩, ?_⟩
    · rw [← PRepr.den_next hover, sendFla_holds, sendFla_holds]
      simpa [shift_shift] using h1
    · rintro b ⟨ρ, hρ, rfl⟩
      rw [sendFla_holds] at hρ
      obtain ⟨ρ', he, hh⟩ := h3 _ hρ
      have hs2 : (R.nextVars e.tgt).map ρ' = (R.stateVars e.tgt).map ρ := by
        rw [PRepr.nextVars_eq, List.map_map]
        apply List.map_congr_left
        intro x hx
        show ρ' (shift 1 x) = ρ x
        rw [he]
        · rw [shift_shift]; simp
        · intro hmem
          have := (List.mem_filter.1 hmem).2
          simp only [decide_eq_true_eq] at this
          exact this (by rw [PRepr.nextVars_eq]; exact List.mem_map.2 ⟨x, hx, rfl⟩)
      rw [Fla.holds_conj] at hh
      refine ⟨?_, (R.stateVars e.src).map ρ', (PRepr.den_iff hs).2 (hh _ (by simp)), ρ', hh _ (by simp), rfl, ?_⟩
      · rw [← hs2]
        exact fun ht => (PRepr.den_next ht).1 (hh _ (by simp))
      · show _ = (_, _)
        rw [hs2]
  · rename_i hun
    simp only [Outcome.done.injEq] at h
    subst h
    have hI := hX.V.S.itp _ [e.fla, sendFla tgt 1] [src] hun (by intro f; simp; grind)
    generalize X.V.S.itp [e.fla, sendFla tgt 1] [src] = I at hI
    have hIv : R.OverV e.src I := by
      intro x hx
      have := (hI.shared x hx).2
      rw [Fla.mem_vars_conj] at this
      obtain ⟨f, hf, hx⟩ := this
      simp only [List.mem_singleton] at hf
      subst hf
      exact hs x hx
    have hnv : R.OverV e.src (.not I) := by simpa [Fla.vars, PRepr.OverV] using hIv
    refine ⟨hX.nrm.overV hnv, fun a ha => ?_, fun ht a b ha hf hb => ?_⟩
    · rw [hX.nrm.den, PRepr.den_not hIv (PRepr.den_rep ha)]
      rintro hIa
      obtain ⟨ρ, rfl⟩ := PRepr.den_rep ha
      rw [PRepr.den_iff hIv] at hIa
      rw [PRepr.den_iff hs] at ha
      exact hI.refuteB ρ hIa (by intro f hf; simp only [List.mem_singleton] at hf; subst hf; exact ha)
    · rw [hX.nrm.den] at ha
      obtain ⟨ρ, h1, h2, h3⟩ := hf
      simp only [LEdge.srcFact, LEdge.tgtFact, Prod.mk.injEq, true_and] at h2 h3
      subst h2; subst h3
      rw [PRepr.den_iff hnv] at ha
      refine ha (hI.fromA ρ ?_)
      intro f hf
      simp only [List.mem_cons, List.not_mem_nil, or_false] at hf
      rcases hf with rfl | rfl
      · exact h1
      · exact (PRepr.den_next ht).2 hb
  · cases h

end Golem
