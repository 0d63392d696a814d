import Verif.Lemmas.TPASafe
import Verif.Props.SingleLoopEngines

/-!
C58-C61: the transition power abstraction, both cores. The statements are about `ts.sem`, the labelled transition system of
`Spec/Reach.lean`, and about histories of operations on a solver object.
-/

namespace Golem
variable {T : Theory} {V : TpaEnv T}

/-! ### The system a solver object keeps -/

theorem C58_prepare {simpT : Fla T → Fla T} (hT : SimpOk simpT) {ts ts' : TS T} (hw : ts.WF) (h : tpaPrepare simpT ts = some ts') :
    ts'.WF ∧ ts'.NoAux ∧ (∀ s, ts'.sem.Init s ↔ ts.sem.Init s) ∧ (∀ s t, ts'.sem.Step s t ↔ ts.sem.Step s t) ∧
      ∀ s, ts'.sem.Bad s ↔ ts.sem.Bad s := by
  have nnf : ∀ {f g : Fla T}, toNNF f = some g → g.Equiv f ∧ ∀ x ∈ g.vars, x ∈ f.vars := by
    intro f g hg
    obtain ⟨g', h1, _, h2⟩ := C29_nnf f
    rw [hg] at h1; cases h1
    exact ⟨h2, toNNF_vars hg⟩
  unfold tpaPrepare at h
  simp only [Option.bind_eq_bind, Option.bind_eq_some_iff] at h
  obtain ⟨i, hi, q, hq, t, ht, h⟩ := h
  split at h
  swap
  · cases h
  rename_i hp
  cases h
  simp only [Bool.and_eq_true] at hp
  obtain ⟨i1, i2⟩ := nnf hi
  obtain ⟨q1, q2⟩ := nnf hq
  obtain ⟨t1, t2⟩ := nnf ht
  have hden : ∀ (f g : Fla T), g.Equiv f → ∀ s, ts.den g s ↔ ts.den f s := by
    intro f g e s
    exact exists_congr fun ρ => and_congr_left fun _ => e ρ
  refine ⟨⟨?_, ?_, ?_, hw.stateCur, hw.auxCur, hw.nodup, hw.sep⟩,
    ⟨TS.pureState_iff.1 hp.1, TS.pureState_iff.1 hp.2⟩, hden _ _ i1, ?_, hden _ _ q1⟩
  · exact fun x hx => .inl (TS.pureState_iff.1 hp.1 x hx)
  · exact fun x hx => .inl (TS.pureState_iff.1 hp.2 x hx)
  · exact fun x hx => hw.trans x (t2 x (hT.vars _ x hx))
  · intro s u
    exact exists_congr fun ρ => and_congr_left fun _ => (hT.equiv _ ρ).trans (t1 ρ)

/-! ### Histories -/

/-- A history that starts with a good state: every answer is about a well-formed system and satisfies the invariant. -/
theorem tpaOps_ok (hV : V.Ok) {core : Core} {fuel : Nat} : ∀ (ops : List (TpaOp T)) (ts : TS T) (st : TpaState T)
    (l : List (TS T × TpaState T × TpaAnswer T)), ts.WF → ts.NoAux → TpaInv core ts V.S.Complete st →
      tpaOps V core fuel ops (ts, st) = .done l → ∀ x ∈ l,
      (∀ y ∈ l, core = .split → y.1.init = y.1.query → y.1.init ≠ .ff → ∃ s, y.1.sem.Init s) →
      x.1.WF ∧ x.1.NoAux ∧ (∃ st0, TpaInv core x.1 V.S.Complete st0 ∧ tpaSolve V core x.1 fuel st0 = .done (x.2.2, x.2.1)) ∧
        TpaInv core x.1 V.S.Complete x.2.1 ∧ AnsOk core x.1 V.S.Complete x.2.1 x.2.2 := by
  intro ops
  induction ops with
  | nil => intro ts st l _ _ _ h x hx; cases h; cases hx
  | cons op ops ih =>
    intro ts st l hw hn hI h x hx hall
    cases op with
    | resetInit f =>
      simp only [tpaOps] at h
      split at h
      swap
      · cases h
      rename_i hp
      have hp := TS.pureState_iff.1 hp
      refine ih { ts with init := f } _ l ⟨fun y hy => .inl (hp y hy), hw.query, hw.trans, hw.stateCur, hw.auxCur, hw.nodup, hw.sep⟩
        ⟨hp, hn.query⟩ ?_ h x hx hall
      exact tpaInv_retarget f ts.query (tpaInv_clear hI)
    | resetQuery f =>
      simp only [tpaOps] at h
      split at h
      swap
      · cases h
      rename_i hp
      have hp := TS.pureState_iff.1 hp
      refine ih { ts with query := f } _ l ⟨hw.init, fun y hy => .inl (hp y hy), hw.trans, hw.stateCur, hw.auxCur, hw.nodup, hw.sep⟩
        ⟨hn.init, hp⟩ ?_ h x hx hall
      exact tpaInv_retarget ts.init f (tpaInv_clear hI)
    | solve =>
      simp only [tpaOps, Outcome.andThen_done] at h
      obtain ⟨⟨a, st1⟩, h1, l1, h2, h⟩ := h
      simp only [Outcome.done.injEq] at h
      subst h
      obtain ⟨b1, b2⟩ := tpaSolve_ok hV hw hn (hall (ts, st1, a) (by simp)) hI h1
      rcases List.mem_cons.1 hx with rfl | hx
      · exact ⟨hw, hn, ⟨st, hI, h1⟩, b1, b2⟩
      · exact ih ts st1 l1 hw hn b1 h2 x hx fun y hy => hall y (by simp [hy])

/-- Init and query of the systems solved by `TPASplit` are different formulas, or the term `false`, or there is an initial state: without this the
shortcut of `reachabilityQueryLessThan` for equal formulas is wrong (`C58_equal_shortcut_unsound`). -/
def TpaGuard (core : Core) (l : List (TS T × TpaState T × TpaAnswer T)) : Prop :=
  ∀ y ∈ l, core = .split → y.1.init = y.1.query → y.1.init ≠ .ff → ∃ s, y.1.sem.Init s

/-- One answer in a history: what is known about it. -/
theorem tpa_answer (hV : V.Ok) {simpT : Fla T → Fla T} (hT : SimpOk simpT) {core : Core} {fuel : Nat} {ts : TS T} (hw : ts.WF)
    {start : TS T × TpaState T} (h0 : tpaStart core simpT ts = some start) {ops : List (TpaOp T)}
    {l : List (TS T × TpaState T × TpaAnswer T)} (h : tpaOps V core fuel ops start = .done l) (hg : TpaGuard core l)
    {ts' : TS T} {st : TpaState T} {a : TpaAnswer T} (hx : (ts', st, a) ∈ l) :
    ts'.WF ∧ ts'.NoAux ∧ AnsOk core ts' V.S.Complete st a ∧
      ∀ e, a = .safe e → V.S.Complete → ExplBack ts' st e ∧ ExplOk ts' st e := by
  unfold tpaStart at h0
  simp only [Option.bind_eq_bind, Option.bind_eq_some_iff] at h0
  obtain ⟨tp, hp, st0, hr, h0⟩ := h0
  simp only [Option.pure_def, Option.some.injEq] at h0
  subst h0
  obtain ⟨p1, p2, _⟩ := C58_prepare hT hw hp
  obtain ⟨a1, a2, ⟨st1, a3, a4⟩, a5, a6⟩ := tpaOps_ok hV ops tp st0 l p1 p2 (tpaReset_ok p1 hr) h _ hx hg
  refine ⟨a1, a2, a6, ?_⟩
  rintro e rfl hc
  refine ⟨?_, a6 hc⟩
  cases core with
  | split => exact .inr ⟨a5.1, a5.2.1⟩
  | basic => exact .inl (tpaSolve_basic_isLt a4)

/-- **C58** SAFE is right, in every history of `resetInitialStates`, `resetQueryStates` and `solve` on one solver object, for both
cores. -/
theorem C58_safe (hV : V.Ok) (hc : V.S.Complete) {simpT : Fla T → Fla T} (hT : SimpOk simpT) {core : Core} {fuel : Nat} {ts : TS T}
    (hw : ts.WF) {start : TS T × TpaState T} (h0 : tpaStart core simpT ts = some start) {ops : List (TpaOp T)}
    {l : List (TS T × TpaState T × TpaAnswer T)} (h : tpaOps V core fuel ops start = .done l) (hg : TpaGuard core l)
    {ts' : TS T} {st : TpaState T} {e : Expl T} (hx : (ts', st, .safe e) ∈ l) : ts'.sem.Safe := by
  obtain ⟨_, _, _, hE⟩ := tpa_answer hV hT hw h0 h hg hx
  obtain ⟨b1, b2⟩ := hE e rfl hc
  exact explOk_safe b1 b2

/-- **C58** UNSAFE is right, even when the solver does not always decide: the reported states are bad, reachable, and there is one.
`TPASplit` also reports the exact number of steps. -/
theorem C58_unsafe (hV : V.Ok) {simpT : Fla T → Fla T} (hT : SimpOk simpT) {core : Core} {fuel : Nat} {ts : TS T}
    (hw : ts.WF) {start : TS T × TpaState T} (h0 : tpaStart core simpT ts = some start) {ops : List (TpaOp T)}
    {l : List (TS T × TpaState T × TpaAnswer T)} (h : tpaOps V core fuel ops start = .done l) (hg : TpaGuard core l)
    {ts' : TS T} {st : TpaState T} {g : Fla T} {n : Nat} (hx : (ts', st, .reached g n) ∈ l) :
    ts'.sem.Unsafe ∧ (core = .split → ts'.sem.BadIn n) ∧ ts'.Over g ∧ (∃ s, ts'.den g s) ∧
      ∀ t, ts'.den g t → ts'.sem.Bad t ∧ ts'.sem.Reachable t := by
  obtain ⟨_, _, ⟨h1, ⟨t, ht⟩, h3⟩, _⟩ := tpa_answer hV hT hw h0 h hg hx
  obtain ⟨hb, s, hs, m, p, hm⟩ := h3 t ht
  refine ⟨⟨m, t, ⟨s, hs, p⟩, hb⟩, fun e => ⟨t, ⟨s, hs, hm e ▸ p⟩, hb⟩, h1, ⟨t, ht⟩, fun t ht => ?_⟩
  obtain ⟨hb, s, hs, m, p, _⟩ := h3 t ht
  exact ⟨hb, m, s, hs, p⟩

/-- **C58** The system a history starts with is the one given: the first answer is about its runs. -/
theorem C58_first (hV : V.Ok) (hc : V.S.Complete) {simpT : Fla T → Fla T} (hT : SimpOk simpT) {core : Core} {fuel : Nat} {ts : TS T}
    (hw : ts.WF) (hne : core = .split → ∃ s, ts.sem.Init s) {start : TS T × TpaState T} (h0 : tpaStart core simpT ts = some start)
    {st : TpaState T} {a : TpaAnswer T} (h : tpaSolve V core start.1 fuel start.2 = .done (a, st)) :
    match a with
    | .safe _ => ts.sem.Safe
    | .reached _ n => ts.sem.Unsafe ∧ (core = .split → ts.sem.BadIn n) := by
  obtain ⟨tp, hp, hinit, hstep, hbad⟩ : ∃ tp, tpaPrepare simpT ts = some tp ∧ (∀ s, start.1.sem.Init s ↔ ts.sem.Init s) ∧
      (∀ s t, start.1.sem.Step s t ↔ ts.sem.Step s t) ∧ ∀ s, start.1.sem.Bad s ↔ ts.sem.Bad s := by
    have h0' := h0
    unfold tpaStart at h0'
    simp only [Option.bind_eq_bind, Option.bind_eq_some_iff] at h0'
    obtain ⟨tp, hp, st0, hr, h0'⟩ := h0'
    simp only [Option.pure_def, Option.some.injEq] at h0'
    subst h0'
    exact ⟨tp, hp, (C58_prepare hT hw hp).2.2⟩
  have hbi : ∀ n, start.1.sem.BadIn n ↔ ts.sem.BadIn n := by
    intro n
    constructor
    · rintro ⟨t, ⟨s, hs, p⟩, hb⟩
      exact ⟨t, ⟨s, (hinit s).1 hs, p.steps fun a b => (hstep a b).1⟩, (hbad t).1 hb⟩
    · rintro ⟨t, ⟨s, hs, p⟩, hb⟩
      exact ⟨t, ⟨s, (hinit s).2 hs, p.steps fun a b => (hstep a b).2⟩, (hbad t).2 hb⟩
  have hrun : tpaOps V core fuel [.solve] start = .done [(start.1, st, a)] := by
    obtain ⟨t1, t2⟩ := start
    simp only [tpaOps] at h ⊢
    simp [h, Outcome.andThen]
  have hg : TpaGuard core [(start.1, st, a)] := by
    intro y hy hcore _ _
    simp only [List.mem_singleton] at hy
    subst hy
    obtain ⟨s, hs⟩ := hne hcore
    exact ⟨s, (hinit s).2 hs⟩
  cases a with
  | safe e =>
    have := C58_safe hV hc hT hw h0 hrun hg (by simp : (start.1, st, TpaAnswer.safe e) ∈ _)
    exact fun ⟨n, hn⟩ => this ⟨n, (hbi n).2 hn⟩
  | reached g n =>
    obtain ⟨⟨m, hm⟩, h2, _⟩ := C58_unsafe hV hT hw h0 hrun hg (by simp : (start.1, st, TpaAnswer.reached g n) ∈ _)
    exact ⟨⟨m, (hbi m).1 hm⟩, fun e => (hbi n).1 (h2 e)⟩

/-- **C59** The inductive invariant extracted after SAFE is a safe inductive invariant over the state variables. -/
theorem C59_invariant (hV : V.Ok) (hc : V.S.Complete) (hK : V.K.Exact) (hQ : V.Q.Exact) {simpT : Fla T → Fla T} (hT : SimpOk simpT)
    {core : Core} {fuel : Nat} {ts : TS T} (hw : ts.WF) {start : TS T × TpaState T} (h0 : tpaStart core simpT ts = some start)
    {ops : List (TpaOp T)} {l : List (TS T × TpaState T × TpaAnswer T)} (h : tpaOps V core fuel ops start = .done l)
    (hg : TpaGuard core l) {ts' : TS T} {st : TpaState T} {e : Expl T} (hx : (ts', st, .safe e) ∈ l) {I : Fla T}
    (hI : tpaInvariant V ts' st e = .done (some I)) : ts'.Over I ∧ ts'.sem.SafeInductive (ts'.den I) := by
  obtain ⟨w, n, _, hE⟩ := tpa_answer hV hT hw h0 h hg hx
  obtain ⟨b1, b2⟩ := hE e rfl hc
  exact tpaInvariant_ok hV.S hK hQ w n b1 b2 hI

/-- **C60** The safety explanation after SAFE: a superset of the initial states from which no bad state is reachable. -/
theorem C60_explanation (hV : V.Ok) (hc : V.S.Complete) {simpT : Fla T → Fla T} (hT : SimpOk simpT)
    {core : Core} {fuel : Nat} {ts : TS T} (hw : ts.WF) {start : TS T × TpaState T} (h0 : tpaStart core simpT ts = some start)
    {ops : List (TpaOp T)} {l : List (TS T × TpaState T × TpaAnswer T)} (h : tpaOps V core fuel ops start = .done l)
    (hg : TpaGuard core l) {ts' : TS T} {st : TpaState T} {e : Expl T} (hx : (ts', st, .safe e) ∈ l) {f : Fla T}
    (hf : tpaExplanation V.S ts' e = some f) :
    ts'.Over f ∧ (∀ s, ts'.sem.Init s → ts'.den f s) ∧ ({ ts' with init := f } : TS T).sem.Safe := by
  obtain ⟨w, n, _, hE⟩ := tpa_answer hV hT hw h0 h hg hx
  obtain ⟨b1, b2⟩ := hE e rfl hc
  obtain ⟨c1, c2, c3⟩ := tpaExplanation_ok hV.S w n b1 b2 hf
  refine ⟨c1, c2, ?_⟩
  rintro ⟨k, t, ⟨s, hs, p⟩, hb⟩
  exact c3 k s t hs (p.steps fun _ _ h => h) hb

/-- **C61** A counterexample `TPASplit` reports is at most one step long or less than twice as long as the shortest one. -/
theorem C61_length (hV : V.Ok) {fuel : Nat} {ts : TS T} (hw : ts.WF) (hn : ts.NoAux)
    (hne : ts.init = ts.query → ∃ s, ts.sem.Init s) {st0 st : TpaState T} (h0 : tpaReset .split ts = some st0)
    {g : Fla T} {n : Nat} (h : tpaSolve V .split ts fuel st0 = .done (.reached g n, st)) {m : Nat} (hm : ts.sem.BadIn m) :
    n ≤ 1 ∨ n < 2 * m := by
  unfold tpaSolve at h
  split at h
  · simp at h
  · exact tpaPowers_length hV hw hn hne fuel 0 st0 st g n (tpaReset_ok hw h0) (lvl_zero (core := .split)) (fun h => absurd rfl h) h m hm

/-- The first `p` powers have been checked without an answer. -/
inductive Unanswered (V : TpaEnv T) (core : Core) (ts : TS T) (fuel : Nat) : Nat → TpaState T → Prop where
  | start {st} : tpaReset core ts = some st → Unanswered V core ts fuel 0 st
  | next {p st st'} : Unanswered V core ts fuel p st → checkPower V core ts fuel p st = .done (none, st') →
      Unanswered V core ts fuel (p + 1) st'

/-- **C61** A power that is left without an answer rules out all counterexamples of at most `2 ^ (p + 1)` steps: an unsafe system
is answered at the latest at the power of its shortest counterexample. -/
theorem C61_bound (hV : V.Ok) {core : Core} {fuel p : Nat} {ts : TS T} (hw : ts.WF) (hn : ts.NoAux)
    (hne : core = .split → ts.init = ts.query → ∃ s, ts.sem.Init s) {st : TpaState T}
    (h : Unanswered V core ts fuel (p + 1) st) : ∀ m, m ≤ 2 ^ (p + 1) → ¬ ts.sem.BadIn m := by
  have key : ∀ p st, Unanswered V core ts fuel p st → TpaInv core ts V.S.Complete st ∧ Lvl core ts st p := by
    intro p st h
    induction h with
    | start h => exact ⟨tpaReset_ok hw h, lvl_zero⟩
    | next _ h ih =>
      obtain ⟨a, _, c⟩ := checkPower_ok hV hw hn hne ih.1 ih.2 h
      exact ⟨a, c rfl⟩
  cases h with
  | next h1 h2 => exact powers_none hV hw hn hne (key _ _ h1).1 (key _ _ h1).2 h2

end Golem
