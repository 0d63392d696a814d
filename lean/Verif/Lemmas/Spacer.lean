import Verif.Model.Engines.Spacer
import Verif.Spec.Witness
import Verif.Props.QE
import Verif.Props.Entailment
import Verif.Lemmas.ChainSteps
import Verif.Props.Unreachable

/-! Invariants of the bounded safety check of Spacer. -/

namespace Golem
variable {T : Theory}

/-- What a run of Spacer relies on. -/
structure SpEnv.WF (E : SpEnv T) : Prop where
  repr : E.R.WF
  smt : E.S.Sound
  mbp : E.M.Sound
  simp : SimpOk E.simp
  ord : ∀ l f, f ∈ E.ord l ↔ f ∈ l
  verts : ∀ p, p ∈ E.verts ↔ E.G.Vertex p ∨ p = .tru ∨ p = .fls
  srcNe : ∀ e ∈ E.G, e.src ≠ []
  ids : E.G.IdsNodup
  act : ∀ e ∈ E.G, NoAct e.fla

/-! ### Formulas -/

theorem foldClosed_holds (f : Fla T) (ρ : Valuation T) : (foldClosed f).holds ρ ↔ f.holds ρ := by
  unfold foldClosed
  split
  · rename_i h
    have hc : f.holds ρ ↔ f.holds (fun _ => T.vT) := Fla.holds_congr fun x hx => by rw [h] at hx; simp at hx
    split
    · rename_i h2; simp [hc, h2]
    · rename_i h2; simp [hc, h2]
  · exact Iff.rfl

theorem foldClosed_vars (f : Fla T) : ∀ x ∈ (foldClosed f).vars, x ∈ f.vars := by
  unfold foldClosed
  split
  · split <;> simp [Fla.vars]
  · exact fun _ h => h

theorem edgeSummary_holds {sum : Pred → Fla T} {e : Edge T} {ρ : Valuation T} : (edgeSummary sum e).holds ρ ↔
    e.fla.holds ρ ∧ ∀ q ∈ instances e.src, (sum q.1).holds (fun x => ρ (toSrc q.2 x)) := by
  simp only [edgeSummary, Fla.holds_conj, List.mem_cons, List.mem_map, forall_eq_or_imp, forall_exists_index, and_imp,
    forall_apply_eq_imp_iff₂, Fla.holds_rename]

theorem srcVars_map (R : PRepr) (p : Pred) (i : Nat) (ρ : Valuation T) :
    (R.baseVars p).map (fun x => ρ (toSrc i x)) = (R.srcVars p i).map ρ := by
  simp [PRepr.baseVars, PRepr.srcVars, List.map_map, Function.comp_def, toSrc]

theorem tgtVars_map (R : PRepr) (p : Pred) (ρ : Valuation T) :
    (R.baseVars p).map (fun x => ρ (toTgt x)) = (R.tgtVars p).map ρ := by
  simp [PRepr.baseVars, PRepr.tgtVars, List.map_map, Function.comp_def, toTgt]

theorem baseVars_map (R : PRepr) (p : Pred) (ρ : Valuation T) :
    (R.tgtVars p).map (fun x => ρ (tgtToBase x)) = (R.baseVars p).map ρ := by
  simp [PRepr.baseVars, PRepr.tgtVars, List.map_map, Function.comp_def, tgtToBase]

theorem srcToTarget_map (R : PRepr) (p : Pred) (i : Nat) (ρ : Valuation T) :
    (R.srcVars p i).map (fun x => ρ (srcToTarget x)) = (R.tgtVars p).map ρ := by
  simp [PRepr.srcVars, PRepr.tgtVars, List.map_map, Function.comp_def, srcToTarget]

/-- Two valuations that agree on the arguments agree on a formula over them. -/
theorem closed_congr {vs : List Var} {f : Fla T} (hf : ∀ x ∈ f.vars, x ∈ vs) {ρ σ : Valuation T}
    (h : vs.map ρ = vs.map σ) : f.holds ρ ↔ f.holds σ :=
  Fla.holds_congr fun x hx => List.map_inj_left.1 h x (hf x hx)

theorem apInsert_mem {m : Nat → Pred → List (Fla T)} {v : Pred} {b : Nat} {c : Fla T} {b' : Nat} {v' : Pred} {d : Fla T} :
    d ∈ apInsert m v b c b' v' ↔ d ∈ m b' v' ∨ (b' = b ∧ v' = v ∧ d = c) := by
  unfold apInsert
  split
  · rename_i h
    obtain ⟨rfl, rfl⟩ := h
    split
    · rename_i hc
      constructor
      · exact .inl
      · rintro (h | ⟨_, _, rfl⟩)
        · exact h
        · exact hc
    · simp
  · rename_i h
    constructor
    · exact .inl
    · rintro (h' | ⟨h1, h2, _⟩)
      · exact h'
      · exact absurd ⟨h1, h2⟩ h

section
variable {E : SpEnv T}

theorem must_holds (hE : E.WF) {st : SpState T} {b : Nat} {v : Pred} {ρ : Valuation T} :
    (E.must st b v).holds ρ ↔ ∃ c ∈ st.under b v, c.holds ρ := by
  simp only [SpEnv.must, Fla.holds_disj, hE.ord]

theorem may_holds (hE : E.WF) {st : SpState T} {b : Nat} {v : Pred} {ρ : Valuation T} :
    (E.may st b v).holds ρ ↔ ∀ c ∈ st.over b v, c.holds ρ := by
  simp only [SpEnv.may, Fla.holds_conj, hE.ord]

theorem edgeMust_holds (hE : E.WF) {st : SpState T} {b : Nat} {e : Edge T} {ρ : Valuation T} :
    (E.edgeMust st b e).holds ρ ↔ e.fla.holds ρ ∧
      ∀ q ∈ instances e.src, ∃ c ∈ st.under b q.1, c.holds (fun x => ρ (toSrc q.2 x)) := by
  simp only [SpEnv.edgeMust, edgeSummary_holds, must_holds hE]

theorem edgeMay_holds (hE : E.WF) {st : SpState T} {b : Nat} {e : Edge T} {ρ : Valuation T} :
    (E.edgeMay st b e).holds ρ ↔ e.fla.holds ρ ∧
      ∀ q ∈ instances e.src, ∀ c ∈ st.over b q.1, c.holds (fun x => ρ (toSrc q.2 x)) := by
  simp only [SpEnv.edgeMay, edgeSummary_holds, may_holds hE]

/-- The projection: it is true in the model, only mentions the kept variables, and every point of it extends to a point of
the formula. -/
theorem project_spec (hE : E.WF) {f : Fla T} {vs : List Var} {ρ : Valuation T} {p : Fla T} (hf : f.holds ρ)
    (h : E.project f vs ρ = some p) :
    p.holds ρ ∧ (∀ x ∈ p.vars, x ∈ f.vars ∧ x ∈ vs) ∧
      ∀ σ, p.holds σ → ∃ σ', (∀ x ∈ vs, σ' x = σ x) ∧ f.holds σ' := by
  unfold SpEnv.project at h
  rw [Option.map_eq_some_iff] at h
  obtain ⟨p0, h0, rfl⟩ := h
  obtain ⟨h1, h2, h3⟩ := hE.mbp f _ ρ p0 hf h0
  have hmem : ∀ x, x ∈ firstOcc (f.vars.filter fun x => decide (x ∉ vs)) ↔ x ∈ f.vars ∧ x ∉ vs := by
    intro x; rw [mem_firstOcc]; simp
  refine ⟨(foldClosed_holds _ _).2 h1, fun x hx => ?_, fun σ hσ => ?_⟩
  · have hx' := h2 x (foldClosed_vars _ x hx)
    refine ⟨hx'.1, Classical.byContradiction fun hn => hx'.2 ((hmem x).2 ⟨hx'.1, hn⟩)⟩
  · obtain ⟨σ', e1, e2⟩ := h3 σ ((foldClosed_holds _ _).1 hσ)
    exact ⟨σ', fun x hx => e1 x (fun hm => ((hmem x).1 hm).2 hx), e2⟩

/-- If nothing is kept, the projection is literally `true`. -/
theorem project_closed (hE : E.WF) {f : Fla T} {ρ : Valuation T} {p : Fla T} (hf : f.holds ρ)
    (h : E.project f [] ρ = some p) : p = .tt := by
  have h1 := (project_spec hE hf h)
  unfold SpEnv.project at h
  rw [Option.map_eq_some_iff] at h
  obtain ⟨p0, h0, rfl⟩ := h
  have hp0 := hE.mbp f _ ρ p0 hf h0
  have hv : p0.vars = [] := by
    rw [List.eq_nil_iff_forall_not_mem]
    intro x hx
    obtain ⟨a, b⟩ := hp0.2.1 x hx
    exact b (mem_firstOcc.2 (by simp [a]))
  have hc : p0.holds (fun _ => T.vT) := (Fla.holds_congr fun x hx => by rw [hv] at hx; simp at hx).1 hp0.1
  unfold foldClosed
  rw [if_pos hv, if_pos hc]

/-! ### The invariant -/

/-- Facts satisfying `c` at `v`. -/
def Holding (R : PRepr) (v : Pred) (c : Fla T) (f : Fact T) : Prop := ∃ ρ : Valuation T, f = (v, (R.baseVars v).map ρ) ∧ c.holds ρ

/-- The invariant of the summaries: `cur` is the current bound. -/
structure SpInv (E : SpEnv T) (cur : Nat) (st : SpState T) : Prop where
  closedOver : ∀ n v, ∀ c ∈ st.over n v, ∀ x ∈ c.vars, x ∈ E.R.baseVars v
  closedUnder : ∀ n v, ∀ c ∈ st.under n v, ∀ x ∈ c.vars, x ∈ E.R.baseVars v
  overTru : ∀ n, ∀ c ∈ st.over n .tru, c = .tt
  over0 : ∀ v ∈ E.verts, v ≠ .tru → .ff ∈ st.over 0 v
  underTru : ∀ n, n ≤ cur → .tt ∈ st.under n .tru
  step : ∀ n v, v ≠ .tru → ∀ c ∈ st.over (n + 1) v, ∀ e ∈ E.G, e.tgt = v → ∀ ρ, (E.edgeMay st n e).holds ρ →
    c.holds (fun x => ρ (toTgt x))
  derivable : ∀ n v, ∀ c ∈ st.under n v, ∀ ρ : Valuation T, c.holds ρ →
    Derivable (graphRules E.R E.G) (v, (E.R.baseVars v).map ρ)

/-- Over-approximations only get stronger. -/
theorem edgeMay_mono (hE : E.WF) {st st' : SpState T} (h : ∀ n v, ∀ c ∈ st.over n v, c ∈ st'.over n v) {n : Nat}
    {e : Edge T} {ρ : Valuation T} (hm : (E.edgeMay st' n e).holds ρ) : (E.edgeMay st n e).holds ρ := by
  rw [edgeMay_holds hE] at hm ⊢
  exact ⟨hm.1, fun q hq c hc => hm.2 q hq c (h _ _ c hc)⟩

theorem SpInv.addMay (hE : E.WF) {cur : Nat} {st : SpState T} (h : SpInv E cur st) {v : Pred} {n : Nat} {c : Fla T}
    (hv : v ≠ .tru) (hc : ∀ x ∈ c.vars, x ∈ E.R.baseVars v)
    (hs : ∀ e ∈ E.G, e.tgt = v → ∀ ρ, (E.edgeMay st n e).holds ρ → c.holds (fun x => ρ (toTgt x))) :
    SpInv E cur (st.addMay v (n + 1) c) := by
  have hsub : ∀ m w, ∀ d ∈ st.over m w, d ∈ (st.addMay v (n + 1) c).over m w := fun m w d hd => apInsert_mem.2 (.inl hd)
  refine ⟨?_, h.closedUnder, ?_, ?_, h.underTru, ?_, h.derivable⟩
  · intro m w d hd
    rcases apInsert_mem.1 hd with hd | ⟨_, rfl, rfl⟩
    · exact h.closedOver m w d hd
    · exact hc
  · intro m d hd
    rcases apInsert_mem.1 hd with hd | ⟨_, e, _⟩
    · exact h.overTru m d hd
    · exact absurd e.symm hv
  · exact fun w hw hne => hsub 0 w _ (h.over0 w hw hne)
  · intro m w hw d hd e he ht ρ hm
    have hm' := edgeMay_mono hE hsub hm
    rcases apInsert_mem.1 hd with hd | ⟨e1, rfl, rfl⟩
    · exact h.step m w hw d hd e he ht ρ hm'
    · obtain rfl : m = n := by omega
      exact hs e he ht ρ hm'

theorem SpInv.addMust {cur : Nat} {st : SpState T} (h : SpInv E cur st) {v : Pred} {n : Nat} {c : Fla T}
    (hc : ∀ x ∈ c.vars, x ∈ E.R.baseVars v)
    (hs : ∀ ρ : Valuation T, c.holds ρ → Derivable (graphRules E.R E.G) (v, (E.R.baseVars v).map ρ)) :
    SpInv E cur (st.addMust v n c) := by
  refine ⟨h.closedOver, ?_, h.overTru, h.over0, ?_, h.step, ?_⟩
  · intro m w d hd
    rcases apInsert_mem.1 hd with hd | ⟨_, rfl, rfl⟩
    · exact h.closedUnder m w d hd
    · exact hc
  · exact fun m hm => apInsert_mem.2 (.inl (h.underTru m hm))
  · intro m w d hd ρ hρ
    rcases apInsert_mem.1 hd with hd | ⟨_, rfl, rfl⟩
    · exact h.derivable m w d hd ρ hρ
    · exact hs ρ hρ

/-- Everything below the must summary of an edge is derivable. -/
theorem edgeMust_derivable (hE : E.WF) {cur : Nat} {st : SpState T} (h : SpInv E cur st) {n : Nat} {e : Edge T} (he : e ∈ E.G)
    {ρ : Valuation T} (hm : (E.edgeMust st n e).holds ρ) :
    Derivable (graphRules E.R E.G) (e.tgt, (E.R.tgtVars e.tgt).map ρ) := by
  rw [edgeMust_holds hE] at hm
  refine Derivable.step (e.rule E.R ρ) ⟨e, he, ρ, hm.1, rfl⟩ ?_
  intro b hb
  simp only [Edge.rule, Edge.srcFacts, List.mem_map] at hb
  obtain ⟨q, hq, rfl⟩ := hb
  obtain ⟨c, hc, hh⟩ := hm.2 q hq
  have := h.derivable n q.1 c hc _ hh
  rw [srcVars_map] at this
  exact this

/-- The invariant holds at the beginning. -/
theorem SpInv.init (hE : E.WF) : SpInv E 0 E.init := by
  have key : ∀ n v, ∀ c ∈ (if n = 0 ∧ v ∈ E.verts then [if v = .tru then (.tt : Fla T) else .ff] else []),
      n = 0 ∧ v ∈ E.verts ∧ c = if v = .tru then .tt else .ff := by
    intro n v c hc
    split at hc
    · rename_i h; exact ⟨h.1, h.2, by simpa using hc⟩
    · simp at hc
  have cl : ∀ n v, ∀ c ∈ (if n = 0 ∧ v ∈ E.verts then [if v = .tru then (.tt : Fla T) else .ff] else []),
      ∀ x ∈ c.vars, x ∈ E.R.baseVars v := by
    intro n v c hc x hx
    obtain ⟨_, _, rfl⟩ := key n v c hc
    split at hx <;> simp [Fla.vars] at hx
  refine ⟨cl, cl, ?_, ?_, ?_, ?_, ?_⟩
  · intro n c hc
    have := (key n _ c hc).2.2
    simpa using this
  · intro v hv hne
    simp [SpEnv.init, hv, hne]
  · intro n hn
    obtain rfl : n = 0 := by omega
    simp [SpEnv.init, (hE.verts .tru).2 (.inr (.inl rfl))]
  · intro n v hv c hc
    have := (key (n + 1) v c hc).1
    omega
  · intro n v c hc ρ hρ
    obtain ⟨_, _, rfl⟩ := key n v c hc
    split at hρ
    · rename_i h
      subst h
      have : E.R.baseVars .tru = [] := by simp [PRepr.baseVars, hE.repr.tru]
      rw [this]
      exact Derivable.entry
    · exact absurd hρ id

theorem SpInv.enter {cur : Nat} {st : SpState T} (hE : E.WF) (h : SpInv E cur st) :
    SpInv E (cur + 1) (st.enter (cur + 1)) := by
  have hb : E.R.baseVars .tru = [] := by simp [PRepr.baseVars, hE.repr.tru]
  have hsub : ∀ m w, ∀ d ∈ st.over m w, d ∈ (st.enter (cur + 1)).over m w := fun m w d hd => apInsert_mem.2 (.inl hd)
  refine ⟨?_, ?_, ?_, ?_, ?_, ?_, ?_⟩
  · intro m w d hd
    rcases apInsert_mem.1 hd with hd | ⟨_, rfl, rfl⟩
    · exact h.closedOver m w d hd
    · simp [Fla.vars]
  · intro m w d hd
    rcases apInsert_mem.1 hd with hd | ⟨_, rfl, rfl⟩
    · exact h.closedUnder m w d hd
    · simp [Fla.vars]
  · intro m d hd
    rcases apInsert_mem.1 hd with hd | ⟨_, _, rfl⟩
    · exact h.overTru m d hd
    · rfl
  · exact fun w hw hne => hsub 0 w _ (h.over0 w hw hne)
  · intro m hm
    by_cases hmc : m = cur + 1
    · subst hmc; exact apInsert_mem.2 (.inr ⟨rfl, rfl, rfl⟩)
    · exact apInsert_mem.2 (.inl (h.underTru m (by omega)))
  · intro m w hw d hd e he ht ρ hm
    have hm' := edgeMay_mono hE hsub hm
    rcases apInsert_mem.1 hd with hd | ⟨_, rfl, _⟩
    · exact h.step m w hw d hd e he ht ρ hm'
    · exact absurd rfl hw
  · intro m w d hd ρ hρ
    rcases apInsert_mem.1 hd with hd | ⟨_, rfl, rfl⟩
    · exact h.derivable m w d hd ρ hρ
    · rw [hb]; exact Derivable.entry

/-! ### One obligation -/

theorem spSat_sat {A B : Fla T} {S : Smt T} (hS : S.Sound) (h : spSat S A B = .sat) :
    A.holds (S.model [A, B]) ∧ B.holds (S.model [A, B]) := by
  unfold spSat at h
  split at h
  · simp at h
  · have := hS.sat _ h
    exact ⟨this A (by simp), this B (by simp)⟩

theorem spSat_unsat {A B : Fla T} {S : Smt T} (hS : S.Sound) (h : spSat S A B = .unsat) (ρ : Valuation T)
    (ha : A.holds ρ) (hb : B.holds ρ) : False := by
  unfold spSat at h
  split at h
  · rename_i h0; rw [h0] at ha; exact ha
  · refine hS.unsat _ h ⟨ρ, ?_⟩
    intro f hf
    simp only [List.mem_cons, List.not_mem_nil, or_false] at hf
    rcases hf with rfl | rfl
    · exact ha
    · exact hb

theorem spSat_complete {A B : Fla T} {S : Smt T} (hc : S.Complete) : spSat S A B = .sat ∨ spSat S A B = .unsat := by
  unfold spSat
  split
  · exact .inr rfl
  · exact hc _

/-- The database plays no role for the summaries. -/
theorem SpInv.withDb {cur : Nat} {st : SpState T} (h : SpInv E cur st) (db : List (DbEntry T)) :
    SpInv E cur { st with db := db } :=
  ⟨h.closedOver, h.closedUnder, h.overTru, h.over0, h.underTru, h.step, h.derivable⟩

theorem SpInv.withLowest {cur : Nat} {st : SpState T} (h : SpInv E cur st) (l : Nat) :
    SpInv E cur { st with lowest := l } :=
  ⟨h.closedOver, h.closedUnder, h.overTru, h.over0, h.underTru, h.step, h.derivable⟩

theorem logFact_inv {cur : Nat} {st st' : SpState T} (h : SpInv E cur st) {c : Fla T} {v : Pred} {b : Nat} {e : Edge T}
    {ρ : Valuation T} (hl : E.logFact st c v b e ρ = some st') :
    SpInv E cur st' ∧ st'.over = st.over ∧ st'.under = st.under ∧ st'.lowest = st.lowest := by
  unfold SpEnv.logFact at hl
  simp only [Option.bind_eq_bind, Option.bind_eq_some_iff, Option.pure_def, Option.some.injEq] at hl
  obtain ⟨ps, _, rfl⟩ := hl
  exact ⟨h.withDb _, rfl, rfl, rfl⟩

/-- A new must summary: what it says is derivable, and it is satisfied by the model. -/
theorem useEdge_inv (hE : E.WF) {cur : Nat} {st st' : SpState T} (h : SpInv E cur st) {pob : Pob T} {e : Edge T} (he : e ∈ E.G)
    (ht : e.tgt = pob.vertex) {ρ : Valuation T} (hm : (E.edgeMust st (pob.bound - 1) e).holds ρ)
    (hu : E.useEdge st pob e ρ = some st') :
    SpInv E cur st' ∧ st'.over = st.over ∧ st'.lowest = st.lowest := by
  unfold SpEnv.useEdge at hu
  simp only [Option.bind_eq_bind, Option.bind_eq_some_iff] at hu
  obtain ⟨p, hp, hu⟩ := hu
  obtain ⟨_, p2, p3⟩ := project_spec hE hm hp
  have inv1 : SpInv E cur (st.addMust pob.vertex pob.bound (p.rename tgtToBase)) := by
    refine h.addMust ?_ ?_
    · intro x hx
      obtain ⟨y, hy, rfl⟩ := Fla.mem_vars_rename.1 hx
      obtain ⟨n, hn, rfl⟩ := E.R.mem_tgtVars.1 (p2 y hy).2
      exact E.R.mem_baseVars.2 ⟨n, hn, rfl⟩
    · intro σ hσ
      rw [Fla.holds_rename] at hσ
      obtain ⟨σ', a1, a2⟩ := p3 _ hσ
      have := edgeMust_derivable hE h he a2
      rw [ht, List.map_congr_left a1, baseVars_map] at this
      exact this
  split at hu
  · obtain ⟨a, b, _, d⟩ := logFact_inv inv1 hu
    exact ⟨a, b, d⟩
  · simp only [Option.some.injEq] at hu
    subst hu
    exact ⟨inv1, rfl, rfl⟩

/-- A successful must check. -/
theorem checkMust_inv (hE : E.WF) {cur : Nat} {st st' : SpState T} (h : SpInv E cur st) {pob : Pob T}
    (hc : E.checkMust st pob = .done (some st')) :
    SpInv E cur st' ∧ st'.over = st.over ∧ st'.lowest = st.lowest ∧
      ∃ ρ : Valuation T, pob.constraint.holds ρ ∧ Derivable (graphRules E.R E.G) (pob.vertex, (E.R.tgtVars pob.vertex).map ρ) := by
  unfold SpEnv.checkMust at hc
  simp only at hc
  split at hc
  · rename_i hs
    obtain ⟨h1, h2⟩ := spSat_sat hE.smt hs
    rw [Fla.holds_disj] at h1
    obtain ⟨f, hf, hfh⟩ := h1
    rw [List.mem_map] at hf
    obtain ⟨e0, he0, rfl⟩ := hf
    split at hc
    · rename_i hn
      exfalso
      rw [List.find?_eq_none] at hn
      have := hn e0 he0
      simp only [decide_eq_true_eq] at this
      exact this hfh
    · rename_i e hfind
      have he := List.mem_of_find?_eq_some hfind
      have hh := List.find?_some hfind
      simp only [decide_eq_true_eq] at hh
      have he' : e ∈ E.G ∧ e.tgt = pob.vertex := by simpa [Graph.inEdges] using he
      split at hc
      · rename_i st1 hu
        simp only [Outcome.done.injEq, Option.some.injEq] at hc
        subst hc
        obtain ⟨a, b, c⟩ := useEdge_inv hE h he'.1 he'.2 hh hu
        refine ⟨a, b, c, _, h2, ?_⟩
        have := edgeMust_derivable hE h he'.1 hh
        rw [he'.2] at this
        exact this
      · simp at hc
  · simp at hc

/-- A failed must check, with a backend that decides: no must summary meets the constraint. -/
theorem checkMust_none (hE : E.WF) (hcpl : E.S.Complete) {st : SpState T} {pob : Pob T}
    (hc : E.checkMust st pob = .done none) {e : Edge T} (he : e ∈ E.G) (ht : e.tgt = pob.vertex) (ρ : Valuation T)
    (hm : (E.edgeMust st (pob.bound - 1) e).holds ρ) : ¬ pob.constraint.holds ρ := by
  intro hp
  unfold SpEnv.checkMust at hc
  simp only at hc
  split at hc
  · split at hc
    · simp at hc
    · split at hc <;> simp at hc
  · rename_i hns
    rcases spSat_complete (A := Fla.disj ((E.G.inEdges pob.vertex).map (E.edgeMust st (pob.bound - 1))))
      (B := pob.constraint) hcpl with h | h
    · exact hns h
    · refine spSat_unsat hE.smt h ρ ?_ hp
      rw [Fla.holds_disj]
      exact ⟨_, List.mem_map_of_mem (by simpa [Graph.inEdges] using ⟨he, ht⟩), hm⟩

end
end Golem
