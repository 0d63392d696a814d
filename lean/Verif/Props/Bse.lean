import Verif.Model.Engines.Bse
import Verif.Props.LinearBmc

/-!
C45: backward symbolic execution; C46: the engines `Kind` and `BMC` on arbitrary linear graphs.
-/

namespace Golem
variable {T : Theory}

/-- Everything a node of the queue describes leads to false. -/
def ArgNode.Sound (R : PRepr) (G : LGraph T) (n : ArgNode T) : Prop := ∀ ρ : Valuation T, n.fla.holds ρ →
  ∃ es : List (LEdge T), (∀ e ∈ es, e ∈ G) ∧ LFeasible R es (n.pred, (R.stateVars n.pred).map ρ) falseFact

theorem argNode_step {R : PRepr} {E : ElimExcept T} (hE : E.Exact) {G : LGraph T} {n : ArgNode T} (hn : n.Sound R G)
    {e : LEdge T} (he : e ∈ G) (ht : e.tgt = n.pred) :
    ArgNode.Sound R G ⟨e.src, E (R.stateVars e.src) (.and (sendFla n.fla 1) e.fla)⟩ := by
  intro ρ h
  obtain ⟨ρ', hag, h1, h2⟩ := hE.lift _ _ ρ h
  rw [sendFla_holds] at h1
  obtain ⟨es, hes, hf⟩ := hn _ h1
  refine ⟨e :: es, ?_, .cons (g := e.tgtFact R ρ') ⟨ρ', h2, ?_, rfl⟩ ?_⟩
  · intro e' he'
    rcases List.mem_cons.1 he' with rfl | h
    · exact he
    · exact hes _ h
  · simp only [LEdge.srcFact, Prod.mk.injEq, true_and]
    exact List.map_congr_left fun x hx => (hag x hx).symm
  · have : e.tgtFact R ρ' = (n.pred, (R.stateVars n.pred).map fun x => ρ' (shift 1 x)) := by
      simp only [LEdge.tgtFact, ht, PRepr.nextVars, PRepr.stateVars, List.map_map, Prod.mk.injEq, true_and]
      apply List.map_congr_left
      intro x _
      simp [shift]
    rw [this]
    exact hf

theorem bseExpand_unsafe {S : Smt T} (hS : S.Sound) {R : PRepr} (hR : R.WF) {E : ElimExcept T} (hE : E.Exact) {G : LGraph T}
    {n : ArgNode T} (hn : n.Sound R G) : ∀ (es : List (LEdge T)) (queue : List (ArgNode T)),
      (∀ e ∈ es, e ∈ G ∧ e.tgt = n.pred) → (∀ m ∈ queue, m.Sound R G) →
      (bseExpand S R E (sendFla n.fla 1) es queue = none → G.Unsafe R) ∧
      ∀ q', bseExpand S R E (sendFla n.fla 1) es queue = some q' → ∀ m ∈ q', m.Sound R G := by
  intro es
  induction es with
  | nil => intro q _ hq; exact ⟨fun h => (by cases h), fun q' h => (by cases h; exact hq)⟩
  | cons e es ih =>
    intro q hes hq
    have hnew := argNode_step hE hn (hes e (by simp)).1 (hes e (by simp)).2
    have hes' : ∀ e ∈ es, e ∈ G ∧ e.tgt = n.pred := fun e he => hes e (by simp [he])
    unfold bseExpand
    simp only
    split
    · exact ih q hes' hq
    · split
      · rename_i hsat
        split
        · rename_i ht
          refine ⟨fun _ => ?_, fun _ h => (by cases h)⟩
          have := hS.sat _ hsat _ (List.mem_singleton.2 rfl)
          obtain ⟨es, h1, h2⟩ := hnew _ this
          simp only [ht, PRepr.stateVars, hR.tru, List.map_nil] at h2
          exact ⟨es, h1, h2⟩
        · refine ih _ hes' fun m hm => ?_
          rcases List.mem_append.1 hm with hm | hm
          · exact hq m hm
          · rw [List.mem_singleton.1 hm]; exact hnew
      · exact ih q hes' hq

theorem bseLoop_unsafe {S : Smt T} (hS : S.Sound) {R : PRepr} (hR : R.WF) {E : ElimExcept T} (hE : E.Exact) {G : LGraph T} :
    ∀ (fuel : Nat) (queue : List (ArgNode T)), (∀ m ∈ queue, m.Sound R G) → ∀ res, bseLoop S R E G fuel queue = .done res →
      res.witness = .none ∧ (res.answer = .unsafeAns ∧ G.Unsafe R ∨ res.answer = .safe) := by
  intro fuel
  induction fuel with
  | zero => intro q _ res h; cases h
  | succ fuel ih =>
    intro q hq res h
    cases q with
    | nil => cases h; exact ⟨rfl, Or.inr rfl⟩
    | cons n q =>
      unfold bseLoop at h
      obtain ⟨h1, h2⟩ := bseExpand_unsafe hS hR hE (hq n (by simp)) (G.inc n.pred) q (fun e he => by
        simpa [LGraph.inc] using he) (fun m hm => hq m (by simp [hm]))
      split at h
      · rename_i hu
        cases h
        exact ⟨rfl, Or.inl ⟨rfl, h1 hu⟩⟩
      · rename_i q' hq'
        exact ih q' (h2 q' hq') res h

/-- **C45** Backward symbolic execution answers UNSAFE only if false is derivable. -/
theorem C45_unsafe {S : Smt T} (hS : S.Sound) {R : PRepr} (hR : R.WF) {E : ElimExcept T} (hE : E.Exact) {G : LGraph T}
    (fuel : Nat) {res : VerificationResult T} (h : bse S R E G fuel = .done res) :
    res.witness = .none ∧ (res.answer = .unsafeAns ∧ G.Unsafe R ∨ res.answer = .safe) := by
  refine bseLoop_unsafe hS hR hE fuel _ ?_ res h
  intro m hm ρ _
  rw [List.mem_singleton.1 hm]
  refine ⟨[], by simp, ?_⟩
  have : ((⟨.fls, .tt⟩ : ArgNode T).pred, (R.stateVars (⟨.fls, .tt⟩ : ArgNode T).pred).map ρ) = falseFact := by
    simp [PRepr.stateVars, hR.fls, falseFact]
  rw [this]
  exact .nil _

/-! ### SAFE answers -/

/-- Only versioned variables, from version zero on. -/
def VersOnly (f : Fla T) : Prop := ∀ x ∈ f.vars, ∃ n, ∃ k : Nat, x = .ver n k ∨ x = .src n k

theorem LEdge.LabelOk.versOnly {R : PRepr} {e : LEdge T} (h : e.LabelOk R) : VersOnly e.fla := by
  intro x hx
  rcases h x hx with hm | hm | ⟨n, rfl, _⟩ | ⟨n, rfl, _⟩
  · obtain ⟨n, _, rfl⟩ := List.mem_map.1 hm; exact ⟨n, 0, Or.inl rfl⟩
  · obtain ⟨n, _, rfl⟩ := List.mem_map.1 hm; exact ⟨n, 1, Or.inl rfl⟩
  · exact ⟨n, 0, Or.inl rfl⟩
  · exact ⟨n, 0, Or.inr rfl⟩

/-- The node covers a fact. -/
def ArgNode.Covers (R : PRepr) (n : ArgNode T) (f : Fact T) : Prop :=
  f.1 = n.pred ∧ ∃ ρ : Valuation T, n.fla.holds ρ ∧ f = (n.pred, (R.stateVars n.pred).map ρ)

/-- The node built for an edge covers the facts from which the edge leads to a covered fact. -/
theorem argNode_covers {R : PRepr} {E : ElimExcept T} (hE : E.Exact) {n : ArgNode T} {e : LEdge T} (hl : e.LabelOk R)
    (hv : VersOnly n.fla) {f g : Fact T} (hf : e.Fires R f g) (hg : n.Covers R g) :
    ArgNode.Covers R ⟨e.src, E (R.stateVars e.src) (.and (sendFla n.fla 1) e.fla)⟩ f ∧
    VersOnly (E (R.stateVars e.src) (.and (sendFla n.fla 1) e.fla)) := by
  obtain ⟨hp, ρ, hρ, hgρ⟩ := hg
  obtain ⟨τ, hτ, rfl, rfl⟩ := hf
  have hp' : e.tgt = n.pred := hp
  -- values from version one on come from the node, except the target's arguments, which agree anyway
  let μ : Valuation T := fun x => match x with
    | .ver m k => if 1 ≤ k then ρ (.ver m (k - 1)) else τ (.ver m k)
    | .src m k => if 1 ≤ k then ρ (.src m (k - 1)) else τ (.src m k)
    | x => τ x
  have hstate : ∀ m ∈ R.args e.tgt, τ (.ver m 1) = ρ (.ver m 0) := by
    intro m hm
    have h2 := congrArg Prod.snd hgρ
    simp only [LEdge.tgtFact, PRepr.nextVars, PRepr.stateVars, List.map_map, ← hp'] at h2
    exact List.map_inj_left.1 h2 m hm
  have h1 : (sendFla n.fla 1).holds μ := by
    rw [sendFla_holds]
    refine (Fla.holds_congr fun x hx => ?_).1 hρ
    obtain ⟨m, k, rfl | rfl⟩ := hv x hx
    · have e1 : (1 : Int) ≤ (k : Int) + 1 := by omega
      simp only [shift, μ, e1, if_true, Int.add_sub_cancel]
    · have e1 : (1 : Int) ≤ (k : Int) + 1 := by omega
      simp only [shift, μ, e1, if_true, Int.add_sub_cancel]
  have hzero : ∀ m, μ (.ver m 0) = τ (.ver m 0) := fun m => by simp [μ]
  have h2 : e.fla.holds μ := by
    refine (Fla.holds_congr fun x hx => ?_).1 hτ
    rcases hl x hx with hm | hm | ⟨m, rfl, _⟩ | ⟨m, rfl, _⟩
    · obtain ⟨m, _, rfl⟩ := List.mem_map.1 hm; exact (hzero m).symm
    · obtain ⟨m, hm', rfl⟩ := List.mem_map.1 hm
      rw [hstate m hm']
      simp [μ]
    · exact (hzero m).symm
    · simp [μ]
  refine ⟨⟨rfl, μ, hE.weaker _ _ _ ⟨h1, h2⟩, ?_⟩, ?_⟩
  · simp only [LEdge.srcFact, Prod.mk.injEq, true_and, PRepr.stateVars, List.map_map]
    apply List.map_congr_left
    intro m _
    exact (hzero m).symm
  · intro x hx
    have := hE.vars _ _ x hx
    simp only [Fla.vars, List.mem_append] at this
    rcases this with h | h
    · obtain ⟨y, hy, rfl⟩ := mem_vars_sendFla.1 h
      obtain ⟨m, k, rfl | rfl⟩ := hv y hy
      · exact ⟨m, k + 1, Or.inl (by simp [shift])⟩
      · exact ⟨m, k + 1, Or.inr (by simp [shift])⟩
    · exact hl.versOnly x h

structure QueueOk (queue : List (ArgNode T)) : Prop where
  vers : ∀ m ∈ queue, VersOnly m.fla
  noEntry : ∀ m ∈ queue, m.pred ≠ .tru

theorem bseExpand_some {S : Smt T} (hS : S.Sound) (hc : S.Complete) {R : PRepr} {E : ElimExcept T} (hE : E.Exact)
    {n : ArgNode T} (hv : VersOnly n.fla) : ∀ (es : List (LEdge T)) (queue q' : List (ArgNode T)),
      (∀ e ∈ es, e.LabelOk R) → QueueOk queue → bseExpand S R E (sendFla n.fla 1) es queue = some q' →
      QueueOk q' ∧ (∀ m ∈ queue, m ∈ q') ∧
      ∀ e ∈ es, ∀ f g, e.Fires R f g → n.Covers R g → e.src ≠ .tru ∧ ∃ m ∈ q', m.Covers R f := by
  intro es
  induction es with
  | nil => intro q q' _ hq h; cases h; exact ⟨hq, fun _ h => h, by simp⟩
  | cons e es ih =>
    intro q q' hl hq h
    have hl' : ∀ e ∈ es, e.LabelOk R := fun e he => hl e (by simp [he])
    have hcov := fun f g => argNode_covers (R := R) (f := f) (g := g) hE (hl e (by simp)) hv
    unfold bseExpand at h
    simp only at h
    split at h
    · rename_i hin
      obtain ⟨a, b, c⟩ := ih q q' hl' hq h
      refine ⟨a, b, ?_⟩
      intro e' he' f g hf hg
      rcases List.mem_cons.1 he' with rfl | he'
      · exact ⟨hq.noEntry _ hin, _, b _ hin, (hcov f g hf hg).1⟩
      · exact c e' he' f g hf hg
    · split at h
      · rename_i hsat
        split at h
        · cases h
        · rename_i hne
          have hvers : VersOnly (E (R.stateVars e.src) (.and (sendFla n.fla 1) e.fla)) := by
            intro x hx
            have := hE.vars _ _ x hx
            simp only [Fla.vars, List.mem_append] at this
            rcases this with h | h
            · obtain ⟨y, hy, rfl⟩ := mem_vars_sendFla.1 h
              obtain ⟨m, k, rfl | rfl⟩ := hv y hy
              · exact ⟨m, k + 1, Or.inl (by simp [shift])⟩
              · exact ⟨m, k + 1, Or.inr (by simp [shift])⟩
            · exact (hl e (by simp)).versOnly x h
          have hq2 : QueueOk (q ++ [⟨e.src, E (R.stateVars e.src) (.and (sendFla n.fla 1) e.fla)⟩]) := by
            constructor
            · intro m hm
              rcases List.mem_append.1 hm with hm | hm
              · exact hq.vers m hm
              · rw [List.mem_singleton.1 hm]; exact hvers
            · intro m hm
              rcases List.mem_append.1 hm with hm | hm
              · exact hq.noEntry m hm
              · rw [List.mem_singleton.1 hm]; exact hne
          obtain ⟨a, b, c⟩ := ih _ q' hl' hq2 h
          refine ⟨a, fun m hm => b m (List.mem_append_left _ hm), ?_⟩
          intro e' he' f g hf hg
          rcases List.mem_cons.1 he' with rfl | he'
          · exact ⟨hne, _, b _ (List.mem_append_right _ (List.mem_singleton.2 rfl)), (hcov f g hf hg).1⟩
          · exact c e' he' f g hf hg
      · rename_i hns
        obtain ⟨a, b, c⟩ := ih q q' hl' hq h
        refine ⟨a, b, ?_⟩
        intro e' he' f g hf hg
        rcases List.mem_cons.1 he' with rfl | he'
        · exfalso
          obtain ⟨_, ρ, hρ, _⟩ := (hcov f g hf hg).1
          rcases hc [E (R.stateVars e'.src) (.and (sendFla n.fla 1) e'.fla)] with h1 | h1
          · exact hns h1
          · exact hS.unsat _ h1 ⟨ρ, fun x hx => by rw [List.mem_singleton.1 hx]; exact hρ⟩
        · exact c e' he' f g hf hg

theorem bseLoop_safe {S : Smt T} (hS : S.Sound) (hc : S.Complete) {R : PRepr} {E : ElimExcept T} (hE : E.Exact)
    {G : LGraph T} (hl : ∀ e ∈ G, e.LabelOk R) :
    ∀ (fuel : Nat) (queue : List (ArgNode T)), QueueOk queue → ∀ res, bseLoop S R E G fuel queue = .done res →
      res.answer = .safe → ∀ m ∈ queue, ∀ (es : List (LEdge T)) (g : Fact T), (∀ e ∈ es, e ∈ G) →
        LFeasible R es trueFact g → ¬ m.Covers R g := by
  intro fuel
  induction fuel with
  | zero => intro q _ res h; cases h
  | succ fuel ih =>
    intro q hq res h hsafe
    cases q with
    | nil => intro m hm; cases hm
    | cons n q =>
      have hq' : QueueOk q := ⟨fun m hm => hq.vers m (by simp [hm]), fun m hm => hq.noEntry m (by simp [hm])⟩
      unfold bseLoop at h
      split at h
      · cases h; cases hsafe
      · rename_i q2 hq2
        obtain ⟨a, b, c⟩ := bseExpand_some hS hc hE (hq.vers n (by simp)) (G.inc n.pred) q q2
          (fun e he => hl e (by simp [LGraph.inc] at he; exact he.1)) hq' hq2
        have hrec := ih q2 a res h hsafe
        intro m hm es g hG hf hcov
        rcases List.mem_cons.1 hm with rfl | hm
        · rcases List.eq_nil_or_concat es with rfl | ⟨es', e, rfl⟩
          · cases hf
            exact hq.noEntry m (by simp) hcov.1.symm
          · rw [List.concat_eq_append] at hf hG
            have key : ∀ {l : List (LEdge T)} {u v : Fact T}, LFeasible R (l ++ [e]) u v →
                ∃ w, LFeasible R l u w ∧ e.Fires R w v := by
              intro l
              induction l with
              | nil => intro u v h; cases h with | cons hf hp => cases hp; exact ⟨_, .nil _, hf⟩
              | cons x l ih =>
                intro u v h
                cases h with
                | cons hf hp => obtain ⟨w, h1, h2⟩ := ih hp; exact ⟨w, .cons hf h1, h2⟩
            obtain ⟨f, hf1, hf2⟩ := key hf
            have hin : e ∈ G.inc m.pred := by
              simp only [LGraph.inc, List.mem_filter, decide_eq_true_eq]
              exact ⟨hG e (by simp), by rw [← hf2.tgt]; exact hcov.1⟩
            obtain ⟨_, m2, hm2, hc2⟩ := c e hin f g hf2 hcov
            exact hrec m2 hm2 es' f (fun e he => hG e (by simp [he])) hf1 hc2
        · exact hrec m (b m hm) es g hG hf hcov

/-- **C45** With a backend that decides, backward symbolic execution answers SAFE only if false is not derivable. -/
theorem C45_safe {S : Smt T} (hS : S.Sound) (hc : S.Complete) {R : PRepr} (hR : R.WF) {E : ElimExcept T} (hE : E.Exact)
    {G : LGraph T} (hl : ∀ e ∈ G, e.LabelOk R) (fuel : Nat) {res : VerificationResult T}
    (h : bse S R E G fuel = .done res) : GraphResultOk R G res ∧ res.answer ≠ .unknown := by
  obtain ⟨hw, hu⟩ := C45_unsafe hS hR hE fuel h
  have hs : res.answer = .safe → ¬ G.Unsafe R := by
    rintro hsafe ⟨es, hG, hf⟩
    refine bseLoop_safe hS hc hE hl fuel [⟨.fls, .tt⟩] ⟨?_, ?_⟩ res h hsafe _ (List.mem_singleton.2 rfl) es falseFact hG hf
      ⟨rfl, fun _ => T.vT, trivial, ?_⟩
    · intro m hm x hx; rw [List.mem_singleton.1 hm] at hx; simp [Fla.vars] at hx
    · intro m hm; rw [List.mem_singleton.1 hm]; simp
    · simp [PRepr.stateVars, hR.fls, falseFact]
  refine ⟨⟨fun e => ?_, hs, fun D e => (by rw [hw] at e; cases e), fun ds e => (by rw [hw] at e; cases e)⟩, ?_⟩
  · rcases hu with hu | hu
    · exact hu.2
    · rw [hu] at e; cases e
  · rcases hu with hu | hu
    · rw [hu.1]; simp
    · rw [hu]; simp

/-! ### The dispatch of the engines -/

theorem solveTrivial_ok {S : Smt T} (hS : S.Sound) {R : PRepr} (hR : R.WF) {G : LGraph T} (ht : isTrivial G = true) :
    GraphResultOk R G (solveTrivial S G) := by
  obtain ⟨h1, h2⟩ := C26_solveTrivial_sound hS hR ht
  have e : solveTrivial S G = ⟨(solveTrivial S G).answer, (solveTrivial S G).witness⟩ := rfl
  cases ha : (solveTrivial S G).answer with
  | unsafeAns =>
    rw [ha] at e
    obtain ⟨ds, hds, hw⟩ := h1 _ e
    exact ⟨fun _ => hw.unsafe, fun h => (by rw [ha] at h; cases h), fun D h => (by rw [hds] at h; cases h),
      fun ds' h => (by rw [hds] at h; cases h; exact ⟨ha, hw⟩)⟩
  | safe =>
    rw [ha] at e
    obtain ⟨D, hD, hw⟩ := h2 _ e
    exact ⟨fun h => (by rw [ha] at h; cases h), fun _ => hw.safe hR,
      fun D' h => (by rw [hD] at h; cases h; exact ⟨ha, hw⟩), fun ds h => (by rw [hD] at h; cases h)⟩
  | unknown =>
    rcases solveTrivial_cases S G with ⟨h1, _⟩ | ⟨e, _, _, h1⟩ | ⟨h1, _⟩
    · rw [h1] at ha; cases ha
    · rw [h1] at ha; cases ha
    · rw [h1]
      exact ⟨fun h => (by cases h), fun h => (by cases h), fun _ h => (by cases h), fun _ h => (by cases h)⟩

/-- **C46** The `Kind` engine on an arbitrary linear graph, with a backend that decides: the answer is right, and so is the
witness if there is one. -/
theorem C46_kind {S : Smt T} (hS : S.Sound) (hc : S.Complete) {R : PRepr} (hR : R.WF) {E : ElimExcept T} (hE : E.Exact)
    {Q : QElim T} (hQ : Q.Exact) {G : LGraph T} (hn : G.NoStray) (hl : ∀ e ∈ G, e.LabelOk R) (hd : G.AuxDisjoint R)
    (hid : (G.map LEdge.id).Nodup) (w hasArrays : Bool) (fuel : Nat) {res : VerificationResult T}
    (h : kindGraph S R E Q w hasArrays G fuel = .done res) : GraphResultOk R G res := by
  unfold kindGraph at h
  split at h
  · rename_i ht; cases h; exact solveTrivial_ok hS hR ht
  · split at h
    · rename_i hts
      split at h
      · exact (C45_safe hS hc hR hE hl fuel h).1
      · exact (C24_kind_graph hS hc hR hE hQ hts hn hl hd hid w fuel h).1
    · exact (C45_safe hS hc hR hE hl fuel h).1

/-- **C46** The `BMC` engine on an arbitrary linear graph, with any sound backend. -/
theorem C46_bmc {S : Smt T} (hS : S.Sound) {R : PRepr} (hR : R.WF) {E : ElimExcept T} (hE : E.Exact)
    {G : LGraph T} (hn : G.NoStray) (hl : ∀ e ∈ G, e.LabelOk R) (hd : G.AuxDisjoint R)
    (hid : (G.map LEdge.id).Nodup) (w force : Bool) {single : LGraph T → Outcome (VerificationResult T)}
    (hs : ∀ res, single G = .done res → GraphResultOk R G res) (fuel : Nat) {res : VerificationResult T}
    (h : bmcGraph S R E w force single G fuel = .done res) : GraphResultOk R G res := by
  unfold bmcGraph at h
  split at h
  · rename_i ht; cases h; exact solveTrivial_ok hS hR ht
  · split at h
    · rename_i hts; exact (C22_bmc_graph hS hR hE hts hn hl hd hid w fuel h).1
    · split at h
      · exact hs res h
      · exact (C23_sound hS hR hid w fuel h).2.2.1

/-! ### Examples -/

namespace LinearEx
open ValidatorEx (P R R_wf a)

/-- `H` without the way back to `p0`: safe. -/
def H2 : LGraph P := H.filter fun e => decide (e.id ≠ 2)

/-- Backward symbolic execution proves `H2` safe and finds the error of `H`. -/
theorem C45_example : keep.Exact ∧ (∀ e ∈ H, e.LabelOk R) ∧
    (∃ res, bse propSmt R keep H 5 = .done res ∧ res.answer = .unsafeAns) ∧
    (∃ res, bse propSmt R keep H2 5 = .done res ∧ res.answer = .safe) := by
  have key : ∀ (G : LGraph P) (A : VAnswer) (b : VAnswer → Bool), (∀ x, b x = true → x = A) →
      (match bse propSmt R keep G 5 with | .done r => b r.answer | _ => false) = true →
      ∃ res, bse propSmt R keep G 5 = .done res ∧ res.answer = A := by
    intro G A b hb h
    split at h
    · rename_i r hr; exact ⟨r, hr, hb _ h⟩
    · cases h
  refine ⟨keep_exact, H_label, ?_, ?_⟩
  · exact key H .unsafeAns (fun x => match x with | .unsafeAns => true | _ => false) (by intro x; cases x <;> simp)
      (by decide +kernel)
  · exact key H2 .safe (fun x => match x with | .safe => true | _ => false) (by intro x; cases x <;> simp)
      (by decide +kernel)

/-- The backend must decide: with one that always answers "unknown", which is sound, backward symbolic execution calls the
unsafe `H` safe (`src/engine/Kind.cc:164-165` treats every answer but SAT as infeasible). -/
theorem C45_needs_complete : H.Unsafe R ∧ (unknownSmt (T := P)).Sound ∧
    ∃ res, bse (unknownSmt (T := P)) R keep H 2 = .done res ∧ res.answer = .safe := by
  obtain ⟨res, h, ha⟩ := C45_example.2.2.1
  refine ⟨?_, unknownSmt_sound, _, rfl, rfl⟩
  rcases (C45_unsafe propSmt_sound R_wf keep_exact 5 h).2 with h | h
  · exact h.2
  · rw [ha] at h; cases h

end LinearEx

end Golem
