import Verif.Lemmas.ArgInv

/-! Predicate abstraction: the invariant behind the answer SAFE. -/

namespace Golem
variable {T : Theory} {s s' : PaState T} {E : PaEnv T}

/-- The step into a node gives a predicate. -/
def PaState.Given (s : PaState T) (e : Edge T) (sources : List Nat) (f : Fla T) : Prop :=
  Entails (e.fla :: s.srcStates sources) (f.rename toTgt)

/-- No values satisfy the clause and the predicates of the sources. -/
def PaState.Infeasible (s : PaState T) (q : PaEdge T) : Prop := ∀ ρ : Valuation T, q.edge.fla.holds ρ → ¬ AllHold ρ (s.srcStates q.sources)

theorem PaState.Ext.given (h : s.Ext s') {e : Edge T} {l : List Nat} (hl : ∀ a ∈ l, a < s.nodes.length) {f : Fla T} (hg : s.Given e l f) :
    s'.Given e l f := by
  intro ρ hρ
  refine hg ρ fun g hg' => ?_
  rcases List.mem_cons.1 hg' with rfl | hg'
  · exact hρ _ List.mem_cons_self
  · exact h.srcStates hl (fun g hg => hρ g (List.mem_cons_of_mem _ hg)) g hg'

theorem PaState.Ext.infeasible (h : s.Ext s') {q : PaEdge T} (hl : ∀ a ∈ q.sources, a < s.nodes.length) (hi : s.Infeasible q) :
    s'.Infeasible q := fun ρ hρ hh => hi ρ hρ (h.srcStates hl hh)

theorem given_congr {e : Edge T} {l : List Nat} (h : ∀ a ∈ l, s'.sym a = s.sym a ∧ s'.preds a = s.preds a) {f : Fla T} :
    s'.Given e l f ↔ s.Given e l f := by
  unfold PaState.Given; rw [srcStates_congr h]

theorem propagated_sound (hS : E.S.Correct) {p : Pred} {cands : List (Fla T)} (hv : ∀ f ∈ cands, ∀ x ∈ f.vars, x ∈ E.R.baseVars p)
    {l : List Nat} {e : Edge T} {f : Fla T} (hf : f ∈ E.propagated s cands l e.fla) : f ∈ cands ∧ s.Given e l f := by
  unfold PaEnv.propagated checkEntailmentOneByOne at hf
  simp only [List.mem_map, List.mem_filter, decide_eq_true_eq] at hf
  obtain ⟨_, ⟨⟨g, hg, rfl⟩, hu⟩, rfl⟩ := hf
  rw [rename_back (hv g hg)]
  refine ⟨hg, fun ρ hρ => ?_⟩
  refine Classical.byContradiction fun hn => hS.unsat _ hu ⟨ρ, fun x hx => ?_⟩
  rcases List.mem_append.1 hx with hx | hx
  · exact hρ x hx
  · rw [List.mem_singleton] at hx
    subst hx
    exact hn

theorem propagated_complete (hS : E.S.Correct) (hc : E.S.Complete) {p : Pred} {cands : List (Fla T)}
    (hv : ∀ f ∈ cands, ∀ x ∈ f.vars, x ∈ E.R.baseVars p) {l : List Nat} {e : Edge T} {f : Fla T} (hf : f ∈ cands) (hg : s.Given e l f) :
    f ∈ E.propagated s cands l e.fla := by
  unfold PaEnv.propagated checkEntailmentOneByOne
  simp only [List.mem_map, List.mem_filter, decide_eq_true_eq]
  refine ⟨_, ⟨⟨f, hf, rfl⟩, ?_⟩, rename_back (hv f hf)⟩
  rcases hc ((e.fla :: s.srcStates l) ++ [.not (f.rename toTgt)]) with h | h
  · exfalso
    have h1 := hS.sat _ h
    have h2 : (Fla.not (f.rename toTgt)).holds _ := h1 _ (List.mem_append_right _ (List.mem_singleton.2 rfl))
    exact h2 (hg _ fun x hx => h1 x (List.mem_append_left _ hx))
  · exact h

theorem paCovers_sub {a b : List (Fla T)} (h : paCovers a b = true) : ∀ f ∈ b, f ∈ a := by
  unfold paCovers at h
  split at h
  · next hb => subst hb; simp
  · split at h
    · cases h
    · simpa using h

/-- The predicates of a node are exactly those of the pool that the step into it gives. -/
def PaState.NodeOk (s : PaState T) (G : Graph T) (pool : Pred → List (Fla T)) (i : Nat) : Prop := ∀ e, s.IncOk G i e →
  (∀ f ∈ s.preds i, s.Given e.clause e.sources f) ∧ ∀ f ∈ pool (s.sym i), s.Given e.clause e.sources f → f ∈ s.preds i

/-- An edge is in the queue, or was handled. -/
def PaState.Handled (s : PaState T) (q : PaEdge T) : Prop :=
  q ∈ s.queue ∨ s.Infeasible q ∨ (q.edge.tgt ≠ .fls ∧ ∃ i, 0 < i ∧ i < s.nodes.length ∧ (⟨q.sources, i, q.edge⟩ : ArgEdge T) ∈ s.incoming)

/-- A covered node and its coverer. -/
structure PaState.CoverOk (s : PaState T) (c : Nat × Nat) : Prop where
  lt : c.1 < s.nodes.length ∧ c.2 < s.nodes.length
  sym : s.sym c.1 = s.sym c.2
  sub : ∀ f ∈ s.preds c.2, f ∈ s.preds c.1
  wf : c.2 < c.1 ∨ s.isCovered c.2 = false

/-- The invariant, except for some edges that are being handled. -/
structure PaSafe (E : PaEnv T) (s : PaState T) (X : PaEdge T → Prop) : Prop where
  manVars : ∀ p, ∀ f ∈ s.man p, ∀ x ∈ f.vars, x ∈ E.R.baseVars p
  predVars : ∀ i, ∀ f ∈ s.preds i, ∀ x ∈ f.vars, x ∈ E.R.baseVars (s.sym i)
  node : ∀ i, 0 < i → i < s.nodes.length → s.NodeOk E.G s.man i
  cover : ∀ c ∈ s.covered, s.CoverOk c
  closed : ∀ e ∈ E.G, ∀ t, s.Match e t → X ⟨e, t⟩ ∨ s.Handled ⟨e, t⟩

/-! ### A new node -/

theorem PaSafe.insert (hE : E.Ok) (hS : E.S.Correct) (hc : E.S.Complete) (hb : PaBase E s) {q : PaEdge T} (hq : s.EdgeOk E.G q)
    (hne : q.edge.tgt ≠ .fls) (h : PaSafe E s (· = q)) {s2 : PaState T}
    (hs2 : s2 = if (E.computeTarget s q).2 = true then (E.computeTarget s q).1 else E.newEdges (E.computeTarget s q).1 s.nodes.length)
    (hs' : s' = { s2 with incoming := s2.incoming ++ [⟨q.sources, s.nodes.length, q.edge⟩] }) : PaSafe E s' fun _ => False := by
  obtain ⟨t1, t2, t3, t4⟩ := tryInsert_eq (s := s) q.edge.tgt (E.ord (E.propagated s (s.man q.edge.tgt) q.sources q.edge.fla))
  have hx1 := ext_snoc t2
  have hq1 : ∀ q' ∈ (E.computeTarget s q).1.queue, (E.computeTarget s q).1.EdgeOk E.G q' := by
    intro q' hq'
    rw [PaEnv.computeTarget, t4] at hq'
    exact hx1.edgeOk (hb.queue q' hq')
  obtain ⟨n1, n2⟩ := newEdges_grow hE.graph (E.computeTarget s q).1 s.nodes.length
  have g : Grow E.G (E.computeTarget s q).1 s2 := by
    rw [hs2]; split
    · exact Grow.refl _
    · exact n1
  have e1 : s'.nodes = s.nodes ++ [⟨q.edge.tgt, E.ord (E.propagated s (s.man q.edge.tgt) q.sources q.edge.fla)⟩] := by
    rw [hs']; simp only; rw [g.same.nodes, PaEnv.computeTarget, t2]
  have e2 : s'.incoming = s.incoming ++ [⟨q.sources, s.nodes.length, q.edge⟩] := by
    rw [hs']; simp only; rw [g.same.incoming, PaEnv.computeTarget, t3]
  have e3 : s'.man = s.man := by rw [hs']; simp only; rw [g.same.man, PaEnv.computeTarget, t1]
  have e4 : ∀ q ∈ s.queue, q ∈ s'.queue := by
    intro q' hq'
    rw [hs']
    exact g.sub q' (by rw [PaEnv.computeTarget, t4]; exact hq')
  have e5 : s'.covered = (E.computeTarget s q).1.covered := by rw [hs']; simp only; rw [g.same.covered]
  have e6 : ∀ q ∈ s'.queue, s'.EdgeOk E.G q := by
    intro q' hq'
    rw [hs'] at hq' ⊢
    obtain ⟨a1, a2, a3⟩ := g.ok hq1 q' hq'
    exact ⟨a1, a2, a3⟩
  obtain ⟨hb', hnew, hold⟩ := hb.insert hq hne (s' := s') rfl e1 e2 e6
  have hx : s.Ext s' := ext_snoc e1
  have hlen : s'.nodes.length = s.nodes.length + 1 := by rw [e1]; simp
  have hsp : ∀ a, a < s.nodes.length → s'.sym a = s.sym a ∧ s'.preds a = s.preds a := fun a ha => ⟨sym_snoc_lt e1 ha, preds_snoc_lt e1 ha⟩
  have hsn : s'.sym s.nodes.length = q.edge.tgt := sym_snoc e1
  have hpn : ∀ f, f ∈ s'.preds s.nodes.length ↔ f ∈ E.propagated s (s.man q.edge.tgt) q.sources q.edge.fla := by
    intro f; rw [preds_snoc e1]; exact hE.ord _ _
  have hmv := h.manVars q.edge.tgt
  -- the cover of the new node
  have hcov : (E.computeTarget s q).1.covered = s.covered ∧ (E.computeTarget s q).2 = false ∨
      ∃ c, (E.computeTarget s q).1.covered = s.covered ++ [(s.nodes.length, c)] ∧ (E.computeTarget s q).2 = true ∧
        c < s.nodes.length ∧ s.sym c = q.edge.tgt ∧ ∀ f ∈ s.preds c, f ∈ s'.preds s.nodes.length := by
    unfold PaEnv.computeTarget PaState.tryInsert
    cases hfd : (s.instances q.edge.tgt).find? fun i =>
        paCovers (E.ord (E.propagated s (s.man q.edge.tgt) q.sources q.edge.fla)) (s.preds i) with
    | none => exact .inl ⟨rfl, rfl⟩
    | some c =>
      right
      have h1 := mem_insts.1 (List.mem_of_find?_eq_some hfd)
      have h2' := List.find?_some hfd
      have h2 := paCovers_sub h2'
      exact ⟨c, rfl, rfl, h1.1, h1.2, fun f hf => by rw [preds_snoc e1]; exact h2 f hf⟩
  have hcl : ∀ c ∈ s.covered, c.1 < s.nodes.length ∧ c.2 < s.nodes.length := fun c hc => (h.cover c hc).lt
  have hci : ∀ a, a < s.nodes.length → s'.isCovered a = s.isCovered a := by
    intro a ha
    unfold PaState.isCovered
    rw [e5]
    rcases hcov with ⟨h1, _⟩ | ⟨c, h1, _⟩
    · rw [h1]
    · rw [h1, List.any_append]
      have : (s.nodes.length == a) = false := by simp; omega
      simp [this]
  refine ⟨?_, ?_, ?_, ?_, ?_⟩
  · rw [e3]; exact h.manVars
  · intro i f hf
    rcases Nat.lt_trichotomy i s.nodes.length with hi | hi | hi
    · obtain ⟨a1, a2⟩ := hsp i hi
      rw [a2] at hf; rw [a1]; exact h.predVars i f hf
    · subst hi
      rw [hsn]
      exact hmv f (propagated_sound hS hmv ((hpn f).1 hf)).1
    · rw [preds_ge (by omega)] at hf; simp at hf
  · intro i h0 hi e he
    rcases Nat.lt_or_ge i s.nodes.length with hlt | hge
    · have he' := (hold i e hlt).1 he
      have hcg : ∀ {f}, s'.Given e.clause e.sources f ↔ s.Given e.clause e.sources f :=
        given_congr fun a ha => hsp a (Nat.lt_trans (he'.lt a ha) hlt)
      obtain ⟨h1, h2⟩ := h.node i h0 hlt e he'
      rw [(hsp i hlt).1, (hsp i hlt).2, e3]
      exact ⟨fun f hf => hcg.2 (h1 f hf), fun f hf hg => h2 f hf (hcg.1 hg)⟩
    · have : i = s.nodes.length := by omega
      subst this
      have : e = ⟨q.sources, s.nodes.length, q.edge⟩ := by
        have := he.find.symm.trans hnew.find
        exact Option.some.inj this
      subst this
      have hcg : ∀ {f}, s'.Given q.edge q.sources f ↔ s.Given q.edge q.sources f := given_congr fun a ha => hsp a (hq.lt a ha)
      rw [hsn, e3]
      refine ⟨fun f hf => hcg.2 (propagated_sound hS hmv ((hpn f).1 hf)).2, fun f hf hg => (hpn f).2 ?_⟩
      exact propagated_complete hS hc hmv hf (hcg.1 hg)
  · intro c hcm
    rw [e5] at hcm
    have old : ∀ c ∈ s.covered, s'.CoverOk c := by
      intro c hc'
      obtain ⟨⟨a1, a2⟩, a3, a4, a5⟩ := h.cover c hc'
      refine ⟨⟨by omega, by omega⟩, ?_, ?_, ?_⟩
      · rw [(hsp _ a1).1, (hsp _ a2).1, a3]
      · rw [(hsp _ a1).2, (hsp _ a2).2]; exact a4
      · rw [hci _ a2]; exact a5
    rcases hcov with ⟨h1, _⟩ | ⟨c', h1, _, h2, h3, h4⟩
    · rw [h1] at hcm; exact old c hcm
    · rw [h1] at hcm
      rcases List.mem_append.1 hcm with hcm | hcm
      · exact old c hcm
      · rw [List.mem_singleton] at hcm
        subst hcm
        refine ⟨⟨by simp only; omega, by simp only; omega⟩, ?_, ?_, .inl h2⟩
        · rw [hsn, (hsp _ h2).1, h3]
        · rw [(hsp _ h2).2]; exact h4
  · intro e he t ht
    right
    by_cases hin : s.nodes.length ∈ t
    · left
      by_cases hcc : (E.computeTarget s q).2 = true
      · exfalso
        have h1 := ht.free _ hin
        rcases hcov with ⟨_, h2⟩ | ⟨c, h2, _⟩
        · rw [hcc] at h2; cases h2
        · unfold PaState.isCovered at h1
          rw [e5, h2, List.any_append] at h1
          simp at h1
      · have h1 : s2 = E.newEdges (E.computeTarget s q).1 s.nodes.length := by rw [hs2, if_neg hcc]
        rw [hs']
        simp only
        rw [h1]
        refine n2 hq1 e he t (n1.match.1 ?_) hin
        obtain ⟨a1, a2, a3⟩ := ht
        rw [hs', h1] at a1 a2 a3
        exact ⟨a1, a2, a3⟩
    · have hlt : ∀ a ∈ t, a < s.nodes.length := by
        intro a ha
        have := ht.lt a ha
        have : a ≠ s.nodes.length := fun h => hin (h ▸ ha)
        omega
      have hm : s.Match e t := ⟨hlt, by rw [← hx.map_sym hlt]; exact ht.syms, fun a ha => by rw [← hci a (hlt a ha)]; exact ht.free a ha⟩
      rcases h.closed e he t hm with rfl | hh
      · right; right
        refine ⟨hne, s.nodes.length, hb.struct.pos, by omega, ?_⟩
        rw [e2]; simp
      · rcases hh with hh | hh | ⟨h1, i, h2, h3, h4⟩
        · exact .inl (e4 _ hh)
        · exact .inr (.inl (hx.infeasible hlt hh))
        · exact .inr (.inr ⟨h1, i, h2, by omega, by rw [e2]; exact List.mem_append_left _ h4⟩)

/-! ### Refinement -/

/-- The predicates after the refinement. -/
def paPool (info : List (Pred × Fla T)) (man : Pred → List (Fla T)) (p : Pred) : List (Fla T) := man p ++ paNew info p

/-- What the loop of `refine` keeps when it comes to a node. -/
structure RefInv (E : PaEnv T) (info : List (Pred × Fla T)) (s₀ s : PaState T) (nid : Nat) (changed : List Nat) : Prop where
  refined : Refined s₀ s
  base : PaBase E s
  same : ∀ i, i ∉ changed → s.preds i = s₀.preds i
  lt : ∀ i ∈ changed, i < nid
  node : ∀ i, 0 < i → i < nid → s.NodeOk E.G (paPool info s₀.man) i
  vars : ∀ i, ∀ f ∈ s.preds i, ∀ x ∈ f.vars, x ∈ E.R.baseVars (s.sym i)

theorem refineLoop_safe (hE : E.Ok) (hS : E.S.Correct) (hc : E.S.Complete) {info : List (Pred × Fla T)} {s₀ : PaState T} {X : PaEdge T → Prop}
    (h₀ : PaSafe E s₀ X) (hinfo : ∀ p, ∀ f ∈ paNew info p, ∀ x ∈ f.vars, x ∈ E.R.baseVars p) :
    ∀ (m k : Nat) (s : PaState T) (changed : List Nat), 0 < k → k + m = s₀.nodes.length → RefInv E info s₀ s k changed →
    ∀ s', E.refineLoop info (List.range' k m) s changed = .done s' → ∃ changed', RefInv E info s₀ s' s₀.nodes.length changed' := by
  intro m
  induction m with
  | zero =>
    intro k s changed _ hk h s' hs'
    simp only [List.range'_zero, PaEnv.refineLoop, Outcome.done.injEq] at hs'
    subst hs'
    rw [Nat.add_zero] at hk
    subst hk
    exact ⟨changed, h⟩
  | succ m ih =>
    intro k s changed h0 hk h s' hs'
    rw [List.range'_succ, PaEnv.refineLoop] at hs'
    have hlt : k < s.nodes.length := by rw [h.refined.len]; omega
    obtain ⟨e, he⟩ := h.base.struct.inc k h0 hlt
    obtain ⟨s1, c1, h1, h2, h3, h4, h5, h6, cands, h7, h8, h9, h10⟩ :=
      refineNode_eq (E := E) hE.ord h.base.struct (info := info) (changed := changed) h0 hlt he
    rw [h1] at hs'
    simp only at hs'
    have hman : s.man = s₀.man := h.refined.man
    have hcv : ∀ f ∈ cands, ∀ x ∈ f.vars, x ∈ E.R.baseVars (s.sym k) := by
      intro f hf
      rcases h7 f hf with h | h
      · exact hinfo _ f h
      · rw [hman] at h; exact h₀.manVars _ f h
    have hknot : k ∉ changed := fun hh => Nat.lt_irrefl _ (h.lt k hh)
    have hsp : ∀ a, a < k → s1.sym a = s.sym a ∧ s1.preds a = s.preds a := fun a ha => ⟨by rw [h2.sym], h3 a (by omega)⟩
    refine ih (k + 1) s1 c1 (by omega) (by omega) ⟨h.refined.trans h2, h.base.refined h2 (h3 0 (by omega)), ?_, ?_, ?_, ?_⟩ s' hs'
    · intro i hi
      have : i ∉ changed := fun hh => hi (h4 i hh)
      by_cases hik : i = k
      · subst hik
        rw [← h.same i this]
        exact Classical.byContradiction fun hn => hi (h6 hn)
      · rw [h3 i hik, h.same i this]
    · intro i hi
      rcases h5 i hi with hh | rfl
      · have := h.lt i hh; omega
      · omega
    · intro i hi0 hik e' he'
      rw [h2.inc] at he'
      rcases Nat.lt_or_ge i k with hlt' | hge
      · obtain ⟨a1, a2⟩ := h.node i hi0 hlt' e' he'
        have hcg : ∀ {f}, s1.Given e'.clause e'.sources f ↔ s.Given e'.clause e'.sources f :=
          given_congr fun a ha => hsp a (Nat.lt_trans (he'.lt a ha) hlt')
        rw [(hsp i hlt').2, (hsp i hlt').1]
        exact ⟨fun f hf => hcg.2 (a1 f hf), fun f hf hg => a2 f hf (hcg.1 hg)⟩
      · have : i = k := by omega
        subst this
        have : e' = e := Option.some.inj (he'.find.symm.trans he.find)
        subst this
        have hcg : ∀ {f}, s1.Given e'.clause e'.sources f ↔ s.Given e'.clause e'.sources f :=
          given_congr fun a ha => hsp a (he.lt a ha)
        have he0 : s₀.IncOk E.G i e' := h.refined.inc.1 he
        obtain ⟨b1, b2⟩ := h₀.node i h0 (by omega) e' he0
        have hpe : s.preds i = s₀.preds i := h.same i hknot
        constructor
        · intro f hf
          rw [hcg]
          rcases (h10 f).1 hf with hf | hf
          · rw [hpe] at hf
            refine h.refined.ext.given (fun a ha => ?_) (b1 f hf)
            have := he0.lt a ha
            omega
          · exact (propagated_sound hS hcv hf).2
        · intro f hf hg
          rw [hcg] at hg
          rw [h10]
          rw [h2.sym, paPool, List.mem_append] at hf
          have hm : f ∈ s.man (s.sym i) → f ∈ s.preds i ∨ f ∈ E.propagated s cands e'.sources e'.clause.fla := by
            intro hm
            by_cases hch : ∃ a ∈ e'.sources, a ∈ changed
            · rcases h9 hch f hm with hh | hh
              · exact .inl hh
              · exact .inr (propagated_complete hS hc hcv hh hg)
            · left
              rw [hpe]
              rw [hman, h.refined.sym] at hm
              refine b2 f hm ((given_congr fun a ha => ?_).1 hg)
              exact ⟨by rw [h.refined.sym], h.same a fun hh => hch ⟨a, ha, hh⟩⟩
          rcases hf with hf | hf
          · rw [← hman] at hf; exact hm hf
          · rcases h8 f hf with hh | hh
            · exact hm hh
            · exact .inr (propagated_complete hS hc hcv hh hg)
    · intro i f hf
      rw [h2.sym]
      by_cases hik : i = k
      · subst hik
        rcases (h10 f).1 hf with hf | hf
        · exact h.vars i f hf
        · exact hcv f (propagated_sound hS hcv hf).1
      · rw [h3 i hik] at hf
        exact h.vars i f hf

/-- The new predicates are about the arguments of their symbols. -/
theorem refinement_mem {tree : List (PaTree T)} (hG : PaGraph E.R E.G) (h : PaTreeOk E.G tree) {p : Pred} {f : Fla T} :
    f ∈ paNew (E.refinement tree) p ↔ ∃ n, 0 < n ∧ n < tree.length ∧ tgtAt tree n = p ∧ E.itpAt tree n ≠ .tt ∧ f = E.predAt tree n := by
  unfold paNew PaEnv.refinement
  simp only [List.mem_map, List.mem_filter, decide_eq_true_eq, List.mem_filterMap]
  constructor
  · rintro ⟨⟨p', f'⟩, ⟨⟨⟨t, n⟩, hm, hif⟩, rfl⟩, rfl⟩
    have ht := List.mem_zipIdx_iff_getElem?.1 hm
    simp only at ht hif
    split at hif
    · cases hif
    · next hp =>
      split at hif
      · cases hif
      · next hi =>
        simp only [Option.some.injEq, Prod.mk.injEq] at hif
        have h0 : n ≠ 0 := fun hh => hp ((h.parent_none ht).2 hh)
        exact ⟨n, by omega, List.getElem?_lt ht, by rw [tgtAt_eq ht, hif.1], hi, hif.2.symm⟩
  · rintro ⟨n, h0, hlt, rfl, hi, rfl⟩
    refine ⟨(tgtAt tree n, E.predAt tree n), ⟨⟨(tree[n], n), List.mem_zipIdx_iff_getElem?.2 (by simp), ?_⟩, rfl⟩, rfl⟩
    have ht : tree[n]? = some tree[n] := by simp
    have hp : ¬ tree[n].parent = none := fun hh => by have := (h.parent_none ht).1 hh; omega
    simp only [if_neg hp]
    rw [if_neg (by exact hi)]
    rw [tgtAt_eq ht]
    rfl

theorem refinement_vars {tree : List (PaTree T)} (hI : E.I.Sound) (hG : PaGraph E.R E.G) (h : PaTreeOk E.G tree)
    (hu : E.I.check (paLabels E.R tree) = .unsat) (p : Pred) : ∀ f ∈ paNew (E.refinement tree) p, ∀ x ∈ f.vars, x ∈ E.R.baseVars p := by
  intro f hf x hx
  obtain ⟨n, h0, hlt, rfl, _, rfl⟩ := (refinement_mem hG h).1 hf
  exact predAt_vars hI hG h hu h0 hlt hx

/-- After the refinement the refuted proof is no longer there: the clause of the query is infeasible. -/
theorem refined_infeasible (hI : E.I.Sound) (hT : E.I.TreeItp) (hG : PaGraph E.R E.G) {q : PaEdge T} {tree : List (PaTree T)}
    (hq : s.EdgeOk E.G q) (hm : MakeOk E.G s q tree) (hu : E.I.check (paLabels E.R tree) = .unsat) {s1 : PaState T} (hr : Refined s s1)
    (hs : PaStruct E.G s)
    (hn : ∀ i, 0 < i → i < s.nodes.length → s1.NodeOk E.G (paPool (E.refinement tree) s.man) i) : s1.Infeasible q := by
  -- the children of a tree node hold where the states of the sources hold
  have kids : ∀ (n : Nat) (t : PaTree T), tree[n]? = some t → (∀ c ∈ paChildren tree n, E.predAt tree c ∈ s1.preds (argAt tree c) ∨ E.itpAt tree c = .tt) →
      ∀ ρ : Valuation T, AllHold ρ (s1.srcStates (s.treeSources q tree n)) → (s.treeSources q tree n).map s.sym = t.clause.src →
      ∀ (j c : Nat) (x : Pred × Nat), (paChildren tree n)[j]? = some c → (instances t.clause.src)[j]? = some x →
      ((E.predAt tree c).rename (toSrc x.2)).holds ρ := by
    intro n t ht hk ρ hρ hsy j c x hj hx
    have hlt := List.getElem?_lt ht
    have hkn := hm.kids n hlt
    have htru : .tru ∉ t.clause.src := by
      rcases hm.shape.kids n t ht with ⟨_, h2⟩ | ⟨h1, _⟩
      · rw [h2] at hj; simp at hj
      · exact h1
    have hall : (s.treeSources q tree n).filter (fun a => decide (a ≠ 0)) = s.treeSources q tree n := by
      rw [List.filter_eq_self]
      intro a ha
      simp only [decide_eq_true_eq]
      rintro rfl
      exact htru (by rw [← hsy]; exact List.mem_map.2 ⟨0, ha, hs.sym_zero⟩)
    rw [hall] at hkn
    have ha : (s.treeSources q tree n)[j]? = some (argAt tree c) := by rw [← hkn, List.getElem?_map, hj]; rfl
    rw [← hsy, ← hr.sym] at hx
    rcases hk c (List.mem_of_getElem? hj) with hp | hp
    · exact (allHold_srcStates.1 hρ) j _ x ha hx _ hp
    · rw [Fla.holds_rename]
      unfold PaEnv.predAt
      rw [hp]
      exact trivial
  have src : ∀ (n : Nat) (t : PaTree T), tree[n]? = some t → (s.treeSources q tree n).map s.sym = t.clause.src := by
    intro n t ht
    unfold PaState.treeSources
    rcases Nat.eq_zero_or_pos n with rfl | h0
    · rw [hm.root] at ht; cases ht
      rw [if_pos rfl, hq.syms]
    · obtain ⟨_, _, _, e, he, h1⟩ := hm.node n t h0 ht
      rw [if_neg (by omega), he.find, h1]
      exact he.syms
  have main : ∀ d n, tree.length ≤ n + d → 0 < n → n < tree.length → E.predAt tree n ∈ s1.preds (argAt tree n) ∨ E.itpAt tree n = .tt := by
    intro d
    induction d with
    | zero => intro n h1 _ h2; omega
    | succ d ih =>
      intro n h1 h0 h2
      by_cases hi : E.itpAt tree n = .tt
      · exact .inr hi
      left
      have ht : tree[n]? = some tree[n] := by simp
      obtain ⟨b1, b2, b3, e, he, b4⟩ := hm.node n _ h0 ht
      obtain ⟨_, hex⟩ := hn _ b1 b2 e (hr.inc.2 he)
      refine hex _ ?_ ?_
      · rw [paPool, List.mem_append]
        right
        rw [refinement_mem hG hm.shape]
        exact ⟨n, h0, h2, by rw [tgtAt_eq ht, b3, hr.sym], hi, rfl⟩
      · intro ρ hρ
        have hts : s.treeSources q tree n = e.sources := by
          unfold PaState.treeSources
          rw [if_neg (by omega), he.find]
          rfl
        refine (predAt_step hI hT hG hm.shape hu ht (by rw [b4]; exact hρ _ List.mem_cons_self) ?_).2
        refine kids n _ ht (fun c hc => ?_) ρ ?_ (src n _ ht)
        · have := hm.shape.child_gt hc
          obtain ⟨_, hc', _⟩ := mem_paChildren.1 hc
          exact ih c (by omega) (by omega) (List.getElem?_lt hc')
        · rw [hts]; exact fun g hg => hρ g (List.mem_cons_of_mem _ hg)
  intro ρ hρ hh
  have hlen := hm.shape.pos
  have h0 : 0 < 0 ∧ _ := predAt_step hI hT hG hm.shape hu hm.root hρ (kids 0 _ hm.root (fun c hc => by
    have := hm.shape.child_gt hc
    obtain ⟨_, hc', _⟩ := mem_paChildren.1 hc
    exact main tree.length c (by omega) (by omega) (List.getElem?_lt hc')) ρ hh (src 0 _ hm.root))
  exact absurd h0.1 (by omega)

/-- Refinement keeps the invariant, and rules out the refuted proof. -/
theorem PaSafe.refine (hE : E.Ok) (hS : E.S.Correct) (hc : E.S.Complete) (hI : E.I.Sound) (hT : E.I.TreeItp) (hb : PaBase E s) {q : PaEdge T}
    (hq : s.EdgeOk E.G q) (h : PaSafe E s (· = q)) {tree : List (PaTree T)} (hm : MakeOk E.G s q tree)
    (hu : E.I.check (paLabels E.R tree) = .unsat) (hr : E.refine (E.refinement tree) s = .done s') :
    PaSafe E s' (fun _ => False) ∧ s'.Infeasible q := by
  generalize hinfo : E.refinement tree = info at hr
  obtain ⟨s1, s3, h1, h2, h3, h4, g, hb'⟩ := pa_refine_base hE info hb
  obtain rfl : s3 = s' := Outcome.done.inj (h4.symm.trans hr)
  clear hr
  have hvars : ∀ p, ∀ f ∈ paNew info p, ∀ x ∈ f.vars, x ∈ E.R.baseVars p := by
    rw [← hinfo]; exact refinement_vars hI hE.graph hm.shape hu
  have hdrop : (List.range s.nodes.length).drop 1 = List.range' 1 (s.nodes.length - 1) := by
    rw [List.range_eq_range', List.drop_range']
  obtain ⟨changed, hR⟩ := refineLoop_safe hE hS hc h hvars (s.nodes.length - 1) 1 s [] (by omega) (by have := hb.struct.pos; omega)
    ⟨Refined.refl s, hb, fun _ _ => rfl, by simp, fun i _ _ => by omega, h.predVars⟩ s1 (by rw [← hdrop]; exact h1)
  -- the states after the updates of the predicates and of the covered nodes
  generalize hr2 : E.recheckCovered (E.addPredicates info s1) = r at g
  have r1 : r.1.nodes = s1.nodes ∧ r.1.incoming = s1.incoming ∧ r.1.queue = s1.queue ∧
      r.1.covered = s1.covered.filterMap (fun c => (s1.recheck c).map fun a => (c.1, a)) ∧
      r.2 = ((E.ordC s1.covered).filter fun c => (s1.recheck c).isNone).map Prod.fst ∧
      (∀ p f, f ∈ r.1.man p ↔ f ∈ paPool info s.man p) := by
    rw [← hr2]
    refine ⟨rfl, rfl, rfl, rfl, rfl, ?_⟩
    intro p f
    show f ∈ (if (paNew info p).isEmpty then s1.man p else E.ord (s1.man p ++ paNew info p)) ↔ f ∈ paPool info s.man p
    unfold paPool
    rw [← h2.man]
    by_cases hem : (paNew info p).isEmpty = true
    · rw [if_pos hem]
      rw [List.isEmpty_iff] at hem
      rw [hem, List.append_nil]
    · rw [if_neg hem, hE.ord]
  obtain ⟨r1, r2, r3, r4, r5, r6⟩ := r1
  have rsym : r.1.sym = s1.sym := by funext i; simp only [PaState.sym, r1]
  have rpreds : r.1.preds = s1.preds := by funext i; simp only [PaState.preds, r1]
  have hsym : s3.sym = s1.sym := g.same.sym.trans rsym
  have hpreds : s3.preds = s1.preds := g.same.preds.trans rpreds
  have hnodes : s3.nodes = s1.nodes := g.same.nodes.trans r1
  have hinc : s3.incoming = s1.incoming := g.same.incoming.trans r2
  have hcov : s3.covered = s1.covered.filterMap (fun c => (s1.recheck c).map fun a => (c.1, a)) := g.same.covered.trans r4
  have hext : s1.Ext s3 := ⟨by rw [hnodes], fun i _ => by rw [hsym], fun i f hf => by rw [hpreds]; exact hf⟩
  have hsrc : ∀ l, s3.srcStates l = s1.srcStates l := fun l => srcStates_congr fun a _ => ⟨by rw [hsym], by rw [hpreds]⟩
  have hIo : ∀ {i e}, s3.IncOk E.G i e ↔ s1.IncOk E.G i e := by
    intro i e
    constructor
    · rintro ⟨a1, a2, a3, a4, a5, a6⟩
      exact ⟨by rw [← hinc]; exact a1, a2, by rw [← hsym]; exact a3, by rw [← hsym]; exact a4, a5, by rw [← hsym]; exact a6⟩
    · rintro ⟨a1, a2, a3, a4, a5, a6⟩
      exact ⟨by rw [hinc]; exact a1, a2, by rw [hsym]; exact a3, by rw [hsym]; exact a4, a5, by rw [hsym]; exact a6⟩
  have hman : ∀ p f, f ∈ s3.man p ↔ f ∈ paPool info s.man p := by rw [g.same.man]; exact r6
  have hlen1 : s1.nodes.length = s.nodes.length := h2.len
  have hlen : s3.nodes.length = s.nodes.length := by rw [hnodes, hlen1]
  have hinf : s1.Infeasible q := refined_infeasible hI hT hE.graph hq hm hu h2 hb.struct (by rw [hinfo]; exact hR.node)
  -- covered before and now
  have hcs : ∀ a, s3.isCovered a = true → s1.isCovered a = true := by
    intro a ha
    unfold PaState.isCovered at ha ⊢
    rw [hcov] at ha
    simp only [List.any_eq_true, List.mem_filterMap, Option.map_eq_some_iff, beq_iff_eq] at ha ⊢
    obtain ⟨x, ⟨c, hc1, o, ho, rfl⟩, rfl⟩ := ha
    exact ⟨c, hc1, rfl⟩
  have hcf : ∀ a, s1.isCovered a = false → s3.isCovered a = false := by
    intro a ha
    cases hh : s3.isCovered a with
    | false => rfl
    | true => rw [hcs a hh] at ha; cases ha
  have hold : ∀ c ∈ s1.covered, c.1 < s.nodes.length ∧ c.2 < s.nodes.length ∧ s1.sym c.1 = s1.sym c.2 ∧
      (c.2 < c.1 ∨ s1.isCovered c.2 = false) := by
    intro c hc'
    rw [h2.covered] at hc'
    obtain ⟨a1, a2, a3, a4⟩ := h.cover c hc'
    exact ⟨a1.1, a1.2, by rw [h2.sym]; exact a2, by rw [h2.isCovered]; exact a4⟩
  refine ⟨⟨?_, ?_, ?_, ?_, ?_⟩, hext.infeasible (fun a ha => by rw [hlen1]; exact hq.lt a ha) hinf⟩
  · intro p f hf
    rw [hman, paPool, List.mem_append] at hf
    rcases hf with hf | hf
    · exact h.manVars p f hf
    · exact hvars p f hf
  · rw [hpreds, hsym]; exact hR.vars
  · intro i h0 hi e he
    rw [hlen] at hi
    obtain ⟨a1, a2⟩ := hR.node i h0 hi e (hIo.1 he)
    rw [hpreds, hsym]
    unfold PaState.Given
    rw [hsrc]
    exact ⟨a1, fun f hf hg => a2 f ((hman _ f).1 hf) hg⟩
  · intro c hc'
    rw [hcov] at hc'
    simp only [List.mem_filterMap, Option.map_eq_some_iff] at hc'
    obtain ⟨d, hd, o, ho, rfl⟩ := hc'
    obtain ⟨d1, d2, d3, d4⟩ := hold d hd
    unfold PaState.recheck at ho
    split at ho
    · next hp =>
      cases ho
      refine ⟨⟨by rw [hlen]; exact d1, by rw [hlen]; exact d2⟩, by rw [hsym]; exact d3, ?_, ?_⟩
      · rw [hpreds]; exact paCovers_sub hp
      · rcases d4 with h | h
        · exact .inl h
        · exact .inr (hcf _ h)
    · have ho1 := mem_insts.1 (List.mem_of_find?_eq_some ho)
      have ho2 := List.find?_some ho
      simp only [Bool.and_eq_true, Bool.not_eq_true', decide_eq_true_eq] at ho2
      refine ⟨⟨by rw [hlen]; exact d1, by rw [hnodes]; exact ho1.1⟩, by rw [hsym]; exact ho1.2.symm, ?_, .inr (hcf _ ho2.1.2)⟩
      rw [hpreds]; exact paCovers_sub ho2.2
  · intro e he t ht
    right
    have hlt : ∀ a ∈ t, a < s.nodes.length := fun a ha => by rw [← hlen]; exact ht.lt a ha
    have hsy : t.map s.sym = e.src := by rw [← h2.sym, ← hsym]; exact ht.syms
    by_cases hfree : ∀ a ∈ t, s1.isCovered a = false
    · have hms : s.Match e t := ⟨hlt, hsy, fun a ha => by rw [← h2.isCovered]; exact hfree a ha⟩
      rcases h.closed e he t hms with rfl | hh
      · exact .inr (.inl (hext.infeasible (fun a ha => by rw [hlen1]; exact hlt a ha) hinf))
      · rcases hh with hh | hh | ⟨b1, i, b2, b3, b4⟩
        · left
          refine g.sub _ ?_
          rw [r3, h2.queue]; exact hh
        · exact .inr (.inl ((h2.ext.trans hext).infeasible hlt hh))
        · exact .inr (.inr ⟨b1, i, b2, by omega, by rw [hinc, h2.incoming]; exact b4⟩)
    · left
      simp only [Classical.not_forall] at hfree
      obtain ⟨a, ha, hca⟩ := hfree
      have hca : s1.isCovered a = true := by simpa using hca
      have hfa := ht.free a ha
      -- the node was uncovered
      have hin : a ∈ r.2 := by
        unfold PaState.isCovered at hca hfa
        rw [hcov] at hfa
        simp only [List.any_eq_true, beq_iff_eq] at hca
        obtain ⟨c, hc1, rfl⟩ := hca
        rw [r5, List.mem_map]
        refine ⟨c, List.mem_filter.2 ⟨(hE.ordC _ _).2 hc1, ?_⟩, rfl⟩
        cases hrc : s1.recheck c with
        | none => rfl
        | some o =>
          exfalso
          simp only [List.any_eq_false, List.mem_filterMap, Option.map_eq_some_iff, beq_iff_eq] at hfa
          exact hfa (c.1, o) ⟨c, hc1, o, hrc, rfl⟩ rfl
      obtain ⟨_, n2⟩ := newEdgesAll_grow hE.graph r.2 r.1
      have hs3 : s3 = r.2.foldl E.newEdges r.1 := by
        have : E.refine info s = .done (r.2.foldl E.newEdges r.1) := by
          unfold PaEnv.refine
          rw [h1]
          simp only [hr2]
        rw [h4] at this
        exact Outcome.done.inj this
      rw [hs3]
      refine n2 ?_ a hin e he t (g.match.1 ht) ha
      intro x hx
      rw [r3] at hx
      obtain ⟨a1, a2, a3⟩ := h3.queue x hx
      exact ⟨a1, by rw [r1]; exact a2, by rw [rsym]; exact a3⟩

/-- An infeasible edge needs no further handling. -/
theorem PaSafe.skip {q : PaEdge T} (h : PaSafe E s (· = q)) (hi : s.Infeasible q) : PaSafe E s fun _ => False := by
  refine ⟨h.manVars, h.predVars, h.node, h.cover, fun e he t ht => ?_⟩
  rcases h.closed e he t ht with rfl | hh
  · exact .inr (.inr (.inl hi))
  · exact .inr hh

/-- One iteration keeps the invariant. -/
theorem pa_step_safe (hE : E.Ok) (hS : E.S.Correct) (hc : E.S.Complete) (hI : E.I.Sound) (hT : E.I.TreeItp) (w : Bool) (hb : PaBase E s)
    {q : PaEdge T} (hq : s.EdgeOk E.G q) (h : PaSafe E s (· = q)) (hs : E.step w s q = .done (.inr s')) : PaSafe E s' fun _ => False := by
  unfold PaEnv.step at hs
  by_cases hf : (!E.feasible s q) = true
  · rw [if_pos hf] at hs
    cases hs
    refine h.skip fun ρ hρ hh => ?_
    simp only [PaEnv.feasible, Bool.not_eq_true', decide_eq_false_iff_not, Classical.not_not] at hf
    refine hS.unsat _ hf ⟨ρ, fun f hf' => ?_⟩
    rcases List.mem_cons.1 hf' with rfl | hf'
    · exact hρ
    · exact hh f hf'
  rw [if_neg hf] at hs
  by_cases ht : q.edge.tgt = .fls
  · rw [if_pos ht] at hs
    obtain ⟨tree, h1, h2⟩ := paMake_ok hE.graph hb.struct hq ht
    unfold PaEnv.query at hs
    rw [h1] at hs
    simp only at hs
    cases hcI : E.I.check (paLabels E.R tree) with
    | sat => rw [hcI] at hs; simp at hs
    | unsat =>
      rw [hcI] at hs
      simp only at hs
      cases hr : E.refine (E.refinement tree) s with
      | done s'' =>
        rw [hr] at hs
        cases hs
        exact (h.refine hE hS hc hI hT hb hq h2 hcI hr).1
      | thrown => rw [hr] at hs; cases hs
      | outOfFuel => rw [hr] at hs; cases hs
    | unknown => rw [hcI] at hs; cases hs
    | error => rw [hcI] at hs; cases hs
  · rw [if_neg ht] at hs
    simp only [Outcome.done.injEq, Sum.inr.injEq] at hs
    exact h.insert hE hS hc hb hq ht rfl hs.symm

/-- The invariant holds at the start. -/
theorem pa_init_safe (hE : E.Ok) : PaSafe E E.init fun _ => False := by
  have key : ∀ (es : List (Edge T)) (s : PaState T), s.SameArg (es.foldl (fun s e => s.enqueue ⟨e, [0]⟩) s) ∧
      (∀ q ∈ s.queue, q ∈ (es.foldl (fun s e => s.enqueue ⟨e, [0]⟩) s).queue) ∧
      ∀ e ∈ es, (⟨e, [0]⟩ : PaEdge T) ∈ (es.foldl (fun s e => s.enqueue ⟨e, [0]⟩) s).queue := by
    intro es
    induction es with
    | nil => intro s; exact ⟨.refl s, fun _ h => h, by simp⟩
    | cons e es ih =>
      intro s
      obtain ⟨h1, h2, h3⟩ := ih (s.enqueue ⟨e, [0]⟩)
      refine ⟨(enqueue_same _).trans h1, fun q hq => h2 q (mem_enqueue.2 (.inr hq)), fun e' he' => ?_⟩
      rcases List.mem_cons.1 he' with rfl | he'
      · exact h2 _ (mem_enqueue.2 (.inl rfl))
      · exact h3 e' he'
  obtain ⟨h1, _, h3⟩ := key (E.G.outEdges .tru) ⟨fun _ => [], [⟨.tru, []⟩], [], [], []⟩
  have hn : E.init.nodes = [⟨.tru, []⟩] := h1.nodes
  have hp : ∀ i, E.init.preds i = [] := by
    intro i
    unfold PaState.preds
    rw [hn]
    match i with
    | 0 => rfl
    | i + 1 => rfl
  refine ⟨?_, ?_, ?_, ?_, ?_⟩
  · intro p f hf
    rw [show E.init.man p = [] from congrFun h1.man p] at hf
    simp at hf
  · intro i f hf
    rw [hp] at hf; simp at hf
  · intro i h0 hi
    rw [hn] at hi
    simp only [List.length_singleton] at hi
    omega
  · intro c hc
    rw [show E.init.covered = [] from h1.covered] at hc
    simp at hc
  · intro e he t ht
    right; left
    have h4 : ∀ a ∈ t, a = 0 := by
      intro a ha
      have := ht.lt a ha
      rw [hn] at this
      simp only [List.length_singleton] at this
      omega
    have h5 : t ≠ [] := by
      rintro rfl
      exact hE.graph.srcNe e he ht.syms.symm
    have h6 : E.init.sym 0 = .tru := by unfold PaState.sym; rw [hn]; rfl
    have h7 : .tru ∈ e.src := by
      rw [← ht.syms]
      obtain ⟨a, t', rfl⟩ := List.exists_cons_of_ne_nil h5
      have := h4 a List.mem_cons_self
      subst this
      exact List.mem_map.2 ⟨0, List.mem_cons_self, h6⟩
    have h8 : t = [0] := by
      have h9 := hE.graph.tru e he h7
      have h10 : t.length = 1 := by
        have := congrArg List.length ht.syms
        rw [List.length_map, h9] at this
        exact this
      match t, h10 with
      | [a], _ => rw [h4 a List.mem_cons_self]
    rw [h8]
    exact h3 e (mem_outEdges.2 ⟨he, h7⟩)

end Golem
