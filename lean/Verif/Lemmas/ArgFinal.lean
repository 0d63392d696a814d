import Verif.Lemmas.ArgSafe
import Verif.Props.ConstraintSimplifier

/-! Predicate abstraction: the model of a safe system, and the clean-up of local variables. -/

namespace Golem
variable {T : Theory} {s s' : PaState T} {E : PaEnv T}

theorem pa_definitions_get (E : PaEnv T) (s : PaState T) (p : Pred) : (E.definitions s).get p =
    if p = .tru then some .tt else if p = .fls then some .ff else
    if p ∈ E.verts then some (Fla.disj ((s.instances p).map fun i => Fla.conj (s.preds i))) else none := by
  unfold PaEnv.definitions Defs.get
  simp only [List.cons_append, List.nil_append, List.lookup_cons]
  by_cases h1 : p = .tru
  · simp [h1]
  have b1 : (p == Pred.tru) = false := by simpa using h1
  rw [b1, if_neg h1]
  by_cases h2 : p = .fls
  · simp [h2]
  have b2 : (p == Pred.fls) = false := by simpa using h2
  rw [b2, if_neg h2]
  simp only
  generalize E.verts = l
  induction l with
  | nil => simp
  | cons a l ih =>
    rw [List.filter_cons]
    by_cases ha : a ≠ .tru ∧ a ≠ .fls
    · rw [if_pos (by simpa using ha), List.map_cons, List.lookup_cons]
      by_cases hp : p = a
      · subst hp; simp
      · have : (p == a) = false := by simpa using hp
        rw [this]
        simp only [ih, List.mem_cons, hp, false_or]
    · rw [if_neg (by simpa using ha), ih]
      have hp : p ≠ a := by
        rintro rfl
        exact ha ⟨h1, h2⟩
      simp only [List.mem_cons, hp, false_or]

/-- Every node is represented by an uncovered one. -/
theorem PaSafe.free {X : PaEdge T → Prop} (h : PaSafe E s X) : ∀ a, a < s.nodes.length → ∃ b, b < s.nodes.length ∧ s.sym b = s.sym a ∧
    (∀ f ∈ s.preds b, f ∈ s.preds a) ∧ s.isCovered b = false := by
  intro a
  induction a using Nat.strongRecOn with
  | ind a ih =>
    intro ha
    cases hc : s.isCovered a with
    | false => exact ⟨a, ha, rfl, fun _ h => h, hc⟩
    | true =>
      simp only [PaState.isCovered, List.any_eq_true, beq_iff_eq] at hc
      obtain ⟨c, hm, rfl⟩ := hc
      obtain ⟨⟨_, a2⟩, a3, a4, a5⟩ := h.cover c hm
      rcases a5 with a5 | a5
      · obtain ⟨b, b1, b2, b3, b4⟩ := ih c.2 a5 a2
        exact ⟨b, b1, b2.trans a3.symm, fun f hf => a4 f (b3 f hf), b4⟩
      · exact ⟨c.2, a2, a3.symm, a4, a5⟩

/-- An empty queue gives a model. -/
theorem pa_definitions_ok (hE : E.Ok) (hv : ∀ p, p ∈ E.verts ↔ E.G.Vertex p) (hb : PaBase E s) (h : PaSafe E s fun _ => False) (hq : s.queue = []) :
    SafeWitness E.R E.G (E.definitions s) := by
  have hcl : ∀ p d, (E.definitions s).get p = some d → ∀ x ∈ d.vars, x ∈ E.R.baseVars p := by
    intro p d hd x hx
    rw [pa_definitions_get] at hd
    split at hd
    · cases hd; simp [Fla.vars] at hx
    split at hd
    · cases hd; simp [Fla.vars] at hx
    split at hd
    · cases hd
      rw [Fla.mem_vars_disj] at hx
      obtain ⟨f, hf, hx⟩ := hx
      obtain ⟨i, hi, rfl⟩ := List.mem_map.1 hf
      rw [Fla.mem_vars_conj] at hx
      obtain ⟨g, hg, hx⟩ := hx
      have := h.predVars i g hg x hx
      rwa [(mem_insts.1 hi).2] at this
    · cases hd
  have htru : (E.definitions s).get .tru = some .tt := by rw [pa_definitions_get]; simp
  have hfls : (E.definitions s).get .fls = some .ff := by rw [pa_definitions_get]; simp
  refine ⟨⟨hcl, htru, hfls, ⟨⟨?_, ?_⟩, ?_⟩⟩, ?_, ?_⟩
  · refine ⟨.tt, htru, fun _ => T.vT, ?_, trivial⟩
    simp [trueFact, PRepr.baseVars, hE.graph.wf.tru]
  · intro r hr hbody
    rw [graphRules_iff] at hr
    obtain ⟨e, he, ρ, hρ, h1, h2⟩ := hr
    rw [h1] at hbody
    rw [h2]
    -- the nodes whose predicates hold
    have hex : ∀ q ∈ instances e.src, ∃ b, b < s.nodes.length ∧ s.sym b = q.1 ∧ s.isCovered b = false ∧
        ∀ f ∈ s.preds b, (f.rename (toSrc q.2)).holds ρ := by
      intro q hq'
      have hne : q.1 ≠ .fls := fun hh => (hE.graph.ends e he).2 (hh ▸ mem_of_mem_instances hq')
      have hM := hbody (q.1, (E.R.srcVars q.1 q.2).map ρ) (List.mem_map.2 ⟨q, hq', rfl⟩)
      have hsome : ∃ a, a < s.nodes.length ∧ s.sym a = q.1 ∧ ∀ f ∈ s.preds a, (f.rename (toSrc q.2)).holds ρ := by
        by_cases hqt : q.1 = .tru
        · refine ⟨0, hb.struct.pos, by rw [hb.struct.sym_zero, hqt], ?_⟩
          have : s.preds 0 = [] := by unfold PaState.preds; rw [hb.struct.root]; rfl
          rw [this]; simp
        · have hg : (E.definitions s).get q.1 = some (Fla.disj ((s.instances q.1).map fun i => Fla.conj (s.preds i))) := by
            rw [pa_definitions_get, if_neg hqt, if_neg hne, if_pos ((hv _).2 (vertex_src he (mem_of_mem_instances hq')))]
          have := (Defs.interp_src hg (hcl _ _ hg) ρ).1 hM
          rw [Fla.holds_rename, Fla.holds_disj] at this
          obtain ⟨f, hf, hh⟩ := this
          obtain ⟨i, hi, rfl⟩ := List.mem_map.1 hf
          rw [Fla.holds_conj] at hh
          obtain ⟨i1, i2⟩ := mem_insts.1 hi
          exact ⟨i, i1, i2, fun f hf => by rw [Fla.holds_rename]; exact hh f hf⟩
      obtain ⟨a, a1, a2, a3⟩ := hsome
      obtain ⟨b, b1, b2, b3, b4⟩ := h.free a a1
      exact ⟨b, b1, b2.trans a2, b4, fun f hf => a3 f (b3 f hf)⟩
    have hch : ∃ g : Pred × Nat → Nat, ∀ q ∈ instances e.src, g q < s.nodes.length ∧ s.sym (g q) = q.1 ∧ s.isCovered (g q) = false ∧
        ∀ f ∈ s.preds (g q), (f.rename (toSrc q.2)).holds ρ := by
      classical
      refine ⟨fun q => if hq : q ∈ instances e.src then (hex q hq).choose else 0, fun q hq' => ?_⟩
      simp only [dif_pos hq']
      exact (hex q hq').choose_spec
    obtain ⟨g, hg⟩ := hch
    have hsy : ((instances e.src).map g).map s.sym = e.src := by
      rw [List.map_map]
      conv => rhs; rw [← instances_fst e.src]
      exact List.map_congr_left fun q hq' => (hg q hq').2.1
    have hm : s.Match e ((instances e.src).map g) := by
      refine ⟨?_, hsy, ?_⟩
      · intro a ha
        obtain ⟨q, hq', rfl⟩ := List.mem_map.1 ha
        exact (hg q hq').1
      · intro a ha
        obtain ⟨q, hq', rfl⟩ := List.mem_map.1 ha
        exact (hg q hq').2.2.1
    have hall : AllHold ρ (s.srcStates ((instances e.src).map g)) := by
      rw [allHold_srcStates]
      intro j a q h3 h4 f hf
      rw [hsy] at h4
      rw [List.getElem?_map, h4] at h3
      cases h3
      exact (hg q (List.mem_of_getElem? h4)).2.2.2 f hf
    rcases (h.closed e he _ hm).resolve_left id with hh | hh | ⟨hne, i, i0, il, hi⟩
    · rw [hq] at hh; simp at hh
    · exact absurd hall (hh ρ hρ)
    · obtain ⟨e', he'⟩ := hb.struct.inc i i0 il
      have : (⟨(instances e.src).map g, i, e⟩ : ArgEdge T) ∈ s.incoming.filter fun e => e.target == i := List.mem_filter.2 ⟨hi, by simp⟩
      rw [he'.only, List.mem_singleton] at this
      subst this
      obtain ⟨n1, _⟩ := h.node i i0 il _ he'
      have hpr : ∀ f ∈ s.preds i, (f.rename toTgt).holds ρ := by
        intro f hf
        refine n1 f hf ρ fun x hx => ?_
        rcases List.mem_cons.1 hx with rfl | hx
        · exact hρ
        · exact hall x hx
      have hgt : (E.definitions s).get e.tgt = some (Fla.disj ((s.instances e.tgt).map fun i => Fla.conj (s.preds i))) := by
        rw [pa_definitions_get, if_neg (hE.graph.ends e he).1, if_neg hne, if_pos ((hv _).2 (vertex_tgt he))]
      refine (Defs.interp_tgt hgt (hcl _ _ hgt) ρ).2 ?_
      rw [Fla.holds_rename, Fla.holds_disj]
      refine ⟨_, List.mem_map.2 ⟨i, mem_insts.2 ⟨il, he'.tgt.symm⟩, rfl⟩, ?_⟩
      rw [Fla.holds_conj]
      intro f hf
      have := hpr f hf
      rwa [Fla.holds_rename] at this
  · rintro ⟨d, hd, ρ, _, hh⟩
    rw [show (falseFact : Fact T).1 = .fls from rfl, hfls] at hd
    cases hd
    exact hh
  · intro p hp
    rw [pa_definitions_get]
    split
    · rfl
    split
    · rfl
    rw [if_pos ((hv p).2 hp)]
    rfl
  · intro p hp
    rw [pa_definitions_get] at hp
    by_cases h1 : p = .tru
    · exact .inr (.inl h1)
    by_cases h2 : p = .fls
    · exact .inr (.inr h2)
    rw [if_neg h1, if_neg h2] at hp
    by_cases h3 : p ∈ E.verts
    · exact .inl ((hv p).1 h3)
    · rw [if_neg h3] at hp; simp at hp

/-! ### The clean-up -/

section
variable {R : PRepr} {Ex : ElimExcept T}

theorem mem_pauxPass {e' : Edge T} : ∀ {k : Nat} {G : Graph T}, e' ∈ pauxPass R Ex k G → ∃ e ∈ G, ∃ k', e' = (pauxEdge R Ex k' e).1 := by
  intro k G
  induction G generalizing k with
  | nil => simp [pauxPass]
  | cons a G ih =>
    intro h
    rw [pauxPass] at h
    rcases List.mem_cons.1 h with rfl | h
    · exact ⟨a, List.mem_cons_self, k, rfl⟩
    · obtain ⟨e, he, h⟩ := ih h
      exact ⟨e, List.mem_cons_of_mem _ he, h⟩

theorem pauxPass_mem {e : Edge T} : ∀ {k : Nat} {G : Graph T}, e ∈ G → ∃ k', (pauxEdge R Ex k' e).1 ∈ pauxPass R Ex k G := by
  intro k G
  induction G generalizing k with
  | nil => simp
  | cons a G ih =>
    intro h
    rw [pauxPass]
    rcases List.mem_cons.1 h with rfl | h
    · exact ⟨k, List.mem_cons_self⟩
    · obtain ⟨k', h⟩ := ih (k := (pauxEdge R Ex k a).2) h
      exact ⟨k', List.mem_cons_of_mem _ h⟩

/-- The local variables of an edge. -/
def pauxLocals (R : PRepr) (Ex : ElimExcept T) (e : Edge T) : List Var :=
  firstOcc ((Ex (R.tgtVars e.tgt ++ R.keys (instances e.src)) e.fla).vars.filter fun x => decide (x ∉ R.tgtVars e.tgt ++ R.keys (instances e.src)))

/-- Their renaming. -/
def pauxRen (R : PRepr) (Ex : ElimExcept T) (k : Nat) (e : Edge T) (x : Var) : Var :=
  (List.lookup x (((pauxLocals R Ex e).zipIdx k).map fun p => (p.1, Var.base (.paux p.2)))).getD x

theorem pauxEdge_fla (k : Nat) (e : Edge T) : (pauxEdge R Ex k e).1.fla =
    (Ex (R.tgtVars e.tgt ++ R.keys (instances e.src)) e.fla).rename (pauxRen R Ex k e) := by
  unfold pauxEdge varSubstitute Fla.rename
  simp only
  congr 1
  funext x
  unfold SubstMap.fn SubstMap.find
  have := lookup_map_var (T := T) (((pauxLocals R Ex e).zipIdx k).map fun p => (p.1, Var.base (.paux p.2))) x
  rw [List.map_map] at this
  show (List.lookup x (((pauxLocals R Ex e).zipIdx k).map fun p => (p.1, Tm.var (Var.base (.paux p.2))))).getD (Tm.var x) = _
  simp only [Function.comp_def] at this
  rw [this]
  unfold pauxRen
  cases List.lookup x (((pauxLocals R Ex e).zipIdx k).map fun p => (p.1, Var.base (.paux p.2))) <;> rfl

theorem mem_pred_vars {e : Edge T} {x : Var} : x ∈ R.tgtVars e.tgt ++ R.keys (instances e.src) ↔ x ∈ R.own e.src e.tgt := by
  unfold PRepr.own
  rw [List.mem_append, List.mem_append, or_comm]

theorem pauxRen_own {k : Nat} {e : Edge T} {x : Var} (hx : x ∈ R.own e.src e.tgt) : pauxRen R Ex k e x = x := by
  unfold pauxRen
  have : List.lookup x (((pauxLocals R Ex e).zipIdx k).map fun p => (p.1, Var.base (.paux p.2))) = none := by
    rw [lookup_none_iff, List.map_map]
    simp only [List.mem_map, Function.comp]
    rintro ⟨⟨y, j⟩, hy, rfl⟩
    have h1 := (List.mem_zipIdx hy).2.2
    have h2 : y ∈ pauxLocals R Ex e := by rw [h1]; exact List.getElem_mem _
    rw [pauxLocals, mem_firstOcc, List.mem_filter, decide_eq_true_eq, mem_pred_vars] at h2
    exact h2.2 hx
  rw [this]; rfl

theorem pauxRen_local {k : Nat} {e : Edge T} {j : Nat} {x : Var} (hx : (pauxLocals R Ex e)[j]? = some x) :
    pauxRen R Ex k e x = .base (.paux (k + j)) := by
  unfold pauxRen
  rw [lookup_of_nodup (b := Var.base (.paux (k + j)))]
  · rfl
  · rw [List.map_map]
    have : ((fun x => x.1) ∘ fun (p : Var × Nat) => (p.1, Var.base (.paux p.2))) = Prod.fst := rfl
    rw [show (Prod.fst ∘ fun (p : Var × Nat) => (p.1, Var.base (.paux p.2))) = Prod.fst from rfl, List.zipIdx_map_fst]
    exact firstOcc_nodup _
  · refine List.mem_map.2 ⟨(x, k + j), ?_, rfl⟩
    rw [List.mem_iff_getElem?]
    exact ⟨j, by rw [List.getElem?_zipIdx, hx]; rfl⟩

theorem pauxRen_cases {k : Nat} {e : Edge T} {x : Var} (hx : x ∈ (Ex (R.tgtVars e.tgt ++ R.keys (instances e.src)) e.fla).vars) :
    (x ∈ R.own e.src e.tgt ∧ pauxRen R Ex k e x = x) ∨ ∃ j, (pauxLocals R Ex e)[j]? = some x ∧ pauxRen R Ex k e x = .base (.paux (k + j)) := by
  by_cases ho : x ∈ R.own e.src e.tgt
  · exact .inl ⟨ho, pauxRen_own ho⟩
  · right
    have h2 : x ∈ pauxLocals R Ex e := by
      rw [pauxLocals, mem_firstOcc, List.mem_filter, decide_eq_true_eq, mem_pred_vars]
      exact ⟨hx, ho⟩
    obtain ⟨j, hj⟩ := List.getElem?_of_mem h2
    exact ⟨j, hj, pauxRen_local hj⟩

/-- The edge after the clean-up derives exactly what the edge derives. -/
theorem pauxEdge_fires (hEx : Ex.Exact) (k : Nat) (e : Edge T) (body : List (Fact T)) (head : Fact T) :
    (pauxEdge R Ex k e).1.Fires R body head ↔ e.Fires R body head := by
  have hfacts : ∀ ρ ρ' : Valuation T, (∀ x ∈ R.own e.src e.tgt, ρ' x = ρ x) →
      e.srcFacts R ρ' = e.srcFacts R ρ ∧ e.tgtFact R ρ' = e.tgtFact R ρ := by
    intro ρ ρ' h
    constructor
    · simp only [Edge.srcFacts]
      refine List.map_congr_left fun q hq => ?_
      simp only [Prod.mk.injEq, true_and]
      exact List.map_congr_left fun x hx => h x (mem_own.2 (.inl ⟨q, hq, hx⟩))
    · simp only [Edge.tgtFact, Prod.mk.injEq, true_and]
      exact List.map_congr_left fun x hx => h x (mem_own.2 (.inr hx))
  constructor
  · rintro ⟨ρ, h, h1, h2⟩
    rw [pauxEdge_fla, Fla.holds_rename] at h
    obtain ⟨ρ2, h3, h4⟩ := hEx.lift _ _ _ h
    obtain ⟨a, b⟩ := hfacts ρ ρ2 fun x hx => by
      rw [h3 x (mem_pred_vars.2 hx)]
      show ρ (pauxRen R Ex k e x) = ρ x
      rw [pauxRen_own hx]
    exact ⟨ρ2, h4, h1.trans a.symm, h2.trans b.symm⟩
  · rintro ⟨ρ, h, h1, h2⟩
    have h3 := hEx.weaker (R.tgtVars e.tgt ++ R.keys (instances e.src)) _ _ h
    obtain ⟨σ, hσ⟩ := exists_transport (T := T) (r := pauxRen R Ex k e)
      (L := R.own e.src e.tgt ++ (Ex (R.tgtVars e.tgt ++ R.keys (instances e.src)) e.fla).vars) (by
        intro x hx y hy hxy
        have cl : ∀ {x}, x ∈ R.own e.src e.tgt ++ (Ex (R.tgtVars e.tgt ++ R.keys (instances e.src)) e.fla).vars →
            (x ∈ R.own e.src e.tgt ∧ pauxRen R Ex k e x = x) ∨ ∃ j, (pauxLocals R Ex e)[j]? = some x ∧ pauxRen R Ex k e x = .base (.paux (k + j)) := by
          intro x hx
          rcases List.mem_append.1 hx with hx | hx
          · exact .inl ⟨hx, pauxRen_own hx⟩
          · exact pauxRen_cases hx
        rcases cl hx with ⟨a1, a2⟩ | ⟨j, a1, a2⟩ <;> rcases cl hy with ⟨b1, b2⟩ | ⟨j', b1, b2⟩
        · rw [a2, b2] at hxy; exact hxy
        · rw [a2, b2] at hxy; subst hxy; exact absurd a1 own_not_base
        · rw [a2, b2] at hxy; subst hxy; exact absurd b1 own_not_base
        · rw [a2, b2] at hxy
          simp only [Var.base.injEq, Name.paux.injEq] at hxy
          have : j = j' := by omega
          subst this
          rw [a1] at b1
          exact Option.some.inj b1) ρ
    obtain ⟨a, b⟩ := hfacts ρ σ fun x hx => by
      have := hσ x (List.mem_append_left _ hx)
      rwa [pauxRen_own hx] at this
    refine ⟨σ, ?_, h1.trans a.symm, h2.trans b.symm⟩
    rw [pauxEdge_fla, Fla.holds_rename]
    exact (Fla.holds_congr fun x hx => hσ x (List.mem_append_right _ hx)).2 h3

/-- The clean-up keeps the shape of a hypergraph in the invariant. -/
theorem pauxPass_graph (hR : R.WF) (hF : R.FreshNames) (hEx : Ex.Exact) {st : GS T} (hst : st.Inv R) (k : Nat) :
    PaGraph R (pauxPass R Ex k st.edges) where
  wf := hR
  fresh k := (hF k).2.2
  srcNe e he := by
    obtain ⟨e0, h0, k', rfl⟩ := mem_pauxPass he
    exact hst.ok.srcNe e0 h0
  tru e he htru := by
    obtain ⟨e0, h0, k', rfl⟩ := mem_pauxPass he
    have h1 := hst.ok.tru e0 h0
    have h2 := hst.ok.srcNe e0 h0
    change .tru ∈ e0.src at htru
    show e0.src = [.tru]
    match hs : e0.src, htru with
    | [a], htru => simp at htru; rw [htru]
    | a :: b :: l, htru => rw [hs] at h1; exact absurd htru (h1 (by simp))
  ends e he := by
    obtain ⟨e0, h0, k', rfl⟩ := mem_pauxPass he
    exact hst.ends e0 h0
  label e he x hx := by
    obtain ⟨e0, h0, k', rfl⟩ := mem_pauxPass he
    rw [pauxEdge_fla, Fla.mem_vars_rename] at hx
    obtain ⟨y, hy, rfl⟩ := hx
    rcases pauxRen_cases (k := k') hy with ⟨a1, a2⟩ | ⟨j, _, a2⟩
    · rw [a2]; exact .inl a1
    · rw [a2]; exact .inr ⟨_, rfl⟩
  ids := by
    have key : ∀ (G : Graph T) (k : Nat), (pauxPass R Ex k G).map Edge.id = G.map Edge.id := by
      intro G
      induction G with
      | nil => intro k; rfl
      | cons a G ih => intro k; rw [pauxPass, List.map_cons, ih]; rfl
    have hn : ((pauxPass R Ex k st.edges).map Edge.id).Nodup := by rw [key]; exact hst.ok.ids
    intro e he e' he' hid
    exact List.inj_on_of_nodup_map hn he he' hid

/-- The clean-up keeps the rules. -/
theorem pauxPass_rules (hEx : Ex.Exact) {G : Graph T} {k : Nat} (r : GRule T) : graphRules R (pauxPass R Ex k G) r ↔ graphRules R G r := by
  rw [graphRules_iff, graphRules_iff]
  constructor
  · rintro ⟨e', he', h⟩
    obtain ⟨e, he, k', rfl⟩ := mem_pauxPass he'
    exact ⟨e, he, (pauxEdge_fires hEx k' e _ _).1 h⟩
  · rintro ⟨e, he, h⟩
    obtain ⟨k', h1⟩ := pauxPass_mem (R := R) (Ex := Ex) (k := k) he
    exact ⟨_, h1, (pauxEdge_fires hEx k' e _ _).2 h⟩

theorem pauxPass_vertex {G : Graph T} {k : Nat} (p : Pred) : Graph.Vertex (pauxPass R Ex k G) p ↔ G.Vertex p := by
  constructor
  · rintro ⟨e', he', h⟩
    obtain ⟨e, he, k', rfl⟩ := mem_pauxPass he'
    exact ⟨e, he, h⟩
  · rintro ⟨e, he, h⟩
    obtain ⟨k', h1⟩ := pauxPass_mem (R := R) (Ex := Ex) (k := k) he
    exact ⟨_, h1, h⟩

theorem pauxPass_witness (hEx : Ex.Exact) {G : Graph T} {k : Nat} {ds : List (DStep T)} (h : UnsafeWitness R (pauxPass R Ex k G) ds) :
    UnsafeWitness R G ds := by
  refine ⟨h.first, h.last, fun i d hi hd => ?_⟩
  obtain ⟨hp, e', he', hid, hf⟩ := h.steps i d hi hd
  obtain ⟨e, he, k', rfl⟩ := mem_pauxPass he'
  exact ⟨hp, e, he, hid, (pauxEdge_fires hEx k' e _ _).1 hf⟩

theorem pauxPass_safe (hEx : Ex.Exact) {G : Graph T} {k : Nat} {D : Defs T} (h : SafeWitness R (pauxPass R Ex k G) D) : SafeWitness R G D := by
  refine ⟨⟨h.closed, h.tru, h.fls, ⟨⟨h.model.1.1, fun r hr => h.model.1.2 r ((pauxPass_rules hEx r).2 hr)⟩, h.model.2⟩⟩, ?_, ?_⟩
  · intro p hp; exact h.complete p ((pauxPass_vertex p).2 hp)
  · intro p hp
    rcases h.only p hp with h1 | h1
    · exact .inl ((pauxPass_vertex p).1 h1)
    · exact .inr h1

end

end Golem
