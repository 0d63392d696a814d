import Verif.Lemmas.ChainShape
import Verif.Lemmas.NodeElimSafe

/-! Contracting a chain: the summary edge is the composition of the chain. -/

namespace Golem
variable {T : Theory}

/-- The edges derive `g` from `f` one after the other. -/
def ChainFires (R : PRepr) : List (Edge T) → Fact T → Fact T → Prop
  | [], f, g => f = g
  | e :: es, f, g => ∃ h, e.Fires R [f] h ∧ ChainFires R es h g

theorem ChainFires.append {R : PRepr} {as bs : List (Edge T)} {f g : Fact T} :
    ChainFires R (as ++ bs) f g ↔ ∃ h, ChainFires R as f h ∧ ChainFires R bs h g := by
  induction as generalizing f with
  | nil => simp [ChainFires]
  | cons a as ih =>
    simp only [List.cons_append, ChainFires, ih]
    constructor
    · rintro ⟨h1, h2, h3, h4, h5⟩; exact ⟨h3, ⟨h1, h2, h4⟩, h5⟩
    · rintro ⟨h3, ⟨h1, h2, h4⟩, h5⟩; exact ⟨h1, h2, h3, h4, h5⟩

/-- The conjunction of the labels of a chain, with the target variables of inner vertices renamed. -/
def chainFla (R : PRepr) : List (Edge T) → Fla T
  | [] => .tt
  | [e] => e.fla
  | e :: e' :: es => .and (varSubstitute e.fla (tgtToSrc R e.tgt)) (chainFla R (e' :: es))

/-- A path through distinct vertices of a graph. -/
structure Links (G : Graph T) (u : Pred) (es : List (Edge T)) (w : Pred) : Prop where
  path : HPath u es w
  mem : ∀ e ∈ es, e ∈ G
  nodup : (u :: es.map Edge.tgt).Nodup
  ne : es ≠ []

theorem LinChain.links {G : Graph T} {es : List (Edge T)} {u w : Pred} (h : LinChain G es u w) : Links G u es w :=
  ⟨h.path, h.mem, h.nodup, by rintro rfl; have := h.len; simp at this⟩

theorem HPath.cons_inv {u w : Pred} {e : Edge T} {es : List (Edge T)} (h : HPath u (e :: es) w) : e.src = [u] ∧ HPath e.tgt es w := by
  cases h with
  | cons hs h => exact ⟨hs, h⟩

theorem Links.tail {G : Graph T} {u w : Pred} {e e' : Edge T} {es : List (Edge T)} (h : Links G u (e :: e' :: es) w) :
    Links G e.tgt (e' :: es) w :=
  ⟨h.path.cons_inv.2, fun x hx => h.mem x (List.mem_cons_of_mem _ hx), (List.nodup_cons.1 h.nodup).2, by simp⟩

theorem HPath.end_mem {u w : Pred} {es : List (Edge T)} (h : HPath u es w) (hne : es ≠ []) : w ∈ es.map Edge.tgt := by
  refine List.mem_map.2 ⟨es.getLast hne, List.getLast_mem _, ?_⟩
  exact h.last (List.getLast?_eq_some_getLast hne)

section
variable {R : PRepr} {st : GS T}

theorem own_one {u t : Pred} {x : Var} : x ∈ R.own [u] t ↔ x ∈ R.srcVars u 0 ∨ x ∈ R.tgtVars t := by
  rw [mem_own, instances_one]
  simp

theorem aux_not_src {G : Graph T} {x : Var} {p : Pred} {i : Nat} (ha : G.Aux R x) (hp : G.Vertex p) : x ∉ R.srcVars p i := by
  intro hx
  obtain ⟨m, hm, e⟩ := R.mem_srcVars.1 hx
  rcases ha with ⟨n, rfl, _⟩ | ⟨n, rfl, hn⟩
  · cases e
  · rw [Var.src.injEq] at e
    exact hn p hp (e.1 ▸ hm)

theorem aux_not_tgt {G : Graph T} {x : Var} {p : Pred} (ha : G.Aux R x) : x ∉ R.tgtVars p := by
  intro hx
  obtain ⟨m, hm, e⟩ := R.mem_tgtVars.1 hx
  rcases ha with ⟨n, rfl, _⟩ | ⟨n, rfl, hn⟩ <;> cases e

theorem Links.vertex {G : Graph T} {u w : Pred} {es : List (Edge T)} (h : Links G u es w) : ∀ v ∈ u :: es.map Edge.tgt, G.Vertex v := by
  intro v hv
  rcases List.mem_cons.1 hv with rfl | hv
  · cases es with
    | nil => exact absurd rfl h.ne
    | cons e es => exact vertex_src (h.mem e (by simp)) (by rw [h.path.cons_inv.1]; simp)
  · obtain ⟨e, he, rfl⟩ := List.mem_map.1 hv
    exact vertex_tgt (h.mem e he)

theorem chainFla_vars (hR : R.WF) (hst : st.Ok R) {es : List (Edge T)} : ∀ {u w : Pred}, Links st.edges u es w → ∀ {x : Var},
    x ∈ (chainFla R es).vars → (∃ e ∈ es, x ∈ e.fla.vars ∧ st.edges.Aux R x) ∨
      (∃ v ∈ u :: es.map Edge.tgt, x ∈ R.srcVars v 0) ∨ x ∈ R.tgtVars w := by
  induction es with
  | nil => intro u w h; exact absurd rfl h.ne
  | cons e es ih =>
    intro u w h x hx
    cases es with
    | nil =>
      simp only [chainFla] at hx
      have hp := h.path.cons_inv
      have hw : e.tgt = w := by cases hp.2; rfl
      rcases hst.label e (h.mem e (by simp)) x hx with ho | ho
      · rw [hp.1, hw, own_one] at ho
        rcases ho with ho | ho
        · exact .inr (.inl ⟨u, by simp, ho⟩)
        · exact .inr (.inr ho)
      · exact .inl ⟨e, by simp, hx, ho⟩
    | cons e' es =>
      have hp := h.path.cons_inv
      have := mergeConj_vars hR (inc := e) (out := ⟨[e.tgt], w, chainFla R (e' :: es), 0⟩) (x := x) hx
      rcases this with h1 | ⟨h1, h2⟩ | h1
      · exact .inr (.inl ⟨e.tgt, by simp, h1⟩)
      · rcases hst.label e (h.mem e (by simp)) x h1 with ho | ho
        · rw [hp.1, own_one] at ho
          exact .inr (.inl ⟨u, by simp, ho.resolve_right h2⟩)
        · exact .inl ⟨e, by simp, h1, ho⟩
      · rcases ih h.tail h1 with ⟨f, hf, h1⟩ | ⟨v, hv, h1⟩ | h1
        · exact .inl ⟨f, List.mem_cons_of_mem _ hf, h1⟩
        · exact .inr (.inl ⟨v, List.mem_cons_of_mem _ hv, h1⟩)
        · exact .inr (.inr h1)

/-- A chain with its tail seen as one edge meets the conditions for merging. -/
theorem chain_mergeOk (hR : R.WF) (hst : st.Ok R) {u w : Pred} {e e' : Edge T} {es : List (Edge T)}
    (h : Links st.edges u (e :: e' :: es) w) : MergeOk R u e ⟨[e.tgt], w, chainFla R (e' :: es), 0⟩ := by
  have hp := h.path.cons_inv
  have hnd := List.nodup_cons.1 h.nodup
  have hnd2 := List.nodup_cons.1 hnd.2
  have ht := h.tail
  have hwm : w ∈ (e' :: es).map Edge.tgt := hp.2.end_mem (by simp)
  have hwe : w ≠ e.tgt := fun hh => hnd2.1 (hh ▸ hwm)
  have hue : u ≠ e.tgt := fun hh => hnd.1 (by simp [hh])
  have hem := h.mem e (by simp)
  have hlab : ∀ x ∈ e.fla.vars, x ∉ R.tgtVars e.tgt → x ∈ R.srcVars u 0 ∨ st.edges.Aux R x := by
    intro x hx hxt
    rcases hst.label e hem x hx with ho | ho
    · rw [hp.1, own_one] at ho; exact .inl (ho.resolve_right hxt)
    · exact .inr ho
  have huv := h.vertex u (by simp)
  have hev := h.vertex e.tgt (by simp)
  have htail_u : ∀ x ∈ (chainFla R (e' :: es)).vars, x ∉ R.srcVars u 0 := by
    intro x hx hxu
    rcases chainFla_vars hR hst ht hx with ⟨f, hf, _, ha⟩ | ⟨v, hv, h1⟩ | h1
    · exact aux_not_src ha huv hxu
    · have : u ≠ v := by rintro rfl; exact hnd.1 hv
      exact R.srcVars_disjoint hR (by simpa using this) hxu h1
    · exact srcVars_not_tgt hxu h1
  refine ⟨hp.1, hue, by simp, by simpa using hue, by simp, ?_, ?_, htail_u, ?_⟩
  · intro x hx hxv
    have hxt : x ∉ R.tgtVars e.tgt := srcVars_not_tgt hxv
    rcases hlab x hx hxt with h1 | h1
    · exact R.srcVars_disjoint hR (by simpa using hue) h1 hxv
    · exact aux_not_src h1 hev hxv
  · intro x hx hxt
    rcases hlab x hx hxt with h1 | h1
    · refine ⟨fun h2 => htail_u x h2 h1, ?_⟩
      show x ∉ R.own [e.tgt] w
      rw [own_one]
      rintro (h2 | h2)
      · exact R.srcVars_disjoint hR (by simpa using hue) h1 h2
      · exact srcVars_not_tgt h1 h2
    · refine ⟨fun h2 => ?_, ?_⟩
      · rcases chainFla_vars hR hst ht h2 with ⟨f, hf, hxf, ha⟩ | ⟨v, hv, h2⟩ | h2
        · refine hst.sep e hem f (ht.mem f hf) ?_ x hx ha hxf
          rintro rfl
          exact hnd2.1 (List.mem_map_of_mem hf)
        · exact aux_not_src h1 (ht.vertex v hv) h2
        · exact aux_not_tgt h1 h2
      · show x ∉ R.own [e.tgt] w
        rw [own_one]
        rintro (h2 | h2)
        · exact aux_not_src h1 hev h2
        · exact aux_not_tgt h1 h2
  · intro _ x hx hxt
    rcases chainFla_vars hR hst ht hx with ⟨f, hf, hxf, ha⟩ | ⟨v, hv, h2⟩ | h2
    · exact aux_not_tgt ha hxt
    · exact srcVars_not_tgt h2 hxt
    · exact tgtVars_ne hR hwe h2 hxt

theorem chainFla_fires (hR : R.WF) (hst : st.Ok R) {es : List (Edge T)} : ∀ {u w : Pred}, Links st.edges u es w →
    ∀ {ρ : Valuation T}, (chainFla R es).holds ρ →
      ChainFires R es (u, (R.srcVars u 0).map ρ) (w, (R.tgtVars w).map ρ) := by
  induction es with
  | nil => intro u w h; exact absurd rfl h.ne
  | cons e es ih =>
    intro u w h ρ hρ
    have hp := h.path.cons_inv
    cases es with
    | nil =>
      have hw : e.tgt = w := by cases hp.2; rfl
      refine ⟨_, ⟨ρ, hρ, ?_, ?_⟩, rfl⟩
      · unfold Edge.srcFacts; rw [hp.1, instances_one]; rfl
      · unfold Edge.tgtFact; rw [hw]
    | cons e' es =>
      have hm := chain_mergeOk hR hst h
      obtain ⟨h1, _⟩ := mergeConj_split hR hm (ρ := ρ) hρ
      exact ⟨_, h1, ih h.tail hρ.2⟩

theorem fires_chainFla (hR : R.WF) (hst : st.Ok R) {es : List (Edge T)} : ∀ {u w : Pred}, Links st.edges u es w →
    ∀ {f g : Fact T}, ChainFires R es f g →
      ∃ ρ : Valuation T, (chainFla R es).holds ρ ∧ f = (u, (R.srcVars u 0).map ρ) ∧ g = (w, (R.tgtVars w).map ρ) := by
  induction es with
  | nil => intro u w h; exact absurd rfl h.ne
  | cons e es ih =>
    intro u w h f g hfg
    have hp := h.path.cons_inv
    obtain ⟨k, ⟨ρ1, hl, hb, hk⟩, hrest⟩ := hfg
    have hb' : f = (u, (R.srcVars u 0).map ρ1) := by
      unfold Edge.srcFacts at hb; rw [hp.1, instances_one] at hb; simpa using hb
    cases es with
    | nil =>
      have hw : e.tgt = w := by cases hp.2; rfl
      cases hrest
      refine ⟨ρ1, hl, hb', ?_⟩
      rw [hk]; unfold Edge.tgtFact; rw [hw]
    | cons e' es =>
      obtain ⟨ρ2, h2, hk2, hg⟩ := ih h.tail hrest
      have hm := chain_mergeOk hR hst h
      rw [hk] at hk2
      have hv : ∀ n ∈ R.args e.tgt, ρ1 (.tgt n) = ρ2 (.src n 0) := by
        have : (R.tgtVars e.tgt).map ρ1 = (R.srcVars e.tgt 0).map ρ2 := (Prod.mk.inj hk2).2
        simp only [PRepr.tgtVars, PRepr.srcVars, List.map_map] at this
        intro n hn
        exact List.map_inj_left.1 this n hn
      obtain ⟨ρ, h3, h4, h5⟩ := mergeConj_join hR hm hl h2 hv
      refine ⟨ρ, h3, ?_, ?_⟩
      · rw [hb']
        simp only [Prod.mk.injEq, true_and]
        exact List.map_congr_left fun x hx => (h4 x hx).symm
      · rw [hg]
        simp only [Prod.mk.injEq, true_and]
        refine List.map_congr_left fun x hx => (h5 x ?_).symm
        exact own_one.2 (.inr hx)

/-! ### The label -/

theorem chainSubst_nodup_skip {es : List (Edge T)} {x : Var} (hx : ∀ e ∈ es.dropLast, x ∉ R.tgtVars e.tgt) :
    SubstMap.fn (T := T) (chainSubst R es) x = .var x := by
  induction es with
  | nil => rfl
  | cons e es ih =>
    cases es with
    | nil => rfl
    | cons e' es =>
      simp only [chainSubst]
      rw [List.dropLast_cons_cons] at hx
      rw [tgtToSrc_skip (hx e (by simp))]
      exact ih fun f hf => hx f (List.mem_cons_of_mem _ hf)

/-- The substitution renames the label of each edge but the last as intended. -/
theorem chainSubst_eval (hR : R.WF) (hst : st.Ok R) {es : List (Edge T)} : ∀ {u w : Pred}, Links st.edges u es w →
    ∀ ρ : Valuation T, (varSubstitute (Fla.conj (es.map Edge.fla)) (chainSubst R es)).holds ρ ↔ (chainFla R es).holds ρ := by
  induction es with
  | nil => intro u w h; exact absurd rfl h.ne
  | cons e es ih =>
    intro u w h ρ
    have hp := h.path.cons_inv
    cases es with
    | nil =>
      rw [varSubstitute_holds]
      simp only [List.map_cons, List.map_nil, chainSubst, Fla.holds_conj, List.mem_singleton, forall_eq, fn_nil, chainFla]
      exact Iff.rfl
    | cons e' es =>
      have hnd := List.nodup_cons.1 h.nodup
      have hnd2 := List.nodup_cons.1 hnd.2
      have hih := ih h.tail ρ
      rw [varSubstitute_holds] at hih ⊢
      rw [Fla.holds_conj] at hih ⊢
      simp only [chainFla, Fla.holds_and, varSubstitute_holds, ← hih]
      rw [List.map_cons, List.forall_mem_cons]
      have hsk : ∀ f ∈ e :: e' :: es, ∀ x ∈ f.fla.vars, ∀ v, v ≠ f.tgt → x ∉ R.tgtVars v := fun f hf x hx v hv =>
        label_not_tgt hR hst (h.mem f hf) (Ne.symm hv) hx
      refine and_congr (Fla.holds_congr fun x hx => ?_) ⟨fun H f hf => ?_, fun H f hf => ?_⟩
      · by_cases hxt : x ∈ R.tgtVars e.tgt
        · obtain ⟨n, hn, rfl⟩ := R.mem_tgtVars.1 hxt
          simp only [chainSubst]
          rw [tgtToSrc_mem hR hn, (tgtToSrc_eval hR _ ρ).1 n hn]; rfl
        · rw [(tgtToSrc_eval hR _ ρ).2 x hxt, chainSubst_nodup_skip]
          · rfl
          · intro f hf
            rw [List.dropLast_cons_cons] at hf
            rcases List.mem_cons.1 hf with rfl | hf
            · exact hxt
            · refine hsk e (by simp) x hx _ ?_
              intro hh
              exact hnd2.1 (hh ▸ List.mem_map_of_mem (List.dropLast_subset _ hf))
      all_goals
        obtain ⟨f', hf', rfl⟩ := List.mem_map.1 hf
        have hne : f'.tgt ≠ e.tgt := fun hh => hnd2.1 (hh ▸ List.mem_map_of_mem hf')
        have hcong : ∀ x ∈ f'.fla.vars, (SubstMap.fn (chainSubst R (e :: e' :: es)) x).eval ρ =
            (SubstMap.fn (chainSubst R (e' :: es)) x).eval ρ := by
          intro x hx
          simp only [chainSubst]
          rw [tgtToSrc_skip (hsk f' (List.mem_cons_of_mem _ hf') x hx e.tgt (Ne.symm hne))]
      · exact (Fla.holds_congr hcong).1 (H _ hf)
      · exact (Fla.holds_congr hcong).2 (H _ hf)

end
end Golem
