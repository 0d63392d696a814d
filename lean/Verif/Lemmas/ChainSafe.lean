import Verif.Lemmas.ChainStep

/-! The SAFE back-translation of the chain summarizer, one chain. -/

namespace Golem
variable {T : Theory}

/-- The label of an edge over source variables only. -/
def srcLabel (R : PRepr) (e : Edge T) : Fla T := varSubstitute e.fla (tgtToSrc R e.tgt)

theorem insertItps_spec {ps : List (Pred × Fla T)} : ∀ {D : Defs T}, (ps.map Prod.fst).Nodup → (∀ p ∈ ps.map Prod.fst, D.get p = none) →
    ∃ D', insertItps ps D = some D' ∧ (∀ p, p ∉ ps.map Prod.fst → D'.get p = D.get p) ∧
      ∀ p f, (p, f) ∈ ps → D'.get p = some (f.rename srcToBase) := by
  induction ps with
  | nil => intro D _ _; exact ⟨D, rfl, fun _ _ => rfl, by simp⟩
  | cons a ps ih =>
    intro D hn hu
    rw [List.map_cons, List.nodup_cons] at hn
    have ha := hu a.1 (by simp)
    obtain ⟨D', h1, h2, h3⟩ := ih (D := D.insertNew a.1 (a.2.rename srcToBase)) hn.2 (by
      intro p hp
      rw [get_insertNew_ne (by rintro rfl; exact hn.1 hp)]
      exact hu p (by simp only [List.map_cons, List.mem_cons]; exact .inr hp))
    refine ⟨D', ?_, ?_, ?_⟩
    · obtain ⟨v, f⟩ := a
      simp only [insertItps]
      simp only at ha
      rw [ha]
      exact h1
    · intro p hp
      simp only [List.map_cons, List.mem_cons, not_or] at hp
      rw [h2 p hp.2, get_insertNew_ne hp.1]
    · intro p f hp
      rcases List.mem_cons.1 hp with rfl | hp
      · rw [h2 p hn.1, Defs.get_insertNew]
        simp only at ha
        simp [ha]
      · exact h3 p f hp

section
variable {S : Smt T} {R : PRepr} {st : GS T} {G' : Graph T} {chain : List (Edge T)} {s : Edge T} {u w : Pred} {D : Defs T}
  {q : List (Fla T)}

theorem chainQuery_some (hM : ChainMerged R st.edges G' chain s u w) (hq : chainQuery R D (chain, s) = some q) :
    ∃ a b, D.get u = some a ∧ D.get w = some b ∧
      q = a.rename (toSrc 0) :: (chain.map (srcLabel R) ++ [.not (b.rename (toSrc 0))]) := by
  unfold chainQuery at hq
  rw [Option.bind_eq_some_iff] at hq
  obtain ⟨a, ha, hq⟩ := hq
  rw [Option.map_eq_some_iff] at hq
  obtain ⟨b, hb, rfl⟩ := hq
  rw [hM.src] at ha
  rw [hM.tgt] at hb
  exact ⟨a, b, ha, hb, rfl⟩

theorem srcLabel_vars (hR : R.WF) (hst : st.Ok R) (hl : LinChain st.edges chain u w) {i : Nat} {e : Edge T} (he : chain[i]? = some e)
    {x : Var} (hx : x ∈ (srcLabel R e).vars) : (∃ v, e.src = [v] ∧ x ∈ R.srcVars v 0) ∨ x ∈ R.srcVars e.tgt 0 ∨
      (x ∈ e.fla.vars ∧ st.edges.Aux R x) := by
  have hem := List.mem_of_getElem? he
  unfold srcLabel varSubstitute at hx
  obtain ⟨y, hy, hxy⟩ := Fla.mem_vars_subst.1 hx
  by_cases hyt : y ∈ R.tgtVars e.tgt
  · obtain ⟨n, hn, rfl⟩ := R.mem_tgtVars.1 hyt
    have := tgtToSrc_mem (T := T) hR hn []
    rw [List.append_nil] at this
    rw [this] at hxy
    simp only [Tm.vars, List.mem_singleton] at hxy
    exact .inr (.inl (R.mem_srcVars.2 ⟨n, hn, hxy⟩))
  · have := tgtToSrc_skip (T := T) hyt []
    rw [List.append_nil] at this
    rw [this, fn_nil] at hxy
    simp only [Tm.vars, List.mem_singleton] at hxy
    subst hxy
    rcases hst.label e (hl.mem e hem) x hy with ho | ho
    · obtain ⟨v, hv, _⟩ := hl.sources hem
      rw [hv, own_one] at ho
      exact .inl ⟨v, hv, ho.resolve_right hyt⟩
    · exact .inr (.inr ⟨hy, ho⟩)

/-- The vertices along the chain. -/
def stops (u : Pred) (chain : List (Edge T)) : List Pred := u :: chain.map Edge.tgt

theorem stops_src (hl : LinChain st.edges chain u w) {i : Nat} {e : Edge T} (he : chain[i]? = some e) {v : Pred} (hv : e.src = [v]) :
    (stops u chain)[i]? = some v := by
  rcases hl.path.sources he with ⟨rfl, hs⟩ | ⟨j, e', rfl, he', hs⟩
  · rw [hv] at hs; simp at hs; subst hs; rfl
  · rw [hv] at hs; simp at hs; subst hs
    simp [stops, he']

theorem stops_tgt {i : Nat} {e : Edge T} (he : chain[i]? = some e) : (stops u chain)[i + 1]? = some e.tgt := by
  simp [stops, he]

theorem stops_last (hl : LinChain st.edges chain u w) : (stops u chain)[chain.length]? = some w := by
  have hne := hl.links.ne
  have hpos := List.length_pos_iff.2 hne
  have h1 : chain[chain.length - 1]? = some (chain.getLast hne) := by
    rw [← List.getLast?_eq_getElem?, List.getLast?_eq_some_getLast hne]
  have := stops_tgt (u := u) h1
  rw [show chain.length - 1 + 1 = chain.length by omega] at this
  rw [this, hl.path.last (List.getLast?_eq_some_getLast hne)]

theorem stops_uniq (hR : R.WF) (hl : LinChain st.edges chain u w) {i j : Nat} {v v' : Pred} (hi : (stops u chain)[i]? = some v)
    (hj : (stops u chain)[j]? = some v') {x : Var} (hx : x ∈ R.srcVars v 0) (hx' : x ∈ R.srcVars v' 0) : i = j ∧ v = v' := by
  have hvv : v = v' := by
    apply Classical.byContradiction
    intro hne
    exact R.srcVars_disjoint hR (by simpa using hne) hx hx'
  subst hvv
  exact ⟨(List.getElem?_inj (List.getElem?_lt hi) hl.nodup).1 (hi.trans hj.symm), rfl⟩

/-- What the variables of the query's members are. -/
theorem query_vars (hR : R.WF) (hst : st.Ok R) (hl : LinChain st.edges chain u w) (hc : D.Closed R) {a b : Fla T}
    (ha : D.get u = some a) (hb : D.get w = some b)
    (hq : q = a.rename (toSrc 0) :: (chain.map (srcLabel R) ++ [.not (b.rename (toSrc 0))])) {j : Nat} {f : Fla T}
    (hf : q[j]? = some f) {x : Var} (hx : x ∈ f.vars) :
    (∃ k v, (k = j ∨ k + 1 = j) ∧ (stops u chain)[k]? = some v ∧ x ∈ R.srcVars v 0) ∨
      ∃ e, 1 ≤ j ∧ chain[j - 1]? = some e ∧ x ∈ e.fla.vars ∧ st.edges.Aux R x := by
  subst hq
  cases j with
  | zero =>
    simp at hf
    subst hf
    exact .inl ⟨0, u, .inl rfl, rfl, rename_src_vars hc ha hx⟩
  | succ j =>
    rw [List.getElem?_cons_succ] at hf
    by_cases hj : j < chain.length
    · rw [List.getElem?_append_left (by simpa using hj), List.getElem?_map, Option.map_eq_some_iff] at hf
      obtain ⟨e, he, rfl⟩ := hf
      rcases srcLabel_vars hR hst hl he hx with ⟨v, hv, h1⟩ | h1 | ⟨h1, h2⟩
      · exact .inl ⟨j, v, .inr rfl, stops_src hl he hv, h1⟩
      · exact .inl ⟨j + 1, e.tgt, .inl rfl, stops_tgt he, h1⟩
      · exact .inr ⟨e, by omega, by simpa using he, h1, h2⟩
    · rw [List.getElem?_append_right (by simpa using Nat.le_of_not_lt hj)] at hf
      simp only [List.length_map] at hf
      have hjl : j = chain.length := by
        have := List.getElem?_lt hf
        simp at this; omega
      subst hjl
      simp at hf
      subst hf
      simp only [Fla.vars] at hx
      exact .inl ⟨chain.length, w, .inr rfl, stops_last hl, rename_src_vars hc hb hx⟩

/-- The two sides of the `i`-th split share only the variables of the `i`-th vertex. -/
theorem query_shared (hR : R.WF) (hst : st.Ok R) (hl : LinChain st.edges chain u w) (hc : D.Closed R) {a b : Fla T}
    (ha : D.get u = some a) (hb : D.get w = some b)
    (hq : q = a.rename (toSrc 0) :: (chain.map (srcLabel R) ++ [.not (b.rename (toSrc 0))])) {i : Nat} {v : Pred}
    (hv : (stops u chain)[i]? = some v) {x : Var} (h1 : x ∈ (Fla.conj (q.take (i + 1))).vars)
    (h2 : x ∈ (Fla.conj (q.drop (i + 1))).vars) : x ∈ R.srcVars v 0 := by
  obtain ⟨f, hf, hxf⟩ := Fla.mem_vars_conj.1 h1
  obtain ⟨g, hg, hxg⟩ := Fla.mem_vars_conj.1 h2
  obtain ⟨j, hj, hjf⟩ := List.getElem_of_mem hf
  rw [List.length_take] at hj
  have hjf' : q[j]? = some f := by
    rw [← hjf, List.getElem_take]; exact List.getElem?_eq_getElem (by omega)
  obtain ⟨k, hk, hkg⟩ := List.getElem_of_mem hg
  have hkg' : q[i + 1 + k]? = some g := by
    rw [List.length_drop] at hk
    rw [← hkg, List.getElem_drop]; exact List.getElem?_eq_getElem (by omega)
  have hA := query_vars hR hst hl hc ha hb hq hjf' hxf
  have hB := query_vars hR hst hl hc ha hb hq hkg' hxg
  have hvert : ∀ k v, (stops u chain)[k]? = some v → st.edges.Vertex v := fun k v h => hl.links.vertex v (List.mem_of_getElem? h)
  rcases hA with ⟨k1, v1, hk1, hs1, hx1⟩ | ⟨e1, hj1, he1, hxe1, ha1⟩ <;>
    rcases hB with ⟨k2, v2, hk2, hs2, hx2⟩ | ⟨e2, hj2, he2, hxe2, ha2⟩
  · obtain ⟨rfl, rfl⟩ := stops_uniq hR hl hs1 hs2 hx1 hx2
    have : k1 = i := by omega
    subst this
    rw [hv] at hs1
    cases hs1
    exact hx1
  · exact absurd hx1 (aux_not_src ha2 (hvert k1 v1 hs1))
  · exact absurd hx2 (aux_not_src ha1 (hvert k2 v2 hs2))
  · exfalso
    have hne : e1 ≠ e2 := by
      rintro rfl
      have hnd : chain.Nodup := nodup_of_map (List.nodup_cons.1 hl.nodup).2
      have := (List.getElem?_inj (List.getElem?_lt he1) hnd).1 (he1.trans he2.symm)
      omega
    exact hst.sep e1 (hl.mem _ (List.mem_of_getElem? he1)) e2 (hl.mem _ (List.mem_of_getElem? he2)) hne x hxe1 ha1 hxe2

/-- The valuation in which the source variables of `v` have the values of its target variables. -/
def pullTgt (R : PRepr) (v : Pred) (ρ : Valuation T) : Valuation T
  | .src n 0 => if n ∈ R.args v then ρ (.tgt n) else ρ (.src n 0)
  | x => ρ x

theorem pullTgt_skip {v : Pred} {ρ : Valuation T} {x : Var} (hx : x ∉ R.srcVars v 0) : pullTgt R v ρ x = ρ x := by
  unfold pullTgt
  split
  · rename_i n
    rw [if_neg]
    intro h; exact hx (R.mem_srcVars.2 ⟨n, h, rfl⟩)
  · rfl

theorem pullTgt_src {v : Pred} {ρ : Valuation T} {n : Name} (hn : n ∈ R.args v) : pullTgt R v ρ (.src n 0) = ρ (.tgt n) := by
  simp [pullTgt, hn]

theorem pullTgt_map {v : Pred} {ρ : Valuation T} : (R.srcVars v 0).map (pullTgt R v ρ) = (R.tgtVars v).map ρ := by
  simp only [PRepr.srcVars, PRepr.tgtVars, List.map_map]
  apply List.map_congr_left
  intro n hn
  exact pullTgt_src hn

theorem srcLabel_pull (hR : R.WF) (hst : st.Ok R) (hl : LinChain st.edges chain u w) {e : Edge T} (he : e ∈ chain) {ρ : Valuation T}
    (h : e.fla.holds ρ) : (srcLabel R e).holds (pullTgt R e.tgt ρ) := by
  unfold srcLabel
  rw [varSubstitute_holds]
  refine (Fla.holds_congr fun x hx => ?_).1 h
  by_cases hxt : x ∈ R.tgtVars e.tgt
  · obtain ⟨n, hn, rfl⟩ := R.mem_tgtVars.1 hxt
    rw [(tgtToSrc_eval hR _ _).1 n hn, pullTgt_src hn]
  · rw [(tgtToSrc_eval hR _ _).2 x hxt, pullTgt_skip]
    intro hxs
    have hem := hl.mem e he
    rcases hst.label e hem x hx with ho | ho
    · obtain ⟨v, hv, _⟩ := hl.sources he
      rw [hv, own_one] at ho
      have ho := ho.resolve_right hxt
      obtain ⟨i, hi, hie⟩ := List.getElem_of_mem he
      have hie' : chain[i]? = some e := by rw [List.getElem?_eq_getElem hi, hie]
      have := (stops_uniq hR hl (stops_src hl hie' hv) (stops_tgt hie') ho hxs).1
      omega
    · exact aux_not_src ho (vertex_tgt hem) hxs

theorem interp_srcToBase {D' : Defs T} {p : Pred} {I : Fla T} (hI : ∀ x ∈ I.vars, x ∈ R.srcVars p 0)
    (h : D'.get p = some (I.rename srcToBase)) (ρ : Valuation T) : D'.interp R (p, (R.srcVars p 0).map ρ) ↔ I.holds ρ := by
  rw [Defs.interp_src h]
  · rw [Fla.holds_rename, Fla.holds_rename]
    refine Fla.holds_congr fun x hx => ?_
    obtain ⟨n, hn, rfl⟩ := R.mem_srcVars.1 (hI x hx)
    rfl
  · intro x hx
    obtain ⟨y, hy, rfl⟩ := Fla.mem_vars_rename.1 hx
    obtain ⟨n, hn, rfl⟩ := R.mem_srcVars.1 (hI y hy)
    exact R.mem_baseVars.2 ⟨n, hn, rfl⟩

/-- If the query is refuted, the interpolants define the inner vertices. -/
theorem chainStep_safe (hS : S.Sound) (hR : R.WF) (hst : st.Ok R) (hM : ChainMerged R st.edges G' chain s u w)
    (hends : .tru ∉ innerOf chain ∧ .fls ∉ innerOf chain) (hD : SafeModel R G' D)
    (hun : ∀ v ∈ innerOf chain, D.get v = none) (hq : chainQuery R D (chain, s) = some q) (hu : S.check q = .unsat) :
    ∃ D', insertItps (chainItps S chain q) D = some D' ∧ SafeModel R st.edges D' ∧
      (∀ p, p ∉ innerOf chain → D'.get p = D.get p) ∧ ∀ p ∈ innerOf chain, (D'.get p).isSome := by
  obtain ⟨a, b, ha, hb, hqe⟩ := chainQuery_some hM hq
  have hl := hM.lin
  have hlen := hl.len
  have hqlen : q.length = chain.length + 2 := by rw [hqe]; simp
  have hilen : (innerOf chain).length = chain.length - 1 := by simp [innerOf]
  have hplen : (S.pathItp q).tail.length = chain.length := by rw [List.length_tail, Smt.pathItp_length]; omega
  have hfst : (chainItps S chain q).map Prod.fst = innerOf chain := by
    show ((innerOf chain).zip (S.pathItp q).tail).map Prod.fst = _
    rw [List.map_fst_zip]
    omega
  have hndi : (innerOf chain).Nodup := by
    have := (List.nodup_cons.1 hl.nodup).2
    rw [hl.targets] at this
    exact (List.nodup_append.1 this).1
  obtain ⟨D', h1, h2, h3⟩ := insertItps_spec (ps := chainItps S chain q) (D := D) (by rw [hfst]; exact hndi)
    (by rw [hfst]; exact hun)
  rw [hfst] at h2
  -- the definition of the vertex after edge `i`
  have hget : ∀ (i : Nat) (e : Edge T), chain[i]? = some e → i + 1 < chain.length →
      D'.get e.tgt = some ((S.itp (q.take (i + 2)) (q.drop (i + 2))).rename srcToBase) := by
    intro i e he hi
    apply h3
    unfold chainItps
    apply List.mem_of_getElem? (i := i)
    rw [List.getElem?_zip_eq_some]
    refine ⟨?_, ?_⟩
    · rw [List.getElem?_map, List.dropLast_eq_take, List.getElem?_take, if_pos (by omega), he]; rfl
    · have hlt : i + 1 < (S.pathItp q).length := by rw [Smt.pathItp_length]; omega
      rw [List.getElem?_tail, List.getElem?_eq_getElem hlt, Smt.pathItp_get]
  have hvars : ∀ (i : Nat) (e : Edge T), chain[i]? = some e →
      ∀ x ∈ (S.itp (q.take (i + 2)) (q.drop (i + 2))).vars, x ∈ R.srcVars e.tgt 0 := by
    intro i e he x hx
    obtain ⟨ha', hb'⟩ := (hS.pathItp hu (i + 1)).shared x hx
    exact query_shared hR hst hl hD.closed ha hb hqe (stops_tgt he) ha' hb'
  have hint : ∀ f : Fact T, f.1 ∉ innerOf chain → (D'.interp R f ↔ D.interp R f) := fun f hf => interp_of_get (h2 _ hf)
  have hItp : ∀ (i : Nat) (e : Edge T), chain[i]? = some e → i + 1 < chain.length → ∀ ρ : Valuation T,
      D'.interp R (e.tgt, (R.srcVars e.tgt 0).map ρ) ↔ (S.itp (q.take (i + 2)) (q.drop (i + 2))).holds ρ :=
    fun i e he hi ρ => interp_srcToBase (hvars i e he) (hget i e he hi) ρ
  have hq0 : q[0]? = some (a.rename (toSrc 0)) := by rw [hqe]; rfl
  have hqi : ∀ (i : Nat) (e : Edge T), chain[i]? = some e → q[i + 1]? = some (srcLabel R e) := by
    intro i e he
    have hil := List.getElem?_lt he
    rw [hqe, List.getElem?_cons_succ, List.getElem?_append_left (by simpa using hil), List.getElem?_map, he]; rfl
  have hql : q[chain.length + 1]? = some (.not (b.rename (toSrc 0))) := by
    rw [hqe, List.getElem?_cons_succ, List.getElem?_append_right (by simp)]
    simp
  refine ⟨D', h1, ⟨?_, ?_, ?_, ⟨⟨?_, ?_⟩, ?_⟩⟩, h2, ?_⟩
  · intro p d hd
    by_cases hp : p ∈ innerOf chain
    · obtain ⟨i, e, hi, he, rfl⟩ := mem_innerOf.1 hp
      rw [hget i e he hi] at hd
      cases hd
      intro x hx
      obtain ⟨y, hy, rfl⟩ := Fla.mem_vars_rename.1 hx
      obtain ⟨n, hn, rfl⟩ := R.mem_srcVars.1 (hvars i e he y hy)
      exact R.mem_baseVars.2 ⟨n, hn, rfl⟩
    · rw [h2 p hp] at hd; exact hD.closed p d hd
  · rw [h2 _ hends.1]; exact hD.tru
  · rw [h2 _ hends.2]; exact hD.fls
  · exact (hint _ hends.1).2 hD.model.1.1
  · rintro r ⟨e, he, ρ, hlab, rfl⟩ hbody
    show D'.interp R (e.tgtFact R ρ)
    have hbody : ∀ f ∈ e.srcFacts R ρ, D'.interp R f := hbody
    by_cases hec : e ∈ chain
    · obtain ⟨i, hi, hie⟩ := List.getElem_of_mem hec
      have hie' : chain[i]? = some e := by rw [List.getElem?_eq_getElem hi, hie]
      obtain ⟨v, hv, hv'⟩ := hl.sources hec
      have hlab' := srcLabel_pull hR hst hl hec hlab
      have hbv := hbody (v, (R.srcVars v 0).map ρ) (by unfold Edge.srcFacts; rw [hv, instances_one]; simp)
      have hsame : (R.srcVars v 0).map ρ = (R.srcVars v 0).map (pullTgt R e.tgt ρ) := by
        apply List.map_congr_left
        intro x hx
        refine (pullTgt_skip fun hxt => ?_).symm
        have := (stops_uniq hR hl (stops_src hl hie' hv) (stops_tgt hie') hx hxt).1
        omega
      rw [hsame] at hbv
      have hgoal : e.tgtFact R ρ = (e.tgt, (R.srcVars e.tgt 0).map (pullTgt R e.tgt ρ)) := by
        rw [pullTgt_map]; rfl
      rw [hgoal]
      generalize pullTgt R e.tgt ρ = ρ' at hlab' hbv
      -- what holds before the edge
      have hstep : i + 1 < q.length := by omega
      have hpre : 0 < i → (S.itp (q.take (i + 1)) (q.drop (i + 1))).holds ρ' := by
        intro hi0
        rcases hl.path.sources hie' with ⟨rfl, _⟩ | ⟨j, e', rfl, he', hs⟩
        · omega
        · rw [hv] at hs
          simp at hs
          subst hs
          exact (hItp j e' he' hi ρ').1 hbv
      have hpre0 : i = 0 → (a.rename (toSrc 0)).holds ρ' := by
        rintro rfl
        have := hl.path.first hie'
        rw [hv] at this
        simp at this
        subst this
        rw [hint _ hl.ends.2.1] at hbv
        exact (Defs.interp_src ha (hD.closed _ _ ha) ρ').1 hbv
      by_cases hil : i + 1 < chain.length
      · rw [hItp i e hie' hil]
        rcases Nat.eq_zero_or_pos i with h0 | h0
        · subst h0
          refine (hS.pathItp hu 1).fromA ρ' ?_
          have : q.take 2 = [a.rename (toSrc 0), srcLabel R e] := by
            rw [hqe]
            cases hc : chain with
            | nil => rw [hc] at hlen; simp at hlen
            | cons c cs =>
              rw [hc] at hie'
              simp at hie'
              subst hie'
              simp
          rw [this]
          simp only [AllHold, List.mem_cons, List.not_mem_nil, or_false]
          rintro f (rfl | rfl)
          · exact hpre0 rfl
          · exact hlab'
        · refine hS.pathItp_step hu (i + 1) hstep ρ' (hpre h0) ?_
          have := hqi i e hie'
          rw [List.getElem?_eq_getElem hstep, Option.some.injEq] at this
          rw [this]; exact hlab'
      · -- the last edge
        have hil' : i + 1 = chain.length := by omega
        have hi0 : 0 < i := by omega
        have het : e.tgt = w := hl.path.last (by
          rw [List.getLast?_eq_getElem?, show chain.length - 1 = i by omega]; exact hie')
        rw [het, hint _ hl.ends.2.2, Defs.interp_src hb (hD.closed _ _ hb)]
        apply Classical.byContradiction
        intro hno
        refine (hS.pathItp hu i).refuteB ρ' (hpre hi0) ?_
        intro f hf
        obtain ⟨k, hk, hkf⟩ := List.getElem_of_mem hf
        have hkf' : q[i + 1 + k]? = some f := by
          rw [List.length_drop] at hk
          rw [← hkf, List.getElem_drop]; exact List.getElem?_eq_getElem (by omega)
        rw [List.length_drop] at hk
        have hk2 : k = 0 ∨ k = 1 := by omega
        rcases hk2 with rfl | rfl
        · have := hqi i e hie'
          rw [Nat.add_zero, this] at hkf'
          cases hkf'
          exact hlab'
        · rw [hil', hql] at hkf'
          cases hkf'
          exact hno
    · have he' : e ∈ G' := (hM.edges e).2 (.inl ⟨he, hec⟩)
      have htgt : e.tgt ∉ innerOf chain := fun h' => hec (hl.in_chain he h')
      refine (hint _ htgt).2 (hD.model.1.2 _ ⟨e, he', ρ, hlab, rfl⟩ fun f hf => ?_)
      refine (hint _ fun h' => hec (hl.out_chain he h' ?_)).1 (hbody f hf)
      rw [← srcFacts_fst R ρ e]
      exact List.mem_map_of_mem hf
  · intro h'
    exact hD.model.2 ((hint _ hends.2).1 h')
  · intro p hp
    obtain ⟨i, e, hi, he, rfl⟩ := mem_innerOf.1 hp
    rw [hget i e he hi]; rfl

/-- The query is refutable. -/
theorem chainStep_unsat (hR : R.WF) (hM : ChainMerged R st.edges G' chain s u w) (hD : SafeModel R G' D)
    (hq : chainQuery R D (chain, s) = some q) : ¬ SatList q := by
  rintro ⟨ρ, hρ⟩
  obtain ⟨a, b, ha, hb, hqe⟩ := chainQuery_some hM hq
  have hl := hM.lin
  rw [hqe, allHold_cons, allHold_append, allHold_cons] at hρ
  obtain ⟨h1, h2, h3, _⟩ := hρ
  have key : ∀ (es : List (Edge T)) (u w : Pred), HPath u es w → AllHold ρ (es.map (srcLabel R)) →
      ChainFires R es (u, (R.srcVars u 0).map ρ) (w, (R.srcVars w 0).map ρ) := by
    intro es
    induction es with
    | nil => intro u w h _; cases h; rfl
    | cons e es ih =>
      intro u w h hh
      rw [List.map_cons, allHold_cons] at hh
      refine ⟨(e.tgt, (R.srcVars e.tgt 0).map ρ), ?_, ih _ _ h.cons_inv.2 hh.2⟩
      have hlab := hh.1
      unfold srcLabel at hlab
      rw [varSubstitute_holds] at hlab
      refine ⟨_, hlab, ?_, ?_⟩
      · unfold Edge.srcFacts
        rw [h.cons_inv.1, instances_one]
        simp only [List.map_cons, List.map_nil, List.cons.injEq, Prod.mk.injEq, true_and, and_true]
        apply List.map_congr_left
        intro x hx
        exact ((tgtToSrc_eval hR _ ρ).2 x (srcVars_not_tgt hx)).symm
      · unfold Edge.tgtFact
        simp only [Prod.mk.injEq, true_and, PRepr.srcVars, PRepr.tgtVars, List.map_map]
        apply List.map_congr_left
        intro n hn
        exact ((tgtToSrc_eval hR _ ρ).1 n hn).symm
  have hfire := (hM.fires _ _).2 (key chain u w hl.path h2)
  apply h3
  rw [← Defs.interp_src hb (hD.closed _ _ hb)]
  refine hD.model.1.2 ⟨_, _⟩ (hfire.rule ((hM.edges s).2 (.inr rfl))) ?_
  intro f hf
  simp only [List.mem_singleton] at hf
  subst hf
  exact (Defs.interp_src ha (hD.closed _ _ ha) ρ).2 h1

end
end Golem
