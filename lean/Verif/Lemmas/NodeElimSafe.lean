import Verif.Lemmas.NodeElim
import Verif.Props.Unreachable

/-! The SAFE back-translation of node elimination. -/

namespace Golem
variable {T : Theory}

theorem instances_zero {v : Pred} {srcs : List Pred} (h : v ∈ srcs) : (v, 0) ∈ instances srcs := by
  have key : ∀ (srcs seen : List Pred), v ∈ srcs → v ∉ seen → (v, 0) ∈ instancesAux seen srcs := by
    intro srcs
    induction srcs with
    | nil => intro _ h; simp at h
    | cons p srcs ih =>
      intro seen hm hs
      simp only [instancesAux, List.mem_cons]
      by_cases hp : p = v
      · left; subst hp; rw [List.count_eq_zero.2 hs]
      · right
        refine ih (p :: seen) ?_ (by simp [hs, Ne.symm hp])
        rcases List.mem_cons.1 hm with h | h
        · exact absurd h.symm hp
        · exact h
  exact key srcs [] h (by simp)

theorem mapM_allHold {α : Type} {f : α → Option (Fla T)} {l : List α} {fs : List (Fla T)} (h : l.mapM f = some fs)
    {P : α → Prop} {ρ : Valuation T} (hf : ∀ a ∈ l, ∀ g, f a = some g → (g.holds ρ ↔ P a)) :
    AllHold ρ fs ↔ ∀ a ∈ l, P a := by
  induction l generalizing fs with
  | nil => simp at h; subst h; simp [AllHold]
  | cons a l ih =>
    simp only [List.mapM_cons, Option.pure_def, Option.bind_eq_bind, Option.bind_eq_some_iff, Option.some.injEq] at h
    obtain ⟨g, hg, gs, hgs, rfl⟩ := h
    rw [allHold_cons, ih hgs (fun a ha => hf a (by simp [ha])), hf a (by simp) g hg]
    simp

theorem mapM_exists {α : Type} {f : α → Option (Fla T)} {l : List α} {fs : List (Fla T)} (h : l.mapM f = some fs) :
    (∀ a ∈ l, ∃ g ∈ fs, f a = some g) ∧ ∀ g ∈ fs, ∃ a ∈ l, f a = some g := by
  induction l generalizing fs with
  | nil => simp at h; subst h; simp
  | cons a l ih =>
    simp only [List.mapM_cons, Option.pure_def, Option.bind_eq_bind, Option.bind_eq_some_iff, Option.some.injEq] at h
    obtain ⟨g, hg, gs, hgs, rfl⟩ := h
    obtain ⟨i1, i2⟩ := ih hgs
    constructor
    · intro b hb
      rcases List.mem_cons.1 hb with rfl | hb
      · exact ⟨g, by simp, hg⟩
      · obtain ⟨g', h1, h2⟩ := i1 b hb; exact ⟨g', by simp [h1], h2⟩
    · intro g' hg'
      rcases List.mem_cons.1 hg' with rfl | hg'
      · exact ⟨a, by simp, hg⟩
      · obtain ⟨b, h1, h2⟩ := i2 g' hg'; exact ⟨b, by simp [h1], h2⟩

def Defs.Closed (R : PRepr) (D : Defs T) : Prop := ∀ p d, D.get p = some d → ∀ x ∈ d.vars, x ∈ R.baseVars p

theorem rename_src_vars {R : PRepr} {D : Defs T} (hc : D.Closed R) {p : Pred} {d : Fla T} (hd : D.get p = some d) {i : Nat}
    {x : Var} (hx : x ∈ (d.rename (toSrc i)).vars) : x ∈ R.srcVars p i := by
  obtain ⟨y, hy, rfl⟩ := Fla.mem_vars_rename.1 hx
  obtain ⟨n, hn, rfl⟩ := R.mem_baseVars.1 (hc p d hd y hy)
  exact R.mem_srcVars.2 ⟨n, hn, rfl⟩

theorem rename_tgt_vars {R : PRepr} {D : Defs T} (hc : D.Closed R) {p : Pred} {d : Fla T} (hd : D.get p = some d)
    {x : Var} (hx : x ∈ (d.rename toTgt).vars) : x ∈ R.tgtVars p := by
  obtain ⟨y, hy, rfl⟩ := Fla.mem_vars_rename.1 hx
  obtain ⟨n, hn, rfl⟩ := R.mem_baseVars.1 (hc p d hd y hy)
  exact R.mem_tgtVars.2 ⟨n, hn, rfl⟩

theorem incomingFla_some {R : PRepr} {D : Defs T} (hc : D.Closed R) {e : Edge T} {f : Fla T}
    (h : incomingFla D e = some f) : ∃ u, e.src = [u] ∧ (D.get u).isSome ∧
      (∀ ρ : Valuation T, f.holds ρ ↔ D.interp R (u, (R.srcVars u 0).map ρ) ∧ e.fla.holds ρ) ∧
      ∀ x ∈ f.vars, x ∈ R.srcVars u 0 ∨ x ∈ e.fla.vars := by
  unfold incomingFla at h
  split at h
  · rename_i u hu
    rw [Option.map_eq_some_iff] at h
    obtain ⟨d, hd, rfl⟩ := h
    refine ⟨u, hu, by rw [hd]; rfl, fun ρ => ?_, fun x hx => ?_⟩
    · rw [Fla.holds_and, Defs.interp_src hd (hc u d hd) ρ]
    · simp only [Fla.vars, List.mem_append] at hx
      exact hx.imp_left (rename_src_vars hc hd)
  · simp at h

theorem outgoingFla_some {R : PRepr} {D : Defs T} (hc : D.Closed R) {v : Pred} {e : Edge T} (hv : v ∈ e.src) {f : Fla T}
    (h : outgoingFla D v e = some f) : (D.get e.tgt).isSome ∧ (∀ p ∈ e.src, p ≠ v → (D.get p).isSome) ∧
      (∀ ρ : Valuation T, f.holds ρ ↔ e.fla.holds ρ ∧ ¬ D.interp R (e.tgtFact R ρ) ∧
        ∀ g ∈ e.srcFacts R ρ, g.1 ≠ v → D.interp R g) ∧
      ∀ x ∈ f.vars, x ∈ e.fla.vars ∨ x ∈ R.own e.src e.tgt := by
  unfold outgoingFla at h
  simp only [Option.bind_eq_some_iff, Option.map_eq_some_iff] at h
  obtain ⟨d, hd, rest, hrest, rfl⟩ := h
  unfold otherSources at hrest
  have key : (∀ p ∈ e.src, p ≠ v → (D.get p).isSome) ∧ (∀ ρ : Valuation T, AllHold ρ rest ↔
      ∀ g ∈ e.srcFacts R ρ, g.1 ≠ v → D.interp R g) ∧ ∀ g ∈ rest, ∀ x ∈ g.vars, x ∈ R.own e.src e.tgt := by
    split at hrest
    · split at hrest
      · have hmm : ∀ q : Pred × Nat, q ∈ instances (e.src.filter fun p => decide (p ≠ v)) ↔ q ∈ instances e.src ∧ q.1 ≠ v := by
          intro q
          rw [instances_filter]; simp
        refine ⟨?_, ?_, ?_⟩
        · intro p hp hpv
          have : (p, 0) ∈ instances (e.src.filter fun p => decide (p ≠ v)) := (hmm _).2 ⟨instances_zero hp, hpv⟩
          obtain ⟨g, _, hg⟩ := (mapM_exists hrest).1 _ this
          rw [Option.map_eq_some_iff] at hg
          obtain ⟨d, hd, _⟩ := hg
          simp only at hd
          rw [hd]; rfl
        · intro ρ
          rw [mapM_allHold (P := fun q : Pred × Nat => D.interp R (q.1, (R.srcVars q.1 q.2).map ρ)) hrest]
          · constructor
            · intro h g hg hgv
              obtain ⟨q, hq, rfl⟩ := List.mem_map.1 hg
              exact h q ((hmm q).2 ⟨hq, hgv⟩)
            · intro h q hq
              obtain ⟨h1, h2⟩ := (hmm q).1 hq
              exact h _ (List.mem_map.2 ⟨q, h1, rfl⟩) h2
          · intro q _ g hg
            rw [Option.map_eq_some_iff] at hg
            obtain ⟨d, hd, rfl⟩ := hg
            exact (Defs.interp_src hd (hc _ d hd) ρ).symm
        · intro g hg x hx
          obtain ⟨q, hq, hgq⟩ := (mapM_exists hrest).2 g hg
          rw [Option.map_eq_some_iff] at hgq
          obtain ⟨d, hd, rfl⟩ := hgq
          exact mem_own.2 (.inl ⟨q, ((hmm q).1 hq).1, rename_src_vars hc hd hx⟩)
      · simp at hrest
    · rename_i hlen
      simp only [Option.some.injEq] at hrest
      subst hrest
      have hs : e.src = [v] := by
        match hs : e.src with
        | [] => rw [hs] at hv; simp at hv
        | [u] => rw [hs] at hv; simp at hv; rw [hv]
        | a :: b :: l => rw [hs] at hlen; simp at hlen
      refine ⟨fun p hp hpv => ?_, fun ρ => ?_, by simp⟩
      · rw [hs] at hp; simp at hp; exact absurd hp hpv
      · simp only [allHold_nil, true_iff]
        intro g hg hgv
        have : g.1 ∈ e.src := by rw [← srcFacts_fst R ρ e]; exact List.mem_map_of_mem hg
        rw [hs] at this; simp at this; exact absurd this hgv
  refine ⟨by rw [hd]; rfl, key.1, fun ρ => ?_, fun x hx => ?_⟩
  · rw [holds_conj_iff, allHold_append, key.2.1 ρ, allHold_cons, allHold_cons, Fla.holds_not]
    have := Defs.interp_tgt hd (hc _ d hd) ρ
    unfold Edge.tgtFact
    rw [this]
    simp only [allHold_nil, and_true, and_assoc]
  · obtain ⟨g, hg, hx⟩ := Fla.mem_vars_conj.1 hx
    simp only [List.cons_append, List.nil_append, List.mem_cons] at hg
    rcases hg with rfl | rfl | hg
    · exact .inl hx
    · exact .inr (mem_own.2 (.inr (rename_tgt_vars hc hd hx)))
    · exact .inr (key.2.2 g hg x hx)

theorem srcToTgt_mem {R : PRepr} (hR : R.WF) {v : Pred} {n : Name} (hn : n ∈ R.args v) :
    SubstMap.fn (T := T) (srcToTgt R v) (.src n 0) = .var (.tgt n) := by
  have := map_fn_zip (T := T) (R.args v) (fun n => Var.src n ((0 : Nat) : Int)) Var.tgt (R.srcVars_nodup hR v 0) hn []
  rw [List.append_nil] at this
  exact this

theorem srcToTgt_skip {R : PRepr} {v : Pred} {x : Var} (hx : x ∉ R.srcVars v 0) :
    SubstMap.fn (T := T) (srcToTgt R v) x = .var x := by
  have := fn_zip_skip (T := T) (R.args v) (fun n => Var.src n ((0 : Nat) : Int)) (fun n => Tm.var (.tgt n)) (x := x) (by
    rintro n hn rfl; exact hx (R.mem_srcVars.2 ⟨n, hn, rfl⟩)) []
  rw [List.append_nil] at this
  exact this

/-- The valuation seen through the substitution of source variables by target variables. -/
def seeTgt (R : PRepr) (v : Pred) (ρ : Valuation T) : Valuation T := fun x => ((srcToTgt R v).fn x).eval ρ

theorem seeTgt_src {R : PRepr} (hR : R.WF) {v : Pred} {n : Name} (hn : n ∈ R.args v) (ρ : Valuation T) :
    seeTgt R v ρ (.src n 0) = ρ (.tgt n) := by
  unfold seeTgt; rw [srcToTgt_mem hR hn]; rfl

theorem seeTgt_skip {R : PRepr} {v : Pred} {x : Var} (hx : x ∉ R.srcVars v 0) (ρ : Valuation T) :
    seeTgt R v ρ x = ρ x := by
  unfold seeTgt; rw [srcToTgt_skip hx]; rfl

/-- Target variables of `v` copied from its source variables. -/
def copySrc (R : PRepr) (v : Pred) (ρ : Valuation T) : Valuation T
  | .tgt n => if n ∈ R.args v then ρ (.src n 0) else ρ (.tgt n)
  | x => ρ x

theorem copySrc_skip {R : PRepr} {v : Pred} {ρ : Valuation T} {x : Var} (hx : x ∉ R.tgtVars v) : copySrc R v ρ x = ρ x := by
  cases x with
  | tgt n =>
    simp only [copySrc]
    rw [if_neg]
    intro h; exact hx (R.mem_tgtVars.2 ⟨n, h, rfl⟩)
  | _ => rfl

theorem see_copy {R : PRepr} (hR : R.WF) {v : Pred} {ρ : Valuation T} {x : Var} (hx : x ∉ R.tgtVars v) :
    seeTgt R v (copySrc R v ρ) x = ρ x := by
  by_cases hs : x ∈ R.srcVars v 0
  · obtain ⟨n, hn, rfl⟩ := R.mem_srcVars.1 hs
    have := seeTgt_src hR hn (copySrc R v ρ)
    refine this.trans ?_
    simp [copySrc, hn]
  · rw [seeTgt_skip hs, copySrc_skip hx]

/-- No edge that does not lead to `v` mentions the target variables of `v`. -/
theorem label_not_tgt {R : PRepr} (hR : R.WF) {st : GS T} (hst : st.Ok R) {e : Edge T} (he : e ∈ st.edges) {v : Pred}
    (ht : e.tgt ≠ v) {x : Var} (hx : x ∈ e.fla.vars) : x ∉ R.tgtVars v := by
  intro hv
  obtain ⟨n, hn, rfl⟩ := R.mem_tgtVars.1 hv
  rcases hst.label e he _ hx with ho | ho
  · rcases mem_own.1 ho with ⟨q, _, ho⟩ | ho
    · obtain ⟨_, _, e'⟩ := R.mem_srcVars.1 ho; cases e'
    · obtain ⟨m, hm, e'⟩ := R.mem_tgtVars.1 ho
      cases e'
      exact hR.disjoint _ _ ht n hm hn
  · rcases ho with ⟨_, e', _⟩ | ⟨_, e', _⟩ <;> cases e'

theorem srcVars_not_tgt {R : PRepr} {p v : Pred} {i : Nat} {x : Var} (hx : x ∈ R.srcVars p i) : x ∉ R.tgtVars v := by
  intro h
  obtain ⟨_, _, rfl⟩ := R.mem_tgtVars.1 h
  obtain ⟨_, _, e⟩ := R.mem_srcVars.1 hx; cases e

theorem tgtVars_ne {R : PRepr} (hR : R.WF) {p v : Pred} (h : p ≠ v) {x : Var} (hx : x ∈ R.tgtVars p) : x ∉ R.tgtVars v := by
  intro h'
  obtain ⟨n, hn, rfl⟩ := R.mem_tgtVars.1 hx
  obtain ⟨m, hm, e⟩ := R.mem_tgtVars.1 h'
  cases e
  exact hR.disjoint _ _ h n hn hm

/-- What a query consists of. -/
theorem elimQuery_some {R : PRepr} {D : Defs T} {v : Pred} {c : Contraction T} {a b : Fla T}
    (h : elimQuery R D v c = some (a, b)) : ∃ is os, c.incoming.mapM (incomingFla D) = some is ∧
      c.outgoing.mapM (outgoingFla D v) = some os ∧ a = Fla.disj is ∧ b = varSubstitute (Fla.disj os) (srcToTgt R v) := by
  unfold elimQuery at h
  simp only [Option.bind_eq_bind, Option.bind_eq_some_iff, Option.pure_def, Option.some.injEq, Prod.mk.injEq] at h
  obtain ⟨is, hi, os, ho, rfl, rfl⟩ := h
  exact ⟨is, os, hi, ho, rfl, rfl⟩

section step
variable {S : Smt T} {R : PRepr} {st st1 : GS T} {v : Pred} {c : Contraction T} {D : Defs T} {a b : Fla T}

theorem elimQuery_in (hC : Contracted R st.edges v st1.edges c) (hc : D.Closed R) (hq : elimQuery R D v c = some (a, b))
    (ρ : Valuation T) : a.holds ρ ↔ ∃ e ∈ st.edges.inEdges v, ∃ u, e.src = [u] ∧ D.interp R (u, (R.srcVars u 0).map ρ) ∧
      e.fla.holds ρ := by
  obtain ⟨is, os, hi, ho, rfl, rfl⟩ := elimQuery_some hq
  rw [hC.inc] at hi
  rw [Fla.holds_disj]
  constructor
  · rintro ⟨g, hg, hh⟩
    obtain ⟨e, he, hge⟩ := (mapM_exists hi).2 g hg
    obtain ⟨u, h1, _, h2, _⟩ := incomingFla_some hc hge
    exact ⟨e, he, u, h1, (h2 ρ).1 hh⟩
  · rintro ⟨e, he, u, h1, hh⟩
    obtain ⟨g, hg, hge⟩ := (mapM_exists hi).1 e he
    obtain ⟨u', h1', _, h2, _⟩ := incomingFla_some hc hge
    rw [h1] at h1'
    simp at h1'
    subst h1'
    exact ⟨g, hg, (h2 ρ).2 hh⟩

theorem elimQuery_out (hC : Contracted R st.edges v st1.edges c) (hc : D.Closed R) (hq : elimQuery R D v c = some (a, b))
    (ρ : Valuation T) : b.holds ρ ↔ ∃ e ∈ st.edges.outEdges v, e.fla.holds (seeTgt R v ρ) ∧
      ¬ D.interp R (e.tgtFact R (seeTgt R v ρ)) ∧ ∀ g ∈ e.srcFacts R (seeTgt R v ρ), g.1 ≠ v → D.interp R g := by
  obtain ⟨is, os, hi, ho, rfl, rfl⟩ := elimQuery_some hq
  rw [hC.out] at ho
  rw [varSubstitute_holds]
  show (Fla.disj os).holds (seeTgt R v ρ) ↔ _
  rw [Fla.holds_disj]
  constructor
  · rintro ⟨g, hg, hh⟩
    obtain ⟨e, he, hge⟩ := (mapM_exists ho).2 g hg
    obtain ⟨_, _, h2, _⟩ := outgoingFla_some hc (mem_outEdges.1 he).2 hge
    exact ⟨e, he, (h2 _).1 hh⟩
  · rintro ⟨e, he, hh⟩
    obtain ⟨g, hg, hge⟩ := (mapM_exists ho).1 e he
    obtain ⟨_, _, h2, _⟩ := outgoingFla_some hc (mem_outEdges.1 he).2 hge
    exact ⟨g, hg, (h2 _).2 hh⟩

/-- The two partitions share only the target variables of the removed vertex. -/
theorem elimQuery_shared (hR : R.WF) (hst : st.Ok R) (hok : ContractOk st.edges v) (hC : Contracted R st.edges v st1.edges c)
    (hc : D.Closed R) (hq : elimQuery R D v c = some (a, b)) {x : Var} (ha : x ∈ a.vars) (hb : x ∈ b.vars) :
    x ∈ R.tgtVars v := by
  obtain ⟨is, os, hi, ho, rfl, rfl⟩ := elimQuery_some hq
  rw [hC.inc] at hi
  rw [hC.out] at ho
  apply Classical.byContradiction
  intro hx
  obtain ⟨g, hg, hxg⟩ := Fla.mem_vars_disj.1 ha
  obtain ⟨i, hie, hge⟩ := (mapM_exists hi).2 g hg
  obtain ⟨u, hu, _, _, hv1⟩ := incomingFla_some hc hge
  unfold varSubstitute at hb
  obtain ⟨y, hy, hxy⟩ := Fla.mem_vars_subst.1 hb
  have hyx : y = x := by
    by_cases hs : y ∈ R.srcVars v 0
    · obtain ⟨n, hn, rfl⟩ := R.mem_srcVars.1 hs
      rw [show SubstMap.fn (T := T) (srcToTgt R v) (.src n ((0 : Nat) : Int)) = .var (.tgt n) from srcToTgt_mem hR hn] at hxy
      simp only [Tm.vars, List.mem_singleton] at hxy
      subst hxy
      exact absurd (R.mem_tgtVars.2 ⟨n, hn, rfl⟩) hx
    · rw [srcToTgt_skip hs] at hxy
      simp only [Tm.vars, List.mem_singleton] at hxy
      exact hxy.symm
  subst hyx
  obtain ⟨g', hg', hyg⟩ := Fla.mem_vars_disj.1 hy
  obtain ⟨o, hoe, hgo⟩ := (mapM_exists ho).2 g' hg'
  obtain ⟨_, _, _, hv2⟩ := outgoingFla_some hc (mem_outEdges.1 hoe).2 hgo
  obtain ⟨u', hp⟩ := hok.pair hie hoe
  have huu : u' = u := by
    have := hp.isrc
    rw [hu] at this
    simpa using this.symm
  subst huu
  have hm := hp.mergeOk hR hst
  obtain ⟨hiG, hit⟩ := mem_inEdges.1 hie
  have hnot : y ∉ o.fla.vars ∧ y ∉ R.own o.src o.tgt := by
    rcases hv1 y hxg with h1 | h1
    · refine ⟨fun h' => hm.out_u y h' h1, fun h' => ?_⟩
      rcases mem_own.1 h' with ⟨q, hq, hx'⟩ | hx'
      · refine R.srcVars_disjoint hR ?_ hx' h1
        intro e; rw [Prod.mk.injEq] at e
        exact hp.notin (e.1 ▸ mem_of_mem_instances hq)
      · exact srcVars_not_tgt h1 hx'
    · exact hm.in_sep y h1 (by rw [hit]; exact hx)
  rcases hv2 y hyg with h2 | h2
  · exact hnot.1 h2
  · exact hnot.2 h2

/-- If the query is refuted, the interpolant defines the removed vertex. -/
theorem elimStep_safe (hS : S.Sound) (hR : R.WF) (hst : st.Ok R) (hok : ContractOk st.edges v) (hv : v ≠ .tru ∧ v ≠ .fls)
    (hC : Contracted R st.edges v st1.edges c) (hD : SafeModel R st1.edges D) (hDv : D.get v = none)
    (hq : elimQuery R D v c = some (a, b)) (hu : S.check [a, b] = .unsat) :
    SafeModel R st.edges (D.insertNew v ((S.itp [a] [b]).rename tgtToBase)) := by
  have hitp := hS.itp [a, b] [a] [b] hu (by simp)
  generalize S.itp [a] [b] = I at hitp ⊢
  have hIv : ∀ x ∈ I.vars, x ∈ R.tgtVars v := by
    intro x hx
    obtain ⟨h1, h2⟩ := hitp.shared x hx
    refine elimQuery_shared hR hst hok hC hD.closed hq (x := x) ?_ ?_
    · simpa [Fla.mem_vars_conj] using h1
    · simpa [Fla.mem_vars_conj] using h2
  have hget : ∀ p, (D.insertNew v (I.rename tgtToBase)).get p = if p = v then some (I.rename tgtToBase) else D.get p := by
    intro p
    rw [Defs.get_insertNew]
    by_cases hp : p = v
    · subst hp; simp [hDv]
    · simp [hp]
  generalize D.insertNew v (I.rename tgtToBase) = D' at hget ⊢
  have hgetv : D'.get v = some (I.rename tgtToBase) := by rw [hget]; simp
  have hgetp : ∀ p, p ≠ v → D'.get p = D.get p := by intro p hp; rw [hget]; simp [hp]
  have hint : ∀ f : Fact T, f.1 ≠ v → (D'.interp R f ↔ D.interp R f) := fun f hf => interp_of_get (hgetp _ hf)
  have hIint : ∀ ρ : Valuation T, I.holds ρ → D'.interp R (v, (R.tgtVars v).map ρ) := by
    intro ρ h
    obtain ⟨ρ', hρ'⟩ := exists_valuation (T := T) (R.baseVars_nodup hR v) (vs := (R.tgtVars v).map ρ)
      (by simp [PRepr.baseVars, PRepr.tgtVars])
    refine ⟨_, hgetv, ρ', hρ', ?_⟩
    rw [Fla.holds_rename]
    refine (Fla.holds_congr fun x hx => ?_).1 h
    obtain ⟨n, hn, rfl⟩ := R.mem_tgtVars.1 (hIv x hx)
    simp only [PRepr.baseVars, PRepr.tgtVars, List.map_map] at hρ'
    exact (List.map_inj_left.1 hρ' n hn).symm
  have hIhold : ∀ ρ : Valuation T, D'.interp R (v, (R.srcVars v 0).map ρ) → I.holds (copySrc R v ρ) := by
    rintro ρ ⟨d, hd, ρ', h1, h2⟩
    simp only at hd
    rw [hgetv] at hd
    cases hd
    rw [Fla.holds_rename] at h2
    refine (Fla.holds_congr fun x hx => ?_).1 h2
    obtain ⟨n, hn, rfl⟩ := R.mem_tgtVars.1 (hIv x hx)
    simp only [PRepr.baseVars, PRepr.srcVars, List.map_map] at h1
    have := List.map_inj_left.1 h1 n hn
    simp only [Function.comp] at this
    simp only [Function.comp, tgtToBase, copySrc, hn, if_true]
    exact this
  refine ⟨?_, ?_, ?_, ⟨⟨?_, ?_⟩, ?_⟩⟩
  · intro p d hd
    rw [hget] at hd
    split at hd
    · rename_i hp
      cases hd
      subst hp
      intro x hx
      obtain ⟨y, hy, rfl⟩ := Fla.mem_vars_rename.1 hx
      obtain ⟨n, hn, rfl⟩ := R.mem_tgtVars.1 (hIv y hy)
      exact R.mem_baseVars.2 ⟨n, hn, rfl⟩
    · exact hD.closed p d hd
  · rw [hgetp _ (Ne.symm hv.1)]; exact hD.tru
  · rw [hgetp _ (Ne.symm hv.2)]; exact hD.fls
  · exact (hint _ (Ne.symm hv.1)).2 hD.model.1.1
  · rintro r ⟨e, he, ρ, hl, rfl⟩ hb
    show D'.interp R (e.tgtFact R ρ)
    have hb : ∀ f ∈ e.srcFacts R ρ, D'.interp R f := hb
    by_cases htgt : e.tgt = v
    · have hin : e ∈ st.edges.inEdges v := mem_inEdges.2 ⟨he, htgt⟩
      obtain ⟨u, hu', huv, _⟩ := hok.simple e hin
      have hA : a.holds ρ := by
        rw [elimQuery_in hC hD.closed hq]
        refine ⟨e, hin, u, hu', ?_, hl⟩
        have := hb (u, (R.srcVars u 0).map ρ) (by unfold Edge.srcFacts; rw [hu']; simp [instances, instancesAux])
        exact (hint _ huv).1 this
      have := hIint ρ (hitp.fromA ρ (by simpa [AllHold] using hA))
      unfold Edge.tgtFact
      rw [htgt]
      exact this
    · rw [hint _ htgt]
      by_cases hsrc : v ∈ e.src
      · have hout : e ∈ st.edges.outEdges v := mem_outEdges.2 ⟨he, hsrc⟩
        apply Classical.byContradiction
        intro hno
        have hI := hIhold ρ (hb (v, (R.srcVars v 0).map ρ) (List.mem_map.2 ⟨(v, 0), instances_zero hsrc, rfl⟩))
        refine hitp.refuteB _ hI ?_
        simp only [AllHold, List.mem_singleton, forall_eq]
        rw [elimQuery_out hC hD.closed hq]
        have hown : ∀ x ∈ R.own e.src e.tgt, seeTgt R v (copySrc R v ρ) x = ρ x := by
          intro x hx
          apply see_copy hR
          rcases mem_own.1 hx with ⟨q, _, h⟩ | h
          · exact srcVars_not_tgt h
          · exact tgtVars_ne hR htgt h
        obtain ⟨e1, e2⟩ := own_facts (f := e.fla) (i := e.id) hown
        refine ⟨e, hout, ?_, ?_, ?_⟩
        · refine (Fla.holds_congr fun x hx => ?_).1 hl
          exact (see_copy hR (label_not_tgt hR hst he htgt hx)).symm
        · intro h
          exact hno (e2 ▸ h)
        · intro g hg hgv
          have hg' : g ∈ e.srcFacts R ρ := e1 ▸ hg
          exact (hint g hgv).1 (hb g hg')
      · have he1 : e ∈ st1.edges := by
          rw [hC.edges]; exact List.mem_append_left _ (mem_deleteNode'.2 ⟨he, htgt, hsrc⟩)
        refine hD.model.1.2 (e.rule R ρ) ⟨e, he1, ρ, hl, rfl⟩ ?_
        intro f hf
        refine (hint f ?_).1 (hb f hf)
        rintro rfl
        apply hsrc
        rw [← srcFacts_fst R ρ e]
        exact List.mem_map_of_mem hf
  · rw [hint _ (Ne.symm hv.2)]; exact hD.model.2

/-- The query of a model is unsatisfiable. -/
theorem elimStep_unsat (hR : R.WF) (hC : Contracted R st.edges v st1.edges c)
    (hok : ContractOk st.edges v) (hD : SafeModel R st1.edges D) (hq : elimQuery R D v c = some (a, b)) :
    ¬ SatList [a, b] := by
  rintro ⟨ρ, hρ⟩
  have ha := hρ a (by simp)
  have hb := hρ b (by simp)
  rw [elimQuery_in hC hD.closed hq] at ha
  rw [elimQuery_out hC hD.closed hq] at hb
  obtain ⟨i, hi, u, hu, hint, hli⟩ := ha
  obtain ⟨o, ho, hlo, hno, hrest⟩ := hb
  have hp : (i, o) ∈ c.replacing.map Prod.snd := by
    rw [hC.pairs]; exact mem_edgePairs.2 ⟨hi, ho⟩
  obtain ⟨t, ht, hte⟩ := List.mem_map.1 hp
  obtain ⟨u', hu', htv, hm⟩ := hC.merged t ht
  rw [hte] at hu' htv hm
  simp only at hu' htv hm
  have huu : u' = u := by
    have := hu'.isrc
    rw [hu] at this
    simpa using this.symm
  subst huu
  have hnew : t.1 ∈ st1.edges := by
    rw [hC.edges]; exact List.mem_append_right _ (List.mem_map.2 ⟨t, ht, rfl⟩)
  have hif : i.Fires R [(u', (R.srcVars u' 0).map ρ)] (i.tgtFact R ρ) :=
    ⟨ρ, hli, by unfold Edge.srcFacts; rw [hu]; simp [instances, instancesAux], rfl⟩
  have hof : o.Fires R (o.srcFacts R (seeTgt R v ρ)) (o.tgtFact R (seeTgt R v ρ)) := ⟨_, hlo, rfl, rfl⟩
  have hsrc : v ∈ o.src := (mem_outEdges.1 ho).2
  have hfv : (v, (R.srcVars v 0).map (seeTgt R v ρ)) ∈ o.srcFacts R (seeTgt R v ρ) :=
    List.mem_map.2 ⟨(v, 0), instances_zero hsrc, rfl⟩
  have hfire := (hm.comp _ (o.tgtFact R (seeTgt R v ρ))).2 ⟨_, _, _, hif, hof, ?_, rfl⟩
  · refine hno (hD.model.1.2 ⟨_, _⟩ (hfire.rule hnew) ?_)
    intro f hf
    rcases mem_mergeBody hf with rfl | ⟨hf, hne⟩ | rfl
    · exact hint
    · exact hrest f hf (by rw [← htv]; exact hne)
    · exact hD.model.1.1
  · intro f hf hf1
    have h1 : f = (v, (R.srcVars v 0).map (seeTgt R v ρ)) := by
      refine unique_of_count (g := Prod.fst) (b := v) ?_ hf hfv (hf1.trans htv) rfl
      rw [srcFacts_fst, (hok.out o ho).1]; omega
    rw [h1]
    unfold Edge.tgtFact
    rw [htv]
    simp only [Prod.mk.injEq, true_and, PRepr.srcVars, PRepr.tgtVars, List.map_map]
    apply List.map_congr_left
    intro n hn
    exact seeTgt_src hR hn ρ

theorem mapM_some_of {α β : Type} {f : α → Option β} {l : List α} (h : ∀ a ∈ l, (f a).isSome) : ∃ bs, l.mapM f = some bs := by
  induction l with
  | nil => exact ⟨[], by simp⟩
  | cons a l ih =>
    obtain ⟨b, hb⟩ := Option.isSome_iff_exists.1 (h a (by simp))
    obtain ⟨bs, hbs⟩ := ih fun a ha => h a (by simp [ha])
    exact ⟨b :: bs, by simp [hb, hbs]⟩

/-- The query exists if the neighbours have definitions. -/
theorem elimQuery_isSome (hC : Contracted R st.edges v st1.edges c) (hok : ContractOk st.edges v)
    (hdef : ∀ p, st.edges.Vertex p → p ≠ v → (D.get p).isSome) : ∃ ab, elimQuery R D v c = some ab := by
  have h1 : ∀ e ∈ c.incoming, (incomingFla D e).isSome := by
    rw [hC.inc]
    intro e he
    obtain ⟨u, hu, huv, _⟩ := hok.simple e he
    unfold incomingFla
    rw [hu]
    simp only [Option.isSome_map]
    exact hdef u (vertex_src (mem_inEdges.1 he).1 (by rw [hu]; simp)) huv
  have h2 : ∀ e ∈ c.outgoing, (outgoingFla D v e).isSome := by
    rw [hC.out]
    intro e he
    obtain ⟨hcnt, htv⟩ := hok.out e he
    have heG := (mem_outEdges.1 he).1
    obtain ⟨d, hd⟩ := Option.isSome_iff_exists.1 (hdef e.tgt (vertex_tgt heG) htv)
    unfold outgoingFla
    simp only [hd, Option.bind_some, Option.isSome_map]
    unfold otherSources
    split
    · obtain ⟨bs, hbs⟩ := mapM_some_of (f := fun q : Pred × Nat => (D.get q.1).map fun d => d.rename (toSrc q.2))
        (l := instances (e.src.filter fun p => decide (p ≠ v))) (by
          intro q hq
          rw [instances_filter, List.mem_filter] at hq
          simp only [Option.isSome_map]
          exact hdef q.1 (vertex_src heG (mem_of_mem_instances hq.1)) (by simpa using hq.2))
      rw [hbs]; rfl
    · rfl
  obtain ⟨is, hi⟩ := mapM_some_of h1
  obtain ⟨os, ho⟩ := mapM_some_of h2
  exact ⟨_, by unfold elimQuery; simp only [hi, ho, Option.bind_eq_bind, Option.bind_some]; rfl⟩

/-- If the query exists, every vertex that is not in the contracted graph has a definition. -/
theorem elimQuery_defined (hC : Contracted R st.edges v st1.edges c) (hc : D.Closed R)
    (hq : elimQuery R D v c = some (a, b)) {p : Pred} (hp : st.edges.Vertex p) (hpv : p ≠ v) (hn : ¬ st1.edges.Vertex p) :
    (D.get p).isSome := by
  obtain ⟨is, os, hi, ho, rfl, rfl⟩ := elimQuery_some hq
  rw [hC.inc] at hi
  rw [hC.out] at ho
  obtain ⟨e, he, hpe⟩ := hp
  by_cases htgt : e.tgt = v
  · have hin : e ∈ st.edges.inEdges v := mem_inEdges.2 ⟨he, htgt⟩
    obtain ⟨g, _, hge⟩ := (mapM_exists hi).1 e hin
    obtain ⟨u, hu, hdu, _⟩ := incomingFla_some hc hge
    rcases hpe with rfl | hpe
    · exact absurd htgt hpv
    · rw [hu] at hpe; simp at hpe; rw [hpe]; exact hdu
  · by_cases hsrc : v ∈ e.src
    · have hout : e ∈ st.edges.outEdges v := mem_outEdges.2 ⟨he, hsrc⟩
      obtain ⟨g, _, hge⟩ := (mapM_exists ho).1 e hout
      obtain ⟨h1, h2, _⟩ := outgoingFla_some hc hsrc hge
      rcases hpe with rfl | hpe
      · exact h1
      · exact h2 p hpe hpv
    · exact absurd ⟨e, by rw [hC.edges]; exact List.mem_append_left _ (mem_deleteNode'.2 ⟨he, htgt, hsrc⟩), hpe⟩ hn

end step

theorem get_insertNew_ne {D : Defs T} {v p : Pred} {d : Fla T} (h : p ≠ v) : (D.insertNew v d).get p = D.get p := by
  rw [Defs.get_insertNew]; simp [Ne.symm h, h]

theorem get_insertNew_self {D : Defs T} {v : Pred} {d : Fla T} : ((D.insertNew v d).get v).isSome := by
  rw [Defs.get_insertNew]
  cases h : D.get v <;> simp

/-- The translation over all removed vertices. -/
theorem elimSafeLoop_sound {S : Smt T} (hS : S.Sound) {R : PRepr} (hR : R.WF) {st st' : GS T}
    {rs : List (Pred × Contraction T)} (h : ElimSteps R st rs st') {D D' : Defs T} (hD : SafeModel R st'.edges D)
    (hfresh : ∀ p ∈ rs.map Prod.fst, D.get p = none) (hr : elimSafeLoop S R rs D = .done (some D')) :
    SafeModel R st.edges D' ∧ (∀ p, p ∉ rs.map Prod.fst → D'.get p = D.get p) ∧
      (∀ p ∈ rs.map Prod.fst, (D'.get p).isSome) ∧
      ((∀ p, st'.edges.Vertex p → (D.get p).isSome) → ∀ p, st.edges.Vertex p → (D'.get p).isSome) := by
  induction h generalizing D' with
  | nil =>
    simp only [elimSafeLoop, Outcome.done.injEq, Option.some.injEq] at hr
    subst hr
    exact ⟨hD, fun _ _ => rfl, by simp, fun h => h⟩
  | @cons st st1 st' v c rs hst hok hv hC hid hmono hne h ih =>
    simp only [elimSafeLoop] at hr
    split at hr
    · rename_i D1 hD1
      obtain ⟨i1, i2, i3, i4⟩ := ih hD (fun p hp => hfresh p (by simp only [List.map_cons, List.mem_cons]; exact .inr hp)) hD1
      split at hr
      · simp at hr
      · rename_i a b hq
        split at hr
        · rename_i hu
          simp only [Outcome.done.injEq, Option.some.injEq] at hr
          have hv1 : D1.get v = none := by rw [i2 v hne]; exact hfresh v (by simp)
          have hs := elimStep_safe hS hR hst hok hv hC i1 hv1 hq hu
          rw [hr] at hs
          refine ⟨hs, ?_, ?_, ?_⟩
          · intro p hp
            simp only [List.map_cons, List.mem_cons, not_or] at hp
            rw [← hr, get_insertNew_ne hp.1, i2 p hp.2]
          · intro p hp
            rw [← hr]
            simp only [List.map_cons, List.mem_cons] at hp
            by_cases e : p = v
            · subst e; exact get_insertNew_self
            · rw [get_insertNew_ne e]; exact i3 p (hp.resolve_left e)
          · intro hcomp p hp
            rw [← hr]
            by_cases e : p = v
            · subst e; exact get_insertNew_self
            · rw [get_insertNew_ne e]
              by_cases hp1 : st1.edges.Vertex p
              · exact i4 hcomp p hp1
              · exact elimQuery_defined hC i1.closed hq hp e hp1
        · simp at hr
    · rename_i r hr'
      exact absurd hr (hr' D')

/-- The translation succeeds if the backend decides and every vertex is removed, kept, the entry or the exit. -/
theorem elimSafeLoop_total {S : Smt T} (hS : S.Sound) (hSC : S.Complete) {R : PRepr} (hR : R.WF) {st st' : GS T}
    {rs : List (Pred × Contraction T)} (h : ElimSteps R st rs st') {D : Defs T} (hD : SafeModel R st'.edges D)
    (hfresh : ∀ p ∈ rs.map Prod.fst, D.get p = none)
    (hcomp : ∀ p, st.edges.Vertex p → p ∈ rs.map Prod.fst ∨ (D.get p).isSome) :
    ∃ D', elimSafeLoop S R rs D = .done (some D') := by
  induction h with
  | nil => exact ⟨D, rfl⟩
  | @cons st st1 st' v c rs hst hok hv hC hid hmono hne h ih =>
    have hfr : ∀ p ∈ rs.map Prod.fst, D.get p = none :=
      fun p hp => hfresh p (by simp only [List.map_cons, List.mem_cons]; exact .inr hp)
    obtain ⟨D1, hD1⟩ := ih hD hfr (fun p hp => by
      rcases hcomp p (hC.vertex_sub hp) with h' | h'
      · simp only [List.map_cons, List.mem_cons] at h'
        rcases h' with rfl | h'
        · exact absurd hp hC.not_vertex
        · exact .inl h'
      · exact .inr h')
    obtain ⟨i1, i2, i3, i4⟩ := elimSafeLoop_sound hS hR h hD hfr hD1
    obtain ⟨⟨a, b⟩, hq⟩ := elimQuery_isSome (D := D1) hC hok (by
      intro p hp hpv
      rcases hcomp p hp with h' | h'
      · simp only [List.map_cons, List.mem_cons] at h'
        exact i3 p (h'.resolve_left hpv)
      · by_cases hpr : p ∈ rs.map Prod.fst
        · exact i3 p hpr
        · rw [i2 p hpr]; exact h')
    have hu : S.check [a, b] = .unsat := by
      rcases hSC [a, b] with h' | h'
      · exact absurd ⟨_, hS.sat _ h'⟩ (elimStep_unsat hR hC hok i1 hq)
      · exact h'
    exact ⟨_, by simp only [elimSafeLoop, hD1, hq]; rw [if_pos hu]⟩

end Golem
