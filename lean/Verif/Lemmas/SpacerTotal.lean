import Verif.Lemmas.SpacerSafe
import Verif.Lemmas.SpacerWitness
import Verif.Lemmas.MBPTotal

/-! With a backend that decides every query and a projection that never fails, the search of Spacer raises no exception. -/

namespace Golem
variable {T : Theory}
variable {E : SpEnv T}

/-- The projection never fails on a model of the formula. -/
def Mbp.Total (M : Mbp T) : Prop := ∀ f vs ρ, f.holds ρ → ∃ p, M f vs ρ = some p

/-- Every must component has an entry in the database (or is empty). -/
def Covered (E : SpEnv T) (st : SpState T) : Prop := E.logProof = true → ∀ n v, ∀ c ∈ st.under n v,
  c = .ff ∨ ∃ d ∈ st.db, d.node = v ∧ d.fact = c

theorem project_total (hM : E.M.Total) {f : Fla T} {vs : List Var} {ρ : Valuation T} (hf : f.holds ρ) :
    ∃ p, E.project f vs ρ = some p := by
  obtain ⟨p, hp⟩ := hM f (firstOcc (f.vars.filter fun x => decide (x ∉ vs))) ρ hf
  exact ⟨foldClosed p, by simp only [SpEnv.project, hp, Option.map_some]⟩

theorem dbFind_total {db : List (DbEntry T)} {c : Fla T} {v : Pred} {d : DbEntry T} (hd : d ∈ db) (h1 : d.node = v)
    (h2 : d.fact = c) : ∃ i, dbFind db c v = some i := by
  unfold dbFind
  rw [← Option.isSome_iff_exists, List.findIdx?_isSome, List.any_eq_true]
  exact ⟨d, hd, by simp [h1, h2]⟩

theorem logFact_total (hE : E.WF) {st : SpState T} (hl : E.logProof = true) (hc : Covered E st) {b : Nat} {e : Edge T}
    {ρ : Valuation T} (hm : (E.edgeMust st b e).holds ρ) {st1 : SpState T} (hu : st1.under b = st.under b) (hd : st1.db = st.db)
    (c : Fla T) (v : Pred) : ∃ st', E.logFact st1 c v b e ρ = some st' := by
  have : ∃ ps, (instances e.src).mapM (E.premise st1 b ρ) = some ps := by
    refine mapM_total fun q hq => ?_
    rw [edgeMust_holds hE] at hm
    obtain ⟨c0, hc0, hh⟩ := hm.2 q hq
    have hf : ∃ c', (E.ord (st1.under b q.1)).find? (fun c => decide ((c.rename (toSrc q.2)).holds ρ)) = some c' := by
      rw [← Option.isSome_iff_exists, List.find?_isSome]
      refine ⟨c0, (hE.ord _ _).2 (by rw [hu]; exact hc0), ?_⟩
      rw [decide_eq_true_eq, Fla.holds_rename]
      exact hh
    obtain ⟨c', hc'⟩ := hf
    have hmem : c' ∈ st.under b q.1 := by
      rw [← hu]; exact (hE.ord _ _).1 (List.mem_of_find?_eq_some hc')
    have hholds := List.find?_some hc'
    simp only [decide_eq_true_eq] at hholds
    rcases hc hl b q.1 c' hmem with h0 | ⟨d, hdm, h1, h2⟩
    · subst h0
      rw [Fla.holds_rename] at hholds
      exact absurd hholds (by simp [Fla.holds])
    · obtain ⟨i, hi⟩ := dbFind_total hdm h1 h2
      exact ⟨i, by simp only [SpEnv.premise, hc', hd, Option.bind_eq_bind, Option.bind_some, hi]⟩
  obtain ⟨ps, hps⟩ := this
  exact ⟨_, by simp only [SpEnv.logFact, hps, Option.bind_eq_bind, Option.bind_some]; rfl⟩

/-- The must check: it succeeds, keeps the database complete, and logs `false` when it reaches the exit. -/
theorem checkMust_total (hE : E.WF) (hM : E.M.Total) {st : SpState T} (hc : Covered E st) {pob : Pob T} (hb : pob.bound ≠ 0) :
    ∃ r, E.checkMust st pob = .done r ∧ ∀ st', r = some st' → Covered E st' ∧
      (E.logProof = true → pob.vertex = .fls → ∃ i, dbFind st'.db .tt .fls = some i) := by
  unfold SpEnv.checkMust
  simp only
  split
  · rename_i hs
    obtain ⟨h1, h2⟩ := spSat_sat hE.smt hs
    rw [Fla.holds_disj] at h1
    obtain ⟨f, hf, hfh⟩ := h1
    rw [List.mem_map] at hf
    obtain ⟨e0, he0, rfl⟩ := hf
    split
    · rename_i hn
      exfalso
      rw [List.find?_eq_none] at hn
      have := hn e0 he0
      simp only [decide_eq_true_eq] at this
      exact this hfh
    · rename_i e hfind
      have he := List.mem_of_find?_eq_some hfind
      have hh := List.find?_some hfind
      simp only [decide_eq_true_eq] at hh
      obtain ⟨p, hp⟩ := project_total hM (vs := E.R.tgtVars pob.vertex) hh
      have hclosed : pob.vertex = .fls → p.rename tgtToBase = .tt := by
        intro hv
        have hnil : E.R.tgtVars pob.vertex = [] := by simp [hv, PRepr.tgtVars, hE.repr.fls]
        rw [hnil] at hp
        rw [project_closed hE hh hp]
        rfl
      have hcov1 : ∀ db : List (DbEntry T), (∀ d ∈ st.db, d ∈ db) →
          (E.logProof = true → ∃ d ∈ db, d.node = pob.vertex ∧ d.fact = p.rename tgtToBase) →
          Covered E { st.addMust pob.vertex pob.bound (p.rename tgtToBase) with db := db } := by
        intro db hsub hnew hl n v c hcm
        rcases apInsert_mem.1 hcm with hcm | ⟨_, rfl, rfl⟩
        · rcases hc hl n v c hcm with h0 | ⟨d, hd, h12⟩
          · exact .inl h0
          · exact .inr ⟨d, hsub d hd, h12⟩
        · exact .inr (hnew hl)
      by_cases hl : E.logProof = true
      · obtain ⟨st1, hst1⟩ := logFact_total hE hl hc hh
          (st1 := st.addMust pob.vertex pob.bound (p.rename tgtToBase)) (by
            funext v
            simp only [SpState.addMust, apInsert]
            rw [if_neg (by intro hx; omega)]) rfl (p.rename tgtToBase) pob.vertex
        have hu : E.useEdge st pob e (E.S.model
            [Fla.disj ((E.G.inEdges pob.vertex).map (E.edgeMust st (pob.bound - 1))), pob.constraint]) = some st1 := by
          simp only [SpEnv.useEdge, hp, Option.bind_eq_bind, Option.bind_some, hl, if_true]
          exact hst1
        rw [hu]
        refine ⟨_, rfl, ?_⟩
        intro st' hst'
        cases hst'
        unfold SpEnv.logFact at hst1
        simp only [Option.bind_eq_bind, Option.bind_eq_some_iff, Option.pure_def, Option.some.injEq] at hst1
        obtain ⟨ps, _, rfl⟩ := hst1
        refine ⟨hcov1 _ (fun d hd => List.mem_append.2 (.inl hd)) fun _ =>
          ⟨⟨p.rename tgtToBase, pob.vertex, some e.id, ps⟩, List.mem_append.2 (.inr (by simp)), rfl, rfl⟩, ?_⟩
        intro _ hv
        exact dbFind_total (d := ⟨p.rename tgtToBase, pob.vertex, some e.id, ps⟩)
          (List.mem_append.2 (.inr (by simp))) hv (hclosed hv)
      · have hu : E.useEdge st pob e (E.S.model
            [Fla.disj ((E.G.inEdges pob.vertex).map (E.edgeMust st (pob.bound - 1))), pob.constraint]) =
            some (st.addMust pob.vertex pob.bound (p.rename tgtToBase)) := by
          simp only [SpEnv.useEdge, hp, Option.bind_eq_bind, Option.bind_some, hl]
          rfl
        rw [hu]
        refine ⟨_, rfl, ?_⟩
        intro st' hst'
        cases hst'
        exact ⟨fun h => absurd h hl, fun h => absurd h hl⟩
  · exact ⟨none, rfl, by simp⟩

theorem newPob_total (hM : E.M.Total) {f : Fla T} {ρ : Valuation T} (hf : f.holds ρ) (q : Pred × Nat) (b : Nat) :
    ∃ p, E.newPob f q b ρ = some p := by
  obtain ⟨p, hp⟩ := project_total hM (vs := E.R.srcVars q.1 q.2) hf
  exact ⟨_, by simp only [SpEnv.newPob, hp, Option.bind_eq_bind, Option.bind_some]; rfl⟩

/-- The loop over the sources of a hyperedge stops at the latest at the last source. -/
theorem refine_total (hE : E.WF) (hM : E.M.Total) (hcpl : E.S.Complete) {st : SpState T} {e : Edge T} {pob : Pob T}
    {ρ : Valuation T} (hm : (E.edgeMay st (pob.bound - 1) e).holds ρ) (hp : pob.constraint.holds ρ)
    {qs : List (Pred × Nat)} {i : Nat} (hpre : ∃ pre, instances e.src = pre ++ qs ∧ pre.length = i) (hne : qs ≠ []) :
    ∃ r, E.refine st e pob qs i = .done r := by
  induction qs generalizing i with
  | nil => exact absurd rfl hne
  | cons q qs ih =>
    simp only [SpEnv.refine]
    split
    · rename_i hs
      obtain ⟨h1, h2⟩ := spSat_sat hE.smt hs
      obtain ⟨p, hp'⟩ := newPob_total hM (f := .and _ _) ⟨h1, h2⟩ q (pob.bound - 1)
      rw [hp']
      exact ⟨_, rfl⟩
    · rename_i hs
      obtain ⟨pre, hpr, hl⟩ := hpre
      refine ih ⟨pre ++ [q], by simp [hpr], by simp [hl]⟩ ?_
      intro h0
      subst h0
      refine spSat_unsat hE.smt hs ρ ?_ hp
      rw [edgeMixed_holds hE]
      rw [edgeMay_holds hE] at hm
      refine ⟨hm.1, fun j q' hj => ⟨fun _ => hm.2 q' (List.mem_of_getElem? hj), fun hlt => ?_⟩⟩
      have := List.getElem?_lt hj
      rw [hpr] at this
      simp at this
      omega
    · rename_i h1 h2
      rcases spSat_complete (S := E.S) (A := E.edgeMixed st (pob.bound - 1) e i) (B := pob.constraint) hcpl with h | h
      · exact absurd h h1
      · exact absurd h h2

theorem predecessor_total (hE : E.WF) (hM : E.M.Total) (hcpl : E.S.Complete) {st : SpState T} {pob : Pob T} {e : Edge T}
    (he : e ∈ E.G) : ∃ r, E.predecessor st pob e = .done r := by
  have hcase := spSat_complete (S := E.S) (A := E.edgeMay st (pob.bound - 1) e) (B := pob.constraint) hcpl
  unfold SpEnv.predecessor
  simp only
  split
  · rename_i q _
    split
    · rename_i hs
      obtain ⟨h1, h2⟩ := spSat_sat hE.smt hs
      obtain ⟨p, hp'⟩ := newPob_total hM (f := .and _ _) ⟨h1, h2⟩ q (pob.bound - 1)
      rw [hp']
      exact ⟨_, rfl⟩
    · exact ⟨_, rfl⟩
    · rename_i h1 h2
      rcases hcase with h | h
      · exact absurd h h1
      · exact absurd h h2
  · split
    · rename_i hs
      obtain ⟨h1, h2⟩ := spSat_sat hE.smt hs
      refine refine_total hE hM hcpl h1 h2 ⟨[], by simp, rfl⟩ ?_
      intro h0
      have := instances_length e.src
      rw [h0] at this
      exact hE.srcNe e he (List.eq_nil_of_length_eq_zero (by simpa using this.symm))
    · exact ⟨_, rfl⟩
    · rename_i h1 h2
      rcases hcase with h | h
      · exact absurd h h1
      · exact absurd h h2

theorem predecessors_total (hE : E.WF) (hM : E.M.Total) (hcpl : E.S.Complete) {st : SpState T} {pob : Pob T} {es : List (Edge T)}
    (hes : ∀ e ∈ es, e ∈ E.G) : ∃ r, E.predecessors st pob es = .done r := by
  induction es with
  | nil => exact ⟨[], rfl⟩
  | cons e es ih =>
    obtain ⟨r, hr⟩ := predecessor_total hE hM hcpl (st := st) (pob := pob) (hes e (by simp))
    obtain ⟨rs, hrs⟩ := ih fun e he => hes e (by simp [he])
    exact ⟨r.toList ++ rs, by simp only [SpEnv.predecessors, hr, hrs]⟩

/-- The search raises no exception; at the end of an unsuccessful search `false` is logged. -/
theorem boundLoop_total (hE : E.WF) (hM : E.M.Total) (hcpl : E.S.Complete) {cur fuel : Nat} {q : List (Pob T)} {st : SpState T}
    (h : SpInv E cur st) (hc : Covered E st) (hq : ∀ p ∈ q, PobOk E cur p) :
    E.boundLoop cur fuel q st = .outOfFuel ∨ ∃ ans st', E.boundLoop cur fuel q st = .done (ans, st') ∧ Covered E st' ∧
      (ans = false → E.logProof = true → ∃ i, dbFind st'.db .tt .fls = some i) := by
  induction fuel generalizing q st with
  | zero => exact .inl rfl
  | succ n ih =>
    simp only [SpEnv.boundLoop]
    split
    · exact .inr ⟨_, _, rfl, hc, by simp⟩
    · rename_i pob rest ht
      obtain ⟨t1, t2, t3⟩ := top_spec ht
      have hp := hq pob t1
      obtain ⟨hv, hb⟩ := hp.live hcpl
      rw [if_neg hv, if_neg (by omega)]
      obtain ⟨r, hr, hcov⟩ := checkMust_total hE hM hc (pob := pob) (by omega)
      rw [hr]
      cases r with
      | some st1 =>
        obtain ⟨c1, c2⟩ := hcov st1 rfl
        simp only
        split
        · rename_i hvf
          exact .inr ⟨_, _, rfl, c1, fun _ hl => c2 hl hvf⟩
        · exact ih (checkMust_inv hE h hr).1 c1 fun p hp' => hq p (t2 p hp')
      | none =>
        simp only
        have hes : ∀ e ∈ E.G.inEdges pob.vertex, e ∈ E.G ∧ e.tgt = pob.vertex := fun e he => by
          simpa [Graph.inEdges] using he
        obtain ⟨ps, hps⟩ := predecessors_total hE hM hcpl (st := st) (pob := pob) fun e he => (hes e he).1
        rw [hps]
        obtain ⟨b1, b2⟩ := predecessors_spec hE h hp (by omega) hr hes hps
        cases ps with
        | nil =>
          simp only
          have hu : E.S.check [Fla.disj ((E.G.inEdges pob.vertex).map (E.edgeMay st (pob.bound - 1))), pob.constraint] =
              .unsat := by
            rcases hcpl [Fla.disj ((E.G.inEdges pob.vertex).map (E.edgeMay st (pob.bound - 1))), pob.constraint] with hs | hs
            · exfalso
              have := hE.smt.sat _ hs
              have h1 := this (Fla.disj ((E.G.inEdges pob.vertex).map (E.edgeMay st (pob.bound - 1)))) (by simp)
              have h2 := this pob.constraint (by simp)
              rw [Fla.holds_disj] at h1
              obtain ⟨f, hf, hfh⟩ := h1
              obtain ⟨e, he, rfl⟩ := List.mem_map.1 hf
              exact b2 rfl e he _ hfh h2
            · exact hs
          obtain ⟨st1, hst1⟩ : ∃ st1, E.block st pob = some st1 := by
            unfold SpEnv.block
            simp only [hu]
            exact ⟨_, rfl⟩
          rw [hst1]
          obtain ⟨i1, _, _, i4, i5, _⟩ := block_inv hE h hp hv (by omega) hst1
          refine ih i1 ?_ fun p hp' => hq p (t2 p hp')
          intro hl
          rw [i4, i5]
          exact hc hl
        | cons p ps =>
          simp only
          refine ih h hc fun p' hp' => ?_
          rcases List.mem_append.1 hp' with hp' | hp'
          · exact hq p' hp'
          · exact b1 p' hp'

/-! ### Pushing lemmas -/

theorem tryPush_total (hE : E.WF) (hcpl : E.S.Complete) {cur : Nat} {st : SpState T} (h : SpInv E cur st) {v : Pred} {level : Nat} :
    ∃ r, E.tryPush st v level (Fla.disj ((E.G.inEdges v).map (E.edgeMay st level))) = .done r := by
  classical
  unfold SpEnv.tryPush
  simp only
  split
  · exact ⟨_, rfl⟩
  · rw [C38_impliedBy_complete E.S hE.smt hcpl]
    · exact ⟨_, rfl⟩
    · intro f hf
      rw [List.mem_singleton] at hf
      subst hf
      exact body_noAct hE h level v
    · intro f hf
      obtain ⟨c, hc, rfl⟩ := List.mem_map.1 hf
      exact noAct_tgt (h.closedOver level v c ((hE.ord _ _).1 (List.mem_filter.1 hc).1))

theorem pushAll_total (hE : E.WF) (hcpl : E.S.Complete) {cur level : Nat} {vs : List Pred} {st : SpState T} (h : SpInv E cur st) :
    ∃ r, E.pushAll level vs st = .done r := by
  induction vs generalizing st with
  | nil => exact ⟨_, rfl⟩
  | cons v vs ih =>
    simp only [SpEnv.pushAll]
    split
    · exact ih h
    · rename_i hv
      obtain ⟨⟨all, st1⟩, h1⟩ := tryPush_total hE hcpl h (v := v) (level := level)
      obtain ⟨⟨all', st2⟩, h2⟩ := ih (tryPush_inv hE hv h h1).1
      rw [h1]
      simp only [h2]
      exact ⟨_, rfl⟩

theorem inductiveFrom_total (hE : E.WF) (hcpl : E.S.Complete) {cur n level : Nat} {st : SpState T} (h : SpInv E cur st) :
    ∃ r, E.inductiveFrom n level st = .done r := by
  induction n generalizing level st with
  | zero => exact ⟨_, rfl⟩
  | succ n ih =>
    simp only [SpEnv.inductiveFrom]
    obtain ⟨⟨all, st1⟩, h1⟩ := pushAll_total hE hcpl (level := level) (vs := E.verts) h
    rw [h1]
    cases all with
    | true => exact ⟨_, rfl⟩
    | false => exact ih (pushAll_inv hE h h1).1

end Golem
