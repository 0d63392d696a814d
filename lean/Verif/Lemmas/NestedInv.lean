import Verif.Lemmas.NestedSeq

/-! Back-translation of invariants of contracted loops. -/

namespace Golem
variable {T : Theory} {R : PRepr}

/-- Values of names as a valuation of the unversioned variables. -/
def bVal (σ : Name → T.Val) : Valuation T := fun x => match x with
  | .base n => σ n
  | _ => T.vT

theorem nestedLocSubst_loc {vs : List Pred} {p q : Pred} (hq : q ∈ vs) :
    (nestedLocSubst (T := T) vs p).fn (.base (locName q)) = .const (if q = p then T.vT else T.vF) := by
  unfold SubstMap.fn
  have : SubstMap.find (nestedLocSubst (T := T) vs p) (.base (locName q)) = some (.const (if q = p then T.vT else T.vF)) := by
    unfold SubstMap.find nestedLocSubst
    induction vs with
    | nil => simp at hq
    | cons a vs ih =>
      simp only [List.map_cons, List.lookup]
      by_cases ha : q = a
      · subst ha; simp
      · have hb : (Var.base (locName q) == Var.base (locName a)) = false := by
          simp only [beq_eq_false_iff_ne, ne_eq, Var.base.injEq]
          intro h
          exact ha (symNo_inj (by simpa [locName] using h))
        rw [hb]
        exact ih (by simpa [ha] using hq)
  rw [this]; rfl

theorem nestedLocSubst_other {vs : List Pred} {p : Pred} {x : Var} (hx : ∀ q ∈ vs, x ≠ .base (locName q)) :
    (nestedLocSubst (T := T) vs p).fn x = .var x := by
  unfold SubstMap.fn
  rw [SubstMap.find_none]
  · rfl
  · rintro ⟨a, b⟩ hm rfl
    obtain ⟨q, hq, e⟩ := List.mem_map.1 hm
    simp only [Prod.mk.injEq] at e
    exact hx q hq e.1.symm

theorem mem_basePositions {p : Pred} {n : Name} : Var.base n ∈ basePositions R p ↔ n ∈ argNames R p := by
  simp [basePositions]

theorem basePositions_nodup (R : PRepr) (p : Pred) : (basePositions R p).Nodup :=
  nodup_map_of_inj (by intro a b h; cases h; rfl) (argNames_nodup R p)

/-- The invariant with the locations fixed. -/
theorem baseLocFixed_holds {vs locs : List Pred} (hsub : ∀ q ∈ vs, q ∈ locs) {I : Fla T} (hI : ∀ x ∈ I.vars, ∃ n ∈ contractedArgs R vs, x = .base n) {p : Pred}
    (hp : p ∈ vs) (ρ : Valuation T) : (varSubstitute I (nestedLocSubst locs p)).holds ρ ↔
      ∃ σ : Name → T.Val, (∀ q ∈ vs, ∀ n ∈ argNames R q, σ n = ρ (.base n)) ∧ σ (locName p) = T.vT ∧
        (∀ q ∈ vs, q ≠ p → σ (locName q) = T.vF) ∧ I.holds (bVal σ) := by
  rw [varSubstitute_holds]
  constructor
  · intro h
    refine ⟨fun n => ((nestedLocSubst locs p).fn (.base n)).eval ρ, ?_, ?_, ?_, ?_⟩
    · intro q hq n hn
      obtain ⟨i, rfl⟩ := mem_argNames hn
      simp only
      rw [nestedLocSubst_other (by intro q' _; simp [locName])]
      rfl
    · simp only [nestedLocSubst_loc (hsub _ hp), if_true]; rfl
    · intro q hq hne
      simp only [nestedLocSubst_loc (hsub _ hq), if_neg hne]; rfl
    · refine (Fla.holds_congr fun x hx => ?_).1 h
      obtain ⟨n, _, rfl⟩ := hI x hx
      rfl
  · rintro ⟨σ, h1, h2, h3, h4⟩
    refine (Fla.holds_congr fun x hx => ?_).1 h4
    obtain ⟨n, hn, rfl⟩ := hI x hx
    rcases List.mem_append.1 hn with hn | hn
    · obtain ⟨q, hq, rfl⟩ := List.mem_map.1 hn
      rw [nestedLocSubst_loc (hsub _ hq)]
      by_cases hqp : q = p
      · subst hqp; simpa [bVal, Tm.eval] using h2
      · simpa [bVal, Tm.eval, hqp] using h3 q hq hqp
    · obtain ⟨q, hq, hn⟩ := List.mem_flatMap.1 hn
      have := h1 q hq n hn
      obtain ⟨i, rfl⟩ := mem_argNames hn
      rw [nestedLocSubst_other (by intro q' _; simp [locName])]
      exact this

/-- The definition of one vertex says that the invariant holds of all states at the vertex with these arguments. -/
theorem nestedInvariant_spec {Q : KeepOnly T} (hQ : Q.Exact) {simp : Fla T → Fla T} (hsi : SimplifierOk simp) (hR : R.WF)
    {vs locs : List Pred} (hsub : ∀ q ∈ vs, q ∈ locs) {I : Fla T} (hI : ∀ x ∈ I.vars, ∃ n ∈ contractedArgs R vs, x = .base n) {p : Pred} (hp : p ∈ vs)
    {d : Fla T} (h : nestedInvariant Q simp R locs I p = some d) :
    (∀ x ∈ d.vars, x ∈ R.baseVars p) ∧ ∀ v : List T.Val, v.length = (R.args p).length →
      ((∃ ρ : Valuation T, (R.baseVars p).map ρ = v ∧ d.holds ρ) ↔ ∀ σ, AtC R vs p v σ → I.holds (bVal σ)) := by
  simp only [nestedInvariant, Option.map_eq_some_iff] at h
  obtain ⟨g, hg, rfl⟩ := h
  have key : (∀ x ∈ g.vars, x ∈ basePositions R p) ∧ ∀ ρ : Valuation T, g.holds ρ ↔
      ∀ ρ' : Valuation T, (∀ x ∈ basePositions R p, ρ' x = ρ x) → (varSubstitute I (nestedLocSubst locs p)).holds ρ' := by
    split at hg
    · rw [Option.map_eq_some_iff] at hg
      obtain ⟨g', hg', rfl⟩ := hg
      obtain ⟨h1, h2⟩ := hQ _ _ _ hg'
      refine ⟨fun x hx => h1 x (by simpa [Fla.vars] using hx), fun ρ => ?_⟩
      simp only [Fla.holds]
      rw [h2]
      constructor
      · intro hn ρ' hρ'
        apply Classical.byContradiction
        intro hc
        exact hn ⟨ρ', hρ', by simp only [Fla.holds]; rw [hsi.equiv]; exact hc⟩
      · rintro hall ⟨ρ', hρ', hc⟩
        simp only [Fla.holds] at hc
        rw [hsi.equiv] at hc
        exact hc (hall ρ' hρ')
    · rename_i hno
      cases hg
      have hv : ∀ x ∈ (simp (varSubstitute I (nestedLocSubst locs p))).vars, x ∈ basePositions R p := by
        intro x hx
        simp only [List.any_eq_true, decide_eq_true_eq, not_exists, not_and] at hno
        exact Classical.byContradiction (hno x hx)
      refine ⟨hv, fun ρ => ?_⟩
      constructor
      · intro hh ρ' hρ'
        rw [← hsi.equiv]
        exact (Fla.holds_congr fun x hx => (hρ' x (hv x hx)).symm).1 hh
      · intro hall
        rw [hsi.equiv]
        exact hall ρ fun _ _ => rfl
  obtain ⟨hgv, hgh⟩ := key
  have hfn : ∀ ρ : Valuation T, (basePositions R p).map (fun x => (SubstMap.fn
      ((basePositions R p).zip ((R.args p).map fun n => Tm.var (.base n))) x).eval ρ) = (R.baseVars p).map ρ := by
    intro ρ
    have := map_fn_zip' (basePositions_nodup R p) (ts := (R.args p).map fun n => Tm.var (.base n))
      (by simp [basePositions, argNames_length]) ρ []
    simpa [List.map_map, Function.comp_def, Tm.eval, PRepr.baseVars] using this
  refine ⟨fun x hx => ?_, fun v hlen => ?_⟩
  · rw [varSubstitute, Fla.mem_vars_subst] at hx
    obtain ⟨y, hy, hx⟩ := hx
    have := fn_zip_mem (basePositions_nodup R p) (ts := (R.args p).map fun n => (Tm.var (.base n) : Tm T))
      (by simp [basePositions, argNames_length]) (hgv y hy) []
    rw [List.append_nil] at this
    obtain ⟨n, hn, e⟩ := List.mem_map.1 this
    rw [← e] at hx
    simp only [Tm.vars, List.mem_singleton] at hx
    subst hx
    exact List.mem_map.2 ⟨n, hn, rfl⟩
  · constructor
    · rintro ⟨ρ, hv, hh⟩ σ hσ
      rw [varSubstitute_holds, hgh] at hh
      have hh := hh (bVal σ) ?_
      · obtain ⟨σ', h1, h2, h3, h4⟩ := (baseLocFixed_holds hsub hI hp _).1 hh
        refine (Fla.holds_congr fun x hx => ?_).1 h4
        obtain ⟨n, hn, rfl⟩ := hI x hx
        show σ' n = σ n
        rcases List.mem_append.1 hn with hn | hn
        · obtain ⟨q, hq, rfl⟩ := List.mem_map.1 hn
          by_cases hqp : q = p
          · subst hqp; rw [h2, hσ.here]
          · rw [h3 q hq hqp, hσ.others q hq hqp]
        · obtain ⟨q, hq, hn⟩ := List.mem_flatMap.1 hn
          exact h1 q hq n hn
      · have e : (basePositions R p).map (bVal σ) = (basePositions R p).map (fun x => (SubstMap.fn
            ((basePositions R p).zip ((R.args p).map fun n => Tm.var (.base n))) x).eval ρ) := by
          rw [hfn, hv, ← hσ.args]
          simp [basePositions, List.map_map, Function.comp_def, bVal]
        exact List.map_inj_left.1 e
    · intro hall
      obtain ⟨σ0, h0⟩ := exists_atC R vs p v hlen
      have ⟨ρ0, hρ0⟩ : ∃ ρ0 : Valuation T, (R.baseVars p).map ρ0 = v := by
        exact exists_valuation (nodup_map_of_inj (by intro a b h; cases h; rfl) (hR.nodup p))
          (by simp [hlen])
      refine ⟨ρ0, hρ0, ?_⟩
      rw [varSubstitute_holds, hgh]
      intro ρ' hρ'
      rw [baseLocFixed_holds hsub hI hp]
      refine ⟨fun n => match n with
        | .loc k => σ0 (.loc k)
        | n => ρ' (.base n), ?_, ?_, ?_, ?_⟩
      · intro q hq n hn
        obtain ⟨i, rfl⟩ := mem_argNames hn
        rfl
      · exact h0.here
      · exact h0.others
      · refine hall _ ⟨h0.here, h0.others, ?_⟩
        rw [← hρ0, ← hfn]
        rw [show (argNames R p).map (fun n => match n with
          | .loc k => σ0 (.loc k)
          | n => ρ' (.base n)) = (basePositions R p).map ρ' by
            simp only [basePositions, List.map_map]
            refine List.map_congr_left fun n hn => ?_
            obtain ⟨i, rfl⟩ := mem_argNames hn
            rfl]
        exact List.map_congr_left hρ'

/-! ### All contractions -/

section
variable {names : Nat → Pred} {dead : List Pred} {k : Nat} {G : LGraph T} {x : Nested T}

theorem Contracts.loopArgs (hinj : ∀ i j, names i = names j → i = j) (h : Contracts names k R G x) :
    ∀ {dead : List Pred}, NestOk dead (Later names k) R G → Flat x.loops → ∀ c ∈ x.loops, x.R.args c.vertex = contractedArgs R c.vs := by
  induction h with
  | done hc => intro _ _ _; simp
  | @step k R G x vs hp hl hcs ih =>
    intro dead hok hfl c hc
    have hn := hok.next hinj hp
    rcases List.mem_cons.1 hc with rfl | hc
    · rw [hcs.vertices.2.2.1, contract_args_new]
      intro c hc e
      obtain ⟨⟨k', _, _, h2⟩, _⟩ := hcs.facts hinj hn
      obtain ⟨j, hj, _, e'⟩ := h2 c hc
      have := hinj j k (e'.symm.trans e)
      omega
    · rw [ih hn (fun a ha b hb => hfl a (by simp [ha]) b (by simp [hb])) c hc, contractedArgs_contract]
      exact hfl _ (List.mem_cons_self ..) c (by simp [hc])

theorem nestedDefs_get {Q : KeepOnly T} {simp : Fla T → Fla T} {locs : List Pred} {D : Defs T} :
    ∀ {loops : List LoopContraction} {L : Defs T}, nestedDefs Q simp R G locs D loops = some L →
    (∀ p, (∀ c ∈ loops, p ∉ nestedOld G c) → L.get p = none) ∧
    (loops.Pairwise (fun c d => ∀ p ∈ c.vs, p ∉ d.vs) → ∀ c ∈ loops, ∀ p ∈ nestedOld G c, ∃ inv d, D.get c.vertex = some inv ∧
      nestedInvariant Q simp R locs inv p = some d ∧ L.get p = some d)
  | [], L, h => by cases h; simp [Defs.get]
  | c :: cs, L, h => by
    simp only [nestedDefs, Option.bind_eq_bind, Option.bind_eq_some_iff, Option.pure_def, Option.some.injEq] at h
    obtain ⟨inv, hinv, new, hnew, rest, hrest, rfl⟩ := h
    obtain ⟨h1, h2⟩ := nestedDefs_get hrest
    have hget := get_mapM hnew
    refine ⟨fun p hp => ?_, fun hd c' hc' p hp => ?_⟩
    · simp only [List.mem_cons, forall_eq_or_imp] at hp
      rw [Defs.get_append, hget, if_neg hp.1, h1 p hp.2]; rfl
    · rw [List.pairwise_cons] at hd
      rcases List.mem_cons.1 hc' with rfl | hc'
      · obtain ⟨i, hi⟩ := List.getElem?_of_mem hp
        obtain ⟨b, _, hb⟩ := (mapM_option_spec hnew).2 i p hi
        rw [Option.map_eq_some_iff] at hb
        obtain ⟨d, hd, _⟩ := hb
        exact ⟨inv, d, hinv, hd, by rw [Defs.get_append, hget, if_pos hp, hd]; rfl⟩
      · obtain ⟨inv', d, a1, a2, a3⟩ := h2 hd.2 c' hc' p hp
        refine ⟨inv', d, a1, a2, ?_⟩
        rw [Defs.get_append, hget, if_neg, a3]
        · rfl
        · intro hm
          simp only [nestedOld, List.mem_filter, Bool.and_eq_true, decide_eq_true_eq] at hp hm
          exact hd.1 c' hc' p hm.2.2 hp.2.2

theorem nestedDefs_none {Q : KeepOnly T} {simp : Fla T → Fla T} {locs : List Pred} {D : Defs T} {c : LoopContraction}
    (hD : D.get c.vertex = none) : ∀ {loops : List LoopContraction}, c ∈ loops → nestedDefs Q simp R G locs D loops = none
  | [], h => by simp at h
  | c' :: cs, h => by
    rcases List.mem_cons.1 h with rfl | h
    · simp [nestedDefs, hD]
    · simp only [nestedDefs, nestedDefs_none hD h, Option.bind_eq_bind]
      cases D.get c'.vertex with
      | none => rfl
      | some inv => simp

theorem Defs.get_filter {D : Defs T} {q : Pred → Bool} {p : Pred} : Defs.get (D.filter fun d => q d.1) p = if q p then D.get p else none := by
  induction D with
  | nil => simp [Defs.get]
  | cons a D ih =>
    obtain ⟨a, d⟩ := a
    rw [List.filter_cons]
    simp only
    by_cases hp : p = a
    · subst hp
      cases hq : q p with
      | false => rw [hq] at ih; simpa using ih
      | true => simp [Defs.get_cons]
    · split
      · rw [Defs.get_cons, Defs.get_cons, if_neg hp, if_neg hp, ih]
      · rw [Defs.get_cons, if_neg hp, ih]

/-- Which symbols are which. -/
theorem Contracts.symbols (hinj : ∀ i j, names i = names j → i = j) (h : Contracts names k R G x) (hok : NestOk dead (Later names k) R G) :
    (∀ c ∈ x.loops, ¬ G.Vertex c.vertex ∧ c.vertex ≠ .tru ∧ c.vertex ≠ .fls) ∧
    (∀ c ∈ x.loops, ∀ p ∈ c.vs, ¬ x.G.Vertex p) := by
  obtain ⟨⟨k', hk', hf, hl⟩, _⟩ := h.facts hinj hok
  refine ⟨fun c hc => ?_, fun c hc p hp hv => ?_⟩
  · obtain ⟨j, h1, h2, h3⟩ := hl c hc
    have hlater : Later names k c.vertex := ⟨j, h1, h3⟩
    refine ⟨?_, fun e => hok.freshEnds.1 (e ▸ hlater), fun e => hok.freshEnds.2 (e ▸ hlater)⟩
    rintro ⟨e, he, h4 | h4⟩
    · exact (hok.fresh e he).2 (h4 ▸ hlater)
    · exact (hok.fresh e he).1 (h4 ▸ hlater)
  · have hd : p ∈ dead ++ x.loops.flatMap LoopContraction.vs := by
      simp only [List.mem_append, List.mem_flatMap]; exact .inr ⟨c, hc, hp⟩
    obtain ⟨e, he, h4 | h4⟩ := hv
    · exact (hf.live e he).2 (h4 ▸ hd)
    · exact (hf.live e he).1 (h4 ▸ hd)

theorem nestedOld_eq (hinj : ∀ i j, names i = names j → i = j) (h : Contracts names k R G x) (hok : NestOk dead (Later names k) R G)
    (hfl : Flat x.loops) {c : LoopContraction} (hc : c ∈ x.loops) : (∀ p, p ∈ nestedOld G c ↔ p ∈ c.vs) ∧ ∀ p ∈ c.vs, p ∈ nestedLocs G x.loops := by
  have hd := (h.disjoint hinj hok).2 c hc
  have hv : ∀ p ∈ c.vs, p ≠ .tru ∧ p ≠ .fls ∧ p ∈ getVertices G := by
    intro p hp
    have h1 : p ≠ .tru := fun e => hd.2.1 (e ▸ hp)
    have h2 : p ≠ .fls := fun e => hd.2.2.1 (e ▸ hp)
    refine ⟨h1, h2, (mem_getVertices_iff h1 h2).2 ?_⟩
    rcases h.vertices.2.2.2 c hc p hp with hg | ⟨c', hc', rfl⟩
    · exact hg
    · exact absurd hp (hfl c' hc' c hc)
  refine ⟨fun p => ?_, fun p hp => ?_⟩
  · simp only [nestedOld, List.mem_filter, Bool.and_eq_true, decide_eq_true_eq]
    exact ⟨fun h => h.2.2, fun hp => ⟨(hv p hp).2.2, ⟨(hv p hp).1, (hv p hp).2.1⟩, hp⟩⟩
  · simp only [nestedLocs, List.mem_filter, Bool.and_eq_true, decide_eq_true_eq, List.any_eq_true]
    exact ⟨(hv p hp).2.2, (hv p hp).1, c, hc, hp⟩

/-- A SAFE witness of the contracted graph becomes one of the initial graph. -/
theorem nestedValidity_ok (hinj : ∀ i j, names i = names j → i = j) (h : Contracts names k R G x) (hok : NestOk dead (Later names k) R G)
    (hfl : Flat x.loops) {Q : KeepOnly T} (hQ : Q.Exact) {simp : Fla T → Fla T} (hsi : SimplifierOk simp) {D D' : Defs T}
    (hD : LSafeWitness x.R x.G D) (hv : nestedValidity Q simp R G x.loops D = some D') : LSafeWitness R G D' := by
  simp only [nestedValidity, Option.map_eq_some_iff] at hv
  obtain ⟨new, hnew, rfl⟩ := hv
  obtain ⟨g1, g2⟩ := nestedDefs_get hnew
  obtain ⟨hdis, hdis2⟩ := h.disjoint hinj hok
  have g2 := g2 hdis
  obtain ⟨hsy1, hsy2⟩ := h.symbols hinj hok
  obtain ⟨v1, v2, v3, v4⟩ := h.vertices
  have hold := fun {c} (hc : c ∈ x.loops) => nestedOld_eq hinj h hok hfl hc
  -- definitions
  have hother : ∀ p, (∀ c ∈ x.loops, c.vertex ≠ p) → (∀ c ∈ x.loops, p ∉ c.vs) →
      Defs.get ((D.filter fun d => !x.loops.any fun c => decide (c.vertex = d.1)) ++ new) p = D.get p := by
    intro p h1 h2
    rw [Defs.get_append, Defs.get_filter (q := fun p => !x.loops.any fun c => decide (c.vertex = p)),
      if_pos (by simp; exact h1), g1 p fun c hc hm => h2 c hc (((hold hc).1 p).1 hm)]
    simp
  have hloop : ∀ c ∈ x.loops, Defs.get ((D.filter fun d => !x.loops.any fun c => decide (c.vertex = d.1)) ++ new) c.vertex = none := by
    intro c hc
    rw [Defs.get_append, Defs.get_filter (q := fun p => !x.loops.any fun c => decide (c.vertex = p)),
      if_neg (by simp; exact ⟨c, hc, rfl⟩), g1]
    · rfl
    · intro c' hc' hm
      exact hfl c hc c' hc' (((hold hc').1 _).1 hm)
  have hcon : ∀ c ∈ x.loops, ∀ p ∈ c.vs, ∃ inv d, D.get c.vertex = some inv ∧
      nestedInvariant Q simp R (nestedLocs G x.loops) inv p = some d ∧
      Defs.get ((D.filter fun d => !x.loops.any fun c => decide (c.vertex = d.1)) ++ new) p = some d := by
    intro c hc p hp
    obtain ⟨inv, d, a1, a2, a3⟩ := g2 c hc p (((hold hc).1 p).2 hp)
    refine ⟨inv, d, a1, a2, ?_⟩
    have hn : D.get p = none := by
      cases hg : D.get p with
      | none => rfl
      | some d =>
        rcases hD.only p (by rw [hg]; rfl) with hv | rfl | rfl
        · exact absurd hv (hsy2 c hc p hp)
        · exact absurd hp (hdis2 c hc).2.1
        · exact absurd hp (hdis2 c hc).2.2.1
    rw [Defs.get_append, Defs.get_filter (q := fun p => !x.loops.any fun c => decide (c.vertex = p)), a3]
    split
    · rw [hn]; rfl
    · rfl
  have hbase : ∀ c ∈ x.loops, ∀ inv, D.get c.vertex = some inv → ∀ y ∈ inv.vars, ∃ n ∈ contractedArgs R c.vs, y = .base n := by
    intro c hc inv hi y hy
    have := hD.closed _ _ hi y hy
    simp only [PRepr.baseVars, h.loopArgs hinj hok hfl c hc, List.mem_map] at this
    obtain ⟨n, hn, rfl⟩ := this
    exact ⟨n, hn, rfl⟩
  generalize hDD : (D.filter fun d => !x.loops.any fun c => decide (c.vertex = d.1)) ++ new = D' at hother hloop hcon
  clear hDD
  have hnl : ∀ p, G.Vertex p → ∀ c ∈ x.loops, c.vertex ≠ p := fun p hp c hc e => (hsy1 c hc).1 (e ▸ hp)
  -- interpretations
  have hint : ∀ f : Fact T, G.Vertex f.1 → f.2.length = (R.args f.1).length →
      (Defs.interp R D' f ↔ pullAll R x.loops (D.interp x.R) f) := by
    intro f hv hlen
    by_cases hc : ∃ c ∈ x.loops, f.1 ∈ c.vs
    · obtain ⟨c, hc, hp⟩ := hc
      obtain ⟨inv, d, a1, a2, a3⟩ := hcon c hc f.1 hp
      rw [show f = (f.1, f.2) from rfl, pullAll_new hfl hdis hc hp]
      have hsp := (nestedInvariant_spec hQ hsi hok.wf (hold hc).2 (hbase c hc inv a1) hp a2).2 f.2 hlen
      constructor
      · rintro ⟨d', hd', hρ⟩ σ hσ
        simp only [a3, Option.some.injEq] at hd'
        subst hd'
        refine ⟨inv, a1, bVal σ, ?_, hsp.1 hρ σ hσ⟩
        simp [encFact, PRepr.baseVars, h.loopArgs hinj hok hfl c hc, bVal]
      · intro hall
        refine ⟨d, a3, hsp.2 fun σ hσ => ?_⟩
        obtain ⟨inv', hi', ρ, hρ, hh⟩ := hall σ hσ
        simp only [encFact, a1, Option.some.injEq] at hi' hρ
        subst hi'
        refine (Fla.holds_congr fun y hy => ?_).1 hh
        obtain ⟨n, hn, rfl⟩ := hbase c hc inv a1 y hy
        simp only [PRepr.baseVars, h.loopArgs hinj hok hfl c hc, List.map_map] at hρ
        exact List.map_inj_left.1 hρ n hn
    · have hc : ∀ c ∈ x.loops, f.1 ∉ c.vs := fun c hcm hm => hc ⟨c, hcm, hm⟩
      rw [pullAll_old hc]
      simp only [Defs.interp, hother f.1 (hnl f.1 hv) hc, PRepr.baseVars, v3 f.1 (hnl f.1 hv)]
  refine ⟨?_, ?_, ?_, ?_, ?_, ?_⟩
  · intro p d hd y hy
    by_cases hl : ∃ c ∈ x.loops, c.vertex = p
    · obtain ⟨c, hc, rfl⟩ := hl
      rw [hloop c hc] at hd; cases hd
    have hl : ∀ c ∈ x.loops, c.vertex ≠ p := fun c hc e => hl ⟨c, hc, e⟩
    by_cases hc : ∃ c ∈ x.loops, p ∈ c.vs
    · obtain ⟨c, hc, hp⟩ := hc
      obtain ⟨inv, d', a1, a2, a3⟩ := hcon c hc p hp
      rw [a3] at hd; cases hd
      exact (nestedInvariant_spec hQ hsi hok.wf (hold hc).2 (hbase c hc inv a1) hp a2).1 y hy
    · have hc : ∀ c ∈ x.loops, p ∉ c.vs := fun c hcm hm => hc ⟨c, hcm, hm⟩
      rw [hother p hl hc] at hd
      have := hD.closed p d hd y hy
      simpa only [PRepr.baseVars, v3 p hl] using this
  · rw [hother .tru (fun c hc => (hsy1 c hc).2.1) fun c hc => (hdis2 c hc).2.1]; exact hD.tru
  · rw [hother .fls (fun c hc => (hsy1 c hc).2.2) fun c hc => (hdis2 c hc).2.2.1]; exact hD.fls
  · intro e he f g hF hi
    have hfv : G.Vertex f.1 := ⟨e, he, .inr hF.src⟩
    have hgv : G.Vertex g.1 := ⟨e, he, .inl hF.tgt⟩
    have hl1 : f.2.length = (R.args f.1).length := by
      obtain ⟨ρ, _, e1, _⟩ := hF
      rw [e1]; simp [LEdge.srcFact, PRepr.stateVars]
    have hl2 : g.2.length = (R.args g.1).length := by rw [hF.tgt]; exact fires_length hF
    rw [hint g hgv hl2]
    exact h.closed hinj (I := D.interp x.R) (fun e he f g hF hi => hD.model e he f g hF hi) hok e he f g hF ((hint f hfv hl1).1 hi)
  · intro p hp
    by_cases hc : ∃ c ∈ x.loops, p ∈ c.vs
    · obtain ⟨c, hc, hp⟩ := hc
      obtain ⟨inv, d', a1, a2, a3⟩ := hcon c hc p hp
      rw [a3]; rfl
    · have hc : ∀ c ∈ x.loops, p ∉ c.vs := fun c hcm hm => hc ⟨c, hcm, hm⟩
      rw [hother p (hnl p hp) hc]
      exact hD.complete p (v2 p hp hc)
  · intro p hp
    by_cases hl : ∃ c ∈ x.loops, c.vertex = p
    · obtain ⟨c, hc, rfl⟩ := hl
      rw [hloop c hc] at hp; cases hp
    have hl : ∀ c ∈ x.loops, c.vertex ≠ p := fun c hc e => hl ⟨c, hc, e⟩
    by_cases hc : ∃ c ∈ x.loops, p ∈ c.vs
    · obtain ⟨c, hc, hpc⟩ := hc
      rcases v4 c hc p hpc with hv | ⟨c', hc', e⟩
      · exact .inl hv
      · exact absurd e (hl c' hc')
    · have hc : ∀ c ∈ x.loops, p ∉ c.vs := fun c hcm hm => hc ⟨c, hcm, hm⟩
      rw [hother p hl hc] at hp
      rcases hD.only p hp with hv | hv
      · rcases v1 p hv with hv | ⟨c, hc, e⟩
        · exact .inl hv
        · exact absurd e (hl c hc)
      · exact .inr hv

/-- After contracting a contracted vertex there is no definition for it, and the translation fails. -/
theorem nestedValidity_none (hinj : ∀ i j, names i = names j → i = j) (h : Contracts names k R G x) (hok : NestOk dead (Later names k) R G)
    (hfl : ¬ Flat x.loops) {Q : KeepOnly T} {simp : Fla T → Fla T} {D : Defs T}
    (hD : LSafeWitness x.R x.G D) : nestedValidity Q simp R G x.loops D = none := by
  simp only [Flat, Classical.not_forall, Classical.not_not] at hfl
  obtain ⟨c, hc, d, hd, hm⟩ := hfl
  obtain ⟨hsy1, hsy2⟩ := h.symbols hinj hok
  have hn : D.get c.vertex = none := by
    cases hg : D.get c.vertex with
    | none => rfl
    | some d' =>
      rcases hD.only _ (by rw [hg]; rfl) with hv | hv | hv
      · exact absurd hv (hsy2 d hd _ hm)
      · exact absurd hv (hsy1 c hc).2.1
      · exact absurd hv (hsy1 c hc).2.2
  simp [nestedValidity, nestedDefs_none hn hc]

end

end Golem
