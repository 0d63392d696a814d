import Verif.Lemmas.SingleLoopTS
import Verif.Props.Bmc
import Verif.Props.Imc

/-! Properties C16 and C17: the single-loop transformation and its back-translation. -/

namespace Golem
variable {T : Theory}

section
variable {R : PRepr} {N : Pred} {G : LGraph T}

theorem final_noStray {S : Smt T} {eI eL eQ : LEdge T} (hs : TSShape (finalGraph S R N G) N eI eL eQ)
    (hall : ∀ e ∈ finalGraph S R N G, e = eI ∨ e = eL ∨ e = eQ) : (finalGraph S R N G).NoStray := by
  have hw : Walk (finalGraph S R N G).succ .tru N :=
    .snoc (.refl _) (List.mem_map.2 ⟨eI, mem_out.2 ⟨hs.mI, hs.sI⟩, hs.tI⟩)
  intro e he
  rcases hall e he with rfl | rfl | rfl
  · rw [hs.sI]; exact .refl _
  · rw [hs.sL]; exact hw
  · rw [hs.sQ]; exact hw

/-- The transition system, in the terms of the extraction of C18. -/
theorem singleLoop_shape (h : SLOk R N G) (S : Smt T) (E : ElimExcept T) (hin : ∃ e ∈ G, e.src = .tru)
    (hout : ∃ e ∈ G, e.tgt = .fls) : ∃ eI eL eQ, TSShape (finalGraph S R N G) N eI eL eQ ∧
      (∀ e ∈ finalGraph S R N G, e = eI ∨ e = eL ∨ e = eQ) ∧
      (∀ l ∈ finalGraph S R N G, l.LabelOk (R.contract N (loopVertices G))) ∧
      (finalGraph S R N G).AuxDisjoint (R.contract N (loopVertices G)) ∧
      (∀ r, lgraphRules (R.contract N (loopVertices G)) (finalGraph S R N G) r ↔
        lgraphRules (R.contract N (loopVertices G)) (contractedGraph R N G) r) ∧
      singleLoop S R E N G = some (shapeTS (R.contract N (loopVertices G)) E (finalGraph S R N G) N eI eL eQ) := by
  obtain ⟨eI, eL, eQ, hs, hall, hl, hd, hr⟩ := final_shape h S hin hout
  refine ⟨eI, eL, eQ, hs, hall, hl, hd, hr, ?_⟩
  rw [singleLoop, toTransitionSystemNoQuery, hs.order]
  exact toTransitionSystem_eq hs (final_noStray hs hall)

/-- **C16** The transition system of the single-loop transformation is well formed, keeps auxiliary variables apart, and has a
path of `k` steps to a bad state exactly if the graph has an error path of `k + 2` edges. -/
theorem C16_single_loop (h : SLOk R N G) (S : Smt T) {E : ElimExcept T} (hE : E.Exact) (hin : ∃ e ∈ G, e.src = .tru)
    (hout : ∃ e ∈ G, e.tgt = .fls) : ∃ ts, singleLoop S R E N G = some ts ∧ ts.WF ∧ ts.AuxSep ∧
      ∀ k, ts.sem.BadIn k ↔ ∃ es : List (LEdge T), (∀ e ∈ es, e ∈ G) ∧ es.length = k + 2 ∧
        LFeasible R es trueFact falseFact := by
  obtain ⟨eI, eL, eQ, hs, hall, hl, hd, hr, hts⟩ := singleLoop_shape h S E hin hout
  have hR' := contract_wf h.contr
  refine ⟨_, hts, shape_wf hR' hE hs hl, shape_auxSep hR' hE hs hl hd, fun k => ?_⟩
  rw [shape_badIn hR' hE hs (hl _ hs.mI), ← contracted_paths h]
  constructor
  · intro hp
    obtain ⟨es', h1, h2, h3⟩ := paths_of_rules (G' := contractedGraph R N G) (fun r => (hr r).1) hp (by
      intro e he
      simp only [List.mem_cons, List.mem_append, List.mem_replicate, List.not_mem_nil, or_false] at he
      rcases he with rfl | ⟨_, rfl⟩ | rfl
      · exact hs.mI
      · exact hs.mL
      · exact hs.mQ)
    exact ⟨es', h1, by rw [h2]; simp, h3⟩
  · rintro ⟨es, h1, h2, h3⟩
    obtain ⟨es', h4, h5, h6⟩ := paths_of_rules (G' := finalGraph S R N G) (fun r => (hr r).2) h3 h1
    obtain ⟨k', rfl⟩ := shape_paths (E := E) hR' hE hs es' h4 h6
    obtain rfl : k = k' := by rw [← h5] at h2; simpa using h2.symm
    exact h6

/-- The least number of edges of an error path. -/
theorem two_le_path (h : SLOk R N G) {es : List (LEdge T)} (hes : ∀ e ∈ es, e ∈ G)
    (hp : LFeasible R es trueFact falseFact) : 2 ≤ es.length := by
  generalize hf : (trueFact : Fact T) = f at hp
  generalize hg : (falseFact : Fact T) = g at hp
  cases hp with
  | nil => subst hf; cases hg
  | @cons e es _ k _ hF hp =>
    cases hp with
    | nil =>
      subst hf hg
      exact absurd ⟨hF.src.symm, hF.tgt.symm⟩ (h.noDirect e (hes e (by simp)))
    | cons => simp

/-- **C16** In particular the system is unsafe exactly if the graph is. -/
theorem C16_unsafe (h : SLOk R N G) (S : Smt T) {E : ElimExcept T} (hE : E.Exact) (hin : ∃ e ∈ G, e.src = .tru)
    (hout : ∃ e ∈ G, e.tgt = .fls) {ts : TS T} (hts : singleLoop S R E N G = some ts) : ts.sem.Unsafe ↔ G.Unsafe R := by
  obtain ⟨ts', hts', _, _, hk⟩ := C16_single_loop h S hE hin hout
  rw [hts] at hts'; cases hts'
  constructor
  · rintro ⟨k, hb⟩
    obtain ⟨es, h1, _, h3⟩ := (hk k).1 hb
    exact ⟨es, h1, h3⟩
  · rintro ⟨es, h1, h3⟩
    have := two_le_path h h1 h3
    exact ⟨es.length - 2, (hk _).2 ⟨es, h1, by omega, h3⟩⟩

/-! ### Invariants -/

/-- Values of names as a valuation of the current state variables. -/
def stVal (σ : Name → T.Val) : Valuation T := fun x => match x with
  | .ver n _ => σ n
  | _ => T.vT

/-- A state at `p` with arguments `v`, locations being proper truth values. -/
structure AtC (R : PRepr) (vs : List Pred) (p : Pred) (v : List T.Val) (σ : Name → T.Val) : Prop where
  here : σ (locName p) = T.vT
  others : ∀ q ∈ vs, q ≠ p → σ (locName q) = T.vF
  args : (argNames R p).map σ = v

theorem AtC.atLoc {vs : List Pred} {p : Pred} {v : List T.Val} {σ : Name → T.Val} (h : AtC R vs p v σ) : AtLoc R vs p v σ :=
  ⟨by rw [h.here]; exact T.truth_vT, fun q hq hne => by rw [h.others q hq hne]; exact T.truth_vF, h.args⟩

theorem exists_atC (R : PRepr) (vs : List Pred) (p : Pred) (v : List T.Val) (hv : v.length = (R.args p).length) :
    ∃ σ : Name → T.Val, AtC R vs p v σ := by
  refine ⟨fun n => match n with
    | .loc k => if k = p.symNo then T.vT else T.vF
    | .arg _ i => v[i]?.getD T.vT
    | _ => T.vT, ?_, ?_, ?_⟩
  · simp [locName]
  · intro q hq hne
    simp only [locName]
    rw [if_neg (fun h => hne (symNo_inj h))]
  · apply List.ext_getElem?
    intro i
    simp only [argNames, List.map_map, List.getElem?_map]
    by_cases hi : i < (R.args p).length
    · rw [List.getElem?_range hi]
      have : i < v.length := by omega
      simp [List.getElem?_eq_getElem this]
    · rw [List.getElem?_eq_none (by simp; omega), List.getElem?_eq_none (by omega)]
      rfl

theorem den_stVal {ts : TS T} {I : Fla T} (hv : ts.stateVars = (R.contract N (loopVertices G)).stateVars N) (hI : ts.Over I)
    (σ : Name → T.Val) : ts.den I ((contractedArgs R (loopVertices G)).map σ) ↔ I.holds (stVal σ) := by
  constructor
  · rintro ⟨ρ, h1, h2⟩
    rw [hv, state_new] at h2
    refine (Fla.holds_congr fun x hx => ?_).1 h1
    have hx := hI x hx
    rw [hv] at hx
    obtain ⟨n, hn, rfl⟩ := List.mem_map.1 hx
    rw [contract_args_new] at hn
    exact List.map_inj_left.1 h2 n hn
  · intro h1
    refine ⟨_, h1, ?_⟩
    rw [hv, state_new]
    rfl

theorem locSubst_loc {vs : List Pred} {p q : Pred} (hq : q ∈ vs) :
    (locSubst (T := T) vs p).fn (.ver (locName q) 0) = .const (if q = p then T.vT else T.vF) := by
  unfold SubstMap.fn
  have : SubstMap.find (locSubst (T := T) vs p) (.ver (locName q) 0) = some (.const (if q = p then T.vT else T.vF)) := by
    unfold SubstMap.find locSubst
    induction vs with
    | nil => simp at hq
    | cons a vs ih =>
      simp only [List.map_cons, List.lookup]
      by_cases ha : q = a
      · subst ha; simp
      · have hb : (Var.ver (locName q) 0 == Var.ver (locName a) 0) = false := by
          simp only [beq_eq_false_iff_ne, ne_eq, Var.ver.injEq, and_true]
          intro h
          exact ha (symNo_inj (by simpa [locName] using h))
        rw [hb]
        exact ih (by simpa [ha] using hq)
  rw [this]; rfl

theorem locSubst_other {vs : List Pred} {p : Pred} {x : Var} (hx : ∀ q ∈ vs, x ≠ .ver (locName q) 0) :
    (locSubst (T := T) vs p).fn x = .var x := by
  unfold SubstMap.fn
  rw [SubstMap.find_none]
  · rfl
  · rintro ⟨a, b⟩ hm rfl
    obtain ⟨q, hq, e⟩ := List.mem_map.1 hm
    simp only [Prod.mk.injEq] at e
    exact hx q hq e.1.symm

theorem mem_positionVars {p : Pred} {n : Name} : Var.ver n 0 ∈ positionVars R p ↔ n ∈ argNames R p := by
  simp [positionVars]

theorem positionVars_nodup (R : PRepr) (p : Pred) : (positionVars R p).Nodup :=
  nodup_map_of_inj (by intro a b h; cases h; rfl) (argNames_nodup R p)

/-- The invariant with the locations fixed. -/
theorem locFixed_holds {vs : List Pred} {I : Fla T} (hI : ∀ x ∈ I.vars, ∃ n ∈ contractedArgs R vs, x = .ver n 0) {p : Pred}
    (hp : p ∈ vs) (ρ : Valuation T) : (varSubstitute I (locSubst vs p)).holds ρ ↔
      ∃ σ : Name → T.Val, (∀ q ∈ vs, ∀ n ∈ argNames R q, σ n = ρ (.ver n 0)) ∧ σ (locName p) = T.vT ∧
        (∀ q ∈ vs, q ≠ p → σ (locName q) = T.vF) ∧ I.holds (stVal σ) := by
  rw [varSubstitute_holds]
  constructor
  · intro h
    refine ⟨fun n => ((locSubst vs p).fn (.ver n 0)).eval ρ, ?_, ?_, ?_, ?_⟩
    · intro q hq n hn
      obtain ⟨i, rfl⟩ := mem_argNames hn
      simp only
      rw [locSubst_other (by intro q' _; simp [locName])]
      rfl
    · simp only [locSubst_loc hp, if_true]; rfl
    · intro q hq hne
      simp only [locSubst_loc hq, if_neg hne]; rfl
    · refine (Fla.holds_congr fun x hx => ?_).1 h
      obtain ⟨n, _, rfl⟩ := hI x hx
      rfl
  · rintro ⟨σ, h1, h2, h3, h4⟩
    refine (Fla.holds_congr fun x hx => ?_).1 h4
    obtain ⟨n, hn, rfl⟩ := hI x hx
    rcases List.mem_append.1 hn with hn | hn
    · obtain ⟨q, hq, rfl⟩ := List.mem_map.1 hn
      rw [locSubst_loc hq]
      by_cases hqp : q = p
      · subst hqp; simpa [stVal, Tm.eval] using h2
      · simpa [stVal, Tm.eval, hqp] using h3 q hq hqp
    · obtain ⟨q, hq, hn⟩ := List.mem_flatMap.1 hn
      have := h1 q hq n hn
      obtain ⟨i, rfl⟩ := mem_argNames hn
      rw [locSubst_other (by intro q' _; simp [locName])]
      exact this

/-- What is assumed of the simplifications of OpenSMT: the result is equivalent and has no new variables. -/
structure SimplifierOk (simp : Fla T → Fla T) : Prop where
  equiv : ∀ f, ∀ ρ : Valuation T, (simp f).holds ρ ↔ f.holds ρ
  vars : ∀ f, ∀ x ∈ (simp f).vars, x ∈ f.vars

/-- The definition of one vertex says that the invariant holds of all states at the vertex with these arguments. -/
theorem vertexInvariant_spec {Q : KeepOnly T} (hQ : Q.Exact) {simp : Fla T → Fla T} (hsi : SimplifierOk simp) (hR : R.WF)
    {vs : List Pred} {I : Fla T} (hI : ∀ x ∈ I.vars, ∃ n ∈ contractedArgs R vs, x = .ver n 0) {p : Pred} (hp : p ∈ vs)
    {d : Fla T} (h : vertexInvariant Q simp R vs I p = some d) :
    (∀ x ∈ d.vars, x ∈ R.baseVars p) ∧ ∀ v : List T.Val, v.length = (R.args p).length →
      ((∃ ρ : Valuation T, (R.baseVars p).map ρ = v ∧ d.holds ρ) ↔ ∀ σ, AtC R vs p v σ → I.holds (stVal σ)) := by
  simp only [vertexInvariant, Option.map_eq_some_iff] at h
  obtain ⟨g, hg, rfl⟩ := h
  have key : (∀ x ∈ g.vars, x ∈ positionVars R p) ∧ ∀ ρ : Valuation T, g.holds ρ ↔
      ∀ ρ' : Valuation T, (∀ x ∈ positionVars R p, ρ' x = ρ x) → (varSubstitute I (locSubst vs p)).holds ρ' := by
    split at hg
    · rw [Option.map_eq_some_iff] at hg
      obtain ⟨g', hg', rfl⟩ := hg
      obtain ⟨h1, h2⟩ := hQ _ _ _ hg'
      refine ⟨fun x hx => h1 x (by simpa [Fla.vars] using hx), fun ρ => ?_⟩
      simp only [Fla.holds]
      rw [h2]
      constructor
      · intro hn ρ' hρ'
        apply Classical.byContradiction
        intro hc
        exact hn ⟨ρ', hρ', by simp only [Fla.holds]; rw [hsi.equiv]; exact hc⟩
      · rintro hall ⟨ρ', hρ', hc⟩
        simp only [Fla.holds] at hc
        rw [hsi.equiv] at hc
        exact hc (hall ρ' hρ')
    · rename_i hno
      cases hg
      have hv : ∀ x ∈ (simp (varSubstitute I (locSubst vs p))).vars, x ∈ positionVars R p := by
        intro x hx
        simp only [List.any_eq_true, decide_eq_true_eq, not_exists, not_and] at hno
        exact Classical.byContradiction (hno x hx)
      refine ⟨hv, fun ρ => ?_⟩
      constructor
      · intro hh ρ' hρ'
        rw [← hsi.equiv]
        exact (Fla.holds_congr fun x hx => (hρ' x (hv x hx)).symm).1 hh
      · intro hall
        rw [hsi.equiv]
        exact hall ρ fun _ _ => rfl
  obtain ⟨hgv, hgh⟩ := key
  have hfn : ∀ ρ : Valuation T, (positionVars R p).map (fun x => (SubstMap.fn
      ((positionVars R p).zip ((R.args p).map fun n => Tm.var (.base n))) x).eval ρ) = (R.baseVars p).map ρ := by
    intro ρ
    have := map_fn_zip' (positionVars_nodup R p) (ts := (R.args p).map fun n => Tm.var (.base n))
      (by simp [positionVars, argNames_length]) ρ []
    simpa [List.map_map, Function.comp_def, Tm.eval, PRepr.baseVars] using this
  refine ⟨fun x hx => ?_, fun v hlen => ?_⟩
  · rw [varSubstitute, Fla.mem_vars_subst] at hx
    obtain ⟨y, hy, hx⟩ := hx
    have := fn_zip_mem (positionVars_nodup R p) (ts := (R.args p).map fun n => (Tm.var (.base n) : Tm T))
      (by simp [positionVars, argNames_length]) (hgv y hy) []
    rw [List.append_nil] at this
    obtain ⟨n, hn, e⟩ := List.mem_map.1 this
    rw [← e] at hx
    simp only [Tm.vars, List.mem_singleton] at hx
    subst hx
    exact List.mem_map.2 ⟨n, hn, rfl⟩
  · constructor
    · rintro ⟨ρ, hv, hh⟩ σ hσ
      rw [varSubstitute_holds, hgh] at hh
      have hh := hh (stVal σ) ?_
      · obtain ⟨σ', h1, h2, h3, h4⟩ := (locFixed_holds hI hp _).1 hh
        refine (Fla.holds_congr fun x hx => ?_).1 h4
        obtain ⟨n, hn, rfl⟩ := hI x hx
        show σ' n = σ n
        rcases List.mem_append.1 hn with hn | hn
        · obtain ⟨q, hq, rfl⟩ := List.mem_map.1 hn
          by_cases hqp : q = p
          · subst hqp; rw [h2, hσ.here]
          · rw [h3 q hq hqp, hσ.others q hq hqp]
        · obtain ⟨q, hq, hn⟩ := List.mem_flatMap.1 hn
          exact h1 q hq n hn
      · have e : (positionVars R p).map (stVal σ) = (positionVars R p).map (fun x => (SubstMap.fn
            ((positionVars R p).zip ((R.args p).map fun n => Tm.var (.base n))) x).eval ρ) := by
          rw [hfn, hv, ← hσ.args]
          simp [positionVars, List.map_map, Function.comp_def, stVal]
        exact List.map_inj_left.1 e
    · intro hall
      obtain ⟨σ0, h0⟩ := exists_atC R vs p v hlen
      have ⟨ρ0, hρ0⟩ : ∃ ρ0 : Valuation T, (R.baseVars p).map ρ0 = v := by
        exact exists_valuation (nodup_map_of_inj (by intro a b h; cases h; rfl) (hR.nodup p))
          (by simp [hlen])
      refine ⟨ρ0, hρ0, ?_⟩
      rw [varSubstitute_holds, hgh]
      intro ρ' hρ'
      rw [locFixed_holds hI hp]
      refine ⟨fun n => match n with
        | .loc k => σ0 (.loc k)
        | n => ρ' (.ver n 0), ?_, ?_, ?_, ?_⟩
      · intro q hq n hn
        obtain ⟨i, rfl⟩ := mem_argNames hn
        rfl
      · exact h0.here
      · exact h0.others
      · refine hall _ ⟨h0.here, h0.others, ?_⟩
        rw [← hρ0, ← hfn]
        rw [show (argNames R p).map (fun n => match n with
          | .loc k => σ0 (.loc k)
          | n => ρ' (.ver n 0)) = (positionVars R p).map ρ' by
            simp only [positionVars, List.map_map]
            refine List.map_congr_left fun n hn => ?_
            obtain ⟨i, rfl⟩ := mem_argNames hn
            rfl]
        exact List.map_congr_left hρ'

theorem get_mapM {F : Pred → Option (Fla T)} : ∀ {l : List Pred} {L : Defs T},
    (l.mapM fun p => (F p).map fun f => (p, f)) = some L → ∀ p, Defs.get L p = if p ∈ l then F p else none
  | [], L, h, p => by simp at h; subst h; simp [Defs.get]
  | a :: l, L, h, p => by
    simp only [List.mapM_cons, Option.bind_eq_bind, Option.bind_eq_some_iff, Option.map_eq_some_iff, Option.pure_def,
      Option.some.injEq] at h
    obtain ⟨_, ⟨f, hf, rfl⟩, L', hL', rfl⟩ := h
    rw [Defs.get_cons, get_mapM hL' p]
    by_cases hp : p = a
    · subst hp; simp [hf]
    · by_cases hpl : p ∈ l <;> simp [hp, hpl]

/-! ### SAFE -/

/-- A safe inductive invariant of the system, in terms of the graph. -/
theorem invariant_edges (h : SLOk R N G) {S : Smt T} {E : ElimExcept T} (hE : E.Exact) (hin : ∃ e ∈ G, e.src = .tru)
    (hout : ∃ e ∈ G, e.tgt = .fls) {ts : TS T} (hts : singleLoop S R E N G = some ts) {I : Fla T} (hI : ts.Over I)
    (hinv : ts.sem.SafeInductive (ts.den I)) :
    (∀ x ∈ I.vars, ∃ n ∈ contractedArgs R (loopVertices G), x = .ver n 0) ∧
    ∀ e ∈ G, ∀ v w, e.Fires R (e.src, v) (e.tgt, w) →
      (e.src = .tru → ∀ τ, AtLoc R (loopVertices G) e.tgt w τ → I.holds (stVal τ)) ∧
      (e.src ∈ loopVertices G → e.tgt ∈ loopVertices G → ∀ σ τ, AtLoc R (loopVertices G) e.src v σ →
        AtLoc R (loopVertices G) e.tgt w τ → I.holds (stVal σ) → I.holds (stVal τ)) ∧
      (e.src ∈ loopVertices G → e.tgt = .fls → ∀ σ, AtLoc R (loopVertices G) e.src v σ → ¬ I.holds (stVal σ)) := by
  obtain ⟨eI, eL, eQ, hs, hall, hl, hd, hr, hts'⟩ := singleLoop_shape h S E hin hout
  rw [hts] at hts'; cases hts'
  have hR' := contract_wf h.contr
  have hv : (shapeTS (R.contract N (loopVertices G)) E (finalGraph S R N G) N eI eL eQ).stateVars =
      (R.contract N (loopVertices G)).stateVars N := rfl
  have tr : ∀ l ∈ contractedGraph R N G, ∀ f g, l.Fires (R.contract N (loopVertices G)) f g →
      ∃ l' ∈ finalGraph S R N G, l'.Fires (R.contract N (loopVertices G)) f g := by
    intro l hl' f g hF
    obtain ⟨l', h1, f', hb, h2⟩ := lgraphRules_iff.1 ((hr ⟨[f], g⟩).2 (lgraphRules_iff.2 ⟨l, hl', f, rfl, hF⟩))
    simp only [List.cons.injEq, and_true] at hb
    subst hb
    exact ⟨l', h1, h2⟩
  refine ⟨fun x hx => ?_, fun e he v w hF => ⟨fun h1 τ hτ => ?_, fun h1 h2 σ τ hσ hτ hi => ?_, fun h1 h2 σ hσ hi => ?_⟩⟩
  · have := hI x hx
    rw [hv] at this
    obtain ⟨n, hn, rfl⟩ := List.mem_map.1 this
    exact ⟨n, by rwa [contract_args_new] at hn, rfl⟩
  · have h2 : e.tgt ∈ loopVertices G := by
      rcases h.cases he with hc | hc | hc
      · exact hc.2
      · rw [h1] at hc; exact absurd hc.1 h.contr.tru
      · rw [h1] at hc; exact absurd hc.1 h.contr.tru
    have hc : (crossEdge R N (loopVertices G) e).Fires (R.contract N (loopVertices G)) (e.src, v)
        (encFact R N (loopVertices G) τ) := (cross_in_fires h.contr (h.labelFresh e he) (by rw [h1]; exact h.contr.tru)
          (h.new e he).1 h2).2 ⟨τ, w, rfl, hτ, hF⟩
    obtain ⟨l', hl', hF'⟩ := tr _ ((mem_contracted h).2 (.inr ⟨e, he, rfl, .inl ⟨h1, h2⟩⟩)) _ _ hc
    have hv0 : v = [] := by
      obtain ⟨ρ, _, e1, _⟩ := hF
      simp only [LEdge.srcFact, h1, tru_state h.wf, Prod.mk.injEq, true_and] at e1
      simpa using e1
    have hsrc := hF'.src
    rcases hall l' hl' with rfl | rfl | rfl
    · rw [h1, hv0] at hF'
      exact (den_stVal hv hI τ).1 (hinv.init _ ((shape_init hR' hE hs (hl _ hs.mI) _).2 hF'))
    · rw [hs.sL] at hsrc; simp only [h1] at hsrc; exact absurd hsrc.symm h.newNe.1
    · rw [hs.sQ] at hsrc; simp only [h1] at hsrc; exact absurd hsrc.symm h.newNe.1
  · have hc : (loopEdge R N (loopVertices G) G).Fires (R.contract N (loopVertices G)) (encFact R N (loopVertices G) σ)
        (encFact R N (loopVertices G) τ) := (loop_fires h.contr).2 ⟨e, he, h1, h2, σ, τ, v, w, rfl, rfl, hσ, hτ, hF⟩
    obtain ⟨l', hl', hF'⟩ := tr _ ((mem_contracted h).2 (.inl rfl)) _ _ hc
    have hsrc := hF'.src
    have htgt := hF'.tgt
    rcases hall l' hl' with rfl | rfl | rfl
    · rw [hs.sI] at hsrc; exact absurd hsrc h.newNe.1
    · exact (den_stVal hv hI τ).1 (hinv.step _ _ ((den_stVal hv hI σ).2 hi) ((shape_step hs _ _).2 hF'))
    · rw [hs.tQ] at htgt; exact absurd htgt h.newNe.2
  · have hg : (e.tgt, w) = falseFact := by
      obtain ⟨ρ, _, _, e2⟩ := hF
      simp only [LEdge.tgtFact, h2, fls_next h.wf, Prod.mk.injEq, true_and] at e2
      rw [h2, e2]; rfl
    have hc : (crossEdge R N (loopVertices G) e).Fires (R.contract N (loopVertices G)) (encFact R N (loopVertices G) σ)
        falseFact := (cross_out_fires h.contr (h.labelFresh e he) h1 (h.new e he).2).2
          ⟨σ, rfl, hσ.here, by rw [hσ.args, ← hg]; exact hF⟩
    obtain ⟨l', hl', hF'⟩ := tr _ ((mem_contracted h).2 (.inr ⟨e, he, rfl, .inr ⟨h1, h2⟩⟩)) _ _ hc
    have hsrc := hF'.src
    have htgt := hF'.tgt
    rcases hall l' hl' with rfl | rfl | rfl
    · rw [hs.sI] at hsrc; exact absurd hsrc h.newNe.1
    · rw [hs.tL] at htgt; exact absurd htgt.symm h.newNe.2
    · exact hinv.safe _ ((den_stVal hv hI σ).2 hi) ((shape_bad hR' hE hs _).2 hF')

/-- **C17** The definitions built from a safe inductive invariant of the single-loop system are a SAFE witness of the graph. -/
theorem C17_invariant (h : SLOk R N G) {S : Smt T} {E : ElimExcept T} (hE : E.Exact) (hin : ∃ e ∈ G, e.src = .tru)
    (hout : ∃ e ∈ G, e.tgt = .fls) {ts : TS T} (hts : singleLoop S R E N G = some ts) {Q : KeepOnly T} (hQ : Q.Exact)
    {simp : Fla T → Fla T} (hsi : SimplifierOk simp) {I : Fla T} (hI : ts.Over I)
    (hinv : ts.sem.SafeInductive (ts.den I)) {D : Defs T} (hD : slInvariant Q simp R G I = some D) : LSafeWitness R G D := by
  obtain ⟨hIv, hed⟩ := invariant_edges h hE hin hout hts hI hinv
  simp only [slInvariant, Option.map_eq_some_iff] at hD
  obtain ⟨L, hL, rfl⟩ := hD
  have hget := get_mapM hL
  have hgt : Defs.get (trivialDefinitions ++ L) .tru = some .tt := rfl
  have hgf : Defs.get (trivialDefinitions ++ L) .fls = some .ff := rfl
  have hgl : ∀ p, p ≠ .tru → p ≠ .fls → Defs.get (trivialDefinitions ++ L) p =
      if p ∈ loopVertices G then vertexInvariant Q simp R (loopVertices G) I p else none := by
    intro p h1 h2
    rw [← hget p]
    simp [trivialDefinitions, Defs.get_cons, h1, h2]
  have hne : ∀ p ∈ loopVertices G, p ≠ .tru ∧ p ≠ .fls := fun p hp => (mem_loopVertices.1 hp).2
  have hsome : ∀ p ∈ loopVertices G, ∃ d, vertexInvariant Q simp R (loopVertices G) I p = some d := by
    intro p hp
    obtain ⟨i, hi⟩ := List.getElem?_of_mem hp
    obtain ⟨b, _, hb⟩ := (mapM_option_spec hL).2 i p hi
    rw [Option.map_eq_some_iff] at hb
    obtain ⟨d, hd, _⟩ := hb
    exact ⟨d, hd⟩
  have hint : ∀ p ∈ loopVertices G, ∀ v : List T.Val, v.length = (R.args p).length →
      (Defs.interp R (trivialDefinitions ++ L) (p, v) ↔ ∀ σ, AtC R (loopVertices G) p v σ → I.holds (stVal σ)) := by
    intro p hp v hv
    obtain ⟨d, hd⟩ := hsome p hp
    have hg : Defs.get (trivialDefinitions ++ L) p = some d := by rw [hgl p (hne p hp).1 (hne p hp).2, if_pos hp, hd]
    rw [← (vertexInvariant_spec hQ hsi h.wf hIv hp hd).2 v hv]
    constructor
    · rintro ⟨d', hd', ρ, h1, h2⟩
      simp only [hg, Option.some.injEq] at hd'
      subst hd'
      exact ⟨ρ, h1, h2⟩
    · rintro ⟨ρ, h1, h2⟩
      exact ⟨d, hg, ρ, h1, h2⟩
  refine ⟨?_, hgt, hgf, ?_, ?_, ?_⟩
  · intro p d hd x hx
    by_cases h1 : p = .tru
    · subst h1; rw [hgt] at hd; cases hd; simp [Fla.vars] at hx
    by_cases h2 : p = .fls
    · subst h2; rw [hgf] at hd; cases hd; simp [Fla.vars] at hx
    rw [hgl p h1 h2] at hd
    split at hd
    · rename_i hp
      exact (vertexInvariant_spec hQ hsi h.wf hIv hp hd).1 x hx
    · cases hd
  · intro e he f g hF hi
    have hsf := fact_eta hF.src
    have htf := fact_eta hF.tgt
    have hl2 : g.2.length = (R.args e.tgt).length := fires_length hF
    have hl1 : f.2.length = (R.args e.src).length := by
      obtain ⟨ρ, _, e1, _⟩ := hF
      rw [e1]; simp [LEdge.srcFact, PRepr.stateVars]
    rw [hsf, htf] at hF
    obtain ⟨k1, k2, k3⟩ := hed e he _ _ hF
    rcases h.cases he with hc | hc | hc
    · rw [htf, hint _ hc.2 _ hl2]
      exact fun τ hτ => k1 hc.1 τ hτ.atLoc
    · rw [hsf, hint _ hc.1 _ hl1] at hi
      rw [htf, hint _ hc.2 _ hl2]
      intro τ hτ
      obtain ⟨σ, hσ⟩ := exists_atC R (loopVertices G) e.src f.2 hl1
      exact k2 hc.1 hc.2 σ τ hσ.atLoc hτ.atLoc (hi σ hσ)
    · rw [hsf, hint _ hc.1 _ hl1] at hi
      obtain ⟨σ, hσ⟩ := exists_atC R (loopVertices G) e.src f.2 hl1
      exact absurd (hi σ hσ) (k3 hc.1 hc.2 σ hσ.atLoc)
  · intro p hp
    by_cases h1 : p = .tru
    · subst h1; rfl
    by_cases h2 : p = .fls
    · subst h2; rfl
    have hm : p ∈ loopVertices G := mem_loopVertices.2 ⟨hp, h1, h2⟩
    obtain ⟨d, hd⟩ := hsome p hm
    rw [hgl p h1 h2, if_pos hm, hd]; rfl
  · intro p hp
    by_cases h1 : p = .tru
    · exact .inr (.inl h1)
    by_cases h2 : p = .fls
    · exact .inr (.inr h2)
    rw [hgl p h1 h2] at hp
    split at hp
    · rename_i hm; exact .inl (mem_loopVertices.1 hm).1
    · cases hp

/-! ### UNSAFE -/

/-- The edges the walk collects are edges of the graph and lead from the entry to the exit. -/
theorem slWalk_spec (hid : (G.map LEdge.id).Nodup) {m : Valuation T} {k : Nat} : ∀ {n i : Nat} {v : Pred} {ids : List Nat},
    slWalk m k G (n + 1) i v = some ids → i + n = k + 1 →
    ids ≠ [] ∧ ∃ es : List (LEdge T), ids.mapM G.find = some es ∧ Chained v es .fls
  | n, i, v, ids, h, hin => by
    rw [slWalk] at h
    split at h
    · rename_i e hf
      have hm : e ∈ (G.out v).filter (canBeTaken m k i) := by rw [hf]; simp
      obtain ⟨hm, hc⟩ := List.mem_filter.1 hm
      obtain ⟨hmG, hsrc⟩ := mem_out.1 hm
      rw [Option.map_eq_some_iff] at h
      obtain ⟨ids', h', rfl⟩ := h
      refine ⟨by simp, ?_⟩
      cases n with
      | zero =>
        simp only [slWalk, Option.some.injEq] at h'
        subst h'
        have hi : i = k + 1 := by omega
        have ht : e.tgt = .fls := by
          unfold canBeTaken at hc
          split at hc
          · assumption
          · cases hc
        exact ⟨[e], by simp [LGraph.find_of_mem hid hmG], by simp [chained_cons, chained_nil, hsrc, ht]⟩
      | succ n =>
        obtain ⟨_, es, h1, h2⟩ := slWalk_spec hid h' (by omega)
        exact ⟨e :: es, by simp [List.mapM_cons, LGraph.find_of_mem hid hmG, h1], by simp [chained_cons, hsrc, h2]⟩
    · cases h

/-- **C17** A derivation built from an error path of the single-loop system is an UNSAFE witness of the graph. -/
theorem C17_errorPath {S : Smt T} (hS : S.Sound) (h : SLOk R N G) {k : Nat} {ds : List (DStep T)}
    (hds : slErrorPath S R N G k = .done (some ds)) : LUnsafeWitness R G ds ∧ ds.length = k + 3 := by
  unfold slErrorPath at hds
  simp only at hds
  split at hds
  · split at hds
    · cases hds
    · rename_i path hp
      obtain ⟨hne, es, h1, h2⟩ := slWalk_spec h.ids hp (by omega)
      split at hds
      · rename_i ds' hds'
        cases hds
        obtain ⟨hw, hcl, _⟩ := C27_fromErrorPath_sound hS h.wf h1 hne h2 hds'
        refine ⟨hw, ?_⟩
        have hlen : path.length = k + 2 := by
          have : ∀ {n i : Nat} {v : Pred} {ids : List Nat}, slWalk (S.model (slQuery (contractedGraph R N G) k)) k G n i v =
              some ids → ids.length = n := by
            intro n
            induction n with
            | zero => intro i v ids hh; simp only [slWalk, Option.some.injEq] at hh; rw [← hh]; rfl
            | succ n ih =>
              intro i v ids hh
              rw [slWalk] at hh
              split at hh
              · rw [Option.map_eq_some_iff] at hh
                obtain ⟨ids', hh', rfl⟩ := hh
                simp [ih hh']
              · cases hh
          exact this hp
        have := congrArg List.length hcl
        simp only [List.length_map, List.length_tail] at this
        obtain ⟨d, hd, _⟩ := hw.first
        have : ds.length ≠ 0 := by intro h0; rw [List.length_eq_zero_iff.1 h0] at hd; simp at hd
        omega
      · cases hds
      · cases hds
  · cases hds

/-- **C17** Translating an answer for the single-loop system gives a correct answer for the graph, with a correct witness. -/
theorem C17_translate {S S' : Smt T} (hS : S.Sound) (h : SLOk R N G) {E : ElimExcept T} (hE : E.Exact)
    (hin : ∃ e ∈ G, e.src = .tru) (hout : ∃ e ∈ G, e.tgt = .fls) {ts : TS T} (hts : singleLoop S' R E N G = some ts)
    {Q : KeepOnly T} (hQ : Q.Exact) {simp : Fla T → Fla T} (hsi : SimplifierOk simp) {r : TSResult T} (hr : TSAnswerOk ts r)
    {res : VerificationResult T} (hres : slTranslate S Q simp R N G r = .done res) :
    res.answer = r.answer ∧ GraphResultOk R G res := by
  have hu := C16_unsafe h S' hE hin hout hts
  cases r with
  | safeInv I =>
    simp only [slTranslate] at hres
    split at hres
    · rename_i D hD
      cases hres
      refine ⟨rfl, fun e => (by cases e), fun _ hg => ?_, fun D' e => ?_, fun _ e => (by cases e)⟩
      · exact hr.2.isSafe (hu.2 hg)
      · cases e; exact ⟨rfl, C17_invariant h hE hin hout hts hQ hsi hr.1 hr.2 hD⟩
    · cases hres
  | unsafeAt k =>
    have hun : G.Unsafe R := hu.1 ⟨k, hr⟩
    simp only [slTranslate] at hres
    split at hres
    · rename_i ds hds
      cases hres
      refine ⟨rfl, fun _ => hun, fun e => (by cases e), fun _ e => (by cases e), fun ds' e => ?_⟩
      cases e; exact ⟨rfl, (C17_errorPath hS h hds).1⟩
    · cases hres
      exact ⟨rfl, fun _ => hun, fun e => (by cases e), fun _ e => (by cases e), fun _ e => (by cases e)⟩
    · cases hres
    · cases hres
  | unknown =>
    simp only [slTranslate] at hres
    cases hres
    exact ⟨rfl, fun e => (by cases e), fun e => (by cases e), fun _ e => (by cases e), fun _ e => (by cases e)⟩

end

end Golem
