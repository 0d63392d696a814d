import Verif.Lemmas.LawiRun
import Verif.Props.SymbolicExecution
import Verif.Props.TPANetwork
import Verif.Props.CheckSat

/-!
C68: lazy abstraction with interpolants (`src/engine/Lawi.cc`).
-/

namespace Golem
variable {T : Theory}

/-! ### The SAFE witness -/

section
variable {E : LwEnv T} {s : LwState T}

theorem definitions_get (E : LwEnv T) (s : LwState T) : (E.definitions s).get .tru = some .tt ∧ (E.definitions s).get .fls = some .ff ∧
    ∀ p, p ≠ .tru → p ≠ .fls → (E.definitions s).get p = if p ∈ getVertices E.G then
      some (if s.finalLabels p = [] then .ff else (E.simp (Fla.disj (s.finalLabels p))).rename verToBase) else none := by
  refine ⟨rfl, rfl, fun p h1 h2 => ?_⟩
  have e1 : (p == Pred.tru) = false := by simpa using h1
  have e2 : (p == Pred.fls) = false := by simpa using h2
  simp only [LwEnv.definitions, Defs.get, trivialDefinitions, List.cons_append, List.nil_append, List.lookup, e1, e2]
  split
  · rename_i h; exact lookup_self_map (List.mem_filter.2 ⟨h, by simp [h1, h2]⟩)
  · rename_i h; exact lookup_map_none (fun h' => h (List.mem_filter.1 h').1)

theorem mem_finalLabels (h : LwTree E.G s) {p : Pred} (hp : p ≠ .tru) {f : Fla T} :
    f ∈ s.finalLabels p ↔ ∃ v, v < s.nodes.length ∧ s.isCovered v = false ∧ s.loc v = p ∧ s.label v = f := by
  unfold LwState.finalLabels
  simp only [List.mem_map, List.mem_filter, Bool.and_eq_true, Bool.not_eq_true', decide_eq_true_eq]
  constructor
  · rintro ⟨v, ⟨_, h2, h3⟩, rfl⟩
    refine ⟨v, ?_, h2, h3, rfl⟩
    apply Classical.byContradiction
    intro hn
    simp [LwState.loc, List.getElem?_eq_none (by omega : s.nodes.length ≤ v)] at h3
    exact hp h3.symm
  · rintro ⟨v, h1, h2, h3, rfl⟩
    exact ⟨v, ⟨mem_descendants h (h.anc_root v v (Nat.le_refl _) h1) h1, h2, h3⟩, rfl⟩

/-- When all leaves are covered, the labels of the vertices that are not are closed under the edges. -/
theorem LwInv.closed (h : LwInv E s) (hl : s.uncoveredLeaf = none) {v : Nat} (hv : v < s.nodes.length) (hc : s.isCovered v = false)
    {e : LEdge T} (he : e ∈ E.G) (hs : e.src = s.loc v) {ρ : Valuation T} (hh : (s.label v).holds ρ) (hf : e.fla.holds ρ) :
    e.tgt ≠ .fls ∧ ∃ w, w < s.nodes.length ∧ s.isCovered w = false ∧ s.loc w = e.tgt ∧ (s.label w).holds fun x => ρ (shift 1 x) := by
  have hcov : ∀ v ∈ s.leaves, s.isCovered v = true := by
    intro v hv
    unfold LwState.uncoveredLeaf at hl
    rw [List.find?_eq_none] at hl
    simpa using hl v (by simpa using hv)
  have hnf : ∀ w, w < s.nodes.length → s.isCovered w = false → s.loc w = .fls → ∀ ρ : Valuation T, ¬ (s.label w).holds ρ := by
    intro w hw hcw hlw
    rcases h.done w hw with hd | ⟨h1, _⟩ | ⟨_, h2⟩
    · rw [hcov w hd] at hcw; cases hcw
    · exact absurd hlw h1
    · exact h2
  have hfls : s.loc v ≠ .fls := fun hv' => hnf v hv hc hv' ρ hh
  obtain ⟨w, hw⟩ : ∃ w, s.parent w = some (v, e) := by
    rcases h.done v hv with hd | ⟨_, h2⟩ | ⟨h1, _⟩
    · rw [hcov v hd] at hc; cases hc
    · exact h2 e he hs
    · exact absurd h1 hfls
  obtain ⟨_, hwl, _, _, hwt⟩ := h.tree.par w v e hw
  have hlw := h.step w v e hw ρ hh hf
  have hend : ∃ w', w' < s.nodes.length ∧ s.isCovered w' = false ∧ s.loc w' = e.tgt ∧ (s.label w').holds fun x => ρ (shift 1 x) := by
    cases hcw : s.isCovered w with
    | false => exact ⟨w, hwl, hcw, hwt.symm, hlw⟩
    | true =>
      obtain ⟨a, b, hab, hm⟩ := (isCovered_iff h.tree).1 hcw
      have haw : a = w := by
        rcases hab.cases' with rfl | ⟨u, e', hp, ha⟩
        · rfl
        · rw [hw] at hp; cases hp
          rw [(isCovered_iff h.tree).2 ⟨a, b, ha, hm⟩] at hc; cases hc
      subst haw
      obtain ⟨_, c2, c3, c4, c5⟩ := h.cov _ hm
      exact ⟨b, c2, c5, by rw [hwt]; exact c3.symm, c4 _ hlw⟩
  refine ⟨?_, hend⟩
  intro ht
  obtain ⟨w', k1, k2, k3, k4⟩ := hend
  exact hnf w' k1 k2 (by rw [k3, ht]) _ k4

/-- The entry is never covered. -/
theorem LwInv.root_uncovered (h : LwInv E s) : s.isCovered 0 = false := by
  cases hc : s.isCovered 0 with
  | false => rfl
  | true =>
    obtain ⟨a, b, hab, hm⟩ := (isCovered_iff h.tree).1 hc
    have := hab.le h.tree
    obtain rfl : a = 0 := by omega
    obtain ⟨_, c2, _, _, c5⟩ := h.cov _ hm
    rw [(isCovered_iff h.tree).2 ⟨0, b, h.tree.anc_root b b (Nat.le_refl _) c2, hm⟩] at c5
    cases c5

theorem definitions_witness (hE : E.Ok) (h : LwInv E s) (hl : s.uncoveredLeaf = none) : LSafeWitness E.R E.G (E.definitions s) := by
  obtain ⟨ht, hfl, hg⟩ := definitions_get E s
  have hvars : ∀ p, p ≠ .tru → ∀ f ∈ s.finalLabels p, ∀ x ∈ f.vars, x ∈ E.R.stateVars p := by
    intro p hp f hf x hx
    obtain ⟨v, _, _, rfl, rfl⟩ := (mem_finalLabels h.tree hp).1 hf
    exact h.vars v x hx
  have hclosed : ∀ p d, (E.definitions s).get p = some d → ∀ x ∈ d.vars, x ∈ E.R.baseVars p := by
    intro p d hd x hx
    by_cases h1 : p = .tru
    · subst h1; rw [ht] at hd; cases hd; simp [Fla.vars] at hx
    · by_cases h2 : p = .fls
      · subst h2; rw [hfl] at hd; cases hd; simp [Fla.vars] at hx
      · rw [hg p h1 h2] at hd
        split at hd
        · split at hd
          · cases hd; simp [Fla.vars] at hx
          · cases hd
            obtain ⟨y, hy, rfl⟩ := Fla.mem_vars_rename.1 hx
            obtain ⟨f, hf, hy⟩ := Fla.mem_vars_disj.1 (hE.simpl.vars _ y hy)
            obtain ⟨n, hn, rfl⟩ := List.mem_map.1 (hvars p h1 f hf y hy)
            exact List.mem_map.2 ⟨n, hn, rfl⟩
        · cases hd
  -- a definition holds of the states in which the label of an uncovered vertex holds
  have hint : ∀ p, p ≠ .tru → p ≠ .fls → E.G.Vertex p → ∀ ρ : Valuation T,
      ((E.definitions s).interp E.R (p, (E.R.stateVars p).map ρ) ↔
        ∃ v, v < s.nodes.length ∧ s.isCovered v = false ∧ s.loc v = p ∧ (s.label v).holds ρ) := by
    intro p h1 h2 hV ρ
    have hd := hg p h1 h2
    rw [if_pos ((mem_getVertices_iff h1 h2).2 hV)] at hd
    have hex : (∃ v, v < s.nodes.length ∧ s.isCovered v = false ∧ s.loc v = p ∧ (s.label v).holds ρ) ↔
        ∃ f ∈ s.finalLabels p, f.holds ρ := by
      constructor
      · rintro ⟨v, k1, k2, k3, k4⟩
        exact ⟨_, (mem_finalLabels h.tree h1).2 ⟨v, k1, k2, k3, rfl⟩, k4⟩
      · rintro ⟨f, hf, hh⟩
        obtain ⟨v, k1, k2, k3, rfl⟩ := (mem_finalLabels h.tree h1).1 hf
        exact ⟨v, k1, k2, k3, hh⟩
    rw [hex]
    unfold Defs.interp
    simp only [hd]
    by_cases hnil : s.finalLabels p = []
    · rw [if_pos hnil, hnil]
      simp [Fla.holds]
    · rw [if_neg hnil]
      have key : ∀ σ : Valuation T, (E.R.baseVars p).map σ = (E.R.stateVars p).map ρ →
          (((E.simp (Fla.disj (s.finalLabels p))).rename verToBase).holds σ ↔ ∃ f ∈ s.finalLabels p, f.holds ρ) := by
        intro σ hσ
        rw [Fla.holds_rename, hE.simpl.equiv, Fla.holds_disj]
        refine exists_congr fun f => and_congr_right fun hf => ?_
        refine Fla.holds_congr fun x hx => ?_
        obtain ⟨n, hn, rfl⟩ := List.mem_map.1 (hvars p h1 f hf x hx)
        simp only [PRepr.baseVars, PRepr.stateVars, List.map_map] at hσ
        exact List.map_inj_left.1 hσ n hn
      constructor
      · rintro ⟨d, he, σ, hσ, hh⟩
        simp only [Option.some.injEq] at he
        subst he
        exact (key σ hσ).1 hh
      · intro hh
        refine ⟨_, rfl, fun x => match x with | .base m => ρ (.ver m 0) | x => ρ x, ?_, ?_⟩
        · simp [PRepr.baseVars, PRepr.stateVars, List.map_map, Function.comp_def]
        · refine (key _ ?_).2 hh
          simp [PRepr.baseVars, PRepr.stateVars, List.map_map, Function.comp_def]
  refine ⟨hclosed, ht, hfl, ?_, ?_, ?_⟩
  · rintro e he f g ⟨ρ, hf, rfl, rfl⟩ hi
    -- an uncovered vertex at the source
    have hsrc : ∃ v, v < s.nodes.length ∧ s.isCovered v = false ∧ s.loc v = e.src ∧ (s.label v).holds ρ := by
      by_cases h1 : e.src = .tru
      · exact ⟨0, h.tree.pos, h.root_uncovered, by rw [h.tree.root.1, h1], h.top ρ⟩
      · by_cases h2 : e.src = .fls
        · obtain ⟨d, hd, _, _, hh⟩ := hi
          simp only [LEdge.srcFact, h2, hfl, Option.some.injEq] at hd
          subst hd
          exact hh.elim
        · exact (hint e.src h1 h2 ⟨e, he, .inr rfl⟩ ρ).1 hi
    obtain ⟨v, k1, k2, k3, k4⟩ := hsrc
    obtain ⟨hne, w, w1, w2, w3, w4⟩ := h.closed hl k1 k2 he k3.symm k4 hf
    by_cases ht' : e.tgt = .tru
    · refine ⟨.tt, by simp only [LEdge.tgtFact, ht', ht], fun _ => T.vT, ?_, trivial⟩
      simp [LEdge.tgtFact, ht', PRepr.baseVars, PRepr.nextVars, hE.wf.tru]
    · have := (hint e.tgt ht' hne ⟨e, he, .inl rfl⟩ (fun x => ρ (shift 1 x))).2 ⟨w, w1, w2, w3, w4⟩
      have heq : e.tgtFact E.R ρ = (e.tgt, (E.R.stateVars e.tgt).map fun x => ρ (shift 1 x)) := by
        simp [LEdge.tgtFact, PRepr.stateVars, PRepr.nextVars, List.map_map, Function.comp_def, shift]
      rw [heq]
      exact this
  · intro p hV
    by_cases h1 : p = .tru
    · subst h1; rw [ht]; rfl
    · by_cases h2 : p = .fls
      · subst h2; rw [hfl]; rfl
      · rw [hg p h1 h2, if_pos ((mem_getVertices_iff h1 h2).2 hV)]; rfl
  · intro p hp
    by_cases h1 : p = .tru
    · exact .inr (.inl h1)
    · by_cases h2 : p = .fls
      · exact .inr (.inr h2)
      · rw [hg p h1 h2] at hp
        split at hp
        · rename_i hm; exact .inl ((mem_getVertices_iff h1 h2).1 hm)
        · cases hp

end

/-! ### The engine -/

section
variable {E : LwEnv T}

theorem closeAncestors_same (S : Smt T) (s : LwState T) (v : Nat) :
    LwSame s (s.closeAncestors S v) ∧ (s.closeAncestors S v).leaves = s.leaves := closes_same S _ s

theorem LwErrorPath.unsafe' (hE : E.Ok) {es : List (LEdge T)} (h : LwErrorPath E es) : LFeasible E.R es trueFact falseFact := by
  have hm := hE.itp.sat _ h.sat
  have := pathQuery_feasible (R := E.R) 0 h.chained (fun i e he => by simpa using (pathQuery_hold.1 hm) i e he)
  rw [pathFact_tru hE.wf, pathFact_fls hE.wf] at this
  exact this

/-- What an answer of the engine means. The SAFE part is for runs without forced covering. -/
structure LwResult (E : LwEnv T) (w : Bool) (res : VerificationResult T) : Prop where
  unsafeAns : res.answer = .unsafeAns → E.G.Unsafe E.R ∧ (w = true → ∃ ds, res.witness = .invalidity ds ∧ LUnsafeWitness E.R E.G ds ∧
    (isTrivial E.G = true → ds.length = 2))
  safe : E.forced = false → res.answer = .safe → ¬ E.G.Unsafe E.R ∧
    (w = true → ∃ D, res.witness = .validity D ∧ LSafeWitness E.R E.G D)
  validity : ∀ D, res.witness = .validity D → res.answer = .safe
  none : w = false → res.witness = .none
  known : res.answer ≠ .unknown

theorem errorPath_witness (hE : E.Ok) {es : List (LEdge T)} (h : LwErrorPath E es) {ds : List (DStep T)}
    (hds : fromErrorPath E.S E.R E.G (es.map LEdge.id) = .done ds) :
    LUnsafeWitness E.R E.G ds ∧ (isTrivial E.G = true → ds.length = 2) := by
  have hm := mapM_ids hE.ids h.mem
  have hch := h.chained
  have hne : es.map LEdge.id ≠ [] := by
    intro hn
    rw [List.map_eq_nil_iff] at hn
    rw [hn, chained_nil] at hch
    cases hch
  have h0 := C27_fromErrorPath_sound hE.sound hE.wf hm hne hch hds
  refine ⟨h0.1, fun htr => ?_⟩
  have h4 := congrArg List.length h0.2.1
  obtain ⟨d, hd, _⟩ := h0.1.first
  have h5 : es.length = 1 := by
    have hG := h.mem
    match es, hch, hG, hne with
    | [], _, _, hes => simp at hes
    | [_], _, _, _ => rfl
    | e1 :: e2 :: l, hch, hG', _ =>
      rw [chained_cons, chained_cons] at hch
      have h6 := trivial_edge htr (hG' e1 (by simp))
      have h7 := trivial_edge htr (hG' e2 (by simp))
      have h8 := hch.2.1
      rw [h6.2, h7.1] at h8
      cases h8
  cases ds with
  | nil => cases hd
  | cons d' ds => simp only [List.length_map, h5, List.tail_cons] at h4; simp [h4]

theorem unwind_spec (hE : E.Ok) (w : Bool) : ∀ (fuel : Nat) (s : LwState T), LwBase E s → (E.forced = false → LwInv E s) →
    (∀ res, E.unwind w fuel s = .done res → LwResult E w res) ∧ (E.I.Complete → E.S.Complete → E.unwind w fuel s ≠ .thrown) := by
  intro fuel
  induction fuel with
  | zero => intro s _ _; simp [LwEnv.unwind]
  | succ fuel ih =>
    intro s hb hi
    rw [LwEnv.unwind]
    cases hul : s.uncoveredLeaf with
    | none =>
      simp only
      refine ⟨?_, by simp⟩
      intro res hr
      simp only [Outcome.done.injEq] at hr
      subst hr
      refine ⟨by simp, ?_, by simp, ?_, by simp⟩
      · intro hf _
        have hw := definitions_witness hE (hi hf) hul
        refine ⟨hw.safe hE.wf, ?_⟩
        rintro rfl
        exact ⟨_, rfl, hw⟩
      · rintro rfl; rfl
    | some v =>
      simp only
      have hvl : v < s.nodes.length := by
        have := List.mem_of_find?_eq_some hul
        exact hb.leaf v (by simpa using this)
      obtain ⟨c1, c2⟩ := closeAncestors_same E.S s v
      have hb' : LwBase E (s.closeAncestors E.S v) := hb.same c1 (by rw [c2]; exact fun _ h => h)
      have hst : ∀ x ∈ [v], x < (s.closeAncestors E.S v).nodes.length := by
        intro x hx; rw [List.mem_singleton.1 hx, c1.len]; exact hvl
      obtain ⟨b1, b2, b3⟩ := dfs_spec (fun s v h hv => visit_base hE.arrange h hv) fuel [v] (s.closeAncestors E.S v) hb' hst
      have hinv : E.forced = false → ∀ s', E.dfs fuel [v] (s.closeAncestors E.S v) = .done (.inr s') → LwInv E s' := by
        intro hf
        have hI' : LwInv E (s.closeAncestors E.S v) := by
          refine ((hi hf).closeAll hE ?_).1
          intro a ha
          have := ((mem_ancestors hb.tree).1 ha).2.le hb.tree
          omega
        exact (dfs_spec (fun s v h hv => visit_inv hE hf h hv) fuel [v] (s.closeAncestors E.S v) hI' hst).2.1
      cases hd : E.dfs fuel [v] (s.closeAncestors E.S v) with
      | thrown => simp only; exact ⟨by simp, fun hI _ => absurd hd (b3 hI)⟩
      | outOfFuel => simp
      | done r =>
        cases r with
        | inr s' => exact ih s' (b2 s' hd) (fun hf => hinv hf s' hd)
        | inl es =>
          have hep := b1 es hd
          have hun := hep.unsafe' hE
          simp only
          cases w with
          | false =>
            simp only [Bool.false_eq_true, if_false]
            refine ⟨?_, by simp⟩
            intro res hr
            simp only [Outcome.done.injEq] at hr
            subst hr
            exact ⟨fun _ => ⟨⟨es, hep.mem, hun⟩, by simp⟩, by simp, by simp, by simp, by simp⟩
          | true =>
            simp only [if_true]
            cases hfe : fromErrorPath E.S E.R E.G (es.map LEdge.id) with
            | done ds =>
              simp only
              refine ⟨?_, by simp⟩
              intro res hr
              simp only [Outcome.done.injEq] at hr
              subst hr
              exact ⟨fun _ => ⟨⟨es, hep.mem, hun⟩, fun _ => ⟨ds, rfl, errorPath_witness hE hep hfe⟩⟩, by simp, by simp, by simp, by simp⟩
            | thrown =>
              simp only
              refine ⟨by simp, fun _ hS => ?_⟩
              have hne : es.map LEdge.id ≠ [] := by
                intro hn
                rw [List.map_eq_nil_iff] at hn
                have := hep.chained
                rw [hn, chained_nil] at this
                cases this
              rcases C27_fromErrorPath_exact hE.sound hS hE.wf hE.label (mapM_ids hE.ids hep.mem) hne hep.chained with ⟨_, ds, h'⟩ | ⟨hn, _⟩
              · rw [hfe] at h'; cases h'
              · exact absurd hun hn
            | outOfFuel => simp

theorem lwStart_inv (E : LwEnv T) : LwInv E lwStart where
  tree := by
    refine ⟨by simp [lwStart], ⟨rfl, rfl⟩, ?_, ?_⟩
    · intro v h1 h2; simp [lwStart] at h2; omega
    · intro v u e hp
      cases v with
      | zero => cases hp
      | succ v => simp [lwStart, LwState.parent] at hp
  top _ := trivial
  step v u e hp := by
    cases v with
    | zero => cases hp
    | succ v => simp [lwStart, LwState.parent] at hp
  vars v x hx := by
    cases v with
    | zero => simp [lwStart, LwState.label, Fla.vars] at hx
    | succ v => simp [lwStart, LwState.label, Fla.vars] at hx
  cov c hc := by cases hc
  done v hv := by
    simp [lwStart] at hv
    subst hv
    exact .inl (by simp [lwStart])
  leaf v hv := by simp [lwStart] at hv ⊢; omega

/-- **C68** The answers of LAWI on a linear graph. -/
theorem C68_result (hE : E.Ok) (w : Bool) (fuel : Nat) {res : VerificationResult T} (h : lawi E w fuel = .done res) :
    LwResult E w res :=
  (unwind_spec hE w fuel lwStart (lwStart_inv E).base (fun _ => lwStart_inv E)).1 res h

/-- **C68** An UNSAFE answer is right with any settings, forced covering included: false is derivable, and if a witness is asked for, it
is a derivation along the edges of the graph. -/
theorem C68_unsafe (hE : E.Ok) (w : Bool) (fuel : Nat) {res : VerificationResult T} (h : lawi E w fuel = .done res)
    (ha : res.answer = .unsafeAns) :
    E.G.Unsafe E.R ∧ (w = true → ∃ ds, res.witness = .invalidity ds ∧ LUnsafeWitness E.R E.G ds) := by
  obtain ⟨h1, h2⟩ := (C68_result hE w fuel h).unsafeAns ha
  exact ⟨h1, fun hw => let ⟨ds, k1, k2, _⟩ := h2 hw; ⟨ds, k1, k2⟩⟩

/-- **C68** Without forced covering (the default), a SAFE answer is right, and the definitions returned are closed under all clauses. -/
theorem C68_safe (hE : E.Ok) (hf : E.forced = false) (w : Bool) (fuel : Nat) {res : VerificationResult T}
    (h : lawi E w fuel = .done res) (ha : res.answer = .safe) :
    ¬ E.G.Unsafe E.R ∧ (w = true → ∃ D, res.witness = .validity D ∧ LSafeWitness E.R E.G D) :=
  (C68_result hE w fuel h).safe hf ha

/-- **C68** With backends that decide every query no exception is raised, and the answer is never UNKNOWN. -/
theorem C68_no_error (hE : E.Ok) (hI : E.I.Complete) (hS : E.S.Complete) (w : Bool) (fuel : Nat) :
    lawi E w fuel ≠ .thrown ∧ ∀ res, lawi E w fuel = .done res → res.answer ≠ .unknown :=
  ⟨(unwind_spec hE w fuel lwStart (lwStart_inv E).base (fun _ => lwStart_inv E)).2 hI hS, fun _ h => (C68_result hE w fuel h).known⟩

/-- **C68** The same as a statement about results on linear graphs. -/
theorem C68_graph (hE : E.Ok) (hf : E.forced = false) (w : Bool) (fuel : Nat) {res : VerificationResult T}
    (h : lawi E w fuel = .done res) : GraphResultOk E.R E.G res ∧ (w = true → res.witness = .none → res.answer = .unknown) := by
  have hR := C68_result hE w fuel h
  refine ⟨⟨fun ha => (hR.unsafeAns ha).1, fun ha => (hR.safe hf ha).1, ?_, ?_⟩, ?_⟩
  · intro D hD
    have ha := hR.validity D hD
    cases w with
    | false => rw [hR.none rfl] at hD; cases hD
    | true =>
      obtain ⟨D', h1, h2⟩ := (hR.safe hf ha).2 rfl
      rw [h1] at hD; cases hD
      exact ⟨ha, h2⟩
  · intro ds hds
    cases w with
    | false => rw [hR.none rfl] at hds; cases hds
    | true =>
      cases ha : res.answer with
      | unsafeAns =>
        obtain ⟨ds', h1, h2, _⟩ := (hR.unsafeAns ha).2 rfl
        rw [h1] at hds; cases hds
        exact ⟨rfl, h2⟩
      | unknown => exact absurd ha hR.known
      | safe =>
        obtain ⟨D', h1, _⟩ := (hR.safe hf ha).2 rfl
        rw [h1] at hds; cases hds
  · rintro rfl hno
    cases ha : res.answer with
    | unsafeAns =>
      obtain ⟨ds', h1, _⟩ := (hR.unsafeAns ha).2 rfl
      rw [h1] at hno; cases hno
    | unknown => rfl
    | safe =>
      obtain ⟨D', h1, _⟩ := (hR.safe hf ha).2 rfl
      rw [h1] at hno; cases hno

end

/-- **C68** On hypergraphs: UNKNOWN with arrays or unless the graph is linear; otherwise the answers and the witnesses are right. -/
theorem C68_hyper {S I : Smt T} (hS : S.Sound) (hI : I.Sound) {R : PRepr} (hR : R.WF) {simp : Fla T → Fla T} (hsi : SimplifierOk simp)
    {arrange : List (LEdge T) → List (LEdge T)} (ha : ∀ l e, e ∈ arrange l ↔ e ∈ l) (hasArrays w : Bool) (fuel : Nat) {st : GS T}
    (hst : st.Inv R) {res : VerificationResult T} (h : lawiSolve S I R simp arrange false hasArrays w st.edges fuel = .done res) :
    HyperResultOk R st.edges res := by
  unfold lawiSolve at h
  split at h
  · cases h
    exact ⟨by simp, by simp, by simp, by simp⟩
  · unfold normalSolve at h
    split at h
    · rename_i hn
      have hE : LwEnv.Ok ⟨S, I, R, toNormalGraph R st.edges, simp, arrange, false⟩ :=
        ⟨hS, hI, hR, hsi, ha, normal_labelOk hR hst.ok, normal_ids hst.ok⟩
      refine (hyperResult_at hR hst hn (C68_graph hE rfl w fuel h).1 ?_).1
      intro ht ds hds
      have hr := C68_result hE w fuel h
      cases hA : res.answer with
      | unsafeAns =>
        cases w with
        | false => rw [hr.none rfl] at hds; cases hds
        | true =>
          obtain ⟨ds', h1, _, h3⟩ := (hr.unsafeAns hA).2 rfl
          rw [h1] at hds; cases hds
          exact h3 ht
      | unknown => exact absurd hA hr.known
      | safe =>
        cases w with
        | false => rw [hr.none rfl] at hds; cases hds
        | true =>
          obtain ⟨D', h1, _⟩ := (hr.safe rfl hA).2 rfl
          rw [h1] at hds; cases hds
    · cases h
      exact ⟨by simp, by simp, by simp, by simp⟩

/-- **C68** As the engine of a check (C57): LAWI without forced covering. -/
theorem C68_engine {S I : Smt T} (hS : S.Sound) (hI : I.Sound) {simp : Fla T → Fla T} (hsi : SimplifierOk simp)
    {arrange : List (LEdge T) → List (LEdge T)} (ha : ∀ l e, e ∈ arrange l ↔ e ∈ l) (hasArrays w : Bool) (fuel : Nat) :
    CheckEngine.Good fun R st => lawiSolve S I R simp arrange false hasArrays w st.edges fuel :=
  fun _ _ _ hR _ hi _ hr => C68_hyper hS hI hR hsi ha hasArrays w fuel hi hr

section check
variable {P S I : Smt T} {rw : Fla T → Fla T} {El : Elim T} {order : Graph T → List Pred} {simp : Fla T → Fla T}
  {arrange : List (LEdge T) → List (LEdge T)} {pfuel fuel : Nat} {ar : Pred → Nat} {cs : List (Clause T)}
  {hasArrays w printW validateW : Bool}

/-- **C68** `check-sat` with LAWI: `sat` is printed only for satisfiable clauses, `unsat` only for unsatisfiable ones, and a derivation
that is printed derives `false` from the input clauses. -/
theorem C68_check (hP : P.Sound) (hrw : RewriteExact rw) (hEl : El.Exact) (ho : IsOrder order) (hS : S.Sound) (hI : I.Sound)
    (hsi : SimplifierOk simp) (har : ∀ l e, e ∈ arrange l ↔ e ∈ l) (hin : LegalInput ar cs) (ha : RewritesApart rw cs) :
    (.answer .safe ∈ (checkSat P rw El order pfuel (fun R st => lawiSolve S I R simp arrange false hasArrays w st.edges fuel)
      printW validateW cs).1 → Satisfiable (clauseRules cs)) ∧
    (.answer .unsafeAns ∈ (checkSat P rw El order pfuel (fun R st => lawiSolve S I R simp arrange false hasArrays w st.edges fuel)
      printW validateW cs).1 → ¬ Satisfiable (clauseRules cs)) ∧
    ∀ a ds, .witness ⟨a, .invalidity ds⟩ ∈ (checkSat P rw El order pfuel
      (fun R st => lawiSolve S I R simp arrange false hasArrays w st.edges fuel) printW validateW cs).1 →
      ds = [] ∨ (a = .unsafeAns ∧ UnsafeWitness (normalize cs).1.repr (initialGraph cs).edges ds) := by
  have hg := C68_engine hS hI hsi har hasArrays w fuel
  obtain ⟨h1, h2⟩ := C57_check_sat (fuel := pfuel) (printW := printW) (validateW := validateW) hP hrw hEl ho hg.right hin ha
  exact ⟨h1, h2, fun a ds h => C57_unsafe_witness hP hrw hEl ho hg hin ha h⟩

end check

end Golem
