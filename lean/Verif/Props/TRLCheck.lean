import Verif.Model.Engines.TRLCheck
import Verif.Props.TSCheck
import Verif.Props.TRL
import Verif.Props.TRLEx
import Verif.Props.CheckSatEx

/-! C66: transitive relation learning, from linear clauses to the answer of `check-sat`. -/

namespace Golem

/-- The names that the engine makes up do not occur in the system. -/
def TrlNames (ts : TS LIA) : Prop :=
  (trlIdx ∉ ts.stateVars ∧ trlIdx ∉ ts.auxVars) ∧ ∀ c, trlCounter c ∉ ts.stateVars ∧ trlCounter c ∉ ts.auxVars

/-- A name that no rule of golem gives to a variable of a transition system. -/
def Name.NotTrl (n : Name) : Prop := n ≠ .trlId ∧ ∀ k, n ≠ .trlLc k

theorem Name.Plain.notTrl {n : Name} (h : n.Plain) : n.NotTrl := by
  constructor
  · rintro rfl; exact absurd h (by simp [Name.Plain, Name.isPlain])
  · rintro k rfl; exact absurd h (by simp [Name.Plain, Name.isPlain])

theorem trlNames_of {ts : TS LIA} (h1 : ∀ x ∈ ts.stateVars, x.nm.NotTrl) (h2 : ∀ x ∈ ts.auxVars, x.nm.NotTrl) : TrlNames ts :=
  ⟨⟨fun h => (h1 _ h).1 rfl, fun h => (h2 _ h).1 rfl⟩, fun c => ⟨fun h => (h1 _ h).2 c rfl, fun h => (h2 _ h).2 c rfl⟩⟩

section
variable {R : PRepr} {N : Pred} {G : LGraph LIA}

theorem toTransitionSystem_names (h : SLOk R N G) {E : ElimExcept LIA} {ts : TS LIA}
    (hts : toTransitionSystem R E G = some ts) : TrlNames ts := by
  unfold toTransitionSystem at hts
  split at hts
  · simp only [Option.bind_eq_bind, Option.bind_eq_some_iff] at hts
    obtain ⟨self, -, init, -, loop, -, fin, -, hts⟩ := hts
    cases hts
    refine trlNames_of (fun x hx => ?_) (fun x hx => ?_)
    · obtain ⟨n, hn, rfl⟩ := List.mem_map.1 hx
      exact (h.argNames _ n hn).notTrl
    · obtain ⟨e, he, hx⟩ := List.mem_flatMap.1 hx
      exact (h.labelNames e he x (List.mem_filter.1 hx).1).notTrl
  · cases hts

theorem singleLoop_names (h : SLOk R N G) (S : Smt LIA) {E : ElimExcept LIA} (hin : ∃ e ∈ G, e.src = .tru)
    (hout : ∃ e ∈ G, e.tgt = .fls) {ts : TS LIA} (hts : singleLoop S R E N G = some ts) : TrlNames ts := by
  obtain ⟨eI, eL, eQ, hs, -, hl, -, -, hsl⟩ := singleLoop_shape h S E hin hout
  rw [hts] at hsl
  cases hsl
  refine trlNames_of (fun x hx => ?_) (fun x hx => ?_)
  · obtain ⟨n, hn, rfl⟩ := List.mem_map.1 hx
    simp only [PRepr.contract, if_true, contractedArgs, List.mem_append, List.mem_map, List.mem_flatMap, argNames] at hn
    rcases hn with ⟨p, -, rfl⟩ | ⟨p, -, i, -, rfl⟩ <;> exact ⟨by simp [Var.nm, locName], by simp [Var.nm, locName]⟩
  · obtain ⟨l, hm, hx⟩ := List.mem_flatMap.1 hx
    obtain ⟨hx, hna⟩ := List.mem_filter.1 hx
    simp only [Bool.and_eq_true, decide_eq_true_eq] at hna
    have ha : (R.contract N (loopVertices G)).AuxFor [l.src] x := by
      rcases hl l hm x hx with h1 | h1 | h1
      · exact absurd h1 hna.1
      · exact absurd h1 hna.2
      · exact h1
    obtain ⟨l0, h0, h0s, h0t, hx0⟩ := final_aux h S hm hx ha
    rcases contracted_vars h h0 hx0 with h2 | h2 | ⟨-, j, rfl⟩ | ⟨e, he, -, hx', -⟩
    · exact absurd h2 (ha.not_state _)
    · exact absurd h2 (ha.not_next _)
    · exact ⟨by simp [Var.nm], by simp [Var.nm]⟩
    · exact (h.labelNames e he x hx').notTrl

open Classical in
/-- **C66** Transitive relation learning on a linear graph: every answer is right. -/
theorem C66_linear {V : TrlEnv} (hS : V.S.Sound) (hM : MbpInt V.M) (h : SLOk R N G) (hn : G.NoStray) {E : ElimExcept LIA}
    (hE : E.Exact) (hin : ∃ e ∈ G, e.src = .tru) (hout : ∃ e ∈ G, e.tgt = .fls) {K : KeepOnly LIA} (hK : K.Exact)
    {simp : Fla LIA → Fla LIA} (hsi : SimplifierOk simp) {fuel : Nat} {res : VerificationResult LIA}
    (hres : tsEngineGraph V.S R E K simp N some (fun ts => trlSolve V false ts fuel) false G = .done res) :
    GraphResultOk R G res := by
  have hres' : tsEngineGraph V.S R E K simp N (fun ts => if TrlNames ts then some ts else none)
      (fun ts => trlSolve V false ts fuel) false G = .done res := by
    rw [← hres]
    unfold tsEngineGraph solveTSGraph
    split
    · rfl
    · split
      · cases hts : toTransitionSystem R E G with
        | none => rfl
        | some ts => simp [toTransitionSystem_names h hts]
      · rfl
  refine C17_ts_engine hS h hn hE hin hout hK hsi (fun ts ts' _ _ e => ?_) (fun ts ts' r hw hsep hor hr => ?_) hres'
  · simp only [Option.ite_none_right_eq_some, Option.some.injEq] at e
    rw [← e.2]
    exact TS.Same.refl _
  · have hready : TrlReady ts' := by
      rcases hor with e | ⟨hts, e, rfl⟩
      · simp only [Option.ite_none_right_eq_some, Option.some.injEq] at e
        rw [← e.2]
        exact ⟨hw, hsep, e.1.1, e.1.2⟩
      · have := singleLoop_names h V.S hin hout e
        exact ⟨hw, hsep, this.1, this.2⟩
    obtain ⟨h1, h2⟩ := C66_safe hready hS.correct hM hr
    exact ⟨fun e => absurd e h1, h2, fun e => by cases e⟩

end

section
variable {V : TrlEnv} {R : PRepr} {E : Elim LIA} {Ex : ElimExcept LIA} {K : KeepOnly LIA} {simp : Fla LIA → Fla LIA} {st : GS LIA}

/-- **C66** Transitive relation learning on a linear hypergraph. -/
theorem C66_graph (hS : V.S.Sound) (hc : V.S.DecidesOne) (hM : MbpInt V.M) (hR : R.WF) (hF : R.FreshNames) (hA : R.PlainArgs)
    (hE : E.Exact) (hEx : Ex.Exact) (hK : K.Exact) (hsi : SimplifierOk simp) (hst : st.Inv R) (htm : st.edges.Tame) {fuel : Nat}
    {res : VerificationResult LIA} (h : trlCheck V E Ex K simp fuel R st = .done res) : EngineResultOk R st.edges false res := by
  refine tsEngine_tame hS hc hR hF hA hE hst htm tsEngineGraph_trivial (fun st' b r hp hnt hl hr => ?_) h
  exact C66_linear hS hM hl.fresh hl.noStray hEx hl.entry hl.exit hK hsi hr

/-- **C66** `trl`: from linear clauses to the answer of `check-sat`. -/
theorem C66_check {ar : Pred → Nat} {cs : List (Clause LIA)} {rw : Fla LIA → Fla LIA} {order : Graph LIA → List Pred} {fuel : Nat}
    {printW validateW : Bool} (hS : V.S.Sound) (hc : V.S.DecidesOne) (hM : MbpInt V.M) (hrw : RewriteExact rw) (hE : E.Exact)
    (ho : IsOrder order) (hEx : Ex.Exact) (hK : K.Exact) (hsi : SimplifierOk simp) (hin : LegalInput ar cs) (hl : LinearInput cs)
    (ha : RewritesApart rw cs) {tfuel : Nat} :
    CheckOk cs false (checkSat V.S rw E order fuel (trlCheck V E Ex K simp tfuel) printW validateW cs).1 :=
  checkSat_linear hS hrw hE ho hin hl ha fun _ _ _ _ hR hF hA hI htm hr =>
    C66_graph hS hc hM hR hF hA hE hEx hK hsi hI htm hr

end

/-! ### The hypotheses of `C66_check` -/

namespace TrlCheckEx

open Classical in
/-- A solver for the integers that decides single formulas. -/
noncomputable def solo (T : Theory) : Smt T where
  check
    | [f] => if SatList [f] then .sat else .unsat
    | _ => .unknown
  model fs := if h : SatList fs then Classical.choose h else fun _ => T.vT
  itp A _ := if ∃ f ∈ A, ¬ SatList [f] then .ff else .tt

theorem solo_decides (T : Theory) : (solo T).DecidesOne := by
  intro f
  by_cases h : SatList [f]
  · exact .inl (by simp [solo, h])
  · exact .inr (by simp [solo, h])

theorem solo_sound (T : Theory) : (solo T).Sound := by
  have hu : ∀ fs, (solo T).check fs = .unsat → ∃ f, fs = [f] ∧ ¬ SatList [f] := by
    intro fs h
    match fs, h with
    | [f], h => exact ⟨f, rfl, fun hs => by simp [solo, hs] at h⟩
  have hone : ∀ f : Fla T, ¬ SatList [f] → ∀ ρ : Valuation T, ¬ f.holds ρ :=
    fun f h ρ hf => h ⟨ρ, fun g hg => by simp only [List.mem_singleton] at hg; subst hg; exact hf⟩
  constructor
  · intro fs h
    have hs : SatList fs := by
      match fs, h with
      | [f], h => exact Classical.byContradiction fun hn => by simp [solo, hn] at h
    simp only [solo, hs, dite_true]
    exact Classical.choose_spec hs
  · intro fs h
    obtain ⟨f, rfl, hn⟩ := hu fs h
    exact hn
  · intro fs A B h hm
    obtain ⟨f, rfl, hn⟩ := hu fs h
    simp only [List.mem_singleton] at hm
    by_cases hA : ∃ f ∈ A, ¬ SatList [f]
    · have hi : (solo T).itp A B = .ff := by simp only [solo, if_pos hA]
      rw [hi]
      obtain ⟨g, hg, hgn⟩ := hA
      exact ⟨fun ρ h => absurd (h g hg) (hone g hgn ρ), fun ρ h => absurd h id, fun x hx => by simp [Fla.vars] at hx⟩
    · have hi : (solo T).itp A B = .tt := by simp only [solo, if_neg hA]
      rw [hi]
      refine ⟨fun ρ _ => trivial, fun ρ _ hB => ?_, fun x hx => by simp [Fla.vars] at hx⟩
      rcases (hm f).1 rfl with h1 | h1
      · exact hA ⟨f, h1, hn⟩
      · exact hone f hn ρ (hB f h1)
  · intro fs A C B h hm ρ hi hC
    obtain ⟨f, rfl, hn⟩ := hu fs h
    simp only [List.mem_singleton] at hm
    by_cases hA : ∃ f ∈ A, ¬ SatList [f]
    · have : (solo T).itp A (C ++ B) = .ff := by simp only [solo, if_pos hA]
      rw [this] at hi
      exact absurd hi id
    · by_cases hAC : ∃ f ∈ A ++ C, ¬ SatList [f]
      · obtain ⟨g, hg, hgn⟩ := hAC
        rcases List.mem_append.1 hg with h1 | h1
        · exact absurd ⟨g, h1, hgn⟩ hA
        · exact absurd (hC g h1) (hone g hgn ρ)
      · have : (solo T).itp (A ++ C) B = .tt := by simp only [solo, if_neg hAC]
        rw [this]
        trivial

def v (s : String) : Tm LIA := .var (.base (.user s))

/-- `p0(x) ← x = 1`;  `p0(y) ← p0(x), y = 2 x`;  `false ← p0(x), x = 7`. -/
def cs : List (Clause LIA) :=
  [⟨(.p 0, [v "x"]), .eq (v "x") (.const (1 : Int)), []⟩,
   ⟨(.p 0, [v "y"]), .eq (v "y") (.ap2 .times (.const (2 : Int)) (v "x")), [(.p 0, [v "x"])]⟩,
   ⟨(.fls, []), .eq (v "x") (.const (7 : Int)), [(.p 0, [v "x"])]⟩]

theorem legal : LegalInput CheckEx.ar cs ∧ LinearInput cs := by
  refine ⟨⟨⟨rfl, rfl, ?_⟩, ?_, ?_⟩, ?_⟩
  · intro c hc
    simp [cs] at hc
    rcases hc with rfl | rfl | rfl <;> simp [CheckEx.ar]
  · intro c hc x hx
    simp [cs] at hc
    rcases hc with rfl | rfl | rfl <;> simp [Clause.vars, Fla.vars, Tm.vars, v] at hx
    · subst hx; trivial
    · rcases hx with rfl | rfl | rfl | rfl <;> trivial
    · subst hx; trivial
  · intro c hc
    simp [cs] at hc
    rcases hc with rfl | rfl | rfl <;> constructor <;> simp
  · intro c hc
    simp [cs] at hc
    rcases hc with rfl | rfl | rfl <;> simp

def order (G : Graph LIA) : List Pred := firstOcc (G.flatMap fun e => e.tgt :: e.src)

theorem apart : RewritesApart (T := LIA) id cs := by
  have h : ∀ e ∈ (initialGraph cs).edges, ∀ e' ∈ (initialGraph cs).edges, e ≠ e' →
      ∀ x ∈ e.fla.vars, CheckEx.isBase x = true → x ∉ e'.fla.vars := by decide +kernel
  exact fun e he e' he' hne _ hn => h e he e' he' hne _ hn rfl

noncomputable def env : TrlEnv := ⟨solo LIA, intMbp fun _ => false, fun _ _ => none, id, fun _ => true⟩
def noE : Elim LIA := ⟨fun _ f => f, fun _ f => f⟩

theorem noE_exact : noE.Exact :=
  ⟨fun _ _ _ h => h, fun _ _ ρ h => ⟨ρ, fun _ _ => rfl, h⟩, fun _ _ _ h => h,
    ⟨fun _ _ _ h => h, fun _ _ ρ h => ⟨ρ, fun _ _ => rfl, h⟩, fun _ _ _ h => h⟩⟩

/-- The hypotheses hold for clauses over the integers, with the projection of golem. -/
example (fuel tfuel : Nat) : CheckOk cs false
    (checkSat (solo LIA) id noE order fuel (trlCheck env noE (fun _ f => f) (fun _ _ => none) id tfuel) true false cs).1 :=
  C66_check (V := env) (solo_sound LIA) (solo_decides LIA) (intMbp_int _)
    ⟨fun _ _ h => .inl h, fun _ _ h => h, fun _ ρ _ h => ⟨ρ, fun _ _ => rfl, h⟩⟩ noE_exact
    (fun G p => by simp [order, mem_firstOcc, Graph.Vertex])
    ⟨fun _ _ _ h => h, fun _ _ ρ h => ⟨ρ, fun _ _ => rfl, h⟩, fun _ _ _ h => h⟩ (fun _ _ _ h => by cases h)
    simplifierOk_id legal.1 legal.2 apart

end TrlCheckEx
end Golem
