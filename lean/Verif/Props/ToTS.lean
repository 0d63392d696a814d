import Verif.Model.ToTS
import Verif.Props.ErrorPath
import Verif.Props.Dfs
import Verif.Props.QE
import Verif.Props.TrivialQE

/-! C18: extraction of a transition system from a graph; C28: witnesses for it. -/

namespace Golem
variable {T : Theory}

/-- The trivial elimination of C33 (with any sound substitution oracle, and sorts trivial) meets the contract. -/
theorem C33_elimExcept (O : SubstOracle T) (A : ArithOps T) (hO : O.Sound (fun _ _ => True) (fun _ _ => True))
    (hA : A.Sound (fun _ _ => True) (fun _ _ => True)) :
    ElimExcept.Exact (T := T) fun vs f => (tryEliminateVarsExcept O A (f.vars.length + 1) vs f).getD f := by
  have key : ∀ vs (f : Fla T), ∃ g, tryEliminateVarsExcept O A (f.vars.length + 1) vs f = some g := fun vs f =>
    C33_terminates O A _ _ hO _ f _ (by omega)
  have ex : ∀ (vs : List Var) (f g : Fla T), tryEliminateVarsExcept O A (f.vars.length + 1) vs f = some g → _ :=
    fun vs f g h => C33_eliminate_exact O A _ _ hO hA _ _ f g h
  refine ⟨?_, ?_, ?_⟩
  · intro vs f ρ h
    obtain ⟨g, hg⟩ := key vs f
    simp only [hg, Option.getD_some]
    exact (ex vs f g hg).1 ρ (fun _ => trivial) h
  · intro vs f ρ h
    obtain ⟨g, hg⟩ := key vs f
    simp only [hg, Option.getD_some] at h
    obtain ⟨ρ', _, h1, h2⟩ := (ex vs f g hg).2.1 ρ (fun _ => trivial) h
    exact ⟨ρ', fun x hx => h1 x (by simpa using hx), h2⟩
  · intro vs f x hx
    obtain ⟨g, hg⟩ := key vs f
    simp only [hg, Option.getD_some] at hx
    exact (ex vs f g hg).2.2 x hx

/-- Every edge starts at a vertex that can be reached from the entry. -/
def LGraph.NoStray (G : LGraph T) : Prop := ∀ e ∈ G, Walk G.succ .tru e.src

/-- Auxiliary variables of one edge do not occur in another. -/
def LGraph.AuxDisjoint (R : PRepr) (G : LGraph T) : Prop := ∀ e ∈ G, ∀ e' ∈ G, e ≠ e' → ∀ x, R.AuxFor [e.src] x →
  x ∈ e.fla.vars → x ∉ e'.fla.vars

theorem PRepr.AuxFor.isCurrent {R : PRepr} {ss : List Pred} {x : Var} (h : R.AuxFor ss x) : x.isCurrent := by
  rcases h with ⟨n, rfl, _⟩ | ⟨n, rfl, _⟩ <;> rfl

theorem PRepr.AuxFor.not_state {R : PRepr} {ss : List Pred} {x : Var} (h : R.AuxFor ss x) (v : Pred) :
    x ∉ R.stateVars v := by
  intro hx
  obtain ⟨m, hm, e⟩ := List.mem_map.1 hx
  rcases h with ⟨n, rfl, hn⟩ | ⟨n, rfl, _⟩
  · cases e; exact hn _ hm
  · cases e

theorem PRepr.AuxFor.not_next {R : PRepr} {ss : List Pred} {x : Var} (h : R.AuxFor ss x) (v : Pred) :
    x ∉ R.nextVars v := by
  intro hx
  obtain ⟨m, hm, e⟩ := List.mem_map.1 hx
  rcases h with ⟨n, rfl, hn⟩ | ⟨n, rfl, _⟩ <;> cases e

/-- The shape `isTransitionSystem` recognizes. -/
structure TSShape (G : LGraph T) (v : Pred) (eI eL eQ : LEdge T) : Prop where
  ne : v ≠ .tru ∧ v ≠ .fls
  order : reversePostOrder G = some [.tru, v, .fls]
  mI : eI ∈ G
  mL : eL ∈ G
  mQ : eQ ∈ G
  sI : eI.src = .tru
  tI : eI.tgt = v
  sL : eL.src = v
  tL : eL.tgt = v
  sQ : eQ.src = v
  tQ : eQ.tgt = .fls
  outT : G.out .tru = [eI]
  outV : G.out v = [eL, eQ] ∨ G.out v = [eQ, eL]
  outF : G.out .fls = []

theorem length_one {α : Type} {l : List α} (h : l.length = 1) : ∃ a, l = [a] := by
  cases l with
  | nil => simp at h
  | cons a l => cases l with
    | nil => exact ⟨a, rfl⟩
    | cons b l => simp at h

theorem length_two {α : Type} {l : List α} (h : l.length = 2) : ∃ a b, l = [a, b] := by
  match l, h with
  | [a, b], _ => exact ⟨a, b, rfl⟩

theorem mem_out {G : LGraph T} {v : Pred} {e : LEdge T} : e ∈ G.out v ↔ e ∈ G ∧ e.src = v := by
  simp [LGraph.out]

theorem mem_inc {G : LGraph T} {v : Pred} {e : LEdge T} : e ∈ G.inc v ↔ e ∈ G ∧ e.tgt = v := by
  simp [LGraph.inc]

theorem isTransitionSystem_shape {G : LGraph T} (h : isTransitionSystem G = true) :
    ∃ v eI eL eQ, TSShape G v eI eL eQ := by
  unfold isTransitionSystem at h
  split at h
  · rename_i beg loop fin ho
    simp only [Bool.and_eq_true, decide_eq_true_eq, beq_iff_eq, List.all_eq_true, List.any_eq_true,
      List.isEmpty_iff] at h
    obtain ⟨⟨⟨⟨⟨⟨⟨hb, hf⟩, h1⟩, h2⟩, h3⟩, ⟨eL, h4, h5⟩⟩, ⟨eQ, h6, h7⟩⟩, h8⟩ := h
    subst hb hf
    obtain ⟨o, ho', _, hnd, _⟩ := C41_reversePostOrder_exact G
    rw [ho] at ho'; cases ho'
    obtain ⟨eI, hI⟩ := length_one h1
    have hIm : eI ∈ G.out .tru := by rw [hI]; simp
    simp only [List.nodup_cons, List.mem_cons, not_or] at hnd
    obtain ⟨⟨n1, _⟩, ⟨n2, _⟩, _⟩ := hnd
    have hne : eL ≠ eQ := by rintro rfl; rw [h5] at h7; exact n2 h7
    obtain ⟨a, b, hab⟩ := length_two h3
    refine ⟨loop, eI, eL, eQ, ⟨Ne.symm n1, n2⟩, ho, (mem_out.1 hIm).1, (mem_out.1 h4).1, (mem_out.1 h6).1, (mem_out.1 hIm).2,
      h2 eI hIm, (mem_out.1 h4).2, h5, (mem_out.1 h6).2, h7, hI, ?_, h8⟩
    rw [hab] at h4 h6 ⊢
    simp only [List.mem_cons, List.not_mem_nil, or_false] at h4 h6
    rcases h4 with rfl | rfl <;> rcases h6 with rfl | rfl
    · exact absurd rfl hne
    · exact .inl rfl
    · exact .inr rfl
    · exact absurd rfl hne
  · cases h

namespace TSShape
variable {G : LGraph T} {v : Pred} {eI eL eQ : LEdge T}

theorem fromTrue (h : TSShape G v eI eL eQ) {e : LEdge T} (he : e ∈ G) (hs : e.src = .tru) : e = eI := by
  have : e ∈ G.out .tru := mem_out.2 ⟨he, hs⟩
  rw [h.outT] at this; simpa using this

theorem fromV (h : TSShape G v eI eL eQ) {e : LEdge T} (he : e ∈ G) (hs : e.src = v) : e = eL ∨ e = eQ := by
  have : e ∈ G.out v := mem_out.2 ⟨he, hs⟩
  rcases h.outV with h' | h' <;> rw [h'] at this <;> simp at this
  · exact this
  · exact this.symm

theorem fromFalse (h : TSShape G v eI eL eQ) {e : LEdge T} (he : e ∈ G) : e.src ≠ .fls := by
  intro hs
  have : e ∈ G.out .fls := mem_out.2 ⟨he, hs⟩
  rw [h.outF] at this; simp at this

theorem all (h : TSShape G v eI eL eQ) (hn : G.NoStray) {e : LEdge T} (he : e ∈ G) : e = eI ∨ e = eL ∨ e = eQ := by
  obtain ⟨o, ho, _, _, hm⟩ := C41_reversePostOrder_exact G
  rw [h.order] at ho; cases ho
  have := (hm e.src).2 (hn e he)
  simp only [List.mem_cons, List.not_mem_nil, or_false] at this
  rcases this with h1 | h1 | h1
  · exact .inl (h.fromTrue he h1)
  · exact .inr (h.fromV he h1)
  · exact absurd h1 (h.fromFalse he)

theorem neIL (h : TSShape G v eI eL eQ) : eI ≠ eL := by
  rintro rfl; exact h.ne.1 (h.sL.symm.trans h.sI)

theorem neIQ (h : TSShape G v eI eL eQ) : eI ≠ eQ := by
  rintro rfl; exact h.ne.1 (h.sQ.symm.trans h.sI)

theorem neLQ (h : TSShape G v eI eL eQ) : eL ≠ eQ := by
  rintro rfl; exact h.ne.2 (h.tL.symm.trans h.tQ)

end TSShape

theorem lastEdge_eq {p : LEdge T → Bool} {G : LGraph T} {e : LEdge T} (he : e ∈ G) (hp : p e = true)
    (hu : ∀ e' ∈ G, p e' = true → e' = e) : lastEdge p G = some e := by
  unfold lastEdge
  have hm : e ∈ G.filter p := List.mem_filter.2 ⟨he, hp⟩
  cases hl : (G.filter p).getLast? with
  | none => rw [List.getLast?_eq_none_iff] at hl; rw [hl] at hm; simp at hm
  | some e' =>
    have := List.mem_of_getLast? hl
    rw [List.mem_filter] at this
    rw [hu e' this.1 this.2]

/-- The transition system of a graph of the right shape. -/
def shapeTS (R : PRepr) (E : ElimExcept T) (G : LGraph T) (v : Pred) (eI eL eQ : LEdge T) : TS T where
  stateVars := R.stateVars v
  auxVars := G.flatMap (edgeAux R)
  init := varSubstitute (E (R.nextVars v) eI.fla) ((R.nextVars v).zip ((R.stateVars v).map Tm.var))
  trans := eL.fla
  query := E (R.stateVars v) eQ.fla

theorem toTransitionSystem_eq {R : PRepr} {E : ElimExcept T} {G : LGraph T} {v : Pred} {eI eL eQ : LEdge T}
    (h : TSShape G v eI eL eQ) (hn : G.NoStray) : toTransitionSystem R E G = some (shapeTS R E G v eI eL eQ) := by
  have hv := h.ne
  have sT : (Pred.tru = v) ↔ False := by simp [Ne.symm hv.1]
  have tF : (v = Pred.fls) ↔ False := by simp [hv.2]
  have e1 : lastEdge (fun e => decide (e.src = e.tgt)) G = some eL := by
    refine lastEdge_eq h.mL (by simp [h.sL, h.tL]) fun e he hp => ?_
    rcases h.all hn he with rfl | rfl | rfl
    · simp [h.sI, h.tI, sT] at hp
    · rfl
    · simp [h.sQ, h.tQ, tF] at hp
  have e2 : lastEdge (fun e => decide (e.src = .tru ∧ e.tgt = v)) G = some eI :=
    lastEdge_eq h.mI (by simp [h.sI, h.tI]) fun e he hp => h.fromTrue he (by simp at hp; exact hp.1)
  have e3 : lastEdge (fun e => decide (e.src = v ∧ e.tgt = v)) G = some eL := by
    refine lastEdge_eq h.mL (by simp [h.sL, h.tL]) fun e he hp => ?_
    simp at hp
    rcases h.fromV he hp.1 with rfl | rfl
    · rfl
    · rw [h.tQ] at hp; exact absurd hp.2.symm hv.2
  have e4 : lastEdge (fun e => decide (e.src = v ∧ e.tgt = .fls)) G = some eQ := by
    refine lastEdge_eq h.mQ (by simp [h.sQ, h.tQ]) fun e he hp => ?_
    simp at hp
    rcases h.fromV he hp.1 with rfl | rfl
    · rw [h.tL] at hp; exact absurd hp.2 hv.2
    · rfl
  simp only [toTransitionSystem, h.order, e1, e2, e3, e4, Option.bind_eq_bind, Option.bind_some, Option.pure_def,
    h.sL, h.tL, shapeTS]

section Sem
variable {R : PRepr} {E : ElimExcept T} {G : LGraph T} {v : Pred} {eI eL eQ : LEdge T}

theorem shapeTS_nextVars : (shapeTS R E G v eI eL eQ).nextVars = R.nextVars v := by
  simp [TS.nextVars, shapeTS, PRepr.stateVars, PRepr.nextVars, shift]

/-- The substitution from next to current state variables. -/
theorem nextToState_eval (hR : R.WF) (v : Pred) (ρ : Valuation T) :
    (∀ n ∈ R.args v, ((SubstMap.fn ((R.nextVars v).zip ((R.stateVars v).map Tm.var)) (.ver n 1) : Tm T).eval ρ
      = ρ (.ver n 0))) ∧
    (∀ x, x ∉ R.nextVars v → (SubstMap.fn ((R.nextVars v).zip ((R.stateVars v).map Tm.var)) x : Tm T).eval ρ = ρ x) := by
  have e : (R.nextVars v).zip ((R.stateVars v).map (Tm.var (T := T))) =
      ((R.args v).map (Var.ver · 1)).zip ((R.args v).map fun n => Tm.var (Var.ver n 0)) ++ [] := by
    simp [PRepr.nextVars, PRepr.stateVars, List.map_map, Function.comp_def]
  refine ⟨?_, ?_⟩
  · intro n hn
    rw [e, map_fn_zip (T := T) _ _ (fun n => Var.ver n 0) (nodup_map_of_inj (fun _ _ h => by cases h; rfl) (hR.nodup v)) hn]
    rfl
  · intro x hx
    rw [e, fn_zip_skip _ _ _ (by rintro n hn rfl; exact hx (List.mem_map.2 ⟨n, hn, rfl⟩)), fn_nil]
    rfl

theorem shape_init (hR : R.WF) (hE : E.Exact) (h : TSShape G v eI eL eQ) (hl : eI.LabelOk R) (s : TS.State T) :
    (shapeTS R E G v eI eL eQ).sem.Init s ↔ eI.Fires R trueFact (v, s) := by
  have hsrc : ∀ ρ : Valuation T, eI.srcFact R ρ = trueFact := by
    intro ρ; simp [LEdge.srcFact, h.sI, PRepr.stateVars, hR.tru, trueFact]
  constructor
  · rintro ⟨ρ, hh, rfl⟩
    simp only [shapeTS] at hh
    rw [varSubstitute_holds] at hh
    obtain ⟨ρ', h1, h2⟩ := hE.lift _ _ _ hh
    refine ⟨ρ', h2, (hsrc _).symm, ?_⟩
    simp only [LEdge.tgtFact, h.tI, Prod.mk.injEq, true_and, shapeTS]
    simp only [PRepr.stateVars, PRepr.nextVars, List.map_map]
    apply List.map_congr_left
    intro n hn
    have := h1 (.ver n 1) (List.mem_map.2 ⟨n, hn, rfl⟩)
    rw [(nextToState_eval hR v ρ).1 n hn] at this
    exact this.symm
  · rintro ⟨ρ, hh, _, hg⟩
    simp only [LEdge.tgtFact, h.tI, Prod.mk.injEq, true_and] at hg
    classical
    let ρ2 : Valuation T := fun x => match x with
      | .ver n k => if k = 0 ∧ n ∈ R.args v then ρ (.ver n 1) else ρ (.ver n k)
      | x => ρ x
    refine ⟨ρ2, ?_, ?_⟩
    · simp only [shapeTS]
      rw [varSubstitute_holds]
      have := hE.weaker (R.nextVars v) eI.fla ρ hh
      refine (Fla.holds_congr fun x hx => ?_).1 this
      rcases hl x (hE.vars _ _ x hx) with hx | hx | ha
      · simp [h.sI, PRepr.stateVars, hR.tru] at hx
      · rw [h.tI] at hx
        obtain ⟨n, hn, rfl⟩ := List.mem_map.1 hx
        rw [(nextToState_eval hR v ρ2).1 n hn]
        simp [ρ2, hn]
      · rw [(nextToState_eval hR v ρ2).2 _ (ha.not_next v)]
        rcases ha with ⟨n, rfl, hn⟩ | ⟨n, rfl, _⟩
        · simp [ρ2, hn v]
        · rfl
    · rw [hg]
      simp only [shapeTS, PRepr.stateVars, PRepr.nextVars, List.map_map]
      apply List.map_congr_left
      intro n hn
      simp [ρ2, hn]

theorem shape_step (h : TSShape G v eI eL eQ) (s t : TS.State T) :
    (shapeTS R E G v eI eL eQ).sem.Step s t ↔ eL.Fires R (v, s) (v, t) := by
  simp only [TS.sem, shapeTS_nextVars]
  simp only [shapeTS, LEdge.Fires, LEdge.srcFact, LEdge.tgtFact, h.sL, h.tL, Prod.mk.injEq, true_and]
  constructor <;> (rintro ⟨ρ, h1, h2, h3⟩; exact ⟨ρ, h1, h2.symm, h3.symm⟩)

theorem shape_bad (hR : R.WF) (hE : E.Exact) (h : TSShape G v eI eL eQ) (s : TS.State T) :
    (shapeTS R E G v eI eL eQ).sem.Bad s ↔ eQ.Fires R (v, s) falseFact := by
  have htgt : ∀ ρ : Valuation T, eQ.tgtFact R ρ = falseFact := by
    intro ρ; simp [LEdge.tgtFact, h.tQ, PRepr.nextVars, hR.fls, falseFact]
  constructor
  · rintro ⟨ρ, hh, rfl⟩
    obtain ⟨ρ', h1, h2⟩ := hE.lift _ _ _ hh
    refine ⟨ρ', h2, ?_, (htgt _).symm⟩
    simp only [LEdge.srcFact, h.sQ, Prod.mk.injEq, true_and, shapeTS]
    exact List.map_congr_left fun x hx => (h1 x hx).symm
  · rintro ⟨ρ, hh, hf, _⟩
    simp only [LEdge.srcFact, h.sQ, Prod.mk.injEq, true_and] at hf
    exact ⟨ρ, hE.weaker _ _ _ hh, hf.symm⟩

theorem shape_path (hR : R.WF) (hE : E.Exact) (h : TSShape G v eI eL eQ) :
    ∀ (es : List (LEdge T)) (s : TS.State T), ((∀ e ∈ es, e ∈ G) ∧ LFeasible R es (v, s) falseFact) ↔
      ∃ k t, es = List.replicate k eL ++ [eQ] ∧ (shapeTS R E G v eI eL eQ).sem.Path k s t ∧
        (shapeTS R E G v eI eL eQ).sem.Bad t := by
  intro es
  induction es with
  | nil =>
    intro s
    constructor
    · rintro ⟨_, hf⟩
      generalize hg : falseFact = g at hf
      cases hf
      cases hg
      exact absurd rfl h.ne.2
    · rintro ⟨k, t, he, _⟩; simp at he
  | cons e es ih =>
    intro s
    constructor
    · rintro ⟨hG, hf⟩
      cases hf with
      | @cons _ _ _ g _ hf hp =>
        have hsrc := hf.src
        rcases h.fromV (hG e (by simp)) hsrc.symm with rfl | rfl
        · have hg : g = (v, g.2) := by rw [← h.tL, ← hf.tgt]
          rw [hg] at hp hf
          obtain ⟨k, t, rfl, hpath, hbad⟩ := (ih g.2).1 ⟨fun e he => hG e (by simp [he]), hp⟩
          exact ⟨k + 1, t, by simp [List.replicate_succ], STS.Path.cons ((shape_step h _ _).2 hf) hpath, hbad⟩
        · have : es = [] := by
            cases hp with
            | nil => rfl
            | @cons e2 es' _ g2 _ hf2 _ =>
              exact absurd ((hf2.src.symm.trans hf.tgt).trans h.tQ) (h.fromFalse (hG e2 (by simp)))
          subst this
          have hg : g = falseFact := by cases hp; rfl
          subst hg
          exact ⟨0, s, by simp, .refl _, (shape_bad hR hE h s).2 hf⟩
    · rintro ⟨k, t, he, hpath, hbad⟩
      cases k with
      | zero =>
        simp at he
        obtain ⟨rfl, rfl⟩ := he
        cases hpath
        exact ⟨by simpa using h.mQ, .cons ((shape_bad hR hE h s).1 hbad) (.nil _)⟩
      | succ k =>
        simp only [List.replicate_succ, List.cons_append, List.cons.injEq] at he
        obtain ⟨rfl, rfl⟩ := he
        obtain ⟨u, hst, hpath⟩ := hpath.uncons
        obtain ⟨h1, h2⟩ := (ih u).2 ⟨k, t, rfl, hpath, hbad⟩
        refine ⟨by simpa [h.mL] using h1, .cons ((shape_step h _ _).1 hst) h2⟩

/-- Bad states of the system and error paths of the graph. -/
theorem shape_badIn (hR : R.WF) (hE : E.Exact) (h : TSShape G v eI eL eQ) (hl : eI.LabelOk R) (k : Nat) :
    (shapeTS R E G v eI eL eQ).sem.BadIn k ↔
      LFeasible R (eI :: (List.replicate k eL ++ [eQ])) trueFact falseFact := by
  constructor
  · rintro ⟨t, ⟨s, hs, hp⟩, hb⟩
    exact .cons ((shape_init hR hE h hl s).1 hs) ((shape_path hR hE h _ s).2 ⟨k, t, rfl, hp, hb⟩).2
  · intro hf
    cases hf with
    | @cons _ _ _ g _ hf hp =>
      have hg : g = (v, g.2) := by rw [← h.tI, ← hf.tgt]
      rw [hg] at hp hf
      obtain ⟨k', t, he, hpath, hbad⟩ := (shape_path hR hE h _ g.2).1 ⟨by
        intro e he
        simp only [List.mem_append, List.mem_singleton, List.mem_replicate] at he
        rcases he with ⟨_, rfl⟩ | rfl
        · exact h.mL
        · exact h.mQ, hp⟩
      have : k = k' := by
        have := congrArg List.length he
        simpa using this
      subst this
      exact ⟨t, ⟨g.2, (shape_init hR hE h hl _).2 hf, hpath⟩, hbad⟩

theorem shape_paths (hR : R.WF) (hE : E.Exact) (h : TSShape G v eI eL eQ) (es : List (LEdge T)) (hG : ∀ e ∈ es, e ∈ G)
    (hf : LFeasible R es trueFact falseFact) : ∃ k, es = eI :: (List.replicate k eL ++ [eQ]) := by
  generalize hg : falseFact = gg at hf
  cases hf with
  | nil => cases hg
  | @cons e es _ g _ hf hp =>
    subst hg
    obtain rfl := h.fromTrue (hG e (by simp)) hf.src.symm
    have hg : g = (v, g.2) := by rw [← h.tI, ← hf.tgt]
    rw [hg] at hp
    obtain ⟨k, t, rfl, _⟩ := (shape_path (E := E) hR hE h _ g.2).1 ⟨fun e he => hG e (by simp [he]), hp⟩
    exact ⟨k, rfl⟩

theorem mem_edgeAux {e : LEdge T} (hl : e.LabelOk R) {x : Var} (hx : x ∈ edgeAux R e) :
    x ∈ e.fla.vars ∧ R.AuxFor [e.src] x := by
  simp only [edgeAux, List.mem_filter, Bool.and_eq_true, decide_eq_true_eq] at hx
  refine ⟨hx.1, ?_⟩
  rcases hl x hx.1 with h | h | h
  · exact absurd h hx.2.1
  · exact absurd h hx.2.2
  · exact h

theorem edgeAux_mem {e : LEdge T} {ss : List Pred} {x : Var} (hx : x ∈ e.fla.vars) (hn : R.AuxFor ss x) :
    x ∈ edgeAux R e := by
  simp only [edgeAux, List.mem_filter, hx, Bool.and_eq_true, decide_eq_true_eq, true_and]
  exact ⟨hn.not_state _, hn.not_next _⟩

theorem shape_aux (hl : ∀ e ∈ G, e.LabelOk R) {x : Var} (hx : x ∈ (shapeTS R E G v eI eL eQ).auxVars) :
    ∃ e ∈ G, x ∈ e.fla.vars ∧ R.AuxFor [e.src] x := by
  simp only [shapeTS, List.mem_flatMap] at hx
  obtain ⟨e, he, hx⟩ := hx
  exact ⟨e, he, mem_edgeAux (hl e he) hx⟩

theorem aux_shape {e : LEdge T} (he : e ∈ G) {ss : List Pred} {x : Var} (hx : x ∈ e.fla.vars) (hn : R.AuxFor ss x) :
    x ∈ (shapeTS R E G v eI eL eQ).auxVars := by
  simp only [shapeTS, List.mem_flatMap]
  exact ⟨e, he, edgeAux_mem hx hn⟩

/-- Variables of the initial-state formula: state variables, or auxiliary variables of the initial edge. -/
theorem shape_init_vars (hE : E.Exact) (hR : R.WF) (h : TSShape G v eI eL eQ) (hl : eI.LabelOk R) {x : Var}
    (hx : x ∈ (shapeTS R E G v eI eL eQ).init.vars) :
    x ∈ R.stateVars v ∨ (x ∈ eI.fla.vars ∧ R.AuxFor [eI.src] x) := by
  simp only [shapeTS, varSubstitute] at hx
  obtain ⟨y, hy, hx⟩ := Fla.mem_vars_subst.1 hx
  have hy := hE.vars _ _ y hy
  have e : (R.nextVars v).zip ((R.stateVars v).map (Tm.var (T := T))) =
      ((R.args v).map (Var.ver · 1)).zip ((R.args v).map fun n => Tm.var (Var.ver n 0)) ++ [] := by
    simp [PRepr.nextVars, PRepr.stateVars, List.map_map, Function.comp_def]
  rw [e] at hx
  rcases hl y hy with hy' | hy' | ha
  · simp [h.sI, PRepr.stateVars, hR.tru] at hy'
  · rw [h.tI] at hy'
    obtain ⟨n, hn, rfl⟩ := List.mem_map.1 hy'
    rw [map_fn_zip (T := T) _ _ (fun n => Var.ver n 0) (nodup_map_of_inj (fun _ _ h => by cases h; rfl) (hR.nodup v)) hn] at hx
    simp only [Tm.vars, List.mem_singleton] at hx
    exact .inl (List.mem_map.2 ⟨n, hn, hx.symm⟩)
  · rw [fn_zip_skip _ _ _ (by
      rintro m hm rfl; exact ha.not_next v (List.mem_map.2 ⟨m, hm, rfl⟩)), fn_nil] at hx
    simp only [Tm.vars, List.mem_singleton] at hx
    subst hx
    exact .inr ⟨hy, ha⟩

theorem shape_query_vars (hE : E.Exact) (hR : R.WF) (h : TSShape G v eI eL eQ) (hl : eQ.LabelOk R) {x : Var}
    (hx : x ∈ (shapeTS R E G v eI eL eQ).query.vars) :
    x ∈ R.stateVars v ∨ (x ∈ eQ.fla.vars ∧ R.AuxFor [eQ.src] x) := by
  have hy := hE.vars _ _ x hx
  rcases hl x hy with hy' | hy' | hn
  · rw [h.sQ] at hy'; exact .inl hy'
  · simp [h.tQ, PRepr.nextVars, hR.fls] at hy'
  · exact .inr ⟨hy, hn⟩

theorem shape_wf (hR : R.WF) (hE : E.Exact) (h : TSShape G v eI eL eQ) (hl : ∀ e ∈ G, e.LabelOk R) :
    (shapeTS R E G v eI eL eQ).WF where
  init x hx := by
    rcases shape_init_vars hE hR h (hl _ h.mI) hx with h1 | ⟨h1, hn⟩
    · exact .inl h1
    · exact .inr (aux_shape h.mI h1 hn)
  query x hx := by
    rcases shape_query_vars hE hR h (hl _ h.mQ) hx with h1 | ⟨h1, hn⟩
    · exact .inl h1
    · exact .inr (aux_shape h.mQ h1 hn)
  trans x hx := by
    rcases hl _ h.mL x hx with h1 | h1 | hn
    · rw [h.sL] at h1; exact .inl h1
    · rw [h.tL] at h1; rw [shapeTS_nextVars]; exact .inr (.inl h1)
    · exact .inr (.inr (aux_shape h.mL hx hn))
  stateCur x hx := by
    obtain ⟨n, _, rfl⟩ := List.mem_map.1 hx; rfl
  auxCur x hx := by
    obtain ⟨e, _, _, ha⟩ := shape_aux hl hx; exact ha.isCurrent
  nodup := nodup_map_of_inj (fun _ _ h => by cases h; rfl) (hR.nodup v)
  sep x hx hx' := by
    obtain ⟨e, _, _, ha⟩ := shape_aux hl hx'
    exact ha.not_state v hx

theorem shape_auxSep (hR : R.WF) (hE : E.Exact) (h : TSShape G v eI eL eQ) (hl : ∀ e ∈ G, e.LabelOk R)
    (hd : G.AuxDisjoint R) : (shapeTS R E G v eI eL eQ).AuxSep where
  it x hx hi ht := by
    obtain ⟨e, _, _, ha⟩ := shape_aux hl hx
    rcases shape_init_vars hE hR h (hl _ h.mI) hi with h1 | ⟨h1, h2⟩
    · exact ha.not_state v h1
    · exact hd _ h.mI _ h.mL h.neIL x h2 h1 ht
  iq x hx hi hq := by
    obtain ⟨e, _, _, ha⟩ := shape_aux hl hx
    rcases shape_init_vars hE hR h (hl _ h.mI) hi with h1 | ⟨h1, h3⟩
    · exact ha.not_state v h1
    · rcases shape_query_vars hE hR h (hl _ h.mQ) hq with h2 | ⟨h2, _⟩
      · exact ha.not_state v h2
      · exact hd _ h.mI _ h.mQ h.neIQ x h3 h1 h2
  tq x hx ht hq := by
    obtain ⟨e, _, _, ha⟩ := shape_aux hl hx
    rcases shape_query_vars hE hR h (hl _ h.mQ) hq with h2 | ⟨h2, h3⟩
    · exact ha.not_state v h2
    · exact hd _ h.mQ _ h.mL (Ne.symm h.neLQ) x h3 h2 ht

end Sem

/-- **C18** On a graph the shape test accepts, extraction succeeds; the result is a well-formed transition system, and it
reaches a bad state in `k` steps exactly if the graph has a feasible path of `k + 2` edges from `true` to `false`. -/
theorem C18_toTransitionSystem {R : PRepr} (hR : R.WF) {E : ElimExcept T} (hE : E.Exact) {G : LGraph T}
    (hG : isTransitionSystem G = true) (hn : G.NoStray) (hl : ∀ e ∈ G, e.LabelOk R) (hd : G.AuxDisjoint R) :
    ∃ ts, toTransitionSystem R E G = some ts ∧ ts.WF ∧ ts.AuxSep ∧
      ∀ k, ts.sem.BadIn k ↔ ∃ es : List (LEdge T), (∀ e ∈ es, e ∈ G) ∧ es.length = k + 2 ∧
        LFeasible R es trueFact falseFact := by
  obtain ⟨v, eI, eL, eQ, h⟩ := isTransitionSystem_shape hG
  refine ⟨_, toTransitionSystem_eq h hn, shape_wf hR hE h hl, shape_auxSep hR hE h hl hd, fun k => ?_⟩
  rw [shape_badIn hR hE h (hl _ h.mI)]
  constructor
  · intro hf
    refine ⟨_, ?_, by simp, hf⟩
    intro e he
    simp only [List.mem_cons, List.mem_append, List.mem_replicate, List.not_mem_nil, or_false] at he
    rcases he with rfl | ⟨_, rfl⟩ | rfl
    · exact h.mI
    · exact h.mL
    · exact h.mQ
  · rintro ⟨es, h1, h2, h3⟩
    obtain ⟨k', rfl⟩ := shape_paths (E := E) hR hE h es h1 h3
    obtain rfl : k = k' := by simpa using h2.symm
    exact h3

/-- **C18** In particular the system is unsafe exactly if the graph is. -/
theorem C18_unsafe {R : PRepr} (hR : R.WF) {E : ElimExcept T} (hE : E.Exact) {G : LGraph T}
    (hG : isTransitionSystem G = true) (hn : G.NoStray) (hl : ∀ e ∈ G, e.LabelOk R) (hd : G.AuxDisjoint R) :
    ∃ ts, toTransitionSystem R E G = some ts ∧ (ts.sem.Unsafe ↔ G.Unsafe R) := by
  obtain ⟨ts, h1, _, _, h4⟩ := C18_toTransitionSystem hR hE hG hn hl hd
  obtain ⟨v, eI, eL, eQ, h⟩ := isTransitionSystem_shape hG
  refine ⟨ts, h1, ?_, ?_⟩
  · rintro ⟨k, hk⟩
    obtain ⟨es, a, _, c⟩ := (h4 k).1 hk
    exact ⟨es, a, c⟩
  · rintro ⟨es, a, c⟩
    obtain ⟨k, hk⟩ := shape_paths (E := E) hR hE h es a c
    exact ⟨k, (h4 k).2 ⟨es, a, by rw [hk]; simp, c⟩⟩

/-! ### Removing auxiliary variables -/

/-- Two systems over the same state variables with the same initial states, steps and bad states. -/
structure TS.Same (a b : TS T) : Prop where
  vars : a.stateVars = b.stateVars
  init : ∀ s, a.sem.Init s ↔ b.sem.Init s
  step : ∀ s t, a.sem.Step s t ↔ b.sem.Step s t
  bad : ∀ s, a.sem.Bad s ↔ b.sem.Bad s

theorem TS.Same.refl (a : TS T) : a.Same a := ⟨rfl, fun _ => Iff.rfl, fun _ _ => Iff.rfl, fun _ => Iff.rfl⟩

theorem TS.Same.sem {a b : TS T} (h : a.Same b) : a.sem = b.sem := by
  have h1 : a.sem.Init = b.sem.Init := funext fun s => propext (h.init s)
  have h2 : a.sem.Step = b.sem.Step := funext fun s => funext fun t => propext (h.step s t)
  have h3 : a.sem.Bad = b.sem.Bad := funext fun s => propext (h.bad s)
  cases ha : a.sem; cases hb : b.sem
  rw [ha, hb] at h1 h2 h3
  simp only at h1 h2 h3
  rw [h1, h2, h3]

theorem elimAux_spec {Q : QElim T} (hQ : Q.Exact) {aux : List Var} {f g : Fla T} (h : elimAux Q aux f = some g) :
    (∀ x ∈ g.vars, x ∈ f.vars ∧ x ∉ aux) ∧
    ∀ ρ : Valuation T, g.holds ρ ↔ ∃ ρ' : Valuation T, (∀ x, x ∉ aux → ρ' x = ρ x) ∧ f.holds ρ' := by
  unfold elimAux at h
  simp only at h
  split at h
  · rename_i he
    cases h
    rw [List.isEmpty_iff, List.filter_eq_nil_iff] at he
    have hv : ∀ x ∈ f.vars, x ∉ aux := fun x hx => by simpa using he x hx
    refine ⟨fun x hx => ⟨hx, hv x hx⟩, fun ρ => ⟨fun hf => ⟨ρ, fun _ _ => rfl, hf⟩, ?_⟩⟩
    rintro ⟨ρ', ha, hf⟩
    exact (Fla.agree_outside hv ha).1 hf
  · obtain ⟨h1, h2⟩ := hQ _ _ _ h
    have hv : ∀ x ∈ g.vars, x ∈ f.vars ∧ x ∉ aux := by
      intro x hx
      obtain ⟨a, b⟩ := h1 x hx
      exact ⟨a, by simpa [a] using b⟩
    refine ⟨hv, fun ρ => ?_⟩
    constructor
    · intro hg
      obtain ⟨ρ', ha, hb⟩ := (h2 ρ).1 hg
      refine ⟨ρ', fun x hx => ha x (by simp [hx]), hb⟩
    · rintro ⟨ρ', ha, hf⟩
      rw [← Fla.agree_outside (fun x hx => (hv x hx).2) ha]
      exact (h2 ρ').2 ⟨ρ', fun _ _ => rfl, hf⟩

theorem elimAux_den {Q : QElim T} (hQ : Q.Exact) {ts : TS T} (hw : ts.WF) {f g : Fla T}
    (h : elimAux Q ts.auxVars f = some g) (s : TS.State T) : ts.den g s ↔ ts.den f s := by
  obtain ⟨h1, h2⟩ := elimAux_spec hQ h
  constructor
  · rintro ⟨ρ, hg, rfl⟩
    obtain ⟨ρ', ha, hf⟩ := (h2 ρ).1 hg
    exact ⟨ρ', hf, List.map_congr_left fun x hx => ha x (hw.sep x hx)⟩
  · rintro ⟨ρ, hf, rfl⟩
    exact ⟨ρ, (h2 ρ).2 ⟨ρ, fun _ _ => rfl, hf⟩, rfl⟩

/-- **C18** Removing the auxiliary variables from init and query changes neither the initial states, nor the steps, nor the
bad states. -/
theorem C18_ensureNoAux {Q : QElim T} (hQ : Q.Exact) {ts ts' : TS T} (hw : ts.WF) (h : ensureNoAux Q ts = some ts') :
    ts'.WF ∧ ts'.NoAux ∧ ts'.Same ts := by
  unfold ensureNoAux at h
  split at h
  · rename_i he
    cases h
    rw [List.isEmpty_iff] at he
    refine ⟨hw, ⟨fun x hx => ?_, fun x hx => ?_⟩, .refl _⟩
    · rcases hw.init x hx with h | h
      · exact h
      · rw [he] at h; simp at h
    · rcases hw.query x hx with h | h
      · exact h
      · rw [he] at h; simp at h
  · simp only [Option.bind_eq_bind, Option.bind_eq_some_iff, Option.pure_def, Option.some.injEq] at h
    obtain ⟨i, hi, q, hq, rfl⟩ := h
    have vi := (elimAux_spec hQ hi).1
    have vq := (elimAux_spec hQ hq).1
    have ni : ∀ x ∈ i.vars, x ∈ ts.stateVars := fun x hx => (hw.init x (vi x hx).1).resolve_right (vi x hx).2
    have nq : ∀ x ∈ q.vars, x ∈ ts.stateVars := fun x hx => (hw.query x (vq x hx).1).resolve_right (vq x hx).2
    refine ⟨⟨fun x hx => .inl (ni x hx), fun x hx => .inl (nq x hx), hw.trans, hw.stateCur, hw.auxCur, hw.nodup, hw.sep⟩,
      ⟨ni, nq⟩, rfl, fun s => ?_, fun _ _ => Iff.rfl, fun s => ?_⟩
    · exact elimAux_den hQ hw hi s
    · exact elimAux_den hQ hw hq s

/-! ### C28 -/

theorem insertPred_all {n : Nat} : ∀ (l : List Nat) (acc : List Nat), (acc = [] ∨ acc = [n]) → (∀ x ∈ l, x = n) →
    l ≠ [] ∨ acc = [n] → l.foldl (fun a p => insertPred p a) acc = [n] := by
  intro l
  induction l with
  | nil => intro acc _ _ h; simpa using h
  | cons a l ih =>
    intro acc hacc hall _
    obtain rfl : a = n := hall a (by simp)
    rw [List.foldl_cons]
    refine ih _ ?_ (fun x hx => hall x (by simp [hx])) ?_ <;>
    · rcases hacc with rfl | rfl <;> simp [insertPred]

theorem getVertices_shape {G : LGraph T} {v : Pred} {eI eL eQ : LEdge T} (h : TSShape G v eI eL eQ) (hn : G.NoStray) :
    getVertices G = [.tru, .fls, v] := by
  obtain ⟨n, rfl⟩ : ∃ n, v = .p n := by
    cases v with
    | tru => exact absurd rfl h.ne.1
    | fls => exact absurd rfl h.ne.2
    | p n => exact ⟨n, rfl⟩
  unfold getVertices
  rw [insertPred_all (n := n) _ [] (.inl rfl)]
  · rfl
  · intro x hx
    simp only [List.mem_filterMap, List.mem_flatMap, List.mem_cons, List.not_mem_nil, or_false] at hx
    obtain ⟨p, ⟨e, he, hp⟩, hx⟩ := hx
    rcases h.all hn he with rfl | rfl | rfl
    · rw [h.sI, h.tI] at hp; rcases hp with rfl | rfl <;> simp [Pred.num] at hx; exact hx.symm
    · rw [h.sL, h.tL] at hp; rcases hp with rfl | rfl <;> simp [Pred.num] at hx <;> exact hx.symm
    · rw [h.sQ, h.tQ] at hp; rcases hp with rfl | rfl <;> simp [Pred.num] at hx; exact hx.symm
  · left
    intro hnil
    have : n ∈ ((G.flatMap fun e => [e.src, e.tgt]).filterMap Pred.num) := by
      simp only [List.mem_filterMap, List.mem_flatMap]
      exact ⟨.p n, ⟨eL, h.mL, by simp [h.sL]⟩, rfl⟩
    rw [hnil] at this; simp at this

/-- The invariant over the arguments of the loop vertex. -/
theorem validity_interp {R : PRepr} (hR : R.WF) {ts : TS T} {v : Pred} (hv : ts.stateVars = R.stateVars v) {I : Fla T}
    (hI : ts.Over I) (s : TS.State T) :
    (∃ ρ : Valuation T, (R.baseVars v).map ρ = s ∧
      (varSubstitute I (ts.stateVars.zip ((R.args v).map fun n => Tm.var (.base n)))).holds ρ) ↔ ts.den I s := by
  have hfn : ∀ (ρ : Valuation T), ∀ n ∈ R.args v,
      (SubstMap.fn (ts.stateVars.zip ((R.args v).map fun n => Tm.var (.base n))) (.ver n 0) : Tm T).eval ρ = ρ (.base n) := by
    intro ρ n hn
    rw [hv, PRepr.stateVars, ← List.append_nil (List.zip _ _),
      map_fn_zip (T := T) _ _ (fun n => Var.base n) (nodup_map_of_inj (fun _ _ h => by cases h; rfl) (hR.nodup v)) hn]
    rfl
  constructor
  · rintro ⟨ρ, rfl, h⟩
    rw [varSubstitute_holds] at h
    refine ⟨_, h, ?_⟩
    rw [hv]
    simp only [PRepr.stateVars, PRepr.baseVars, List.map_map]
    apply List.map_congr_left
    intro n hn
    have := hfn ρ n hn
    rw [hv] at this
    exact this
  · rintro ⟨ρ, h, rfl⟩
    refine ⟨fun x => match x with | .base n => ρ (.ver n 0) | x => ρ x, ?_, ?_⟩
    · rw [hv]; simp [PRepr.stateVars, PRepr.baseVars, List.map_map, Function.comp_def]
    · rw [varSubstitute_holds]
      refine (Fla.holds_congr fun x hx => ?_).1 h
      have hx := hI x hx
      rw [hv] at hx
      obtain ⟨n, hn, rfl⟩ := List.mem_map.1 hx
      exact (hfn (fun x => match x with | .base n => ρ (.ver n 0) | x => ρ x) n hn).symm

theorem shape_validity {R : PRepr} (hR : R.WF) {E : ElimExcept T} (hE : E.Exact) {G : LGraph T} {v : Pred}
    {eI eL eQ : LEdge T} (hG : isTransitionSystem G = true) (h : TSShape G v eI eL eQ) (hn : G.NoStray)
    (hl : ∀ e ∈ G, e.LabelOk R) {ts : TS T} (hsame : ts.Same (shapeTS R E G v eI eL eQ)) {I : Fla T} (hI : ts.Over I)
    (hinv : ts.sem.SafeInductive (ts.den I)) :
    ∃ D, validityFromTS R G ts I = some D ∧ LSafeWitness R G D := by
  have hv : ts.stateVars = R.stateVars v := hsame.vars
  let J := varSubstitute I (ts.stateVars.zip ((R.args v).map fun n => Tm.var (.base n)))
  refine ⟨trivialDefinitions ++ [(v, J)], ?_, ?_⟩
  · simp only [validityFromTS, hG, if_true, getVertices_shape h hn]; rfl
  have hgt : Defs.get (trivialDefinitions ++ [(v, J)]) .tru = some .tt := rfl
  have hgf : Defs.get (trivialDefinitions ++ [(v, J)]) .fls = some .ff := rfl
  have hgv : Defs.get (trivialDefinitions ++ [(v, J)]) v = some J := by
    simp [trivialDefinitions, Defs.get_cons, h.ne.1, h.ne.2, Ne.symm h.ne.1, Ne.symm h.ne.2]
  have hiv : ∀ s, Defs.interp R (trivialDefinitions ++ [(v, J)]) (v, s) ↔ ts.den I s := by
    intro s
    rw [← validity_interp hR hv hI]
    constructor
    · rintro ⟨d, hd, ρ, h1, h2⟩
      simp only [hgv, Option.some.injEq] at hd
      subst hd
      exact ⟨ρ, h1, h2⟩
    · rintro ⟨ρ, h1, h2⟩
      exact ⟨J, hgv, ρ, h1, h2⟩
  have honly : ∀ p d, Defs.get (trivialDefinitions ++ [(v, J)]) p = some d → p = .tru ∧ d = .tt ∨ p = .fls ∧ d = .ff ∨ p = v ∧ d = J := by
    intro p d hd
    by_cases h1 : p = .tru
    · subst h1; rw [hgt] at hd; cases hd; exact .inl ⟨rfl, rfl⟩
    · by_cases h2 : p = .fls
      · subst h2; rw [hgf] at hd; cases hd; exact .inr (.inl ⟨rfl, rfl⟩)
      · by_cases h3 : p = v
        · subst h3; rw [hgv, Option.some.injEq] at hd; exact .inr (.inr ⟨rfl, hd.symm⟩)
        · simp only [trivialDefinitions, List.cons_append, List.nil_append, Defs.get_cons, Defs.get_nil, if_neg h1, if_neg h2,
            if_neg h3] at hd
          cases hd
  refine ⟨?_, hgt, hgf, ?_, ?_, ?_⟩
  · intro p d hd x hx
    rcases honly p d hd with ⟨_, rfl⟩ | ⟨_, rfl⟩ | ⟨rfl, rfl⟩
    · simp [Fla.vars] at hx
    · simp [Fla.vars] at hx
    · simp only [J, varSubstitute] at hx
      obtain ⟨y, hy, hx⟩ := Fla.mem_vars_subst.1 hx
      have hy := hI y hy
      rw [hv] at hy hx
      obtain ⟨n, hn', rfl⟩ := List.mem_map.1 hy
      rw [PRepr.stateVars, ← List.append_nil (List.zip _ _),
        map_fn_zip (T := T) _ _ (fun n => Var.base n) (nodup_map_of_inj (fun _ _ h => by cases h; rfl) (hR.nodup p)) hn'] at hx
      simp only [Tm.vars, List.mem_singleton] at hx
      exact List.mem_map.2 ⟨n, hn', hx.symm⟩
  · intro e he f g hf hi
    rcases h.all hn he with rfl | rfl | rfl
    · have hg : g = (v, g.2) := by rw [← h.tI, ← hf.tgt]
      have hft : f = trueFact := by
        obtain ⟨ρ, _, rfl, _⟩ := hf
        simp [LEdge.srcFact, h.sI, PRepr.stateVars, hR.tru, trueFact]
      rw [hg, hft] at hf
      rw [hg, hiv]
      exact hinv.init _ ((hsame.init _).2 ((shape_init hR hE h (hl _ h.mI) _).2 hf))
    · have hg : g = (v, g.2) := by rw [← h.tL, ← hf.tgt]
      have hff : f = (v, f.2) := by rw [← h.sL, ← hf.src]
      rw [hg, hff] at hf
      rw [hff, hiv] at hi
      rw [hg, hiv]
      exact hinv.step _ _ hi ((hsame.step _ _).2 ((shape_step h _ _).2 hf))
    · have hff : f = (v, f.2) := by rw [← h.sQ, ← hf.src]
      have hgt : g = falseFact := by
        obtain ⟨ρ, _, _, rfl⟩ := hf
        simp [LEdge.tgtFact, h.tQ, PRepr.nextVars, hR.fls, falseFact]
      rw [hff, hgt] at hf
      rw [hff, hiv] at hi
      exact absurd ((hsame.bad _).2 ((shape_bad hR hE h _).2 hf)) (hinv.safe _ hi)
  · rintro p ⟨e, he, hp⟩
    have : p = .tru ∨ p = .fls ∨ p = v := by
      rcases h.all hn he with rfl | rfl | rfl
      · rw [h.sI, h.tI] at hp; rcases hp with hp | hp <;> simp [hp]
      · rw [h.sL, h.tL] at hp; rcases hp with hp | hp <;> simp [hp]
      · rw [h.sQ, h.tQ] at hp; rcases hp with hp | hp <;> simp [hp]
    rcases this with rfl | rfl | rfl
    · rw [hgt]; rfl
    · rw [hgf]; rfl
    · rw [hgv]; rfl
  · intro p hp
    obtain ⟨d, hd⟩ := Option.isSome_iff_exists.1 hp
    rcases honly p d hd with ⟨rfl, _⟩ | ⟨rfl, _⟩ | ⟨rfl, _⟩
    · exact .inr (.inl rfl)
    · exact .inr (.inr rfl)
    · exact .inl ⟨eL, h.mL, .inl h.tL.symm⟩

theorem LGraph.find_of_mem {G : LGraph T} (hid : (G.map LEdge.id).Nodup) {e : LEdge T} (he : e ∈ G) : G.find e.id = some e := by
  unfold LGraph.find
  induction G with
  | nil => simp at he
  | cons a G ih =>
    simp only [List.map_cons, List.nodup_cons, List.mem_map, not_exists, not_and] at hid
    rw [List.find?_cons]
    rcases List.mem_cons.1 he with rfl | he
    · simp
    · have : (a.id == e.id) = false := by
        simp only [beq_eq_false_iff_ne, ne_eq]
        intro h; exact hid.1 e he h.symm
      simp only [this]
      exact ih hid.2 he

theorem shape_errorPath {G : LGraph T} {v : Pred} {eI eL eQ : LEdge T} (hG : isTransitionSystem G = true)
    (h : TSShape G v eI eL eQ) (hn : G.NoStray) (hid : (G.map LEdge.id).Nodup) (k : Nat) :
    ∃ path, errorPathFromTS G k = some path ∧ path ≠ [] ∧
      path.mapM G.find = some (eI :: (List.replicate k eL ++ [eQ])) ∧
      Chained .tru (eI :: (List.replicate k eL ++ [eQ])) .fls := by
  have e1 : (getVertices G).find? (fun p => decide (p ≠ .tru ∧ p ≠ .fls)) = some v := by
    rw [getVertices_shape h hn]
    simp [h.ne.1, h.ne.2]
  have e2 : (G.inc v).find? (fun e => decide (e.src = e.tgt)) = some eL := by
    have hm : eL ∈ G.inc v := mem_inc.2 ⟨h.mL, h.tL⟩
    cases hf : (G.inc v).find? (fun e => decide (e.src = e.tgt)) with
    | none => exact absurd (List.find?_eq_none.1 hf eL hm) (by simp [h.sL, h.tL])
    | some e =>
      have h1 := mem_inc.1 (List.mem_of_find?_eq_some hf)
      have h2 : e.src = e.tgt := by simpa using List.find?_some hf
      rcases h.fromV h1.1 (h2.trans h1.2) with rfl | rfl
      · rfl
      · exact absurd (h1.2.symm.trans h.tQ) h.ne.2
  have e3 : (G.out .tru).head? = some eI := by rw [h.outT]; rfl
  have e4 : (G.inc .fls).head? = some eQ := by
    cases hf : (G.inc .fls).head? with
    | none =>
      rw [List.head?_eq_none_iff] at hf
      have : eQ ∈ G.inc .fls := mem_inc.2 ⟨h.mQ, h.tQ⟩
      rw [hf] at this; simp at this
    | some e =>
      have h1 := mem_inc.1 (List.mem_of_mem_head? hf)
      rcases h.all hn h1.1 with rfl | rfl | rfl
      · exact absurd (h.tI.symm.trans h1.2) h.ne.2
      · exact absurd (h.tL.symm.trans h1.2) h.ne.2
      · rfl
  refine ⟨eI.id :: (List.replicate k eL.id ++ [eQ.id]), ?_, by simp, ?_, ?_⟩
  · simp only [errorPathFromTS, hG, if_true, e1, e2, e3, e4, Option.bind_eq_bind, Option.bind_some]; rfl
  · have key : ∀ es : List (LEdge T), (∀ e ∈ es, e ∈ G) → (es.map LEdge.id).mapM G.find = some es := by
      intro es
      induction es with
      | nil => intro _; rfl
      | cons e es ih =>
        intro hh
        simp [List.mapM_cons, LGraph.find_of_mem hid (hh e (by simp)), ih fun e he => hh e (by simp [he])]
    have := key (eI :: (List.replicate k eL ++ [eQ])) (by
      intro e he
      simp only [List.mem_cons, List.mem_append, List.mem_replicate, List.not_mem_nil, or_false] at he
      rcases he with rfl | ⟨_, rfl⟩ | rfl
      · exact h.mI
      · exact h.mL
      · exact h.mQ)
    simpa using this
  · have key : ∀ k, Chained v (List.replicate k eL ++ [eQ]) .fls := by
      intro k
      induction k with
      | zero => exact chained_cons.2 ⟨h.sQ.symm, chained_nil.2 h.tQ⟩
      | succ k ih =>
        rw [List.replicate_succ, List.cons_append, chained_cons]
        exact ⟨h.sL.symm, by rw [h.tL]; exact ih⟩
    rw [chained_cons]
    exact ⟨h.sI.symm, by rw [h.tI]; exact key k⟩

/-- What is assumed of a solver for transition systems: a SAFE answer carries a safe inductive invariant over the state
variables, an UNSAFE answer the length of a path to a bad state. -/
def TSAnswerOk (ts : TS T) : TSResult T → Prop
  | .safeInv I => ts.Over I ∧ ts.sem.SafeInductive (ts.den I)
  | .unsafeAt k => ts.sem.BadIn k
  | .unknown => True

/-- **C28** The SAFE witness built from a safe inductive invariant of the extracted system is a witness for the graph. -/
theorem C28_validity {R : PRepr} (hR : R.WF) {E : ElimExcept T} (hE : E.Exact) {G : LGraph T}
    (hG : isTransitionSystem G = true) (hn : G.NoStray) (hl : ∀ e ∈ G, e.LabelOk R) {ts ts' : TS T}
    (hts : toTransitionSystem R E G = some ts) (hsame : ts'.Same ts) {I : Fla T} (hI : ts'.Over I)
    (hinv : ts'.sem.SafeInductive (ts'.den I)) : ∃ D, validityFromTS R G ts' I = some D ∧ LSafeWitness R G D := by
  obtain ⟨v, eI, eL, eQ, h⟩ := isTransitionSystem_shape hG
  rw [toTransitionSystem_eq h hn] at hts
  cases hts
  exact shape_validity hR hE hG h hn hl hsame hI hinv

/-- **C28** Translating an answer for the extracted system gives a correct answer for the graph, with a correct witness; with
a deciding backend the translation never fails. -/
theorem C28_translate {S : Smt T} (hS : S.Sound) {R : PRepr} (hR : R.WF) {E : ElimExcept T} (hE : E.Exact) {G : LGraph T}
    (hG : isTransitionSystem G = true) (hn : G.NoStray) (hl : ∀ e ∈ G, e.LabelOk R) (hid : (G.map LEdge.id).Nodup)
    {ts ts' : TS T} (hts : toTransitionSystem R E G = some ts) (hsame : ts'.Same ts) {r : TSResult T}
    (hr : TSAnswerOk ts' r) :
    (∀ res, translateTSResult S R G ts' r = .done res → res.answer = r.answer ∧
      (∀ D, res.witness = .validity D → res.answer = .safe ∧ LSafeWitness R G D) ∧
      (∀ ds, res.witness = .invalidity ds → res.answer = .unsafeAns ∧ LUnsafeWitness R G ds) ∧
      (res.witness = .none → res.answer = .unknown)) ∧
    (S.Complete → ∃ res, translateTSResult S R G ts' r = .done res) := by
  obtain ⟨v, eI, eL, eQ, h⟩ := isTransitionSystem_shape hG
  rw [toTransitionSystem_eq h hn] at hts
  cases hts
  cases r with
  | safeInv I =>
    obtain ⟨D, hD, hw⟩ := shape_validity hR hE hG h hn hl hsame hr.1 hr.2
    simp only [translateTSResult, hD]
    refine ⟨?_, fun _ => ⟨_, rfl⟩⟩
    intro res hres; cases hres
    exact ⟨rfl, fun D' e => (by cases e; exact ⟨rfl, hw⟩), fun _ e => (by cases e), fun e => (by cases e)⟩
  | unsafeAt k =>
    obtain ⟨path, hp, hne, hm, hc⟩ := shape_errorPath hG h hn hid k
    simp only [translateTSResult, hp]
    refine ⟨?_, fun hcomp => ?_⟩
    · intro res hres
      split at hres
      · rename_i ds hds
        cases hres
        refine ⟨rfl, fun _ e => (by cases e), fun ds' e => ?_, fun e => (by cases e)⟩
        cases e
        exact ⟨rfl, (C27_fromErrorPath_sound hS hR hm hne hc hds).1⟩
      · cases hres
      · cases hres
    · have hf : LFeasible R (eI :: (List.replicate k eL ++ [eQ])) trueFact falseFact := by
        rw [← shape_badIn hR hE h (hl _ h.mI), ← hsame.sem]; exact hr
      rcases C27_fromErrorPath_exact hS hcomp hR hl hm hne hc with ⟨_, ds, hds⟩ | ⟨hnf, _⟩
      · exact ⟨_, by rw [hds]⟩
      · exact absurd hf hnf
  | unknown =>
    simp only [translateTSResult]
    refine ⟨?_, fun _ => ⟨_, rfl⟩⟩
    intro res hres; cases hres
    exact ⟨rfl, fun _ e => (by cases e), fun _ e => (by cases e), fun _ => rfl⟩

end Golem
