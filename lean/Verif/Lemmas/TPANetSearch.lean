import Verif.Lemmas.TPANetLoop
import Verif.Props.ToTS
import Verif.Props.EnginesTS

/-! The network of transition systems: the search keeps its invariants. -/

namespace Golem
variable {T : Theory} {X : NetEnv T} {R : PRepr} {G : LGraph T}

/-- The invariant of the search. -/
structure NetInv (X : NetEnv T) (R : PRepr) (G : LGraph T) (net : Net T) (path : List (PathEntry T)) : Prop where
  child : ∀ v e, e ∈ (net v).children ↔ e ∈ G ∧ e.src = v ∧ e.tgt ≠ v ∧ e.tgt ≠ .tru ∧ Walk G.succ .tru e.tgt
  solver : ∀ v s, (net v).solver = some s → SolverOk X R G v s ∧ v ≠ .tru ∧ v ≠ .fls ∧ (selfLoopFor G v).isSome
  solvers : ∀ v ∈ getVertices G, v ≠ .tru → v ≠ .fls → (net v).solver.isSome
  pathOk : path = [] ∨ PathOk R G (X.core = .split ∧ G.Ranked) (fun v => (net v).steps) path
  comp : X.V.S.Complete → NetSafe R G net ∧ (path = [] → R.den .tru (net .tru).post [])

theorem initNetwork_inv (hX : X.Ok) (hR : R.WF) (hl : ∀ e ∈ G, e.LabelOk R) {net : Net T}
    (h : initNetwork X.core X.simpT R G = some net) : NetInv X R G net [.post .tru .tt] := by
  have hi := initNetwork_ok hX hR hl h
  refine ⟨fun v => (hi v).2.2.2.1, fun v => (hi v).2.2.2.2.1, fun v => (hi v).2.2.2.2.2, .inr .start, fun _ => ⟨?_, by simp⟩⟩
  have hpre := fun v => (hi v).1
  have hpost := fun v => (hi v).2.1
  have hre := fun v => (hi v).2.2.1
  have hff : ∀ v a, ¬ R.den v (Fla.ff : Fla T) a := by rintro v a ⟨ρ, h, _⟩; exact h
  constructor
  · intro v; rw [hpre, hpost, hre]; simp [PRepr.OverV, Fla.vars]
  · intro v k a b ha; rw [hpre] at ha; exact absurd ha (hff v a)
  · intro v e _ a b ha; rw [hpost] at ha; exact absurd ha (hff v a)
  · intro v i f e hf; rw [hre] at hf; simp at hf
  · intro f hf; rw [hre] at hf; simp at hf
  · intro v a ha; rw [hpost] at ha; exact absurd ha (hff v a)
  · intro v; exact .inl (hpre v)
  · exact hpre .fls

/-- Updates of a node that keep children and solvers right. -/
theorem NetInv.keeps {net : Net T} {path : List (PathEntry T)} (h : NetInv X R G net path) {v : Pred} {n : NetNode T}
    (hc : n.children = (net v).children)
    (hs : n.solver = (net v).solver ∨ ∃ s, n.solver = some s ∧ SolverOk X R G v s ∧ (net v).solver.isSome) :
    (∀ u e, e ∈ (net.set v n u).children ↔ e ∈ G ∧ e.src = u ∧ e.tgt ≠ u ∧ e.tgt ≠ .tru ∧ Walk G.succ .tru e.tgt) ∧
    (∀ u s, (net.set v n u).solver = some s → SolverOk X R G u s ∧ u ≠ .tru ∧ u ≠ .fls ∧ (selfLoopFor G u).isSome) ∧
    (∀ u ∈ getVertices G, u ≠ .tru → u ≠ .fls → (net.set v n u).solver.isSome) := by
  refine ⟨fun u e => ?_, fun u s hu => ?_, fun u hm h1 h2 => ?_⟩
  · by_cases he : u = v
    · subst he; rw [Net.set_same, hc]; exact h.child u e
    · rw [Net.set_ne he]; exact h.child u e
  · by_cases he : u = v
    · subst he
      rw [Net.set_same] at hu
      rcases hs with hs | ⟨s', hs, hok, hsome⟩
      · exact h.solver u s (hs ▸ hu)
      · rw [hs] at hu
        cases hu
        obtain ⟨s0, h0⟩ := Option.isSome_iff_exists.1 hsome
        exact ⟨hok, (h.solver u s0 h0).2⟩
    · rw [Net.set_ne he] at hu; exact h.solver u s hu
  · by_cases he : u = v
    · subst he
      rw [Net.set_same]
      rcases hs with hs | ⟨s', hs, _⟩
      · rw [hs]; exact h.solvers u hm h1 h2
      · rw [hs]; rfl
    · rw [Net.set_ne he]; exact h.solvers u hm h1 h2

theorem PathOk.tail {cnt : Prop} {steps : Pred → Nat} {x : PathEntry T} {path : List (PathEntry T)}
    (h : PathOk R G cnt steps (x :: path)) : path = [] ∨ PathOk R G cnt steps path := by
  cases h with
  | start => exact .inl rfl
  | pre h => exact .inr h
  | post h => exact .inr h

theorem queryTS_steps {n n' : NetNode T} {src tgt f : Fla T} {oe : Option (Expl T)} (h : queryTS X n src tgt = .done (.block f, n', oe)) :
    n'.steps = n.steps := by
  unfold queryTS at h
  simp only [Outcome.andThen_done] at h
  obtain ⟨s, _, r, _, h⟩ := h
  split at h
  · cases h
  · simp only [Outcome.andThen_done, Outcome.done.injEq, Prod.mk.injEq] at h
    obtain ⟨_, _, _, rfl, _⟩ := h
    rfl

/-- What the end of the search says. -/
def NetEnd.Ok (X : NetEnv T) (R : PRepr) (G : LGraph T) : NetEnd T → Prop
  | .found p net => ∃ e g path, p = extractPath (.pre .fls e g :: path) ∧
      PathOk R G (X.core = .split ∧ G.Ranked) (fun v => (net v).steps) (.pre .fls e g :: path)
  | .exhausted net => NetInv X R G net []

theorem netLoop_ok (hX : X.Ok) (hR : R.WF) : ∀ (fuel : Nat) (path : List (PathEntry T)) (net : Net T) (r : NetEnd T),
    NetInv X R G net path → netLoop X R fuel path net = .done r → r.Ok X R G := by
  intro fuel
  induction fuel with
  | zero =>
    intro path net r hi h
    cases path with
    | nil => simp only [netLoop, Outcome.done.injEq] at h; subst h; exact hi
    | cons x path => simp [netLoop] at h
  | succ fuel ih =>
    intro path net r hi h
    cases path with
    | nil => simp only [netLoop, Outcome.done.injEq] at h; subst h; exact hi
    | cons x path =>
    have hp := hi.pathOk.resolve_left (by simp)
    obtain ⟨hov, hsat⟩ := hp.overV
    cases x with
    | pre v e reached =>
      simp only [PathEntry.vertex, PathEntry.states] at hov hsat
      rw [netLoop] at h
      simp only [Outcome.andThen_done] at h
      obtain ⟨⟨res, n', oe⟩, hq, h⟩ := h
      obtain ⟨hsame, _, htg, ⟨s, hs1, hs2, _⟩, hsome, hres⟩ := queryTS_ok (R := R) (G := G) (v := v) hX
        (fun s hs => (hi.solver v s hs).1) (fun _ _ => hsat) hq
      obtain ⟨s0, hs0⟩ := Option.isSome_iff_exists.1 hsome
      obtain ⟨_, hvt, hvf, hloop⟩ := hi.solver v s0 hs0
      cases res with
      | reach g =>
        simp only at h hres
        obtain ⟨_, hgov, hgsat, hg⟩ := hres
        refine ih _ _ _ ?_ h
        obtain ⟨k1, k2, k3⟩ := hi.keeps (n := n') hsame.children (.inr ⟨s, hs1, hs2, hsome⟩)
        refine ⟨k1, k2, k3, .inr ?_, fun hc => ⟨(hi.comp hc).1.congr fun u => ?_, by simp⟩⟩
        · refine .post (hp.congr fun hcnt u hu => ?_) hvf hloop hgov hgsat fun b hb => ?_
          · obtain ⟨rank, hrank⟩ := hcnt.2
            have := hp.ranks hrank u hu
            rw [Net.set_ne]
            rintro rfl
            exact Nat.lt_irrefl _ this
          · obtain ⟨_, a, ha, k, hk, hkc⟩ := hg b hb
            exact ⟨a, ha, k, hk, fun hcnt => by rw [Net.set_same]; exact hkc hcnt.1⟩
        · by_cases hu : u = v
          · subst hu; rw [Net.set_same]; exact hsame
          · rw [Net.set_ne hu]; exact ⟨rfl, rfl, rfl, rfl⟩
      | block f =>
        simp only at h hres
        refine ih _ _ _ ?_ h
        obtain ⟨k1, k2, k3⟩ := hi.keeps (n := { n' with pre := X.nrm (.or (net v).pre f) }) hsame.children (.inr ⟨s, hs1, hs2, hsome⟩)
        refine ⟨k1, k2, k3, ?_, fun hc => ⟨?_, ?_⟩⟩
        · have hst : (fun u => (net.set v { n' with pre := X.nrm (.or (net v).pre f) } u).steps) = fun u => (net u).steps := by
            funext u
            by_cases hu : u = v
            · subst hu; rw [Net.set_same]; show n'.steps = _; exact queryTS_steps hq
            · rw [Net.set_ne hu]
          rw [hst]
          exact hp.tail
        · obtain ⟨c1, c2, c3⟩ := hres.2 hc
          exact (hi.comp hc).1.setPre hX hvf rfl hsame.post hsame.children hsame.reasons c1 hsat c2 c3
        · rintro rfl; cases hp
    | post v reached =>
      simp only [PathEntry.vertex, PathEntry.states] at hov hsat
      rw [netLoop] at h
      split at h
      · rename_i hch
        refine ih _ _ _ ?_ h
        obtain ⟨k1, k2, k3⟩ := hi.keeps (v := v) (n := { net v with post := X.nrm (.or (net v).post (X.nrm (Fla.conj (net v).reasons))), reasons := [] }) rfl (.inl rfl)
        refine ⟨k1, k2, k3, ?_, fun hc => ⟨(hi.comp hc).1.setPost hX hp.walk hch, ?_⟩⟩
        · have hst : (fun u => (net.set v { net v with post := X.nrm (.or (net v).post (X.nrm (Fla.conj (net v).reasons))), reasons := [] } u).steps) =
              fun u => (net u).steps := by
            funext u
            by_cases hu : u = v
            · subst hu; rw [Net.set_same]
            · rw [Net.set_ne hu]
          rw [hst]
          exact hp.tail
        · rintro rfl
          cases hp
          rw [Net.set_same]
          show R.den _ (X.nrm _) _
          rw [hX.nrm.den, PRepr.den_or, hX.nrm.den]
          right
          rw [PRepr.den_conj ((hi.comp hc).1.over _).2.2 ⟨fun _ => T.vT, by simp [PRepr.stateVars, hR.tru]⟩]
          exact (hi.comp hc).1.tru
      · rename_i e hch
        simp only [Outcome.andThen_done] at h
        obtain ⟨res, hq, h⟩ := h
        have hm := (hi.child v e).1 (List.mem_of_getElem? hch)
        obtain ⟨hm1, hm2, hm3, hm4, hm5⟩ := hm
        have hres := queryEdge_ok (R := R) (X := X) hX (by rw [hm2]; exact hov) hq
        cases res with
        | reach g =>
          simp only at h hres
          obtain ⟨hgov, hgsat, hg⟩ := hres
          have hp' : PathOk R G (X.core = .split ∧ G.Ranked) (fun v => (net v).steps) (.pre e.tgt e g :: .post v reached :: path) := by
            refine .pre hp hm1 hm2 hm3 hm4 hgov hgsat fun b hb => ?_
            obtain ⟨_, a, ha, hf⟩ := hg b hb
            rw [hm2] at ha hf
            exact ⟨a, ha, hf⟩
          split at h
          · rename_i hfls
            simp only [Outcome.done.injEq] at h
            subst h
            rw [hfls] at hp'
            exact ⟨e, g, _, by rw [hfls], hp'⟩
          · refine ih _ _ _ ?_ h
            exact ⟨hi.child, hi.solver, hi.solvers, .inr hp', fun hc => ⟨(hi.comp hc).1, by simp⟩⟩
        | block f =>
          simp only at h hres
          obtain ⟨c1, c2, c3⟩ := hres
          rw [hm2] at c1 c2 c3
          refine ih _ _ _ ?_ h
          obtain ⟨k1, k2, k3⟩ := hi.keeps (v := v) (n := { net v with reasons := (net v).reasons ++ [f] }) rfl (.inl rfl)
          refine ⟨k1, k2, k3, .inr ?_, fun hc => ⟨(hi.comp hc).1.addReason hX hch c1 c2 ?_ ?_, by simp⟩⟩
          · have hst : (fun u => (net.set v { net v with reasons := (net v).reasons ++ [f] } u).steps) = fun u => (net u).steps := by
              funext u
              by_cases hu : u = v
              · subst hu; rw [Net.set_same]
              · rw [Net.set_ne hu]
            rw [hst]
            exact hp
          · rintro rfl
            obtain ⟨rfl, _⟩ := hp.tru
            exact ⟨fun _ => T.vT, trivial, by simp [PRepr.stateVars, hR.tru]⟩
          · refine c3 ?_
            apply hX.nrm.overV
            intro x hx
            exact ((hi.comp hc).1.over e.tgt).1 x hx

/-! ### SAFE -/

/-- At most one self-loop per vertex. -/
def LGraph.OneLoop (G : LGraph T) : Prop := ∀ e ∈ G, ∀ e' ∈ G, e.src = e.tgt → e'.src = e.src → e'.tgt = e.tgt → e' = e

theorem LGraph.OneLoop.selfLoop (h : G.OneLoop) {e : LEdge T} (he : e ∈ G) (hl : e.src = e.tgt) : selfLoopFor G e.src = some e := by
  unfold selfLoopFor
  cases hf : (G.out e.src).find? fun e' => decide (e'.tgt = e.src) with
  | none =>
    have := List.find?_eq_none.1 hf e (mem_out.2 ⟨he, rfl⟩)
    simp [hl] at this
  | some e' =>
    obtain ⟨h1, h2, h3⟩ := selfLoopFor_mem (G := G) (v := e.src) hf
    rw [h e he e' h1 hl h2 (by rw [h3, hl])]

/-- A family of sets of states closed under the edges, containing the safe states before the loops. -/
structure NetClosed (R : PRepr) (G : LGraph T) (net : Net T) (J : Pred → List T.Val → Prop) : Prop where
  pre : ∀ v a, v ≠ .tru → v ≠ .fls → R.den v (net v).pre a → J v a
  loop : ∀ v a b, v ≠ .tru → v ≠ .fls → J v a → (loopSTS R G v).Step a b → J v b
  post : ∀ v a, v ≠ .tru → v ≠ .fls → J v a → R.den v (net v).post a

/-- One edge, from a state of the family. -/
theorem NetClosed.step {net : Net T} {J : Pred → List T.Val → Prop} (hJ : NetClosed R G net J) (hone : G.OneLoop)
    (hi : NetInv X R G net []) (hc : X.V.S.Complete) (hR : R.WF) {e : LEdge T} (he : e ∈ G) {a b : List T.Val}
    (hf : e.Fires R (e.src, a) (e.tgt, b)) (ha : e.src ≠ .fls ∧ (e.src ≠ .tru → J e.src a)) :
    e.tgt ≠ .fls ∧ (e.tgt ≠ .tru → J e.tgt b) := by
  obtain ⟨hs, ht⟩ := hi.comp hc
  by_cases hl : e.src = e.tgt
  · refine ⟨hl ▸ ha.1, fun h => ?_⟩
    rw [← hl] at h ⊢
    refine hJ.loop _ a b h ha.1 (ha.2 h) ⟨e, hone.selfLoop he hl, ?_⟩
    rw [← hl] at hf
    exact hf
  · have hpost : R.den e.src (net e.src).post a := by
      by_cases h : e.src = .tru
      · have : a = [] := by
          obtain ⟨ρ, _, h1, _⟩ := hf
          simp only [LEdge.srcFact, Prod.mk.injEq, true_and] at h1
          rw [h1, h]; simp [PRepr.stateVars, hR.tru]
        rw [this, h]; exact ht rfl
      · exact hJ.post _ a h ha.1 (ha.2 h)
    have hw := hs.walk _ a hpost
    have hw' : Walk G.succ .tru e.tgt := by
      refine .snoc hw ?_
      simp only [LGraph.succ, List.mem_map]
      exact ⟨e, by simpa [LGraph.out] using he, rfl⟩
    by_cases htru : e.tgt = .tru
    · exact ⟨by rw [htru]; simp, fun h => absurd htru h⟩
    · have hb := hs.edges e.src e ((hi.child _ e).2 ⟨he, rfl, Ne.symm hl, htru, hw'⟩) a b hpost hf
      have hfls : e.tgt ≠ .fls := by
        intro h
        rw [h, hs.fls] at hb
        obtain ⟨_, h, _⟩ := hb
        exact h
      exact ⟨hfls, fun _ => hJ.pre _ b htru hfls hb⟩

theorem exhausted_safe (hi : NetInv X R G net []) (hone : G.OneLoop) (hc : X.V.S.Complete) (hR : R.WF) : ¬ G.Unsafe R := by
  have hs := (hi.comp hc).1
  have hJ : NetClosed R G net (fun v b => ∃ a k, R.den v (net v).pre a ∧ (loopSTS R G v).Path k a b) := by
    refine ⟨fun v a _ _ ha => ⟨a, 0, ha, .refl _⟩, fun v a b _ _ h hst => ?_, fun v a _ _ h => ?_⟩
    · obtain ⟨a0, k, h1, h2⟩ := h
      exact ⟨a0, k + 1, h1, .snoc h2 hst⟩
    · obtain ⟨a0, k, h1, h2⟩ := h
      exact hs.loops v k a0 a h1 h2
  rintro ⟨es, hes, hf⟩
  have : ∀ (es : List (LEdge T)) (f g : Fact T), (∀ e ∈ es, e ∈ G) → LFeasible R es f g →
      (f.1 ≠ .fls ∧ (f.1 ≠ .tru → ∃ a k, R.den f.1 (net f.1).pre a ∧ (loopSTS R G f.1).Path k a f.2)) → g.1 ≠ .fls := by
    intro es f g hes hf h
    induction hf with
    | nil => exact h.1
    | @cons e es f g h' hfi _ ih =>
      refine ih (fun e' he' => hes e' (by simp [he'])) ?_
      have hfe : f = (e.src, f.2) := by obtain ⟨ρ, _, h1, _⟩ := hfi; rw [h1]; rfl
      have hge : g = (e.tgt, g.2) := by obtain ⟨ρ, _, _, h1⟩ := hfi; rw [h1]; rfl
      rw [hfe, hge] at hfi
      have hf1 : f.1 = e.src := by rw [hfe]
      have hg1 : g.1 = e.tgt := by rw [hge]
      rw [hf1] at h
      rw [hg1]
      exact hJ.step hone hi hc hR (hes e (by simp)) hfi h
  exact this es _ _ hes hf ⟨by simp [trueFact], fun h => absurd rfl h⟩ rfl

/-- The definitions of the validity witness. -/
theorem netDefs_ok (hX : X.Ok) (hQ : X.V.Q.Exact) (hK : X.V.K.Exact) (hc : X.V.S.Complete) (hR : R.WF) {net : Net T}
    (hi : NetInv X R G net []) : ∀ (vs : List Pred) (D : Option (Defs T)), netDefs X R net vs = .done D → vs.Nodup → ∃ D', D = some D' ∧
      (∀ p, (Defs.get D' p).isSome ↔ p ∈ vs ∧ p ≠ .tru ∧ p ≠ .fls) ∧
      ∀ v d, Defs.get D' v = some d → (∀ x ∈ d.vars, x ∈ R.baseVars v) ∧
        ∃ J : List T.Val → Prop, (∀ s, (∃ ρ : Valuation T, (R.baseVars v).map ρ = s ∧ d.holds ρ) ↔ J s) ∧
          (∀ a, R.den v (net v).pre a → J a) ∧ (∀ a b, J a → (loopSTS R G v).Step a b → J b) ∧ ∀ a, J a → R.den v (net v).post a := by
  intro vs
  have hs := (hi.comp hc).1
  induction vs with
  | nil =>
    intro D h _
    simp only [netDefs, Outcome.done.injEq] at h
    subst h
    exact ⟨[], rfl, by simp [Defs.get], by simp [Defs.get]⟩
  | cons v vs ih =>
    intro D h hnd
    obtain ⟨hnv, hnd⟩ := List.nodup_cons.1 hnd
    rw [netDefs] at h
    split at h
    · rename_i hv
      obtain ⟨D', rfl, h1, h2⟩ := ih D h hnd
      refine ⟨D', rfl, fun p => ?_, h2⟩
      rw [h1]
      grind
    · rename_i hv
      simp only [not_or] at hv
      simp only [Outcome.andThen_done] at h
      obtain ⟨⟨res, n', oe⟩, hq, h⟩ := h
      obtain ⟨_, hsv, htv, ⟨s, hs1, hs2, hs3, hs4, hs5⟩, _, hres⟩ := queryTS_ok (R := R) (G := G) (v := v) hX
        (fun s hs => (hi.solver v s hs).1) (fun _ hne => (hs.pres v).resolve_left hne) hq
      cases res with
      | reach g =>
        exfalso
        simp only at hres
        obtain ⟨_, _, ⟨b, hb⟩, hg⟩ := hres
        obtain ⟨h1, a, ha, k, hk, _⟩ := hg b hb
        rw [hX.nrm.den, PRepr.den_not (hs.over v).2.1 (PRepr.den_rep hb)] at h1
        exact h1 (hs.loops v k a b ha hk)
      | block f =>
        simp only at hres
        obtain ⟨e, rfl⟩ := Option.isSome_iff_exists.1 hres.1
        simp only [hs1, Outcome.andThen_done, Outcome.done.injEq] at h
        obtain ⟨I, hI, I', hI', D', hD', rfl⟩ := h
        have hI' : I = some I' := by
          cases I with
          | none => cases hI'
          | some I => cases hI'; rfl
        subst hI'
        obtain ⟨D', rfl, h1, h2⟩ := ih D' hD' hnd
        obtain ⟨d1, d2⟩ := hs5 e rfl hc
        obtain ⟨hov, hsafe⟩ := tpaInvariant_ok hX.V.S hK hQ hs2.wf hs2.noAux d1 d2 hI
        have hden : ∀ g a, s.1.den g a ↔ R.den v g a := by
          intro g a
          simp only [TS.den, PRepr.den, hs2.vars]
        refine ⟨_, rfl, fun p => ?_, fun p d hd => ?_⟩
        · rw [Defs.get_cons]
          split
          · rename_i hpv
            subst hpv
            simp [hv]
          · rename_i hpv
            rw [h1]; grind
        · rw [Defs.get_cons] at hd
          split at hd
          · rename_i hpv
            subst hpv
            simp only [Option.some.injEq] at hd
            subst hd
            refine ⟨?_, s.1.den I', fun a => validity_interp hR hs2.vars hov a, fun a ha => ?_, fun a b ha hst => ?_, fun a ha => ?_⟩
            · intro x hx
              simp only [varSubstitute] at hx
              obtain ⟨y, hy, hx⟩ := Fla.mem_vars_subst.1 hx
              have hy := hov y hy
              rw [hs2.vars] at hy hx
              obtain ⟨n, hn', rfl⟩ := List.mem_map.1 hy
              rw [PRepr.stateVars, ← List.append_nil (List.zip _ _),
                map_fn_zip (T := T) _ _ (fun n => Var.base n) (nodup_map_of_inj (fun _ _ h => by cases h; rfl) (hR.nodup p)) hn'] at hx
              simp [Tm.vars] at hx
              subst hx
              exact List.mem_map.2 ⟨n, hn', rfl⟩
            · refine hsafe.1.1 a ?_
              rw [← TS.den_init, hs3, hden]; exact ha
            · exact hsafe.1.2 a b ha ((hs2.step a b).2 hst)
            · have hnb := hsafe.2 a ha
              have hrep : ∃ ρ : Valuation T, (R.stateVars p).map ρ = a := PRepr.den_rep ((hden I' a).1 ha)
              apply Classical.byContradiction
              intro hn
              refine hnb ?_
              have : s.1.den s.1.query a := by
                rw [hs4, hden, hX.nrm.den, PRepr.den_not (hs.over p).2.1 hrep]
                exact hn
              exact this
          · exact h2 p d hd

end Golem
