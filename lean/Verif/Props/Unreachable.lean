import Verif.Lemmas.Transformers.Unreachable
import Verif.Props.Simple

/-! Properties C08, C09. -/

namespace Golem
variable {T : Theory}

theorem exists_valuation {xs : List Var} (hn : xs.Nodup) {vs : List T.Val} (hl : xs.length = vs.length) :
    ∃ ρ : Valuation T, xs.map ρ = vs := by
  induction xs generalizing vs with
  | nil => cases vs <;> simp_all
  | cons x xs ih =>
    cases vs with
    | nil => simp at hl
    | cons v vs =>
      obtain ⟨hx, hn⟩ := List.nodup_cons.1 hn
      obtain ⟨ρ, hρ⟩ := ih hn (vs := vs) (by simpa using hl)
      refine ⟨fun y => if y = x then v else ρ y, ?_⟩
      simp only [List.map_cons, if_true, List.cons.injEq, true_and]
      rw [← hρ]
      apply List.map_congr_left
      intro y hy
      have : y ≠ x := fun h => hx (h ▸ hy)
      simp [this]

theorem interp_of_get {R : PRepr} {D D' : Defs T} {f : Fact T} (h : D.get f.1 = D'.get f.1) :
    D.interp R f ↔ D'.interp R f := by
  unfold Defs.interp; rw [h]

theorem interp_tt {R : PRepr} (hR : R.WF) {D : Defs T} {f : Fact T} (h : D.get f.1 = some .tt)
    (hl : f.2.length = (R.args f.1).length) : D.interp R f := by
  obtain ⟨ρ, hρ⟩ := exists_valuation (T := T) (R.baseVars_nodup hR f.1) (vs := f.2) (by simp [PRepr.baseVars, hl])
  exact ⟨.tt, h, ρ, hρ, trivial⟩

theorem interp_ff {R : PRepr} {D : Defs T} {f : Fact T} (h : D.get f.1 = some .ff) : ¬ D.interp R f := by
  rintro ⟨d, hd, ρ, _, hh⟩
  rw [h] at hd; cases hd; exact hh

theorem tgt_tru {R : PRepr} (hR : R.WF) {e : Edge T} (h : e.tgt = .tru) (ρ : Valuation T) : e.tgtFact R ρ = trueFact := by
  simp [Edge.tgtFact, h, PRepr.tgtVars, hR.tru, trueFact]

/-- The common part of the SAFE back-translations of node removal. -/
theorem unreachableBack_safe {R : PRepr} (hR : R.WF) {G G' : Graph T} {fw bw : List Pred} {D : Defs T}
    (hD : SafeGood R G' D) (hsub : ∀ e ∈ G', e ∈ G)
    (hvert : ∀ p, G.Vertex p → p = .tru ∨ p = .fls ∨ Graph.Vertex G' p ∨ p ∈ bw ∨ p ∈ fw)
    (hbw : ∀ p ∈ bw, G.Vertex p ∧ ¬ Graph.Vertex G' p ∧ p ≠ .tru ∧ p ≠ .fls)
    (hfw : ∀ p ∈ fw, (G.Vertex p ∨ p = .fls) ∧ ¬ Graph.Vertex G' p ∧ p ≠ .tru)
    (hdel : ∀ e ∈ G, e ∉ G' → e.tgt = .tru ∨ e.tgt ∈ bw ∨ ∃ s ∈ e.src, (s ∈ fw ∨ s = .fls) ∧ s ∉ bw) :
    SafeGood R G ((unreachableBack fw bw).safe D) ∧
      (SafeWitness R G' D → SafeWitness R G ((unreachableBack fw bw).safe D)) := by
  have hget := unreachableBack_get fw bw D
  have hnone : ∀ p, ¬ Graph.Vertex G' p → p ≠ .tru → p ≠ .fls → D.get p = none := by
    intro p h1 h2 h3
    cases h : D.get p with
    | none => rfl
    | some d =>
      rcases hD.only p (by rw [h]; rfl) with h' | h' | h'
      · exact absurd h' h1
      · exact absurd h' h2
      · exact absurd h' h3
  have hsome : ∀ p d, D.get p = some d → ((unreachableBack fw bw).safe D).get p = some d := by
    intro p d h; rw [hget, h]
  have htru : ((unreachableBack fw bw).safe D).get .tru = some .tt := hsome _ _ hD.tru
  have hfls : ((unreachableBack fw bw).safe D).get .fls = some .ff := hsome _ _ hD.fls
  have hmtru : ((unreachableBack fw bw).safe D).interp R trueFact :=
    interp_tt hR htru (by simp [trueFact, hR.tru])
  have main : SafeGood R G ((unreachableBack fw bw).safe D) := by
   refine ⟨⟨?_, htru, hfls, ⟨⟨hmtru, ?_⟩, interp_ff hfls⟩⟩, ?_⟩
   · intro p d hd
     rw [hget] at hd
     split at hd
     · rename_i d' h'; cases hd; exact hD.closed p _ h'
     · split at hd
       · cases hd; simp [Fla.vars]
       · split at hd
         · cases hd; simp [Fla.vars]
         · simp at hd
   · rintro r ⟨e, he, ρ, hl, rfl⟩ hb
     by_cases he' : e ∈ G'
     · have hv : ∀ p, (p = e.tgt ∨ p ∈ e.src) → ((unreachableBack fw bw).safe D).get p = D.get p := by
         intro p hp
         rw [hget]
         split
         · rename_i d hd; rw [hd]
         · rename_i hn
           rw [if_neg fun hb => (hbw p hb).2.1 ⟨e, he', hp⟩, if_neg fun hf => (hfw p hf).2.1 ⟨e, he', hp⟩, hn]
       have hm := hD.model.1.2 (e.rule R ρ) ⟨e, he', ρ, hl, rfl⟩ (by
         intro b hb'
         have hb1 : b.1 ∈ e.src := by
           rw [← srcFacts_fst R ρ e]; exact List.mem_map_of_mem hb'
         exact (interp_of_get (hv _ (Or.inr hb1))).1 (hb b hb'))
       exact (interp_of_get (hv _ (Or.inl rfl))).2 hm
     · rcases hdel e he he' with ht | ht | ⟨s, hs, hs', hnb⟩
       · show ((unreachableBack fw bw).safe D).interp R (e.tgtFact R ρ)
         rw [tgt_tru hR ht]; exact hmtru
       · obtain ⟨_, h2, h3, h4⟩ := hbw _ ht
         refine interp_tt hR ?_ (by exact tgtFact_len)
         show ((unreachableBack fw bw).safe D).get e.tgt = _
         rw [hget, hnone _ h2 h3 h4]; simp [ht]
       · exfalso
         have hsf : ((unreachableBack fw bw).safe D).get s = some .ff := by
           by_cases hsfls : s = .fls
           · rw [hsfls]; exact hfls
           · rcases hs' with h | h
             · obtain ⟨_, h2, h3⟩ := hfw _ h
               rw [hget, hnone _ h2 h3 hsfls]; simp [hnb, h]
             · exact absurd h hsfls
         rw [← srcFacts_fst R ρ e] at hs
         obtain ⟨f, hf, rfl⟩ := List.mem_map.1 hs
         exact interp_ff hsf (hb f hf)
   · intro p hp
     rw [hget] at hp
     split at hp
     · rename_i d hd
       rcases hD.only p (by rw [hd]; rfl) with ⟨e, he, h⟩ | h
       · exact Or.inl ⟨e, hsub e he, h⟩
       · exact Or.inr h
     · split at hp
       · rename_i h; exact Or.inl (hbw p h).1
       · split at hp
         · rename_i h
           rcases (hfw p h).1 with h | h
           · exact Or.inl h
           · exact Or.inr (Or.inr h)
         · simp at hp
  refine ⟨main, fun hW => ⟨main.toSafeModel, ?_, main.only⟩⟩
  · intro p hp
    rw [hget]
    rcases hvert p hp with h | h | h | h | h
    · rw [h, hD.tru]; rfl
    · rw [h, hD.fls]; rfl
    · obtain ⟨d, hd⟩ := Option.isSome_iff_exists.1 (hW.complete p h)
      rw [hd]; rfl
    · split
      · rfl
      · simp [h]
    · split
      · rfl
      · split
        · rfl
        · simp [h]

theorem derivable_fwd {R : PRepr} {G : Graph T} (hne : ∀ e ∈ G, e.src ≠ []) {f : Fact T}
    (h : Derivable (graphRules R G) f) : FwdReach G f.1 := by
  induction h with
  | entry => exact .entry
  | step r hr _ ih =>
    obtain ⟨e, he, ρ, _, rfl⟩ := hr
    refine FwdReach.step he (hne e he) ?_
    intro s hs
    rw [← srcFacts_fst R ρ e] at hs
    obtain ⟨f, hf, rfl⟩ := List.mem_map.1 hs
    exact ih f hf

theorem FwdReach.mono {G G' : Graph T} (h : ∀ e ∈ G, e ∈ G') {p : Pred} (hp : FwdReach G p) : FwdReach G' p := by
  induction hp with
  | entry => exact .entry
  | step he hne _ ih => exact .step (h _ he) hne ih

/-- Removing exactly the forward-unreachable vertices. -/
theorem forward_removal {R : PRepr} (hR : R.WF) {G : Graph T} (hne : ∀ e ∈ G, e.src ≠ []) {fw : List Pred}
    (hfw : ∀ x, x ∈ fw ↔ (G.Vertex x ∨ x = .fls) ∧ ¬ FwdReach G x) :
    (∀ f, Derivable (graphRules R G) f ↔ Derivable (graphRules R (fw.foldl deleteNode G)) f) ∧
    (∀ p, FwdReach G p → p ≠ .tru → Graph.Vertex (fw.foldl deleteNode G) p) ∧
    (∀ p, Graph.Vertex (fw.foldl deleteNode G) p → FwdReach G p) := by
  have hmem : ∀ e ∈ G, (∀ s ∈ e.src, FwdReach G s) → e ∈ fw.foldl deleteNode G := by
    intro e he hs
    rw [mem_deleteNodes]
    exact ⟨he, fun h => ((hfw _).1 h).2 (.step he (hne e he) hs), fun s hs' h => ((hfw _).1 h).2 (hs s hs')⟩
  refine ⟨?_, ?_, ?_⟩
  · intro f
    constructor
    · intro h
      induction h with
      | entry => exact .entry
      | step r hr hb ih =>
        obtain ⟨e, he, ρ, hl, rfl⟩ := hr
        refine .step _ ⟨e, hmem e he ?_, ρ, hl, rfl⟩ ih
        intro s hs
        rw [← srcFacts_fst R ρ e] at hs
        obtain ⟨f, hf, rfl⟩ := List.mem_map.1 hs
        exact derivable_fwd hne (hb f hf)
    · exact Derivable.mono fun r => graphRules_mono fun e he => (mem_deleteNodes.1 he).1
  · intro p hp hpt
    cases hp with
    | entry => exact absurd rfl hpt
    | step he h1 hs => exact ⟨_, hmem _ he hs, Or.inl rfl⟩
  · rintro p ⟨e, he, hp⟩
    obtain ⟨h1, h2, h3⟩ := mem_deleteNodes.1 he
    have hv : G.Vertex p := ⟨e, h1, hp⟩
    have hn : p ∉ fw := by
      rcases hp with rfl | hp
      · exact h2
      · exact h3 p hp
    exact Classical.byContradiction fun hc => hn ((hfw p).2 ⟨Or.inl hv, hc⟩)

/-- What can be reached can be reached without the vertices that cannot. -/
theorem fwd_stays {G : Graph T} {fw : List Pred}
    (hfw : ∀ p, p ∈ fw ↔ (G.Vertex p ∨ p = .fls) ∧ ¬ FwdReach G p) {p : Pred} (hp : FwdReach G p) :
    FwdReach (fw.foldl deleteNode G) p := by
  induction hp with
  | entry => exact .entry
  | step he hn hs ih =>
    exact .step (mem_deleteNodes.2 ⟨he, fun h => ((hfw _).1 h).2 (.step he hn hs), fun s h h' => ((hfw _).1 h').2 (hs s h)⟩)
      hn ih

/-- Removing exactly the vertices that cannot reach the exit. -/
theorem backward_removal {R : PRepr} (hR : R.WF) {G : Graph T} {bw : List Pred}
    (hbw : ∀ x, x ∈ bw ↔ G.Vertex x ∧ x ≠ .tru ∧ ¬ BackReach G x) :
    (∀ f : Fact T, BackReach G f.1 → (Derivable (graphRules R G) f ↔ Derivable (graphRules R (bw.foldl deleteNode G)) f)) ∧
    (∀ e ∈ G, BackReach G e.tgt → e.tgt ≠ .tru → e ∈ bw.foldl deleteNode G) ∧
    (∀ p, Graph.Vertex (bw.foldl deleteNode G) p → p = .tru ∨ BackReach G p) := by
  have hmem : ∀ e ∈ G, BackReach G e.tgt → e.tgt ≠ .tru → e ∈ bw.foldl deleteNode G := by
    intro e he ht hne
    rw [mem_deleteNodes]
    exact ⟨he, fun h => ((hbw _).1 h).2.2 ht, fun s hs h => ((hbw _).1 h).2.2 (.step he ht hne hs)⟩
  refine ⟨?_, hmem, ?_⟩
  · intro f hf
    constructor
    · intro h
      induction h with
      | entry => exact .entry
      | step r hr hb ih =>
        obtain ⟨e, he, ρ, hl, rfl⟩ := hr
        by_cases ht : e.tgt = .tru
        · show Derivable _ (e.tgtFact R ρ)
          rw [tgt_tru hR ht]; exact .entry
        · refine .step _ ⟨e, hmem e he hf ht, ρ, hl, rfl⟩ ?_
          intro b hb'
          refine ih b hb' (.step he hf ht ?_)
          rw [← srcFacts_fst R ρ e]; exact List.mem_map_of_mem hb'
    · exact Derivable.mono fun r => graphRules_mono fun e he => (mem_deleteNodes.1 he).1
  · rintro p ⟨e, he, hp⟩
    obtain ⟨h1, h2, h3⟩ := mem_deleteNodes.1 he
    have hn : p ∉ bw := by
      rcases hp with rfl | hp
      · exact h2
      · exact h3 p hp
    by_cases ht : p = .tru
    · exact Or.inl ht
    · exact Or.inr (Classical.byContradiction fun hc => hn ((hbw p).2 ⟨⟨e, h1, hp⟩, ht, hc⟩))

theorem mem_inner {G : Graph T} {p : Pred} :
    p ∈ ((adjacency G).nodes.filter fun n => decide (¬ (n = .tru ∨ n = .fls))) ↔ G.Vertex p ∧ p ≠ .tru ∧ p ≠ .fls := by
  rw [List.mem_filter, mem_nodes]
  simp only [decide_eq_true_eq, not_or]
  constructor
  · rintro ⟨h1 | h1 | h1, h2, h3⟩
    · exact ⟨h1, h2, h3⟩
    · exact absurd h1 h2
    · exact absurd h1 h3
  · rintro ⟨h1, h2, h3⟩; exact ⟨Or.inl h1, h2, h3⟩

theorem empty_rules {R : PRepr} {f : Fact T} (h : Derivable (graphRules R ([] : Graph T)) f) : f = trueFact := by
  cases h with
  | entry => rfl
  | step r hr _ => obtain ⟨e, he, _⟩ := hr; simp at he

/-- C08. `RemoveUnreachableNodes` terminates on every graph whose edges have sources; the result is a subgraph in which
every vertex (other than the entry) is structurally reachable from the entry and reaches the exit; `false` (and every
fact of a remaining vertex) is derivable before iff after; and both witness translations are correct, including
completeness of the SAFE witness. -/
theorem C08_remove_unreachable (R : PRepr) (hR : R.WF) (G : Graph T) (hG : G.IdsNodup) (hne : ∀ e ∈ G, e.src ≠ []) :
    ∃ G' b, removeUnreachable G = some (G', b) ∧
      (∀ e ∈ G', e ∈ G) ∧
      (∀ p, Graph.Vertex G' p → p ≠ .tru → FwdReach G' p ∧ BackReach G p) ∧
      (∀ p vs, Graph.Vertex G' p ∨ p = .fls →
        (Derivable (graphRules R G) (p, vs) ↔ Derivable (graphRules R G') (p, vs))) ∧
      SafeBack R G' G b.safe ∧
      (∀ ds, UnsafeWitness R G' ds → UnsafeWitness R G (b.uns ds)) := by
  unfold removeUnreachable
  by_cases h1 : ((adjacency G).inEdges .fls).isEmpty = true
  · simp only [h1, if_true]
    have hno : ∀ e ∈ G, e.tgt ≠ .fls := by
      intro e he ht
      rw [adjacency_in, List.isEmpty_iff, List.map_eq_nil_iff, List.filter_eq_nil_iff] at h1
      exact h1 e he (by simpa using ht)
    refine ⟨_, _, rfl, by simp, by rintro p ⟨e, he, _⟩; simp at he, ?_, ?_, ?_⟩
    · rintro p vs (⟨e, he, _⟩ | rfl)
      · simp at he
      · constructor
        · intro h
          exfalso
          generalize hf : ((Pred.fls, vs) : Fact T) = f at h
          cases h with
          | entry => simp [trueFact] at hf
          | step r hr _ =>
            obtain ⟨e, he, ρ, _, rfl⟩ := hr
            have := congrArg Prod.fst hf
            exact hno e he this.symm
        · intro h; have := empty_rules h; simp [trueFact] at this
    · intro D hD
      refine unreachableBack_safe hR hD (by simp) ?_ ?_ (by simp) ?_
      · intro p hp
        by_cases a : p = .tru
        · exact Or.inl a
        by_cases b : p = .fls
        · exact Or.inr (Or.inl b)
        · exact Or.inr (Or.inr (Or.inr (Or.inl (mem_inner.2 ⟨hp, a, b⟩))))
      · intro p hp
        obtain ⟨a, b, c⟩ := mem_inner.1 hp
        exact ⟨a, by rintro ⟨e, he, _⟩; simp at he, b, c⟩
      · intro e he _
        by_cases a : e.tgt = .tru
        · exact Or.inl a
        · exact Or.inr (Or.inl (mem_inner.2 ⟨⟨e, he, Or.inl rfl⟩, a, hno e he⟩))
    · intro ds hds; exact hds.mono (by simp)
  · simp only [h1]
    by_cases h2 : ((adjacency G).outEdges .tru).isEmpty = true
    · simp only [h2, if_true]
      have hno : ∀ e ∈ G, .tru ∉ e.src := by
        intro e he ht
        rw [adjacency_out hG, List.isEmpty_iff, List.map_eq_nil_iff, List.filter_eq_nil_iff] at h2
        exact h2 e he (by simpa using ht)
      have hnd : ∀ f, Derivable (graphRules R G) f → f = trueFact := by
        intro f h
        induction h with
        | entry => rfl
        | step r hr hb ih =>
          obtain ⟨e, he, ρ, _, rfl⟩ := hr
          exfalso
          cases hsrc : e.src with
          | nil => exact hne e he hsrc
          | cons a l =>
            have ha : a ∈ e.src := by rw [hsrc]; simp
            have ha' := ha
            rw [← srcFacts_fst R ρ e] at ha'
            obtain ⟨f, hf, rfl⟩ := List.mem_map.1 ha'
            have := ih f hf
            rw [this] at ha
            exact hno e he ha
      refine ⟨_, _, rfl, by simp, by rintro p ⟨e, he, _⟩; simp at he, ?_, ?_, ?_⟩
      · rintro p vs (⟨e, he, _⟩ | rfl)
        · simp at he
        · constructor
          · intro h; have := hnd _ h; simp [trueFact] at this
          · intro h; have := empty_rules h; simp [trueFact] at this
      · intro D hD
        refine unreachableBack_safe hR hD (by simp) ?_ (by simp) ?_ ?_
        · intro p hp
          by_cases a : p = .tru
          · exact Or.inl a
          by_cases b : p = .fls
          · exact Or.inr (Or.inl b)
          · exact Or.inr (Or.inr (Or.inr (Or.inr (mem_inner.2 ⟨hp, a, b⟩))))
        · intro p hp
          obtain ⟨a, b, c⟩ := mem_inner.1 hp
          exact ⟨Or.inl a, by rintro ⟨e, he, _⟩; simp at he, b⟩
        · intro e he _
          cases hsrc : e.src with
          | nil => exact absurd hsrc (hne e he)
          | cons a l =>
            have ha : a ∈ e.src := by rw [hsrc]; simp
            refine Or.inr (Or.inr ⟨a, by simp, ?_, by simp⟩)
            by_cases b : a = .fls
            · exact Or.inr b
            · exact Or.inl (mem_inner.2 ⟨⟨e, he, Or.inr ha⟩, fun h => hno e he (h ▸ ha), b⟩)
      · intro ds hds; exact hds.mono (by simp)
    · simp only [h2]
      obtain ⟨bw, hbw, hbwx⟩ := computeBackward_exact hG
      have hG1 : Graph.IdsNodup (bw.foldl deleteNode G) := deleteNodes_ids hG
      have hA1 : (if bw.isEmpty then adjacency G else adjacency (bw.foldl deleteNode G)) =
          adjacency (bw.foldl deleteNode G) := by
        split
        · rename_i he; rw [List.isEmpty_iff.1 he]; rfl
        · rfl
      have hne1 : ∀ e ∈ bw.foldl deleteNode G, e.src ≠ [] := fun e he => hne e (mem_deleteNodes.1 he).1
      obtain ⟨fw, hfw, hfwx⟩ := computeForward_exact hG1 hne1
      obtain ⟨b1, b2, b3⟩ := backward_removal hR hbwx
      obtain ⟨f1, f2, f3⟩ := forward_removal hR hne1 hfwx
      simp only [hbw, hA1, hfw, Option.bind_eq_bind, Option.bind_some]
      have hvert1 : ∀ p, Graph.Vertex (fw.foldl deleteNode (bw.foldl deleteNode G)) p →
          Graph.Vertex (bw.foldl deleteNode G) p := by
        rintro p ⟨e, he, h⟩; exact ⟨e, (mem_deleteNodes.1 he).1, h⟩
      refine ⟨_, _, rfl, ?_, ?_, ?_, ?_, ?_⟩
      · intro e he; exact (mem_deleteNodes.1 (mem_deleteNodes.1 he).1).1
      · intro p hp hpt
        refine ⟨fwd_stays hfwx (f3 p hp), ?_⟩
        rcases b3 p (hvert1 p hp) with h | h
        · exact absurd h hpt
        · exact h
      · intro p vs hp
        have hbr : p = .tru ∨ BackReach G p := by
          rcases hp with hp | rfl
          · exact b3 p (hvert1 p hp)
          · exact Or.inr .exit
        rw [← f1]
        rcases hbr with rfl | hbr
        · constructor
          · intro h
            generalize hf : ((Pred.tru, vs) : Fact T) = f at h
            cases h with
            | entry => exact .entry
            | step r hr _ =>
              obtain ⟨e, he, ρ, _, rfl⟩ := hr
              have : e.tgt = .tru := (congrArg Prod.fst hf).symm
              show Derivable _ (e.tgtFact R ρ)
              rw [tgt_tru hR this]; exact .entry
          · exact Derivable.mono fun r => graphRules_mono fun e he => (mem_deleteNodes.1 he).1
        · exact b1 (p, vs) hbr
      · intro D hD
        refine unreachableBack_safe hR hD ?_ ?_ ?_ ?_ ?_
        · intro e he; exact (mem_deleteNodes.1 (mem_deleteNodes.1 he).1).1
        · intro p hp
          by_cases a : p = .tru
          · exact Or.inl a
          by_cases a' : p = .fls
          · exact Or.inr (Or.inl a')
          by_cases c : BackReach G p
          · right; right
            -- `p` survives the backward deletion
            have hv1 : Graph.Vertex (bw.foldl deleteNode G) p := by
              cases c with
              | exit => exact absurd rfl a'
              | step he ht hne' hs => exact ⟨_, b2 _ he ht hne', Or.inr hs⟩
            by_cases d : FwdReach (bw.foldl deleteNode G) p
            · exact Or.inl (f2 p d a)
            · exact Or.inr (Or.inr ((hfwx p).2 ⟨Or.inl hv1, d⟩))
          · exact Or.inr (Or.inr (Or.inr (Or.inl ((hbwx p).2 ⟨hp, a, c⟩))))
        · intro p hp
          obtain ⟨h1, h2, h3⟩ := (hbwx p).1 hp
          refine ⟨h1, fun h => ?_, h2, fun h => h3 (h ▸ .exit)⟩
          rcases b3 p (hvert1 p h) with h | h
          · exact h2 h
          · exact h3 h
        · intro p hp
          obtain ⟨h1, h2⟩ := (hfwx p).1 hp
          refine ⟨?_, fun h => h2 (f3 p h), fun h => h2 (h ▸ .entry)⟩
          rcases h1 with ⟨e, he, h⟩ | h
          · exact Or.inl ⟨e, (mem_deleteNodes.1 he).1, h⟩
          · exact Or.inr h
        · intro e he hn
          by_cases a : e.tgt = .tru
          · exact Or.inl a
          by_cases c : BackReach G e.tgt
          · right; right
            have he1 := b2 e he c a
            have : ∃ s ∈ e.src, ¬ FwdReach (bw.foldl deleteNode G) s := by
              apply Classical.byContradiction
              intro hc
              apply hn
              rw [mem_deleteNodes]
              have hall : ∀ s ∈ e.src, FwdReach (bw.foldl deleteNode G) s := fun s hs =>
                Classical.byContradiction fun h => hc ⟨s, hs, h⟩
              exact ⟨he1, fun h => ((hfwx _).1 h).2 (.step he1 (hne e he) hall),
                fun s hs h => ((hfwx _).1 h).2 (hall s hs)⟩
            obtain ⟨s, hs, hsn⟩ := this
            refine ⟨s, hs, Or.inl ((hfwx s).2 ⟨Or.inl ⟨e, he1, Or.inr hs⟩, hsn⟩), ?_⟩
            intro hb
            exact ((hbwx s).1 hb).2.2 (.step he c a hs)
          · exact Or.inr (Or.inl ((hbwx _).2 ⟨⟨e, he, Or.inl rfl⟩, a, c⟩))
      · intro ds hds
        exact hds.mono fun e he => (mem_deleteNodes.1 (mem_deleteNodes.1 he).1).1

/-- C08 for `RemoveForwardUnreachableNodes` (used by the termination front end): every fact keeps its status. -/
theorem C08_remove_forward_unreachable (R : PRepr) (hR : R.WF) (G : Graph T) (hG : G.IdsNodup)
    (hne : ∀ e ∈ G, e.src ≠ []) :
    ∃ G' b, removeForwardUnreachable G = some (G', b) ∧
      (∀ e ∈ G', e ∈ G) ∧
      (∀ f, Derivable (graphRules R G) f ↔ Derivable (graphRules R G') f) ∧
      SafeBack R G' G b.safe ∧
      (∀ ds, UnsafeWitness R G' ds → UnsafeWitness R G (b.uns ds)) := by
  unfold removeForwardUnreachable
  by_cases h2 : ((adjacency G).outEdges .tru).isEmpty = true
  · simp only [h2, if_true]
    have hno : ∀ e ∈ G, .tru ∉ e.src := by
      intro e he ht
      rw [adjacency_out hG, List.isEmpty_iff, List.map_eq_nil_iff, List.filter_eq_nil_iff] at h2
      exact h2 e he (by simpa using ht)
    refine ⟨_, _, rfl, by simp, ?_, ?_, ?_⟩
    · intro f
      constructor
      · intro h
        have hf := derivable_fwd hne h
        cases h with
        | entry => exact .entry
        | step r hr hb =>
          obtain ⟨e, he, ρ, _, rfl⟩ := hr
          exfalso
          have key : ∀ p, FwdReach G p → p = .tru := by
            intro p hp
            induction hp with
            | entry => rfl
            | @step e' he h1 _ ih =>
              exfalso
              cases hsrc : e'.src with
              | nil => exact h1 hsrc
              | cons a l =>
                have ha : a ∈ e'.src := by rw [hsrc]; simp
                exact hno _ he (ih a ha ▸ ha)
          cases hsrc : e.src with
          | nil => exact hne e he hsrc
          | cons a l =>
            have ha : a ∈ e.src := by rw [hsrc]; simp
            have ha' := ha
            rw [← srcFacts_fst R ρ e] at ha'
            obtain ⟨f, hf', rfl⟩ := List.mem_map.1 ha'
            exact hno e he (key _ (derivable_fwd hne (hb f hf')) ▸ ha)
      · intro h; rw [empty_rules h]; exact .entry
    · intro D hD
      refine unreachableBack_safe hR hD (by simp) ?_ (by simp) ?_ ?_
      · intro p hp
        by_cases a : p = .tru
        · exact Or.inl a
        by_cases b : p = .fls
        · exact Or.inr (Or.inl b)
        · exact Or.inr (Or.inr (Or.inr (Or.inr (mem_inner.2 ⟨hp, a, b⟩))))
      · intro p hp
        obtain ⟨a, b, c⟩ := mem_inner.1 hp
        exact ⟨Or.inl a, by rintro ⟨e, he, _⟩; simp at he, b⟩
      · intro e he _
        cases hsrc : e.src with
        | nil => exact absurd hsrc (hne e he)
        | cons a l =>
          have ha : a ∈ e.src := by rw [hsrc]; simp
          refine Or.inr (Or.inr ⟨a, by simp, ?_, by simp⟩)
          by_cases b : a = .fls
          · exact Or.inr b
          · exact Or.inl (mem_inner.2 ⟨⟨e, he, Or.inr ha⟩, fun h => hno e he (h ▸ ha), b⟩)
    · intro ds hds; exact hds.mono (by simp)
  · simp only [h2]
    obtain ⟨fw, hfw, hfwx⟩ := computeForward_exact hG hne
    obtain ⟨f1, f2, f3⟩ := forward_removal hR hne hfwx
    simp only [hfw, Option.bind_eq_bind, Option.bind_some]
    refine ⟨_, _, rfl, fun e he => (mem_deleteNodes.1 he).1, f1, ?_, fun ds hds => hds.mono fun e he => (mem_deleteNodes.1 he).1⟩
    intro D hD
    refine unreachableBack_safe hR hD (fun e he => (mem_deleteNodes.1 he).1) ?_ (by simp) ?_ ?_
    · intro p hp
      by_cases a : p = .tru
      · exact Or.inl a
      by_cases d : FwdReach G p
      · exact Or.inr (Or.inr (Or.inl (f2 p d a)))
      · exact Or.inr (Or.inr (Or.inr (Or.inr ((hfwx p).2 ⟨Or.inl hp, d⟩))))
    · intro p hp
      obtain ⟨h1, h2⟩ := (hfwx p).1 hp
      exact ⟨h1, fun h => h2 (f3 p h), fun h => h2 (h ▸ .entry)⟩
    · intro e he hn
      have : ∃ s ∈ e.src, ¬ FwdReach G s := by
        apply Classical.byContradiction
        intro hc
        apply hn
        rw [mem_deleteNodes]
        have hall : ∀ s ∈ e.src, FwdReach G s := fun s hs => Classical.byContradiction fun h => hc ⟨s, hs, h⟩
        exact ⟨he, fun h => ((hfwx _).1 h).2 (.step he (hne e he) hall), fun s hs h => ((hfwx _).1 h).2 (hall s hs)⟩
      obtain ⟨s, hs, hsn⟩ := this
      exact Or.inr (Or.inr ⟨s, hs, Or.inl ((hfwx s).2 ⟨Or.inl ⟨e, he, Or.inr hs⟩, hsn⟩), by simp⟩)

/-! ### C09 -/

theorem pruneLoop_sat {S : Smt T} {es : List (Edge T)} {e : Edge T} (h : pruneLoop S es = .satEdge e) :
    e ∈ es ∧ S.check [e.fla] = .sat := by
  induction es with
  | nil => simp [pruneLoop] at h
  | cons a es ih =>
    rw [pruneLoop] at h
    split at h
    · rename_i hs; cases h; exact ⟨by simp, hs⟩
    · obtain ⟨h1, h2⟩ := ih h; exact ⟨List.mem_cons_of_mem _ h1, h2⟩
    · simp at h

theorem pruneLoop_unsat {S : Smt T} {es : List (Edge T)} (h : pruneLoop S es = .allUnsat) :
    ∀ e ∈ es, S.check [e.fla] = .unsat := by
  induction es with
  | nil => simp
  | cons a es ih =>
    rw [pruneLoop] at h
    split at h
    · simp at h
    · rename_i hs
      intro e he
      rcases List.mem_cons.1 he with rfl | he
      · exact hs
      · exact ih h e he
    · simp at h

/-- C09. If the pruner finds a satisfiable direct edge, `false` is derivable from both graphs, the reduced graph has no
SAFE witness, and its two-step refutation translates to one of the original graph. Otherwise the result is a subgraph
with the same rules and both witness kinds carry over unchanged. -/
theorem C09_trivial_edge_pruner (S : Smt T) (hS : S.Sound) (R : PRepr) (hR : R.WF) (G : Graph T) (hG : G.IdsNodup) :
    (∀ e, pruneLoop S (directEdges G) = .satEdge e →
      G.Unsafe R ∧ Graph.Unsafe R (trivialEdgePruner S G).1 ∧
      (∀ D, ¬ SafeModel R (trivialEdgePruner S G).1 D) ∧
      (∀ ds, ds.length = 2 → UnsafeWitness R (trivialEdgePruner S G).1 ds →
        UnsafeWitness R G ((trivialEdgePruner S G).2.uns ds))) ∧
    ((∀ e, pruneLoop S (directEdges G) ≠ .satEdge e) →
      (∀ f, Derivable (graphRules R G) f ↔ Derivable (graphRules R (trivialEdgePruner S G).1) f) ∧
      SafeBack R (trivialEdgePruner S G).1 G (trivialEdgePruner S G).2.safe ∧
      (∀ ds, UnsafeWitness R (trivialEdgePruner S G).1 ds → UnsafeWitness R G ((trivialEdgePruner S G).2.uns ds))) := by
  refine ⟨?_, ?_⟩
  · intro e he
    obtain ⟨hm, hs⟩ := pruneLoop_sat he
    obtain ⟨heG, hd⟩ := List.mem_filter.1 hm
    simp only [decide_eq_true_eq] at hd
    have hres : trivialEdgePruner S G = ([{ e with id := 0 }], ⟨id, setClause1 e.id⟩) := by
      unfold trivialEdgePruner; rw [he]
    have hfire : ∀ e' : Edge T, e'.src = e.src → e'.tgt = e.tgt → e'.fla = e.fla → e'.Fires R [trueFact] falseFact := by
      intro e' h1 h2 h3
      refine ⟨S.model [e.fla], ?_, ?_, ?_⟩
      · rw [h3]; exact hS.sat _ hs _ (by simp)
      · simp [Edge.srcFacts, h1, hd.2, instances, instancesAux, PRepr.srcVars, hR.tru, trueFact]
      · simp [Edge.tgtFact, h2, hd.1, PRepr.tgtVars, hR.fls, falseFact]
    have hun : ∀ G' : Graph T, ∀ e' ∈ G', e'.Fires R [trueFact] falseFact → G'.Unsafe R := by
      intro G' e' he' hf
      exact Derivable.step _ (hf.rule he') (by intro b hb; simp at hb; subst hb; exact .entry)
    have hun' := hun [{ e with id := 0 }] _ (by simp) (hfire { e with id := 0 } rfl rfl rfl)
    rw [hres]
    refine ⟨hun G e heG (hfire e rfl rfl rfl), hun', fun D hD => hD.safe hun', ?_⟩
    intro ds hlen hds
    match ds, hlen with
    | [d0, d1], _ =>
      obtain ⟨x, hx, hx1, hx2⟩ := hds.first
      obtain ⟨y, hy, hy1⟩ := hds.last
      simp at hx hy; subst hx; subst hy
      refine ⟨⟨d0, rfl, hx1, hx2⟩, ⟨_, rfl, hy1⟩, ?_⟩
      intro i d hi hd'
      match i, hi with
      | 1, _ =>
        simp [setClause1] at hd'
        subst hd'
        obtain ⟨a, e', he', _, c⟩ := hds.steps 1 d1 (by omega) rfl
        simp at he'
        subst he'
        have hpf : premFacts (setClause1 e.id [d0, d1]) d1.premises = premFacts [d0, d1] d1.premises :=
          premFacts_congr (by simp [setClause1]) _
        exact ⟨a, e, heG, rfl, by
          show e.Fires R (premFacts (setClause1 e.id [d0, d1]) d1.premises) d1.fact
          rw [hpf]
          obtain ⟨ρ, p1, p2, p3⟩ := c
          exact ⟨ρ, p1, p2, p3⟩⟩
      | n + 2, _ => simp [setClause1] at hd'
  · intro hns
    unfold trivialEdgePruner
    split
    · rename_i e he; exact absurd he (hns e)
    · exact ⟨fun _ => Iff.rfl, fun _ h => ⟨h, fun h => h⟩, fun _ h => h⟩
    · rename_i hall
      have hu := pruneLoop_unsat hall
      have hmem : ∀ e, e ∈ deleteEdges G ((directEdges G).map Edge.id) ↔ e ∈ G ∧ e ∉ directEdges G := by
        intro e
        simp only [deleteEdges, List.mem_filter, decide_eq_true_eq]
        constructor
        · rintro ⟨h1, h2⟩; exact ⟨h1, fun h => h2 (List.mem_map_of_mem h)⟩
        · rintro ⟨h1, h2⟩
          refine ⟨h1, fun h => ?_⟩
          obtain ⟨e', he', hid⟩ := List.mem_map.1 h
          have := hG.eq (List.mem_filter.1 he').1 h1 hid
          exact h2 (this ▸ he')
      have hrules : ∀ r, graphRules R G r ↔ graphRules R (deleteEdges G ((directEdges G).map Edge.id)) r := by
        intro r
        constructor
        · rintro ⟨e, he, ρ, hl, rfl⟩
          refine ⟨e, (hmem e).2 ⟨he, fun hd => ?_⟩, ρ, hl, rfl⟩
          exact hS.unsat _ (hu e hd) ⟨ρ, by intro f hf; simp at hf; subst hf; exact hl⟩
        · exact graphRules_mono fun e he => ((hmem e).1 he).1
      refine ⟨derivable_congr hrules, ?_, fun ds h => h.mono fun e he => ((hmem e).1 he).1⟩
      intro D hD
      have hmod : SafeModel R G D := ⟨hD.closed, hD.tru, hD.fls, (isModel_congr hrules _).2 hD.model⟩
      have honly : ∀ p, (D.get p).isSome → G.Vertex p ∨ p = .tru ∨ p = .fls := by
        intro p hp
        refine (hD.only p hp).imp ?_ _root_.id
        rintro ⟨e, he, h⟩
        exact ⟨e, ((hmem e).1 he).1, h⟩
      refine ⟨⟨hmod, honly⟩, fun hW => ⟨hmod, ?_, honly⟩⟩
      · rintro p ⟨e, he, hp⟩
        by_cases hd : e ∈ directEdges G
        · have hd' := (List.mem_filter.1 hd).2
          simp only [decide_eq_true_eq] at hd'
          have : p = .fls ∨ p = .tru := by rw [hd'.1, hd'.2] at hp; simpa using hp
          rcases this with rfl | rfl
          · exact (show D.get .fls = some .ff from hD.fls) ▸ rfl
          · exact (show D.get .tru = some .tt from hD.tru) ▸ rfl
        · exact hW.complete p ⟨e, (hmem e).2 ⟨he, hd⟩, hp⟩

namespace UnreachableEx
open ValidatorEx

/-- `p1` cannot reach the exit, `p2` is not reachable from the entry. -/
def G : Graph P :=
  [⟨[.tru], .p 0, a xt, 0⟩, ⟨[.p 0], .p 1, .tt, 1⟩, ⟨[.p 2, .p 0], .fls, .tt, 2⟩, ⟨[.p 0], .fls, .not (a xs), 3⟩,
   ⟨[.tru], .fls, .and (a xs) (.not (a xs)), 4⟩]

/-- C08 and C09 hypotheses; both transformations really change this graph. -/
example : G.IdsNodup ∧ (∀ e ∈ G, e.src ≠ []) ∧
    ((removeUnreachable G).map fun r => r.1.map Edge.id) = some [0, 3, 4] ∧
    (trivialEdgePruner propSmt G).1.map Edge.id = [0, 1, 2, 3] ∧
    ((removeUnreachable G).map fun r => validate propSmt R G ⟨.safe, .validity (r.2.safe safeD)⟩) = some .validated := by
  refine ⟨by unfold Graph.IdsNodup; decide, by decide +kernel, by decide +kernel, by decide +kernel, by decide +kernel⟩

end UnreachableEx
end Golem
