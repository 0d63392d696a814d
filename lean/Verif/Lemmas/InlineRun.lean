import Verif.Lemmas.Inline
import Verif.Spec.Pipeline

/-! The edge inliner: the steps of a transformation. -/

namespace Golem
variable {T : Theory}

/-- A run of the edge inliner, described by what each step does. -/
inductive InlineRun (R : PRepr) : GS T → List (InlineEntry T) → GS T → Prop where
  | nil {st : GS T} (hst : st.Inv R) : InlineRun R st [] st
  | del {st st1 st' : GS T} {es : List (InlineEntry T)} {e : Edge T} {v : Pred} (hst : st.Inv R) (he : e ∈ st.edges)
      (hs : e.src = [v]) (hv : v ≠ .tru) (hb : ∀ p ∈ st.edges.inEdges v, Blocks R v p e)
      (h1 : st1.edges = deleteEdges st.edges [e.id]) (hf : st1.freeId = st.freeId) (rest : InlineRun R st1 es st') :
      InlineRun R st (.deletion e (st.edges.inEdges v) :: es) st'
  | repl {st st1 st' : GS T} {es : List (InlineEntry T)} {n e p : Edge T} {u : Pred} (hst : st.Inv R)
      (hp : MergePair st.edges u p e) (hs : e.src = [p.tgt]) (hv : p.tgt ≠ .tru)
      (hb : ∀ q ∈ st.edges.inEdges p.tgt, q ≠ p → Blocks R p.tgt q e) (hM : Merged R u n p e) (hid : n.id = st.freeId)
      (h1 : st1.edges = deleteEdges (st.edges ++ [n]) [e.id]) (hf : st.freeId < st1.freeId) (rest : InlineRun R st1 es st') :
      InlineRun R st (.replacement n e p (st.edges.inEdges p.tgt) :: es) st'

section
variable {R : PRepr} {st st' : GS T} {es : List (InlineEntry T)}

theorem InlineRun.first (h : InlineRun R st es st') : st.Inv R := by
  cases h <;> assumption

theorem InlineRun.last (h : InlineRun R st es st') : st'.Inv R := by
  induction h with
  | nil h => exact h
  | del _ _ _ _ _ _ _ _ ih => exact ih
  | repl _ _ _ _ _ _ _ _ _ _ ih => exact ih

theorem InlineRun.append {st'' : GS T} {es' : List (InlineEntry T)} (h : InlineRun R st es st') (h' : InlineRun R st' es' st'') :
    InlineRun R st (es ++ es') st'' := by
  induction h with
  | nil _ => exact h'
  | del a b c d e f g _ ih => exact .del a b c d e f g (ih h')
  | repl a b c d e f g i j _ ih => exact .repl a b c d e f g i j (ih h')

theorem mem_deleteEdges {G : Graph T} {is : List Nat} {e : Edge T} : e ∈ deleteEdges G is ↔ e ∈ G ∧ e.id ∉ is := by
  simp [deleteEdges]

theorem mem_deleteEdge (hst : st.Inv R) {e x : Edge T} (he : e ∈ st.edges) :
    x ∈ deleteEdges st.edges [e.id] ↔ x ∈ st.edges ∧ x ≠ e := by
  rw [mem_deleteEdges, List.mem_singleton]
  exact ⟨fun ⟨a, b⟩ => ⟨a, fun h => b (h ▸ rfl)⟩, fun ⟨a, b⟩ => ⟨a, fun h => b (ids_inj hst.ok.ids a he h)⟩⟩

theorem mem_replaceEdge (hst : st.Inv R) {e n x : Edge T} (he : e ∈ st.edges) (hn : n.id = st.freeId) :
    x ∈ deleteEdges (st.edges ++ [n]) [e.id] ↔ (x ∈ st.edges ∧ x ≠ e) ∨ x = n := by
  rw [mem_deleteEdges, List.mem_singleton, List.mem_append, List.mem_singleton]
  constructor
  · rintro ⟨a | a, b⟩
    · exact .inl ⟨a, fun h => b (h ▸ rfl)⟩
    · exact .inr a
  · rintro (⟨a, b⟩ | rfl)
    · exact ⟨.inl a, fun h => b (ids_inj hst.ok.ids a he h)⟩
    · refine ⟨.inr rfl, ?_⟩
      have := hst.ok.idlt e he
      omega

theorem Merged.single {u : Pred} {n p e : Edge T} (h : Merged R u n p e) (hs : e.src = [p.tgt]) : n.src = [u] := by
  rw [h.src, hs, mergeSources_single]

/-- What one iteration of the loop does. -/
theorem inlineOne_run (hR : R.WF) (hF : R.FreshNames) {E : Elim T} (hE : E.Exact) (hst : st.Inv R) {e : Edge T}
    (he : e ∈ st.edges) : InlineRun R st (inlineOne R E e st).2 (inlineOne R E e st).1 ∧
      ∀ x ∈ st.edges, x ≠ e → x ∈ (inlineOne R E e st).1.edges := by
  have hskip : InlineRun R st [] st ∧ ∀ x ∈ st.edges, x ≠ e → x ∈ st.edges := ⟨.nil hst, fun _ h _ => h⟩
  unfold inlineOne
  split
  · rename_i v hs
    split
    · exact hskip
    · rename_i hv
      split
      · rename_i hfe
        have hi : GS.Inv R { st with edges := deleteEdges st.edges [e.id] } :=
          ⟨hst.ok.sub hR List.filter_sublist, fun x hx => hst.ends x (mem_deleteEdges.1 hx).1⟩
        refine ⟨.del (st1 := { st with edges := deleteEdges st.edges [e.id] }) hst he hs hv
          (fun p hp => feasible_blocks hp (by rw [hfe]; simp)) rfl rfl (.nil hi), fun x hx hne => ?_⟩
        exact (mem_deleteEdge hst he).2 ⟨hx, hne⟩
      · rename_i p hfe
        have hpin : p ∈ st.edges.inEdges v := feasible_sub (R := R) (e := e) (by rw [hfe]; simp)
        obtain ⟨hpG, hpt⟩ := mem_inEdges.1 hpin
        subst hpt
        split
        · rename_i u hu
          split
          · exact hskip
          · rename_i hne
            have hpair : MergePair st.edges u p e := by
              refine ⟨hpG, he, hu, hne, by rw [hs]; simp, by rw [hs]; simpa using hne, ?_⟩
              rintro rfl
              rw [hu] at hs
              simp at hs
              exact hne hs
            have hM := mergePair_merged hR hE hst.ok hpair
            have hok := mergePair_ok (E := E) hR hF hst.ok hpair
            have hed : (mergeEdgePair R E st p e).1.edges = st.edges ++ [(mergeEdgePair R E st p e).2] := rfl
            have hi : GS.Inv R { (mergeEdgePair R E st p e).1 with
                edges := deleteEdges (mergeEdgePair R E st p e).1.edges [e.id] } := by
              refine ⟨hok.sub hR List.filter_sublist, fun x hx => ?_⟩
              rw [hed] at hx
              rcases (mem_replaceEdge hst he rfl).1 hx with ⟨hx, _⟩ | rfl
              · exact hst.ends x hx
              · refine ⟨by rw [hM.tgt]; exact (hst.ends e he).1, ?_⟩
                rw [hM.single hs]
                have := (hst.ends p hpG).2
                rwa [hu] at this
            refine ⟨.repl hst hpair hs hv (fun q hq hqp => feasible_blocks hq (by rw [hfe]; simpa using hqp)) hM rfl
              rfl ?_ (.nil hi), fun x hx hxe => ?_⟩
            · exact Nat.lt_succ_self st.freeId
            · show x ∈ deleteEdges (mergeEdgePair R E st p e).1.edges [e.id]
              rw [hed]
              exact (mem_replaceEdge hst he rfl).2 (.inl ⟨hx, hxe⟩)
        · exact hskip
      · exact hskip
  · exact hskip

theorem inlineRound_run (hR : R.WF) (hF : R.FreshNames) {E : Elim T} (hE : E.Exact) (l : List (Edge T)) (hn : l.Nodup)
    (st : GS T) (hst : st.Inv R) (hl : ∀ e ∈ l, e ∈ st.edges) :
    InlineRun R st (inlineRound R E l st).2 (inlineRound R E l st).1 := by
  induction l generalizing st with
  | nil => exact .nil hst
  | cons e l ih =>
    obtain ⟨h1, h2⟩ := inlineOne_run hR hF hE hst (hl e (by simp))
    rw [List.nodup_cons] at hn
    refine h1.append (ih hn.2 _ h1.last fun x hx => h2 x (hl x (by simp [hx])) ?_)
    rintro rfl
    exact hn.1 hx

theorem inlineLoop_run (hR : R.WF) (hF : R.FreshNames) {E : Elim T} (hE : E.Exact) :
    ∀ (fuel : Nat) (st : GS T), st.Inv R → ∀ st' es, inlineLoop R E fuel st = .done (st', es) → InlineRun R st es st' := by
  intro fuel
  induction fuel with
  | zero => intro st _ st' es h; simp [inlineLoop] at h
  | succ fuel ih =>
    intro st hst st' es h
    have hr := inlineRound_run hR hF hE st.edges (ids_nodup hst.ok.ids) st hst fun _ h => h
    unfold inlineLoop at h
    split at h
    · rename_i st1 heq
      cases h
      rw [heq] at hr
      exact hr
    · rename_i st1 es1 _ heq
      rw [heq] at hr
      split at h
      · rename_i st2 es2 h2
        cases h
        exact hr.append (ih _ hr.last _ _ h2)
      · rename_i hnd
        exact absurd h (hnd _ _)

end

end Golem
