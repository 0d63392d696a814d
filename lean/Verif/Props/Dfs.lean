import Verif.Model.LinearGraph
import Verif.Lemmas.Smt

/-! # C41: depth-first search orders -/

namespace Golem
variable {T : Theory}

/-- There is a (possibly empty) walk along `succ` edges. -/
inductive Walk (succ : Pred → List Pred) : Pred → Pred → Prop where
  | refl (v : Pred) : Walk succ v v
  | snoc {u v w : Pred} (h : Walk succ u v) (e : w ∈ succ v) : Walk succ u w

theorem Walk.trans {succ : Pred → List Pred} {u v w : Pred} (h : Walk succ u v) (h' : Walk succ v w) : Walk succ u w := by
  induction h' with
  | refl => exact h
  | snoc _ e ih => exact .snoc ih e

theorem Walk.single {succ : Pred → List Pred} {u v : Pred} (e : v ∈ succ u) : Walk succ u v := .snoc (.refl _) e

/-- `w` comes strictly before `x` in the list. -/
def Before (l : List Pred) (w x : Pred) : Prop := ∃ a b, l = a ++ x :: b ∧ w ∈ a

theorem Before.append {l : List Pred} {w x : Pred} (h : Before l w x) (l' : List Pred) : Before (l ++ l') w x := by
  obtain ⟨a, b, rfl, hw⟩ := h
  exact ⟨a, b ++ l', by simp, hw⟩

/-- What one call (on a vertex or on a list of vertices `vs`) does. -/
structure DfsPost (succ : Pred → List Pred) (vs : List Pred) (st st' : DfsState) : Prop where
  ext : ∃ L, st'.order = st.order ++ L ∧ L.Nodup ∧ (∀ x, x ∈ st'.marked ↔ x ∈ st.marked ∨ x ∈ L) ∧
    (∀ x ∈ L, x ∉ st.marked) ∧ (∀ x ∈ L, ∃ v ∈ vs, Walk succ v x) ∧
    (∀ x ∈ L, ∀ w ∈ succ x, w ∈ st'.marked) ∧
    (∀ x ∈ L, ∀ w ∈ succ x, Before (st.order ++ L) w x ∨ Walk succ w x)
  roots : ∀ v ∈ vs, v ∈ st'.marked

/-- Marked but unfinished vertices can reach all of `vs`. -/
def StackOk (succ : Pred → List Pred) (vs : List Pred) (st : DfsState) : Prop :=
  ∀ w ∈ st.marked, w ∈ st.order ∨ ∀ v ∈ vs, Walk succ w v

theorem dfsList_post {succ : Pred → List Pred} {fuel : Nat}
    (hv : ∀ v st st', StackOk succ [v] st → dfsVisit succ fuel v st = some st' → DfsPost succ [v] st st') :
    ∀ ws st st', StackOk succ ws st → dfsFold (dfsVisit succ fuel) ws st = some st' → DfsPost succ ws st st' := by
  intro ws
  induction ws with
  | nil =>
    intro st st' _ h
    simp only [dfsFold, Option.some.injEq] at h
    subst h
    exact ⟨⟨[], by simp, by simp, by simp, by simp, by simp, by simp, by simp⟩, by simp⟩
  | cons w ws ih =>
    intro st st' hs h
    rw [dfsFold] at h
    cases h1 : dfsVisit succ fuel w st with
    | none => simp [h1] at h
    | some st1 =>
      simp only [h1] at h
      have p1 := hv w st st1 (fun u hu => (hs u hu).imp id fun h v hv => h v (by simp at hv; simp [hv])) h1
      obtain ⟨⟨L1, o1, n1, m1, f1, r1, c1, b1⟩, rt1⟩ := p1
      have hs1 : StackOk succ ws st1 := by
        intro u hu
        rcases (m1 u).1 hu with hu | hu
        · rcases hs u hu with h' | h'
          · exact Or.inl (by rw [o1]; exact List.mem_append_left _ h')
          · exact Or.inr fun v hv => h' v (List.mem_cons_of_mem _ hv)
        · exact Or.inl (by rw [o1]; exact List.mem_append_right _ hu)
      obtain ⟨⟨L2, o2, n2, m2, f2, r2, c2, b2⟩, rt2⟩ := ih st1 st' hs1 h
      refine ⟨⟨L1 ++ L2, by rw [o2, o1, List.append_assoc], ?_, ?_, ?_, ?_, ?_, ?_⟩, ?_⟩
      · rw [List.nodup_append]
        refine ⟨n1, n2, fun a ha b hb e => ?_⟩
        subst e
        exact f2 a hb ((m1 a).2 (Or.inr ha))
      · intro x
        rw [m2, m1]
        simp only [List.mem_append]
        constructor
        · rintro ((h | h) | h)
          · exact Or.inl h
          · exact Or.inr (Or.inl h)
          · exact Or.inr (Or.inr h)
        · rintro (h | h | h)
          · exact Or.inl (Or.inl h)
          · exact Or.inl (Or.inr h)
          · exact Or.inr h
      · intro x hx
        rcases List.mem_append.1 hx with hx | hx
        · exact f1 x hx
        · exact fun hm => f2 x hx ((m1 x).2 (Or.inl hm))
      · intro x hx
        rcases List.mem_append.1 hx with hx | hx
        · obtain ⟨v, hv, p⟩ := r1 x hx
          exact ⟨v, by simp at hv; simp [hv], p⟩
        · obtain ⟨v, hv, p⟩ := r2 x hx
          exact ⟨v, List.mem_cons_of_mem _ hv, p⟩
      · intro x hx y hy
        rcases List.mem_append.1 hx with hx | hx
        · exact (m2 y).2 (Or.inl (c1 x hx y hy))
        · exact c2 x hx y hy
      · intro x hx y hy
        rcases List.mem_append.1 hx with hx | hx
        · rcases b1 x hx y hy with h' | h'
          · left; rw [← List.append_assoc]; exact h'.append _
          · exact Or.inr h'
        · rcases b2 x hx y hy with h' | h'
          · left; rw [← List.append_assoc, ← o1]; exact h'
          · exact Or.inr h'
      · intro v hv
        rcases List.mem_cons.1 hv with rfl | hv
        · exact (m2 v).2 (Or.inl (rt1 v (by simp)))
        · exact rt2 v hv

theorem dfsVisit_post {succ : Pred → List Pred} :
    ∀ fuel v st st', StackOk succ [v] st → dfsVisit succ fuel v st = some st' → DfsPost succ [v] st st' := by
  intro fuel
  induction fuel with
  | zero => intro v st st' _ h; simp [dfsVisit] at h
  | succ fuel ih =>
    intro v st st' hs h
    rw [dfsVisit] at h
    split at h
    · rename_i hm
      simp only [Option.some.injEq] at h
      subst h
      exact ⟨⟨[], by simp, by simp, by simp, by simp, by simp, by simp, by simp⟩, by simpa using hm⟩
    · rename_i hm
      cases h1 : dfsFold (dfsVisit succ fuel) (succ v) ⟨v :: st.marked, st.order⟩ with
      | none => simp [h1] at h
      | some st1 =>
        simp only [h1, Option.some.injEq] at h
        subst h
        have hs1 : StackOk succ (succ v) ⟨v :: st.marked, st.order⟩ := by
          intro u hu
          rcases List.mem_cons.1 hu with rfl | hu
          · exact Or.inr fun w hw => .single hw
          · rcases hs u hu with h' | h'
            · exact Or.inl h'
            · exact Or.inr fun w hw => .snoc (h' v (by simp)) hw
        obtain ⟨⟨L, o, n, m, f, r, c, b⟩, rt⟩ := dfsList_post ih (succ v) _ st1 hs1 h1
        simp only at o m
        refine ⟨⟨L ++ [v], by simp [o], ?_, ?_, ?_, ?_, ?_, ?_⟩, ?_⟩
        · rw [List.nodup_append]
          refine ⟨n, by simp, fun a ha b hb e => ?_⟩
          simp at hb
          subst hb; subst e
          exact f a ha (by simp)
        · intro x
          rw [m]
          simp only [List.mem_cons, List.mem_append, List.not_mem_nil, or_false]
          constructor
          · rintro ((h | h) | h)
            · exact Or.inr (Or.inr h)
            · exact Or.inl h
            · exact Or.inr (Or.inl h)
          · rintro (h | h | h)
            · exact Or.inl (Or.inr h)
            · exact Or.inr h
            · exact Or.inl (Or.inl h)
        · intro x hx
          rcases List.mem_append.1 hx with hx | hx
          · exact fun hmk => f x hx (List.mem_cons_of_mem _ hmk)
          · simp at hx; subst hx; exact hm
        · intro x hx
          rcases List.mem_append.1 hx with hx | hx
          · obtain ⟨w, hw, p⟩ := r x hx
            exact ⟨v, by simp, (Walk.single hw).trans p⟩
          · simp at hx; subst hx; exact ⟨x, by simp, .refl _⟩
        · intro x hx y hy
          rcases List.mem_append.1 hx with hx | hx
          · exact c x hx y hy
          · simp at hx; subst hx; exact rt y hy
        · intro x hx y hy
          rcases List.mem_append.1 hx with hx | hx
          · rcases b x hx y hy with h' | h'
            · left; rw [← List.append_assoc]; exact h'.append _
            · exact Or.inr h'
          · simp at hx; subst hx
            have hym := rt y hy
            rcases (m y).1 hym with h' | h'
            · rcases List.mem_cons.1 h' with rfl | h'
              · exact Or.inr (.refl _)
              · rcases hs y h' with h'' | h''
                · exact Or.inl ⟨st.order ++ L, [], by simp, List.mem_append_left _ h''⟩
                · exact Or.inr (h'' x (by simp))
            · exact Or.inl ⟨st.order ++ L, [], by simp, List.mem_append_right _ h'⟩
        · intro u hu
          simp at hu; subst hu
          exact (m u).2 (Or.inl (by simp))

/-- Vertices not yet marked. -/
def unmarked (U m : List Pred) : Nat := (U.filter fun x => decide (x ∉ m)).length

theorem unmarked_mono {U m m' : List Pred} (h : ∀ x, x ∈ m → x ∈ m') : unmarked U m' ≤ unmarked U m := by
  unfold unmarked
  induction U with
  | nil => simp
  | cons a U ih =>
    simp only [List.filter_cons]
    by_cases h1 : a ∈ m'
    · by_cases h2 : a ∈ m
      · simpa [h1, h2] using ih
      · simp only [h1, h2, not_true_eq_false, not_false_eq_true, decide_false, decide_true, if_true,
          List.length_cons]
        exact Nat.le_succ_of_le ih
    · have h2 : a ∉ m := fun h2 => h1 (h a h2)
      simpa [h1, h2] using ih

theorem unmarked_lt {U m : List Pred} {v : Pred} (hU : v ∈ U) (hm : v ∉ m) : unmarked U (v :: m) < unmarked U m := by
  induction U with
  | nil => simp at hU
  | cons a U ih =>
    unfold unmarked
    simp only [List.filter_cons]
    by_cases e : a = v
    · subst e
      simp only [List.mem_cons, true_or, not_true_eq_false, decide_false, hm, not_false_eq_true, decide_true, if_true,
        List.length_cons]
      have := unmarked_mono (U := U) (m := m) (m' := a :: m) fun x hx => List.mem_cons_of_mem _ hx
      unfold unmarked at this
      simp only [List.mem_cons] at this
      simpa using Nat.lt_succ_of_le this
    · have hU' : v ∈ U := by
        rcases List.mem_cons.1 hU with h | h
        · exact absurd h.symm e
        · exact h
      have := ih hU'
      unfold unmarked at this
      by_cases h2 : a ∈ m
      · simpa [h2, e] using this
      · have h3 : a ∉ v :: m := by simp [e, h2]
        simp only [h2, h3, not_false_eq_true, decide_true, if_true, List.length_cons]
        exact Nat.succ_lt_succ this

theorem dfsList_total {succ : Pred → List Pred} {U : List Pred} {fuel : Nat}
    (hv : ∀ v st, v ∈ U → unmarked U st.marked < fuel → ∃ st', dfsVisit succ fuel v st = some st' ∧
      ∀ x, x ∈ st.marked → x ∈ st'.marked) :
    ∀ ws st, (∀ w ∈ ws, w ∈ U) → unmarked U st.marked < fuel → ∃ st', dfsFold (dfsVisit succ fuel) ws st = some st' ∧
      ∀ x, x ∈ st.marked → x ∈ st'.marked := by
  intro ws
  induction ws with
  | nil => intro st _ _; exact ⟨st, by simp [dfsFold], fun _ h => h⟩
  | cons w ws ih =>
    intro st hU hf
    obtain ⟨st1, h1, m1⟩ := hv w st (hU w (by simp)) hf
    obtain ⟨st2, h2, m2⟩ := ih st1 (fun x hx => hU x (List.mem_cons_of_mem _ hx))
      (Nat.lt_of_le_of_lt (unmarked_mono m1) hf)
    exact ⟨st2, by rw [dfsFold, h1]; exact h2, fun x hx => m2 x (m1 x hx)⟩

theorem dfsVisit_total {succ : Pred → List Pred} {U : List Pred} (hU : ∀ v ∈ U, ∀ w ∈ succ v, w ∈ U) :
    ∀ fuel v st, v ∈ U → unmarked U st.marked < fuel → ∃ st', dfsVisit succ fuel v st = some st' ∧
      ∀ x, x ∈ st.marked → x ∈ st'.marked := by
  intro fuel
  induction fuel with
  | zero => intro v st _ h; omega
  | succ fuel ih =>
    intro v st hv hf
    rw [dfsVisit]
    split
    · exact ⟨st, rfl, fun _ h => h⟩
    · rename_i hm
      have hlt : unmarked U (v :: st.marked) < fuel := by
        have := unmarked_lt hv hm
        omega
      obtain ⟨st1, h1, m1⟩ := dfsList_total ih (succ v) ⟨v :: st.marked, st.order⟩ (hU v hv) hlt
      rw [h1]
      exact ⟨_, rfl, fun x hx => m1 x (List.mem_cons_of_mem _ hx)⟩

theorem LGraph.mem_succ {G : LGraph T} {v w : Pred} : w ∈ G.succ v ↔ ∃ e ∈ G, e.src = v ∧ e.tgt = w := by
  simp [LGraph.succ, LGraph.out, and_assoc]

theorem postOrder_some (G : LGraph T) : ∃ o, postOrder G = some o := by
  have := dfsVisit_total (succ := G.succ) (U := .tru :: G.map LEdge.tgt) (by
    intro v _ w hw
    obtain ⟨e, he, _, rfl⟩ := LGraph.mem_succ.1 hw
    exact List.mem_cons_of_mem _ (List.mem_map_of_mem he)) (G.length + 2) .tru ⟨[], []⟩ (by simp) (by
      refine Nat.lt_of_le_of_lt (List.length_filter_le _ _) ?_
      simp)
  obtain ⟨st, h, _⟩ := this
  exact ⟨st.order, by simp [postOrder, h]⟩

theorem postOrder_spec {G : LGraph T} {o : List Pred} (h : postOrder G = some o) :
    o.Nodup ∧ (∀ v, v ∈ o ↔ Walk G.succ .tru v) ∧
    (∀ x ∈ o, ∀ w ∈ G.succ x, Before o w x ∨ Walk G.succ w x) ∧ ∃ l, o = l ++ [.tru] := by
  unfold postOrder at h
  rw [Option.map_eq_some_iff] at h
  obtain ⟨st, hst, rfl⟩ := h
  obtain ⟨⟨L, ho, n, m, f, r, c, b⟩, rt⟩ := dfsVisit_post _ .tru ⟨[], []⟩ st (by intro w hw; simp at hw) hst
  simp only [List.nil_append] at ho b
  rw [ho]
  have hm : ∀ x, x ∈ st.marked ↔ x ∈ L := by intro x; rw [m]; simp
  refine ⟨n, fun v => ⟨fun hv => ?_, fun hv => ?_⟩, b, ?_⟩
  · obtain ⟨u, hu, p⟩ := r v hv
    simp at hu; subst hu; exact p
  · induction hv with
    | refl => exact (hm _).1 (rt _ (by simp))
    | snoc _ e ih => exact (hm _).1 (c _ ih _ e)
  · rw [dfsVisit] at hst
    simp only [List.not_mem_nil, if_false] at hst
    cases h1 : dfsFold (dfsVisit G.succ (G.length + 1)) (G.succ .tru) ⟨[.tru], []⟩ with
    | none => simp [h1] at hst
    | some st1 =>
      simp only [h1, Option.some.injEq] at hst
      subst hst
      exact ⟨st1.order, ho.symm⟩

/-- **C41** The search always finishes, and the reverse post-order starts with the entry node and lists exactly the nodes
reachable from it, each once. -/
theorem C41_reversePostOrder_exact (G : LGraph T) : ∃ o, reversePostOrder G = some o ∧ o.head? = some .tru ∧ o.Nodup ∧
    ∀ v, v ∈ o ↔ Walk (fun u => (G.filter fun e => e.src = u).map LEdge.tgt) .tru v := by
  obtain ⟨o, ho⟩ := postOrder_some G
  obtain ⟨h1, h2, _, l, h4⟩ := postOrder_spec ho
  refine ⟨o.reverse, by simp [reversePostOrder, ho], ?_, List.pairwise_reverse.2 (h1.imp fun h => Ne.symm h), ?_⟩
  · rw [h4]; simp
  · intro v; rw [List.mem_reverse]; exact h2 v

/-- **C41** In the reverse post-order a node comes before each of its successors that cannot get back to it; so on a graph
without cycles it is a topological order. -/
theorem C41_reversePostOrder_topological (G : LGraph T) (o : List Pred) (h : reversePostOrder G = some o)
    (e : LEdge T) (he : e ∈ G) (hr : e.src ∈ o) (hac : ¬ Walk G.succ e.tgt e.src) : Before o e.src e.tgt := by
  unfold reversePostOrder at h
  rw [Option.map_eq_some_iff] at h
  obtain ⟨p, hp, rfl⟩ := h
  obtain ⟨_, _, h3, _⟩ := postOrder_spec hp
  rcases h3 e.src (List.mem_reverse.1 hr) e.tgt (LGraph.mem_succ.2 ⟨e, he, rfl, rfl⟩) with h' | h'
  · obtain ⟨a, b, rfl, hw⟩ := h'
    obtain ⟨a1, a2, rfl⟩ := List.append_of_mem hw
    exact ⟨b.reverse ++ e.src :: a2.reverse, a1.reverse, by simp, by simp⟩
  · exact absurd h' hac

/-- A graph with a loop, a diamond and an unreachable node. -/
def exDfs : LGraph T := [⟨.tru, .p 0, .tt, 0⟩, ⟨.p 0, .p 0, .tt, 1⟩, ⟨.p 0, .p 1, .tt, 2⟩, ⟨.p 0, .p 2, .tt, 3⟩,
  ⟨.p 1, .fls, .tt, 4⟩, ⟨.p 2, .fls, .tt, 5⟩, ⟨.p 3, .p 0, .tt, 6⟩]

theorem C41_example : reversePostOrder (exDfs : LGraph propTheory) = some [.tru, .p 0, .p 2, .p 1, .fls] := by
  decide +kernel

end Golem
