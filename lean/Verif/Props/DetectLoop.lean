import Verif.Lemmas.TPANetLoop

/-! # C63: loop detection -/

namespace Golem
variable {T : Theory} {G : LGraph T}

/-- No cycle through two different vertices can be reached from the entry. -/
def LGraph.CycleFree (G : LGraph T) : Prop :=
  ∀ e ∈ G, e.src ≠ e.tgt → Walk G.succ .tru e.src → ¬ Walk G.succ e.tgt e.src

/-- A cycle through at least two vertices, no vertex twice, that can be reached from the entry. -/
structure IsCycle (G : LGraph T) (s : Pred) (l : List (LEdge T)) : Prop where
  nonempty : l ≠ []
  chained : Chained s l s
  edges : ∀ e ∈ l, e ∈ G ∧ e.src ≠ e.tgt
  nodup : (l.map LEdge.src).Nodup
  reach : Walk G.succ .tru s

theorem LGraph.Ranked.cycleFree (h : G.Ranked) : G.CycleFree := by
  obtain ⟨rank, hr⟩ := h
  have hmono : ∀ u v, Walk G.succ u v → Walk G.succ .tru u → rank u ≤ rank v ∧ Walk G.succ .tru v := by
    intro u v hw hu
    induction hw with
    | refl => exact ⟨Nat.le_refl _, hu⟩
    | @snoc v w hw he ih =>
      obtain ⟨h1, h2⟩ := ih
      obtain ⟨e, hm, rfl, rfl⟩ := LGraph.mem_succ.1 he
      refine ⟨?_, .snoc h2 he⟩
      by_cases hl : e.src = e.tgt
      · rw [← hl]; exact h1
      · exact Nat.le_trans h1 (Nat.le_of_lt (hr e hm hl h2))
  intro e he hne hw hback
  have h1 := hr e he hne hw
  have h2 := (hmono _ _ hback (.snoc hw (LGraph.mem_succ.2 ⟨e, he, rfl, rfl⟩))).1
  omega

theorem Before.idxOf {o : List Pred} (hn : o.Nodup) {a b : Pred} (h : Before o a b) : o.idxOf a < o.idxOf b := by
  obtain ⟨l, r, rfl, ha⟩ := h
  have hb : b ∉ l := by
    intro hb
    rw [List.nodup_append] at hn
    exact hn.2.2 b hb b (by simp) rfl
  rw [List.idxOf_append_of_mem ha, List.idxOf_append_of_notMem hb]
  have := List.idxOf_lt_length_of_mem ha
  simp
  omega

theorem LGraph.CycleFree.ranked (h : G.CycleFree) : G.Ranked := by
  obtain ⟨o, ho, _, hn, hm⟩ := C41_reversePostOrder_exact G
  refine ⟨fun v => o.idxOf v, fun e he hne hw => ?_⟩
  exact (C41_reversePostOrder_topological G o ho e he ((hm _).2 hw) (h e he hne hw)).idxOf hn

/-! ### Totality -/

theorem loopFold_total {U : List Pred} {fuel : Nat}
    (hv : ∀ v st, v ∈ U → v ∉ st.visited → unmarked U st.visited < fuel → ∃ st', loopVisit G fuel v st = some st' ∧
      ∀ x, x ∈ st.visited → x ∈ st'.visited) (node : Pred) :
    ∀ (es : List (LEdge T)) st, (∀ e ∈ es, e.tgt ∈ U) → unmarked U st.visited < fuel → ∃ st', loopFold (loopVisit G fuel) node es st = some st' ∧
      ∀ x, x ∈ st.visited → x ∈ st'.visited := by
  intro es
  induction es with
  | nil => intro st _ _; exact ⟨st, by simp [loopFold], fun _ h => h⟩
  | cons e es ih =>
    intro st hU hf
    rw [loopFold]
    split
    · exact ih st (fun x hx => hU x (List.mem_cons_of_mem _ hx)) hf
    · split
      · rename_i hm
        obtain ⟨st1, h1, m1⟩ := hv e.tgt st (hU e (by simp)) hm hf
        rw [h1]
        simp only
        split
        · obtain ⟨st2, h2, m2⟩ := ih st1 (fun x hx => hU x (List.mem_cons_of_mem _ hx)) (Nat.lt_of_le_of_lt (unmarked_mono m1) hf)
          exact ⟨st2, h2, fun x hx => m2 x (m1 x hx)⟩
        · split
          · exact ⟨_, rfl, m1⟩
          · exact ⟨_, rfl, m1⟩
      · split
        · exact ⟨_, rfl, fun _ h => h⟩
        · exact ih st (fun x hx => hU x (List.mem_cons_of_mem _ hx)) hf

theorem loopVisit_total {U : List Pred} (hU : ∀ e ∈ G, e.tgt ∈ U) :
    ∀ fuel v (st : LoopState T), v ∈ U → v ∉ st.visited → unmarked U st.visited < fuel → ∃ st', loopVisit G fuel v st = some st' ∧
      ∀ x, x ∈ st.visited → x ∈ st'.visited := by
  intro fuel
  induction fuel with
  | zero => intro v st _ _ h; omega
  | succ fuel ih =>
    intro v st hv hm hf
    rw [loopVisit]
    have hlt : unmarked U (v :: st.visited) < fuel := by
      have := unmarked_lt hv hm
      omega
    obtain ⟨st1, h1, m1⟩ := loopFold_total ih v (G.out v) { st with visited := v :: st.visited, stack := v :: st.stack }
      (fun e he => hU e (mem_out.1 he).1) hlt
    rw [h1]
    exact ⟨_, rfl, fun x hx => m1 x (List.mem_cons_of_mem _ hx)⟩

/-! ### Correctness -/

/-- `L` lists the finished vertices in the order of their ends. -/
structure LoopInv (G : LGraph T) (st : LoopState T) (L : List Pred) : Prop where
  visited : ∀ x, x ∈ st.visited ↔ x ∈ st.stack ∨ x ∈ L
  apart : ∀ x ∈ L, x ∉ st.stack
  nodup : L.Nodup
  topo : ∀ x ∈ L, ∀ e ∈ G, e.src = x → e.tgt ≠ x → Before L e.tgt x

/-- The cycle while it is being collected: from `u` to `t`. -/
structure LoopOut (G : LGraph T) (node : Pred) (visited stack : List Pred) (l : List (LEdge T)) : Prop where
  ends : ∃ u t, Chained u l.reverse t ∧ (∃ f, l.head? = some f ∧ f.tgt = t) ∧ (∃ f, l.getLast? = some f ∧ f.src = u) ∧
    Walk G.succ node u ∧ (u = node ∧ t ∈ stack ∨ u = t)
  edges : ∀ e ∈ l, e ∈ G ∧ e.src ≠ e.tgt
  nodup : (l.map LEdge.src).Nodup
  fresh : ∀ e ∈ l, e.src ∉ visited

theorem loopFold_ok {fuel : Nat} {node : Pred} {st0 : LoopState T} (hn : node ∉ st0.visited) (hsv : ∀ x ∈ st0.stack, x ∈ st0.visited)
    (hv : ∀ v (st st' : LoopState T), v ∉ st.visited → (∀ x ∈ st.stack, x ∈ st.visited) → st.loop = [] → loopVisit G fuel v st = some st' →
      st'.stack = st.stack ∧ (∀ x ∈ st.visited, x ∈ st'.visited) ∧
      (st'.loop = [] → ∀ L, LoopInv G st L → ∃ L', LoopInv G st' (L ++ L') ∧ v ∈ L ++ L') ∧
      (st'.loop ≠ [] → LoopOut G v st.visited st.stack st'.loop)) :
    ∀ (es : List (LEdge T)) (st st' : LoopState T), (∀ e ∈ es, e ∈ G ∧ e.src = node) → st.stack = node :: st0.stack →
      (∀ x ∈ node :: st0.visited, x ∈ st.visited) → st.loop = [] → loopFold (loopVisit G fuel) node es st = some st' →
      st'.stack = node :: st0.stack ∧ (∀ x ∈ st.visited, x ∈ st'.visited) ∧
      (st'.loop = [] → ∀ L, LoopInv G st L → ∃ L', LoopInv G st' (L ++ L') ∧ ∀ e ∈ es, e.tgt ≠ node → e.tgt ∈ L ++ L') ∧
      (st'.loop ≠ [] → LoopOut G node st0.visited st0.stack st'.loop) := by
  intro es
  induction es with
  | nil =>
    intro st st' _ hst _ hl h
    simp only [loopFold, Option.some.injEq] at h
    subst h
    exact ⟨hst, fun _ h => h, fun _ L hL => ⟨[], by simpa using hL, by simp⟩, fun h => absurd hl h⟩
  | cons e es ih =>
    intro st st' hes hst hvis hl h
    obtain ⟨heG, hes0⟩ := hes e (by simp)
    have hes' : ∀ e ∈ es, e ∈ G ∧ e.src = node := fun e he => hes e (by simp [he])
    rw [loopFold] at h
    split at h
    · rename_i hself
      obtain ⟨a, b, c, d⟩ := ih st st' hes' hst hvis hl h
      refine ⟨a, b, fun hl' L hL => ?_, d⟩
      obtain ⟨L', h1, h2⟩ := c hl' L hL
      refine ⟨L', h1, fun e' he' hne => ?_⟩
      rcases List.mem_cons.1 he' with rfl | he'
      · exact absurd hself hne
      · exact h2 e' he' hne
    · rename_i hself
      split at h
      · rename_i hnv
        cases h1 : loopVisit G fuel e.tgt st with
        | none => simp [h1] at h
        | some st1 =>
          simp only [h1] at h
          have hsv1 : ∀ x ∈ st.stack, x ∈ st.visited := by
            intro x hx
            rw [hst] at hx
            apply hvis
            rcases List.mem_cons.1 hx with rfl | hx
            · simp
            · exact List.mem_cons_of_mem _ (hsv x hx)
          obtain ⟨a1, b1, c1, d1⟩ := hv e.tgt st st1 hnv hsv1 hl h1
          split at h
          · rename_i hemp
            have hemp : st1.loop = [] := by simpa using hemp
            obtain ⟨a, b, c, d⟩ := ih st1 st' hes' (a1.trans hst) (fun x hx => b1 x (hvis x hx)) hemp h
            refine ⟨a, fun x hx => b x (b1 x hx), fun hl' L hL => ?_, d⟩
            obtain ⟨L1, hL1, hm1⟩ := c1 hemp L hL
            obtain ⟨L2, hL2, hm2⟩ := c hl' _ hL1
            refine ⟨L1 ++ L2, by rw [← List.append_assoc]; exact hL2, fun e' he' hne => ?_⟩
            rw [← List.append_assoc]
            rcases List.mem_cons.1 he' with rfl | he'
            · exact List.mem_append_left _ hm1
            · exact hm2 e' he' hne
          · rename_i hemp
            have hne : st1.loop ≠ [] := by simpa using hemp
            obtain ⟨⟨u, t, k1, ⟨f, k2, k2'⟩, ⟨f', k3, k3'⟩, k4, k5⟩, k6, k7, k8⟩ := d1 hne
            have hfr : ∀ e' ∈ st1.loop, e'.src ∉ st0.visited ∧ e'.src ≠ node := by
              intro e' he'
              exact ⟨fun hx => k8 e' he' (hvis _ (by simp [hx])), fun hx => k8 e' he' (hvis _ (by simp [hx]))⟩
            have hwalk : Walk G.succ node u :=
              (Walk.single (LGraph.mem_succ.2 ⟨e, heG, hes0, rfl⟩)).trans k4
            split at h
            · rename_i hcond
              simp only [Option.some.injEq] at h
              subst h
              refine ⟨a1.trans hst, b1, fun h => by simp at h, fun _ => ?_⟩
              obtain ⟨⟨g, hg, hg1⟩, ⟨g', hg', hg1'⟩⟩ := hcond
              rw [Option.mem_def, k2] at hg
              cases hg
              rw [Option.mem_def, k3] at hg'
              cases hg'
              have hu : u = e.tgt := by rw [← k3', hg1']
              have ht : t ∈ node :: st0.stack := by
                rcases k5 with ⟨_, h⟩ | h
                · rw [← hst]; exact h
                · exact absurd (by rw [k2', ← h, hu]) hg1
              refine ⟨⟨node, t, ?_, ⟨f, ?_, k2'⟩, ⟨e, by simp, hes0⟩, .refl _, ?_⟩, ?_, ?_, ?_⟩
              · rw [List.reverse_append]
                exact chained_cons.2 ⟨hes0.symm, hu ▸ k1⟩
              · rw [List.head?_append, k2]; rfl
              · rcases List.mem_cons.1 ht with h | h
                · exact .inr h.symm
                · exact .inl ⟨rfl, h⟩
              · intro e' he'
                rcases List.mem_append.1 he' with he' | he'
                · exact k6 e' he'
                · simp at he'; subst he'; exact ⟨heG, by rw [hes0]; exact Ne.symm hself⟩
              · rw [List.map_append, List.nodup_append]
                refine ⟨k7, by simp, fun a ha b hb hab => ?_⟩
                simp at hb
                obtain ⟨e', he', rfl⟩ := List.mem_map.1 ha
                exact (hfr e' he').2 (by rw [hab, hb, hes0])
              · intro e' he'
                rcases List.mem_append.1 he' with he' | he'
                · exact (hfr e' he').1
                · simp at he'; subst he'; rw [hes0]; exact hn
            · rename_i hcond
              simp only [Option.some.injEq] at h
              subst h
              refine ⟨a1.trans hst, b1, fun h => absurd h hne, fun _ => ?_⟩
              refine ⟨⟨u, t, k1, ⟨f, k2, k2'⟩, ⟨f', k3, k3'⟩, hwalk, .inr ?_⟩, k6, k7, fun e' he' => (hfr e' he').1⟩
              rcases k5 with ⟨hu, ht⟩ | h
              · exfalso
                refine hcond ⟨⟨f, by rw [Option.mem_def, k2], ?_⟩, ⟨f', by rw [Option.mem_def, k3], by rw [k3', hu]⟩⟩
                rw [k2']
                intro heq
                exact hnv (hsv1 _ (heq ▸ ht))
              · exact h
      · rename_i hvisd
        have hvisd : e.tgt ∈ st.visited := Classical.not_not.1 hvisd
        split at h
        · rename_i hon
          simp only [Option.some.injEq] at h
          subst h
          refine ⟨hst, fun _ h => h, fun h => by simp at h, fun _ => ?_⟩
          simp only [hl, List.nil_append]
          refine ⟨⟨node, e.tgt, chained_cons.2 ⟨hes0.symm, .nil _⟩, ⟨e, rfl, rfl⟩, ⟨e, rfl, hes0⟩, .refl _, ?_⟩, ?_, by simp, ?_⟩
          · rw [hst] at hon
            rcases List.mem_cons.1 hon with h | h
            · exact absurd h hself
            · exact .inl ⟨rfl, h⟩
          · intro e' he'
            simp at he'; subst he'; exact ⟨heG, by rw [hes0]; exact Ne.symm hself⟩
          · intro e' he'
            simp at he'; subst he'; rw [hes0]; exact hn
        · rename_i hoff
          obtain ⟨a, b, c, d⟩ := ih st st' hes' hst hvis hl h
          refine ⟨a, b, fun hl' L hL => ?_, d⟩
          obtain ⟨L', h1, h2⟩ := c hl' L hL
          refine ⟨L', h1, fun e' he' hne => ?_⟩
          rcases List.mem_cons.1 he' with rfl | he'
          · exact List.mem_append_left _ (((hL.visited _).1 hvisd).resolve_left hoff)
          · exact h2 e' he' hne

theorem loopVisit_ok : ∀ fuel v (st st' : LoopState T), v ∉ st.visited → (∀ x ∈ st.stack, x ∈ st.visited) → st.loop = [] →
    loopVisit G fuel v st = some st' →
      st'.stack = st.stack ∧ (∀ x ∈ st.visited, x ∈ st'.visited) ∧
      (st'.loop = [] → ∀ L, LoopInv G st L → ∃ L', LoopInv G st' (L ++ L') ∧ v ∈ L ++ L') ∧
      (st'.loop ≠ [] → LoopOut G v st.visited st.stack st'.loop) := by
  intro fuel
  induction fuel with
  | zero => intro v st st' _ _ _ h; simp [loopVisit] at h
  | succ fuel ih =>
    intro v st st' hv hsv hl h
    rw [loopVisit, Option.map_eq_some_iff] at h
    obtain ⟨st1, h1, rfl⟩ := h
    obtain ⟨a, b, c, d⟩ := loopFold_ok hv hsv ih (G.out v) { st with visited := v :: st.visited, stack := v :: st.stack } st1
      (fun e he => mem_out.1 he) rfl (fun x hx => hx) hl h1
    have hvs : v ∉ st.stack := fun h => hv (hsv v h)
    have hfil : st1.stack.filter (fun u => decide (u ≠ v)) = st.stack := by
      rw [a]
      simp only [ne_eq, not_true_eq_false, decide_false, Bool.false_eq_true, not_false_eq_true, List.filter_cons_of_neg]
      rw [List.filter_eq_self]
      intro x hx
      simp only [decide_eq_true_eq]
      rintro rfl
      exact hvs hx
    refine ⟨hfil, fun x hx => b x (List.mem_cons_of_mem _ hx), fun hl' L hL => ?_, d⟩
    have hL0 : LoopInv G { st with visited := v :: st.visited, stack := v :: st.stack } L := by
      refine ⟨fun x => ?_, fun x hx => ?_, hL.nodup, hL.topo⟩
      · simp only [List.mem_cons, hL.visited]; exact or_assoc.symm
      · simp only [List.mem_cons, not_or]
        refine ⟨?_, hL.apart x hx⟩
        rintro rfl
        exact hv ((hL.visited x).2 (.inr hx))
    obtain ⟨L', hL', hm⟩ := c hl' L hL0
    refine ⟨L' ++ [v], ?_, by simp⟩
    have hvL : v ∉ L ++ L' := by
      intro hx
      exact hL'.apart v hx (by rw [a]; simp)
    rw [← List.append_assoc]
    refine ⟨fun x => ?_, fun x hx => ?_, ?_, fun x hx e he hs ht => ?_⟩
    · rw [hL'.visited, hfil, a]
      simp only [List.mem_cons, List.mem_append, List.not_mem_nil, or_false]
      grind
    · rw [hfil]
      rcases List.mem_append.1 hx with hx | hx
      · have := hL'.apart x hx
        rw [a] at this
        exact fun h => this (List.mem_cons_of_mem _ h)
      · simp at hx; subst hx; exact hvs
    · rw [List.nodup_append]
      refine ⟨hL'.nodup, by simp, fun a ha b hb hab => ?_⟩
      simp at hb
      subst hb; subst hab
      exact hvL ha
    · rcases List.mem_append.1 hx with hx | hx
      · exact (hL'.topo x hx e he hs ht).append _
      · simp at hx; subst hx
        exact ⟨L ++ L', [], rfl, hm e (mem_out.2 ⟨he, hs⟩) ht⟩

/-- A cycle excludes cycle-freedom. -/
theorem IsCycle.not_free {s : Pred} {l : List (LEdge T)} (h : IsCycle G s l) : ¬ G.CycleFree := by
  intro hf
  obtain ⟨hne, hch, hed, _, hw⟩ := h
  cases l with
  | nil => exact hne rfl
  | cons e es =>
    obtain ⟨rfl, hch⟩ := chained_cons.1 hch
    have hwalk : ∀ (es : List (LEdge T)) u v, (∀ e ∈ es, e ∈ G) → Chained u es v → Walk G.succ u v := by
      intro es
      induction es with
      | nil => intro u v _ h; rw [chained_nil] at h; subst h; exact .refl _
      | cons e es ih =>
        intro u v he h
        obtain ⟨rfl, h'⟩ := chained_cons.1 h
        exact (Walk.single (LGraph.mem_succ.2 ⟨e, he e (by simp), rfl, rfl⟩)).trans (ih _ _ (fun e' he' => he e' (by simp [he'])) h')
    exact hf e (hed e (by simp)).1 (hed e (by simp)).2 hw (hwalk es _ _ (fun e' he' => (hed e' (by simp [he'])).1) hch)

/-- **C63** On graphs with more than three vertices the search for a loop always ends; it returns the empty list exactly when no
cycle through two different vertices can be reached from the entry, and otherwise it returns such a cycle: consecutive edges of the
graph, from a vertex back to it, without self-loops and visiting no vertex twice. -/
theorem C63_detectLoop (G : LGraph T) (hbig : 3 < (getVertices G).length) : ∃ l, detectLoop G = some l ∧ (l = [] ↔ G.CycleFree) ∧
    (l ≠ [] → ∃ s, IsCycle G s l) := by
  obtain ⟨st, hst, _⟩ := loopVisit_total (G := G) (U := .tru :: G.map LEdge.tgt)
    (fun e he => List.mem_cons_of_mem _ (List.mem_map_of_mem he)) (G.length + 2) .tru ⟨[], [], []⟩ (by simp) (by simp) (by
      refine Nat.lt_of_le_of_lt (List.length_filter_le _ _) ?_
      simp)
  have hd : detectLoop G = some st.loop.reverse := by
    rw [detectLoop, if_neg (by omega), hst]; rfl
  obtain ⟨h1, _, h3, h4⟩ := loopVisit_ok _ _ _ _ (by simp) (by simp) rfl hst
  have hcyc : st.loop ≠ [] → ∃ s, IsCycle G s st.loop.reverse := by
    intro hne
    obtain ⟨⟨u, t, k1, _, _, k4, k5⟩, k6, k7, _⟩ := h4 hne
    rcases k5 with ⟨_, h⟩ | rfl
    · simp at h
    · exact ⟨u, by simpa using hne, k1, fun e he => k6 e (by simpa using he), by
        rw [List.map_reverse]; exact List.pairwise_reverse.2 (k7.imp fun h => Ne.symm h), k4⟩
  refine ⟨_, hd, ⟨fun h => ?_, fun h => ?_⟩, fun h => hcyc (by simpa using h)⟩
  · have h : st.loop = [] := by simpa using h
    obtain ⟨L, hL, hm⟩ := h3 h [] ⟨by simp, by simp, by simp, by simp⟩
    simp only [List.nil_append] at hL hm
    apply LGraph.Ranked.cycleFree
    have hreach : ∀ v, Walk G.succ .tru v → v ∈ L := by
      intro v hv
      induction hv with
      | refl => exact hm
      | @snoc v w _ he ih =>
        obtain ⟨e, hem, rfl, rfl⟩ := LGraph.mem_succ.1 he
        by_cases hs : e.tgt = e.src
        · rw [hs]; exact ih
        · obtain ⟨a, b, hab, hw⟩ := hL.topo _ ih e hem rfl hs
          rw [hab]
          exact List.mem_append_left _ hw
    refine ⟨fun v => L.length - L.idxOf v, fun e he hne hw => ?_⟩
    have hb := (hL.topo _ (hreach _ hw) e he rfl (Ne.symm hne)).idxOf hL.nodup
    have := List.idxOf_lt_length_of_mem (hreach _ hw)
    show L.length - L.idxOf e.src < L.length - L.idxOf e.tgt
    omega
  · apply Classical.byContradiction
    intro hne
    obtain ⟨s, hs⟩ := hcyc (by simpa using hne)
    exact hs.not_free h

/-- **C63** With at most three vertices the answer is always "no loop"; it is right when no edge enters the entry or leaves the exit. -/
theorem C63_detectLoop_small (G : LGraph T) (hsmall : (getVertices G).length ≤ 3) (hends : ∀ e ∈ G, e.tgt ≠ .tru ∧ e.src ≠ .fls) :
    detectLoop G = some [] ∧ G.CycleFree := by
  refine ⟨by rw [detectLoop, if_pos hsmall], ?_⟩
  intro e he hne hw hback
  -- two different inner vertices would make four
  have hs : e.src ≠ .tru ∧ e.src ≠ .fls ∧ e.tgt ≠ .tru ∧ e.tgt ≠ .fls := by
    refine ⟨?_, (hends e he).2, (hends e he).1, ?_⟩
    · intro h
      have : ∀ u v, Walk G.succ u v → v = .tru → u = .tru := by
        intro u v hw hv
        cases hw with
        | refl => exact hv
        | snoc _ hm =>
          obtain ⟨e', he', _, h'⟩ := LGraph.mem_succ.1 hm
          exact absurd (h'.trans hv) (hends e' he').1
      exact (hends e he).1 (this _ _ hback h)
    · intro h
      rw [h] at hback
      have : ∀ u v, Walk G.succ u v → u = .fls → v = .fls := by
        intro u v hw hu
        induction hw with
        | refl => exact hu
        | snoc _ hm ih =>
          obtain ⟨e', he', h1, _⟩ := LGraph.mem_succ.1 hm
          exact absurd (h1.trans (ih)) (hends e' he').2
      exact (hends e he).2 (this _ _ hback rfl)
  have hsub : ∀ x ∈ [Pred.tru, .fls, e.src, e.tgt], x ∈ getVertices G := by
    intro x hx
    simp only [List.mem_cons, List.not_mem_nil, or_false] at hx
    rcases hx with rfl | rfl | rfl | rfl
    · simp [getVertices]
    · simp [getVertices]
    · exact (mem_getVertices he).1
    · exact (mem_getVertices he).2
  have hnd : [Pred.tru, .fls, e.src, e.tgt].Nodup := by
    simp only [List.nodup_cons, List.mem_cons, List.not_mem_nil, or_false, not_or, List.nodup_nil]
    refine ⟨⟨by simp, hs.1.symm, hs.2.2.1.symm⟩, ⟨hs.2.1.symm, hs.2.2.2.symm⟩, hne, by simp⟩
  have := (hnd.subperm hsub).length_le
  simp at this
  omega

theorem isTransitionSystemDAG_cases (h : isTransitionSystemDAG G = true) : ∃ vs, reversePostOrder G = some vs ∧ detectLoop G = some [] ∧
    (∀ v ∈ vs.tail.dropLast, (∃ e ∈ G, e.src = v ∧ e.tgt = v) ∧ ∃ e ∈ G, e.src = v ∧ e.tgt ≠ v) ∧
    ∀ e ∈ G, e.src = .tru → e.tgt ≠ .fls := by
  unfold isTransitionSystemDAG at h
  split at h
  · cases h
  · split at h
    · rename_i vs h1 h2
      refine ⟨vs, h1, h2, ?_, ?_⟩
      · simp only [Bool.and_eq_true, List.all_eq_true, List.any_eq_true, decide_eq_true_eq] at h
        intro v hv
        obtain ⟨⟨e, he, het⟩, ⟨e', he', het'⟩⟩ := h.1 v hv
        exact ⟨⟨e, (mem_out.1 he).1, (mem_out.1 he).2, het⟩, ⟨e', (mem_out.1 he').1, (mem_out.1 he').2, het'⟩⟩
      · simp only [Bool.and_eq_true, Bool.not_eq_true', List.any_eq_false, decide_eq_true_eq] at h
        intro e he hs ht
        exact h.2 e (mem_out.2 ⟨he, hs⟩) ht
    · cases h

/-- **C63** The graphs TPA sends to the network have no cycle but self-loops. -/
theorem C63_dag_cycleFree (hends : ∀ e ∈ G, e.tgt ≠ .tru ∧ e.src ≠ .fls) (h : isTransitionSystemDAG G = true) : G.CycleFree := by
  obtain ⟨vs, _, hd, _⟩ := isTransitionSystemDAG_cases h
  by_cases hbig : 3 < (getVertices G).length
  · obtain ⟨l, hl, hiff, _⟩ := C63_detectLoop G hbig
    rw [hd] at hl
    cases hl
    exact hiff.1 rfl
  · exact (C63_detectLoop_small G (by omega) hends).2

theorem walk_before {o : List Pred} (ho : reversePostOrder G = some o) (hc : G.CycleFree) (hn : o.Nodup)
    (hm : ∀ v, v ∈ o ↔ Walk G.succ .tru v) {u v : Pred} (hu : u ∈ o) (hw : Walk G.succ u v) : o.idxOf u ≤ o.idxOf v ∧ v ∈ o := by
  induction hw with
  | refl => exact ⟨Nat.le_refl _, hu⟩
  | @snoc v w _ he ih =>
    obtain ⟨e, hem, rfl, rfl⟩ := LGraph.mem_succ.1 he
    have hv := (hm _).1 ih.2
    refine ⟨?_, (hm _).2 (.snoc hv (LGraph.mem_succ.2 ⟨e, hem, rfl, rfl⟩))⟩
    by_cases hl : e.src = e.tgt
    · rw [← hl]; exact ih.1
    · have := (C41_reversePostOrder_topological G o ho e hem ih.2 (hc e hem hl hv)).idxOf hn
      omega

theorem mem_tail_dropLast {α : Type} [DecidableEq α] {a b v : α} : ∀ {o : List α}, o.head? = some a → o.Nodup → v ∈ o → b ∈ o →
    o.idxOf v < o.idxOf b → v ≠ a → v ∈ o.tail.dropLast := by
  intro o hh hn hv hb hlt hva
  cases o with
  | nil => simp at hh
  | cons x o =>
    simp only [List.head?_cons, Option.some.injEq] at hh
    subst hh
    rw [List.tail_cons]
    have hv : v ∈ o := by
      rcases List.mem_cons.1 hv with h | h
      · exact absurd h hva
      · exact h
    have hne : o ≠ [] := by rintro rfl; simp at hv
    apply Classical.byContradiction
    intro hnd
    have hlast : v = o.getLast hne := by
      have hsplit := List.dropLast_concat_getLast hne
      rw [← hsplit] at hv
      rcases List.mem_append.1 hv with h | h
      · exact absurd h hnd
      · simpa using h
    have hsplit := List.dropLast_concat_getLast hne
    rw [← hlast] at hsplit
    have h1 : (x :: o).idxOf v = o.length := by
      have : x :: o = (x :: o.dropLast) ++ [v] := by rw [List.cons_append, hsplit]
      rw [this, List.idxOf_append_of_notMem (by simp [hva, hnd])]
      simp
      have := List.length_pos_iff.2 hne
      omega
    have h2 := List.idxOf_lt_length_of_mem hb
    rw [h1] at hlt
    simp at h2
    omega

/-- **C63** On a pruned graph (every inner vertex can be reached from the entry and reaches the exit) every inner vertex of a graph sent
to the network has the self-loop the network needs, and a way out. -/
theorem C63_dag_loops (hends : ∀ e ∈ G, e.tgt ≠ .tru ∧ e.src ≠ .fls)
    (hpruned : ∀ v, G.Vertex v → v ≠ .tru → v ≠ .fls → Walk G.succ .tru v ∧ Walk G.succ v .fls)
    (h : isTransitionSystemDAG G = true) (v : Pred) (hv : G.Vertex v) (h1 : v ≠ .tru) (h2 : v ≠ .fls) :
    (∃ e ∈ G, e.src = v ∧ e.tgt = v) ∧ (∃ e ∈ G, e.src = v ∧ e.tgt ≠ v) := by
  have hc := C63_dag_cycleFree hends h
  obtain ⟨vs, hvs, _, hall, _⟩ := isTransitionSystemDAG_cases h
  obtain ⟨o, ho, hhead, hn, hm⟩ := C41_reversePostOrder_exact G
  rw [hvs] at ho
  cases ho
  have hm : ∀ v, v ∈ vs ↔ Walk G.succ .tru v := hm
  obtain ⟨w1, w2⟩ := hpruned v hv h1 h2
  have hvm := (hm v).2 w1
  obtain ⟨hle, hfm⟩ := walk_before hvs hc hn hm hvm w2
  refine hall v (mem_tail_dropLast hhead hn hvm hfm ?_ h1)
  rcases Nat.lt_or_eq_of_le hle with h | h
  · exact h
  · exact absurd ((List.idxOf_inj hvm).1 h) h2

end Golem
