import Verif.Spec.LinearWitness
import Verif.Lemmas.Witness

namespace Golem
variable {T : Theory}

theorem map_fn_zip {α : Type} (xs : List α) (f : α → Var) (g : α → Var) (hn : (xs.map f).Nodup) {n : α} (hx : n ∈ xs)
    (m : SubstMap T) :
    SubstMap.fn ((xs.map f).zip (xs.map fun n => Tm.var (g n)) ++ m) (f n) = .var (g n) := by
  unfold SubstMap.fn
  rw [SubstMap.find_append]
  have hmem : (f n, Tm.var (T := T) (g n)) ∈ (xs.map f).zip (xs.map fun n => Tm.var (g n)) := by
    rw [List.zip_map']
    exact List.mem_map.2 ⟨n, hx, rfl⟩
  have h1 := SubstMap.find_isSome_of_mem hmem
  obtain ⟨t, ht⟩ := Option.isSome_iff_exists.1 h1
  have h2 := SubstMap.fn_of_mem (T := T) (by rw [List.map_fst_zip (by simp)]; exact hn) hmem
  unfold SubstMap.fn at h2
  rw [ht] at h2 ⊢
  simpa using h2

theorem fn_zip_skip {α : Type} (xs : List α) (f : α → Var) (g : α → Tm T) {x : Var} (hx : ∀ n ∈ xs, f n ≠ x)
    (m : SubstMap T) :
    SubstMap.fn ((xs.map f).zip (xs.map g) ++ m) x = m.fn x := by
  unfold SubstMap.fn
  rw [SubstMap.find_append, SubstMap.find_none]
  · simp
  · rintro ⟨a, b⟩ hp
    rw [List.zip_map'] at hp
    obtain ⟨n, hn, e⟩ := List.mem_map.1 hp
    cases e
    exact hx n hn

theorem fn_nil (x : Var) : SubstMap.fn ([] : SubstMap T) x = .var x := rfl

theorem LEdge.Fires.tgt {R : PRepr} {e : LEdge T} {f g : Fact T} (h : e.Fires R f g) : g.1 = e.tgt := by
  obtain ⟨_, _, _, rfl⟩ := h; rfl

theorem LEdge.Fires.src {R : PRepr} {e : LEdge T} {f g : Fact T} (h : e.Fires R f g) : f.1 = e.src := by
  obtain ⟨_, _, rfl, _⟩ := h; rfl

theorem lgraphRules_iff {R : PRepr} {G : LGraph T} {r : GRule T} :
    lgraphRules R G r ↔ ∃ e ∈ G, ∃ f, r.body = [f] ∧ e.Fires R f r.head := by
  constructor
  · rintro ⟨e, he, ρ, h, rfl⟩; exact ⟨e, he, _, rfl, ρ, h, rfl, rfl⟩
  · rintro ⟨e, he, f, hb, ρ, h, rfl, h2⟩
    refine ⟨e, he, ρ, h, ?_⟩
    cases r; simp only at hb h2; rw [hb, h2]; rfl

theorem LFeasible.append {R : PRepr} {es es' : List (LEdge T)} {f g h : Fact T} (h1 : LFeasible R es f g)
    (h2 : LFeasible R es' g h) : LFeasible R (es ++ es') f h := by
  induction h1 with
  | nil _ => exact h2
  | cons hf _ ih => exact .cons hf (ih h2)

theorem LFeasible.derivable {R : PRepr} {G : LGraph T} {es : List (LEdge T)} {f g : Fact T} (h : LFeasible R es f g)
    (hG : ∀ e ∈ es, e ∈ G) (hf : Derivable (lgraphRules R G) f) : Derivable (lgraphRules R G) g := by
  induction h with
  | nil _ => exact hf
  | @cons e es f g h hF _ ih =>
    refine ih (fun e he => hG e (by simp [he])) ?_
    exact Derivable.step ⟨[f], g⟩ (lgraphRules_iff.2 ⟨e, hG e (by simp), f, rfl, hF⟩) (by simpa using hf)

/-- In a linear graph a fact is derivable iff it is at the end of a feasible path from `true`. -/
theorem derivable_iff_path {R : PRepr} {G : LGraph T} {g : Fact T} :
    Derivable (lgraphRules R G) g ↔ ∃ es : List (LEdge T), (∀ e ∈ es, e ∈ G) ∧ LFeasible R es trueFact g := by
  constructor
  · intro h
    induction h with
    | entry => exact ⟨[], by simp, .nil _⟩
    | step r hr hb ih =>
      obtain ⟨e, he, f, hf, hF⟩ := lgraphRules_iff.1 hr
      obtain ⟨es, h1, h2⟩ := ih f (by simp [hf])
      refine ⟨es ++ [e], ?_, h2.append (.cons hF (.nil _))⟩
      intro e' h'
      rcases List.mem_append.1 h' with h' | h'
      · exact h1 _ h'
      · simp at h'; exact h' ▸ he
  · rintro ⟨es, h1, h2⟩
    exact h2.derivable h1 .entry

theorem LGraph.unsafe_iff {R : PRepr} {G : LGraph T} : G.Unsafe R ↔ Derivable (lgraphRules R G) falseFact :=
  derivable_iff_path.symm

theorem LSafeWitness.safe {R : PRepr} (hR : R.WF) {G : LGraph T} {D : Defs T} (h : LSafeWitness R G D) :
    ¬ G.Unsafe R := by
  rintro ⟨es, h1, h2⟩
  have key : ∀ {es : List (LEdge T)} {f g : Fact T}, LFeasible R es f g → (∀ e ∈ es, e ∈ G) → D.interp R f → D.interp R g := by
    intro es f g hp hG hf
    induction hp with
    | nil _ => exact hf
    | cons hF _ ih => exact ih (fun e he => hG e (by simp [he])) (h.model _ (hG _ (by simp)) _ _ hF hf)
  have := key h2 h1 ⟨.tt, h.tru, fun _ => T.vT, by simp [trueFact, PRepr.baseVars, hR.tru], trivial⟩
  obtain ⟨d, hd, ρ, _, hh⟩ := this
  simp only [falseFact] at hd
  rw [h.fls] at hd; cases hd
  exact hh

theorem LUnsafeWitness.unsafe {R : PRepr} {G : LGraph T} {ds : List (DStep T)} (h : LUnsafeWitness R G ds) :
    G.Unsafe R := by
  rw [LGraph.unsafe_iff]
  have key : ∀ (n i : Nat) (d : DStep T), i < n → ds[i]? = some d → Derivable (lgraphRules R G) d.fact := by
    intro n
    induction n with
    | zero => intro i d hi; omega
    | succ n ih =>
      intro i d hi hd
      by_cases h0 : i = 0
      · subst h0
        obtain ⟨d0, hd0, hf, _⟩ := h.first
        rw [List.head?_eq_getElem?] at hd0
        rw [hd] at hd0; cases hd0; rw [hf]; exact .entry
      · obtain ⟨e, he, _, j, p, _, hj, hp, hF⟩ := h.steps i d (by omega) hd
        exact Derivable.step ⟨[p.fact], d.fact⟩ (lgraphRules_iff.2 ⟨e, he, _, rfl, hF⟩)
          (by simpa using ih j p (by omega) hp)
  obtain ⟨d, hd, hf⟩ := h.last
  rw [List.getLast?_eq_getElem?] at hd
  rw [← hf]
  exact key (ds.length - 1 + 1) (ds.length - 1) d (by omega) hd

end Golem
