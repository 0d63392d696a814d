import Verif.Spec.Witness
import Verif.Lemmas.Validator

namespace Golem
variable {T : Theory}

theorem graphRules_iff {R : PRepr} {G : Graph T} {r : GRule T} :
    graphRules R G r ↔ ∃ e ∈ G, e.Fires R r.body r.head := by
  constructor
  · rintro ⟨e, he, ρ, h, rfl⟩; exact ⟨e, he, ρ, h, rfl, rfl⟩
  · rintro ⟨e, he, ρ, h, h1, h2⟩
    refine ⟨e, he, ρ, h, ?_⟩
    cases r; simp only at h1 h2; rw [h1, h2]; rfl

theorem Edge.Fires.rule {R : PRepr} {G : Graph T} {e : Edge T} {b : List (Fact T)} {h : Fact T} (hf : e.Fires R b h)
    (he : e ∈ G) : graphRules R G ⟨b, h⟩ := graphRules_iff.2 ⟨e, he, hf⟩

theorem Edge.Fires.tgt {R : PRepr} {e : Edge T} {b : List (Fact T)} {h : Fact T} (hf : e.Fires R b h) : h.1 = e.tgt := by
  obtain ⟨ρ, _, _, rfl⟩ := hf; rfl

theorem srcFacts_fst (R : PRepr) (ρ : Valuation T) (e : Edge T) : (e.srcFacts R ρ).map Prod.fst = e.src := by
  unfold Edge.srcFacts
  rw [List.map_map]
  exact instances_fst e.src

theorem Edge.Fires.src {R : PRepr} {e : Edge T} {b : List (Fact T)} {h : Fact T} (hf : e.Fires R b h) :
    b.map Prod.fst = e.src := by
  obtain ⟨ρ, _, rfl, _⟩ := hf; exact srcFacts_fst R ρ e

theorem srcFacts_len {R : PRepr} {ρ : Valuation T} {e : Edge T} {f : Fact T} (h : f ∈ e.srcFacts R ρ) :
    f.2.length = (R.args f.1).length := by
  unfold Edge.srcFacts at h
  obtain ⟨q, _, rfl⟩ := List.mem_map.1 h
  simp [PRepr.srcVars]

theorem tgtFact_len {R : PRepr} {ρ : Valuation T} {e : Edge T} : (e.tgtFact R ρ).2.length = (R.args e.tgt).length := by
  simp [Edge.tgtFact, PRepr.tgtVars]

theorem List.getElem?_lt {α : Type} {l : List α} {i : Nat} {a : α} (h : l[i]? = some a) : i < l.length := by
  rcases Nat.lt_or_ge i l.length with h1 | h1
  · exact h1
  · rw [List.getElem?_eq_none h1] at h; simp at h

theorem premFacts_length {ds : List (DStep T)} {js : List Nat} (h : ∀ j ∈ js, j < ds.length) :
    (premFacts ds js).length = js.length := by
  induction js with
  | nil => rfl
  | cons j js ih =>
    have hj := h j (by simp)
    simp only [premFacts, List.filterMap_cons]
    rw [List.getElem?_eq_getElem hj]
    simp only [Option.map_some, List.length_cons]
    have := ih (fun k hk => h k (by simp [hk]))
    simpa [premFacts] using this

theorem UnsafeWitness.refutation {R : PRepr} {G : Graph T} {ds : List (DStep T)} (h : UnsafeWitness R G ds) :
    IsRefutation (graphRules R G) (ds.map fun d => ⟨d.premises, d.fact⟩) := by
  obtain ⟨d0, h0, h0f, _⟩ := h.first
  obtain ⟨dl, hl, hlf⟩ := h.last
  refine ⟨⟨⟨d0.premises, d0.fact⟩, by simp [h0], h0f⟩, ⟨⟨dl.premises, dl.fact⟩, by simp [hl], hlf⟩, ?_⟩
  intro i sd hi hsd
  rw [List.getElem?_map] at hsd
  cases hdi : ds[i]? with
  | none => simp [hdi] at hsd
  | some d =>
    simp [hdi] at hsd; subst hsd
    obtain ⟨h1, e, he, _, hf⟩ := h.steps i d hi hdi
    refine ⟨h1, ?_⟩
    have hpf : (d.premises.filterMap fun j => ((ds.map fun d => (⟨d.premises, d.fact⟩ : SpecStep T))[j]?).map
        SpecStep.fact) = premFacts ds d.premises := by
      unfold premFacts
      congr 1; funext j; rw [List.getElem?_map]; cases ds[j]? <;> rfl
    rw [hpf]; exact hf.rule he

theorem UnsafeWitness.unsafe {R : PRepr} {G : Graph T} {ds : List (DStep T)} (h : UnsafeWitness R G ds) :
    G.Unsafe R := refutation_derives h.refutation

theorem SafeModel.safe {R : PRepr} {G : Graph T} {D : Defs T} (h : SafeModel R G D) : ¬ G.Unsafe R :=
  fun hd => h.model.2 (hd.sound h.model.1)

theorem Defs.get_cons (p q : Pred) (d : Fla T) (D : Defs T) :
    Defs.get ((p, d) :: D) q = if q = p then some d else Defs.get D q := by
  unfold Defs.get
  rw [List.lookup]
  by_cases h : q = p
  · simp [h]
  · have : (q == p) = false := by simpa using h
    simp [h, this]

theorem Defs.get_nil (q : Pred) : Defs.get ([] : Defs T) q = none := rfl

theorem Defs.get_append (D D' : Defs T) (q : Pred) : Defs.get (D ++ D') q = (Defs.get D q).or (Defs.get D' q) := by
  induction D with
  | nil => simp [Defs.get_nil]
  | cons a D ih =>
    obtain ⟨p, d⟩ := a
    rw [List.cons_append, Defs.get_cons, Defs.get_cons, ih]
    split <;> simp

end Golem
