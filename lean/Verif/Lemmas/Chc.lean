import Verif.Spec.Chc

namespace Golem
variable {T : Theory}

theorem Derivable.sound {R : Rules T} {M : Fact T → Prop} (hM : SatisfiesRules R M) {f : Fact T}
    (h : Derivable R f) : M f := by
  induction h with
  | entry => exact hM.1
  | step r hr _ ih => exact hM.2 r hr ih

theorem derivable_satisfies (R : Rules T) : SatisfiesRules R (Derivable R) :=
  ⟨.entry, fun r hr hb => .step r hr hb⟩

theorem satisfiable_iff (R : Rules T) : Satisfiable R ↔ ¬ Derivable R falseFact := by
  constructor
  · rintro ⟨M, hM, hf⟩ h
    exact hf (h.sound hM)
  · intro h
    exact ⟨Derivable R, derivable_satisfies R, h⟩

theorem Derivable.mono {R R' : Rules T} (h : ∀ r, R r → R' r) {f : Fact T} (hf : Derivable R f) : Derivable R' f := by
  induction hf with
  | entry => exact .entry
  | step r hr _ ih => exact .step r (h r hr) ih

/-- Replacing each rule by a derivable consequence. -/
theorem Derivable.of_rules {R R' : Rules T}
    (h : ∀ r, R r → (∀ b ∈ r.body, Derivable R' b) → Derivable R' r.head) {f : Fact T} (hf : Derivable R f) :
    Derivable R' f := hf.sound ⟨.entry, h⟩

theorem refutation_prefix_derivable {R : Rules T} {ds : List (SpecStep T)} (h : IsRefutation R ds) :
    ∀ (i : Nat) (d : SpecStep T), ds[i]? = some d → Derivable R d.fact := by
  intro i
  induction i using Nat.strongRecOn with
  | _ i ih =>
    intro d hd
    by_cases hi : i = 0
    · subst hi
      obtain ⟨⟨d0, h0, hf⟩, -, -⟩ := h
      rw [List.head?_eq_getElem?] at h0
      rw [h0] at hd; cases hd; rw [hf]; exact .entry
    · obtain ⟨hlt, hr⟩ := h.2.2 i d (Nat.pos_of_ne_zero hi) hd
      refine Derivable.step _ hr ?_
      intro b hb
      rw [List.mem_filterMap] at hb
      obtain ⟨j, hj, hb⟩ := hb
      cases hdj : ds[j]? with
      | none => simp [hdj] at hb
      | some dj =>
        simp [hdj] at hb
        rw [← hb]
        exact ih j (hlt j hj) dj hdj

theorem refutation_derives {R : Rules T} {ds : List (SpecStep T)} (h : IsRefutation R ds) :
    Derivable R falseFact := by
  obtain ⟨d, hd, hf⟩ := h.2.1
  rw [List.getLast?_eq_getElem?] at hd
  rw [← hf]
  exact refutation_prefix_derivable h _ d hd

end Golem
