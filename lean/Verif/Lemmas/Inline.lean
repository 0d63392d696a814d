import Verif.Model.Transformers.EdgeInliner
import Verif.Lemmas.NodeElimSafe
import Verif.Lemmas.ChainWitness
import Verif.Props.NormalForms

/-! The edge inliner: which edges block each other, and the steps of the transformation. -/

namespace Golem
variable {T : Theory}

/-- A known value agrees with a value. -/
def Known.Agrees : Known T → T.Val → Prop
  | .val v, w => w = v
  | .bool b, w => T.truth w = b

theorem knownOf_sound {f : Fla T} {x : Var} {k : Known T} (h : knownOf f = some (x, k)) {ρ : Valuation T} (hf : f.holds ρ) :
    k.Agrees (ρ x) := by
  unfold knownOf at h
  split at h <;> simp only [Option.some.injEq, Prod.mk.injEq, reduceCtorEq] at h <;> obtain ⟨rfl, rfl⟩ := h
  · exact Eq.symm (by simpa [Fla.holds, Tm.eval] using hf)
  · simpa [Fla.holds, Tm.eval, Known.Agrees] using hf
  · simpa [Fla.holds, Tm.eval, Known.Agrees] using hf
  · simpa [Fla.holds, Tm.eval, Known.Agrees] using hf

theorem knownValues_get {f : Fla T} {xs : List Var} {i : Nat} {k : Known T} (h : (knownValues f xs)[i]? = some (some k))
    {ρ : Valuation T} (hf : f.holds ρ) : ∃ x, xs[i]? = some x ∧ k.Agrees (ρ x) := by
  unfold knownValues at h
  rw [List.getElem?_map] at h
  cases hx : xs[i]? with
  | none => rw [hx] at h; simp at h
  | some x =>
    rw [hx] at h
    simp only [Option.map_some, Option.some.injEq] at h
    obtain ⟨c, hc, hk⟩ := List.exists_of_findSome?_eq_some h
    rw [List.mem_reverse] at hc
    cases hko : knownOf c with
    | none => rw [hko] at hk; simp at hk
    | some p =>
      rw [hko] at hk
      simp only [Option.bind_some] at hk
      split at hk
      · rename_i hpx
        cases hk
        refine ⟨x, rfl, ?_⟩
        have hch : c.holds ρ := ((C31_juncts_recompose (.conj) f ρ).2 hf) c hc
        have := knownOf_sound (x := p.1) (k := p.2) hko hch
        rwa [hpx] at this
      · simp at hk

/-- `p` cannot feed `e` through `v`. -/
def Blocks (R : PRepr) (v : Pred) (p e : Edge T) : Prop :=
  ∀ ρ ρ' : Valuation T, p.fla.holds ρ → e.fla.holds ρ' → (R.tgtVars v).map ρ ≠ (R.srcVars v 0).map ρ'

theorem blocks_ff {R : PRepr} {v : Pred} {p e : Edge T} (h : p.fla = .ff) : Blocks R v p e := by
  intro ρ ρ' hp; rw [h] at hp; exact hp.elim

theorem clash_false {a b : Option (Known T)} {w : T.Val} (ha : ∀ k, a = some k → k.Agrees w) (hb : ∀ k, b = some k → k.Agrees w) :
    Known.clash a b = false := by
  cases a with
  | none => rfl
  | some a =>
    cases b with
    | none => cases a <;> rfl
    | some b =>
      have h1 := ha a rfl
      have h2 := hb b rfl
      cases a <;> cases b <;> simp_all [Known.clash, Known.Agrees]

theorem blocks_incompatible {R : PRepr} {v : Pred} {p e : Edge T}
    (h : compatible (knownValues e.fla (R.srcVars v 0)) (knownValues p.fla (R.tgtVars v)) = false) : Blocks R v p e := by
  intro ρ ρ' hp he heq
  unfold compatible at h
  rw [List.all_eq_false] at h
  obtain ⟨q, hq, hcl⟩ := h
  obtain ⟨i, hi⟩ := List.getElem?_of_mem hq
  rw [List.getElem?_zip_eq_some] at hi
  obtain ⟨h1, h2⟩ := hi
  have hw : ∀ w : T.Val, ((R.tgtVars v).map ρ)[i]? = some w → False := by
    intro w hw
    have hc : Known.clash q.1 q.2 = false := by
      apply clash_false (w := w)
      · intro k hk
        obtain ⟨x, hx, ha⟩ := knownValues_get (by rw [h1, hk]) he
        rw [heq, List.getElem?_map, hx] at hw
        simp at hw
        exact hw ▸ ha
      · intro k hk
        obtain ⟨x, hx, ha⟩ := knownValues_get (by rw [h2, hk]) hp
        rw [List.getElem?_map, hx] at hw
        simp at hw
        exact hw ▸ ha
    rw [hc] at hcl
    simp at hcl
  have hlt : i < (R.tgtVars v).length := by
    have := List.getElem?_lt h2
    simpa [knownValues] using this
  exact hw (ρ (R.tgtVars v)[i]) (by rw [List.getElem?_map, List.getElem?_eq_getElem hlt]; rfl)

/-- Incoming edges that are not feasible block. -/
theorem feasible_blocks {R : PRepr} {v : Pred} {is : List (Edge T)} {e p : Edge T} (hp : p ∈ is)
    (hn : p ∉ feasibleTransitions R v is e) : Blocks R v p e := by
  unfold feasibleTransitions at hn
  split at hn
  · simp at hp
  · simp only [List.mem_singleton] at hp
    subst hp
    split at hn
    · exact blocks_ff ‹_›
    · simp at hn
  · rw [List.mem_filter] at hn
    by_cases hf : p.fla = .ff
    · exact blocks_ff hf
    · apply blocks_incompatible
      apply Bool.eq_false_iff.2
      intro hc
      exact hn ⟨hp, by simp [hf, hc]⟩

theorem feasible_sub {R : PRepr} {v : Pred} {is : List (Edge T)} {e p : Edge T} (hp : p ∈ feasibleTransitions R v is e) :
    p ∈ is := by
  unfold feasibleTransitions at hp
  split at hp
  · simp at hp
  · split at hp
    · simp at hp
    · exact hp
  · exact (List.mem_filter.1 hp).1

end Golem
