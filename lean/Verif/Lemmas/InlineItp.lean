import Verif.Lemmas.InlineDeriv
import Verif.Lemmas.SingleLoop

/-! The edge inliner: the interpolants of the back-translation. -/

namespace Golem
variable {T : Theory}

def Var.NotBase (x : Var) : Prop := ∀ n, x ≠ .base n

theorem toVars_at {xs ys : List Var} (hn : xs.Nodup) {i : Nat} {x y : Var} (hx : xs[i]? = some x) (hy : ys[i]? = some y) :
    (toVars xs ys : SubstMap T).fn x = .var y := by
  have := fn_zip_at (T := T) (ts := ys.map Tm.var) hn hx (t := .var y) (by rw [List.getElem?_map, hy]; rfl) []
  rwa [List.append_nil] at this

theorem toVars_skip {xs ys : List Var} {x : Var} (hx : x ∉ xs) : (toVars xs ys : SubstMap T).fn x = .var x := by
  have := fn_zip_skip' (T := T) (ts := ys.map Tm.var) hx []
  rw [List.append_nil] at this
  exact this

theorem eiVars_get {R : PRepr} {v : Pred} {i : Nat} (h : i < (R.args v).length) : (eiVars R v)[i]? = some (.base (.ei i)) := by
  unfold eiVars
  rw [List.getElem?_map, List.getElem?_range h]
  rfl

theorem mem_eiVars {R : PRepr} {v : Pred} {x : Var} : x ∈ eiVars R v ↔ ∃ i, i < (R.args v).length ∧ x = .base (.ei i) := by
  unfold eiVars
  simp only [List.mem_map, List.mem_range]
  exact ⟨fun ⟨i, h, e⟩ => ⟨i, h, e.symm⟩, fun ⟨i, h, e⟩ => ⟨i, h, e.symm⟩⟩

theorem eiVars_nodup (R : PRepr) (v : Pred) : (eiVars R v).Nodup :=
  nodup_map_of_inj (fun _ _ h => by cases h; rfl) List.nodup_range

/-- `ρ`, with the values `ws` for the variables `$ei0, $ei1, ...`. -/
def eiVal (ws : List T.Val) (ρ : Valuation T) : Valuation T
  | .base (.ei i) => (ws[i]?).getD (ρ (.base (.ei i)))
  | x => ρ x

theorem eiVal_ei {ws : List T.Val} {ρ : Valuation T} {i : Nat} {w : T.Val} (h : ws[i]? = some w) :
    eiVal ws ρ (.base (.ei i)) = w := by simp [eiVal, h]

theorem eiVal_notBase {ws : List T.Val} {ρ : Valuation T} {x : Var} (h : x.NotBase) : eiVal ws ρ x = ρ x := by
  unfold eiVal
  split
  · exact absurd rfl (h _)
  · rfl

/-- Evaluating a formula over the `$ei` variables that replaced `xs`. -/
theorem eval_toEi {R : PRepr} {v : Pred} {xs : List Var} (hn : xs.Nodup) (hl : xs.length = (R.args v).length)
    (ρ : Valuation T) {x : Var} (hx : x.NotBase) :
    ((toVars xs (eiVars R v) : SubstMap T).fn x).eval (eiVal (xs.map ρ) ρ) = ρ x := by
  by_cases hm : x ∈ xs
  · obtain ⟨i, hi⟩ := List.getElem?_of_mem hm
    have hlt : i < (R.args v).length := by rw [← hl]; exact List.getElem?_lt hi
    rw [toVars_at hn hi (eiVars_get hlt), Tm.eval]
    exact eiVal_ei (by rw [List.getElem?_map, hi]; rfl)
  · rw [toVars_skip hm, Tm.eval]
    exact eiVal_notBase hx

theorem holds_toEi {R : PRepr} {v : Pred} {xs : List Var} (hn : xs.Nodup) (hl : xs.length = (R.args v).length) {A : Fla T}
    (hA : ∀ x ∈ A.vars, x.NotBase) (ρ : Valuation T) :
    (varSubstitute A (toVars xs (eiVars R v))).holds (eiVal (xs.map ρ) ρ) ↔ A.holds ρ := by
  rw [varSubstitute_holds]
  exact Fla.holds_congr fun x hx => eval_toEi hn hl ρ (hA x hx)

theorem vars_toEi {R : PRepr} {v : Pred} {xs : List Var} (hn : xs.Nodup) (hl : xs.length = (R.args v).length) {A : Fla T} {x : Var}
    (hx : x ∈ (varSubstitute A (toVars xs (eiVars R v))).vars) : x ∈ eiVars R v ∨ (x ∈ A.vars ∧ x ∉ xs) := by
  unfold varSubstitute at hx
  obtain ⟨y, hy, hxy⟩ := Fla.mem_vars_subst.1 hx
  by_cases hm : y ∈ xs
  · obtain ⟨i, hi⟩ := List.getElem?_of_mem hm
    have hlt : i < (R.args v).length := by rw [← hl]; exact List.getElem?_lt hi
    rw [toVars_at hn hi (eiVars_get hlt)] at hxy
    simp only [Tm.vars, List.mem_singleton] at hxy
    subst hxy
    exact .inl (mem_eiVars.2 ⟨i, hlt, rfl⟩)
  · rw [toVars_skip hm] at hxy
    simp only [Tm.vars, List.mem_singleton] at hxy
    subst hxy
    exact .inr ⟨hy, hm⟩

theorem tgtVars_len (R : PRepr) (v : Pred) : (R.tgtVars v).length = (R.args v).length := by simp [PRepr.tgtVars]
theorem srcVars_len (R : PRepr) (v : Pred) (i : Nat) : (R.srcVars v i).length = (R.args v).length := by simp [PRepr.srcVars]
theorem baseVars_len (R : PRepr) (v : Pred) : (R.baseVars v).length = (R.args v).length := by simp [PRepr.baseVars]

/-- What the two constraints passed to the interpolation are like. -/
structure ItpQuery (R : PRepr) (v : Pred) (A B : Fla T) : Prop where
  fromA : ∀ x ∈ A.vars, x.NotBase
  fromB : ∀ x ∈ B.vars, x.NotBase
  shared : ∀ x ∈ A.vars, x ∈ B.vars → x ∈ R.tgtVars v ∨ x ∈ R.srcVars v 0

/-- The interpolant is a formula over the arguments of `v` that separates. -/
theorem inlineItp_spec {S : Smt T} (hS : S.Sound) {R : PRepr} (hR : R.WF) {v : Pred} {A B I : Fla T} (hq : ItpQuery R v A B)
    (h : inlineItp S R v A B = .done I) :
    (∀ x ∈ I.vars, x ∈ R.baseVars v) ∧
    (∀ ρ ρ' : Valuation T, A.holds ρ → (R.baseVars v).map ρ' = (R.tgtVars v).map ρ → I.holds ρ') ∧
    (∀ ρ ρ' : Valuation T, I.holds ρ' → (R.baseVars v).map ρ' = (R.srcVars v 0).map ρ → ¬ B.holds ρ) := by
  have htn := R.tgtVars_nodup hR v
  have hsn := R.srcVars_nodup hR v 0
  have htl := tgtVars_len R v
  have hsl := srcVars_len R v 0
  unfold inlineItp at h
  simp only at h
  generalize ha : varSubstitute A (toVars (R.tgtVars v) (eiVars R v)) = a at h
  generalize hb : varSubstitute B (toVars (R.srcVars v 0) (eiVars R v)) = b at h
  split at h
  · rename_i hu
    cases h
    have hitp := hS.itp [a, b] [a] [b] hu (by simp)
    generalize S.itp [a] [b] = J at hitp ⊢
    have hJv : ∀ x ∈ J.vars, x ∈ eiVars R v := by
      intro x hx
      obtain ⟨h1, h2⟩ := hitp.shared x hx
      have h1 : x ∈ a.vars := by simpa [Fla.mem_vars_conj] using h1
      have h2 : x ∈ b.vars := by simpa [Fla.mem_vars_conj] using h2
      rw [← ha] at h1
      rw [← hb] at h2
      rcases vars_toEi htn htl h1 with h1 | ⟨h1, h1'⟩
      · exact h1
      rcases vars_toEi hsn hsl h2 with h2 | ⟨h2, h2'⟩
      · exact h2
      exact ((hq.shared x h1 h2).elim h1' h2').elim
    have hval : ∀ ρ' σ : Valuation T, (R.baseVars v).map ρ' = (eiVars R v).map σ →
        ((varSubstitute J (toVars (eiVars R v) (R.baseVars v))).holds ρ' ↔ J.holds σ) := by
      intro ρ' σ he
      rw [varSubstitute_holds]
      refine Fla.holds_congr fun x hx => ?_
      obtain ⟨i, hi, rfl⟩ := mem_eiVars.1 (hJv x hx)
      have hi' : i < (R.baseVars v).length := by rw [baseVars_len]; exact hi
      rw [toVars_at (eiVars_nodup R v) (eiVars_get hi) (List.getElem?_eq_getElem hi'), Tm.eval]
      have := congrArg (fun l => l[i]?) he
      simp only [List.getElem?_map, List.getElem?_eq_getElem hi', eiVars_get hi] at this
      simpa using this
    have hei : ∀ (xs : List Var) (ρ : Valuation T), xs.length = (R.args v).length →
        (eiVars R v).map (eiVal (xs.map ρ) ρ) = xs.map ρ := by
      intro xs ρ hl
      apply List.ext_getElem?
      intro i
      rw [List.getElem?_map]
      by_cases hi : i < (R.args v).length
      · rw [eiVars_get hi, List.getElem?_map, List.getElem?_eq_getElem (by rw [hl]; exact hi)]
        simp only [Option.map_some, Option.some.injEq]
        exact eiVal_ei (by rw [List.getElem?_map, List.getElem?_eq_getElem (by rw [hl]; exact hi)]; rfl)
      · rw [List.getElem?_eq_none (by simp [eiVars]; omega), List.getElem?_eq_none (by simp; omega)]
        rfl
    refine ⟨?_, ?_, ?_⟩
    · intro x hx
      unfold varSubstitute at hx
      obtain ⟨y, hy, hxy⟩ := Fla.mem_vars_subst.1 hx
      obtain ⟨i, hi, rfl⟩ := mem_eiVars.1 (hJv y hy)
      have hi' : i < (R.baseVars v).length := by rw [baseVars_len]; exact hi
      rw [toVars_at (eiVars_nodup R v) (eiVars_get hi) (List.getElem?_eq_getElem hi')] at hxy
      simp only [Tm.vars, List.mem_singleton] at hxy
      rw [hxy]
      exact List.getElem_mem hi'
    · intro ρ ρ' hA he
      rw [hval ρ' (eiVal ((R.tgtVars v).map ρ) ρ) (by rw [he, hei _ _ htl])]
      refine hitp.fromA _ ?_
      simp only [AllHold, List.mem_singleton, forall_eq]
      rw [← ha, holds_toEi htn htl hq.fromA]
      exact hA
    · intro ρ ρ' hI he hB
      rw [hval ρ' (eiVal ((R.srcVars v 0).map ρ) ρ) (by rw [he, hei _ _ hsl])] at hI
      refine hitp.refuteB _ hI ?_
      simp only [AllHold, List.mem_singleton, forall_eq]
      rw [← hb, holds_toEi hsn hsl hq.fromB]
      exact hB
  · simp at h

/-- With a deciding backend the interpolation succeeds if nothing passes through `v`. -/
theorem inlineItp_total {S : Smt T} (hS : S.Sound) (hSC : S.Complete) {R : PRepr} (hR : R.WF) {v : Pred} {A B : Fla T}
    (hab : ∀ ρ ρ' : Valuation T, A.holds ρ → B.holds ρ' → (R.tgtVars v).map ρ ≠ (R.srcVars v 0).map ρ') :
    ∃ I, inlineItp S R v A B = .done I := by
  unfold inlineItp
  simp only
  split
  · exact ⟨_, rfl⟩
  · rename_i hne
    exfalso
    rcases hSC [varSubstitute A (toVars (R.tgtVars v) (eiVars R v)), varSubstitute B (toVars (R.srcVars v 0) (eiVars R v))] with
      hs | hs
    · have hm := hS.sat _ hs
      generalize S.model _ = σ at hm
      have h1 := hm _ (List.mem_cons_self ..)
      have h2 := hm _ (List.mem_cons_of_mem _ (List.mem_cons_self ..))
      rw [varSubstitute_holds] at h1 h2
      refine hab _ _ h1 h2 ?_
      apply List.ext_getElem?
      intro i
      rw [List.getElem?_map, List.getElem?_map]
      by_cases hi : i < (R.args v).length
      · have hit : i < (R.tgtVars v).length := by rw [tgtVars_len]; exact hi
        have his : i < (R.srcVars v 0).length := by rw [srcVars_len]; exact hi
        have ht : (R.tgtVars v)[i]? = some (R.tgtVars v)[i] := List.getElem?_eq_getElem hit
        have hs : (R.srcVars v 0)[i]? = some (R.srcVars v 0)[i] := List.getElem?_eq_getElem his
        rw [ht, hs]
        simp only [Option.map_some, Option.some.injEq]
        rw [toVars_at (R.tgtVars_nodup hR v) ht (eiVars_get hi), toVars_at (R.srcVars_nodup hR v 0) hs (eiVars_get hi)]
      · rw [List.getElem?_eq_none (by rw [tgtVars_len]; omega), List.getElem?_eq_none (by rw [srcVars_len]; omega)]
        rfl
    · exact hne hs

end Golem
