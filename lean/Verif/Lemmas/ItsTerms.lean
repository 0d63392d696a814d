import Verif.Lemmas.Its
import Verif.Lemmas.Normalizer

/-! Guards of integer transition systems: the formula that `translate` makes. -/

namespace Golem
namespace Its
open Spec

/-- The values of the variables of the input under a valuation. -/
def envOf (ρ : Valuation ctrTheory) (s : Spec.Str) : Int := ρ (.base (.user (String.ofList s)))

theorem numeral_showInt (n : Int) : numeral (Names.showInt n) = some n := by
  cases n with
  | ofNat n =>
    obtain ⟨c, r, h, hd⟩ := Names.showNat_head n
    have hall : (Names.showNat n).all Names.isDigit = true := List.all_eq_true.2 (Names.showNat_digits n)
    have hne := Names.showNat_ne_nil n
    show numeral (Names.showNat n) = _
    unfold numeral
    split
    · rename_i r' e
      rw [e] at h
      cases h
      simp [Names.isDigit] at hd
    · rw [if_pos ⟨hne, hall⟩, Names.readNat_showNat]; rfl
  | negSucc n =>
    have hall : (Names.showNat (n + 1)).all Names.isDigit = true := List.all_eq_true.2 (Names.showNat_digits _)
    show numeral ('-' :: Names.showNat (n + 1)) = _
    rw [numeral, if_pos ⟨Names.showNat_ne_nil _, hall⟩, Names.readNat_showNat]
    simp [Int.negSucc_eq]

theorem eval_sumTm (ρ : Valuation ctrTheory) : ∀ us : List (Tm ctrTheory),
    ((sumTm us).eval ρ : Int) = (us.map fun u => (u.eval ρ : Int)).sum
  | [] => rfl
  | [t] => by simp [sumTm]
  | t :: u :: us => by
    have ih := eval_sumTm ρ (u :: us)
    show (t.eval ρ : Int) + ((sumTm (u :: us)).eval ρ : Int) = _
    rw [ih]; simp

theorem eval_mulTm (ρ : Valuation ctrTheory) : ∀ us : List (Tm ctrTheory),
    ((mulTm us).eval ρ : Int) = (us.map fun u => (u.eval ρ : Int)).foldr (· * ·) 1
  | [] => rfl
  | [t] => by simp [mulTm]
  | t :: u :: us => by
    have ih := eval_mulTm ρ (u :: us)
    show (t.eval ρ : Int) * ((mulTm (u :: us)).eval ρ : Int) = _
    rw [ih]; simp

theorem vars_sumTm : ∀ us : List (Tm ctrTheory), ∀ x ∈ (sumTm us).vars, ∃ u ∈ us, x ∈ u.vars
  | [], x, hx => by cases hx
  | [t], x, hx => ⟨t, by simp, hx⟩
  | t :: u :: us, x, hx => by
    rcases List.mem_append.1 (show x ∈ t.vars ++ (sumTm (u :: us)).vars from hx) with h | h
    · exact ⟨t, by simp, h⟩
    · obtain ⟨w, hw, h⟩ := vars_sumTm (u :: us) x h
      exact ⟨w, List.mem_cons_of_mem _ hw, h⟩

theorem vars_mulTm : ∀ us : List (Tm ctrTheory), ∀ x ∈ (mulTm us).vars, ∃ u ∈ us, x ∈ u.vars
  | [], x, hx => by cases hx
  | [t], x, hx => ⟨t, by simp, hx⟩
  | t :: u :: us, x, hx => by
    rcases List.mem_append.1 (show x ∈ t.vars ++ (mulTm (u :: us)).vars from hx) with h | h
    · exact ⟨t, by simp, h⟩
    · obtain ⟨w, hw, h⟩ := vars_mulTm (u :: us) x h
      exact ⟨w, List.mem_cons_of_mem _ hw, h⟩

theorem sum_eq (σ : Spec.Str → Int) : ∀ l : List Tx, Tx.sum σ l = (l.map (Tx.val σ)).sum
  | [] => rfl
  | t :: l => by simp [Tx.sum, sum_eq σ l]

theorem prod_eq (σ : Spec.Str → Int) : ∀ l : List Tx, Tx.prod σ l = (l.map (Tx.val σ)).foldr (· * ·) 1
  | [] => rfl
  | t :: l => by simp [Tx.prod, prod_eq σ l]

theorem asInts_map : ∀ us : List (Tm ctrTheory), asInts (us.map .int) = some us
  | [] => rfl
  | u :: us => by simp [asInts, asInts_map us]

theorem asBools_map : ∀ us : List (Fla ctrTheory), asBools (us.map .bool) = some us
  | [] => rfl
  | u :: us => by simp [asBools, asBools_map us]

variable {linear : List (Tm ctrTheory) → Bool}

/-- The term of an expression. -/
def IntOk (t : Tx) (r : Res PT) : Prop := r = .nonlinear ∨ ∃ u, r = .ok (.int u) ∧ (∀ ρ : Valuation ctrTheory, (u.eval ρ : Int) = t.val (envOf ρ)) ∧
  ∀ x ∈ u.vars, x.Untagged

def IntsOk (l : List Tx) (r : Res (List PT)) : Prop := r = .nonlinear ∨ ∃ us : List (Tm ctrTheory), r = .ok (us.map .int) ∧ us.length = l.length ∧
  (∀ ρ : Valuation ctrTheory, (us.map fun u => (u.eval ρ : Int)) = l.map (Tx.val (envOf ρ))) ∧ ∀ u ∈ us, ∀ x ∈ u.vars, x.Untagged

theorem IntsOk.cons {t : Tx} {l : List Tx} {r : Res PT} {rs : Res (List PT)} (h : IntOk t r) (hs : IntsOk l rs) :
    IntsOk (t :: l) (r.bind fun t => rs.bind fun ts => .ok (t :: ts)) := by
  rcases h with rfl | ⟨u, rfl, h1, h2⟩
  · exact .inl rfl
  · rcases hs with rfl | ⟨us, rfl, h0, h3, h4⟩
    · exact .inl rfl
    · refine .inr ⟨u :: us, rfl, by simp [h0], fun ρ => by simp only [List.map_cons, h1, h3], ?_⟩
      rintro w hw
      rcases List.mem_cons.1 hw with rfl | hw
      · exact h2
      · exact h4 w hw

mutual
theorem tr_tx : ∀ t : Tx, t.Ok → IntOk t (translate linear t.expr)
  | .num n, _ => by
    refine .inr ⟨intConst n, ?_, fun ρ => rfl, fun x hx => by cases hx⟩
    simp only [Tx.expr, translate, numeral_showInt]
    rfl
  | .var s, _ => .inr ⟨intVar s, rfl, fun ρ => rfl, fun x hx => by
      rw [List.mem_singleton.1 hx]; trivial⟩
  | .add l, h => by
    simp only [Tx.expr, translate]
    rcases tr_txs l h.2 with e | ⟨us, e, h0, h1, h2⟩
    · rw [e]; exact .inl rfl
    · rw [e]
      cases us with
      | nil => exact absurd (List.length_eq_zero_iff.1 h0.symm) h.1
      | cons u us =>
        refine .inr ⟨sumTm (u :: us), ?_, fun ρ => ?_, fun x hx => ?_⟩
        · simp only [Res.bind, mkApp, asInts_map]
        · rw [eval_sumTm, h1]; simp only [Tx.val, sum_eq]
        · obtain ⟨w, hw, hx⟩ := vars_sumTm _ x hx
          exact h2 w hw x hx
  | .mul l, h => by
    simp only [Tx.expr, translate]
    rcases tr_txs l h.2 with e | ⟨us, e, h0, h1, h2⟩
    · rw [e]; exact .inl rfl
    · rw [e]
      cases us with
      | nil => exact absurd (List.length_eq_zero_iff.1 h0.symm) h.1
      | cons u us =>
        by_cases hlin : linear (u :: us) = true
        · refine .inr ⟨mulTm (u :: us), ?_, fun ρ => ?_, fun x hx => ?_⟩
          · simp only [Res.bind, mkApp, asInts_map, hlin, if_true]
          · rw [eval_mulTm, h1]; simp only [Tx.val, prod_eq]
          · obtain ⟨w, hw, hx⟩ := vars_mulTm _ x hx
            exact h2 w hw x hx
        · refine .inl ?_
          simp only [Res.bind, mkApp, asInts_map, hlin]
          rfl
  | .neg t, h => by
    simp only [Tx.expr, translate, translates]
    rcases tr_tx t h with e | ⟨u, e, h1, h2⟩
    · rw [e]; exact .inl rfl
    · rw [e]
      refine .inr ⟨.ap1 IntSym.neg u, rfl, fun ρ => ?_, fun x hx => h2 x hx⟩
      show -(u.eval ρ : Int) = _
      rw [h1]; simp only [Tx.val]
  | .sub t v, h => by
    simp only [Tx.expr, translate, translates]
    rcases tr_tx t h.1 with e | ⟨u, e, h1, h2⟩
    · rw [e]; exact .inl rfl
    · rcases tr_tx v h.2 with e' | ⟨w, e', h3, h4⟩
      · rw [e, e']; exact .inl rfl
      · rw [e, e']
        refine .inr ⟨.ap2 IntSym.minus u w, rfl, fun ρ => ?_, fun x hx => ?_⟩
        · show (u.eval ρ : Int) - (w.eval ρ : Int) = _
          rw [h1, h3]; simp only [Tx.val]
        · rcases List.mem_append.1 (show x ∈ u.vars ++ w.vars from hx) with h | h
          · exact h2 x h
          · exact h4 x h
theorem tr_txs : ∀ l : List Tx, Tx.Oks l → IntsOk l (translates linear (Tx.exprs l))
  | [], _ => .inr ⟨[], rfl, rfl, fun _ => rfl, by simp⟩
  | t :: l, h => by
    simp only [Tx.exprs, translates]
    exact IntsOk.cons (tr_tx t h.1) (tr_txs l h.2)
end

/-- The formula of a guard. -/
def FlaOk (g : Gx) (r : Res PT) : Prop := r = .nonlinear ∨ ∃ f, r = .ok (.bool f) ∧ (∀ ρ : Valuation ctrTheory, f.holds ρ ↔ osat (envOf ρ) g) ∧
  ∀ x ∈ f.vars, x.Untagged

def FlasOk (l : List Gx) (r : Res (List PT)) : Prop := r = .nonlinear ∨ ∃ fs : List (Fla ctrTheory), r = .ok (fs.map .bool) ∧
  (∀ ρ : Valuation ctrTheory, ((Fla.conj fs).holds ρ ↔ osatAll (envOf ρ) l) ∧ ((Fla.disj fs).holds ρ ↔ osatAny (envOf ρ) l)) ∧
  (∀ x ∈ (Fla.conj fs).vars, x.Untagged) ∧ ∀ x ∈ (Fla.disj fs).vars, x.Untagged

theorem cmp_ok (c : Cmp) {t u : Tx} {p q : Tm ctrTheory} (hp : ∀ ρ : Valuation ctrTheory, (p.eval ρ : Int) = t.val (envOf ρ))
    (hq : ∀ ρ : Valuation ctrTheory, (q.eval ρ : Int) = u.val (envOf ρ)) (vp : ∀ x ∈ p.vars, x.Untagged) (vq : ∀ x ∈ q.vars, x.Untagged) :
    FlaOk (.cmp c t u) (mkApp linear c.kind [.int p, .int q]) := by
  have hv : ∀ x, x ∈ p.vars ++ q.vars → x.Untagged := fun x hx => by
    rcases List.mem_append.1 hx with h | h
    · exact vp x h
    · exact vq x h
  have hv' : ∀ x, x ∈ q.vars ++ p.vars → x.Untagged := fun x hx => by
    rcases List.mem_append.1 hx with h | h
    · exact vq x h
    · exact vp x h
  have key : ∀ (P : Prop) [Decidable P], decide ((if P then (1 : Int) else 0) ≠ 0) = true ↔ P := by
    intro P _; by_cases h : P <;> simp [h]
  cases c with
  | eq =>
    refine .inr ⟨.eq p q, rfl, fun ρ => ?_, hv⟩
    simp only [osat, Cmp.holds, ← hp, ← hq]
    exact Iff.rfl
  | leq =>
    refine .inr ⟨_, rfl, fun ρ => ?_, hv'⟩
    simp only [osat, Cmp.holds, ← hp, ← hq]
    exact key ((q.eval ρ : Int) ≥ p.eval ρ)
  | geq =>
    refine .inr ⟨_, rfl, fun ρ => ?_, hv⟩
    simp only [osat, Cmp.holds, ← hp, ← hq]
    exact key ((p.eval ρ : Int) ≥ q.eval ρ)
  | lt =>
    refine .inr ⟨_, rfl, fun ρ => ?_, hv⟩
    simp only [osat, Cmp.holds, ← hp, ← hq]
    exact key ((p.eval ρ : Int) < q.eval ρ)
  | gt =>
    refine .inr ⟨_, rfl, fun ρ => ?_, hv⟩
    simp only [osat, Cmp.holds, ← hp, ← hq]
    exact key ((p.eval ρ : Int) > q.eval ρ)

mutual
theorem tr_gx : ∀ g : Gx, g.Ok → FlaOk g (translate linear g.expr)
  | .cmp c t u, h => by
    simp only [Gx.expr, translate, translates]
    rcases tr_tx t h.1 with e | ⟨p, e, h1, h2⟩
    · rw [e]; exact .inl rfl
    · rcases tr_tx u h.2 with e' | ⟨q, e', h3, h4⟩
      · rw [e, e']; exact .inl rfl
      · rw [e, e']; exact cmp_ok c h1 h3 h2 h4
  | .and l, h => by
    simp only [Gx.expr, translate]
    rcases tr_gxs l h with e | ⟨fs, e, h1, h2, -⟩
    · rw [e]; exact .inl rfl
    · rw [e]
      refine .inr ⟨Fla.conj fs, ?_, fun ρ => by rw [(h1 ρ).1]; simp only [osat], h2⟩
      simp only [Res.bind, mkApp, asBools_map]
  | .or l, h => by
    simp only [Gx.expr, translate]
    rcases tr_gxs l h with e | ⟨fs, e, h1, -, h2⟩
    · rw [e]; exact .inl rfl
    · rw [e]
      refine .inr ⟨Fla.disj fs, ?_, fun ρ => by rw [(h1 ρ).2]; simp only [osat], h2⟩
      simp only [Res.bind, mkApp, asBools_map]
  | .ex xs b, h => by
    have := tr_gx b h
    simp only [Gx.expr]
    simpa only [FlaOk, osat] using this
theorem tr_gxs : ∀ l : List Gx, Gx.Oks l → FlasOk l (translates linear (Gx.exprs l))
  | [], _ => .inr ⟨[], rfl, fun _ => ⟨Iff.rfl, Iff.rfl⟩, fun x hx => (by cases hx), fun x hx => (by cases hx)⟩
  | g :: l, h => by
    simp only [Gx.exprs, translates]
    rcases tr_gx g h.1 with e | ⟨f, e, h1, h2⟩
    · rw [e]; exact .inl rfl
    · rcases tr_gxs l h.2.1 with e' | ⟨fs, e', h3, h4, h5⟩
      · rw [e, e']; exact .inl rfl
      · rw [e, e']
        refine .inr ⟨f :: fs, rfl, fun ρ => ⟨?_, ?_⟩, fun x hx => ?_, fun x hx => ?_⟩
        · simp only [Fla.conj, Fla.holds, osatAll]; rw [h1, (h3 ρ).1]
        · simp only [Fla.disj, Fla.holds, osatAny]; rw [h1, (h3 ρ).2]
        · rcases List.mem_append.1 (show x ∈ f.vars ++ (Fla.conj fs).vars from hx) with h | h
          · exact h2 x h
          · exact h4 x h
        · rcases List.mem_append.1 (show x ∈ f.vars ++ (Fla.disj fs).vars from hx) with h | h
          · exact h2 x h
          · exact h5 x h
end

end Its
end Golem
