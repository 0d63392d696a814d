import Verif.Spec.Its
import Verif.Model.Termination.Its
import Verif.Lemmas.Names

/-! Guards of integer transition systems: from the text to the formula of the clause. -/

namespace Golem
namespace Its
open SExpr (SExp)
open Spec

/-! ### Dropping the quantifiers -/

mutual
/-- The guard without its quantifiers. -/
def osat (σ : Spec.Str → Int) : Gx → Prop
  | .cmp c a b => c.holds (a.val σ) (b.val σ)
  | .and l => osatAll σ l
  | .or l => osatAny σ l
  | .ex _ b => osat σ b
def osatAll (σ : Spec.Str → Int) : List Gx → Prop
  | [] => True
  | g :: l => osat σ g ∧ osatAll σ l
def osatAny (σ : Spec.Str → Int) : List Gx → Prop
  | [] => False
  | g :: l => osat σ g ∨ osatAny σ l
end

mutual
theorem val_congr {σ σ' : Spec.Str → Int} : ∀ t : Tx, (∀ x ∈ t.vars, σ x = σ' x) → t.val σ = t.val σ'
  | .num _, _ => rfl
  | .var s, h => by simpa [Tx.val] using h s (by simp [Tx.vars])
  | .add l, h => by simpa [Tx.val] using sum_congr l h
  | .mul l, h => by simpa [Tx.val] using prod_congr l h
  | .neg t, h => by simp only [Tx.val]; rw [val_congr t h]
  | .sub t u, h => by
    simp only [Tx.vars, List.mem_append] at h
    simp only [Tx.val]
    rw [val_congr t fun x hx => h x (.inl hx), val_congr u fun x hx => h x (.inr hx)]
theorem sum_congr {σ σ' : Spec.Str → Int} : ∀ l : List Tx, (∀ x ∈ Tx.varss l, σ x = σ' x) → Tx.sum σ l = Tx.sum σ' l
  | [], _ => rfl
  | t :: l, h => by
    simp only [Tx.varss, List.mem_append] at h
    simp only [Tx.sum]
    rw [val_congr t fun x hx => h x (.inl hx), sum_congr l fun x hx => h x (.inr hx)]
theorem prod_congr {σ σ' : Spec.Str → Int} : ∀ l : List Tx, (∀ x ∈ Tx.varss l, σ x = σ' x) → Tx.prod σ l = Tx.prod σ' l
  | [], _ => rfl
  | t :: l, h => by
    simp only [Tx.varss, List.mem_append] at h
    simp only [Tx.prod]
    rw [val_congr t fun x hx => h x (.inl hx), prod_congr l fun x hx => h x (.inr hx)]
end

mutual
theorem osat_congr {σ σ' : Spec.Str → Int} : ∀ g : Gx, (∀ x ∈ g.vars, σ x = σ' x) → (osat σ g ↔ osat σ' g)
  | .cmp c t u, h => by
    simp only [Gx.vars, List.mem_append] at h
    simp only [osat]
    rw [val_congr t fun x hx => h x (.inl hx), val_congr u fun x hx => h x (.inr hx)]
  | .and l, h => by simpa only [osat] using osatAll_congr l h
  | .or l, h => by simpa only [osat] using osatAny_congr l h
  | .ex xs b, h => by
    simp only [Gx.vars, List.mem_append] at h
    simpa only [osat] using osat_congr b fun x hx => h x (.inr hx)
theorem osatAll_congr {σ σ' : Spec.Str → Int} : ∀ l : List Gx, (∀ x ∈ Gx.varss l, σ x = σ' x) → (osatAll σ l ↔ osatAll σ' l)
  | [], _ => Iff.rfl
  | g :: l, h => by
    simp only [Gx.varss, List.mem_append] at h
    simp only [osatAll]
    rw [osat_congr g fun x hx => h x (.inl hx), osatAll_congr l fun x hx => h x (.inr hx)]
theorem osatAny_congr {σ σ' : Spec.Str → Int} : ∀ l : List Gx, (∀ x ∈ Gx.varss l, σ x = σ' x) → (osatAny σ l ↔ osatAny σ' l)
  | [], _ => Iff.rfl
  | g :: l, h => by
    simp only [Gx.varss, List.mem_append] at h
    simp only [osatAny]
    rw [osat_congr g fun x hx => h x (.inl hx), osatAny_congr l fun x hx => h x (.inr hx)]
end

mutual
/-- The binders can be dropped: the bound variables become variables of the rule. -/
theorem sat_open : ∀ (g : Gx) (σ : Spec.Str → Int), g.Ok →
    (g.sat σ ↔ ∃ σ' : Spec.Str → Int, (∀ x, x ∉ g.bound → σ' x = σ x) ∧ osat σ' g)
  | .cmp c t u, σ, _ => by
    simp only [Gx.sat, osat, Gx.bound, List.not_mem_nil, not_false_eq_true, true_implies]
    constructor
    · exact fun h => ⟨σ, fun _ => rfl, h⟩
    · rintro ⟨σ', h1, h2⟩
      rw [funext h1] at h2; exact h2
  | .and l, σ, h => by
    simp only [Gx.sat, osat, Gx.bound]
    exact satAll_open l σ h
  | .or l, σ, h => by
    simp only [Gx.sat, osat, Gx.bound]
    exact satAny_open l σ h
  | .ex xs b, σ, h => by
    simp only [Gx.sat, osat, Gx.bound, List.mem_append, not_or]
    constructor
    · rintro ⟨σ1, h1, h2⟩
      obtain ⟨σ', h3, h4⟩ := (sat_open b σ1 h).1 h2
      exact ⟨σ', fun x hx => (h3 x hx.2).trans (h1 x hx.1), h4⟩
    · rintro ⟨σ', h1, h2⟩
      refine ⟨fun x => if x ∈ xs then σ' x else σ x, fun x hx => by simp [hx], (sat_open b _ h).2 ⟨σ', fun x hx => ?_, h2⟩⟩
      by_cases hx' : x ∈ xs
      · simp [hx']
      · simp [hx', h1 x ⟨hx', hx⟩]
theorem satAll_open : ∀ (l : List Gx) (σ : Spec.Str → Int), Gx.Oks l →
    (Gx.satAll σ l ↔ ∃ σ' : Spec.Str → Int, (∀ x, x ∉ Gx.bounds l → σ' x = σ x) ∧ osatAll σ' l)
  | [], σ, _ => by
    simp only [Gx.satAll, osatAll, and_true, true_iff]
    exact ⟨σ, fun _ _ => rfl⟩
  | g :: l, σ, h => by
    obtain ⟨h1, h2, h3, h4⟩ := h
    simp only [Gx.satAll, osatAll, Gx.bounds, List.mem_append, not_or]
    rw [sat_open g σ h1, satAll_open l σ h2]
    constructor
    · rintro ⟨⟨σ1, a1, b1⟩, σ2, a2, b2⟩
      refine ⟨fun x => if x ∈ g.bound then σ1 x else σ2 x, fun x hx => by simp [hx.1, a2 x hx.2], ?_, ?_⟩
      · refine (osat_congr g fun x hx => ?_).1 b1
        by_cases hb : x ∈ g.bound
        · simp [hb]
        · simp only [hb, if_false]
          rw [a1 x hb, a2 x fun hc => h4 x hc hx]
      · refine (osatAll_congr l fun x hx => ?_).1 b2
        have : x ∉ g.bound := fun hc => h3 x hc hx
        simp [this]
    · rintro ⟨σ', a1, b1, b2⟩
      refine ⟨⟨fun x => if x ∈ g.bound then σ' x else σ x, fun x hx => by simp [hx], ?_⟩,
        ⟨fun x => if x ∈ Gx.bounds l then σ' x else σ x, fun x hx => by simp [hx], ?_⟩⟩
      · refine (osat_congr g fun x hx => ?_).1 b1
        by_cases hb : x ∈ g.bound
        · simp [hb]
        · simp [hb, a1 x ⟨hb, fun hc => h4 x hc hx⟩]
      · refine (osatAll_congr l fun x hx => ?_).1 b2
        by_cases hb : x ∈ Gx.bounds l
        · simp [hb]
        · simp [hb, a1 x ⟨fun hc => h3 x hc hx, hb⟩]
theorem satAny_open : ∀ (l : List Gx) (σ : Spec.Str → Int), Gx.Oks l →
    (Gx.satAny σ l ↔ ∃ σ' : Spec.Str → Int, (∀ x, x ∉ Gx.bounds l → σ' x = σ x) ∧ osatAny σ' l)
  | [], σ, _ => by simp only [Gx.satAny, osatAny, and_false, exists_false]
  | g :: l, σ, h => by
    obtain ⟨h1, h2, h3, h4⟩ := h
    simp only [Gx.satAny, osatAny, Gx.bounds, List.mem_append, not_or]
    rw [sat_open g σ h1, satAny_open l σ h2]
    constructor
    · rintro (⟨σ1, a1, b1⟩ | ⟨σ2, a2, b2⟩)
      · exact ⟨σ1, fun x hx => a1 x hx.1, .inl b1⟩
      · exact ⟨σ2, fun x hx => a2 x hx.2, .inr b2⟩
    · rintro ⟨σ', a1, b1 | b2⟩
      · refine .inl ⟨fun x => if x ∈ g.bound then σ' x else σ x, fun x hx => by simp [hx], ?_⟩
        refine (osat_congr g fun x hx => ?_).1 b1
        by_cases hb : x ∈ g.bound
        · simp [hb]
        · simp [hb, a1 x ⟨hb, fun hc => h4 x hc hx⟩]
      · refine .inr ⟨fun x => if x ∈ Gx.bounds l then σ' x else σ x, fun x hx => by simp [hx], ?_⟩
        refine (osatAny_congr l fun x hx => ?_).1 b2
        by_cases hb : x ∈ Gx.bounds l
        · simp [hb]
        · simp [hb, a1 x ⟨fun hc => h3 x hc hx, hb⟩]
end

/-! ### Parsing -/

mutual
def Spec.Tx.expr : Tx → Expr
  | .num n => .const (Names.showInt n)
  | .var s => .var s
  | .add l => .app .add (Tx.exprs l)
  | .mul l => .app .mul (Tx.exprs l)
  | .neg t => .app .sub [Tx.expr t]
  | .sub t u => .app .sub [Tx.expr t, Tx.expr u]
def Spec.Tx.exprs : List Tx → List Expr
  | [] => []
  | t :: l => Tx.expr t :: Tx.exprs l
end

def Spec.Cmp.kind : Cmp → Kind
  | .eq => .eq
  | .leq => .leq
  | .geq => .geq
  | .lt => .lt
  | .gt => .gt

mutual
def Spec.Gx.expr : Gx → Expr
  | .cmp c t u => .app c.kind [t.expr, u.expr]
  | .and l => .app .and (Gx.exprs l)
  | .or l => .app .or (Gx.exprs l)
  | .ex _ b => Gx.expr b
def Spec.Gx.exprs : List Gx → List Expr
  | [] => []
  | g :: l => Gx.expr g :: Gx.exprs l
end

theorem isConst_showInt (n : Int) : isConst (Names.showInt n) = true := by
  cases n with
  | ofNat n =>
    obtain ⟨c, r, h, hd⟩ := Names.showNat_head n
    show isConst (Names.showNat n) = true
    rw [h]; simp [isConst, hd]
  | negSucc n =>
    have := Names.showNat_ne_nil (n + 1)
    simp only [Names.showInt, isConst, beq_self_eq_true, Bool.true_and, Bool.or_eq_true, Bool.not_eq_true']
    right
    cases h : Names.showNat (n + 1) with
    | nil => exact absurd h this
    | cons => rfl

theorem isConst_name {s : Spec.Str} (h : IsName s) : isConst s = false := by
  cases s with
  | nil => rfl
  | cons c r =>
    obtain ⟨h1, h2⟩ := h.2 c rfl
    simp [isConst, h1, h2]

theorem parse_op {op : String} {k : Kind} {args : List SExp} {es : List Expr} (h : op.toList ≠ "exists".toList)
    (hk : kindOf op.toList = some k) (ha : parseExprs args = some es) : parseExpr (.list (a op :: args)) = some (.app k es) := by
  unfold a
  rw [parseExpr.eq_def]
  simp only
  rw [if_neg h, hk, ha]
  rfl

mutual
theorem parse_tx : ∀ t : Tx, (∀ x ∈ t.vars, IsName x) → parseExpr t.toS = some t.expr
  | .num n, _ => by simp only [Tx.toS, Tx.expr, parseExpr, isConst_showInt, if_true]
  | .var s, h => by
    have : isConst s = false := isConst_name (h s (by simp [Tx.vars]))
    simp [Tx.toS, Tx.expr, parseExpr, this]
  | .add l, h => parse_op (by decide +kernel) (by decide +kernel) (parse_txs l h)
  | .mul l, h => parse_op (by decide +kernel) (by decide +kernel) (parse_txs l h)
  | .neg t, h => parse_op (by decide +kernel) (by decide +kernel) (by simp [parseExprs, parse_tx t h])
  | .sub t u, h => by
    simp only [Tx.vars, List.mem_append] at h
    exact parse_op (by decide +kernel) (by decide +kernel)
      (by simp [parseExprs, parse_tx t fun x hx => h x (.inl hx), parse_tx u fun x hx => h x (.inr hx)])
theorem parse_txs : ∀ l : List Tx, (∀ x ∈ Tx.varss l, IsName x) → parseExprs (Tx.toSs l) = some (Tx.exprs l)
  | [], _ => rfl
  | t :: l, h => by
    simp only [Tx.varss, List.mem_append] at h
    simp [Tx.toSs, Tx.exprs, parseExprs, parse_tx t fun x hx => h x (.inl hx), parse_txs l fun x hx => h x (.inr hx)]
end

mutual
theorem parse_gx : ∀ g : Gx, (∀ x ∈ g.vars, IsName x) → parseExpr g.toS = some g.expr
  | .cmp c t u, h => by
    simp only [Gx.vars, List.mem_append] at h
    have hargs : parseExprs [t.toS, u.toS] = some [t.expr, u.expr] := by
      simp [parseExprs, parse_tx t fun x hx => h x (.inl hx), parse_tx u fun x hx => h x (.inr hx)]
    cases c <;> exact parse_op (by decide +kernel) (by decide +kernel) hargs
  | .and l, h => parse_op (by decide +kernel) (by decide +kernel) (parse_gxs l h)
  | .or l, h => parse_op (by decide +kernel) (by decide +kernel) (parse_gxs l h)
  | .ex xs b, h => by
    simp only [Gx.vars, List.mem_append] at h
    simp only [Gx.toS, Gx.expr, a]
    rw [parseExpr, if_pos rfl]
    exact parse_gx b fun x hx => h x (.inr hx)
theorem parse_gxs : ∀ l : List Gx, (∀ x ∈ Gx.varss l, IsName x) → parseExprs (Gx.toSs l) = some (Gx.exprs l)
  | [], _ => rfl
  | g :: l, h => by
    simp only [Gx.varss, List.mem_append] at h
    simp [Gx.toSs, Gx.exprs, parseExprs, parse_gx g fun x hx => h x (.inl hx), parse_gxs l fun x hx => h x (.inr hx)]
end

end Its
end Golem
