import Mathlib.Tactic.Linarith
import Mathlib.Tactic.FieldSimp
import Mathlib.Tactic.Ring
import Verif.Model.LinArith
import Verif.Props.NormalForms

/-!
C32 (bound simplification), C37 (solving a linear term for a variable).
-/

namespace Golem

/-! ### C37 -/

/-- Canonical linear terms: each variable (and the constant) occurs in one factor, with nonzero coefficient. -/
structure LinTerm.Canonical (t : LinTerm) : Prop where
  nonzero : ∀ f ∈ t.factors, f.1 ≠ 0
  distinct : (t.factors.map Prod.snd).Nodup

theorem splitFactors_notin {v : Var} {fs : List (Rat × Option Var)} (h : some v ∉ fs.map Prod.snd) :
    splitFactors v fs = (none, fs) := by
  induction fs with
  | nil => rfl
  | cons f fs ih =>
    simp only [List.map_cons, List.mem_cons, not_or] at h
    simp only [splitFactors, ih h.2]
    rw [if_neg (fun e => h.1 e.symm)]

theorem splitFactors_spec {v : Var} {fs : List (Rat × Option Var)} (hn : (fs.map Prod.snd).Nodup)
    (h : some v ∈ fs.map Prod.snd) :
    ∃ c others, splitFactors v fs = (some c, others) ∧ (c, some v) ∈ fs ∧ some v ∉ others.map Prod.snd ∧
      ∀ ρ, (fs.map (LinTerm.factorEval ρ)).sum = c * ρ v + (others.map (LinTerm.factorEval ρ)).sum := by
  induction fs with
  | nil => simp at h
  | cons f fs ih =>
    simp only [List.map_cons, List.nodup_cons] at hn
    simp only [splitFactors]
    by_cases hf : f.2 = some v
    · have hnot : some v ∉ fs.map Prod.snd := hf ▸ hn.1
      rw [splitFactors_notin hnot]
      refine ⟨f.1, fs, by simp [hf], by rw [← hf]; simp, hnot, fun ρ => ?_⟩
      simp [LinTerm.factorEval, hf]
    · simp only [List.map_cons, List.mem_cons] at h
      obtain ⟨c, others, h1, h2, h3, h4⟩ := ih hn.2 (h.resolve_left fun e => hf e.symm)
      refine ⟨c, f :: others, by simp [h1, hf], by simp [h2], ?_, fun ρ => ?_⟩
      · simp only [List.map_cons, List.mem_cons, not_or]; exact ⟨fun e => hf e.symm, h3⟩
      · simp only [List.map_cons, List.sum_cons, h4 ρ]; ring

theorem LinTerm.scale_eval (c : Rat) (t : LinTerm) (ρ : Var → Rat) : (t.scale c).eval ρ = c * t.eval ρ := by
  obtain ⟨fs⟩ := t
  unfold LinTerm.scale LinTerm.eval
  simp only
  induction fs with
  | nil => simp
  | cons f fs ih =>
    simp only [List.map_cons, List.sum_cons, ih]
    cases h : f.2 <;> simp [LinTerm.factorEval, h] <;> ring

/-- C37. For a canonical linear term `t` containing the variable `v`, the returned term `s` does not contain `v`, and
`v = s` holds exactly when `t = 0`. -/
theorem C37_solve_for (t : LinTerm) (ht : t.Canonical) (v : Var) (hv : termContainsVar t v = true) :
    ∃ s, expressZeroTermFor t v = some s ∧ v ∉ s.vars ∧ ∀ ρ : Var → Rat, ρ v = s.eval ρ ↔ t.eval ρ = 0 := by
  obtain ⟨fs⟩ := t
  simp only [termContainsVar, List.any_eq_true, decide_eq_true_eq] at hv
  obtain ⟨f0, hf0, hf0v⟩ := hv
  have hmem : some v ∈ fs.map Prod.snd := hf0v ▸ List.mem_map_of_mem hf0
  obtain ⟨c, others, h1, h2, h3, h4⟩ := splitFactors_spec ht.distinct hmem
  have hc : c ≠ 0 := ht.nonzero _ h2
  by_cases hlen : ∃ f, fs = [f]
  · obtain ⟨f, rfl⟩ := hlen
    simp at hf0; subst hf0
    refine ⟨⟨[]⟩, rfl, by simp [LinTerm.vars], fun ρ => ?_⟩
    have hne := ht.nonzero f0 (by simp)
    simp [LinTerm.eval, LinTerm.factorEval, hf0v, hne]
  · refine ⟨LinTerm.scale (-1 / c) ⟨others⟩, ?_, ?_, fun ρ => ?_⟩
    · unfold expressZeroTermFor
      simp only
      split
      · rename_i f; exact absurd ⟨f, rfl⟩ hlen
      · simp [h1]
    · intro hm
      apply h3
      simp only [LinTerm.vars, LinTerm.scale, List.filterMap_map, List.mem_filterMap] at hm
      obtain ⟨f, hf, he⟩ := hm
      exact List.mem_map.2 ⟨f, hf, he⟩
    · rw [LinTerm.scale_eval]
      simp only [LinTerm.eval, h4 ρ]
      generalize (others.map (LinTerm.factorEval ρ)).sum = r
      constructor
      · intro h; rw [h]; field_simp; ring
      · intro h
        have : r = -(c * ρ v) := by linarith
        rw [this]; field_simp

/-- A non-trivial instance: `2x + 3y + 5`, solved for `x`. -/
example : expressZeroTermFor ⟨[(2, some (.base (.user "x"))), (3, some (.base (.user "y"))), (5, none)]⟩
    (.base (.user "x")) = some ⟨[(-3/2, some (.base (.user "y"))), (-5/2, none)]⟩ := by decide +kernel

example : LinTerm.Canonical ⟨[(2, some (.base (.user "x"))), (3, some (.base (.user "y"))), (5, none)]⟩ :=
  ⟨by intro f hf; simp at hf; rcases hf with rfl | rfl | rfl <;> decide, by decide⟩

/-! ### C32 -/

section
variable {α : Type} (ρ : Var → Rat) (I : α → Prop)

/-- Truth of a literal. -/
def LLit.holds (l : LLit α) : Prop :=
  let a := match l.1 with
    | .leq c t => c ≤ t.eval ρ
    | .other a => I a
  if l.2 then a else ¬ a

/-- Truth of a junction of literals. -/
def junctionHolds (J : Junction) (ls : List (LLit α)) : Prop :=
  match J with
  | .conj => ∀ l ∈ ls, LLit.holds ρ I l
  | .disj => ∃ l ∈ ls, LLit.holds ρ I l

def boundLits (bs : Bounds) : List (LLit α) := bs.map fun b => (.leq b.2 b.1.1, b.1.2)

variable {ρ I}

theorem junctionHolds_append {J : Junction} {a b : List (LLit α)} :
    junctionHolds ρ I J (a ++ b) ↔
      match J with
      | .conj => junctionHolds ρ I J a ∧ junctionHolds ρ I J b
      | .disj => junctionHolds ρ I J a ∨ junctionHolds ρ I J b := by
  cases J
  · simp only [junctionHolds, List.mem_append]
    exact ⟨fun h => ⟨fun f hf => h f (.inl hf), fun f hf => h f (.inr hf)⟩, fun h f hf => hf.elim (h.1 f) (h.2 f)⟩
  · simp only [junctionHolds, List.mem_append]
    constructor
    · rintro ⟨f, hf | hf, h⟩
      · exact .inl ⟨f, hf, h⟩
      · exact .inr ⟨f, hf, h⟩
    · rintro (⟨f, hf, h⟩ | ⟨f, hf, h⟩)
      · exact ⟨f, .inl hf, h⟩
      · exact ⟨f, .inr hf, h⟩

theorem junctionHolds_cons {J : Junction} {l : LLit α} {b : List (LLit α)} :
    junctionHolds ρ I J (l :: b) ↔
      match J with
      | .conj => LLit.holds ρ I l ∧ junctionHolds ρ I J b
      | .disj => LLit.holds ρ I l ∨ junctionHolds ρ I J b := by
  cases J <;> simp [junctionHolds]

/-- Merging two bounds with the same key keeps the junction of the two. -/
theorem updateBound_holds {J : Junction} {t : LinTerm} {s : Bool} {c : Rat} (bs : Bounds) :
    junctionHolds ρ I J (boundLits (α := α) (updateBound J t s c bs)) ↔
      junctionHolds ρ I J (((.leq c t, s) : LLit α) :: boundLits bs) := by
  induction bs with
  | nil => exact Iff.rfl
  | cons b bs ih =>
    obtain ⟨k, c'⟩ := b
    simp only [updateBound]
    split
    · rename_i hk
      subst hk
      simp only [boundLits, List.map_cons, junctionHolds_cons]
      generalize junctionHolds ρ I J (bs.map fun b => ((.leq b.2 b.1.1, b.1.2) : LLit α)) = Q
      cases J <;> cases s <;> simp only [LLit.holds, isBetter, if_true, if_false, Bool.false_eq_true, decide_eq_true_eq,
        not_le] <;> generalize t.eval ρ = x
      · split
        · rename_i h
          exact ⟨fun ⟨a, b⟩ => ⟨a, by linarith, b⟩, fun ⟨a, _, b⟩ => ⟨a, b⟩⟩
        · rename_i h
          exact ⟨fun ⟨a, b⟩ => ⟨by linarith, a, b⟩, fun ⟨_, a, b⟩ => ⟨a, b⟩⟩
      · split
        · rename_i h
          exact ⟨fun ⟨a, b⟩ => ⟨a, by linarith, b⟩, fun ⟨a, _, b⟩ => ⟨a, b⟩⟩
        · rename_i h
          exact ⟨fun ⟨a, b⟩ => ⟨by linarith, a, b⟩, fun ⟨_, a, b⟩ => ⟨a, b⟩⟩
      · split
        · rename_i h
          exact ⟨fun a => a.elim .inl (fun b => .inr (.inr b)),
            fun a => a.elim .inl (fun b => b.elim (fun b => .inl (by linarith)) .inr)⟩
        · rename_i h
          exact ⟨fun a => .inr a, fun a => a.elim (fun b => .inl (by linarith)) id⟩
      · split
        · rename_i h
          exact ⟨fun a => a.elim .inl (fun b => .inr (.inr b)),
            fun a => a.elim .inl (fun b => b.elim (fun b => .inl (by linarith)) .inr)⟩
        · rename_i h
          exact ⟨fun a => .inr a, fun a => a.elim (fun b => .inl (by linarith)) id⟩
    · have e : junctionHolds ρ I J (boundLits (α := α) ((k, c') :: updateBound J t s c bs)) ↔
          junctionHolds ρ I J (((.leq c' k.1, k.2) : LLit α) :: boundLits (updateBound J t s c bs)) := Iff.rfl
      have e' : junctionHolds ρ I J (boundLits (α := α) ((k, c') :: bs)) ↔
          junctionHolds ρ I J (((.leq c' k.1, k.2) : LLit α) :: boundLits bs) := Iff.rfl
      cases J
      · rw [e, junctionHolds_cons, junctionHolds_cons]; simp only
        rw [ih, junctionHolds_cons, e', junctionHolds_cons]
        exact ⟨fun ⟨a, b, c⟩ => ⟨b, a, c⟩, fun ⟨a, b, c⟩ => ⟨b, a, c⟩⟩
      · rw [e, junctionHolds_cons, junctionHolds_cons]; simp only
        rw [ih, junctionHolds_cons, e', junctionHolds_cons]
        exact or_left_comm

theorem collectBounds_holds {J : Junction} (ls : List (LLit α)) (tmp : List (LLit α)) (bs : Bounds) :
    junctionHolds ρ I J ((collectBounds J ls (tmp, bs)).1 ++ boundLits (collectBounds J ls (tmp, bs)).2) ↔
      junctionHolds ρ I J (tmp ++ boundLits bs ++ ls) := by
  induction ls generalizing tmp bs with
  | nil => simp [collectBounds]
  | cons l ls ih =>
    obtain ⟨a, s⟩ := l
    cases a with
    | leq c t =>
      simp only [collectBounds]
      rw [ih]
      cases J <;> simp only [junctionHolds_append, junctionHolds_cons, updateBound_holds]
      · exact ⟨fun ⟨⟨a, b, c⟩, d⟩ => ⟨⟨a, c⟩, b, d⟩, fun ⟨⟨a, c⟩, b, d⟩ => ⟨⟨a, b, c⟩, d⟩⟩
      · constructor
        · rintro ((a | a | a) | a)
          · exact .inl (.inl a)
          · exact .inr (.inl a)
          · exact .inl (.inr a)
          · exact .inr (.inr a)
        · rintro ((a | a) | a | a)
          · exact .inl (.inl a)
          · exact .inl (.inr (.inr a))
          · exact .inl (.inr (.inl a))
          · exact .inr a
    | other x =>
      simp only [collectBounds]
      rw [ih]
      cases J <;> simp only [junctionHolds_append, junctionHolds_cons]
      · simp only [junctionHolds, List.not_mem_nil, false_imp_iff, implies_true, and_true]
        exact ⟨fun ⟨⟨⟨a, b⟩, c⟩, d⟩ => ⟨⟨a, c⟩, b, d⟩, fun ⟨⟨a, c⟩, b, d⟩ => ⟨⟨⟨a, b⟩, c⟩, d⟩⟩
      · simp only [junctionHolds, List.not_mem_nil, false_and, exists_false, or_false]
        constructor
        · rintro (((a | a) | a) | a)
          · exact .inl (.inl a)
          · exact .inr (.inl a)
          · exact .inl (.inr a)
          · exact .inr (.inr a)
        · rintro ((a | a) | a | a)
          · exact .inl (.inl (.inl a))
          · exact .inl (.inr a)
          · exact .inl (.inl (.inr a))
          · exact .inr a

/-- C32. Bound simplification keeps the meaning of a conjunction (disjunction) of literals, for every valuation. -/
theorem C32_simplify_equiv (J : Junction) (ls : List (LLit α)) :
    junctionHolds ρ I J (simplifyJunction J ls) ↔ junctionHolds ρ I J ls := by
  unfold simplifyJunction
  simp only
  split
  · have := collectBounds_holds (ρ := ρ) (I := I) (J := J) ls [] []
    simpa [boundLits] using this
  · exact Iff.rfl

end

/-- The bound literals of a list, as (term, sign) keys. -/
def boundKeys {α : Type} (ls : List (LLit α)) : List (LinTerm × Bool) :=
  ls.filterMap fun l => match l.1 with
    | .leq _ t => some (t, l.2)
    | .other _ => none

theorem updateBound_keys {J : Junction} {t : LinTerm} {s : Bool} {c : Rat} (bs : Bounds) :
    (updateBound J t s c bs).map Prod.fst =
      if (t, s) ∈ bs.map Prod.fst then bs.map Prod.fst else bs.map Prod.fst ++ [(t, s)] := by
  induction bs with
  | nil => simp [updateBound]
  | cons b bs ih =>
    obtain ⟨k, c'⟩ := b
    simp only [updateBound]
    split
    · rename_i h; subst h; simp
    · rename_i h
      have h' : ¬ (t, s) = k := fun e => h e.symm
      simp only [List.map_cons, ih, List.mem_cons, h', false_or]
      split <;> simp

theorem collectBounds_struct {α : Type} {J : Junction} (ls tmp : List (LLit α)) (bs : Bounds)
    (htmp : boundKeys tmp = []) (hbs : (bs.map Prod.fst).Nodup) :
    boundKeys (collectBounds J ls (tmp, bs)).1 = [] ∧ ((collectBounds J ls (tmp, bs)).2.map Prod.fst).Nodup ∧
    (collectBounds J ls (tmp, bs)).2.length + (collectBounds J ls (tmp, bs)).1.length ≤
      bs.length + tmp.length + ls.length ∧
    ((collectBounds J ls (tmp, bs)).2.length + (collectBounds J ls (tmp, bs)).1.length =
      bs.length + tmp.length + ls.length → (bs.map Prod.fst ++ boundKeys ls).Nodup) := by
  induction ls generalizing tmp bs with
  | nil => exact ⟨htmp, hbs, by simp [collectBounds], fun _ => by simpa [boundKeys] using hbs⟩
  | cons l ls ih =>
    obtain ⟨a, s⟩ := l
    cases a with
    | leq c t =>
      simp only [collectBounds]
      have hk := updateBound_keys (J := J) (t := t) (s := s) (c := c) bs
      have hlen : (updateBound J t s c bs).length = ((updateBound J t s c bs).map Prod.fst).length := by simp
      by_cases hm : (t, s) ∈ bs.map Prod.fst
      · rw [if_pos hm] at hk
        obtain ⟨h1, h2, h3, h4⟩ := ih tmp (updateBound J t s c bs) htmp (by rw [hk]; exact hbs)
        rw [hk] at hlen
        simp only [List.length_map] at hlen
        refine ⟨h1, h2, by simp only [List.length_cons]; omega, fun he => ?_⟩
        simp only [List.length_cons] at he; omega
      · rw [if_neg hm] at hk
        have hnd : ((updateBound J t s c bs).map Prod.fst).Nodup := by
          rw [hk, List.nodup_append]
          refine ⟨hbs, by simp, ?_⟩
          intro a ha b hb hab
          simp at hb; subst hb; subst hab; exact hm ha
        obtain ⟨h1, h2, h3, h4⟩ := ih tmp (updateBound J t s c bs) htmp hnd
        rw [hk] at hlen
        simp only [List.length_append, List.length_map, List.length_cons, List.length_nil] at hlen
        refine ⟨h1, h2, by simp only [List.length_cons]; omega, fun he => ?_⟩
        have := h4 (by simp only [List.length_cons] at he; omega)
        rw [hk] at this
        simpa [boundKeys] using this
    | other x =>
      simp only [collectBounds]
      obtain ⟨h1, h2, h3, h4⟩ := ih (tmp ++ [(.other x, s)]) bs (by
        simp only [boundKeys, List.filterMap_append] at htmp ⊢; rw [htmp]; rfl) hbs
      simp only [List.length_append, List.length_cons, List.length_nil] at h3 h4 ⊢
      refine ⟨h1, h2, by omega, fun he => ?_⟩
      have := h4 (by omega)
      simpa [boundKeys] using this

/-- C32. After simplification each linear term has at most one bound per sign. -/
theorem C32_one_bound_per_term {α : Type} (J : Junction) (ls : List (LLit α)) :
    (boundKeys (simplifyJunction J ls)).Nodup := by
  obtain ⟨h1, h2, h3, h4⟩ := collectBounds_struct (J := J) ls [] [] rfl (by simp)
  unfold simplifyJunction
  simp only
  split
  · have : boundKeys ((collectBounds J ls ([], [])).1 ++ (collectBounds J ls ([], [])).2.map fun b =>
        ((.leq b.2 b.1.1, b.1.2) : LLit α)) = (collectBounds J ls ([], [])).2.map Prod.fst := by
      unfold boundKeys at *
      rw [List.filterMap_append, h1, List.nil_append]
      induction (collectBounds J ls ([], [])).2 with
      | nil => rfl
      | cons b bs ih => simp_all
    rw [this]; exact h2
  · have := h4 (by simp at h3 ⊢; omega)
    simpa using this

/-- Two lower bounds on `x`: conjunction keeps the larger, disjunction the smaller. -/
example : simplifyJunction (α := Unit) .conj [(.leq 1 ⟨[(1, some (.base (.user "x")))]⟩, true), (.other (), true),
    (.leq 3 ⟨[(1, some (.base (.user "x")))]⟩, true)] =
    [(.other (), true), (.leq 3 ⟨[(1, some (.base (.user "x")))]⟩, true)] := by decide +kernel

end Golem
