import Verif.Props.TRL

/-!
A run of the engine for C66 whose answer is right but whose witness contains a bad state: the first level of the last stack was pushed
before the relation was learned and does not know it, but the invariant is computed with it.
-/

namespace Golem
namespace TrlEx

def x : Var := .ver (.user "x") 0
def x' : Var := .ver (.user "x") 1
def ge (p : Poly Int) : Fla LIA := (MAtom.leq p).fla
def eq0 (p : Poly Int) : Fla LIA := (MAtom.eq p).fla

/-- From `x = 1`: `(x = 1 ∧ x' = 20) ∨ (x ≥ 0 ∧ x' ≥ 2 x + 6)`. Is `x = 7` reachable? -/
def sys : TS LIA where
  stateVars := [x]
  auxVars := []
  init := eq0 ⟨[(x, 1)], -1⟩
  trans := .or (.and (eq0 ⟨[(x, 1)], -1⟩) (eq0 ⟨[(x', 1)], -20⟩)) (.and (ge ⟨[(x, 1)], 0⟩) (ge ⟨[(x', 1), (x, -2)], -6⟩))
  query := eq0 ⟨[(x, 1)], -7⟩

/-- The values of `x`, the relations used, and the loop counter. -/
def val (xs ids : List Int) (n : Int) : Valuation LIA
  | .ver (.user _) k => xs.getD k.toNat 0
  | .ver .trlId k => ids.getD k.toNat 0
  | .ver (.trlLc _) _ => n
  | _ => (0 : Int)

/-- The models of the solver. -/
def models : List (Valuation LIA) :=
  [val [1, 20, 46, 98, 202] [0, 0, 0, 0] 1, val [1, 20, 46, 98, 202] [0, 1, 0, 0] 1, val [20, 46] [] 1, val [46, 98] [] 1]

/-- The learned relation: `n > 0 ∧ x' - x ≥ 6 n ∧ x ≥ 0 ∧ x' ≥ 6`. -/
def rel : Fla LIA := Fla.conj [trlPos (trlCounter 0), Fla.conj [ge ⟨[(x', 1), (x, -1), (trlCounter 0, -6)], 0⟩],
  Fla.conj [ge ⟨[(x, 1)], 0⟩], Fla.conj [ge ⟨[(x', 1)], -6⟩]]

/-- The blocking clause of level `k`. -/
def clause (k : Int) : Fla LIA :=
  .or (.not (Fla.conj [ge ⟨[(shift k x', 1), (shift k x, -1)], -6⟩, ge ⟨[(shift k x, 1)], 0⟩, ge ⟨[(shift k x', 1)], -6⟩]))
    (trlPos (shift k trlIdx))

def L0 : TrlLevel := ⟨[sys.trans], []⟩
def L1 : TrlLevel := ⟨[sys.trans, rel], [clause 1]⟩
def L2 (cs : List (Fla LIA)) : TrlLevel := ⟨[sys.trans, rel], cs⟩

/-- The queries that the solver finds unsatisfiable. -/
def refuted : List (List (Fla LIA)) :=
  [trlStack sys [] ++ [sendFla sys.query 0], trlStack sys [L0] ++ [sendFla sys.query 1], trlStack sys [L0, L0] ++ [sendFla sys.query 2],
   trlStack sys [L0, L1] ++ [sendFla sys.query 2], trlStack sys [L0, L1, L2 []] ++ [sendFla sys.query 3], trlStack sys [L0, L1, L2 [clause 2]]]

def S : Smt LIA where
  check fs := if models.any (fun ρ => fs.all fun f => decide (f.holds ρ)) then .sat else if refuted.contains fs then .unsat else .unknown
  model fs := (models.find? (fun ρ => fs.all fun f => decide (f.holds ρ))).getD fun _ => (0 : Int)
  itp _ _ := .tt

def V (K : KeepOnly LIA) : TrlEnv := ⟨S, intMbp fun _ => false, K, id, fun _ => true⟩

def final : TrlState := ⟨[sys.trans, rel], [(clause 1, 1), (clause 2, 2)], [L0, L1, L2 [clause 2]], 1⟩

theorem run0 : (match trlSearch (V fun _ _ => none) sys 7 (trlStart sys) with | .done (some st) => decide (st = final) | _ => false) = true := by
  decide +kernel

theorem run (K : KeepOnly LIA) : trlSearch (V K) sys 7 (trlStart sys) = .done (some final) := by
  have h : trlSearch (V fun _ _ => none) sys 7 (trlStart sys) = .done (some final) := by
    have := run0
    split at this
    · rename_i st e
      rw [e, of_decide_eq_true this]
    · cases this
  exact h

/-! ### The solver is right -/

def X (ρ : Valuation LIA) (k : Nat) : Int := ρ (shift k x)
def N (ρ : Valuation LIA) (k : Nat) : Int := ρ (shift k (trlCounter 0))
def I (ρ : Valuation LIA) (k : Nat) : Int := ρ (shift k trlIdx)

theorem ge_holds (p : Poly Int) (ρ : Valuation LIA) : (ge p).holds ρ ↔ 0 ≤ p.eval ρ := MAtom.fla_holds (.leq p) ρ
theorem eq0_holds (p : Poly Int) (ρ : Valuation LIA) : (eq0 p).holds ρ ↔ p.eval ρ = 0 := MAtom.fla_holds (.eq p) ρ

theorem init_holds (ρ : Valuation LIA) : sys.init.holds ρ ↔ X ρ 0 = 1 := by
  show (eq0 _).holds ρ ↔ _
  rw [eq0_holds]
  simp only [Poly.eval, List.map_cons, List.map_nil, List.sum_cons, List.sum_nil, X]
  rw [show shift ((0 : Nat) : Int) x = x from shift_zero x]
  generalize (ρ x : Int) = a
  omega

theorem shift_next (k : Nat) : shift k x' = shift ((k + 1 : Nat) : Int) x := by
  simp only [shift, x, x', Var.ver.injEq, true_and]; omega

theorem trans_holds (ρ : Valuation LIA) (k : Nat) : (sendFla sys.trans k).holds ρ ↔
    (X ρ k = 1 ∧ X ρ (k + 1) = 20) ∨ (0 ≤ X ρ k ∧ 2 * X ρ k + 6 ≤ X ρ (k + 1)) := by
  rw [sendFla_holds]
  show (Fla.or (.and (eq0 _) (eq0 _)) (.and (ge _) (ge _))).holds _ ↔ _
  simp only [Fla.holds, ge_holds, eq0_holds, Poly.eval, List.map_cons, List.map_nil, List.sum_cons, List.sum_nil, X, shift_next]
  generalize (ρ (shift k x) : Int) = a
  generalize (ρ (shift ((k + 1 : Nat) : Int) x) : Int) = b
  omega

theorem query_holds (ρ : Valuation LIA) (k : Nat) : (sendFla sys.query k).holds ρ ↔ X ρ k = 7 := by
  rw [sendFla_holds]
  show (eq0 _).holds _ ↔ _
  simp only [eq0_holds, Poly.eval, List.map_cons, List.map_nil, List.sum_cons, List.sum_nil, X]
  generalize (ρ (shift k x) : Int) = a
  omega

theorem rel_holds (ρ : Valuation LIA) (k : Nat) : (sendFla rel k).holds ρ ↔
    0 < N ρ k ∧ 6 * N ρ k ≤ X ρ (k + 1) - X ρ k ∧ 0 ≤ X ρ k ∧ 6 ≤ X ρ (k + 1) := by
  rw [sendFla_holds]
  simp only [rel, Fla.conj, Fla.holds, pos_holds, ge_holds, Poly.eval, List.map_cons, List.map_nil, List.sum_cons, List.sum_nil, X, N,
    shift_next, and_true]
  generalize (ρ (shift k x) : Int) = a
  generalize (ρ (shift ((k + 1 : Nat) : Int) x) : Int) = b
  generalize (ρ (shift k (trlCounter 0)) : Int) = c
  omega

theorem clause_holds (ρ : Valuation LIA) (k : Nat) : (clause k).holds ρ ↔
    (6 ≤ X ρ (k + 1) - X ρ k ∧ 0 ≤ X ρ k ∧ 6 ≤ X ρ (k + 1) → 0 < I ρ k) := by
  simp only [clause, Fla.conj, Fla.holds, pos_holds, ge_holds, Poly.eval, List.map_cons, List.map_nil, List.sum_cons, List.sum_nil, X, I, shift_next, and_true]
  generalize (ρ (shift k x) : Int) = a
  generalize (ρ (shift ((k + 1 : Nat) : Int) x) : Int) = b
  generalize (ρ (shift k trlIdx) : Int) = c
  omega

/-- A level that knows the transition relation only. -/
theorem level_old {ρ : Valuation LIA} {k : Nat} (h : AllHold ρ (L0.asserted k)) :
    (X ρ k = 1 ∧ X ρ (k + 1) = 20) ∨ (0 ≤ X ρ k ∧ 2 * X ρ k + 6 ≤ X ρ (k + 1)) := by
  obtain ⟨i, r, h1, h2, -⟩ := (allHold_level.1 h).2.1
  match i, h1 with
  | 0, h1 =>
    cases h1
    exact (trans_holds ρ k).1 h2
  | i + 1, h1 => cases h1

/-- A level that knows both relations. -/
theorem level_new {ρ : Valuation LIA} {k : Nat} {cs : List (Fla LIA)} (h : AllHold ρ ((L2 cs).asserted k)) :
    (0 < k → I ρ k = 0 ∨ I ρ k ≠ I ρ (k - 1)) ∧ (∀ c ∈ cs, c.holds ρ) ∧
    ((I ρ k = 0 ∧ ((X ρ k = 1 ∧ X ρ (k + 1) = 20) ∨ (0 ≤ X ρ k ∧ 2 * X ρ k + 6 ≤ X ρ (k + 1)))) ∨
      (I ρ k = 1 ∧ 6 ≤ X ρ (k + 1) - X ρ k ∧ 0 ≤ X ρ k ∧ 6 ≤ X ρ (k + 1))) := by
  obtain ⟨h0, ⟨i, r, h1, h2, h3⟩, h4⟩ := allHold_level.1 h
  refine ⟨?_, h4, ?_⟩
  · intro hk
    rcases h0 with h0 | h0 | h0
    · omega
    · exact .inl h0
    · refine .inr fun e => h0 ?_
      rw [show (k : Int) - 1 = ((k - 1 : Nat) : Int) by omega]
      exact e
  · match i, h1, h3 with
    | 0, h1, h3 =>
      cases h1
      exact .inl ⟨h3, (trans_holds ρ k).1 h2⟩
    | 1, h1, h3 =>
      cases h1
      have := (rel_holds ρ k).1 h2
      exact .inr ⟨h3, by omega⟩
    | i + 2, h1, _ => cases h1

theorem refuted_unsat : ∀ fs ∈ refuted, ¬ SatList fs := by
  have hq : ∀ {ls : List TrlLevel} {k : Nat} {ρ : Valuation LIA}, AllHold ρ (trlStack sys ls ++ [sendFla sys.query k]) →
      AllHold ρ (trlStack sys ls) ∧ X ρ k = 7 := fun h =>
    ⟨fun f hf => h f (List.mem_append_left _ hf), (query_holds _ _).1 (h _ (by simp))⟩
  have hi : ∀ {ls : List TrlLevel} {ρ : Valuation LIA}, AllHold ρ (trlStack sys ls) →
      X ρ 0 = 1 ∧ ∀ (j : Nat) l, ls[j]? = some l → AllHold ρ (l.asserted j) := fun h => by
    obtain ⟨h1, h2⟩ := allHold_stack.1 h
    exact ⟨(init_holds _).1 h1, h2⟩
  intro fs hfs
  simp only [refuted, List.mem_cons, List.not_mem_nil, or_false] at hfs
  rcases hfs with rfl | rfl | rfl | rfl | rfl | rfl
  · rintro ⟨ρ, h⟩
    obtain ⟨h, e⟩ := hq (k := 0) h
    obtain ⟨h1, h2⟩ := hi h
    omega
  · rintro ⟨ρ, h⟩
    obtain ⟨h, e⟩ := hq (k := 1) h
    obtain ⟨h1, h2⟩ := hi h
    have := level_old (h2 0 L0 rfl)
    simp only [Nat.reduceAdd] at *
    omega
  · rintro ⟨ρ, h⟩
    obtain ⟨h, e⟩ := hq (k := 2) h
    obtain ⟨h1, h2⟩ := hi h
    have a := level_old (h2 0 L0 rfl)
    have b := level_old (h2 1 L0 rfl)
    simp only [Nat.reduceAdd] at *
    omega
  · rintro ⟨ρ, h⟩
    obtain ⟨h, e⟩ := hq (k := 2) h
    obtain ⟨h1, h2⟩ := hi h
    have a := level_old (h2 0 L0 rfl)
    have b := (level_new (k := 1) (cs := [clause 1]) (h2 1 L1 rfl)).2.2
    simp only [Nat.reduceAdd] at *
    omega
  · rintro ⟨ρ, h⟩
    obtain ⟨h, e⟩ := hq (k := 3) h
    obtain ⟨h1, h2⟩ := hi h
    have a := level_old (h2 0 L0 rfl)
    have b := (level_new (k := 1) (cs := [clause 1]) (h2 1 L1 rfl)).2.2
    have c := (level_new (k := 2) (cs := []) (h2 2 (L2 []) rfl)).2.2
    simp only [Nat.reduceAdd] at *
    omega
  · rintro ⟨ρ, h⟩
    obtain ⟨h1, h2⟩ := hi h
    have a := level_old (h2 0 L0 rfl)
    obtain ⟨b0, b1, b2⟩ := level_new (k := 1) (cs := [clause 1]) (h2 1 L1 rfl)
    obtain ⟨c0, c1, c2⟩ := level_new (k := 2) (cs := [clause 2]) (h2 2 (L2 [clause 2]) rfl)
    have b3 := (clause_holds ρ 1).1 (b1 _ (by simp))
    have c3 := (clause_holds ρ 2).1 (c1 _ (by simp))
    simp only [Nat.reduceAdd, show (2 : Nat) - 1 = 1 from rfl] at *
    have hx1 : 8 ≤ X ρ 1 := by omega
    have hi1 : I ρ 1 = 1 := by omega
    omega

theorem S_correct : S.Correct where
  sat fs h := by
    simp only [S] at h ⊢
    split at h
    · rename_i hs
      obtain ⟨ρ, hρ, ha⟩ := List.any_eq_true.1 hs
      cases hf : models.find? (fun ρ => fs.all fun f => decide (f.holds ρ)) with
      | none => exact absurd ha (List.find?_eq_none.1 hf ρ hρ)
      | some σ =>
        have := List.find?_some hf
        intro f hm
        exact of_decide_eq_true (List.all_eq_true.1 this f hm)
    · split at h <;> cases h
  unsat fs h := by
    simp only [S] at h
    split at h
    · cases h
    · split at h
      · rename_i hc
        exact refuted_unsat fs (List.contains_iff_mem.1 hc)
      · cases h

theorem ready : TrlReady sys where
  wf := ⟨by unfold TS.IsStateFormula; decide, by unfold TS.IsStateFormula; decide, by unfold TS.IsTransitionFormula; decide, by decide, by decide, by decide, by decide⟩
  sep := by constructor <;> decide
  idx := by decide
  cnt c := ⟨by simp [sys, x, trlCounter], by simp [sys]⟩

/-- The answer is right. -/
example (K : KeepOnly LIA) : trlSolve (V K) false sys 7 = .done (.safeInv .tt) ∧ sys.sem.Safe := by
  have h : trlSolve (V K) false sys 7 = .done (.safeInv .tt) := by rw [trlSolve, run]; rfl
  exact ⟨h, (C66_safe ready S_correct (intMbp_int _) h).2 rfl⟩

/-! ### Quantifier elimination -/

open Classical in
/-- Quantifier elimination that knows the answer if there is one. -/
noncomputable def keepC : KeepOnly LIA := fun f vs =>
  if h : ∃ g : Fla LIA, (∀ x ∈ g.vars, x ∈ vs) ∧ ∀ ρ : Valuation LIA, g.holds ρ ↔ ∃ ρ' : Valuation LIA, (∀ x ∈ vs, ρ' x = ρ x) ∧ f.holds ρ'
  then some h.choose else none

theorem keepC_ok : KeepInt keepC := by
  intro f vs g _ h
  unfold keepC at h
  split at h
  · rename_i he
    cases h
    exact he.choose_spec
  · cases h

theorem keepC_some {f : Fla LIA} {vs : List Var} {g : Fla LIA} (h1 : ∀ x ∈ g.vars, x ∈ vs)
    (h2 : ∀ ρ : Valuation LIA, g.holds ρ ↔ ∃ ρ' : Valuation LIA, (∀ x ∈ vs, ρ' x = ρ x) ∧ f.holds ρ') :
    ∃ g', keepC f vs = some g' ∧ (∀ x ∈ g'.vars, x ∈ vs) ∧ ∀ ρ : Valuation LIA, g'.holds ρ ↔ g.holds ρ := by
  have he : ∃ g : Fla LIA, (∀ x ∈ g.vars, x ∈ vs) ∧ ∀ ρ : Valuation LIA, g.holds ρ ↔ ∃ ρ' : Valuation LIA, (∀ x ∈ vs, ρ' x = ρ x) ∧ f.holds ρ' := ⟨g, h1, h2⟩
  refine ⟨he.choose, ?_, he.choose_spec.1, fun ρ => ?_⟩
  · unfold keepC; rw [dif_pos he]
  · rw [he.choose_spec.2, h2]

/-- One step of the transition relation or the learned relation. -/
def next (a b : Int) : Prop := (a = 1 ∧ b = 20) ∨ (0 ≤ a ∧ 2 * a + 6 ≤ b) ∨ (6 ≤ b - a ∧ 0 ≤ a ∧ 6 ≤ b)

theorem ext_holds (ρ : Valuation LIA) (k : Nat) : (sendFla (Fla.disj [sys.trans, rel]) k).holds ρ → next (X ρ k) (X ρ (k + 1)) := by
  intro h
  rw [sendFla_holds] at h
  obtain ⟨r, hr, h⟩ := Fla.holds_disj.1 h
  rw [← sendFla_holds] at h
  simp only [List.mem_cons, List.not_mem_nil, or_false] at hr
  rcases hr with rfl | rfl
  · have := (trans_holds ρ k).1 h; unfold next; omega
  · have := (rel_holds ρ k).1 h; unfold next; omega

def put (ρ : Valuation LIA) (k : Nat) (m : Int) : Valuation LIA := fun y =>
  if y = shift k x then m else if y = shift k (trlCounter 0) then (1 : Int) else ρ y

theorem put_next (ρ : Valuation LIA) (k : Nat) (m : Int) : put ρ k m (shift ((k + 1 : Nat) : Int) x) = ρ (shift ((k + 1 : Nat) : Int) x) := by
  unfold put
  rw [if_neg (by simp only [shift, x, Var.ver.injEq, true_and]; omega), if_neg (by simp [shift, x, trlCounter])]

theorem put_counter (ρ : Valuation LIA) (k : Nat) (m : Int) : put ρ k m (shift k (trlCounter 0)) = (1 : Int) := by
  unfold put
  rw [if_neg (by simp [shift, x, trlCounter]), if_pos rfl]

/-- The states after one step from `x = 1`, or from `x ≥ 7`. -/
theorem post_exists (k : Nat) (c : Int) {cur : Fla LIA} (m : Int) (hm : 0 ≤ m) (hcm : c = m + 6)
    (hc : ∀ ρ : Valuation LIA, cur.holds ρ → m ≤ X ρ k)
    (hc1 : ∀ ρ : Valuation LIA, X ρ k = m → cur.holds ρ) :
    ∃ g, keepC (.and cur (sendFla (Fla.disj [sys.trans, rel]) k)) (sys.varsAtStep (k + 1)) = some g ∧
      (∀ y ∈ g.vars, y ∈ sys.varsAtStep (k + 1)) ∧ ∀ ρ : Valuation LIA, g.holds ρ ↔ c ≤ X ρ (k + 1) := by
  have hg : ∀ ρ : Valuation LIA, (ge ⟨[(shift ((k + 1 : Nat) : Int) x, 1)], -c⟩).holds ρ ↔ c ≤ X ρ (k + 1) := by
    intro ρ
    simp only [ge_holds, Poly.eval, List.map_cons, List.map_nil, List.sum_cons, List.sum_nil, X]
    generalize (ρ (shift ((k + 1 : Nat) : Int) x) : Int) = a
    omega
  obtain ⟨g, h1, h2, h3⟩ := keepC_some (f := .and cur (sendFla (Fla.disj [sys.trans, rel]) k)) (vs := sys.varsAtStep (k + 1))
    (g := ge ⟨[(shift ((k + 1 : Nat) : Int) x, 1)], -c⟩)
    (by
      intro y hy
      have := Poly.toTm_vars (md := fun (a b : Int) => a % b) (p := ⟨[(shift ((k + 1 : Nat) : Int) x, 1)], -c⟩) (x := y) (by simpa [ge, MAtom.fla, Fla.vars, Tm.vars] using hy)
      have h0 : y = shift ((k + 1 : Nat) : Int) x := by
        by_contra hne
        exact this (by
          show (List.map Prod.snd (List.filter _ [(shift ((k + 1 : Nat) : Int) x, (1 : Int))])).sum = 0
          rw [List.filter_cons_of_neg (by simpa using Ne.symm hne)]
          rfl)
      rw [h0]
      simp [TS.varsAtStep, sys])
    (by
      intro ρ
      rw [hg]
      constructor
      · intro h
        refine ⟨put ρ k m, ?_, ?_⟩
        · intro y hy
          simp only [TS.varsAtStep, sys, List.map_cons, List.map_nil, List.mem_singleton] at hy
          subst hy
          exact put_next ρ k m
        · refine ⟨hc1 _ (if_pos rfl), ?_⟩
          rw [sendFla_holds]
          refine Fla.holds_disj.2 ⟨rel, by simp, ?_⟩
          rw [← sendFla_holds (ρ := put ρ k m), rel_holds]
          have e1 : X (put ρ k m) (k + 1) = X ρ (k + 1) := by
            unfold X
            exact put_next ρ k m
          have e2 : X (put ρ k m) k = m := if_pos rfl
          have e3 : N (put ρ k m) k = 1 := put_counter ρ k m
          rw [e1, e2, e3]
          omega
      · rintro ⟨ρ', ha, hb, he⟩
        have e : X ρ' (k + 1) = X ρ (k + 1) := ha _ (by simp [TS.varsAtStep, sys])
        have h1 := hc ρ' hb
        have h2 := ext_holds ρ' k he
        unfold next at h2
        omega)
  exact ⟨g, h1, h2, fun ρ => by rw [h3, hg]⟩

theorem invariant_exists (ts : TS LIA) (hst : ts.stateVars = sys.stateVars) (hi : ts.init = sys.init) (d : Nat) (hd : d = 1 ∨ d = 2) :
    ∃ inv, trlInvariant keepC ts [sys.trans, rel] d = some inv := by
  have hvs : ∀ k, ts.varsAtStep k = sys.varsAtStep k := fun k => by unfold TS.varsAtStep; rw [hst]
  obtain ⟨g1, h1, -, h3⟩ := post_exists 0 7 (cur := sys.init) 1 (by omega) (by omega) (fun ρ h => by have := (init_holds ρ).1 h; omega)
    (fun ρ h => (init_holds ρ).2 h)
  obtain ⟨g2, h4, -, -⟩ := post_exists 1 13 (cur := g1) 7 (by omega) (by omega) (fun ρ h => (h3 ρ).1 h) (fun ρ h => (h3 ρ).2 (by rw [h]))
  have hs : ∀ (o : Option (List (Fla LIA))), o.isSome → ∃ inv, (o.map fun gs => Fla.disj (ts.init :: gs)) = some inv := by
    intro o h
    obtain ⟨gs, rfl⟩ := Option.isSome_iff_exists.1 h
    exact ⟨_, rfl⟩
  refine hs _ ?_
  rcases hd with rfl | rfl
  · simp only [trlPosts, hvs, hi, h1, Option.bind_eq_bind, Option.bind_some, Option.pure_def]
    exact rfl
  · simp only [trlPosts, hvs, hi, h1, Option.bind_eq_bind, Option.bind_some, Option.pure_def]
    erw [h4]
    exact rfl

/-- The engine answers SAFE with a witness that the bad state `x = 7` satisfies, although solver, projection and quantifier elimination
are right; and so it is for every quantifier elimination. -/
theorem witness_gap : sys.sem.Bad [(7 : Int)] ∧ (∃ inv, trlSolve (V keepC) true sys 7 = .done (.safeInv inv)) ∧
    ∀ K, KeepInt K → ∀ inv, trlSolve (V K) true sys 7 = .done (.safeInv inv) → sys.den inv [(7 : Int)] := by
  refine ⟨⟨val [7] [] 1, by decide +kernel, rfl⟩, ?_, fun K hK inv h => ?_⟩
  · obtain ⟨inv, h⟩ := invariant_exists sys rfl rfl 2 (.inr rfl)
    refine ⟨inv, ?_⟩
    unfold trlSolve
    rw [run]
    show (Outcome.orThrow (trlInvariant keepC sys [sys.trans, rel] 2)).andThen _ = _
    rw [h]
    rfl
  · have hr := run K
    unfold trlSolve at h
    rw [hr] at h
    simp only [Outcome.andThen, if_true] at h
    have hinv : trlInvariant K sys final.relations (final.levels.length - 1) = some inv := by
      cases e : trlInvariant (V K).K sys final.relations (final.levels.length - 1) with
      | none => rw [e] at h; cases h
      | some i => rw [e] at h; cases h; exact e
    refine (C66_invariant ready S_correct (intMbp_int _) hr hK hinv _).2 ⟨1, by decide, [(1 : Int)], ?_, .snoc (.refl _) ⟨rel, by simp [final], ?_⟩⟩
    · exact ⟨val [1, 7] [] 1, by decide +kernel, rfl⟩
    · exact ⟨val [1, 7] [] 1, by decide +kernel, rfl, rfl⟩

/-! ### A run with a valid witness: the same system with another property and other models -/

namespace Good

/-- Is `x = 3` reachable? -/
def sys : TS LIA := { TrlEx.sys with query := eq0 ⟨[(x, 1)], -3⟩ }

def models : List (Valuation LIA) :=
  [val [1, 8, 22, 50] [0, 0, 0] 1, val [1, 8, 22, 50] [1, 0, 0] 1, val [8, 22] [] 1]

def M0 : TrlLevel := ⟨[sys.trans, rel], [clause 0]⟩

def refuted : List (List (Fla LIA)) :=
  [trlStack sys [] ++ [sendFla sys.query 0], trlStack sys [L0] ++ [sendFla sys.query 1],
   trlStack sys [M0] ++ [sendFla sys.query 1], trlStack sys [M0, L2 []] ++ [sendFla sys.query 2], trlStack sys [M0, L2 [clause 1]]]

def S : Smt LIA where
  check fs := if models.any (fun ρ => fs.all fun f => decide (f.holds ρ)) then .sat else if refuted.contains fs then .unsat else .unknown
  model fs := (models.find? (fun ρ => fs.all fun f => decide (f.holds ρ))).getD fun _ => (0 : Int)
  itp _ _ := .tt

def V (K : KeepOnly LIA) : TrlEnv := ⟨S, intMbp fun _ => false, K, id, fun _ => true⟩

def final : TrlState := ⟨[sys.trans, rel], [(clause 0, 0), (clause 1, 1)], [M0, L2 [clause 1]], 1⟩

theorem run0 : (match trlSearch (V fun _ _ => none) sys 6 (trlStart sys) with | .done (some st) => decide (st = final) | _ => false) = true := by
  decide +kernel

theorem run (K : KeepOnly LIA) : trlSearch (V K) sys 6 (trlStart sys) = .done (some final) := by
  have h : trlSearch (V fun _ _ => none) sys 6 (trlStart sys) = .done (some final) := by
    have := run0
    split at this
    · rename_i st e
      rw [e, of_decide_eq_true this]
    · cases this
  exact h

theorem query_holds (ρ : Valuation LIA) (k : Nat) : (sendFla sys.query k).holds ρ ↔ X ρ k = 3 := by
  rw [sendFla_holds]
  show (eq0 _).holds _ ↔ _
  simp only [eq0_holds, Poly.eval, List.map_cons, List.map_nil, List.sum_cons, List.sum_nil, X]
  generalize (ρ (shift k x) : Int) = a
  omega

theorem refuted_unsat : ∀ fs ∈ refuted, ¬ SatList fs := by
  have hq : ∀ {ls : List TrlLevel} {k : Nat} {ρ : Valuation LIA}, AllHold ρ (trlStack sys ls ++ [sendFla sys.query k]) →
      AllHold ρ (trlStack sys ls) ∧ X ρ k = 3 := fun h =>
    ⟨fun f hf => h f (List.mem_append_left _ hf), (query_holds _ _).1 (h _ (by simp))⟩
  have hi : ∀ {ls : List TrlLevel} {ρ : Valuation LIA}, AllHold ρ (trlStack sys ls) →
      X ρ 0 = 1 ∧ ∀ (j : Nat) l, ls[j]? = some l → AllHold ρ (l.asserted j) := fun h => by
    obtain ⟨h1, h2⟩ := allHold_stack.1 h
    exact ⟨(init_holds _).1 h1, h2⟩
  intro fs hfs
  simp only [refuted, List.mem_cons, List.not_mem_nil, or_false] at hfs
  rcases hfs with rfl | rfl | rfl | rfl | rfl
  · rintro ⟨ρ, h⟩
    obtain ⟨h, e⟩ := hq (k := 0) h
    obtain ⟨h1, h2⟩ := hi h
    omega
  · rintro ⟨ρ, h⟩
    obtain ⟨h, e⟩ := hq (k := 1) h
    obtain ⟨h1, h2⟩ := hi h
    have := level_old (h2 0 L0 rfl)
    simp only [Nat.reduceAdd] at *
    omega
  · rintro ⟨ρ, h⟩
    obtain ⟨h, e⟩ := hq (k := 1) h
    obtain ⟨h1, h2⟩ := hi h
    have a := (level_new (k := 0) (cs := [clause 0]) (h2 0 M0 rfl)).2.2
    simp only [Nat.reduceAdd] at *
    omega
  · rintro ⟨ρ, h⟩
    obtain ⟨h, e⟩ := hq (k := 2) h
    obtain ⟨h1, h2⟩ := hi h
    have a := (level_new (k := 0) (cs := [clause 0]) (h2 0 M0 rfl)).2.2
    have b := (level_new (k := 1) (cs := []) (h2 1 (L2 []) rfl)).2.2
    simp only [Nat.reduceAdd] at *
    omega
  · rintro ⟨ρ, h⟩
    obtain ⟨h1, h2⟩ := hi h
    obtain ⟨-, b1, b2⟩ := level_new (k := 0) (cs := [clause 0]) (h2 0 M0 rfl)
    obtain ⟨c0, c1, c2⟩ := level_new (k := 1) (cs := [clause 1]) (h2 1 (L2 [clause 1]) rfl)
    have b3 := (clause_holds ρ 0).1 (b1 _ (by simp))
    have c3 := (clause_holds ρ 1).1 (c1 _ (by simp))
    simp only [Nat.reduceAdd, show (1 : Nat) - 1 = 0 from rfl] at *
    have hi1 : I ρ 0 = 1 := by omega
    omega

theorem S_correct : S.Correct where
  sat fs h := by
    simp only [S] at h ⊢
    split at h
    · rename_i hs
      obtain ⟨ρ, hρ, ha⟩ := List.any_eq_true.1 hs
      cases hf : models.find? (fun ρ => fs.all fun f => decide (f.holds ρ)) with
      | none => exact absurd ha (List.find?_eq_none.1 hf ρ hρ)
      | some σ =>
        have := List.find?_some hf
        intro f hm
        exact of_decide_eq_true (List.all_eq_true.1 this f hm)
    · split at h <;> cases h
  unsat fs h := by
    simp only [S] at h
    split at h
    · cases h
    · split at h
      · rename_i hc
        exact refuted_unsat fs (List.contains_iff_mem.1 hc)
      · cases h

theorem ready : TrlReady sys where
  wf := ⟨by unfold TS.IsStateFormula; decide, by unfold TS.IsStateFormula; decide, by unfold TS.IsTransitionFormula; decide, by decide, by decide, by decide, by decide⟩
  sep := by constructor <;> decide
  idx := by decide
  cnt c := ⟨by simp [sys, TrlEx.sys, x, trlCounter], by simp [sys, TrlEx.sys]⟩

/-- All hypotheses of `C66_witness` hold for this run, and there is a witness. -/
example : ∃ inv, trlSolve (V keepC) true sys 6 = .done (.safeInv inv) ∧ sys.Over inv ∧ sys.sem.SafeInductive (sys.den inv) := by
  obtain ⟨inv, h⟩ := invariant_exists sys rfl rfl 1 (.inl rfl)
  refine ⟨inv, ?_, ?_⟩
  · unfold trlSolve
    rw [run]
    show (Outcome.orThrow (trlInvariant keepC sys [TrlEx.sys.trans, rel] 1)).andThen _ = _
    rw [h]
    rfl
  · have hw := C66_witness ready S_correct (intMbp_int _) (run keepC) (by unfold Saturated; decide +kernel : Saturated final) keepC_ok h
    exact ⟨hw.1 (by decide), hw.2⟩

end Good

/-! ### The hypotheses of `C66_total` -/

/-- Projection by substituting the values of the model. -/
def valueMbp (T : Theory) : Mbp T := fun f vs ρ => some (f.subst fun x => if x ∈ vs then .const (ρ x) else .var x)

theorem valueMbp_sound (T : Theory) : (valueMbp T).Sound := by
  intro f vs ρ p hf h
  simp only [valueMbp, Option.some.injEq] at h
  subst h
  refine ⟨?_, ?_, ?_⟩
  · rw [Fla.holds_subst]
    refine (Fla.holds_congr fun x _ => ?_).1 hf
    split <;> rfl
  · intro x hx
    obtain ⟨y, hy, hx⟩ := Fla.mem_vars_subst.1 hx
    split at hx
    · simp [Tm.vars] at hx
    · rename_i hn; simp [Tm.vars] at hx; subst hx; exact ⟨hy, hn⟩
  · intro ρ' h
    rw [Fla.holds_subst] at h
    refine ⟨_, fun x hx => ?_, h⟩
    simp [hx, Tm.eval]

noncomputable def oracle : TrlEnv := ⟨oracleSmt LIA, valueMbp LIA, keepC, id, fun _ => true⟩

example (fuel : Nat) : trlSolve oracle false sys fuel ≠ .thrown :=
  C66_total ready oracleSmt_correct oracleSmt_complete (fun f vs _ _ => valueMbp_sound LIA f vs) (fun _ _ _ _ => ⟨_, rfl⟩)
    ⟨fun _ _ => Iff.rfl, fun _ _ h => h⟩ fuel

theorem run_prefix : TrlInv sys ⟨[sys.trans], [], [L0, L0, L0], 0⟩ :=
  push_inv (push_inv (push_inv (start_inv ready) (refuted_unsat _ (by simp [refuted, trlStart]))) (refuted_unsat _ (by
    refine List.mem_cons_of_mem _ (List.mem_cons.2 (.inl rfl))))) (refuted_unsat _ (by
    refine List.mem_cons_of_mem _ (List.mem_cons_of_mem _ (List.mem_cons.2 (.inl rfl)))))

/-- `C66_progress` applies where the relation is learned. -/
example : ∃ tr st', trlTrace (V fun _ _ => none) sys [sys.trans] (val [1, 20, 46, 98, 202] [0, 0, 0, 0] 1) 2 = some tr ∧ getLoop tr = some ⟨1, 1⟩ ∧
    trlLearn (V fun _ _ => none) sys ⟨[sys.trans], [], [L0, L0, L0], 0⟩ tr (val [1, 20, 46, 98, 202] [0, 0, 0, 0] 1) ⟨1, 1⟩ = some st' ∧
    ∃ b, st'.blocks = [(b, 1)] ∧ st'.levels = [L0] ∧ ¬ b.holds (val [1, 20, 46, 98, 202] [0, 0, 0, 0] 1) := by
  have h : (match trlTrace (V fun _ _ => none) sys [sys.trans] (val [1, 20, 46, 98, 202] [0, 0, 0, 0] 1) 2 with
    | some tr => decide (getLoop tr = some ⟨1, 1⟩) &&
      (trlLearn (V fun _ _ => none) sys ⟨[sys.trans], [], [L0, L0, L0], 0⟩ tr (val [1, 20, 46, 98, 202] [0, 0, 0, 0] 1) ⟨1, 1⟩).isSome
    | none => false) = true := by decide +kernel
  split at h
  · rename_i tr htr
    simp only [Bool.and_eq_true, decide_eq_true_eq] at h
    obtain ⟨hl, h⟩ := h
    obtain ⟨st', hst⟩ := Option.isSome_iff_exists.1 h
    refine ⟨tr, st', htr, hl, hst, ?_⟩
    have hmodel : AllHold (val [1, 20, 46, 98, 202] [0, 0, 0, 0] 1) (trlStack sys [L0, L0, L0]) := by
      intro f hf
      have : ((trlStack sys [L0, L0, L0]).all fun f => decide (f.holds (val [1, 20, 46, 98, 202] [0, 0, 0, 0] 1))) = true := by decide +kernel
      exact of_decide_eq_true (List.all_eq_true.1 this f hf)
    exact C66_progress ready S_correct (intMbp_int _) run_prefix (by decide)
      (trace_spec ready (V := V fun _ _ => none) (intMbp_int _) run_prefix.levels hmodel rfl htr).2 hst (fun _ => rfl)
  · cases h

/-- The relation learned in the run, as `transitiveProjection` returns it, from the step from 20 to 46: `C66_transitive` applies to it. -/
example : transitiveProjection (V keepC) sys 0 (sendFla (.and (ge ⟨[(x, 1)], 0⟩) (ge ⟨[(x', 1), (x, -2)], -6⟩)) 1)
    (val [1, 20, 46] [] 1) ⟨1, 1⟩ ≠ none := by
  have : (transitiveProjection (V fun _ _ => none) sys 0 (sendFla (.and (ge ⟨[(x, 1)], 0⟩) (ge ⟨[(x', 1), (x, -2)], -6⟩)) 1)
    (val [1, 20, 46] [] 1) ⟨1, 1⟩).isSome = true := by decide +kernel
  intro h
  have h' : transitiveProjection (V fun _ _ => none) sys 0 (sendFla (.and (ge ⟨[(x, 1)], 0⟩) (ge ⟨[(x', 1), (x, -2)], -6⟩)) 1)
    (val [1, 20, 46] [] 1) ⟨1, 1⟩ = none := h
  rw [h'] at this
  cases this

end TrlEx
end Golem
