import Verif.Props.VmtLive

/-! Concrete files for C74, with an engine that is always right: a property that is true nowhere is `valid`, one that is true
everywhere is `unknown`. -/

namespace Golem
namespace Vmt
namespace LiveEx
open SExpr (SExp)
open Front (ofB)

/-- Integers with equality, comparison, sum and difference. -/
def M : VSem ctrTheory where
  num s := if s = "0".toList then some (0 : Int) else if s = "1".toList then some (1 : Int) else none
  leq | [a, b] => ofB (decide ((a : Int) ≤ b)) | _ => ctrTheory.vF
  plus | [a, b] => (a + b : Int) | _ => ctrTheory.vF
  neg a := (-a : Int)
  minus | [a, b] => (a - b : Int) | _ => ctrTheory.vF
  times _ := ctrTheory.vF

def L : VLogic ctrTheory where
  const s := if s = "0".toList then some (intConst 0) else if s = "1".toList then some (intConst 1) else none
  mkAnd | [a, b] => some (.ap3 IntSym.ite a (.ap3 IntSym.ite b (intConst 1) (intConst 0)) (intConst 0)) | _ => none
  mkOr | [a, b] => some (.ap3 IntSym.ite a (intConst 1) (.ap3 IntSym.ite b (intConst 1) (intConst 0))) | _ => none
  mkNot | [a] => some (.ap3 IntSym.ite a (intConst 0) (intConst 1)) | _ => none
  mkEq | [a, b] => some (.ap3 IntSym.ite (.ap2 IntSym.minus a b) (intConst 0) (intConst 1)) | _ => none
  mkLeq | [a, b] => some (.ap2 IntSym.geq b a) | _ => none
  mkPlus | [a, b] => some (.ap2 IntSym.plus a b) | _ => none
  mkNeg a := some (.ap1 IntSym.neg a)
  mkMinus | [a, b] => some (.ap2 IntSym.minus a b) | _ => none
  mkTimes _ := none

theorem L_ok : L.Ok M := by
  have hand : ∀ u w : Int, (if u ≠ 0 then (if w ≠ 0 then (1 : Int) else 0) else 0) =
      ofB (T := ctrTheory) (ctrTheory.truth u && ctrTheory.truth w) := by
    intro u w
    by_cases h : u = 0 <;> by_cases h' : w = 0 <;> simp [h, h', ofB]
  have hor : ∀ u w : Int, (if u ≠ 0 then (1 : Int) else if w ≠ 0 then (1 : Int) else 0) =
      ofB (T := ctrTheory) (ctrTheory.truth u || ctrTheory.truth w) := by
    intro u w
    by_cases h : u = 0 <;> by_cases h' : w = 0 <;> simp [h, h', ofB]
  have hnot : ∀ u : Int, (if u ≠ 0 then (0 : Int) else 1) = ofB (T := ctrTheory) (!ctrTheory.truth u) := by
    intro u
    by_cases h : u = 0 <;> simp [h, ofB]
  have heq : ∀ u w : Int, (if u - w ≠ 0 then (0 : Int) else 1) = ofB (T := ctrTheory) (decide (u = w)) := by
    intro u w
    by_cases h : u = w
    · subst h; simp [ofB]
    · have : u - w ≠ 0 := by omega
      simp [this, h, ofB]
  have hle : ∀ u w : Int, (if w ≥ u then (1 : Int) else 0) = ofB (T := ctrTheory) (decide (u ≤ w)) := by
    intro u w
    by_cases h : u ≤ w <;> simp [h, ofB]
  refine ⟨?_, ?_, ?_, ?_, ?_, ?_, ?_, ?_, ?_, ?_, ?_⟩
  · intro s t h
    simp only [L] at h
    by_cases h1 : s = "0".toList
    · rw [if_pos h1] at h
      cases h
      exact ⟨rfl, fun ρ => by simp only [M]; rw [if_pos h1]; rfl⟩
    · rw [if_neg h1] at h
      by_cases h2 : s = "1".toList
      · rw [if_pos h2] at h
        cases h
        exact ⟨rfl, fun ρ => by simp only [M]; rw [if_neg h1, if_pos h2]; rfl⟩
      · rw [if_neg h2] at h; cases h
  · intro ts t h ρ
    simp only [L] at h
    split at h
    · rename_i a b
      cases h
      refine (hand (a.eval ρ) (b.eval ρ)).trans ?_
      simp
    · cases h
  · intro ts t h ρ
    simp only [L] at h
    split at h
    · rename_i a b
      cases h
      refine (hor (a.eval ρ) (b.eval ρ)).trans ?_
      simp
    · cases h
  · intro ts t h
    simp only [L] at h
    split at h
    · rename_i a
      cases h; exact ⟨_, rfl, fun ρ => hnot (a.eval ρ)⟩
    · cases h
  · intro ts t h ρ
    simp only [L] at h
    split at h
    · rename_i a b
      cases h
      refine (heq (a.eval ρ) (b.eval ρ)).trans ?_
      simp [allEq]
    · cases h
  · intro ts t h ρ
    simp only [L] at h
    split at h
    · rename_i a b
      cases h
      exact hle (a.eval ρ) (b.eval ρ)
    · cases h
  · intro ts t h ρ
    simp only [L] at h
    split at h
    · cases h; rfl
    · cases h
  · intro a t h ρ
    cases h; rfl
  · intro ts t h ρ
    simp only [L] at h
    split at h
    · cases h; rfl
    · cases h
  · intro ts t h; cases h
  · intro ts t h x hx
    simp only [L] at h
    rcases h with h | h | h | h | h | h | h | h | ⟨a, rfl, h⟩
    case inr.inr.inr.inr.inr.inr.inr.inl => cases h
    case inr.inr.inr.inr.inr.inr.inr.inr =>
      cases h
      simpa [Tm.vars] using hx
    all_goals
      split at h
      · cases h
        simp only [Tm.vars, intConst, List.mem_append, List.not_mem_nil, or_false] at hx
        simp only [List.flatMap_cons, List.flatMap_nil, List.append_nil, List.mem_append]
        grind
      · cases h

def at_ (s : String) : SExp := .atom s.toList

/-- A system with one integer variable that keeps its value, and a property. -/
def file (p : SExp) : List SExp :=
  [.list [at_ "declare-fun", at_ "x##0", .list [], at_ "Int"],
   .list [at_ "declare-fun", at_ "x##1", .list [], at_ "Int"],
   .list [at_ "define-fun", at_ "sv", .list [], at_ "Int", .list [at_ "!", at_ "x##0", at_ ":next", at_ "x##1"]],
   .list [at_ "define-fun", at_ "in", .list [], at_ "Bool", .list [at_ "!", .list [at_ "=", at_ "x##0", at_ "0"], at_ ":init", at_ "true"]],
   .list [at_ "define-fun", at_ "tr", .list [], at_ "Bool", .list [at_ "!", .list [at_ "=", at_ "x##1", at_ "x##0"], at_ ":trans", at_ "true"]],
   .list [at_ "define-fun", at_ "p", .list [], at_ "Bool", .list [at_ "!", p, at_ ":live-property", at_ "0"]]]

def defs (p : SExp) : List Def :=
  [⟨"sv".toList, at_ "x##0", .next "x##1".toList⟩, ⟨"in".toList, .list [at_ "=", at_ "x##0", at_ "0"], .init⟩,
   ⟨"tr".toList, .list [at_ "=", at_ "x##1", at_ "x##0"], .trans⟩, ⟨"p".toList, p, .live "0".toList⟩]

def vars : List (Str × Str) := [("x##0".toList, "Int".toList), ("x##1".toList, "Int".toList)]

theorem problem (p : SExp) : Problem (file p) vars (defs p) (.live "0".toList) := by
  refine ⟨?_, rfl, rfl, rfl, ?_, ?_⟩
  · exact .cons .declare (.cons .declare (.cons (.define .next) (.cons (.define .initTrue) (.cons (.define .transTrue)
      (.cons (.define .live) .nil)))))
  · intro d hd
    simp only [defs, List.mem_cons, List.not_mem_nil, or_false] at hd
    rcases hd with rfl | rfl | rfl | rfl <;> simp
  · intro d hd y hy
    simp only [defs, List.mem_cons, List.not_mem_nil, or_false] at hd
    rcases hd with rfl | rfl | rfl | rfl <;> cases hy
    exact ⟨by simp [vars], "x##0".toList, rfl, by simp [vars]⟩

theorem pairs (p : SExp) : statePairs (defs p) = [("x##0".toList, "x##1".toList)] := by
  simp [statePairs, defs, at_]

theorem named (p : SExp) : Named vars (defs p) := by
  refine ⟨?_, by decide, by decide⟩
  intro q hq
  rw [pairs, List.mem_singleton] at hq
  subst hq
  decide +kernel

open Classical in
/-- An engine that is always right. -/
noncomputable def ideal : HEngine ctrTheory := fun R st =>
  .done ⟨if st.edges.Unsafe R then .unsafeAns else .safe, .none⟩

theorem ideal_right : CheckEngine.Right ideal := by
  intro R st r _ _ _ _ h
  cases h
  constructor
  · intro h
    by_cases hu : st.edges.Unsafe R
    · exact hu
    · simp [hu] at h
  · intro h hu
    simp [hu] at h

noncomputable def go (p : SExp) : List VLine × Outcome Unit :=
  runModel (fun _ => L) id (fun _ f => f) ideal (solveLiveness ideal) (file p)

def yes : SExp := .list [at_ "=", at_ "x##0", at_ "x##0"]
def no : SExp := .list [at_ "not", yes]

theorem accepted (p : SExp) (h : (((resolveAll ⟨[], []⟩ (file p)).bind (build fun _ => L)).bind counterClauses).isSome = true) :
    go p = ([.valid], .done ()) ∨ go p = ([.unknown], .done ()) := by
  obtain ⟨cs, hcs⟩ := Option.isSome_iff_exists.1 h
  obtain ⟨m, hm, hcs⟩ := Option.bind_eq_some_iff.1 hcs
  obtain ⟨-, hrun⟩ := runModel_live (rw := id) (E := fun _ f => f) (engine := ideal) (live := solveLiveness ideal) (M := M)
    (fun _ => L_ok) (problem p) hm
  rw [go, hrun, solveLiveness, hcs]
  simp only [ideal]
  by_cases hu : (initialGraph cs).edges.Unsafe (normalize cs).1.repr
  · simp [hu, livenessLine]
  · simp [hu, livenessLine]

theorem value_yes (env : Str → Option Int) (a : Int) (h : env "x##0".toList = some a) : value M env yes = some (1 : Int) := by
  simp only [yes, at_, value, values, h, Option.bind_some]
  unfold VSem.apply
  rw [if_neg (by decide), if_neg (by decide), if_neg (by decide), if_pos rfl]
  simp [allEq, ofB]

theorem value_no (env : Str → Option Int) (a : Int) (h : env "x##0".toList = some a) : value M env no = some (0 : Int) := by
  simp only [no, at_, value, values]
  rw [value_yes env a h]
  simp only [Option.bind_some]
  unfold VSem.apply
  rw [if_neg (by decide), if_neg (by decide), if_pos rfl]
  simp [ofB]

/-- The run on which `x` stays zero. -/
theorem infRun : InfRun M (vars.map Prod.fst) (defs yes) (fun _ _ => (0 : Int)) ∧
    InfRun M (vars.map Prod.fst) (defs no) (fun _ _ => (0 : Int)) := by
  have k1 : defValues M ((vars.map Prod.fst).contains ·) (fun _ => (0 : Int)) (defs yes) [] =
      some [(.next "x##1".toList, (0 : Int)), (.init, (1 : Int)), (.trans, (1 : Int)), (.live "0".toList, (1 : Int))] := by
    decide +kernel
  have k2 : defValues M ((vars.map Prod.fst).contains ·) (fun _ => (0 : Int)) (defs no) [] =
      some [(.next "x##1".toList, (0 : Int)), (.init, (1 : Int)), (.trans, (1 : Int)), (.live "0".toList, (0 : Int))] := by
    decide +kernel
  exact ⟨⟨⟨_, (1 : Int), k1, by simp, by decide⟩, fun _ => ⟨_, (1 : Int), k1, by simp, by decide⟩, fun _ => rfl⟩,
    ⟨⟨_, (1 : Int), k2, by simp, by decide⟩, fun _ => ⟨_, (1 : Int), k2, by simp, by decide⟩, fun _ => rfl⟩⟩

theorem no_never (ρ : Str → Int) : ¬ Holds M (vars.map Prod.fst) (defs no) (.live "0".toList) ρ := by
  rintro ⟨vs, v, h, hm, ht⟩
  simp only [defs, defValues] at h
  obtain ⟨v1, -, g1⟩ := Option.bind_eq_some_iff.1 h
  obtain ⟨l1, g2, e1⟩ := Option.bind_eq_some_iff.1 g1
  obtain ⟨v2, -, g3⟩ := Option.bind_eq_some_iff.1 g2
  obtain ⟨l2, g4, e2⟩ := Option.bind_eq_some_iff.1 g3
  obtain ⟨v3, -, g5⟩ := Option.bind_eq_some_iff.1 g4
  obtain ⟨l3, g6, e3⟩ := Option.bind_eq_some_iff.1 g5
  obtain ⟨v4, hv, e4⟩ := Option.bind_eq_some_iff.1 g6
  clear h g1 g2 g3 g4 g5 g6
  cases e4
  cases e3
  cases e2
  cases e1
  rw [value_no _ (ρ "x##0".toList) rfl] at hv
  cases hv
  simp only [List.mem_cons, Prod.mk.injEq, reduceCtorEq, false_and, List.not_mem_nil, or_false, false_or, true_and] at hm
  subst hm
  exact absurd ht (by decide)

/-- A property that is true nowhere is reported `valid`, although there is an infinite run, on which it is not true from some point
on. -/
theorem C74_example_valid : go no = ([.valid], .done ()) ∧ EventuallyNever M (vars.map Prod.fst) (defs no) (.live "0".toList) ∧
    ¬ EventuallyAlways M (vars.map Prod.fst) (defs no) (.live "0".toList) := by
  have hn : .unknown ∉ (go no).1 := C74_never (M := M) (fun _ => L_ok) ideal_right (problem no) (named no) no_never
  have hv : go no = ([.valid], .done ()) := by
    rcases accepted no (by decide +kernel) with h | h
    · exact h
    · exact absurd (by rw [h]; simp) hn
  have hv' : .valid ∈ (go no).1 := by rw [hv]; simp
  exact ⟨hv, C74_vmt_liveness (M := M) (fun _ => L_ok) ideal_right (problem no) (named no) hv',
    C74_wrong_sign (M := M) (fun _ => L_ok) ideal_right (problem no) (named no) hv' infRun.2⟩

theorem yes_visits (n : Nat) : Visits M (vars.map Prod.fst) (defs yes) (.live "0".toList) [(0 : Int)] [(0 : Int)] n := by
  have hp : ∀ k, Holds M (vars.map Prod.fst) (defs yes) (.live "0".toList) ((fun _ _ => (0 : Int) : Nat → Str → Int) k) := by
    intro k
    have k1 : defValues M ((vars.map Prod.fst).contains ·) (fun _ => (0 : Int)) (defs yes) [] =
        some [(.next "x##1".toList, (0 : Int)), (.init, (1 : Int)), (.trans, (1 : Int)), (.live "0".toList, (1 : Int))] := by
      decide +kernel
    exact ⟨_, (1 : Int), k1, by simp, by decide⟩
  have hr := infRun.1
  induction n with
  | zero => exact Visits.init (T := ctrTheory) (ρ := fun _ => (0 : Int)) hr.init
  | succ n ih => exact Visits.hit (T := ctrTheory) (ρ := fun _ => (0 : Int)) ih (hr.trans 0) (hp 0)

/-- A property that is true everywhere is reported `unknown`. -/
theorem C74_example_unknown : go yes = ([.unknown], .done ()) := by
  rcases accepted yes (by decide +kernel) with h | h
  · have hv : .valid ∈ (go yes).1 := by rw [h]; simp
    have ha : Above vars (defs yes) [(0 : Int)] 1 := by
      refine ⟨by decide, fun q hq _ => ?_⟩
      rw [pairs] at hq
      simp only [List.zip_cons_cons, List.zip_nil_right, List.mem_singleton] at hq
      subst hq
      exact ⟨by decide, by decide⟩
    have := (C74_counter (M := M) (rw := id) (E := fun _ f => f) (fun _ => L_ok) ideal_right (problem yes) (named yes)).1 hv
      [(0 : Int)] [(0 : Int)] 2 1 (yes_visits 2) ha
    omega
  · exact h

/-- The names of `C74_unversioned`: `x` has no version; `x1` becomes `x2`. -/
example : nextName "x".toList = none ∧ nextName "x.next".toList = none ∧ nextName "x1".toList = some "x2".toList ∧
    nextName "a##b##9".toList = some "a##b##10".toList := by decide +kernel

end LiveEx
end Vmt
end Golem
