import Mathlib.Data.Finset.Card
import Verif.Model.TrivialQE
import Verif.Lemmas.Smt
import Verif.Lemmas.Graph

/-!
C33: trivial quantifier elimination.
-/

namespace Golem
variable {T : Theory}

/-- All equations `x = t` of the map hold. -/
def SubstMap.Sat (m : SubstMap T) (ρ : Valuation T) : Prop := ∀ e ∈ m, ρ e.1 = e.2.eval ρ

/-- Valuations that respect sorts: `dom x` is the set of values of the sort of `x` (for instance the integers). -/
def WellSorted (dom : Var → T.Val → Prop) (ρ : Valuation T) : Prop := ∀ x, dom x (ρ x)

/-- Contract of OpenSMT's substitution extraction: the equations follow from the formula, keys are distinct variables of
the formula, values are over the other variables; `typed` is sort-correctness of an entry. -/
structure SubstOracle.Sound (O : SubstOracle T) (dom : Var → T.Val → Prop) (typed : Var → Tm T → Prop) : Prop where
  entails : ∀ f ρ, WellSorted dom ρ → f.holds ρ → SubstMap.Sat (O.retrieve f).2 ρ
  keys : ∀ f, ((O.retrieve f).2.map Prod.fst).Nodup
  keyVars : ∀ f, ∀ e ∈ (O.retrieve f).2, e.1 ∈ f.vars
  valVars : ∀ f, ∀ e ∈ (O.retrieve f).2, ∀ y ∈ e.2.vars, y ∈ f.vars ∧ y ∉ (O.retrieve f).2.map Prod.fst
  typed : ∀ f, ∀ e ∈ (O.retrieve f).2, typed e.1 e.2
  isTrue : ∀ f, (O.retrieve f).1 = some true → ∀ ρ, WellSorted dom ρ → SubstMap.Sat (O.retrieve f).2 ρ → f.holds ρ
  isFalse : ∀ f, (O.retrieve f).1 = some false → ∀ ρ, WellSorted dom ρ → ¬ f.holds ρ

/-- Contract of the arithmetic services, for sort-correct entries. -/
structure ArithOps.Sound (A : ArithOps T) (dom : Var → T.Val → Prop) (typed : Var → Tm T → Prop) : Prop where
  /-- a sort-correct term without fractional coefficients has values in the sort -/
  value : ∀ x t, typed x t → (A.isInt x && A.fractional t) = false → ∀ ρ, WellSorted dom ρ → dom x (t.eval ρ)
  /-- an equation between variables is between variables of the same sort -/
  var : ∀ x y, typed x (.var y) → ∀ a, dom x a → dom y a
  /-- sort-correct terms are closed under sort-correct substitution -/
  subst : ∀ x t (m : SubstMap T), typed x t → (∀ e ∈ m, typed e.1 e.2) → typed x (t.subst m.fn)
  shift : ∀ t v c, A.shifted t = some (v, c) → v ∈ t.vars ∧
    (∀ k (ρ : Valuation T), (ρ k = t.eval ρ ↔ ρ v = (A.minus (.var k) c).eval ρ)) ∧
    (∀ k, ∀ y ∈ (A.minus (.var k) c).vars, y = k) ∧
    (∀ k, typed k t → ∀ ρ : Valuation T, dom k (ρ k) → dom v ((A.minus (.var k) c).eval ρ))

theorem SubstMap.Sat.fn {m : SubstMap T} {ρ : Valuation T} (h : m.Sat ρ) (x : Var) : (m.fn x).eval ρ = ρ x := by
  unfold SubstMap.fn
  cases hf : m.find x with
  | none => rfl
  | some t => exact (h _ (SubstMap.find_some_mem hf)).symm

theorem SubstMap.Sat.subst {m : SubstMap T} {ρ : Valuation T} (h : m.Sat ρ) (f : Fla T) :
    (varSubstitute f m).holds ρ ↔ f.holds ρ := by
  rw [varSubstitute_holds, show (fun x => (m.fn x).eval ρ) = ρ from funext h.fn]

theorem SubstMap.Sat.tm {m : SubstMap T} {ρ : Valuation T} (h : m.Sat ρ) (t : Tm T) : (t.subst m.fn).eval ρ = t.eval ρ := by
  rw [Tm.eval_subst, show (fun x => (m.fn x).eval ρ) = ρ from funext h.fn]

theorem SubstMap.fn_notin {m : SubstMap T} {x : Var} (h : x ∉ m.map Prod.fst) : m.fn x = .var x := by
  unfold SubstMap.fn
  rw [SubstMap.find_none (x := x) (fun p hp e => h (by rw [← e]; exact List.mem_map_of_mem hp))]; rfl

theorem SubstMap.fn_in {m : SubstMap T} {x : Var} (h : x ∈ m.map Prod.fst) : (x, m.fn x) ∈ m := by
  obtain ⟨e, he, rfl⟩ := List.mem_map.1 h
  obtain ⟨t, ht⟩ := Option.isSome_iff_exists.1 (SubstMap.find_isSome_of_mem (x := e.1) (t := e.2) he)
  unfold SubstMap.fn
  rw [ht]; exact SubstMap.find_some_mem ht

/-- Values never mention their own or an earlier key. -/
def Triangular (m : SubstMap T) : Prop := m.Pairwise (fun a b => a.1 ∉ b.2.vars ∧ a.1 ≠ b.1) ∧ ∀ a ∈ m, a.1 ∉ a.2.vars

structure ExInv (dom : Var → T.Val → Prop) (typed : Var → Tm T → Prop) (f0 root : Fla T) (all : SubstMap T) : Prop where
  equiv : ∀ ρ, WellSorted dom ρ → (f0.holds ρ ↔ root.holds ρ ∧ all.Sat ρ)
  tri : Triangular all
  noKeys : ∀ e ∈ all, e.1 ∉ root.vars
  rootVars : ∀ x ∈ root.vars, x ∈ f0.vars
  allVars : ∀ e ∈ all, e.1 ∈ f0.vars ∧ ∀ y ∈ e.2.vars, y ∈ f0.vars
  typed : ∀ e ∈ all, typed e.1 e.2

/-- The root after looking at the verdict. -/
def rootOf (res : Option Bool) (root : Fla T) : Fla T :=
  match res with
  | none => root
  | some true => .tt
  | some false => .ff

theorem rootOf_vars (res : Option Bool) (root : Fla T) : ∀ x ∈ (rootOf res root).vars, x ∈ root.vars := by
  rcases res with _ | _ | _ <;> simp [rootOf, Fla.vars]

theorem addNew_eq {all new : SubstMap T} (h : ∀ e ∈ new, e.1 ∉ all.map Prod.fst) : addNewSubsts all new = all ++ new := by
  unfold addNewSubsts
  congr 1
  rw [List.filter_eq_self]
  intro e he
  rw [SubstMap.find_none (x := e.1) (fun p hp e' => h e he (by rw [← e']; exact List.mem_map_of_mem hp))]; rfl

theorem newRoot_vars {O : SubstOracle T} {dom : Var → T.Val → Prop} {typed : Var → Tm T → Prop} (hO : O.Sound dom typed)
    (root root1 : Fla T) (h1 : ∀ x ∈ root1.vars, x ∈ root.vars) :
    ∀ y ∈ (varSubstitute root1 (O.retrieve root).2).vars, y ∈ root.vars ∧ y ∉ (O.retrieve root).2.map Prod.fst := by
  intro y hy
  unfold varSubstitute at hy
  obtain ⟨x, hx, hyx⟩ := Fla.mem_vars_subst.1 hy
  by_cases hk : x ∈ (O.retrieve root).2.map Prod.fst
  · exact hO.valVars root _ (SubstMap.fn_in hk) y hyx
  · rw [SubstMap.fn_notin hk] at hyx
    simp [Tm.vars] at hyx; subst hyx
    exact ⟨h1 _ hx, hk⟩

theorem ExInv.step {O : SubstOracle T} {dom : Var → T.Val → Prop} {typed : Var → Tm T → Prop} (hO : O.Sound dom typed)
    {f0 root : Fla T} {all : SubstMap T} (h : ExInv dom typed f0 root all) :
    ExInv dom typed f0 (varSubstitute (rootOf (O.retrieve root).1 root) (O.retrieve root).2)
      (addNewSubsts all (O.retrieve root).2) := by
  have hdisj : ∀ e ∈ (O.retrieve root).2, e.1 ∉ all.map Prod.fst := by
    intro e he hm
    obtain ⟨e', he', heq⟩ := List.mem_map.1 hm
    exact h.noKeys e' he' (heq ▸ hO.keyVars root e he)
  rw [addNew_eq hdisj]
  have hnv := newRoot_vars hO root _ (rootOf_vars (O.retrieve root).1 root)
  refine ⟨?_, ⟨?_, ?_⟩, ?_, ?_, ?_, ?_⟩
  · intro ρ hρ
    rw [h.equiv ρ hρ]
    have key : root.holds ρ ↔ (rootOf (O.retrieve root).1 root).holds ρ ∧ SubstMap.Sat (O.retrieve root).2 ρ := by
      cases hres : (O.retrieve root).1 with
      | none => exact ⟨fun hr => ⟨hr, hO.entails _ _ hρ hr⟩, fun hr => hr.1⟩
      | some b =>
        cases b with
        | true => exact ⟨fun hr => ⟨trivial, hO.entails _ _ hρ hr⟩, fun hr => hO.isTrue _ hres _ hρ hr.2⟩
        | false => exact ⟨fun hr => absurd hr (hO.isFalse _ hres _ hρ), fun hr => hr.1.elim⟩
    rw [key]
    constructor
    · rintro ⟨⟨a, b⟩, c⟩
      refine ⟨b.subst _ |>.2 a, fun e he => ?_⟩
      rcases List.mem_append.1 he with he | he
      · exact c e he
      · exact b e he
    · rintro ⟨a, b⟩
      have b2 : SubstMap.Sat (O.retrieve root).2 ρ := fun e he => b e (List.mem_append_right _ he)
      exact ⟨⟨(b2.subst _).1 a, b2⟩, fun e he => b e (List.mem_append_left _ he)⟩
  · rw [List.pairwise_append]
    refine ⟨h.tri.1, ?_, ?_⟩
    · have hnd := hO.keys root
      rw [List.Nodup, List.pairwise_map] at hnd
      refine List.Pairwise.imp_of_mem ?_ hnd
      intro a b ha hb hab
      exact ⟨fun hv => (hO.valVars root b hb _ hv).2 (List.mem_map_of_mem ha), hab⟩
    · intro a ha b hb
      exact ⟨fun hv => h.noKeys a ha (hO.valVars root b hb _ hv).1, fun e => hdisj b hb (e ▸ List.mem_map_of_mem ha)⟩
  · intro a ha
    rcases List.mem_append.1 ha with ha | ha
    · exact h.tri.2 a ha
    · exact fun hv => (hO.valVars root a ha _ hv).2 (List.mem_map_of_mem ha)
  · intro e he hv
    rcases List.mem_append.1 he with he | he
    · exact h.noKeys e he (hnv _ hv).1
    · exact (hnv _ hv).2 (List.mem_map_of_mem he)
  · exact fun x hx => h.rootVars x (hnv x hx).1
  · intro e he
    rcases List.mem_append.1 he with he | he
    · exact h.allVars e he
    · exact ⟨h.rootVars _ (hO.keyVars root e he), fun y hy => h.rootVars _ (hO.valVars root e he y hy).1⟩
  · intro e he
    rcases List.mem_append.1 he with he | he
    · exact h.typed e he
    · exact hO.typed root e he

theorem extractLoop_unfold (O : SubstOracle T) (n : Nat) (root : Fla T) (all : SubstMap T) :
    extractLoop O (n + 1) root all =
      if varSubstitute (rootOf (O.retrieve root).1 root) (O.retrieve root).2 = rootOf (O.retrieve root).1 root then
        some (varSubstitute (rootOf (O.retrieve root).1 root) (O.retrieve root).2, addNewSubsts all (O.retrieve root).2)
      else extractLoop O n (varSubstitute (rootOf (O.retrieve root).1 root) (O.retrieve root).2)
        (addNewSubsts all (O.retrieve root).2) := by
  rw [extractLoop]
  rcases O.retrieve root with ⟨_ | _ | _, new⟩ <;> rfl

theorem extractLoop_inv {O : SubstOracle T} {dom : Var → T.Val → Prop} {typed : Var → Tm T → Prop} (hO : O.Sound dom typed)
    (n : Nat) {f0 root R : Fla T} {all S : SubstMap T} (h : ExInv dom typed f0 root all)
    (hr : extractLoop O n root all = some (R, S)) : ExInv dom typed f0 R S := by
  induction n generalizing root all with
  | zero => simp [extractLoop] at hr
  | succ n ih =>
    rw [extractLoop_unfold] at hr
    split at hr
    · simp only [Option.some.injEq, Prod.mk.injEq] at hr
      obtain ⟨rfl, rfl⟩ := hr
      exact h.step hO
    · exact ih (h.step hO) hr

theorem Tm.subst_id {t : Tm T} {σ : Var → Tm T} (h : ∀ x ∈ t.vars, σ x = .var x) : t.subst σ = t := by
  induction t with
  | var x => exact h x (by simp [Tm.vars])
  | const => rfl
  | ap1 f a iha => simp only [Tm.subst, iha (fun x hx => h x (by simpa [Tm.vars] using hx))]
  | ap2 f a b iha ihb =>
    simp only [Tm.subst, iha (fun x hx => h x (by simp [Tm.vars, hx])), ihb (fun x hx => h x (by simp [Tm.vars, hx]))]
  | ap3 f a b c iha ihb ihc =>
    simp only [Tm.subst, iha (fun x hx => h x (by simp [Tm.vars, hx])), ihb (fun x hx => h x (by simp [Tm.vars, hx])),
      ihc (fun x hx => h x (by simp [Tm.vars, hx]))]

theorem Fla.subst_id {f : Fla T} {σ : Var → Tm T} (h : ∀ x ∈ f.vars, σ x = .var x) : f.subst σ = f := by
  induction f with
  | tt => rfl
  | ff => rfl
  | atom t => simp only [Fla.subst, Tm.subst_id h]
  | eq a b =>
    simp only [Fla.subst, Tm.subst_id (t := a) (fun x hx => h x (by simp [Fla.vars, hx])),
      Tm.subst_id (t := b) (fun x hx => h x (by simp [Fla.vars, hx]))]
  | not f ih => simp only [Fla.subst, ih (fun x hx => h x (by simpa [Fla.vars] using hx))]
  | and f g ihf ihg =>
    simp only [Fla.subst, ihf (fun x hx => h x (by simp [Fla.vars, hx])), ihg (fun x hx => h x (by simp [Fla.vars, hx]))]
  | or f g ihf ihg =>
    simp only [Fla.subst, ihf (fun x hx => h x (by simp [Fla.vars, hx])), ihg (fun x hx => h x (by simp [Fla.vars, hx]))]
  | iff f g ihf ihg =>
    simp only [Fla.subst, ihf (fun x hx => h x (by simp [Fla.vars, hx])), ihg (fun x hx => h x (by simp [Fla.vars, hx]))]

/-- The loop terminates: each further iteration removes a variable. -/
theorem extractLoop_terminates {O : SubstOracle T} {dom : Var → T.Val → Prop} {typed : Var → Tm T → Prop}
    (hO : O.Sound dom typed) (n : Nat) (root : Fla T) (all : SubstMap T) (hn : root.vars.toFinset.card < n) :
    ∃ r, extractLoop O n root all = some r := by
  induction n generalizing root all with
  | zero => omega
  | succ n ih =>
    rw [extractLoop_unfold]
    split
    · exact ⟨_, rfl⟩
    · rename_i hne
      apply ih
      refine Nat.lt_of_lt_of_le (Finset.card_lt_card ?_) (Nat.le_of_lt_succ hn)
      have hnv := newRoot_vars hO root _ (rootOf_vars (O.retrieve root).1 root)
      rw [Finset.ssubset_iff_subset_ne]
      refine ⟨fun x hx => by simp only [List.mem_toFinset] at *; exact (hnv x hx).1, ?_⟩
      intro heq
      apply hne
      unfold varSubstitute
      apply Fla.subst_id
      intro x hx
      apply SubstMap.fn_notin
      intro hk
      have hx' : x ∈ root.vars := rootOf_vars _ _ x hx
      have : x ∈ (varSubstitute (rootOf (O.retrieve root).1 root) (O.retrieve root).2).vars.toFinset := by
        rw [heq]; simpa using hx'
      exact (hnv x (by simpa using this)).2 hk

/-! ### Closure -/

theorem closeSubsts_keys (m : SubstMap T) : (closeSubsts m).map Prod.fst = m.map Prod.fst := by
  induction m with
  | nil => rfl
  | cons e m ih => obtain ⟨x, t⟩ := e; simp [closeSubsts, ih]

theorem closeSubsts_vars {P : Var → Prop} (m : SubstMap T) (h : ∀ e ∈ m, ∀ y ∈ e.2.vars, P y) :
    ∀ e ∈ closeSubsts m, ∀ y ∈ e.2.vars, P y := by
  induction m with
  | nil => simp [closeSubsts]
  | cons e m ih =>
    obtain ⟨x, t⟩ := e
    have ih := ih fun e he => h e (by simp [he])
    intro e he y hy
    simp only [closeSubsts, List.mem_cons] at he
    rcases he with rfl | he
    · simp only at hy
      obtain ⟨z, hz, hyz⟩ := Tm.mem_vars_subst.1 hy
      by_cases hk : z ∈ (closeSubsts m).map Prod.fst
      · exact ih _ (SubstMap.fn_in hk) y hyz
      · rw [SubstMap.fn_notin hk] at hyz
        simp [Tm.vars] at hyz; subst hyz
        exact h (x, t) (by simp) _ hz
    · exact ih e he y hy

theorem closeSubsts_closed {m : SubstMap T} (h : Triangular m) :
    ∀ e ∈ closeSubsts m, ∀ y ∈ e.2.vars, y ∉ m.map Prod.fst := by
  induction m with
  | nil => simp [closeSubsts]
  | cons e m ih =>
    obtain ⟨x, t⟩ := e
    have ht := List.pairwise_cons.1 h.1
    have ih := ih ⟨ht.2, fun a ha => h.2 a (by simp [ha])⟩
    have hx : ∀ e ∈ closeSubsts m, ∀ y ∈ e.2.vars, y ≠ x :=
      closeSubsts_vars m (P := (· ≠ x)) fun e he y hy hyx => (ht.1 e he).1 (hyx ▸ hy)
    intro e he y hy
    simp only [List.map_cons, List.mem_cons, not_or]
    simp only [closeSubsts, List.mem_cons] at he
    rcases he with rfl | he
    · simp only at hy
      obtain ⟨z, hz, hyz⟩ := Tm.mem_vars_subst.1 hy
      by_cases hk : z ∈ (closeSubsts m).map Prod.fst
      · exact ⟨hx _ (SubstMap.fn_in hk) y hyz, ih _ (SubstMap.fn_in hk) y hyz⟩
      · rw [SubstMap.fn_notin hk] at hyz
        simp [Tm.vars] at hyz; subst hyz
        refine ⟨fun hyx => h.2 (x, t) (by simp) (hyx ▸ hz), ?_⟩
        rw [closeSubsts_keys] at hk; exact hk
    · exact ⟨hx e he y hy, ih e he y hy⟩

theorem closeSubsts_sat {m : SubstMap T} {ρ : Valuation T} : (closeSubsts m).Sat ρ ↔ m.Sat ρ := by
  induction m with
  | nil => exact Iff.rfl
  | cons e m ih =>
    obtain ⟨x, t⟩ := e
    simp only [SubstMap.Sat, closeSubsts, List.mem_cons, forall_eq_or_imp] at ih ⊢
    constructor
    · rintro ⟨a, b⟩
      refine ⟨?_, ih.1 b⟩
      rw [a]; exact SubstMap.Sat.tm (m := closeSubsts m) b t
    · rintro ⟨a, b⟩
      refine ⟨?_, ih.2 b⟩
      rw [a]; exact (SubstMap.Sat.tm (m := closeSubsts m) (ih.2 b) t).symm

theorem closeSubsts_typed {A : ArithOps T} {dom : Var → T.Val → Prop} {typed : Var → Tm T → Prop} (hA : A.Sound dom typed)
    {m : SubstMap T} (h : ∀ e ∈ m, typed e.1 e.2) : ∀ e ∈ closeSubsts m, typed e.1 e.2 := by
  induction m with
  | nil => simp [closeSubsts]
  | cons e m ih =>
    obtain ⟨x, t⟩ := e
    have ih := ih fun e he => h e (by simp [he])
    intro e he
    simp only [closeSubsts, List.mem_cons] at he
    rcases he with rfl | he
    · exact hA.subst _ _ _ (h (x, t) (by simp)) ih
    · exact ih e he

/-! ### The loop over the keys -/

/-- What happened to an entry. -/
inductive Fate (A : ArithOps T) (dom : Var → T.Val → Prop) (keep : Var → Bool) (reapply : SubstMap T)
    (restore : List (Fla T)) (e : Var × Tm T) : Prop
  | restored (h : Fla.eq (.var e.1) e.2 ∈ restore)
  | dropped (h1 : keep e.1 = false) (h2 : (A.isInt e.1 && A.fractional e.2) = false)
  | reverted (v : Var) (s : Tm T) (hm : (v, s) ∈ reapply) (hk : keep e.1 = true)
      (hiff : ∀ ρ : Valuation T, (ρ e.1 = e.2.eval ρ ↔ ρ v = s.eval ρ)) (hs : ∀ y ∈ s.vars, y = e.1)

structure ElimInv (A : ArithOps T) (dom : Var → T.Val → Prop) (keep : Var → Bool) (P : SubstMap T)
    (st : SubstMap T × List (Fla T)) : Prop where
  nodup : (st.1.map Prod.fst).Nodup
  origin : ∀ p ∈ st.1, keep p.1 = false ∧ ∃ e ∈ P, keep e.1 = true ∧ p.1 ∈ e.2.vars ∧
    (∀ ρ : Valuation T, (ρ e.1 = e.2.eval ρ ↔ ρ p.1 = p.2.eval ρ)) ∧ (∀ y ∈ p.2.vars, y = e.1) ∧
    ∀ ρ : Valuation T, dom e.1 (ρ e.1) → dom p.1 (p.2.eval ρ)
  restore : ∀ f ∈ st.2, ∃ e ∈ P, f = .eq (.var e.1) e.2
  fate : ∀ e ∈ P, Fate A dom keep st.1 st.2 e

theorem Fate.mono {A : ArithOps T} {dom : Var → T.Val → Prop} {keep : Var → Bool} {r r' : SubstMap T}
    {s s' : List (Fla T)} {e : Var × Tm T} (h : Fate A dom keep r s e) (hr : ∀ p ∈ r, p ∈ r') (hs : ∀ f ∈ s, f ∈ s') :
    Fate A dom keep r' s' e := by
  cases h with
  | restored h => exact .restored (hs _ h)
  | dropped h1 h2 => exact .dropped h1 h2
  | reverted v s hm hk hi hv => exact .reverted v s (hr _ hm) hk hi hv

theorem ElimInv.addRestore {A : ArithOps T} {dom : Var → T.Val → Prop} {keep : Var → Bool} {P : SubstMap T}
    {r : SubstMap T} {s : List (Fla T)} (h : ElimInv A dom keep P (r, s)) (e : Var × Tm T) :
    ElimInv A dom keep (P ++ [e]) (r, s ++ [.eq (.var e.1) e.2]) := by
  refine ⟨h.nodup, ?_, ?_, ?_⟩
  · intro p hp
    obtain ⟨h1, e', he', h2⟩ := h.origin p hp
    exact ⟨h1, e', by simp [he'], h2⟩
  · intro f hf
    rcases List.mem_append.1 hf with hf | hf
    · obtain ⟨e', he', h2⟩ := h.restore f hf; exact ⟨e', by simp [he'], h2⟩
    · simp at hf; exact ⟨e, by simp, hf⟩
  · intro e' he'
    rcases List.mem_append.1 he' with he' | he'
    · exact (h.fate e' he').mono (fun _ h => h) (fun _ h => by simp [h])
    · simp at he'; subst he'; exact .restored (by simp)

theorem ElimInv.addRevert {A : ArithOps T} {dom : Var → T.Val → Prop} {keep : Var → Bool} {P : SubstMap T}
    {r : SubstMap T} {s : List (Fla T)} (h : ElimInv A dom keep P (r, s)) (e : Var × Tm T) (v : Var) (t : Tm T)
    (hk : keep e.1 = true) (hv : keep v = false) (hf : (r.find v).isNone = true) (hvv : v ∈ e.2.vars)
    (hiff : ∀ ρ : Valuation T, (ρ e.1 = e.2.eval ρ ↔ ρ v = t.eval ρ)) (ht : ∀ y ∈ t.vars, y = e.1)
    (hd : ∀ ρ : Valuation T, dom e.1 (ρ e.1) → dom v (t.eval ρ)) :
    ElimInv A dom keep (P ++ [e]) (r ++ [(v, t)], s) := by
  refine ⟨?_, ?_, ?_, ?_⟩
  · rw [List.map_append, List.nodup_append]
    refine ⟨h.nodup, by simp, ?_⟩
    intro a ha b hb hab
    simp at hb; subst hb; subst hab
    obtain ⟨p, hp, rfl⟩ := List.mem_map.1 ha
    have := SubstMap.find_isSome_of_mem (x := p.1) (t := p.2) hp
    rw [Option.isNone_iff_eq_none] at hf; rw [hf] at this; simp at this
  · intro p hp
    rcases List.mem_append.1 hp with hp | hp
    · obtain ⟨h1, e', he', h2⟩ := h.origin p hp
      exact ⟨h1, e', by simp [he'], h2⟩
    · simp at hp; subst hp
      exact ⟨hv, e, by simp, hk, hvv, hiff, ht, hd⟩
  · intro f hf
    obtain ⟨e', he', h2⟩ := h.restore f hf; exact ⟨e', by simp [he'], h2⟩
  · intro e' he'
    rcases List.mem_append.1 he' with he' | he'
    · exact (h.fate e' he').mono (fun _ h => by simp [h]) (fun _ h => h)
    · simp at he'; subst he'; exact .reverted v t (by simp) hk hiff ht

theorem ElimInv.addShift {A : ArithOps T} {dom : Var → T.Val → Prop} {typed : Var → Tm T → Prop} (hA : A.Sound dom typed)
    {keep : Var → Bool} {P : SubstMap T} {r : SubstMap T} {s : List (Fla T)} (h : ElimInv A dom keep P (r, s))
    (e : Var × Tm T) (hk : keep e.1 = true) (ht : typed e.1 e.2) :
    ElimInv A dom keep (P ++ [e])
      (match A.shifted e.2 with
        | some (v, c) => if !keep v && (r.find v).isNone then (r ++ [(v, A.minus (.var e.1) c)], s)
          else (r, s ++ [.eq (.var e.1) e.2])
        | none => (r, s ++ [.eq (.var e.1) e.2])) := by
  split
  · rename_i v c hs
    split
    · rename_i hc
      simp only [Bool.and_eq_true, Bool.not_eq_true'] at hc
      obtain ⟨a1, a2, a3, a4⟩ := hA.shift _ _ _ hs
      exact h.addRevert e v _ hk hc.1 hc.2 a1 (a2 e.1) (a3 e.1) (a4 e.1 ht)
    · exact h.addRestore e
  · exact h.addRestore e

theorem ElimInv.step {A : ArithOps T} {dom : Var → T.Val → Prop} {typed : Var → Tm T → Prop} (hA : A.Sound dom typed)
    {keep : Var → Bool} {P : SubstMap T} {st : SubstMap T × List (Fla T)} (h : ElimInv A dom keep P st) (e : Var × Tm T)
    (ht : typed e.1 e.2) : ElimInv A dom keep (P ++ [e]) (elimStep A keep st e) := by
  obtain ⟨r, s⟩ := st
  unfold elimStep
  simp only
  split
  · rename_i hk
    split
    · rename_i v hv
      split
      · rename_i hc
        simp only [Bool.and_eq_true, Bool.not_eq_true'] at hc
        refine h.addRevert e v (.var e.1) hk hc.1 hc.2 (by rw [hv]; simp [Tm.vars]) ?_ (by simp [Tm.vars]) ?_
        · intro ρ; rw [hv]; simp [Tm.eval, eq_comm]
        · intro ρ hd; exact hA.var _ _ (hv ▸ ht) _ hd
      · exact h.addShift hA e hk ht
    · exact h.addShift hA e hk ht
  · rename_i hk
    simp only [Bool.not_eq_true] at hk
    split
    · exact h.addRestore e
    · rename_i hfr
      refine ⟨h.nodup, ?_, ?_, ?_⟩
      · intro p hp
        obtain ⟨h1, e', he', h2⟩ := h.origin p hp
        exact ⟨h1, e', by simp [he'], h2⟩
      · intro f hf
        obtain ⟨e', he', h2⟩ := h.restore f hf; exact ⟨e', by simp [he'], h2⟩
      · intro e' he'
        rcases List.mem_append.1 he' with he' | he'
        · exact h.fate e' he'
        · simp at he'; subst he'; exact .dropped hk (by simpa using hfr)

theorem elimFold_inv {A : ArithOps T} {dom : Var → T.Val → Prop} {typed : Var → Tm T → Prop} (hA : A.Sound dom typed)
    {keep : Var → Bool} (Q P : SubstMap T) (st : SubstMap T × List (Fla T)) (h : ElimInv A dom keep P st)
    (ht : ∀ e ∈ Q, typed e.1 e.2) : ElimInv A dom keep (P ++ Q) (Q.foldl (elimStep A keep) st) := by
  induction Q generalizing P st with
  | nil => simpa using h
  | cons e Q ih =>
    rw [List.foldl_cons]
    have := ih (P ++ [e]) _ (h.step hA e (ht e (by simp))) fun e he => ht e (by simp [he])
    simpa using this

/-- C33. Trivial quantifier elimination is exact on the kept variables: a (sort-respecting) valuation of the kept
variables extends to one satisfying the input iff it extends to one satisfying the output. Moreover the input entails the
output and no new variables appear. -/
theorem C33_eliminate_exact (O : SubstOracle T) (A : ArithOps T) (dom : Var → T.Val → Prop) (typed : Var → Tm T → Prop)
    (hO : O.Sound dom typed) (hA : A.Sound dom typed) (fuel : Nat) (keep : Var → Bool) (f g : Fla T)
    (h : tryEliminate O A fuel keep f = some g) :
    (∀ ρ, WellSorted dom ρ → f.holds ρ → g.holds ρ) ∧
    (∀ ρ, WellSorted dom ρ → g.holds ρ →
      ∃ ρ', WellSorted dom ρ' ∧ (∀ x, keep x = true → ρ' x = ρ x) ∧ f.holds ρ') ∧
    (∀ x ∈ g.vars, x ∈ f.vars) := by
  unfold tryEliminate at h
  simp only [Option.bind_eq_bind, Option.bind_eq_some_iff] at h
  obtain ⟨⟨R, S⟩, hex, hg⟩ := h
  simp only at hg
  have hI : ExInv dom typed f R S := extractLoop_inv hO fuel
    ⟨fun ρ _ => ⟨fun h => ⟨h, by intro e he; simp at he⟩, fun h => h.1⟩, ⟨List.Pairwise.nil, by simp⟩, by simp,
      fun _ h => h, by simp, by simp⟩ hex
  have hE := elimFold_inv hA (keep := keep) (closeSubsts S) [] ([], [])
    ⟨by simp, by simp, by simp, by simp⟩ (closeSubsts_typed hA hI.typed)
  rw [List.nil_append] at hE
  revert hg hE
  generalize (closeSubsts S).foldl (elimStep A keep) ([], []) = st
  obtain ⟨r, s⟩ := st
  intro hg hE
  simp only [Option.pure_def, Option.some.injEq] at hg
  have hg' : ∀ ρ, g.holds ρ ↔ (varSubstitute (Fla.conj (s ++ [R])) r).holds ρ := by
    intro ρ
    have h1 : ∀ ρ', (if s.isEmpty = true then R else Fla.conj (s ++ [R])).holds ρ' ↔ (Fla.conj (s ++ [R])).holds ρ' := by
      intro ρ'
      split
      · rename_i hs; simp at hs; subst hs; simp
      · exact Iff.rfl
    rw [← hg]
    split
    · rename_i hr; simp at hr; subst hr
      rw [h1, SubstMap.Sat.subst (m := []) (by intro e he; simp at he)]
    · rw [varSubstitute_holds, varSubstitute_holds, h1]
  have hclosed := closeSubsts_closed hI.tri
  have hkeys := closeSubsts_keys S
  have hnodup : ((closeSubsts S).map Prod.fst).Nodup := by
    rw [hkeys, List.Nodup, List.pairwise_map]
    exact hI.tri.1.imp fun h => h.2
  have hinj : ∀ e ∈ closeSubsts S, ∀ e' ∈ closeSubsts S, e.1 = e'.1 → e = e' := by
    intro e he e' he' hee
    obtain ⟨x, t⟩ := e
    obtain ⟨x', t'⟩ := e'
    simp only at hee; subst hee
    rw [← SubstMap.fn_of_mem hnodup he, ← SubstMap.fn_of_mem hnodup he']
  refine ⟨?_, ?_, ?_⟩
  · intro ρ hρ hf
    obtain ⟨hR, hS⟩ := (hI.equiv ρ hρ).1 hf
    have hC := closeSubsts_sat.2 hS
    rw [hg']
    have hr : SubstMap.Sat r ρ := by
      intro p hp
      obtain ⟨_, e, he, _, _, hiff, _⟩ := hE.origin p hp
      exact (hiff ρ).1 (hC e he)
    rw [hr.subst, Fla.holds_conj]
    intro x hx
    rcases List.mem_append.1 hx with hx | hx
    · obtain ⟨e, he, rfl⟩ := hE.restore x hx
      exact hC e he
    · simp at hx; subst hx; exact hR
  · intro ρ hρ hgρ
    rw [hg', varSubstitute_holds, Fla.holds_conj] at hgρ
    let ρ1 : Valuation T := fun x => (r.fn x).eval ρ
    have hρ1 : ∀ f ∈ s ++ [R], f.holds ρ1 := hgρ
    have hkeep1 : ∀ x, keep x = true → ρ1 x = ρ x := by
      intro x hx
      show (r.fn x).eval ρ = ρ x
      rw [SubstMap.fn_notin]
      · rfl
      · intro hm
        obtain ⟨p, hp, rfl⟩ := List.mem_map.1 hm
        rw [(hE.origin p hp).1] at hx; simp at hx
    have hrev : ∀ p ∈ r, ρ1 p.1 = p.2.eval ρ1 := by
      intro p hp
      have hfn : r.fn p.1 = p.2 := SubstMap.fn_of_mem hE.nodup hp
      show (r.fn p.1).eval ρ = _
      rw [hfn]
      obtain ⟨_, e, he, hk, _, _, hs, _⟩ := hE.origin p hp
      exact Tm.eval_congr fun y hy => by rw [hs y hy]; exact (hkeep1 _ hk).symm
    have hws1 : WellSorted dom ρ1 := by
      intro x
      show dom x ((r.fn x).eval ρ)
      by_cases hm : x ∈ r.map Prod.fst
      · have hin := SubstMap.fn_in hm
        obtain ⟨_, e, he, hk, _, _, hs, hd⟩ := hE.origin _ hin
        exact hd ρ (hρ e.1)
      · rw [SubstMap.fn_notin hm]; exact hρ x
    let isDropped : Var × Tm T → Bool := fun e => !keep e.1 && !(A.isInt e.1 && A.fractional e.2)
    let C := (closeSubsts S).filter isDropped
    let ρ2 : Valuation T := fun x => (SubstMap.fn C x).eval ρ1
    have hCsub : ∀ e ∈ C, e ∈ closeSubsts S ∧ isDropped e = true := fun e he => List.mem_filter.1 he
    have hnon : ∀ x, x ∉ S.map Prod.fst → ρ2 x = ρ1 x := by
      intro x hx
      show (SubstMap.fn C x).eval ρ1 = _
      rw [SubstMap.fn_notin]
      · rfl
      · intro hm
        obtain ⟨e, he, rfl⟩ := List.mem_map.1 hm
        exact hx (hkeys ▸ List.mem_map_of_mem (hCsub e he).1)
    have hkeep2 : ∀ x, keep x = true → ρ2 x = ρ1 x := by
      intro x hx
      show (SubstMap.fn C x).eval ρ1 = _
      rw [SubstMap.fn_notin]
      · rfl
      · intro hm
        obtain ⟨e, he, rfl⟩ := List.mem_map.1 hm
        have := (hCsub e he).2
        simp [isDropped, hx] at this
    have hval : ∀ e ∈ closeSubsts S, e.2.eval ρ2 = e.2.eval ρ1 := fun e he =>
      Tm.eval_congr fun y hy => hnon y (hclosed e he y hy)
    have hdrop : ∀ e ∈ C, ρ2 e.1 = e.2.eval ρ2 := by
      intro e he
      show (SubstMap.fn C e.1).eval ρ1 = _
      have h1 : (e.1, SubstMap.fn C e.1) ∈ C := SubstMap.fn_in (List.mem_map_of_mem he)
      have h2 := hinj _ (hCsub _ h1).1 _ (hCsub _ he).1 rfl
      rw [hval e (hCsub e he).1]
      rw [show SubstMap.fn C e.1 = e.2 from congrArg Prod.snd h2]
    refine ⟨ρ2, ?_, fun x hx => (hkeep2 x hx).trans (hkeep1 x hx), ?_⟩
    · intro x
      by_cases hm : x ∈ C.map Prod.fst
      · have hin := SubstMap.fn_in hm
        show dom x ((SubstMap.fn C x).eval ρ1)
        have h2 := (hCsub _ hin).2
        simp only [isDropped, Bool.and_eq_true, Bool.not_eq_true'] at h2
        exact hA.value x _ (closeSubsts_typed hA hI.typed _ (hCsub _ hin).1) h2.2 ρ1 hws1
      · show dom x ((SubstMap.fn C x).eval ρ1)
        rw [SubstMap.fn_notin hm]; exact hws1 x
    · have hws2 : WellSorted dom ρ2 := by
        intro x
        by_cases hm : x ∈ C.map Prod.fst
        · have hin := SubstMap.fn_in hm
          show dom x ((SubstMap.fn C x).eval ρ1)
          have h2 := (hCsub _ hin).2
          simp only [isDropped, Bool.and_eq_true, Bool.not_eq_true'] at h2
          exact hA.value x _ (closeSubsts_typed hA hI.typed _ (hCsub _ hin).1) h2.2 ρ1 hws1
        · show dom x ((SubstMap.fn C x).eval ρ1)
          rw [SubstMap.fn_notin hm]; exact hws1 x
      rw [hI.equiv ρ2 hws2]
      constructor
      · have hR1 : R.holds ρ1 := hρ1 R (by simp)
        refine (Fla.holds_congr fun x hx => ?_).2 hR1
        refine hnon x fun hm => ?_
        obtain ⟨e, he, rfl⟩ := List.mem_map.1 hm
        exact hI.noKeys e he hx
      · rw [← closeSubsts_sat]
        intro e he
        by_cases hd : isDropped e = true
        · exact hdrop e (List.mem_filter.2 ⟨he, hd⟩)
        · have hne : ρ2 e.1 = ρ1 e.1 := by
            show (SubstMap.fn C e.1).eval ρ1 = _
            rw [SubstMap.fn_notin]
            · rfl
            · intro hm
              obtain ⟨e', he', hee⟩ := List.mem_map.1 hm
              have := hinj _ (hCsub e' he').1 _ he hee
              exact hd (this ▸ (hCsub e' he').2)
          rw [hne, hval e he]
          cases hE.fate e he with
          | restored h => exact hρ1 _ (List.mem_append_left _ h)
          | dropped h1 h2 => exact absurd (show isDropped e = true by
              show (!keep e.1 && !(A.isInt e.1 && A.fractional e.2)) = true
              rw [h1, h2]; rfl) hd
          | reverted v t hm hk hiff hs => exact (hiff ρ1).2 (hrev _ hm)
  · intro x hx
    have hsv : ∀ y ∈ (if s.isEmpty = true then R else Fla.conj (s ++ [R])).vars, y ∈ f.vars := by
      have : ∀ y ∈ (Fla.conj (s ++ [R])).vars, y ∈ f.vars := by
        intro y hy
        obtain ⟨q, hq, hyq⟩ := Fla.mem_vars_conj.1 hy
        rcases List.mem_append.1 hq with hq | hq
        · obtain ⟨e, he, rfl⟩ := hE.restore q hq
          simp only [Fla.vars, Tm.vars, List.mem_append, List.mem_singleton] at hyq
          rcases hyq with rfl | hyq
          · have : e.1 ∈ S.map Prod.fst := hkeys ▸ List.mem_map_of_mem he
            obtain ⟨e', he', h'⟩ := List.mem_map.1 this
            exact h' ▸ (hI.allVars e' he').1
          · exact closeSubsts_vars S (P := (· ∈ f.vars)) (fun e he => (hI.allVars e he).2) e he y hyq
        · simp at hq; subst hq; exact hI.rootVars y hyq
      split
      · exact hI.rootVars
      · exact this
    rw [← hg] at hx
    split at hx
    · exact hsv x hx
    · unfold varSubstitute at hx
      obtain ⟨y, hy, hxy⟩ := Fla.mem_vars_subst.1 hx
      by_cases hm : y ∈ r.map Prod.fst
      · have hin := SubstMap.fn_in hm
        obtain ⟨_, e, he, _, _, _, hs, _⟩ := hE.origin _ hin
        have := hs x hxy
        subst this
        have : e.1 ∈ S.map Prod.fst := hkeys ▸ List.mem_map_of_mem he
        obtain ⟨e', he', h'⟩ := List.mem_map.1 this
        exact h' ▸ (hI.allVars e' he').1
      · rw [SubstMap.fn_notin hm] at hxy
        simp [Tm.vars] at hxy; subst hxy
        exact hsv _ hy

/-- C33. With enough iterations (more than there are variables) elimination returns a result. -/
theorem C33_terminates (O : SubstOracle T) (A : ArithOps T) (dom : Var → T.Val → Prop) (typed : Var → Tm T → Prop)
    (hO : O.Sound dom typed) (keep : Var → Bool) (f : Fla T) (fuel : Nat) (hf : f.vars.length < fuel) :
    ∃ g, tryEliminate O A fuel keep f = some g := by
  obtain ⟨⟨R, S⟩, h⟩ := extractLoop_terminates hO fuel f [] (Nat.lt_of_le_of_lt (List.toFinset_card_le _) hf)
  exact ⟨_, by simp only [tryEliminate, h, Option.bind_eq_bind, Option.bind_some]; rfl⟩

/-- C33 for the public entry point: the listed variables, and only those, may change value. -/
theorem C33_tryEliminateVars (O : SubstOracle T) (A : ArithOps T) (dom : Var → T.Val → Prop)
    (typed : Var → Tm T → Prop) (hO : O.Sound dom typed) (hA : A.Sound dom typed) (fuel : Nat) (vars : List Var)
    (f g : Fla T) (h : tryEliminateVars O A fuel vars f = some g) (ρ : Valuation T) (hρ : WellSorted dom ρ) :
    (∃ ρ', WellSorted dom ρ' ∧ (∀ x, x ∉ vars → ρ' x = ρ x) ∧ f.holds ρ') ↔
    (∃ ρ', WellSorted dom ρ' ∧ (∀ x, x ∉ vars → ρ' x = ρ x) ∧ g.holds ρ') := by
  unfold tryEliminateVars at h
  split at h
  · cases h; exact Iff.rfl
  · obtain ⟨h1, h2, _⟩ := C33_eliminate_exact O A dom typed hO hA fuel _ f g h
    constructor
    · rintro ⟨ρ', a, b, c⟩; exact ⟨ρ', a, b, h1 ρ' a c⟩
    · rintro ⟨ρ', a, b, c⟩
      obtain ⟨ρ'', a', b', c'⟩ := h2 ρ' a c
      exact ⟨ρ'', a', fun x hx => (b' x (by simpa using hx)).trans (b x hx), c'⟩

/-- C33 for the other public entry point: the listed variables keep their values. -/
theorem C33_tryEliminateVarsExcept (O : SubstOracle T) (A : ArithOps T) (dom : Var → T.Val → Prop)
    (typed : Var → Tm T → Prop) (hO : O.Sound dom typed) (hA : A.Sound dom typed) (fuel : Nat) (vars : List Var)
    (f g : Fla T) (h : tryEliminateVarsExcept O A fuel vars f = some g) (ρ : Valuation T) (hρ : WellSorted dom ρ) :
    (∃ ρ', WellSorted dom ρ' ∧ (∀ x ∈ vars, ρ' x = ρ x) ∧ f.holds ρ') ↔
    (∃ ρ', WellSorted dom ρ' ∧ (∀ x ∈ vars, ρ' x = ρ x) ∧ g.holds ρ') := by
  unfold tryEliminateVarsExcept at h
  obtain ⟨h1, h2, _⟩ := C33_eliminate_exact O A dom typed hO hA fuel _ f g h
  constructor
  · rintro ⟨ρ', a, b, c⟩; exact ⟨ρ', a, b, h1 ρ' a c⟩
  · rintro ⟨ρ', a, b, c⟩
    obtain ⟨ρ'', a', b', c'⟩ := h2 ρ' a c
    exact ⟨ρ'', a', fun x hx => (b' x (by simpa using hx)).trans (b x hx), c'⟩

/-! ### A concrete oracle meeting the contract -/

namespace TrivialQEEx

/-- Solves a leading equation `x = t`. -/
def oracle : SubstOracle T where
  retrieve f := match f with
    | .and (.eq (.var x) t) _ => if x ∈ t.vars then (none, []) else (none, [(x, t)])
    | _ => (none, [])

theorem oracle_sound : (oracle (T := T)).Sound (fun _ _ => True) (fun _ _ => True) := by
  have key : ∀ f : Fla T, (oracle.retrieve f).1 = none ∧ ((oracle.retrieve f).2 = [] ∨
      ∃ x t g, f = .and (.eq (.var x) t) g ∧ x ∉ t.vars ∧ (oracle.retrieve f).2 = [(x, t)]) := by
    intro f
    simp only [oracle]
    split
    · rename_i x t g
      split
      · exact ⟨rfl, .inl rfl⟩
      · rename_i h; exact ⟨rfl, .inr ⟨x, t, g, rfl, h, rfl⟩⟩
    · exact ⟨rfl, .inl rfl⟩
  refine ⟨?_, ?_, ?_, ?_, fun _ _ _ => trivial, ?_, ?_⟩
  · intro f ρ _ hf
    rcases (key f).2 with h | ⟨x, t, g, rfl, _, h⟩ <;> rw [h]
    · intro e he; simp at he
    · intro e he; simp at he; subst he; exact hf.1
  · intro f; rcases (key f).2 with h | ⟨x, t, g, rfl, _, h⟩ <;> rw [h] <;> simp
  · intro f e he
    rcases (key f).2 with h | ⟨x, t, g, rfl, _, h⟩ <;> rw [h] at he <;> simp at he
    subst he; simp [Fla.vars, Tm.vars]
  · intro f e he y hy
    rcases (key f).2 with h | ⟨x, t, g, rfl, hx, h⟩ <;> rw [h] at he <;> simp at he
    subst he; rw [h]
    refine ⟨by simp at hy; simp [Fla.vars, hy], by simp; rintro rfl; exact hx hy⟩
  · intro f h; rw [(key f).1] at h; cases h
  · intro f h; rw [(key f).1] at h; cases h

def noArith : ArithOps T := ⟨fun _ => none, fun a _ => a, fun _ => false, fun _ => false⟩

theorem noArith_sound : (noArith (T := T)).Sound (fun _ _ => True) (fun _ _ => True) :=
  ⟨fun _ _ _ _ _ _ => trivial, fun _ _ _ _ _ => trivial, fun _ _ _ _ _ => trivial, fun _ _ _ h => by cases h⟩

def x : Var := .base (.user "x")
def y : Var := .base (.user "y")

/-- `∃x. x = y ∧ x` becomes `y = y ∧ y`; and with the equation the other way round, `y = x`, the substitution is
reverted. -/
example : tryEliminateVars oracle noArith 5 [x] (.and (.eq (.var x) (.var y)) (.atom (.var x)) : Fla propTheory) =
    some (.and (.eq (.var y) (.var y)) (.atom (.var y))) ∧
    tryEliminateVars oracle noArith 5 [x] (.and (.eq (.var y) (.var x)) (.atom (.var x)) : Fla propTheory) =
    some (.and (.eq (.var y) (.var y)) (.atom (.var y))) := by decide +kernel

end TrivialQEEx

end Golem
