import Verif.Spec.Chc

/-!
Independent specification of state transition systems: states, paths, reachability, invariants. Nothing here mentions
formulas, solvers or engines.
-/

namespace Golem

/-- An abstract transition system over states of type `σ`. -/
structure STS (σ : Type) where
  Init : σ → Prop
  Step : σ → σ → Prop
  Bad : σ → Prop

namespace STS
variable {σ : Type} (M : STS σ)

/-- A path of `n` steps from `s` to `t`. -/
inductive Path : Nat → σ → σ → Prop where
  | refl (s : σ) : Path 0 s s
  | snoc {n s t u} (h : Path n s t) (st : M.Step t u) : Path (n + 1) s u

/-- `t` is reachable from an initial state in exactly `n` steps. -/
def ReachIn (n : Nat) (t : σ) : Prop := ∃ s, M.Init s ∧ M.Path n s t

def Reachable (t : σ) : Prop := ∃ n, M.ReachIn n t

/-- A bad state is reachable in exactly `n` steps. -/
def BadIn (n : Nat) : Prop := ∃ t, M.ReachIn n t ∧ M.Bad t

def Unsafe : Prop := ∃ n, M.BadIn n

def Safe : Prop := ¬ M.Unsafe

/-- An inductive invariant. -/
structure Inductive (I : σ → Prop) : Prop where
  init : ∀ s, M.Init s → I s
  step : ∀ s t, I s → M.Step s t → I t

/-- A safe inductive invariant. -/
structure SafeInductive (I : σ → Prop) : Prop extends M.Inductive I where
  safe : ∀ s, I s → ¬ M.Bad s

/-- A path of `n` steps from `s` to `t` all of whose states except possibly the last satisfy `P`. -/
inductive PathIn (P : σ → Prop) : Nat → σ → σ → Prop where
  | refl (s : σ) : PathIn P 0 s s
  | snoc {n s t u} (h : PathIn P n s t) (p : P t) (st : M.Step t u) : PathIn P (n + 1) s u

/-- `P` is `k`-inductive: it holds on every path of fewer than `k` steps from an initial state, and after `k` consecutive
steps through states satisfying `P` it holds again. -/
structure KInductive (k : Nat) (P : σ → Prop) : Prop where
  base : ∀ m, m < k → ∀ t, M.ReachIn m t → P t
  step : ∀ s t, M.PathIn P k s t → P t

/-- The reversed system. -/
def rev : STS σ where
  Init := M.Bad
  Step := fun s t => M.Step t s
  Bad := M.Init

variable {M}

theorem Path.cons {n s t u} (st : M.Step s t) (h : M.Path n t u) : M.Path (n + 1) s u := by
  induction h with
  | refl _ => exact .snoc (.refl _) st
  | snoc _ st' ih => exact .snoc (ih st) st'

theorem Path.uncons {n s u} (h : M.Path (n + 1) s u) : ∃ t, M.Step s t ∧ M.Path n t u := by
  induction n generalizing u with
  | zero =>
    cases h with
    | snoc h st => cases h; exact ⟨u, st, .refl _⟩
  | succ n ih =>
    cases h with
    | snoc h st =>
      obtain ⟨t, s1, p⟩ := ih h
      exact ⟨t, s1, .snoc p st⟩

theorem Path.append {n m s t u} (h : M.Path n s t) (h' : M.Path m t u) : M.Path (n + m) s u := by
  induction h' with
  | refl _ => exact h
  | snoc _ st ih => exact .snoc (ih h) st

theorem Path.split : ∀ {m n : Nat} {s u : σ}, M.Path (n + m) s u → ∃ t, M.Path n s t ∧ M.Path m t u
  | 0, n, s, u, h => ⟨u, h, .refl _⟩
  | m + 1, n, s, u, h => by
    cases h with
    | snoc h st =>
      obtain ⟨t, p, q⟩ := Path.split h
      exact ⟨t, p, .snoc q st⟩

theorem Inductive.reach {I : σ → Prop} (h : M.Inductive I) {n s t} (hs : I s) (p : M.Path n s t) : I t := by
  induction p with
  | refl _ => exact hs
  | snoc _ st ih => exact h.step _ _ (ih hs) st

theorem SafeInductive.isSafe {I : σ → Prop} (h : M.SafeInductive I) : M.Safe := by
  rintro ⟨n, t, ⟨s, hs, p⟩, hb⟩
  exact h.safe t (h.toInductive.reach (h.init s hs) p) hb

theorem Path.rev {n s t} (h : M.Path n s t) : M.rev.Path n t s := by
  induction h with
  | refl _ => exact .refl _
  | snoc _ st ih => exact Path.cons (M := M.rev) st ih

theorem KInductive.reach {k : Nat} {P : σ → Prop} (h : M.KInductive k P) :
    ∀ n t, M.ReachIn n t → P t := by
  intro n
  induction n using Nat.strongRecOn with
  | _ n ih =>
    intro t ⟨s, hs, p⟩
    by_cases hk : n < k
    · exact h.base n hk t ⟨s, hs, p⟩
    · obtain ⟨m, rfl⟩ : ∃ m, n = m + k := ⟨n - k, by omega⟩
      obtain ⟨u, p1, p2⟩ := Path.split p
      refine h.step u t ?_
      have key : ∀ j v, j ≤ k → M.Path j u v → M.PathIn P j u v := by
        intro j v hj pj
        induction pj with
        | refl _ => exact .refl _
        | @snoc j' s' t' u' pj st ih' =>
          exact .snoc (ih' p1 p2 (by omega)) (ih (m + j') (by omega) t' ⟨s, hs, p1.append pj⟩) st
      exact key k t (Nat.le_refl _) p2

end STS
end Golem
