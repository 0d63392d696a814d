import Verif.Props.Spacer
import Verif.Lemmas.PropQE

/-! Concrete runs of Spacer, and two runs in which it does not do what a user expects. -/

namespace Golem
namespace SpacerEx
open ValidatorEx (P R R_wf a)
open QEEx (boolMbp boolMbp_sound)

def s (n : Nat) (i : Int := 0) : Fla P := a (.src (.pr n) i)
def t (n : Nat) : Fla P := a (.tgt (.pr n))

/-- A source or target variable. -/
def plain : Var → Bool
  | .src _ _ | .tgt _ => true
  | _ => false

/-- The obligation on top of the queue is the last one: it has the least bound, as new obligations are appended. -/
def env (S : Smt P) (M : Mbp P) (G : Graph P) (vs : List Pred) (l : Bool) : SpEnv P :=
  ⟨S, M, R, G, id, l, id, vs, fun _ _ q => q.length - 1⟩

theorem env_wf {S : Smt P} (hS : S.Sound) {M : Mbp P} (hM : M.Sound) {G : Graph P} {vs : List Pred} (l : Bool)
    (h1 : ∀ e ∈ G, e.tgt ∈ vs ∧ ∀ q ∈ e.src, q ∈ vs)
    (h2 : Pred.tru ∈ vs ∧ Pred.fls ∈ vs ∧ ∀ p ∈ vs, p = .tru ∨ p = .fls ∨ ∃ e ∈ G, p = e.tgt ∨ p ∈ e.src)
    (h3 : ∀ e ∈ G, e.src ≠ []) (h4 : (G.map Edge.id).Nodup)
    (h5 : ∀ e ∈ G, ∀ x ∈ e.fla.vars, plain x = true) :
    (env S M G vs l).WF where
  repr := R_wf
  smt := hS
  mbp := hM
  simp := ⟨fun _ _ => Iff.rfl, fun _ _ h => h⟩
  ord := fun _ _ => Iff.rfl
  verts := by
    intro p
    constructor
    · intro hp
      rcases h2.2.2 p hp with h | h | h
      · exact .inr (.inl h)
      · exact .inr (.inr h)
      · exact .inl h
    · rintro (⟨e, he, rfl | hp⟩ | rfl | rfl)
      · exact (h1 e he).1
      · exact (h1 e he).2 p hp
      · exact h2.1
      · exact h2.2.1
  srcNe := h3
  ids := h4
  act := fun e he k hk => by
    have := h5 e he _ hk
    simp [actVar, plain] at this

theorem boolMbp_total : boolMbp.Total := fun _ _ _ _ => ⟨_, rfl⟩

/-- true → p0(x): x;  p0(x), p0(y) → p0(z): z ↔ x ∧ y;  p0(x) → false: ¬x. -/
def safeG : Graph P :=
  [⟨[.tru], .p 0, t 0, 0⟩, ⟨[.p 0, .p 0], .p 0, .iff (t 0) (.and (s 0 0) (s 0 1)), 1⟩, ⟨[.p 0], .fls, .not (s 0), 2⟩]

/-- true → p0(x): ¬x;  p0(x), p0(y) → p0(z): ¬x ∧ ¬y ∧ z;  p0(x) → false: x. -/
def unsafeG : Graph P :=
  [⟨[.tru], .p 0, .not (t 0), 0⟩, ⟨[.p 0, .p 0], .p 0, .and (.not (s 0 0)) (.and (.not (s 0 1)) (t 0)), 1⟩,
   ⟨[.p 0], .fls, s 0, 2⟩]

def vs : List Pred := [.tru, .fls, .p 0]

/-- The hypotheses of C48 are met by systems with hyperedges; both verdicts occur. -/
theorem C48_example :
    (env propSmt boolMbp safeG vs true).WF ∧ safeG.Ends ∧ (env propSmt boolMbp unsafeG vs true).WF ∧ unsafeG.Ends ∧
    boolMbp.Total ∧ propSmt.Complete ∧
    (match spacer (env propSmt boolMbp safeG vs true) false 30 with
      | .done ⟨.safe, .validity D⟩ => D.length = 3 | _ => False) ∧
    (match spacer (env propSmt boolMbp unsafeG vs true) false 30 with
      | .done ⟨.unsafeAns, .invalidity ds⟩ => ds.map DStep.premises = [[], [0], [1, 1], [2]] | _ => False) := by
  refine ⟨env_wf propSmt_sound boolMbp_sound _ (by decide +kernel) (by decide +kernel) (by decide +kernel) (by decide +kernel)
      (by decide +kernel), by unfold Graph.Ends; decide +kernel,
    env_wf propSmt_sound boolMbp_sound _ (by decide +kernel) (by decide +kernel) (by decide +kernel) (by decide +kernel)
      (by decide +kernel), by unfold Graph.Ends; decide +kernel, boolMbp_total,
    propSmt_complete, ?_, ?_⟩
  · have : (match spacer (env propSmt boolMbp safeG vs true) false 30 with
      | .done ⟨.safe, .validity D⟩ => decide (D.length = 3) | _ => false) = true := by decide +kernel
    split at this <;> simp_all
  · have : (match spacer (env propSmt boolMbp unsafeG vs true) false 30 with
      | .done ⟨.unsafeAns, .invalidity ds⟩ => decide (ds.map DStep.premises = [[], [0], [1, 1], [2]]) | _ => false) = true := by
      decide +kernel
    split at this <;> simp_all

/-! ### UNKNOWN on a must query -/

/-- p0(x) → p0(y);  true → p1(x);  p0(x), p1(y) → false: `p0` is empty. -/
def hyperG : Graph P := [⟨[.p 0], .p 0, .tt, 0⟩, ⟨[.tru], .p 1, .tt, 1⟩, ⟨[.p 0, .p 1], .fls, .tt, 2⟩]
def vs2 : List Pred := [.tru, .fls, .p 0, .p 1]

/-- A backend that answers UNKNOWN for one query only: whether `p1` is reached by its only edge. -/
def shy : Smt P where
  check fs := if fs = [Fla.disj [edgeSummary (fun _ => Fla.disj [.tt]) (⟨[.tru], .p 1, .tt, 1⟩ : Edge P)], .tt] then .unknown
    else propSmt.check fs
  model := propSmt.model
  itp := propSmt.itp

theorem shy_sound : shy.Sound := by
  have key : ∀ fs r, r ≠ .unknown → shy.check fs = r → propSmt.check fs = r := by
    intro fs r hr h
    simp only [shy] at h
    split at h
    · exact absurd h.symm hr
    · exact h
  exact ⟨fun fs h => propSmt_sound.sat fs (key fs _ (by simp) h), fun fs h => propSmt_sound.unsat fs (key fs _ (by simp) h),
    fun fs A B h => propSmt_sound.itp fs A B (key fs _ (by simp) h),
    fun fs A C B h => propSmt_sound.path fs A C B (key fs _ (by simp) h)⟩

/-- The code departs from what a user expects: `checkMustReachability` treats UNKNOWN as "not reached"
(`src/engine/Spacer.cc:422-445`), an obligation for the entry is queued, and the queue answers UNSAFE for it
(`src/engine/Spacer.cc:309-312`, behind an `assert`), although `false` is not reachable in this system with a hyperedge. The
condition "backend decides, or the graph is linear, or proofs are logged" of C48 cannot be dropped. -/
theorem C48_unknown_unsound : (env shy boolMbp hyperG vs2 false).WF ∧ hyperG.Ends ∧ ¬ hyperG.Unsafe R ∧
    (match spacer (env shy boolMbp hyperG vs2 false) false 30 with | .done ⟨.unsafeAns, _⟩ => True | _ => False) := by
  have hwf : ∀ {S : Smt P}, S.Sound → (env S boolMbp hyperG vs2 false).WF := fun hS =>
    env_wf hS boolMbp_sound _ (by decide +kernel) (by decide +kernel) (by decide +kernel) (by decide +kernel) (by decide +kernel)
  have hends : hyperG.Ends := by unfold Graph.Ends; decide +kernel
  refine ⟨hwf shy_sound, hends, ?_, ?_⟩
  · have : (match spacer (env propSmt boolMbp hyperG vs2 false) false 30 with | .done ⟨.safe, _⟩ => true | _ => false) = true := by
      decide +kernel
    split at this
    · rename_i w hr
      obtain ⟨D, _, hD⟩ := (C48_spacer (hwf propSmt_sound) hends hr).1 rfl
      exact hD.safe
    · simp at this
  · have : (match spacer (env shy boolMbp hyperG vs2 false) false 30 with | .done ⟨.unsafeAns, _⟩ => true | _ => false) = true := by
      decide +kernel
    split at this <;> simp_all

/-! ### A derivation that cannot be reconstructed -/

/-- Eliminate the variables completely: a projection that does not depend on the model. -/
def fullMbp : Mbp P := fun f vs _ => propQ f vs

theorem fullMbp_sound : fullMbp.Sound := by
  intro f vs ρ p hf h
  obtain ⟨h1, h2⟩ := propQ_exact f vs p h
  exact ⟨(h2 ρ).2 ⟨ρ, fun _ _ => rfl, hf⟩, h1, fun ρ' hp => (h2 ρ').1 hp⟩

theorem fullMbp_total : fullMbp.Total := fun _ _ _ _ => ⟨_, rfl⟩

/-- true → p0(x): x;  true → p0(x): ¬x;  p0(x) → p1(x);  p0(x) → p2(¬x);  p2(z), p1(x), p1(y) → false: x ∧ ¬y. -/
def twoG : Graph P :=
  [⟨[.tru], .p 0, t 0, 0⟩, ⟨[.tru], .p 0, .not (t 0), 4⟩, ⟨[.p 0], .p 1, .iff (s 0) (t 1), 1⟩,
   ⟨[.p 0], .p 2, .iff (t 2) (.not (s 0)), 2⟩,
   ⟨[.p 2, .p 1, .p 1], .fls, .and (.or (s 2) (.not (s 2))) (.and (s 1 0) (.not (s 1 1))), 3⟩]
def vs3 : List Pred := [.tru, .fls, .p 0, .p 1, .p 2]

/-- The code departs from what a user expects: `logNewFactIntoDatabase` records the first component of the premise that is
true in the model (`src/engine/Spacer.cc:685-692`), while the stored projection may cover points that are reached from
other components only. The instance chosen during the reconstruction then has no derivation from the recorded premise, and a
found counterexample ends in "Error in computing derivation!". The remaining exception of C48_no_error does occur. -/
theorem C48_reconstruction_fails : (env propSmt fullMbp twoG vs3 true).WF ∧ twoG.Ends ∧ fullMbp.Total ∧ propSmt.Complete ∧
    twoG.Unsafe R ∧ spacer (env propSmt fullMbp twoG vs3 true) false 30 = .thrown := by
  have hwf : ∀ l, (env propSmt fullMbp twoG vs3 l).WF := fun l =>
    env_wf propSmt_sound fullMbp_sound _ (by decide +kernel) (by decide +kernel) (by decide +kernel) (by decide +kernel)
      (by decide +kernel)
  have hends : twoG.Ends := by unfold Graph.Ends; decide +kernel
  refine ⟨hwf true, hends, fullMbp_total, propSmt_complete, ?_, ?_⟩
  · have : (match spacer (env propSmt fullMbp twoG vs3 false) false 30 with | .done ⟨.unsafeAns, _⟩ => true | _ => false) = true := by
      decide +kernel
    split at this
    · rename_i w hr
      exact (C48_spacer (hwf false) hends hr).2.2.1 rfl (.inl propSmt_complete)
    · simp at this
  · have : (match spacer (env propSmt fullMbp twoG vs3 true) false 30 with | .thrown => true | _ => false) = true := by
      decide +kernel
    split at this
    · assumption
    · simp at this

end SpacerEx
end Golem
