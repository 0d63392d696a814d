import Verif.Props.Nonterm
import Verif.Props.SpacerEx
import Verif.Props.SingleLoopEngines
import Verif.Props.Reverse

/-! Examples for the termination back ends. -/

namespace Golem
namespace TermEx
open QEEx (boolMbp boolMbp_sound)

/-- Spacer on a propositional backend. -/
def eng (S : Smt propTheory) (log : Bool) (n : Nat) : Engine propTheory :=
  spacerEngine S boolMbp id log id (fun _ _ q => q.length - 1) false n

def x : Var := .ver (.user "x") 0
def ax : Fla propTheory := .atom (.var (.ver (.user "x") 0))
def ax' : Fla propTheory := .atom (.var (.ver (.user "x") 1))
def mk (i t : Fla propTheory) : TS propTheory := ⟨[x], [], i, t, .ff⟩

/-- From `¬x` the system may stay in `¬x` or stop in `x`. -/
def loopTS : TS propTheory := mk (.not ax) (.not ax)
/-- From `¬x` the system stops in `x`. -/
def shortTS : TS propTheory := mk (.not ax) (.and (.not ax) ax')
/-- From `¬x` the system stays in `¬x`. -/
def stayTS : TS propTheory := mk (.not ax) (.not ax')
/-- No initial state. -/
def emptyTS : TS propTheory := mk .ff .tt
def emptyTS2 : TS propTheory := mk .ff ax

theorem mk_wf {i t : Fla propTheory} (hi : ∀ y ∈ i.vars, y = x) (ht : ∀ y ∈ t.vars, y = x ∨ y = shift 1 x) :
    (mk i t).WF ∧ (mk i t).Versioned ∧ (mk i t).AuxSep := by
  refine ⟨⟨fun y hy => .inl (by simp [mk, hi y hy]), fun y hy => by simp [mk, Fla.vars] at hy, fun y hy => ?_, ?_,
    by simp [mk], by simp [mk], by simp [mk]⟩, ⟨?_, by simp [mk]⟩, ⟨by simp [mk], by simp [mk], by simp [mk]⟩⟩
  · rcases ht y hy with rfl | rfl
    · exact .inl (by simp [mk])
    · exact .inr (.inl (by simp [mk, TS.nextVars]))
  · intro y hy
    have : y = x := by simpa [mk] using hy
    subst this; rfl
  · intro y hy
    have : y = x := by simpa [mk] using hy
    exact ⟨_, this⟩

theorem simpOk_id : SimpOk (id : Fla propTheory → Fla propTheory) := ⟨fun _ _ => Iff.rfl, fun _ _ h => h⟩

/-- The hypotheses of C52 are met, and both answers occur. -/
theorem C52_example :
    stayTS.WF ∧ stayTS.Versioned ∧ findLasso (eng propSmt false 30) 0 (fun _ => false) stayTS = .done .lasso ∧
    stayTS.sem.InfiniteRun ∧
    shortTS.WF ∧ shortTS.Versioned ∧ findLasso (eng propSmt false 30) 0 (fun _ => false) shortTS = .done .noLasso ∧
    ¬ shortTS.sem.Lasso := by
  have h1 := mk_wf (i := .not ax) (t := .not ax') (by decide +kernel) (by decide +kernel)
  have h2 := mk_wf (i := .not ax) (t := .and (.not ax) ax') (by decide +kernel) (by decide +kernel)
  have e1 : findLasso (eng propSmt false 30) 0 (fun _ => false) stayTS = .done .lasso := by decide +kernel
  have e2 : findLasso (eng propSmt false 30) 0 (fun _ => false) shortTS = .done .noLasso := by decide +kernel
  exact ⟨h1.1, h1.2.1, e1, ((C52_spacer propSmt_sound boolMbp_sound simpOk_id (fun _ _ => Iff.rfl) h1.1 h1.2.1).1 e1).2,
    h2.1, h2.2.1, e2, (C52_spacer propSmt_sound boolMbp_sound simpOk_id (fun _ _ => Iff.rfl) h2.1 h2.2.1).2 e2⟩

/-- The hypotheses of C54 are met, and both answers occur; `loopTS` needs its nondeterminism restricted. -/
theorem C54_example :
    loopTS.WF ∧ loopTS.Versioned ∧ loopTS.AuxSep ∧ (∃ s, loopTS.sem.Init s) ∧
    nontermRun propSmt propKeep (eng propSmt true 30) 0 loopTS 10 = .done .no ∧ loopTS.sem.InfiniteRun ∧
    shortTS.WF ∧ shortTS.Versioned ∧ shortTS.AuxSep ∧
    nontermRun propSmt propKeep (eng propSmt true 30) 0 shortTS 10 = .done .yes ∧ shortTS.sem.Terminates := by
  have h1 := mk_wf (i := .not ax) (t := .not ax) (by decide +kernel) (by decide +kernel)
  have h2 := mk_wf (i := .not ax) (t := .and (.not ax) ax') (by decide +kernel) (by decide +kernel)
  have e1 : nontermRun propSmt propKeep (eng propSmt true 30) 0 loopTS 10 = .done .no := by decide +kernel
  have e2 : nontermRun propSmt propKeep (eng propSmt true 30) 0 shortTS 10 = .done .yes := by decide +kernel
  have hi : ∃ s, loopTS.sem.Init s := ⟨[false], fun _ => false, (by simp [loopTS, mk, ax, Fla.holds, Tm.eval] <;> rfl), rfl⟩
  exact ⟨h1.1, h1.2.1, h1.2.2, hi, e1,
    (C54_spacer propSmt_sound propSmt_complete propKeep_exact boolMbp_sound simpOk_id (fun _ _ => Iff.rfl) h1.1 h1.2.1
      h1.2.2).2 e1 hi,
    h2.1, h2.2.1, h2.2.2, e2,
    (C54_spacer propSmt_sound propSmt_complete propKeep_exact boolMbp_sound simpOk_id (fun _ _ => Iff.rfl) h2.1 h2.2.1
      h2.2.2).1 e2⟩

theorem empty_terminates {t : Fla propTheory} : (mk .ff t).sem.Terminates := by
  rintro ⟨r, ⟨ρ, h, -⟩, -⟩
  exact h

/-- DISAGREEMENT. The premise of C54 about initial states cannot be dropped: when every state has a successor, the answer
is NO without a look at the initial states (`src/termination/ReachabilityNonterm.cc:73-74`), also when there are none and
the system terminates vacuously. -/
theorem C54_no_initial_state : emptyTS.sem.Terminates ∧
    nontermRun propSmt propKeep (eng propSmt true 30) 0 emptyTS 10 = .done .no :=
  ⟨empty_terminates, by decide +kernel⟩

/-- A backend that answers UNKNOWN for one query only. -/
def shyOn (q : List (Fla propTheory)) : Smt propTheory where
  check fs := if fs = q then .unknown else propSmt.check fs
  model := propSmt.model
  itp := propSmt.itp

theorem shyOn_sound (q : List (Fla propTheory)) : (shyOn q).Sound := by
  have key : ∀ fs r, r ≠ .unknown → (shyOn q).check fs = r → propSmt.check fs = r := by
    intro fs r hr h
    simp only [shyOn] at h
    split at h
    · exact absurd h.symm hr
    · exact h
  exact ⟨fun fs h => propSmt_sound.sat fs (key fs _ (by simp) h), fun fs h => propSmt_sound.unsat fs (key fs _ (by simp) h),
    fun fs A B h => propSmt_sound.itp fs A B (key fs _ (by simp) h),
    fun fs A C B h => propSmt_sound.path fs A C B (key fs _ (by simp) h)⟩

/-- The query of the walk over the trace `¬x, x` of `loopTS`: is the step nondeterministic? -/
def walkQuery : List (Fla propTheory) :=
  let sink := mkNot ((propKeep (.not ax) [x]).getD .tt)
  let trace := ntTrace (.not ax) (.not ax) sink 1
  [Fla.conj [(propKeep trace [shift 0 x]).getD .tt, sendFla (.not ax) 0, mkNot (sendFla sink 1)]]

/-- DISAGREEMENT. UNKNOWN during the walk is read as "deterministic" (`src/termination/ReachabilityNonterm.cc:139-150`):
with a sound solver that answers UNKNOWN once, the answer is YES although the system has an infinite run. The solver must
be complete in C54. -/
theorem C54_unknown_yes : (shyOn walkQuery).Sound ∧ loopTS.sem.InfiniteRun ∧
    nontermRun (shyOn walkQuery) propKeep (eng propSmt true 30) 0 loopTS 10 = .done .yes :=
  ⟨shyOn_sound _, C54_example.2.2.2.2.2.1, by decide +kernel⟩

/-- DISAGREEMENT. UNKNOWN for the satisfiability of `init ∧ transition` is read as satisfiable
(`src/termination/ReachabilityNonterm.cc:182-187`): with a sound solver that answers UNKNOWN once, the answer is NO for a
system without initial states. -/
theorem C54_unknown_no : (shyOn [.and .ff ax]).Sound ∧ emptyTS2.sem.Terminates ∧
    nontermRun (shyOn [.and .ff ax]) propKeep (eng propSmt true 30) 0 emptyTS2 10 = .done .no ∧
    nontermRun propSmt propKeep (eng propSmt true 30) 0 emptyTS2 10 = .done .yes :=
  ⟨shyOn_sound _, empty_terminates, by decide +kernel, by decide +kernel⟩

end TermEx
end Golem
