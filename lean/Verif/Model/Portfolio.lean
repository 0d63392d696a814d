/-!
The portfolio of several engines or termination methods as concurrent processes:
`src/termination/Frontend.cc:383-434` (`multiMethodSolve`) and `src/ChcInterpreter.cc:471-528`
(`solveWithMultipleEngines`). Both have the same shape; they differ in what the parent prints when nobody won.

Every step is one action of the parent, of one child or of the environment; a run is any interleaving of them. Output is
the list of answer lines on standard output. Not modelled: the text a child prints after its answer (witness, validation
result), reuse of process ids by the operating system, and failure of `mmap` (the program then exits before any fork).
-/

namespace Golem.Portfolio

/-- A child process. `A` is the type of definite answers. -/
inductive ChildSt (A : Type) where
  /-- running its engine (`Frontend.cc:398`) -/
  | running
  /-- the engine returned a definite answer, compare-and-swap not yet done (`Frontend.cc:399-400`) -/
  | decided (a : A)
  /-- compare-and-swap succeeded, the answer is not yet printed (`Frontend.cc:400`) -/
  | won (a : A)
  /-- the answer is printed (`Frontend.cc:401`); with CHC input, work on the witness follows (`ChcInterpreter.cc:500-502`) -/
  | printed (a : A)
  /-- has called `exit` with this being the code zero or not, not yet waited for -/
  | exited (zero : Bool)
  /-- killed by a signal, not yet waited for -/
  | killed
  /-- waited for by the parent; whether it had exited with code zero -/
  | reaped (zero : Bool)
deriving DecidableEq, Repr

/-- Still executing code. -/
def ChildSt.alive {A : Type} : ChildSt A → Bool
  | .running | .decided _ | .won _ | .printed _ => true
  | _ => false

/-- An entry of `processes`: `fork` failed and returned −1, or a child. -/
inductive Proc (A : Type) where
  | failed
  | child (c : ChildSt A)
deriving DecidableEq, Repr

/-- Where the parent is: in the loop that forks, in the loop that waits, in the loop that kills (next index), returned. -/
inductive ParentSt where
  | forking
  | waiting
  | killing (next : Nat)
  | done
deriving DecidableEq, Repr

/-- One answer line: that of a child, or `MAYBE`. -/
inductive Line (A : Type) where
  | answer (a : A)
  | maybe
deriving DecidableEq, Repr

/-- The parameters: how many methods, what the method number `i` returns (`none`: it never returns; `some none`: UNKNOWN
or ERROR; `some (some a)`: definite), and whether the parent prints a line when there is no winner (the termination front
end does, `Frontend.cc:417-419`; the CHC interpreter does not, `ChcInterpreter.cc:517`). -/
structure Config (A : Type) where
  methods : Nat
  result : Nat → Option (Option A)
  saysMaybe : Bool
  /-- whether the environment may make `fork` fail or let a child die -/
  faults : Bool

/-- `winner` is the shared cell (`none` for −1; process `i` stands for its process id); `stray` records that
`kill(-1, SIGKILL)` was called, which signals every process the user may signal. -/
structure State (A : Type) where
  parent : ParentSt
  procs : List (Proc A)
  winner : Option Nat
  output : List (Line A)
  stray : Bool
deriving DecidableEq, Repr

def State.start (A : Type) : State A := ⟨.forking, [], none, [], false⟩

/-- SIGKILL: a process that is alive dies; on any other nothing happens. -/
def kill1 {A : Type} : Proc A → Proc A
  | .child c => .child (if c.alive then .killed else c)
  | .failed => .failed

def State.setChild {A : Type} (s : State A) (i : Nat) (c : ChildSt A) : State A :=
  { s with procs := s.procs.set i (.child c) }

/-- The steps. -/
inductive Step {A : Type} (C : Config A) : State A → State A → Prop
  /-- `processes.push_back(fork())` succeeds (`Frontend.cc:395`). -/
  | fork (s) : s.parent = .forking → s.procs.length < C.methods →
      Step C s { s with procs := s.procs ++ [.child .running] }
  /-- `fork` fails: −1 is stored, and the parent goes on. -/
  | forkFails (s) : C.faults = true → s.parent = .forking → s.procs.length < C.methods →
      Step C s { s with procs := s.procs ++ [.failed] }
  /-- The fork loop is over (`Frontend.cc:394`). -/
  | forked (s) : s.parent = .forking → s.procs.length = C.methods → Step C s { s with parent := .waiting }
  /-- The method of child `i` returns UNKNOWN or ERROR: `exit(1)` (`Frontend.cc:399`, `ChcInterpreter.cc:497`). -/
  | indefinite (s i) : s.procs[i]? = some (.child .running) → C.result i = some none →
      Step C s (s.setChild i (.exited false))
  /-- It returns a definite answer. -/
  | decide (s i a) : s.procs[i]? = some (.child .running) → C.result i = some (some a) →
      Step C s (s.setChild i (.decided a))
  /-- The compare-and-swap succeeds (`Frontend.cc:400`). -/
  | win (s i a) : s.procs[i]? = some (.child (.decided a)) → s.winner = none →
      Step C s { s.setChild i (.won a) with winner := some i }
  /-- The compare-and-swap fails: `exit(1)` (`Frontend.cc:404`). -/
  | lose (s i a) : s.procs[i]? = some (.child (.decided a)) → s.winner ≠ none →
      Step C s (s.setChild i (.exited false))
  /-- `printAnswer` (`Frontend.cc:401`). -/
  | print (s i a) : s.procs[i]? = some (.child (.won a)) →
      Step C s { s.setChild i (.printed a) with output := s.output ++ [.answer a] }
  /-- `exit(0)` (`Frontend.cc:402`). -/
  | finish (s i a) : s.procs[i]? = some (.child (.printed a)) → Step C s (s.setChild i (.exited true))
  /-- The environment: a child dies (out of memory, a fault, an uncaught exception). -/
  | crash (s i c) : C.faults = true → s.procs[i]? = some (.child c) → c.alive = true → Step C s (s.setChild i .killed)
  /-- `wait` returns a child that died by a signal (`Frontend.cc:424`). -/
  | waitKilled (s i) : s.parent = .waiting → s.procs[i]? = some (.child .killed) →
      Step C s (s.setChild i (.reaped false))
  /-- `wait` returns a child that exited with a code other than zero (`Frontend.cc:424`). -/
  | waitFailed (s i) : s.parent = .waiting → s.procs[i]? = some (.child (.exited false)) →
      Step C s (s.setChild i (.reaped false))
  /-- `wait` returns a child that exited with zero (`Frontend.cc:425`). -/
  | waitWinner (s i) : s.parent = .waiting → s.procs[i]? = some (.child (.exited true)) →
      Step C s { s.setChild i (.reaped true) with parent := .killing 0 }
  /-- `kill(k_p, SIGKILL)` for a child (`Frontend.cc:425-427`). -/
  | kill (s k c) : s.parent = .killing k → s.procs[k]? = some (.child c) →
      Step C s { s with parent := .killing (k + 1), procs := s.procs.set k (kill1 (.child c)) }
  /-- The same for an entry −1: every process is signalled, except the caller. -/
  | killFailed (s k) : s.parent = .killing k → s.procs[k]? = some .failed →
      Step C s { s with parent := .killing (k + 1), procs := s.procs.map kill1, stray := true }
  /-- The kill loop is over (`Frontend.cc:429`). -/
  | killedAll (s k) : s.parent = .killing k → s.procs.length ≤ k → Step C s { s with parent := .done }
  /-- `wait` fails with ECHILD: no child is left (`Frontend.cc:414-421`, `ChcInterpreter.cc:515-517`). -/
  | noChild (s) : s.parent = .waiting → (∀ p ∈ s.procs, p = .failed ∨ ∃ z, p = .child (.reaped z)) →
      Step C s { s with parent := .done,
                        output := if C.saysMaybe && s.winner.isNone then s.output ++ [.maybe] else s.output }

/-- States that some interleaving reaches. -/
inductive Reach {A : Type} (C : Config A) : State A → Prop
  | start : Reach C (.start A)
  | step {s s'} : Reach C s → Step C s s' → Reach C s'

end Golem.Portfolio
