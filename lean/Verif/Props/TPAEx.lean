import Verif.Props.TPA
import Verif.Props.Dar

/-! C58-C61: the hypotheses are met, and the hypotheses that cannot be dropped. -/

namespace Golem
namespace TpaEx
open QEEx (boolMbp boolMbp_sound)

/-- A propositional environment. -/
def env (S : Smt propTheory) : TpaEnv propTheory := ⟨S, propSmt.itp, boolMbp, id, propQ, propKeep⟩

/-- An answer as a number: SAFE is zero, UNSAFE in `n` steps is `n + 1`. -/
def code (core : Core) (S : Smt propTheory) (ts : TS propTheory) (fuel : Nat) : Option Nat :=
  match tpaStart core id ts with
  | none => none
  | some (ts, st) =>
    match tpaSolve (env S) core ts fuel st with
    | .done (.safe _, _) => some 0
    | .done (.reached _ n, _) => some (n + 1)
    | _ => none

def lit (i : Nat) (k : Int) (b : Bool) : Fla propTheory :=
  if b then .atom (.var (.ver (.loc i) k)) else .not (.atom (.var (.ver (.loc i) k)))

/-- The state with the number `n < 4` at instant `k`. -/
def num (n : Nat) (k : Int) : Fla propTheory := .and (lit 0 k (n % 2 == 1)) (lit 1 k (n / 2 == 1))

/-- A system on four states. -/
def graph (edges : List (Nat × Nat)) (a b : Nat) : TS propTheory where
  stateVars := [.ver (.loc 0) 0, .ver (.loc 1) 0]
  auxVars := []
  init := num a 0
  trans := Fla.disj (edges.map fun e => .and (num e.1 0) (num e.2 1))
  query := num b 0

theorem lit_vars {i : Nat} {k : Int} {b : Bool} : ∀ x ∈ (lit i k b).vars, x = .ver (.loc i) k := by
  intro x hx
  cases b <;> simpa [lit, Fla.vars, Tm.vars] using hx

theorem num_vars {n : Nat} {k : Int} : ∀ x ∈ (num n k).vars, x = .ver (.loc 0) k ∨ x = .ver (.loc 1) k := by
  intro x hx
  simp only [num, Fla.vars, List.mem_append] at hx
  exact hx.imp (lit_vars x) (lit_vars x)

theorem graph_noAux (edges : List (Nat × Nat)) (a b : Nat) : (graph edges a b).NoAux := by
  constructor
  · intro x hx; rcases num_vars x hx with rfl | rfl <;> simp [graph]
  · intro x hx; rcases num_vars x hx with rfl | rfl <;> simp [graph]

theorem graph_wf (edges : List (Nat × Nat)) (a b : Nat) : (graph edges a b).WF where
  init := fun x hx => .inl ((graph_noAux edges a b).init x hx)
  query := fun x hx => .inl ((graph_noAux edges a b).query x hx)
  trans := by
    intro x hx
    simp only [graph] at hx
    rw [Fla.mem_vars_disj] at hx
    obtain ⟨f, hf, hx⟩ := hx
    obtain ⟨e, _, rfl⟩ := List.mem_map.1 hf
    simp only [Fla.vars, List.mem_append] at hx
    rcases hx with hx | hx <;> rcases num_vars x hx with rfl | rfl <;> simp [graph, TS.nextVars, shift]
  stateCur := by intro x hx; simp [graph] at hx; rcases hx with rfl | rfl <;> rfl
  auxCur := by intro x hx; simp [graph] at hx
  nodup := by simp [graph]
  sep := by intro x _; simp [graph]

theorem simpOk_id' : SimpOk (id : Fla propTheory → Fla propTheory) := ⟨fun _ _ => Iff.rfl, fun _ _ h => h⟩

theorem env_ok {S : Smt propTheory} (hS : S.Sound) (hu : ∀ fs, S.check fs = .unsat → propSmt.check fs = .unsat) : (env S).Ok :=
  ⟨hS, fun fs A B h => propSmt_sound.itp fs A B (hu fs h), boolMbp_sound, simpOk_id'⟩

theorem propEnv_ok : (env propSmt).Ok := env_ok propSmt_sound fun _ h => h

/-- A chain of four states. -/
def chain : TS propTheory := graph [(0, 1), (1, 2), (2, 3)] 0 3

theorem chain_bmc : bmcSolve propSmt chain 5 = .done (.unsafeAt 3) := by decide +kernel

theorem chain_shortest : chain.sem.BadIn 3 ∧ ∀ j, j < 3 → ¬ chain.sem.BadIn j := by
  have hw := graph_wf [(0, 1), (1, 2), (2, 3)] 0 3
  have hn := graph_noAux [(0, 1), (1, 2), (2, 3)] 0 3
  refine ⟨?_, C22_bmc_shortest propSmt propSmt_sound propSmt_complete chain hw (hn.auxSep hw) 5 3 chain_bmc⟩
  rcases C22_bmc_sound propSmt propSmt_sound chain 5 _ chain_bmc with ⟨k, hk, h⟩ | ⟨h, _⟩
  · cases hk; exact h
  · cases h

theorem chain_unsafe : chain.sem.Unsafe := ⟨3, chain_shortest.1⟩

/-- **C58** The hypotheses are met: both cores answer on a safe system and on an unsafe one that takes three steps. -/
theorem C58_example : (env propSmt).Ok ∧ (env propSmt).S.Complete ∧ (env propSmt).K.Exact ∧ (env propSmt).Q.Exact ∧
    exTS2.WF ∧ exTS2.NoAux ∧ chain.WF ∧ chain.NoAux ∧
    code .split propSmt exTS2 5 = some 0 ∧ code .basic propSmt exTS2 5 = some 0 ∧ code .split propSmt chain 10 = some 4 :=
  ⟨propEnv_ok, propSmt_complete, propKeep_exact, propQ_exact, exTS2_wf, exTS2_noAux, graph_wf _ _ _, graph_noAux _ _ _,
    by decide +kernel, by decide +kernel, by decide +kernel⟩

/-- **C58** The step count of `TPABasic` is not reliable: for a chain whose shortest counterexample has three steps it reports two
(the comment at `src/engine/TPA.cc:1278-1279` suspects this), so its UNSAFE witness may have the wrong length. -/
theorem C58_basic_steps_wrong : (env propSmt).Ok ∧ (env propSmt).S.Complete ∧ chain.WF ∧ chain.NoAux ∧
    code .basic propSmt chain 10 = some 3 ∧ ¬ chain.sem.BadIn 2 :=
  ⟨propEnv_ok, propSmt_complete, graph_wf _ _ _, graph_noAux _ _ _, by decide +kernel, chain_shortest.2 2 (by omega)⟩

/-- Init and query are the same unsatisfiable formula. -/
def equalTS : TS propTheory where
  stateVars := [.ver (.loc 0) 0, .ver (.loc 1) 0]
  auxVars := []
  init := .and (.or (lit 0 0 true) (lit 1 0 true)) (num 0 0)
  trans := num 0 1
  query := .and (.or (lit 0 0 true) (lit 1 0 true)) (num 0 0)

theorem equalTS_over : equalTS.Over equalTS.init := by
  intro x hx
  simp only [equalTS, Fla.vars, List.mem_append] at hx
  rcases hx with (hx | hx) | hx
  · rw [lit_vars x hx]; simp [equalTS]
  · rw [lit_vars x hx]; simp [equalTS]
  · rcases num_vars x hx with rfl | rfl <;> simp [equalTS]

theorem equalTS_noAux : equalTS.NoAux := ⟨equalTS_over, equalTS_over⟩

theorem equalTS_wf : equalTS.WF where
  init := fun x hx => .inl (equalTS_over x hx)
  query := fun x hx => .inl (equalTS_over x hx)
  trans := by
    intro x hx
    rcases num_vars x hx with rfl | rfl <;> simp [equalTS, TS.nextVars, shift]
  stateCur := by intro x hx; simp [equalTS] at hx; rcases hx with rfl | rfl <;> rfl
  auxCur := by intro x hx; simp [equalTS] at hx
  nodup := by simp [equalTS]
  sep := by intro x _; simp [equalTS]

/-- **C58** The guard is needed: when init and query are the same unsatisfiable formula, `TPASplit` answers UNSAFE for a safe
system (`src/engine/TPA.cc:587-593`); `TPABasic` answers SAFE. -/
theorem C58_equal_shortcut_unsound : (env propSmt).Ok ∧ (env propSmt).S.Complete ∧ equalTS.WF ∧ equalTS.NoAux ∧
    equalTS.sem.Safe ∧ code .split propSmt equalTS 5 = some 1 ∧ code .basic propSmt equalTS 5 = some 0 := by
  refine ⟨propEnv_ok, propSmt_complete, equalTS_wf, equalTS_noAux, ?_, by decide +kernel, by decide +kernel⟩
  rintro ⟨n, t, ⟨s, ⟨ρ, h, _⟩, _⟩, _⟩
  simp [equalTS, num, lit, Fla.holds] at h
  rcases h with ⟨h | h, h1, h2⟩ <;> simp_all

/-- A backend that gives up on the queries of Houdini. -/
def tiredSmt : Smt propTheory where
  check := fun fs => match fs with
    | [_, .and _ (.not _)] => .unknown
    | _ => propSmt.check fs
  model := propSmt.model
  itp := propSmt.itp

theorem tired_check {fs : List (Fla propTheory)} {a : Answer} (h : tiredSmt.check fs = a) (ha : a ≠ .unknown) :
    propSmt.check fs = a := by
  simp only [tiredSmt] at h
  split at h
  · exact absurd h.symm ha
  · exact h

theorem tiredSmt_sound : tiredSmt.Sound where
  sat := fun fs h => propSmt_sound.sat fs (tired_check h (by decide))
  unsat := fun fs h => propSmt_sound.unsat fs (tired_check h (by decide))
  itp := fun fs A B h => propSmt_sound.itp fs A B (tired_check h (by decide))
  path := fun fs A C B h => propSmt_sound.path fs A C B (tired_check h (by decide))

/-- **C58** The hypothesis that the backend decides is needed for SAFE: Houdini keeps all candidates when a query is not SAT
(`src/engine/TPA.cc:937, 950`), and the engine answers SAFE for an unsafe system. -/
theorem C58_unknown_unsound : (env tiredSmt).Ok ∧ chain.WF ∧ chain.NoAux ∧ chain.sem.Unsafe ∧
    code .split tiredSmt chain 10 = some 0 ∧ code .basic tiredSmt chain 10 = some 0 :=
  ⟨env_ok tiredSmt_sound fun _ h => tired_check h (by decide), graph_wf _ _ _, graph_noAux _ _ _, chain_unsafe,
    by decide +kernel, by decide +kernel⟩

/-- The answer for a second system on the same solver object. -/
def second (core : Core) (ts1 ts2 : TS propTheory) (fuel : Nat) : Option Nat :=
  match tpaStart core id ts1 with
  | none => none
  | some (ts, st) =>
    match tpaSolve (env propSmt) core ts fuel st with
    | .done (_, st) =>
      match tpaRestart core id ts2 st with
      | none => none
      | some (ts, st) =>
        match tpaSolve (env propSmt) core ts fuel st with
        | .done (.safe _, _) => some 0
        | .done (.reached _ n, _) => some (n + 1)
        | _ => none
    | _ => none

/-- **C58** A solver object must not be given a second system: `resetTransitionSystem` keeps the invariants of the first one, and
the second answer is wrong. -/
theorem C58_restart_unsound : chain.sem.Unsafe ∧ second .split (graph [] 0 3) chain 10 = some 0 ∧
    second .basic (graph [] 0 3) chain 10 = some 0 :=
  ⟨chain_unsafe, by decide +kernel, by decide +kernel⟩

/-- The kind of explanation, whether an invariant is extracted, and whether a safe superset is. -/
def witness (core : Core) (S : Smt propTheory) (ts : TS propTheory) (fuel : Nat) : Option (Bool × Bool × Bool) :=
  match tpaStart core id ts with
  | none => none
  | some (ts, st) =>
    match tpaSolve (env S) core ts fuel st with
    | .done (.safe e, st) =>
      some ((match e with | .lt _ _ _ => true | .eq _ _ _ => false),
        (match tpaInvariant (env S) ts st e with | .done (some _) => true | _ => false), (tpaExplanation S ts e).isSome)
    | _ => none

/-- **C59, C60** Invariants and safe supersets are extracted from less-than fixed points, by both cores. -/
theorem C59_example : (env propSmt).Ok ∧ (env propSmt).S.Complete ∧ (env propSmt).K.Exact ∧ (env propSmt).Q.Exact ∧
    exTS2.WF ∧ exTS2.NoAux ∧ witness .split propSmt exTS2 5 = some (true, true, true) ∧
    witness .basic propSmt exTS2 5 = some (true, true, true) :=
  ⟨propEnv_ok, propSmt_complete, propKeep_exact, propQ_exact, exTS2_wf, exTS2_noAux, by decide +kernel, by decide +kernel⟩

/-- **C61** The bounds are met: the chain of three steps is reported with three, which is less than six, and the first power is
left without an answer, which rules out two steps. -/
theorem C61_example : chain.WF ∧ chain.NoAux ∧ chain.init ≠ chain.query ∧ chain.sem.BadIn 3 ∧
    (match tpaReset .split chain with
      | none => false
      | some st => match checkPower (env propSmt) .split chain 10 0 st with
        | .done (none, _) => true
        | _ => false) = true :=
  ⟨graph_wf _ _ _, graph_noAux _ _ _, by decide, chain_shortest.1, by decide +kernel⟩

end TpaEx
end Golem
