import Verif.Props.TPAGraph
import Verif.Props.TPAEx

/-! C62-C64: the hypotheses are met, and the hypotheses that cannot be dropped. -/

namespace Golem
namespace TpaGraphEx
open ValidatorEx (P R R_wf a)
open LinearEx (keep keep_exact y z)
open TpaEx (env propEnv_ok simpOk_id')
open QEEx (boolMbp boolMbp_sound)

def net (core : Core) : NetEnv P := ⟨env propSmt, core, id, id, boolMbp, 20⟩

theorem net_ok (core : Core) : (net core).Ok := ⟨propEnv_ok, simpOk_id', simpOk_id', boolMbp_sound⟩

/-- true → p0(x): `i`;  p0(x) → p0(x'): `l`;  p0(x) → p1(y): x ∧ ¬y;  p1(y) → p1(y'): y';  p1(y) → false: `q`. -/
def dag (i l q : Fla P) : LGraph P :=
  [⟨.tru, .p 0, i, 0⟩, ⟨.p 0, .p 0, l, 1⟩, ⟨.p 0, .p 1, .and (a (z 0)) (.not (a (y 1))), 2⟩, ⟨.p 1, .p 1, a (y 1), 3⟩, ⟨.p 1, .fls, q, 4⟩]

/-- Two loops, each taken once. -/
def bad : LGraph P := dag (.not (a (z 1))) (a (z 1)) (a (y 0))

/-- The first loop never sets `x`. -/
def good : LGraph P := dag (.not (a (z 1))) (.not (a (z 1))) (a (y 0))

def run (core : Core) (w : Bool) (G : LGraph P) : Option (VAnswer × Option (List (Option Nat))) :=
  match netSolve (net core) R w G with
  | .done ⟨ans, .invalidity ds⟩ => some (ans, some (ds.map DStep.clauseId))
  | .done ⟨ans, .validity _⟩ => some (ans, some [])
  | .done ⟨ans, .none⟩ => some (ans, none)
  | _ => none

theorem slOk_of {G : LGraph P} (h1 : ∀ e ∈ G, ∀ x ∈ e.fla.vars, x.nm.isPlain = true)
    (h2 : ∀ e ∈ G, ∀ x ∈ e.fla.vars, x ∈ R.stateVars e.src ∨ x ∈ R.nextVars e.tgt)
    (h3 : ∀ e ∈ G, ∀ x ∈ e.fla.vars, x = z 0 ∨ x = z 1 ∨ x = y 0 ∨ x = y 1) (ids : (G.map LEdge.id).Nodup)
    (new : ∀ e ∈ G, e.src ≠ .p 7 ∧ e.tgt ≠ .p 7) (ends : ∀ e ∈ G, e.tgt ≠ .tru ∧ e.src ≠ .fls)
    (noDirect : ∀ e ∈ G, ¬ (e.src = .tru ∧ e.tgt = .fls)) : SLOk R (.p 7) G where
  wf := R_wf
  argNames p n hn := by cases p <;> simp [R] at hn; subst hn; rfl
  labelNames := h1
  label e he x hx := (h2 e he x hx).imp id .inl
  aux e he e' he' hne x hx h := by
    rcases h3 e he x h with rfl | rfl | rfl | rfl <;> rcases hx with ⟨n, h1, h2⟩ | ⟨n, h1, _⟩ <;> simp [z, y] at h1 <;>
      (subst h1; first | exact absurd (show Name.pr 0 ∈ R.args (.p 0) by decide) (h2 (.p 0)) |
        exact absurd (show Name.pr 1 ∈ R.args (.p 1) by decide) (h2 (.p 1)))
  ids := ids
  new := new
  newNe := by decide
  ends := ends
  noDirect := noDirect

theorem bad_ok : SLOk R (.p 7) bad :=
  slOk_of (by decide +kernel) (by decide +kernel) (by decide +kernel) (by decide +kernel) (by decide +kernel) (by decide +kernel)
    (by decide +kernel)

theorem good_ok : SLOk R (.p 7) good :=
  slOk_of (by decide +kernel) (by decide +kernel) (by decide +kernel) (by decide +kernel) (by decide +kernel) (by decide +kernel)
    (by decide +kernel)

theorem noParallel_of {G : LGraph P} (hid : (G.map LEdge.id).Nodup)
    (h : ∀ e ∈ G, ∀ e' ∈ G, e.src = e'.src → e.tgt = e'.tgt → e.id = e'.id) : G.NoParallel := by
  intro e he e' he' h1 h2
  have hf := LGraph.find_of_mem hid he
  rw [h e he e' he' h1 h2, LGraph.find_of_mem hid he'] at hf
  cases hf; rfl

theorem _root_.Golem.LGraph.NoParallel.oneLoop {T : Theory} {G : LGraph T} (h : G.NoParallel) : G.OneLoop :=
  fun e he e' he' _ h1 h2 => h e' he' e he h1 h2

theorem dag_noStray (i l q : Fla P) : (dag i l q).NoStray := by
  have w0 : Walk (dag i l q).succ .tru (.p 0) := .snoc (.refl _) (LGraph.mem_succ.2 ⟨_, .head _, rfl, rfl⟩)
  have w1 : Walk (dag i l q).succ .tru (.p 1) := .snoc w0 (LGraph.mem_succ.2 ⟨_, .tail _ (.tail _ (.head _)), rfl, rfl⟩)
  intro e he
  simp only [dag, List.mem_cons, List.not_mem_nil, or_false] at he
  rcases he with rfl | rfl | rfl | rfl | rfl
  · exact .refl _
  · exact w0
  · exact w0
  · exact w1
  · exact w1

theorem dag_starts (l q : Fla P) : (dag (.not (a (z 1))) l q).Starts R :=
  ⟨_, .head _, (.p 0, [false]), fun _ => false, by simp [Fla.holds, a, Tm.eval, P, propTheory, z], rfl, rfl⟩

/-- **C62** The hypotheses are met: both cores answer on a network of two loops, SAFE and UNSAFE, and TPASplit counts the loops. -/
theorem C62_example : (net .split).Ok ∧ (net .basic).Ok ∧ propSmt.Complete ∧ propQ.Exact ∧ propKeep.Exact ∧ SLOk R (.p 7) bad ∧
    SLOk R (.p 7) good ∧ bad.NoParallel ∧ good.OneLoop ∧ bad.Ranked ∧
    run .split false bad = some (.unsafeAns, none) ∧
    run .split true bad = some (.unsafeAns, some [none, some 0, some 1, some 2, some 3, some 4]) ∧
    run .split true good = some (.safe, some []) ∧ run .basic true good = some (.safe, some []) :=
  ⟨net_ok _, net_ok _, propSmt_complete, propQ_exact, propKeep_exact, bad_ok, good_ok, noParallel_of bad_ok.ids (by decide +kernel),
    (noParallel_of good_ok.ids (by decide +kernel)).oneLoop, (C63_dag_cycleFree bad_ok.ends (by decide +kernel)).ranked,
    by decide +kernel, by decide +kernel, by decide +kernel, by decide +kernel⟩

/-- `good` with a second self-loop of p0 that sets `x`. -/
def par : LGraph P := good ++ [⟨.p 0, .p 0, a (z 1), 5⟩]

theorem par_ok : SLOk R (.p 7) par :=
  slOk_of (by decide +kernel) (by decide +kernel) (by decide +kernel) (by decide +kernel) (by decide +kernel) (by decide +kernel)
    (by decide +kernel)

theorem par_unsafe : par.Unsafe R := by
  have hm : ∀ e ∈ ([⟨.tru, .p 0, .not (a (z 1)), 0⟩, ⟨.p 0, .p 0, a (z 1), 5⟩, ⟨.p 0, .p 1, .and (a (z 0)) (.not (a (y 1))), 2⟩,
      ⟨.p 1, .p 1, a (y 1), 3⟩, ⟨.p 1, .fls, a (y 0), 4⟩] : List (LEdge P)), e ∈ par := by
    intro e he
    simp only [List.mem_cons, List.not_mem_nil, or_false] at he
    rcases he with rfl | rfl | rfl | rfl | rfl <;> simp [par, good, dag]
  refine ⟨_, hm, .cons (g := (.p 0, [false])) ?_ (.cons (g := (.p 0, [true])) ?_ (.cons (g := (.p 1, [false])) ?_
    (.cons (g := (.p 1, [true])) ?_ (.cons (g := falseFact) ?_ (.nil _)))))⟩
  · exact ⟨fun _ => false, by simp [Fla.holds, a, Tm.eval, P, propTheory, z], rfl, rfl⟩
  · exact ⟨fun x => decide (x = z 1), by simp [Fla.holds, a, Tm.eval, P, propTheory, z], rfl, rfl⟩
  · exact ⟨fun x => decide (x = z 0), by simp [Fla.holds, a, Tm.eval, P, propTheory, z, y], rfl, rfl⟩
  · exact ⟨fun x => decide (x = y 1), by simp [Fla.holds, a, Tm.eval, P, propTheory, y], rfl, rfl⟩
  · exact ⟨fun _ => true, by simp [Fla.holds, a, Tm.eval, P, propTheory, y], rfl, rfl⟩

/-- **C62** One self-loop per vertex is needed: the network looks at the first self-loop of a vertex only, and answers SAFE for an unsafe
graph with two. (The engine merges parallel edges first.) -/
theorem C62_parallel_loops_unsound : SLOk R (.p 7) par ∧ isTransitionSystemDAG par = true ∧ par.Unsafe R ∧
    run .split true par = some (.safe, some []) :=
  ⟨par_ok, by decide +kernel, par_unsafe, by decide +kernel⟩

/-- **C63** The hypothesis is met, and the search finds a cycle when there is one. -/
theorem C63_example : (getVertices bad).length = 4 ∧ detectLoop bad = some [] ∧ isTransitionSystemDAG bad = true ∧
    (detectLoop (bad ++ [⟨.p 1, .p 0, .tt, 5⟩])).map (List.map LEdge.id) = some [2, 5] ∧
    isTransitionSystemDAG (bad ++ [⟨.p 1, .p 0, .tt, 5⟩]) = false :=
  ⟨by decide +kernel, by decide +kernel, by decide +kernel, by decide +kernel, by decide +kernel⟩

def engine (core : Core) (w : Bool) (G : LGraph P) : Option (VAnswer × Option (List (Option Nat))) :=
  match tpaGraph (net core) R keep propQ propKeep id (.p 7) false false w G with
  | .done ⟨ans, .invalidity ds⟩ => some (ans, some (ds.map DStep.clauseId))
  | .done ⟨ans, .validity _⟩ => some (ans, some [])
  | .done ⟨ans, .none⟩ => some (ans, none)
  | _ => none

/-- true → p0(x): ¬x;  p0(x) → p0(x'): x';  p0(x) → false: x. -/
def one : LGraph P := [⟨.tru, .p 0, .not (a (z 1)), 0⟩, ⟨.p 0, .p 0, a (z 1), 1⟩, ⟨.p 0, .fls, a (z 0), 2⟩]

/-- **C64** The hypotheses are met, on a transition system and on networks. -/
theorem C64_example : (net .split).Ok ∧ (net .basic).Ok ∧ propSmt.Complete ∧ propQ.Exact ∧ propKeep.Exact ∧ keep.Exact ∧
    SimplifierOk (T := P) id ∧ SLOk R (.p 7) bad ∧ SLOk R (.p 7) good ∧ bad.NoStray ∧ good.NoStray ∧ bad.Starts R ∧ good.Starts R ∧
    bad.NoParallel ∧ good.OneLoop ∧ (∃ e ∈ bad, e.src = .tru) ∧ (∃ e ∈ bad, e.tgt = .fls) ∧
    engine .split true bad = some (.unsafeAns, some [none, some 0, some 1, some 2, some 3, some 4]) ∧
    engine .split true good = some (.safe, some []) ∧ engine .basic true good = some (.safe, some []) ∧
    isTransitionSystem one = true ∧ engine .split true one = some (.unsafeAns, some [none, some 0, some 1, some 2]) :=
  ⟨net_ok _, net_ok _, propSmt_complete, propQ_exact, propKeep_exact, keep_exact, simplifierOk_id, bad_ok, good_ok, dag_noStray _ _ _,
    dag_noStray _ _ _, dag_starts _ _, dag_starts _ _, noParallel_of bad_ok.ids (by decide +kernel),
    (noParallel_of good_ok.ids (by decide +kernel)).oneLoop, ⟨_, .head _, rfl⟩,
    ⟨_, .tail _ (.tail _ (.tail _ (.tail _ (.head _)))), rfl⟩,
    by decide +kernel, by decide +kernel, by decide +kernel, by decide +kernel, by decide +kernel⟩

end TpaGraphEx
end Golem
