import Verif.Props.NestedLoop
import Verif.Props.TPAGraphEx

/-! C72: concrete graphs that meet the hypotheses, and the failures of the back-translation. -/

namespace Golem
namespace NestEx
open ValidatorEx (P a)
open LinearEx (keep keep_exact z)
open TpaGraphEx (net net_ok noParallel_of)

/-- p0 has one argument, the other predicates none. -/
def R : PRepr := ⟨fun q => match q with | .p 0 => [.pr 0] | _ => []⟩

theorem R_args (q : Pred) : R.args q = if q = .p 0 then [.pr 0] else [] := by
  cases q with
  | p n => cases n <;> simp [R]
  | _ => rfl

theorem R_wf : R.WF where
  tru := rfl
  fls := rfl
  nodup p := by rw [R_args]; split <;> simp
  disjoint p q h n hn := by
    rw [R_args] at hn ⊢
    split at hn
    · rename_i hp
      rw [if_neg (fun hq => h (hp.trans hq.symm))]; simp
    · simp at hn

def names (k : Nat) : Pred := .p (k + 7)

/-- A cycle p0(x), p1: true → p0(x'): `i`;  p0(x) → p1: x;  p1 → p0(x'): true;  p1 → false: true. -/
def two (i : Fla P) : LGraph P :=
  [⟨.tru, .p 0, i, 0⟩, ⟨.p 0, .p 1, a (z 0), 1⟩, ⟨.p 1, .p 0, .tt, 2⟩, ⟨.p 1, .fls, .tt, 3⟩]

/-- The cycle p1, p2 without data. -/
def plain : LGraph P :=
  [⟨.tru, .p 1, .tt, 0⟩, ⟨.p 1, .p 2, .tt, 1⟩, ⟨.p 2, .p 1, .tt, 2⟩, ⟨.p 2, .fls, .tt, 3⟩]

/-- Two cycles through p1; nothing can be derived. -/
def three : LGraph P :=
  [⟨.tru, .p 1, .ff, 0⟩, ⟨.p 1, .p 2, .tt, 1⟩, ⟨.p 2, .p 1, .tt, 2⟩, ⟨.p 1, .p 3, .tt, 3⟩, ⟨.p 3, .p 1, .tt, 4⟩, ⟨.p 3, .fls, .tt, 5⟩]

theorem input_of {G : LGraph P} (h2 : ∀ e ∈ G, ∀ x ∈ e.fla.vars, x ∈ R.stateVars e.src ∨ x ∈ R.nextVars e.tgt)
    (h3 : ∀ e ∈ G, ∀ x ∈ e.fla.vars, x = z 0 ∨ x = z 1) (ids : (G.map LEdge.id).Nodup)
    (new : ∀ e ∈ G, e.src.symNo < 9 ∧ e.tgt.symNo < 9) (ends : ∀ e ∈ G, e.tgt ≠ .tru ∧ e.src ≠ .fls) : NestInput names R G where
  wf := R_wf
  argNames p n hn := by
    rw [R_args] at hn
    split at hn
    · simp at hn; subst hn; rfl
    · simp at hn
  labelNames e he x hx := by rcases h3 e he x hx with rfl | rfl <;> rfl
  label e he x hx := (h2 e he x hx).imp id .inl
  aux e he e' he' hne x hx h := by
    rcases h3 e he x h with rfl | rfl <;> rcases hx with ⟨n, h1, h2⟩ | ⟨n, h1, _⟩ <;> simp [z] at h1 <;>
      (subst h1; exact absurd (show Name.pr 0 ∈ R.args (.p 0) by decide) (h2 (.p 0)))
  ids := ids
  ends := ends
  new j e he := by
    have := new e he
    constructor <;> (intro h; rw [h] at this; simp [names, Pred.symNo] at this; try omega)
  newNe j := by simp [names]
  inj i j h := by simpa [names] using h

theorem two_ok : NestInput names R (two (.not (a (z 1)))) :=
  input_of (by decide +kernel) (by decide +kernel) (by decide +kernel) (by decide +kernel) (by decide +kernel)

theorem two_ok' : NestInput names R (two .ff) :=
  input_of (by decide +kernel) (by decide +kernel) (by decide +kernel) (by decide +kernel) (by decide +kernel)

theorem plain_ok : NestInput names R plain :=
  input_of (by decide +kernel) (by decide +kernel) (by decide +kernel) (by decide +kernel) (by decide +kernel)

theorem three_ok : NestInput names R three :=
  input_of (by decide +kernel) (by decide +kernel) (by decide +kernel) (by decide +kernel) (by decide +kernel)

/-- Contracted vertices, and the ids of the remaining edges. -/
def shape (G : LGraph P) : Option (List LoopContraction × List (Pred × Pred × Nat)) :=
  (nestedTransform names R G).map fun x => (x.loops, x.G.map fun e => (e.src, e.tgt, e.id))

def answer (r : Outcome (VerificationResult P)) : Outcome (VAnswer × Option (List (Option Nat))) :=
  r.andThen fun r => match r with
  | ⟨ans, .invalidity ds⟩ => .done (ans, some (ds.map DStep.clauseId))
  | ⟨ans, .validity _⟩ => .done (ans, some [])
  | ⟨ans, .none⟩ => .done (ans, none)

def engine (core : Core) (w : Bool) (G : LGraph P) : Outcome (VAnswer × Option (List (Option Nat))) :=
  answer (tpaNested (net core) R keep propQ propKeep id names false w G)

def network (core : Core) (w : Bool) (G : LGraph P) : Option (Outcome (VAnswer × Option (List (Option Nat)))) :=
  (nestedTransform names R G).map fun x => answer (netSolve (net core) x.R w x.G)

/-- **C72** The hypotheses are met; the cycle of two vertices is contracted to one vertex with a self-loop. -/
theorem C72_example : NestInput names R (two (.not (a (z 1)))) ∧ (two (.not (a (z 1)))).NoParallel ∧
    (net .split).Ok ∧ propSmt.Complete ∧ propQ.Exact ∧ propKeep.Exact ∧ keep.Exact ∧
    shape (two (.not (a (z 1)))) = some ([⟨.p 7, [.p 0, .p 1]⟩], [(.tru, .p 7, 0), (.p 7, .fls, 3), (.p 7, .p 7, 4)]) ∧
    engine .split true plain = .done (.unsafeAns, some [none, some 0, some 1, some 3]) ∧
    engine .basic true (two .ff) = .done (.safe, some []) :=
  ⟨two_ok, noParallel_of two_ok.ids (by decide +kernel), net_ok _, propSmt_complete, propQ_exact, propKeep_exact, keep_exact,
    by decide +kernel, by decide +kernel, by decide +kernel⟩

/-- **C72** The failures occur: without witnesses an UNSAFE answer is lost; with p1 on two cycles the vertex for the first is contracted
with the third vertex, and a SAFE answer is lost. -/
theorem C72_failures : network .split false plain = some (.done (.unsafeAns, none)) ∧ engine .split false plain = .thrown ∧
    shape three = some ([⟨.p 7, [.p 1, .p 2]⟩, ⟨.p 8, [.p 7, .p 3]⟩], [(.tru, .p 8, 0), (.p 8, .fls, 5), (.p 8, .p 8, 7)]) ∧
    network .basic true three = some (.done (.safe, some [])) ∧ engine .basic true three = .thrown ∧ NestInput names R three :=
  ⟨by decide +kernel, by decide +kernel, by decide +kernel, by decide +kernel, by decide +kernel, three_ok⟩

end NestEx
end Golem
