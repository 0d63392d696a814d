import Verif.Props.AletheProof

/-! Cases for C78. -/

namespace Golem
namespace Alethe

/-! ### A derivation: `x = 0 → P x`, `P x ∧ y = x + 1 → P y`, `P x ∧ x > 0 → false` -/

def cX : Str := ['x']
def cY : Str := ['y']
def cP : Str := ['P']
def vx : Term := .var cX .int
def vy : Term := .var cY .int

def exClauses : List Term :=
  [.all [(cX, .int), (cY, .int)] (.op .imp [.op .eq [vx, .num 0], .app cP [vx]]),
   .all [(cX, .int), (cY, .int)] (.op .imp [.op .and [.app cP [vx], .op .eq [vy, .op .add [vx, .num 1]]], .app cP [.op .add [vx, .num 1]]]),
   .all [(cX, .int)] (.op .imp [.op .and [.app cP [vx], .op .gt [vx, .num 0]], .bool false])]

def exDeriv : List Coarse :=
  [⟨0, [], .bool true, []⟩,
   ⟨0, [0], .app cP [.num 0], [(cX, .int 0)]⟩,
   ⟨1, [1], .app cP [.num 1], [(cX, .int 0), (cY, .int 1)]⟩,
   ⟨2, [2], .bool false, [(cX, .int 1)]⟩]

theorem exDerivation : Derivation exClauses exDeriv := by
  refine ⟨⟨_, rfl, rfl⟩, fun i d hi hd => ?_, by decide, fun d hd => ?_⟩
  · match i, hi with
    | 1, _ =>
      cases hd
      refine ⟨_, _, _, rfl, by simp, rfl, rfl, ?_, ?_, ?_, by simp, by decide, ⟨_, rfl, rfl⟩, rfl⟩
      · intro x hx v hv
        simp [vars, varss, vx] at hx
        subst hx
        simp [List.lookup] at hv
        subst hv
        exact ⟨by simp, rfl⟩
      · intro x hx hk
        simp [vars, varss, vx] at hx hk
        rcases hx with rfl | rfl
        · rfl
        · exact absurd hk (by decide)
      · intro h
        exact absurd ⟨.int, by simp [vars, varss, vx]⟩ (h (cX, .int) (by simp))
    | 2, _ =>
      cases hd
      refine ⟨_, _, _, rfl, by simp, rfl, rfl, ?_, ?_, ?_, by simp, by decide, ⟨_, rfl, rfl⟩, rfl⟩
      · intro x hx v hv
        simp [vars, varss, vx, vy] at hx
        rcases hx with rfl | rfl | rfl <;> (cases hv; exact ⟨by simp, rfl⟩)
      · intro x hx hk
        simp at hx
        rcases hx with rfl | rfl <;> rfl
      · intro h
        exact absurd ⟨.int, by simp [vars, varss, vx]⟩ (h (cX, .int) (by simp))
    | 3, _ =>
      cases hd
      refine ⟨_, _, _, rfl, by simp, rfl, rfl, ?_, ?_, ?_, by simp, by decide, ⟨_, rfl, rfl⟩, rfl⟩
      · intro x hx v hv
        simp [vars, varss, vx] at hx
        subst hx
        simp [List.lookup] at hv
        subst hv
        exact ⟨by simp, rfl⟩
      · intro x hx hk
        simp at hx
        subst hx; rfl
      · intro h
        exact absurd ⟨.int, by simp [vars, varss, vx]⟩ (h (cX, .int) (by simp))
    | (j + 4), _ => simp [exDeriv] at hd
  · cases hd; rfl

/-- The example refutes its clauses. -/
example (I : Interp) (hI : Std I) : ∃ A ∈ exClauses, (eval I A).toBool = false :=
  C78_refutes exClauses exDeriv exDerivation (by decide) I hI

/-- The proof. -/
example : (buildProof exClauses exDeriv).map (fun ss => ss.map fun s => (s.rule, s.premises)) =
    some [(" ", []), (" ", []), (" ", []), ("qnt_rm_unused", []), ("equiv1", [3]), ("resolution", [0, 4]), ("forall_inst", []), ("or",
    [6]), ("resolution", [7, 5]), ("implies", [8]), ("eq_simplify", []), ("true", []), ("equiv2", [10]), ("resolution", [11, 12]),
    ("resolution", [9, 13]), ("forall_inst", []), ("or", [15]), ("resolution", [16, 1]), ("implies", [17]), ("sum_simplify", []),
    ("cong", [19]), ("eq_simplify", []), ("trans", [20, 21]), ("cong", [22]), ("and_simplify", []), ("trans", [23, 24]), ("equiv2",
    [25]), ("resolution", [14, 26]), ("resolution", [18, 27]), ("sum_simplify", []), ("cong", [29]), ("equiv1", [30]), ("resolution",
    [31, 28]), ("forall_inst", []), ("or", [33]), ("resolution", [34, 2]), ("implies", [35]), ("comp_simplify", []), ("comp_simplify",
    []), ("cong", [38]), ("not_simplify", []), ("trans", [37, 39, 40]), ("cong", [41]), ("and_simplify", []), ("trans", [42, 43]),
    ("equiv2", [44]), ("resolution", [32, 45]), ("resolution", [36, 46]), ("false", []), ("resolution", [47, 48])] := by
  decide +kernel

/-! ### Clauses without quantifiers -/

/-- `true → Q` and `Q → false`, with `Q` a predicate without arguments. -/
def groundClauses : List Term := [.op .imp [.bool true, .var cP .bool], .op .imp [.var cP .bool, .bool false]]

def groundDeriv : List Coarse := [⟨0, [], .bool true, []⟩, ⟨0, [0], .var cP .bool, []⟩, ⟨1, [1], .bool false, []⟩]

def groundProof : List Step :=
  [⟨true, [.named (.op .imp [.bool true, .var cP .bool]) (.a 0)], " ", [], []⟩,
   ⟨true, [.named (.op .imp [.var cP .bool, .bool false]) (.a 1)], " ", [], []⟩,
   ⟨false, [neg (.named (.bool true) (.lhs 0)), .var cP .bool], "implies", [1], []⟩,
   ⟨false, [.bool true], "true", [], []⟩,
   ⟨false, [.var cP .bool], "resolution", [2, 3], []⟩,
   ⟨false, [neg (.named (.var cP .bool) (.lhs 1)), .bool false], "implies", [4], []⟩,
   ⟨false, [.bool false], "resolution", [5, 4], []⟩,
   ⟨false, [neg (.bool false)], "false", [], []⟩,
   ⟨false, [], "resolution", [6, 7], []⟩]

/-- C78: for clauses without quantifiers the proof is not right: the step with rule `implies` cites the step before it, whatever that is. -/
theorem C78_ground_finding : buildProof groundClauses groundDeriv = some groundProof ∧ ¬ Correct groundProof := by
  refine ⟨rfl, fun h => ?_⟩
  have h2 := (h 2 _ rfl rfl).2.2 ⟨stdOp, fun _ _ => false, fun _ => 0, fun _ => false, fun n => match n with
    | .a 0 => .bool false
    | .a 1 => .bool true
    | .lhs 0 => .bool true
    | _ => .bool false⟩ (Std.logStd rfl) (by
      intro s hs d hd
      simp only [groundProof, List.mem_cons, List.not_mem_nil, or_false] at hs
      rcases hs with rfl | rfl | rfl | rfl | rfl | rfl | rfl | rfl | rfl <;> simp [defss, defs, neg] at hd <;>
        (subst hd; simp [eval, evals, stdOp, Val.toBool])) (by
      intro p hp s' hs'
      cases List.mem_singleton.1 hp
      cases hs'
      rw [holds_one]
      simp [eval, evals, stdOp, Val.toBool])
  rw [holds_two] at h2
  simp [neg, eval, evals, stdOp, Val.toBool] at h2

end Alethe
end Golem
