import Verif.Props.Its
import Verif.Props.TermRunEx

/-! Concrete files for C76. -/

namespace Golem
namespace Its
namespace Ex
open Spec SExpr TermRunEx

def str (s : String) : Spec.Str := s.toList

/-- The rule `src(x) → tgt(y)` with a guard. -/
def step (s t : String) (g : Gx) : Item := .rule ⟨str s, [str "x"], str t, [str "y"], some g⟩

def x : Tx := .var (str "x")
def y : Tx := .var (str "y")

def header (locs : List String) : List Item :=
  [.format (str "LCTRS"), .theory (str "Ints")] ++ locs.map (fun f => .fn (str f) 1) ++ [.entry (str "f")]

/-- `f(x) → f(y) [x = y]`. -/
def stayFile : List Item := header ["f"] ++ [step "f" "f" (.cmp .eq x y)]

/-- `f(x) → g(y) [x = y]`, `g(x) → h(y) [∃ z. y = 2 * z ∧ (z < x ∨ z > x + 1)]`. -/
def chainFile : List Item := header ["f", "g", "h"] ++ [step "f" "g" (.cmp .eq x y),
  step "g" "h" (.ex [str "z"] (.and [.cmp .eq y (.mul [.num 2, .var (str "z")]),
    .or [.cmp .lt (.var (str "z")) x, .cmp .gt (.var (str "z")) (.add [x, .num 1])]]))]

/-- The logic accepts every product. -/
def anyProduct : List (Tm ctrTheory) → Bool := fun _ => true

theorem isName_of {s : Spec.Str} (h : (match s with | [] => false | c :: _ => !Names.isDigit c && decide (c ≠ '-')) = true) :
    IsName s := by
  cases s with
  | nil => cases h
  | cons c r =>
    simp only [Bool.and_eq_true, Bool.not_eq_true', decide_eq_true_eq] at h
    refine ⟨by simp, fun d hd => ?_⟩
    cases hd
    exact h

theorem names_of {l : List Spec.Str}
    (h : (l.all fun s => match s with | [] => false | c :: _ => !Names.isDigit c && decide (c ≠ '-')) = true) : ∀ x ∈ l, IsName x :=
  fun x hx => isName_of (List.all_eq_true.1 h x hx)

theorem ruleOk_of {items : List Item} {s t : String} {g : Gx} (h1 : .fn (str s) 1 ∈ items) (h2 : .fn (str t) 1 ∈ items)
    (h3 : g.Ok) (h4 : ∀ x ∈ g.vars, IsName x) (h5 : ∀ x ∈ g.bound, x ∉ [str "x", str "y"]) :
    SRule.Ok items ⟨str s, [str "x"], str t, [str "y"], some g⟩ := by
  have hn : ∀ x ∈ [str "x", str "y"], IsName x := names_of (by decide +kernel)
  refine ⟨h1, h2, hn, fun g' hg => ?_⟩
  cases hg
  exact ⟨h3, h4, h5⟩

theorem stay_wf : WellFormed stayFile := by
  refine ⟨by decide +kernel, ⟨str "f", 1, rfl, by simp [stayFile, header]⟩, fun r hr => ?_⟩
  have : r = ⟨str "f", [str "x"], str "f", [str "y"], some (.cmp .eq x y)⟩ := by
    simpa [stayFile, header, step] using hr
  subst this
  exact ruleOk_of (by simp [stayFile, header]) (by simp [stayFile, header]) ⟨trivial, trivial⟩ (names_of (by decide +kernel))
    (by simp [Gx.bound])

theorem chain_wf : WellFormed chainFile := by
  refine ⟨by decide +kernel, ⟨str "f", 1, rfl, by simp [chainFile, header]⟩, fun r hr => ?_⟩
  have := hr
  simp [chainFile, header, step] at this
  rcases this with rfl | rfl
  · exact ruleOk_of (by simp [chainFile, header]) (by simp [chainFile, header]) ⟨trivial, trivial⟩ (names_of (by decide +kernel))
      (by simp [Gx.bound])
  · refine ruleOk_of (by simp [chainFile, header]) (by simp [chainFile, header]) ?_ (names_of (by decide +kernel)) ?_
    · simp [Gx.Ok, Gx.Oks, Tx.Ok, Tx.Oks, x, y, Gx.bound, Gx.bounds]
    · simp only [Gx.bound, Gx.bounds, List.append_nil, List.mem_singleton]
      rintro z rfl
      decide +kernel

/-- The clauses of a file. -/
def chcs (items : List SExp) : Option (List (Clause P)) :=
  match resolveAll .empty items with
  | none => none
  | some its =>
    match asChcs anyProduct its with
    | .ok cs => some cs
    | _ => none

theorem chcs_some {items : List SExp} {cs : List (Clause P)} (h : chcs items = some cs) :
    ∃ its, resolveAll .empty items = some its ∧ asChcs anyProduct its = .ok cs := by
  unfold chcs at h
  split at h
  · cases h
  · rename_i its hi
    split at h
    · cases h; exact ⟨its, hi, by assumption⟩
    · cases h

def stayCs : List (Clause P) :=
  [⟨(.p 0, [v "y"]), stay, [(.p 0, [v "x"])]⟩, ⟨(.p 0, [v "e0"]), .tt, []⟩]

theorem stay_chcs : chcs (stayFile.map Item.toS) = some stayCs := by
  decide +kernel

theorem stay_prepare : prepare shy id keepE order 5 fresh stayCs = .done (some stayTS) := eq_of_same (by decide +kernel)

def twice : Tm P := .ap2 IntSym.times (intConst 2) (v "z")

def chainCs : List (Clause P) :=
  [⟨(.p 1, [v "y"]), stay, [(.p 0, [v "x"])]⟩,
   ⟨(.p 2, [v "y"]), .and (.eq (v "y") twice) (.and (.or (.atom (.ap2 IntSym.lt (v "z") (v "x")))
      (.or (.atom (.ap2 IntSym.gt (v "z") (.ap2 IntSym.plus (v "x") (intConst 1)))) .ff)) .tt), [(.p 1, [v "x"])]⟩,
   ⟨(.p 0, [v "e0"]), .tt, []⟩]

theorem chain_chcs : chcs (chainFile.map Item.toS) = some chainCs := by
  decide +kernel

theorem chain_prepare : prepare shy id keepE order 5 fresh chainCs = .done none := by
  have h : (match prepare shy id keepE order 5 fresh chainCs with | .done none => true | _ => false) = true := by decide +kernel
  split at h
  · assumption
  · cases h

/-- What C76 asks of the clauses of a file. -/
theorem hyps_of {items : List Item} {cs : List (Clause P)} (hc : chcs (items.map Item.toS) = some cs) (m : Meets cs) :
    ∀ its cs, resolveAll .empty (items.map Item.toS) = some its → asChcs anyProduct its = .ok cs → RewritesApart id cs ∧
      NoStrayLoop shy id keepE order 5 cs ∧
      ∀ ts, prepare shy id keepE order 5 fresh cs = .done (some ts) → NoLeftovers ts ∧ CounterFresh ts ∧ B.Right ts := by
  obtain ⟨its, h1, h2⟩ := chcs_some hc
  intro its' cs' h1' h2'
  rw [h1] at h1'
  cases h1'
  rw [h2] at h2'
  cases h2'
  exact ⟨m.apart, m.noStray, m.system⟩

theorem prints_of {items : List SExp} {cs : List (Clause P)} (hc : chcs items = some cs) {o : Option (List Char)} {out : List TLine}
    (h : ClausesPrint shy id keepE order 5 fresh B o cs out) : ItsPrint anyProduct shy id keepE order 5 fresh B o items out := by
  obtain ⟨its, h1, h2⟩ := chcs_some hc
  unfold ItsPrint
  rw [h1]
  simp only
  rw [h2]
  exact h

theorem stay_meets : Meets stayCs :=
  meets_of (legal_of (by decide +kernel)) (by decide +kernel) (noStray_of_near (by decide +kernel)) (by decide +kernel)

theorem chain_meets : Meets chainCs :=
  meets_of (legal_of (by decide +kernel)) (by decide +kernel) (noStray_of_near (by decide +kernel)) (by decide +kernel)

attribute [local irreducible] ClausesPrint ItsPrint

/-- `f(x) → f(x)`: the lasso finder prints `NO`, and C76 says that the program of the file has an infinite run. -/
theorem C76_example_no : WellFormed stayFile ∧
    ItsPrint anyProduct shy id keepE order 5 fresh B (some "lasso-finder".toList) (stayFile.map Item.toS) [.no] ∧
    NonTerminating stayFile := by
  have hp := prints_of stay_chcs
    (print_of stay_prepare (name := "lasso-finder".toList) (m := .lassoFinder) (by decide +kernel) stay_answer (l := .no) rfl)
  refine ⟨stay_wf, hp, ?_⟩
  rcases (C76_its_answer stay_wf shy_sound id_exact keepE_exact order_ok fresh_new (hyps_of stay_chcs stay_meets) hp).2.2 (by simp) with
    h | ⟨its, cs, ts, h1, h2, h3, h4⟩
  · exact h
  · obtain ⟨its', h1', h2'⟩ := chcs_some stay_chcs
    rw [h1] at h1'
    cases h1'
    rw [h2] at h2'
    cases h2'
    rw [stay_prepare] at h3
    cases h3
    exact absurd ⟨[(0 : Int)], fun _ => (0 : Int), trivial, rfl⟩ h4

/-- A program without a loop: `YES` is printed. -/
theorem C76_example_yes : WellFormed chainFile ∧
    ItsPrint anyProduct shy id keepE order 5 fresh B none (chainFile.map Item.toS) [.yes] ∧ ¬ NonTerminating chainFile := by
  have hc : ClausesPrint shy id keepE order 5 fresh B none chainCs [.yes] := by
    unfold ClausesPrint
    rw [chain_prepare]
    exact .inr rfl
  have hp := prints_of chain_chcs hc
  exact ⟨chain_wf, hp,
    (C76_its_answer chain_wf shy_sound id_exact keepE_exact order_ok fresh_new (hyps_of chain_chcs chain_meets) hp).2.1 (by simp)⟩

/-! ### Disagreements -/

/-- `f(x) → f(y) [x = 1 ∧ y = 1 ∧ ∃ x. x = 2]`. -/
def captureFile : List Item := header ["f"] ++
  [step "f" "f" (.and [.cmp .eq x (.num 1), .cmp .eq y (.num 1), .ex [str "x"] (.cmp .eq x (.num 2))])]

def captureCs : List (Clause P) :=
  [⟨(.p 0, [v "y"]), .and (.eq (v "x") (intConst 1)) (.and (.eq (v "y") (intConst 1)) (.and (.eq (v "x") (intConst 2)) .tt)),
    [(.p 0, [v "x"])]⟩, ⟨(.p 0, [v "e0"]), .tt, []⟩]

/-- DISAGREEMENT. The quantifier `exists` is dropped and its variables are not renamed (`src/termination/Frontend.cc:194-198`): a variable
bound by it is taken for the variable of the rule with the same name. The program runs forever; its clauses have no infinite run. -/
theorem C76_captured : NonTerminating captureFile ∧ chcs (captureFile.map Item.toS) = some captureCs ∧ ¬ ClausesDiverge captureCs := by
  refine ⟨⟨fun _ => (str "f", [1]), ⟨1, by simp [captureFile, header], by simp [captureFile, header], rfl⟩, fun i => ?_⟩,
    by decide +kernel, ?_⟩
  · refine ⟨⟨str "f", [str "x"], str "f", [str "y"], _⟩, List.mem_append_right _ (List.mem_singleton.2 rfl), fun _ => 1, rfl, rfl, ?_⟩
    intro g hg
    cases hg
    simp only [Gx.sat, Gx.satAll, Cmp.holds, Tx.val, x, y]
    exact ⟨trivial, trivial, ⟨fun s => if s = str "x" then 2 else 1, fun s hs => if_neg (by simpa using hs), if_pos rfl⟩, trivial⟩
  · rintro ⟨f, _, hf⟩
    obtain ⟨c, hc, ρ, hh, hr⟩ := hf 0
    simp only [captureCs, List.mem_cons, List.not_mem_nil, or_false] at hc
    rcases hc with rfl | rfl
    · obtain ⟨h1, -, h2, -⟩ := hh
      have : (1 : Int) = 2 := Eq.trans (Eq.symm h1) h2
      omega
    · cases hr

/-- `(rule (f x) (f 0) :guard (>= x 1))`. -/
def numeralFile : List SExp := (header ["f"]).map Item.toS ++
  [.list [Spec.a "rule", .list [Spec.a "f", Spec.a "x"], .list [Spec.a "f", Spec.a "0"], Spec.a ":guard",
    .list [Spec.a ">=", Spec.a "x", Spec.a "1"]]]

def numeralCs : List (Clause P) :=
  [⟨(.p 0, [v "0"]), geq (v "x") (intConst 1), [(.p 0, [v "x"])]⟩, ⟨(.p 0, [v "e0"]), .tt, []⟩]

/-- Why C76 asks that arguments of locations are names: an argument that is a number is given to `mkIntVar` like a variable
(`src/termination/Frontend.cc:293-295, 301-303`). In this model it may then have any value: the program goes from `f(x)` with `x ≥ 1` to
`f(0)` and stops; its clauses have an infinite run. (Whether the symbol store of OpenSMT gives back the number `0` for this name is not
decided by the code of the repository.) -/
theorem C76_numeral_argument : chcs numeralFile = some numeralCs ∧ ClausesDiverge numeralCs := by
  refine ⟨by decide +kernel, fun _ => (.p 0, [(1 : Int)]), ⟨_, List.mem_cons_of_mem _ (List.mem_singleton.2 rfl), fun _ => (1 : Int), trivial, rfl⟩,
    fun i => ⟨_, List.mem_cons_self .., fun _ => (1 : Int), ?_, rfl⟩⟩
  show decide ((if (1 : Int) ≥ 1 then (1 : Int) else 0) ≠ 0) = true
  decide

/-- A guard with a negation, which the format does not have: `(rule (f x) (f x) :guard (and (> x 0) (not (= x 1))))`. -/
def foreignGuard : SExp := .list [a "and", .list [a ">", a "x", a "0"], .list [a "not", .list [a "=", a "x", a "1"]]]

theorem C76_example_foreign : Uses (str "not") foreignGuard ∧ str "not" ∉ operators.map String.toList :=
  ⟨.under _ _ (.list [a "not", .list [a "=", a "x", a "1"]]) (by decide +kernel) (.tail _ (.head _)) (.here _), by decide +kernel⟩

end Ex
end Its
end Golem
