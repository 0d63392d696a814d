import Verif.Lemmas.Names
import Verif.Props.Vmt
import Verif.Props.ScriptEx

/-! Concrete files for C73: a safe and an unsafe one, and a file outside of the hypotheses. -/

namespace Golem
namespace Vmt
namespace VmtEx
open SExpr (SExp)
open Front (ofB)
open Front.ScriptEx (B B_ok)
open CheckEx (P eng nameIff nameIff_exact isBase)
open LinearEx (keep keep_exact)

/-- Booleans; no arithmetic. -/
def M : VSem P where
  num s := if s = "true".toList then some true else if s = "false".toList then some false else none
  leq _ := false
  plus _ := false
  neg a := a
  minus _ := false
  times _ := false

def L : VLogic P where
  const s := if s = "true".toList then some (.const true) else if s = "false".toList then some (.const false) else none
  mkAnd | [a, b] => some (B.and2 a b) | _ => none
  mkOr | [a, b] => some (B.or2 a b) | _ => none
  mkNot | [a] => some (B.not1 a) | _ => none
  mkEq | [a, b] => some (B.eq2 a b) | _ => none
  mkLeq _ := none
  mkPlus _ := none
  mkNeg _ := none
  mkMinus _ := none
  mkTimes _ := none

theorem L_ok : L.Ok M := by
  have hB := B_ok
  refine ⟨?_, ?_, ?_, ?_, ?_, ?_, ?_, ?_, ?_, ?_, ?_⟩
  · intro s t h
    simp only [L] at h
    by_cases h1 : s = "true".toList
    · rw [if_pos h1] at h
      cases h
      exact ⟨rfl, fun ρ => by simp only [M]; rw [if_pos h1]; rfl⟩
    · rw [if_neg h1] at h
      by_cases h2 : s = "false".toList
      · rw [if_pos h2] at h
        cases h
        exact ⟨rfl, fun ρ => by simp only [M]; rw [if_neg h1, if_pos h2]; rfl⟩
      · rw [if_neg h2] at h; cases h
  · intro ts t h ρ
    simp only [L] at h
    split at h
    · cases h; rw [hB.and2]; simp
    · cases h
  · intro ts t h ρ
    simp only [L] at h
    split at h
    · cases h; rw [hB.or2]; simp
    · cases h
  · intro ts t h
    simp only [L] at h
    split at h
    · cases h; exact ⟨_, rfl, fun ρ => hB.not1 _ ρ⟩
    · cases h
  · intro ts t h ρ
    simp only [L] at h
    split at h
    · cases h; rw [hB.eq2]; simp [allEq]
    · cases h
  · intro ts t h; cases h
  · intro ts t h; cases h
  · intro ts t h; cases h
  · intro ts t h; cases h
  · intro ts t h; cases h
  · intro ts t h x hx
    simp only [L] at h
    rcases h with h | h | h | h | h | h | h | h | ⟨a, -, h⟩
    all_goals first
      | cases h
      | split at h
        · cases h
          simp only [B, Tm.vars, List.mem_append] at hx
          simp only [List.flatMap_cons, List.flatMap_nil, List.append_nil, List.mem_append]
          grind
        · cases h

/-- A file: `x` starts false; the next value of `x` is given by `step`; `x` should stay false. -/
def text (step i : String) : List Char :=
  ("(declare-fun x () Bool)(declare-fun y () Bool)(define-fun sv () Bool (! x :next y))" ++
   "(define-fun nx () Bool (not x))(define-fun in () Bool (! nx :init true))(define-fun tr () Bool (! (= y " ++ step ++
   ") :trans true))(define-fun p () Bool (! nx :invar-property " ++ i ++ "))").toList

def at_ (s : String) : SExp := .atom s.toList

/-- The expressions of the file. -/
def file (step : SExp) (i : String) : List SExp :=
  [.list [at_ "declare-fun", at_ "x", .list [], at_ "Bool"],
   .list [at_ "declare-fun", at_ "y", .list [], at_ "Bool"],
   .list [at_ "define-fun", at_ "sv", .list [], at_ "Bool", .list [at_ "!", at_ "x", at_ ":next", at_ "y"]],
   .list [at_ "define-fun", at_ "nx", .list [], at_ "Bool", .list [at_ "not", at_ "x"]],
   .list [at_ "define-fun", at_ "in", .list [], at_ "Bool", .list [at_ "!", at_ "nx", at_ ":init", at_ "true"]],
   .list [at_ "define-fun", at_ "tr", .list [], at_ "Bool", .list [at_ "!", .list [at_ "=", at_ "y", step], at_ ":trans", at_ "true"]],
   .list [at_ "define-fun", at_ "p", .list [], at_ "Bool", .list [at_ "!", at_ "nx", at_ ":invar-property", at_ i]]]

def defs (step : SExp) (i : String) : List Def :=
  [⟨"sv".toList, at_ "x", .next "y".toList⟩, ⟨"nx".toList, .list [at_ "not", at_ "x"], .plain⟩,
   ⟨"in".toList, at_ "nx", .init⟩, ⟨"tr".toList, .list [at_ "=", at_ "y", step], .trans⟩, ⟨"p".toList, at_ "nx", .invar i.toList⟩]

def vars : List (Str × Str) := [("x".toList, "Bool".toList), ("y".toList, "Bool".toList)]

theorem contents (step : SExp) (i : String) : Contents (file step i) vars (defs step i) :=
  .cons .declare (.cons .declare (.cons (.define .next) (.cons (.define (.plain (by decide))) (.cons (.define .initTrue)
    (.cons (.define .transTrue) (.cons (.define .invar) .nil))))))

theorem problem (step : SExp) (i : String) : Problem (file step i) vars (defs step i) (.invar i.toList) := by
  refine ⟨contents step i, rfl, rfl, ?_, ?_, ?_⟩
  · simp [Once, defs]
  · intro d hd
    simp only [defs, List.mem_cons, List.not_mem_nil, or_false] at hd
    rcases hd with rfl | rfl | rfl | rfl | rfl <;> simp
  · intro d hd y hy
    simp only [defs, List.mem_cons, List.not_mem_nil, or_false] at hd
    rcases hd with rfl | rfl | rfl | rfl | rfl <;> cases hy
    exact ⟨by simp [vars], "x".toList, rfl, by simp [vars]⟩

def same : SExp := at_ "x"
def flip : SExp := .list [at_ "not", at_ "x"]

mutual
def eqv : SExp → SExp → Bool
  | .atom a, .atom b => decide (a = b)
  | .list as, .list bs => eqvs as bs
  | _, _ => false

def eqvs : List SExp → List SExp → Bool
  | [], [] => true
  | a :: as, b :: bs => eqv a b && eqvs as bs
  | _, _ => false
end

mutual
theorem eqv_ok : ∀ (a b : SExp), eqv a b = true → a = b
  | .atom a, .atom b, h => by rw [of_decide_eq_true h]
  | .list as, .list bs, h => by rw [eqvs_ok as bs h]
  | .atom _, .list _, h => by cases h
  | .list _, .atom _, h => by cases h

theorem eqvs_ok : ∀ (a b : List SExp), eqvs a b = true → a = b
  | [], [], _ => rfl
  | a :: as, b :: bs, h => by
    simp only [eqvs, Bool.and_eq_true] at h
    rw [eqv_ok a b h.1, eqvs_ok as bs h.2]
  | [], _ :: _, h => by cases h
  | _ :: _, [], h => by cases h
end

def reads (o : Outcome (List SExp)) (f : List SExp) : Bool :=
  match o with
  | .done f' => eqvs f' f
  | _ => false

theorem reads_ok {o : Outcome (List SExp)} {f : List SExp} (h : reads o f = true) : o = .done f := by
  unfold reads at h
  split at h
  · rw [eqvs_ok _ _ h]
  · cases h

theorem read : (SExpr.readLoop 400 [] (SExpr.start (text "x" "0")) = .done (file same "0") ∧
    SExpr.readLoop 400 [] (SExpr.start (text "(not x)" "0")) = .done (file flip "0")) :=
  ⟨reads_ok (by decide +kernel), reads_ok (by decide +kernel)⟩

def noLive : VModel P → List VLine × Outcome Unit := fun _ => ([], .thrown)

def go (step : String) (i : String) : List VLine × Outcome Unit :=
  run 400 (fun _ => L) nameIff keep (eng false 10) noLive (text step i)

def apart (o : Option (List (Clause P))) : Bool :=
  o.all fun cs => (initialGraph cs).edges.all fun e => (initialGraph cs).edges.all fun e' =>
    decide (e = e') || (nameIff e.fla).vars.all fun x => !(isBase x && decide (x ∈ (nameIff e'.fla).vars))

theorem apart_ok {step : SExp} {i : String}
    (h : apart (((resolveAll ⟨[], []⟩ (file step i)).bind (build fun _ => L)).bind asChcs) = true) :
    ∀ m cs, (resolveAll ⟨[], []⟩ (file step i)).bind (build fun _ => L) = some m → asChcs m = some cs → RewritesApart nameIff cs := by
  intro m cs hm hcs e he e' he' hne n hn hn'
  rw [hm] at h
  simp only [Option.bind_some, hcs, apart, Option.all_some, List.all_eq_true, Bool.or_eq_true, decide_eq_true_eq] at h
  rcases h e he e' he' with h | h
  · exact hne h
  · have := h _ hn
    simp [isBase, hn'] at this

theorem right (n : Nat) : CheckEngine.Right (eng false n) :=
  (C57_spacer propSmt_sound QEEx.boolMbp_sound ⟨fun _ _ => Iff.rfl, fun _ _ h => h⟩ (fun _ _ => Iff.rfl)
    (.inl propSmt_complete)).right

def line (r : List VLine × Outcome Unit) (l : VLine) : Bool :=
  match r with
  | ([l'], .done ()) => decide (l' = l)
  | _ => false

theorem line_ok {r : List VLine × Outcome Unit} {l : VLine} (h : line r l = true) : r = ([l], .done ()) := by
  unfold line at h
  split at h
  · rw [of_decide_eq_true h]
  · cases h

theorem run_read {n : Nat} {input : Str} {f : List SExp} (h : SExpr.readLoop n [] (SExpr.start input) = .done f)
    (LL : Bool → VLogic P) (rw : Fla P → Fla P) (E : ElimExcept P) (e : HEngine P) (lv : VModel P → List VLine × Outcome Unit) :
    run n LL rw E e lv input = runModel LL rw E e lv f := by
  unfold run; rw [h]

/-- The text of a file in which `x` keeps its value: `safe` is printed, and the property is an invariant. -/
theorem C73_example_safe : go "x" "0" = ([.safe], .done ()) ∧ Safe M (vars.map Prod.fst) (defs same "0") (.invar "0".toList) := by
  have h : runModel (fun _ => L) nameIff keep (eng false 10) noLive (file same "0") = ([.safe], .done ()) :=
    line_ok (by decide +kernel)
  refine ⟨by rw [go, run_read read.1, h], ?_⟩
  exact (C73_vmt_safety (live := noLive) (fun _ => L_ok) nameIff_exact keep_exact (right 10) (problem same "0")
    (apart_ok (by decide +kernel))).1 (by rw [h]; simp)

/-- The text of a file in which `x` is flipped: `unsafe` is printed, and the property is not an invariant. -/
theorem C73_example_unsafe : go "(not x)" "0" = ([.unsafeAns], .done ()) ∧
    ¬ Safe M (vars.map Prod.fst) (defs flip "0") (.invar "0".toList) := by
  have h : runModel (fun _ => L) nameIff keep (eng false 10) noLive (file flip "0") = ([.unsafeAns], .done ()) :=
    line_ok (by decide +kernel)
  refine ⟨by rw [go, run_read read.2, h], ?_⟩
  exact (C73_vmt_safety (live := noLive) (fun _ => L_ok) nameIff_exact keep_exact (right 10) (problem flip "0")
    (apart_ok (by decide +kernel))).2 (by rw [h]; simp)

/-- The index of a property is the number written, modulo two to the 32. -/
theorem C73_index_number (n : Nat) (h : n < 2 ^ 64) : stoull (Names.showNat n) = some (n % 2 ^ 32) := by
  rw [stoull, Names.readNat_showNat, Option.bind_some, if_pos h]

/-- The next version of a versioned variable is the one with the next number. -/
theorem C73_next_name (s : Str) (v : Int) (h : -2147483648 ≤ v ∧ v < 2147483648) (hs : Names.rfind Names.verSep (s ++ Names.verSep ++ Names.showInt v) = some s.length) :
    nextName (s ++ Names.verSep ++ Names.showInt v) = some (s ++ Names.verSep ++ Names.showInt (v + 1)) := by
  have hl : (s ++ Names.verSep).length = s.length + 2 := by simp [Names.verSep]
  rw [nextName, Names.sendVarThroughTime, hs]
  show (Names.stoi ((s ++ Names.verSep ++ Names.showInt v).drop (s.length + 2))).map (fun w => (s ++ Names.verSep ++ Names.showInt v).take (s.length + 2) ++ Names.showInt (w + 1)) = _
  rw [← hl, List.drop_left, List.take_left, Names.stoi_showInt v h]
  rfl

/-- The hypotheses of `C73_answered` and of `C73_index` are met: index zero, and index one. -/
theorem C73_example_index : stoull "0".toList = some 0 ∧
    ((resolveAll ⟨[], []⟩ (file same "0")).bind (build fun _ => L)).isSome ∧
    runModel (fun _ => L) nameIff keep (eng false 10) noLive (file same "1") = ([], .thrown) :=
  ⟨by decide +kernel, by decide +kernel,
   C73_index (M := M) (fun _ => L_ok) (problem same "1") (by decide +kernel)⟩

end VmtEx
end Vmt
end Golem
