import Verif.Props.Script
import Verif.Props.CheckSatEx

/-! A concrete script for C69, C70 and C71, and three cases outside of their hypotheses. -/

namespace Golem
namespace Front
namespace ScriptEx
open CheckEx (P eng order order_ok)
open NodeElimEx (keepE keepE_exact)
open QEEx (boolMbp boolMbp_sound)

/-- Booleans with the connectives of SMT-LIB. -/
def fn : String → List Bool → Bool
  | "not", [a] => !a
  | "and", as => as.all id
  | "or", as => as.any id
  | "=>", [a, b] => !a || b
  | "=", [a, b] => a == b
  | "true", [] => true
  | _, _ => false

def M : Sem P := ⟨fun c => c == "1", fn⟩

def theory : String → List (PT P) → Option (PT P)
  | "not", [a] => some (mkNot a)
  | "and", as => some (.and as)
  | "or", as => some (.or as)
  | "=>", [a, b] => some (.or [mkNot a, b])
  | "=", [a, b] => some (.eq a b)
  | "true", [] => some .tt
  | "false", [] => some .ff
  | _, _ => none

def L : Logic P := ⟨fun c => c == "1", theory, fun x => x == "and", .and, .or⟩

def B : BoolTerms P where
  not1 a := .ap1 () a
  and2 a b := .ap2 () a b
  or2 a b := .ap1 () (.ap2 () (.ap1 () a) (.ap1 () b))
  eq2 a b := .ap1 () (.ap2 () (.ap1 () (.ap2 () a b)) (.ap1 () (.ap2 () (.ap1 () a) (.ap1 () b))))

theorem B_ok : B.Ok := by
  refine ⟨fun a μ => ?_, fun a b μ => ?_, fun a b μ => ?_, fun a b μ => ?_, fun a b x => ?_⟩
  · exact (fun u => by cases u <;> rfl : ∀ u : Bool, P.ap1 () u = ofB (!P.truth u)) (a.eval μ)
  · exact (fun u w => by cases u <;> cases w <;> rfl : ∀ u w : Bool, P.ap2 () u w = ofB (P.truth u && P.truth w)) (a.eval μ) (b.eval μ)
  · exact (fun u w => by cases u <;> cases w <;> rfl : ∀ u w : Bool,
      P.ap1 () (P.ap2 () (P.ap1 () u) (P.ap1 () w)) = ofB (P.truth u || P.truth w)) (a.eval μ) (b.eval μ)
  · exact (fun u w => by cases u <;> cases w <;> rfl : ∀ u w : Bool,
      P.ap1 () (P.ap2 () (P.ap1 () (P.ap2 () u w)) (P.ap1 () (P.ap2 () (P.ap1 () u) (P.ap1 () w)))) = ofB (decide (u = w)))
      (a.eval μ) (b.eval μ)
  · simp only [B, Tm.vars, List.mem_append]; grind

theorem evals_mkNot (a : PT P) (I : Interp P) (ρ : String → Srt → P.Val) : (mkNot a).eval I ρ = ofB (!P.truth (a.eval I ρ)) := by
  unfold mkNot
  split
  · rename_i t
    simp only [PT.eval]
    have : ∀ b : Bool, b = (ofB (T := P) (!P.truth (ofB (T := P) (!P.truth b)))) := by
      intro u; cases u <;> rfl
    exact this _
  · rfl
  · rfl
  · rfl

theorem preds_mkNot (a : PT P) : (mkNot a).preds = a.preds := by
  unfold mkNot; split <;> rfl

theorem plain_mkNot (a : PT P) (h : a.Plain) : (mkNot a).Plain := by
  unfold mkNot; split
  · exact h
  · trivial
  · trivial
  · exact h

theorem L_ok : L.Ok M := by
  refine ⟨fun _ => rfl, ?_, fun ts I ρ => holds_and, fun ts I ρ => holds_or, ?_, fun ts => ⟨fun q hq => hq, fun h => h⟩,
    fun ts => ⟨fun q hq => hq, fun h => h⟩⟩
  · intro f args t h I ρ
    simp only [L, theory] at h
    split at h <;> simp only [Option.some.injEq, reduceCtorEq] at h <;> subst h <;> simp only [M, fn, PT.evals, PT.eval, evals_mkNot]
    · exact (fun b => by cases b <;> rfl : ∀ b : Bool, ofB (T := P) (!P.truth b) = !b) _
    · exact (fun b => by cases b <;> rfl : ∀ b : Bool, ofB (T := P) b = b) _
    · exact (fun b => by cases b <;> rfl : ∀ b : Bool, ofB (T := P) b = b) _
    · rename_i a b
      have : ∀ u w : Bool, ofB (T := P) ([ofB (T := P) (!P.truth u), w].any P.truth) = (!u || w) := by
        intro u w; cases u <;> cases w <;> rfl
      exact this _ _
    · have : ∀ u w : Bool, ofB (T := P) (decide (u = w)) = (u == w) := by
        intro u w; cases u <;> cases w <;> rfl
      exact this _ _
    · rfl
    · rfl
  · intro f args t h
    simp only [L, theory] at h
    split at h <;> simp only [Option.some.injEq, reduceCtorEq] at h <;> subst h
    · exact ⟨fun q hq => by simpa [PT.predsL, preds_mkNot] using hq, fun h => plain_mkNot _ h.1⟩
    · exact ⟨fun q hq => hq, fun h => h⟩
    · exact ⟨fun q hq => hq, fun h => h⟩
    · exact ⟨fun q hq => by simpa [PT.preds, PT.predsL, preds_mkNot] using hq, fun h => ⟨plain_mkNot _ h.1, h.2⟩⟩
    · exact ⟨fun q hq => by simpa [PT.preds, PT.predsL] using hq, fun h => ⟨h.1, h.2.1⟩⟩
    · exact ⟨fun q hq => by simp [PT.preds] at hq, fun _ => trivial⟩
    · exact ⟨fun q hq => by simp [PT.preds] at hq, fun _ => trivial⟩

/-- A key for a variable: the sort in unary, then the name. -/
def key (x : String) (s : Srt) : String := String.ofList (List.replicate s 'a' ++ '#' :: x.toList)

theorem key_inj (x : String) (s : Srt) (y : String) (s' : Srt) (h : key x s = key y s') : x = y ∧ s = s' := by
  have h1 : List.replicate s 'a' ++ '#' :: x.toList = List.replicate s' 'a' ++ '#' :: y.toList := by
    have := congrArg String.toList h
    simpa [key] using this
  have h2 : s = s' ∧ x.toList = y.toList := by
    clear h
    induction s generalizing s' with
    | zero =>
      cases s' with
      | zero => exact ⟨rfl, (List.cons.inj h1).2⟩
      | succ n => simp [List.replicate_succ] at h1
    | succ n ih =>
      cases s' with
      | zero => simp [List.replicate_succ] at h1
      | succ m =>
        simp only [List.replicate_succ, List.cons_append, List.cons.injEq, true_and] at h1
        obtain ⟨e1, e2⟩ := ih m h1
        exact ⟨by rw [e1], e2⟩
  exact ⟨String.toList_inj.1 h2.2, h2.1⟩

def q (x : String) : Ast := .qid x
def inv (a : Ast) : Ast := .lqid "inv" [a]

/-- `inv(x) ← ¬x`;  `inv(y) ← inv(x), y = x` (with a `let`);  a `check-sat`;  `false ← inv(x)`;  a `check-sat`. -/
def script : List Cmd :=
  [.ignored, .setLogic true, .declareFun "inv" [some boolSort] (some boolSort),
   .assert (.all [("x", boolSort)] (.lqid "=>" [.lqid "not" [q "x"], inv (q "x")])),
   .assert (.all [("x", boolSort), ("y", boolSort)]
     (.letE ["z"] [inv (q "x")] (.lqid "=>" [.lqid "and" [q "z", .lqid "=" [q "y", q "x"]], inv (q "y")]))),
   .checkSat,
   .assert (.all [("x", boolSort)] (.lqid "not" [inv (q "x")])),
   .checkSat]

def check (cs : List (Clause P)) : List (CheckLine P) := (checkSat propSmt id keepE order 3 (eng true 10) true true cs).1

def code (l : Nat × SLine P) : Nat × List Nat :=
  (l.1, match l.2 with
    | .error => [9]
    | .check ls => ls.map fun
      | .answer .safe => 0
      | .answer .unsafeAns => 1
      | .answer .unknown => 2
      | .witness _ => 3
      | .validation b => if b then 4 else 5)

/-- The script prints `sat` and then `unsat`, each with a witness that passes validation. -/
theorem run : (interpretScript L (checkClauses B key check fun _ => []) script).map code = [(5, [0, 3, 4]), (7, [1, 3, 4])] := by
  decide +kernel

/-- The declarations of the script. -/
theorem decls : declarations script = [("inv", 1)] := by decide +kernel

theorem theory_inv (ts : List (PT P)) : L.theory "inv" ts = none := by
  simp [L, theory]

theorem check_right : CheckRight check :=
  C71_check_sat propSmt_sound ⟨fun _ _ h => .inl h, fun _ _ h => h, fun _ ρ _ h => ⟨ρ, fun _ _ => rfl, h⟩⟩ keepE_exact order_ok
    (C57_spacer propSmt_sound boolMbp_sound ⟨fun _ _ => Iff.rfl, fun _ _ h => h⟩ (fun _ _ => Iff.rfl)
      (.inl propSmt_complete)).right fun _ _ hin => apart_of_vars (fun _ _ h => h) hin

/-- The hypotheses of C71 are met by the script. -/
theorem hyps : Standard script ∧ L.Apart (declarations script) ∧
    ∀ a ∈ assertions script, a.NoClash (declarations script) ∧ a.Clean (declarations script) [] := by
  rw [decls]
  refine ⟨⟨[.ignored], _, rfl, by simp, by simp⟩, ?_, ?_⟩
  · intro f n h ts _
    rw [List.mem_singleton] at h
    cases h
    exact theory_inv ts
  · intro a ha
    simp only [assertions, script, List.filterMap_cons, List.filterMap_nil, List.mem_cons, List.not_mem_nil, or_false] at ha
    rcases ha with rfl | rfl | rfl
    · refine ⟨by intro v hv; simp [Ast.quantified] at hv; subst hv; decide, ?_⟩
      simp [Ast.Clean, Ast.Cleans, Ast.usePreds, Ast.usesPred, inv, q, Decls.find, List.findIdx?_cons]
    · refine ⟨by intro v hv; simp [Ast.quantified] at hv; rcases hv with rfl | rfl <;> decide, ?_⟩
      simp [Ast.Clean, Ast.Cleans, Ast.usePreds, Ast.usesPred, inv, q, Decls.find, List.findIdx?_cons]
      rfl
    · refine ⟨by intro v hv; simp [Ast.quantified] at hv; subst hv; decide, ?_⟩
      simp [Ast.Clean, Ast.Cleans, Ast.usePreds, Ast.usesPred, inv, q, Decls.find, List.findIdx?_cons]

theorem code_answers {out : List (Nat × SLine P)} {k : Nat} {n : Nat} {ns : List Nat} (h : (k, n :: ns) ∈ out.map code) (hn : n < 2) :
    ∃ ls, (k, .check ls) ∈ out ∧ .answer (if n = 0 then .safe else .unsafeAns) ∈ ls := by
  obtain ⟨⟨k', l⟩, hl, he⟩ := List.mem_map.1 h
  unfold code at he
  cases l with
  | error => simp at he; omega
  | check ls =>
    simp only [Prod.mk.injEq] at he
    obtain ⟨rfl, he⟩ := he
    refine ⟨ls, hl, ?_⟩
    cases ls with
    | nil => cases he
    | cons x ls =>
      rw [List.map_cons, List.cons.injEq] at he
      obtain ⟨hx, -⟩ := he
      have : x = .answer (if n = 0 then .safe else .unsafeAns) := by
        split at hx
        · subst hx; rfl
        · subst hx; rfl
        · omega
        · omega
        · split at hx <;> omega
      rw [this]; exact List.mem_cons_self

/-- **C71**: the first `check-sat` prints `sat`, and the two assertions before it have a model; the second prints `unsat`, and
the three assertions have none. -/
theorem C71_example : AssertionsSat M [("inv", 1)] (assertions (script.take 5)) ∧
    ¬ AssertionsSat M [("inv", 1)] (assertions (script.take 7)) := by
  obtain ⟨h1, h2, h3⟩ := hyps
  have hm := fun k ls h => C71_script (k := k) (ls := ls) L_ok B_ok key_inj check_right (other := fun _ => []) h1 h2 h3 h
  rw [decls] at hm
  obtain ⟨ls, h5, ha⟩ := code_answers (out := interpretScript L (checkClauses B key check fun _ => []) script) (k := 5) (n := 0) (ns := [3, 4])
    (by rw [run]; simp) (by decide)
  obtain ⟨ls', h7, ha'⟩ := code_answers (out := interpretScript L (checkClauses B key check fun _ => []) script) (k := 7) (n := 1) (ns := [3, 4])
    (by rw [run]; simp) (by decide)
  exact ⟨(hm 5 ls h5).1 ha, (hm 7 ls' h7).2 ha'⟩

def px : PT P := .pred 0 [.var "x" 0]
def py : PT P := .pred 0 [.var "y" 0]
def yx : PT P := .eq (.var "y" 0) (.var "x" 0)

theorem atomic {s s' : Bool} {t d : PT P} (h : Disjunct s t s' d) (h1 : ∀ u, t ≠ .not u) (h2 : ∀ us, t ≠ .or us)
    (h3 : ∀ us, t ≠ .and us) : s' = s ∧ d = t := by
  cases h with
  | not _ => exact absurd rfl (h1 _)
  | or _ _ => exact absurd rfl (h2 _)
  | and _ _ => exact absurd rfl (h3 _)
  | atom _ _ _ => exact ⟨rfl, rfl⟩

/-- The second assertion is parsed to `¬(inv(x) ∧ y = x) ∨ inv(y)` and becomes the clause `inv(y) ← inv(x), y = x`. -/
theorem C70_example : ∃ a r, script[4]? = some (.assert a) ∧
    parseTop L [("inv", 1)] a .empty = (.ok (.or [.not (.and [px, yx]), py]), r) ∧
    chclause L [0] (.or [.not (.and [px, yx]), py]) = some ⟨py, .and [yx], [px]⟩ ∧
    PT.HornTerm [0] (.or [.not (.and [px, yx]), py]) := by
  refine ⟨_, _, rfl, rfl, ?_, ?_⟩
  · have h : topDisjuncts (.or [.not (.and [px, yx]), py]) = [py, .not yx, .not px] := by
      simp [topDisjuncts, disjLoop, ppurify, disjArgs, px, py, yx, PT.beq, PT.beqL, SLit.term, mkNot]
    have h2 : chclause L [0] (.or [.not (.and [px, yx]), py]) =
        clauseOfDisjuncts L [0] (topDisjuncts (.or [.not (.and [px, yx]), py])) := rfl
    rw [h2, h]
    rfl
  · have hd : ∀ s d, Disjunct true (.or [.not (.and [px, yx]), py]) s d →
        (s = false ∧ (d = px ∨ d = yx)) ∨ (s = true ∧ d = py) := by
      intro s d h
      cases h with
      | or ht h =>
        simp only [List.mem_cons, List.not_mem_nil, or_false] at ht
        rcases ht with rfl | rfl
        · cases h with
          | not h =>
            cases h with
            | and ht h =>
              simp only [List.mem_cons, List.not_mem_nil, or_false] at ht
              rcases ht with rfl | rfl
              · obtain ⟨h1, h2⟩ := atomic h (by simp [px]) (by simp [px]) (by simp [px])
                exact .inl ⟨h1, .inl h2⟩
              · obtain ⟨h1, h2⟩ := atomic h (by simp [yx]) (by simp [yx]) (by simp [yx])
                exact .inl ⟨h1, .inr h2⟩
            | atom _ _ h3 => exact absurd rfl (h3 _ rfl)
          | atom h1 _ _ => exact absurd rfl (h1 _)
        · obtain ⟨h1, h2⟩ := atomic h (by simp [py]) (by simp [py]) (by simp [py])
          exact .inr ⟨h1, h2⟩
      | atom _ h2 _ => exact absurd rfl (h2 _ rfl)
    refine ⟨fun d d' h1 h2 _ _ => ?_, fun s d h => ?_⟩
    · rcases hd _ _ h1 with ⟨h, -⟩ | ⟨-, rfl⟩
      · cases h
      · rcases hd _ _ h2 with ⟨h, -⟩ | ⟨-, rfl⟩
        · cases h
        · rfl
    · rcases hd _ _ h with ⟨-, rfl | rfl⟩ | ⟨-, rfl⟩
      · exact .inl ⟨0, _, rfl, by simp⟩
      · exact .inr (by simp [yx, PT.preds])
      · exact .inl ⟨0, _, rfl, by simp⟩

/-- The hypotheses of `C71_answered` are met: the second assertion is accepted where it stands. -/
theorem C71_example_accepted : ∃ a, script[4]? = some (.assert a) ∧ a.NoClash (declarations (script.take 4)) ∧
    Accepted L (declarations (script.take 4)) a := by
  have hd : declarations (script.take 4) = [("inv", 1)] := by decide +kernel
  obtain ⟨a, r, h1, h2, -, h4⟩ := C70_example
  have hm : a ∈ assertions script := by
    rw [assertions, List.mem_filterMap]; exact ⟨_, List.mem_of_getElem? h1, rfl⟩
  refine ⟨a, h1, ?_, _, r, by rw [hd]; exact h2, .inr (.inr (.inr ⟨_, rfl, by rw [hd]; exact h4⟩))⟩
  have := (hyps.2.2 a hm).1
  rw [decls] at this
  rw [hd]; exact this

/-! ### Cases outside of the hypotheses -/

/-- A Boolean variable with the name of a declared predicate: `(declare-fun p () Bool) (assert (forall ((p Bool)) p))` has no
model, and golem answers `sat`. -/
def shadow : List Cmd :=
  [.setLogic true, .declareFun "p" [] (some boolSort), .assert (.all [("p", boolSort)] (q "p")), .checkSat]

theorem C71_shadowed_wrong : (interpretScript L (checkClauses B key check fun _ => []) shadow).map code = [(3, [0, 3, 4])] ∧
    ¬ AssertionsSat M (declarations shadow) (assertions (shadow.take 3)) := by
  refine ⟨by decide +kernel, ?_⟩
  rintro ⟨I, h⟩
  have := h (.all [("p", boolSort)] (q "p")) (by simp [assertions, shadow]) [false] rfl
  simp only [q, Ast.Holds] at this
  exact absurd this (by simp [Ast.den]; rfl)

/-- A second `set-logic` drops the assertions read so far. -/
def twice : List Cmd :=
  [.setLogic true, .declareFun "p" [] (some boolSort), .assert (q "p"), .assert (.lqid "not" [q "p"]), .checkSat,
   .setLogic true, .checkSat]

theorem C71_set_logic_twice : (interpretScript L (checkClauses B key check fun _ => []) twice).map code =
    [(4, [1, 3, 4]), (6, [0, 3, 4])] := by
  decide +kernel

/-- A predicate in an argument of a predicate is accepted, although the assertion is no Horn clause. -/
theorem C71_nested_accepted : (chclause L [0] (.pred 0 [.pred 0 [.tt]])).isSome = true ∧
    toClauses B key [⟨.pred 0 [.pred 0 [.tt]], .tt, []⟩] = none := by
  constructor
  · decide +kernel
  · rfl

/-- A Horn clause without predicates is refused. -/
theorem C71_no_predicate_refused : (interpretScript L (checkClauses B key check fun _ => [])
    [.setLogic true, .assert (.all [("x", boolSort)] (q "x")), .checkSat]).map code = [(1, [9])] ∧
    (interpretScript L (checkClauses B key check fun _ => []) [.setLogic true, .assert (q "false"), .checkSat]).map code = [(1, [9])] := by
  constructor <;> decide +kernel

end ScriptEx
end Front
end Golem
