import Verif.Props.Lawi
import Verif.Props.Bse
import Verif.Props.CheckSatEx

/-! C68: the hypotheses are met by concrete graphs and clauses; and with the option `--forced-covering` the engine is unsound. -/

namespace Golem

/-- A backend that replaces valid interpolants by `true`. -/
def validItp {T : Theory} (S : Smt T) : Smt T :=
  { S with itp := fun A B => if S.check [.not (S.itp A B)] = .unsat then .tt else S.itp A B }

theorem validItp_holds {T : Theory} {S : Smt T} (hS : S.Sound) (A B : List (Fla T)) (ρ : Valuation T) :
    ((validItp S).itp A B).holds ρ ↔ (S.itp A B).holds ρ := by
  simp only [validItp]
  split
  · rename_i h
    refine ⟨fun _ => ?_, fun _ => trivial⟩
    apply Classical.byContradiction
    intro hn
    exact hS.unsat _ h ⟨ρ, by simpa [AllHold, Fla.holds] using hn⟩
  · exact Iff.rfl

theorem validItp_sound {T : Theory} {S : Smt T} (hS : S.Sound) : (validItp S).Sound where
  sat := hS.sat
  unsat := hS.unsat
  itp fs A B hu hm := by
    have h := hS.itp fs A B hu hm
    refine ⟨fun ρ hA => (validItp_holds hS A B ρ).2 (h.fromA ρ hA), fun ρ hh => h.refuteB ρ ((validItp_holds hS A B ρ).1 hh), ?_⟩
    intro x hx
    simp only [validItp] at hx
    split at hx
    · simp [Fla.vars] at hx
    · exact h.shared x hx
  path fs A C B hu hm ρ h1 h2 := (validItp_holds hS _ _ ρ).2 (hS.path fs A C B hu hm ρ ((validItp_holds hS _ _ ρ).1 h1) h2)

namespace LawiEx
open ValidatorEx (P a)

open ValidatorEx (R R_wf)

def x (n : Nat) (k : Int) : Var := .ver (.pr n) k

/-- true → p2(w): w;  p2(w) → p0(z): z ↔ w;  p0(z) → false: ¬ z;  p2(w) → p1(y): y;  p2(w) → p1(y): ¬ y;  p1(y) → p0(z): z ↔ y. -/
def F : LGraph P :=
  [⟨.tru, .p 2, a (x 2 1), 0⟩, ⟨.p 2, .p 0, .iff (a (x 0 1)) (a (x 2 0)), 1⟩, ⟨.p 0, .fls, .not (a (x 0 0)), 2⟩,
   ⟨.p 2, .p 1, a (x 1 1), 3⟩, ⟨.p 2, .p 1, .not (a (x 1 1)), 4⟩, ⟨.p 1, .p 0, .iff (a (x 0 1)) (a (x 1 0)), 5⟩]

/-- `std::partition`: the edges to the exit first. -/
def exitFirst (l : List (LEdge P)) : List (LEdge P) := (l.filter fun e => decide (e.tgt = .fls)) ++ l.filter fun e => decide (e.tgt ≠ .fls)

theorem mem_exitFirst (l : List (LEdge P)) (e : LEdge P) : e ∈ exitFirst l ↔ e ∈ l := by
  simp only [exitFirst, List.mem_append, List.mem_filter, decide_eq_true_eq]
  by_cases h : e.tgt = .fls <;> simp [h]

def E (G : LGraph P) (forced : Bool) : LwEnv P := ⟨propSmt, validItp propSmt, R, G, id, exitFirst, forced⟩

theorem E_ok {G : LGraph P} (hl : ∀ e ∈ G, e.LabelOk R) (hi : (G.map LEdge.id).Nodup) (forced : Bool) : (E G forced).Ok :=
  ⟨propSmt_sound, validItp_sound propSmt_sound, R_wf, simplifierOk_id, mem_exitFirst, hl, hi⟩

theorem F_label : ∀ e ∈ F, e.LabelOk R := by
  intro e he x hx
  simp only [F, List.mem_cons, List.not_mem_nil, or_false] at he
  rcases he with rfl | rfl | rfl | rfl | rfl | rfl <;>
    simp [a, LawiEx.x, Fla.vars, Tm.vars, PRepr.stateVars, PRepr.nextVars, R] at hx ⊢ <;> grind

open LinearEx (H H2 H_label) in
/-- LAWI goes twice through the loop of `p0` and `p1` to find the error of `H`, and proves `H2` safe with a witness. -/
theorem C68_example : (E H false).Ok ∧ (E H2 false).Ok ∧ propSmt.Complete ∧ (validItp propSmt).Complete ∧
    (∃ ds, lawi (E H false) true 20 = .done ⟨.unsafeAns, .invalidity ds⟩ ∧
      ds.map DStep.clauseId = [none, some 0, some 1, some 2, some 1, some 3]) ∧
    ∃ D, lawi (E H2 false) true 20 = .done ⟨.safe, .validity D⟩ ∧ (D.get (.p 1)).isSome := by
  refine ⟨E_ok H_label (by decide +kernel) _, E_ok (fun e he => H_label e (List.mem_filter.1 he).1) (by decide +kernel) _,
    propSmt_complete, propSmt_complete, ?_, ?_⟩
  · have : (match lawi (E H false) true 20 with
      | .done ⟨.unsafeAns, .invalidity ds⟩ => ds.map DStep.clauseId == [none, some 0, some 1, some 2, some 1, some 3]
      | _ => false) = true := by decide +kernel
    split at this
    · rename_i ds h; exact ⟨ds, h, by simpa using this⟩
    · cases this
  · have : (match lawi (E H2 false) true 20 with
      | .done ⟨.safe, .validity D⟩ => (D.get (.p 1)).isSome
      | _ => false) = true := by decide +kernel
    split at this
    · rename_i D h; exact ⟨D, h, this⟩
    · cases this

/-- **C68**, finding: with forced covering LAWI answers SAFE for an unsafe graph, although all the hypotheses of C68 hold. The first vertex
of `p1` is left with the label true while the vertex of `p0` below it gets the label of the first vertex of `p0`; so the second vertex of
`p1` is covered. -/
theorem C68_forced_covering_unsound : (E F true).Ok ∧ (∃ D, lawi (E F true) true 20 = .done ⟨.safe, .validity D⟩) ∧ F.Unsafe R := by
  refine ⟨E_ok F_label (by decide +kernel) _, ?_, ?_⟩
  · have : (match lawi (E F true) true 20 with | .done ⟨.safe, .validity _⟩ => true | _ => false) = true := by decide +kernel
    split at this
    · rename_i D h; exact ⟨D, h⟩
    · cases this
  · have : (match lawi (E F false) true 20 with | .done ⟨.unsafeAns, .invalidity _⟩ => true | _ => false) = true := by decide +kernel
    split at this
    · rename_i ds h; exact (C68_unsafe (E_ok F_label (by decide +kernel) false) true 20 h rfl).1
    · cases this

open CheckEx (v order order_ok ar)
open NodeElimEx (keepE keepE_exact)

def iffc (s t : String) : Fla P := .iff (.atom (v s)) (.atom (v t))

/-- The same with loops, so that the preprocessing keeps the predicates. -/
def cs : List (Clause P) :=
  [⟨(.p 2, [v "w"]), .atom (v "w"), []⟩,
   ⟨(.p 2, [v "y"]), iffc "x" "y", [(.p 2, [v "x"])]⟩,
   ⟨(.p 0, [v "z"]), iffc "z" "w", [(.p 2, [v "w"])]⟩,
   ⟨(.p 3, [v "y"]), .atom (v "y"), [(.p 0, [v "x"])]⟩,
   ⟨(.p 3, [v "y"]), iffc "x" "y", [(.p 3, [v "x"])]⟩,
   ⟨(.fls, []), .not (.atom (v "z")), [(.p 3, [v "z"])]⟩,
   ⟨(.fls, []), .not (.atom (v "z")), [(.p 0, [v "z"])]⟩,
   ⟨(.p 1, [v "y"]), .atom (v "y"), [(.p 2, [v "w"])]⟩,
   ⟨(.p 1, [v "y"]), .not (iffc "x" "y"), [(.p 1, [v "x"])]⟩,
   ⟨(.p 0, [v "z"]), iffc "z" "y", [(.p 1, [v "y"])]⟩]


def eng (forced : Bool) (n : Nat) : PRepr → GS P → Outcome (VerificationResult P) :=
  fun R st => lawiSolve propSmt (validItp propSmt) R id exitFirst forced false true st.edges n

theorem legal : LegalInput ar cs := by
  refine ⟨⟨rfl, rfl, ?_⟩, ?_, ?_⟩
  · intro c hc
    simp [cs] at hc
    rcases hc with rfl | rfl | rfl | rfl | rfl | rfl | rfl | rfl | rfl | rfl <;> simp [ar]
  · intro c hc x hx
    simp [cs] at hc
    rcases hc with rfl | rfl | rfl | rfl | rfl | rfl | rfl | rfl | rfl | rfl <;>
      simp [Clause.vars, iffc, Fla.vars, Tm.vars, v] at hx <;>
      (have hu : ∃ n, x = .base (.user n) := by grind
       obtain ⟨n, rfl⟩ := hu; trivial)
  · intro c hc
    simp [cs] at hc
    rcases hc with rfl | rfl | rfl | rfl | rfl | rfl | rfl | rfl | rfl | rfl <;> constructor <;> simp

theorem rewrite_id : RewriteExact (T := P) id := ⟨fun _ _ h => .inl h, fun _ _ h => h, fun _ ρ _ h => ⟨ρ, fun _ _ => rfl, h⟩⟩

theorem apart : RewritesApart (T := P) id cs := by
  have : ∀ e ∈ (initialGraph cs).edges, ∀ e' ∈ (initialGraph cs).edges, e ≠ e' →
      ∀ x ∈ e.fla.vars, CheckEx.isBase x = true → x ∉ e'.fla.vars := by decide +kernel
  intro e he e' he' hne n hn
  exact this e he e' he' hne _ hn rfl

/-- **C68** `check-sat` prints `unsat` with a derivation of `false` from the input clauses. -/
theorem C68_example_check : (∃ ds, ds ≠ [] ∧ (checkSat propSmt id keepE order 3 (eng false 40) true true cs).1 =
    [.answer .unsafeAns, .witness ⟨.unsafeAns, .invalidity ds⟩, .validation true] ∧
    UnsafeWitness (normalize cs).1.repr (initialGraph cs).edges ds) ∧ ¬ Satisfiable (clauseRules cs) := by
  have h : (match (checkSat propSmt id keepE order 3 (eng false 40) true true cs).1 with
    | [.answer .unsafeAns, .witness ⟨.unsafeAns, .invalidity (_ :: _)⟩, .validation true] => true | _ => false) = true := by
    decide +kernel
  have hx : ∃ ds, ds ≠ [] ∧ (checkSat propSmt id keepE order 3 (eng false 40) true true cs).1 =
      [.answer .unsafeAns, .witness ⟨.unsafeAns, .invalidity ds⟩, .validation true] := by
    split at h
    · rename_i d ds he; exact ⟨_, by simp, he⟩
    · cases h
  obtain ⟨ds, hne, hds⟩ := hx
  obtain ⟨-, h2, h3⟩ := C68_check (pfuel := 3) (fuel := 40) (hasArrays := false) (w := true) (printW := true) (validateW := true)
    propSmt_sound rewrite_id keepE_exact order_ok propSmt_sound (validItp_sound propSmt_sound) simplifierOk_id mem_exitFirst legal apart
  have he : (fun R st => lawiSolve propSmt (validItp propSmt) R id exitFirst false false true st.edges 40) = eng false 40 := rfl
  rw [he, hds] at h2 h3
  refine ⟨⟨ds, hne, hds, ?_⟩, h2 (by simp)⟩
  rcases h3 .unsafeAns ds (by simp) with h | h
  · exact absurd h hne
  · exact h.2

/-- **C68**, finding: with `--forced-covering`, `sat` is printed for these clauses, which have no model; the validator rejects the model
printed. -/
theorem C68_forced_covering_wrong_answer : (∃ r, (checkSat propSmt id keepE order 3 (eng true 40) true true cs).1 =
    [.answer .safe, .witness r, .validation false]) ∧ ¬ Satisfiable (clauseRules cs) := by
  refine ⟨?_, C68_example_check.2⟩
  have h : (match (checkSat propSmt id keepE order 3 (eng true 40) true true cs).1 with
    | [.answer a, .witness _, .validation b] => decide (a = .safe) && !b | _ => false) = true := by decide +kernel
  split at h
  · rename_i a r b he
    simp only [Bool.and_eq_true, decide_eq_true_eq, Bool.not_eq_true'] at h
    obtain ⟨rfl, rfl⟩ := h
    exact ⟨r, he⟩
  · cases h

end LawiEx
end Golem
