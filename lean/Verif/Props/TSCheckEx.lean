import Verif.Props.TSCheck
import Verif.Props.CheckSatEx

/-! C65: the hypotheses are met by concrete clauses, and what the engines print for them. -/

namespace Golem
variable {T : Theory}

/-- A satisfiable label on an edge out of `true`. -/
theorem starts_of_sat {S : Smt T} (hS : S.Sound) {R : PRepr} (hR : R.WF) {G : LGraph T} {e : LEdge T} (he : e ∈ G) (hs : e.src = .tru)
    (h : S.check [e.fla] = .sat) : G.Starts R := by
  have hm := hS.sat _ h
  refine ⟨e, he, (e.tgt, (R.nextVars e.tgt).map (S.model [e.fla])), S.model [e.fla], hm _ (by simp), ?_, rfl⟩
  simp [trueFact, LEdge.srcFact, hs, PRepr.stateVars, hR.tru]

namespace TSCheckEx
open CheckEx
open LinearEx (keep keep_exact)
open TpaGraphEx (net net_ok)
open NodeElimEx (keepE keepE_exact)

def tpa (c : Core) := tpaCheck (net c) keepE keep propQ propKeep id false true false
def imc := imcCheck propSmt keepE keep propQ propKeep id true false 5 5
def dar := darCheck propSmt keepE keep propQ propKeep id true false 5
def pdk := pdkindCheck (PDKindEx.env propSmt) keepE keep propQ propKeep id true false 9 9 5

/-- `p0(a) ← ¬a`;  `p0(y) ← p0(x), l(y)`;  `p1(b) ← p0(a), a ∧ ¬b`;  `p1(y) ← p1(x), y`;  `false ← p1(b), b`. -/
def dagCs (l : Fla P) : List (Clause P) :=
  [⟨(.p 0, [v "a"]), .not (.atom (v "a")), []⟩,
   ⟨(.p 0, [v "y"]), l, [(.p 0, [v "x"])]⟩,
   ⟨(.p 1, [v "b"]), .and (.atom (v "a")) (.not (.atom (v "b"))), [(.p 0, [v "a"])]⟩,
   ⟨(.p 1, [v "y"]), .atom (v "y"), [(.p 1, [v "x"])]⟩,
   ⟨(.fls, []), .atom (v "b"), [(.p 1, [v "b"])]⟩]

def badCs : List (Clause P) := dagCs (.atom (v "y"))
def goodCs : List (Clause P) := dagCs (.iff (.atom (v "y")) (.atom (v "x")))

theorem dag_legal (l : Fla P) (hl : ∀ x ∈ l.vars, x = .base (.user "y") ∨ x = .base (.user "x")) : LegalInput ar (dagCs l) ∧ LinearInput (dagCs l) := by
  refine ⟨⟨⟨rfl, rfl, ?_⟩, ?_, ?_⟩, ?_⟩
  · intro c hc
    simp [dagCs] at hc
    rcases hc with rfl | rfl | rfl | rfl | rfl <;> simp [ar]
  · intro c hc x hx
    simp [dagCs] at hc
    rcases hc with rfl | rfl | rfl | rfl | rfl <;> simp [Clause.vars, Fla.vars, Tm.vars, v] at hx
    · subst hx; trivial
    · rcases hx with hx | rfl | rfl
      · rcases hl x hx with rfl | rfl <;> trivial
      · trivial
      · trivial
    · rcases hx with rfl | rfl | rfl | rfl <;> trivial
    · rcases hx with rfl | rfl | rfl <;> trivial
    · subst hx; trivial
  · intro c hc
    simp [dagCs] at hc
    rcases hc with rfl | rfl | rfl | rfl | rfl <;> constructor <;> simp
  · intro c hc
    simp [dagCs] at hc
    rcases hc with rfl | rfl | rfl | rfl | rfl <;> simp

theorem cs_linear (q : Fla P) : LinearInput (cs q) := by
  intro c hc
  simp [cs] at hc
  rcases hc with rfl | rfl | rfl | rfl <;> simp

theorem id_exact : RewriteExact (T := P) id := ⟨fun _ _ h => .inl h, fun _ _ h => h, fun _ ρ _ h => ⟨ρ, fun _ _ => rfl, h⟩⟩

theorem apart (c : List (Clause P)) (rw : Fla P → Fla P)
    (h : ∀ e ∈ (initialGraph c).edges, ∀ e' ∈ (initialGraph c).edges, e ≠ e' →
        ∀ x ∈ (rw e.fla).vars, isBase x = true → x ∉ (rw e'.fla).vars) : RewritesApart rw c :=
  fun e he e' he' hne _ hn => h e he e' he' hne _ hn rfl

/-- The graph the engine works on, from the clauses. -/
def engineGraph (rw : Fla P → Fla P) (c : List (Clause P)) : Option (LGraph P) :=
  match pipeline (defaultStages propSmt (normalize c).1.repr rw keepE order 3) (initialGraph c) with
  | .done (st, _) =>
    match pipeline (towardsTransitionSystems propSmt (normalize c).1.repr keepE) st with
    | .done (st', _) => some (toNormalGraph (normalize c).1.repr st'.edges)
    | _ => none
  | _ => none

/-- There is a satisfiable edge out of `true`. -/
def starts (rw : Fla P → Fla P) (c : List (Clause P)) : Bool :=
  match engineGraph rw c with
  | some G => G.any fun e => decide (e.src = .tru) && decide (propSmt.check [e.fla] = .sat)
  | none => true

/-- The graph is a transition system, or has no auxiliary variables on its entry and exit edges. -/
def clean (rw : Fla P → Fla P) (c : List (Clause P)) : Bool :=
  match engineGraph rw c with
  | some G => isTransitionSystem G || G.all fun e => !(decide (e.src = .tru) || decide (e.tgt = .fls)) ||
      (edgeAux (normalize c).1.repr e).isEmpty
  | none => true

theorem starts_ok {rw : Fla P → Fla P} {c : List (Clause P)} (hR : (normalize c).1.repr.WF) (h : starts rw c = true) (st : GS P)
    (b : OBack P) (hp : pipeline (defaultStages propSmt (normalize c).1.repr rw keepE order 3) (initialGraph c) = .done (st, b)) :
    StartsAfter propSmt (normalize c).1.repr keepE st := by
  intro st' b' hp' _
  simp only [starts, engineGraph, hp, hp', List.any_eq_true, Bool.and_eq_true, decide_eq_true_eq] at h
  obtain ⟨e, he, h1, h2⟩ := h
  exact starts_of_sat propSmt_sound hR he h1 h2

theorem clean_ok {rw : Fla P → Fla P} {c : List (Clause P)} (h : clean rw c = true) (st : GS P)
    (b : OBack P) (hp : pipeline (defaultStages propSmt (normalize c).1.repr rw keepE order 3) (initialGraph c) = .done (st, b)) :
    NoEntryAux propSmt (normalize c).1.repr keepE st := by
  intro st' b' hp' _ hts l hl hte
  simp only [clean, engineGraph, hp, hp', hts, Bool.false_or, List.all_eq_true, Bool.or_eq_true, Bool.not_eq_true',
    Bool.or_eq_false_iff, decide_eq_false_iff_not, List.isEmpty_iff] at h
  rcases h l hl with ⟨h1, h2⟩ | h1
  · exact absurd hte (by simp [h1, h2])
  · exact h1

/-- The lines printed, as numbers. -/
def code (r : List (CheckLine P)) : List Nat := r.map fun
  | .answer .safe => 1
  | .answer .unsafeAns => 2
  | .answer .unknown => 3
  | .witness ⟨_, .none⟩ => 4
  | .witness ⟨_, .validity _⟩ => 5
  | .validation true => 6
  | .validation false => 7
  | .witness ⟨_, .invalidity ds⟩ => 10 + ds.length

theorem good_hyps : LegalInput ar goodCs ∧ LinearInput goodCs ∧ RewritesApart id goodCs ∧ starts id goodCs = true ∧
    clean id goodCs = true :=
  ⟨(dag_legal _ (by simp [Fla.vars, Tm.vars, v])).1, (dag_legal _ (by simp [Fla.vars, Tm.vars, v])).2, apart _ _ (by decide +kernel),
    by decide +kernel, by decide +kernel⟩

theorem bad_hyps : LegalInput ar badCs ∧ LinearInput badCs ∧ RewritesApart id badCs ∧ starts id badCs = true ∧ clean id badCs = true :=
  ⟨(dag_legal _ (by simp [Fla.vars, Tm.vars, v])).1, (dag_legal _ (by simp [Fla.vars, Tm.vars, v])).2, apart _ _ (by decide +kernel),
    by decide +kernel, by decide +kernel⟩

theorem tpa_ok (core : Core) {rw : Fla P → Fla P} (hrw : RewriteExact rw) {c : List (Clause P)} (h1 : LegalInput ar c)
    (h2 : LinearInput c) (h3 : RewritesApart rw c) (h4 : core = .split → starts rw c = true) (validateW : Bool) :
    CheckOk c true (checkSat propSmt rw keepE order 3 (tpa core) true validateW c).1 :=
  C65_tpa (X := net core) (net_ok core) propSmt_complete propQ_exact propKeep_exact hrw keepE_exact order_ok keep_exact propQ_exact
    propKeep_exact simplifierOk_id h1 h2 h3
    (fun hc => starts_ok (C04_initial_graph ar c h1.arity h1.user h1.shape).1 (h4 hc))

/-- **C65** On clauses with two loops in a row, both cores of the transition power abstraction print `unsat` and a derivation of `false`
from the clauses, and the basic one prints `sat` and a model if the first loop keeps its bit. -/
theorem C65_example_tpa :
    (∀ core, code (checkSat propSmt id keepE order 3 (tpa core) true true badCs).1 = [2, 16, 6]) ∧ ¬ Satisfiable (clauseRules badCs) ∧
    code (checkSat propSmt id keepE order 3 (tpa .basic) true false goodCs).1 = [1, 5] ∧ Satisfiable (clauseRules goodCs) := by
  have hb : ∀ core, code (checkSat propSmt id keepE order 3 (tpa core) true true badCs).1 = [2, 16, 6] := by
    intro core; cases core <;> decide +kernel
  have hg : code (checkSat propSmt id keepE order 3 (tpa .basic) true false goodCs).1 = [1, 5] := by decide +kernel
  have has : ∀ {l : List (CheckLine P)} {n : Nat} {k : List Nat}, code l = n :: k → ∃ x l', l = x :: l' ∧ code [x] = [n] := by
    intro l n k h
    cases l with
    | nil => cases h
    | cons x l =>
      refine ⟨x, l, rfl, ?_⟩
      simp only [code, List.map_cons, List.map_nil, List.cons.injEq] at h ⊢
      exact ⟨h.1, trivial⟩
  refine ⟨hb, ?_, hg, ?_⟩
  · obtain ⟨h1, h2, h3, h4, -⟩ := bad_hyps
    refine (tpa_ok .split id_exact h1 h2 h3 (fun _ => h4) true).2.1 ?_
    obtain ⟨x, l', e, hx⟩ := has (hb .split)
    rw [e]
    unfold code at hx
    simp only [List.map_cons, List.map_nil, List.cons.injEq, and_true] at hx
    split at hx <;> first | exact List.mem_cons_self | omega
  · obtain ⟨h1, h2, h3, h4, -⟩ := good_hyps
    refine (tpa_ok .basic id_exact h1 h2 h3 (fun _ => h4) false).1 ?_
    obtain ⟨x, l', e, hx⟩ := has hg
    rw [e]
    unfold code at hx
    simp only [List.map_cons, List.map_nil, List.cons.injEq, and_true] at hx
    split at hx <;> first | exact List.mem_cons_self | omega

/-- **C65** The other engines on the clauses of the example of C57, whose graph is a transition system with auxiliary variables: the
hypotheses are met, and what is printed. -/
theorem C65_example_engines :
    (LegalInput ar safeCs ∧ LinearInput safeCs ∧ RewritesApart nameIff safeCs ∧ clean nameIff safeCs = true) ∧
    (LegalInput ar unsCs ∧ LinearInput unsCs ∧ RewritesApart nameIff unsCs ∧ clean nameIff unsCs = true) ∧
    (∀ eng ∈ [imc, dar, pdk], code (checkSat propSmt nameIff keepE order 3 eng true true safeCs).1 = [1, 5, 6] ∧
      code (checkSat propSmt nameIff keepE order 3 eng true true unsCs).1 = [2, 14, 6]) ∧
    CheckOk safeCs true (checkSat propSmt nameIff keepE order 3 imc true true safeCs).1 ∧
    CheckOk unsCs true (checkSat propSmt nameIff keepE order 3 imc true true unsCs).1 ∧
    CheckOk safeCs true (checkSat propSmt nameIff keepE order 3 dar true true safeCs).1 ∧
    CheckOk safeCs true (checkSat propSmt nameIff keepE order 3 pdk true true safeCs).1 := by
  obtain ⟨-, -, -, -, -, -, a7, a8, a9, a10⟩ := hyps
  have c1 : clean nameIff safeCs = true := by decide +kernel
  have c2 : clean nameIff unsCs = true := by decide +kernel
  refine ⟨⟨a7, cs_linear _, a9, c1⟩, ⟨a8, cs_linear _, a10, c2⟩, ?_, ?_, ?_, ?_, ?_⟩
  · intro eng he
    simp only [List.mem_cons, List.not_mem_nil, or_false] at he
    rcases he with rfl | rfl | rfl <;> constructor <;> decide +kernel
  · exact C65_imc propSmt_sound propSmt_complete nameIff_exact keepE_exact order_ok keep_exact propQ_exact propKeep_exact simplifierOk_id
      a7 (cs_linear _) a9 (clean_ok c1)
  · exact C65_imc propSmt_sound propSmt_complete nameIff_exact keepE_exact order_ok keep_exact propQ_exact propKeep_exact simplifierOk_id
      a8 (cs_linear _) a10 (clean_ok c2)
  · exact C65_dar propSmt_sound propSmt_complete nameIff_exact keepE_exact order_ok keep_exact propQ_exact propKeep_exact simplifierOk_id
      a7 (cs_linear _) a9 (clean_ok c1)
  · exact C65_pdkind (PDKindEx.env_ok propSmt_sound) propSmt_complete nameIff_exact keepE_exact order_ok keep_exact propQ_exact
      propKeep_exact simplifierOk_id a7 (cs_linear _) a9 (clean_ok c1)

end TSCheckEx
end Golem
