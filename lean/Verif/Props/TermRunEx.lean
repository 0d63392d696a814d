import Verif.Props.TermRun

/-! Concrete programs for C75, with services that are always right. -/

namespace Golem
namespace TermRunEx

abbrev P := ctrTheory

def v (s : String) : Tm P := .var (.base (.user s))

/-- The vertices of a graph in the order of their first occurrence. -/
def order (G : Graph P) : List Pred := firstOcc (G.flatMap fun e => e.tgt :: e.src)

theorem order_ok : IsOrder order := by
  intro G p
  simp [order, mem_firstOcc, Graph.Vertex]

/-- An elimination that eliminates nothing. -/
def keepE : Elim P := ⟨fun _ f => f, fun _ f => f⟩

theorem keepE_exact : keepE.Exact :=
  ⟨fun _ _ _ h => h, fun _ _ ρ h => ⟨ρ, fun _ _ => rfl, h⟩, fun _ _ _ h => h,
    fun _ _ _ h => h, fun _ _ ρ h => ⟨ρ, fun _ _ => rfl, h⟩, fun _ _ _ h => h⟩

theorem id_exact : RewriteExact (id : Fla P → Fla P) :=
  ⟨fun _ _ h => .inl h, fun _ _ h => h, fun _ ρ _ h => ⟨ρ, fun _ _ => rfl, h⟩⟩

/-- The solver of the preprocessing never knows an answer. -/
def shy : Smt P := ⟨fun _ => .unknown, fun _ _ => (0 : Int), fun _ _ => .tt⟩

theorem shy_sound : shy.Sound :=
  ⟨fun _ h => (by cases h), fun _ h => (by cases h), fun _ _ _ h => (by cases h), fun _ _ _ _ h => (by cases h)⟩

/-- A vertex with a number that does not occur. -/
def fresh (G : LGraph P) : Pred := .p ((G.flatMap fun e => [e.src.symNo, e.tgt.symNo]).foldl max 0 + 1)

theorem foldl_max_le (l : List Nat) (k : Nat) : k ≤ l.foldl max k ∧ ∀ x ∈ l, x ≤ l.foldl max k := by
  induction l generalizing k with
  | nil => simp
  | cons a l ih =>
    have h := ih (max k a)
    simp only [List.foldl_cons, List.mem_cons]
    refine ⟨by omega, ?_⟩
    rintro x (rfl | hx)
    · omega
    · exact h.2 x hx

theorem fresh_new : IsNewVertex fresh := by
  intro G
  have hsym : ∀ n : Nat, (Pred.p n).symNo ≥ n := by intro n; simp [Pred.symNo]
  refine ⟨⟨by simp [fresh], by simp [fresh]⟩, fun e he => ?_⟩
  have h := (foldl_max_le (G.flatMap fun e => [e.src.symNo, e.tgt.symNo]) 0).2
  have h1 := h e.src.symNo (List.mem_flatMap.2 ⟨e, he, by simp⟩)
  have h2 := h e.tgt.symNo (List.mem_flatMap.2 ⟨e, he, by simp⟩)
  constructor
  · intro hc
    rw [hc] at h1
    have := hsym ((G.flatMap fun e => [e.src.symNo, e.tgt.symNo]).foldl max 0 + 1)
    simp only [fresh] at h1
    omega
  · intro hc
    rw [hc] at h2
    have := hsym ((G.flatMap fun e => [e.src.symNo, e.tgt.symNo]).foldl max 0 + 1)
    simp only [fresh] at h2
    omega

open Classical in
/-- An engine that is always right. -/
noncomputable def ideal : Engine P := fun R G => .done ⟨if G.Unsafe R then .unsafeAns else .safe, .none⟩

open Classical in
/-- A solver that is always right (without interpolants). -/
noncomputable def oracle : Smt P where
  check fs := if SatList fs then .sat else .unsat
  model fs := if h : SatList fs then h.choose else fun _ => (0 : Int)
  itp _ _ := .tt

theorem oracle_correct : oracle.Correct ∧ oracle.Complete := by
  refine ⟨⟨fun fs h => ?_, fun fs h => ?_⟩, fun fs => ?_⟩
  · by_cases hs : SatList fs
    · simp only [oracle, dif_pos hs]; exact hs.choose_spec
    · simp [oracle, hs] at h
  · intro hs
    simp [oracle, hs] at h
  · by_cases hs : SatList fs <;> simp [oracle, hs]

/-- The back ends with these services; quantifier elimination gives up. -/
noncomputable def B : TBackend := ⟨ideal, oracle, fun _ _ => none, 0, fun _ => 0, fun _ => true, 10⟩

theorem ideal_ok (R : PRepr) (G : Graph P) (r : VerificationResult P) (h : ideal R G = .done r) : HyperResultOk R G r := by
  cases h
  refine ⟨fun h => ?_, fun h hu => ?_, fun D h => (by cases h), fun D h => (by cases h)⟩
  · by_cases hu : G.Unsafe R
    · exact hu
    · simp [hu] at h
  · simp [hu] at h

theorem B_right (ts : TS P) : B.Right ts :=
  ⟨fun r h => (ideal_ok _ _ r h).answers, fun _ _ r h => (ideal_ok _ _ r h).answers, oracle_correct.1, oracle_correct.2,
    fun _ _ _ h => (by cases h), fun _ _ _ _ _ _ r h => ideal_ok _ _ r h⟩

/-! ### The programs -/

/-- Start in `f`; `f(x) → f(y)` under the guard. -/
def loopCs (g : Fla P) : List (Clause P) :=
  [⟨(.p 0, [v "y"]), g, [(.p 0, [v "x"])]⟩, ⟨(.p 0, [v "e"]), .tt, []⟩]

def geq (a b : Tm P) : Fla P := .atom (.ap2 IntSym.geq a b)

/-- `x ≥ 1 ∧ x - 1 = y`. -/
def down : Fla P := .and (geq (v "x") (intConst 1)) (.eq (.ap2 IntSym.minus (v "x") (intConst 1)) (v "y"))
/-- `x = y`. -/
def stay : Fla P := .eq (v "x") (v "y")

/-- Two loops: `f → f`, `f → h`, `h → f` under the guards `x - 1 = y ∧ x ≥ 1`, `x = y`, `x ≥ 5 ∧ x - 1 = y`, and a loop at `h`. -/
def nestCs : List (Clause P) :=
  [⟨(.p 0, [v "y"]), down, [(.p 0, [v "x"])]⟩, ⟨(.p 1, [v "y"]), stay, [(.p 0, [v "x"])]⟩,
   ⟨(.p 1, [v "y"]), down, [(.p 1, [v "x"])]⟩, ⟨(.p 0, [v "y"]), down, [(.p 1, [v "x"])]⟩,
   ⟨(.p 0, [v "e"]), .tt, []⟩]

def ar : Pred → Nat | .p _ => 1 | _ => 0

def isUser : Var → Bool
  | .base (.user _) => true
  | _ => false

theorem legal_of {cs : List (Clause P)}
    (h : (cs.all fun c => (c.vars.all isUser) && decide (c.head.2.length = ar c.head.1) &&
      (c.body.all fun a => decide (a.2.length = ar a.1) && decide (a.1 ≠ .tru) && decide (a.1 ≠ .fls)) && decide (c.head.1 ≠ .tru) &&
      decide (c.head.1 ≠ .fls) && decide (c.body.length ≤ 1)) = true) : LegalInput ar cs ∧ LinearInput cs ∧ NoGoals cs := by
  simp only [List.all_eq_true, Bool.and_eq_true, decide_eq_true_eq] at h
  refine ⟨⟨⟨rfl, rfl, fun c hc => ?_⟩, fun c hc x hx => ?_, fun c hc => ?_⟩, fun c hc => (h c hc).2, fun c hc => (h c hc).1.2⟩
  · obtain ⟨⟨⟨⟨⟨-, h2⟩, h3⟩, -⟩, -⟩, -⟩ := h c hc
    exact ⟨h2, fun a ha => (h3 a ha).1.1⟩
  · obtain ⟨⟨⟨⟨⟨h1, -⟩, -⟩, -⟩, -⟩, -⟩ := h c hc
    have := h1 x hx
    cases x with
    | base n => trivial
    | ver n k => cases this
    | src n k => cases this
    | tgt n => cases this
  · obtain ⟨⟨⟨⟨⟨-, -⟩, h3⟩, h4⟩, -⟩, -⟩ := h c hc
    exact ⟨h4, fun a ha => ⟨(h3 a ha).1.2, (h3 a ha).2⟩⟩

theorem apart_of {cs : List (Clause P)}
    (h : ∀ e ∈ (initialGraph cs).edges, ∀ x ∈ e.fla.vars, ∀ n, x ≠ .base n) : RewritesApart id cs :=
  fun e he _ _ _ n hn => absurd rfl (h e he _ hn n)

/-- The system of the program with one loop. -/
def st (n : Nat) : Tm P := .var (.ver (.pr 0) n)

def downTS : TS P := ⟨[.ver (.pr 0) 0], [], .tt, .and (geq (st 0) (intConst 1)) (.eq (.ap2 IntSym.minus (st 0) (intConst 1)) (st 1)), .tt⟩
def stayTS : TS P := ⟨[.ver (.pr 0) 0], [], .tt, .eq (st 0) (st 1), .tt⟩

def sameTS (o : Outcome (Option (TS P))) (ts : TS P) : Bool :=
  match o with
  | .done (some t) => decide (t.stateVars = ts.stateVars) && decide (t.auxVars = ts.auxVars) && decide (t.init = ts.init) &&
      decide (t.trans = ts.trans) && decide (t.query = ts.query)
  | _ => false

theorem eq_of_same {o : Outcome (Option (TS P))} {ts : TS P} (h : sameTS o ts = true) : o = .done (some ts) := by
  unfold sameTS at h
  split at h
  · rename_i t
    obtain ⟨a, b, c, d, e⟩ := t
    obtain ⟨a', b', c', d', e'⟩ := ts
    simp only [Bool.and_eq_true, decide_eq_true_eq] at h
    obtain ⟨⟨⟨⟨rfl, rfl⟩, rfl⟩, rfl⟩, rfl⟩ := h
    rfl
  · cases h

theorem prepare_down : prepare shy id keepE order 5 fresh (loopCs down) = .done (some downTS) :=
  eq_of_same (by decide +kernel)
theorem prepare_stay : prepare shy id keepE order 5 fresh (loopCs stay) = .done (some stayTS) :=
  eq_of_same (by decide +kernel)

/-- Does every edge start at the entry or at a vertex with an edge from the entry? -/
def near (cs : List (Clause P)) : Bool :=
  match pipeline (terminationStages shy (normalize cs).1.repr id keepE order 5) (initialGraph cs) with
  | .done (st, _) => (toNormalGraph (normalize cs).1.repr st.edges).all fun e =>
      decide (e.src = .tru) || (toNormalGraph (normalize cs).1.repr st.edges).any fun d => decide (d.src = .tru) && decide (d.tgt = e.src)
  | _ => true

def notTS (cs : List (Clause P)) : Bool :=
  match pipeline (terminationStages shy (normalize cs).1.repr id keepE order 5) (initialGraph cs) with
  | .done (st, _) => !isTSWithoutQuery (toNormalGraph (normalize cs).1.repr st.edges)
  | _ => false

theorem noStray_of_near {cs : List (Clause P)} (h : near cs = true) : NoStrayLoop shy id keepE order 5 cs := by
  intro st b hp _ e he
  unfold near at h
  rw [hp] at h
  simp only [List.all_eq_true, Bool.or_eq_true, List.any_eq_true, Bool.and_eq_true, decide_eq_true_eq] at h
  rcases h e he with h | ⟨d, hd, h1, h2⟩
  · rw [h]; exact .refl _
  · refine Walk.snoc (.refl _) (List.mem_map.2 ⟨d, ?_, h2⟩)
    simp [LGraph.out, hd, h1]

def noBase (cs : List (Clause P)) : Bool :=
  (initialGraph cs).edges.all fun e => e.fla.vars.all fun x => match x with | .base _ => false | _ => true

theorem apart_of_noBase {cs : List (Clause P)} (h : noBase cs = true) : RewritesApart id cs := by
  refine apart_of fun e he x hx n hn => ?_
  simp only [noBase, List.all_eq_true] at h
  have := h e he x hx
  subst hn
  cases this

/-- What C75 asks of a program, all of it. -/
structure Meets (cs : List (Clause P)) : Prop where
  legal : LegalInput ar cs
  linear : LinearInput cs
  noGoals : NoGoals cs
  apart : RewritesApart id cs
  noStray : NoStrayLoop shy id keepE order 5 cs
  system : ∀ ts, prepare shy id keepE order 5 fresh cs = .done (some ts) → NoLeftovers ts ∧ CounterFresh ts ∧ B.Right ts

def cleanVar (x : Var) : Bool := (match x with | .src _ _ => false | _ => true) && decide (x ≠ counter0)

def clean (cs : List (Clause P)) : Bool :=
  match prepare shy id keepE order 5 fresh cs with
  | .done (some ts) => (ts.stateVars ++ ts.auxVars).all cleanVar
  | _ => true

theorem noStray_of_notTS {cs : List (Clause P)} (h : notTS cs = true) : NoStrayLoop shy id keepE order 5 cs := by
  intro st b hp ht
  unfold notTS at h
  rw [hp] at h
  simp only [ht] at h
  cases h

theorem meets_of {cs : List (Clause P)} (h : LegalInput ar cs ∧ LinearInput cs ∧ NoGoals cs) (h1 : noBase cs = true)
    (h2 : NoStrayLoop shy id keepE order 5 cs) (h3 : clean cs = true) : Meets cs := by
  refine ⟨h.1, h.2.1, h.2.2, apart_of_noBase h1, h2, fun ts hp => ?_⟩
  unfold clean at h3
  rw [hp] at h3
  simp only [List.all_eq_true, List.mem_append, cleanVar, Bool.and_eq_true, decide_eq_true_eq] at h3
  refine ⟨fun x hx n i hxe => ?_, fun x hx => (h3 x (List.mem_append.1 hx)).2, B_right ts⟩
  have := (h3 x (.inr hx)).1
  subst hxe
  cases this

/-- The three programs meet the hypotheses of C75; for the last one the single-loop transformation is used. -/
theorem C75_example_hyps : (shy.Sound ∧ RewriteExact (id : Fla P → Fla P) ∧ keepE.Exact ∧ IsOrder order ∧ IsNewVertex fresh) ∧
    Meets (loopCs down) ∧ Meets (loopCs stay) ∧ Meets nestCs ∧ notTS nestCs = true ∧
    (∃ ts, prepare shy id keepE order 5 fresh nestCs = .done (some ts)) := by
  refine ⟨⟨shy_sound, id_exact, keepE_exact, order_ok, fresh_new⟩,
    meets_of (legal_of (by decide +kernel)) (by decide +kernel) (noStray_of_near (by decide +kernel)) (by decide +kernel),
    meets_of (legal_of (by decide +kernel)) (by decide +kernel) (noStray_of_near (by decide +kernel)) (by decide +kernel),
    meets_of (legal_of (by decide +kernel)) (by decide +kernel) (noStray_of_notTS (by decide +kernel)) (by decide +kernel), by decide +kernel, ?_⟩
  have h : (match prepare shy id keepE order 5 fresh nestCs with | .done (some _) => true | _ => false) = true := by decide +kernel
  split at h
  · exact ⟨_, by assumption⟩
  · cases h

/-- The step counter answers YES or UNKNOWN with the ideal engine. -/
theorem ideal_counter (ts : TS P) : ∀ n j, 64 ≤ 2 ^ (n + j) →
    stepCounterLoop ideal 0 (fun _ => true) ts (n + 1) (2 ^ j) = .done .yes ∨
    stepCounterLoop ideal 0 (fun _ => true) ts (n + 1) (2 ^ j) = .done .unknown := by
  intro n
  induction n with
  | zero =>
    intro j hj
    right
    rw [stepCounterLoop, if_neg (by simpa using hj)]
  | succ n ih =>
    intro j hj
    rw [stepCounterLoop]
    by_cases hm : 2 ^ j < 64
    · rw [if_pos hm]
      simp only [solveClauses, ideal]
      by_cases hu : Graph.Unsafe (normalize (systemClauses 0 (counterSystem (fun _ => true) (2 ^ j) ts).stateVars
          (counterSystem (fun _ => true) (2 ^ j) ts).init (counterSystem (fun _ => true) (2 ^ j) ts).trans
          (counterSystem (fun _ => true) (2 ^ j) ts).query)).1.repr (buildGraph (normalize (systemClauses 0
          (counterSystem (fun _ => true) (2 ^ j) ts).stateVars (counterSystem (fun _ => true) (2 ^ j) ts).init
          (counterSystem (fun _ => true) (2 ^ j) ts).trans (counterSystem (fun _ => true) (2 ^ j) ts).query)).2)
      · simp only [hu, if_true]
        have := ih (j + 1) (by rw [show n + (j + 1) = n + 1 + j from by omega]; exact hj)
        rw [Nat.pow_succ] at this
        exact this
      · simp [hu]
    · rw [if_neg hm]; exact .inr rfl

/-- Runs of the first program go down to zero. -/
theorem down_path {n : Nat} {s t : List Int} {x : Int} (h : downTS.sem.Path n s t) (hs : s = [x]) :
    ∃ y, t = [y] ∧ (n = 0 ∨ (y = x - n ∧ 0 ≤ y)) ∧ (n = 0 → y = x) := by
  induction h with
  | refl => exact ⟨x, hs, .inl rfl, fun _ => rfl⟩
  | snoc h st ih =>
    obtain ⟨y, rfl, h1, h2⟩ := ih hs
    obtain ⟨ρ, hh, e1, e2⟩ := st
    replace e1 : ρ (.ver (.pr 0) 0) = y := by simpa [downTS] using e1
    have e2 := e2.symm
    simp only [downTS, TS.nextVars, List.map_cons, List.map_nil, shift] at e2
    obtain ⟨hg, he⟩ := hh
    have hg' : 1 ≤ y := by
      have : (if (ρ (.ver (.pr 0) 0) : Int) ≥ 1 then (1 : Int) else 0) ≠ 0 := by
        simpa [geq, TermRunEx.st, intConst, Fla.holds, Tm.eval] using hg
      rw [e1] at this
      by_cases hy : y ≥ 1
      · exact hy
      · simp [hy] at this
    have he' : y - 1 = ρ (.ver (.pr 0) 1) := by
      have : (ρ (.ver (.pr 0) 0) : Int) - 1 = ρ (.ver (.pr 0) 1) := he
      rw [e1] at this
      exact this
    refine ⟨y - 1, by rw [e2, he']; rfl, .inr ?_, by omega⟩
    rename_i n _ _ _
    have : y = x - n := by
      rcases h1 with rfl | h1
      · rw [h2 rfl]; simp
      · exact h1.1
    constructor
    · push_cast; omega
    · omega

theorem down_bounded : downTS.sem.BoundedBy fun s => 1 * sizeOfState (downTS.stateVars.map fun _ => true) s + 1 := by
  rintro s ⟨ρ, -, rfl⟩ n t hp
  obtain ⟨y, -, h, -⟩ := down_path hp rfl
  have : sizeOfState (downTS.stateVars.map fun _ => true) (downTS.stateVars.map ρ) = (ρ (.ver (.pr 0) 0) : Int).natAbs := by
    simp [sizeOfState, downTS]
  show n ≤ 1 * sizeOfState (downTS.stateVars.map fun _ => true) (downTS.stateVars.map ρ) + 1
  rw [this]
  omega

theorem wf_of {trans : Fla P} (h : ∀ x ∈ trans.vars, x = .ver (.pr 0) 0 ∨ x = .ver (.pr 0) 1) :
    TS.WF (⟨[.ver (.pr 0) 0], [], .tt, trans, .tt⟩ : TS P) ∧ TS.Versioned (⟨[.ver (.pr 0) 0], [], .tt, trans, .tt⟩ : TS P) := by
  refine ⟨⟨fun y hy => (by cases hy), fun y hy => (by cases hy), fun y hy => ?_, ?_, by simp, by simp, by simp⟩, ⟨?_, by simp⟩⟩
  · rcases h y hy with rfl | rfl
    · exact .inl (by simp)
    · exact .inr (.inl (by simp [TS.nextVars, shift]))
  · intro y hy
    rw [List.mem_singleton.1 hy]; rfl
  · intro y hy
    exact ⟨_, List.mem_singleton.1 hy⟩

theorem print_of {cs : List (Clause P)} {ts : TS P} {name : List Char} {m : TMethod} {a : TAnswer} {l : TLine}
    (h : prepare shy id keepE order 5 fresh cs = .done (some ts)) (hm : parseMethod name = some m)
    (ha : solveMethod B ts m = .done a) (hl : a.line = l) : ClausesPrint shy id keepE order 5 fresh B (some name) cs [l] := by
  unfold ClausesPrint
  rw [h]
  simp only [SolvePrints, hm]
  exact .inr ⟨a, ha, by rw [hl]⟩

attribute [local irreducible] ClausesPrint

theorem right_of {cs : List (Clause P)} (m : Meets cs) {o : Option (List Char)} {out : List TLine}
    (h : ClausesPrint shy id keepE order 5 fresh B o cs out) :
    (.yes ∈ out → ¬ ClausesDiverge cs) ∧ (.no ∈ out → ClausesDiverge cs ∨
      ∃ ts, prepare shy id keepE order 5 fresh cs = .done (some ts) ∧ ¬ ∃ s, ts.sem.Init s) := by
  obtain ⟨⟨a1, a2, a3, a4, a5⟩, -⟩ := C75_example_hyps
  exact (C75_termination a1 a2 a3 a4 a5 m.legal m.linear m.noGoals m.apart m.noStray m.system h).2

theorem down_answer : solveMethod B downTS .stepCounter = .done .terminating := by
  have hw := wf_of (trans := downTS.trans) (by decide +kernel)
  have hf : CounterFresh downTS := by unfold CounterFresh; decide +kernel
  have hc := C53_step_counter (k := 0) (isInt := fun _ => true) (ts := downTS) hw.1 hw.2 hf (B_right downTS).counter
  have hy : stepCounter ideal 0 (fun _ => true) downTS = .done .yes := by
    rcases ideal_counter downTS 7 0 (by decide) with h | h
    · exact h
    · exact absurd down_bounded (hc.2.1 h 1 (by simp))
  have e : solveMethod B downTS .stepCounter = withAnswer counterAnswer (stepCounter ideal 0 (fun _ => true) downTS) := by
    simp only [solveMethod, B]
  rw [e, hy]
  rfl

theorem ideal_lasso (ts : TS P) (d : Var → Int) : findLasso (T := P) ideal 0 d ts = .done .lasso ∨
    findLasso (T := P) ideal 0 d ts = .done .noLasso := by
  unfold findLasso solveClauses ideal
  generalize (normalize (lassoClauses (T := P) 0 d ts)).1.repr = R
  generalize buildGraph (normalize (lassoClauses (T := P) 0 d ts)).2 = G
  by_cases hu : Graph.Unsafe R G
  · left; simp only [hu, if_true]
  · right; simp only [hu, if_false]

theorem stay_lasso : stayTS.sem.Lasso := by
  have hst : stayTS.sem.Step [(0 : Int)] [(0 : Int)] := ⟨fun _ => (0 : Int), rfl, rfl, rfl⟩
  exact ⟨[(0 : Int)], 0, ⟨0, [(0 : Int)], ⟨fun _ => (0 : Int), trivial, rfl⟩, .refl _⟩, .snoc (.refl _) hst⟩

theorem stay_answer : solveMethod B stayTS .lassoFinder = .done .nonterminating := by
  have hw := wf_of (trans := stayTS.trans) (by decide +kernel)
  have hc := C52_lasso (T := P) (k := 0) (dflt := B.dflt) (ts := stayTS) hw.1 hw.2 (B_right stayTS).lasso
  have hy : findLasso (T := P) ideal 0 B.dflt stayTS = .done .lasso := by
    rcases ideal_lasso stayTS B.dflt with h | h
    · exact h
    · exact absurd stay_lasso (hc.2 h)
  have e : solveMethod B stayTS .lassoFinder = withAnswer lassoAnswer (findLasso (T := P) ideal 0 B.dflt stayTS) := by
    simp only [solveMethod, B]
  rw [e, hy]
  rfl

/-- `f(x) → f(x-1)` while `x ≥ 1`: the step counter prints `YES`, and the program has no infinite run. -/
theorem C75_example_yes : ClausesPrint shy id keepE order 5 fresh B (some "step-counter".toList) (loopCs down) [.yes] ∧
    ¬ ClausesDiverge (loopCs down) := by
  have hp := print_of prepare_down (name := "step-counter".toList) (m := .stepCounter) (by decide +kernel) down_answer (l := .yes) rfl
  exact ⟨hp, (right_of C75_example_hyps.2.1 hp).1 (by simp)⟩

/-- `f(x) → f(x)`: the lasso finder prints `NO`, and the program has an infinite run. -/
theorem C75_example_no : ClausesPrint shy id keepE order 5 fresh B (some "lasso-finder".toList) (loopCs stay) [.no] ∧
    ClausesDiverge (loopCs stay) := by
  have hp := print_of prepare_stay (name := "lasso-finder".toList) (m := .lassoFinder) (by decide +kernel) stay_answer (l := .no) rfl
  refine ⟨hp, ?_⟩
  rcases (right_of C75_example_hyps.2.2.1 hp).2 (by simp) with h | ⟨ts, h, hn⟩
  · exact h
  · rw [prepare_stay] at h
    cases h
    exact absurd ⟨[(0 : Int)], fun _ => (0 : Int), trivial, rfl⟩ hn

/-- DISAGREEMENT. When the removal of false clauses (`src/termination/Frontend.cc:474`) takes away the only edge from the entry, the
loop that remains is not reachable; the graph is not seen to be trivially terminating, and the single-loop transformation is called
with the entry alone (an assertion, or undefined behaviour without assertions; `src/transformers/SingleLoopTransformation.cc:20-28`, `src/TransformationUtils.cc:53-57`, `src/graph/ChcGraph.cc:611`),
although the program has no run at all. -/
theorem C75_false_entry : prepare shy id keepE order 5 fresh
    [⟨(.p 0, [v "y"]), stay, [(.p 0, [v "x"])]⟩, ⟨(.p 0, [v "e"]), .ff, []⟩] = .thrown ∧
    ¬ ClausesDiverge (T := P) [⟨(.p 0, [v "y"]), stay, [(.p 0, [v "x"])]⟩, ⟨(.p 0, [v "e"]), .ff, []⟩] := by
  constructor
  · have h : (match prepare shy id keepE order 5 fresh
      [⟨(.p 0, [v "y"]), stay, [(.p 0, [v "x"])]⟩, ⟨(.p 0, [v "e"]), .ff, []⟩] with | .thrown => true | _ => false) = true := by
      decide +kernel
    split at h
    · assumption
    · cases h
  · rintro ⟨f, ⟨c, hc, ρ, hh, hr⟩, -⟩
    simp only [List.mem_cons, List.not_mem_nil, or_false] at hc
    rcases hc with rfl | rfl
    · cases hr
    · exact hh

end TermRunEx
end Golem
