import Verif.Props.CheckSat
import Verif.Lemmas.PropQE
import Verif.Props.NodeElim

/-! A concrete case for C56 and C57: `check-sat` on two lists of clauses. -/

namespace Golem
namespace CheckEx
abbrev P := propTheory
open QEEx (boolMbp boolMbp_sound)
open NodeElimEx (keepE keepE_exact)

def v (s : String) : Tm P := .var (.base (.user s))

/-- `p0(a) ← a ∧ b`;  `p1(x) ← p0(x)`;  `p1(y) ← p1(x), y ↔ x`;  `false ← p1(x), q`. -/
def cs (q : Fla P) : List (Clause P) :=
  [⟨(.p 0, [v "a"]), .and (.atom (v "a")) (.atom (v "b")), []⟩,
   ⟨(.p 1, [v "x"]), .tt, [(.p 0, [v "x"])]⟩,
   ⟨(.p 1, [v "y"]), .iff (.atom (v "y")) (.atom (v "x")), [(.p 1, [v "x"])]⟩,
   ⟨(.fls, []), q, [(.p 1, [v "x"])]⟩]

def safeCs : List (Clause P) := cs (.not (.atom (v "x")))
def unsCs : List (Clause P) := cs (.atom (v "x"))

def ar : Pred → Nat | .p _ => 1 | _ => 0

/-- The vertices of a graph in the order of their first occurrence. -/
def order (G : Graph P) : List Pred := firstOcc (G.flatMap fun e => e.tgt :: e.src)

theorem order_ok : IsOrder order := by
  intro G p
  simp [order, mem_firstOcc, Graph.Vertex]

/-- A rewriter that gives a name to equivalences. -/
def nameIff : Fla P → Fla P
  | .iff a b => .and (.atom (v "d")) (.iff (.atom (v "d")) (.iff a b))
  | f => f

theorem nameIff_exact : RewriteExact nameIff := by
  refine ⟨fun f x hx => ?_, fun f ρ h => ?_, fun f ρ hb h => ?_⟩
  · unfold nameIff at hx
    split at hx
    · simp only [Fla.vars, v, Tm.vars, List.mem_append, List.mem_singleton] at hx
      rcases hx with h | h | h
      · exact .inr ⟨_, h⟩
      · exact .inr ⟨_, h⟩
      · exact .inl (by simpa [Fla.vars] using h)
    · exact .inl hx
  · unfold nameIff at h
    split at h
    · simp only [Fla.holds] at h ⊢
      exact h.2.1 h.1
    · exact h
  · unfold nameIff
    split
    · rename_i a b
      refine ⟨fun y => if y = .base (.user "d") then true else ρ y, fun x hx => by simp [hx], ?_⟩
      have hc : (Fla.iff a b).holds (fun y => if y = .base (.user "d") then true else ρ y) := by
        refine (Fla.holds_congr fun x hx => ?_).2 h
        have : x ≠ .base (.user "d") := by rintro rfl; exact hb _ hx
        simp [this]
      have hd : (Fla.atom (v "d")).holds (T := P) (fun y => if y = .base (.user "d") then true else ρ y) := by
        simp [Fla.holds, v, Tm.eval]; rfl
      exact ⟨hd, fun _ => hc, fun _ => hd⟩
    · exact ⟨ρ, fun _ _ => rfl, h⟩

def eng (log : Bool) (n : Nat) : PRepr → GS P → Outcome (VerificationResult P) :=
  spacerCheck propSmt boolMbp id log id (fun _ _ q => q.length - 1) false n

theorem legal (q : Fla P) (hq : ∀ x ∈ q.vars, x = .base (.user "x")) : LegalInput ar (cs q) := by
  refine ⟨⟨rfl, rfl, ?_⟩, ?_, ?_⟩
  · intro c hc
    simp [cs] at hc
    rcases hc with rfl | rfl | rfl | rfl <;> simp [ar]
  · intro c hc x hx
    simp [cs] at hc
    rcases hc with rfl | rfl | rfl | rfl <;> simp [Clause.vars, Fla.vars, Tm.vars, v] at hx
    · rcases hx with rfl | rfl | rfl <;> trivial
    · subst hx; trivial
    · rcases hx with rfl | rfl | rfl | rfl <;> trivial
    · rcases hx with hx | hx
      · rw [hq x hx]; trivial
      · subst hx; trivial
  · intro c hc
    simp [cs] at hc
    rcases hc with rfl | rfl | rfl | rfl <;> constructor <;> simp

def s (n : Nat) : Fla P := .atom (.var (.src (.pr n) 0))
def t (n : Nat) : Fla P := .atom (.var (.tgt (.pr n)))

/-- The graph after the constraint simplifier. -/
def GA (q : Fla P) : Graph P :=
  [⟨[.tru], .p 0, .and (t 0) (.atom (.var (.ver (.aux 1) 0))), 0⟩,
   ⟨[.p 0], .p 1, .and .tt (.and (.eq (.var (.src (.pr 0) 0)) (.var (.tgt (.pr 2)))) .tt), 1⟩,
   ⟨[.p 1], .p 1, .and (.atom (.var (.ver (.user "d") 0))) (.iff (.atom (.var (.ver (.user "d") 0))) (.iff (t 2) (s 2))), 2⟩,
   ⟨[.p 1], .fls, q, 3⟩]

/-- The graph after the chain summarizer. -/
def GB (q : Fla P) : Graph P :=
  [⟨[.p 1], .p 1, .and (.atom (.var (.ver (.user "d") 0))) (.iff (.atom (.var (.ver (.user "d") 0))) (.iff (t 2) (s 2))), 2⟩,
   ⟨[.p 1], .fls, q, 3⟩,
   ⟨[.tru], .p 1, .and (.and (s 0) (.atom (.var (.ver (.aux 1) 0))))
     (.and (.and .tt (.and (.eq (.var (.src (.pr 0) 0)) (.var (.tgt (.pr 2)))) .tt)) .tt), 4⟩]

/-- The graph after `n` stages is the expected one, and the edge inliner has nothing to do. -/
def chk (c : List (Clause P)) (q : Fla P) (n : Nat) : Bool :=
  match runStages ((defaultStages propSmt (normalize c).1.repr nameIff keepE order 3).take n) (initialGraph c) with
  | .done (st, _) => (if n = 1 then decide (st.edges = GA q) else decide (st.edges = GB q)) &&
      (n != 4 || match inlineLoop (normalize c).1.repr keepE 3 st with | .done (_, es) => es.isEmpty | _ => false)
  | _ => true

theorem GA_grounded (q : Fla P) : (GA q).Grounded := by
  have h0 : FwdReach (GA q) .tru := .entry
  have h1 : FwdReach (GA q) (.p 0) :=
    FwdReach.step (G := GA q) (.head _) (by simp) (fun s hs => by rw [List.mem_singleton.1 hs]; exact h0)
  have h2 : FwdReach (GA q) (.p 1) :=
    FwdReach.step (G := GA q) (.tail _ (.head _)) (by simp) (fun s hs => by rw [List.mem_singleton.1 hs]; exact h1)
  intro p hp hf
  obtain ⟨e, he, h⟩ := hp
  simp [GA] at he
  rcases he with rfl | rfl | rfl | rfl <;> simp at h <;> grind

theorem GB_ends (q : Fla P) (hq : q ≠ .ff) : (GB q).NoDeadEnds ∧ (GB q).KeepsVertices := by
  constructor
  · intro p hp ht hf
    obtain ⟨e, he, h⟩ := hp
    have : p = .p 1 := by
      simp [GB] at he
      rcases he with rfl | rfl | rfl <;> simp at h <;> grind
    subst this
    exact ⟨⟨_, List.mem_cons_self, rfl⟩, ⟨_, List.mem_cons_self, by simp⟩⟩
  · have : deleteFalseEdges (GB q) = GB q := by simp [deleteFalseEdges, GB, hq]
    intro p hp _ _
    rw [this]; exact hp

theorem ready {c : List (Clause P)} {q : Fla P} (hq : q ≠ .ff)
    (hc : ∀ n ∈ [1, 3, 4, 5, 10, 11], chk c q n = true) (pre post st1 bs1)
    (he : defaultStages propSmt (normalize c).1.repr nameIff keepE order 3 = pre ++ post)
    (hr : runStages pre (initialGraph c) = .done (st1, bs1)) :
    DefaultReady (normalize c).1.repr keepE 3 st1 pre.length := by
  have hpre : pre = (defaultStages propSmt (normalize c).1.repr nameIff keepE order 3).take pre.length := by
    rw [he, List.take_left' rfl]
  rw [hpre] at hr
  generalize pre.length = n at *
  by_cases hn : n ∈ [1, 3, 4, 5, 10, 11]
  · have := hc n hn
    unfold chk at this
    rw [hr] at this
    simp only [List.mem_cons, List.not_mem_nil, or_false] at hn
    obtain ⟨g1, g2⟩ := GB_ends q hq
    rcases hn with rfl | rfl | rfl | rfl | rfl | rfl
    · simp at this
      unfold DefaultReady; rw [this]; exact GA_grounded q
    · simp at this
      unfold DefaultReady; rw [this]; exact g1
    · simp only [Nat.reduceEqDiff, if_false, bne_self_eq_false, Bool.false_or, Bool.and_eq_true] at this
      obtain ⟨-, h2⟩ := this
      unfold DefaultReady
      split at h2
      · rename_i st' es hl
        refine ⟨st', es, hl, fun en hen => ?_⟩
        rw [List.isEmpty_iff.1 h2] at hen; cases hen
      · cases h2
    · simp at this
      unfold DefaultReady; rw [this]; exact g2
    · simp at this
      unfold DefaultReady; rw [this]; exact g1
    · simp at this
      unfold DefaultReady; rw [this]; exact g2
  · simp only [List.mem_cons, List.not_mem_nil, or_false, not_or] at hn
    unfold DefaultReady
    split <;> trivial

def isBase : Var → Bool
  | .base _ => true
  | _ => false

/-- The hypotheses of C57 are met by the two lists of clauses. -/
theorem hyps : propSmt.Sound ∧ propSmt.Complete ∧ RewriteExact nameIff ∧ keepE.Exact ∧ IsOrder order ∧
    (∀ n, CheckEngine.Good (eng true n)) ∧ LegalInput ar safeCs ∧ LegalInput ar unsCs ∧
    RewritesApart nameIff safeCs ∧ RewritesApart nameIff unsCs := by
  refine ⟨propSmt_sound, propSmt_complete, nameIff_exact, keepE_exact, order_ok, fun n => ?_, legal _ ?_, legal _ ?_, ?_, ?_⟩
  · exact C57_spacer propSmt_sound boolMbp_sound ⟨fun _ _ => Iff.rfl, fun _ _ h => h⟩ (fun _ _ => Iff.rfl) (.inl propSmt_complete)
  · intro x hx; simpa [Fla.vars, Tm.vars, v] using hx
  · intro x hx; simpa [Fla.vars, Tm.vars, v] using hx
  · have : ∀ e ∈ (initialGraph safeCs).edges, ∀ e' ∈ (initialGraph safeCs).edges, e ≠ e' →
        ∀ x ∈ (nameIff e.fla).vars, isBase x = true → x ∉ (nameIff e'.fla).vars := by decide +kernel
    intro e he e' he' hne n hn
    exact this e he e' he' hne _ hn rfl
  · have : ∀ e ∈ (initialGraph unsCs).edges, ∀ e' ∈ (initialGraph unsCs).edges, e ≠ e' →
        ∀ x ∈ (nameIff e.fla).vars, isBase x = true → x ∉ (nameIff e'.fla).vars := by decide +kernel
    intro e he e' he' hne n hn
    exact this e he e' he' hne _ hn rfl

/-- `check-sat` prints `sat`, and the clauses have a model. -/
theorem C57_example_safe : (∃ r, (checkSat propSmt nameIff keepE order 3 (eng true 10) true true safeCs).1 =
    [.answer .safe, .witness r, .validation true]) ∧ Satisfiable (clauseRules safeCs) := by
  have h : (match (checkSat propSmt nameIff keepE order 3 (eng true 10) true true safeCs).1 with
    | [.answer .safe, .witness _, .validation true] => true | _ => false) = true := by decide +kernel
  have hx : ∃ r, (checkSat propSmt nameIff keepE order 3 (eng true 10) true true safeCs).1 =
      [.answer .safe, .witness r, .validation true] := by
    split at h
    · exact ⟨_, by assumption⟩
    · cases h
  refine ⟨hx, ?_⟩
  obtain ⟨r, hr⟩ := hx
  obtain ⟨a1, -, a3, a4, a5, a6, a7, -, a9, -⟩ := hyps
  exact (C57_check_sat a1 a3 a4 a5 (a6 10).right a7 a9).1 (by rw [hr]; simp)

/-- `check-sat` prints `unsat` and a derivation of `false` from the input clauses, and the clauses have no model. -/
theorem C57_example_unsafe : (∃ ds, ds ≠ [] ∧ (checkSat propSmt nameIff keepE order 3 (eng true 10) true true unsCs).1 =
    [.answer .unsafeAns, .witness ⟨.unsafeAns, .invalidity ds⟩, .validation true] ∧
    UnsafeWitness (normalize unsCs).1.repr (initialGraph unsCs).edges ds) ∧ ¬ Satisfiable (clauseRules unsCs) := by
  have h : (match (checkSat propSmt nameIff keepE order 3 (eng true 10) true true unsCs).1 with
    | [.answer .unsafeAns, .witness ⟨.unsafeAns, .invalidity (_ :: _)⟩, .validation true] => true | _ => false) = true := by
    decide +kernel
  have hx : ∃ ds, ds ≠ [] ∧ (checkSat propSmt nameIff keepE order 3 (eng true 10) true true unsCs).1 =
      [.answer .unsafeAns, .witness ⟨.unsafeAns, .invalidity ds⟩, .validation true] := by
    split at h
    · rename_i hr; exact ⟨_, List.cons_ne_nil _ _, hr⟩
    · cases h
  obtain ⟨ds, h0, hr⟩ := hx
  obtain ⟨a1, -, a3, a4, a5, a6, -, a8, -, a10⟩ := hyps
  refine ⟨⟨ds, h0, hr, ?_⟩, (C57_check_sat a1 a3 a4 a5 (a6 10).right a8 a10).2 (by rw [hr]; simp)⟩
  exact ((C57_unsafe_witness (a := .unsafeAns) (ds := ds) a1 a3 a4 a5 (a6 10) a8 a10 (by rw [hr]; simp)).resolve_left h0).2

/-- The conditions `DefaultReady` of C56 and C57 are met. -/
theorem C57_example_ready : (∀ pre post st1 bs1,
    defaultStages propSmt (normalize safeCs).1.repr nameIff keepE order 3 = pre ++ post →
      runStages pre (initialGraph safeCs) = .done (st1, bs1) →
      DefaultReady (normalize safeCs).1.repr keepE 3 st1 pre.length) ∧
    (∀ pre post st1 bs1,
    defaultStages propSmt (normalize unsCs).1.repr nameIff keepE order 3 = pre ++ post →
      runStages pre (initialGraph unsCs) = .done (st1, bs1) →
      DefaultReady (normalize unsCs).1.repr keepE 3 st1 pre.length) :=
  ⟨ready (q := .not (s 2)) (by decide) (by decide +kernel), ready (q := s 2) (by decide) (by decide +kernel)⟩

end CheckEx
end Golem
