import Verif.Props.ToTS
import Verif.Props.QE
import Verif.Props.Bmc
import Verif.Props.Kind
import Verif.Props.Imc

/-!
C22, C24, C25 for graphs: the three engines on a graph that is a transition system, from the graph to the answer and the
witness for the graph.
-/

namespace Golem
variable {T : Theory}

/-- A result that is right for a graph: the answer is the truth about the graph, and a witness, if there is one, proves it. -/
structure GraphResultOk (R : PRepr) (G : LGraph T) (res : VerificationResult T) : Prop where
  unsafeAns : res.answer = .unsafeAns → G.Unsafe R
  safe : res.answer = .safe → ¬ G.Unsafe R
  validity : ∀ D, res.witness = .validity D → res.answer = .safe ∧ LSafeWitness R G D
  invalidity : ∀ ds, res.witness = .invalidity ds → res.answer = .unsafeAns ∧ LUnsafeWitness R G ds

theorem solveTSGraph_ok {S : Smt T} (hS : S.Sound) {R : PRepr} (hR : R.WF) {E : ElimExcept T} (hE : E.Exact) {G : LGraph T}
    (hG : isTransitionSystem G = true) (hn : G.NoStray) (hl : ∀ e ∈ G, e.LabelOk R) (hd : G.AuxDisjoint R)
    (hid : (G.map LEdge.id).Nodup) {prep : TS T → Option (TS T)} {solve : TS T → Outcome (TSResult T)} {w : Bool}
    (hprep : ∀ ts ts', ts.WF → ts.AuxSep → prep ts = some ts' → ts'.Same ts)
    (hsolve : ∀ ts ts' r, ts.WF → ts.AuxSep → prep ts = some ts' → solve ts' = .done r →
      (r.answer = .unsafeAns → ts'.sem.Unsafe) ∧ (r.answer = .safe → ts'.sem.Safe) ∧ (w = true → TSAnswerOk ts' r))
    {res : VerificationResult T} (h : solveTSGraph S R E prep solve w G = .done res) :
    GraphResultOk R G res ∧ (w = true → res.witness = .none → res.answer = .unknown) := by
  obtain ⟨ts, hts, hwf, hsep, _⟩ := C18_toTransitionSystem hR hE hG hn hl hd
  obtain ⟨ts0, hts0, hu⟩ := C18_unsafe hR hE hG hn hl hd
  rw [hts] at hts0; cases hts0
  unfold solveTSGraph at h
  rw [hts, Option.bind_some] at h
  cases hp : prep ts with
  | none => rw [hp] at h; cases h
  | some ts' =>
    rw [hp] at h
    simp only at h
    have hs := hprep ts ts' hwf hsep hp
    cases hr : solve ts' with
    | done r =>
      rw [hr] at h
      simp only at h
      obtain ⟨h1, h2, h3⟩ := hsolve ts ts' r hwf hsep hp hr
      have hsu : ts'.sem.Unsafe ↔ G.Unsafe R := by rw [hs.sem]; exact hu
      have hss : ts'.sem.Safe → ¬ G.Unsafe R := fun h hg => h (hsu.2 hg)
      split at h
      · rename_i hw
        obtain ⟨ha, hv, hi, hno⟩ := (C28_translate hS hR hE hG hn hl hid hts hs (h3 hw)).1 res h
        exact ⟨⟨fun e => hsu.1 (h1 (ha ▸ e)), fun e => hss (h2 (ha ▸ e)), hv, hi⟩, fun _ => hno⟩
      · rename_i hw
        cases h
        exact ⟨⟨fun e => hsu.1 (h1 e), fun e => hss (h2 e), fun _ e => (by cases e), fun _ e => (by cases e)⟩,
          fun e => absurd e hw⟩
    | thrown => rw [hr] at h; cases h
    | outOfFuel => rw [hr] at h; cases h

/-- **C22** Bounded model checking of a graph: the answer is right and the witness is a witness for the graph. -/
theorem C22_bmc_graph {S : Smt T} (hS : S.Sound) {R : PRepr} (hR : R.WF) {E : ElimExcept T} (hE : E.Exact) {G : LGraph T}
    (hG : isTransitionSystem G = true) (hn : G.NoStray) (hl : ∀ e ∈ G, e.LabelOk R) (hd : G.AuxDisjoint R)
    (hid : (G.map LEdge.id).Nodup) (w : Bool) (fuel : Nat) {res : VerificationResult T}
    (h : solveTSGraph S R E some (fun ts => bmcSolve S ts fuel) w G = .done res) :
    GraphResultOk R G res ∧ (w = true → res.witness = .none → res.answer = .unknown) := by
  refine solveTSGraph_ok hS hR hE hG hn hl hd hid (fun ts ts' _ _ e => ?_) (fun ts ts' r _ _ e hr => ?_) h
  · cases e; exact .refl _
  · cases e
    rcases C22_bmc_sound S hS ts fuel r hr with ⟨k, rfl, hb⟩ | ⟨rfl, _, hi⟩
    · exact ⟨fun _ => ⟨k, hb⟩, fun e => (by cases e), fun _ => hb⟩
    · exact ⟨fun e => (by cases e), fun _ => hi.isSafe, fun _ => ⟨fun x hx => (by simp [Fla.vars] at hx), hi⟩⟩

/-- **C24** k-induction on a graph, with a backend that decides. -/
theorem C24_kind_graph {S : Smt T} (hS : S.Sound) (hc : S.Complete) {R : PRepr} (hR : R.WF) {E : ElimExcept T} (hE : E.Exact)
    {Q : QElim T} (hQ : Q.Exact) {G : LGraph T}
    (hG : isTransitionSystem G = true) (hn : G.NoStray) (hl : ∀ e ∈ G, e.LabelOk R) (hd : G.AuxDisjoint R)
    (hid : (G.map LEdge.id).Nodup) (w : Bool) (fuel : Nat) {res : VerificationResult T}
    (h : solveTSGraph S R E (ensureNoAux Q) (fun ts => kindSolve S w ts fuel) w G = .done res) :
    GraphResultOk R G res ∧ (w = true → res.witness = .none → res.answer = .unknown) := by
  refine solveTSGraph_ok hS hR hE hG hn hl hd hid (fun ts ts' hw _ e => (C18_ensureNoAux hQ hw e).2.2)
    (fun ts ts' r hw _ e hr => ?_) h
  obtain ⟨hwf, hna, _⟩ := C18_ensureNoAux hQ hw e
  cases r with
  | safeInv I =>
    refine ⟨fun e => (by cases e), fun _ => C24_kind_safe S hS w ts' hwf hna (fun j => hc _) fuel I hr, fun hw' => ?_⟩
    subst hw'
    exact C24_kind_safe_invariant S hS ts' hwf hna (hc _) fuel I hr
  | unsafeAt k =>
    obtain ⟨h1, h2⟩ := C24_kind_unsafe S hS w ts' fuel k hr
    exact ⟨fun _ => h1, fun e => (by cases e), h2⟩
  | unknown => exact ⟨fun e => (by cases e), fun e => (by cases e), fun _ => trivial⟩

/-- **C25** Interpolation-based model checking of a graph, with a backend that decides. -/
theorem C25_imc_graph {S : Smt T} (hS : S.Sound) (hc : S.Complete) {R : PRepr} (hR : R.WF) {E : ElimExcept T} (hE : E.Exact)
    {Q : QElim T} (hQ : Q.Exact) {G : LGraph T}
    (hG : isTransitionSystem G = true) (hn : G.NoStray) (hl : ∀ e ∈ G, e.LabelOk R) (hd : G.AuxDisjoint R)
    (hid : (G.map LEdge.id).Nodup) (w hasArrays : Bool) (inner fuel : Nat) {res : VerificationResult T}
    (h : solveTSGraph S R E (ensureNoAux Q) (fun ts => imcSolve S w hasArrays ts inner fuel) w G = .done res) :
    GraphResultOk R G res ∧ (w = true → res.witness = .none → res.answer = .unknown) := by
  refine solveTSGraph_ok hS hR hE hG hn hl hd hid (fun ts ts' hw _ e => (C18_ensureNoAux hQ hw e).2.2)
    (fun ts ts' r hw _ e hr => ?_) h
  obtain ⟨hwf, hna, _⟩ := C18_ensureNoAux hQ hw e
  cases r with
  | safeInv I =>
    obtain ⟨h1, h2⟩ := C25_imc_safe S hS w hasArrays ts' hwf hna (hc _) inner fuel I hr
    exact ⟨fun e => (by cases e), fun _ => h1, h2⟩
  | unsafeAt k =>
    obtain ⟨h1, _⟩ := C25_imc_unsafe S hS w hasArrays ts' hwf hna inner fuel k hr
    exact ⟨fun _ => ⟨k, h1⟩, fun e => (by cases e), fun _ => h1⟩
  | unknown => exact ⟨fun e => (by cases e), fun e => (by cases e), fun _ => trivial⟩

/-- The quantifier elimination of C36 meets the contract used here. -/
theorem C36_qelim {S : Smt T} (hS : S.Correct) {M : Mbp T} (hM : M.Sound) {simp : Fla T → Fla T} (hs : SimpOk simp)
    (fuel : Nat) : QElim.Exact (T := T) fun f vs => match qeEliminate S M simp fuel f vs with
      | .done g => some g
      | _ => none := by
  intro f vs g h
  simp only at h
  split at h
  · rename_i g' hg
    cases h
    exact C36_eliminate hS hM hs fuel f g vs hg
  · cases h

/-! ### Example -/

namespace LinearEx
open ValidatorEx (P R R_wf a)

def keep : ElimExcept P := fun _ f => f

theorem keep_exact : keep.Exact := ⟨fun _ _ _ h => h, fun _ _ ρ h => ⟨ρ, fun _ _ => rfl, h⟩, fun _ _ _ h => h⟩

theorem G_noStray : G.NoStray := by
  intro e he
  obtain ⟨o, ho, _, _, hm⟩ := C41_reversePostOrder_exact G
  have : o = [.tru, .p 0, .fls] := by
    have h2 : reversePostOrder G = some [.tru, .p 0, .fls] := by decide +kernel
    rw [h2] at ho; cases ho; rfl
  subst this
  refine (hm e.src).1 ?_
  simp only [G, List.mem_cons, List.not_mem_nil, or_false] at he
  rcases he with rfl | rfl | rfl <;> simp

theorem G_auxDisjoint : G.AuxDisjoint R := by
  intro e he e' _ _ n hn hx
  exfalso
  have key : n ∈ R.stateVars (.p 0) ∨ n ∈ R.nextVars (.p 0) := by
    simp only [G, List.mem_cons, List.not_mem_nil, or_false] at he
    rcases he with rfl | rfl | rfl <;> simp [a, z, Fla.vars, Tm.vars] at hx <;>
      simp [PRepr.stateVars, PRepr.nextVars, R, hx]
  exact key.elim (hn.not_state _) (hn.not_next _)

/-- The engines on a concrete graph; the hypotheses of the theorems above hold for it. -/
theorem C28_example : isTransitionSystem G = true ∧ G.NoStray ∧ (∀ e ∈ G, e.LabelOk R) ∧ G.AuxDisjoint R ∧
    (G.map LEdge.id).Nodup ∧ keep.Exact ∧ (∃ res, solveTSGraph propSmt R keep some (fun ts => bmcSolve propSmt ts 3) true G
      = .done res ∧ res.answer = .unsafeAns ∧ ∃ ds, res.witness = .invalidity ds ∧ ds.length = 4) := by
  refine ⟨by decide +kernel, G_noStray, G_label, G_auxDisjoint, by decide +kernel, keep_exact, ?_⟩
  have : (match solveTSGraph propSmt R keep some (fun ts => bmcSolve propSmt ts 3) true G with
    | .done ⟨.unsafeAns, .invalidity ds⟩ => ds.length == 4 | _ => false) = true := by decide +kernel
  revert this
  cases solveTSGraph propSmt R keep some (fun ts => bmcSolve propSmt ts 3) true G with
  | done r =>
    obtain ⟨a, w⟩ := r
    cases a <;> cases w <;> simp
  | thrown => simp
  | outOfFuel => simp

end LinearEx

end Golem
