import Verif.Lemmas.Spacer
import Verif.Model.LinearGraph

/-! Spacer: proof obligations, lemmas, the bounded safety check. -/

namespace Golem
variable {T : Theory} {E : SpEnv T}

/-- What is known of a proof obligation in the queue. -/
structure PobOk (E : SpEnv T) (cur : Nat) (p : Pob T) : Prop where
  closed : ∀ x ∈ p.constraint.vars, x ∈ E.R.tgtVars p.vertex
  le : p.bound ≤ cur
  point : ∃ ρ, p.constraint.holds ρ
  /-- with a backend that decides, the entry is never queued -/
  live : E.S.Complete → p.vertex ≠ .tru ∧ 1 ≤ p.bound
  /-- in a graph without hyperedges, reaching the obligation means reaching the exit -/
  lead : isNormalGraph E.G = true → ∀ ρ, p.constraint.holds ρ →
    Derivable (graphRules E.R E.G) (p.vertex, (E.R.tgtVars p.vertex).map ρ) → E.G.Unsafe E.R

theorem newPob_spec (hE : E.WF) {f : Fla T} {q : Pred × Nat} {b : Nat} {ρ : Valuation T} {p : Pob T} (hf : f.holds ρ)
    (h : E.newPob f q b ρ = some p) :
    p.vertex = q.1 ∧ p.bound = b ∧ (∀ x ∈ p.constraint.vars, x ∈ E.R.tgtVars p.vertex) ∧ (∃ σ, p.constraint.holds σ) ∧
      ∀ σ, p.constraint.holds σ → ∃ σ', (E.R.srcVars q.1 q.2).map σ' = (E.R.tgtVars q.1).map σ ∧ f.holds σ' := by
  unfold SpEnv.newPob at h
  simp only [Option.bind_eq_bind, Option.bind_eq_some_iff, Option.pure_def, Option.some.injEq] at h
  obtain ⟨g, hg, rfl⟩ := h
  obtain ⟨g1, g2, g3⟩ := project_spec hE hf hg
  refine ⟨rfl, rfl, ?_, ?_, ?_⟩
  · intro x hx
    obtain ⟨y, hy, rfl⟩ := Fla.mem_vars_rename.1 hx
    obtain ⟨n, hn, rfl⟩ := E.R.mem_srcVars.1 (g2 y hy).2
    exact E.R.mem_tgtVars.2 ⟨n, hn, rfl⟩
  · refine ⟨fun x => match x with | .tgt n => ρ (.src n q.2) | x => ρ x, ?_⟩
    simp only [Fla.holds_rename]
    refine (Fla.holds_congr fun x hx => ?_).1 g1
    obtain ⟨n, hn, rfl⟩ := E.R.mem_srcVars.1 (g2 x hx).2
    rfl
  · intro σ hσ
    simp only [Fla.holds_rename] at hσ
    obtain ⟨σ', a1, a2⟩ := g3 _ hσ
    refine ⟨σ', ?_, a2⟩
    rw [List.map_congr_left a1, srcToTarget_map]

theorem edgeMixed_holds (hE : E.WF) {st : SpState T} {b : Nat} {e : Edge T} {last : Nat} {ρ : Valuation T} :
    (E.edgeMixed st b e last).holds ρ ↔ e.fla.holds ρ ∧ ∀ i q, (instances e.src)[i]? = some q →
      (i ≤ last → ∀ c ∈ st.over b q.1, c.holds (fun x => ρ (toSrc q.2 x))) ∧
      (last < i → ∃ c ∈ st.under b q.1, c.holds (fun x => ρ (toSrc q.2 x))) := by
  simp only [SpEnv.edgeMixed, Fla.holds_conj, List.mem_append, List.mem_map, List.mem_singleton]
  constructor
  · intro h
    refine ⟨h _ (.inr rfl), fun i q hq => ?_⟩
    have := h _ (.inl ⟨(q, i), by rw [List.mem_zipIdx_iff_getElem?]; simpa using hq, rfl⟩)
    rw [Fla.holds_rename] at this
    simp only at this
    constructor
    · intro hi; rw [if_pos hi, may_holds hE] at this; exact this
    · intro hi; rw [if_neg (by omega), must_holds hE] at this; exact this
  · rintro ⟨h1, h2⟩ f (⟨⟨q, i⟩, hq, rfl⟩ | rfl)
    · rw [List.mem_zipIdx_iff_getElem?] at hq
      have hq' := h2 i q (by simpa using hq)
      rw [Fla.holds_rename]
      simp only
      split
      · rename_i hi; exact (may_holds hE).2 (hq'.1 hi)
      · rename_i hi; exact (must_holds hE).2 (hq'.2 (by omega))
    · exact h1

/-- Nothing over-approximates a vertex at level zero, except the entry. -/
theorem over_zero (hE : E.WF) {cur : Nat} {st : SpState T} (h : SpInv E cur st) {e : Edge T} (he : e ∈ E.G) {q : Pred × Nat}
    (hq : q ∈ instances e.src) (hne : q.1 ≠ .tru) {ρ : Valuation T} (hh : ∀ c ∈ st.over 0 q.1, c.holds ρ) : False :=
  hh .ff (h.over0 q.1 ((hE.verts _).2 (.inl ⟨e, he, .inr (mem_of_mem_instances hq)⟩)) hne)

/-- The case of a single source. -/
theorem single_pob (hE : E.WF) {cur : Nat} {st : SpState T} (h : SpInv E cur st) {pob p : Pob T} (hp : PobOk E cur pob)
    (hb : pob.bound ≠ 0) {e : Edge T} (he : e ∈ E.G) (ht : e.tgt = pob.vertex) {q : Pred × Nat} (hq : instances e.src = [q])
    (hnone : E.checkMust st pob = .done none) {ρ : Valuation T} (hm : (E.edgeMay st (pob.bound - 1) e).holds ρ)
    (hc : pob.constraint.holds ρ)
    (hn : E.newPob (.and (E.edgeMay st (pob.bound - 1) e) pob.constraint) q (pob.bound - 1) ρ = some p) : PobOk E cur p := by
  obtain ⟨n1, n2, n3, n4, n5⟩ := newPob_spec hE (f := .and _ _) ⟨hm, hc⟩ hn
  have hle := hp.le
  refine ⟨n3, by omega, n4, fun hcpl => ?_, fun hlin σ hσ hd => ?_⟩
  · have hm' := (edgeMay_holds hE).1 hm
    have hne : p.vertex ≠ .tru := by
      intro h0
      refine checkMust_none hE hcpl hnone he ht ρ ?_ hc
      rw [edgeMust_holds hE]
      refine ⟨hm'.1, fun q' hq' => ?_⟩
      rw [hq, List.mem_singleton] at hq'
      subst hq'
      refine ⟨.tt, ?_, trivial⟩
      rw [show q'.1 = .tru by rw [← n1, h0]]
      exact h.underTru _ (by omega)
    refine ⟨hne, ?_⟩
    rcases Nat.eq_zero_or_pos p.bound with h0 | h0
    · exfalso
      have hqm : q ∈ instances e.src := by rw [hq]; simp
      refine over_zero hE h he hqm (by rw [← n1]; exact hne) (ρ := fun x => ρ (toSrc q.2 x)) ?_
      have := hm'.2 q hqm
      rwa [← n2, h0] at this
    · exact h0
  · obtain ⟨σ', a1, a2, a3⟩ := n5 σ hσ
    refine hp.lead hlin σ' a3 ?_
    rw [← ht]
    refine Derivable.step (e.rule E.R σ') ⟨e, he, σ', ((edgeMay_holds hE).1 a2).1, rfl⟩ ?_
    intro b hb
    simp only [Edge.rule, Edge.srcFacts, hq, List.map_cons, List.map_nil, List.mem_singleton] at hb
    subst hb
    rw [a1, ← n1]
    exact hd

theorem hyper_not_normal {e : Edge T} (he : e ∈ E.G) (hl : ∀ q, instances e.src ≠ [q]) : ¬ isNormalGraph E.G = true := by
  intro h
  unfold isNormalGraph at h
  rw [List.all_eq_true] at h
  have h1 := h e he
  simp only [beq_iff_eq] at h1
  rw [← instances_length] at h1
  obtain ⟨q, hq⟩ := List.length_eq_one_iff.1 h1
  exact hl q hq

/-- The case of a hyperedge: the loop over the sources. -/
theorem refine_pob (hE : E.WF) {cur : Nat} {st : SpState T} (h : SpInv E cur st) {pob : Pob T} (hp : PobOk E cur pob)
    (hb : pob.bound ≠ 0) {e : Edge T} (he : e ∈ E.G) (ht : e.tgt = pob.vertex) (hl : ∀ q, instances e.src ≠ [q])
    (hnone : E.checkMust st pob = .done none) {qs : List (Pred × Nat)} {i : Nat}
    (hpre : ∃ pre, instances e.src = pre ++ qs ∧ pre.length = i)
    (hprev : ∀ j, i = j + 1 → ∀ ρ, (E.edgeMixed st (pob.bound - 1) e j).holds ρ → ¬ pob.constraint.holds ρ)
    {r : Option (Pob T)} (hr : E.refine st e pob qs i = .done r) : ∃ p, r = some p ∧ PobOk E cur p := by
  induction qs generalizing i with
  | nil => simp [SpEnv.refine] at hr
  | cons q qs ih =>
    simp only [SpEnv.refine] at hr
    obtain ⟨pre, hpre, hlen⟩ := hpre
    have hqi : (instances e.src)[i]? = some q := by rw [hpre, ← hlen]; simp
    have hqm : q ∈ instances e.src := by rw [hpre]; simp
    split at hr
    · rename_i hs
      obtain ⟨h1, h2⟩ := spSat_sat hE.smt hs
      split at hr
      · rename_i p hn
        simp only [Outcome.done.injEq] at hr
        subst hr
        refine ⟨p, rfl, ?_⟩
        obtain ⟨n1, n2, n3, n4, n5⟩ := newPob_spec hE (f := .and _ _) ⟨h1, h2⟩ hn
        have hle := hp.le
        have hm := (edgeMixed_holds hE).1 h1
        refine ⟨n3, by omega, n4, fun hcpl => ?_, fun hlin => absurd hlin (hyper_not_normal he hl)⟩
        have hne : p.vertex ≠ .tru := by
          intro h0
          have hq0 : q.1 = .tru := by rw [← n1, h0]
          have htt : ∀ ρ : Valuation T, ∃ c ∈ st.under (pob.bound - 1) q.1, c.holds ρ := fun ρ =>
            ⟨.tt, by rw [hq0]; exact h.underTru _ (by omega), trivial⟩
          cases i with
          | zero =>
            refine checkMust_none hE hcpl hnone he ht _ ?_ h2
            rw [edgeMust_holds hE]
            refine ⟨hm.1, fun q' hq' => ?_⟩
            obtain ⟨k, hk⟩ := List.getElem?_of_mem hq'
            by_cases hk0 : k = 0
            · subst hk0
              obtain rfl : q = q' := by rw [hqi] at hk; simpa using hk
              exact htt _
            · exact (hm.2 k q' hk).2 (by omega)
          | succ j =>
            refine hprev j rfl _ ?_ h2
            rw [edgeMixed_holds hE]
            refine ⟨hm.1, fun k q' hk => ⟨fun hkj => (hm.2 k q' hk).1 (by omega), fun hkj => ?_⟩⟩
            by_cases hk0 : k = j + 1
            · subst hk0
              obtain rfl : q = q' := by rw [hqi] at hk; simpa using hk
              exact htt _
            · exact (hm.2 k q' hk).2 (by omega)
        refine ⟨hne, ?_⟩
        rcases Nat.eq_zero_or_pos p.bound with h0 | h0
        · exfalso
          refine over_zero hE h he hqm (by rw [← n1]; exact hne)
            (ρ := fun x => E.S.model [E.edgeMixed st (pob.bound - 1) e i, pob.constraint] (toSrc q.2 x)) ?_
          have := (hm.2 i q hqi).1 (Nat.le_refl _)
          rw [← n2, h0] at this
          simpa [← n2, h0] using this
        · exact h0
      · simp at hr
    · rename_i hs
      refine ih (i := i + 1) ⟨pre ++ [q], by simp [hpre], by simp [hlen]⟩ ?_ hr
      intro j hj ρ h1 h2
      obtain rfl : i = j := by omega
      exact spSat_unsat hE.smt hs ρ h1 h2
    · simp at hr

/-- One edge: either it is blocked, or a correct obligation is produced. -/
theorem predecessor_spec (hE : E.WF) {cur : Nat} {st : SpState T} (h : SpInv E cur st) {pob : Pob T} (hp : PobOk E cur pob)
    (hb : pob.bound ≠ 0) {e : Edge T} (he : e ∈ E.G) (ht : e.tgt = pob.vertex) (hnone : E.checkMust st pob = .done none)
    {r : Option (Pob T)} (hr : E.predecessor st pob e = .done r) :
    (∀ p, r = some p → PobOk E cur p) ∧
      (r = none → ∀ ρ, (E.edgeMay st (pob.bound - 1) e).holds ρ → ¬ pob.constraint.holds ρ) := by
  unfold SpEnv.predecessor at hr
  simp only at hr
  split at hr
  · rename_i q hq
    split at hr
    · rename_i hs
      obtain ⟨h1, h2⟩ := spSat_sat hE.smt hs
      split at hr
      · rename_i p hn
        simp only [Outcome.done.injEq] at hr
        subst hr
        exact ⟨fun p' e' => by cases e'; exact single_pob hE h hp hb he ht hq hnone h1 h2 hn, by simp⟩
      · simp at hr
    · rename_i hs
      simp only [Outcome.done.injEq] at hr
      subst hr
      exact ⟨by simp, fun _ ρ h1 h2 => spSat_unsat hE.smt hs ρ h1 h2⟩
    · simp at hr
  · rename_i hq
    have hl : ∀ q, instances e.src ≠ [q] := fun q hc => hq q hc
    split at hr
    · obtain ⟨p, rfl, hok⟩ := refine_pob (i := 0) hE h hp hb he ht hl hnone ⟨[], by simp, rfl⟩ (fun j hj => absurd hj (by omega)) hr
      exact ⟨fun p' e' => by cases e'; exact hok, by simp⟩
    · rename_i hs
      simp only [Outcome.done.injEq] at hr
      subst hr
      exact ⟨by simp, fun _ ρ h1 h2 => spSat_unsat hE.smt hs ρ h1 h2⟩
    · simp at hr

theorem predecessors_spec (hE : E.WF) {cur : Nat} {st : SpState T} (h : SpInv E cur st) {pob : Pob T} (hp : PobOk E cur pob)
    (hb : pob.bound ≠ 0) (hnone : E.checkMust st pob = .done none) {es : List (Edge T)}
    (hes : ∀ e ∈ es, e ∈ E.G ∧ e.tgt = pob.vertex) {ps : List (Pob T)} (hr : E.predecessors st pob es = .done ps) :
    (∀ p ∈ ps, PobOk E cur p) ∧
      (ps = [] → ∀ e ∈ es, ∀ ρ, (E.edgeMay st (pob.bound - 1) e).holds ρ → ¬ pob.constraint.holds ρ) := by
  induction es generalizing ps with
  | nil => simp only [SpEnv.predecessors, Outcome.done.injEq] at hr; subst hr; simp
  | cons e es ih =>
    simp only [SpEnv.predecessors] at hr
    split at hr
    · rename_i r h1
      obtain ⟨a1, a2⟩ := predecessor_spec hE h hp hb (hes e (by simp)).1 (hes e (by simp)).2 hnone h1
      split at hr
      · rename_i ps' h2
        obtain ⟨b1, b2⟩ := ih (fun e' he' => hes e' (by simp [he'])) h2
        simp only [Outcome.done.injEq] at hr
        subst hr
        refine ⟨fun p hp' => ?_, fun h0 e' he' => ?_⟩
        · rcases List.mem_append.1 hp' with hp' | hp'
          · exact a1 p (by simpa using hp')
          · exact b1 p hp'
        · rw [List.append_eq_nil_iff] at h0
          rcases List.mem_cons.1 he' with rfl | he'
          · exact a2 (by simpa using h0.1)
          · exact b2 h0.2 e' he'
      · simp at hr
      · simp at hr
    · simp at hr
    · simp at hr

/-- The exit is blocked at a level. -/
def Blocked (st : SpState T) (n : Nat) : Prop := ∃ c ∈ st.over n .fls, ∀ ρ : Valuation T, ¬ c.holds ρ

theorem Blocked.mono {st st' : SpState T} (h : ∀ n v, ∀ c ∈ st.over n v, c ∈ st'.over n v) {n : Nat} (hb : Blocked st n) :
    Blocked st' n := by
  obtain ⟨c, hc, hh⟩ := hb
  exact ⟨c, h _ _ c hc, hh⟩

/-- A learnt lemma: it is implied by the over-approximation of the level below and excludes the obligation. -/
theorem block_inv (hE : E.WF) {cur : Nat} {st st' : SpState T} (h : SpInv E cur st) {pob : Pob T} (hp : PobOk E cur pob)
    (hv : pob.vertex ≠ .tru) (hb : pob.bound ≠ 0) (hr : E.block st pob = some st') :
    SpInv E cur st' ∧ (∀ n v, ∀ c ∈ st.over n v, c ∈ st'.over n v) ∧ (1 ≤ st.lowest → 1 ≤ st'.lowest) ∧
      st'.db = st.db ∧ st'.under = st.under ∧
      ∃ c ∈ st'.over pob.bound pob.vertex, ∀ ρ, c.holds (fun x => ρ (toTgt x)) → ¬ pob.constraint.holds ρ := by
  unfold SpEnv.block at hr
  simp only at hr
  split at hr
  swap
  · simp at hr
  rename_i hs
  simp only [Option.some.injEq] at hr
  have hi := hE.smt.itp _ [Fla.disj ((E.G.inEdges pob.vertex).map (E.edgeMay st (pob.bound - 1)))] [pob.constraint] hs
    (by simp)
  generalize E.S.itp [Fla.disj ((E.G.inEdges pob.vertex).map (E.edgeMay st (pob.bound - 1)))] [pob.constraint] = I at hi hr
  have hIv : ∀ x ∈ I.vars, x ∈ E.R.tgtVars pob.vertex := by
    intro x hx
    have := (hi.shared x hx).2
    rw [Fla.mem_vars_conj] at this
    obtain ⟨f, hf, hx⟩ := this
    rw [List.mem_singleton] at hf
    subst hf
    exact hp.closed x hx
  have key : ∀ ρ : Valuation T, (I.rename tgtToBase).holds (fun x => ρ (toTgt x)) ↔ I.holds ρ := by
    intro ρ
    rw [Fla.holds_rename]
    refine Fla.holds_congr fun x hx => ?_
    obtain ⟨n, _, rfl⟩ := E.R.mem_tgtVars.1 (hIv x hx)
    rfl
  obtain ⟨n, hn⟩ : ∃ n, pob.bound = n + 1 := ⟨pob.bound - 1, by omega⟩
  have inv1 : SpInv E cur (st.addMay pob.vertex pob.bound (I.rename tgtToBase)) := by
    rw [hn]
    refine h.addMay hE hv ?_ ?_
    · intro x hx
      obtain ⟨y, hy, rfl⟩ := Fla.mem_vars_rename.1 hx
      obtain ⟨m, hm, rfl⟩ := E.R.mem_tgtVars.1 (hIv y hy)
      exact E.R.mem_baseVars.2 ⟨m, hm, rfl⟩
    · intro e he ht ρ hm
      rw [key]
      refine hi.fromA ρ ?_
      intro f hf
      rw [List.mem_singleton] at hf
      subst hf
      rw [Fla.holds_disj]
      refine ⟨_, List.mem_map_of_mem (a := e) (by simpa [Graph.inEdges] using ⟨he, ht⟩), ?_⟩
      rw [hn]; exact hm
  have hmem : I.rename tgtToBase ∈ (st.addMay pob.vertex pob.bound (I.rename tgtToBase)).over pob.bound pob.vertex :=
    apInsert_mem.2 (.inr ⟨rfl, rfl, rfl⟩)
  have hsub : ∀ n v, ∀ c ∈ st.over n v, c ∈ (st.addMay pob.vertex pob.bound (I.rename tgtToBase)).over n v :=
    fun n v c hc => apInsert_mem.2 (.inl hc)
  have href : ∀ ρ, (I.rename tgtToBase).holds (fun x => ρ (toTgt x)) → ¬ pob.constraint.holds ρ := by
    intro ρ h1 h2
    refine hi.refuteB ρ ((key ρ).1 h1) ?_
    intro f hf
    rw [List.mem_singleton] at hf
    subst hf
    exact h2
  split at hr
  · subst hr
    exact ⟨inv1.withLowest _, hsub, fun _ => by simp only; omega, rfl, rfl, _, hmem, href⟩
  · subst hr
    exact ⟨inv1, hsub, fun h => h, rfl, rfl, _, hmem, href⟩

theorem top_spec {cur n : Nat} {q rest : List (Pob T)} {pob : Pob T} (h : E.top cur n q = some (pob, rest)) :
    pob ∈ q ∧ (∀ p ∈ rest, p ∈ q) ∧ ∀ p ∈ q, p = pob ∨ p ∈ rest := by
  unfold SpEnv.top at h
  simp only [Option.map_eq_some_iff, Prod.mk.injEq] at h
  obtain ⟨p, hp, rfl, rfl⟩ := h
  refine ⟨List.mem_of_getElem? hp, fun p' hp' => List.mem_of_mem_eraseIdx hp', fun p' hp' => ?_⟩
  obtain ⟨k, hk⟩ := List.getElem?_of_mem hp'
  by_cases hki : k = E.pick cur n q % q.length
  · subst hki; rw [hp] at hk; exact .inl (by simpa using hk.symm)
  · refine .inr ?_
    rw [List.mem_eraseIdx_iff_getElem?]
    exact ⟨k, hki, hk⟩

theorem top_none {cur n : Nat} {q : List (Pob T)} (h : E.top cur n q = none) : q = [] := by
  unfold SpEnv.top at h
  simp only [Option.map_eq_none_iff, List.getElem?_eq_none_iff] at h
  cases q with
  | nil => rfl
  | cons a l =>
    have := Nat.mod_lt (E.pick cur n (a :: l)) (y := (a :: l).length) (by simp)
    omega

/-- The obligation of the exit vertex. -/
def exitPob (cur : Nat) : Pob T := ⟨.fls, cur, .tt⟩

/-- The bounded safety check: after `SAFE`, the exit is blocked at the current bound; `UNSAFE` is right when the backend
decides or there are no hyperedges. -/
theorem boundLoop_inv (hE : E.WF) {cur fuel : Nat} {q : List (Pob T)} {st st' : SpState T} {ans : Bool} (h : SpInv E cur st)
    (hq : ∀ p ∈ q, PobOk E cur p) (hlow : 1 ≤ st.lowest) (hex : exitPob cur ∈ q ∨ Blocked st cur)
    (hr : E.boundLoop cur fuel q st = .done (ans, st')) :
    (ans = true → SpInv E cur st' ∧ (∀ n v, ∀ c ∈ st.over n v, c ∈ st'.over n v) ∧ 1 ≤ st'.lowest ∧ Blocked st' cur) ∧
    (ans = false → E.S.Complete ∨ isNormalGraph E.G = true → E.G.Unsafe E.R) := by
  induction fuel generalizing q st with
  | zero => simp [SpEnv.boundLoop] at hr
  | succ n ih =>
    simp only [SpEnv.boundLoop] at hr
    split at hr
    · rename_i ht
      simp only [Outcome.done.injEq, Prod.mk.injEq] at hr
      obtain ⟨rfl, rfl⟩ := hr
      have hq0 := top_none ht
      subst hq0
      refine ⟨fun _ => ⟨h, fun _ _ _ hc => hc, hlow, ?_⟩, by simp⟩
      rcases hex with hex | hex
      · simp at hex
      · exact hex
    · rename_i pob rest ht
      obtain ⟨t1, t2, t3⟩ := top_spec ht
      have hp := hq pob t1
      split at hr
      · rename_i hv
        simp only [Outcome.done.injEq, Prod.mk.injEq] at hr
        obtain ⟨rfl, rfl⟩ := hr
        refine ⟨by simp, fun _ hor => ?_⟩
        rcases hor with hcpl | hlin
        · exact absurd hv (hp.live hcpl).1
        · obtain ⟨ρ, hρ⟩ := hp.point
          refine hp.lead hlin ρ hρ ?_
          rw [hv]
          have : E.R.tgtVars .tru = [] := by simp [PRepr.tgtVars, hE.repr.tru]
          rw [this]
          exact Derivable.entry
      · rename_i hv
        split at hr
        · simp at hr
        · rename_i hb
          split at hr
          · simp at hr
          · simp at hr
          · rename_i st1 hm
            obtain ⟨i1, i2, i3, ρ, hρ, hd⟩ := checkMust_inv hE h hm
            split at hr
            · rename_i hvf
              simp only [Outcome.done.injEq, Prod.mk.injEq] at hr
              obtain ⟨rfl, rfl⟩ := hr
              refine ⟨by simp, fun _ _ => ?_⟩
              rw [hvf] at hd
              have : E.R.tgtVars .fls = [] := by simp [PRepr.tgtVars, hE.repr.fls]
              rw [this] at hd
              exact hd
            · rename_i hvf
              have := ih i1 (fun p hp' => hq p (t2 p hp')) (by rw [i3]; exact hlow) ?_ hr
              · rw [i2] at this; exact this
              · rcases hex with hex | hex
                · rcases t3 _ hex with he | he
                  · exact absurd (by rw [← he]; rfl) hvf
                  · exact .inl he
                · refine .inr ?_
                  unfold Blocked
                  rw [i2]
                  exact hex
          · rename_i hm
            split at hr
            · simp at hr
            · simp at hr
            · rename_i hpr
              split at hr
              · rename_i st1 hbl
                obtain ⟨i1, i2, i3, i4, i5, c, hc, hcr⟩ := block_inv hE h hp hv hb hbl
                have := ih i1 (fun p hp' => hq p (t2 p hp')) (i3 hlow) ?_ hr
                · exact ⟨fun ha => ⟨(this.1 ha).1, fun n v c hc => (this.1 ha).2.1 n v c (i2 n v c hc), (this.1 ha).2.2⟩, this.2⟩
                · rcases hex with hex | hex
                  · rcases t3 _ hex with he | he
                    · refine .inr ⟨c, by rw [← he] at hc; exact hc, fun ρ hρ => ?_⟩
                      have hcv : ∀ x ∈ c.vars, x ∈ E.R.baseVars .fls :=
                        i1.closedOver cur .fls c (by rw [← he] at hc; exact hc)
                      have hnil : E.R.baseVars .fls = [] := by simp [PRepr.baseVars, hE.repr.fls]
                      refine hcr ρ ?_ (by rw [← he]; exact trivial)
                      refine (Fla.holds_congr fun x hx => ?_).1 hρ
                      have := hcv x hx
                      rw [hnil] at this
                      simp at this
                    · exact .inl he
                  · exact .inr (hex.mono i2)
              · simp at hr
            · rename_i p ps hpr
              obtain ⟨b1, _⟩ := predecessors_spec hE h hp hb hm (es := E.G.inEdges pob.vertex)
                (fun e he => by simpa [Graph.inEdges] using he) hpr
              refine ih h ?_ hlow ?_ hr
              · intro p' hp'
                rcases List.mem_append.1 hp' with hp' | hp'
                · exact hq p' hp'
                · exact b1 p' hp'
              · rcases hex with hex | hex
                · exact .inl (List.mem_append.2 (.inl hex))
                · exact .inr hex

theorem exitPob_ok (hE : E.WF) {cur : Nat} (hc : 1 ≤ cur) : PobOk E cur (exitPob cur) := by
  have : E.R.tgtVars .fls = [] := by simp [PRepr.tgtVars, hE.repr.fls]
  refine ⟨by simp [exitPob, Fla.vars], Nat.le_refl _, ⟨fun _ => T.vT, trivial⟩, fun _ => ⟨by simp [exitPob], hc⟩, ?_⟩
  intro _ ρ _ hd
  simp only [exitPob, this] at hd
  exact hd

theorem boundSafety_inv (hE : E.WF) {cur fuel : Nat} {st st' : SpState T} {ans : Bool} (h : SpInv E cur st) (hc : 1 ≤ cur)
    (hr : E.boundSafety cur fuel st = .done (ans, st')) :
    (ans = true → SpInv E cur st' ∧ (∀ n v, ∀ c ∈ st.over n v, c ∈ st'.over n v) ∧ 1 ≤ st'.lowest ∧ Blocked st' cur) ∧
    (ans = false → E.S.Complete ∨ isNormalGraph E.G = true → E.G.Unsafe E.R) := by
  unfold SpEnv.boundSafety at hr
  exact boundLoop_inv (st := { st with lowest := cur }) hE (h.withLowest cur) (by intro p hp; rw [List.mem_singleton] at hp; subst hp; exact exitPob_ok hE hc)
    hc (.inl (by simp [exitPob])) hr

end Golem
