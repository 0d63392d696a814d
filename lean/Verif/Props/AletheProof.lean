import Verif.Lemmas.AletheNames

/-!
C78: from derivations to Alethe proofs.
-/

namespace Golem
namespace Alethe

/-- What holds between the iterations. -/
structure BuildInv (assertions : List Term) (ds : List Coarse) (st0 : St) (i : Nat) (m : List (Nat × Nat)) (st : St) : Prop where
  adds : Adds st0 st
  true' : TrueOk st
  facts : ∀ j d, 0 < j → j < i → ds[j]? = some d → ∃ k, m.lookup j = some k ∧ Says st.steps k d.fact
  last : ∀ d, 1 < i → ds[i - 1]? = some d → Says st.steps st.last d.fact
  names : (∀ A ∈ assertions, noNames A = true) → Good st.steps st.nameIndex ∧ ∀ d ∈ allDefs st.steps,
    (∀ c, d.1 = .lhs c → c + 1 < st.steps.length) ∧ ∀ n, d.1 = .i n → n + 1 < i

theorem all2_facts {ds : List Coarse} {m : List (Nat × Nat)} {ss : List Step} {i : Nat}
    (hm : ∀ j d, 0 < j → j < i → ds[j]? = some d → ∃ k, m.lookup j = some k ∧ Says ss k d.fact) :
    ∀ {fs : List Term} {ps : List Nat}, (∀ p ∈ ps, 0 < p ∧ p < i) → fs.map some = (ps.map fun p => ds[p]?.map Coarse.fact) →
      (ps.all fun p => (m.lookup p).isSome) = true ∧ All2 (fun f p => Says ss p f) fs (ps.filterMap fun p => m.lookup p)
  | [], [], _, _ => ⟨rfl, .nil⟩
  | [], _ :: _, _, h => by simp at h
  | _ :: _, [], _, h => by simp at h
  | f :: fs, p :: ps, hp, h => by
    simp only [List.map_cons, List.cons.injEq] at h
    obtain ⟨d, hd, hf⟩ := Option.map_eq_some_iff.1 h.1.symm
    obtain ⟨h1, h2⟩ := hp p (by simp)
    obtain ⟨k, hk, hs⟩ := hm p d h1 h2 hd
    obtain ⟨h3, h4⟩ := all2_facts hm (fun q hq => hp q (List.mem_cons_of_mem _ hq)) h.2
    refine ⟨by simp [hk, h3], ?_⟩
    simp only [List.filterMap_cons, hk]
    exact .cons (by rw [← hf]; exact hs) h4

theorem buildStep_ok {assertions : List Term} {ds : List Coarse} {st0 st : St} {i : Nat} {d : Coarse} {m : List (Nat × Nat)}
    (h0 : ∀ (c : Nat) (A : Term), assertions[c]? = some A → Says st0.steps c A ∧ ∀ I, Respects I st0.steps → I.name (.a c) = eval I A)
    (hi : 0 < i) (hd : ds[i]? = some d) (ha : Applies assertions ds i d) (inv : BuildInv assertions ds st0 i m st) :
    ∃ m' st', buildStep assertions i d m st = some (m', st') ∧ BuildInv assertions ds st0 (i + 1) m' st' := by
  obtain ⟨xs, l, r, hA, hxs, hpl, hpr, h1, h2, h3, hne, hlt, ⟨fs, hfs, hfm⟩, hh⟩ := ha
  obtain ⟨hs, hn⟩ := h0 _ _ hA
  obtain ⟨k1, st1, e1, a1, l1, s1⟩ := instantiation_ok (i := i) (hs.mono inv.adds) (fun I hr => hn I (inv.adds.respects hr)) hpl hpr h1 h2 h3
  obtain ⟨hall, h2'⟩ := all2_facts inv.facts (ps := d.premises.filter (· ≠ 0)) (fun p hp => by
    obtain ⟨hp1, hp2⟩ := List.mem_filter.1 hp
    exact ⟨by simp at hp2; omega, hlt p hp1⟩) hfm
  obtain ⟨k2, st2, e2, a2, l2, len2, s2⟩ := derivePredicate_ok hfs (a1.choose_spec.2.2.1 inv.true') l1 s1 (h2'.imp fun _ _ h => h.mono a1)
  obtain ⟨k3, st3, e3, a3, l3, s3⟩ := factSteps_ok hh l2 s2
  have aall := (a1.trans a2).trans a3
  refine ⟨(i, k3) :: m, st3, ?_, inv.adds.trans aall, aall.choose_spec.2.2.1 inv.true', fun j d' hj0 hj hd' => ?_, fun d' _ hd' => ?_, fun hnn => ?_⟩
  · simp only [buildStep, if_neg hne, hA, e1, hall, if_true, e2, e3]
  · by_cases hji : j = i
    · subst hji
      rw [hd] at hd'
      cases hd'
      exact ⟨k3, by simp [List.lookup], s3⟩
    · obtain ⟨k, hk, hs'⟩ := inv.facts j d' hj0 (by omega) hd'
      refine ⟨k, ?_, hs'.mono aall⟩
      have : (j == i) = false := by simpa using hji
      simp only [List.lookup, this, hk]
  · rw [Nat.add_sub_cancel, hd] at hd'
    cases hd'
    rw [← l3]
    exact s3
  · obtain ⟨g0, f0⟩ := inv.names hnn
    obtain ⟨n1, p1⟩ := instantiationSteps_names e1 (hnn _ (List.mem_of_getElem? hA))
    obtain ⟨n2, p2⟩ := derivePredicate_names e2 p1
    have n3 := factSteps_names e3 p2
    have len1 := a1.len
    have len3 := a3.len
    have k1' : k1 = st1.steps.length - 1 := l1
    have pos1 := s1.lt
    have g1 := n1.1 g0 fun d' hd' he => by have := (f0 d' hd').2 _ he; omega
    have f1 : ∀ d' ∈ allDefs st1.steps, (∀ c, d'.1 = .lhs c → c + 1 < st1.steps.length) ∧ ∀ n, d'.1 = .i n → n + 1 < i + 1 := by
      intro d' hd'
      rcases n1.2 d' hd' with h | h | ⟨k, h⟩
      · exact ⟨fun c e => (by have := (f0 d' h).1 c e; omega), fun n e => (by have := (f0 d' h).2 n e; omega)⟩
      · exact ⟨fun c e => (by rw [h] at e; cases e), fun n e => (by rw [h] at e; cases e; omega)⟩
      · exact ⟨fun c e => (by rw [h] at e; cases e), fun n e => (by rw [h] at e; cases e)⟩
    have g2 := n2.1 g1 fun d' hd' he => by have := (f1 d' hd').1 _ he; omega
    refine ⟨n3.1 g2 fun _ _ => id, fun d' hd' => ?_⟩
    rcases n3.2 d' hd' with h | h | ⟨k, h⟩
    · rcases n2.2 d' h with h' | h' | ⟨k, h'⟩
      · exact ⟨fun c e => (by have := (f1 d' h').1 c e; omega), (f1 d' h').2⟩
      · exact ⟨fun c e => (by rw [h'] at e; cases e; omega), fun n e => (by rw [h'] at e; cases e)⟩
      · exact ⟨fun c e => (by rw [h'] at e; cases e), fun n e => (by rw [h'] at e; cases e)⟩
    · exact h.elim
    · exact ⟨fun c e => (by rw [h] at e; cases e), fun n e => (by rw [h] at e; cases e)⟩

theorem buildSteps_ok {assertions : List Term} {ds : List Coarse} {st0 : St}
    (h0 : ∀ (c : Nat) (A : Term), assertions[c]? = some A → Says st0.steps c A ∧ ∀ I, Respects I st0.steps → I.name (.a c) = eval I A)
    (ha : ∀ i d, 0 < i → ds[i]? = some d → Applies assertions ds i d) : ∀ (rest : List Coarse) (i : Nat) (m : List (Nat × Nat)) (st : St),
    0 < i → ds.drop i = rest → i ≤ ds.length → BuildInv assertions ds st0 i m st →
    ∃ m' st', buildSteps assertions i rest m st = some st' ∧ BuildInv assertions ds st0 ds.length m' st'
  | [], i, m, st, _, hr, hle, inv => by
    have : i = ds.length := by
      have := List.drop_eq_nil_iff.1 hr
      omega
    subst this
    exact ⟨m, st, rfl, inv⟩
  | d :: rest, i, m, st, hi, hr, hle, inv => by
    have hd : ds[i]? = some d := by
      have : (ds.drop i)[0]? = some d := by rw [hr]; rfl
      rw [List.getElem?_drop, Nat.add_zero] at this
      exact this
    have hlt := (List.getElem?_eq_some_iff.1 hd).1
    obtain ⟨m1, st1, e1, inv1⟩ := buildStep_ok h0 hi hd (ha i d hi hd) inv
    have hr' : ds.drop (i + 1) = rest := by
      rw [← List.drop_drop, hr]; rfl
    obtain ⟨m2, st2, e2, inv2⟩ := buildSteps_ok h0 ha rest (i + 1) m1 st1 (by omega) hr' (by omega) inv1
    exact ⟨m2, st2, by simp only [buildSteps, e1, e2], inv2⟩

/-- The steps for the assumptions. -/
theorem assumptions_eq : ∀ (l : List Term) (st : St), (assumptions l st).steps.length = st.steps.length + l.length ∧
    (assumptions l st).trueStep = st.trueStep ∧ ∀ k s, (assumptions l st).steps[k]? = some s →
      st.steps[k]? = some s ∨ ∃ A, l[k - st.steps.length]? = some A ∧ st.steps.length ≤ k ∧ s = ⟨true, [.named A (.a k)], " ", [], []⟩
  | [], st => ⟨rfl, rfl, fun _ _ h => .inl h⟩
  | a :: l, st => by
    obtain ⟨h1, h2, h3⟩ := assumptions_eq l (st.assume [.named a (.a st.steps.length)])
    have hl : (st.assume [.named a (.a st.steps.length)]).steps.length = st.steps.length + 1 := by simp [St.assume]
    refine ⟨by simp only [assumptions, h1, hl, List.length_cons]; omega, h2, fun k s hs => ?_⟩
    rcases h3 k s hs with h | ⟨A, hA, hk, e⟩
    · simp only [St.assume] at h
      by_cases hk : k < st.steps.length
      · rw [getElem?_left hk] at h; exact .inl h
      · have hke : k = st.steps.length := by
          have := (List.getElem?_eq_some_iff.1 h).1
          simp at this
          omega
        subst hke
        simp only [List.getElem?_concat_length, Option.some.injEq] at h
        exact .inr ⟨a, by simp, Nat.le_refl _, h.symm⟩
    · rw [hl] at hA hk
      refine .inr ⟨A, ?_, by omega, e⟩
      rw [show k - st.steps.length = (k - (st.steps.length + 1)) + 1 by omega, List.getElem?_cons_succ]
      exact hA

theorem assumption_get {assertions : List Term} {k : Nat} {A : Term} (h : assertions[k]? = some A) :
    (assumptions assertions ⟨[], 0, 0⟩).steps[k]? = some ⟨true, [.named A (.a k)], " ", [], []⟩ := by
  obtain ⟨h1, -, h3⟩ := assumptions_eq assertions ⟨[], 0, 0⟩
  have hk := (List.getElem?_eq_some_iff.1 h).1
  have hlt : k < (assumptions assertions ⟨[], 0, 0⟩).steps.length := by rw [h1]; simpa using hk
  rcases h3 k _ (List.getElem?_eq_getElem hlt) with h' | ⟨B, hB, -, e⟩
  · simp at h'
  · simp only [List.length_nil, Nat.sub_zero] at hB
    rw [h] at hB
    cases hB
    rw [List.getElem?_eq_getElem hlt, e]

/-- The names of the assumptions. -/
theorem assumptions_defs (assertions : List Term) (hn : ∀ A ∈ assertions, noNames A = true) (d : Name × Term)
    (hd : d ∈ allDefs (assumptions assertions ⟨[], 0, 0⟩).steps) : ∃ k, assertions[k]? = some d.2 ∧ d.1 = .a k := by
  obtain ⟨s, hs, hd⟩ := List.mem_flatMap.1 hd
  obtain ⟨k, hk⟩ := List.getElem?_of_mem hs
  rcases (assumptions_eq assertions ⟨[], 0, 0⟩).2.2 k s hk with h | ⟨A, hA, -, e⟩
  · simp at h
  · simp only [List.length_nil, Nat.sub_zero] at hA
    subst e
    simp only [defss, defs, defs_nil A (hn A (List.mem_of_getElem? hA)), List.append_nil, List.mem_singleton] at hd
    subst hd
    exact ⟨k, hA, rfl⟩

/-- C78: from a derivation of `false` a proof is always made, without a failed assertion. Every step of it that is not an assumption cites only earlier
steps and follows from those it cites; the assumptions are the assertions, in order; the last step is the empty clause. Values for the names that the proof introduces always exist. -/
theorem C78_proof (assertions : List Term) (ds : List Coarse) (h : Derivation assertions ds) :
    ∃ ss, buildProof assertions ds = some ss ∧ Correct ss ∧
      (∀ (k : Nat) (A : Term), assertions[k]? = some A → ss[k]? = some ⟨true, [.named A (.a k)], " ", [], []⟩) ∧
      (∀ (k : Nat) (s : Step), ss[k]? = some s → s.assume = true → k < assertions.length) ∧
      (∃ s, ss.getLast? = some s ∧ s.assume = false ∧ s.clause = []) ∧
      ((∀ A ∈ assertions, noNames A = true) → ∀ I : Interp, ∃ f, Respects { I with name := f } ss) := by
  obtain ⟨⟨d0, hd0, hp0⟩, ha, hlen, hlast⟩ := h
  obtain ⟨hl0, ht0, hs0⟩ := assumptions_eq assertions ⟨[], 0, 0⟩
  have h0 : ∀ (c : Nat) (A : Term), assertions[c]? = some A → Says (assumptions assertions ⟨[], 0, 0⟩).steps c A ∧
      ∀ I, Respects I (assumptions assertions ⟨[], 0, 0⟩).steps → I.name (.a c) = eval I A := by
    intro c A hc
    have := assumption_get hc
    refine ⟨⟨_, _, this, rfl, fun I _ => by simp only [eval]⟩, fun I hr => ?_⟩
    exact hr _ (List.mem_of_getElem? this) (.a c, A) (by simp [defss, defs])
  have hget := fun (k : Nat) (A : Term) (hk : assertions[k]? = some A) => assumption_get hk
  obtain ⟨rest, hds⟩ : ∃ rest, ds = d0 :: rest := by
    cases ds with
    | nil => cases hd0
    | cons a l => cases hd0; exact ⟨l, rfl⟩
  have ht : TrueOk (assumptions assertions ⟨[], 0, 0⟩) := .inl ht0
  have hnames : (∀ A ∈ assertions, noNames A = true) → Good (assumptions assertions ⟨[], 0, 0⟩).steps (assumptions assertions ⟨[], 0, 0⟩).nameIndex ∧
      ∀ d ∈ allDefs (assumptions assertions ⟨[], 0, 0⟩).steps,
        (∀ c, d.1 = .lhs c → c + 1 < (assumptions assertions ⟨[], 0, 0⟩).steps.length) ∧ ∀ n, d.1 = .i n → n + 1 < 1 := by
    intro hn
    have hd := assumptions_defs assertions hn
    refine ⟨⟨fun d h => ?_, fun d h d' h' e => ?_, fun d h k e => ?_⟩, fun d h => ⟨fun c e => ?_, fun n e => ?_⟩⟩
    · obtain ⟨k, hk, -⟩ := hd d h
      exact hn _ (List.mem_of_getElem? hk)
    · obtain ⟨k, hk, e1⟩ := hd d h
      obtain ⟨k', hk', e2⟩ := hd d' h'
      rw [e1, e2] at e
      cases e
      rw [hk] at hk'
      exact Option.some.inj hk'
    all_goals
      obtain ⟨k, -, e1⟩ := hd d h
      rw [e1] at e
      cases e
  unfold buildProof
  simp only [List.length_nil, Nat.zero_add] at hl0
  generalize hst0 : assumptions assertions ⟨[], 0, 0⟩ = st0 at *
  obtain ⟨m, st, e, inv⟩ := buildSteps_ok h0 ha rest 1 [] st0 (by omega) (by rw [hds]; rfl) (by omega)
    ⟨.refl _, ht, fun j d h1 h2 => absurd h2 (by omega), fun d h1 => absurd h1 (by omega), hnames⟩
  have e' : buildSteps assertions 0 ds [] st0 = some st := by
    rw [hds]
    simp only [buildSteps, buildStep, hp0, if_true]
    exact e
  simp only [e']
  obtain ⟨dl, hdl⟩ : ∃ dl, ds[ds.length - 1]? = some dl := ⟨_, List.getElem?_eq_getElem (by omega)⟩
  have hy : Says st.steps st.last (.bool false) := by
    have := inv.last dl hlen hdl
    rwa [hlast dl hdl] at this
  have a1 : Adds st (st.record [neg (.bool false)] "false" []) := adds_std (by decide) (by decide) fun I hI _ => by
    rw [holds_one, eval_neg hI.logStd]; simp only [eval, Val.toBool, Bool.not_false]
  have y1 := hy.mono a1
  have hN1 : N0 st (st.record [neg (.bool false)] "false" []) := n0_record rfl
  have hpos := hy.lt
  have hl1 : (st.record [neg (.bool false)] "false" []).steps.length - 2 = st.last := by rw [record_len]; simp only [St.last]; omega
  rw [hl1]
  generalize st.record [neg (.bool false)] "false" [] = st1 at *
  have a2 : Adds st1 (st1.record [] "resolution" [st.last, st1.steps.length - 1]) := by
    refine adds_log (by decide) ?_ fun I hI hr hp => ?_
    · intro p hp
      have := y1.lt
      simp only [List.mem_cons, List.not_mem_nil, or_false] at hp
      rcases hp with rfl | rfl
      · exact this
      · omega
    · have := y1.use hr (hp _ (by simp))
      simp only [eval, Val.toBool] at this
      cases this
  have nall : N0 st st1 := hN1
  have nlast : N0 st1 (st1.record [] "resolution" [st.last, st1.steps.length - 1]) := n0_record rfl
  have aall := (inv.adds.trans a1).trans a2
  obtain ⟨more, em, ok, -, na⟩ := aall
  refine ⟨_, rfl, fun k => ?_, fun k A hk => ?_, fun k s hs hass => ?_, ?_, fun hn I => ?_⟩
  · by_cases hk : k < st0.steps.length
    · intro s hs hass
      rw [em, getElem?_left hk] at hs
      rcases hs0 k s hs with h' | ⟨_, _, _, e⟩
      · simp at h'
      · rw [e] at hass; cases hass
    · exact ok k (by omega)
  · have := hget k A hk
    rw [em, getElem?_left (List.getElem?_eq_some_iff.1 this).1]
    exact this
  · rw [← hl0]
    by_cases hk : k < st0.steps.length
    · exact hk
    · rw [em, List.getElem?_append_right (by omega)] at hs
      have := na s (List.mem_of_getElem? hs)
      rw [this] at hass
      cases hass
  · exact ⟨_, List.getLast?_concat .., rfl, rfl⟩
  · exact ((nall.trans nlast).1 (inv.names hn).1 fun _ _ => id).respects I

/-- A correct proof that ends with the empty clause refutes its assumptions. -/
theorem Correct.refutes {ss : List Step} (h : Correct ss) {s : Step} (hl : ss.getLast? = some s) (hc : s.clause = []) (I : Interp) (hI : Std I)
    (hr : Respects I ss) : ∃ s ∈ ss, s.assume = true ∧ ¬ Holds I s.clause := by
  refine Classical.byContradiction fun hno => ?_
  have hall : ∀ (k : Nat) (s : Step), ss[k]? = some s → Holds I s.clause := by
    intro k
    induction k using Nat.strongRecOn with
    | ind k ih =>
      intro s hs
      cases ha : s.assume with
      | true => exact Classical.byContradiction fun hn => hno ⟨s, List.mem_of_getElem? hs, ha, hn⟩
      | false =>
        obtain ⟨h1, -, h3⟩ := h k s hs ha
        refine h3 I ?_ hr fun p hp s' hs' => ih p (h1 p hp) s' hs'
        unfold Scope
        split
        · exact hI.eqStd
        · split
          · exact hI.logStd
          · exact hI
  have hlast : ss[ss.length - 1]? = some s := by rw [← List.getLast?_eq_getElem?]; exact hl
  obtain ⟨t, ht, -⟩ := hall _ s hlast
  rw [hc] at ht
  cases ht

/-- If a proof is made, no interpretation with the SMT-LIB meaning of the operators satisfies all the assertions. -/
theorem C78_refutes (assertions : List Term) (ds : List Coarse) (h : Derivation assertions ds) (hn : ∀ A ∈ assertions, noNames A = true)
    (I : Interp) (hI : Std I) : ∃ A ∈ assertions, (eval I A).toBool = false := by
  obtain ⟨ss, -, hc, h1, h2, ⟨s, hs, -, hsc⟩, hr⟩ := C78_proof assertions ds h
  obtain ⟨f, hf⟩ := hr hn I
  obtain ⟨s', hs', ha, hh⟩ := hc.refutes hs hsc { I with name := f } hI hf
  obtain ⟨k, hk⟩ := List.getElem?_of_mem hs'
  obtain ⟨A, hA⟩ : ∃ A, assertions[k]? = some A := ⟨_, List.getElem?_eq_getElem (h2 k s' hk ha)⟩
  have := h1 k A hA
  rw [hk] at this
  cases this
  refine ⟨A, List.mem_of_getElem? hA, ?_⟩
  rw [eval_noNames A I { I with name := f } (hn A (List.mem_of_getElem? hA)) rfl rfl rfl rfl]
  simp only [holds_one, eval] at hh
  simpa using hh

end Alethe
end Golem
