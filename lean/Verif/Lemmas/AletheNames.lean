import Verif.Lemmas.AletheInst

/-! The names of a proof can be given values. -/

namespace Golem
namespace Alethe

mutual
theorem defs_nil : ∀ t : Term, noNames t = true → defs t = []
  | .num _, _ => rfl
  | .bool _, _ => rfl
  | .var _ _, _ => rfl
  | .name _, h => by cases h
  | .named _ _, h => by cases h
  | .all _ b, h => by simp only [noNames] at h; simp only [defs, defs_nil b h]
  | .op _ l, h => by simp only [noNames] at h; simp only [defs, defss_nil l h]
  | .app _ l, h => by simp only [noNames] at h; simp only [defs, defss_nil l h]
theorem defss_nil : ∀ l : List Term, noNamess l = true → defss l = []
  | [], _ => rfl
  | t :: l, h => by
    simp only [noNamess, Bool.and_eq_true] at h
    simp only [defss, defs_nil t h.1, defss_nil l h.2, List.append_nil]
end

mutual
theorem eval_noNames : ∀ (t : Term) (I J : Interp), noNames t = true → I.opv = J.opv → I.app = J.app → I.varI = J.varI → I.varB = J.varB →
    eval I t = eval J t
  | .num _, I, J, _, _, _, _, _ => by simp only [eval]
  | .bool _, I, J, _, _, _, _, _ => by simp only [eval]
  | .var _ .int, I, J, _, _, _, h, _ => by simp only [eval, h]
  | .var _ .bool, I, J, _, _, _, _, h => by simp only [eval, h]
  | .name _, _, _, h, _, _, _, _ => by cases h
  | .named _ _, _, _, h, _, _, _, _ => by cases h
  | .all xs b, I, J, h, h1, h2, h3, h4 => by
    simp only [noNames] at h
    rw [eval_all_val, eval_all_val]
    have : AllTrue I xs b = AllTrue J xs b := by
      unfold AllTrue
      rw [h3, h4]
      refine forall_congr fun wi => forall_congr fun wb => ?_
      rw [eval_noNames b { I with varI := wi, varB := wb } { J with varI := wi, varB := wb } h h1 h2 rfl rfl]
    exact congrArg Val.bool (decide_eq_decide.2 (iff_of_eq this))
  | .op _ l, I, J, h, h1, h2, h3, h4 => by
    simp only [noNames] at h
    simp only [eval, h1, evals_noNames l I J h h1 h2 h3 h4]
  | .app _ l, I, J, h, h1, h2, h3, h4 => by
    simp only [noNames] at h
    simp only [eval, h2, evals_noNames l I J h h1 h2 h3 h4]
theorem evals_noNames : ∀ (l : List Term) (I J : Interp), noNamess l = true → I.opv = J.opv → I.app = J.app → I.varI = J.varI →
    I.varB = J.varB → evals I l = evals J l
  | [], I, J, _, _, _, _, _ => by simp only [evals]
  | t :: l, I, J, h, h1, h2, h3, h4 => by
    simp only [noNamess, Bool.and_eq_true] at h
    simp only [evals, eval_noNames t I J h.1 h1 h2 h3 h4, evals_noNames l I J h.2 h1 h2 h3 h4]
end

theorem noNames_lit (v : Val) : noNames (lit v) = true := by cases v <;> rfl

mutual
theorem noNames_inst (σ : Inst) : ∀ t : Term, noNames t = true → noNames (inst σ t) = true
  | .num _, _ => by simp only [inst, noNames]
  | .bool _, _ => by simp only [inst, noNames]
  | .var s k, _ => by
    simp only [inst]
    split
    · exact noNames_lit _
    · rfl
  | .name _, h => by cases h
  | .named _ _, h => by cases h
  | .all _ b, h => by simp only [noNames] at h; simp only [inst]; exact noNames_inst σ b h
  | .op _ l, h => by simp only [noNames] at h; simp only [inst, noNames]; exact noNamess_inst σ l h
  | .app _ l, h => by simp only [noNames] at h; simp only [inst, noNames]; exact noNamess_inst σ l h
theorem noNamess_inst (σ : Inst) : ∀ l : List Term, noNamess l = true → noNamess (insts σ l) = true
  | [], _ => by simp only [insts, noNamess]
  | t :: l, h => by
    simp only [noNamess, Bool.and_eq_true] at h
    simp only [insts, noNamess, noNames_inst σ t h.1, noNamess_inst σ l h.2, Bool.and_self]
end

theorem noNamess_mem {l : List Term} : noNamess l = true ↔ ∀ t ∈ l, noNames t = true := by
  induction l with
  | nil => simp [noNamess]
  | cons a l ih => simp [noNamess, ih]

/-! ### The names of the steps -/

/-- All definitions. -/
def allDefs (ss : List Step) : List (Name × Term) := ss.flatMap fun s => defss s.clause

/-- The definitions so far are consistent. -/
def Good (ss : List Step) (idx : Nat) : Prop := (∀ d ∈ allDefs ss, noNames d.2 = true) ∧
  (∀ d ∈ allDefs ss, ∀ d' ∈ allDefs ss, d.1 = d'.1 → d.2 = d'.2) ∧ ∀ d ∈ allDefs ss, ∀ k, d.1 = .t k → k < idx

/-- If the definitions are consistent, every interpretation can be adapted to them. -/
theorem Good.respects {ss : List Step} {idx : Nat} (h : Good ss idx) (I : Interp) : ∃ f, Respects { I with name := f } ss := by
  classical
  refine ⟨fun n => if hn : ∃ t, (n, t) ∈ allDefs ss then eval I hn.choose else I.name n, fun s hs d hd => ?_⟩
  have hm : d ∈ allDefs ss := List.mem_flatMap.2 ⟨s, hs, hd⟩
  have hn : ∃ t, (d.1, t) ∈ allDefs ss := ⟨d.2, hm⟩
  show (if hn : ∃ t, (d.1, t) ∈ allDefs ss then eval I hn.choose else I.name d.1) = _
  have e : hn.choose = d.2 := h.2.1 _ hn.choose_spec d hm rfl
  rw [dif_pos hn, e]
  exact eval_noNames d.2 _ _ (h.1 d hm) rfl rfl rfl rfl

/-- Names are added that satisfy `P`, and names of terms. -/
def NN (P : Name → Prop) (st st' : St) : Prop :=
  (Good st.steps st.nameIndex → (∀ d ∈ allDefs st.steps, ¬ P d.1) → Good st'.steps st'.nameIndex) ∧
  ∀ d ∈ allDefs st'.steps, d ∈ allDefs st.steps ∨ P d.1 ∨ ∃ k, d.1 = .t k

/-- No other names. -/
abbrev N0 := NN fun _ => False

theorem N0.refl (st : St) : N0 st st := ⟨fun h _ => h, fun _ h => .inl h⟩

theorem N0.trans {a b c : St} (h : N0 a b) (h' : N0 b c) : N0 a c := by
  refine ⟨fun hg _ => h'.1 (h.1 hg fun _ _ => id) fun _ _ => id, fun d hd => ?_⟩
  rcases h'.2 d hd with h1 | h1 | h1
  · exact h.2 d h1
  · exact h1.elim
  · exact .inr (.inr h1)

theorem N0.then {P : Name → Prop} (hP : ∀ k, ¬ P (.t k)) {a b c : St} (h : N0 a b) (h' : NN P b c) : NN P a c := by
  refine ⟨fun hg hp => h'.1 (h.1 hg fun _ _ => id) fun d hd hpd => ?_, fun d hd => ?_⟩
  · rcases h.2 d hd with h1 | h1 | ⟨k, h1⟩
    · exact hp d h1 hpd
    · exact h1
    · rw [h1] at hpd; exact hP k hpd
  · rcases h'.2 d hd with h1 | h1 | h1
    · rcases h.2 d h1 with h2 | h2 | h2
      · exact .inl h2
      · exact h2.elim
      · exact .inr (.inr h2)
    · exact .inr (.inl h1)
    · exact .inr (.inr h1)

theorem NN.after {P : Name → Prop} {a b c : St} (h : NN P a b) (h' : N0 b c) : NN P a c := by
  refine ⟨fun hg hp => h'.1 (h.1 hg hp) fun _ _ => id, fun d hd => ?_⟩
  rcases h'.2 d hd with h1 | h1 | h1
  · exact h.2 d h1
  · exact h1.elim
  · exact .inr (.inr h1)

theorem N0.weaken {P : Name → Prop} {a b : St} (h : N0 a b) : NN P a b :=
  ⟨fun hg _ => h.1 hg fun _ _ => id, fun d hd => (h.2 d hd).elim .inl fun h => h.elim (fun h => h.elim) fun h => .inr (.inr h)⟩

theorem allDefs_append (a b : List Step) : allDefs (a ++ b) = allDefs a ++ allDefs b := by simp [allDefs]

theorem allDefs_one (s : Step) : allDefs [s] = defss s.clause := by simp [allDefs]

/-- A step without definitions. -/
theorem n0_steps {st st' : St} {s : Step} (h : st'.steps = st.steps ++ [s]) (hi : st'.nameIndex = st.nameIndex) (hd : defss s.clause = []) :
    N0 st st' := by
  have : allDefs st'.steps = allDefs st.steps := by rw [h, allDefs_append, allDefs_one, hd, List.append_nil]
  refine ⟨fun hg _ => ?_, fun d hd => .inl (by rw [this] at hd; exact hd)⟩
  unfold Good at hg ⊢
  rw [this, hi]
  exact hg

theorem n0_record {st : St} {c : List Term} {r : String} {ps : List Nat} (hd : defss c = []) : N0 st (st.record c r ps) :=
  n0_steps (s := ⟨false, c, r, ps, []⟩) rfl rfl hd

/-- A step with one definition. -/
theorem nn_steps {st st' : St} {s : Step} {n : Name} {t : Term} (h : st'.steps = st.steps ++ [s]) (hi : st'.nameIndex = st.nameIndex)
    (hd : defss s.clause = [(n, t)]) (ht : noNames t = true) (hn : ∀ k, n ≠ .t k) : NN (· = n) st st' := by
  have : allDefs st'.steps = allDefs st.steps ++ [(n, t)] := by rw [h, allDefs_append, allDefs_one, hd]
  refine ⟨fun hg hp => ?_, fun d hd => ?_⟩
  · obtain ⟨g1, g2, g3⟩ := hg
    unfold Good
    rw [this, hi]
    simp only [List.mem_append, List.mem_singleton]
    refine ⟨?_, ?_, ?_⟩
    · rintro d (hd | rfl)
      · exact g1 d hd
      · exact ht
    · rintro d (hd | rfl) d' (hd' | rfl) e
      · exact g2 d hd d' hd' e
      · exact absurd e (hp d hd)
      · exact absurd e.symm (hp d' hd')
      · rfl
    · rintro d (hd | rfl) k e
      · exact g3 d hd k e
      · exact absurd e (hn k)
  · rw [this] at hd
    rcases List.mem_append.1 hd with hd | hd
    · exact .inl hd
    · cases List.mem_singleton.1 hd
      exact .inr (.inl rfl)

/-- A step that names a term. -/
theorem n0_term {st : St} {t u : Term} {r : String} {ps : List Nat} (ht : noNames t = true) (hu : noNames u = true) :
    N0 st { st.record [eqn (.named t (.t st.nameIndex)) u] r ps with nameIndex := st.nameIndex + 1 } := by
  have : allDefs (st.record [eqn (.named t (.t st.nameIndex)) u] r ps).steps = allDefs st.steps ++ [(.t st.nameIndex, t)] := by
    simp only [St.record, allDefs_append, allDefs_one, eqn, defss, defs, defs_nil t ht, defs_nil u hu, List.append_nil]
  refine ⟨fun hg _ => ?_, fun d hd => ?_⟩
  · obtain ⟨g1, g2, g3⟩ := hg
    unfold Good
    simp only [this, List.mem_append, List.mem_singleton]
    refine ⟨?_, ?_, ?_⟩
    · rintro d (hd | rfl)
      · exact g1 d hd
      · exact ht
    · rintro d (hd | rfl) d' (hd' | rfl) e
      · exact g2 d hd d' hd' e
      · exact absurd (g3 d hd _ e) (by omega)
      · exact absurd (g3 d' hd' _ e.symm) (by omega)
      · rfl
    · rintro d (hd | rfl) k e
      · have := g3 d hd k e; omega
      · cases e; omega
  · simp only [this] at hd
    rcases List.mem_append.1 hd with hd | hd
    · exact .inl hd
    · cases List.mem_singleton.1 hd
      exact .inr (.inr ⟨_, rfl⟩)

/-! ### Simplification -/

theorem andArgs_noNames : ∀ {l : List Term} {r : Term ⊕ List Term}, andArgs l = some r → noNamess l = true →
    (∀ t, r = .inl t → noNames t = true) ∧ ∀ l', r = .inr l' → noNamess l' = true
  | [], r, h, _ => by
    cases h
    exact ⟨fun t e => (by cases e), fun l' e => (by cases e; rfl)⟩
  | t :: l, r, h, hl => by
    simp only [noNamess, Bool.and_eq_true] at hl
    simp only [andArgs] at h
    split at h
    · exact andArgs_noNames h hl.2
    · cases h
      exact ⟨fun t e => (by cases e; exact hl.1), fun l' e => (by cases e)⟩
    · split at h
      · split at h
        · rename_i u hu
          cases h
          exact ⟨fun t e => (by cases e; exact (andArgs_noNames hu hl.2).1 _ rfl), fun l' e => (by cases e)⟩
        · rename_i l' hu
          cases h
          refine ⟨fun t e => (by cases e), fun l' e => ?_⟩
          cases e
          simp only [noNamess, hl.1, (andArgs_noNames hu hl.2).2 _ rfl, Bool.and_self]
        · cases h
      · cases h

theorem evalDirect_noNames {o : OpSym} {args : List Term} {t : Term} {r : String} (h : evalDirect o args = some (t, r))
    (hn : noNamess args = true) : noNames t = true := by
  unfold evalDirect at h
  split at h
  · cases h; rfl
  · cases h; rfl
  · cases h; rfl
  · cases h; rfl
  · split at h
    · rename_i ha
      cases h
      exact (andArgs_noNames ha hn).1 _ rfl
    · cases h; rfl
    · rename_i ha
      cases h
      have := (andArgs_noNames ha hn).2 _ rfl
      simpa [noNamess] using this
    · rename_i ha
      cases h
      exact (andArgs_noNames ha hn).2 _ rfl
    · cases h
  · split at h
    · cases h; rfl
    · split at h
      · cases h; rfl
      · cases h
  · cases h; rfl
  · rename_i c a b
    cases h
    simp only [noNamess, Bool.and_eq_true] at hn
    split
    · exact hn.2.1
    · exact hn.2.2.1
  · obtain ⟨ns, _, h2⟩ := Option.bind_eq_some_iff.1 h
    split at h2
    · cases h2
    · cases h2; rfl
  · cases h; rfl
  · cases h; rfl
  · split at h
    · cases h
    · cases h; rfl
  · split at h
    · cases h
    · cases h; rfl
  · cases h

theorem defss_eqn {a b : Term} (ha : noNames a = true) (hb : noNames b = true) : defss [eqn a b] = [] := by
  simp only [eqn, defss, defs, defs_nil a ha, defs_nil b hb, List.append_nil]

theorem direct1_names {o : OpSym} {args : List Term} {st st' : St} {e : Term} (h : direct1 o args st = some (e, st'))
    (hn : noNamess args = true) : N0 st st' ∧ noNames e = true := by
  unfold direct1 at h
  split at h
  · rename_i t r hd
    cases h
    have := evalDirect_noNames hd hn
    exact ⟨n0_record (defss_eqn (by simpa only [noNames] using hn) this), this⟩
  · cases h

theorem simplifyOpDirect_names {o : OpSym} {args : List Term} {st st' : St} {e : Term} (h : simplifyOpDirect o args st = some (e, st'))
    (hn : noNamess args = true) : N0 st st' ∧ noNames e = true := by
  have hop : ∀ o, noNames (.op o args) = true := fun o => by simpa only [noNames] using hn
  unfold simplifyOpDirect at h
  split at h
  · simp only at h
    have hneg : ∀ t, noNames t = true → noNames (neg t) = true := fun t ht => by simp [neg, noNames, noNamess, ht]
    split at h
    · cases h
    · rename_i c st2 hd
      obtain ⟨n2, hc⟩ := direct1_names hd hn
      split at h
      · cases h
      · rename_i d st4 hd'
        obtain ⟨n4, hd4⟩ := direct1_names hd' (by simp [noNamess, hc])
        cases h
        have n1 : N0 st _ := n0_record (r := "comp_simplify") (ps := []) (defss_eqn (hop .gt) (hneg _ (hop .le)))
        have n3 : N0 st2 _ := n0_record (r := "cong") (ps := [st2.last]) (defss_eqn (hneg _ (hop .le)) (hneg _ hc))
        exact ⟨(((n1.trans n2).trans n3).trans n4).trans (n0_record (defss_eqn (hop _) hd4)), hd4⟩
  · split at h
    · rename_i a b
      simp only at h
      have hba : noNamess [b, a] = true := by
        simp only [noNamess, Bool.and_eq_true] at hn ⊢
        exact ⟨hn.2.1, hn.1, trivial⟩
      split at h
      · cases h
      · rename_i c st2 hd
        obtain ⟨n2, hc⟩ := direct1_names hd hba
        cases h
        have n1 : N0 st _ := n0_record (r := "comp_simplify") (ps := []) (defss_eqn (hop .ge) (by simpa only [noNames] using hba : noNames (.op .le [b, a]) = true))
        exact ⟨(n1.trans n2).trans (n0_record (defss_eqn (hop _) hc)), hc⟩
    · cases h
  · exact direct1_names h hn

theorem processResults_names {st : St} {t t' : Term} {nm : Option Name} {rs : List Result} (ht : noNames t = true) (ht' : noNames t' = true) :
    N0 st (processResults t t' nm rs st).2 := by
  cases nm with
  | some n =>
    simp only [processResults]
    exact n0_record (by simp only [eqn, defss, defs, defs_nil t' ht', List.append_nil])
  | none => exact n0_term ht ht'

mutual
theorem simplify_names : ∀ (t : Term) (nm : Option Name) (st : St) (r : Result) (st' : St), noNames t = true →
    simplify t nm st = some (r, st') → N0 st st' ∧ ∀ t' k, r = some (t', k) → noNames t' = true
  | .num _, _, st, r, st', _, h => by simp only [simplify] at h; cases h; exact ⟨.refl _, fun _ _ e => (by cases e)⟩
  | .bool _, _, st, r, st', _, h => by simp only [simplify] at h; cases h; exact ⟨.refl _, fun _ _ e => (by cases e)⟩
  | .var _ _, _, st, r, st', _, h => by simp only [simplify] at h; cases h; exact ⟨.refl _, fun _ _ e => (by cases e)⟩
  | .name _, _, st, r, st', hn, _ => by cases hn
  | .named _ _, _, _, r, st', hn, _ => by cases hn
  | .all _ _, _, _, r, st', _, h => by simp only [simplify] at h; cases h
  | .app f args, nm, st, r, st', hn, h => by
    simp only [noNames] at hn
    rw [simplify] at h
    split at h
    · cases h
    · rename_i rs st1 hs
      obtain ⟨n1, k1⟩ := simplifyArgs_names args st rs st1 hn hs
      split at h
      · cases h
        exact ⟨n1, fun _ _ e => (by cases e)⟩
      · simp only at h
        cases h
        have k1' : noNames (.app f (newArgs args rs)) = true := by simpa only [noNames] using k1
        refine ⟨n1.trans (processResults_names (by simpa only [noNames] using hn) k1'), fun t' k e => ?_⟩
        cases e; exact k1'
  | .op o args, nm, st, r, st', hn, h => by
    have hop : noNames (.op o args) = true := hn
    simp only [noNames] at hn
    by_cases ho : o = .ite
    · subst ho
      match args, h, hn with
      | [], h, _ => simp only [simplify] at h; cases h
      | [_], h, _ => simp only [simplify] at h; cases h
      | [_, _], h, _ => simp only [simplify] at h; cases h
      | _ :: _ :: _ :: _ :: _, h, _ => simp only [simplify] at h; cases h
      | [c, a, b], h, hn =>
        rw [simplify] at h
        split at h
        · cases h
        · rename_i res st1 hs
          simp only [noNamess, Bool.and_true, Bool.and_eq_true] at hn
          obtain ⟨n1, k1⟩ := simplify_names c none st res st1 hn.1 hs
          have hc' : noNames ((res.map Prod.fst).getD c) = true := by
            cases res with
            | none => exact hn.1
            | some q => exact k1 q.1 q.2 rfl
          have hite : ∀ x, noNames x = true → noNames (.op .ite [x, a, b]) = true := fun x hx => by
            simp [noNames, noNamess, hx, hn.2.1, hn.2.2]
          simp only at h
          have n2 : N0 st1 (iteCong (.op .ite [c, a, b]) (.op .ite [(res.map Prod.fst).getD c, a, b]) res st1) := by
            cases res with
            | none => exact .refl _
            | some q => exact n0_record (defss_eqn (hite _ hn.1) (hite _ hc'))
          generalize iteCong (.op .ite [c, a, b]) (.op .ite [(res.map Prod.fst).getD c, a, b]) res st1 = st2 at *
          generalize (res.map Prod.fst).getD c = c' at *
          split at h
          · rename_i v
            have hbr : noNames (if v = true then a else b) = true := by
              cases v
              · exact hn.2.2
              · exact hn.2.1
            have n3 : N0 st2 (st2.record [eqn (Term.op .ite [.bool v, a, b]) (if v = true then a else b)] "ite_simplify" []) :=
              n0_record (defss_eqn (hite _ hc') hbr)
            generalize st2.record [eqn (Term.op .ite [.bool v, a, b]) (if v = true then a else b)] "ite_simplify" [] = st3 at *
            have key : ∀ bres st4, (if v = true then simplify a none st3 else simplify b none st3) = some (bres, st4) →
                N0 st3 st4 ∧ ∀ t' k, bres = some (t', k) → noNames t' = true := by
              intro bres st4 hb
              cases v with
              | true => exact simplify_names a none st3 bres st4 hn.2.1 hb
              | false => exact simplify_names b none st3 bres st4 hn.2.2 hb
            split at h
            · cases h
            · rename_i bres st4 hb
              obtain ⟨n4, k4⟩ := key bres st4 hb
              have hsim : noNames ((bres.map Prod.fst).getD (if v = true then a else b)) = true := by
                cases bres with
                | none => exact hbr
                | some q => exact k4 q.1 q.2 rfl
              cases h
              refine ⟨?_, fun t' k e => ?_⟩
              · have n5 := ((n1.trans n2).trans n3).trans n4
                split
                · exact n5.trans (n0_record (defss_eqn (hite _ hn.1) hsim))
                · exact n5
              · cases e; exact hsim
          · cases h
    · rw [simplify_op ho] at h
      split at h
      · cases h
      · rename_i rs st1 hs
        obtain ⟨n1, k1⟩ := simplifyArgs_names args st rs st1 hn hs
        split at h
        · split at h
          · cases h
          · rename_i e st2 hd
            obtain ⟨n2, k2⟩ := simplifyOpDirect_names hd hn
            cases h
            exact ⟨n1.trans n2, fun t' k e => (by cases e; exact k2)⟩
        · simp only at h
          have n2 : N0 st1 (processResults (.op o args) (.op o (newArgs args rs)) nm rs st1).2 :=
            processResults_names hop (by simpa only [noNames] using k1)
          generalize processResults (.op o args) (.op o (newArgs args rs)) nm rs st1 = q at *
          split at h
          · cases h
          · rename_i e st3 hd
            obtain ⟨n3, k3⟩ := simplifyOpDirect_names hd k1
            cases h
            refine ⟨((n1.trans n2).trans n3).trans (n0_record (by simp only [eqn, defss, defs, defs_nil e k3, List.append_nil])), fun t' k e => ?_⟩
            cases e; exact k3
theorem simplifyArgs_names : ∀ (l : List Term) (st : St) (rs : List Result) (st' : St), noNamess l = true →
    simplifyArgs l st = some (rs, st') → N0 st st' ∧ noNamess (newArgs l rs) = true
  | [], st, rs, st', _, h => by
    simp only [simplifyArgs] at h; cases h
    exact ⟨.refl _, rfl⟩
  | t :: l, st, rs, st', hn, h => by
    simp only [noNamess, Bool.and_eq_true] at hn
    rw [simplifyArgs] at h
    split at h
    · cases h
    · rename_i r st1 h1
      split at h
      · cases h
      · rename_i rs' st2 h2
        cases h
        obtain ⟨n1, k1⟩ := simplify_names t none st r st1 hn.1 h1
        obtain ⟨n2, k2⟩ := simplifyArgs_names l st1 rs' st' hn.2 h2
        refine ⟨n1.trans n2, ?_⟩
        cases r with
        | none => simp only [newArgs, noNamess, hn.1, k2, Bool.and_self]
        | some q => obtain ⟨t', k⟩ := q; simp only [newArgs, noNamess, k1 t' k rfl, k2, Bool.and_self]
end

/-! ### Building the proof -/

theorem n0_true (st : St) : N0 st st.trueOf.2 := by
  unfold St.trueOf
  split
  · exact n0_steps (s := ⟨false, [.bool true], "true", [], []⟩) rfl rfl rfl
  · exact .refl _

theorem defss_negs : ∀ {l : List Term}, noNamess l = true → defss (l.map neg) = []
  | [], _ => rfl
  | t :: l, h => by
    simp only [noNamess, Bool.and_eq_true] at h
    simp only [List.map_cons, defss, neg, defs, defs_nil t h.1, List.append_nil, List.nil_append]
    exact defss_negs h.2

theorem deriveLHS_names {t : Term} {ps : List Nat} {st st' : St} {k : Nat} (h : deriveLHS t ps st = some (k, st')) (hn : noNames t = true) :
    N0 st st' := by
  unfold deriveLHS at h
  split at h
  · rename_i args
    cases h
    simp only [noNames] at hn
    have n1 : N0 st (st.record (.op .and args :: args.map neg) "and_neg" []) := n0_record (by
      simp only [defss, defs, defss_nil args hn, defss_negs hn, List.append_nil])
    exact n1.trans (n0_record (by simp only [defss, defs, defss_nil args hn, List.append_nil]))
  · split at h
    · cases h; exact .refl _
    · cases h
  · split at h
    · cases h; exact .refl _
    · cases h
  · have e := Option.some.inj h
    rw [show st' = st.trueOf.2 from by rw [e]]
    exact n0_true st
  · cases h

theorem lhsSteps_names {l : Term} {n : Name} {ps : List Nat} {st st' : St} {k : Nat} (h : lhsSteps l n ps st = some (k, st'))
    (hn : noNames l = true) : N0 st st' := by
  unfold lhsSteps at h
  split at h
  · cases h
  · rename_i l' _ st1 hs
    obtain ⟨n1, k1⟩ := simplify_names l _ st _ st1 hn hs
    have hl' := k1 _ _ rfl
    split at h
    · cases h
    · rename_i k2 st2 h2
      cases h
      have n2 := deriveLHS_names h2 hl'
      have n3 : N0 st2 (st2.record [.name n, neg l'] "equiv2" [st1.last]) := n0_record (by
        simp only [defss, neg, defs, defs_nil l' hl', List.append_nil])
      exact ((n1.trans n2).trans n3).trans (n0_record rfl)
  · rename_i st1 hs
    exact (simplify_names l _ st _ st1 hn hs).1.trans (deriveLHS_names h hn)

theorem derivePredicate_names {c p : Term} {k k' : Nat} {ps : List Nat} {st st' : St} (h : derivePredicate c k ps st = some (p, k', st'))
    (hn : noNames c = true) : NN (· = .lhs k) st st' ∧ noNames p = true := by
  unfold derivePredicate at h
  split at h
  · cases h; exact ⟨(N0.refl _).weaken, hn⟩
  · rename_i l r rest
    simp only at h
    simp only [noNames, noNamess, Bool.and_eq_true] at hn
    split at h
    · cases h
    · rename_i k2 st2 h2
      cases h
      refine ⟨?_, hn.2.1⟩
      have n1 : NN (· = .lhs k) st (st.record [neg (.named l (.lhs k)), p] "implies" [st.last]) :=
        nn_steps (s := ⟨false, [neg (.named l (.lhs k)), p], "implies", [st.last], []⟩) (t := l) rfl rfl
          (by simp only [defss, neg, defs, defs_nil l hn.1, defs_nil p hn.2.1, List.append_nil]) hn.1 (by simp)
      have n2 := lhsSteps_names h2 hn.1
      exact (n1.after n2).after (n0_record (by simp only [defss, defs_nil p hn.2.1, List.append_nil]))
  · cases h

theorem factSteps_names {p : Term} {k k' : Nat} {st st' : St} (h : factSteps p k st = some (k', st')) (hn : noNames p = true) : N0 st st' := by
  unfold factSteps at h
  split at h
  · cases h
  · rename_i t _ st1 hs
    obtain ⟨n1, k1⟩ := simplify_names p _ st _ st1 hn hs
    have ht := k1 _ _ rfl
    cases h
    have n2 : N0 st1 (st1.record [neg p, t] "equiv1" [st1.last]) := n0_record (by
      simp only [defss, neg, defs, defs_nil p hn, defs_nil t ht, List.append_nil])
    exact (n1.trans n2).trans (n0_record (by simp only [defss, defs_nil t ht, List.append_nil]))
  · rename_i st1 hs
    cases h
    exact (simplify_names p _ st _ _ hn hs).1

theorem removeUnused_names {a t : Term} {b : Bool} (h : removeUnused a = some (t, b)) (hn : noNames a = true) : noNames t = true := by
  unfold removeUnused at h
  split at h
  · simp only [noNames] at hn
    split at h
    · cases h
    · simp only at h
      split at h
      · cases h; exact hn
      · split at h <;> (cases h; simpa only [noNames] using hn)
  · cases h; exact hn

theorem clearSteps_names (c : Nat) {t : Term} (b : Bool) (st : St) (hn : noNames t = true) :
    N0 st (clearSteps c t b st).2.2 ∧ defs (clearSteps c t b st).1 = [] := by
  unfold clearSteps
  split
  · refine ⟨?_, defs_nil t hn⟩
    exact ((n0_record (by simp only [eqn, defss, defs, defs_nil t hn, List.append_nil])).trans
      (n0_record (by simp only [neg, defss, defs, defs_nil t hn, List.append_nil]))).trans
      (n0_record (by simp only [defss, defs_nil t hn, List.append_nil]))
  · exact ⟨.refl _, rfl⟩

theorem instantiationSteps_names {i : Nat} {d : Coarse} {a t : Term} {k : Nat} {st st' : St}
    (h : instantiationSteps i d a st = some (t, k, st')) (hn : noNames a = true) : NN (· = .i (i - 1)) st st' ∧ noNames t = true := by
  unfold instantiationSteps at h
  split at h
  · cases h
  · rename_i cleared changed hr
    have hc := removeUnused_names hr hn
    obtain ⟨n1, e1⟩ := clearSteps_names d.clause changed st hc
    simp only at h
    generalize clearSteps d.clause cleared changed st = r at *
    split at h
    · cases h; exact ⟨n1.weaken, hc⟩
    · split at h
      · rename_i xs b
        split at h
        · cases h
          have ht := noNames_inst d.σ _ hc
          refine ⟨N0.then (by simp) n1 ?_, ht⟩
          have n2 : NN (· = .i (i - 1)) r.2.2 (r.2.2.recordInst [.op .or [neg r.1, .named (inst d.σ (.all xs b)) (.i (i - 1))]]
              (xs.filterMap fun x => (d.σ.lookup x.1).map lit)) :=
            nn_steps (s := ⟨false, [.op .or [neg r.1, .named (inst d.σ (.all xs b)) (.i (i - 1))]], "forall_inst", [],
              xs.filterMap fun x => (d.σ.lookup x.1).map lit⟩) (t := inst d.σ (.all xs b)) rfl rfl
              (by simp only [neg, defss, defs, e1, defs_nil _ ht, List.append_nil, List.nil_append]) ht (by simp)
          exact (n2.after (n0_record (by simp only [neg, defss, defs, e1, List.append_nil]))).after (n0_record rfl)
        · cases h
      · cases h

end Alethe
end Golem
