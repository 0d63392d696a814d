import Verif.Lemmas.Frontend

/-!
**C71** A script gets right answers: what `check-sat` prints is right for the assertions read so far, as SMT-LIB defines their
meaning.
-/

namespace Golem
namespace Front
variable {T : Theory} {L : Logic T} {M : Sem T} {D : Decls}

/-! ### Clauses of parsed terms -/

/-- The predicates of a term are declared and not inside arguments. -/
structure TOk (D : Decls) (t : PT T) : Prop where
  plain : t.Plain
  sig : ∀ q ∈ t.preds, SigOk D q

theorem TOk.list {ts : List (PT T)} (h1 : PT.PlainL ts) (h2 : ∀ q ∈ PT.predsL ts, SigOk D q) : ∀ t ∈ ts, TOk D t :=
  fun t ht => ⟨plainL_iff.1 h1 t ht, fun q hq => h2 q (predsL_mem.2 ⟨t, ht, hq⟩)⟩

theorem TOk.ofList {ts : List (PT T)} (h : ∀ t ∈ ts, TOk D t) : PT.PlainL ts ∧ ∀ q ∈ PT.predsL ts, SigOk D q :=
  ⟨plainL_iff.2 fun t ht => (h t ht).plain, fun q hq => by
    obtain ⟨t, ht, hq⟩ := predsL_mem.1 hq; exact (h t ht).sig q hq⟩

theorem TOk.not {t : PT T} : TOk D (.not t) ↔ TOk D t := ⟨fun h => ⟨h.plain, h.sig⟩, fun h => ⟨h.plain, h.sig⟩⟩

theorem TOk.or {ts : List (PT T)} : TOk D (.or ts) ↔ ∀ t ∈ ts, TOk D t :=
  ⟨fun h => TOk.list h.plain h.sig, fun h => ⟨(TOk.ofList h).1, (TOk.ofList h).2⟩⟩

theorem TOk.and {ts : List (PT T)} : TOk D (.and ts) ↔ ∀ t ∈ ts, TOk D t :=
  ⟨fun h => TOk.list h.plain h.sig, fun h => ⟨(TOk.ofList h).1, (TOk.ofList h).2⟩⟩

theorem TOk.mkNot {t : PT T} (h : TOk D t) : TOk D (mkNot t) := by
  unfold Front.mkNot
  split
  · exact TOk.not.1 h
  · exact ⟨trivial, by simp [PT.preds]⟩
  · exact ⟨trivial, by simp [PT.preds]⟩
  · exact TOk.not.2 h

theorem TOk.disjunct {s s' : Bool} {t d : PT T} (hd : Disjunct s t s' d) (h : TOk D t) : TOk D d := by
  induction hd with
  | not _ ih => exact ih (TOk.not.1 h)
  | or ht _ ih => exact ih (TOk.or.1 h _ ht)
  | and ht _ ih => exact ih (TOk.and.1 h _ ht)
  | atom => exact h

theorem TOk.asDisjunction (hL : L.Ok M) {t d : PT T} (h : asDisjunction L t = some d) (ht : TOk D t) : TOk D d := by
  unfold Front.asDisjunction at h
  split at h
  · cases h; exact ht
  · rename_i ts
    have hts : ∀ t ∈ ts.map Front.mkNot, TOk D t := by
      intro u hu
      obtain ⟨v, hv, rfl⟩ := List.mem_map.1 hu
      exact (TOk.and.1 (TOk.not.1 ht) v hv).mkNot
    split at h
    · rename_i us hus
      injection h with h
      subst h
      rw [← hus]
      exact ⟨(hL.mkOrPreds _).2 (TOk.ofList hts).1, fun q hq => (TOk.ofList hts).2 q ((hL.mkOrPreds _).1 q hq)⟩
    · cases h
  · cases h

theorem TOk.topDisjuncts {t r : PT T} (h : TOk D t) (hr : r ∈ topDisjuncts t) : TOk D r := by
  obtain ⟨s, d, hd, rfl⟩ := (topDisjuncts_spec t).2.1 r hr
  have := TOk.disjunct hd h
  unfold SLit.term
  split
  · exact this
  · exact this.mkNot

/-- The clause of a parsed term is within the domain of the rest of the model. -/
theorem chclause_good (hL : L.Ok M) {known : List Nat} {t : PT T} (ht : TOk D t) {D' : Decls}
    {c : PClause T} (h : chclause L known t = some c) (hk : ∀ p < D.length, p ∈ known) (hD : ∀ q, SigOk D q → SigOk D' q) :
    c.Good D' known := by
  have hh := C70_horn h
  have up : ∀ {u : PT T}, TOk D u → u.Plain ∧ ∀ q ∈ u.preds, SigOk D' q := fun hu => ⟨hu.plain, fun q hq => hD q (hu.sig q hq)⟩
  have hlt : ∀ q, SigOk D q → q.1 ∈ known := by
    rintro q ⟨f, hf⟩
    exact hk _ (List.getElem?_eq_some_iff.1 hf).1
  rcases chclause_cases h with ⟨-, rfl⟩ | ⟨u, rfl, -, rfl⟩ | ⟨d, h1, h2⟩
  · exact ⟨hh, up ht, by simp, by simp [PT.preds]⟩
  · exact ⟨hh, ⟨trivial, by simp [PT.preds]⟩, by simpa using up (TOk.not.1 ht), by simp [PT.preds]⟩
  · have hd := TOk.asDisjunction hL h1 ht
    have htop : ∀ r ∈ topDisjuncts d, TOk D r := fun r hr => TOk.topDisjuncts hd hr
    unfold clauseOfDisjuncts at h2
    simp only at h2
    split at h2
    · cases h2
    · split at h2
      · cases h2
      · injection h2 with h2
        subst h2
        refine ⟨hh, ?_, fun b hb => up (TOk.not.1 (htop _ (mem_neg.1 hb).1)), ?_⟩
        · have hm := fun d' => mem_lits (known := known) (ds := topDisjuncts d) (d := d')
          simp only
          generalize ((topDisjuncts d).filter (isPredLit known)).filter isPositive = l at hm
          match l with
          | [] => exact ⟨trivial, by simp [PT.preds]⟩
          | x :: l => exact up (htop x ((hm x).1 (by simp)).1)
        · refine List.eq_nil_iff_forall_not_mem.2 fun q hq => hh.constraint q hq ?_
          simp only at hq
          obtain ⟨u, hu, hq⟩ := predsL_mem.1 ((hL.mkAndPreds _).1 q hq)
          obtain ⟨v, hv, rfl⟩ := List.mem_map.1 hu
          exact hlt q ((htop v (List.mem_filter.1 hv).1).mkNot.sig q hq)

theorem PClause.Good.mono {known known' : List Nat} {c : PClause T} (h : c.Good D known) (hk : ∀ p ∈ known, p ∈ known') :
    c.Good D known' := by
  refine ⟨⟨h.horn.head.imp id fun ⟨p, as, h1, h2⟩ => ⟨p, as, h1, hk p h2⟩, fun b hb => ?_, by simp [h.constraint]⟩, h.head, h.body,
    h.constraint⟩
  obtain ⟨p, as, h1, h2⟩ := h.horn.body b hb
  exact ⟨p, as, h1, hk p h2⟩

/-! ### The state after a part of the script -/

theorem decl_prefix (X : List (String × Nat)) (D0 : Decls) :
    ∃ E, X.foldl (fun D d => if d ∈ D then D else D ++ [d]) D0 = D0 ++ E := by
  induction X generalizing D0 with
  | nil => exact ⟨[], by simp⟩
  | cons d X ih =>
    rw [List.foldl_cons]
    obtain ⟨E, hE⟩ := ih (if d ∈ D0 then D0 else D0 ++ [d])
    rw [hE]
    split
    · exact ⟨E, rfl⟩
    · exact ⟨[d] ++ E, by rw [List.append_assoc]⟩

theorem declarations_append (a b : List Cmd) : ∃ E, declarations (a ++ b) = declarations a ++ E := by
  unfold declarations
  rw [List.filterMap_append, List.foldl_append]
  exact decl_prefix _ _

theorem declarations_snoc (a : List Cmd) (c : Cmd) : declarations (a ++ [c]) =
    match c.declares with
    | none => declarations a
    | some d => if d ∈ declarations a then declarations a else declarations a ++ [d] := by
  unfold declarations
  rw [List.filterMap_append, List.foldl_append]
  cases h : c.declares <;> simp [h]

theorem assertions_snoc (a : List Cmd) (c : Cmd) : assertions (a ++ [c]) =
    match c with
    | .assert x => assertions a ++ [x]
    | _ => assertions a := by
  unfold assertions
  rw [List.filterMap_append]
  cases c <;> simp

/-- The state after the commands `done`. -/
structure ScriptInv (M : Sem T) (D : Decls) (done : List Cmd) (st : SState T) (sys : Sys T) : Prop where
  system : st.system = some sys
  lets : st.lets = .empty
  decls : st.decls = declarations done
  known : ∀ p < st.decls.length, p ∈ sys.known
  good : ∀ c ∈ sys.clauses, c.Good D sys.known
  meaning : ∀ I : Interp T, (∀ c ∈ sys.clauses, ∀ ρ, c.Holds I ρ) ↔ ∀ a ∈ assertions done, a.Holds M D I []

theorem isTrue_eq {t : PT T} (h : t.isTrue = true) : t = .tt := by
  cases t <;> first | rfl | cases h

theorem sigOk_append {E : Decls} {q : Nat × Nat} (h : SigOk D q) : SigOk (D ++ E) q := by
  obtain ⟨f, hf⟩ := h
  exact ⟨f, by rw [List.getElem?_append_left (List.getElem?_eq_some_iff.1 hf).1]; exact hf⟩

theorem step_inv (hL : L.Ok M) (ha : L.Apart D) {check : List (PClause T) → List (CheckLine T)} {done : List Cmd} {st : SState T}
    {sys : Sys T} (h : ScriptInv M D done st sys) {c : Cmd} (hD : ∃ E, D = declarations (done ++ [c]) ++ E)
    (hset : c ≠ .setLogic true) (hq : ∀ a, c = .assert a → a.NoClash D ∧ a.Clean D [])
    (hend : (interpretCommand L check st c).2.doExit = false ∧ (interpretCommand L check st c).2.crashed = false) :
    ∃ sys', ScriptInv M D (done ++ [c]) (interpretCommand L check st c).2 sys' := by
  cases c with
  | setLogic b =>
    cases b with
    | true => exact absurd rfl hset
    | false => exact ⟨sys, ⟨h.system, h.lets, by rw [declarations_snoc]; exact h.decls, h.known, h.good, by rw [assertions_snoc]; exact h.meaning⟩⟩
  | ignored => exact ⟨sys, ⟨h.system, h.lets, by rw [declarations_snoc]; exact h.decls, h.known, h.good, by rw [assertions_snoc]; exact h.meaning⟩⟩
  | unknown => exact ⟨sys, ⟨h.system, h.lets, by rw [declarations_snoc]; exact h.decls, h.known, h.good, by rw [assertions_snoc]; exact h.meaning⟩⟩
  | exit => exact absurd hend.1 (by simp [interpretCommand])
  | checkSat =>
    refine ⟨sys, ?_⟩
    simp only [interpretCommand, h.system]
    exact ⟨h.system, h.lets, by rw [declarations_snoc]; exact h.decls, h.known, h.good, by rw [assertions_snoc]; exact h.meaning⟩
  | declareFun f args ret =>
    simp only [interpretCommand, h.system] at hend ⊢
    have hassert : assertions (done ++ [.declareFun f args ret]) = assertions done := assertions_snoc _ _
    have same : (Cmd.declareFun f args ret).declares = none → ∃ sys', ScriptInv M D (done ++ [.declareFun f args ret]) st sys' := by
      intro hn
      exact ⟨sys, ⟨h.system, h.lets, by rw [declarations_snoc, hn]; exact h.decls, h.known, h.good, by rw [hassert]; exact h.meaning⟩⟩
    unfold interpretDeclareFun
    split
    · exact same (by simp [Cmd.declares])
    · rename_i s
      split
      · rename_i hs
        exact same (by simp [Cmd.declares, hs])
      · rename_i hs
        split
        · rename_i hn
          refine same ?_
          simp only [List.any_eq_true, Option.isNone_iff_eq_none] at hn
          obtain ⟨x, hx, rfl⟩ := hn
          rw [Cmd.declares, if_neg]
          exact fun hc => hc.2 _ hx rfl
        · rename_i hn
          have hdecl : (Cmd.declareFun f args (some s)).declares = some (f, args.length) := by
            rw [Cmd.declares, if_pos]
            refine ⟨by simpa using hs, fun a hm hc => hn ?_⟩
            rw [List.any_eq_true]
            exact ⟨a, hm, by rw [hc]; rfl⟩
          have hd := declarations_snoc done (.declareFun f args (some s))
          rw [hdecl] at hd
          simp only [← h.decls] at hd
          simp only [Decls.declare]
          cases hf : st.decls.find f args.length with
          | some p =>
            have hmem : (f, args.length) ∈ st.decls := List.mem_of_getElem? (find_some hf)
            rw [if_pos hmem] at hd
            exact ⟨_, ⟨rfl, h.lets, hd.symm, fun q hq => List.mem_cons_of_mem _ (h.known q hq),
              fun c hc => (h.good c hc).mono fun p hp => List.mem_cons_of_mem _ hp, by rw [hassert]; exact h.meaning⟩⟩
          | none =>
            rw [if_neg (find_none.1 hf)] at hd
            refine ⟨_, ⟨rfl, h.lets, hd.symm, fun q hq => ?_,
              fun c hc => (h.good c hc).mono fun p hp => List.mem_cons_of_mem _ hp, by rw [hassert]; exact h.meaning⟩⟩
            simp only [List.length_append, List.length_singleton] at hq
            rcases Nat.lt_succ_iff_lt_or_eq.1 hq with hq | rfl
            · exact List.mem_cons_of_mem _ (h.known q hq)
            · exact List.mem_cons_self
  | assert a =>
    obtain ⟨hnc, hcl⟩ := hq a rfl
    obtain ⟨E, hE⟩ := hD
    rw [declarations_snoc] at hE
    simp only [Cmd.declares, ← h.decls] at hE
    simp only [interpretCommand, h.system] at hend ⊢
    unfold interpretAssert at hend ⊢
    rw [h.lets] at hend ⊢
    have hnc' : a.NoClash st.decls := fun v hv hs => find_none_left (E := E) (by rw [← hE]; exact hnc v hv hs)
    have hr := C69_restored (D := st.decls) hL a hnc'
    have hmono := fun t => parseTop_mono (D := st.decls) (E := E) (L := L) (by rw [← hE]; exact ha) a (by rw [← hE]; exact hnc)
      .empty (t := t)
    generalize hpar : parseTop L st.decls a .empty = R at hend hr hmono ⊢
    obtain ⟨res, r⟩ := R
    simp only at hr
    subst hr
    cases res with
    | undef => exact absurd hend.2 (by simp)
    | unknown => exact absurd hend.2 (by simp)
    | quantified => exact absurd hend.1 (by simp)
    | ok t =>
      have hp := hmono t rfl
      rw [← hE] at hp
      have hmean := C69_parse hL a hnc hp
      simp only at hend ⊢
      have hdecl : declarations (done ++ [.assert a]) = declarations done := by rw [declarations_snoc]; rfl
      have hass : assertions (done ++ [.assert a]) = assertions done ++ [a] := assertions_snoc _ _
      split
      · rename_i htrue
        have := isTrue_eq htrue
        subst this
        refine ⟨sys, ⟨h.system, rfl, by rw [hdecl]; exact h.decls, h.known, h.good, fun I => ?_⟩⟩
        rw [h.meaning I, hass]
        constructor
        · intro h1 b hb
          rcases List.mem_append.1 hb with hb | hb
          · exact h1 b hb
          · rw [List.mem_singleton.1 hb]
            exact (hmean I).1 fun ρ => holds_tt
        · exact fun h1 b hb => h1 b (List.mem_append_left _ hb)
      · rename_i htrue
        simp only [htrue] at hend
        cases hc : chclause L sys.known t with
        | none => rw [hc] at hend; exact absurd hend.1 (by simp)
        | some c =>
          refine ⟨_, ⟨rfl, rfl, by rw [hdecl]; exact h.decls, h.known, ?_, fun I => ?_⟩⟩
          · obtain ⟨b, hi⟩ := parseTop_info (D2 := D) (fun f n hf => by
              obtain ⟨p, hp⟩ := Option.isSome_iff_exists.1 hf
              rw [hE, find_append hp]; rfl) hL a hnc' [] [] (fe := []) (fun x => trivial) hcl (t := t) (by rw [← of_empty, hpar])
            have hg := chclause_good hL (D' := D) ⟨hi.plain, hi.sig⟩ hc h.known fun q hq => by rw [hE]; exact sigOk_append hq
            intro d hd
            rcases List.mem_append.1 hd with hd | hd
            · exact h.good d hd
            · rw [List.mem_singleton.1 hd]; exact hg
          · have h2 : (∀ ρ, c.Holds I ρ) ↔ a.Holds M D I [] := by
              rw [← hmean I]
              exact forall_congr' fun ρ => (C70_same_meaning hL hc I ρ).symm
            rw [hass]
            simp only [List.forall_mem_append, List.forall_mem_singleton]
            rw [h.meaning I, h2]

theorem run_inv (hL : L.Ok M) {cmds : List Cmd} (ha : L.Apart (declarations cmds)) {check : List (PClause T) → List (CheckLine T)}
    (hq : ∀ a ∈ assertions cmds, a.NoClash (declarations cmds) ∧ a.Clean (declarations cmds) []) :
    ∀ (rest done : List Cmd) (st : SState T) (sys : Sys T), cmds = done ++ rest → (∀ c ∈ rest, c ≠ .setLogic true) →
      ScriptInv M (declarations cmds) done st sys → ∀ k ls, (k, .check ls) ∈ runScript L check done.length st rest →
      k < cmds.length ∧ ∃ st' sys', ScriptInv M (declarations cmds) (cmds.take k) st' sys' ∧ ls = check sys'.clauses
  | [], done, st, sys, _, _, _, k, ls, h => by cases h
  | c :: rest, done, st, sys, hcmds, hset, hI, k, ls, h => by
    rw [runScript] at h
    split at h
    · cases h
    simp only at h
    rcases List.mem_append.1 h with h | h
    · obtain ⟨l, hl, he⟩ := List.mem_map.1 h
      have hk : done.length = k := congrArg Prod.fst he
      have hl' : l = .check ls := congrArg Prod.snd he
      subst hl'
      cases c with
      | setLogic b => cases b <;> simp [interpretCommand] at hl
      | exit => simp [interpretCommand] at hl
      | ignored => simp [interpretCommand] at hl
      | unknown => simp [interpretCommand] at hl
      | declareFun f args ret =>
        simp only [interpretCommand, hI.system] at hl
        unfold interpretDeclareFun at hl
        split at hl
        · simp at hl
        · split at hl
          · simp at hl
          · split at hl <;> simp at hl
      | assert a =>
        simp only [interpretCommand, hI.system] at hl
        unfold interpretAssert at hl
        split at hl
        · simp only at hl
          split at hl
          · simp at hl
          · split at hl <;> simp at hl
        · simp at hl
        · simp at hl
      | checkSat =>
        simp only [interpretCommand, hI.system, List.mem_singleton] at hl
        injection hl with hl
        refine ⟨by rw [hcmds, ← hk]; simp, st, sys, ?_, hl⟩
        rw [hcmds, ← hk, List.take_left']
        · rw [← hcmds]; exact hI
        · rfl
    · have hne : (interpretCommand L check st c).2.doExit = false ∧ (interpretCommand L check st c).2.crashed = false := by
        cases rest with
        | nil => cases h
        | cons d rest =>
          rw [runScript] at h
          split at h
          · cases h
          · rename_i hc
            simpa using hc
      have hmem : ∀ a, c = .assert a → a ∈ assertions cmds := by
        rintro a rfl
        rw [assertions, List.mem_filterMap]
        exact ⟨.assert a, by rw [hcmds]; simp, rfl⟩
      obtain ⟨sys', hI'⟩ := step_inv hL ha hI (check := check) (c := c)
        (by
          obtain ⟨E, hE⟩ := declarations_append (done ++ [c]) rest
          exact ⟨E, by rw [← hE, hcmds]; simp⟩)
        (hset c (by simp)) (fun a hc => hq a (hmem a hc)) hne
      exact run_inv hL ha hq rest (done ++ [c]) _ sys' (by rw [hcmds]; simp) (fun d hd => hset d (by simp [hd])) hI' k ls
        (by simpa using h)

/-- The commands before `set-logic` do nothing. -/
theorem run_ignored {check : List (PClause T) → List (CheckLine T)} (pre rest : List Cmd) (hp : ∀ c ∈ pre, c = .ignored) (k : Nat)
    (st : SState T) (he : st.doExit = false) (hc : st.crashed = false) :
    runScript L check k st (pre ++ rest) = runScript L check (k + pre.length) st rest := by
  induction pre generalizing k with
  | nil => simp
  | cons c pre ih =>
    rw [List.cons_append, runScript, hp c (by simp), if_neg (by simp [he, hc])]
    simp only [interpretCommand, List.map_nil, List.nil_append]
    rw [ih (fun c hc => hp c (by simp [hc]))]
    simp; congr 1; omega

/-- A script as the SMT-LIB standard wants it: `set-logic HORN` comes first (after `set-info` and the like) and only once. -/
def Standard (cmds : List Cmd) : Prop :=
  ∃ pre rest, cmds = pre ++ .setLogic true :: rest ∧ (∀ c ∈ pre, c = .ignored) ∧ ∀ c ∈ rest, c ≠ .setLogic true

/-- The `check-sat` command gives right answers on legal clauses. -/
def CheckRight (check : List (Clause T) → List (CheckLine T)) : Prop :=
  ∀ ar cs, LegalInput ar cs → (.answer .safe ∈ check cs → Satisfiable (clauseRules cs)) ∧
    (.answer .unsafeAns ∈ check cs → ¬ Satisfiable (clauseRules cs))

/-- **C71**: an answer printed by a script is right for the assertions before it: `sat` is printed only if they have a model,
`unsat` only if they have none. -/
theorem C71_script (hL : L.Ok M) {B : BoolTerms T} (hB : B.Ok) {key : String → Srt → String}
    (hkey : ∀ x s y s', key x s = key y s' → x = y ∧ s = s') {check : List (Clause T) → List (CheckLine T)} (hch : CheckRight check)
    {other : List (PClause T) → List (CheckLine T)} {cmds : List Cmd} (hstd : Standard cmds) (ha : L.Apart (declarations cmds))
    (hq : ∀ a ∈ assertions cmds, a.NoClash (declarations cmds) ∧ a.Clean (declarations cmds) []) {k : Nat} {ls : List (CheckLine T)}
    (h : (k, .check ls) ∈ interpretScript L (checkClauses B key check other) cmds) :
    (.answer .safe ∈ ls → AssertionsSat M (declarations cmds) (assertions (cmds.take k))) ∧
    (.answer .unsafeAns ∈ ls → ¬ AssertionsSat M (declarations cmds) (assertions (cmds.take k))) := by
  obtain ⟨pre, rest, hcmds, hpre, hrest⟩ := hstd
  have h0 := h
  unfold interpretScript at h
  rw [hcmds, run_ignored pre _ hpre 0 _ rfl rfl, runScript, if_neg (by simp [SState.init])] at h
  simp only [interpretCommand, if_true, List.map_nil, List.nil_append] at h
  have hnil : declarations (pre ++ [.setLogic true]) = [] ∧ assertions (pre ++ [.setLogic true]) = [] := by
    have : ∀ c ∈ pre ++ [Cmd.setLogic true], c = .ignored ∨ c = .setLogic true := by
      intro c hc
      rcases List.mem_append.1 hc with hc | hc
      · exact .inl (hpre c hc)
      · exact .inr (List.mem_singleton.1 hc)
    have hf : ∀ {α : Type} (g : Cmd → Option α), g .ignored = none → g (.setLogic true) = none →
        (pre ++ [Cmd.setLogic true]).filterMap g = [] := by
      intro α g h1 h2
      rw [List.filterMap_eq_nil_iff]
      intro c hc
      rcases this c hc with rfl | rfl
      · exact h1
      · exact h2
    exact ⟨by rw [declarations, hf _ rfl rfl]; rfl, by rw [assertions, hf _ rfl rfl]⟩
  obtain ⟨-, st', sys', hI, hls⟩ := run_inv (cmds := cmds) hL ha hq rest (pre ++ [.setLogic true])
    { (SState.init : SState T) with system := some ⟨[], []⟩ } ⟨[], []⟩ (by rw [hcmds]; simp) hrest
    ⟨rfl, rfl, by rw [hnil.1]; rfl, by simp [SState.init], by simp, by simp [hnil.2]⟩ k ls (by simpa using h)
  obtain ⟨ccs, hcs, hleg, hsat⟩ := clauses_sat hB hkey hI.good
  rw [hls, checkClauses, hcs]
  simp only
  obtain ⟨h1, h2⟩ := hch _ _ hleg
  have hsat' : Satisfiable (clauseRules ccs) ↔ AssertionsSat M (declarations cmds) (assertions (cmds.take k)) := by
    rw [hsat]
    exact exists_congr fun I => hI.meaning I
  rw [← hsat']
  exact ⟨h1, h2⟩

/-- Rewriters that add no variables give different variables to different clauses. -/
theorem apart_of_vars {rw : Fla T → Fla T} (h : ∀ f, ∀ x ∈ (rw f).vars, x ∈ f.vars) {ar : Pred → Nat} {cs : List (Clause T)}
    (hin : LegalInput ar cs) : RewritesApart rw cs := by
  intro e he e' he' hne n hn
  exfalso
  have hx := h _ _ hn
  obtain ⟨-, hvars, -⟩ := C03_normal_form ar cs hin.arity hin.user
  obtain ⟨i, c, hc, rfl⟩ := mem_buildGraph he
  rcases (hvars c (List.mem_of_getElem? hc)).2 _ hx with h | ⟨k, h⟩
  · simp only [predicateVars, List.mem_append] at h
    rcases h with h | h
    · obtain ⟨n, -, h2⟩ := List.mem_map.1 h; cases h2
    · simp only [PRepr.keys, List.mem_flatMap] at h
      obtain ⟨q, -, h⟩ := h
      obtain ⟨n, -, h2⟩ := List.mem_map.1 h; cases h2
  · cases h

/-- **C71** (the command): with an engine that is right, `check-sat` is right on every legal list of clauses. -/
theorem C71_check_sat {S : Smt T} {rw : Fla T → Fla T} {E : Elim T} {order : Graph T → List Pred} {fuel : Nat}
    {engine : PRepr → GS T → Outcome (VerificationResult T)} {printW validateW : Bool} (hS : S.Sound) (hrw : RewriteExact rw)
    (hE : E.Exact) (ho : IsOrder order) (he : CheckEngine.Right engine)
    (hap : ∀ ar cs, LegalInput ar cs → RewritesApart rw cs) :
    CheckRight fun cs => (checkSat S rw E order fuel engine printW validateW cs).1 :=
  fun ar cs hin => C57_check_sat hS hrw hE ho he hin (hap ar cs hin)

/-! ### Scripts that are accepted are answered -/

/-- An assertion golem accepts: it can be parsed with the declarations `D`, and it is true, a predicate, the negation of one,
or a disjunction that is a Horn clause. -/
def Accepted (L : Logic T) (D : Decls) (a : Ast) : Prop :=
  ∃ t r, parseTop L D a .empty = (.ok t, r) ∧
    (t = .tt ∨ t.Declared (List.range D.length) ∨ (∃ u, t = .not u ∧ u.Declared (List.range D.length)) ∨
      ∃ ts, t = .or ts ∧ PT.HornTerm (List.range D.length) (.or ts))

structure AccInv (done : List Cmd) (st : SState T) (sys : Sys T) : Prop where
  system : st.system = some sys
  lets : st.lets = .empty
  decls : st.decls = declarations done
  known : ∀ p, p ∈ sys.known ↔ p < st.decls.length
  runs : st.doExit = false ∧ st.crashed = false

theorem declared_congr {k k' : List Nat} (h : ∀ p, p ∈ k ↔ p ∈ k') {t : PT T} : t.Declared k ↔ t.Declared k' := by
  simp only [PT.Declared, h]

theorem hornTerm_congr {k k' : List Nat} (h : ∀ p, p ∈ k ↔ p ∈ k') {t : PT T} (ht : PT.HornTerm k t) : PT.HornTerm k' t := by
  refine ⟨fun d d' h1 h2 h3 h4 => ht.one d d' h1 h2 ((declared_congr h).2 h3) ((declared_congr h).2 h4), fun s d hd => ?_⟩
  rcases ht.rest s d hd with h1 | h1
  · exact .inl ((declared_congr h).1 h1)
  · exact .inr fun q hq hk => h1 q hq ((h _).2 hk)

theorem chclause_accepts (hL : L.Ok M) {known : List Nat} {t : PT T} (h : t.Declared known ∨ (∃ u, t = .not u ∧ u.Declared known) ∨
    ∃ ts, t = .or ts ∧ PT.HornTerm known (.or ts)) : ∃ c, chclause L known t = some c := by
  rcases h with ⟨p, as, rfl, hp⟩ | ⟨u, rfl, p, as, rfl, hp⟩ | ⟨ts, rfl, h⟩
  · exact ⟨_, by rw [chclause, if_pos (by simpa using hp)]⟩
  · exact ⟨_, by rw [chclause, if_pos (by simpa using hp)]⟩
  · exact C70_accepts hL h

theorem step_acc (hL : L.Ok M) {check : List (PClause T) → List (CheckLine T)} {done : List Cmd} {st : SState T}
    {sys : Sys T} (h : AccInv done st sys) {c : Cmd} (hset : c ≠ .setLogic true) (hex : c ≠ .exit)
    (hq : ∀ a, c = .assert a → a.NoClash (declarations done) ∧ Accepted L (declarations done) a) :
    ∃ sys', AccInv (done ++ [c]) (interpretCommand L check st c).2 sys' := by
  cases c with
  | setLogic b =>
    cases b with
    | true => exact absurd rfl hset
    | false => exact ⟨sys, ⟨h.system, h.lets, by rw [declarations_snoc]; exact h.decls, h.known, h.runs⟩⟩
  | ignored => exact ⟨sys, ⟨h.system, h.lets, by rw [declarations_snoc]; exact h.decls, h.known, h.runs⟩⟩
  | unknown => exact ⟨sys, ⟨h.system, h.lets, by rw [declarations_snoc]; exact h.decls, h.known, h.runs⟩⟩
  | exit => exact absurd rfl hex
  | checkSat =>
    refine ⟨sys, ?_⟩
    simp only [interpretCommand, h.system]
    exact ⟨h.system, h.lets, by rw [declarations_snoc]; exact h.decls, h.known, h.runs⟩
  | declareFun f args ret =>
    simp only [interpretCommand, h.system]
    have same : (Cmd.declareFun f args ret).declares = none → ∃ sys', AccInv (done ++ [.declareFun f args ret]) st sys' := by
      intro hn
      exact ⟨sys, ⟨h.system, h.lets, by rw [declarations_snoc, hn]; exact h.decls, h.known, h.runs⟩⟩
    unfold interpretDeclareFun
    split
    · exact same (by simp [Cmd.declares])
    · rename_i s
      split
      · rename_i hs
        exact same (by simp [Cmd.declares, hs])
      · rename_i hs
        split
        · rename_i hn
          refine same ?_
          simp only [List.any_eq_true, Option.isNone_iff_eq_none] at hn
          obtain ⟨x, hx, rfl⟩ := hn
          rw [Cmd.declares, if_neg]
          exact fun hc => hc.2 _ hx rfl
        · rename_i hn
          have hdecl : (Cmd.declareFun f args (some s)).declares = some (f, args.length) := by
            rw [Cmd.declares, if_pos]
            refine ⟨by simpa using hs, fun a hm hc => hn ?_⟩
            rw [List.any_eq_true]
            exact ⟨a, hm, by rw [hc]; rfl⟩
          have hd := declarations_snoc done (.declareFun f args (some s))
          rw [hdecl] at hd
          simp only [← h.decls] at hd
          simp only [Decls.declare]
          cases hf : st.decls.find f args.length with
          | some p =>
            have hp := find_some hf
            have hmem : (f, args.length) ∈ st.decls := List.mem_of_getElem? hp
            rw [if_pos hmem] at hd
            refine ⟨_, ⟨rfl, h.lets, hd.symm, fun q => ?_, h.runs⟩⟩
            simp only [List.mem_cons, h.known]
            exact ⟨fun hq => hq.elim (fun e => e ▸ (List.getElem?_eq_some_iff.1 hp).1) id, .inr⟩
          | none =>
            rw [if_neg (find_none.1 hf)] at hd
            refine ⟨_, ⟨rfl, h.lets, hd.symm, fun q => ?_, h.runs⟩⟩
            simp only [List.mem_cons, h.known, List.length_append, List.length_singleton]
            omega
  | assert a =>
    obtain ⟨hnc, t, r, hp, hacc⟩ := hq a rfl
    rw [← h.decls] at hnc hp hacc
    simp only [interpretCommand, h.system]
    unfold interpretAssert
    rw [h.lets]
    have hr := C69_restored (D := st.decls) hL a hnc
    rw [hp] at hr ⊢
    simp only at hr
    subst hr
    have hdecl : declarations (done ++ [.assert a]) = declarations done := by rw [declarations_snoc]; rfl
    simp only
    split
    · exact ⟨sys, ⟨h.system, rfl, by rw [hdecl]; exact h.decls, h.known, h.runs⟩⟩
    · rename_i htrue
      have hK : ∀ p, p ∈ List.range st.decls.length ↔ p ∈ sys.known := fun p => by rw [List.mem_range, h.known]
      obtain ⟨c, hc⟩ := chclause_accepts (known := sys.known) hL (t := t) (by
        rcases hacc with rfl | h1 | ⟨u, h1, h2⟩ | ⟨ts, h1, h2⟩
        · exact absurd rfl htrue
        · exact .inl ((declared_congr hK).1 h1)
        · exact .inr (.inl ⟨u, h1, (declared_congr hK).1 h2⟩)
        · exact .inr (.inr ⟨ts, h1, hornTerm_congr hK h2⟩))
      rw [hc]
      exact ⟨_, ⟨rfl, rfl, by rw [hdecl]; exact h.decls, h.known, h.runs⟩⟩

theorem run_acc (hL : L.Ok M) {check : List (PClause T) → List (CheckLine T)} :
    ∀ (todo rest done : List Cmd) (st : SState T) (sys : Sys T), AccInv done st sys →
      (∀ c ∈ todo, c ≠ .setLogic true ∧ c ≠ .exit) →
      (∀ i a, todo[i]? = some (.assert a) → a.NoClash (declarations (done ++ todo.take i)) ∧
        Accepted L (declarations (done ++ todo.take i)) a) →
      ∃ ls, (done.length + todo.length, .check ls) ∈ runScript L check done.length st (todo ++ .checkSat :: rest)
  | [], rest, done, st, sys, hI, _, _ => by
    rw [List.nil_append, runScript, if_neg (by simp [hI.runs])]
    simp only [interpretCommand, hI.system]
    exact ⟨_, by simp; exact .inl rfl⟩
  | c :: todo, rest, done, st, sys, hI, hc, hq => by
    rw [List.cons_append, runScript, if_neg (by simp [hI.runs])]
    obtain ⟨sys', hI'⟩ := step_acc hL hI (check := check) (hc c (by simp)).1 (hc c (by simp)).2
      (fun a ha => by simpa using hq 0 a (by simp [ha]))
    obtain ⟨ls, hls⟩ := run_acc hL (check := check) todo rest (done ++ [c]) _ sys' hI' (fun d hd => hc d (by simp [hd]))
      (fun i a hia => by simpa using hq (i + 1) a (by simpa using hia))
    refine ⟨ls, List.mem_append_right _ ?_⟩
    have he : done.length + (c :: todo).length = (done ++ [c]).length + todo.length := by simp; omega
    rw [he]
    simpa using hls

/-- **C71** (accepted scripts are answered): if the commands before a `check-sat` contain no `exit` and their assertions are
accepted where they stand, the command is executed. -/
theorem C71_answered (hL : L.Ok M) {check : List (PClause T) → List (CheckLine T)} {pre todo rest : List Cmd}
    (hpre : ∀ c ∈ pre, c = .ignored) (hc : ∀ c ∈ todo, c ≠ .setLogic true ∧ c ≠ .exit)
    (hq : ∀ i a, todo[i]? = some (.assert a) → a.NoClash (declarations (todo.take i)) ∧ Accepted L (declarations (todo.take i)) a) :
    ∃ ls, (pre.length + 1 + todo.length, .check ls) ∈
      interpretScript L check (pre ++ .setLogic true :: (todo ++ .checkSat :: rest)) := by
  unfold interpretScript
  rw [run_ignored pre _ hpre 0 _ rfl rfl, runScript, if_neg (by simp [SState.init])]
  simp only [interpretCommand, if_true, List.map_nil, List.nil_append]
  have hnil : (pre ++ [Cmd.setLogic true]).filterMap Cmd.declares = [] := by
    rw [List.filterMap_eq_nil_iff]
    intro c hc
    rcases List.mem_append.1 hc with hc | hc
    · rw [hpre c hc]; rfl
    · rw [List.mem_singleton.1 hc]; rfl
  have hd : ∀ l, declarations (pre ++ [Cmd.setLogic true] ++ l) = declarations l := by
    intro l
    unfold declarations
    rw [List.filterMap_append, hnil, List.nil_append]
  obtain ⟨ls, hls⟩ := run_acc (L := L) (check := check) hL todo rest (pre ++ [.setLogic true])
    { (SState.init : SState T) with system := some ⟨[], []⟩ } ⟨[], []⟩
    ⟨rfl, rfl, by have := hd []; rw [List.append_nil] at this; rw [this]; rfl, by simp [SState.init], rfl, rfl⟩ hc
    (fun i a hia => by rw [hd]; exact hq i a hia)
  exact ⟨ls, by simpa using hls⟩

end Front
end Golem
