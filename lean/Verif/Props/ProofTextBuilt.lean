import Verif.Props.ProofText

/-!
C83: the conditions on names hold of every proof that is built from clauses that meet them.
-/

namespace Golem
namespace Alethe

open SExpr
open LetPrint (Reads)

variable {sortOf : Str → Sort'}

/-- The conditions on a term. -/
def GT (sortOf : Str → Sort') (t : Term) : Prop := Named t ∧ Clear sortOf t

def SG (sortOf : Str → Sort') (s : Step) : Prop := NamedStep s ∧ ClearStep sortOf s

theorem gs_iff : ∀ l : List Term, (Nameds l ∧ Clears sortOf l) ↔ ∀ t ∈ l, GT sortOf t
  | [] => by simp [Nameds, Clears]
  | t :: l => by
    have ih := gs_iff l
    rw [Nameds, Clears, List.forall_mem_cons, ← ih, GT]
    constructor
    · rintro ⟨⟨a, b⟩, c, d⟩; exact ⟨⟨a, c⟩, b, d⟩
    · rintro ⟨⟨a, c⟩, b, d⟩; exact ⟨⟨a, b⟩, c, d⟩

theorem g_num (n : Int) : GT sortOf (.num n) := by simp only [GT, Named, Clear]; exact ⟨trivial, trivial⟩
theorem g_bool (b : Bool) : GT sortOf (.bool b) := by simp only [GT, Named, Clear]; exact ⟨trivial, trivial⟩
theorem g_name (n : Name) : GT sortOf (.name n) := by simp only [GT, Named, Clear]; exact ⟨trivial, trivial⟩
theorem g_lit (v : Val) : GT sortOf (lit v) := by
  cases v with
  | int n => exact g_num n
  | bool b => exact g_bool b

theorem g_op {o : OpSym} {l : List Term} : GT sortOf (.op o l) ↔ (o = .sub → l.length = 2) ∧ ∀ t ∈ l, GT sortOf t := by
  rw [← gs_iff, GT, Named, Clear]
  constructor
  · rintro ⟨a, b, c⟩; exact ⟨b, a, c⟩
  · rintro ⟨b, a, c⟩; exact ⟨a, b, c⟩

theorem g_app {f : Str} {l : List Term} : GT sortOf (.app f l) ↔ (Reads f (.atom f) ∧ PredName f) ∧ ∀ t ∈ l, GT sortOf t := by
  rw [← gs_iff, GT, Named, Clear]
  constructor
  · rintro ⟨⟨a, b⟩, c, d⟩; exact ⟨⟨a, c⟩, b, d⟩
  · rintro ⟨⟨a, c⟩, b, d⟩; exact ⟨⟨a, b⟩, c, d⟩

theorem g_named {t : Term} {s : Name} : GT sortOf (.named t s) ↔ GT sortOf t := by rw [GT, Named, Clear, GT]

theorem g_all {xs : List (Str × Sort')} {b : Term} : GT sortOf (.all xs b) ↔ (∀ x ∈ xs, Reads x.1 (.atom x.1)) ∧ GT sortOf b := by
  rw [GT, Named, Clear, GT, and_assoc]

theorem g_eqn {a b : Term} (ha : GT sortOf a) (hb : GT sortOf b) : GT sortOf (eqn a b) :=
  g_op.2 ⟨fun h => (by cases h), fun t ht => by
    simp only [List.mem_cons, List.not_mem_nil, or_false] at ht
    rcases ht with rfl | rfl <;> assumption⟩

theorem g_neg {a : Term} (ha : GT sortOf a) : GT sortOf (neg a) :=
  g_op.2 ⟨fun h => (by cases h), fun t ht => by cases List.mem_singleton.1 ht; exact ha⟩

mutual
theorem g_inst (σ : Inst) : ∀ t : Term, GT sortOf t → GT sortOf (inst σ t)
  | .num _, h => by simp only [inst]; exact h
  | .bool _, h => by simp only [inst]; exact h
  | .var s k, h => by
    simp only [inst]
    split
    · exact g_lit _
    · exact h
  | .name _, h => by simp only [inst]; exact h
  | .named _ _, h => by simp only [inst]; exact h
  | .all _ b, h => by simp only [inst]; exact g_inst σ b (g_all.1 h).2
  | .op o l, h => by
    simp only [inst]
    obtain ⟨h1, h2⟩ := g_op.1 h
    obtain ⟨a, b⟩ := g_insts σ l h2
    exact g_op.2 ⟨fun e => by rw [b]; exact h1 e, a⟩
  | .app f l, h => by
    simp only [inst]
    obtain ⟨h1, h2⟩ := g_app.1 h
    exact g_app.2 ⟨h1, (g_insts σ l h2).1⟩
theorem g_insts (σ : Inst) : ∀ l : List Term, (∀ t ∈ l, GT sortOf t) → (∀ t ∈ insts σ l, GT sortOf t) ∧ (insts σ l).length = l.length
  | [], _ => by simp [insts]
  | t :: l, h => by
    obtain ⟨a, b⟩ := g_insts σ l fun x hx => h x (by simp [hx])
    simp only [insts, List.mem_cons, forall_eq_or_imp, List.length_cons, b, and_true]
    exact ⟨g_inst σ t (h t (by simp)), a⟩
end

/-- Steps with good names are added. -/
def K (sortOf : Str → Sort') (st st' : St) : Prop := (∀ s ∈ st.steps, SG sortOf s) → ∀ s ∈ st'.steps, SG sortOf s

theorem K.refl (st : St) : K sortOf st st := id
theorem K.trans {a b c : St} (h : K sortOf a b) (h' : K sortOf b c) : K sortOf a c := fun x => h' (h x)

theorem sg_step {c as : List Term} {r : String} {ps : List Nat} (hc : ∀ t ∈ c, GT sortOf t) (ha : ∀ t ∈ as, GT sortOf t)
    (hr : PlainWord r.toList) : SG sortOf ⟨false, c, r, ps, as⟩ := by
  obtain ⟨a1, a2⟩ := (gs_iff c).2 hc
  obtain ⟨b1, b2⟩ := (gs_iff as).2 ha
  exact ⟨⟨a1, b1, .inr hr⟩, a2, b2, fun h => (by cases h)⟩

theorem k_record {st : St} {c : List Term} {r : String} {ps : List Nat} (hc : ∀ t ∈ c, GT sortOf t) (hr : PlainWord r.toList) :
    K sortOf st (st.record c r ps) := by
  intro h s hs
  simp only [St.record] at hs
  rcases List.mem_append.1 hs with hs | hs
  · exact h s hs
  · cases List.mem_singleton.1 hs
    exact sg_step hc (by simp) hr

theorem k_eqn {st : St} {a b : Term} {r : String} {ps : List Nat} (ha : GT sortOf a) (hb : GT sortOf b) (hr : PlainWord r.toList) :
    K sortOf st (st.record [eqn a b] r ps) := k_record (fun t ht => by cases List.mem_singleton.1 ht; exact g_eqn ha hb) hr

theorem g_two {a b : Term} (ha : GT sortOf a) (hb : GT sortOf b) : ∀ t ∈ [a, b], GT sortOf t := by
  intro t ht
  simp only [List.mem_cons, List.not_mem_nil, or_false] at ht
  rcases ht with rfl | rfl <;> assumption

theorem g_one {a : Term} (ha : GT sortOf a) : ∀ t ∈ [a], GT sortOf t := fun t ht => by cases List.mem_singleton.1 ht; exact ha

/-! ### Simplification -/

theorem andArgs_g : ∀ {l : List Term} {r : Term ⊕ List Term}, andArgs l = some r → (∀ t ∈ l, GT sortOf t) →
    (∀ t, r = .inl t → GT sortOf t) ∧ ∀ l', r = .inr l' → ∀ t ∈ l', GT sortOf t
  | [], r, h, _ => by
    cases h
    exact ⟨fun t e => (by cases e), fun l' e => (by cases e; simp)⟩
  | t :: l, r, h, hl => by
    have hl2 : ∀ x ∈ l, GT sortOf x := fun x hx => hl x (by simp [hx])
    have hl1 := hl t (by simp)
    simp only [andArgs] at h
    split at h
    · exact andArgs_g h hl2
    · cases h
      exact ⟨fun t e => (by cases e; exact hl1), fun l' e => (by cases e)⟩
    · split at h
      · split at h
        · rename_i u hu
          cases h
          exact ⟨fun t e => (by cases e; exact (andArgs_g hu hl2).1 _ rfl), fun l' e => (by cases e)⟩
        · rename_i l' hu
          cases h
          refine ⟨fun t e => (by cases e), fun l' e => ?_⟩
          cases e
          intro x hx
          rcases List.mem_cons.1 hx with rfl | hx
          · exact hl1
          · exact (andArgs_g hu hl2).2 _ rfl x hx
        · cases h
      · cases h

theorem evalDirect_g {o : OpSym} {args : List Term} {t : Term} {r : String} (h : evalDirect o args = some (t, r))
    (hn : ∀ t ∈ args, GT sortOf t) : GT sortOf t ∧ PlainWord r.toList := by
  unfold evalDirect at h
  split at h
  · cases h; exact ⟨g_bool _, by decide +kernel⟩
  · cases h; exact ⟨g_bool _, by decide +kernel⟩
  · cases h; exact ⟨g_bool _, by decide +kernel⟩
  · cases h; exact ⟨g_bool _, by decide +kernel⟩
  · split at h
    · rename_i ha
      cases h
      exact ⟨(andArgs_g ha hn).1 _ rfl, by decide +kernel⟩
    · cases h; exact ⟨g_bool _, by decide +kernel⟩
    · rename_i ha
      cases h
      exact ⟨(andArgs_g ha hn).2 _ rfl _ (by simp), by decide +kernel⟩
    · rename_i ha
      cases h
      exact ⟨g_op.2 ⟨fun e => (by cases e), (andArgs_g ha hn).2 _ rfl⟩, by decide +kernel⟩
    · cases h
  · split at h
    · cases h; exact ⟨g_bool _, by decide +kernel⟩
    · split at h
      · cases h; exact ⟨g_bool _, by decide +kernel⟩
      · cases h
  · cases h; exact ⟨g_bool _, by decide +kernel⟩
  · rename_i c a b
    cases h
    refine ⟨?_, by decide +kernel⟩
    split
    · exact hn a (by simp)
    · exact hn b (by simp)
  · obtain ⟨ns, _, h2⟩ := Option.bind_eq_some_iff.1 h
    split at h2
    · cases h2
    · cases h2; exact ⟨g_num _, by decide +kernel⟩
  · cases h; exact ⟨g_num _, by decide +kernel⟩
  · cases h; exact ⟨g_num _, by decide +kernel⟩
  · split at h
    · cases h
    · cases h; exact ⟨g_num _, by decide +kernel⟩
  · split at h
    · cases h
    · cases h; exact ⟨g_num _, by decide +kernel⟩
  · cases h

theorem direct1_g {o : OpSym} {args : List Term} {st st' : St} {e : Term} (h : direct1 o args st = some (e, st'))
    (hn : GT sortOf (.op o args)) : K sortOf st st' ∧ GT sortOf e := by
  unfold direct1 at h
  split at h
  · rename_i t r hd
    cases h
    obtain ⟨h1, h2⟩ := evalDirect_g hd (g_op.1 hn).2
    exact ⟨k_eqn hn h1 h2, h1⟩
  · cases h

theorem simplifyOpDirect_g {o : OpSym} {args : List Term} {st st' : St} {e : Term} (h : simplifyOpDirect o args st = some (e, st'))
    (hn : GT sortOf (.op o args)) : K sortOf st st' ∧ GT sortOf e := by
  have hargs := (g_op.1 hn).2
  have hop : ∀ o, o ≠ .sub → GT sortOf (.op o args) := fun o ho => g_op.2 ⟨fun e => absurd e ho, hargs⟩
  unfold simplifyOpDirect at h
  split at h
  · simp only at h
    split at h
    · cases h
    · rename_i c st2 hd
      obtain ⟨n2, hc⟩ := direct1_g hd (hop .le (by decide))
      split at h
      · cases h
      · rename_i d st4 hd'
        obtain ⟨n4, hd4⟩ := direct1_g hd' (g_neg hc)
        cases h
        have n1 : K sortOf st _ := k_eqn (r := "comp_simplify") (ps := []) hn (g_neg (hop .le (by decide))) (by decide +kernel)
        have n3 : K sortOf st2 _ := k_eqn (r := "cong") (ps := [st2.last]) (g_neg (hop .le (by decide))) (g_neg hc) (by decide +kernel)
        exact ⟨(((n1.trans n2).trans n3).trans n4).trans (k_eqn hn hd4 (by decide +kernel)), hd4⟩
  · split at h
    · rename_i a b
      simp only at h
      have hba : GT sortOf (.op .le [b, a]) := g_op.2 ⟨fun e => (by cases e), g_two (hargs b (by simp)) (hargs a (by simp))⟩
      split at h
      · cases h
      · rename_i c st2 hd
        obtain ⟨n2, hc⟩ := direct1_g hd hba
        cases h
        have n1 : K sortOf st _ := k_eqn (r := "comp_simplify") (ps := []) hn hba (by decide +kernel)
        exact ⟨(n1.trans n2).trans (k_eqn hn hc (by decide +kernel)), hc⟩
    · cases h
  · exact direct1_g h hn

theorem processResults_g {st : St} {t t' : Term} {nm : Option Name} {rs : List Result} (ht : GT sortOf t) (ht' : GT sortOf t') :
    K sortOf st (processResults t t' nm rs st).2 := by
  cases nm with
  | some n =>
    simp only [processResults]
    exact k_eqn (g_name _) ht' (by decide +kernel)
  | none =>
    have : K sortOf st (st.record [eqn (.named t (.t st.nameIndex)) t'] "cong" (congPremises rs)) := k_eqn (g_named.2 ht) ht' (by decide +kernel)
    exact this

mutual
theorem simplify_g : ∀ (t : Term) (nm : Option Name) (st : St) (r : Result) (st' : St), GT sortOf t →
    simplify t nm st = some (r, st') → K sortOf st st' ∧ ∀ t' k, r = some (t', k) → GT sortOf t'
  | .num _, _, st, r, st', _, h => by simp only [simplify] at h; cases h; exact ⟨.refl _, fun _ _ e => (by cases e)⟩
  | .bool _, _, st, r, st', _, h => by simp only [simplify] at h; cases h; exact ⟨.refl _, fun _ _ e => (by cases e)⟩
  | .var _ _, _, st, r, st', _, h => by simp only [simplify] at h; cases h; exact ⟨.refl _, fun _ _ e => (by cases e)⟩
  | .name _, _, st, r, st', _, h => by simp only [simplify] at h; cases h; exact ⟨.refl _, fun _ _ e => (by cases e)⟩
  | .named _ _, _, _, r, st', _, h => by simp only [simplify] at h; cases h
  | .all _ _, _, _, r, st', _, h => by simp only [simplify] at h; cases h
  | .app f args, nm, st, r, st', hn, h => by
    obtain ⟨hf, ha⟩ := g_app.1 hn
    rw [simplify] at h
    split at h
    · cases h
    · rename_i rs st1 hs
      obtain ⟨n1, k1, -⟩ := simplifyArgs_g args st rs st1 ha hs
      split at h
      · cases h
        exact ⟨n1, fun _ _ e => (by cases e)⟩
      · simp only at h
        cases h
        have k1' : GT sortOf (.app f (newArgs args rs)) := g_app.2 ⟨hf, k1⟩
        refine ⟨n1.trans (processResults_g hn k1'), fun t' k e => ?_⟩
        cases e; exact k1'
  | .op o args, nm, st, r, st', hop, h => by
    obtain ⟨hsub, hn⟩ := g_op.1 hop
    by_cases ho : o = .ite
    · subst ho
      match args, h, hn with
      | [], h, _ => simp only [simplify] at h; cases h
      | [_], h, _ => simp only [simplify] at h; cases h
      | [_, _], h, _ => simp only [simplify] at h; cases h
      | _ :: _ :: _ :: _ :: _, h, _ => simp only [simplify] at h; cases h
      | [c, a, b], h, hn =>
        rw [simplify] at h
        split at h
        · cases h
        · rename_i res st1 hs
          have hc0 := hn c (by simp)
          have ha0 := hn a (by simp)
          have hb0 := hn b (by simp)
          obtain ⟨n1, k1⟩ := simplify_g c none st res st1 hc0 hs
          have hc' : GT sortOf ((res.map Prod.fst).getD c) := by
            cases res with
            | none => exact hc0
            | some q => exact k1 q.1 q.2 rfl
          have hite : ∀ x, GT sortOf x → GT sortOf (.op .ite [x, a, b]) := fun x hx => g_op.2 ⟨fun e => (by cases e), fun t ht => by
            rcases List.mem_cons.1 ht with rfl | ht
            · exact hx
            · exact g_two ha0 hb0 t ht⟩
          simp only at h
          have n2 : K sortOf st1 (iteCong (.op .ite [c, a, b]) (.op .ite [(res.map Prod.fst).getD c, a, b]) res st1) := by
            cases res with
            | none => exact .refl _
            | some q => exact k_eqn (hite _ hc0) (hite _ hc') (by decide +kernel)
          generalize iteCong (.op .ite [c, a, b]) (.op .ite [(res.map Prod.fst).getD c, a, b]) res st1 = st2 at *
          generalize (res.map Prod.fst).getD c = c' at *
          split at h
          · rename_i v
            have hbr : GT sortOf (if v = true then a else b) := by
              cases v
              · exact hb0
              · exact ha0
            have n3 : K sortOf st2 (st2.record [eqn (Term.op .ite [.bool v, a, b]) (if v = true then a else b)] "ite_simplify" []) :=
              k_eqn (hite _ hc') hbr (by decide +kernel)
            generalize st2.record [eqn (Term.op .ite [.bool v, a, b]) (if v = true then a else b)] "ite_simplify" [] = st3 at *
            have key : ∀ bres st4, (if v = true then simplify a none st3 else simplify b none st3) = some (bres, st4) →
                K sortOf st3 st4 ∧ ∀ t' k, bres = some (t', k) → GT sortOf t' := by
              intro bres st4 hb
              cases v with
              | true => exact simplify_g a none st3 bres st4 ha0 hb
              | false => exact simplify_g b none st3 bres st4 hb0 hb
            split at h
            · cases h
            · rename_i bres st4 hb
              obtain ⟨n4, k4⟩ := key bres st4 hb
              have hsim : GT sortOf ((bres.map Prod.fst).getD (if v = true then a else b)) := by
                cases bres with
                | none => exact hbr
                | some q => exact k4 q.1 q.2 rfl
              cases h
              refine ⟨?_, fun t' k e => ?_⟩
              · have n5 := ((n1.trans n2).trans n3).trans n4
                split
                · exact n5.trans (k_eqn (hite _ hc0) hsim (by decide +kernel))
                · exact n5
              · cases e; exact hsim
          · cases h
    · rw [simplify_op ho] at h
      split at h
      · cases h
      · rename_i rs st1 hs
        obtain ⟨n1, k1, len⟩ := simplifyArgs_g args st rs st1 hn hs
        split at h
        · split at h
          · cases h
          · rename_i e st2 hd
            obtain ⟨n2, k2⟩ := simplifyOpDirect_g hd hop
            cases h
            exact ⟨n1.trans n2, fun t' k e => (by cases e; exact k2)⟩
        · simp only at h
          have hop' : GT sortOf (.op o (newArgs args rs)) := g_op.2 ⟨fun e => by rw [len]; exact hsub e, k1⟩
          have n2 : K sortOf st1 (processResults (.op o args) (.op o (newArgs args rs)) nm rs st1).2 := processResults_g hop hop'
          generalize processResults (.op o args) (.op o (newArgs args rs)) nm rs st1 = q at *
          split at h
          · cases h
          · rename_i e st3 hd
            obtain ⟨n3, k3⟩ := simplifyOpDirect_g hd hop'
            cases h
            refine ⟨((n1.trans n2).trans n3).trans (k_eqn (g_name _) k3 (by decide +kernel)), fun t' k e => ?_⟩
            cases e; exact k3
theorem simplifyArgs_g : ∀ (l : List Term) (st : St) (rs : List Result) (st' : St), (∀ t ∈ l, GT sortOf t) →
    simplifyArgs l st = some (rs, st') → K sortOf st st' ∧ (∀ t ∈ newArgs l rs, GT sortOf t) ∧ (newArgs l rs).length = l.length
  | [], st, rs, st', _, h => by
    simp only [simplifyArgs] at h; cases h
    exact ⟨.refl _, by simp [newArgs], rfl⟩
  | t :: l, st, rs, st', hn, h => by
    have hn2 : ∀ x ∈ l, GT sortOf x := fun x hx => hn x (by simp [hx])
    rw [simplifyArgs] at h
    split at h
    · cases h
    · rename_i r st1 h1
      split at h
      · cases h
      · rename_i rs' st2 h2
        cases h
        obtain ⟨n1, k1⟩ := simplify_g t none st r st1 (hn t (by simp)) h1
        obtain ⟨n2, k2, len⟩ := simplifyArgs_g l st1 rs' st' hn2 h2
        refine ⟨n1.trans n2, ?_⟩
        cases r with
        | none =>
          simp only [newArgs, List.mem_cons, forall_eq_or_imp, List.length_cons, len, and_true]
          exact ⟨hn t (by simp), k2⟩
        | some q =>
          simp only [newArgs, List.mem_cons, forall_eq_or_imp, List.length_cons, len, and_true]
          exact ⟨k1 q.1 q.2 rfl, k2⟩
end

/-! ### The steps of a derivation -/

theorem removeUnused_g {t c : Term} {b : Bool} (h : removeUnused t = some (c, b)) (ht : GT sortOf t) : GT sortOf c := by
  unfold removeUnused at h
  split at h
  · split at h
    · cases h
    · obtain ⟨h1, h2⟩ := g_all.1 ht
      simp only at h
      split at h
      · cases h; exact h2
      · split at h
        · cases h; exact ht
        · cases h
          exact g_all.2 ⟨fun x hx => h1 x (List.mem_filter.1 hx).1, h2⟩
  · cases h; exact ht

theorem clearSteps_g {c : Nat} {cleared : Term} {ch : Bool} {st : St} (h : GT sortOf cleared) :
    K sortOf st (clearSteps c cleared ch st).2.2 ∧ GT sortOf (clearSteps c cleared ch st).1 := by
  unfold clearSteps
  cases ch with
  | true =>
    rw [if_pos rfl]
    exact ⟨((k_eqn (r := "qnt_rm_unused") (ps := []) (g_name (.a c)) h (by decide +kernel)).trans
      (k_record (g_two (g_neg (g_name _)) h) (by decide +kernel))).trans (k_record (g_one h) (by decide +kernel)), h⟩
  | false =>
    rw [if_neg Bool.false_ne_true]
    exact ⟨.refl _, g_name _⟩

theorem k_recordInst {st : St} {c as : List Term} (hc : ∀ t ∈ c, GT sortOf t) (ha : ∀ t ∈ as, GT sortOf t) : K sortOf st (st.recordInst c as) := by
  intro h s hs
  simp only [St.recordInst] at hs
  rcases List.mem_append.1 hs with hs | hs
  · exact h s hs
  · cases List.mem_singleton.1 hs
    exact sg_step hc ha (by decide +kernel)

theorem instantiationSteps_g {i : Nat} {cs : Coarse} {a t : Term} {k : Nat} {st st' : St} (h : instantiationSteps i cs a st = some (t, k, st'))
    (ha : GT sortOf a) : K sortOf st st' ∧ GT sortOf t := by
  unfold instantiationSteps at h
  split at h
  · cases h
  · rename_i cleared changed hr
    have hc := removeUnused_g hr ha
    obtain ⟨k1, g1⟩ := clearSteps_g (c := cs.clause) (ch := changed) (st := st) hc
    simp only at h
    generalize clearSteps cs.clause cleared changed st = r at *
    split at h
    · cases h; exact ⟨k1, hc⟩
    · split at h
      · split at h
        · rename_i xs b _
          cases h
          have gi := g_inst cs.σ _ hc
          refine ⟨((k1.trans (k_recordInst (g_one (g_op.2 ⟨fun e => (by cases e), g_two (g_neg g1) (g_named.2 gi)⟩)) fun t ht => ?_)).trans
            (k_record (g_two (g_neg g1) (g_name _)) (by decide +kernel))).trans (k_record (g_one (g_name _)) (by decide +kernel)), gi⟩
          obtain ⟨x, -, e⟩ := List.mem_filterMap.1 ht
          obtain ⟨v, -, rfl⟩ := Option.map_eq_some_iff.1 e
          exact g_lit v
        · cases h
      · cases h

theorem deriveLHS_g {t : Term} {ps : List Nat} {k : Nat} {st st' : St} (h : deriveLHS t ps st = some (k, st')) (ht : GT sortOf t) : K sortOf st st' := by
  unfold deriveLHS at h
  split at h
  · rename_i args
    cases h
    refine (k_record (fun t ht' => ?_) (by decide +kernel)).trans (k_record (g_one ht) (by decide +kernel))
    rcases List.mem_cons.1 ht' with rfl | ht'
    · exact ht
    · obtain ⟨x, hx, rfl⟩ := List.mem_map.1 ht'
      exact g_neg ((g_op.1 ht).2 x hx)
  · split at h
    · cases h; exact .refl _
    · cases h
  · split at h
    · cases h; exact .refl _
    · cases h
  · unfold St.trueOf at h
    split at h
    · cases h
      have : K sortOf st (st.record [.bool true] "true" []) := k_record (g_one (g_bool _)) (by decide +kernel)
      exact this
    · cases h; exact .refl _
  · cases h

theorem lhsSteps_g {l : Term} {n : Name} {ps : List Nat} {k : Nat} {st st' : St} (h : lhsSteps l n ps st = some (k, st')) (hl : GT sortOf l) :
    K sortOf st st' := by
  unfold lhsSteps at h
  split at h
  · cases h
  · rename_i l' k' st1 hs
    obtain ⟨k1, g1⟩ := simplify_g l _ _ _ _ hl hs
    have g1' := g1 _ _ rfl
    split at h
    · cases h
    · rename_i k2 st2 hd
      have k2 := deriveLHS_g hd g1'
      cases h
      exact ((k1.trans k2).trans (k_record (g_two (g_name _) (g_neg g1')) (by decide +kernel))).trans (k_record (g_one (g_name _)) (by decide +kernel))
  · rename_i st1 hs
    exact (simplify_g l _ _ _ _ hl hs).1.trans (deriveLHS_g h hl)

theorem derivePredicate_g {c p : Term} {k k' : Nat} {ps : List Nat} {st st' : St} (h : derivePredicate c k ps st = some (p, k', st'))
    (hc : GT sortOf c) : K sortOf st st' ∧ GT sortOf p := by
  unfold derivePredicate at h
  split at h
  · cases h; exact ⟨.refl _, hc⟩
  · rename_i l r _
    have hl := (g_op.1 hc).2 l (by simp)
    have hr := (g_op.1 hc).2 r (by simp)
    simp only at h
    split at h
    · cases h
    · rename_i k2 st2 hs
      have k2 := lhsSteps_g hs hl
      cases h
      exact ⟨((k_record (g_two (g_neg (g_named.2 hl)) hr) (by decide +kernel)).trans k2).trans (k_record (g_one hr) (by decide +kernel)), hr⟩
  · cases h

theorem factSteps_g {p : Term} {k k' : Nat} {st st' : St} (h : factSteps p k st = some (k', st')) (hp : GT sortOf p) : K sortOf st st' := by
  unfold factSteps at h
  split at h
  · cases h
  · rename_i t j st1 hs
    obtain ⟨k1, g1⟩ := simplify_g p _ _ _ _ hp hs
    have g1' := g1 _ _ rfl
    cases h
    exact (k1.trans (k_record (g_two (g_neg hp) g1') (by decide +kernel))).trans (k_record (g_one g1') (by decide +kernel))
  · rename_i st1 hs
    cases h
    exact (simplify_g p _ _ _ _ hp hs).1

theorem buildStep_g {as : List Term} {i : Nat} {cs : Coarse} {m m' : List (Nat × Nat)} {st st' : St}
    (h : buildStep as i cs m st = some (m', st')) (ha : ∀ A ∈ as, GT sortOf A) : K sortOf st st' := by
  unfold buildStep at h
  split at h
  · cases h; exact .refl _
  · split at h
    · cases h
    · rename_i a hA
      split at h
      · cases h
      · rename_i c k st1 h1
        obtain ⟨k1, g1⟩ := instantiationSteps_g h1 (ha a (List.mem_of_getElem? hA))
        simp only at h
        split at h
        · split at h
          · cases h
          · rename_i p k' st2 h2
            obtain ⟨k2, g2⟩ := derivePredicate_g h2 g1
            split at h
            · cases h
            · rename_i k'' st3 h3
              cases h
              exact (k1.trans k2).trans (factSteps_g h3 g2)
        · cases h

theorem buildSteps_g {as : List Term} (ha : ∀ A ∈ as, GT sortOf A) : ∀ (l : List Coarse) (i : Nat) (m : List (Nat × Nat)) (st st' : St),
    buildSteps as i l m st = some st' → K sortOf st st'
  | [], i, m, st, st', h => by cases h; exact .refl _
  | d :: l, i, m, st, st', h => by
    rw [buildSteps] at h
    split at h
    · cases h
    · rename_i m1 st1 h1
      exact (buildStep_g h1 ha).trans (buildSteps_g ha l _ _ _ _ h)

theorem assumptions_g : ∀ (l : List Term), (∀ A ∈ l, GT sortOf A) → ∀ st : St, K sortOf st (assumptions l st)
  | [], _, _ => .refl _
  | a :: l, h, st => by
    have ha := g_named (s := .a st.steps.length) |>.2 (h a (by simp))
    have : K sortOf st (st.assume [.named a (.a st.steps.length)]) := by
      intro h0 s hs
      simp only [St.assume] at hs
      rcases List.mem_append.1 hs with hs | hs
      · exact h0 s hs
      · cases List.mem_singleton.1 hs
        obtain ⟨b1, b2⟩ := (gs_iff _).2 (g_one ha)
        refine ⟨⟨b1, by simp only [Nameds], .inl rfl⟩, b2, by simp only [Clears], fun _ => ⟨_, rfl⟩⟩
    exact this.trans (assumptions_g l (fun x hx => h x (by simp [hx])) _)

/-- **C83 (proofs that are built).** If the names in the clauses are symbols that cannot be taken for something else, so are those of the proof built for any
derivation; so its text is read as its steps and determines it. -/
theorem C83_built (sortOf : Str → Sort') (assertions : List Term) (ha : ∀ A ∈ assertions, Named A ∧ Clear sortOf A) (ds : List Coarse)
    (ss : List Step) (h : buildProof assertions ds = some ss) :
    (∀ s ∈ ss, NamedStep s ∧ ClearStep sortOf s) ∧ lex .idle (proofText 0 ss) = SExp.tokss (proofExp 0 ss) := by
  have key : ∀ s ∈ ss, SG sortOf s := by
    unfold buildProof at h
    split at h
    · cases h
    · rename_i st hs
      have k1 := (assumptions_g assertions ha ⟨[], 0, 0⟩).trans (buildSteps_g ha ds 0 [] _ st hs)
      cases h
      exact ((k1.trans (k_record (g_one (g_neg (g_bool false))) (by decide +kernel))).trans (k_record (by simp) (by decide +kernel))) (by simp)
  exact ⟨key, C83_text ss fun s hs => (key s hs).1⟩

/-- The clauses of C78 meet the conditions. -/
example : ∀ A ∈ exClauses, Named A ∧ Clear (fun _ => .int) A := fun A hA =>
  good_ok A (List.all_eq_true.1 (by decide +kernel : (exClauses.all (goodNames fun _ => .int)) = true) A hA)

end Alethe
end Golem
