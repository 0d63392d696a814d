import Verif.Spec.ScriptRun
import Verif.Props.FrontClause
import Verif.Props.CheckSat

/-! Lemmas for C71: predicates of parsed terms, later declarations, and the clauses of the rest of the model. -/

namespace Golem
namespace Front
variable {T : Theory}

/-! ### Declarations -/

theorem find_some {D : Decls} {f : String} {n p : Nat} (h : D.find f n = some p) : D[p]? = some (f, n) := by
  unfold Decls.find at h
  rw [List.findIdx?_eq_some_iff_getElem] at h
  obtain ⟨hp, h1, -⟩ := h
  simp only [Bool.and_eq_true, beq_iff_eq] at h1
  rw [List.getElem?_eq_getElem hp]
  exact congrArg some (Prod.ext h1.1 h1.2)

theorem find_none {D : Decls} {f : String} {n : Nat} : D.find f n = none ↔ (f, n) ∉ D := by
  unfold Decls.find
  rw [List.findIdx?_eq_none_iff]
  constructor
  · intro h hm
    have := h _ hm
    simp at this
  · intro h x hx
    rw [Bool.eq_false_iff]
    intro hc
    simp only [Bool.and_eq_true, beq_iff_eq] at hc
    exact h (by rw [← hc.1, ← hc.2]; exact hx)

theorem find_append {D E : Decls} {f : String} {n p : Nat} (h : D.find f n = some p) : (D ++ E).find f n = some p := by
  unfold Decls.find at h ⊢
  rw [List.findIdx?_append, h]; rfl

/-- The signature of a predicate of a term agrees with its declaration. -/
def SigOk (D : Decls) (q : Nat × Nat) : Prop := ∃ f, D[q.1]? = some (f, q.2)

/-- What is known of a parsed term: its predicates are declared, none is inside an argument of another, and there are none if
the flag says so. -/
structure Info (D : Decls) (t : PT T) (b : Bool) : Prop where
  plain : t.Plain
  sig : ∀ q ∈ t.preds, SigOk D q
  none : b = false → t.preds = []

theorem predsL_mem {ts : List (PT T)} {q : Nat × Nat} : q ∈ PT.predsL ts ↔ ∃ t ∈ ts, q ∈ t.preds := by
  induction ts with
  | nil => simp [PT.predsL]
  | cons t ts ih => simp [PT.predsL, ih]

theorem plainL_iff {ts : List (PT T)} : PT.PlainL ts ↔ ∀ t ∈ ts, t.Plain := by
  induction ts with
  | nil => simp [PT.PlainL]
  | cons t ts ih => simp [PT.PlainL, ih]

variable {L : Logic T} {M : Sem T} {D : Decls}

/-- Terms with their flags. -/
inductive Infos (D : Decls) : List (PT T) → List Bool → Prop where
  | nil : Infos D [] []
  | cons {t b ts bs} (h : Info D t b) (hs : Infos D ts bs) : Infos D (t :: ts) (b :: bs)

theorem Infos.all {ts : List (PT T)} {bs : List Bool} (h : Infos D ts bs) :
    (∀ t ∈ ts, t.Plain) ∧ (∀ t ∈ ts, ∀ q ∈ t.preds, SigOk D q) ∧ ((∀ b ∈ bs, b = false) → ∀ t ∈ ts, t.preds = []) := by
  induction h with
  | nil => simp
  | @cons t b ts bs h _ ih =>
    obtain ⟨h1, h2, h3⟩ := ih
    refine ⟨by simpa using ⟨h.plain, h1⟩, ?_, fun hb => ?_⟩
    · intro u hu
      rcases List.mem_cons.1 hu with rfl | hu
      · exact h.sig
      · exact h2 u hu
    · intro u hu
      rcases List.mem_cons.1 hu with rfl | hu
      · exact h.none (hb b (by simp))
      · exact h3 (fun b hb' => hb b (by simp [hb'])) u hu

theorem resolve_info (hL : L.Ok M) {f : String} {ts : List (PT T)} {bs : List Bool} {t : PT T} (h : L.resolve D f ts = some t)
    (hi : Infos D ts bs) {b : Bool} (hb : (D.find f ts.length).isSome → b = true) (hc : b = true → ∀ b ∈ bs, b = false) :
    Info D t (b || bs.any id) := by
  obtain ⟨h1, h2, h3⟩ := hi.all
  unfold Logic.resolve at h
  split at h
  · rename_i p hp
    injection h with h
    subst h
    have hbt := hb (by rw [hp]; rfl)
    have h4 := h3 (hc hbt)
    have h5 : PT.predsL ts = [] := List.eq_nil_iff_forall_not_mem.2 fun q hq => by
      obtain ⟨t, ht, hq⟩ := predsL_mem.1 hq
      rw [h4 t ht] at hq; cases hq
    refine ⟨h5, fun q hq => ?_, fun hb => ?_⟩
    · rw [PT.preds, h5, List.mem_singleton] at hq
      subst hq
      exact ⟨f, find_some hp⟩
    · simp [hbt] at hb
  · obtain ⟨h4, h5⟩ := hL.theoryPreds f ts t h
    refine ⟨h5 (plainL_iff.2 h1), fun q hq => ?_, fun hb => ?_⟩
    · obtain ⟨u, hu, hq⟩ := predsL_mem.1 (h4 q hq)
      exact h2 u hu q hq
    · simp only [Bool.or_eq_false_iff] at hb
      refine List.eq_nil_iff_forall_not_mem.2 fun q hq => ?_
      obtain ⟨u, hu, hq⟩ := predsL_mem.1 (h4 q hq)
      rw [h3 (fun b hb' => ?_) u hu] at hq
      · cases hq
      · have := List.any_eq_false.1 hb.2 b hb'
        simpa using this

/-- Bound names with their flags. -/
def EnvInfo (D : Decls) (env : List (String × PT T)) (fe : List (String × Bool)) : Prop :=
  ∀ x, match env.lookup x, fe.lookup x with
    | some t, some b => Info D t b
    | none, none => True
    | _, _ => False

theorem EnvInfo.append {a : List (String × PT T)} {b : List (String × Bool)} {env : List (String × PT T)}
    {fe : List (String × Bool)} (h1 : EnvInfo D a b) (h2 : EnvInfo D env fe) : EnvInfo D (a ++ env) (b ++ fe) := by
  intro x
  rw [lookup_append, lookup_append]
  have := h1 x
  have := h2 x
  cases ha : a.lookup x <;> cases hb : b.lookup x <;> simp_all

theorem envInfo_zip {ts : List (PT T)} {bs : List Bool} (h : Infos D ts bs) (names : List String) :
    EnvInfo D (names.zip ts) (names.zip bs) := by
  induction h generalizing names with
  | nil => intro x; simp
  | @cons t b ts bs h _ ih =>
    cases names with
    | nil => intro x; simp
    | cons n names =>
      intro x
      simp only [List.zip_cons_cons, List.lookup_cons]
      cases x == n with
      | true => exact h
      | false => exact ih names x

theorem EnvInfo.congr {env env' : List (String × PT T)} {fe : List (String × Bool)} (h : EnvInfo D env fe)
    (he : ∀ x, env'.lookup x = env.lookup x) : EnvInfo D env' fe := by
  intro x; rw [he]; exact h x

section
theorem usePreds_length (as : List Ast) (fe : List (String × Bool)) : (Ast.usePreds D as fe).length = as.length := by
  induction as with
  | nil => rfl
  | cons a as ih => simp [Ast.usePreds, ih]

theorem Infos.length {ts : List (PT T)} {bs : List Bool} (h : Infos D ts bs) : ts.length = bs.length := by
  induction h with
  | nil => rfl
  | cons _ _ ih => simp [ih]

variable {D2 : Decls}

mutual
theorem parseTerm_info (hDD : ∀ f n, (D.find f n).isSome → (D2.find f n).isSome)
    (hL : L.Ok M) (a : Ast) (env : List (String × PT T)) (ls : List Nat) {fe : List (String × Bool)}
    (he : EnvInfo D env fe) (hc : a.Clean D2 fe) {t : PT T} (h : (parseTerm L D a (LetRecords.of env ls)).1 = .ok t) :
    Info D t (a.usesPred D2 fe) := by
  match a with
  | .num c =>
    rw [parseTerm] at h
    cases h
    exact ⟨trivial, by simp [PT.preds], fun _ => rfl⟩
  | .qid x =>
    rw [parseTerm, of_get] at h
    have hx := he x
    rw [Ast.usesPred]
    cases hl : env.lookup x with
    | some u =>
      rw [hl] at h hx
      cases h
      cases hf : fe.lookup x with
      | none => simp [hf] at hx
      | some b => simpa [hf] using hx
    | none =>
      rw [hl] at h hx
      have hf : fe.lookup x = none := by
        cases hf : fe.lookup x with
        | none => rfl
        | some b => simp [hf] at hx
      simp only at h
      cases hr : L.resolve D x [] with
      | none => rw [hr] at h; cases h
      | some u =>
        rw [hr] at h
        cases h
        have := resolve_info hL hr .nil (hDD x 0) (by simp)
        simpa [hf] using this
  | .lqid f args =>
    rw [parseTerm] at h
    obtain ⟨h1, -⟩ := parseTerms_of (D := D) hL args env ls
    rw [Ast.Clean] at hc
    have hI := fun ts => parseTerms_info hDD hL args env ls he hc.1 (ts := ts)
    generalize parseTerms L D args (LetRecords.of env ls) = R at h h1 hI
    obtain ⟨res, r⟩ := R
    cases res with
    | ok ts =>
      simp only at h
      have hi := hI ts rfl
      have hlen : ts.length = args.length := by rw [hi.length, usePreds_length]
      cases hr : L.resolve D f ts with
      | none => rw [hr] at h; cases h
      | some u =>
        rw [hr] at h
        cases h
        have := resolve_info hL hr hi (b := (D2.find f args.length).isSome) (by rw [hlen]; exact hDD _ _) hc.2
        rw [Ast.usesPred]; exact this
    | undef => cases h
    | quantified => cases h
    | unknown => cases h
  | .letE names vals body =>
    rw [parseTerm, of_pushFrame] at h
    rw [Ast.Clean] at hc
    obtain ⟨h1, -⟩ := parseTerms_of (D := D) hL vals env (env.length :: ls)
    have hI := fun ts => parseTerms_info hDD hL vals env (env.length :: ls) he hc.1 (ts := ts)
    generalize parseTerms L D vals (LetRecords.of env (env.length :: ls)) = R at h h1 hI
    obtain ⟨res, r⟩ := R
    simp only at h1
    subst h1
    cases res with
    | ok ts =>
      simp only at h
      have hi := hI ts rfl
      obtain ⟨b, fr, hb, hfr⟩ := addLetFrame_of env (env.length :: ls) L.reserved names ts
      simp only [hb] at h
      cases b with
      | false => cases h
      | true =>
        obtain ⟨hfr, hnd⟩ := hfr rfl
        simp only at h
        have he' : EnvInfo D (fr ++ env) (names.zip (Ast.usePreds D2 vals fe) ++ fe) := by
          refine EnvInfo.append ((envInfo_zip hi names).congr fun x => ?_) he
          rw [hfr]; exact lookup_reverse (map_fst_zip_nodup _ hnd) x
        have := parseTerm_info hDD hL body (fr ++ env) (env.length :: ls) he' hc.2 h
        rw [Ast.usesPred]; exact this
    | undef => cases h
    | quantified => cases h
    | unknown => cases h
  | .all _ _ => rw [parseTerm] at h; cases h
  | .other => rw [parseTerm] at h; cases h

theorem parseTerms_info (hDD : ∀ f n, (D.find f n).isSome → (D2.find f n).isSome)
    (hL : L.Ok M) (as : List Ast) (env : List (String × PT T)) (ls : List Nat) {fe : List (String × Bool)}
    (he : EnvInfo D env fe) (hc : Ast.Cleans D2 as fe) {ts : List (PT T)}
    (h : (parseTerms L D as (LetRecords.of env ls)).1 = .ok ts) : Infos D ts (Ast.usePreds D2 as fe) := by
  match as with
  | [] =>
    rw [parseTerms] at h
    cases h
    exact .nil
  | a :: as =>
    rw [Ast.Cleans] at hc
    rw [parseTerms] at h
    obtain ⟨h1, -⟩ := parseTerm_of (D := D) hL a env ls
    have hI := fun t => parseTerm_info hDD hL a env ls he hc.1 (t := t)
    have hIs := fun ts => parseTerms_info hDD hL as env ls he hc.2 (ts := ts)
    generalize parseTerm L D a (LetRecords.of env ls) = R at h h1 hI
    obtain ⟨res, r⟩ := R
    simp only at h1
    subst h1
    cases res with
    | ok t =>
      simp only at h
      generalize parseTerms L D as (LetRecords.of env ls) = R at h hIs
      obtain ⟨res, r⟩ := R
      cases res with
      | ok us =>
        cases h
        exact .cons (hI t rfl) (hIs us rfl)
      | undef => cases h
      | quantified => cases h
      | unknown => cases h
    | undef => cases h
    | quantified => cases h
    | unknown => cases h
end

theorem parseTop_info (hDD : ∀ f n, (D.find f n).isSome → (D2.find f n).isSome)
    (hL : L.Ok M) (a : Ast) (hq : a.NoClash D) (env : List (String × PT T)) (ls : List Nat)
    {fe : List (String × Bool)} (he : EnvInfo D env fe) (hc : a.Clean D2 fe) {t : PT T}
    (h : (parseTop L D a (LetRecords.of env ls)).1 = .ok t) : ∃ b, Info D t b := by
  match a with
  | .all vs body =>
    have hv : ∀ v ∈ vs, v.2 = boolSort → D.find v.1 0 = none := fun v hv => hq v (by simp [Ast.quantified, hv])
    rw [parseTop, bindVars_of vs hv] at h
    rw [Ast.Clean] at hc
    have he' : EnvInfo D (varEnv vs ++ env) ((vs.map fun v => (v.1, false)) ++ fe) := by
      refine EnvInfo.append ?_ he
      intro x
      cases h1 : (varEnv vs : List (String × PT T)).lookup x with
      | none =>
        have : (vs.map fun v => (v.1, false)).lookup x = none := by
          rw [lookup_none] at h1 ⊢
          simpa [varEnv] using h1
        simp [this]
      | some u =>
        obtain ⟨s, hs⟩ := varEnv_ok vs _ (lookup_mem h1)
        simp only at hs
        subst hs
        cases h2 : (vs.map fun v => (v.1, false)).lookup x with
        | none =>
          rw [lookup_none] at h2
          have hm := List.mem_map_of_mem (f := Prod.fst) (lookup_mem h1)
          exact absurd (by simpa [varEnv] using hm) h2
        | some b => exact ⟨trivial, by simp [PT.preds], fun _ => rfl⟩
    exact parseTop_info hDD hL body (fun v hv => hq v (by simp [Ast.quantified, hv])) _ _ he' hc h
  | .num _ | .qid _ | .lqid _ _ | .letE _ _ _ | .other =>
    all_goals
      rw [parseTop] at h
      · exact ⟨_, parseTerm_info hDD hL _ env ls he hc h⟩
      · intro vs body h; cases h

end

/-! ### Later declarations do not change what was parsed -/

theorem resolve_mono {E : Decls} (ha : L.Apart (D ++ E)) {f : String} {ts : List (PT T)} {t : PT T}
    (h : L.resolve D f ts = some t) : L.resolve (D ++ E) f ts = some t := by
  unfold Logic.resolve at h ⊢
  split at h
  · rename_i p hp
    rw [find_append hp]; exact h
  · split
    · rename_i p hp
      have := ha f ts.length (List.mem_of_getElem? (find_some hp)) ts rfl
      rw [this] at h; cases h
    · exact h

mutual
theorem parseTerm_mono {E : Decls} (ha : L.Apart (D ++ E)) (a : Ast) (r : LetRecords (PT T)) {t : PT T}
    (h : (parseTerm L D a r).1 = .ok t) : parseTerm L (D ++ E) a r = parseTerm L D a r := by
  match a with
  | .num c => rfl
  | .qid x =>
    rw [parseTerm] at h
    rw [parseTerm, parseTerm]
    cases hx : r.get x with
    | some u => rfl
    | none =>
      rw [hx] at h
      simp only at h ⊢
      cases hr : L.resolve D x [] with
      | none => rw [hr] at h; cases h
      | some u => rw [resolve_mono ha hr]
  | .lqid f args =>
    rw [parseTerm] at h
    rw [parseTerm, parseTerm]
    have hm := fun ts => parseTerms_mono ha args r (ts := ts)
    generalize parseTerms L D args r = R at h hm
    obtain ⟨res, r'⟩ := R
    cases res with
    | ok ts =>
      rw [hm ts rfl]
      simp only at h ⊢
      cases hr : L.resolve D f ts with
      | none => rw [hr] at h; cases h
      | some u => rw [resolve_mono ha hr]
    | undef => cases h
    | quantified => cases h
    | unknown => cases h
  | .letE names vals body =>
    rw [parseTerm] at h
    rw [parseTerm, parseTerm]
    have hm := fun ts => parseTerms_mono ha vals r.pushFrame (ts := ts)
    generalize parseTerms L D vals r.pushFrame = R at h hm
    obtain ⟨res, r'⟩ := R
    cases res with
    | ok ts =>
      rw [hm ts rfl]
      simp only at h ⊢
      generalize addLetFrame r' L.reserved names ts = A at h
      obtain ⟨b, r2⟩ := A
      cases b with
      | false => rfl
      | true =>
        simp only at h ⊢
        rw [parseTerm_mono ha body r2 h]
    | undef => cases h
    | quantified => cases h
    | unknown => cases h
  | .all _ _ => rfl
  | .other => rfl

theorem parseTerms_mono {E : Decls} (ha : L.Apart (D ++ E)) (as : List Ast) (r : LetRecords (PT T)) {ts : List (PT T)}
    (h : (parseTerms L D as r).1 = .ok ts) : parseTerms L (D ++ E) as r = parseTerms L D as r := by
  match as with
  | [] => rfl
  | a :: as =>
    rw [parseTerms] at h
    rw [parseTerms, parseTerms]
    have hm := fun t => parseTerm_mono ha a r (t := t)
    generalize parseTerm L D a r = R at h hm
    obtain ⟨res, r'⟩ := R
    cases res with
    | ok t =>
      rw [hm t rfl]
      simp only at h ⊢
      have hms := fun ts => parseTerms_mono ha as r' (ts := ts)
      generalize parseTerms L D as r' = R at h hms
      obtain ⟨res, r2⟩ := R
      cases res with
      | ok us => rw [hms us rfl]
      | undef => cases h
      | quantified => cases h
      | unknown => cases h
    | undef => cases h
    | quantified => cases h
    | unknown => cases h
end

theorem find_none_left {E : Decls} {f : String} {n : Nat} (h : (D ++ E).find f n = none) : D.find f n = none := by
  rw [find_none] at h ⊢
  exact fun hm => h (List.mem_append_left _ hm)

theorem bindVars_mono {E : Decls} (vs : List (String × Srt)) (hv : ∀ v ∈ vs, v.2 = boolSort → (D ++ E).find v.1 0 = none)
    (r : LetRecords (PT T)) : bindVars (D ++ E) r vs = bindVars D r vs := by
  induction vs generalizing r with
  | nil => rfl
  | cons v vs ih =>
    obtain ⟨x, s⟩ := v
    rw [bindVars, bindVars, mkVar_eq (hv _ List.mem_cons_self),
      mkVar_eq (fun hs => find_none_left (hv _ List.mem_cons_self hs)), ih fun w hw => hv w (List.mem_cons_of_mem _ hw)]

theorem parseTop_mono {E : Decls} (ha : L.Apart (D ++ E)) (a : Ast) (hq : a.NoClash (D ++ E)) (r : LetRecords (PT T)) {t : PT T}
    (h : (parseTop L D a r).1 = .ok t) : parseTop L (D ++ E) a r = parseTop L D a r := by
  match a with
  | .all vs body =>
    rw [parseTop] at h
    rw [parseTop, parseTop]
    have hv : ∀ v ∈ vs, v.2 = boolSort → (D ++ E).find v.1 0 = none := fun v hv => hq v (by simp [Ast.quantified, hv])
    rw [bindVars_mono vs hv, parseTop_mono ha body (fun v hv => hq v (by simp [Ast.quantified, hv])) _ h]
  | .num _ | .qid _ | .lqid _ _ | .letE _ _ _ | .other =>
    all_goals
      rw [parseTop] at h
      · rw [parseTop, parseTop]
        · exact parseTerm_mono ha _ r h
        · intro vs body h; cases h
        · intro vs body h; cases h
      · intro vs body h; cases h

/-! ### The clauses of the rest of the model -/

variable {B : BoolTerms T} {key : String → Srt → String}

/-- The valuation of the terms of the front end. -/
def frontVal (key : String → Srt → String) (μ : Valuation T) : String → Srt → T.Val := fun x s => μ (.base (.user (key x s)))

mutual
theorem toTm_eval (hB : B.Ok) (I : Interp T) (μ : Valuation T) : ∀ (t : PT T) (u : Tm T), t.toTm B key = some u →
    u.eval μ = t.eval I (frontVal key μ)
  | .var x s, u, h => by cases h; rfl
  | .const v, u, h => by cases h; rfl
  | .ap1 f a, u, h => by
    simp only [PT.toTm, Option.pure_def, Option.bind_eq_bind, Option.bind_eq_some_iff, Option.some.injEq] at h
    obtain ⟨a', ha, rfl⟩ := h
    simp [Tm.eval, PT.eval, toTm_eval hB I μ a a' ha]
  | .ap2 f a b, u, h => by
    simp only [PT.toTm, Option.pure_def, Option.bind_eq_bind, Option.bind_eq_some_iff, Option.some.injEq] at h
    obtain ⟨a', ha, b', hb, rfl⟩ := h
    simp [Tm.eval, PT.eval, toTm_eval hB I μ a a' ha, toTm_eval hB I μ b b' hb]
  | .ap3 f a b c, u, h => by
    simp only [PT.toTm, Option.pure_def, Option.bind_eq_bind, Option.bind_eq_some_iff, Option.some.injEq] at h
    obtain ⟨a', ha, b', hb, c', hc, rfl⟩ := h
    simp [Tm.eval, PT.eval, toTm_eval hB I μ a a' ha, toTm_eval hB I μ b b' hb, toTm_eval hB I μ c c' hc]
  | .pred _ _, u, h => by cases h
  | .tt, u, h => by cases h; rfl
  | .ff, u, h => by cases h; rfl
  | .eq a b, u, h => by
    simp only [PT.toTm, Option.pure_def, Option.bind_eq_bind, Option.bind_eq_some_iff, Option.some.injEq] at h
    obtain ⟨a', ha, b', hb, rfl⟩ := h
    rw [hB.eq2, PT.eval, toTm_eval hB I μ a a' ha, toTm_eval hB I μ b b' hb]
  | .not a, u, h => by
    simp only [PT.toTm, Option.pure_def, Option.bind_eq_bind, Option.bind_eq_some_iff, Option.some.injEq] at h
    obtain ⟨a', ha, rfl⟩ := h
    rw [hB.not1, PT.eval, toTm_eval hB I μ a a' ha]
  | .and ts, u, h => by
    simp only [PT.toTm, Option.pure_def, Option.bind_eq_bind, Option.bind_eq_some_iff, Option.some.injEq] at h
    obtain ⟨us, hu, rfl⟩ := h
    have := toTms_eval hB I μ ts us hu
    rw [PT.eval, ← this]
    clear this hu
    induction us with
    | nil => rfl
    | cons v us ih => rw [List.foldr_cons, hB.and2, ih, truth_ofB]; rfl
  | .or ts, u, h => by
    simp only [PT.toTm, Option.pure_def, Option.bind_eq_bind, Option.bind_eq_some_iff, Option.some.injEq] at h
    obtain ⟨us, hu, rfl⟩ := h
    have := toTms_eval hB I μ ts us hu
    rw [PT.eval, ← this]
    clear this hu
    induction us with
    | nil => rfl
    | cons v us ih => rw [List.foldr_cons, hB.or2, ih, truth_ofB]; rfl

theorem toTms_eval (hB : B.Ok) (I : Interp T) (μ : Valuation T) : ∀ (ts : List (PT T)) (us : List (Tm T)),
    PT.toTms B key ts = some us → us.map (Tm.eval μ) = PT.evals I (frontVal key μ) ts
  | [], us, h => by cases h; rfl
  | t :: ts, us, h => by
    simp only [PT.toTms, Option.pure_def, Option.bind_eq_bind, Option.bind_eq_some_iff, Option.some.injEq] at h
    obtain ⟨u, hu, us', hus, rfl⟩ := h
    rw [List.map_cons, PT.evals, toTm_eval hB I μ t u hu, toTms_eval hB I μ ts us' hus]
end

/-- The variables of the front end. -/
def FrontVars (vs : List Var) : Prop := ∀ x ∈ vs, ∃ s, x = .base (.user s)

mutual
theorem toTm_some (hB : B.Ok) : ∀ (t : PT T), t.preds = [] → ∃ u, t.toTm B key = some u ∧ FrontVars u.vars
  | .var x s, _ => ⟨_, rfl, by intro y hy; simp only [Tm.vars, List.mem_singleton] at hy; exact ⟨_, hy⟩⟩
  | .const v, _ => ⟨_, rfl, by intro y hy; simp [Tm.vars] at hy⟩
  | .ap1 f a, h => by
    obtain ⟨u, hu, hv⟩ := toTm_some hB a h
    exact ⟨.ap1 f u, by simp [PT.toTm, hu], hv⟩
  | .ap2 f a b, h => by
    simp only [PT.preds, List.append_eq_nil_iff] at h
    obtain ⟨u, hu, hv⟩ := toTm_some hB a h.1
    obtain ⟨u', hu', hv'⟩ := toTm_some hB b h.2
    refine ⟨.ap2 f u u', by simp [PT.toTm, hu, hu'], fun x hx => ?_⟩
    exact (List.mem_append.1 hx).elim (hv x) (hv' x)
  | .ap3 f a b c, h => by
    simp only [PT.preds, List.append_eq_nil_iff] at h
    obtain ⟨u, hu, hv⟩ := toTm_some hB a h.1.1
    obtain ⟨u', hu', hv'⟩ := toTm_some hB b h.1.2
    obtain ⟨u2, hu2, hv2⟩ := toTm_some hB c h.2
    refine ⟨.ap3 f u u' u2, by simp [PT.toTm, hu, hu', hu2], fun x hx => ?_⟩
    exact (List.mem_append.1 hx).elim (fun hx => (List.mem_append.1 hx).elim (hv x) (hv' x)) (hv2 x)
  | .pred p as, h => by simp [PT.preds] at h
  | .tt, _ => ⟨_, rfl, by intro y hy; simp [Tm.vars] at hy⟩
  | .ff, _ => ⟨_, rfl, by intro y hy; simp [Tm.vars] at hy⟩
  | .eq a b, h => by
    simp only [PT.preds, List.append_eq_nil_iff] at h
    obtain ⟨u, hu, hv⟩ := toTm_some hB a h.1
    obtain ⟨u', hu', hv'⟩ := toTm_some hB b h.2
    refine ⟨B.eq2 u u', by simp [PT.toTm, hu, hu'], fun x hx => ?_⟩
    exact ((hB.vars u u' x).2.2.2 hx).elim (hv x) (hv' x)
  | .not a, h => by
    obtain ⟨u, hu, hv⟩ := toTm_some hB a h
    exact ⟨B.not1 u, by simp [PT.toTm, hu], fun x hx => hv x ((hB.vars u u x).1 hx)⟩
  | .and ts, h => by
    obtain ⟨us, hu, hv⟩ := toTms_some hB ts h
    refine ⟨_, by simp only [PT.toTm, hu]; rfl, ?_⟩
    clear hu
    induction us with
    | nil => intro y hy; simp [Tm.vars] at hy
    | cons v us ih =>
      intro x hx
      rw [List.foldr_cons] at hx
      rcases (hB.vars _ _ x).2.1 hx with hx | hx
      · exact hv v (by simp) x hx
      · exact ih (fun u hu => hv u (by simp [hu])) x hx
  | .or ts, h => by
    obtain ⟨us, hu, hv⟩ := toTms_some hB ts h
    refine ⟨_, by simp only [PT.toTm, hu]; rfl, ?_⟩
    clear hu
    induction us with
    | nil => intro y hy; simp [Tm.vars] at hy
    | cons v us ih =>
      intro x hx
      rw [List.foldr_cons] at hx
      rcases (hB.vars _ _ x).2.2.1 hx with hx | hx
      · exact hv v (by simp) x hx
      · exact ih (fun u hu => hv u (by simp [hu])) x hx

theorem toTms_some (hB : B.Ok) : ∀ (ts : List (PT T)), PT.predsL ts = [] →
    ∃ us, PT.toTms B key ts = some us ∧ ∀ u ∈ us, FrontVars u.vars
  | [], _ => ⟨[], rfl, by simp⟩
  | t :: ts, h => by
    simp only [PT.predsL, List.append_eq_nil_iff] at h
    obtain ⟨u, hu, hv⟩ := toTm_some hB t h.1
    obtain ⟨us, hus, hvs⟩ := toTms_some hB ts h.2
    exact ⟨u :: us, by simp [PT.toTms, hu, hus], by simpa using ⟨hv, hvs⟩⟩
end

theorem toTms_length : ∀ {ts : List (PT T)} {us : List (Tm T)}, PT.toTms B key ts = some us → us.length = ts.length
  | [], us, h => by cases h; rfl
  | t :: ts, us, h => by
    simp only [PT.toTms, Option.pure_def, Option.bind_eq_bind, Option.bind_eq_some_iff, Option.some.injEq] at h
    obtain ⟨u, hu, us', hus, rfl⟩ := h
    simp [toTms_length hus]

mutual
theorem toFla_holds (hB : B.Ok) (I : Interp T) (μ : Valuation T) : ∀ (t : PT T) (f : Fla T), t.toFla B key = some f →
    (f.holds μ ↔ t.Holds I (frontVal key μ))
  | .tt, f, h => by cases h; simp [Fla.holds, holds_tt]
  | .ff, f, h => by cases h; simp [Fla.holds, not_holds_ff]
  | .eq a b, f, h => by
    simp only [PT.toFla, Option.pure_def, Option.bind_eq_bind, Option.bind_eq_some_iff, Option.some.injEq] at h
    obtain ⟨a', ha, b', hb, rfl⟩ := h
    simp [Fla.holds, PT.Holds, PT.eval, truth_ofB, toTm_eval hB I μ a a' ha, toTm_eval hB I μ b b' hb]
  | .not a, f, h => by
    simp only [PT.toFla, Option.pure_def, Option.bind_eq_bind, Option.bind_eq_some_iff, Option.some.injEq] at h
    obtain ⟨a', ha, rfl⟩ := h
    simp [Fla.holds, holds_not, toFla_holds hB I μ a a' ha]
  | .and ts, f, h => by
    simp only [PT.toFla, Option.pure_def, Option.bind_eq_bind, Option.bind_eq_some_iff, Option.some.injEq] at h
    obtain ⟨fs, hf, rfl⟩ := h
    rw [holds_and, holds_conj_iff]
    exact (toFlas_holds hB I μ ts fs hf).1
  | .or ts, f, h => by
    simp only [PT.toFla, Option.pure_def, Option.bind_eq_bind, Option.bind_eq_some_iff, Option.some.injEq] at h
    obtain ⟨fs, hf, rfl⟩ := h
    rw [holds_or, Fla.holds_disj]
    exact (toFlas_holds hB I μ ts fs hf).2
  | .var x s, f, h => by
    simp only [PT.toFla, Option.pure_def, Option.bind_eq_bind, Option.bind_eq_some_iff, Option.some.injEq] at h
    obtain ⟨u, hu, rfl⟩ := h
    simp [Fla.holds, PT.Holds, toTm_eval hB I μ _ _ hu]
  | .const v, f, h => by
    simp only [PT.toFla, Option.pure_def, Option.bind_eq_bind, Option.bind_eq_some_iff, Option.some.injEq] at h
    obtain ⟨u, hu, rfl⟩ := h
    simp [Fla.holds, PT.Holds, toTm_eval hB I μ _ _ hu]
  | .ap1 g a, f, h => by
    simp only [PT.toFla, Option.pure_def, Option.bind_eq_bind, Option.bind_eq_some_iff, Option.some.injEq] at h
    obtain ⟨u, hu, rfl⟩ := h
    simp [Fla.holds, PT.Holds, toTm_eval hB I μ _ _ hu]
  | .ap2 g a b, f, h => by
    simp only [PT.toFla, Option.pure_def, Option.bind_eq_bind, Option.bind_eq_some_iff, Option.some.injEq] at h
    obtain ⟨u, hu, rfl⟩ := h
    simp [Fla.holds, PT.Holds, toTm_eval hB I μ _ _ hu]
  | .ap3 g a b c, f, h => by
    simp only [PT.toFla, Option.pure_def, Option.bind_eq_bind, Option.bind_eq_some_iff, Option.some.injEq] at h
    obtain ⟨u, hu, rfl⟩ := h
    simp [Fla.holds, PT.Holds, toTm_eval hB I μ _ _ hu]
  | .pred p as, f, h => by
    simp only [PT.toFla, Option.pure_def, Option.bind_eq_bind, Option.bind_eq_some_iff, Option.some.injEq] at h
    obtain ⟨u, hu, rfl⟩ := h
    cases hu

theorem toFlas_holds (hB : B.Ok) (I : Interp T) (μ : Valuation T) : ∀ (ts : List (PT T)) (fs : List (Fla T)),
    PT.toFlas B key ts = some fs → ((∀ f ∈ fs, f.holds μ) ↔ ∀ t ∈ ts, t.Holds I (frontVal key μ)) ∧
      ((∃ f ∈ fs, f.holds μ) ↔ ∃ t ∈ ts, t.Holds I (frontVal key μ))
  | [], fs, h => by cases h; simp
  | t :: ts, fs, h => by
    simp only [PT.toFlas, Option.pure_def, Option.bind_eq_bind, Option.bind_eq_some_iff, Option.some.injEq] at h
    obtain ⟨f, hf, fs', hfs, rfl⟩ := h
    have h1 := toFla_holds hB I μ t f hf
    have h2 := toFlas_holds hB I μ ts fs' hfs
    simp [h1, h2.1, h2.2]
end

mutual
theorem toFla_some (hB : B.Ok) : ∀ (t : PT T), t.preds = [] → ∃ f, t.toFla B key = some f ∧ FrontVars f.vars
  | .tt, _ => ⟨_, rfl, by intro y hy; simp [Fla.vars] at hy⟩
  | .ff, _ => ⟨_, rfl, by intro y hy; simp [Fla.vars] at hy⟩
  | .eq a b, h => by
    simp only [PT.preds, List.append_eq_nil_iff] at h
    obtain ⟨u, hu, hv⟩ := toTm_some (key := key) hB a h.1
    obtain ⟨u', hu', hv'⟩ := toTm_some (key := key) hB b h.2
    refine ⟨.eq u u', by simp [PT.toFla, hu, hu'], fun x hx => ?_⟩
    exact (List.mem_append.1 hx).elim (hv x) (hv' x)
  | .not a, h => by
    obtain ⟨u, hu, hv⟩ := toFla_some hB a h
    exact ⟨.not u, by simp [PT.toFla, hu], hv⟩
  | .and ts, h => by
    obtain ⟨us, hu, hv⟩ := toFlas_some hB ts h
    refine ⟨Fla.conj us, by simp [PT.toFla, hu], fun x hx => ?_⟩
    obtain ⟨f, hf, hx⟩ := Fla.mem_vars_conj.1 hx
    exact hv f hf x hx
  | .or ts, h => by
    obtain ⟨us, hu, hv⟩ := toFlas_some hB ts h
    refine ⟨Fla.disj us, by simp [PT.toFla, hu], fun x hx => ?_⟩
    obtain ⟨f, hf, hx⟩ := Fla.mem_vars_disj.1 hx
    exact hv f hf x hx
  | .var x s, h => by
    obtain ⟨u, hu, hv⟩ := toTm_some (B := B) (key := key) hB (.var x s) h
    exact ⟨.atom u, by simp [PT.toFla, hu], hv⟩
  | .const v, h => by
    obtain ⟨u, hu, hv⟩ := toTm_some (B := B) (key := key) hB (.const v) h
    exact ⟨.atom u, by simp [PT.toFla, hu], hv⟩
  | .ap1 g a, h => by
    obtain ⟨u, hu, hv⟩ := toTm_some (B := B) (key := key) hB (.ap1 g a) h
    exact ⟨.atom u, by simp [PT.toFla, hu], hv⟩
  | .ap2 g a b, h => by
    obtain ⟨u, hu, hv⟩ := toTm_some (B := B) (key := key) hB (.ap2 g a b) h
    exact ⟨.atom u, by simp [PT.toFla, hu], hv⟩
  | .ap3 g a b c, h => by
    obtain ⟨u, hu, hv⟩ := toTm_some (B := B) (key := key) hB (.ap3 g a b c) h
    exact ⟨.atom u, by simp [PT.toFla, hu], hv⟩
  | .pred p as, h => by simp [PT.preds] at h

theorem toFlas_some (hB : B.Ok) : ∀ (ts : List (PT T)), PT.predsL ts = [] →
    ∃ fs, PT.toFlas B key ts = some fs ∧ ∀ f ∈ fs, FrontVars f.vars
  | [], _ => ⟨[], rfl, by simp⟩
  | t :: ts, h => by
    simp only [PT.predsL, List.append_eq_nil_iff] at h
    obtain ⟨u, hu, hv⟩ := toFla_some hB t h.1
    obtain ⟨us, hus, hvs⟩ := toFlas_some hB ts h.2
    exact ⟨u :: us, by simp [PT.toFlas, hu, hus], by simpa using ⟨hv, hvs⟩⟩
end

/-- The arity of a predicate. -/
def declArity (D : Decls) : Pred → Nat
  | .p n => ((D[n]?).map Prod.snd).getD 0
  | _ => 0

/-- A fact under an interpretation. -/
def factHolds (I : Interp T) : Fact T → Prop
  | (.p n, vs) => I n vs = true
  | (.tru, _) => True
  | (.fls, _) => False

/-- An atom of the front end is an atom of the rest of the model with the same meaning. -/
theorem toAtom_pred (hB : B.Ok) {known : List Nat} {t : PT T} (hd : t.Declared known) (hp : t.Plain) (hs : ∀ q ∈ t.preds, SigOk D q) :
    ∃ a, t.toAtom B key = some a ∧ a.1 ≠ .tru ∧ a.1 ≠ .fls ∧ a.2.length = declArity D a.1 ∧ (∀ u ∈ a.2, FrontVars u.vars) ∧
      ∀ I μ, factHolds I (PAtom.ground μ a) ↔ t.Holds I (frontVal key μ) := by
  obtain ⟨p, args, rfl, -⟩ := hd
  obtain ⟨us, hu, hv⟩ := toTms_some (B := B) (key := key) hB args hp
  refine ⟨(.p p, us), by simp [PT.toAtom, hu], by simp, by simp, ?_, hv, fun I μ => ?_⟩
  · obtain ⟨f, hf⟩ := hs (p, args.length) (by simp [PT.preds])
    simp only at hf
    simp [declArity, hf, toTms_length hu]
  · simp [PAtom.ground, factHolds, toTms_eval hB I μ args us hu, PT.Holds, PT.eval, truth_ofB]

theorem toAtoms_some {ts : List (PT T)} {P : PT T → PAtom T → Prop} (h : ∀ t ∈ ts, ∃ a, t.toAtom B key = some a ∧ P t a) :
    ∃ as, PT.toAtoms B key ts = some as ∧ (∀ a ∈ as, ∃ t ∈ ts, P t a) ∧ (∀ t ∈ ts, ∃ a ∈ as, P t a) := by
  induction ts with
  | nil => exact ⟨[], rfl, by simp, by simp⟩
  | cons t ts ih =>
    obtain ⟨a, ha, hp⟩ := h t (by simp)
    obtain ⟨as, has, h1, h2⟩ := ih fun u hu => h u (by simp [hu])
    refine ⟨a :: as, by simp [PT.toAtoms, ha, has], ?_, ?_⟩
    · intro b hb
      rcases List.mem_cons.1 hb with rfl | hb
      · exact ⟨t, by simp, hp⟩
      · obtain ⟨u, hu, hq⟩ := h1 b hb; exact ⟨u, by simp [hu], hq⟩
    · intro u hu
      rcases List.mem_cons.1 hu with rfl | hu
      · exact ⟨a, by simp, hp⟩
      · obtain ⟨b, hb, hq⟩ := h2 u hu; exact ⟨b, by simp [hb], hq⟩

/-- What a clause of the front end becomes. -/
structure ClauseOk (D : Decls) (key : String → Srt → String) (c : PClause T) (cc : Clause T) : Prop where
  arity : cc.head.2.length = declArity D cc.head.1 ∧ ∀ a ∈ cc.body, a.2.length = declArity D a.1
  user : cc.User
  shape : cc.Shape
  meaning : ∀ I μ, ((cc.constraint.holds μ → (∀ a ∈ cc.body, factHolds I (PAtom.ground μ a)) →
    factHolds I (PAtom.ground μ cc.head)) ↔ c.Holds I (frontVal key μ))

/-- A clause whose predicates are known and not inside arguments. -/
structure PClause.Good (D : Decls) (known : List Nat) (c : PClause T) : Prop where
  horn : c.Horn known
  head : c.head.Plain ∧ ∀ q ∈ c.head.preds, SigOk D q
  body : ∀ b ∈ c.body, b.Plain ∧ ∀ q ∈ b.preds, SigOk D q
  constraint : c.constraint.preds = []

theorem toClause_ok (hB : B.Ok) {known : List Nat} {c : PClause T} (h : c.Good D known) :
    ∃ cc, c.toClause B key = some cc ∧ ClauseOk D key c cc := by
  obtain ⟨f, hf, hfv⟩ := toFla_some (B := B) (key := key) hB c.constraint h.constraint
  obtain ⟨bs, hb, hb1, hb2⟩ := toAtoms_some (B := B) (key := key) (ts := c.body)
    (P := fun t a => a.1 ≠ .tru ∧ a.1 ≠ .fls ∧ a.2.length = declArity D a.1 ∧ (∀ u ∈ a.2, FrontVars u.vars) ∧
      ∀ I μ, factHolds I (PAtom.ground μ a) ↔ t.Holds I (frontVal key μ))
    (fun t ht => toAtom_pred hB (h.horn.body t ht) (h.body t ht).1 (h.body t ht).2)
  have hbody : ∀ I μ, (∀ a ∈ bs, factHolds I (PAtom.ground μ a)) ↔ ∀ b ∈ c.body, b.Holds I (frontVal key μ) := by
    intro I μ
    constructor
    · intro ha b hb
      obtain ⟨a, ha', hp⟩ := hb2 b hb
      exact (hp.2.2.2.2 I μ).1 (ha a ha')
    · intro hb a ha
      obtain ⟨t, ht, hp⟩ := hb1 a ha
      exact (hp.2.2.2.2 I μ).2 (hb t ht)
  obtain ⟨hd, hhd, hh1, hh2, hh3, hh4⟩ : ∃ a, c.head.toAtom B key = some a ∧ a.1 ≠ .tru ∧
      a.2.length = declArity D a.1 ∧ (∀ u ∈ a.2, FrontVars u.vars) ∧
      ∀ I μ, factHolds I (PAtom.ground μ a) ↔ c.head.Holds I (frontVal key μ) := by
    rcases h.horn.head with hff | hdec
    · rw [hff]
      exact ⟨(.fls, []), rfl, by simp, rfl, by simp, fun I μ => by simp [PAtom.ground, factHolds, not_holds_ff]⟩
    · obtain ⟨a, h1, h2, -, h3⟩ := toAtom_pred (B := B) (key := key) hB hdec h.head.1 h.head.2
      exact ⟨a, h1, h2, h3⟩
  refine ⟨⟨hd, f, bs⟩, by simp [PClause.toClause, hhd, hf, hb], ⟨hh2, fun a ha => ?_⟩, ?_, ⟨hh1, fun a ha => ?_⟩, ?_⟩
  · obtain ⟨t, -, hp⟩ := hb1 a ha; exact hp.2.2.1
  · intro x hx
    have hux : ∃ s, x = .base (.user s) := by
      simp only [Clause.vars, List.mem_append, List.mem_flatMap] at hx
      rcases hx with hx | ⟨u, hu, hx⟩ | ⟨a, ha, u, hu, hx⟩
      · exact hfv x hx
      · exact hh3 u hu x hx
      · obtain ⟨t, -, hp⟩ := hb1 a ha; exact hp.2.2.2.1 u hu x hx
    obtain ⟨s, rfl⟩ := hux
    trivial
  · obtain ⟨t, -, hp⟩ := hb1 a ha; exact ⟨hp.1, hp.2.1⟩
  · intro I μ
    simp only [PClause.Holds, hbody, hh4, toFla_holds hB I μ _ _ hf]
    exact ⟨fun h h1 h2 => h h2 h1, fun h h1 h2 => h h2 h1⟩

theorem toClauses_ok (hB : B.Ok) {known : List Nat} {cs : List (PClause T)} (h : ∀ c ∈ cs, c.Good D known) :
    ∃ ccs, toClauses B key cs = some ccs ∧ (∀ cc ∈ ccs, ∃ c ∈ cs, ClauseOk D key c cc) ∧
      (∀ c ∈ cs, ∃ cc ∈ ccs, ClauseOk D key c cc) := by
  induction cs with
  | nil => exact ⟨[], rfl, by simp, by simp⟩
  | cons c cs ih =>
    obtain ⟨cc, hc, ho⟩ := toClause_ok (B := B) (key := key) hB (h c (by simp))
    obtain ⟨ccs, hcs, h1, h2⟩ := ih fun d hd => h d (by simp [hd])
    refine ⟨cc :: ccs, by simp [toClauses, hc, hcs], ?_, ?_⟩
    · intro d hd
      rcases List.mem_cons.1 hd with rfl | hd
      · exact ⟨c, by simp, ho⟩
      · obtain ⟨e, he, hq⟩ := h1 d hd; exact ⟨e, by simp [he], hq⟩
    · intro d hd
      rcases List.mem_cons.1 hd with rfl | hd
      · exact ⟨cc, by simp, ho⟩
      · obtain ⟨e, he, hq⟩ := h2 d hd; exact ⟨e, by simp [he], hq⟩

/-- The clauses handed on are legal, and they are satisfiable exactly if the clauses of the front end are. -/
theorem clauses_sat (hB : B.Ok) (hk : ∀ x s y s', key x s = key y s' → x = y ∧ s = s') {known : List Nat} {cs : List (PClause T)}
    (h : ∀ c ∈ cs, c.Good D known) :
    ∃ ccs, toClauses B key cs = some ccs ∧ LegalInput (declArity D) ccs ∧
      (Satisfiable (clauseRules ccs) ↔ ∃ I : Interp T, ∀ c ∈ cs, ∀ ρ, c.Holds I ρ) := by
  obtain ⟨ccs, hcs, h1, h2⟩ := toClauses_ok (B := B) (key := key) hB h
  refine ⟨ccs, hcs, ⟨⟨rfl, rfl, fun cc hcc => ?_⟩, fun cc hcc => ?_, fun cc hcc => ?_⟩, ?_⟩
  · obtain ⟨c, -, ho⟩ := h1 cc hcc; exact ho.arity
  · obtain ⟨c, -, ho⟩ := h1 cc hcc; exact ho.user
  · obtain ⟨c, -, ho⟩ := h1 cc hcc; exact ho.shape
  · constructor
    · rintro ⟨N, ⟨hT, hN⟩, hF⟩
      classical
      refine ⟨fun p vs => decide (N (.p p, vs)), fun c hc ρ => ?_⟩
      obtain ⟨cc, hcc, ho⟩ := h2 c hc
      -- a valuation of the rest of the model that agrees with `ρ`
      let μ : Valuation T := fun v => match v with
        | .base (.user k) => if h : ∃ x s, key x s = k then ρ h.choose h.choose_spec.choose else T.vT
        | _ => T.vT
      have hμ : frontVal key μ = ρ := by
        funext x s
        have hex : ∃ x' s', key x' s' = key x s := ⟨x, s, rfl⟩
        obtain ⟨e1, e2⟩ := hk _ _ _ _ hex.choose_spec.choose_spec
        simp only [frontVal, μ]
        rw [dif_pos hex]
        exact congr (congrArg ρ e1) e2
      rw [← hμ, ← ho.meaning]
      intro hcon hb
      have hhead : N (PAtom.ground μ cc.head) := by
        refine hN ⟨cc.body.map (PAtom.ground μ), PAtom.ground μ cc.head⟩ ⟨cc, hcc, μ, hcon, rfl⟩ fun b hbm => ?_
        obtain ⟨a, ha, rfl⟩ := List.mem_map.1 hbm
        have hba := hb a ha
        obtain ⟨hs1, hs2⟩ := ho.shape.2 a ha
        obtain ⟨p, us⟩ := a
        cases p with
        | tru => exact absurd rfl hs1
        | fls => exact absurd rfl hs2
        | p n => simpa [PAtom.ground, factHolds] using hba
      have ha := ho.arity.1
      have hs := ho.shape.1
      generalize cc.head = hd at hhead ha hs ⊢
      obtain ⟨p, us⟩ := hd
      cases p with
      | tru => exact absurd rfl hs
      | fls =>
        have : us = [] := List.length_eq_zero_iff.1 ha
        subst this
        exact absurd hhead hF
      | p n => simpa [PAtom.ground, factHolds] using hhead
    · rintro ⟨I, hI⟩
      refine ⟨factHolds I, ⟨trivial, ?_⟩, fun h => h⟩
      rintro r ⟨cc, hcc, μ, hcon, rfl⟩ hb
      obtain ⟨c, hc, ho⟩ := h1 cc hcc
      refine (ho.meaning I μ).2 (hI c hc _) hcon fun a ha => hb _ (List.mem_map_of_mem ha)

end Front
end Golem
