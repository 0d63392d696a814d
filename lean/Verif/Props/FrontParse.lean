import Verif.Spec.Script

/-! C69: parsing gives terms their SMT-LIB meaning. -/

namespace Golem
namespace Front
variable {T : Theory}

section Records
variable {α : Type}

/-- The values bound to a name, the innermost first. -/
def valuesOf (env : List (String × α)) (x : String) : List α := (env.filter fun b => b.1 == x).map Prod.snd

/-- The records that hold the bindings `env` (the innermost first) in frames that begin at `limits`. -/
def LetRecords.of (env : List (String × α)) (limits : List Nat) : LetRecords α :=
  ⟨fun x => match valuesOf env x with
    | [] => none
    | v :: vs => some ⟨v, vs⟩, env.map Prod.fst, limits⟩

theorem valuesOf_cons (x y : String) (v : α) (env : List (String × α)) :
    valuesOf ((x, v) :: env) y = if y = x then v :: valuesOf env y else valuesOf env y := by
  by_cases h : y = x
  · subst h; simp [valuesOf]
  · have : ¬ x = y := fun e => h e.symm
    simp [valuesOf, h, this]

theorem of_get (env : List (String × α)) (ls : List Nat) (x : String) : (LetRecords.of env ls).get x = env.lookup x := by
  induction env with
  | nil => rfl
  | cons b env ih =>
    obtain ⟨y, v⟩ := b
    simp only [LetRecords.get, LetRecords.of] at ih ⊢
    rw [valuesOf_cons]
    by_cases h : x = y
    · subst h; simp
    · rw [if_neg h, ih, List.lookup_cons]
      have : (x == y) = false := by simpa using h
      rw [this]

theorem of_addBinding (env : List (String × α)) (ls : List Nat) (x : String) (v : α) :
    (LetRecords.of env ls).addBinding x v = LetRecords.of ((x, v) :: env) ls := by
  simp only [LetRecords.addBinding, LetRecords.of, List.map_cons, LetRecords.mk.injEq, and_true]
  funext y
  rw [valuesOf_cons]
  by_cases h : y = x
  · subst h
    simp only [if_true]
    cases valuesOf env y <;> rfl
  · simp [h]

theorem of_popBinder (b : String × α) (env : List (String × α)) (ls : List Nat) :
    (LetRecords.of (b :: env) ls).popBinder = LetRecords.of env ls := by
  obtain ⟨x, v⟩ := b
  simp only [LetRecords.popBinder, LetRecords.of, List.map_cons, LetRecords.mk.injEq, and_true]
  funext y
  by_cases h : y = x
  · subst h
    rw [valuesOf_cons]
    simp only [if_true]
    cases valuesOf env y <;> rfl
  · have := valuesOf_cons x y v env
    rw [if_neg h] at this
    simp [h, this]

theorem of_popBinders (fr env : List (String × α)) (ls : List Nat) :
    (LetRecords.of (fr ++ env) ls).popBinders fr.length = LetRecords.of env ls := by
  induction fr with
  | nil => rfl
  | cons b fr ih => rw [List.length_cons, LetRecords.popBinders, List.cons_append, of_popBinder, ih]

theorem of_popFrame (fr env : List (String × α)) (ls : List Nat) :
    (LetRecords.of (fr ++ env) (env.length :: ls)).popFrame = LetRecords.of env ls := by
  have h : (LetRecords.of (fr ++ env) (env.length :: ls)).known.length - env.length = fr.length := by
    simp [LetRecords.of]
  have := of_popBinders fr env ls
  simp only [LetRecords.popFrame, LetRecords.of] at h this ⊢
  rw [h]; exact this

theorem of_pushFrame (env : List (String × α)) (ls : List Nat) :
    (LetRecords.of env ls).pushFrame = LetRecords.of env (env.length :: ls) := by
  simp [LetRecords.pushFrame, LetRecords.of]

theorem of_empty : (LetRecords.empty : LetRecords α) = LetRecords.of [] [] := by
  simp only [LetRecords.empty, LetRecords.of]; rfl

theorem of_addAll (reserved : String → Bool) (bs env : List (String × α)) (ls : List Nat) :
    ∃ fr, (LetRecords.of env ls).addAll reserved bs =
      ((LetRecords.of env ls).addAll reserved bs |>.1, LetRecords.of (fr ++ env) ls) ∧
      (((LetRecords.of env ls).addAll reserved bs).1 = true → fr = bs.reverse) := by
  induction bs generalizing env with
  | nil => exact ⟨[], by simp [LetRecords.addAll], by simp⟩
  | cons b bs ih =>
    obtain ⟨x, v⟩ := b
    simp only [LetRecords.addAll]
    split
    · exact ⟨[], by simp, by simp⟩
    · rw [of_addBinding]
      obtain ⟨fr, h1, h2⟩ := ih ((x, v) :: env)
      refine ⟨fr ++ [(x, v)], by rw [h1]; simp, fun h => ?_⟩
      rw [h2 h]; simp

/-- A use of the records: a frame with bindings and nested uses is pushed and popped. -/
inductive Use (α : Type) where
  | frame (bs : List (String × α)) (inner : List (Use α))

mutual
/-- The calls a use makes. -/
def Use.run : Use α → LetRecords α → LetRecords α
  | .frame bs inner, r => (Use.runs inner (bs.foldl (fun r b => r.addBinding b.1 b.2) r.pushFrame)).popFrame

def Use.runs : List (Use α) → LetRecords α → LetRecords α
  | [], r => r
  | u :: us, r => Use.runs us (u.run r)
end

theorem of_foldl (bs env : List (String × α)) (ls : List Nat) :
    bs.foldl (fun r b => r.addBinding b.1 b.2) (LetRecords.of env ls) = LetRecords.of (bs.reverse ++ env) ls := by
  induction bs generalizing env with
  | nil => rfl
  | cons b bs ih => simp only [List.foldl_cons, of_addBinding, ih]; simp

mutual
theorem use_run (u : Use α) (env : List (String × α)) (ls : List Nat) :
    u.run (LetRecords.of env ls) = LetRecords.of env ls := by
  match u with
  | .frame bs inner =>
    rw [Use.run, of_pushFrame, of_foldl, use_runs inner, of_popFrame]

theorem use_runs (us : List (Use α)) (env : List (String × α)) (ls : List Nat) :
    Use.runs us (LetRecords.of env ls) = LetRecords.of env ls := by
  match us with
  | [] => rfl
  | u :: us => rw [Use.runs, use_run u, use_runs us]
end

/-- **C69** (scopes): whatever frames were pushed and popped in between, a lookup finds the innermost open binding of a name
— in the innermost frame its last one — and nothing if there is none. `open_` are the open frames, the outermost first, each
with the uses that were completed before its bindings were added. -/
theorem C69_scopes (open_ : List (List (Use α) × List (String × α))) (done : List (Use α)) (x : String) :
    (Use.runs done (open_.foldl (fun r f => f.2.foldl (fun r b => r.addBinding b.1 b.2) (Use.runs f.1 r).pushFrame)
      (LetRecords.empty : LetRecords α))).get x = (open_.flatMap Prod.snd).reverse.lookup x := by
  have : ∀ env ls, ∃ ls', open_.foldl (fun r f => f.2.foldl (fun r b => r.addBinding b.1 b.2) (Use.runs f.1 r).pushFrame)
      (LetRecords.of env ls) = LetRecords.of ((open_.flatMap Prod.snd).reverse ++ env) ls' := by
    induction open_ with
    | nil => exact fun env ls => ⟨ls, rfl⟩
    | cons f fs ih =>
      intro env ls
      rw [List.foldl_cons, use_runs, of_pushFrame, of_foldl]
      obtain ⟨ls', h⟩ := ih (f.2.reverse ++ env) (env.length :: ls)
      exact ⟨ls', by rw [h]; simp⟩
  obtain ⟨ls', h⟩ := this [] []
  rw [of_empty, h, use_runs, of_get, List.append_nil]

end Records

/-! ### The parser -/

theorem evals_map (I : Interp T) (ρ : String → Srt → T.Val) (ts : List (PT T)) :
    PT.evals I ρ ts = ts.map (PT.eval I ρ) := by
  induction ts with
  | nil => rfl
  | cons t ts ih => simp [PT.evals, ih]

/-- The values of bound terms. -/
def evalEnv (I : Interp T) (ρ : String → Srt → T.Val) (env : List (String × PT T)) : List (String × T.Val) :=
  env.map fun b => (b.1, b.2.eval I ρ)

theorem lookup_evalEnv (I : Interp T) (ρ : String → Srt → T.Val) (env : List (String × PT T)) (x : String) :
    (evalEnv I ρ env).lookup x = (env.lookup x).map (PT.eval I ρ) := by
  induction env with
  | nil => rfl
  | cons b env ih =>
    obtain ⟨y, v⟩ := b
    simp only [evalEnv, List.map_cons, List.lookup_cons] at ih ⊢
    cases x == y <;> simp [ih]

theorem lookup_append {β : Type} (a b : List (String × β)) (x : String) :
    (a ++ b).lookup x = (a.lookup x).or (b.lookup x) := by
  induction a with
  | nil => simp
  | cons p a ih =>
    obtain ⟨y, v⟩ := p
    simp only [List.cons_append, List.lookup_cons]
    cases x == y <;> simp [ih]

section
variable {M : Sem T} {D : Decls} {I : Interp T}

mutual
/-- Only what the bindings say about each name matters. -/
theorem den_congr (a : Ast) {e e' : List (String × T.Val)} (h : ∀ x, e.lookup x = e'.lookup x) :
    a.den M D I e = a.den M D I e' := by
  match a with
  | .num c => rfl
  | .qid x => rw [Ast.den, Ast.den, h]
  | .lqid f args => rw [Ast.den, Ast.den, dens_congr args h]
  | .letE names vals body =>
    rw [Ast.den, Ast.den, dens_congr vals h]
    exact den_congr body fun x => by rw [lookup_append, lookup_append, h]
  | .all _ _ => rfl
  | .other => rfl

theorem dens_congr (as : List Ast) {e e' : List (String × T.Val)} (h : ∀ x, e.lookup x = e'.lookup x) :
    Ast.dens M D I as e = Ast.dens M D I as e' := by
  match as with
  | [] => rfl
  | a :: as => rw [Ast.dens, Ast.dens, den_congr a h, dens_congr as h]
end

theorem holds_congr (a : Ast) {e e' : List (String × T.Val)} (h : ∀ x, e.lookup x = e'.lookup x) :
    a.Holds M D I e ↔ a.Holds M D I e' := by
  match a with
  | .all vs body =>
    simp only [Ast.Holds]
    exact forall_congr' fun vals => imp_congr_right fun _ => holds_congr body fun x => by
      rw [lookup_append, lookup_append, h]
  | .num _ | .qid _ | .lqid _ _ | .letE _ _ _ | .other => simp only [Ast.Holds]; rw [den_congr _ h]

end

theorem lookup_mem {β : Type} {l : List (String × β)} {x : String} {v : β} (h : l.lookup x = some v) : (x, v) ∈ l := by
  induction l with
  | nil => simp at h
  | cons p l ih =>
    rw [List.lookup_cons] at h
    cases hx : x == p.1 <;> simp only [hx] at h
    · exact List.mem_cons_of_mem _ (ih h)
    · simp only [beq_iff_eq] at hx; injection h with h; subst hx h; exact List.mem_cons_self

theorem lookup_none {β : Type} {l : List (String × β)} {x : String} : l.lookup x = none ↔ x ∉ l.map Prod.fst := by
  induction l with
  | nil => simp
  | cons p l ih =>
    rw [List.lookup_cons]
    cases hx : x == p.1
    · simp only [beq_eq_false_iff_ne, ne_eq] at hx; simp [ih, hx]
    · simp only [beq_iff_eq] at hx; simp [hx]

theorem lookup_of_mem {β : Type} {l : List (String × β)} (hn : (l.map Prod.fst).Nodup) {x : String} {v : β} (h : (x, v) ∈ l) :
    l.lookup x = some v := by
  induction l with
  | nil => simp at h
  | cons p l ih =>
    rw [List.map_cons, List.nodup_cons] at hn
    rw [List.lookup_cons]
    rcases List.mem_cons.1 h with h | h
    · subst h; simp
    · have : x ≠ p.1 := fun e => hn.1 (e ▸ List.mem_map.2 ⟨_, h, rfl⟩)
      rw [beq_eq_false_iff_ne.2 this, ih hn.2 h]

theorem lookup_reverse {β : Type} {l : List (String × β)} (hn : (l.map Prod.fst).Nodup) (x : String) :
    l.reverse.lookup x = l.lookup x := by
  cases h : l.lookup x with
  | none => rw [lookup_none] at h ⊢; simpa using h
  | some v =>
    apply lookup_of_mem
    · rw [List.map_reverse]; exact (List.reverse_perm _).nodup_iff.2 hn
    · exact List.mem_reverse.2 (lookup_mem h)

theorem map_fst_zip_nodup {β : Type} {ns : List String} (vs : List β) (h : ns.Nodup) : ((ns.zip vs).map Prod.fst).Nodup := by
  induction ns generalizing vs with
  | nil => simp
  | cons n ns ih =>
    cases vs with
    | nil => simp
    | cons v vs =>
      rw [List.nodup_cons] at h
      simp only [List.zip_cons_cons, List.map_cons, List.nodup_cons]
      refine ⟨fun hm => ?_, ih vs h.2⟩
      obtain ⟨q, hq, e⟩ := List.mem_map.1 hm
      exact h.1 (e ▸ (List.of_mem_zip (a := q.1) (b := q.2) hq).1)

section
variable {L : Logic T} {M : Sem T} {D : Decls}

theorem resolve_eval (hL : L.Ok M) {f : String} {ts : List (PT T)} {t : PT T} (h : L.resolve D f ts = some t)
    (I : Interp T) (ρ : String → Srt → T.Val) : t.eval I ρ = M.apply D I f (PT.evals I ρ ts) := by
  have hlen : (PT.evals I ρ ts).length = ts.length := by simp [evals_map]
  unfold Logic.resolve at h
  simp only [Sem.apply, hlen]
  split at h
  · rename_i p hp
    injection h with h
    subst h
    simp [PT.eval, hp]
  · rename_i hp
    simp only [hp]
    exact hL.theory _ _ _ h I ρ

/-- What a call of the parser on records that hold `env` does. -/
def ParsedAs (M : Sem T) (D : Decls) (a : Ast) (env : List (String × PT T)) : PRes (PT T) → Prop
  | .ok t => ∀ I ρ, t.eval I ρ = a.den M D I (evalEnv I ρ env)
  | _ => True

def ParsedAll (M : Sem T) (D : Decls) (as : List Ast) (env : List (String × PT T)) : PRes (List (PT T)) → Prop
  | .ok ts => ∀ I ρ, PT.evals I ρ ts = Ast.dens M D I as (evalEnv I ρ env)
  | _ => True

theorem addLetFrame_of (env : List (String × PT T)) (ls : List Nat) (reserved : String → Bool) (names : List String)
    (ts : List (PT T)) :
    ∃ b fr, addLetFrame (LetRecords.of env ls) reserved names ts = (b, LetRecords.of (fr ++ env) ls) ∧
      (b = true → fr = (names.zip ts).reverse ∧ names.Nodup) := by
  unfold addLetFrame
  split
  · exact ⟨false, [], rfl, by simp⟩
  · rename_i hn
    obtain ⟨fr, h1, h2⟩ := of_addAll reserved (names.zip ts) env ls
    refine ⟨_, fr, h1, fun h => ⟨h2 h, ?_⟩⟩
    match names, hn with
    | [], _ => exact List.nodup_nil
    | [x], _ => simp
    | x :: y :: l, hn => exact Classical.byContradiction fun hc => hn ⟨by simp, hc⟩

mutual
theorem parseTerm_of (hL : L.Ok M) (a : Ast) (env : List (String × PT T)) (ls : List Nat) :
    (parseTerm L D a (LetRecords.of env ls)).2 = LetRecords.of env ls ∧
    ParsedAs M D a env (parseTerm L D a (LetRecords.of env ls)).1 := by
  match a with
  | .num c => exact ⟨rfl, fun I ρ => by simp [PT.eval, Ast.den, hL.lit]⟩
  | .qid x =>
    rw [parseTerm, of_get]
    cases hx : env.lookup x with
    | some t =>
      refine ⟨rfl, fun I ρ => ?_⟩
      rw [Ast.den, lookup_evalEnv, hx]; rfl
    | none =>
      cases hr : L.resolve D x [] with
      | none => exact ⟨rfl, trivial⟩
      | some t =>
        refine ⟨rfl, fun I ρ => ?_⟩
        rw [Ast.den, lookup_evalEnv, hx, resolve_eval hL hr]; rfl
  | .lqid f args =>
    obtain ⟨h1, h2⟩ := parseTerms_of hL args env ls
    rw [parseTerm]
    generalize parseTerms L D args (LetRecords.of env ls) = R at h1 h2
    obtain ⟨res, r⟩ := R
    subst h1
    cases res with
    | ok ts =>
      simp only
      cases hr : L.resolve D f ts with
      | none => exact ⟨rfl, trivial⟩
      | some t =>
        refine ⟨rfl, fun I ρ => ?_⟩
        rw [Ast.den, resolve_eval hL hr, h2 I ρ]
    | undef => exact ⟨rfl, trivial⟩
    | quantified => exact ⟨rfl, trivial⟩
    | unknown => exact ⟨rfl, trivial⟩
  | .letE names vals body =>
    rw [parseTerm, of_pushFrame]
    obtain ⟨h1, h2⟩ := parseTerms_of hL vals env (env.length :: ls)
    generalize parseTerms L D vals (LetRecords.of env (env.length :: ls)) = R at h1 h2
    obtain ⟨res, r⟩ := R
    subst h1
    have hpop : (LetRecords.of env (env.length :: ls)).popFrame = LetRecords.of env ls := of_popFrame [] env ls
    cases res with
    | ok ts =>
      obtain ⟨b, fr, hb, hfr⟩ := addLetFrame_of env (env.length :: ls) L.reserved names ts
      simp only [hb]
      cases b with
      | false => exact ⟨of_popFrame fr env ls, trivial⟩
      | true =>
        obtain ⟨hfr, hnd⟩ := hfr rfl
        obtain ⟨h3, h4⟩ := parseTerm_of hL body (fr ++ env) (env.length :: ls)
        simp only
        refine ⟨by rw [h3]; exact of_popFrame fr env ls, ?_⟩
        generalize (parseTerm L D body (LetRecords.of (fr ++ env) (env.length :: ls))).1 = rb at h4
        cases rb with
        | ok t =>
          intro I ρ
          rw [h4 I ρ, Ast.den, ← h2 I ρ]
          apply den_congr
          intro x
          rw [lookup_append, evalEnv, List.map_append, lookup_append, hfr]
          congr 1
          have hz : names.zip (PT.evals I ρ ts) = (names.zip ts).map fun b => (b.1, b.2.eval I ρ) := by
            rw [evals_map, List.zip_map_right]; rfl
          rw [hz, List.map_reverse, lookup_reverse]
          rw [← hz]; exact map_fst_zip_nodup _ hnd
        | undef => trivial
        | quantified => trivial
        | unknown => trivial
    | undef => exact ⟨hpop, trivial⟩
    | quantified => exact ⟨hpop, trivial⟩
    | unknown => exact ⟨hpop, trivial⟩
  | .all _ _ => exact ⟨rfl, trivial⟩
  | .other => exact ⟨rfl, trivial⟩

theorem parseTerms_of (hL : L.Ok M) (as : List Ast) (env : List (String × PT T)) (ls : List Nat) :
    (parseTerms L D as (LetRecords.of env ls)).2 = LetRecords.of env ls ∧
    ParsedAll M D as env (parseTerms L D as (LetRecords.of env ls)).1 := by
  match as with
  | [] => exact ⟨rfl, fun _ _ => rfl⟩
  | a :: as =>
    obtain ⟨h1, h2⟩ := parseTerm_of hL a env ls
    obtain ⟨h3, h4⟩ := parseTerms_of hL as env ls
    rw [parseTerms]
    generalize parseTerm L D a (LetRecords.of env ls) = R at h1 h2
    obtain ⟨res, r⟩ := R
    subst h1
    cases res with
    | ok t =>
      simp only
      generalize parseTerms L D as (LetRecords.of env ls) = R at h3 h4
      obtain ⟨res, r⟩ := R
      subst h3
      cases res with
      | ok ts => exact ⟨rfl, fun I ρ => by rw [PT.evals, Ast.dens, ← h2 I ρ, ← h4 I ρ]⟩
      | undef => exact ⟨rfl, trivial⟩
      | quantified => exact ⟨rfl, trivial⟩
      | unknown => exact ⟨rfl, trivial⟩
    | undef => exact ⟨rfl, trivial⟩
    | quantified => exact ⟨rfl, trivial⟩
    | unknown => exact ⟨rfl, trivial⟩
end

/-- The bindings of quantified variables. -/
def varEnv (vs : List (String × Srt)) : List (String × PT T) := (vs.map fun v => (v.1, .var v.1 v.2)).reverse

/-- The frame limits after binding variables. -/
def varLimits : Nat → Nat → List Nat → List Nat
  | _, 0, ls => ls
  | n, k + 1, ls => varLimits (n + 1) k (n :: ls)

theorem mkVar_eq {x : String} {s : Srt} (h : s = boolSort → D.find x 0 = none) : (mkVar D x s : PT T) = .var x s := by
  unfold mkVar
  split
  · rename_i p hp
    split
    · rename_i hs; rw [h hs] at hp; cases hp
    · rfl
  · rfl

theorem bindVars_of (vs : List (String × Srt)) (hv : ∀ v ∈ vs, v.2 = boolSort → D.find v.1 0 = none)
    (env : List (String × PT T)) (ls : List Nat) :
    bindVars D (LetRecords.of env ls) vs = LetRecords.of (varEnv vs ++ env) (varLimits env.length vs.length ls) := by
  induction vs generalizing env ls with
  | nil => rfl
  | cons v vs ih =>
    obtain ⟨x, s⟩ := v
    rw [bindVars, of_pushFrame, of_addBinding, mkVar_eq (hv _ List.mem_cons_self),
      ih (fun w hw => hv w (List.mem_cons_of_mem _ hw))]
    simp [varEnv, varLimits]

theorem popFrames_of (vs : List (String × PT T)) (env : List (String × PT T)) (ls : List Nat) :
    popFrames (LetRecords.of (vs ++ env) (varLimits env.length vs.length ls)) vs.length = LetRecords.of env ls := by
  have key : ∀ n (vs env : List (String × PT T)) (ls : List Nat), vs.length = n →
      popFrames (LetRecords.of (vs ++ env) (varLimits env.length n ls)) n = LetRecords.of env ls := by
    intro n
    induction n with
    | zero => intro vs env ls h; obtain rfl := List.length_eq_zero_iff.1 h; rfl
    | succ n ih =>
      intro vs env ls h
      -- the innermost frame is the head; the outermost binding the last one
      have hv : vs ≠ [] := by intro e; simp [e] at h
      have hpop : ∀ (k : Nat) (m : Nat) (r : LetRecords (PT T)), popFrames r (k + m) = popFrames (popFrames r k) m := by
        intro k
        induction k with
        | zero => intro m r; simp [popFrames]
        | succ k ihk => intro m r; rw [show k + 1 + m = (k + m) + 1 by omega, popFrames, popFrames, ihk]
      obtain ⟨b, hb⟩ : ∃ b, vs = vs.dropLast ++ [b] := ⟨vs.getLast hv, (List.dropLast_concat_getLast hv).symm⟩
      have hl : vs.dropLast.length = n := by simp [h]
      have h1 := ih vs.dropLast (b :: env) (env.length :: ls) hl
      rw [hpop n 1, varLimits, hb, List.append_assoc, List.singleton_append]
      rw [List.length_cons] at h1
      rw [h1]
      exact of_popFrame [b] env ls
  exact key _ vs env ls rfl

/-- An environment of quantified variables. -/
def VarEnv (env : List (String × PT T)) : Prop := ∀ b ∈ env, ∃ s, b.2 = .var b.1 s

theorem varEnv_ok (vs : List (String × Srt)) : VarEnv (varEnv vs : List (String × PT T)) := by
  intro b hb
  simp only [varEnv, List.mem_reverse, List.mem_map] at hb
  obtain ⟨v, -, rfl⟩ := hb
  exact ⟨v.2, rfl⟩

theorem parseTop_of (hL : L.Ok M) (a : Ast) (hq : a.NoClash D) (env : List (String × PT T)) (he : VarEnv env) (ls : List Nat) :
    (parseTop L D a (LetRecords.of env ls)).2 = LetRecords.of env ls ∧
    ∀ t, (parseTop L D a (LetRecords.of env ls)).1 = .ok t →
      ∀ I, (∀ ρ, t.Holds I ρ) ↔ ∀ ρ, a.Holds M D I (evalEnv I ρ env) := by
  match a with
  | .all vs body =>
    have hv : ∀ v ∈ vs, v.2 = boolSort → D.find v.1 0 = none := fun v hv => hq v (by simp [Ast.quantified, hv])
    have he' : VarEnv (varEnv vs ++ env) := by
      intro b hb
      rcases List.mem_append.1 hb with hb | hb
      · exact varEnv_ok vs b hb
      · exact he b hb
    obtain ⟨h1, h2⟩ := parseTop_of hL body (fun v hv => hq v (by simp [Ast.quantified, hv])) (varEnv vs ++ env) he'
      (varLimits env.length vs.length ls)
    rw [parseTop, bindVars_of vs hv]
    have hlen : vs.length = (varEnv vs : List (String × PT T)).length := by simp [varEnv]
    generalize hR : parseTop L D body (LetRecords.of (varEnv vs ++ env) (varLimits env.length vs.length ls)) = R at h1 h2
    obtain ⟨res, r⟩ := R
    subst h1
    refine ⟨?_, fun t ht I => ?_⟩
    · simp only
      rw [hlen]; exact popFrames_of _ env ls
    · rw [h2 t ht I]
      simp only [Ast.Holds]
      constructor
      · intro h ρ vals hvals
        let upd : List (String × T.Val) := ((vs.map Prod.fst).zip vals).reverse
        let ρ' : String → Srt → T.Val := fun x s => (upd.lookup x).getD (ρ x s)
        have := h ρ'
        refine (holds_congr body fun x => ?_).1 this
        rw [lookup_append, evalEnv, List.map_append, lookup_append]
        have hk : ∀ x, (upd.lookup x).isSome ↔ x ∈ vs.map Prod.fst := by
          intro x
          have hm : upd.map Prod.fst = (vs.map Prod.fst).reverse := by
            simp only [upd, List.map_reverse]
            rw [List.map_fst_zip (by simp [hvals])]
          have := lookup_none (l := upd) (x := x)
          rw [hm, List.mem_reverse] at this
          cases hc : upd.lookup x with
          | none => simp [this.1 hc]
          | some v => simp only [Option.isSome_some, true_iff]; exact Classical.byContradiction fun hn => by simp [this.2 hn] at hc
        by_cases hx : x ∈ vs.map Prod.fst
        · obtain ⟨v, hv⟩ := Option.isSome_iff_exists.1 ((hk x).2 hx)
          have hz : ∃ s, (varEnv vs : List (String × PT T)).lookup x = some (.var x s) := by
            cases hl : (varEnv vs : List (String × PT T)).lookup x with
            | none =>
              rw [lookup_none] at hl
              exact absurd (by simpa [varEnv] using hx) hl
            | some u => obtain ⟨s, hs⟩ := varEnv_ok vs _ (lookup_mem hl); exact ⟨s, by rw [← hs]⟩
          obtain ⟨s, hs⟩ := hz
          have h1 := lookup_evalEnv I ρ' (varEnv vs) x
          rw [hs] at h1
          have hv' : ((vs.map Prod.fst).zip vals).reverse.lookup x = some v := hv
          rw [evalEnv] at h1
          rw [h1, hv']
          simp [PT.eval, ρ', hv]
        · have h1 : upd.lookup x = none := by
            cases hc : upd.lookup x with
            | none => rfl
            | some v => exact absurd ((hk x).1 (by simp [hc])) hx
          have h2 : (varEnv vs : List (String × PT T)).lookup x = none := by
            rw [lookup_none]; simpa [varEnv] using hx
          have h3 := lookup_evalEnv I ρ' (varEnv vs) x
          have h4 := lookup_evalEnv I ρ' env x
          have h5 := lookup_evalEnv I ρ env x
          rw [evalEnv] at h3 h4
          rw [h3, h2, h4, h5, show ((vs.map Prod.fst).zip vals).reverse.lookup x = none from h1]
          simp only [Option.map_none, Option.none_or]
          cases hc : env.lookup x with
          | none => rfl
          | some u =>
            obtain ⟨s, hs⟩ := he _ (lookup_mem hc)
            simp only at hs
            subst hs
            simp [PT.eval, ρ', h1]
      · intro h ρ
        have hvl : (vs.map fun v => ρ v.1 v.2).length = vs.length := by simp
        have := h ρ _ hvl
        refine (holds_congr body fun x => ?_).1 this
        congr 1
        rw [evalEnv, evalEnv, List.map_append]
        congr 1
        have : (vs.map Prod.fst).zip (vs.map fun v => ρ v.1 v.2) = vs.map fun v => (v.1, ρ v.1 v.2) := by
          rw [List.zip_map']
        rw [this, varEnv, List.map_reverse, List.map_map]
        congr 1
  | .num _ | .qid _ | .lqid _ _ | .letE _ _ _ | .other =>
    all_goals
      obtain ⟨h1, h2⟩ := parseTerm_of (D := D) hL _ env ls
      rw [parseTop]
      · refine ⟨h1, fun t ht I => ?_⟩
        rw [ht] at h2
        exact forall_congr' fun ρ => by simp only [PT.Holds, Ast.Holds]; rw [h2 I ρ]
      · intro vs body h; cases h

/-- **C69**. If the parser returns a term for an assertion, the term holds under all valuations of its variables exactly if
the assertion holds in the sense of SMT-LIB — for every interpretation of the predicates. -/
theorem C69_parse (hL : L.Ok M) (a : Ast) (hq : a.NoClash D) {t : PT T} {r : LetRecords (PT T)}
    (h : parseTop L D a .empty = (.ok t, r)) (I : Interp T) : (∀ ρ, t.Holds I ρ) ↔ a.Holds M D I [] := by
  obtain ⟨-, h2⟩ := parseTop_of hL a hq [] (fun b hb => by cases hb) []
  rw [← of_empty] at h2
  rw [h2 t (by rw [h]) I]
  exact ⟨fun h => h fun _ _ => T.vT, fun h _ => h⟩

/-- **C69** (scopes of one assertion do not leak into the next): however parsing ends, all bindings are undone. -/
theorem C69_restored (hL : L.Ok M) (a : Ast) (hq : a.NoClash D) : (parseTop L D a .empty).2 = .empty := by
  rw [of_empty]; exact (parseTop_of hL a hq [] (fun b hb => by cases hb) []).1

end

end Front
end Golem
