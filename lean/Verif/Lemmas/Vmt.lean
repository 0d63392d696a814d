import Verif.Model.Vmt
import Verif.Spec.Vmt
import Verif.Props.CheckSat

/-! Lemmas for the VMT front end. -/

namespace Golem
namespace Vmt
open SExpr (SExp)
open Front (ofB)
variable {T : Theory}

/-- The constructors of the logic build terms with the right values and without new variables. -/
structure VLogic.Ok (L : VLogic T) (M : VSem T) : Prop where
  const : ∀ s t, L.const s = some t → t.vars = [] ∧ ∀ ρ, M.num s = some (t.eval ρ)
  mkAnd : ∀ ts t, L.mkAnd ts = some t → ∀ ρ, t.eval ρ = ofB ((ts.map (Tm.eval ρ)).all T.truth)
  mkOr : ∀ ts t, L.mkOr ts = some t → ∀ ρ, t.eval ρ = ofB ((ts.map (Tm.eval ρ)).any T.truth)
  mkNot : ∀ ts t, L.mkNot ts = some t → ∃ a, ts = [a] ∧ ∀ ρ, t.eval ρ = ofB (!T.truth (a.eval ρ))
  mkEq : ∀ ts t, L.mkEq ts = some t → ∀ ρ, t.eval ρ = ofB (allEq (ts.map (Tm.eval ρ)))
  mkLeq : ∀ ts t, L.mkLeq ts = some t → ∀ ρ, t.eval ρ = M.leq (ts.map (Tm.eval ρ))
  mkPlus : ∀ ts t, L.mkPlus ts = some t → ∀ ρ, t.eval ρ = M.plus (ts.map (Tm.eval ρ))
  mkNeg : ∀ a t, L.mkNeg a = some t → ∀ ρ, t.eval ρ = M.neg (a.eval ρ)
  mkMinus : ∀ ts t, L.mkMinus ts = some t → ∀ ρ, t.eval ρ = M.minus (ts.map (Tm.eval ρ))
  mkTimes : ∀ ts t, L.mkTimes ts = some t → ∀ ρ, t.eval ρ = M.times (ts.map (Tm.eval ρ))
  vars : ∀ ts t, (L.mkAnd ts = some t ∨ L.mkOr ts = some t ∨ L.mkNot ts = some t ∨ L.mkEq ts = some t ∨ L.mkLeq ts = some t ∨
    L.mkPlus ts = some t ∨ L.mkMinus ts = some t ∨ L.mkTimes ts = some t ∨ ∃ a, ts = [a] ∧ L.mkNeg a = some t) →
    ∀ x ∈ t.vars, x ∈ ts.flatMap Tm.vars

/-- A variable of the input. -/
def IsUser (x : Var) : Prop := ∃ s, x = .base (.user s)

section
variable {L : VLogic T} {M : VSem T}

theorem applyOp_ok (hL : L.Ok M) {op : Str} {ts : List (Tm T)} {t : Tm T} (h : applyOp L op ts = some t) :
    (∀ x ∈ t.vars, x ∈ ts.flatMap Tm.vars) ∧ ∀ ρ, M.apply op (ts.map (Tm.eval ρ)) = some (t.eval ρ) := by
  unfold applyOp at h
  unfold VSem.apply
  split at h
  · rename_i h0; exact ⟨hL.vars _ _ (.inl h), fun ρ => by rw [if_pos h0, hL.mkAnd _ _ h]⟩
  · rename_i n0
    split at h
    · rename_i h0; exact ⟨hL.vars _ _ (by simp [h]), fun ρ => by rw [if_neg n0, if_pos h0, hL.mkOr _ _ h]⟩
    · rename_i n1
      split at h
      · rename_i h0
        obtain ⟨a, rfl, ha⟩ := hL.mkNot _ _ h
        exact ⟨hL.vars _ _ (by simp [h]), fun ρ => by rw [if_neg n0, if_neg n1, if_pos h0, ha]; rfl⟩
      · rename_i n2
        split at h
        · rename_i h0; exact ⟨hL.vars _ _ (by simp [h]), fun ρ => by rw [if_neg n0, if_neg n1, if_neg n2, if_pos h0, hL.mkEq _ _ h]⟩
        · rename_i n3
          split at h
          · rename_i h0
            exact ⟨hL.vars _ _ (by simp [h]), fun ρ => by rw [if_neg n0, if_neg n1, if_neg n2, if_neg n3, if_pos h0, hL.mkLeq _ _ h]⟩
          · rename_i n4
            split at h
            · rename_i h0
              exact ⟨hL.vars _ _ (by simp [h]),
                fun ρ => by rw [if_neg n0, if_neg n1, if_neg n2, if_neg n3, if_neg n4, if_pos h0, hL.mkPlus _ _ h]⟩
            · rename_i n5
              split at h
              · rename_i h0
                split at h
                · rename_i a
                  exact ⟨hL.vars _ _ (by simp [h]), fun ρ => by
                    rw [if_neg n0, if_neg n1, if_neg n2, if_neg n3, if_neg n4, if_neg n5, if_pos h0, hL.mkNeg _ _ h]; rfl⟩
                · rename_i hne
                  refine ⟨hL.vars _ _ (by simp [h]), fun ρ => ?_⟩
                  rw [if_neg n0, if_neg n1, if_neg n2, if_neg n3, if_neg n4, if_neg n5, if_pos h0, hL.mkMinus _ _ h]
                  match ts, hne with
                  | [], _ => rfl
                  | [a], hne => exact absurd rfl (hne a)
                  | a :: b :: l, _ => rfl
              · rename_i n6
                split at h
                · rename_i h0
                  exact ⟨hL.vars _ _ (by simp [h]), fun ρ => by
                    rw [if_neg n0, if_neg n1, if_neg n2, if_neg n3, if_neg n4, if_neg n5, if_neg n6, if_pos h0, hL.mkTimes _ _ h]⟩
                · cases h

/-- The values of the names, from the tables of the front end. -/
def tableEnv (isVar : Str → Bool) (ρ : Valuation T) (defs : List (Str × Tm T)) (s : Str) : Option T.Val :=
  if isVar s then some (ρ (.base (.user (String.ofList s)))) else (defs.map fun d => (d.1, d.2.eval ρ)).lookup s

/-- The table of variables. -/
def VarsOk (isVar : Str → Bool) (vars : List (Str × Tm T)) : Prop :=
  ∀ s, vars.lookup s = if isVar s then some (varOf s) else none

theorem lookup_map_snd {α β γ : Type} [BEq α] (f : β → γ) (l : List (α × β)) (a : α) :
    (l.map fun d => (d.1, f d.2)).lookup a = (l.lookup a).map f := by
  induction l with
  | nil => rfl
  | cons p l ih =>
    obtain ⟨x, y⟩ := p
    simp only [List.map_cons, List.lookup_cons]
    cases a == x <;> simp [ih]

theorem lookup_mem {α β : Type} [BEq α] [LawfulBEq α] {l : List (α × β)} {a : α} {b : β} (h : l.lookup a = some b) : (a, b) ∈ l := by
  induction l with
  | nil => cases h
  | cons p l ih =>
    obtain ⟨x, y⟩ := p
    rw [List.lookup_cons] at h
    split at h
    · rename_i hx
      cases h
      simp [eq_of_beq hx]
    · exact List.mem_cons_of_mem _ (ih h)

/-- Terms without tagged variables. -/
def UserTm (t : Tm T) : Prop := ∀ x ∈ t.vars, IsUser x

mutual
theorem parseTerm_ok (hL : L.Ok M) {isVar : Str → Bool} {vars defs : List (Str × Tm T)} (hv : VarsOk isVar vars)
    (hd : ∀ d ∈ defs, UserTm d.2) : ∀ (e : SExp) (t : Tm T), parseTerm L vars defs e = some t →
    UserTm t ∧ ∀ ρ, value M (tableEnv isVar ρ defs) e = some (t.eval ρ)
  | .atom s, t, h => by
    simp only [parseTerm, hv s] at h
    by_cases hs : isVar s = true
    · simp only [hs, if_true] at h
      cases h
      refine ⟨fun x hx => ?_, fun ρ => ?_⟩
      · simp only [varOf, Tm.vars, List.mem_singleton] at hx; exact ⟨_, hx⟩
      · simp only [value, tableEnv, hs, if_true]; rfl
    · simp only [hs, if_false, Bool.false_eq_true] at h
      cases hl : defs.lookup s with
      | some u =>
        rw [hl] at h; cases h
        refine ⟨hd _ (lookup_mem hl), fun ρ => ?_⟩
        simp only [value, tableEnv, hs, if_false, Bool.false_eq_true, lookup_map_snd, hl, Option.map_some]
      | none =>
        rw [hl] at h
        obtain ⟨h1, h2⟩ := hL.const s t h
        refine ⟨fun x hx => by rw [h1] at hx; simp at hx, fun ρ => ?_⟩
        simp only [value, tableEnv, hs, if_false, Bool.false_eq_true, lookup_map_snd, hl, Option.map_none]
        exact h2 ρ
  | .list [], t, h => by simp [parseTerm] at h
  | .list (.list _ :: _), t, h => by simp [parseTerm] at h
  | .list (.atom op :: args), t, h => by
    simp only [parseTerm] at h
    obtain ⟨ts, h1, h2⟩ := Option.bind_eq_some_iff.1 h
    obtain ⟨h3, h4⟩ := parseTerms_ok hL hv hd args ts h1
    obtain ⟨h5, h6⟩ := applyOp_ok hL h2
    refine ⟨fun x hx => ?_, fun ρ => ?_⟩
    · obtain ⟨u, hu, hx⟩ := List.mem_flatMap.1 (h5 x hx)
      exact h3 u hu x hx
    · simp only [value, h4 ρ, Option.bind_some, h6]

theorem parseTerms_ok (hL : L.Ok M) {isVar : Str → Bool} {vars defs : List (Str × Tm T)} (hv : VarsOk isVar vars)
    (hd : ∀ d ∈ defs, UserTm d.2) : ∀ (es : List SExp) (ts : List (Tm T)), parseTerms L vars defs es = some ts →
    (∀ t ∈ ts, UserTm t) ∧ ∀ ρ, values M (tableEnv isVar ρ defs) es = some (ts.map (Tm.eval ρ))
  | [], ts, h => by
    simp only [parseTerms, Option.some.injEq] at h
    subst h
    exact ⟨by simp, fun ρ => by simp [values]⟩
  | e :: es, ts, h => by
    simp only [parseTerms] at h
    obtain ⟨u, h1, h⟩ := Option.bind_eq_some_iff.1 h
    obtain ⟨us, h2, h⟩ := Option.bind_eq_some_iff.1 h
    cases h
    obtain ⟨a1, a2⟩ := parseTerm_ok hL hv hd e u h1
    obtain ⟨b1, b2⟩ := parseTerms_ok hL hv hd es us h2
    refine ⟨fun t ht => ?_, fun ρ => ?_⟩
    · rcases List.mem_cons.1 ht with rfl | ht
      · exact a1
      · exact b1 t ht
    · simp only [values, a2 ρ, b2 ρ, Option.bind_some, List.map_cons]
end

/-! ### The definitions -/

/-- What a definition with a role does to the gatherer. -/
def gatherRole (g : Gatherer T) (t : Tm T) : Role → Gatherer T
  | .plain => g
  | .init => { g with init := some t }
  | .trans => { g with trans := some t }
  | .next y => { g with pairs := g.pairs ++ [(t, varOf y)] }
  | .invar i => { g with invar := insertProp g.invar ((stoull i).getD 0) t }
  | .live i => { g with live := insertProp g.live ((stoull i).getD 0) t }

/-- The properties have an index. -/
def Indexed : Role → Prop
  | .invar i => (stoull i).isSome
  | .live i => (stoull i).isSome
  | _ => True

theorem annotations_nil (t : Tm T) (g : Gatherer T) : annotations t [] g = some g := rfl

theorem ann_init (t : Tm T) (g : Gatherer T) : annotations t [.atom ":init".toList] g = some { g with init := some t } := by
  rw [annotations, if_pos rfl]

theorem ann_true (t : Tm T) (g : Gatherer T) : annotations t [.atom "true".toList] g = some g := by
  rw [annotations, if_neg (by decide), if_neg (by decide), if_neg (by decide)]

theorem ann_initTrue (t : Tm T) (g : Gatherer T) :
    annotations t [.atom ":init".toList, .atom "true".toList] g = some { g with init := some t } := by
  rw [annotations, if_pos rfl, ann_true]

theorem ann_trans (t : Tm T) (g : Gatherer T) : annotations t [.atom ":trans".toList] g = some { g with trans := some t } := by
  rw [annotations, if_neg (by decide), if_pos rfl]

theorem ann_transTrue (t : Tm T) (g : Gatherer T) :
    annotations t [.atom ":trans".toList, .atom "true".toList] g = some { g with trans := some t } := by
  rw [annotations, if_neg (by decide), if_pos rfl, ann_true]

theorem ann_next (t : Tm T) (g : Gatherer T) (y : Str) (u : Tm T) (hy : g.vars.lookup y = some u) :
    annotations t [.atom ":next".toList, .atom y] g = some { g with pairs := g.pairs ++ [(t, u)] } := by
  rw [annotations, if_neg (by decide), if_neg (by decide), if_neg (by decide), if_neg (by decide), if_pos rfl, asAtom, Option.bind_some,
    hy]
  rfl

theorem ann_invar (t : Tm T) (g : Gatherer T) (i : Str) : annotations t [.atom ":invar-property".toList, .atom i] g =
    (stoull i).bind fun k => some { g with invar := insertProp g.invar k t } := by
  rw [annotations, if_neg (by decide), if_neg (by decide), if_pos rfl, asAtom, Option.bind_some]
  rfl

theorem ann_live (t : Tm T) (g : Gatherer T) (i : Str) : annotations t [.atom ":live-property".toList, .atom i] g =
    (stoull i).bind fun k => some { g with live := insertProp g.live k t } := by
  rw [annotations, if_neg (by decide), if_neg (by decide), if_neg (by decide), if_pos rfl, asAtom, Option.bind_some]
  rfl

theorem gatherDef_bang {g g' : Gatherer T} {n ty : Str} {e : SExp} {anns : List SExp}
    (h : gatherDef L g ⟨n, ty, .list (.atom "!".toList :: e :: anns)⟩ = some g') :
    ∃ u g1, parseTerm L g.vars g.defs e = some u ∧ annotations u anns g = some g1 ∧ g' = { g1 with defs := g1.defs ++ [(n, u)] } := by
  rw [gatherDef] at h
  simp only [if_true] at h
  obtain ⟨u, h1, h2⟩ := Option.bind_eq_some_iff.1 h
  obtain ⟨g1, h2, h3⟩ := Option.bind_eq_some_iff.1 h2
  exact ⟨u, g1, h1, h2, by cases h3; rfl⟩

theorem gatherDef_role {isVar : Str → Bool} {g g' : Gatherer T} {d : DefDecl} {t : SExp} {r : Role}
    (hv : VarsOk isVar g.vars) (hb : Body d.value t r) (hn : ∀ y, r = .next y → isVar y = true)
    (h : gatherDef L g d = some g') :
    ∃ u, parseTerm L g.vars g.defs t = some u ∧ Indexed r ∧
      g' = { gatherRole g u r with defs := g.defs ++ [(d.name, u)] } := by
  obtain ⟨n, ty, v⟩ := d
  simp only at hb
  cases hb with
  | plain hop =>
    rw [gatherDef] at h
    simp only [if_neg hop] at h
    obtain ⟨u, h1, h2⟩ := Option.bind_eq_some_iff.1 h
    cases h2
    exact ⟨u, h1, trivial, rfl⟩
  | init =>
    obtain ⟨u, g1, h1, h2, rfl⟩ := gatherDef_bang h
    rw [ann_init] at h2; cases h2
    exact ⟨u, h1, trivial, rfl⟩
  | initTrue =>
    obtain ⟨u, g1, h1, h2, rfl⟩ := gatherDef_bang h
    rw [ann_initTrue] at h2; cases h2
    exact ⟨u, h1, trivial, rfl⟩
  | trans =>
    obtain ⟨u, g1, h1, h2, rfl⟩ := gatherDef_bang h
    rw [ann_trans] at h2; cases h2
    exact ⟨u, h1, trivial, rfl⟩
  | transTrue =>
    obtain ⟨u, g1, h1, h2, rfl⟩ := gatherDef_bang h
    rw [ann_transTrue] at h2; cases h2
    exact ⟨u, h1, trivial, rfl⟩
  | @next x y =>
    obtain ⟨u, g1, h1, h2, rfl⟩ := gatherDef_bang h
    rw [ann_next _ _ _ _ (by rw [hv y, if_pos (hn y rfl)])] at h2; cases h2
    exact ⟨u, h1, trivial, rfl⟩
  | @invar _ i =>
    obtain ⟨u, g1, h1, h2, rfl⟩ := gatherDef_bang h
    rw [ann_invar] at h2
    obtain ⟨k, hk, h3⟩ := Option.bind_eq_some_iff.1 h2
    cases h3
    exact ⟨u, h1, by rw [Indexed, hk]; rfl, by rw [gatherRole, hk]; rfl⟩
  | @live _ i =>
    obtain ⟨u, g1, h1, h2, rfl⟩ := gatherDef_bang h
    rw [ann_live] at h2
    obtain ⟨k, hk, h3⟩ := Option.bind_eq_some_iff.1 h2
    cases h3
    exact ⟨u, h1, by rw [Indexed, hk]; rfl, by rw [gatherRole, hk]; rfl⟩

/-- The definitions of the front end are those of the file. -/
inductive SameDefs : List DefDecl → List Def → Prop where
  | nil : SameDefs [] []
  | cons {d D ds Ds} (hn : d.name = D.name) (hb : Body d.value D.term D.role) (h : SameDefs ds Ds) : SameDefs (d :: ds) (D :: Ds)

theorem gatherRole_vars (g : Gatherer T) (t : Tm T) (r : Role) : (gatherRole g t r).vars = g.vars ∧ (gatherRole g t r).defs = g.defs := by
  cases r <;> simp [gatherRole]

/-- What the loop over the definitions collects. -/
structure Collected (M : VSem T) (isVar : Str → Bool) (g g' : Gatherer T) (Ds : List Def) (ts : List (Tm T)) : Prop where
  len : ts.length = Ds.length
  user : ∀ t ∈ ts, UserTm t
  vals : ∀ ρ : Valuation T, defValues M isVar (fun s => ρ (.base (.user (String.ofList s)))) Ds (g.defs.map fun d => (d.1, d.2.eval ρ)) =
    some ((Ds.zip ts).map fun p => (p.1.role, p.2.eval ρ))
  init : g'.init = (Ds.zip ts).foldl (fun a p => if p.1.role = .init then some p.2 else a) g.init
  trans : g'.trans = (Ds.zip ts).foldl (fun a p => if p.1.role = .trans then some p.2 else a) g.trans
  pairs : g'.pairs = g.pairs ++ (Ds.zip ts).filterMap fun p => match p.1.role with
    | .next y => some (p.2, varOf y)
    | _ => none
  invar : g'.invar = (Ds.zip ts).foldl (fun m p => match p.1.role with
    | .invar i => insertProp m ((stoull i).getD 0) p.2
    | _ => m) g.invar
  live : g'.live = (Ds.zip ts).foldl (fun m p => match p.1.role with
    | .live i => insertProp m ((stoull i).getD 0) p.2
    | _ => m) g.live
  next : ∀ p ∈ Ds.zip ts, ∀ x y, p.1.term = .atom x → p.1.role = .next y → isVar x = true → p.2 = varOf x
  indexed : ∀ D ∈ Ds, Indexed D.role

theorem gatherDefs_ok (hL : L.Ok M) {isVar : Str → Bool} {ds : List DefDecl} {Ds : List Def} (hs : SameDefs ds Ds)
    {g g' : Gatherer T} (hv : VarsOk isVar g.vars) (hd : ∀ d ∈ g.defs, UserTm d.2)
    (hn : ∀ D ∈ Ds, ∀ y, D.role = .next y → isVar y = true) (h : gatherDefs L g ds = some g') :
    ∃ ts, Collected M isVar g g' Ds ts := by
  induction hs generalizing g with
  | nil =>
    simp only [gatherDefs, Option.some.injEq] at h
    subst h
    exact ⟨[], rfl, by simp, fun ρ => rfl, rfl, rfl, by simp, rfl, rfl, by simp, by simp⟩
  | @cons d D ds Ds hname hb hs ih =>
    simp only [gatherDefs] at h
    obtain ⟨g1, h1, h2⟩ := Option.bind_eq_some_iff.1 h
    obtain ⟨u, hu, hix, rfl⟩ := gatherDef_role hv hb (hn D (by simp)) h1
    obtain ⟨k1, k2⟩ := parseTerm_ok hL hv hd _ _ hu
    obtain ⟨e1, e2⟩ := gatherRole_vars g u D.role
    obtain ⟨ts, c⟩ := ih (g := { gatherRole g u D.role with defs := g.defs ++ [(d.name, u)] }) (by simpa only [e1] using hv)
      (fun d' hd' => by
        rcases List.mem_append.1 hd' with h | h
        · exact hd d' h
        · rw [List.mem_singleton.1 h]; exact k1) (fun D' h' => hn D' (List.mem_cons_of_mem _ h')) h2
    refine ⟨u :: ts, by simp [c.len], ?_, fun ρ => ?_, ?_, ?_, ?_, ?_, ?_, ?_, ?_⟩
    · intro t ht
      rcases List.mem_cons.1 ht with rfl | ht
      · exact k1
      · exact c.user t ht
    · have := c.vals ρ
      simp only [List.map_append, List.map_cons, List.map_nil, hname] at this
      simp only [defValues, List.zip_cons_cons, List.map_cons]
      have hval := k2 ρ
      have henv : (fun s => if isVar s = true then some ((fun s => ρ (.base (.user (String.ofList s)))) s) else
          (g.defs.map fun d => (d.1, d.2.eval ρ)).lookup s) = tableEnv isVar ρ g.defs := rfl
      rw [henv, hval, Option.bind_some, this, Option.bind_some]
    · rw [c.init]
      simp only [List.zip_cons_cons, List.foldl_cons]
      congr 1
      cases D.role <;> simp [gatherRole]
    · rw [c.trans]
      simp only [List.zip_cons_cons, List.foldl_cons]
      congr 1
      cases D.role <;> simp [gatherRole]
    · rw [c.pairs]
      simp only [List.zip_cons_cons, List.filterMap_cons]
      cases D.role <;> simp [gatherRole]
    · rw [c.invar]
      simp only [List.zip_cons_cons, List.foldl_cons]
      congr 1
      cases D.role <;> simp [gatherRole]
    · rw [c.live]
      simp only [List.zip_cons_cons, List.foldl_cons]
      congr 1
      cases D.role <;> simp [gatherRole]
    · intro p hp x y hx hy hxv
      rw [List.zip_cons_cons] at hp
      rcases List.mem_cons.1 hp with rfl | hp
      · simp only at hx ⊢
        rw [hx] at hu
        simp only [parseTerm, hv x, hxv, if_true, Option.some.injEq] at hu
        exact hu.symm
      · exact c.next p hp x y hx hy hxv
    · intro D' h'
      rcases List.mem_cons.1 h' with rfl | h'
      · exact hix
      · exact c.indexed D' h'

end
end Vmt
end Golem
