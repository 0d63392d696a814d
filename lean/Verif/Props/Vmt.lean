import Verif.Lemmas.Vmt

/-! **C73** The answer for a VMT file with an invariant property is right. -/

namespace Golem
namespace Vmt
open SExpr (SExp)
variable {T : Theory}

/-! ### From the file to the model -/

theorem resolve_command {e : SExp} {vs : List (Str × Str)} {ds : List Def} (hc : Command e vs ds) {b b' : Builder}
    (h : resolve b e = some b') :
    b'.vars = b.vars ++ vs.map (fun v => ⟨v.1, v.2⟩) ∧ ∃ dm, b'.defs = b.defs ++ dm ∧ SameDefs dm ds := by
  cases hc with
  | @declare x ty =>
    rw [resolve, if_pos rfl] at h
    cases h
    exact ⟨rfl, [], by simp, .nil⟩
  | @define x ty bd t r hb =>
    rw [resolve, if_neg (by decide), if_pos rfl] at h
    cases h
    exact ⟨by simp, [⟨x, ty, bd⟩], rfl, .cons rfl hb .nil⟩
  | info =>
    rw [resolve, if_neg (by decide), if_neg (by decide), if_neg (by decide), if_pos rfl] at h
    cases h
    exact ⟨by simp, [], by simp, .nil⟩

theorem SameDefs.append {a b : List DefDecl} {A B : List Def} (h : SameDefs a A) (h' : SameDefs b B) : SameDefs (a ++ b) (A ++ B) := by
  induction h with
  | nil => exact h'
  | cons hn hb _ ih => exact .cons hn hb ih

theorem resolveAll_contents {file : List SExp} {vs : List (Str × Str)} {ds : List Def} (hc : Contents file vs ds) :
    ∀ {b b' : Builder}, resolveAll b file = some b' →
    b'.vars = b.vars ++ vs.map (fun v => ⟨v.1, v.2⟩) ∧ ∃ dm, b'.defs = b.defs ++ dm ∧ SameDefs dm ds := by
  induction hc with
  | nil =>
    intro b b' h
    simp only [resolveAll, Option.some.injEq] at h
    subst h
    exact ⟨by simp, [], by simp, .nil⟩
  | cons h1 _ ih =>
    intro b b' h
    simp only [resolveAll] at h
    obtain ⟨b1, h2, h3⟩ := Option.bind_eq_some_iff.1 h
    obtain ⟨a1, dm1, a2, a3⟩ := resolve_command h1 h2
    obtain ⟨c1, dm2, c2, c3⟩ := ih h3
    exact ⟨by rw [c1, a1]; simp, dm1 ++ dm2, by rw [c2, a2]; simp, a3.append c3⟩

theorem table_lookup (l : List VarDecl) (s : Str) : (l.map fun v => (v.name, (varOf v.name : Tm T))).lookup s =
    if (l.map VarDecl.name).contains s then some (varOf s) else none := by
  induction l with
  | nil => rfl
  | cons v l ih =>
    simp only [List.map_cons, List.lookup_cons, List.contains_cons]
    by_cases h : s = v.name
    · subst h; simp
    · have : (s == v.name) = false := by simpa using h
      rw [this, ih]
      simp

section
variable {L : Bool → VLogic T} {M : VSem T}

theorem foldl_some {α β : Type} (p : α → Prop) [DecidablePred p] (f : α → β) (l : List α) (a : Option β) (t : β)
    (h : l.foldl (fun a x => if p x then some (f x) else a) a = some t) : a = some t ∨ ∃ x ∈ l, p x ∧ f x = t := by
  induction l generalizing a with
  | nil => exact .inl h
  | cons x l ih =>
    rw [List.foldl_cons] at h
    rcases ih _ h with h | ⟨y, hy, h⟩
    · split at h
      · rename_i hp
        cases h; exact .inr ⟨x, by simp, hp, rfl⟩
      · exact .inl h
    · exact .inr ⟨y, by simp [hy], h⟩

theorem insertProp_mem {m : List (Nat × Tm T)} {i : Nat} {t : Tm T} {q : Nat × Tm T} (h : q ∈ insertProp m i t) :
    q ∈ m ∨ q = (i, t) := by
  unfold insertProp at h
  split at h
  · exact .inl h
  · simpa using h

/-- Every property of the model comes from a definition. -/
theorem foldl_invar (l : List (Def × Tm T)) (m : List (Nat × Tm T)) (q : Nat × Tm T)
    (h : q ∈ l.foldl (fun m p => match p.1.role with
      | .invar i => insertProp m ((stoull i).getD 0) p.2
      | _ => m) m) : q ∈ m ∨ ∃ p ∈ l, ∃ i, p.1.role = .invar i ∧ q = ((stoull i).getD 0, p.2) := by
  induction l generalizing m with
  | nil => exact .inl h
  | cons x l ih =>
    rw [List.foldl_cons] at h
    rcases ih _ h with h | ⟨y, hy, i, h1, h2⟩
    · split at h
      · rename_i i hi
        rcases insertProp_mem h with h | h
        · exact .inl h
        · exact .inr ⟨x, by simp, i, hi, h⟩
      · exact .inl h
    · exact .inr ⟨y, by simp [hy], i, h1, h2⟩

theorem foldl_live (l : List (Def × Tm T)) (m : List (Nat × Tm T)) (q : Nat × Tm T)
    (h : q ∈ l.foldl (fun m p => match p.1.role with
      | .live i => insertProp m ((stoull i).getD 0) p.2
      | _ => m) m) : q ∈ m ∨ ∃ p ∈ l, ∃ i, p.1.role = .live i ∧ q = ((stoull i).getD 0, p.2) := by
  induction l generalizing m with
  | nil => exact .inl h
  | cons x l ih =>
    rw [List.foldl_cons] at h
    rcases ih _ h with h | ⟨y, hy, i, h1, h2⟩
    · split at h
      · rename_i i hi
        rcases insertProp_mem h with h | h
        · exact .inl h
        · exact .inr ⟨x, by simp, i, hi, h⟩
      · exact .inl h
    · exact .inr ⟨y, by simp [hy], i, h1, h2⟩

theorem foldl_isSome {α β : Type} (p : α → Prop) [DecidablePred p] (f : α → β) (l : List α) (a : Option β)
    (h : a.isSome ∨ ∃ x ∈ l, p x) : (l.foldl (fun a x => if p x then some (f x) else a) a).isSome := by
  induction l generalizing a with
  | nil => simpa using h
  | cons x l ih =>
    rw [List.foldl_cons]
    by_cases hp : p x
    · exact ih _ (.inl (by rw [if_pos hp]; rfl))
    · rw [if_neg hp]
      rcases h with h | ⟨y, hy, hpy⟩
      · exact ih _ (.inl h)
      · rcases List.mem_cons.1 hy with rfl | hy
        · exact absurd hpy hp
        · exact ih _ (.inr ⟨y, hy, hpy⟩)

theorem insertProp_ne (m : List (Nat × Tm T)) (i : Nat) (t : Tm T) : insertProp m i t ≠ [] := by
  unfold insertProp
  split
  · rintro rfl; simp at *
  · simp

theorem insertProp_same {k : Nat} {m : List (Nat × Tm T)} (hm : m = [] ∨ ∃ u, m = [(k, u)]) (t : Tm T) :
    ∃ u, insertProp m k t = [(k, u)] := by
  rcases hm with rfl | ⟨u, rfl⟩
  · exact ⟨t, by simp [insertProp]⟩
  · exact ⟨u, by simp [insertProp]⟩

/-- With one index there is one property. -/
theorem foldl_one (l : List (Def × Tm T)) (idx : Role → Option Str) (k : Nat) (hk : ∀ p ∈ l, ∀ i, idx p.1.role = some i → stoull i = some k)
    (m : List (Nat × Tm T)) (hm : m = [] ∨ ∃ u, m = [(k, u)]) :
    (l.foldl (fun m p => match idx p.1.role with
      | some i => insertProp m ((stoull i).getD 0) p.2
      | none => m) m = m ∧ (∀ p ∈ l, idx p.1.role = none)) ∨
    ∃ u, l.foldl (fun m p => match idx p.1.role with
      | some i => insertProp m ((stoull i).getD 0) p.2
      | none => m) m = [(k, u)] := by
  induction l generalizing m with
  | nil => exact .inl ⟨rfl, by simp⟩
  | cons x l ih =>
    rw [List.foldl_cons]
    cases hx : idx x.1.role with
    | none =>
      rcases ih (fun p hp => hk p (by simp [hp])) m hm with ⟨h1, h2⟩ | h
      · exact .inl ⟨h1, fun p hp => (List.mem_cons.1 hp).elim (fun h => h ▸ hx) (h2 p)⟩
      · exact .inr h
    | some i =>
      have hi := hk x (by simp) i hx
      simp only [hi, Option.getD_some]
      obtain ⟨u, hu⟩ := insertProp_same hm x.2
      rw [hu]
      rcases ih (fun p hp => hk p (by simp [hp])) _ (.inr ⟨u, rfl⟩) with ⟨h1, -⟩ | h
      · exact .inr ⟨u, h1⟩
      · exact .inr h

/-- The index of an invariant property. -/
def invarIdx : Role → Option Str
  | .invar i => some i
  | _ => none

/-- The index of a liveness property. -/
def liveIdx : Role → Option Str
  | .live i => some i
  | _ => none

/-- The names of a valuation. -/
def onNames (ρ : Valuation T) : Str → T.Val := fun s => ρ (.base (.user (String.ofList s)))

/-- The valuation of the names. -/
def ofNames (ρ : Str → T.Val) : Valuation T
  | .base (.user s) => ρ s.toList
  | _ => T.vT

theorem onNames_ofNames (ρ : Str → T.Val) : onNames (ofNames ρ) = ρ := by
  funext s
  simp [onNames, ofNames]

theorem eval_varOf (ρ : Valuation T) (x : Str) : (varOf x : Tm T).eval ρ = onNames ρ x := rfl

/-- What the model of a problem contains. -/
structure ModelOf (M : VSem T) (vars : List (Str × Str)) (ds : List Def) (m : VModel T) : Prop where
  state : m.stateVars = (statePairs ds).map fun p => varOf p.1
  next : m.nextStateVars = (statePairs ds).map fun p => varOf p.2
  init : ∀ t, m.init = some t → UserTm t ∧ ∀ ρ, Holds M (vars.map Prod.fst) ds .init (onNames ρ) ↔ T.truth (t.eval ρ) = true
  trans : ∀ t, m.trans = some t → UserTm t ∧ ∀ ρ, Holds M (vars.map Prod.fst) ds .trans (onNames ρ) ↔ T.truth (t.eval ρ) = true
  invar : ∀ k t, (k, t) ∈ m.invar → ∃ i, stoull i = some k ∧ UserTm t ∧ (Once ds (.invar i) →
    ∀ ρ, Holds M (vars.map Prod.fst) ds (.invar i) (onNames ρ) ↔ T.truth (t.eval ρ) = true) ∧ ∃ d ∈ ds, d.role = .invar i
  live : ∀ k t, (k, t) ∈ m.live → ∃ i, stoull i = some k ∧ UserTm t ∧ (Once ds (.live i) →
    ∀ ρ, Holds M (vars.map Prod.fst) ds (.live i) (onNames ρ) ↔ T.truth (t.eval ρ) = true) ∧ ∃ d ∈ ds, d.role = .live i
  initSome : m.init.isSome
  transSome : m.trans.isSome
  oneInvar : ∀ i, (∃ d ∈ ds, d.role = .invar i) → (∀ d ∈ ds, ∀ j, d.role = .invar j → j = i) →
    ∃ k u, stoull i = some k ∧ m.invar = [(k, u)]
  oneLive : ∀ i, (∃ d ∈ ds, d.role = .live i) → (∀ d ∈ ds, ∀ j, d.role = .live j → j = i) →
    ∃ k u, stoull i = some k ∧ m.live = [(k, u)]
  ints : m.ints = intNames (vars.map fun v => ⟨v.1, v.2⟩)

theorem mem_zip_unique {ds : List Def} {ts : List (Tm T)} (hl : ts.length = ds.length) {r : Role} (ho : Once ds r)
    {p q : Def × Tm T} (hp : p ∈ ds.zip ts) (hq : q ∈ ds.zip ts) (h1 : p.1.role = r) (h2 : q.1.role = r) : p = q := by
  have hf : ((ds.zip ts).filter fun p => p.1.role = r).map Prod.fst = ds.filter fun d => d.role = r := by
    have := List.map_fst_zip (l₁ := ds) (l₂ := ts) (by omega)
    conv_rhs => rw [← this, List.filter_map]
    rfl
  have hlen : ((ds.zip ts).filter fun p => p.1.role = r).length = 1 := by
    rw [← List.length_map (f := Prod.fst), hf]; exact ho
  obtain ⟨x, hm⟩ := List.length_eq_one_iff.1 hlen
  have a : p ∈ (ds.zip ts).filter fun p => p.1.role = r := List.mem_filter.2 ⟨hp, by simpa using h1⟩
  have b : q ∈ (ds.zip ts).filter fun p => p.1.role = r := List.mem_filter.2 ⟨hq, by simpa using h2⟩
  rw [hm, List.mem_singleton] at a b
  rw [a, b]

theorem holds_of_mem {isVar : List Str} {g g' : Gatherer T} {ds : List Def} {ts : List (Tm T)}
    (c : Collected M (isVar.contains ·) g g' ds ts) (hg : g.defs = []) {r : Role} (ho : Once ds r) {p : Def × Tm T}
    (hp : p ∈ ds.zip ts) (hr : p.1.role = r) (ρ : Valuation T) :
    Holds M isVar ds r (onNames ρ) ↔ T.truth (p.2.eval ρ) = true := by
  have hv := c.vals ρ
  rw [hg] at hv
  constructor
  · rintro ⟨vs, v, h1, h2, h3⟩
    have : vs = (ds.zip ts).map fun p => (p.1.role, p.2.eval ρ) := by
      have h1' : defValues M (isVar.contains ·) (fun s => ρ (.base (.user (String.ofList s)))) ds [] = some vs := h1
      rw [List.map_nil] at hv
      rw [hv] at h1'
      exact (Option.some.inj h1').symm
    subst this
    obtain ⟨q, hq, he⟩ := List.mem_map.1 h2
    simp only [Prod.mk.injEq] at he
    rw [mem_zip_unique c.len ho hp hq hr he.1, he.2]
    exact h3
  · intro h
    exact ⟨_, p.2.eval ρ, hv, List.mem_map.2 ⟨p, hp, by rw [hr]⟩, h⟩

theorem zip_of_mem {ds : List Def} {ts : List (Tm T)} (hl : ts.length = ds.length) {d : Def} (hd : d ∈ ds) :
    ∃ p ∈ ds.zip ts, p.1 = d := by
  have : d ∈ (ds.zip ts).map Prod.fst := by rw [List.map_fst_zip (by omega)]; exact hd
  obtain ⟨p, h1, h2⟩ := List.mem_map.1 this
  exact ⟨p, h1, h2⟩

theorem once_mem {ds : List Def} {r : Role} (ho : Once ds r) : ∃ d ∈ ds, d.role = r := by
  obtain ⟨x, hx⟩ := List.length_eq_one_iff.1 ho
  have : x ∈ ds.filter fun d => d.role = r := by rw [hx]; simp
  exact ⟨x, (List.mem_filter.1 this).1, by simpa using (List.mem_filter.1 this).2⟩

theorem once_zip {ds : List Def} {ts : List (Tm T)} (hl : ts.length = ds.length) {r : Role} (ho : Once ds r) :
    ∃ p ∈ ds.zip ts, p.1.role = r := by
  obtain ⟨d, hd, hr⟩ := once_mem ho
  obtain ⟨p, hp, rfl⟩ := zip_of_mem hl hd
  exact ⟨p, hp, hr⟩

theorem build_ok (hL : ∀ k, (L k).Ok M) {vars : List (Str × Str)} {ds : List Def} {dm : List DefDecl} (hs : SameDefs dm ds)
    (hi : Once ds .init) (ht : Once ds .trans)
    (hdec : ∀ d ∈ ds, ∀ y, d.role = .next y → y ∈ vars.map Prod.fst ∧ ∃ x, d.term = .atom x ∧ x ∈ vars.map Prod.fst)
    {m : VModel T} (h : build L ⟨vars.map fun v => ⟨v.1, v.2⟩, dm⟩ = some m) : ModelOf M vars ds m := by
  unfold build at h
  obtain ⟨k, -, h⟩ := Option.bind_eq_some_iff.1 h
  obtain ⟨g, hg, h⟩ := Option.bind_eq_some_iff.1 h
  cases h
  have hname : (vars.map fun v => (⟨v.1, v.2⟩ : VarDecl)).map VarDecl.name = vars.map Prod.fst := by
    rw [List.map_map]; rfl
  obtain ⟨ts, c⟩ := gatherDefs_ok (hL k) (isVar := ((vars.map Prod.fst).contains ·)) hs
    (fun s => by rw [table_lookup, hname]) (by simp)
    (fun D hD y hy => by simpa using (hdec D hD y hy).1) hg
  have hpairs : g.pairs = (statePairs ds).map fun p => (varOf p.1, varOf p.2) := by
    rw [c.pairs]
    have hn := c.next
    have hl := c.len
    clear c hg hs hi ht
    simp only [List.nil_append]
    induction ds generalizing ts with
    | nil => rfl
    | cons d ds ih =>
      cases ts with
      | nil => simp at hl
      | cons t ts =>
        have ih := ih (fun d' h' => hdec d' (List.mem_cons_of_mem _ h')) ts
          (fun p hp => hn p (by rw [List.zip_cons_cons]; exact List.mem_cons_of_mem _ hp)) (by simpa using hl)
        rw [List.zip_cons_cons, List.filterMap_cons]
        cases hr : d.role with
        | next y =>
          obtain ⟨-, x, hx, hx'⟩ := hdec d (by simp) y hr
          have := hn (d, t) (by simp) x y hx hr (by simpa using hx')
          simp only at this
          rw [statePairs, hx, hr]
          simp only [List.map_cons]
          rw [ih, this]
        | _ =>
          have hsp : statePairs (d :: ds) = statePairs ds := by
            rw [statePairs]
            split
            · rename_i h2; rw [hr] at h2; cases h2
            · rfl
          rw [hsp]
          exact ih
  refine ⟨by simp [hpairs], by simp [hpairs], ?_, ?_, ?_, ?_, ?_, ?_, ?_, ?_, rfl⟩
  · intro t h
    simp only at h
    rw [c.init] at h
    rcases foldl_some (fun p : Def × Tm T => p.1.role = .init) (fun p => p.2) _ _ _ h with h | ⟨p, hp, hr, rfl⟩
    · cases h
    · exact ⟨c.user _ (List.of_mem_zip hp).2, holds_of_mem c rfl hi hp hr⟩
  · intro t h
    simp only at h
    rw [c.trans] at h
    rcases foldl_some (fun p : Def × Tm T => p.1.role = .trans) (fun p => p.2) _ _ _ h with h | ⟨p, hp, hr, rfl⟩
    · cases h
    · exact ⟨c.user _ (List.of_mem_zip hp).2, holds_of_mem c rfl ht hp hr⟩
  · intro k t h
    simp only at h
    rw [c.invar] at h
    rcases foldl_invar _ _ _ h with h | ⟨p, hp, i, hr, he⟩
    · simp at h
    · have hix := c.indexed p.1 (List.of_mem_zip hp).1
      rw [hr] at hix
      obtain ⟨j, hj⟩ := Option.isSome_iff_exists.1 hix
      simp only [hj, Option.getD_some, Prod.mk.injEq] at he
      obtain ⟨rfl, rfl⟩ := he
      exact ⟨i, hj, c.user _ (List.of_mem_zip hp).2, fun ho => holds_of_mem c rfl ho hp hr, p.1, (List.of_mem_zip hp).1, hr⟩
  · intro k t h
    simp only at h
    rw [c.live] at h
    rcases foldl_live _ _ _ h with h | ⟨p, hp, i, hr, he⟩
    · simp at h
    · have hix := c.indexed p.1 (List.of_mem_zip hp).1
      rw [hr] at hix
      obtain ⟨j, hj⟩ := Option.isSome_iff_exists.1 hix
      simp only [hj, Option.getD_some, Prod.mk.injEq] at he
      obtain ⟨rfl, rfl⟩ := he
      exact ⟨i, hj, c.user _ (List.of_mem_zip hp).2, fun ho => holds_of_mem c rfl ho hp hr, p.1, (List.of_mem_zip hp).1, hr⟩

  · obtain ⟨p, hp, hr⟩ := once_zip c.len hi
    rw [c.init]
    exact foldl_isSome (fun p : Def × Tm T => p.1.role = .init) (fun p => p.2) _ _ (.inr ⟨p, hp, hr⟩)
  · obtain ⟨p, hp, hr⟩ := once_zip c.len ht
    rw [c.trans]
    exact foldl_isSome (fun p : Def × Tm T => p.1.role = .trans) (fun p => p.2) _ _ (.inr ⟨p, hp, hr⟩)
  · rintro i ⟨d, hd, hdr⟩ hj
    have hix := c.indexed d hd
    rw [hdr] at hix
    obtain ⟨k, hk⟩ := Option.isSome_iff_exists.1 hix
    have hinv : g.invar = (ds.zip ts).foldl (fun m p => match invarIdx p.1.role with
        | some i => insertProp m ((stoull i).getD 0) p.2
        | none => m) [] :=
      c.invar.trans (congrArg (fun f => List.foldl f [] (ds.zip ts)) (funext fun m => funext fun p => by
        cases p.1.role <;> rfl))
    have hall : ∀ p ∈ ds.zip ts, ∀ i', invarIdx p.1.role = some i' → stoull i' = some k := by
      intro p hp i' hi'
      have : p.1.role = .invar i' := by
        cases hr : p.1.role <;> rw [hr] at hi' <;> cases hi'
        rfl
      rw [hj _ (List.of_mem_zip hp).1 _ this, hk]
    rcases foldl_one (ds.zip ts) invarIdx k hall [] (.inl rfl) with ⟨-, h2⟩ | ⟨u, h⟩
    · obtain ⟨p, hp, hpd⟩ := zip_of_mem c.len hd
      have := h2 p hp
      rw [hpd, hdr] at this
      cases this
    · exact ⟨k, u, hk, hinv.trans h⟩
  · rintro i ⟨d, hd, hdr⟩ hj
    have hix := c.indexed d hd
    rw [hdr] at hix
    obtain ⟨k, hk⟩ := Option.isSome_iff_exists.1 hix
    have hinv : g.live = (ds.zip ts).foldl (fun m p => match liveIdx p.1.role with
        | some i => insertProp m ((stoull i).getD 0) p.2
        | none => m) [] :=
      c.live.trans (congrArg (fun f => List.foldl f [] (ds.zip ts)) (funext fun m => funext fun p => by
        cases p.1.role <;> rfl))
    have hall : ∀ p ∈ ds.zip ts, ∀ i', liveIdx p.1.role = some i' → stoull i' = some k := by
      intro p hp i' hi'
      have : p.1.role = .live i' := by
        cases hr : p.1.role <;> rw [hr] at hi' <;> cases hi'
        rfl
      rw [hj _ (List.of_mem_zip hp).1 _ this, hk]
    rcases foldl_one (ds.zip ts) liveIdx k hall [] (.inl rfl) with ⟨-, h2⟩ | ⟨u, h⟩
    · obtain ⟨p, hp, hpd⟩ := zip_of_mem c.len hd
      have := h2 p hp
      rw [hpd, hdr] at this
      cases this
    · exact ⟨k, u, hk, hinv.trans h⟩

/-- The model the front end builds for a problem. -/
theorem model_of_problem (hL : ∀ k, (L k).Ok M) {file : List SExp} {vars : List (Str × Str)} {ds : List Def} {r : Role}
    (hp : Problem file vars ds r) {m : VModel T} (h : (resolveAll ⟨[], []⟩ file).bind (build L) = some m) : ModelOf M vars ds m := by
  obtain ⟨b, h1, h2⟩ := Option.bind_eq_some_iff.1 h
  obtain ⟨a1, dm, a2, a3⟩ := resolveAll_contents hp.contents h1
  obtain ⟨bv, bd⟩ := b
  simp only [List.nil_append] at a1 a2
  subst a1 a2
  exact build_ok hL a3 hp.init hp.trans hp.declared h2

/-! ### The clauses -/

theorem varOf_vars (x : Str) : (varOf x : Tm T).vars = [.base (.user (String.ofList x))] := rfl

theorem user_varOfs {α : Type} (l : List α) (f : α → Str) : ∀ t ∈ l.map (fun p => (varOf (f p) : Tm T)), UserTm t := by
  intro t ht
  obtain ⟨p, -, rfl⟩ := List.mem_map.1 ht
  intro x hx
  rw [varOf_vars, List.mem_singleton] at hx
  exact ⟨_, hx⟩

theorem IsUser.untagged {x : Var} (h : IsUser x) : x.Untagged := by
  obtain ⟨s, rfl⟩ := h; trivial

/-- The arity of the one predicate. -/
def vmtArity (n : Nat) : Pred → Nat
  | .p _ => n
  | _ => 0

theorem asChcs_some {m : VModel T} {cs : List (Clause T)} (h : asChcs m = some cs) :
    ∃ ti tt tp, m.init = some ti ∧ m.trans = some tt ∧ m.invar.lookup 0 = some tp ∧
      cs = [⟨(.p 0, m.stateVars), .atom ti, []⟩, ⟨(.p 0, m.nextStateVars), .atom tt, [(.p 0, m.stateVars)]⟩,
        ⟨(.fls, []), .not (.atom tp), [(.p 0, m.stateVars)]⟩] := by
  unfold asChcs at h
  simp only [Option.bind_eq_bind, Option.pure_def] at h
  obtain ⟨ti, h1, h⟩ := Option.bind_eq_some_iff.1 h
  obtain ⟨tt, h2, h⟩ := Option.bind_eq_some_iff.1 h
  obtain ⟨tp, h3, h⟩ := Option.bind_eq_some_iff.1 h
  cases h
  exact ⟨ti, tt, tp, h1, h2, h3, rfl⟩

theorem asChcs_legal {vars : List (Str × Str)} {ds : List Def} {m : VModel T} (hm : ModelOf M vars ds m) {cs : List (Clause T)}
    (h : asChcs m = some cs) : LegalInput (vmtArity m.stateVars.length) cs := by
  obtain ⟨ti, tt, tp, h1, h2, h3, rfl⟩ := asChcs_some h
  have hlen : m.nextStateVars.length = m.stateVars.length := by rw [hm.state, hm.next]; simp
  have us : ∀ t ∈ m.stateVars, UserTm t := by rw [hm.state]; exact user_varOfs _ _
  have un : ∀ t ∈ m.nextStateVars, UserTm t := by rw [hm.next]; exact user_varOfs _ _
  obtain ⟨i, -, ui, -⟩ := hm.invar 0 tp (lookup_mem h3)
  refine ⟨⟨rfl, rfl, ?_⟩, ?_, ?_⟩
  · simp [vmtArity, hlen]
  · intro c hc x hx
    refine IsUser.untagged ?_
    simp only [List.mem_cons, List.not_mem_nil, or_false] at hc
    rcases hc with rfl | rfl | rfl
    · simp only [Clause.vars, Fla.vars, List.flatMap_nil, List.append_nil, List.mem_append, List.mem_flatMap] at hx
      rcases hx with hx | ⟨t, ht, hx⟩
      · exact (hm.init ti h1).1 x hx
      · exact us t ht x hx
    · simp only [Clause.vars, Fla.vars, List.mem_append, List.mem_flatMap, List.mem_singleton, exists_eq_left] at hx
      rcases hx with hx | ⟨t, ht, hx⟩ | ⟨t, ht, hx⟩
      · exact (hm.trans tt h2).1 x hx
      · exact un t ht x hx
      · exact us t ht x hx
    · simp only [Clause.vars, Fla.vars, List.flatMap_nil, List.nil_append, List.mem_append, List.mem_flatMap, List.mem_singleton,
        exists_eq_left] at hx
      rcases hx with hx | ⟨t, ht, hx⟩
      · exact ui x hx
      · exact us t ht x hx
  · intro c hc
    simp only [List.mem_cons, List.not_mem_nil, or_false] at hc
    rcases hc with rfl | rfl | rfl <;> exact ⟨by simp, by simp⟩

theorem eval_state {ds : List Def} (f : Str × Str → Str) (ρ : Valuation T) :
    ((statePairs ds).map fun p => (varOf (f p) : Tm T)).map (Tm.eval ρ) = (statePairs ds).map fun p => onNames ρ (f p) := by
  rw [List.map_map]; rfl

/-- What is derived from the clauses are the reachable states, and `false` if the property fails in one of them. -/
theorem asChcs_derivable {vars : List (Str × Str)} {ds : List Def} {m : VModel T} (hm : ModelOf M vars ds m) {cs : List (Clause T)}
    (h : asChcs m = some cs) {i : Str} (ho : Once ds (.invar i)) (hi : ∀ d ∈ ds, ∀ j, d.role = .invar j → Role.invar j = .invar i) :
    Derivable (clauseRules cs) falseFact ↔ ¬ Safe M (vars.map Prod.fst) ds (.invar i) := by
  obtain ⟨ti, tt, tp, h1, h2, h3, rfl⟩ := asChcs_some h
  obtain ⟨-, hI⟩ := hm.init ti h1
  obtain ⟨-, hT⟩ := hm.trans tt h2
  obtain ⟨j, -, -, hP, d, hd, hdj⟩ := hm.invar 0 tp (lookup_mem h3)
  obtain rfl : j = i := by simpa using hi d hd j hdj
  replace hP := hP ho
  have fwd : ∀ f, Derivable (clauseRules [⟨(.p 0, m.stateVars), .atom ti, []⟩,
      ⟨(.p 0, m.nextStateVars), .atom tt, [(.p 0, m.stateVars)]⟩,
      (⟨(.fls, []), .not (.atom tp), [(.p 0, m.stateVars)]⟩ : Clause T)]) f →
      (f.1 = .p 0 → Reach M (vars.map Prod.fst) ds f.2) ∧ (f.1 = .fls → ¬ Safe M (vars.map Prod.fst) ds (.invar j)) := by
    intro f hf
    induction hf with
    | entry => exact ⟨fun h => by simp [trueFact] at h, fun h => by simp [trueFact] at h⟩
    | step r hr hb ih =>
      obtain ⟨c, hc, ρ, hh, rfl⟩ := hr
      simp only [List.mem_cons, List.not_mem_nil, or_false] at hc
      rcases hc with rfl | rfl | rfl
      · refine ⟨fun _ => ?_, fun h => by simp [PAtom.ground] at h⟩
        simp only [PAtom.ground, hm.state, eval_state Prod.fst]
        exact .init ((hI ρ).2 hh)
      · refine ⟨fun _ => ?_, fun h => by simp [PAtom.ground] at h⟩
        have := (ih _ (List.mem_map.2 ⟨_, List.mem_singleton.2 rfl, rfl⟩)).1 rfl
        simp only [PAtom.ground, hm.state, hm.next, eval_state Prod.fst, eval_state Prod.snd] at this ⊢
        exact .step this ((hT ρ).2 hh)
      · refine ⟨fun h => by simp [PAtom.ground] at h, fun _ hs => ?_⟩
        have := (ih _ (List.mem_map.2 ⟨_, List.mem_singleton.2 rfl, rfl⟩)).1 rfl
        simp only [PAtom.ground, hm.state, eval_state Prod.fst] at this
        exact hh ((hP ρ).1 (hs _ this))
  have bwd : ∀ s, Reach M (vars.map Prod.fst) ds s → Derivable (clauseRules [⟨(.p 0, m.stateVars), .atom ti, []⟩,
      ⟨(.p 0, m.nextStateVars), .atom tt, [(.p 0, m.stateVars)]⟩,
      (⟨(.fls, []), .not (.atom tp), [(.p 0, m.stateVars)]⟩ : Clause T)]) (.p 0, s) := by
    intro s hs
    induction hs with
    | @init ρ h =>
      rw [← onNames_ofNames ρ] at h ⊢
      refine Derivable.step ⟨[], (.p 0, _)⟩ ⟨_, List.mem_cons_self .., ofNames ρ, (hI _).1 h, ?_⟩ (by simp)
      simp only [PAtom.ground, hm.state, eval_state Prod.fst, List.map_nil]
    | @step ρ _ h ih =>
      rw [← onNames_ofNames ρ] at h ih ⊢
      refine Derivable.step ⟨[(.p 0, _)], (.p 0, _)⟩ ⟨_, List.mem_cons_of_mem _ (List.mem_cons_self ..), ofNames ρ, (hT _).1 h, ?_⟩
        (by simpa using ih)
      simp only [PAtom.ground, hm.state, hm.next, eval_state Prod.fst, eval_state Prod.snd, List.map_cons, List.map_nil]
  refine ⟨fun h => (fwd _ h).2 rfl, fun h => ?_⟩
  simp only [Safe, Classical.not_forall] at h
  obtain ⟨ρ, hr, hn⟩ := h
  have hd := bwd _ hr
  rw [← onNames_ofNames ρ] at hn hd
  refine Derivable.step ⟨[(.p 0, _)], falseFact⟩
    ⟨_, List.mem_cons_of_mem _ (List.mem_cons_of_mem _ (List.mem_cons_self ..)), ofNames ρ, fun h => hn ((hP _).2 h), ?_⟩
    (by simpa using hd)
  simp only [PAtom.ground, hm.state, eval_state Prod.fst, List.map_cons, List.map_nil, falseFact]

/-! ### The answer -/

theorem buildFrom_edges (cs : List (Clause T)) (id : Nat) (e : Edge T) (he : e ∈ buildFrom id cs) :
    ∃ c ∈ cs, e.tgt = c.head.1 ∧ e.src = if (c.body.map Prod.fst).isEmpty then [.tru] else c.body.map Prod.fst := by
  induction cs generalizing id with
  | nil => simp [buildFrom] at he
  | cons c cs ih =>
    simp only [buildFrom, List.mem_cons] at he
    rcases he with rfl | he
    · exact ⟨c, by simp, rfl, rfl⟩
    · obtain ⟨c', h1, h2⟩ := ih _ he
      exact ⟨c', by simp [h1], h2⟩

theorem buildFrom_edges' (cs : List (Clause T)) (id : Nat) (c : Clause T) (hc : c ∈ cs) :
    ∃ e ∈ buildFrom id cs, e.tgt = c.head.1 ∧ e.src = if (c.body.map Prod.fst).isEmpty then [.tru] else c.body.map Prod.fst := by
  induction cs generalizing id with
  | nil => simp at hc
  | cons c' cs ih =>
    rcases List.mem_cons.1 hc with rfl | hc
    · exact ⟨clauseEdge id c, by simp [buildFrom], rfl, rfl⟩
    · obtain ⟨e, h1, h2⟩ := ih (id + 1) hc
      exact ⟨e, by simp [buildFrom, h1], h2⟩

theorem normalizeFrom_heads (cs : List (Clause T)) (st : NState) :
    (normalizeFrom st cs).2.map (fun c => (c.head.1, c.body.map Prod.fst)) = cs.map fun c => (c.head.1, c.body.map Prod.fst) := by
  induction cs generalizing st with
  | nil => rfl
  | cons c cs ih =>
    simp only [normalizeFrom, List.map_cons, ih, normalizeClause, normClauseWith, List.map_map]
    congr 2
    exact instances_fst _

theorem normalize_fwd {cs : List (Clause T)} {c : Clause T} (hc : c ∈ cs) :
    ∃ c' ∈ (normalize cs).2, c'.head.1 = c.head.1 ∧ c'.body.map Prod.fst = c.body.map Prod.fst := by
  have : (c.head.1, c.body.map Prod.fst) ∈ (normalize cs).2.map (fun c => (c.head.1, c.body.map Prod.fst)) := by
    rw [normalize, normalizeFrom_heads]; exact List.mem_map.2 ⟨c, hc, rfl⟩
  obtain ⟨c', h1, h2⟩ := List.mem_map.1 this
  simp only [Prod.mk.injEq] at h2
  exact ⟨c', h1, h2⟩

theorem normalize_bwd {cs : List (Clause T)} {c' : Clause T} (hc : c' ∈ (normalize cs).2) :
    ∃ c ∈ cs, c'.head.1 = c.head.1 ∧ c'.body.map Prod.fst = c.body.map Prod.fst := by
  have : (c'.head.1, c'.body.map Prod.fst) ∈ cs.map (fun c => (c.head.1, c.body.map Prod.fst)) := by
    rw [← normalizeFrom_heads cs NState.init]; exact List.mem_map.2 ⟨c', hc, rfl⟩
  obtain ⟨c, h1, h2⟩ := List.mem_map.1 this
  simp only [Prod.mk.injEq] at h2
  exact ⟨c, h1, h2.1.symm, h2.2.symm⟩

/-- In the graph of clauses over one predicate with a fact every edge starts at a vertex that can be reached. -/
theorem initial_noStray {cs : List (Clause T)} {k : Nat} (h0 : ∃ c ∈ cs, c.body = [] ∧ c.head.1 = .p k)
    (hb : ∀ c ∈ cs, ∀ a ∈ c.body, a.1 = .p k) : (initialGraph cs).edges.NoStray := by
  have hreach : FwdReach (initialGraph cs).edges (.p k) := by
    obtain ⟨c, hc, hbody, hhead⟩ := h0
    obtain ⟨c', hc', a1, a2⟩ := normalize_fwd hc
    obtain ⟨e, he, e1, e2⟩ := buildFrom_edges' _ 0 c' hc'
    rw [a2, hbody] at e2
    simp only [List.map_nil, List.isEmpty_nil, if_true] at e2
    have := FwdReach.step (G := (initialGraph cs).edges) (e := e) he (by rw [e2]; simp)
      (fun s hs => by rw [e2, List.mem_singleton] at hs; rw [hs]; exact .entry)
    rwa [e1, a1, hhead] at this
  intro e he s hs
  obtain ⟨c', hc', -, e2⟩ := buildFrom_edges _ 0 e he
  obtain ⟨c, hc, -, a2⟩ := normalize_bwd hc'
  rw [e2, a2] at hs
  split at hs
  · rw [List.mem_singleton.1 hs]; exact .entry
  · obtain ⟨a, ha, rfl⟩ := List.mem_map.1 hs
    rw [hb c hc a ha]; exact hreach

theorem map_noStray {G : Graph T} {f : Edge T → Edge T} (hf : ∀ e ∈ G, (f e).src = e.src ∧ (f e).tgt = e.tgt) (h : G.NoStray) :
    Graph.NoStray (G.map f) := by
  have key : ∀ p, FwdReach G p → FwdReach (G.map f) p := by
    intro p hp
    induction hp with
    | entry => exact .entry
    | @step e he hne _ ih =>
      rw [← (hf e he).2]
      exact .step (List.mem_map.2 ⟨e, he, rfl⟩) (by rwa [(hf e he).1]) (by rwa [(hf e he).1])
  intro e' he' s hs
  obtain ⟨e, he, rfl⟩ := List.mem_map.1 he'
  rw [(hf e he).1] at hs
  exact key s (h e he s hs)

variable {rw : Fla T → Fla T} {E : ElimExcept T} {engine : HEngine T} {live : VModel T → List VLine × Outcome Unit}

theorem solveSafety_cases {m : VModel T} {l : VLine} (h : l ∈ (solveSafety rw E engine m).1) :
    ∃ cs st b r, asChcs m = some cs ∧ simplifyStage (normalize cs).1.repr rw E (initialGraph cs) = .done (st, b) ∧
      engine (normalize cs).1.repr st = .done r ∧ l = answerLine r.answer := by
  unfold solveSafety at h
  split at h
  · simp at h
  · rename_i cs hcs
    split at h
    · rename_i st b hp
      split at h
      · rename_i r hr
        simp only [List.mem_singleton] at h
        simp only [pipeline, runStages, simplifyStage] at hp
        cases hp
        exact ⟨cs, _, _, r, hcs, rfl, hr, h⟩
      · simp at h
      · simp at h
    · simp at h
    · simp at h

/-- The branch a problem with an invariant property takes. -/
theorem runModel_invar (hL : ∀ k, (L k).Ok M) {file : List SExp} {vars : List (Str × Str)} {ds : List Def} {i : Str}
    (hp : Problem file vars ds (.invar i)) {m : VModel T} (hm : (resolveAll ⟨[], []⟩ file).bind (build L) = some m) :
    ModelOf M vars ds m ∧ (∃ k u, stoull i = some k ∧ m.invar = [(k, u)]) ∧
      runModel L rw E engine live file = solveSafety rw E engine m := by
  have hM := model_of_problem hL hp hm
  obtain ⟨k, u, hk, hu⟩ := hM.oneInvar i (once_mem hp.prop) fun d hd j hj => by simpa using (hp.only d hd).1 j hj
  have hl : m.live = [] := by
    refine List.eq_nil_iff_forall_not_mem.2 fun q hq => ?_
    obtain ⟨j, -, -, -, d, hd, hj⟩ := hM.live q.1 q.2 hq
    exact absurd ((hp.only d hd).2 j hj) (by simp)
  refine ⟨hM, ⟨k, u, hk, hu⟩, ?_⟩
  unfold runModel
  rw [hm]
  simp only [hu, hl, List.length_singleton, and_self, if_true]

/-- **C73**: for a file with one invariant property, `safe` is printed only if the property holds in every reachable state, and
`unsafe` only if it does not. -/
theorem C73_vmt_safety (hL : ∀ k, (L k).Ok M) (hrw : RewriteExact rw) (hE : E.Exact) (he : CheckEngine.Right engine)
    {file : List SExp} {vars : List (Str × Str)} {ds : List Def} {i : Str} (hp : Problem file vars ds (.invar i))
    (ha : ∀ m cs, (resolveAll ⟨[], []⟩ file).bind (build L) = some m → asChcs m = some cs → RewritesApart rw cs) :
    (.safe ∈ (runModel L rw E engine live file).1 → Safe M (vars.map Prod.fst) ds (.invar i)) ∧
    (.unsafeAns ∈ (runModel L rw E engine live file).1 → ¬ Safe M (vars.map Prod.fst) ds (.invar i)) := by
  have key : ∀ a, answerLine a ∈ (runModel L rw E engine live file).1 →
      (a = .safe → Safe M (vars.map Prod.fst) ds (.invar i)) ∧ (a = .unsafeAns → ¬ Safe M (vars.map Prod.fst) ds (.invar i)) := by
    intro a h
    cases hm : (resolveAll ⟨[], []⟩ file).bind (build L) with
    | none => unfold runModel at h; rw [hm] at h; simp at h
    | some m =>
      obtain ⟨hM, -, hrun⟩ := runModel_invar (rw := rw) (E := E) (engine := engine) (live := live) hL hp hm
      rw [hrun] at h
      obtain ⟨cs, st, b, r, hcs, hst, hr, hl⟩ := solveSafety_cases h
      have hin := asChcs_legal hM hcs
      obtain ⟨hR, hF, hI⟩ := C04_initial_graph _ cs hin.arity hin.user hin.shape
      obtain ⟨i1, d1, -, -⟩ := C56_constraint_simplifier hrw hE hI (hin.noClash (ha m cs hm hcs)) hst
      have hns : st.edges.NoStray := by
        obtain ⟨ti, tt, tp, -, -, -, hc⟩ := asChcs_some hcs
        have h0 : (initialGraph cs).edges.NoStray := by
          refine initial_noStray (k := 0) ⟨_, by rw [hc]; exact List.mem_cons_self .., rfl, rfl⟩ ?_
          rw [hc]; simp
        unfold simplifyStage at hst
        cases hst
        exact map_noStray (fun e _ => ⟨rfl, rfl⟩) h0
      have hA := he _ st r hR hF i1 hns hr
      have hgr := C04_input_to_graph _ cs hin.arity hin.user falseFact
      have hd := asChcs_derivable hM hcs hp.prop (fun d hd j hj => (hp.only d hd).1 j hj)
      have hra : r.answer = a := by
        generalize r.answer = x at hl
        cases x <;> cases a <;> simp_all [answerLine]
      constructor
      · rintro rfl
        exact Classical.not_not.1 fun hs => hA.2 hra ((d1 _).2 (hgr.2 (hd.2 hs)))
      · rintro rfl
        exact hd.1 (hgr.1 ((d1 _).1 (hA.1 hra)))
  exact ⟨fun h => (key .safe h).1 rfl, fun h => (key .unsafeAns h).2 rfl⟩

/-- A file whose terms can be built gets an answer if the engine gives one and the index of its property is zero: exactly one
line is printed. -/
theorem C73_answered (hL : ∀ k, (L k).Ok M) {file : List SExp} {vars : List (Str × Str)} {ds : List Def} {i : Str}
    (hp : Problem file vars ds (.invar i)) {m : VModel T} (hm : (resolveAll ⟨[], []⟩ file).bind (build L) = some m)
    (hi : stoull i = some 0) (he : ∀ R st, ∃ r, engine R st = .done r) :
    ∃ a, runModel L rw E engine live file = ([answerLine a], .done ()) := by
  obtain ⟨hM, ⟨k, u, hk, hu⟩, hrun⟩ := runModel_invar (rw := rw) (E := E) (engine := engine) (live := live) hL hp hm
  obtain rfl : k = 0 := by rw [hi] at hk; exact (Option.some.inj hk).symm
  obtain ⟨ti, hti⟩ := Option.isSome_iff_exists.1 hM.initSome
  obtain ⟨tt, htt⟩ := Option.isSome_iff_exists.1 hM.transSome
  have hcs : asChcs m = some [⟨(.p 0, m.stateVars), .atom ti, []⟩, ⟨(.p 0, m.nextStateVars), .atom tt, [(.p 0, m.stateVars)]⟩,
      ⟨(.fls, []), .not (.atom u), [(.p 0, m.stateVars)]⟩] := by
    unfold asChcs
    rw [hti, htt, hu]
    rfl
  rw [hrun]
  unfold solveSafety
  rw [hcs]
  simp only [pipeline, runStages, simplifyStage]
  generalize hx : engine _ _ = o
  obtain ⟨r, hr⟩ := he _ _
  rw [hr] at hx
  subst hx
  exact ⟨r.answer, rfl⟩

/-- A file whose only property has another index than zero gets no answer: `std::map::at` throws. -/
theorem C73_index (hL : ∀ k, (L k).Ok M) {file : List SExp} {vars : List (Str × Str)} {ds : List Def} {i : Str}
    (hp : Problem file vars ds (.invar i)) (hi : stoull i ≠ some 0) : runModel L rw E engine live file = ([], .thrown) := by
  cases hm : (resolveAll ⟨[], []⟩ file).bind (build L) with
  | none => unfold runModel; rw [hm]
  | some m =>
    obtain ⟨hM, ⟨k, u, hk, hu⟩, hrun⟩ := runModel_invar (rw := rw) (E := E) (engine := engine) (live := live) hL hp hm
    have hcs : asChcs m = none := by
      cases hc : asChcs m with
      | none => rfl
      | some cs =>
        obtain ⟨-, -, tp, -, -, h3, -⟩ := asChcs_some hc
        rw [hu] at h3
        have := lookup_mem h3
        simp only [List.mem_singleton, Prod.mk.injEq] at this
        exact absurd (by rw [hk, ← this.1]) hi
    rw [hrun]
    unfold solveSafety
    rw [hcs]

end
end Vmt
end Golem
