import Verif.Model.LetPrint
import Verif.Props.SExpr
import Verif.Lemmas.Names
/-
C39: the text printed for a witness formula, read back with its let bindings expanded, is the original term.
-/

namespace Golem
namespace LetPrint

open SExpr
open Names (Str showNat)

/-! ### Specification -/

/-- The keyword of bindings. -/
def letKw : Str := ['l', 'e', 't']

/-- SMT-LIB's `(let ((x e)) body)`: `e` is read outside, `body` inside the scope of `x`. -/
def expand (env : List (Str × SExp)) : SExp → SExp
  | .atom s => (env.lookup s).getD (.atom s)
  | .list [.atom k, .list [.list [.atom x, e]], body] =>
    if k = letKw then expand ((x, expand env e) :: env) body
    else .list [expand env (.atom k), expand env (.list [.list [.atom x, e]]), expand env body]
  | .list es => .list (es.attach.map fun e => expand env e.1)
termination_by e => sizeOf e
decreasing_by
  all_goals simp_wf
  all_goals first
    | omega
    | (have := List.sizeOf_lt_of_mem e.2; omega)

/-- Subterms. -/
inductive Sub (root : PT) : PT → Prop
  | refl : Sub root root
  | kid {t c : PT} : Sub root t → c ∈ t.kids → Sub root c

mutual
/-- The atoms of an expression. -/
def atoms : SExp → List Str
  | .atom s => [s]
  | .list es => atomss es
def atomss : List SExp → List Str
  | [] => []
  | e :: es => atoms e ++ atomss es
end

/-- A text that reads as an expression, whatever delimiter follows. -/
def Reads (txt : Str) (e : SExp) : Prop :=
  ∀ d, (isWhiteSpace d = true ∨ d = '(' ∨ d = ')') → ∀ r, lex .idle (txt ++ d :: r) = e.toks ++ lex .idle (d :: r)

mutual
/-- The term as an expression, without any bindings. -/
def plainExp (name : Nat → Str) (leaf : Nat → SExp) : PT → SExp
  | .node f [] => leaf f
  | .node f (c :: cs) => .list (.atom (name f) :: plainExps name leaf (c :: cs))
def plainExps (name : Nat → Str) (leaf : Nat → SExp) : List PT → List SExp
  | [] => []
  | c :: cs => plainExp name leaf c :: plainExps name leaf cs
end

/-- What the printer relies on: hash-consing gives different terms different numbers, symbols and constants print as
readable text, and no symbol is called `let` or like one of the bindings. -/
structure POk (L : PLogic) (name : Nat → Str) (leaf : Nat → SExp) (root : PT) : Prop where
  inj : ∀ a b, Sub root a → Sub root b → L.ref a = L.ref b → a = b
  sym : ∀ f, Reads (L.symText f) (.atom (name f))
  leafTxt : ∀ f, Reads (L.leafText f) (leaf f)
  nolet : ∀ f, name f ≠ letKw ∧ letKw ∉ atoms (leaf f)
  nocapture : ∀ u, Sub root u → L.isAndOr u.sym = true →
    ∀ t, Sub root t → name t.sym ≠ letId (L.ref u) ∧ (t.kids = [] → letId (L.ref u) ∉ atoms (leaf t.sym))

/-! ### The traversal -/

mutual
def size : PT → Nat
  | .node _ args => 1 + sizes args
def sizes : List PT → Nat
  | [] => 0
  | c :: cs => size c + sizes cs
end

theorem size_kid {t c : PT} (h : c ∈ t.kids) : size c < size t := by
  cases t with
  | node f args =>
    rw [size]
    have : ∀ l : List PT, c ∈ l → size c ≤ sizes l := by
      intro l
      induction l with
      | nil => intro h; cases h
      | cons a l ih =>
        intro h
        rw [sizes]
        rcases List.mem_cons.1 h with rfl | h
        · omega
        · have := ih h; omega
    have := this args h
    omega

theorem size_pos (t : PT) : 0 < size t := by cases t; rw [size]; omega

/-- Every node comes after its children. -/
def Ordered : List PT → Prop
  | [] => True
  | l => ∀ pre t post, l = pre ++ t :: post → ∀ c ∈ t.kids, c ∈ pre

theorem ordered_iff (l : List PT) : Ordered l ↔ ∀ pre t post, l = pre ++ t :: post → ∀ c ∈ t.kids, c ∈ pre := by
  cases l with
  | nil => simp [Ordered]
  | cons a l => rfl

theorem Ordered.snoc {l : List PT} {t : PT} (h : Ordered l) (ht : ∀ c ∈ t.kids, c ∈ l) : Ordered (l ++ [t]) := by
  rw [ordered_iff] at h ⊢
  intro pre u post e c hc
  rcases List.eq_nil_or_concat post with hp | ⟨post', x, rfl⟩
  · subst hp
    have := List.append_inj' e rfl
    obtain ⟨h1, h2⟩ := this
    cases h2
    rw [← h1]; exact ht c hc
  · have e' : l ++ [t] = (pre ++ u :: post') ++ [x] := by rw [e]; simp
    obtain ⟨h1, _⟩ := List.append_inj' e' rfl
    exact h pre u post' h1 c hc

def StackOk (order : List PT) : List PT → List Entry → Prop
  | _, [] => True
  | above, e :: s =>
    (e.treatAsParent = true → (∀ x ∈ above, size x < size e.node) ∧ ∀ c ∈ e.node.kids, c ∈ order ∨ c ∈ above) ∧
      StackOk order (e.node :: above) s

theorem StackOk.mono {order order' : List PT} : ∀ {above above' : List PT} {s : List Entry},
    (∀ x ∈ above', ∃ y ∈ above, size x ≤ size y) → (∀ c, c ∈ order ∨ c ∈ above → c ∈ order' ∨ c ∈ above') →
    StackOk order above s → StackOk order' above' s
  | _, _, [], _, _, _ => trivial
  | above, above', e :: s, h1, h2, h => by
    obtain ⟨ha, hb⟩ := h
    refine ⟨fun he => ⟨fun x hx => ?_, fun c hc => h2 c ((ha he).2 c hc)⟩, StackOk.mono ?_ ?_ hb⟩
    · obtain ⟨y, hy, hxy⟩ := h1 x hx
      have := (ha he).1 y hy
      omega
    · intro x hx
      rcases List.mem_cons.1 hx with rfl | hx
      · exact ⟨_, List.mem_cons_self, Nat.le_refl _⟩
      · obtain ⟨y, hy, hxy⟩ := h1 x hx
        exact ⟨y, List.mem_cons_of_mem _ hy, hxy⟩
    · intro c hc
      rcases hc with hc | hc
      · rcases h2 c (Or.inl hc) with h | h
        · exact Or.inl h
        · exact Or.inr (List.mem_cons_of_mem _ h)
      · rcases List.mem_cons.1 hc with rfl | hc
        · exact Or.inr List.mem_cons_self
        · rcases h2 c (Or.inr hc) with h | h
          · exact Or.inl h
          · exact Or.inr (List.mem_cons_of_mem _ h)

theorem StackOk.above_lt {order : List PT} : ∀ {above : List PT} {s : List Entry}, StackOk order above s →
    ∀ {u : PT}, (⟨u, true⟩ : Entry) ∈ s → ∀ x ∈ above, size x < size u
  | _, [], _, _, h => by cases h
  | above, e :: s, h, u, hu => by
    rcases List.mem_cons.1 hu with he | hu
    · subst he; exact (h.1 rfl).1
    · intro x hx; exact StackOk.above_lt h.2 hu x (List.mem_cons_of_mem _ hx)

theorem StackOk.push {order : List PT} : ∀ (l : List PT) {above : List PT} {s : List Entry},
    StackOk order (l.reverse ++ above) s → StackOk order above (l.map (fun c => (⟨c, false⟩ : Entry)) ++ s)
  | [], _, _, h => h
  | c :: l, above, s, h => by
    refine ⟨fun he => by simp at he, ?_⟩
    apply StackOk.push l
    simpa using h

def weight : List Entry → Nat
  | [] => 0
  | e :: s => (if e.treatAsParent then 1 else 2 * size e.node) + weight s

theorem weight_append (a b : List Entry) : weight (a ++ b) = weight a + weight b := by
  induction a with
  | nil => simp [weight]
  | cons e a ih => simp only [List.cons_append, weight, ih]; omega

theorem weight_push (l : List PT) : weight (l.map fun c => (⟨c, false⟩ : Entry)) = 2 * sizes l := by
  induction l with
  | nil => rfl
  | cons c l ih => simp only [List.map_cons, weight, ih, sizes]; simp; omega

theorem sizes_append (a b : List PT) : sizes (a ++ b) = sizes a + sizes b := by
  induction a with
  | nil => simp [sizes]
  | cons c a ih => simp only [List.cons_append, sizes, ih]; omega

theorem sizes_reverse (l : List PT) : sizes l.reverse = sizes l := by
  induction l with
  | nil => rfl
  | cons c l ih => rw [List.reverse_cons, sizes_append, ih]; simp [sizes]; omega

theorem sizes_filter (p : PT → Bool) (l : List PT) : sizes (l.filter p) ≤ sizes l := by
  induction l with
  | nil => simp
  | cons c l ih =>
    rw [List.filter_cons]
    split <;> simp only [sizes] <;> omega

/-- The traversal ends and lists the subterms of the root, the children of each before it. -/
theorem dfs_spec (L : PLogic) (root : PT) (hinj : ∀ a b, Sub root a → Sub root b → L.ref a = L.ref b → a = b) :
    ∀ (n : Nat) (stack : List Entry) (visited : List Nat) (order : List PT),
      weight stack ≤ n → Ordered order → StackOk order [] stack →
      (∀ e ∈ stack, Sub root e.node) → (∀ t ∈ order, Sub root t) →
      (∀ v ∈ visited, ∃ u, L.ref u = v ∧ Sub root u ∧ (u ∈ order ∨ (⟨u, true⟩ : Entry) ∈ stack)) →
      ∃ res, dfs L n stack visited order = some res ∧ Ordered res ∧ (∀ t ∈ res, Sub root t) ∧
        (∀ t ∈ order, t ∈ res) ∧ ∀ e ∈ stack, e.node ∈ res := by
  intro n
  induction n with
  | zero =>
    intro stack visited order hw ho hs hsub hsub' hv
    cases stack with
    | nil => exact ⟨order, by rw [dfs], ho, hsub', fun t h => h, fun e h => by cases h⟩
    | cons e s =>
      exfalso
      have := size_pos e.node
      rw [weight] at hw
      split at hw <;> omega
  | succ n ih =>
    intro stack visited order hw ho hs hsub hsub' hv
    cases stack with
    | nil => exact ⟨order, by rw [dfs], ho, hsub', fun t h => h, fun e h => by cases h⟩
    | cons cur s =>
      have hcur := hsub cur List.mem_cons_self
      rw [dfs]
      by_cases hp : cur.treatAsParent = true
      · rw [if_pos hp]
        rw [weight, if_pos hp] at hw
        have hk : ∀ c ∈ cur.node.kids, c ∈ order := by
          intro c hc
          rcases (hs.1 hp).2 c hc with h | h
          · exact h
          · cases h
        obtain ⟨res, h1, h2, h3, h4, h5⟩ := ih s visited (order ++ [cur.node]) (by omega) (ho.snoc hk)
          (StackOk.mono (by intro x hx; cases hx) (by
            intro c hc
            rcases hc with hc | hc
            · exact Or.inl (List.mem_append_left _ hc)
            · simp only [List.mem_singleton] at hc
              subst hc; exact Or.inl (by simp)) hs.2)
          (fun e he => hsub e (List.mem_cons_of_mem _ he))
          (by
            intro t ht
            rcases List.mem_append.1 ht with ht | ht
            · exact hsub' t ht
            · simp only [List.mem_singleton] at ht; subst ht; exact hcur)
          (by
            intro v hv'
            obtain ⟨u, hu1, hu2, hu3⟩ := hv v hv'
            refine ⟨u, hu1, hu2, ?_⟩
            rcases hu3 with hu3 | hu3
            · exact Or.inl (List.mem_append_left _ hu3)
            · rcases List.mem_cons.1 hu3 with he | he
              · left; rw [← he]; simp
              · exact Or.inr he)
        refine ⟨res, h1, h2, h3, fun t ht => h4 t (List.mem_append_left _ ht), fun e he => ?_⟩
        rcases List.mem_cons.1 he with rfl | he
        · exact h4 _ (by simp)
        · exact h5 e he
      · rw [if_neg hp]
        simp only
        rw [weight, if_neg hp] at hw
        -- the children that are pushed
        have hkids : ∀ c ∈ cur.node.kids, Sub root c := fun c hc => .kid hcur hc
        have hnotcur : ∀ c ∈ cur.node.kids, L.ref c ≠ L.ref cur.node := by
          intro c hc h
          have := hinj c cur.node (hkids c hc) hcur h
          have := size_kid hc
          rw [‹c = cur.node›] at this; omega
        have hcase : ∀ c ∈ cur.node.kids, c ∈ order ∨
            c ∈ cur.node.kids.filter fun c => !(L.ref cur.node :: visited).contains (L.ref c) := by
          intro c hc
          by_cases hvc : L.ref c ∈ visited
          · left
            obtain ⟨u, hu1, hu2, hu3⟩ := hv _ hvc
            have hu : u = c := hinj u c hu2 (hkids c hc) hu1
            subst hu
            rcases hu3 with hu3 | hu3
            · exact hu3
            · exfalso
              rcases List.mem_cons.1 hu3 with he | he
              · rw [← he] at hp; exact hp rfl
              · have := StackOk.above_lt hs.2 he cur.node List.mem_cons_self
                have := size_kid hc
                omega
          · right
            rw [List.mem_filter]
            refine ⟨hc, ?_⟩
            simp only [List.contains_cons, Bool.not_or, Bool.and_eq_true, Bool.not_eq_true', beq_eq_false_iff_ne]
            refine ⟨hnotcur c hc, ?_⟩
            rw [List.contains_eq_mem]; simp [hvc]
        have hfl : ∀ c ∈ cur.node.kids.filter fun c => !(L.ref cur.node :: visited).contains (L.ref c),
            c ∈ cur.node.kids := fun c hc => (List.mem_filter.1 hc).1
        have hsf := sizes_filter (fun c => !(L.ref cur.node :: visited).contains (L.ref c)) cur.node.kids
        generalize (cur.node.kids.filter fun c => !(L.ref cur.node :: visited).contains (L.ref c)) = P at hcase hfl hsf ⊢
        have hPe : (P.map fun c => (⟨c, false⟩ : Entry)).reverse = P.reverse.map fun c => (⟨c, false⟩ : Entry) := by
          rw [List.map_reverse]
        rw [hPe]
        have hsz : size cur.node = 1 + sizes cur.node.kids := by
          cases cur.node with
          | node f args => rw [size]; rfl
        have hcn : ∀ e, e = (⟨cur.node, true⟩ : Entry) → e.node = cur.node := fun e h => by rw [h]
        obtain ⟨res, h1, h2, h3, h4, h5⟩ := ih
          (P.reverse.map (fun c => (⟨c, false⟩ : Entry)) ++ ⟨cur.node, true⟩ :: s) (L.ref cur.node :: visited) order
          (by
            rw [weight_append, weight_push, sizes_reverse, weight]
            simp only [if_true]
            omega) ho
          (by
            apply StackOk.push
            simp only [List.reverse_reverse, List.append_nil]
            refine ⟨fun _ => ⟨fun x hx => size_kid (hfl x hx), hcase⟩, StackOk.mono ?_ ?_ hs.2⟩
            · intro x hx
              rcases List.mem_cons.1 hx with rfl | hx
              · exact ⟨_, List.mem_cons_self, Nat.le_refl _⟩
              · exact ⟨_, List.mem_cons_self, Nat.le_of_lt (size_kid (hfl x hx))⟩
            · intro c hc
              rcases hc with hc | hc
              · exact Or.inl hc
              · simp only [List.mem_singleton] at hc
                subst hc; exact Or.inr List.mem_cons_self)
          (by
            intro e he
            rcases List.mem_append.1 he with he | he
            · obtain ⟨c, hc, rfl⟩ := List.mem_map.1 he
              exact hkids c (hfl c (List.mem_reverse.1 hc))
            · rcases List.mem_cons.1 he with rfl | he
              · exact hcur
              · exact hsub e (List.mem_cons_of_mem _ he))
          hsub'
          (by
            intro v hv'
            rcases List.mem_cons.1 hv' with rfl | hv'
            · exact ⟨cur.node, rfl, hcur, Or.inr (by simp)⟩
            · obtain ⟨u, hu1, hu2, hu3⟩ := hv v hv'
              refine ⟨u, hu1, hu2, ?_⟩
              rcases hu3 with hu3 | hu3
              · exact Or.inl hu3
              · rcases List.mem_cons.1 hu3 with he | he
                · exfalso; rw [← he] at hp; exact hp rfl
                · exact Or.inr (List.mem_append_right _ (List.mem_cons_of_mem _ he)))
        refine ⟨res, h1, h2, h3, h4, fun e he => ?_⟩
        rcases List.mem_cons.1 he with rfl | he
        · exact h5 ⟨e.node, true⟩ (by simp)
        · exact h5 e (List.mem_append_right _ (List.mem_cons_of_mem _ he))

/-! ### The printed text -/

mutual
/-- What `strRepr` holds for a term. -/
def repr (L : PLogic) (name : Nat → Str) (leaf : Nat → SExp) : PT → SExp
  | .node f args =>
    if L.isAndOr f then .atom (letId (L.ref (.node f args)))
    else match args with
      | [] => leaf f
      | c :: cs => .list (.atom (name f) :: reprs L name leaf (c :: cs))
def reprs (L : PLogic) (name : Nat → Str) (leaf : Nat → SExp) : List PT → List SExp
  | [] => []
  | c :: cs => repr L name leaf c :: reprs L name leaf cs
end

/-- The definition of a term, in terms of the representations of its children. -/
def defn (L : PLogic) (name : Nat → Str) (leaf : Nat → SExp) : PT → SExp
  | .node f [] => leaf f
  | .node f (c :: cs) => .list (.atom (name f) :: reprs L name leaf (c :: cs))

theorem repr_eq (L : PLogic) (name : Nat → Str) (leaf : Nat → SExp) (t : PT) :
    repr L name leaf t = if introduceLet L t then .atom (letId (L.ref t)) else defn L name leaf t := by
  cases t with
  | node f args => cases args <;> rw [repr] <;> rfl

/-- The nest of bindings for a list of terms. -/
def nest (L : PLogic) (name : Nat → Str) (leaf : Nat → SExp) (root : PT) : List PT → SExp
  | [] => repr L name leaf root
  | t :: ts =>
    if introduceLet L t then
      .list [.atom letKw, .list [.list [.atom (letId (L.ref t)), defn L name leaf t]], nest L name leaf root ts]
    else nest L name leaf root ts

def lets (L : PLogic) : List PT → Nat
  | [] => 0
  | t :: ts => (if introduceLet L t then 1 else 0) + lets L ts

theorem delim_sp : isWhiteSpace ' ' = true ∨ ' ' = '(' ∨ ' ' = ')' := Or.inl rfl
theorem delim_rp : isWhiteSpace ')' = true ∨ ')' = '(' ∨ ')' = ')' := Or.inr (Or.inr rfl)

theorem lex_sp (r : Str) : lex .idle (' ' :: r) = lex .idle r := by simp [lex, isWhiteSpace]
theorem lex_lp (r : Str) : lex .idle ('(' :: r) = .lp :: lex .idle r := by simp [lex, isWhiteSpace]
theorem lex_rp (r : Str) : lex .idle (')' :: r) = .rp :: lex .idle r := by simp [lex, isWhiteSpace]

theorem reads_letId (k : Nat) : Reads (letId k) (.atom (letId k)) := by
  intro d hd r
  refine lex_plain_word ⟨by simp [letId], by simp [letId], ?_⟩ hd r
  intro c hc
  rcases List.mem_cons.1 hc with rfl | hc
  · decide
  · have := Names.showNat_digits k c hc
    refine ⟨?_, ?_, ?_, ?_, ?_⟩
    · cases h : isWhiteSpace c with
      | false => rfl
      | true =>
        exfalso
        simp only [isWhiteSpace, Bool.or_eq_true, beq_iff_eq] at h
        rcases h with ((h | h) | h) | h <;> · subst h; revert this; decide
    all_goals intro h; subst h; revert this; decide

/-- `strRepr` is right for the terms processed so far. -/
def MapOk (L : PLogic) (name : Nat → Str) (leaf : Nat → SExp) (m : List (Nat × Str)) (pre : List PT) : Prop :=
  ∀ t ∈ pre, ∃ s, m.lookup (L.ref t) = some s ∧ Reads s (repr L name leaf t)

theorem argsText_reads {L : PLogic} {name : Nat → Str} {leaf : Nat → SExp} {m : List (Nat × Str)} {pre : List PT}
    (hm : MapOk L name leaf m pre) : ∀ (cs : List PT), (∀ c ∈ cs, c ∈ pre) →
    ∃ s, argsText L m cs = some s ∧ ∀ r, lex .idle (s ++ r) = SExp.tokss (reprs L name leaf cs) ++ lex .idle r
  | [], _ => ⟨[], rfl, fun r => by simp [reprs, SExp.tokss]⟩
  | c :: cs, h => by
    obtain ⟨s1, e1, h1⟩ := hm c (h c List.mem_cons_self)
    obtain ⟨s2, e2, h2⟩ := argsText_reads hm cs fun c hc => h c (List.mem_cons_of_mem _ hc)
    refine ⟨s1 ++ ' ' :: s2, by rw [argsText, reprAt, e1, e2], fun r => ?_⟩
    rw [List.append_assoc, List.cons_append, h1 ' ' delim_sp, lex_sp, h2, reprs, SExp.tokss, List.append_assoc]

theorem toStr_reads {L : PLogic} {name : Nat → Str} {leaf : Nat → SExp} {root : PT} (hL : POk L name leaf root)
    {m : List (Nat × Str)} {pre : List PT}
    (hm : MapOk L name leaf m pre) (t : PT) (h : ∀ c ∈ t.kids, c ∈ pre) :
    ∃ s, toStr L m t = some s ∧ Reads s (defn L name leaf t) := by
  match t, h with
  | .node f [], _ => exact ⟨_, rfl, hL.leafTxt f⟩
  | .node f (c :: cs), h =>
    obtain ⟨s, e, hs⟩ := argsText_reads hm (c :: cs) h
    refine ⟨_, by rw [toStr, e]; rfl, ?_⟩
    intro d hd r
    have e1 : '(' :: (L.symText f ++ ' ' :: (s ++ [')'])) ++ d :: r =
        '(' :: (L.symText f ++ ' ' :: (s ++ (')' :: (d :: r)))) := by simp
    rw [e1, lex_lp, hL.sym f ' ' delim_sp, lex_sp, hs, lex_rp]
    simp [defn, SExp.toks, SExp.tokss]

theorem mapOk_insert {L : PLogic} {name : Nat → Str} {leaf : Nat → SExp} {root : PT} (hL : POk L name leaf root)
    {m : List (Nat × Str)} {pre : List PT} (hm : MapOk L name leaf m pre)
    (hpre : ∀ t ∈ pre, Sub root t) (hdom : ∀ k s, m.lookup k = some s → ∃ t ∈ pre, L.ref t = k)
    {t : PT} (ht : Sub root t) {s : Str} (hs : Reads s (repr L name leaf t)) :
    MapOk L name leaf (insertNew m (L.ref t) s) (pre ++ [t]) ∧
      ∀ k s', (insertNew m (L.ref t) s).lookup k = some s' → ∃ u ∈ pre ++ [t], L.ref u = k := by
  unfold insertNew
  cases hl : m.lookup (L.ref t) with
  | some s0 =>
    simp only [Option.isSome_some, if_true]
    obtain ⟨u, hu, huk⟩ := hdom _ _ hl
    have : u = t := hL.inj u t (hpre u hu) ht huk
    subst this
    refine ⟨fun x hx => ?_, fun k s' hk => ?_⟩
    · rcases List.mem_append.1 hx with hx | hx
      · exact hm x hx
      · simp only [List.mem_singleton] at hx; subst hx; exact hm x hu
    · obtain ⟨u, hu, h⟩ := hdom k s' hk
      exact ⟨u, List.mem_append_left _ hu, h⟩
  | none =>
    simp only [Option.isSome_none, Bool.false_eq_true, if_false]
    have hla : ∀ k, (m ++ [(L.ref t, s)]).lookup k = (m.lookup k).or (if k = L.ref t then some s else none) := by
      intro k
      rw [List.lookup_append]
      congr 1
      simp only [List.lookup]
      by_cases h : k = L.ref t
      · simp [h]
      · have : (k == L.ref t) = false := by simpa using h
        rw [this]; simp [h]
    refine ⟨fun x hx => ?_, fun k s' hk => ?_⟩
    · rcases List.mem_append.1 hx with hx | hx
      · obtain ⟨s1, h1, h2⟩ := hm x hx
        exact ⟨s1, by rw [hla, h1]; rfl, h2⟩
      · simp only [List.mem_singleton] at hx
        subst hx
        exact ⟨s, by rw [hla, hl]; simp, hs⟩
    · rw [hla] at hk
      cases hmk : m.lookup k with
      | some s1 =>
        obtain ⟨u, hu, h⟩ := hdom k s1 hmk
        exact ⟨u, List.mem_append_left _ hu, h⟩
      | none =>
        rw [hmk] at hk
        by_cases h : k = L.ref t
        · exact ⟨t, by simp, h.symm⟩
        · simp [h] at hk

/-- The printing loop. -/
theorem printLoop_reads {L : PLogic} {name : Nat → Str} {leaf : Nat → SExp} {root : PT} (hL : POk L name leaf root) :
    ∀ (ts pre : List PT) (out : Str) (m : List (Nat × Str)) (k : Nat),
      Ordered (pre ++ ts) → (∀ t ∈ pre ++ ts, Sub root t) → MapOk L name leaf m pre →
      (∀ k s, m.lookup k = some s → ∃ t ∈ pre, L.ref t = k) →
      ∃ txt m', printLoop L ts out m k = some (out ++ txt, m', k + lets L ts) ∧ MapOk L name leaf m' (pre ++ ts) ∧
        ∀ s, Reads s (repr L name leaf root) →
          Reads (txt ++ (s ++ List.replicate (lets L ts) ')')) (nest L name leaf root ts)
  | [], pre, out, m, k, _, _, hm, _ => by
    refine ⟨[], m, by simp [printLoop, lets], by simpa using hm, fun s hs => ?_⟩
    simpa [lets, nest] using hs
  | t :: ts, pre, out, m, k, ho, hsub, hm, hdom => by
    have hk : ∀ c ∈ t.kids, c ∈ pre := by
      rw [ordered_iff] at ho; exact ho pre t ts rfl
    have ht : Sub root t := hsub t (by simp)
    have hpre : ∀ t ∈ pre, Sub root t := fun t h => hsub t (List.mem_append_left _ h)
    obtain ⟨actual, ea, ha⟩ := toStr_reads hL hm t hk
    have happ : pre ++ t :: ts = (pre ++ [t]) ++ ts := by simp
    rw [happ] at ho hsub ⊢
    rw [printLoop, ea]
    simp only
    by_cases hl : introduceLet L t = true
    · rw [if_pos hl]
      obtain ⟨hm', hdom'⟩ := mapOk_insert hL hm hpre hdom ht (s := letId (L.ref t))
        (by rw [repr_eq, if_pos hl]; exact reads_letId _)
      obtain ⟨txt, m', e, h1, h2⟩ := printLoop_reads hL ts (pre ++ [t]) (out ++ (['(', 'l', 'e', 't', ' ', '(', '('] ++
        (letId (L.ref t) ++ ' ' :: (actual ++ [')', ')'])))) _ (k + 1) ho hsub hm' hdom'
      refine ⟨(['(', 'l', 'e', 't', ' ', '(', '('] ++ (letId (L.ref t) ++ ' ' :: (actual ++ [')', ')']))) ++ txt, m',
        ?_, h1, ?_⟩
      · rw [e, lets, if_pos hl, List.append_assoc, Nat.add_assoc]
      · intro s hs d hd r
        rw [lets, if_pos hl, nest, if_pos hl, Nat.add_comm 1, List.replicate_succ']
        have e1 : (['(', 'l', 'e', 't', ' ', '(', '('] ++ (letId (L.ref t) ++ ' ' :: (actual ++ [')', ')'])) ++ txt ++
            (s ++ (List.replicate (lets L ts) ')' ++ [')']))) ++ d :: r =
            '(' :: (letKw ++ ' ' :: '(' :: '(' :: (letId (L.ref t) ++ ' ' :: (actual ++ ')' :: ')' ::
              ((txt ++ (s ++ List.replicate (lets L ts) ')')) ++ ')' :: d :: r)))) := by
          simp [letKw]
        have hkw : Reads letKw (.atom letKw) := fun d hd r =>
          lex_plain_word ⟨by decide, by decide, by decide⟩ hd r
        rw [e1, lex_lp, hkw ' ' delim_sp, lex_sp, lex_lp, lex_lp, reads_letId _ ' ' delim_sp, lex_sp,
          ha ')' delim_rp, lex_rp, lex_rp, h2 s hs ')' delim_rp, lex_rp]
        simp [SExp.toks, SExp.tokss]
    · rw [if_neg hl]
      obtain ⟨hm', hdom'⟩ := mapOk_insert hL hm hpre hdom ht (s := actual) (by rw [repr_eq, if_neg hl]; exact ha)
      obtain ⟨txt, m', e, h1, h2⟩ := printLoop_reads hL ts (pre ++ [t]) out _ k ho hsub hm' hdom'
      refine ⟨txt, m', ?_, h1, ?_⟩
      · rw [e, lets, if_neg hl, Nat.zero_add]
      · intro s hs
        rw [lets, if_neg hl, nest, if_neg hl, Nat.zero_add]
        exact h2 s hs

/-! ### Expanding the bindings -/

theorem expand_list (env : List (Str × SExp)) (es : List SExp) (h : ∀ k r, es = .atom k :: r → k ≠ letKw) :
    expand env (.list es) = .list (es.map (expand env)) := by
  rw [expand.eq_def]
  split
  · rename_i heq; cases heq
  · rename_i k x e body heq
    cases heq
    rw [if_neg (h k _ rfl)]
    simp
  · rename_i es' _ heq
    cases heq
    simp

mutual
theorem expand_id (env : List (Str × SExp)) : ∀ (e : SExp), letKw ∉ atoms e →
    (∀ x v, (x, v) ∈ env → x ∉ atoms e) → expand env e = e
  | .atom s, _, h => by
    rw [expand]
    have : env.lookup s = none := by
      rw [List.lookup_eq_none_iff]
      rintro ⟨x, v⟩ hx
      have := h x v hx
      simp only [atoms, List.mem_singleton] at this
      simpa using fun h => this h.symm
    rw [this]; rfl
  | .list es, hl, h => by
    rw [expand_list, expand_ids env es (by simpa [atoms] using hl) (by simpa [atoms] using h)]
    rintro k r rfl rfl
    apply hl
    simp [atoms, atomss]
theorem expand_ids (env : List (Str × SExp)) : ∀ (es : List SExp), letKw ∉ atomss es →
    (∀ x v, (x, v) ∈ env → x ∉ atomss es) → es.map (expand env) = es
  | [], _, _ => rfl
  | e :: es, hl, h => by
    rw [List.map_cons]
    rw [expand_id env e (fun hh => hl (by rw [atomss]; exact List.mem_append_left _ hh))
      (fun x v hx hh => h x v hx (by rw [atomss]; exact List.mem_append_left _ hh)),
      expand_ids env es (fun hh => hl (by rw [atomss]; exact List.mem_append_right _ hh))
      (fun x v hx hh => h x v hx (by rw [atomss]; exact List.mem_append_right _ hh))]
end

/-- The bindings in scope after the terms in `pre`. -/
structure EnvOk (L : PLogic) (name : Nat → Str) (leaf : Nat → SExp) (root : PT) (pre : List PT)
    (env : List (Str × SExp)) : Prop where
  bound : ∀ t ∈ pre, introduceLet L t = true → env.lookup (letId (L.ref t)) = some (plainExp name leaf t)
  only : ∀ x v, (x, v) ∈ env → ∃ t, Sub root t ∧ introduceLet L t = true ∧ x = letId (L.ref t)

theorem lookup_none {env : List (Str × SExp)} {s : Str} (h : ∀ v, (s, v) ∉ env) : env.lookup s = none := by
  rw [List.lookup_eq_none_iff]
  rintro ⟨x, v⟩ hx
  have : s ≠ x := by rintro rfl; exact h v hx
  simpa using this

mutual
theorem expand_repr {L : PLogic} {name : Nat → Str} {leaf : Nat → SExp} {root : PT} (hL : POk L name leaf root)
    {pre : List PT} {env : List (Str × SExp)} (henv : EnvOk L name leaf root pre env)
    (hclosed : ∀ t ∈ pre, ∀ c ∈ t.kids, c ∈ pre) (hsub : ∀ t ∈ pre, Sub root t) :
    ∀ (t : PT), t ∈ pre → expand env (repr L name leaf t) = plainExp name leaf t
  | .node f args, ht => by
    rw [repr_eq]
    by_cases hl : introduceLet L (.node f args) = true
    · rw [if_pos hl, expand, henv.bound _ ht hl]; rfl
    · rw [if_neg hl]
      have hex := expand_reprs hL henv hclosed hsub args (hclosed _ ht)
      cases args with
      | nil =>
        rw [defn, plainExp]
        refine expand_id env _ (hL.nolet f).2 fun x v hx => ?_
        obtain ⟨u, hu1, hu2, rfl⟩ := henv.only x v hx
        exact (hL.nocapture u hu1 hu2 _ (hsub _ ht)).2 rfl
      | cons c cs =>
        rw [defn, plainExp, expand_list _ _ (by
          intro k r h; cases h; exact (hL.nolet f).1), List.map_cons, hex]
        rw [expand, lookup_none]
        · rfl
        · intro v hv
          obtain ⟨u, hu1, hu2, he⟩ := henv.only _ v hv
          exact (hL.nocapture u hu1 hu2 _ (hsub _ ht)).1 he
theorem expand_reprs {L : PLogic} {name : Nat → Str} {leaf : Nat → SExp} {root : PT} (hL : POk L name leaf root)
    {pre : List PT} {env : List (Str × SExp)} (henv : EnvOk L name leaf root pre env)
    (hclosed : ∀ t ∈ pre, ∀ c ∈ t.kids, c ∈ pre) (hsub : ∀ t ∈ pre, Sub root t) :
    ∀ (cs : List PT), (∀ c ∈ cs, c ∈ pre) → (reprs L name leaf cs).map (expand env) = plainExps name leaf cs
  | [], _ => rfl
  | c :: cs, h => by
    rw [reprs, plainExps, List.map_cons, expand_repr hL henv hclosed hsub c (h c List.mem_cons_self),
      expand_reprs hL henv hclosed hsub cs fun c hc => h c (List.mem_cons_of_mem _ hc)]
end

theorem expand_defn {L : PLogic} {name : Nat → Str} {leaf : Nat → SExp} {root : PT} (hL : POk L name leaf root)
    {pre : List PT} {env : List (Str × SExp)} (henv : EnvOk L name leaf root pre env)
    (hclosed : ∀ t ∈ pre, ∀ c ∈ t.kids, c ∈ pre) (hsub : ∀ t ∈ pre, Sub root t) (t : PT) (ht : Sub root t)
    (hk : ∀ c ∈ t.kids, c ∈ pre) : expand env (defn L name leaf t) = plainExp name leaf t := by
  match t, ht, hk with
  | .node f [], ht, _ =>
    rw [defn, plainExp]
    refine expand_id env _ (hL.nolet f).2 fun x v hx => ?_
    obtain ⟨u, hu1, hu2, rfl⟩ := henv.only x v hx
    exact (hL.nocapture u hu1 hu2 _ ht).2 rfl
  | .node f (c :: cs), ht, hk =>
    rw [defn, plainExp, expand_list _ _ (by intro k r h; cases h; exact (hL.nolet f).1), List.map_cons,
      expand_reprs hL henv hclosed hsub (c :: cs) hk, expand, lookup_none]
    · rfl
    · intro v hv
      obtain ⟨u, hu1, hu2, he⟩ := henv.only _ v hv
      exact (hL.nocapture u hu1 hu2 _ ht).1 he

theorem letId_inj {a b : Nat} (h : letId a = letId b) : a = b :=
  Names.showNat_inj (List.cons.inj h).2

theorem expand_nest {L : PLogic} {name : Nat → Str} {leaf : Nat → SExp} {root : PT} (hL : POk L name leaf root) :
    ∀ (ts pre : List PT) (env : List (Str × SExp)), Ordered (pre ++ ts) → (∀ t ∈ pre ++ ts, Sub root t) →
      root ∈ pre ++ ts → EnvOk L name leaf root pre env →
      expand env (nest L name leaf root ts) = plainExp name leaf root
  | [], pre, env, ho, hsub, hr, henv => by
    simp only [List.append_nil] at ho hsub hr
    rw [nest]
    refine expand_repr hL henv ?_ hsub root hr
    intro t ht c hc
    obtain ⟨a, b, rfl⟩ := List.append_of_mem ht
    rw [ordered_iff] at ho
    exact List.mem_append_left _ (ho a t b rfl c hc)
  | t :: ts, pre, env, ho, hsub, hr, henv => by
    have hk : ∀ c ∈ t.kids, c ∈ pre := by
      rw [ordered_iff] at ho; exact ho pre t ts rfl
    have ht : Sub root t := hsub t (by simp)
    have hpre : ∀ t ∈ pre, Sub root t := fun t h => hsub t (List.mem_append_left _ h)
    have hclosed : ∀ t ∈ pre, ∀ c ∈ t.kids, c ∈ pre := by
      intro u hu c hc
      obtain ⟨a, b, rfl⟩ := List.append_of_mem hu
      rw [ordered_iff] at ho
      exact List.mem_append_left _ (ho a u (b ++ t :: ts) (by simp) c hc)
    have happ : pre ++ t :: ts = (pre ++ [t]) ++ ts := by simp
    rw [happ] at ho hsub hr
    rw [nest]
    by_cases hl : introduceLet L t = true
    · rw [if_pos hl, expand, if_pos rfl]
      refine expand_nest hL ts (pre ++ [t]) _ ho hsub hr ⟨?_, ?_⟩
      · intro u hu hul
        rw [List.lookup]
        by_cases h : letId (L.ref u) = letId (L.ref t)
        · have : u = t := hL.inj u t (by
            rcases List.mem_append.1 hu with hu | hu
            · exact hpre u hu
            · simp only [List.mem_singleton] at hu; rw [hu]; exact ht) ht (letId_inj h)
          subst this
          simp only [beq_self_eq_true]
          rw [expand_defn hL henv hclosed hpre u ht hk]
        · have hb : (letId (L.ref u) == letId (L.ref t)) = false := by simpa using h
          rw [hb]
          simp only
          rcases List.mem_append.1 hu with hu | hu
          · exact henv.bound u hu hul
          · simp only [List.mem_singleton] at hu
            exact absurd (by rw [hu]) h
      · intro x v hx
        rcases List.mem_cons.1 hx with hx | hx
        · cases hx; exact ⟨t, ht, hl, rfl⟩
        · exact henv.only x v hx
    · rw [if_neg hl]
      refine expand_nest hL ts (pre ++ [t]) env ho hsub hr ⟨?_, henv.only⟩
      intro u hu hul
      rcases List.mem_append.1 hu with hu | hu
      · exact henv.bound u hu hul
      · simp only [List.mem_singleton] at hu
        subst hu; exact absurd hul hl

end LetPrint

open LetPrint SExpr

/-- **C39** Printing always succeeds, and the printed text is the text of one expression which, after expanding its `let`
bindings, is the term. -/
theorem C39_let_printing (L : PLogic) (name : Nat → Names.Str) (leaf : Nat → SExp) (root : PT)
    (hL : POk L name leaf root) (fuel : Nat) (hf : 2 * size root ≤ fuel) :
    ∃ txt E, printTermWithLets L fuel root = some txt ∧ Reads txt E ∧ expand [] E = plainExp name leaf root := by
  obtain ⟨order, e1, h1, h2, _, h4⟩ := dfs_spec L root hL.inj fuel [⟨root, false⟩] [] []
    (by simp [weight]; omega) trivial ⟨fun h => by simp at h, trivial⟩
    (by intro e he; simp only [List.mem_singleton] at he; subst he; exact .refl) (by intro t h; cases h)
    (by intro v h; cases h)
  have hr : root ∈ order := h4 ⟨root, false⟩ (by simp)
  obtain ⟨txt, m, e2, h5, h6⟩ := printLoop_reads hL order [] [] [] 0 h1 h2
    (by intro t h; cases h) (by intro k s h; cases h)
  obtain ⟨s, e3, h7⟩ := h5 root hr
  refine ⟨txt ++ (s ++ List.replicate (lets L order) ')'), nest L name leaf root order, ?_, h6 s h7, ?_⟩
  · unfold printTermWithLets
    rw [e1]
    simp only
    rw [e2]
    simp only [reprAt, e3, List.nil_append, Nat.zero_add]
  · exact expand_nest hL order [] [] h1 h2 hr ⟨fun t h => (by cases h), fun x v h => (by cases h)⟩

/-- **C39** In particular golem's own s-expression parser reads the text back. -/
theorem C39_read_back (L : PLogic) (name : Nat → Names.Str) (leaf : Nat → SExp) (root : PT)
    (hL : POk L name leaf root) (fuel : Nat) (hf : 2 * size root ≤ fuel) (txt : Names.Str)
    (h : printTermWithLets L fuel root = some txt) (hv : nul ∉ txt) (hc : visible (txt ++ ['\n']) = some (txt ++ ['\n'])) :
    ∃ n st E, parseExpression n (start (txt ++ ['\n'])) = .done (E, st) ∧ expand [] E = plainExp name leaf root := by
  obtain ⟨txt', E, e, hr, hx⟩ := C39_let_printing L name leaf root hL fuel hf
  rw [h] at e
  cases e
  have hn : nul ∉ txt ++ ['\n'] := by
    intro hh
    rcases List.mem_append.1 hh with hh | hh
    · exact hv hh
    · revert hh; decide
  have hl := hr '\n' (Or.inl rfl) []
  rcases parse_view ((txt ++ ['\n']).length + 1) _ _ (start_visible hn hc) (by omega) (by
      intro t ht
      obtain ⟨x, r, hx, hr⟩ := toks_head E
      rw [hl, hx] at ht
      exact hr (List.cons.inj ht).1) with ⟨_, hno⟩ | ⟨E', st, v, h1, _, _, h2⟩
  · exact absurd hl (hno _ _)
  · rw [hl] at h2
    obtain ⟨a, _⟩ := toks_inj _ _ _ _ h2
    subst a
    exact ⟨_, st, E, h1, hx⟩

namespace LetPrint.Ex

/-- Symbols: 0 = `and`, 1 = `or`, 2 = `x`, 3 = `y`, 4 = `l1`. -/
def symText : Nat → Names.Str
  | 0 => ['a', 'n', 'd']
  | 1 => ['o', 'r']
  | 2 => ['x']
  | 3 => ['y']
  | _ => ['l', '1']

def x : PT := .node 2 []
def y : PT := .node 3 []
def a : PT := .node 0 [x, y]
def root : PT := .node 1 [a, y, a]

def ref : PT → Nat
  | .node 0 _ => 1
  | .node 1 _ => 5
  | .node 2 _ => 2
  | .node 3 _ => 3
  | .node _ _ => 4

def L : PLogic := ⟨ref, symText, symText, fun f => f ≤ 1⟩

end LetPrint.Ex

/-- A variable that is called like a binding is captured: the text for `(or (and x y) l1)` reads as
`(or (and x y) (and x y))`. -/
theorem C39_binding_can_capture :
    ∃ txt, printTermWithLets Ex.L 100 (.node 1 [Ex.a, .node 4 []]) = some txt ∧
      ∃ E, parseExpression 100 (start (txt ++ ['\n'])) = .done (E, ⟨' ', ['\n'], true⟩) ∧
        expand [] E = plainExp Ex.symText (fun f => .atom (Ex.symText f)) (.node 1 [Ex.a, Ex.a]) := by
  have h1 : letId 1 = ['l', '1'] := by rw [letId, Names.showNat]; rfl
  have h5 : letId 5 = ['l', '5'] := by rw [letId, Names.showNat]; rfl
  refine ⟨"(let ((l1 (and x y )))(let ((l5 (or l1 l1 )))l5))".toList, ?_, .list [.atom letKw, .list [.list [.atom ['l', '1'],
    .list [.atom ['a', 'n', 'd'], .atom ['x'], .atom ['y']]]], .list [.atom letKw, .list [.list [.atom ['l', '5'],
    .list [.atom ['o', 'r'], .atom ['l', '1'], .atom ['l', '1']]]], .atom ['l', '5']]], ?_, ?_⟩
  · simp [printTermWithLets, dfs, printLoop, Ex.L, Ex.ref, Ex.a, Ex.x, Ex.y, PT.kids, PT.sym, introduceLet, toStr, argsText,
      reprAt, insertNew, List.lookup, Ex.symText, h1, h5]
  · rfl
  · simp [expand, letKw, plainExp, plainExps, Ex.a, Ex.x, Ex.y, Ex.symText, List.lookup]

/-- Non-vacuity: a term with a shared conjunction. -/
theorem LetPrint.Ex.rootOk : POk Ex.L Ex.symText (fun f => .atom (Ex.symText f)) Ex.root := by
  have hsub : ∀ t, LetPrint.Sub Ex.root t → t = Ex.root ∨ t = Ex.a ∨ t = Ex.x ∨ t = Ex.y := by
    intro t h
    induction h with
    | refl => exact Or.inl rfl
    | kid _ hc ih =>
      rcases ih with rfl | rfl | rfl | rfl
      · have hc' : _ ∈ [Ex.a, Ex.y, Ex.a] := hc
        simp only [List.mem_cons, List.not_mem_nil, or_false] at hc'
        rcases hc' with h | h | h <;> simp [h]
      · have hc' : _ ∈ [Ex.x, Ex.y] := hc
        simp only [List.mem_cons, List.not_mem_nil, or_false] at hc'
        rcases hc' with h | h <;> simp [h]
      · cases hc
      · cases hc
  have hplain : ∀ f, PlainWord (Ex.symText f) := by
    intro f
    unfold Ex.symText PlainWord
    split <;> decide
  refine ⟨?_, ?_, ?_, ?_, ?_⟩
  · intro a b ha hb h
    rcases hsub a ha with rfl | rfl | rfl | rfl <;> rcases hsub b hb with rfl | rfl | rfl | rfl <;>
      first | rfl | (exact absurd h (by decide))
  · intro f d hd r; exact lex_plain_word (hplain f) hd r
  · intro f d hd r; exact lex_plain_word (hplain f) hd r
  · intro f
    unfold Ex.symText letKw
    split <;> decide
  · intro u _ _ t ht
    rcases hsub t ht with rfl | rfl | rfl | rfl <;>
      simp [Ex.root, Ex.a, Ex.x, Ex.y, PT.sym, PT.kids, Ex.symText, atoms, letId]

example : ∃ txt E, printTermWithLets Ex.L 100 Ex.root = some txt ∧ Reads txt E ∧
    expand [] E = plainExp Ex.symText (fun f => .atom (Ex.symText f)) Ex.root :=
  C39_let_printing _ _ _ _ LetPrint.Ex.rootOk 100 (by decide)

end Golem
