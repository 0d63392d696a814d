import Verif.Lemmas.TPANetwork
import Verif.Props.Dfs
import Verif.Props.ErrorPath
import Verif.Lemmas.SingleLoopGraph

/-! The network of transition systems: initial network, the search, and its two invariants. -/

namespace Golem
variable {T : Theory} {X : NetEnv T} {R : PRepr} {G : LGraph T}

/-! ### The initial network -/

theorem Net.set_same {net : Net T} {v : Pred} {n : NetNode T} : net.set v n v = n := by simp [Net.set]

theorem Net.set_ne {net : Net T} {u v : Pred} {n : NetNode T} (h : u ≠ v) : net.set v n u = net u := by simp [Net.set, h]

theorem netNodes_ok (hX : X.Ok) (hR : R.WF) (hl : ∀ e ∈ G, e.LabelOk R) : ∀ (vs : List Pred) (net : Net T),
    netNodes X.core X.simpT R G vs = some net → ∀ v,
      (net v).pre = .ff ∧ (net v).post = .ff ∧ (net v).children = [] ∧ (net v).reasons = [] ∧
      (∀ s, (net v).solver = some s → SolverOk X R G v s ∧ v ≠ .tru ∧ v ≠ .fls ∧ (selfLoopFor G v).isSome) ∧
      (v ∈ vs → v ≠ .tru → v ≠ .fls → (net v).solver.isSome) := by
  intro vs
  induction vs with
  | nil =>
    intro net h v
    simp only [netNodes, Option.some.injEq] at h
    subst h
    simp
  | cons w vs ih =>
    intro net h v
    simp only [netNodes, Option.bind_eq_bind, Option.bind_eq_some_iff] at h
    obtain ⟨net0, h0, h⟩ := h
    have ih := ih net0 h0
    split at h
    · rename_i hw
      simp only [Option.pure_def, Option.some.injEq] at h
      subst h
      obtain ⟨a, b, c, d, e, f⟩ := ih v
      exact ⟨a, b, c, d, e, fun hm h1 h2 => f (by grind) h1 h2⟩
    · rename_i hw
      simp only [Option.bind_eq_some_iff, Option.pure_def, Option.some.injEq] at h
      obtain ⟨ts, hts, s, hs, rfl⟩ := h
      by_cases hv : v = w
      · subst hv
        rw [Net.set_same]
        obtain ⟨a, b, c, d, e, f⟩ := ih v
        refine ⟨a, b, c, d, ?_, fun _ _ _ => rfl⟩
        intro s' hs'
        simp only [Option.some.injEq] at hs'
        subst hs'
        refine ⟨tpaStart_ok hX.simpT hR hl hts hs, fun h => hw (.inl h), fun h => hw (.inr h), ?_⟩
        simp only [loopSystem, Option.map_eq_some_iff] at hts
        obtain ⟨e, he, _⟩ := hts
        simp [he]
      · rw [Net.set_ne hv]
        obtain ⟨a, b, c, d, e, f⟩ := ih v
        exact ⟨a, b, c, d, e, fun hm h1 h2 => f (by grind) h1 h2⟩

/-- What connecting the network keeps. -/
structure NodeKept (n n' : NetNode T) : Prop where
  solver : n'.solver = n.solver
  pre : n'.pre = n.pre
  post : n'.post = n.post
  reasons : n'.reasons = n.reasons

theorem addChildren_ok : ∀ (es : List (LEdge T)) (net : Net T) (v : Pred),
    NodeKept (net v) (es.foldl (fun net e => Net.set net e.src { net e.src with children := (net e.src).children ++ [e] }) net v) ∧
    ∀ e, e ∈ (es.foldl (fun net e => Net.set net e.src { net e.src with children := (net e.src).children ++ [e] }) net v).children ↔
      e ∈ (net v).children ∨ e ∈ es ∧ e.src = v := by
  intro es
  induction es with
  | nil => intro net v; exact ⟨⟨rfl, rfl, rfl, rfl⟩, by simp⟩
  | cons e0 es ih =>
    intro net v
    rw [List.foldl_cons]
    obtain ⟨⟨a, b, c, d⟩, h⟩ := ih (Net.set net e0.src { net e0.src with children := (net e0.src).children ++ [e0] }) v
    by_cases hv : v = e0.src
    · subst hv
      rw [Net.set_same] at a b c d h
      refine ⟨⟨a, b, c, d⟩, fun e => ?_⟩
      rw [h]
      simp only [List.mem_append, List.mem_cons, List.not_mem_nil, or_false]
      constructor
      · rintro ((h | rfl) | ⟨h, h'⟩)
        · exact .inl h
        · exact .inr ⟨.inl rfl, rfl⟩
        · exact .inr ⟨.inr h, h'⟩
      · rintro (h | ⟨rfl | h, h'⟩)
        · exact .inl (.inl h)
        · exact .inl (.inr rfl)
        · exact .inr ⟨h, h'⟩
    · rw [Net.set_ne hv] at a b c d h
      refine ⟨⟨a, b, c, d⟩, fun e => ?_⟩
      rw [h]
      constructor
      · rintro (h | ⟨h, h'⟩)
        · exact .inl h
        · exact .inr ⟨List.mem_cons_of_mem _ h, h'⟩
      · rintro (h | ⟨h, h'⟩)
        · exact .inl h
        · rcases List.mem_cons.1 h with rfl | h
          · exact absurd h'.symm hv
          · exact .inr ⟨h, h'⟩

theorem netChildren_ok : ∀ (vs : List Pred) (net : Net T) (v : Pred), NodeKept (net v) (netChildren G vs net v) ∧
    ∀ e, e ∈ (netChildren G vs net v).children ↔
      e ∈ (net v).children ∨ (e ∈ G ∧ e.src = v ∧ e.tgt ≠ v ∧ e.tgt ≠ .tru ∧ e.tgt ∈ vs) := by
  intro vs
  induction vs with
  | nil => intro net v; exact ⟨⟨rfl, rfl, rfl, rfl⟩, by simp [netChildren]⟩
  | cons w vs ih =>
    intro net v
    rw [netChildren]
    simp only
    generalize hes : (if w = .tru then [] else (G.inc w).filter fun e => decide (e.src ≠ e.tgt)) = es
    have hm : ∀ e, e ∈ es ↔ e ∈ G ∧ e.tgt = w ∧ e.src ≠ e.tgt ∧ w ≠ .tru := by
      intro e
      subst hes
      split
      · rename_i h; simp [h]
      · rename_i h; simp [LGraph.inc, h]; grind
    obtain ⟨⟨a, b, c, d⟩, h⟩ := ih (es.foldl (fun net e => Net.set net e.src { net e.src with children := (net e.src).children ++ [e] }) net) v
    obtain ⟨⟨a', b', c', d'⟩, h'⟩ := addChildren_ok es net v
    refine ⟨⟨a.trans a', b.trans b', c.trans c', d.trans d'⟩, fun e => ?_⟩
    rw [h, h', hm]
    simp only [List.mem_cons]
    grind

theorem initNetwork_ok (hX : X.Ok) (hR : R.WF) (hl : ∀ e ∈ G, e.LabelOk R) {net : Net T}
    (h : initNetwork X.core X.simpT R G = some net) (v : Pred) :
    (net v).pre = .ff ∧ (net v).post = .ff ∧ (net v).reasons = [] ∧
      (∀ e, e ∈ (net v).children ↔ e ∈ G ∧ e.src = v ∧ e.tgt ≠ v ∧ e.tgt ≠ .tru ∧ Walk G.succ .tru e.tgt) ∧
      (∀ s, (net v).solver = some s → SolverOk X R G v s ∧ v ≠ .tru ∧ v ≠ .fls ∧ (selfLoopFor G v).isSome) ∧
      (v ∈ getVertices G → v ≠ .tru → v ≠ .fls → (net v).solver.isSome) := by
  simp only [initNetwork, Option.bind_eq_bind, Option.bind_eq_some_iff, Option.pure_def, Option.some.injEq] at h
  obtain ⟨net0, h0, vs, hvs, rfl⟩ := h
  obtain ⟨a, b, c, d, e, f⟩ := netNodes_ok hX hR hl _ _ h0 v
  obtain ⟨⟨a', b', c', d'⟩, h'⟩ := netChildren_ok (G := G) vs net0 v
  obtain ⟨o, ho, _, _, hw⟩ := C41_reversePostOrder_exact G
  rw [hvs] at ho
  simp only [Option.some.injEq] at ho
  subst ho
  refine ⟨b'.trans a, c'.trans b, d'.trans d, fun e => ?_, ?_, ?_⟩
  · rw [h', c, hw e.tgt]
    simp only [List.not_mem_nil, false_or]
    rfl
  · rw [a']; exact e
  · rw [a']; exact f

/-! ### The path -/

/-- The path of the search: the entry, then alternately states reached over an edge and states reached over the loop. `steps` counts
the iterations of the loops, if `cnt`. -/
inductive PathOk (R : PRepr) (G : LGraph T) (cnt : Prop) (steps : Pred → Nat) : List (PathEntry T) → Prop where
  | start : PathOk R G cnt steps [.post .tru .tt]
  | pre {v : Pred} {r g : Fla T} {rest : List (PathEntry T)} {e : LEdge T} (h : PathOk R G cnt steps (.post v r :: rest))
      (he : e ∈ G) (hs : e.src = v) (ht : e.tgt ≠ v) (htru : e.tgt ≠ .tru) (hov : R.OverV e.tgt g) (hsat : ∃ a, R.den e.tgt g a)
      (hr : ∀ b, R.den e.tgt g b → ∃ a, R.den v r a ∧ e.Fires R (v, a) (e.tgt, b)) :
      PathOk R G cnt steps (.pre e.tgt e g :: .post v r :: rest)
  | post {v : Pred} {e : LEdge T} {r g : Fla T} {rest : List (PathEntry T)} (h : PathOk R G cnt steps (.pre v e r :: rest))
      (hv : v ≠ .fls) (hl : (selfLoopFor G v).isSome) (hov : R.OverV v g) (hsat : ∃ a, R.den v g a)
      (hr : ∀ b, R.den v g b → ∃ a, R.den v r a ∧ ∃ k, (loopSTS R G v).Path k a b ∧ (cnt → k = steps v)) :
      PathOk R G cnt steps (.post v g :: .pre v e r :: rest)

/-- The vertices on the path whose loop has been traversed. -/
def postVertices (path : List (PathEntry T)) : List Pred :=
  path.filterMap fun x => match x with
    | .pre _ _ _ => none
    | .post v _ => some v

theorem PathOk.congr {cnt : Prop} {steps steps' : Pred → Nat} {path : List (PathEntry T)} (h : PathOk R G cnt steps path)
    (hs : cnt → ∀ v ∈ postVertices path, steps' v = steps v) : PathOk R G cnt steps' path := by
  induction h with
  | start => exact .start
  | pre h he hsrc ht htru hov hsat hr ih => exact .pre (ih fun hc v hv => hs hc v hv) he hsrc ht htru hov hsat hr
  | @post v e r g rest h hv hl hov hsat hr ih =>
    refine .post (ih fun hc v hv => hs hc v ?_) hv hl hov hsat fun b hb => ?_
    · simp only [postVertices, List.filterMap_cons] at hv ⊢
      exact List.mem_cons_of_mem _ hv
    · obtain ⟨a, ha, k, hk, hc⟩ := hr b hb
      refine ⟨a, ha, k, hk, fun h => ?_⟩
      rw [hs h v (by simp [postVertices]), hc h]

/-- The vertex of an entry. -/
def PathEntry.vertex : PathEntry T → Pred
  | .pre v _ _ => v
  | .post v _ => v

/-- The states of an entry. -/
def PathEntry.states : PathEntry T → Fla T
  | .pre _ _ r => r
  | .post _ r => r

theorem PathOk.walk {cnt : Prop} {steps : Pred → Nat} {x : PathEntry T} {path : List (PathEntry T)}
    (h : PathOk R G cnt steps (x :: path)) : Walk G.succ .tru x.vertex := by
  generalize hp : x :: path = p at h
  induction h generalizing x path with
  | start => cases hp; exact .refl _
  | @pre v r g rest e h he hs ht htru hov hsat hr ih =>
    cases hp
    refine .snoc (ih rfl) ?_
    simp only [LGraph.succ, PathEntry.vertex, List.mem_map]
    exact ⟨e, by simpa [LGraph.out] using ⟨he, hs⟩, rfl⟩
  | post h hv hl hov hsat hr ih => cases hp; exact ih (x := .pre _ _ _) rfl

theorem PathOk.overV {cnt : Prop} {steps : Pred → Nat} {x : PathEntry T} {path : List (PathEntry T)}
    (h : PathOk R G cnt steps (x :: path)) : R.OverV x.vertex x.states ∧ ∃ a, R.den x.vertex x.states a := by
  cases h with
  | start => exact ⟨by intro x hx; simp [PathEntry.states, Fla.vars] at hx, _, fun _ => T.vT, trivial, rfl⟩
  | pre h he hs ht htru hov hsat hr => exact ⟨hov, hsat⟩
  | post h hv hl hov hsat hr => exact ⟨hov, hsat⟩

theorem PathOk.preVertex {cnt : Prop} {steps : Pred → Nat} {v : Pred} {e : LEdge T} {r : Fla T} {path : List (PathEntry T)}
    (h : PathOk R G cnt steps (.pre v e r :: path)) : e.tgt = v ∧ v ≠ .tru := by
  cases h with
  | pre _ _ _ _ htru => exact ⟨rfl, htru⟩

theorem PathOk.tru {cnt : Prop} {steps : Pred → Nat} {r : Fla T} {path : List (PathEntry T)}
    (h : PathOk R G cnt steps (.post .tru r :: path)) : r = .tt ∧ path = [] := by
  cases h with
  | start => exact ⟨rfl, rfl⟩
  | post h => exact absurd rfl h.preVertex.2

/-! ### Feasible paths of the graph -/

theorem loopPath_feasible {v : Pred} {e : LEdge T} (he : selfLoopFor G v = some e) {k : Nat} {a b : List T.Val}
    (h : (loopSTS R G v).Path k a b) : LFeasible R (List.replicate k e) (v, a) (v, b) := by
  induction h with
  | refl => exact .nil _
  | @snoc n s t u h hs ih =>
    rw [List.replicate_succ']
    obtain ⟨e', he', hf⟩ := hs
    rw [he] at he'
    cases he'
    exact ih.append (.cons hf (.nil _))

/-- The error path as edges. -/
def netExpand (G : LGraph T) (steps : Pred → Nat) : List (LEdge T) → Option (List (LEdge T))
  | [] => some []
  | e :: es => do
    let rest ← netExpand G steps es
    if e.tgt = .fls then return e :: rest
    else
      let loop ← selfLoopFor G e.tgt
      return e :: (List.replicate (steps e.tgt) loop ++ rest)

theorem netErrorPath_eq (net : Net T) (es : List (LEdge T)) :
    netErrorPath G net es = (netExpand G (fun v => (net v).steps) es).map fun l => l.map LEdge.id := by
  induction es with
  | nil => rfl
  | cons e es ih =>
    simp only [netErrorPath, netExpand, ih]
    cases netExpand G (fun v => (net v).steps) es with
    | none => rfl
    | some l =>
      simp only [Option.map_some, Option.bind_eq_bind, Option.bind_some]
      split
      · rfl
      · cases selfLoopFor G e.tgt with
        | none => rfl
        | some e' => simp

theorem netExpand_append {steps : Pred → Nat} {es fs : List (LEdge T)} {l : List (LEdge T)} :
    netExpand G steps (es ++ fs) = some l ↔ ∃ a b, netExpand G steps es = some a ∧ netExpand G steps fs = some b ∧ l = a ++ b := by
  induction es generalizing l with
  | nil => simp [netExpand]
  | cons e es ih =>
    simp only [List.cons_append, netExpand, Option.bind_eq_bind, Option.bind_eq_some_iff, ih]
    constructor
    · rintro ⟨l', ⟨a, b, ha, hb, rfl⟩, h⟩
      split at h
      · cases h; exact ⟨e :: a, b, ⟨a, ha, by simp_all⟩, hb, by simp⟩
      · rename_i hne
        simp only [Option.bind_eq_some_iff, Option.pure_def, Option.some.injEq] at h
        obtain ⟨lp, hlp, rfl⟩ := h
        exact ⟨e :: (List.replicate (steps e.tgt) lp ++ a), b, ⟨a, ha, by simp [hne, hlp]⟩, hb, by simp⟩
    · rintro ⟨a, b, ⟨a', ha', h⟩, hb, rfl⟩
      refine ⟨a' ++ b, ⟨a', b, ha', hb, rfl⟩, ?_⟩
      split at h
      · rename_i he
        cases h; simp [he]
      · rename_i hne
        simp only [Option.bind_eq_some_iff, Option.pure_def, Option.some.injEq] at h
        obtain ⟨lp, hlp, rfl⟩ := h
        simp [hne, hlp]

theorem netExpand_mem {steps : Pred → Nat} {es : List (LEdge T)} (h : ∀ e ∈ es, e ∈ G) {l : List (LEdge T)}
    (hl : netExpand G steps es = some l) : ∀ e ∈ l, e ∈ G := by
  induction es generalizing l with
  | nil => simp [netExpand] at hl; subst hl; simp
  | cons e es ih =>
    simp only [netExpand, Option.bind_eq_bind, Option.bind_eq_some_iff] at hl
    obtain ⟨l', hl', hl⟩ := hl
    have ih := ih (fun e he => h e (by simp [he])) hl'
    split at hl
    · cases hl
      intro x hx
      rcases List.mem_cons.1 hx with rfl | hx
      · exact h _ (by simp)
      · exact ih x hx
    · simp only [Option.bind_eq_some_iff, Option.pure_def, Option.some.injEq] at hl
      obtain ⟨lp, hlp, rfl⟩ := hl
      intro x hx
      simp only [List.mem_cons, List.mem_append, List.mem_replicate] at hx
      rcases hx with rfl | ⟨_, rfl⟩ | hx
      · exact h _ (by simp)
      · exact (selfLoopFor_mem hlp).1
      · exact ih x hx

theorem Chained.append' {u v w : Pred} {es fs : List (LEdge T)} (h1 : Chained u es v) (h2 : Chained v fs w) :
    Chained u (es ++ fs) w := by
  induction h1 with
  | nil => exact h2
  | cons h ih => rw [List.cons_append]; exact chained_cons.2 ⟨rfl, ih h2⟩

theorem Chained.loops {v : Pred} {e : LEdge T} (hs : e.src = v) (ht : e.tgt = v) : ∀ k, Chained v (List.replicate k e) v
  | 0 => .nil _
  | k + 1 => by
    rw [List.replicate_succ]
    exact chained_cons.2 ⟨hs.symm, ht ▸ Chained.loops hs ht k⟩

theorem netExpand_chained {steps : Pred → Nat} {es : List (LEdge T)} {u v : Pred} (h : Chained u es v) {l : List (LEdge T)}
    (hl : netExpand G steps es = some l) : Chained u l v := by
  induction es generalizing u l with
  | nil => simp [netExpand] at hl; subst hl; exact h
  | cons e es ih =>
    obtain ⟨rfl, h'⟩ := chained_cons.1 h
    simp only [netExpand, Option.bind_eq_bind, Option.bind_eq_some_iff] at hl
    obtain ⟨l', hl', hl⟩ := hl
    have ih := ih h' hl'
    split at hl
    · cases hl
      exact chained_cons.2 ⟨rfl, ih⟩
    · simp only [Option.bind_eq_some_iff, Option.pure_def, Option.some.injEq] at hl
      obtain ⟨lp, hlp, rfl⟩ := hl
      obtain ⟨_, h1, h2⟩ := selfLoopFor_mem hlp
      exact chained_cons.2 ⟨rfl, (Chained.loops h1 h2 _).append' ih⟩

theorem extractPath_pre {v : Pred} {e : LEdge T} {r : Fla T} {path : List (PathEntry T)} :
    extractPath (.pre v e r :: path) = extractPath path ++ [e] := by
  simp [extractPath]

theorem extractPath_post {v : Pred} {r : Fla T} {path : List (PathEntry T)} :
    extractPath (.post v r :: path) = extractPath path := by
  simp [extractPath]

theorem PathOk.chained {cnt : Prop} {steps : Pred → Nat} {x : PathEntry T} {path : List (PathEntry T)}
    (h : PathOk R G cnt steps (x :: path)) : (∀ e ∈ extractPath (x :: path), e ∈ G) ∧ Chained .tru (extractPath (x :: path)) x.vertex := by
  generalize hp : x :: path = p at h
  induction h generalizing x path with
  | start => cases hp; exact ⟨by simp [extractPath], .nil _⟩
  | @pre v r g rest e h he hs ht htru hov hsat hr ih =>
    cases hp
    obtain ⟨h1, h2⟩ := ih rfl
    rw [extractPath_pre]
    refine ⟨fun e' he' => ?_, h2.append' (chained_cons.2 ⟨hs.symm, .nil _⟩)⟩
    rcases List.mem_append.1 he' with h | h
    · exact h1 _ h
    · simp at h; subst h; exact he
  | post h hv hl hov hsat hr ih =>
    cases hp
    rw [extractPath_post]
    exact ih (x := .pre _ _ _) rfl

/-- Every state of the top of the path is reached from the entry. -/
theorem PathOk.reach {cnt : Prop} {steps : Pred → Nat} {x : PathEntry T} {path : List (PathEntry T)} (hR : R.WF)
    (h : PathOk R G cnt steps (x :: path)) {b : List T.Val} (hb : R.den x.vertex x.states b) :
    ∃ es, (∀ e ∈ es, e ∈ G) ∧ LFeasible R es trueFact (x.vertex, b) := by
  generalize hp : x :: path = p at h
  induction h generalizing x path b with
  | start =>
    cases hp
    obtain ⟨ρ, _, e⟩ := hb
    simp only [PathEntry.vertex, PRepr.stateVars, hR.tru, List.map_nil] at e
    subst e
    exact ⟨[], by simp, .nil _⟩
  | @pre v r g rest e h he hs ht htru hov hsat hr ih =>
    cases hp
    obtain ⟨a, ha, hf⟩ := hr b hb
    obtain ⟨es, h1, h2⟩ := ih (x := .post _ _) ha rfl
    refine ⟨es ++ [e], fun e' he' => ?_, h2.append (.cons hf (.nil _))⟩
    rcases List.mem_append.1 he' with h | h
    · exact h1 _ h
    · simp at h; subst h; exact he
  | @post v e r g rest h hv hl hov hsat hr ih =>
    cases hp
    obtain ⟨a, ha, k, hk, _⟩ := hr b hb
    obtain ⟨es, h1, h2⟩ := ih (x := .pre _ _ _) ha rfl
    obtain ⟨lp, hlp⟩ := Option.isSome_iff_exists.1 hl
    refine ⟨es ++ List.replicate k lp, fun e' he' => ?_, h2.append (loopPath_feasible hlp hk)⟩
    rcases List.mem_append.1 he' with h | h
    · exact h1 _ h
    · rw [(List.mem_replicate.1 h).2]; exact (selfLoopFor_mem hlp).1

/-- With counted steps, along the error path. -/
theorem PathOk.reachExact {cnt : Prop} (hc : cnt) {steps : Pred → Nat} {x : PathEntry T} {path : List (PathEntry T)} (hR : R.WF)
    (h : PathOk R G cnt steps (x :: path)) :
    ∃ es, netExpand G steps (match x with | .pre _ _ _ => extractPath path | .post _ _ => extractPath (x :: path)) = some es ∧
      ∀ b, R.den x.vertex x.states b → LFeasible R (match x with | .pre _ e _ => es ++ [e] | .post _ _ => es) trueFact (x.vertex, b) := by
  generalize hp : x :: path = p at h
  induction h generalizing x path with
  | start =>
    cases hp
    refine ⟨[], by simp [extractPath, netExpand], fun b hb => ?_⟩
    obtain ⟨ρ, _, e⟩ := hb
    simp only [PathEntry.vertex, PRepr.stateVars, hR.tru, List.map_nil] at e
    subst e
    exact .nil _
  | @pre v r g rest e h he hs ht htru hov hsat hr ih =>
    cases hp
    obtain ⟨es, h1, h2⟩ := ih (x := .post v r) rfl
    refine ⟨es, h1, fun b hb => ?_⟩
    obtain ⟨a, ha, hf⟩ := hr b hb
    exact (h2 a ha).append (.cons hf (.nil _))
  | @post v e r g rest h hv hl hov hsat hr ih =>
    cases hp
    obtain ⟨es, h1, h2⟩ := ih (x := .pre v e r) rfl
    obtain ⟨lp, hlp⟩ := Option.isSome_iff_exists.1 hl
    have hev : e.tgt = v := by cases h; rfl
    refine ⟨es ++ (e :: List.replicate (steps v) lp), ?_, fun b hb => ?_⟩
    · simp only [extractPath_post, extractPath_pre]
      rw [netExpand_append]
      refine ⟨es, _, h1, ?_, rfl⟩
      simp [netExpand, hev, hv, hlp]
    · obtain ⟨a, ha, k, hk, hcnt⟩ := hr b hb
      have hk' := hcnt hc
      subst hk'
      have := (h2 a ha).append (loopPath_feasible hlp hk)
      simpa [PathEntry.vertex] using this

/-! ### Acyclicity -/

/-- No cycle through two vertices, among the vertices that can be reached from the entry: there is a rank. -/
def LGraph.Ranked (G : LGraph T) : Prop :=
  ∃ rank : Pred → Nat, ∀ e ∈ G, e.src ≠ e.tgt → Walk G.succ .tru e.src → rank e.src < rank e.tgt

theorem PathOk.ranks {cnt : Prop} {steps : Pred → Nat} {rank : Pred → Nat}
    (hr : ∀ e ∈ G, e.src ≠ e.tgt → Walk G.succ .tru e.src → rank e.src < rank e.tgt) {x : PathEntry T} {path : List (PathEntry T)}
    (h : PathOk R G cnt steps (x :: path)) : ∀ u ∈ postVertices path, rank u < rank x.vertex := by
  generalize hp : x :: path = p at h
  induction h generalizing x path with
  | start => cases hp; simp [postVertices]
  | @pre v r g rest e h he hs ht htru hov hsat hr' ih =>
    cases hp
    intro u hu
    have hlt := hr e he (by rw [hs]; exact Ne.symm ht) (by rw [hs]; exact h.walk)
    simp only [postVertices, List.filterMap_cons, List.mem_cons] at hu
    rw [hs] at hlt
    rcases hu with rfl | hu
    · exact hlt
    · exact Nat.lt_trans (ih (x := .post v r) rfl u hu) hlt
  | post h hv hl hov hsat hr ih =>
    cases hp
    intro u hu
    exact ih (x := .pre _ _ _) rfl u hu

/-! ### The safe parts -/

/-- What is known about the blocked states. -/
structure NetSafe (R : PRepr) (G : LGraph T) (net : Net T) : Prop where
  over : ∀ v, R.OverV v (net v).pre ∧ R.OverV v (net v).post ∧ ∀ f ∈ (net v).reasons, R.OverV v f
  loops : ∀ v k a b, R.den v (net v).pre a → (loopSTS R G v).Path k a b → R.den v (net v).post b
  edges : ∀ v, ∀ e ∈ (net v).children, ∀ a b, R.den v (net v).post a → e.Fires R (v, a) (e.tgt, b) → R.den e.tgt (net e.tgt).pre b
  reasons : ∀ v (i : Nat) f e, (net v).reasons[i]? = some f → (net v).children[i]? = some e → ∀ a b, R.den v f a →
    e.Fires R (v, a) (e.tgt, b) → R.den e.tgt (net e.tgt).pre b
  tru : ∀ f ∈ (net .tru).reasons, R.den .tru f []
  walk : ∀ v a, R.den v (net v).post a → Walk G.succ .tru v
  pres : ∀ v, (net v).pre = .ff ∨ ∃ a, R.den v (net v).pre a
  fls : (net .fls).pre = .ff

theorem NetSafe.congr {net net' : Net T} (h : NetSafe R G net) (hs : ∀ v, NodeSame (net v) (net' v)) : NetSafe R G net' := by
  obtain ⟨a, b, c, d, e, f, g, i⟩ := h
  constructor
  · intro v; rw [(hs v).pre, (hs v).post, (hs v).reasons]; exact a v
  · intro v; rw [(hs v).pre, (hs v).post]; exact b v
  · intro v e; rw [(hs v).children, (hs v).post, (hs e.tgt).pre]; exact c v e
  · intro v i f e; rw [(hs v).children, (hs v).reasons, (hs e.tgt).pre]; exact d v i f e
  · rw [(hs .tru).reasons]; exact e
  · intro v; rw [(hs v).post]; exact f v
  · intro v; rw [(hs v).pre]; exact g v
  · rw [(hs .fls).pre]; exact i

theorem loopPath_rep {v : Pred} {k : Nat} {a b : List T.Val} (h : (loopSTS R G v).Path k a b)
    (ha : ∃ ρ : Valuation T, (R.stateVars v).map ρ = a) : ∃ ρ : Valuation T, (R.stateVars v).map ρ = b := by
  cases h with
  | refl => exact ha
  | snoc _ hs =>
    obtain ⟨e, he, ρ, _, _, h3⟩ := hs
    simp only [LEdge.tgtFact, Prod.mk.injEq] at h3
    obtain ⟨h3, h4⟩ := h3
    refine ⟨fun x => ρ (shift 1 x), ?_⟩
    rw [h4, ← h3, PRepr.nextVars_eq, List.map_map]
    rfl

theorem fires_rep {e : LEdge T} {f : Fact T} {b : List T.Val} (h : e.Fires R f (e.tgt, b)) :
    ∃ ρ : Valuation T, (R.stateVars e.tgt).map ρ = b := by
  obtain ⟨ρ, _, _, h3⟩ := h
  simp only [LEdge.tgtFact, Prod.mk.injEq, true_and] at h3
  refine ⟨fun x => ρ (shift 1 x), ?_⟩
  rw [h3, PRepr.nextVars_eq, List.map_map]
  rfl

/-- More states are safe before the loop. -/
theorem NetSafe.setPre (hX : X.Ok) {net : Net T} (h : NetSafe R G net) {v : Pred} {n : NetNode T} {f src : Fla T}
    (hv : v ≠ .fls) (hn : n.pre = X.nrm (.or (net v).pre f)) (h1 : n.post = (net v).post) (h2 : n.children = (net v).children)
    (h3 : n.reasons = (net v).reasons) (hov : R.OverV v f) (hsrc : ∃ a, R.den v src a) (hsub : ∀ a, R.den v src a → R.den v f a)
    (hf : ∀ k a b, R.den v f a → (loopSTS R G v).Path k a b → ¬ R.den v (X.nrm (.not (net v).post)) b) :
    NetSafe R G (net.set v n) := by
  have hpre : ∀ u a, R.den u (net u).pre a → R.den u (net.set v n u).pre a := by
    intro u a ha
    by_cases hu : u = v
    · subst hu
      rw [Net.set_same, hn, hX.nrm.den, PRepr.den_or]
      exact .inl ha
    · rw [Net.set_ne hu]; exact ha
  have hpost : ∀ u, (net.set v n u).post = (net u).post := by
    intro u
    by_cases hu : u = v
    · subst hu; rw [Net.set_same, h1]
    · rw [Net.set_ne hu]
  have hch : ∀ u, (net.set v n u).children = (net u).children := by
    intro u
    by_cases hu : u = v
    · subst hu; rw [Net.set_same, h2]
    · rw [Net.set_ne hu]
  have hre : ∀ u, (net.set v n u).reasons = (net u).reasons := by
    intro u
    by_cases hu : u = v
    · subst hu; rw [Net.set_same, h3]
    · rw [Net.set_ne hu]
  constructor
  · intro u
    refine ⟨?_, by rw [hpost]; exact (h.over u).2.1, by rw [hre]; exact (h.over u).2.2⟩
    by_cases hu : u = v
    · subst hu
      rw [Net.set_same, hn]
      apply hX.nrm.overV
      intro x hx
      simp only [Fla.vars, List.mem_append] at hx
      rcases hx with hx | hx
      · exact (h.over u).1 x hx
      · exact hov x hx
    · rw [Net.set_ne hu]; exact (h.over u).1
  · intro u k a b ha hp
    rw [hpost]
    by_cases hu : u = v
    · subst hu
      rw [Net.set_same, hn, hX.nrm.den, PRepr.den_or] at ha
      rcases ha with ha | ha
      · exact h.loops u k a b ha hp
      · have := hf k a b ha hp
        rw [hX.nrm.den, PRepr.den_not (h.over u).2.1 (loopPath_rep hp (PRepr.den_rep ha))] at this
        exact Classical.not_not.1 this
    · rw [Net.set_ne hu] at ha; exact h.loops u k a b ha hp
  · intro u e he a b ha hf
    rw [hch] at he
    rw [hpost] at ha
    exact hpre _ _ (h.edges u e he a b ha hf)
  · intro u i g e hg he a b ha hf
    rw [hre] at hg
    rw [hch] at he
    exact hpre _ _ (h.reasons u i g e hg he a b ha hf)
  · intro g hg
    rw [hre] at hg
    exact h.tru g hg
  · intro u a ha
    rw [hpost] at ha
    exact h.walk u a ha
  · intro u
    by_cases hu : u = v
    · subst hu
      right
      obtain ⟨a, ha⟩ := hsrc
      refine ⟨a, ?_⟩
      rw [Net.set_same, hn, hX.nrm.den, PRepr.den_or]
      exact .inr (hsub a ha)
    · rw [Net.set_ne hu]; exact h.pres u
  · rw [Net.set_ne (Ne.symm hv)]; exact h.fls

/-- One more blocked child. -/
theorem NetSafe.addReason (hX : X.Ok) {net : Net T} (h : NetSafe R G net) {v : Pred} {f reached : Fla T} {e : LEdge T}
    (he : (net v).children[(net v).reasons.length]? = some e) (hov : R.OverV v f)
    (hsub : ∀ a, R.den v reached a → R.den v f a) (htru : v = .tru → R.den .tru reached [])
    (hf : ∀ a b, R.den v f a → e.Fires R (v, a) (e.tgt, b) → ¬ R.den e.tgt (X.nrm (.not (net e.tgt).pre)) b) :
    NetSafe R G (net.set v { net v with reasons := (net v).reasons ++ [f] }) := by
  have hpre : ∀ u, (net.set v { net v with reasons := (net v).reasons ++ [f] } u).pre = (net u).pre := by
    intro u
    by_cases hu : u = v
    · subst hu; rw [Net.set_same]
    · rw [Net.set_ne hu]
  have hpost : ∀ u, (net.set v { net v with reasons := (net v).reasons ++ [f] } u).post = (net u).post := by
    intro u
    by_cases hu : u = v
    · subst hu; rw [Net.set_same]
    · rw [Net.set_ne hu]
  have hch : ∀ u, (net.set v { net v with reasons := (net v).reasons ++ [f] } u).children = (net u).children := by
    intro u
    by_cases hu : u = v
    · subst hu; rw [Net.set_same]
    · rw [Net.set_ne hu]
  constructor
  · intro u
    rw [hpre, hpost]
    refine ⟨(h.over u).1, (h.over u).2.1, ?_⟩
    by_cases hu : u = v
    · subst hu
      rw [Net.set_same]
      intro g hg
      rcases List.mem_append.1 hg with hg | hg
      · exact (h.over u).2.2 g hg
      · simp at hg; subst hg; exact hov
    · rw [Net.set_ne hu]; exact (h.over u).2.2
  · intro u k a b; rw [hpre, hpost]; exact h.loops u k a b
  · intro u e; rw [hpre, hpost, hch]; exact h.edges u e
  · intro u i g e' hg he' a b ha hfi
    rw [hch] at he'
    rw [hpre]
    by_cases hu : u = v
    · subst hu
      rw [Net.set_same] at hg
      simp only [List.getElem?_append] at hg
      split at hg
      · exact h.reasons u i g e' hg he' a b ha hfi
      · rename_i hlt
        have hi : i = (net u).reasons.length := by
          have : i - (net u).reasons.length < 1 := by
            have := (List.getElem?_eq_some_iff.1 hg).1
            simpa using this
          omega
        subst hi
        simp at hg
        subst hg
        rw [he] at he'
        cases he'
        have := hf a b ha hfi
        rw [hX.nrm.den, PRepr.den_not (h.over e.tgt).1 (fires_rep hfi)] at this
        exact Classical.not_not.1 this
    · rw [Net.set_ne hu] at hg; exact h.reasons u i g e' hg he' a b ha hfi
  · intro g hg
    by_cases hu : Pred.tru = v
    · subst hu
      rw [Net.set_same] at hg
      rcases List.mem_append.1 hg with hg | hg
      · exact h.tru g hg
      · simp at hg; subst hg; exact hsub _ (htru rfl)
    · rw [Net.set_ne hu] at hg; exact h.tru g hg
  · intro u a; rw [hpost]; exact h.walk u a
  · intro u; rw [hpre]; exact h.pres u
  · rw [hpre]; exact h.fls

theorem PRepr.den_conj {v : Pred} {fs : List (Fla T)} (hf : ∀ f ∈ fs, R.OverV v f) {a : List T.Val}
    (ha : ∃ ρ : Valuation T, (R.stateVars v).map ρ = a) : R.den v (Fla.conj fs) a ↔ ∀ f ∈ fs, R.den v f a := by
  obtain ⟨ρ, rfl⟩ := ha
  rw [PRepr.den_iff, Fla.holds_conj]
  · exact forall_congr' fun f => ⟨fun h hm => (PRepr.den_iff (hf f hm)).2 (h hm), fun h hm => (PRepr.den_iff (hf f hm)).1 (h hm)⟩
  · intro x hx
    rw [Fla.mem_vars_conj] at hx
    obtain ⟨f, hm, hx⟩ := hx
    exact hf f hm x hx

/-- All children are blocked. -/
theorem NetSafe.setPost (hX : X.Ok) {net : Net T} (h : NetSafe R G net) {v : Pred} (hw : Walk G.succ .tru v)
    (he : (net v).children[(net v).reasons.length]? = none) :
    NetSafe R G (net.set v { net v with post := X.nrm (.or (net v).post (X.nrm (Fla.conj (net v).reasons))), reasons := [] }) := by
  have hpre : ∀ u, (net.set v { net v with post := X.nrm (.or (net v).post (X.nrm (Fla.conj (net v).reasons))), reasons := [] } u).pre =
      (net u).pre := by
    intro u
    by_cases hu : u = v
    · subst hu; rw [Net.set_same]
    · rw [Net.set_ne hu]
  have hch : ∀ u, (net.set v { net v with post := X.nrm (.or (net v).post (X.nrm (Fla.conj (net v).reasons))), reasons := [] } u).children =
      (net u).children := by
    intro u
    by_cases hu : u = v
    · subst hu; rw [Net.set_same]
    · rw [Net.set_ne hu]
  have hre : ∀ u f, f ∈ (net.set v { net v with post := X.nrm (.or (net v).post (X.nrm (Fla.conj (net v).reasons))), reasons := [] } u).reasons →
      f ∈ (net u).reasons ∧ u ≠ v := by
    intro u f hf
    by_cases hu : u = v
    · subst hu; rw [Net.set_same] at hf; simp at hf
    · rw [Net.set_ne hu] at hf; exact ⟨hf, hu⟩
  constructor
  · intro u
    rw [hpre]
    refine ⟨(h.over u).1, ?_, fun f hf => (h.over u).2.2 f (hre u f hf).1⟩
    by_cases hu : u = v
    · subst hu
      rw [Net.set_same]
      apply hX.nrm.overV
      intro x hx
      simp only [Fla.vars, List.mem_append] at hx
      rcases hx with hx | hx
      · exact (h.over u).2.1 x hx
      · have hx := hX.nrm.vars _ x hx
        rw [Fla.mem_vars_conj] at hx
        obtain ⟨f, hm, hx⟩ := hx
        exact (h.over u).2.2 f hm x hx
    · rw [Net.set_ne hu]; exact (h.over u).2.1
  · intro u k a b ha hp
    rw [hpre] at ha
    have := h.loops u k a b ha hp
    by_cases hu : u = v
    · subst hu
      rw [Net.set_same]
      show R.den _ (X.nrm _) _
      rw [hX.nrm.den, PRepr.den_or]
      exact .inl this
    · rw [Net.set_ne hu]; exact this
  · intro u e hm a b ha hf
    rw [hch] at hm
    rw [hpre]
    by_cases hu : u = v
    · subst hu
      rw [Net.set_same] at ha
      have ha : R.den u (X.nrm (.or (net u).post (X.nrm (Fla.conj (net u).reasons)))) a := ha
      rw [hX.nrm.den, PRepr.den_or, hX.nrm.den] at ha
      rcases ha with ha | ha
      · exact h.edges u e hm a b ha hf
      · rw [PRepr.den_conj (h.over u).2.2 (PRepr.den_rep ha)] at ha
        obtain ⟨i, hi, rfl⟩ := List.mem_iff_getElem.1 hm
        have hlen : (net u).children.length ≤ (net u).reasons.length := List.getElem?_eq_none_iff.1 he
        have hi' : i < (net u).reasons.length := by omega
        exact h.reasons u i (net u).reasons[i] _ (by simp [hi']) (by simp [hi]) a b (ha _ (List.getElem_mem _)) hf
    · rw [Net.set_ne hu] at ha; exact h.edges u e hm a b ha hf
  · intro u i g e hg hm a b ha hf
    have hne := (hre u g (List.mem_of_getElem? hg)).2
    rw [Net.set_ne hne] at hg hm
    rw [hpre]
    exact h.reasons u i g e hg hm a b ha hf
  · intro g hg
    exact h.tru g (hre _ g hg).1
  · intro u a ha
    by_cases hu : u = v
    · subst hu; exact hw
    · rw [Net.set_ne hu] at ha; exact h.walk u a ha
  · intro u; rw [hpre]; exact h.pres u
  · rw [hpre]; exact h.fls

end Golem
