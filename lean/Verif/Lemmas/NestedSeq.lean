import Verif.Lemmas.NestedLoop

/-! The sequence of contractions of `NestedLoopTransformation`. -/

namespace Golem
variable {T : Theory}

/-- A sequence of contractions until no cycle is left. -/
inductive Contracts (names : Nat → Pred) : Nat → PRepr → LGraph T → Nested T → Prop where
  | done {k : Nat} {R : PRepr} {G : LGraph T} : G.CycleFree → Contracts names k R G ⟨R, G, []⟩
  | step {k : Nat} {R : PRepr} {G : LGraph T} {x : Nested T} {vs : List Pred} : Picked G vs → 1 < vs.length →
      Contracts names (k + 1) (R.contract (names k) vs) (contractVertices R (names k) vs G) x →
      Contracts names k R G ⟨x.R, x.G, ⟨names k, vs⟩ :: x.loops⟩

/-- The symbols still to be used. -/
def Later (names : Nat → Pred) (k : Nat) (p : Pred) : Prop := ∃ j, k ≤ j ∧ p = names j

variable {names : Nat → Pred} {dead : List Pred} {k : Nat} {R : PRepr} {G : LGraph T} {x : Nested T} {vs : List Pred}

theorem NestOk.weaken {new new' : Pred → Prop} (h : NestOk dead new R G) (hn : ∀ p, new' p → new p) : NestOk dead new' R G :=
  { h with
    fresh := fun e he => ⟨fun hm => (h.fresh e he).1 (hn _ hm), fun hm => (h.fresh e he).2 (hn _ hm)⟩
    freshDead := fun p hp hm => h.freshDead p hp (hn _ hm)
    freshEnds := ⟨fun hm => h.freshEnds.1 (hn _ hm), fun hm => h.freshEnds.2 (hn _ hm)⟩ }

theorem later_self : Later names k (names k) := ⟨k, Nat.le_refl _, rfl⟩

theorem NestOk.next (hinj : ∀ i j, names i = names j → i = j) (h : NestOk dead (Later names k) R G) (hp : Picked G vs) :
    NestOk (dead ++ vs) (Later names (k + 1)) (R.contract (names k) vs) (contractVertices R (names k) vs G) :=
  (h.step hp later_self).weaken fun p ⟨j, hj, e⟩ => ⟨⟨j, by omega, e⟩, fun e' => by
    have := hinj j k (e.symm.trans e'); omega⟩

/-! ### The loop of the transformation -/

theorem chained_pred : ∀ {l : List (LEdge T)} {u v : Pred}, Chained u l v →
    (∀ e ∈ l, e.src = u ∨ ∃ e' ∈ l, e'.tgt = e.src) ∧ (l ≠ [] → ∃ e' ∈ l, e'.tgt = v)
  | [], u, v, _ => by simp
  | e :: l, u, v, h => by
    rw [chained_cons] at h
    obtain ⟨h1, h2⟩ := h
    obtain ⟨a, b⟩ := chained_pred h2
    refine ⟨?_, fun _ => ?_⟩
    · intro e' he'
      rcases List.mem_cons.1 he' with rfl | he'
      · exact .inl h1.symm
      · rcases a e' he' with h3 | ⟨e'', h3, h4⟩
        · exact .inr ⟨e, by simp, h3.symm⟩
        · exact .inr ⟨e'', by simp [h3], h4⟩
    · cases l with
      | nil => rw [chained_nil] at h2; exact ⟨e, by simp, h2⟩
      | cons e' l =>
        obtain ⟨e'', h3, h4⟩ := b (by simp)
        exact ⟨e'', List.mem_cons_of_mem _ h3, h4⟩

theorem IsCycle.picked {s : Pred} {l : List (LEdge T)} (h : IsCycle G s l) : Picked G (l.map LEdge.src) := by
  obtain ⟨a, b⟩ := chained_pred h.chained
  refine ⟨h.nodup, ?_, ?_⟩
  · intro p hp
    obtain ⟨e, he, rfl⟩ := List.mem_map.1 hp
    exact ⟨e, (h.edges e he).1, rfl⟩
  · intro p hp
    obtain ⟨e, he, rfl⟩ := List.mem_map.1 hp
    rcases a e he with h1 | ⟨e', he', h1⟩
    · obtain ⟨e', he', h2⟩ := b h.nonempty
      exact ⟨e', (h.edges e' he').1, h2.trans h1.symm⟩
    · exact ⟨e', (h.edges e' he').1, h1⟩

theorem IsCycle.two {s : Pred} {l : List (LEdge T)} (h : IsCycle G s l) : 1 < l.length := by
  obtain ⟨h1, h2, h3, _, _⟩ := h
  match l, h1 with
  | [e], _ =>
    rw [chained_cons, chained_nil] at h2
    exact absurd (h2.1.symm.trans h2.2.symm) (h3 e (by simp)).2
  | _ :: _ :: _, _ => simp

theorem detectLoop_cases (hends : ∀ e ∈ G, e.tgt ≠ .tru ∧ e.src ≠ .fls) :
    (detectLoop G = some [] ∧ G.CycleFree) ∨ ∃ s l, detectLoop G = some l ∧ IsCycle G s l := by
  by_cases hb : 3 < (getVertices G).length
  · obtain ⟨l, h1, h2, h3⟩ := C63_detectLoop G hb
    by_cases hl : l = []
    · exact .inl ⟨hl ▸ h1, h2.1 hl⟩
    · obtain ⟨s, hs⟩ := h3 hl
      exact .inr ⟨s, l, h1, hs⟩
  · exact .inl (C63_detectLoop_small G (by omega) hends)

theorem nestedContract_total (hinj : ∀ i j, names i = names j → i = j) : ∀ {fuel k : Nat} {R : PRepr} {G : LGraph T} {dead : List Pred},
    NestOk dead (Later names k) R G → (getVertices G).length < fuel → ∃ x, nestedContract names fuel k R G = some x ∧ Contracts names k R G x
  | 0, _, _, _, _, _, h => by omega
  | fuel + 1, k, R, G, dead, hok, hf => by
    rcases detectLoop_cases hok.ends with ⟨h1, h2⟩ | ⟨s, l, h1, h2⟩
    · exact ⟨⟨R, G, []⟩, by simp [nestedContract, h1], .done h2⟩
    · have hp := h2.picked
      have hlen : 1 < (l.map LEdge.src).length := by simpa using h2.two
      have hlt := contract_fewer hok hp later_self hlen
      obtain ⟨x, hx, hc⟩ := nestedContract_total hinj (hok.next hinj hp) (by omega : _ < fuel)
      exact ⟨_, by simp [nestedContract, h1, h2.two, hx], .step hp hlen hc⟩

theorem nestedTransform_spec (hinj : ∀ i j, names i = names j → i = j) (h : NestOk [] (Later names 0) R G) :
    ∃ x, nestedTransform names R G = some x ∧ Contracts names 0 R G x := nestedContract_total hinj h (by omega)

/-! ### What the sequence keeps -/

theorem Contracts.facts (hinj : ∀ i j, names i = names j → i = j) (h : Contracts names k R G x) :
    ∀ {dead : List Pred}, NestOk dead (Later names k) R G →
    (∃ k', k ≤ k' ∧ NestOk (dead ++ x.loops.flatMap LoopContraction.vs) (Later names k') x.R x.G ∧
      (∀ c ∈ x.loops, ∃ j, k ≤ j ∧ j < k' ∧ c.vertex = names j)) ∧
    x.G.CycleFree ∧ (G.OneLoop → x.G.OneLoop) ∧
    (∀ n, (∃ es : List (LEdge T), (∀ e ∈ es, e ∈ x.G) ∧ es.length = n ∧ LFeasible x.R es trueFact falseFact) ↔
      ∃ es : List (LEdge T), (∀ e ∈ es, e ∈ G) ∧ es.length = n ∧ LFeasible R es trueFact falseFact) := by
  induction h with
  | done hc => intro dead hok; exact ⟨⟨_, Nat.le_refl _, by simpa using hok, by simp⟩, hc, fun h => h, fun _ => Iff.rfl⟩
  | @step k R G x vs hp hl _ ih =>
    intro dead hok
    obtain ⟨⟨k', hk', h1, h2⟩, h3, h4, h5⟩ := ih (hok.next hinj hp)
    refine ⟨⟨k', by omega, by simpa using h1, ?_⟩, h3, fun h => h4 (contract_oneLoop hok later_self h), fun n => ?_⟩
    · intro c hc
      rcases List.mem_cons.1 hc with rfl | hc
      · exact ⟨k, Nat.le_refl _, by omega, rfl⟩
      · obtain ⟨j, a, b, e⟩ := h2 c hc
        exact ⟨j, by omega, b, e⟩
    · rw [h5 n]; exact contract_paths hok hp later_self n

theorem Contracts.unsafe_iff (hinj : ∀ i j, names i = names j → i = j) (h : Contracts names k R G x)
    (hok : NestOk dead (Later names k) R G) : x.G.Unsafe x.R ↔ G.Unsafe R := by
  obtain ⟨_, _, _, h5⟩ := h.facts hinj hok
  constructor
  · rintro ⟨es, a, b⟩
    obtain ⟨es', a', _, b'⟩ := (h5 es.length).1 ⟨es, a, rfl, b⟩
    exact ⟨es', a', b'⟩
  · rintro ⟨es, a, b⟩
    obtain ⟨es', a', _, b'⟩ := (h5 es.length).2 ⟨es, a, rfl, b⟩
    exact ⟨es', a', b'⟩

/-- Which vertices there are at the end. -/
theorem Contracts.vertices (h : Contracts names k R G x) :
    (∀ p, x.G.Vertex p → G.Vertex p ∨ ∃ c ∈ x.loops, c.vertex = p) ∧
    (∀ p, G.Vertex p → (∀ c ∈ x.loops, p ∉ c.vs) → x.G.Vertex p) ∧
    (∀ p, (∀ c ∈ x.loops, c.vertex ≠ p) → x.R.args p = R.args p) ∧
    (∀ c ∈ x.loops, ∀ p ∈ c.vs, G.Vertex p ∨ ∃ c' ∈ x.loops, c'.vertex = p) := by
  induction h with
  | done hc => exact ⟨fun p h => .inl h, fun p h _ => h, fun p _ => rfl, by simp⟩
  | @step k R G x vs hp hl _ ih =>
    obtain ⟨h1, h2, h3, h4⟩ := ih
    refine ⟨fun p hv => ?_, fun p hv hn => ?_, fun p hn => ?_, ?_⟩
    · rcases h1 p hv with hv | ⟨c, hc, e⟩
      · rcases contract_vertex hv with rfl | hv
        · exact .inr ⟨⟨names k, vs⟩, by simp, rfl⟩
        · exact .inl hv.1
      · exact .inr ⟨c, by simp [hc], e⟩
    · simp only [List.mem_cons, forall_eq_or_imp] at hn
      exact h2 p (vertex_contract hv hn.1) hn.2
    · simp only [List.mem_cons, forall_eq_or_imp] at hn
      rw [h3 p hn.2, contract_args_ne fun e => hn.1 e.symm]
    · intro c hc p hpc
      rcases List.mem_cons.1 hc with rfl | hc
      · obtain ⟨e, he, rfl⟩ := hp.out p hpc
        exact .inl ⟨e, he, .inr rfl⟩
      · rcases h4 c hc p hpc with hv | ⟨c', hc', e⟩
        · rcases contract_vertex hv with rfl | hv
          · exact .inr ⟨⟨names k, vs⟩, by simp, rfl⟩
          · exact .inl hv.1
        · exact .inr ⟨c', by simp [hc'], e⟩

/-- No vertex is contracted twice; contracted vertices have been there before. -/
theorem Contracts.disjoint (hinj : ∀ i j, names i = names j → i = j) (h : Contracts names k R G x) :
    ∀ {dead : List Pred}, NestOk dead (Later names k) R G →
    x.loops.Pairwise (fun c d => ∀ p ∈ c.vs, p ∉ d.vs) ∧ ∀ c ∈ x.loops, (∀ p ∈ c.vs, p ∉ dead) ∧ Pred.tru ∉ c.vs ∧ Pred.fls ∉ c.vs ∧ c.vs.Nodup := by
  induction h with
  | done hc => intro dead _; simp
  | @step k R G x vs hp hl _ ih =>
    intro dead hok
    obtain ⟨h1, h2⟩ := ih (hok.next hinj hp)
    have hc := hok.contr hp later_self
    refine ⟨List.pairwise_cons.2 ⟨fun d hd p hpv hpd => ?_, h1⟩, ?_⟩
    · exact (h2 d hd).1 p hpd (by simp [hpv])
    · intro c hcm
      rcases List.mem_cons.1 hcm with rfl | hcm
      · exact ⟨fun p hpv => (hok.pickedLive hp p hpv).1, hc.tru, hc.fls, hc.nodup⟩
      · exact ⟨fun p hpv hd => (h2 c hcm).1 p hpv (by simp [hd]), (h2 c hcm).2⟩

/-! ### Interpretations -/

/-- No contracted vertex is contracted again. -/
def Flat (loops : List LoopContraction) : Prop := ∀ c ∈ loops, ∀ d ∈ loops, c.vertex ∉ d.vs

def pullAll : PRepr → List LoopContraction → (Fact T → Prop) → Fact T → Prop
  | _, [], I => I
  | R, c :: cs, I => pull R c.vertex c.vs (pullAll (R.contract c.vertex c.vs) cs I)

theorem Contracts.closed (hinj : ∀ i j, names i = names j → i = j) (h : Contracts names k R G x) {I : Fact T → Prop}
    (hI : Closed x.R x.G I) : ∀ {dead : List Pred}, NestOk dead (Later names k) R G → Closed R G (pullAll R x.loops I) := by
  induction h with
  | done hc => intro dead _; exact hI
  | @step k R G x vs hp hl _ ih =>
    intro dead hok
    exact pull_closed hok hp later_self (ih hI (hok.next hinj hp))

theorem pullAll_old {I : Fact T → Prop} {f : Fact T} : ∀ {loops : List LoopContraction} {R : PRepr}, (∀ c ∈ loops, f.1 ∉ c.vs) →
    (pullAll R loops I f ↔ I f)
  | [], _, _ => Iff.rfl
  | c :: cs, R, h => by
    simp only [List.mem_cons, forall_eq_or_imp] at h
    simp only [pullAll, pull]
    constructor
    · intro hp; exact (pullAll_old h.2).1 (hp.2 h.1)
    · intro hi; exact ⟨fun hv => absurd hv h.1, fun _ => (pullAll_old h.2).2 hi⟩

theorem argNames_contract {N p : Pred} (h : p ≠ N) : argNames (R.contract N vs) p = argNames R p := by
  simp [argNames, contract_args_ne h]

theorem contractedArgs_contract {N : Pred} {ws : List Pred} (h : N ∉ ws) : contractedArgs (R.contract N vs) ws = contractedArgs R ws := by
  unfold contractedArgs
  congr 1
  induction ws with
  | nil => rfl
  | cons q ws ih =>
    simp only [List.mem_cons, not_or] at h
    simp only [List.flatMap_cons, ih h.2, argNames_contract (fun e => h.1 e.symm)]

theorem pullAll_new {I : Fact T → Prop} {p : Pred} {v : List T.Val} : ∀ {loops : List LoopContraction} {R : PRepr}, Flat loops →
    loops.Pairwise (fun c d => ∀ p ∈ c.vs, p ∉ d.vs) → ∀ {c : LoopContraction}, c ∈ loops → p ∈ c.vs →
    (pullAll R loops I (p, v) ↔ ∀ σ, AtC R c.vs p v σ → I (encFact R c.vertex c.vs σ))
  | [], _, _, _, c, hc, _ => by simp at hc
  | d :: cs, R, hfl, hd, c, hc, hp => by
    rw [List.pairwise_cons] at hd
    have hfl' : Flat cs := fun a ha b hb => hfl a (List.mem_cons_of_mem _ ha) b (List.mem_cons_of_mem _ hb)
    simp only [pullAll, pull]
    rcases List.mem_cons.1 hc with rfl | hc
    · constructor
      · intro h σ hσ
        exact (pullAll_old (f := encFact R c.vertex c.vs σ) fun d hd => hfl c (by simp) d (by simp [hd])).1 (h.1 hp σ hσ)
      · intro h
        refine ⟨fun _ σ hσ => ?_, fun hv => absurd hp hv⟩
        exact (pullAll_old (f := encFact R c.vertex c.vs σ) fun d hd => hfl c (by simp) d (by simp [hd])).2 (h σ hσ)
    · have hpd : p ∉ d.vs := fun hm => hd.1 c hc p hm hp
      have hN : d.vertex ∉ c.vs := hfl d (by simp) c (by simp [hc])
      have ih := pullAll_new (I := I) (v := v) (R := R.contract d.vertex d.vs) hfl' hd.2 hc hp
      have hat : ∀ σ, AtC (R.contract d.vertex d.vs) c.vs p v σ ↔ AtC R c.vs p v σ := by
        intro σ
        have ha : argNames (R.contract d.vertex d.vs) p = argNames R p := argNames_contract fun e => hN (e ▸ hp)
        exact ⟨fun h => ⟨h.here, h.others, ha ▸ h.args⟩, fun h => ⟨h.here, h.others, ha ▸ h.args⟩⟩
      have henc : ∀ σ : Name → T.Val, encFact (R.contract d.vertex d.vs) c.vertex c.vs σ = encFact R c.vertex c.vs σ := by
        intro σ; simp only [encFact, contractedArgs_contract hN]
      rw [show (∀ σ, AtC R c.vs p v σ → I (encFact R c.vertex c.vs σ)) ↔
        ∀ σ, AtC (R.contract d.vertex d.vs) c.vs p v σ → I (encFact (R.contract d.vertex d.vs) c.vertex c.vs σ) by
          simp only [hat, henc], ← ih]
      exact ⟨fun h => h.2 hpd, fun h => ⟨fun hv => absurd hv hpd, fun _ => h⟩⟩

end Golem
