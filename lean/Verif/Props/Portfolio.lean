import Verif.Model.Portfolio

/-!
C55: a portfolio run prints one answer, for every interleaving of the processes.
-/

namespace Golem.Portfolio
variable {A : Type}

/-- What every reachable state satisfies. -/
structure Inv (C : Config A) (s : State A) : Prop where
  decided : ∀ (i : Nat) a, s.procs[i]? = some (.child (.decided a)) → C.result i = some (some a)
  won : ∀ (i : Nat) a, s.procs[i]? = some (.child (.won a)) →
    s.winner = some i ∧ C.result i = some (some a) ∧ s.output = []
  printed : ∀ (i : Nat) a, s.procs[i]? = some (.child (.printed a)) →
    s.winner = some i ∧ C.result i = some (some a) ∧ s.output = [.answer a]
  zero : ∀ (i : Nat), s.procs[i]? = some (.child (.exited true)) ∨ s.procs[i]? = some (.child (.reaped true)) →
    s.winner = some i ∧ ∃ a, C.result i = some (some a) ∧ s.output = [.answer a]
  noWinner : s.winner = none →
    s.output = if s.parent = .done ∧ C.saysMaybe = true then [.maybe] else []
  winner : ∀ (i : Nat), s.winner = some i →
    ∃ a, C.result i = some (some a) ∧ (s.output = [] ∨ s.output = [.answer a])
  winnerIn : ∀ (i : Nat), s.winner = some i →
    ∃ c, s.procs[i]? = some (.child c) ∧ c ≠ .running ∧ ∀ a, c ≠ .decided a
  loser : ∀ (i : Nat), C.faults = false →
    s.procs[i]? = some (.child (.exited false)) ∨ s.procs[i]? = some (.child (.reaped false)) →
    s.winner ≠ some i ∧ (C.result i = some none ∨ s.winner ≠ none)
  killing : ∀ k, s.parent = .killing k →
    (∃ i : Nat, s.procs[i]? = some (.child (.reaped true))) ∧
    ∀ (j : Nat) c, j < k → s.procs[j]? = some (.child c) → c.alive = false
  killBound : ∀ k, s.parent = .killing k → k ≤ s.procs.length
  done : s.parent = .done → (∀ (j : Nat) c, s.procs[j]? = some (.child c) → c.alive = false) ∧
    (∀ i : Nat, s.winner = some i → ∃ z, s.procs[i]? = some (.child (.reaped z))) ∧
    (s.winner = none → ∀ j p, s.procs[(j : Nat)]? = some p → p = .failed ∨ ∃ z, p = .child (.reaped z))
  len : s.procs.length ≤ C.methods
  allForked : s.parent ≠ .forking → s.procs.length = C.methods
  kindEarly : s.parent = .forking ∨ s.parent = .waiting →
    C.faults = false → ∀ j : Nat, s.procs[j]? ≠ some (.child .killed)
  noFailed : C.faults = false → ∀ j : Nat, s.procs[j]? ≠ some .failed
  early : s.parent = .forking ∨ s.parent = .waiting → ∀ j : Nat, s.procs[j]? ≠ some (.child (.reaped true))
  stray : s.stray = true → ∃ j : Nat, s.procs[j]? = some .failed

theorem get_set {l : List (Proc A)} {i j : Nat} {p q : Proc A} (h : l[i]? = some p) :
    (l.set i q)[j]? = if i = j then some q else l[j]? := by
  obtain ⟨hl, -⟩ := List.getElem?_eq_some_iff.1 h
  rw [List.getElem?_set]
  by_cases hij : i = j
  · subst hij; simp [hl]
  · simp [hij]

theorem get_push {l : List (Proc A)} {j : Nat} {p q : Proc A} :
    (l ++ [p])[j]? = some q ↔ l[j]? = some q ∨ (j = l.length ∧ p = q) := by
  rcases Nat.lt_trichotomy j l.length with h | h | h
  · rw [List.getElem?_append_left h]
    constructor
    · exact Or.inl
    · rintro (h1 | ⟨h1, -⟩)
      · exact h1
      · omega
  · subst h; simp
  · rw [List.getElem?_eq_none (by simp; omega), List.getElem?_eq_none (by omega)]
    constructor
    · intro h1; cases h1
    · rintro (h1 | ⟨h1, -⟩)
      · cases h1
      · omega

theorem get_map {l : List (Proc A)} {j : Nat} : (l.map kill1)[j]? = (l[j]?).map kill1 := by simp

theorem kill1_child {p : Proc A} {c : ChildSt A} : kill1 p = .child c ↔
    (∃ c', p = .child c' ∧ c'.alive = true ∧ c = .killed) ∨ (p = .child c ∧ c.alive = false) := by
  cases p with
  | failed => simp [kill1]
  | child c' =>
    simp only [kill1, Proc.child.injEq]
    by_cases h : c'.alive = true
    · simp only [h, if_true]
      constructor
      · intro h1; exact .inl ⟨c', rfl, h, h1.symm⟩
      · rintro (⟨c'', h1, h2, h3⟩ | ⟨h1, h2⟩)
        · exact h3.symm
        · subst h1; simp [h] at h2
    · simp only [h]
      constructor
      · intro h1; simp at h1; subst h1; exact .inr ⟨rfl, by simpa using h⟩
      · rintro (⟨c'', h1, h2, h3⟩ | ⟨h1, h2⟩)
        · subst h1; exact absurd h2 h
        · simp [h1]

theorem inv_start (C : Config A) : Inv C (.start A) := by
  constructor <;> simp [State.start]

set_option maxHeartbeats 1000000 in
theorem inv_step {C : Config A} {s s' : State A} (hI : Inv C s) (h : Step C s s') : Inv C s' := by
  obtain ⟨decided, won, printed, zero, noWinner, winner, winnerIn, loser, killing, killBound, done, len, allForked, kindEarly,
    noFailed, early, stray⟩ := hI
  cases h with
  | fork h1 h2 =>
    constructor <;> simp only [get_push] <;> grind
  | forkFails h0 h1 h2 => 
    constructor <;> simp only [get_push] <;> grind
  | forked h1 h2 => 
    constructor <;> grind
  | indefinite i h1 h2 =>
    have hg := fun j (q : Proc A) => get_set (j := j) (q := q) h1
    constructor <;> simp only [State.setChild, hg] <;> grind [ChildSt.alive]
  | decide i a h1 h2 =>
    have hg := fun j (q : Proc A) => get_set (j := j) (q := q) h1
    constructor <;> simp only [State.setChild, hg] <;> grind [ChildSt.alive]
  | win i a h1 h2 =>
    have hg := fun j (q : Proc A) => get_set (j := j) (q := q) h1
    constructor <;> simp only [State.setChild, hg] <;> grind [ChildSt.alive]
  | lose i a h1 h2 =>
    have hg := fun j (q : Proc A) => get_set (j := j) (q := q) h1
    constructor <;> simp only [State.setChild, hg] <;> grind [ChildSt.alive]
  | print i a h1 =>
    have hg := fun j (q : Proc A) => get_set (j := j) (q := q) h1
    constructor <;> simp only [State.setChild, hg] <;> grind [ChildSt.alive]
  | finish i a h1 =>
    have hg := fun j (q : Proc A) => get_set (j := j) (q := q) h1
    constructor <;> simp only [State.setChild, hg] <;> grind [ChildSt.alive]
  | crash i c h0 h1 h2 =>
    have hg := fun j (q : Proc A) => get_set (j := j) (q := q) h1
    constructor <;> simp only [State.setChild, hg] <;> grind [ChildSt.alive]
  | waitKilled i h1 h2 =>
    have hg := fun j (q : Proc A) => get_set (j := j) (q := q) h2
    constructor <;> simp only [State.setChild, hg] <;> grind [ChildSt.alive]
  | waitFailed i h1 h2 =>
    have hg := fun j (q : Proc A) => get_set (j := j) (q := q) h2
    constructor <;> simp only [State.setChild, hg] <;> grind [ChildSt.alive]
  | waitWinner i h1 h2 =>
    have hg := fun j (q : Proc A) => get_set (j := j) (q := q) h2
    constructor <;> simp only [State.setChild, hg] <;> grind [ChildSt.alive]
  | kill k c h1 h2 =>
    have hg := fun j (q : Proc A) => get_set (j := j) (q := q) h2
    constructor
    case killing =>
      intro k' hk'
      simp only [ParentSt.killing.injEq] at hk'
      subst hk'
      obtain ⟨⟨i, hi⟩, hj⟩ := killing k h1
      constructor
      · refine ⟨i, ?_⟩
        rw [hg]
        by_cases hik : k = i
        · subst hik; rw [hi] at h2; cases h2; simp [kill1, ChildSt.alive]
        · simp [hik, hi]
      · intro j c' hjk hc'
        rw [hg] at hc'
        by_cases hik : k = j
        · subst hik
          simp only [if_true, Option.some.injEq, kill1, Proc.child.injEq] at hc'
          by_cases ha : c.alive = true
          · simp only [ha, if_true] at hc'; subst hc'; rfl
          · simp only [ha] at hc'; subst hc'; simpa using ha
        · simp only [hik, if_false] at hc'; exact hj j c' (by omega) hc'
    all_goals (simp only [hg, kill1]; grind [ChildSt.alive])
  | killFailed k h1 h2 =>
    constructor
    case winnerIn =>
      intro i hi
      obtain ⟨c, hc, hc1, hc2⟩ := winnerIn i hi
      refine ⟨if c.alive then .killed else c, ?_, ?_, fun a => ?_⟩
      · simp only [get_map, hc, Option.map_some, kill1]
      · by_cases ha : c.alive = true <;> simp [ha, hc1]
      · by_cases ha : c.alive = true <;> simp [ha, hc2 a]
    all_goals (simp only [get_map, Option.map_eq_some_iff, kill1_child]; grind [ChildSt.alive, kill1])
  | killedAll k h1 h2 =>
    constructor
    case done =>
      intro _
      obtain ⟨⟨i, hi⟩, hj⟩ := killing k h1
      refine ⟨fun j c hc => ?_, fun i' hi' => ?_, fun hn => ?_⟩
      · obtain ⟨hl, -⟩ := List.getElem?_eq_some_iff.1 hc
        have hl' : j < s.procs.length := hl
        exact hj j c (by omega) hc
      · have := (zero i (.inr hi)).1
        have h3 : s.winner = some i' := hi'
        rw [this] at h3; cases h3; exact ⟨_, hi⟩
      · have := (zero i (.inr hi)).1
        have h3 : s.winner = none := hn
        rw [this] at h3; cases h3
    all_goals grind
  | noChild h1 h2 =>
    constructor
    case done =>
      intro _
      refine ⟨fun j c hc => ?_, fun i hi => ?_, fun _ j p hp => h2 p (List.mem_of_getElem? hp)⟩
      · rcases h2 _ (List.mem_of_getElem? hc) with h3 | ⟨z, h3⟩ <;> cases h3; rfl
      · obtain ⟨c, hc, -⟩ := winnerIn i hi
        rcases h2 _ (List.mem_of_getElem? hc) with h3 | ⟨z, h3⟩ <;> cases h3
        exact ⟨z, hc⟩
    all_goals grind [ChildSt.alive]

theorem inv_reach {C : Config A} {s : State A} (h : Reach C s) : Inv C s := by
  induction h with
  | start => exact inv_start C
  | step _ hs ih => exact inv_step ih hs

/-- A method that returns a definite answer. -/
def Config.Definite (C : Config A) (a : A) : Prop := ∃ i < C.methods, C.result i = some (some a)

/-- **C55 (at most one answer).** In every state that any interleaving reaches, with or without faults, at most one answer
line has been printed. An answer is one a method returned; `MAYBE` is printed only by the parent as its last action. -/
theorem C55_one_answer {C : Config A} {s : State A} (h : Reach C s) :
    s.output = [] ∨ (∃ a, C.Definite a ∧ s.output = [.answer a]) ∨
      (s.output = [.maybe] ∧ s.parent = .done ∧ C.saysMaybe = true) := by
  have hI := inv_reach h
  cases hw : s.winner with
  | none =>
    have := hI.noWinner hw
    by_cases hc : s.parent = .done ∧ C.saysMaybe = true
    · rw [if_pos hc] at this; exact .inr (.inr ⟨this, hc⟩)
    · rw [if_neg hc] at this; exact .inl this
  | some i =>
    obtain ⟨a, ha, ho⟩ := hI.winner i hw
    rcases ho with ho | ho
    · exact .inl ho
    · obtain ⟨c, hc, -⟩ := hI.winnerIn i hw
      obtain ⟨hl, -⟩ := List.getElem?_eq_some_iff.1 hc
      exact .inr (.inl ⟨a, ⟨i, Nat.lt_of_lt_of_le hl hI.len, ha⟩, ho⟩)

/-- **C55 (nothing is printed later).** Once the parent has returned no process is left, and the output is final. -/
theorem C55_quiet {C : Config A} {s : State A} (h : Reach C s) (hd : s.parent = .done) :
    (∀ (j : Nat) c, s.procs[j]? = some (.child c) → c.alive = false) ∧ ∀ s', ¬ Step C s s' := by
  have hI := inv_reach h
  have ha := (hI.done hd).1
  refine ⟨ha, fun s' hs => ?_⟩
  cases hs with
  | fork h1 | forkFails _ h1 | forked h1 | waitKilled _ h1 | waitFailed _ h1 | waitWinner _ h1 | kill _ _ h1
  | killFailed _ h1 | killedAll _ h1 | noChild h1 => rw [hd] at h1; cases h1
  | indefinite i h1 => have := ha i _ h1; cases this
  | decide i a h1 => have := ha i _ h1; cases this
  | win i a h1 => have := ha i _ h1; cases this
  | lose i a h1 => have := ha i _ h1; cases this
  | print i a h1 => have := ha i _ h1; cases this
  | finish i a h1 => have := ha i _ h1; cases this
  | crash i c h0 h1 h2 => have := ha i _ h1; rw [this] at h2; cases h2

/-- **C55 (the winner is left in peace).** When the parent starts to kill, the child that printed the answer has already
finished all its work and exited; so the work on its witness is never cut off by the parent. -/
theorem C55_winner_finishes {C : Config A} {s : State A} (h : Reach C s) {k : Nat} (hk : s.parent = .killing k) :
    ∃ i a, s.winner = some i ∧ s.procs[i]? = some (.child (.reaped true)) ∧ C.result i = some (some a) ∧
      s.output = [.answer a] := by
  have hI := inv_reach h
  obtain ⟨⟨i, hi⟩, -⟩ := hI.killing k hk
  obtain ⟨hw, a, hr, ho⟩ := hI.zero i (.inr hi)
  exact ⟨i, a, hw, hi, hr, ho⟩

/-- **C55 (only own children are killed)**, when no `fork` failed. -/
theorem C55_no_stray_kill {C : Config A} {s : State A} (h : Reach C s) (hs : s.stray = true) :
    ∃ j : Nat, s.procs[j]? = some .failed := (inv_reach h).stray hs

/-- How much work is left, at most. -/
def ChildSt.weight : ChildSt A → Nat
  | .running => 6 | .decided _ => 5 | .won _ => 4 | .printed _ => 3 | .exited _ => 1 | .killed => 1 | .reaped _ => 0

def Proc.weight : Proc A → Nat
  | .failed => 0
  | .child c => c.weight

def ParentSt.weight (n : Nat) : ParentSt → Nat
  | .forking => n + 4 | .waiting => n + 3 | .killing k => n + 2 - k | .done => 0

def State.weight (C : Config A) (s : State A) : Nat :=
  (s.procs.map Proc.weight).sum + 7 * (C.methods - s.procs.length) + s.parent.weight C.methods

theorem sum_set {l : List (Proc A)} {i : Nat} {p q : Proc A} (h : l[i]? = some p) :
    ((l.set i q).map Proc.weight).sum + p.weight = (l.map Proc.weight).sum + q.weight := by
  induction l generalizing i with
  | nil => simp at h
  | cons x l ih =>
    cases i with
    | zero => simp at h; subst h; simp; omega
    | succ i => simp at h; have := ih h; simp only [List.set_cons_succ, List.map_cons, List.sum_cons]; omega

theorem kill1_weight (p : Proc A) : (kill1 p).weight ≤ p.weight := by
  cases p with
  | failed => simp [kill1]
  | child c => cases c <;> simp [kill1, Proc.weight, ChildSt.weight, ChildSt.alive]

theorem sum_kill (l : List (Proc A)) : ((l.map kill1).map Proc.weight).sum ≤ (l.map Proc.weight).sum := by
  induction l with
  | nil => simp
  | cons p l ih => have := kill1_weight p; simp at ih ⊢; omega

/-- **C55 (a run ends).** Every step strictly decreases the work left: no interleaving goes on for ever. -/
theorem C55_step_decreases {C : Config A} {s s' : State A} (h : Reach C s) (hs : Step C s s') :
    s'.weight C < s.weight C := by
  have hI := inv_reach h
  cases hs with
  | fork h1 h2 =>
    simp only [State.weight, List.map_append, List.sum_append, List.length_append, List.map_cons, List.map_nil,
      List.sum_cons, List.sum_nil, Proc.weight, ChildSt.weight, List.length_cons, List.length_nil]
    omega
  | forkFails h0 h1 h2 =>
    simp only [State.weight, List.map_append, List.sum_append, List.length_append, List.map_cons, List.map_nil,
      List.sum_cons, List.sum_nil, Proc.weight, ChildSt.weight, List.length_cons, List.length_nil]
    omega
  | forked h1 h2 => simp only [State.weight, h1, ParentSt.weight]; omega
  | indefinite i h1 h2 =>
    have := sum_set (q := .child (.exited false)) h1
    simp only [State.weight, State.setChild, List.length_set, Proc.weight, ChildSt.weight] at this ⊢; omega
  | decide i a h1 h2 =>
    have := sum_set (q := .child (.decided a)) h1
    simp only [State.weight, State.setChild, List.length_set, Proc.weight, ChildSt.weight] at this ⊢; omega
  | win i a h1 h2 =>
    have := sum_set (q := .child (.won a)) h1
    simp only [State.weight, State.setChild, List.length_set, Proc.weight, ChildSt.weight] at this ⊢; omega
  | lose i a h1 h2 =>
    have := sum_set (q := .child (.exited false)) h1
    simp only [State.weight, State.setChild, List.length_set, Proc.weight, ChildSt.weight] at this ⊢; omega
  | print i a h1 =>
    have := sum_set (q := .child (.printed a)) h1
    simp only [State.weight, State.setChild, List.length_set, Proc.weight, ChildSt.weight] at this ⊢; omega
  | finish i a h1 =>
    have := sum_set (q := .child (.exited true)) h1
    simp only [State.weight, State.setChild, List.length_set, Proc.weight, ChildSt.weight] at this ⊢; omega
  | crash i c h0 h1 h2 =>
    have := sum_set (q := .child .killed) h1
    have hc : (1 : Nat) < c.weight := by cases c <;> simp [ChildSt.alive, ChildSt.weight] at h2 ⊢
    have hk : (Proc.child (ChildSt.killed : ChildSt A)).weight = 1 := rfl
    have hp : (Proc.child c).weight = c.weight := rfl
    simp only [State.weight, State.setChild, List.length_set] at this ⊢; omega
  | waitKilled i h1 h2 =>
    have := sum_set (q := .child (.reaped false)) h2
    simp only [State.weight, State.setChild, List.length_set, Proc.weight, ChildSt.weight] at this ⊢; omega
  | waitFailed i h1 h2 =>
    have := sum_set (q := .child (.reaped false)) h2
    simp only [State.weight, State.setChild, List.length_set, Proc.weight, ChildSt.weight] at this ⊢; omega
  | waitWinner i h1 h2 =>
    have := sum_set (q := .child (.reaped true)) h2
    simp only [State.weight, State.setChild, List.length_set, Proc.weight, ChildSt.weight, ParentSt.weight, h1] at this ⊢
    omega
  | kill k c h1 h2 =>
    have := sum_set (q := kill1 (.child c)) h2
    have h3 := kill1_weight (.child c)
    obtain ⟨hl, -⟩ := List.getElem?_eq_some_iff.1 h2
    have h4 := hI.len
    simp only [State.weight, List.length_set, ParentSt.weight, h1] at this ⊢
    omega
  | killFailed k h1 h2 =>
    have := sum_kill s.procs
    obtain ⟨hl, -⟩ := List.getElem?_eq_some_iff.1 h2
    have h4 := hI.len
    simp only [State.weight, List.length_map, ParentSt.weight, h1] at this ⊢
    omega
  | killedAll k h1 h2 => 
    simp only [State.weight, ParentSt.weight, h1]
    have := hI.killBound k h1
    have := hI.len
    omega
  | noChild h1 h2 => simp only [State.weight, ParentSt.weight, h1]; omega

/-- **C55 (every completed run without faults).** When no process can move, either the parent has returned and the output
is one answer that a method gave; or it has returned, every method gave up, and the output is `MAYBE` (nothing, for CHC
input); or it still waits for a method that never returns, nothing is printed, and no method gave an answer. -/
theorem C55_completed {C : Config A} {s : State A} (h : Reach C s) (hf : C.faults = false)
    (hstuck : ∀ s', ¬ Step C s s') :
    (s.parent = .done ∧ ∃ a, C.Definite a ∧ s.output = [.answer a]) ∨
    (s.parent = .done ∧ (∀ i < C.methods, C.result i = some none) ∧
      s.output = if C.saysMaybe then [.maybe] else []) ∨
    (s.parent = .waiting ∧ s.output = [] ∧ (∀ a, ¬ C.Definite a) ∧ ∃ i < C.methods, C.result i = none) := by
  have hI := inv_reach h
  have hget : ∀ i, i < s.procs.length → ∃ c, s.procs[i]? = some (.child c) := by
    intro i hi
    cases hp : s.procs[i] with
    | failed => exact absurd (by rw [List.getElem?_eq_getElem hi, hp]) (hI.noFailed hf i)
    | child c => exact ⟨c, by rw [List.getElem?_eq_getElem hi, hp]⟩
  cases hp : s.parent with
  | forking =>
    by_cases hl : s.procs.length < C.methods
    · exact absurd (Step.fork s hp hl) (hstuck _)
    · exact absurd (Step.forked s hp (by have := hI.len; omega)) (hstuck _)
  | killing k =>
    by_cases hl : k < s.procs.length
    · obtain ⟨c, hc⟩ := hget k hl
      exact absurd (Step.kill s k c hp hc) (hstuck _)
    · exact absurd (Step.killedAll s k hp (by omega)) (hstuck _)
  | waiting =>
    have hlen := hI.allForked (by rw [hp]; simp)
    have hc : ∀ (i : Nat) c, s.procs[i]? = some (.child c) →
        (c = .running ∧ C.result i = none) ∨ c = .reaped false := by
      intro i c hc
      cases c with
      | running =>
        cases hr : C.result i with
        | none => exact .inl ⟨rfl, rfl⟩
        | some r =>
          cases r with
          | none => exact absurd (Step.indefinite s i hc hr) (hstuck _)
          | some a => exact absurd (Step.decide s i a hc hr) (hstuck _)
      | decided a =>
        by_cases hw : s.winner = none
        · exact absurd (Step.win s i a hc hw) (hstuck _)
        · exact absurd (Step.lose s i a hc hw) (hstuck _)
      | won a => exact absurd (Step.print s i a hc) (hstuck _)
      | printed a => exact absurd (Step.finish s i a hc) (hstuck _)
      | exited z =>
        cases z with
        | false => exact absurd (Step.waitFailed s i hp hc) (hstuck _)
        | true => exact absurd (Step.waitWinner s i hp hc) (hstuck _)
      | killed => exact absurd (Step.waitKilled s i hp hc) (hstuck _)
      | reaped z =>
        cases z with
        | false => exact .inr rfl
        | true => exact absurd hc (hI.early (.inr hp) i)
    have hw : s.winner = none := by
      cases hw : s.winner with
      | none => rfl
      | some i =>
        obtain ⟨c, h1, h2, -⟩ := hI.winnerIn i hw
        rcases hc i c h1 with ⟨h3, -⟩ | h3
        · exact absurd h3 h2
        · subst h3; exact absurd hw (hI.loser i hf (.inr h1)).1
    refine .inr (.inr ⟨rfl, ?_, ?_, ?_⟩)
    · have := hI.noWinner hw; rw [hp] at this; simpa using this
    · rintro a ⟨i, hi, hr⟩
      obtain ⟨c, h1⟩ := hget i (by omega)
      rcases hc i c h1 with ⟨-, h3⟩ | h3
      · rw [hr] at h3; cases h3
      · subst h3
        rcases (hI.loser i hf (.inr h1)).2 with h4 | h4
        · rw [hr] at h4; cases h4
        · exact h4 hw
    · refine Classical.byContradiction fun hno => hstuck _ (Step.noChild s hp fun p hpm => ?_)
      obtain ⟨i, hi, hpi⟩ := List.getElem_of_mem hpm
      obtain ⟨c, h1⟩ := hget i hi
      rw [List.getElem?_eq_getElem hi, hpi] at h1
      cases h1
      rcases hc i c (by rw [List.getElem?_eq_getElem hi, hpi]) with ⟨-, h3⟩ | h3
      · exact absurd ⟨i, by omega, h3⟩ hno
      · exact .inr ⟨false, by rw [h3]⟩
  | done =>
    have hlen := hI.allForked (by rw [hp]; simp)
    obtain ⟨hd1, hd2, hd3⟩ := hI.done hp
    cases hw : s.winner with
    | some i =>
      obtain ⟨z, hz⟩ := hd2 i hw
      cases z with
      | false => exact absurd hw (hI.loser i hf (.inr hz)).1
      | true =>
        obtain ⟨-, a, hr, ho⟩ := hI.zero i (.inr hz)
        obtain ⟨hl, -⟩ := List.getElem?_eq_some_iff.1 hz
        exact .inl ⟨rfl, a, ⟨i, by omega, hr⟩, ho⟩
    | none =>
      refine .inr (.inl ⟨rfl, fun i hi => ?_, ?_⟩)
      · obtain ⟨c, h1⟩ := hget i (by omega)
        rcases hd3 hw i _ h1 with h2 | ⟨z, h2⟩
        · cases h2
        · cases h2
          cases z with
          | true => have := (hI.zero i (.inr h1)).1; rw [hw] at this; cases this
          | false =>
            rcases (hI.loser i hf (.inr h1)).2 with h3 | h3
            · exact h3
            · exact absurd hw h3
      · have := hI.noWinner hw
        simpa [hp] using this

/-- **C55 (an answer is not lost).** If some method gives a definite answer, every completed run without faults has printed
exactly one answer. -/
theorem C55_answer_not_lost {C : Config A} {s : State A} (h : Reach C s) (hf : C.faults = false)
    (hstuck : ∀ s', ¬ Step C s s') {a : A} (ha : C.Definite a) : ∃ b, C.Definite b ∧ s.output = [.answer b] := by
  rcases C55_completed h hf hstuck with ⟨-, h1⟩ | ⟨-, h1, -⟩ | ⟨-, -, h1, -⟩
  · exact h1
  · obtain ⟨i, hi, hr⟩ := ha
    rw [h1 i hi] at hr; cases hr
  · exact absurd ha (h1 a)

/-- **C55.** The whole property for one configuration: for every interleaving, at most one line; no process after the
end; every run is finite; and a run that can go no further and had no faults is as described. -/
theorem C55_portfolio {C : Config A} {s : State A} (h : Reach C s) :
    s.output.length ≤ 1 ∧
    (∀ a, .answer a ∈ s.output → C.Definite a) ∧
    (.maybe ∈ s.output → C.faults = false → ∀ i < C.methods, C.result i = some none) ∧
    (∀ s', Step C s s' → s'.weight C < s.weight C) ∧
    (C.faults = false → (∀ s', ¬ Step C s s') → ∀ a, C.Definite a → ∃ b, C.Definite b ∧ s.output = [.answer b]) := by
  refine ⟨?_, ?_, ?_, fun s' => C55_step_decreases h, fun hf hs a ha => C55_answer_not_lost h hf hs ha⟩
  · rcases C55_one_answer h with h1 | ⟨a, -, h1⟩ | ⟨h1, -⟩ <;> simp [h1]
  · intro a ha
    rcases C55_one_answer h with h1 | ⟨b, hb, h1⟩ | ⟨h1, -⟩
    · rw [h1] at ha; cases ha
    · rw [h1] at ha; simp at ha; subst ha; exact hb
    · rw [h1] at ha; simp at ha
  · intro hm hf
    rcases C55_one_answer h with h1 | ⟨b, hb, h1⟩ | ⟨h1, hd, -⟩
    · rw [h1] at hm; cases hm
    · rw [h1] at hm; simp at hm
    · rcases C55_completed h hf (C55_quiet h hd).2 with ⟨-, a, -, h2⟩ | ⟨-, h2, -⟩ | ⟨h2, -⟩
      · rw [h1] at h2; cases h2
      · exact h2
      · rw [hd] at h2; cases h2

/-! ## Concrete runs -/

namespace Ex

/-- Two methods; the first answers 7, the second gives up. -/
def two : Config Nat := ⟨2, fun i => if i = 0 then some (some 7) else some none, true, false⟩

/-- A completed run: the answer 7. -/
theorem C55_example : ∃ s, Reach two s ∧ s.parent = .done ∧ s.output = [.answer 7] := by
  have s1 := (Reach.start (C := two)).step (.fork _ rfl (by decide))
  have s2 := s1.step (.fork _ rfl (by decide))
  have s3 := s2.step (.decide _ 0 7 rfl rfl)
  have s4 := s3.step (.win _ 0 7 rfl rfl)
  have s5 := s4.step (.forked _ rfl rfl)
  have s6 := s5.step (.indefinite _ 1 rfl rfl)
  have s7 := s6.step (.print _ 0 7 rfl)
  have s8 := s7.step (.waitFailed _ 1 rfl rfl)
  have s9 := s8.step (.finish _ 0 7 rfl)
  have s10 := s9.step (.waitWinner _ 0 rfl rfl)
  have s11 := s10.step (.kill _ 0 _ rfl rfl)
  have s12 := s11.step (.kill _ 1 _ rfl rfl)
  have s13 := s12.step (.killedAll _ 2 rfl (by decide))
  exact ⟨_, s13, rfl, rfl⟩

/-- Nobody answers: the termination front end says MAYBE, the CHC interpreter prints nothing at all (a single engine would
print `unknown`, `ChcInterpreter.cc:553`). -/
def quiet (maybe : Bool) : Config Nat := ⟨1, fun _ => some none, maybe, false⟩

theorem C55_chc_prints_nothing :
    (∃ s, Reach (quiet false) s ∧ s.parent = .done ∧ s.output = []) ∧
    (∃ s, Reach (quiet true) s ∧ s.parent = .done ∧ s.output = [.maybe]) := by
  constructor
  · have s1 := (Reach.start (C := quiet false)).step (.fork _ rfl (by decide))
    have s2 := s1.step (.indefinite _ 0 rfl rfl)
    have s3 := s2.step (.forked _ rfl rfl)
    have s4 := s3.step (.waitFailed _ 0 rfl rfl)
    have s5 := s4.step (.noChild _ rfl (by intro p hp; simp [State.setChild, State.start] at hp; simp [hp]))
    exact ⟨_, s5, rfl, rfl⟩
  · have s1 := (Reach.start (C := quiet true)).step (.fork _ rfl (by decide))
    have s2 := s1.step (.indefinite _ 0 rfl rfl)
    have s3 := s2.step (.forked _ rfl rfl)
    have s4 := s3.step (.waitFailed _ 0 rfl rfl)
    have s5 := s4.step (.noChild _ rfl (by intro p hp; simp [State.setChild, State.start] at hp; simp [hp]))
    exact ⟨_, s5, rfl, rfl⟩

/-- When a `fork` fails and another child answers, the parent calls `kill(-1, SIGKILL)`. -/
theorem C55_stray_kill_happens :
    ∃ s, Reach { two with faults := true } s ∧ s.output = [.answer 7] ∧ s.stray = true := by
  have s1 := (Reach.start (C := { two with faults := true })).step (.fork _ rfl (by decide))
  have s2 := s1.step (.forkFails _ rfl rfl (by decide))
  have s3 := s2.step (.decide _ 0 7 rfl rfl)
  have s4 := s3.step (.win _ 0 7 rfl rfl)
  have s5 := s4.step (.forked _ rfl rfl)
  have s6 := s5.step (.print _ 0 7 rfl)
  have s7 := s6.step (.finish _ 0 7 rfl)
  have s8 := s7.step (.waitWinner _ 0 rfl rfl)
  have s9 := s8.step (.kill _ 0 _ rfl rfl)
  have s10 := s9.step (.killFailed _ 1 rfl rfl)
  exact ⟨_, s10, rfl, rfl⟩

/-- A winner that dies between the compare-and-swap and the printing leaves no answer, although the other method has one. -/
theorem C55_winner_dies : ∃ s, Reach (⟨2, fun _ => some (some 7), true, true⟩ : Config Nat) s ∧
    s.parent = .done ∧ s.output = [] := by
  have s1 := (Reach.start (C := (⟨2, fun _ => some (some 7), true, true⟩ : Config Nat))).step (.fork _ rfl (by decide))
  have s2 := s1.step (.fork _ rfl (by decide))
  have s3 := s2.step (.decide _ 0 7 rfl rfl)
  have s4 := s3.step (.win _ 0 7 rfl rfl)
  have s5 := s4.step (.crash _ 0 _ rfl rfl rfl)
  have s6 := s5.step (.decide _ 1 7 rfl rfl)
  have s7 := s6.step (.lose _ 1 7 rfl (by decide))
  have s8 := s7.step (.forked _ rfl rfl)
  have s9 := s8.step (.waitKilled _ 0 rfl rfl)
  have s10 := s9.step (.waitFailed _ 1 rfl rfl)
  have s11 := s10.step (.noChild _ rfl (by intro p hp; simp [State.setChild, State.start] at hp; simp [hp]))
  exact ⟨_, s11, rfl, rfl⟩

end Ex

end Golem.Portfolio
