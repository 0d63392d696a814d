import Verif.Model.Cli.Main

/-!
C80: the command line and the main program.
-/

namespace Golem
namespace Cli

/-! ### The map of options -/

theorem lookup_append (k : Str) (o : List (Str × Str)) (k' v : Str) :
    (o ++ [(k', v)]).lookup k = (o.lookup k).or (if k = k' then some v else none) := by
  induction o with
  | nil => by_cases h : k = k' <;> simp [List.lookup, h]
  | cons p o ih =>
    obtain ⟨a, b⟩ := p
    by_cases h : k = a
    · simp [List.lookup, h]
    · have : (k == a) = false := by simpa using h
      simp [List.lookup, this, ih]

theorem get_add (o : Opts) (k k' : String) (v : Str) :
    (o.add k v).get k' = if k'.toList = k.toList then (o.get k').or (some v) else o.get k' := by
  unfold Opts.add Opts.get
  by_cases h : k'.toList = k.toList
  · rw [if_pos h, h]
    split
    · next hs =>
      obtain ⟨x, hx⟩ := Option.isSome_iff_exists.1 hs
      rw [hx]
      rfl
    · rw [lookup_append, if_pos rfl]
  · rw [if_neg h]
    split
    · rfl
    · rw [lookup_append, if_neg h]
      simp

theorem get_add_same (o : Opts) (k : String) (v : Str) : (o.add k v).get k = (o.get k).or (some v) := by
  rw [get_add, if_pos rfl]

theorem get_add_ne (o : Opts) {k k' : String} (v : Str) (h : k'.toList ≠ k.toList) : (o.add k v).get k' = o.get k' := by
  rw [get_add, if_neg h]

theorem get_flag_same (o : Opts) (k : String) (b : Bool) :
    (o.flag k b).get k = (o.get k).or (if b then some "true".toList else none) := by
  cases b
  · simp [Opts.flag]
  · exact get_add_same o k _

theorem get_flag_ne (o : Opts) {k k' : String} (b : Bool) (h : k'.toList ≠ k.toList) : (o.flag k b).get k' = o.get k' := by
  cases b
  · rfl
  · exact get_add_ne o _ h

/-! ### The loop -/

theorem steps_get (key : String) (f : Opt → Option Str)
    (h : ∀ st x st', step st x = .ok st' → st'.opts.get key = (st.opts.get key).or (f x)) :
    ∀ (l : List Opt) (st st' : PState), steps st l = .ok st' → st'.opts.get key = (st.opts.get key).or (l.filterMap f).head? := by
  intro l
  induction l with
  | nil =>
    intro st st' e
    cases e
    simp
  | cons x l ih =>
    intro st st' e
    rw [steps] at e
    split at e
    · next st₁ e₁ =>
      rw [ih st₁ st' e, h st x st₁ e₁]
      rw [List.filterMap_cons]
      cases hf : f x <;> cases st.opts.get key <;> simp
    · cases e

theorem steps_bool (g : PState → Bool) (f : Opt → Bool)
    (h : ∀ st x st', step st x = .ok st' → g st' = (g st || f x)) :
    ∀ (l : List Opt) (st st' : PState), steps st l = .ok st' → g st' = (g st || l.any f) := by
  intro l
  induction l with
  | nil =>
    intro st st' e
    cases e
    simp
  | cons x l ih =>
    intro st st' e
    rw [steps] at e
    split at e
    · next st₁ e₁ =>
      rw [ih st₁ st' e, h st x st₁ e₁, List.any_cons, Bool.or_assoc]
    · cases e

def engineOf : Opt → Option Str | .engine s => some s | _ => none
def logicOf : Opt → Option Str | .logic s => some s | _ => none
def inputOf : Opt → Option Str | .input s => some s | _ => none

theorem engines_eq (l : List Opt) : engines l = l.filterMap engineOf := by
  induction l with
  | nil => rfl
  | cons x l ih => cases x <;> simp [engines, engineOf, List.filterMap_cons, ih]

theorem logics_eq (l : List Opt) : logics l = l.filterMap logicOf := by
  induction l with
  | nil => rfl
  | cons x l ih => cases x <;> simp [logics, logicOf, List.filterMap_cons, ih]

theorem inputs_eq (l : List Opt) : inputs l = l.filterMap inputOf := by
  induction l with
  | nil => rfl
  | cons x l ih => cases x <;> simp [inputs, inputOf, List.filterMap_cons, ih]

/-- What one option does to the map. -/
theorem step_get (key : String) (f : Opt → Option Str)
    (hb : ∀ s, f (.backend s) = if key.toList = "termination-backend".toList then some s else none)
    (he : ∀ s, f (.engine s) = if key.toList = "engine".toList then some s else none)
    (hl : ∀ s, f (.logic s) = if key.toList = "logic".toList then some s else none)
    (hi : ∀ s, f (.input s) = if key.toList = "input".toList then some s else none)
    (hf : ∀ s, f (.flow s) = if key.toList = "flow".toList then some s else none)
    (hp : ∀ s, f (.proofFormat s) = if key.toList = "proof-format".toList then some s else none)
    (ho : ∀ x, (∀ s, x ≠ .backend s ∧ x ≠ .engine s ∧ x ≠ .logic s ∧ x ≠ .input s ∧ x ≠ .flow s ∧ x ≠ .proofFormat s) → f x = none) :
    ∀ st x st', step st x = .ok st' → st'.opts.get key = (st.opts.get key).or (f x) := by
  intro st x st' e
  have keep : (∀ s, x ≠ .backend s ∧ x ≠ .engine s ∧ x ≠ .logic s ∧ x ≠ .input s ∧ x ≠ .flow s ∧ x ≠ .proofFormat s) →
      st'.opts = st.opts → st'.opts.get key = (st.opts.get key).or (f x) := by
    intro hx h
    rw [h, ho x hx]
    simp
  have put : ∀ (k : String) (s : Str), (f x = if key.toList = k.toList then some s else none) → st'.opts = st.opts.add k s →
      st'.opts.get key = (st.opts.get key).or (f x) := by
    intro k s h1 h2
    rw [h2, h1, get_add]
    split <;> simp
  cases x with
  | help => cases e
  | version => cases e
  | unknown => cases e
  | engine s => cases e; exact put _ s (he s) rfl
  | logic s => cases e; exact put _ s (hl s) rfl
  | input s => cases e; exact put _ s (hi s) rfl
  | flow s => cases e; exact put _ s (hf s) rfl
  | proofFormat s => cases e; exact put _ s (hp s) rfl
  | backend s => cases e; exact put _ s (hb s) rfl
  | computeWitness s => cases s <;> cases e <;> exact keep (by intro s; simp) rfl
  | forcedCovering s => cases s <;> cases e <;> exact keep (by intro s; simp) rfl
  | verbose s => cases s <;> cases e; exact keep (by intro s; simp) rfl
  | _ => cases e; exact keep (by intro s; simp) rfl

macro "key_tac" : tactic => `(tactic| (intro s; first | (rw [if_pos rfl]; rfl) | (rw [if_neg (by decide +kernel)]; rfl)))

theorem steps_engine {l : List Opt} {st st' : PState} (e : steps st l = .ok st') :
    st'.opts.get "engine" = (st.opts.get "engine").or (engines l).head? := by
  rw [engines_eq]
  refine steps_get "engine" engineOf (step_get _ _ (by key_tac) (by key_tac) (by key_tac) (by key_tac) (by key_tac) (by key_tac) ?_) l st st' e
  intro x hx
  cases x with
  | engine s => exact absurd rfl (hx s).2.1
  | _ => rfl

theorem steps_logic {l : List Opt} {st st' : PState} (e : steps st l = .ok st') :
    st'.opts.get "logic" = (st.opts.get "logic").or (logics l).head? := by
  rw [logics_eq]
  refine steps_get "logic" logicOf (step_get _ _ (by key_tac) (by key_tac) (by key_tac) (by key_tac) (by key_tac) (by key_tac) ?_) l st st' e
  intro x hx
  cases x with
  | logic s => exact absurd rfl (hx s).2.2.1
  | _ => rfl

theorem steps_input {l : List Opt} {st st' : PState} (e : steps st l = .ok st') :
    st'.opts.get "input" = (st.opts.get "input").or (inputs l).head? := by
  rw [inputs_eq]
  refine steps_get "input" inputOf (step_get _ _ (by key_tac) (by key_tac) (by key_tac) (by key_tac) (by key_tac) (by key_tac) ?_) l st st' e
  intro x hx
  cases x with
  | input s => exact absurd rfl (hx s).2.2.2.1
  | _ => rfl

/-- The keys of the flags are not touched by the loop. -/
theorem steps_other (key : String)
    (hk : key.toList ≠ "termination-backend".toList ∧ key.toList ≠ "engine".toList ∧ key.toList ≠ "logic".toList ∧
      key.toList ≠ "input".toList ∧ key.toList ≠ "flow".toList ∧ key.toList ≠ "proof-format".toList)
    {l : List Opt} {st st' : PState} (e : steps st l = .ok st') : st'.opts.get key = st.opts.get key := by
  have := steps_get key (fun _ => none) (step_get _ _ (fun s => by rw [if_neg hk.1]) (fun s => by rw [if_neg hk.2.1])
    (fun s => by rw [if_neg hk.2.2.1]) (fun s => by rw [if_neg hk.2.2.2.1]) (fun s => by rw [if_neg hk.2.2.2.2.1])
    (fun s => by rw [if_neg hk.2.2.2.2.2]) (fun x _ => rfl)) l st st' e
  rw [this]
  have : l.filterMap (fun _ : Opt => (none : Option Str)) = [] := by
    induction l with
    | nil => rfl
    | cons x l ih => simp
  rw [this]
  simp

theorem off_some (s : Str) : off (some s) = isDisable s := by
  simp [off, isDisable]

theorem off_none : off none = false := by
  simp [off]

theorem step_compute {st st' : PState} {x : Opt} (e : step st x = .ok st') :
    st'.computeWitness = match x with | .computeWitness s => !off s | _ => st.computeWitness := by
  cases x with
  | computeWitness s =>
    cases s
    · cases e; simp [off_none]
    · cases e; simp [off_some]
  | forcedCovering s => cases s <;> cases e <;> rfl
  | verbose s => cases s <;> cases e; rfl
  | _ => cases e <;> rfl

theorem step_covering {st st' : PState} {x : Opt} (e : step st x = .ok st') :
    st'.forcedCovering = match x with | .forcedCovering s => !off s | _ => st.forcedCovering := by
  cases x with
  | forcedCovering s =>
    cases s
    · cases e; simp [off_none]
    · cases e; simp [off_some]
  | computeWitness s => cases s <;> cases e <;> rfl
  | verbose s => cases s <;> cases e; rfl
  | _ => cases e <;> rfl

theorem steps_compute : ∀ (l : List Opt) (st st' : PState), steps st l = .ok st' →
    st'.computeWitness = match lastCompute l with | some s => !off s | none => st.computeWitness := by
  intro l
  induction l with
  | nil =>
    intro st st' e
    cases e
    rfl
  | cons x l ih =>
    intro st st' e
    rw [steps] at e
    split at e
    · next st₁ e₁ =>
      rw [ih st₁ st' e]
      have h := step_compute e₁
      cases x with
      | computeWitness s =>
        rw [lastCompute]
        cases lastCompute l with
        | none => simpa using h
        | some t => rfl
      | _ =>
        rw [lastCompute]
        · rw [h]
        all_goals (intro s hs; cases hs)
    · cases e

theorem steps_covering : ∀ (l : List Opt) (st st' : PState), steps st l = .ok st' →
    st'.forcedCovering = match lastCovering l with | some s => !off s | none => st.forcedCovering := by
  intro l
  induction l with
  | nil =>
    intro st st' e
    cases e
    rfl
  | cons x l ih =>
    intro st st' e
    rw [steps] at e
    split at e
    · next st₁ e₁ =>
      rw [ih st₁ st' e]
      have h := step_covering e₁
      cases x with
      | forcedCovering s =>
        rw [lastCovering]
        cases lastCovering l with
        | none => simpa using h
        | some t => rfl
      | _ =>
        rw [lastCovering]
        · rw [h]
        all_goals (intro s hs; cases hs)
    · cases e

def isQE : Opt → Bool | .tpaUseQE _ => true | _ => false

theorem steps_flags {l : List Opt} {st st' : PState} (e : steps st l = .ok st') :
    st'.validate = (st.validate || l.any (· = .validate)) ∧ st'.printWitness = (st.printWitness || l.any (· = .printWitness)) ∧
    st'.tpaUseQE = (st.tpaUseQE || l.any isQE) ∧ st'.forceTS = (st.forceTS || l.any (· = .forceTS)) ∧
    st'.simplifyNested = (st.simplifyNested || l.any (· = .simplifyNested)) := by
  refine ⟨steps_bool (·.validate) _ ?_ l st st' e, steps_bool (·.printWitness) _ ?_ l st st' e, steps_bool (·.tpaUseQE) _ ?_ l st st' e,
    steps_bool (·.forceTS) _ ?_ l st st' e, steps_bool (·.simplifyNested) _ ?_ l st st' e⟩
  all_goals
    intro st x st' e
    cases x with
    | computeWitness s => cases s <;> cases e <;> simp [isQE]
    | forcedCovering s => cases s <;> cases e <;> simp [isQE]
    | verbose s => cases s <;> cases e; simp [isQE]
    | _ => cases e <;> simp [isQE]

/-- The loop ends normally exactly when no option stops it. -/
theorem steps_ok : ∀ (l : List Opt) (st : PState), (∃ st', steps st l = .ok st') ↔ ∀ x ∈ l, stops x = false := by
  intro l
  induction l with
  | nil => intro st; simp [steps]
  | cons x l ih =>
    intro st
    have h : (∃ st', step st x = .ok st') ↔ stops x = false := by
      cases x with
      | computeWitness s => cases s <;> simp [step, stops]
      | forcedCovering s => cases s <;> simp [step, stops]
      | verbose s => cases s <;> simp [step, stops]
      | _ => simp [step, stops]
    rw [List.forall_mem_cons, ← h]
    rw [steps]
    split
    · next st₁ e₁ => rw [ih st₁]; simp [e₁]
    · next e₁ => simp [e₁]

/-! ### The theorems about the options -/

theorem or_true (b : Bool) : (none : Option Str).or (if b then some "true".toList else none) = if b then some "true".toList else none := by
  simp

theorem none_init (k : String) : PState.init.opts.get k = none := rfl

/-- The map after the loop and the end of `parse`. -/
theorem finish_get (st : PState) (h : ∀ k ∈ ["validate", "print-witness", "compute-witness", "forced-covering", "tpa.use-qe", "force-ts",
      "simplify-nested"], st.opts.get k = none) :
    (∀ k ∈ ["engine", "logic", "input", "flow", "proof-format", "termination-backend"], (finish st).get k = st.opts.get k) ∧
    (finish st).get "validate" = (if st.validate then some "true".toList else none) ∧
    (finish st).get "print-witness" = (if st.printWitness then some "true".toList else none) ∧
    (finish st).get "compute-witness" = (if st.validate || st.computeWitness || st.printWitness then some "true".toList else none) ∧
    (finish st).get "forced-covering" = (if st.forcedCovering then some "true".toList else none) ∧
    (finish st).get "tpa.use-qe" = (if st.tpaUseQE then some "true".toList else none) ∧
    (finish st).get "force-ts" = (if st.forceTS then some "true".toList else none) ∧
    (finish st).get "simplify-nested" = (if st.simplifyNested then some "true".toList else none) := by
  refine ⟨?_, ?_, ?_, ?_, ?_, ?_, ?_, ?_⟩
  · intro k hk
    unfold finish
    have n : ∀ k' ∈ ["validate", "print-witness", "compute-witness", "forced-covering", "tpa.use-qe", "force-ts", "simplify-nested"],
        k.toList ≠ k'.toList := by
      revert k
      decide +kernel
    rw [get_flag_ne _ _ (n _ (by simp)), get_flag_ne _ _ (n _ (by simp)), get_flag_ne _ _ (n _ (by simp)), get_flag_ne _ _ (n _ (by simp)),
      get_flag_ne _ _ (n _ (by simp)), get_flag_ne _ _ (n _ (by simp)), get_flag_ne _ _ (n _ (by simp))]
  · unfold finish
    rw [get_flag_ne _ _ (by decide +kernel), get_flag_ne _ _ (by decide +kernel), get_flag_ne _ _ (by decide +kernel),
      get_flag_ne _ _ (by decide +kernel), get_flag_ne _ _ (by decide +kernel), get_flag_ne _ _ (by decide +kernel), get_flag_same,
      h _ (by simp), or_true]
  · unfold finish
    rw [get_flag_ne _ _ (by decide +kernel), get_flag_ne _ _ (by decide +kernel), get_flag_ne _ _ (by decide +kernel),
      get_flag_ne _ _ (by decide +kernel), get_flag_ne _ _ (by decide +kernel), get_flag_same, get_flag_ne _ _ (by decide +kernel),
      h _ (by simp), or_true]
  · unfold finish
    rw [get_flag_ne _ _ (by decide +kernel), get_flag_ne _ _ (by decide +kernel), get_flag_ne _ _ (by decide +kernel),
      get_flag_ne _ _ (by decide +kernel), get_flag_same, get_flag_ne _ _ (by decide +kernel), get_flag_ne _ _ (by decide +kernel),
      h _ (by simp), or_true]
  · unfold finish
    rw [get_flag_ne _ _ (by decide +kernel), get_flag_ne _ _ (by decide +kernel), get_flag_ne _ _ (by decide +kernel), get_flag_same,
      get_flag_ne _ _ (by decide +kernel), get_flag_ne _ _ (by decide +kernel), get_flag_ne _ _ (by decide +kernel),
      h _ (by simp), or_true]
  · unfold finish
    rw [get_flag_ne _ _ (by decide +kernel), get_flag_ne _ _ (by decide +kernel), get_flag_same, get_flag_ne _ _ (by decide +kernel),
      get_flag_ne _ _ (by decide +kernel), get_flag_ne _ _ (by decide +kernel), get_flag_ne _ _ (by decide +kernel),
      h _ (by simp), or_true]
  · unfold finish
    rw [get_flag_ne _ _ (by decide +kernel), get_flag_same, get_flag_ne _ _ (by decide +kernel), get_flag_ne _ _ (by decide +kernel),
      get_flag_ne _ _ (by decide +kernel), get_flag_ne _ _ (by decide +kernel), get_flag_ne _ _ (by decide +kernel),
      h _ (by simp), or_true]
  · unfold finish
    rw [get_flag_same, get_flag_ne _ _ (by decide +kernel), get_flag_ne _ _ (by decide +kernel), get_flag_ne _ _ (by decide +kernel),
      get_flag_ne _ _ (by decide +kernel), get_flag_ne _ _ (by decide +kernel), get_flag_ne _ _ (by decide +kernel),
      h _ (by simp), or_true]

/-- `parse` in terms of the loop. -/
theorem parse_ok {opts : List Opt} {rest : List Str} {o : Opts} (e : parse opts rest = .ok o) :
    ∃ st st₂ : PState, steps .init opts = .ok st ∧ o = finish st₂ ∧
      st₂.opts.get "input" = (inputs opts ++ rest).head? ∧ st₂.opts.get "engine" = (engines opts).head? ∧
      st₂.opts.get "logic" = (logics opts).head? ∧
      (∀ k ∈ ["validate", "print-witness", "compute-witness", "forced-covering", "tpa.use-qe", "force-ts",
        "simplify-nested"], st₂.opts.get k = none) ∧
      st₂ = { st with opts := st₂.opts } := by
  unfold parse at e
  split at e
  · cases e
  · next st e₁ =>
    have hi : st.opts.get "input" = (inputs opts).head? := by rw [steps_input e₁, none_init]; simp
    have he : st.opts.get "engine" = (engines opts).head? := by rw [steps_engine e₁, none_init]; simp
    have hl : st.opts.get "logic" = (logics opts).head? := by rw [steps_logic e₁, none_init]; simp
    have hk : ∀ k ∈ ["validate", "print-witness", "compute-witness", "forced-covering", "tpa.use-qe", "force-ts",
        "simplify-nested"], st.opts.get k = none := by
      intro k hk
      rw [steps_other k (by revert k; decide +kernel) e₁, none_init]
    split at e
    · cases e
      exact ⟨st, st, e₁, rfl, by rw [List.append_nil]; exact hi, he, hl, hk, rfl⟩
    · next f =>
      split at e
      · cases e
      · next hn =>
        cases e
        have hz : st.opts.get "input" = none := by
          cases h : st.opts.get "input" with
          | none => rfl
          | some x => rw [h] at hn; exact absurd rfl hn
        have hnil : inputs opts = [] := by
          rw [hz] at hi
          exact List.head?_eq_none_iff.1 hi.symm
        refine ⟨st, { st with opts := st.opts.add "input" f }, e₁, rfl, ?_, ?_, ?_, ?_, rfl⟩
        · show (st.opts.add "input" f).get "input" = _
          rw [get_add_same, hz, hnil]
          rfl
        · show (st.opts.add "input" f).get "engine" = _
          rw [get_add_ne _ _ (by decide +kernel), he]
        · show (st.opts.add "input" f).get "logic" = _
          rw [get_add_ne _ _ (by decide +kernel), hl]
        · intro k hk'
          show (st.opts.add "input" f).get k = _
          rw [get_add_ne _ _ (by revert k; decide +kernel), hk k hk']
    · cases e

/-- **C80 (when the command line is accepted).** A command line is accepted exactly when it has no option that ends the program (help,
version, an unknown option, `--verbose` without a value) and names the input at most once: at most one argument that is not an option,
and none if `-i` is given. -/
theorem C80_accepted (opts : List Opt) (rest : List Str) :
    (∃ o, parse opts rest = .ok o) ↔ (∀ x ∈ opts, stops x = false) ∧ (rest = [] ∨ (rest.length = 1 ∧ inputs opts = [])) := by
  constructor
  · intro ⟨o, e⟩
    obtain ⟨st, st₂, e₁, _⟩ := parse_ok e
    refine ⟨(steps_ok opts .init).1 ⟨st, e₁⟩, ?_⟩
    have hi : st.opts.get "input" = (inputs opts).head? := by rw [steps_input e₁, none_init]; simp
    unfold parse at e
    rw [e₁] at e
    simp only at e
    split at e
    · exact Or.inl rfl
    · next f =>
      refine Or.inr ⟨rfl, ?_⟩
      split at e
      · cases e
      · next hn =>
        rw [hi] at hn
        cases h : inputs opts with
        | nil => rfl
        | cons a l => rw [h] at hn; exact absurd rfl hn
    · cases e
  · intro ⟨h1, h2⟩
    obtain ⟨st, e₁⟩ := (steps_ok opts .init).2 h1
    have hi : st.opts.get "input" = (inputs opts).head? := by rw [steps_input e₁, none_init]; simp
    unfold parse
    rw [e₁]
    simp only
    rcases h2 with rfl | ⟨h2, h3⟩
    · exact ⟨_, rfl⟩
    · match rest, h2 with
      | [f], _ =>
        simp only
        rw [hi, h3]
        exact ⟨_, rfl⟩

/-- **C80 (what the options mean).** If the command line is accepted: of several values of the engine or of the logic the first counts;
the input is the value of `-i`, or else the argument; the witness is computed if it is validated, printed or asked for, where of several
`--compute-witness` the last counts and the values no, false, disable switch it off; the same for forced covering; the other switches are
set exactly when they are given, `--tpa.use-qe` with any value. -/
theorem C80_options {opts : List Opt} {rest : List Str} {o : Opts} (e : parse opts rest = .ok o) :
    o.get "engine" = (engines opts).head? ∧ o.get "logic" = (logics opts).head? ∧ o.get "input" = (inputs opts ++ rest).head? ∧
    (o.get "validate" = some "true".toList ↔ Opt.validate ∈ opts) ∧
    (o.get "print-witness" = some "true".toList ↔ Opt.printWitness ∈ opts) ∧
    (o.get "compute-witness" = some "true".toList ↔
      Opt.validate ∈ opts ∨ Opt.printWitness ∈ opts ∨ ∃ s, lastCompute opts = some s ∧ off s = false) ∧
    (o.get "forced-covering" = some "true".toList ↔ ∃ s, lastCovering opts = some s ∧ off s = false) ∧
    (o.get "tpa.use-qe" = some "true".toList ↔ ∃ s, Opt.tpaUseQE s ∈ opts) ∧
    (o.get "force-ts" = some "true".toList ↔ Opt.forceTS ∈ opts) ∧
    (o.get "simplify-nested" = some "true".toList ↔ Opt.simplifyNested ∈ opts) := by
  obtain ⟨st, st₂, e₁, rfl, hi, he, hl, hk, hst⟩ := parse_ok e
  obtain ⟨g0, g1, g2, g3, g4, g5, g6, g7⟩ := finish_get st₂ hk
  obtain ⟨f1, f2, f3, f4, f5⟩ := steps_flags e₁
  have c1 := steps_compute opts .init st e₁
  have c2 := steps_covering opts .init st e₁
  have v1 : st₂.validate = st.validate := by rw [hst]
  have v2 : st₂.printWitness = st.printWitness := by rw [hst]
  have v3 : st₂.tpaUseQE = st.tpaUseQE := by rw [hst]
  have v4 : st₂.forceTS = st.forceTS := by rw [hst]
  have v5 : st₂.simplifyNested = st.simplifyNested := by rw [hst]
  have v6 : st₂.computeWitness = st.computeWitness := by rw [hst]
  have v7 : st₂.forcedCovering = st.forcedCovering := by rw [hst]
  have tt : ∀ b : Bool, ((if b then some "true".toList else none : Option Str) = some "true".toList) ↔ b = true := by
    intro b; cases b <;> simp
  have i1 : st.validate = true ↔ Opt.validate ∈ opts := by rw [f1]; simp [PState.init]
  have i2 : st.printWitness = true ↔ Opt.printWitness ∈ opts := by rw [f2]; simp [PState.init]
  have i4 : st.forceTS = true ↔ Opt.forceTS ∈ opts := by rw [f4]; simp [PState.init]
  have i5 : st.simplifyNested = true ↔ Opt.simplifyNested ∈ opts := by rw [f5]; simp [PState.init]
  have i3 : st.tpaUseQE = true ↔ ∃ s, Opt.tpaUseQE s ∈ opts := by
    rw [f3, show PState.init.tpaUseQE = false from rfl, Bool.false_or, List.any_eq_true]
    constructor
    · intro ⟨x, hx, h⟩
      cases x with
      | tpaUseQE s => exact ⟨s, hx⟩
      | _ => cases h
    · intro ⟨s, hs⟩
      exact ⟨_, hs, rfl⟩
  have i6 : st.computeWitness = true ↔ ∃ s, lastCompute opts = some s ∧ off s = false := by
    rw [c1]
    cases h : lastCompute opts with
    | none => simp [PState.init]
    | some s => simp
  have i7 : st.forcedCovering = true ↔ ∃ s, lastCovering opts = some s ∧ off s = false := by
    rw [c2]
    cases h : lastCovering opts with
    | none => simp [PState.init]
    | some s => simp
  refine ⟨by rw [g0 _ (by simp), he], by rw [g0 _ (by simp), hl], by rw [g0 _ (by simp), hi], ?_, ?_, ?_, ?_, ?_, ?_, ?_⟩
  · rw [g1, tt, v1, i1]
  · rw [g2, tt, v2, i2]
  · rw [g3, tt, Bool.or_eq_true, Bool.or_eq_true, v1, v2, v6, i1, i2, i6]
    constructor
    · rintro ((h | h) | h)
      · exact Or.inl h
      · exact Or.inr (Or.inr h)
      · exact Or.inr (Or.inl h)
    · rintro (h | h | h)
      · exact Or.inl (Or.inl h)
      · exact Or.inr h
      · exact Or.inl (Or.inr h)
  · rw [g4, tt, v7, i7]
  · rw [g5, tt, v3, i3]
  · rw [g6, tt, v4, i4]
  · rw [g7, tt, v5, i5]

/-! ### The logic -/

def LState.is (st : LState) (r i a : Bool) : Prop := st.hasReals = r ∧ st.hasIntegers = i ∧ st.hasArrays = a

theorem decide_eq (st : LState) : st.decide = logicFor st.hasReals st.hasIntegers st.hasArrays := by
  obtain ⟨r, i, a⟩ := st
  cases r <;> cases i <;> cases a <;> decide +kernel

theorem beq_dec (a b : Str) : (a == b) = decide (b = a) := by
  by_cases h : b = a
  · simp [h]
  · simp [h, Ne.symm h]

theorem list_fold (l : List Str) : ∀ st : LState,
    (l.foldl (fun st s => ({ st with hasArrays := st.hasArrays || s = "Array".toList } : LState).check s) st).is
      (st.hasReals || l.contains "Real".toList) (st.hasIntegers || l.contains "Int".toList) (st.hasArrays || l.contains "Array".toList) := by
  induction l with
  | nil => intro st; simp [LState.is]
  | cons x l ih =>
    intro st
    obtain ⟨h1, h2, h3⟩ := ih (({ st with hasArrays := st.hasArrays || x = "Array".toList } : LState).check x)
    refine ⟨?_, ?_, ?_⟩
    · rw [List.foldl_cons, h1]
      simp only [LState.check, List.contains_cons, Bool.or_assoc, beq_dec]
    · rw [List.foldl_cons, h2]
      simp only [LState.check, List.contains_cons, Bool.or_assoc, beq_dec]
    · rw [List.foldl_cons, h3]
      simp only [LState.check, List.contains_cons, Bool.or_assoc, beq_dec]

theorem arg_is (st : LState) (x : SortT) :
    (st.arg x).is (st.hasReals || x.names.contains "Real".toList) (st.hasIntegers || x.names.contains "Int".toList) (st.hasArrays || x.array) := by
  cases x with
  | sym s =>
    refine ⟨?_, ?_, ?_⟩
    · simp only [LState.arg, LState.check, SortT.names, List.contains_cons, List.contains_nil, Bool.or_false, beq_dec]
    · simp only [LState.arg, LState.check, SortT.names, List.contains_cons, List.contains_nil, Bool.or_false, beq_dec]
    · simp [LState.arg, LState.check, SortT.array]
  | list l => exact list_fold l st

theorem args_is (l : List SortT) : ∀ st : LState,
    (l.foldl LState.arg st).is (st.hasReals || (l.flatMap SortT.names).contains "Real".toList)
      (st.hasIntegers || (l.flatMap SortT.names).contains "Int".toList) (st.hasArrays || l.any SortT.array) := by
  induction l with
  | nil => intro st; simp [LState.is]
  | cons x l ih =>
    intro st
    obtain ⟨h1, h2, h3⟩ := ih (st.arg x)
    obtain ⟨k1, k2, k3⟩ := arg_is st x
    refine ⟨?_, ?_, ?_⟩
    · rw [List.foldl_cons, h1, k1, List.flatMap_cons, List.contains_append, Bool.or_assoc]
    · rw [List.foldl_cons, h2, k2, List.flatMap_cons, List.contains_append, Bool.or_assoc]
    · rw [List.foldl_cons, h3, k3, List.any_cons, Bool.or_assoc]

/-- The declarations at the start. -/
theorem detect_declared (ds : List Cmd) (hd : ∀ c ∈ ds, c.isAssert = false) (tail : List Cmd) : ∀ st : LState,
    ∃ st' : LState, detect st (ds ++ tail) = detect st' tail ∧
      st'.is (st.hasReals || (ds.flatMap Cmd.names).contains "Real".toList)
        (st.hasIntegers || (ds.flatMap Cmd.names).contains "Int".toList) (st.hasArrays || ds.any Cmd.array) := by
  induction ds with
  | nil => intro st; exact ⟨st, rfl, by simp [LState.is]⟩
  | cons c ds ih =>
    intro st
    have ih := ih (fun c hc => hd c (List.mem_cons_of_mem _ hc))
    cases c with
    | assert v => exact absurd (hd _ List.mem_cons_self) (by simp [Cmd.isAssert])
    | other =>
      obtain ⟨st', e, h⟩ := ih st
      exact ⟨st', by rw [List.cons_append, detect, e], by simpa [Cmd.names, Cmd.array] using h⟩
    | declare args =>
      obtain ⟨st', e, h1, h2, h3⟩ := ih (args.foldl LState.arg st)
      obtain ⟨k1, k2, k3⟩ := args_is args st
      refine ⟨st', by rw [List.cons_append, detect, e], ?_, ?_, ?_⟩
      · rw [h1, k1, List.flatMap_cons, List.contains_append, Bool.or_assoc]; rfl
      · rw [h2, k2, List.flatMap_cons, List.contains_append, Bool.or_assoc]; rfl
      · rw [h3, k3, List.any_cons, Bool.or_assoc]; rfl

/-- **C80 (the logic of the declared predicates).** If the declarations before the first assertion mention integers or reals, the logic is
the one of the sorts in these declarations, whatever follows. -/
theorem C80_declared_logic (ds rest : List Cmd) (v : List SortT) (hd : ∀ c ∈ ds, c.isAssert = false)
    (hn : "Int".toList ∈ ds.flatMap Cmd.names ∨ "Real".toList ∈ ds.flatMap Cmd.names) :
    detectLogic (ds ++ .assert v :: rest) =
      some (logicFor ("Real".toList ∈ ds.flatMap Cmd.names) ("Int".toList ∈ ds.flatMap Cmd.names) (ds.any Cmd.array)) := by
  obtain ⟨st', e, h1, h2, h3⟩ := detect_declared ds hd (.assert v :: rest) ⟨false, false, false⟩
  simp only [Bool.false_or, List.contains_eq_mem] at h1 h2 h3
  unfold detectLogic
  rw [e, detect, if_pos, decide_eq, h1, h2, h3]
  rw [h1, h2, Bool.or_eq_true, decide_eq_true_eq, decide_eq_true_eq]
  exact hn

theorem qvars_is (v : List SortT) : ∀ st st' : LState, st.qvars v = some st' →
    st'.is (st.hasReals || (v.flatMap SortT.names).contains "Real".toList) (st.hasIntegers || (v.flatMap SortT.names).contains "Int".toList)
      st.hasArrays := by
  induction v with
  | nil => intro st st' e; cases e; simp [LState.is]
  | cons x v ih =>
    intro st st' e
    cases x with
    | list l => cases e
    | sym s =>
      obtain ⟨h1, h2, h3⟩ := ih _ st' (by simpa [LState.qvars] using e)
      have k := arg_is st (.sym s)
      obtain ⟨k1, k2, k3⟩ := k
      refine ⟨?_, ?_, ?_⟩
      · rw [h1]
        rw [List.flatMap_cons, List.contains_append, ← Bool.or_assoc, ← k1]
        rfl
      · rw [h2]
        rw [List.flatMap_cons, List.contains_append, ← Bool.or_assoc, ← k2]
        rfl
      · rw [h3]; rfl

/-- Every detected logic is one for sorts that occur. -/
theorem detect_sound (cmds : List Cmd) : ∀ (st : LState) (l : Str), detect st cmds = some l →
    ∃ r i a, l = logicFor r i a ∧
      (r = true → st.hasReals = true ∨ "Real".toList ∈ cmds.flatMap Cmd.names) ∧
      (st.hasReals = true → r = true) ∧ (st.hasIntegers = true → i = true) ∧ (st.hasArrays = true → a = true) ∧
      (i = true → st.hasIntegers = true ∨ "Int".toList ∈ cmds.flatMap Cmd.names) ∧
      (a = true → st.hasArrays = true ∨ ∃ c ∈ cmds, c.array = true) := by
  induction cmds with
  | nil =>
    intro st l e
    cases e
    exact ⟨_, _, _, decide_eq st, fun h => Or.inl h, id, id, id, fun h => Or.inl h, fun h => Or.inl h⟩
  | cons c cmds ih =>
    intro st l e
    cases c with
    | other =>
      obtain ⟨r, i, a, h0, h1, h2, h3, h4, h5, h6⟩ := ih st l e
      refine ⟨r, i, a, h0, by simpa [Cmd.names] using h1, h2, h3, h4, by simpa [Cmd.names] using h5, fun h => (h6 h).imp id ?_⟩
      exact fun ⟨c, hc, h⟩ => ⟨c, List.mem_cons_of_mem _ hc, h⟩
    | declare args =>
      obtain ⟨r, i, a, h0, h1, h2, h3, h4, h5, h6⟩ := ih _ l e
      obtain ⟨k1, k2, k3⟩ := args_is args st
      rw [k1] at h1 h2
      rw [k2] at h3 h5
      rw [k3] at h4 h6
      refine ⟨r, i, a, h0, ?_, fun h => h2 (by rw [h]; rfl), fun h => h3 (by rw [h]; rfl), fun h => h4 (by rw [h]; rfl), ?_, ?_⟩
      · intro h
        rw [List.flatMap_cons, List.mem_append]
        have := h1 h
        rw [Bool.or_eq_true, List.contains_iff_mem] at this
        rcases this with (h | h) | h
        · exact Or.inl h
        · exact Or.inr (Or.inl h)
        · exact Or.inr (Or.inr h)
      · intro h
        rw [List.flatMap_cons, List.mem_append]
        have := h5 h
        rw [Bool.or_eq_true, List.contains_iff_mem] at this
        rcases this with (h | h) | h
        · exact Or.inl h
        · exact Or.inr (Or.inl h)
        · exact Or.inr (Or.inr h)
      · intro h
        have := h6 h
        rw [Bool.or_eq_true] at this
        rcases this with (h | h) | ⟨c, hc, h⟩
        · exact Or.inl h
        · exact Or.inr ⟨_, List.mem_cons_self, h⟩
        · exact Or.inr ⟨c, List.mem_cons_of_mem _ hc, h⟩
    | assert v =>
      rw [detect] at e
      split at e
      · cases e
        exact ⟨_, _, _, decide_eq st, fun h => Or.inl h, id, id, id, fun h => Or.inl h, fun h => Or.inl h⟩
      · cases hq : st.qvars v with
        | none => rw [hq] at e; cases e
        | some st' =>
          rw [hq] at e
          obtain ⟨r, i, a, h0, h1, h2, h3, h4, h5, h6⟩ := ih st' l e
          obtain ⟨k1, k2, k3⟩ := qvars_is v st st' hq
          rw [k1] at h1 h2
          rw [k2] at h3 h5
          rw [k3] at h4 h6
          refine ⟨r, i, a, h0, ?_, fun h => h2 (by rw [h]; rfl), fun h => h3 (by rw [h]; rfl), h4, ?_, fun h => (h6 h).imp id
            fun ⟨c, hc, h⟩ => ⟨c, List.mem_cons_of_mem _ hc, h⟩⟩
          · intro h
            rw [List.flatMap_cons, List.mem_append]
            have := h1 h
            rw [Bool.or_eq_true, List.contains_iff_mem] at this
            rcases this with (h | h) | h
            · exact Or.inl h
            · exact Or.inr (Or.inl h)
            · exact Or.inr (Or.inr h)
          · intro h
            rw [List.flatMap_cons, List.mem_append]
            have := h5 h
            rw [Bool.or_eq_true, List.contains_iff_mem] at this
            rcases this with (h | h) | h
            · exact Or.inl h
            · exact Or.inr (Or.inl h)
            · exact Or.inr (Or.inr h)

/-- **C80 (the detected logic fits the file).** A detected logic has reals only if the file mentions reals, and arrays only if a predicate
is declared over arrays; in a file without reals it has integers. -/
theorem C80_detected {cmds : List Cmd} {l : Str} (e : detectLogic cmds = some l) :
    (l = "QF_LRA".toList ∨ l = "QF_ALRA".toList → "Real".toList ∈ cmds.flatMap Cmd.names) ∧
    (l = "QF_ALIA".toList ∨ l = "QF_ALRA".toList → ∃ c ∈ cmds, c.array = true) ∧
    ("Real".toList ∉ cmds.flatMap Cmd.names → l = "QF_LIA".toList ∨ l = "QF_ALIA".toList) ∧
    (l = [] → "Real".toList ∈ cmds.flatMap Cmd.names ∧ "Int".toList ∈ cmds.flatMap Cmd.names) := by
  obtain ⟨r, i, a, h0, h1, -, -, -, h5, h6⟩ := detect_sound cmds ⟨false, false, false⟩ l e
  simp only [Bool.false_eq_true, false_or] at h1 h5 h6
  have t : ∀ r i a : Bool, (logicFor r i a = "QF_LRA".toList ∨ logicFor r i a = "QF_ALRA".toList → r = true) ∧
      (logicFor r i a = "QF_ALIA".toList ∨ logicFor r i a = "QF_ALRA".toList → a = true) ∧
      (r = false → logicFor r i a = "QF_LIA".toList ∨ logicFor r i a = "QF_ALIA".toList) ∧
      (logicFor r i a = [] → r = true ∧ i = true) := by decide +kernel
  obtain ⟨t1, t2, t3, t4⟩ := t r i a
  rw [h0]
  refine ⟨fun h => h1 (t1 h), fun h => h6 (t2 h), fun h => t3 ?_, fun h => ⟨h1 (t4 h).1, h5 (t4 h).2⟩⟩
  cases r
  · rfl
  · exact absurd (h1 rfl) h

/-! ### The file name -/

theorem extension_none : ∀ f : Str, extension f = none ↔ '.' ∉ f := by
  intro f
  induction f with
  | nil => simp [extension]
  | cons c r ih =>
    rw [extension]
    cases h : extension r with
    | some e =>
      have : '.' ∈ r := by
        by_cases hm : '.' ∈ r
        · exact hm
        · rw [ih.2 hm] at h; cases h
      simp [this]
    | none =>
      have hn := ih.1 h
      by_cases hc : c = '.'
      · simp [hc]
      · simp [hc, hn, Ne.symm hc]

/-- The extension is the text from the last dot. -/
theorem extension_iff (s : Str) (hs : '.' ∉ s) : ∀ f : Str, extension f = some ('.' :: s) ↔ ('.' :: s) <:+ f := by
  intro f
  induction f with
  | nil => simp [extension]
  | cons c r ih =>
    rw [extension, List.suffix_cons_iff]
    cases h : extension r with
    | some e =>
      simp only
      rw [← h, ih]
      constructor
      · exact Or.inr
      · rintro (h' | h')
        · injection h' with _ h'
          rw [(extension_none r).2 (h' ▸ hs)] at h
          cases h
        · exact h'
    | none =>
      have hn := (extension_none r).1 h
      simp only
      constructor
      · intro e
        split at e
        · next hc => injection e with e; exact Or.inl e.symm
        · cases e
      · rintro (h' | h')
        · injection h' with h1 h2
          subst h1 h2
          simp
        · exact absurd (h'.subset List.mem_cons_self) hn

theorem ari_iff (f : Str) : extension f = some ".ari".toList ↔ ".ari".toList <:+ f := extension_iff "ari".toList (by decide +kernel) f
theorem vmt_iff (f : Str) : extension f = some ".vmt".toList ↔ ".vmt".toList <:+ f := extension_iff "vmt".toList (by decide +kernel) f
theorem smt2_iff (f : Str) : extension f = some ".smt2".toList ↔ ".smt2".toList <:+ f := extension_iff "smt2".toList (by decide +kernel) f

theorem known_iff (l : Str) : knownLogic l = true ↔ l = "QF_LRA".toList ∨ l = "QF_LIA".toList ∨ l = "QF_ALIA".toList := by
  unfold knownLogic
  rw [Bool.or_eq_true, Bool.or_eq_true, decide_eq_true_eq, decide_eq_true_eq, decide_eq_true_eq, or_assoc]

/-- **C80 (which analysis runs).** If the program gets to an analysis, the command line was accepted, the input file can be opened, and its
name decides: `.ari` termination, `.vmt` the VMT front end, `.smt2` the clause front end; this one runs in one of the three known logics,
the one asked for or else the detected one. -/
theorem C80_front {file : Str → Option (List Cmd)} {opened : Str → Bool} {opts : List Opt} {rest : List Str} {fr : Front} {o : Opts}
    (e : main file opened opts rest = .ok (fr, o)) :
    parse opts rest = .ok o ∧ ∃ f, (inputs opts ++ rest).head? = some f ∧ opened f = true ∧
      (fr = .termination ↔ ".ari".toList <:+ f) ∧ (fr = .vmt ↔ ".vmt".toList <:+ f) ∧ ((∃ l, fr = .chc l) ↔ ".smt2".toList <:+ f) ∧
      ∀ l, fr = .chc l → (l = "QF_LRA".toList ∨ l = "QF_LIA".toList ∨ l = "QF_ALIA".toList) ∧
        ∃ cmds, file f = some cmds ∧
          ((logics opts).head? = some l ∨ (logics opts = [] ∧ detectLogic cmds = some l)) := by
  unfold main at e
  split at e
  · cases e
  · next o' ep =>
    obtain ⟨-, hl, hi, -⟩ := C80_options ep
    rw [hi, hl] at e
    split at e
    · cases e
    · next hne =>
      obtain ⟨f, hf⟩ : ∃ f, (inputs opts ++ rest).head? = some f := by
        cases h : (inputs opts ++ rest).head? with
        | none => rw [h] at hne; exact absurd rfl hne
        | some f => exact ⟨f, rfl⟩
      rw [hf] at e
      simp only [Option.getD_some] at e
      split at e
      · cases e
      · next ho =>
        have ho : opened f = true := by simpa using ho
        split at e
        · next h =>
          cases e
          refine ⟨ep, f, hf, ho, ⟨fun _ => (ari_iff f).1 h, fun _ => rfl⟩, ?_, ?_, by intro l hl; cases hl⟩
          · rw [← vmt_iff, h]
            exact ⟨fun h => (by cases h), fun h => absurd h (by decide +kernel)⟩
          · rw [← smt2_iff, h]
            exact ⟨fun ⟨l, h⟩ => (by cases h), fun h => absurd h (by decide +kernel)⟩
        · next na =>
          split at e
          · next h =>
            cases e
            refine ⟨ep, f, hf, ho, ?_, ⟨fun _ => (vmt_iff f).1 h, fun _ => rfl⟩, ?_, by intro l hl; cases hl⟩
            · rw [← ari_iff, h]
              exact ⟨fun h => (by cases h), fun h => absurd h (by decide +kernel)⟩
            · rw [← smt2_iff, h]
              exact ⟨fun ⟨l, h⟩ => (by cases h), fun h => absurd h (by decide +kernel)⟩
          · next nv =>
            split at e
            · next h =>
              split at e
              · cases e
              · next cmds hc =>
                split at e
                · cases e
                · next l hll =>
                  split at e
                  · next hk =>
                    cases e
                    refine ⟨ep, f, hf, ho, ?_, ?_, ⟨fun _ => (smt2_iff f).1 h, fun _ => ⟨l, rfl⟩⟩, ?_⟩
                    · rw [← ari_iff]
                      exact ⟨fun h => (by cases h), fun h => absurd h na⟩
                    · rw [← vmt_iff]
                      exact ⟨fun h => (by cases h), fun h => absurd h nv⟩
                    · intro l' hl'
                      cases hl'
                      refine ⟨(known_iff l).1 hk, cmds, hc, ?_⟩
                      split at hll
                      · next l₂ h₂ => cases hll; exact Or.inl h₂
                      · next h₂ => exact Or.inr ⟨List.head?_eq_none_iff.1 h₂, hll⟩
                  · cases e
            · cases e

/-- **C80 (a file of known kind is analysed).** If the command line is accepted and its file can be opened, a `.ari` and a `.vmt` file are
analysed; a `.smt2` file that can be parsed is analysed in the logic asked for, if it is known; and if none is asked for and the
declarations before the first assertion mention integers but no reals, or reals but neither integers nor arrays, in the logic of these
sorts. With both integers and reals there, it is refused. -/
theorem C80_runs {file : Str → Option (List Cmd)} {opened : Str → Bool} {opts : List Opt} {rest : List Str} {o : Opts} {f : Str}
    (ep : parse opts rest = .ok o) (hf : (inputs opts ++ rest).head? = some f) (ho : opened f = true) :
    (".ari".toList <:+ f → main file opened opts rest = .ok (.termination, o)) ∧
    (".vmt".toList <:+ f → main file opened opts rest = .ok (.vmt, o)) ∧
    (".smt2".toList <:+ f → ∀ cmds, file f = some cmds →
      (∀ l, (logics opts).head? = some l →
        main file opened opts rest = if l = "QF_LRA".toList ∨ l = "QF_LIA".toList ∨ l = "QF_ALIA".toList then .ok (.chc l, o) else .error .exit1) ∧
      (logics opts = [] → ∀ ds v tail, cmds = ds ++ .assert v :: tail → (∀ c ∈ ds, c.isAssert = false) →
        ("Int".toList ∈ ds.flatMap Cmd.names → "Real".toList ∉ ds.flatMap Cmd.names →
          main file opened opts rest = .ok (.chc (if ds.any Cmd.array then "QF_ALIA".toList else "QF_LIA".toList), o)) ∧
        ("Real".toList ∈ ds.flatMap Cmd.names → "Int".toList ∉ ds.flatMap Cmd.names → ds.any Cmd.array = false →
          main file opened opts rest = .ok (.chc "QF_LRA".toList, o)) ∧
        ("Real".toList ∈ ds.flatMap Cmd.names → "Int".toList ∈ ds.flatMap Cmd.names → main file opened opts rest = .error .exit1))) := by
  obtain ⟨-, hl, hi, -⟩ := C80_options ep
  have hm : f ≠ [] → main file opened opts rest =
      if extension f = some ".ari".toList then .ok (.termination, o)
      else if extension f = some ".vmt".toList then .ok (.vmt, o)
      else if extension f = some ".smt2".toList then
        match file f with
        | none => .error .exit1
        | some cmds =>
          match (match o.get "logic" with | some l => some l | none => detectLogic cmds) with
          | none => .error .undefined
          | some l => if knownLogic l then .ok (.chc l, o) else .error .exit1
      else .error .exit1 := by
    intro hne
    unfold main
    rw [ep]
    simp only
    rw [hi, hf]
    simp only [Option.getD_some]
    cases f with
    | nil => exact absurd rfl hne
    | cons c r =>
      rw [if_neg (by simp [ho])]
      rfl
  have ne : ∀ e : Str, e ≠ [] → e <:+ f → f ≠ [] := by
    intro e he h h'
    subst h'
    exact he (List.suffix_nil.1 h)
  refine ⟨?_, ?_, ?_⟩
  · intro h
    rw [hm (ne _ (by decide +kernel) h), if_pos ((ari_iff f).2 h)]
  · intro h
    have h' := (vmt_iff f).2 h
    rw [hm (ne _ (by decide +kernel) h), if_neg (by rw [h']; decide +kernel), if_pos h']
  · intro h cmds hc
    have h' := (smt2_iff f).2 h
    have hm := hm (ne _ (by decide +kernel) h)
    rw [if_neg (by rw [h']; decide +kernel), if_neg (by rw [h']; decide +kernel), if_pos h', hc, hl] at hm
    simp only at hm
    refine ⟨?_, ?_⟩
    · intro l hl'
      rw [hm, hl']
      simp only
      by_cases hk : l = "QF_LRA".toList ∨ l = "QF_LIA".toList ∨ l = "QF_ALIA".toList
      · rw [if_pos hk, if_pos ((known_iff l).2 hk)]
      · rw [if_neg hk, if_neg (fun h => hk ((known_iff l).1 h))]
    · intro hnil ds v tail hds hda
      rw [hnil] at hm
      simp only [List.head?_nil] at hm
      subst hds
      refine ⟨?_, ?_, ?_⟩
      · intro h1 h2
        rw [C80_declared_logic ds tail v hda (Or.inl h1)] at hm
        rw [hm]
        simp only [h1, h2, decide_true, decide_false]
        cases ds.any Cmd.array
        · show (if knownLogic "QF_LIA".toList then _ else _) = _
          rw [if_pos (by decide +kernel)]
          rfl
        · show (if knownLogic "QF_ALIA".toList then _ else _) = _
          rw [if_pos (by decide +kernel)]
          rfl
      · intro h1 h2 h3
        rw [C80_declared_logic ds tail v hda (Or.inr h1)] at hm
        rw [hm]
        simp only [h1, h2, h3, decide_true, decide_false]
        show (if knownLogic "QF_LRA".toList then _ else _) = _
        rw [if_pos (by decide +kernel)]
        rfl
      · intro h1 h2
        rw [C80_declared_logic ds tail v hda (Or.inr h1)] at hm
        rw [hm]
        simp only [h1, h2, decide_true]
        show (if knownLogic [] then _ else _) = _
        rw [if_neg (by decide +kernel)]

/-- **C80 (how it ends otherwise).** The first option that stops decides: help and version end with success and an unknown option aborts,
before any analysis, whatever else is given; otherwise, an input named more than once, no input, a file that cannot be opened and a file
of another kind end with failure. -/
theorem C80_refused (file : Str → Option (List Cmd)) (opened : Str → Bool) (opts : List Opt) (rest : List Str) :
    (opts.find? stops = some .help ∨ opts.find? stops = some .version → main file opened opts rest = .error .exit0) ∧
    (opts.find? stops = some .unknown → main file opened opts rest = .error .abort) ∧
    (opts.find? stops = none →
      (1 < rest.length ∨ (rest ≠ [] ∧ inputs opts ≠ []) ∨ inputs opts ++ rest = [] ∨
        ∃ f, (inputs opts ++ rest).head? = some f ∧ (opened f = false ∨ ¬ (".ari".toList <:+ f ∨ ".vmt".toList <:+ f ∨ ".smt2".toList <:+ f))) →
      main file opened opts rest = .error .exit1) := by
  have first : ∀ (l : List Opt) (st : PState) (x : Opt), l.find? stops = some x →
      steps st l = .error (match x with | .help => .exit0 | .version => .exit0 | .unknown => .abort | _ => .undefined) := by
    intro l
    induction l with
    | nil => intro st x h; cases h
    | cons y l ih =>
      intro st x h
      rw [steps]
      rw [List.find?_cons] at h
      cases hs : stops y with
      | true =>
        rw [hs] at h
        cases h
        cases y with
        | help => rfl
        | version => rfl
        | unknown => rfl
        | verbose s => cases s <;> first | rfl | cases hs
        | _ => cases hs
      | false =>
        rw [hs] at h
        have : ∃ st', step st y = .ok st' := by
          cases y with
          | computeWitness s => cases s <;> exact ⟨_, rfl⟩
          | forcedCovering s => cases s <;> exact ⟨_, rfl⟩
          | verbose s => cases s <;> first | exact ⟨_, rfl⟩ | cases hs
          | _ => first | exact ⟨_, rfl⟩ | cases hs
        obtain ⟨st', e⟩ := this
        rw [e]
        exact ih st' x h
  refine ⟨?_, ?_, ?_⟩
  · rintro (h | h)
    · unfold main parse; rw [first _ .init _ h]
    · unfold main parse; rw [first _ .init _ h]
  · intro h
    unfold main parse; rw [first _ .init _ h]
  · intro h
    have hs : ∀ x ∈ opts, stops x = false := by simpa using h
    obtain ⟨st, e⟩ := (steps_ok opts .init).2 hs
    have hi : st.opts.get "input" = (inputs opts).head? := by rw [steps_input e, none_init]; simp
    have bad : 1 < rest.length ∨ (rest ≠ [] ∧ inputs opts ≠ []) → main file opened opts rest = .error .exit1 := by
      intro h
      unfold main parse
      rw [e]
      match rest, h with
      | [], h => simp at h
      | [f], h =>
        have hne : inputs opts ≠ [] := by simpa using h
        simp only
        rw [hi, if_pos]
        cases hin : inputs opts with
        | nil => exact absurd hin hne
        | cons a l => rfl
      | a :: b :: l, _ => rfl
    rintro (h | h | h | ⟨f, hf, h⟩)
    · exact bad (Or.inl h)
    · exact bad (Or.inr h)
    · obtain ⟨h1, h2⟩ := List.append_eq_nil_iff.1 h
      obtain ⟨o, ep⟩ := (C80_accepted opts rest).2 ⟨hs, Or.inl h2⟩
      unfold main
      rw [ep]
      simp only
      rw [(C80_options ep).2.2.1, h]
      rfl
    · by_cases hacc : rest = [] ∨ (rest.length = 1 ∧ inputs opts = [])
      · obtain ⟨o, ep⟩ := (C80_accepted opts rest).2 ⟨hs, hacc⟩
        unfold main
        rw [ep]
        simp only
        rw [(C80_options ep).2.2.1, hf]
        simp only [Option.getD_some]
        cases f with
        | nil => rfl
        | cons c r =>
          show (if !opened (c :: r) then _ else _) = _
          by_cases ho : opened (c :: r) = false
          · rw [if_pos (by rw [ho]; rfl)]
          · have h := h.resolve_left ho
            rw [not_or, not_or, ← ari_iff, ← vmt_iff, ← smt2_iff] at h
            rw [if_neg (by simpa using ho), if_neg h.1, if_neg h.2.1, if_neg h.2.2]
      · apply bad
        rw [not_or] at hacc
        match rest, hacc with
        | [], h => exact absurd rfl h.1
        | [a], h => exact Or.inr ⟨by simp, by simpa using h.2⟩
        | a :: b :: l, _ => exact Or.inl (by simp)

/-! ### Cases -/

/-- `golem -e spacer -e bmc --compute-witness=no --validate file.smt2`. -/
def sampleOpts : List Opt := [.engine "spacer".toList, .engine "bmc".toList, .computeWitness (some "no".toList), .validate, .tpaUseQE (some "no".toList)]

example : ∃ o, parse sampleOpts ["dir.ari/file.smt2".toList] = .ok o :=
  (C80_accepted _ _).2 ⟨by decide +kernel, Or.inr ⟨rfl, by decide +kernel⟩⟩

/-- The first engine counts, the validation needs the witness, and `no` switches quantifier elimination on. -/
example (o : Opts) (e : parse sampleOpts ["dir.ari/file.smt2".toList] = .ok o) :
    o.get "engine" = some "spacer".toList ∧ o.get "compute-witness" = some "true".toList ∧ o.get "tpa.use-qe" = some "true".toList :=
  ⟨(C80_options e).1, (C80_options e).2.2.2.2.2.1.2 (Or.inl (by decide +kernel)),
    (C80_options e).2.2.2.2.2.2.2.1.2 ⟨some "no".toList, by decide +kernel⟩⟩

/-- Help is printed, even if an unknown option follows. -/
example : main (fun _ => none) (fun _ => true) [.validate, .help, .unknown] ["a.smt2".toList] = .error .exit0 :=
  (C80_refused _ _ _ _).1 (Or.inl (by decide +kernel))

/-- A file of another kind. -/
example : main (fun _ => none) (fun _ => true) [.v] ["a.smt".toList] = .error .exit1 :=
  (C80_refused _ _ _ _).2.2 (by decide +kernel) (Or.inr (Or.inr (Or.inr ⟨"a.smt".toList, by decide +kernel,
    Or.inr (by rw [← ari_iff, ← vmt_iff, ← smt2_iff]; decide +kernel)⟩)))

/-- Two inputs are refused. -/
example : parse [.input "a.smt2".toList] ["b.smt2".toList] = .error .exit1 := by rfl

/-- A script over integers and arrays. -/
def sampleCmds : List Cmd := [.other, .declare [.sym "Int".toList, .list ["Array".toList, "Int".toList, "Int".toList]], .assert [.sym "Int".toList]]

example (o : Opts) (e : parse sampleOpts ["dir.ari/file.smt2".toList] = .ok o) :
    main (fun _ => some sampleCmds) (fun _ => true) sampleOpts ["dir.ari/file.smt2".toList] = .ok (.chc "QF_ALIA".toList, o) :=
  (((C80_runs (file := fun _ => some sampleCmds) (opened := fun _ => true) e (f := "dir.ari/file.smt2".toList) (by decide +kernel) rfl).2.2
    ((smt2_iff _).1 (by decide +kernel)) sampleCmds rfl).2 (by decide +kernel)
      [.other, .declare [.sym "Int".toList, .list ["Array".toList, "Int".toList, "Int".toList]]] [.sym "Int".toList] [] rfl
      (by decide +kernel)).1 (by decide +kernel) (by decide +kernel)

/-- Arrays that occur only in quantifiers after a declaration over integers are not seen. -/
example : detectLogic [.declare [.sym "Int".toList], .assert [.list ["Array".toList, "Int".toList, "Int".toList]]] = some "QF_LIA".toList :=
  C80_declared_logic [.declare [.sym "Int".toList]] [] _ (by decide +kernel) (Or.inl (by decide +kernel))

/-- A predicate over Booleans and a clause over arrays: the sort of the variable has no name. -/
example : detectLogic [.declare [.sym "Bool".toList], .assert [.list ["Array".toList, "Int".toList, "Int".toList]]] = none := by rfl

end Cli
end Golem
