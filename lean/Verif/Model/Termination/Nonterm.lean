import Verif.Model.Termination.Common
import Verif.Model.KTo1

/-! `src/termination/ReachabilityNonterm.cc`. -/

namespace Golem
variable {T : Theory}

/-- `logic.mkNot`, which simplifies constants and double negations. -/
def mkNot : Fla T → Fla T
  | .tt => .ff
  | .ff => .tt
  | .not f => f
  | f => .not f

/-- The trace formula (`src/termination/ReachabilityNonterm.cc:94-98`). -/
def ntTrace (init trans sink : Fla T) (num : Nat) : Fla T :=
  Fla.conj (init :: sendFla sink num :: (List.range num).map fun (j : Nat) => sendFla trans j)

/-- What the backward walk over the trace finds: states to block behind a nondeterministic step, or initial states to
block. -/
inductive NtBlock (T : Theory) where
  | step (block : Fla T)
  | initial (result : Fla T)

/-- The loop `for (j = num; j > 0; j--)` (`src/termination/ReachabilityNonterm.cc:118-151`); here `j + 1` is the C++ `j`. -/
def ntWalk (S : Smt T) (Q : KeepOnly T) (vars : List Var) (trace trans : Fla T) : Nat → Fla T → Option (NtBlock T)
  | 0, result => some (.initial result)
  | j + 1, result =>
    match Q trace (vars.map (shift j)) with
    | none => none
    | some base =>
      if S.check [Fla.conj [base, sendFla trans j, mkNot result]] = .sat then
        some (.step (sendFla result (-(j : Int))))
      else ntWalk S Q vars trace trans j base

/-- The definition of the predicate `P` in the validity witness, over the variables of the system
(`src/termination/ReachabilityNonterm.cc:163-180`): the definition that is not that of `true` or `false`. Which symbol
numbers `true` and `false` have is a fact about OpenSMT; a missing definition is an uninitialised term (`thrown` here). -/
def ntInvariant (R : PRepr) (vars : List Var) (D : Defs T) : Option (Fla T) :=
  match D.find? fun d => decide (d.1 ≠ .tru ∧ d.1 ≠ .fls) with
  | none => none
  | some (p, inv) => some (varSubstitute inv ((R.baseVars p).zip (vars.map Tm.var)))

/-- The main loop (`src/termination/ReachabilityNonterm.cc:83-214`); `none`-results of quantifier elimination, a missing
witness or a missing definition are `thrown`. -/
def ntLoop (S : Smt T) (Q : KeepOnly T) (E : Engine T) (k : Nat) (vars : List Var) :
    Nat → Fla T → Fla T → Fla T → Outcome TermAnswer
  | 0, _, _, _ => .outOfFuel
  | fuel + 1, init, trans, sink =>
    match solveClauses E (systemClauses k vars init trans sink) with
    | .thrown => .thrown
    | .outOfFuel => .outOfFuel
    | .done r =>
      match r.answer, r.witness with
      | .unsafeAns, .invalidity ds =>
        let num := ds.length - 3
        let trace := ntTrace init trans sink num
        if S.check [trace] ≠ .sat then .done .error
        else
          match ntWalk S Q vars trace trans num (sendFla sink num) with
          | none => .thrown
          | some (.step block) => ntLoop S Q E k vars fuel init (.and trans (mkNot block)) sink
          | some (.initial result) => ntLoop S Q E k vars fuel (.and init (mkNot result)) trans sink
      | .unsafeAns, _ => .thrown
      | .safe, .validity D =>
        match ntInvariant (normalize (systemClauses k vars init trans sink)).1.repr vars D with
        | none => .thrown
        | some inv =>
          if S.check [.and init trans] = .unsat then .done .yes
          else
            match Q trans vars with
            | none => .thrown
            | some g =>
              if S.check [Fla.conj [inv, mkNot g]] = .unsat then .done .no
              else ntLoop S Q E k vars fuel init trans (mkNot g)
      | .safe, _ => .thrown
      | .unknown, _ => .done .error

/-- `ReachabilityNonterm::run` (`src/termination/ReachabilityNonterm.cc:65-216`). -/
def nontermRun (S : Smt T) (Q : KeepOnly T) (E : Engine T) (k : Nat) (ts : TS T) (fuel : Nat) : Outcome TermAnswer :=
  match Q ts.trans ts.stateVars with
  | none => .thrown
  | some g =>
    let sink := mkNot g
    if sink = .ff then .done .no
    else ntLoop S Q E k ts.stateVars fuel ts.init ts.trans sink

end Golem
