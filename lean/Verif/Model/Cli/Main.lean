import Verif.Spec.Cli

/-!
The command line (`src/Options.cc`, `src/Options.h`) and the main program (`src/bin/golem.cpp`).

`getopt_long` is not modelled: the options in order and the arguments that are not options are the input.
-/

namespace Golem
namespace Cli

/-- `Options` (`src/Options.h:18-38`): the map. -/
abbrev Opts := List (Str × Str)

/-- `addOption` (`src/Options.h:22`): `emplace` keeps an existing value. -/
def Opts.add (o : Opts) (key : String) (val : Str) : Opts := if (o.lookup key.toList).isSome then o else o ++ [(key.toList, val)]

/-- `getOption` (`src/Options.h:24-27`). -/
def Opts.get (o : Opts) (key : String) : Option Str := o.lookup key.toList

/-- The variables of `parse` (`src/Options.cc:77-88`), as far as they are read later, other than the numbers. -/
structure PState where
  opts : Opts
  validate : Bool
  printWitness : Bool
  computeWitness : Bool
  forcedCovering : Bool
  tpaUseQE : Bool
  forceTS : Bool
  simplifyNested : Bool

def PState.init : PState := ⟨[], false, false, false, false, false, false, false⟩

/-- How the program can end before an analysis: `exit(0)`, `exit(1)`, `abort()`; `undefined` is undefined behaviour (`atoi(nullptr)`). -/
inductive End where | exit0 | exit1 | abort | undefined
deriving DecidableEq

/-- `isDisableKeyword` (`src/Options.cc:68-70`). -/
def isDisable (s : Str) : Bool := s = "no".toList || s = "false".toList || s = "disable".toList

/-- One option (`src/Options.cc:112-164`); `getopt_long` sets the variable of a long option without a letter. -/
def step (st : PState) : Opt → Except End PState
  | .version => .error .exit0
  | .help => .error .exit0
  | .unknown => .error .abort
  | .validate => .ok { st with validate := true }
  | .printWitness => .ok { st with printWitness := true }
  | .computeWitness none => .ok { st with computeWitness := true }
  | .computeWitness (some s) => .ok { st with computeWitness := !isDisable s }
  | .forcedCovering none => .ok { st with forcedCovering := true }
  | .forcedCovering (some s) => .ok { st with forcedCovering := !isDisable s }
  | .tpaUseQE _ => .ok { st with tpaUseQE := true }
  | .lraItp _ => .ok st
  | .verbose none => .error .undefined
  | .verbose (some _) => .ok st
  | .forceTS => .ok { st with forceTS := true }
  | .simplifyNested => .ok { st with simplifyNested := true }
  | .backend s => .ok { st with opts := st.opts.add "termination-backend" s }
  | .engine s => .ok { st with opts := st.opts.add "engine" s }
  | .logic s => .ok { st with opts := st.opts.add "logic" s }
  | .input s => .ok { st with opts := st.opts.add "input" s }
  | .flow s => .ok { st with opts := st.opts.add "flow" s }
  | .proofFormat s => .ok { st with opts := st.opts.add "proof-format" s }
  | .v => .ok st

/-- The loop (`src/Options.cc:106-165`). -/
def steps (st : PState) : List Opt → Except End PState
  | [] => .ok st
  | o :: l =>
    match step st o with
    | .ok st' => steps st' l
    | .error e => .error e

/-- A flag that becomes an option (`src/Options.cc:175-181`). -/
def Opts.flag (o : Opts) (key : String) (b : Bool) : Opts := if b then o.add key "true".toList else o

/-- The end of `parse` (`src/Options.cc:175-183`); the two numbers are left out. -/
def finish (st : PState) : Opts :=
  ((((((st.opts.flag "validate" st.validate).flag "print-witness" st.printWitness).flag "compute-witness"
    (st.validate || st.computeWitness || st.printWitness)).flag "forced-covering" st.forcedCovering).flag "tpa.use-qe" st.tpaUseQE).flag
    "force-ts" st.forceTS).flag "simplify-nested" st.simplifyNested

/-- `CommandLineParser::parse` (`src/Options.cc:73-186`): `rest` are the arguments that are not options. -/
def parse (opts : List Opt) (rest : List Str) : Except End Opts :=
  match steps .init opts with
  | .error e => .error e
  | .ok st =>
    match rest with
    | [] => .ok (finish st)
    | [f] => if (st.opts.get "input").isSome then .error .exit1 else .ok (finish { st with opts := st.opts.add "input" f })
    | _ => .error .exit1

/-! ### The logic -/

/-- The variables of `tryDetectLogic` (`src/bin/golem.cpp:19-21`). -/
structure LState where
  hasReals : Bool
  hasIntegers : Bool
  hasArrays : Bool

/-- `decide` (`src/bin/golem.cpp:22-25`). -/
def LState.decide (st : LState) : Str :=
  if st.hasReals && st.hasIntegers then []
  else "QF_".toList ++ (if st.hasArrays then "A".toList else []) ++ "L".toList ++ (if st.hasReals then "R".toList else "I".toList) ++ "A".toList

/-- `checkForRealsAndInts` (`src/bin/golem.cpp:26-29`). -/
def LState.check (st : LState) (s : Str) : LState :=
  { st with hasReals := st.hasReals || s = "Real".toList, hasIntegers := st.hasIntegers || s = "Int".toList }

/-- An argument of a declaration (`src/bin/golem.cpp:40-50`). -/
def LState.arg (st : LState) : SortT → LState
  | .sym s => st.check s
  | .list l => l.foldl (fun st s => ({ st with hasArrays := st.hasArrays || s = "Array".toList } : LState).check s) st

/-- A quantified variable (`src/bin/golem.cpp:62-66`); the node of a compound sort has no value: undefined behaviour. -/
def LState.qvars (st : LState) : List SortT → Option LState
  | [] => some st
  | .sym s :: l => (st.check s).qvars l
  | .list _ :: _ => none

/-- `tryDetectLogic` (`src/bin/golem.cpp:16-76`); an assertion that is not quantified has no
quantified variables; the parser gives every script a list of commands, so that the first test (`:17`) does not apply. -/
def detect (st : LState) : List Cmd → Option Str
  | [] => some st.decide
  | .other :: l => detect st l
  | .declare args :: l => detect (args.foldl LState.arg st) l
  | .assert vars :: l => if st.hasIntegers || st.hasReals then some st.decide else (st.qvars vars).bind fun st' => detect st' l

def detectLogic (cmds : List Cmd) : Option Str := detect ⟨false, false, false⟩ cmds

/-- `strrchr(filename, '.')` (`src/bin/golem.cpp:113`): the text from the last dot. -/
def extension : Str → Option Str
  | [] => none
  | c :: r =>
    match extension r with
    | some e => some e
    | none => if c = '.' then some (c :: r) else none

/-- The logics that are accepted (`src/bin/golem.cpp:92-102`). -/
def knownLogic (s : Str) : Bool := s = "QF_LRA".toList || s = "QF_LIA".toList || s = "QF_ALIA".toList

/-- `main` (`src/bin/golem.cpp:86-147`): which analysis runs. `file` gives the commands of the file, if it can be opened and parsed. -/
def main (file : Str → Option (List Cmd)) (opened : Str → Bool) (opts : List Opt) (rest : List Str) : Except End (Front × Opts) :=
  match parse opts rest with
  | .error e => .error e
  | .ok o =>
    match (o.get "input").getD [] with
    | [] => .error .exit1
    | f =>
      if !opened f then .error .exit1
      else if extension f = some ".ari".toList then .ok (.termination, o)
      else if extension f = some ".vmt".toList then .ok (.vmt, o)
      else if extension f = some ".smt2".toList then
        match file f with
        | none => .error .exit1
        | some cmds =>
          match (match o.get "logic" with | some l => some l | none => detectLogic cmds) with
          | none => .error .undefined
          | some l => if knownLogic l then .ok (.chc l, o) else .error .exit1
      else .error .exit1

end Cli
end Golem
