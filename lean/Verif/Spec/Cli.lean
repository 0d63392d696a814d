/-!
The command line and the input file, as the user knows them. This file does not depend on the model of the code.
-/

namespace Golem
namespace Cli

abbrev Str := List Char

/-- The options given, in order; `verbose`, `computeWitness`, `forcedCovering` and `tpaUseQE` may come with a value. -/
inductive Opt where
  | help | version | validate | printWitness | forceTS | simplifyNested | v
  | engine (s : Str) | logic (s : Str) | input (s : Str) | flow (s : Str) | proofFormat (s : Str) | backend (s : Str) | lraItp (s : Str)
  | computeWitness (s : Option Str) | forcedCovering (s : Option Str) | tpaUseQE (s : Option Str) | verbose (s : Option Str)
  | unknown
deriving DecidableEq

/-- A value that switches something off. -/
def off (s : Option Str) : Bool := s = some "no".toList || s = some "false".toList || s = some "disable".toList

/-- The last value given for `compute-witness`. -/
def lastCompute : List Opt → Option (Option Str)
  | [] => none
  | .computeWitness s :: l => (lastCompute l).or (some s)
  | _ :: l => lastCompute l

def lastCovering : List Opt → Option (Option Str)
  | [] => none
  | .forcedCovering s :: l => (lastCovering l).or (some s)
  | _ :: l => lastCovering l

def engines : List Opt → List Str
  | [] => []
  | .engine s :: l => s :: engines l
  | _ :: l => engines l

def inputs : List Opt → List Str
  | [] => []
  | .input s :: l => s :: inputs l
  | _ :: l => inputs l

def logics : List Opt → List Str
  | [] => []
  | .logic s :: l => s :: logics l
  | _ :: l => logics l

/-- Options after which no analysis is run. -/
def stops : Opt → Bool
  | .help => true
  | .version => true
  | .unknown => true
  | .verbose none => true
  | _ => false

/-- The analyses. -/
inductive Front where | termination | vmt | chc (logic : Str)
deriving DecidableEq

/-! ### Scripts, as far as the choice of the logic reads them -/

/-- A sort: a name, or a list such as `(Array Int Int)`, of which the direct elements that are names are kept. -/
inductive SortT where
  | sym (s : Str)
  | list (l : List Str)
deriving DecidableEq

def SortT.names : SortT → List Str
  | .sym s => [s]
  | .list l => l

/-- It is a list and `Array` is one of its elements. -/
def SortT.array : SortT → Bool
  | .sym _ => false
  | .list l => l.contains "Array".toList

/-- A command: the declaration of a predicate with its argument sorts, an assertion with the sorts of its quantified variables, another. -/
inductive Cmd where
  | declare (args : List SortT)
  | assert (vars : List SortT)
  | other

def Cmd.names : Cmd → List Str
  | .declare l => l.flatMap SortT.names
  | .assert l => l.flatMap SortT.names
  | .other => []

/-- It declares a predicate with an array among the arguments. -/
def Cmd.array : Cmd → Bool
  | .declare l => l.any SortT.array
  | _ => false

def Cmd.isAssert : Cmd → Bool
  | .assert _ => true
  | _ => false

/-- The logic for given sorts: reals, integers, arrays. Reals and integers together have none. -/
def logicFor (real int array : Bool) : Str :=
  match real, int, array with
  | true, true, _ => []
  | true, false, true => "QF_ALRA".toList
  | true, false, false => "QF_LRA".toList
  | false, _, true => "QF_ALIA".toList
  | false, _, false => "QF_LIA".toList

end Cli
end Golem
