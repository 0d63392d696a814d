import Verif.Model.TransitionSystem
import Verif.Model.Graph
/-
Variable names as golem builds them: strings with a `##` version suffix and an `__s` / `__t` tag.

Models: `src/TermUtils.h:191-396` (`TimeMachine`, `VersionManager`), `src/TermUtils.cc:668-690, 757-788` and the places
that generate base names.  `mkVar` hash-conses on (sort, name), so two variables of the same sort are the same term
exactly if their names are equal; sorts are not modelled.  `std::string` is `List Char`.
-/

namespace Golem
namespace Names

/-- A C++ string. -/
abbrev Str := List Char

/-- One decimal digit, as `std::to_string` writes it. -/
def digit (d : Nat) : Char := Char.ofNat (48 + d)

/-- `std::to_string` of an unsigned number (used at `src/TermUtils.h:236, 346`, `src/Normalizer.h:47`, ...). -/
def showNat (n : Nat) : Str :=
  if n < 10 then [digit n] else showNat (n / 10) ++ [digit (n % 10)]
termination_by n

/-- `std::to_string` of an `int` (`src/TermUtils.h:227`). -/
def showInt : Int → Str
  | .ofNat n => showNat n
  | .negSucc n => '-' :: showNat (n + 1)

/-- `isdigit` of the C locale. -/
def isDigit (c : Char) : Bool := 48 ≤ c.toNat && c.toNat ≤ 57

/-- `isspace` of the C locale, which `std::stoi` skips. -/
def isSpace (c : Char) : Bool := c.toNat == 32 || (9 ≤ c.toNat && c.toNat ≤ 13)

/-- Value of the longest prefix of digits, `none` if there is none. -/
def readNat (s : Str) : Option Nat :=
  match s.takeWhile isDigit with
  | [] => none
  | ds => some (ds.foldl (fun n c => 10 * n + (c.toNat - 48)) 0)

/-- The sign and the digits `std::stoi` (`strtol`) reads. -/
def readSigned : Str → Option Int
  | [] => none
  | c :: r =>
    if c = '-' then (readNat r).map fun (n : Nat) => -(n : Int)
    else if c = '+' then (readNat r).map Int.ofNat
    else (readNat (c :: r)).map Int.ofNat

/-- `std::stoi` (`src/TermUtils.h:225, 272`): leading white space, an optional sign, the longest prefix of digits, the
rest is ignored; `none` is an exception (`invalid_argument` without digits, `out_of_range` outside `int`). -/
def stoi (s : Str) : Option Int :=
  match readSigned (s.dropWhile isSpace) with
  | some k => if -2147483648 ≤ k ∧ k < 2147483648 then some k else none
  | none => none

/-- `std::string::rfind` of a separator: the last position at which it occurs. -/
def rfind (sep : Str) : Str → Option Nat
  | [] => if sep.isPrefixOf [] then some 0 else none
  | c :: s =>
    match rfind sep s with
    | some p => some (p + 1)
    | none => if sep.isPrefixOf (c :: s) then some 0 else none

/-- `versionSeparator`, `instanceSeparator` (`src/TermUtils.h:193, 307`). -/
def verSep : Str := ['#', '#']
/-- `tagSeparator` (`src/TermUtils.h:308`). -/
def tagSep : Str := ['_', '_']

/-- `TimeMachine::isVersionedName`, `VersionManager::isVersionedName` (`src/TermUtils.h:283-286, 382`). -/
def isVersionedName (s : Str) : Bool := (rfind verSep s).isSome
/-- `VersionManager::isTaggedName` (`src/TermUtils.h:380`). -/
def isTaggedName (s : Str) : Bool := (rfind tagSep s).isSome

/-- `TimeMachine::sendVarThroughTime` (`src/TermUtils.h:217-229`); `none` stands for the exception of `stoi`.  Names
without a version violate the assertion; the release build then reads from position `npos + 2 = 1`. -/
def sendVarThroughTime (s : Str) (steps : Int) : Option Str :=
  let numPos := match rfind verSep s with
    | some p => p + 2
    | none => 1
  (stoi (s.drop numPos)).map fun v => s.take numPos ++ showInt (v + steps)

/-- `TimeMachine::getVarVersionZero` (`src/TermUtils.h:232-248`). -/
def getVarVersionZero (s : Str) : Str := s ++ verSep ++ showNat 0

/-- `TimeMachine::getUnversioned`, `getUnversionedName` (`src/TermUtils.h:250-265`). -/
def getUnversioned (s : Str) : Str :=
  match rfind verSep s with
  | some p => s.take p
  | none => s

/-- `TimeMachine::getVersionNumber` (`src/TermUtils.h:267-276`). -/
def getVersionNumber (s : Str) : Option Int :=
  match rfind verSep s with
  | some p => stoi (s.drop (p + 2))
  | none => stoi (s.drop 1)

/-- `VersionManager::toSource` (`src/TermUtils.h:353-361`). -/
def toSource (s : Str) (i : Nat) : Str := s ++ tagSep ++ ['s'] ++ verSep ++ showNat i

/-- `VersionManager::toTarget` (`src/TermUtils.h:363-372`). -/
def toTarget (s : Str) : Str := s ++ tagSep ++ ['t']

/-- `VersionManager::ensureNoVersion` (`src/TermUtils.cc:757-761`). -/
def ensureNoVersion (s : Str) : Str :=
  match rfind verSep s with
  | some p => s.take p
  | none => s

/-- `VersionManager::removeTag` (`src/TermUtils.cc:763-767`); without a tag the assertion fails (`erase(npos)` throws in
the release build), here the name is kept. -/
def removeTag (s : Str) : Str :=
  match rfind tagSep s with
  | some p => s.take p
  | none => s

/-- `VersionManager::toBase` (`src/TermUtils.h:345-351`). -/
def toBase (s : Str) : Str := removeTag (ensureNoVersion s)

/-- The string of a base name: `src/Normalizer.h:47` (`x#`), `src/Normalizer.cc:65` (`aux#`),
`src/graph/ChcGraph.cc:310` (`gaux#`), `src/graph/ChcGraph.h:320` (`aux#g#`), `src/graph/ChcGraph.cc:620, 628` (`.loc_`,
`.arg_`), `src/transformers/CommonUtils.h:95` (`golem::et::aux`), `src/transformers/EdgeInliner.cc:246` (`$ei`),
`src/engine/Bmc.cc:73-80` (`golem_bmc`), `src/utils/SmtSolver.cc:63` (`.act`), `src/engine/TRL.cc:47, 274, 449` (`trl_id`, `trl::diff`, `trl_lc`),
`src/engine/ArgBasedEngine.cc:702` (`paux#`). -/
def render : Name → Str
  | .user s => s.toList
  | .pr k => ['x', '#'] ++ showNat k
  | .aux k => ['a', 'u', 'x', '#'] ++ showNat k
  | .gaux k => ['g', 'a', 'u', 'x', '#'] ++ showNat k
  | .auxg k => ['a', 'u', 'x', '#', 'g', '#'] ++ showNat k
  | .loc p => ['.', 'l', 'o', 'c', '_'] ++ showNat p
  | .arg p i => ['.', 'a', 'r', 'g', '_'] ++ (showNat p ++ ('_' :: showNat i))
  | .et k => ['g', 'o', 'l', 'e', 'm', ':', ':', 'e', 't', ':', ':', 'a', 'u', 'x'] ++ showNat k
  | .ei k => ['$', 'e', 'i'] ++ showNat k
  | .bmc p k => ['g', 'o', 'l', 'e', 'm', '_', 'b', 'm', 'c'] ++ (showNat p ++ ('#' :: showNat k))
  | .act k => ['.', 'a', 'c', 't'] ++ showNat k
  | .trlId => ['t', 'r', 'l', '_', 'i', 'd']
  | .trlLc k => ['t', 'r', 'l', '_', 'l', 'c'] ++ showNat k
  | .trlDiff i => ['t', 'r', 'l', ':', ':', 'd', 'i', 'f', 'f'] ++ showNat i
  | .paux k => ['p', 'a', 'u', 'x', '#'] ++ showNat k

/-- The string of a variable (`src/TermUtils.h:353-372, 232-239`). -/
def str : Var → Str
  | .base n => render n
  | .src n i => render n ++ tagSep ++ ['s'] ++ verSep ++ showInt i
  | .tgt n => render n ++ tagSep ++ ['t']
  | .ver n k => render n ++ verSep ++ showInt k

end Names
end Golem
