import Verif.Model.Frontend.Clause
import Verif.Model.CheckSat

/-!
The front end: the commands of a script.

Models: `src/ChcInterpreter.cc:45-60` (`interpretSystemAst`), `62-118` (`interpretCommand`), `143-180`
(`interpretDeclareFun`), `190-208` (`interpretAssert`), `530-556` (`interpretCheckSat`, through `checkSat`).
-/

namespace Golem
namespace Front
variable {T : Theory}

/-- Boolean connectives on the terms of the theory, for terms that have them below a theory function or in an argument of a
predicate (`Logic` has them as ordinary symbols). -/
structure BoolTerms (T : Theory) where
  not1 : Tm T → Tm T
  and2 : Tm T → Tm T → Tm T
  or2 : Tm T → Tm T → Tm T
  eq2 : Tm T → Tm T → Tm T

mutual
/-- A term as a term of the logic layer of the rest of the model; `none` for a predicate. Not golem code: golem has one type
of terms. -/
def PT.toTm (B : BoolTerms T) (key : String → Srt → String) : PT T → Option (Tm T)
  | .var x s => some (.var (.base (.user (key x s))))
  | .const v => some (.const v)
  | .ap1 f a => do return .ap1 f (← a.toTm B key)
  | .ap2 f a b => do return .ap2 f (← a.toTm B key) (← b.toTm B key)
  | .ap3 f a b c => do return .ap3 f (← a.toTm B key) (← b.toTm B key) (← c.toTm B key)
  | .pred _ _ => none
  | .tt => some (.const T.vT)
  | .ff => some (.const T.vF)
  | .eq a b => do return B.eq2 (← a.toTm B key) (← b.toTm B key)
  | .not a => do return B.not1 (← a.toTm B key)
  | .and ts => do return (← PT.toTms B key ts).foldr B.and2 (.const T.vT)
  | .or ts => do return (← PT.toTms B key ts).foldr B.or2 (.const T.vF)

def PT.toTms (B : BoolTerms T) (key : String → Srt → String) : List (PT T) → Option (List (Tm T))
  | [] => some []
  | t :: ts => do return (← t.toTm B key) :: (← PT.toTms B key ts)
end

mutual
/-- A term of sort `Bool` as a formula. -/
def PT.toFla (B : BoolTerms T) (key : String → Srt → String) : PT T → Option (Fla T)
  | .tt => some .tt
  | .ff => some .ff
  | .eq a b => do return .eq (← a.toTm B key) (← b.toTm B key)
  | .not a => do return .not (← a.toFla B key)
  | .and ts => do return Fla.conj (← PT.toFlas B key ts)
  | .or ts => do return Fla.disj (← PT.toFlas B key ts)
  | t => do return .atom (← t.toTm B key)

def PT.toFlas (B : BoolTerms T) (key : String → Srt → String) : List (PT T) → Option (List (Fla T))
  | [] => some []
  | t :: ts => do return (← t.toFla B key) :: (← PT.toFlas B key ts)
end

/-- An atom of a clause. -/
def PT.toAtom (B : BoolTerms T) (key : String → Srt → String) : PT T → Option (PAtom T)
  | .pred p args => do return (.p p, ← PT.toTms B key args)
  | .ff => some (.fls, [])
  | _ => none

/-- The body atoms of a clause. -/
def PT.toAtoms (B : BoolTerms T) (key : String → Srt → String) : List (PT T) → Option (List (PAtom T))
  | [] => some []
  | t :: ts => do return (← t.toAtom B key) :: (← PT.toAtoms B key ts)

/-- A clause of terms as a clause of the rest of the model; `none` if an argument or the constraint contains a predicate. -/
def PClause.toClause (B : BoolTerms T) (key : String → Srt → String) (c : PClause T) : Option (Clause T) := do
  return ⟨← c.head.toAtom B key, ← c.constraint.toFla B key, ← PT.toAtoms B key c.body⟩

def toClauses (B : BoolTerms T) (key : String → Srt → String) : List (PClause T) → Option (List (Clause T))
  | [] => some []
  | c :: cs => do return (← c.toClause B key) :: (← toClauses B key cs)

/-- The commands `interpretCommand` tells apart. `declareFun` carries the name, the sorts of the arguments (`none`: an
unknown sort) and the sort of the result. -/
inductive Cmd where
  | setLogic (horn : Bool)
  | declareFun (name : String) (args : List (Option Srt)) (ret : Option Srt)
  | assert (a : Ast)
  | checkSat
  | exit
  | ignored
  | unknown

/-- What a script prints: an error message or the output of one `check-sat`. -/
inductive SLine (T : Theory) where
  | error
  | check (ls : List (CheckLine T))

/-- `ChcSystem` (`src/ChcSystem.h:72-87`). -/
structure Sys (T : Theory) where
  known : List Nat
  clauses : List (PClause T)

/-- The state of `ChcInterpreterContext` (`src/ChcInterpreter.h:105-112`) with the logic's table of declared symbols.
`crashed`: an exception left the interpreter, or an `assert` failed. -/
structure SState (T : Theory) where
  system : Option (Sys T)
  decls : Decls
  lets : LetRecords (PT T)
  doExit : Bool
  crashed : Bool

/-- The state at the start. -/
def SState.init : SState T := ⟨none, [], .empty, false, false⟩

/-- `logic.declareFun`: an existing symbol is returned, a new one is appended. -/
def Decls.declare (D : Decls) (f : String) (n : Nat) : Decls × Nat :=
  match D.find f n with
  | some p => (D, p)
  | none => (D ++ [(f, n)], D.length)

/-- `interpretDeclareFun` (`src/ChcInterpreter.cc:143-180`). -/
def interpretDeclareFun (st : SState T) (sys : Sys T) (f : String) (args : List (Option Srt)) (ret : Option Srt) :
    List (SLine T) × SState T :=
  match ret with
  | none => ([.error], st)
  | some s =>
    if s ≠ boolSort then ([.error], st)
    else if args.any Option.isNone then ([.error], st)
    else
      let r := st.decls.declare f args.length
      ([], { st with decls := r.1, system := some { sys with known := r.2 :: sys.known } })

/-- `term == logic.getTerm_true()` (`src/ChcInterpreter.cc:195`). -/
def PT.isTrue : PT T → Bool
  | .tt => true
  | _ => false

/-- `interpretAssert` (`src/ChcInterpreter.cc:190-208`). -/
def interpretAssert (L : Logic T) (st : SState T) (sys : Sys T) (a : Ast) : List (SLine T) × SState T :=
  match parseTop L st.decls a st.lets with
  | (.ok t, r) =>
    let st := { st with lets := r }
    if t.isTrue then ([], st)
    else
      match chclause L sys.known t with
      | none => ([.error], { st with doExit := true })
      | some c => ([], { st with system := some { sys with clauses := sys.clauses ++ [c] } })
  | (.quantified, r) => ([.error], { st with lets := r, doExit := true })
  | (_, r) => ([], { st with lets := r, crashed := true })

/-- `interpretCommand` (`src/ChcInterpreter.cc:62-118`); `check` is `interpretCheckSat`. -/
def interpretCommand (L : Logic T) (check : List (PClause T) → List (CheckLine T)) (st : SState T) :
    Cmd → List (SLine T) × SState T
  | .setLogic horn => if horn then ([], { st with system := some ⟨[], []⟩ }) else ([.error], st)
  | .declareFun f args ret =>
    match st.system with
    | none => ([.error], st)
    | some sys => interpretDeclareFun st sys f args ret
  | .assert a =>
    match st.system with
    | none => ([.error], st)
    | some sys => interpretAssert L st sys a
  | .checkSat =>
    match st.system with
    | none => ([.error], st)
    | some sys => ([.check (check sys.clauses)], st)
  | .exit => ([], { st with doExit := true })
  | .ignored => ([], st)
  | .unknown => ([.error], st)

/-- The loop of `interpretSystemAst` (`src/ChcInterpreter.cc:54-58`): the output of every command with the number of commands
read before it. -/
def runScript (L : Logic T) (check : List (PClause T) → List (CheckLine T)) :
    Nat → SState T → List Cmd → List (Nat × SLine T)
  | _, _, [] => []
  | k, st, c :: cs =>
    if st.doExit || st.crashed then []
    else
      let r := interpretCommand L check st c
      r.1.map (fun l => (k, l)) ++ runScript L check (k + 1) r.2 cs

/-- `interpretSystemAst` (`src/ChcInterpreter.cc:50-60`). -/
def interpretScript (L : Logic T) (check : List (PClause T) → List (CheckLine T)) (cmds : List Cmd) : List (Nat × SLine T) :=
  runScript L check 0 .init cmds

/-- `interpretCheckSat` (`src/ChcInterpreter.cc:530-556`) on the clauses of the front end: `check` is the command on the
clauses of the rest of the model; a clause with a predicate inside an argument or the constraint is outside its domain, and
there `other` stands for whatever golem does. -/
def checkClauses (B : BoolTerms T) (key : String → Srt → String) (check : List (Clause T) → List (CheckLine T))
    (other : List (PClause T) → List (CheckLine T)) (cs : List (PClause T)) : List (CheckLine T) :=
  match toClauses B key cs with
  | some ccs => check ccs
  | none => other cs

end Front
end Golem
