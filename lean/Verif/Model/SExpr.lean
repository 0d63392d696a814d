import Verif.Model.Entailment
/-
S-expressions: printing and the stream parser used by the VMT and termination front ends.

Models: `src/utils/SExpressions.cc`, `src/utils/SExpressions.h`, and the reading loop of `src/vmt/FrontEnd.cc:92-104` and
`src/termination/Frontend.cc:85-101`.  A `char` is a `Char`; the end of the input reads as `char(-1)`.
-/

namespace Golem
namespace SExpr

/-- `SExpression` (`src/utils/SExpressions.h:16-21`). -/
inductive SExp where
  | atom (s : List Char)
  | list (es : List SExp)

mutual
/-- `SExpression::toString` (`src/utils/SExpressions.cc:11-30`). -/
def SExp.toStr : SExp → List Char
  | .atom s => s
  | .list es => '(' :: (SExp.toStrs es ++ [')'])
/-- The loop over the arguments, with a space before all but the first (`src/utils/SExpressions.cc:18-24`). -/
def SExp.toStrs : List SExp → List Char
  | [] => []
  | [e] => SExp.toStr e
  | e :: es => SExp.toStr e ++ ' ' :: SExp.toStrs es
end

/-- The parser's state: `m_token`, what is left of `m_input`, and `m_input.good()`
(`src/utils/SExpressions.h:44-70`). -/
structure St where
  token : Char
  rest : List Char
  good : Bool
deriving DecidableEq

/-- `static_cast<char>(EOF)`: the value `get()` returns at the end of the input. -/
def eofChar : Char := Char.ofNat 255
/-- The zero character the parser compares with. -/
def nul : Char := Char.ofNat 0

/-- `m_token = static_cast<char>(m_input.get())`. -/
def get (st : St) : St :=
  if st.good then
    match st.rest with
    | [] => ⟨eofChar, [], false⟩
    | c :: r => ⟨c, r, true⟩
  else { st with token := eofChar }

/-- The loop that skips a comment, `while (token() != '\n' && token() != 0) m_token = m_input.get()`
(`src/utils/SExpressions.cc:77-79`).  At the end of the input it never ends: `outOfFuel`. -/
def skipComment : List Char → Outcome St
  | [] => .outOfFuel
  | c :: r => if c = '\n' ∨ c = nul then .done ⟨c, r, true⟩ else skipComment r

/-- `SExpressionParser::advance` (`src/utils/SExpressions.cc:74-80`). -/
def advance (st : St) : Outcome St :=
  if st.good then
    let st' := get st
    if st'.token = ';' then skipComment st'.rest else .done st'
  else .thrown

/-- `isWhiteSpace` (`src/utils/SExpressions.cc:49-53`). -/
def isWhiteSpace (c : Char) : Bool := c == ' ' || c == '\n' || c == '\t' || c == '\r'

/-- `SExpressionParser::skipWhitespace` (`src/utils/SExpressions.cc:82-85`). -/
def skipWhitespace : Nat → St → Outcome St
  | 0, _ => .outOfFuel
  | n + 1, st =>
    if isWhiteSpace st.token then
      match advance st with
      | .done st' => skipWhitespace n st'
      | .thrown => .thrown
      | .outOfFuel => .outOfFuel
    else .done st

/-- The loop of `SExpressionParser::parseToken` (`src/utils/SExpressions.cc:61-70`). -/
def tokenLoop (isPipe : Bool) : Nat → List Char → St → Outcome (List Char × St)
  | 0, _, _ => .outOfFuel
  | n + 1, result, st =>
    if st.token = nul then .done (result, st)
    else if isPipe = true ∧ st.token = '|' then
      match advance st with
      | .done st' => .done (result, st')
      | .thrown => .thrown
      | .outOfFuel => .outOfFuel
    else if isPipe = false ∧ (isWhiteSpace st.token = true ∨ st.token = '(' ∨ st.token = ')') then .done (result, st)
    else
      match advance st with
      | .done st' => tokenLoop isPipe n (result ++ [st.token]) st'
      | .thrown => .thrown
      | .outOfFuel => .outOfFuel

/-- `SExpressionParser::parseToken` (`src/utils/SExpressions.cc:55-72`). -/
def parseToken (n : Nat) (st : St) : Outcome (List Char × St) :=
  match skipWhitespace n st with
  | .done st =>
    if st.token = '|' then
      match advance st with
      | .done st' => tokenLoop true n [] st'
      | .thrown => .thrown
      | .outOfFuel => .outOfFuel
    else tokenLoop false n [] st
  | .thrown => .thrown
  | .outOfFuel => .outOfFuel

/-- The loop over sub-expressions (`src/utils/SExpressions.cc:37-41`). -/
def subLoop (parse : St → Outcome (SExp × St)) (ws : St → Outcome St) : Nat → List SExp → St → Outcome (List SExp × St)
  | 0, _, _ => .outOfFuel
  | n + 1, es, st =>
    if st.token ≠ nul ∧ st.token ≠ ')' then
      match parse st with
      | .done (e, st') =>
        match ws st' with
        | .done st'' => subLoop parse ws n (es ++ [e]) st''
        | .thrown => .thrown
        | .outOfFuel => .outOfFuel
      | .thrown => .thrown
      | .outOfFuel => .outOfFuel
    else .done (es, st)

/-- `SExpressionParser::parseExpression` (`src/utils/SExpressions.cc:32-47`). The recursion is unbounded in the code; the
fuel only makes the definition total. -/
def parseExpression : Nat → St → Outcome (SExp × St)
  | 0, _ => .outOfFuel
  | n + 1, st =>
    match skipWhitespace (n + 1) st with
    | .done st =>
      if st.token = '(' then
        match advance st with
        | .done st =>
          match skipWhitespace (n + 1) st with
          | .done st =>
            match subLoop (parseExpression n) (skipWhitespace (n + 1)) (n + 1) [] st with
            | .done (es, st) =>
              if st.token ≠ ')' then .thrown
              else .done (.list es, { st with token := ' ' })
            | .thrown => .thrown
            | .outOfFuel => .outOfFuel
          | .thrown => .thrown
          | .outOfFuel => .outOfFuel
        | .thrown => .thrown
        | .outOfFuel => .outOfFuel
      else
        match parseToken (n + 1) st with
        | .done (s, st) => .done (.atom s, st)
        | .thrown => .thrown
        | .outOfFuel => .outOfFuel
    | .thrown => .thrown
    | .outOfFuel => .outOfFuel

/-- The constructor of the parser (`src/utils/SExpressions.h:48`). -/
def start (input : List Char) : St := get ⟨eofChar, input, true⟩

/-- `SExpressionParser::isEOF` (`src/utils/SExpressions.h:52-55`): the flag and the state after skipping. -/
def isEOF (n : Nat) (st : St) : Outcome (Bool × St) :=
  match skipWhitespace n st with
  | .done st => .done (!st.good, st)
  | .thrown => .thrown
  | .outOfFuel => .outOfFuel

/-- The reading loop of the front ends, whose `resolve` throws on an atom (`src/vmt/FrontEnd.cc:96-104`,
`src/termination/Frontend.cc:89-101`). -/
def readLoop : Nat → List SExp → St → Outcome (List SExp)
  | 0, _, _ => .outOfFuel
  | n + 1, es, st =>
    match isEOF (n + 1) st with
    | .done (eof, st) =>
      if eof then .done es
      else
        match parseExpression (n + 1) st with
        | .done (.list l, st) => readLoop n (es ++ [.list l]) st
        | .done (.atom _, _) => .thrown
        | .thrown => .thrown
        | .outOfFuel => .outOfFuel
    | .thrown => .thrown
    | .outOfFuel => .outOfFuel

end SExpr
end Golem
