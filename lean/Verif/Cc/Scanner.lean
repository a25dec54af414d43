import Verif.Cc.Literal

/-
The tokenizer `WRCompilationContext::getToken`, cc/token.cpp 37-611.

Simplifications.  The source is the list of bytes from `m_pos` on.  The push-back registers
(lines 42-47) and the `expect` argument (606-609) are left out.  A token is either a literal
value or a symbol with its text.  `spaceBefore`, `spaceAfter` and `m_LastParsedLabel` are computed
by the code but never used, and are left out.  `isspace`, `isalpha` and `isalnum` are those of the
C locale.  `K` is the list of named constants in force (`constantValues` of unit 0, then of the
current unit), which the code consults in this order.
-/
namespace Wrench.Cc

open Wrench

/-- `isspace`. -/
def isSpace (c : Byte) : Bool := c.toNat = 32 || (9 ≤ c.toNat && c.toNat ≤ 13)

/-- `isalpha`. -/
def isAlpha (c : Byte) : Bool :=
  (65 ≤ c.toNat && c.toNat ≤ 90) || (97 ≤ c.toNat && c.toNat ≤ 122)

/-- `isalnum(c) || c == '_'`. -/
def isName (c : Byte) : Bool := isAlpha c || isDigit c || c.toNat = 95

inductive Tok where
  | lit (v : Value)
  | sym (text : List Byte)
deriving DecidableEq, Repr

/-- The macro tokens, cc/cc.h 120-123: `._count`, `._hash`, `._remove`, `._exists`. -/
def macros : List (List Byte) :=
  [[46#8, 95#8, 99#8, 111#8, 117#8, 110#8, 116#8],
   [46#8, 95#8, 104#8, 97#8, 115#8, 104#8],
   [46#8, 95#8, 114#8, 101#8, 109#8, 111#8, 118#8, 101#8],
   [46#8, 95#8, 101#8, 120#8, 105#8, 115#8, 116#8, 115#8]]

/-- The search for a macro token or a named constant at the current position, cc/token.cpp
65-121: the label must match, must not reach the end of the source, and must not be followed
by a name character. -/
def matchLabel {α : Type} : List (List Byte × α) → List Byte → Option (α × List Byte)
  | [], _ => none
  | (l, v) :: ls, src =>
    if l.isPrefixOf src = true ∧ l.length < src.length ∧ isName ((src.drop l.length).headD 0) = false
    then some (v, src.drop l.length)
    else matchLabel ls src

/-- The operators that are extended by following characters, cc/token.cpp 123-269: the
extension, then the rest of the source. -/
def opExt (c : Byte) (src : List Byte) : List Byte × List Byte :=
  match src with
  | [] => ([], [])
  | d :: r =>
    if c = 45#8 then                                             -- '-'
      if d = 45#8 ∨ d = 61#8 then ([d], r) else ([], d :: r)
    else if c = 61#8 ∨ c = 33#8 ∨ c = 42#8 ∨ c = 37#8 ∨ c = 94#8 then  -- '=' '!' '*' '%' '^'
      if d = 61#8 then ([d], r) else ([], d :: r)
    else if c = 60#8 ∨ c = 62#8 then                             -- '<' '>'
      if d = 61#8 then ([d], r)
      else if d = c then
        match r with
        | e :: r' => if e = 61#8 then ([d, e], r') else ([d], r)
        | [] => ([d], [])
      else ([], d :: r)
    else if c = 38#8 ∨ c = 124#8 ∨ c = 43#8 then                 -- '&' '|' '+'
      if d = c ∨ d = 61#8 then ([d], r) else ([], d :: r)
    else ([], d :: r)

def isOper (c : Byte) : Bool :=
  decide (c = 45#8 ∨ c = 61#8 ∨ c = 33#8 ∨ c = 42#8 ∨ c = 37#8 ∨ c = 94#8 ∨ c = 60#8 ∨ c = 62#8 ∨
    c = 38#8 ∨ c = 124#8 ∨ c = 43#8)

/-- The search for the end of a block comment, cc/token.cpp 388-399.  It starts at the
`*` of the opening. -/
def findEnd : List Byte → Option (List Byte)
  | a :: b :: r => if a = 42#8 ∧ b = 47#8 then some r else findEnd (b :: r)
  | _ => none

/-- The loop collecting a label, cc/token.cpp 561-579. -/
def labelLoop : List Byte → List Byte × List Byte
  | [] => ([], [])
  | [c] => if isName c then ([c], []) else ([], [c])
  | c :: d :: r =>
    if c = 58#8 ∧ d = 58#8 then
      let x := labelLoop r
      (58#8 :: 58#8 :: x.1, x.2)
    else if isName c then
      let x := labelLoop (d :: r)
      (c :: x.1, x.2)
    else ([], c :: d :: r)

/-- `true`, `false` and `null`, cc/token.cpp 581-593. -/
def labelTok (t : List Byte) : Tok :=
  if t = [116#8, 114#8, 117#8, 101#8] then .lit (.int 1)
  else if t = [102#8, 97#8, 108#8, 115#8, 101#8] ∨ t = [110#8, 117#8, 108#8, 108#8] then .lit (.int 0)
  else .sym t

/-- What happens at the first character that is not white space. -/
inductive Step where
  | done (t : Tok) (rest : List Byte)
  | again (rest : List Byte)
  | fail
  | oob
deriving DecidableEq, Repr

def Scan.toStep : Scan → Step
  | .tok v r => .done (.lit v) r
  | .fail => .fail
  | .oob => .oob

/-- The body of `getToken` after the white space, cc/token.cpp 63-596.  `c` is the first
character, `r` the source after it. -/
def tokenAt (L : Nat) (K : List (List Byte × Value)) (c : Byte) (r : List Byte) : Step :=
  match matchLabel (macros.map fun m => (m, Tok.sym m)) (c :: r) with
  | some (t, rest) => .done t rest
  | none =>
  match matchLabel K (c :: r) with
  | some (v, rest) => .done (.lit v) rest
  | none =>
  if isOper c then .done (.sym (c :: (opExt c r).1)) (opExt c r).2
  else if c = 34#8 then (scanQuoted false r).toStep
  else if c = 39#8 then (scanQuoted true r).toStep
  else if c = 47#8 then
    match r with
    | [] => .done (.sym [c]) []
    | d :: r' =>
      if d = 47#8 then .again (r.dropWhile (· != 10#8))
      else if d = 42#8 then
        match findEnd r with
        | none => .fail
        | some rest => .again rest
      else if d = 61#8 then .done (.sym [c, d]) r'
      else .done (.sym [c]) r
  else if isDigit c = true ∨ (c = 46#8 ∧ (r.head?.map isDigit) = some true) then
    (scanNumber L c r).toStep
  else if c = 58#8 then
    match r with
    | [] => .oob
    | d :: r' =>
      if isSpace d then .done (.sym [c]) r
      else if d = 58#8 then .done (labelTok (58#8 :: 58#8 :: (labelLoop r').1)) (labelLoop r').2
      else .done (.sym [c]) r
  else if isAlpha c = true ∨ c = 95#8 then
    .done (labelTok (c :: (labelLoop r).1)) (labelLoop r).2
  else .done (.sym [c]) r

/-- Result of `getToken`. -/
inductive Got where
  | tok (t : Tok) (rest : List Byte)
  | eof
  | fail
  | oob
deriving DecidableEq, Repr

/-- `getToken`.  The recursion is the two `return getToken( ex, expect )` after a comment
(cc/token.cpp 386, 402); the length test only makes the recursion well-founded and always
succeeds (`tokenAt_again_lt`). -/
def getToken (L : Nat) (K : List (List Byte × Value)) (src : List Byte) : Got :=
  match src.dropWhile isSpace with
  | [] => .eof
  | c :: r =>
    match tokenAt L K c r with
    | .done t rest => .tok t rest
    | .fail => .fail
    | .oob => .oob
    | .again rest => if rest.length < src.length then getToken L K rest else .fail
termination_by src.length

end Wrench.Cc
