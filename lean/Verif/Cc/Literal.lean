import Verif.Vm.Opcode
import Verif.Bytes.Lemmas

/-
Literals, from the source text to the value on the operand stack: the number, character
and string branches of the tokenizer (cc/token.cpp), `pushLiteral` (cc/cc.cpp), the
folding of unary minus into a literal (cc/optimizer.cpp) and the literal instructions of
the interpreter (vm/vm.cpp).

Simplifications.  The source is the list of bytes from the current position on, so a test
`m_pos >= m_sourceLen` is a test for the empty list.  The push-back registers
(`m_loadedToken`) and the search for macro tokens and named constants, which precedes the
branches modelled here and only ever matches names, are left out.  `atof` is not
interpreted: a float token keeps its text.  The width of C's `long`, on which the results
of `strtol` and `strtoul` depend, is the parameter `L`.
-/
namespace Wrench.Cc

open Wrench Wrench.Vm

/-! ### Character classes (C locale) -/

def isDigit (c : Byte) : Bool := 48 ≤ c.toNat && c.toNat ≤ 57

def isXDigit (c : Byte) : Bool :=
  isDigit c || (65 ≤ c.toNat && c.toNat ≤ 70) || (97 ≤ c.toNat && c.toNat ≤ 102)

/-- Digit value as `strtol` reads it. -/
def digitVal (c : Byte) : Nat :=
  if c.toNat ≤ 57 then c.toNat - 48
  else if c.toNat ≤ 70 then c.toNat - 55
  else c.toNat - 87

/-- `strtol` / `strtoul` on a token made of digits of the base only: the value, or `max`
if that is exceeded (`LONG_MAX`, `ULONG_MAX`). -/
def strto (max base : Nat) (token : List Byte) : Nat :=
  token.foldl (fun acc c => if max < acc * base + digitVal c then max else acc * base + digitVal c) 0

/-! ### Tokens -/

inductive Value where
  | int (w : Word32)
  | float (text : List Byte)
  | str (text : List Byte)
deriving DecidableEq, Repr

/-- Result of a branch of `getToken`: the value and the rest of the source, a failure
(end of file or compile error), or a read outside the source. -/
inductive Scan where
  | tok (v : Value) (rest : List Byte)
  | fail
  | oob
deriving DecidableEq, Repr

/-- The loop `for(;;) { if ( m_pos >= m_sourceLen ) error; if ( !p ) break; token += …; }`,
cc/token.cpp 431-445, 455-469, 478-492. -/
def run (p : Byte → Bool) : List Byte → Option (List Byte × List Byte)
  | [] => none
  | c :: r => if p c then (run p r).map fun x => (c :: x.1, x.2) else some ([], c :: r)

/-- The loop of the decimal branch, cc/token.cpp 500-528. -/
def decLoop : Bool → List Byte → List Byte → Option (Bool × List Byte × List Byte)
  | _, _, [] => none
  | decimal, token, c :: r =>
    if c = 46#8 then
      if decimal then none else decLoop true (token ++ [c]) r
    else if isDigit c = false then
      if c = 102#8 ∨ c = 70#8 then some (true, token, r) else some (decimal, token, c :: r)
    else decLoop decimal (token ++ [c]) r

/-- The number branch of `getToken`, cc/token.cpp 414-542: `c` is `token[0]`, `src` the source
after it. -/
def scanNumber (L : Nat) (c : Byte) (src : List Byte) : Scan :=
  match src with
  | [] => .fail
  | d :: rest =>
    if c = 48#8 ∧ d = 120#8 then
      match run isXDigit rest with
      | none => .fail
      | some (t, r) => .tok (.int (BitVec.ofNat 32 (strto (2 ^ L - 1) 16 t))) r
    else if c = 48#8 ∧ d = 98#8 then
      match run (fun x => x = 48#8 ∨ x = 49#8) rest with
      | none => .fail
      | some (t, r) => .tok (.int (BitVec.ofNat 32 (strto (2 ^ (L - 1) - 1) 2 t))) r
    else if c = 48#8 ∧ isDigit d = true then
      match run (fun x => 48 ≤ x.toNat && x.toNat ≤ 55) (d :: rest) with
      | none => .fail
      | some (t, r) => .tok (.int (BitVec.ofNat 32 (strto (2 ^ (L - 1) - 1) 8 t))) r
    else
      match decLoop (decide (c = 46#8)) [c] (d :: rest) with
      | none => .fail
      | some (true, t, r) => .tok (.float t) r
      | some (false, t, r) => .tok (.int (BitVec.ofNat 32 (strto (2 ^ L - 1) 10 t))) r

/-- `atoi` of the digits at the start of `src`, cc/token.cpp 326, truncated to a `char`
by `WRstr::operator+=`. -/
def atoiByte (src : List Byte) : Byte :=
  BitVec.ofNat 8 (strto (2 ^ 31 - 1) 10 (src.takeWhile isDigit))

/-- Result of the string loop. -/
inductive StrScan where
  | text (t rest : List Byte)
  | fail
  | oob
deriving DecidableEq, Repr

/-- The loop of the string branch, cc/token.cpp 277-363; `single` for the quote `'`.  Running
off the end after an ordinary character leaves the loop without an error (the `while`
condition, line 363).  Running off the end after a backslash is noticed only after the read
of `m_source[++m_pos]` (line 313), and `atoi` (line 326) reads up to the first character that is
not a digit: reads outside the source. -/
def strLoop (single : Bool) : List Byte → List Byte → StrScan
  | token, [] => .text token []
  | token, c :: r =>
    if c = 34#8 ∧ single = false then .text token r
    else if c = 39#8 ∧ single = true then if 1 < token.length then .fail else .text token r
    else if c = 10#8 then .fail
    else if c = 92#8 then
      match r with
      | [] => .oob
      | e :: r' =>
        if e = 92#8 then strLoop single (token ++ [92#8]) r'
        else if e = 48#8 then
          if r'.all isDigit then .oob
          else strLoop single (token ++ [atoiByte (e :: r')]) (r'.dropWhile isDigit)
        else if e = 34#8 then strLoop single (token ++ [34#8]) r'
        else if e = 39#8 then strLoop single (token ++ [39#8]) r'
        else if e = 110#8 then strLoop single (token ++ [10#8]) r'
        else if e = 114#8 then strLoop single (token ++ [13#8]) r'
        else if e = 116#8 then strLoop single (token ++ [9#8]) r'
        else .fail
    else strLoop single (token ++ [c]) r
termination_by _ src => src.length
decreasing_by
  all_goals simp_wf
  all_goals try omega
  have h2 := (List.dropWhile_sublist isDigit (l := r')).length_le
  omega

/-- The string and character branch of `getToken`, cc/token.cpp 269-375, after the opening
quote.  A character literal is the (signed) `char` converted to `uint32_t`, 0 if empty. -/
def scanQuoted (single : Bool) (src : List Byte) : Scan :=
  match src with
  | [] => .fail
  | _ =>
    match strLoop single [] src with
    | .fail => .fail
    | .oob => .oob
    | .text t r =>
      if single then .tok (.int (match t with | [c] => c.signExtend 32 | _ => 0)) r
      else .tok (.str t) r

/-! ### Emission -/

/-- `pushLiteral`, cc/cc.cpp 755-800: the instruction for a literal.  A float arrives as its
bit pattern, computed by `atof`. -/
def pushInt (v : Word32) : Op × List Byte :=
  if v = 0 then (.LiteralZero, [])
  else if v.toInt ≤ 127 ∧ v.toInt ≥ -128 then (.LiteralInt8, [v.setWidth 8])
  else if v.toInt ≤ 32767 ∧ v.toInt ≥ -32768 then (.LiteralInt16, pack16 (v.setWidth 16))
  else (.LiteralInt32, pack32 v)

def pushFloat (bits : Word32) : Op × List Byte := (.LiteralFloat, pack32 bits)

def pushStr (text : List Byte) : Op × List Byte :=
  (.LiteralString, pack16 (BitVec.ofNat 16 text.length) ++ text)

def bytes (x : Op × List Byte) : List Byte := x.1.code :: x.2

/-- Emission of `Negate` after a literal instruction, cc/optimizer.cpp 268-322 (`KEYHOLE_OPTIMIZER`
is on): the operand bytes are rewritten in place; any other instruction is followed by the
`Negate` opcode.  `neg` is the negation of a float's bit pattern. -/
def pushNegate (neg : Word32 → Word32) (x : Op × List Byte) : List Byte :=
  match x with
  | (.LiteralInt8, [b]) => Op.LiteralInt8.code :: [-b]
  | (.LiteralInt16, [b0, b1]) =>
    let be : Word16 := -(b0.setWidth 16 ||| (b1.setWidth 16) <<< 8)
    Op.LiteralInt16.code :: [(be &&& 0xFF#16).setWidth 8, (be.sshiftRight 8).setWidth 8]
  | (.LiteralInt32, [b0, b1, b2, b3]) =>
    let be : Word32 := -(b0.setWidth 32 ||| (b1.setWidth 32) <<< 8
      ||| (b2.setWidth 32) <<< 16 ||| (b3.setWidth 32) <<< 24)
    Op.LiteralInt32.code :: [(be &&& 0xFF#32).setWidth 8, (be >>> 8).setWidth 8,
      (be >>> 16).setWidth 8, (be >>> 24).setWidth 8]
  | (.LiteralFloat, [b0, b1, b2, b3]) =>
    let be : Word32 := neg (b0.setWidth 32 ||| (b1.setWidth 32) <<< 8
      ||| (b2.setWidth 32) <<< 16 ||| (b3.setWidth 32) <<< 24)
    Op.LiteralFloat.code :: [(be &&& 0xFF#32).setWidth 8, (be.sshiftRight 8).setWidth 8,
      (be.sshiftRight 16).setWidth 8, (be.sshiftRight 24).setWidth 8]
  | x => bytes x ++ [Op.Negate.code]

/-! ### Execution -/

/-- A value on the operand stack. -/
inductive Item where
  | int (w : Word32)
  | float (w : Word32)
  | str (text : List Byte)
deriving DecidableEq, Repr

/-- One literal or `Negate` instruction at the start of `code`: vm/vm.cpp LiteralInt32,
LiteralZero, LiteralFloat 749-769, LiteralString 771-794, Negate 1501-1506 (with `wr_negate`,
vm/operations.cpp 383-398, on numbers), LiteralInt8 and LiteralInt16 1631-1646.  `none` for other
instructions, a read outside the code or a stack underflow. -/
def step (neg : Word32 → Word32) (code : List Byte) (st : List Item) :
    Option (List Byte × List Item) :=
  match code with
  | [] => none
  | b :: r =>
    match Op.decode b with
    | some .LiteralZero => some (r, .int 0 :: st)
    | some .LiteralInt8 => (read8 r 0).map fun x => (r.drop 1, .int (x.signExtend 32) :: st)
    | some .LiteralInt16 => (read16 r 0).map fun x => (r.drop 2, .int (x.signExtend 32) :: st)
    | some .LiteralInt32 => (read32 r 0).map fun x => (r.drop 4, .int x :: st)
    | some .LiteralFloat => (read32 r 0).map fun x => (r.drop 4, .float x :: st)
    | some .LiteralString =>
      (read16 r 0).bind fun n =>
        if n.toNat ≤ (r.drop 2).length then
          some (r.drop (2 + n.toNat), .str ((r.drop 2).take n.toNat) :: st)
        else none
    | some .Negate =>
      match st with
      | .int w :: st => some (r, .int (-w) :: st)
      | .float w :: st => some (r, .float (neg w) :: st)
      | _ => none
    | _ => none

/-- `n` instructions. -/
def steps (neg : Word32 → Word32) : Nat → List Byte → List Item → Option (List Byte × List Item)
  | 0, code, st => some (code, st)
  | n + 1, code, st => (step neg code st).bind fun x => steps neg n x.1 x.2

end Wrench.Cc
