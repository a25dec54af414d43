import Verif.StrLib.Model

/-
Formatted printing, discrete_src/lib/std_string.cpp 48-476, without WRENCH_FLOAT_SPRINTF (the
default).  The output buffer is either the local `tmpbuf` or the buffer of a string object, which
may be the object holding the format or an argument: every byte is read when the code reads it.

Not modelled: a failing `malloc`, the garbage collection hint.
-/
namespace Wrench.StrLib

open Ops

/-- The output buffer. -/
inductive Out where
  | tmp
  | obj (o : Nat)
deriving DecidableEq, Repr

/-- The machine while formatting: memory, the local `tmpbuf`, and `pos`. -/
structure PS where
  mem : St
  tmp : List Byte
  pos : Nat

/-- `out[pos] = c`. -/
def poke (out : Out) (c : Byte) (s : PS) : Res PS :=
  match out with
  | .tmp => if s.pos < s.tmp.length then .ok { s with tmp := s.tmp.set s.pos c } else .ub
  | .obj o =>
    match s.mem.obj o with
    | .chars bs nc =>
      if s.pos < bs.length then .ok { s with mem := s.mem.setObj o (.chars (bs.set s.pos c) nc) }
      else .ub
    | _ => .ub

/-- `addChar`, 48-56; `pos` is an `unsigned int`. -/
def addChar (out : Out) (max : Nat) (c : Byte) (s : PS) : Res PS := do
  let s ← if s.pos < max then poke out c s else pure s
  return { s with pos := (s.pos + 1) % 2 ^ 32 }

def addChars (out : Out) (max : Nat) (cs : List Byte) (s : PS) : Res PS :=
  cs.foldlM (fun s c => addChar out max c s) s

/-- `*ptr` in the buffer of object `o`. -/
def byteAt (σ : St) (o i : Nat) : Res Byte :=
  match σ.obj o with
  | .chars bs _ =>
    match bs[i]? with
    | some c => .ok c
    | none => .ub
  | _ => .ub

/-- `for ( l = 0; l < len; ++l ) addChar( outbuf, *ptr++, … )` from a string object, 207-210: the
last `n` bytes of the first `len`. -/
def copyChars (out : Out) (max o len : Nat) : Nat → PS → Res PS
  | 0, s => .ok s
  | n + 1, s => do
    let c ← byteAt s.mem o (len - (n + 1))
    let s ← addChar out max c s
    copyChars out max o len n s

/-- `WRValue::array( &len )`, utils.cpp 767-782: the object and its size. -/
def charsObj (f : Nat) (σ : St) (a : Addr) : Res (St × Option (Nat × Nat)) := do
  let (σ, l) ← deref f σ a
  match σ.cell l with
  | .arr o =>
    match σ.obj o with
    | .chars bs _ => return (σ, some (o, bs.length))
    | _ => return (σ, none)
  | _ => return (σ, none)

/-- The state reset at `resetState`, 86-90.  `padZero`: `padChar` is '0'. -/
structure Spec where
  inside : Bool := false
  padZero : Bool := false
  columns : Nat := 0
  left : Bool := false
  alt : Bool := false
deriving DecidableEq, Repr

/-- The digit of a base up to 16, 308-316. -/
def digitChar (lowercase : Bool) (d : Nat) : Byte :=
  BitVec.ofNat 8 (if d + 48 > 57 then d + 48 + 7 + (if lowercase then 32 else 0) else d + 48)

/-- The loop 297-320: `p` counts the bytes of `buf` still to fill; `ptr` is one past the left-most
non-zero digit. -/
def convert (base : Nat) (lowercase : Bool) : Nat → Nat → List Byte → Nat → List Byte × Nat
  | 0, _, buf, ptr => (buf, ptr)
  | p + 1, val, buf, ptr =>
    convert base lowercase p (val / base) (digitChar lowercase (val % base) :: buf)
      (if val % base ≠ 0 then p + 1 else ptr)

/-- The text of a number, 292-323: `width` digits are produced, leading zeros skipped. -/
def numText (base width : Nat) (lowercase : Bool) (val : Nat) : List Byte :=
  (convert base lowercase width val [] width).1.drop
    ((convert base lowercase width val [] width).2 - 1)

/-- `copyToString`, 175-218, around the copying of `len` bytes by `body`. -/
def field (out : Out) (max : Nat) (q : Spec) (minus hex : Bool) (len : Nat)
    (body : PS → Res PS) (s : PS) : Res PS := do
  let lead := if q.left then 0 else q.columns - len
  let s ← addChars out max (List.replicate lead (if q.padZero then 48#8 else 32#8)) s
  let s ← addChars out max (if minus then [45#8] else []) s
  let s ← addChars out max (if q.alt || hex then [48#8, 120#8] else []) s
  let s ← body s
  addChars out max (List.replicate (if q.left then q.columns - len else 0) 32#8) s

/-- The conversions of numbers, 222-334: base, digits, lower case, signed; `none` = not one. -/
def numConv (c : Byte) : Option (Nat × Nat × Bool × Bool) :=
  if c = 100#8 ∨ c = 105#8 then some (10, 10, false, true)      -- d i
  else if c = 117#8 then some (10, 10, false, false)             -- u
  else if c = 98#8 then some (2, 16, false, false)               -- b
  else if c = 111#8 then some (8, 5, false, false)               -- o
  else if c = 120#8 then some (16, 8, true, false)               -- x
  else if c = 88#8 ∨ c = 112#8 then some (16, 8, false, false)   -- X p
  else none

/-- The argument list: `argn` cells from `ab` on. -/
structure ArgList where
  ab : Nat
  argn : Nat

/-- The value converted, 281-295: the argument or 0, and its sign.  `-(int)val` overflows for
`INT_MIN`. -/
def numArg (E : LEnv) (f : Nat) (A : ArgList) (signed : Bool) (i : Nat) (s : PS) :
    Res (PS × Nat × Bool × Word32) := do
  let (s, i, val) ← if i < A.argn then do
      let (σ, w) ← asInt E f s.mem (.cell (A.ab + i))
      pure ({ s with mem := σ }, i + 1, w)
    else pure (s, i, 0#32)
  if signed && val.msb then
    if val = 0x80000000#32 then .ub else return (s, i, true, 0 - val)
  else return (s, i, false, val)

/-- One conversion character `c` that ends a `%` directive, 134-334: the memory and the argument
index after it, or `none` for the `return 0` of `%s` on something that is not a string. -/
def conversion (E : LEnv) (f : Nat) (out : Out) (max : Nat) (A : ArgList) (c : Byte) (q : Spec)
    (i : Nat) (s : PS) : Res (PS × Option Nat) :=
  if c = 99#8 then -- c
    if i < A.argn then do
      let (σ, w) ← asInt E f s.mem (.cell (A.ab + i))
      let s ← addChar out max (w.setWidth 8) { s with mem := σ }
      return (s, some (i + 1))
    else .ok (s, some i)
  else if c = 37#8 then do -- %
    let s ← addChar out max c s
    return (s, some i)
  else if c = 115#8 then -- s
    if i < A.argn then do
      match ← charsObj f s.mem (.cell (A.ab + i)) with
      | (σ, none) => return ({ s with mem := σ }, none)
      | (σ, some (o, len)) =>
        let s ← field out max { q with padZero := false } false false len
          (copyChars out max o len len) { s with mem := σ }
        return (s, some (i + 1))
    else do
      let s ← field out max { q with padZero := false } false false 0 .ok s
      return (s, some i)
  else
    match numConv c with
    | none => .ok (s, some i)
    | some (base, width, lowercase, signed) => do
      let (s, i, minus, val) ← numArg E f A signed i s
      let text := numText base width lowercase val.toNat
      let s ← field out max q minus (c = 112#8) text.length (addChars out max text) s
      return (s, some i)

/-- The effect of a character inside a directive that does not end it, 111-128; `none` for the
others. -/
def modifier (c : Byte) (q : Spec) : Option Spec :=
  if 48 ≤ c.toNat ∧ c.toNat ≤ 57 then
    let col := (q.columns * 10 + (c.toNat - 48)) % 2 ^ 32
    some { q with columns := col, padZero := q.padZero || col = 0 }
  else if c = 35#8 then some { q with alt := true }
  else if c = 45#8 then some { q with left := true }
  else none

/-- `wr_sprintfEx`, 59-339, from the point where `n` of the `fsz` format bytes are left.  The result
is the number returned. -/
def sprintfLoop (E : LEnv) (f : Nat) (out : Out) (max fo fsz : Nat) (A : ArgList) :
    Nat → Spec → Nat → PS → Res (PS × Nat)
  | 0, _, _, s => .ok (s, s.pos)
  | n + 1, q, i, s => do
    let c ← byteAt s.mem fo (fsz - (n + 1))
    if q.inside = false then
      if c ≠ 37#8 then
        let s ← addChar out max c s
        sprintfLoop E f out max fo fsz A n q i s
      else sprintfLoop E f out max fo fsz A n { q with inside := true } i s
    else
      match modifier c q with
      | some q => sprintfLoop E f out max fo fsz A n q i s
      | none =>
        match ← conversion E f out max A c q i s with
        | (s, none) => return (s, 0)
        | (s, some i) => sprintfLoop E f out max fo fsz A n {} i s

def sprintfEx (E : LEnv) (f : Nat) (out : Out) (max fo fsz : Nat) (A : ArgList) (σ : St)
    (tmp : List Byte) : Res (PS × Nat) :=
  sprintfLoop E f out max fo fsz A fsz {} 0 ⟨σ, tmp, 0⟩

/-- What the library leaves open, plus: the bytes found in fresh memory and the low half of a
pointer to object `o`. -/
structure FEnv extends LEnv where
  junk : Nat → Byte
  ptr : Nat → Word32

def FEnv.fresh (E : FEnv) (n : Nat) : List Byte := (List.range n).map E.junk

/-- `to.va = p` while `to.p2` is still the old one. -/
def withVa (E : FEnv) (v : Val) (o : Nat) : Val :=
  match v with
  | .int _ => .int (E.ptr o)
  | .float _ => .float (E.ptr o)
  | .arr _ => .arr o
  | .tbl _ => .tbl o
  | .strct _ => .strct o
  | _ => .other

def trySize : Nat := 80

/-- `createNewBuffer`, 389-402 and 412-422: a new object of the given size, filled by a second
run. -/
def rerun (E : FEnv) (f : Nat) (fo fsz : Nat) (A : ArgList) (to : Addr) (size : Nat) (σ : St) :
    Res St := do
  let o := σ.next
  let σ : St := { σ.setObj o (.chars (E.fresh size) false) with next := σ.next + 1 }
  let σ := σ.set to (withVa E (σ.cell to) o)
  let (s, _) ← sprintfEx E.toLEnv f (.obj o) size fo fsz A σ []
  return s.mem.set to (.arr o)

/-- `wr_doSprintf`, 347-434; `to` is the location of the first parameter, `fmt` of the second. -/
def doSprintf (E : FEnv) (f : Nat) (σ : St) (to fmt : Addr) (A : ArgList) : Res (St × Nat) := do
  match ← charsObj f σ fmt with
  | (σ, none) => return (σ, 0)
  | (σ, some (fo, fsz)) =>
    match ← charsObj f σ to with
    | (σ, none) =>
      let (s, size) ← sprintfEx E.toLEnv f .tmp trySize fo fsz A σ (E.fresh (trySize + 1))
      if size > trySize then
        let σ ← rerun E f fo fsz A to size s.mem
        return (σ, size)
      else
        let σ ← newStr s.mem to size [(0, s.tmp.take size)]
        return (σ, size)
    | (σ, some (o, osz)) =>
      let (s, size) ← sprintfEx E.toLEnv f (.obj o) osz fo fsz A σ []
      if size > osz ∨ (osz > trySize ∧ size > 0 ∧ osz ≥ (size * 4) % 2 ^ 32) then
        let σ ← rerun E f fo fsz A to size s.mem
        return (σ, size)
      else
        match s.mem.obj o with
        | .chars bs nc =>
          return ((s.mem.setObj o (.chars (bs.take size) nc)).set to (.arr o), size)
        | _ => .ub

/-- `wr_format`, 438-445. -/
def format (E : FEnv) (f : Nat) (σ : St) (b argn : Nat) : Res St := do
  if argn > 0 then
    let (σ, l) ← deref f σ (.cell b)
    let (σ, _) ← doSprintf E f σ (top b argn) l ⟨b + 1, argn - 1⟩
    return σ
  else return σ

/-- `wr_sprintf`, 448-455. -/
def sprintf (E : FEnv) (f : Nat) (σ : St) (b argn : Nat) : Res St := do
  if argn > 1 then
    let (σ, to) ← deref f σ (.cell b)
    let (σ, l) ← deref f σ (.cell (b + 1))
    let (σ, n) ← doSprintf E f σ to l ⟨b + 2, argn - 2⟩
    return σ.set (top b argn) (.int (BitVec.ofNat 32 n))
  else return σ

/-- `printf( "%s", m_Cdata )`, 467 (no file system configured, the default): the bytes up to the
first zero; the buffer has no terminator of its own. -/
def cString : List Byte → Res (List Byte)
  | [] => .ub
  | c :: s => if c = 0#8 then .ok [] else do
    let r ← cString s
    return c :: r

/-- `wr_printf`, 458-476: the memory and what is printed.  `fileIO`: one of the file system macros
is defined. -/
def printf (E : FEnv) (fileIO : Bool) (f : Nat) (σ : St) (b argn : Nat) : Res (St × List Byte) := do
  if argn > 0 then
    let (σ, l) ← deref f σ (.cell b)
    let (σ, n) ← doSprintf E f σ (top b argn) l ⟨b + 1, argn - 1⟩
    let text ← if n = 0 then pure [] else
      match σ.cell (top b argn) with
      | .arr o =>
        match σ.obj o with
        | .chars bs _ => if fileIO then pure bs else cString bs
        | _ => .ub
      | _ => .ub
    return (σ.set (top b argn) (.int (BitVec.ofNat 32 n)), text)
  else return (σ.set (top b argn) (.int 0#32), [])

/-- A call of a library function, vm.cpp 1076-1089 (`CallLibFunction`: the result slot is cleared
first) and 1118-1129 (`CallLibFunctionAndPop`: it is not). -/
def enter (andPop : Bool) (σ : St) (b argn : Nat) : St :=
  if andPop then σ else σ.set (top b argn) (.int 0#32)

end Wrench.StrLib
