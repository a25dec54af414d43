import Verif.Ops.Strings

/-
The string library, discrete_src/lib/std_string.cpp 31-45 and 479-881, over the memory of
`Verif.Ops`.  A library function is called with `stackTop` pointing just past its `argn` arguments
and stores its result there: argument `i` is the cell `b + i` and `stackTop` is the cell `b + argn`.

Not modelled: `wr_tol` (C library `strtol`), `wr_tprint`, a failing `malloc`, the garbage collection
hint.  Forming a pointer past the end of a buffer without accessing it is not reported as `ub`.
`isspace` and the others are those of the "C" locale.
-/
namespace Wrench.StrLib

open Ops

/-- What the language leaves open: `(int)f` (`none` = out of range, undefined), and the value the
`is…` functions of the C library return for "yes". -/
structure LEnv extends Ops.Env where
  toInt : Word32 → Option Word32
  yes : Byte → Word32

def top (b argn : Nat) : Addr := .cell (b + argn)

/-- `WRValue::array( &len, SV_CHAR )`, utils.cpp 767-782. -/
def chars (f : Nat) (σ : St) (a : Addr) : Res (St × Option (List Byte)) := do
  let (σ, l) ← deref f σ a
  match σ.cell l with
  | .arr o =>
    match σ.obj o with
    | .chars bs _ => return (σ, some bs)
    | _ => return (σ, none)
  | _ => return (σ, none)

/-- `(int)f`. -/
def floatToInt (E : LEnv) (w : Word32) : Res Word32 :=
  match E.toInt w with
  | some i => .ok i
  | none => .ub

/-- `WRValue::asInt`, utils.cpp 598-610. -/
def asInt (E : LEnv) (f : Nat) (σ : St) (a : Addr) : Res (St × Word32) :=
  match σ.cell a with
  | .int w => .ok (σ, w)
  | .float w => do
    let i ← floatToInt E w
    return (σ, i)
  | _ => do
    let σ ← single E.toEnv f σ a
    match σ.cell .t1 with
    | .int w => return (σ, w)
    | .float w =>
      let i ← floatToInt E w
      return (σ, i)
    | _ => .ub

/-- `memcpy( …, src + off, n )` as a read of the source buffer. -/
def load (src : List Byte) (off n : Nat) : Res (List Byte) :=
  if n = 0 then .ok [] else if off + n ≤ src.length then .ok ((src.drop off).take n) else .ub

/-- `memcpy( dst + off, …, n )` as a store to the destination buffer, whose bytes are `none` until
written. -/
def store (dst : List (Option Byte)) (off : Nat) (bs : List Byte) : Res (List (Option Byte)) :=
  if bs = [] then .ok dst
  else if off + bs.length ≤ dst.length then
    .ok (dst.take off ++ bs.map some ++ dst.drop (off + bs.length))
  else .ub

/-- The buffer of a new object, once filled.  A byte never written is reported as `ub`. -/
def filled : List (Option Byte) → Res (List Byte)
  | [] => .ok []
  | none :: _ => .ub
  | some b :: d => do
    let r ← filled d
    return b :: r

/-- `stackTop->va = c->getSVA( size, SV_CHAR, false ); stackTop->p2 = INIT_AS_ARRAY;` and the
copies into it.  gc.cpp 155-179, gc_object.cpp 50-65.  `size` is an `unsigned int`. -/
def newStr (σ : St) (t : Addr) (size : Nat) (parts : List (Nat × List Byte)) : Res St := do
  let d ← parts.foldlM (fun d p => store d p.1 p.2) (List.replicate (size % 2 ^ 32) none)
  let bs ← filled d
  return ({ σ.setObj σ.next (.chars bs false) with next := σ.next + 1 }).set t (.arr σ.next)

/-! ### Character classes of the C library -/

/-- The `int` a plain `char` (signed) becomes as an argument of `isspace` and the others; they are
undefined for negative values other than `EOF` (-1), which is in no class. -/
def ctypeArg (b : Byte) : Res (Option Nat) :=
  if b.toNat < 128 then .ok (some b.toNat)
  else if b = 0xFF#8 then .ok none
  else .ub

def spaceCode (n : Nat) : Bool := n = 32 || (9 ≤ n && n ≤ 13)
def digitCode (n : Nat) : Bool := 48 ≤ n && n ≤ 57
def upperCode (n : Nat) : Bool := 65 ≤ n && n ≤ 90
def lowerCode (n : Nat) : Bool := 97 ≤ n && n ≤ 122

/-- `isspace( data[i] )` and the others. -/
def isClass (cls : Nat → Bool) (b : Byte) : Res Bool := do
  match ← ctypeArg b with
  | some n => return cls n
  | none => return false

/-- `tolower( ch )`, `toupper( ch )` on a `char`. -/
def lowerByte (b : Byte) : Res Byte := do
  match ← ctypeArg b with
  | some n => return if upperCode n then BitVec.ofNat 8 (n + 32) else b
  | none => return b

def upperByte (b : Byte) : Res Byte := do
  match ← ctypeArg b with
  | some n => return if lowerCode n then BitVec.ofNat 8 (n - 32) else b
  | none => return b

/-- The argument of `tolower`/`toupper` given as an `int`: must be an `unsigned char` or `EOF`. -/
def caseInt (cls : Nat → Bool) (d : Word32) (w : Word32) : Res Word32 :=
  if w.toNat < 128 then .ok (if cls w.toNat then w + d else w)
  else if w.toNat < 256 ∨ w = 0xFFFFFFFF#32 then .ok w
  else .ub

/-! ### The functions -/

/-- `wr_strlenEx`, 31-39: follows references only. -/
def strlenEx : Nat → St → Addr → Res Word32
  | 0, _, _ => .oof
  | f + 1, σ, a =>
    match σ.cell a with
    | .ref r => strlenEx f σ r
    | .arr o =>
      match σ.obj o with
      | .chars bs _ => .ok (BitVec.ofNat 32 bs.length)
      | _ => .ok 0
    | _ => .ok 0

/-- `wr_strlen`, 42-45.  A store to `i` of a slot keeps its type; the result slot is an integer on
entry (`CallLibFunction`, vm.cpp 1078-1079). -/
def strlen (f : Nat) (σ : St) (b argn : Nat) : Res St := do
  let r ← if argn = 1 then strlenEx f σ (.cell b) else .ok 0
  return σ.set (top b argn) (.int r)

/-- `wr_isspace`, `wr_isalpha`, `wr_isdigit`, `wr_isalnum`, 479-512 (the last is never registered, 898-926). -/
def isFn (cls : Nat → Bool) (E : LEnv) (f : Nat) (σ : St) (b argn : Nat) : Res St := do
  if argn = 1 then
    let (σ, w) ← asInt E f σ (.cell b)
    let c := w.setWidth 8
    let r ← isClass cls c
    return σ.set (top b argn) (.int (if r then E.yes c else 0))
  else return σ

/-- `wr_mid`, 515-554. -/
def mid (E : LEnv) (f : Nat) (σ : St) (b argn : Nat) : Res St := do
  if argn < 2 then return σ
  match ← chars f σ (.cell b) with
  | (σ, none) => return σ
  | (σ, some data) =>
    let len := data.length
    if len = 0 then return σ
    let (σ, start) ← asInt E f σ (.cell (b + 1))
    let start := start.toNat
    let (σ, n) ← if start < len then
        if argn > 2 then do
          let (σ, w) ← asInt E f σ (.cell (b + 2))
          pure (σ, w.toNat)
        else pure (σ, len)
      else pure (σ, 0)
    let n := if start < len ∧ n > len - start then len - start else n
    let bs ← load data start n
    newStr σ (top b argn) n [(0, bs)]

/-- The loop of `wr_strchr`, 576-583, from index `i` on. -/
def findFrom (ch : Byte) : Nat → List Byte → Option Nat
  | _, [] => none
  | i, c :: s => if c = ch then some i else findFrom ch (i + 1) s

/-- `wr_strchr`, 557-584.  The initial store of -1 is made when the function returns: no argument
is in the result slot. -/
def strchr (E : LEnv) (f : Nat) (σ : St) (b argn : Nat) : Res St := do
  let minus1 (σ : St) : St := σ.set (top b argn) (.int 0xFFFFFFFF#32)
  if argn < 2 then return minus1 σ
  match ← chars f σ (.cell b) with
  | (σ, none) => return minus1 σ
  | (σ, some data) =>
    let (σ, w) ← asInt E f σ (.cell (b + 1))
    match findFrom (w.setWidth 8) 0 data with
    | some i => return σ.set (top b argn) (.int (BitVec.ofNat 32 i))
    | none => return minus1 σ

/-- The loops of `wr_tolower`, `wr_toupper`. -/
def mapRes (g : Byte → Res Byte) : List Byte → Res (List Byte)
  | [] => .ok []
  | c :: s => do
    let c ← g c
    let s ← mapRes g s
    return c :: s

/-- `wr_tolower` 587-614 and `wr_toupper` 617-644.  The argument must not be the result slot. -/
def caseFn (g : Byte → Res Byte) (gi : Word32 → Res Word32) (E : LEnv) (f : Nat) (σ : St)
    (b argn : Nat) : Res St := do
  if argn = 1 then
    let (σ, l) ← deref f σ (.cell b)
    match σ.cell l with
    | .arr o =>
      match σ.obj o with
      | .chars bs _ =>
        let cs ← mapRes g bs
        newStr σ (top b argn) bs.length [(0, cs)]
      | _ => return σ
    | .int _ =>
      let (σ, w) ← asInt E f σ (.cell b)
      let r ← gi w
      return σ.set (top b argn) (.int r)
    | _ => return σ
  else return σ

def tolower := caseFn lowerByte (caseInt upperCode 32#32)
def toupper := caseFn upperByte (caseInt lowerCode (-32#32))

/-- `wr_concat`, 661-689: `len1 + len2` is computed in 32 bits. -/
def concat (f : Nat) (σ : St) (b argn : Nat) : Res St := do
  if argn < 2 then return σ
  let (σ, x) ← chars f σ (.cell b)
  let (σ, y) ← chars f σ (.cell (b + 1))
  match x, y with
  | some x, some y => newStr σ (top b argn) (x.length + y.length) [(0, x), (x.length, y)]
  | _, _ => return σ

/-- `wr_left`, 692-723. -/
def left (E : LEnv) (f : Nat) (σ : St) (b argn : Nat) : Res St := do
  if argn < 2 then return σ
  match ← chars f σ (.cell b) with
  | (σ, none) => return σ
  | (σ, some data) =>
    let (σ, w) ← asInt E f σ (.cell (b + 1))
    let n := if w.toNat > data.length then data.length else w.toNat
    let bs ← load data 0 n
    newStr σ (top b argn) n [(0, bs)]

/-- `wr_right`, 726-756. -/
def right (E : LEnv) (f : Nat) (σ : St) (b argn : Nat) : Res St := do
  if argn < 2 then return σ
  match ← chars f σ (.cell b) with
  | (σ, none) => return σ
  | (σ, some data) =>
    let (σ, w) ← asInt E f σ (.cell (b + 1))
    let n := if w.toNat > data.length then data.length else w.toNat
    let bs ← load data (data.length - n) n
    newStr σ (top b argn) n [(0, bs)]

/-- `while( --len >= lo && isspace(data[len]) ); ++len;`, 770-772 and 827-829: the final `len`,
starting with `len = n`. -/
def backOver (data : List Byte) (lo : Nat) : Nat → Res Nat
  | 0 => .ok 0
  | n + 1 =>
    if lo ≤ n then
      match data[n]? with
      | none => .ub
      | some c => do
        if ← isClass spaceCode c then backOver data lo n else return n + 1
    else .ok (n + 1)

/-- `while( marker < len && isspace(data[marker]) ) { ++marker; }`, 798-799 and 824-825: how many
bytes are skipped. -/
def skipOver : List Byte → Res Nat
  | [] => .ok 0
  | c :: s => do
    if ← isClass spaceCode c then
      let n ← skipOver s
      return n + 1
    else return 0

/-- `wr_trimright`, 759-784.  The length is an `int`: from 2^31 on it is negative and the copy
runs away. -/
def trimright (f : Nat) (σ : St) (b argn : Nat) : Res St := do
  if argn < 1 then return σ
  match ← chars f σ (.cell b) with
  | (σ, none) => return σ
  | (σ, some data) =>
    if data.length < 2 ^ 31 then
      let n ← backOver data 0 data.length
      let bs ← load data 0 n
      newStr σ (top b argn) n [(0, bs)]
    else .ub

/-- `wr_trimleft`, 787-811. -/
def trimleft (f : Nat) (σ : St) (b argn : Nat) : Res St := do
  if argn < 1 then return σ
  match ← chars f σ (.cell b) with
  | (σ, none) => return σ
  | (σ, some data) =>
    let marker ← skipOver data
    let bs ← load data marker (data.length - marker)
    newStr σ (top b argn) (data.length - marker) [(0, bs)]

/-- `wr_trim`, 814-841. -/
def trim (f : Nat) (σ : St) (b argn : Nat) : Res St := do
  if argn < 1 then return σ
  match ← chars f σ (.cell b) with
  | (σ, none) => return σ
  | (σ, some data) =>
    if data.length < 2 ^ 31 then
      let marker ← skipOver data
      let n ← backOver data marker data.length
      let bs ← load data marker (n - marker)
      newStr σ (top b argn) (n - marker) [(0, bs)]
    else .ub

/-- `wr_insert`, 844-881. -/
def insert (E : LEnv) (f : Nat) (σ : St) (b argn : Nat) : Res St := do
  if argn < 3 then return σ
  let (σ, x) ← chars f σ (.cell b)
  let (σ, y) ← chars f σ (.cell (b + 1))
  match x, y with
  | some x, some y =>
    let (σ, w) ← asInt E f σ (.cell (b + 2))
    let pos := if w.toNat ≥ x.length then x.length else w.toNat
    let x1 ← load x 0 pos
    let x2 ← load x pos (x.length - pos)
    newStr σ (top b argn) (x.length + y.length) [(0, x1), (pos, y), (pos + y.length, x2)]
  | _, _ => return σ

end Wrench.StrLib
