import Verif.Bytes.Model
import Verif.Vm.Opcode
import Verif.Util.NameTable

/-
The linker, discrete_src/cc/link.cpp 34-416, the loader `wr_createContext`,
discrete_src/utils/utils.cpp 277-383, `wr_getGlobalRef` 1115-1144, and the user of a struct's
member map: `wr_newObjectTable`, discrete_src/vm/vm.cpp 96-159, and
`wr_valueFromConfirmedStruct`, discrete_src/vm/index.cpp 59-64.

Simplifications.  A unit's code is given after goto patching (Verif/Vm/Jump).  The symbol block
is an opaque list of bytes.  Code-level debug symbols (`m_addDebugSymbols`) are off.  Writing or
reading outside a buffer, and a loop that does not end, is the outcome `ub`.
-/
namespace Wrench.Link

open Wrench.Util

inductive Res (α : Type) where
  | ok (a : α)
  | err
  | ub
deriving DecidableEq, Repr

def Res.bind {α β : Type} : Res α → (α → Res β) → Res β
  | .ok a, f => f a
  | .err, _ => .err
  | .ub, _ => .ub

def Res.ofOption {α : Type} : Option α → Res α
  | some a => .ok a
  | none => .ub

/-- `WRNamespaceLookup`, cc.h: a name and the places that refer to it. -/
structure Lookup where
  hash : Word32
  refs : List Nat
deriving DecidableEq, Repr

/-- `WRUnitContext`, cc.h 362-394, with its bytecode.  `locals` are the hashes of `localSpace`,
arguments first. -/
structure CUnit where
  hash : Word32
  arguments : Nat
  locals : List Word32
  exportNamespace : Bool
  code : List Byte
  calls : List Lookup
  news : List Lookup
deriving DecidableEq, Repr

/-- What the linker starts from.  `main` is unit 0; its `localSpace` are the globals. -/
structure Program where
  main : CUnit
  fns : List CUnit
  flags : Byte
  source : List Byte
  symbols : List Byte

/-- Narrowing to `unsigned char`. -/
def byte (n : Nat) : Byte := BitVec.ofNat 8 n

def u32 (w : Word32) : UInt32 := ⟨w⟩

/-! ### Member maps -/

/-- The loop filling `offsets`, link.cpp 43-53. -/
def memberTable : List Word32 → Nat → NameTable.Tbl Byte → Option (NameTable.Tbl Byte)
  | [], _, t => some t
  | h :: hs, i, t => (NameTable.set 0#8 t (u32 h) (byte i)).bind (memberTable hs (i + 1))

/-- One node as written, link.cpp 64-71. -/
def nodeBytes (n : UInt32 × Byte) : List Byte :=
  pack32 n.1.toBitVec ++ [if n.1 ≠ NameTable.NULL then n.2 else 0xFF#8]

/-- `createLocalHashMap`, link.cpp 34-72.  With more than 255 locals the `unsigned char` counter
never reaches the end. -/
def localMap (u : CUnit) : Res (List Byte) :=
  if u.locals = [] then .ok []
  else if 255 < u.locals.length then .ub
  else Res.ofOption <| ((NameTable.new 0#8 0).bind (memberTable (u.locals.drop u.arguments) 0)).map fun t =>
    [byte (u.locals.length - u.arguments), byte u.arguments] ++ pack16 (BitVec.ofNat 16 t.mod)
      ++ t.nodes.flatMap nodeBytes

/-! ### Linking -/

/-- Storing bytes in a buffer. -/
def writeAt (l : List Byte) (p : Nat) (bs : List Byte) : Res (List Byte) :=
  if p + bs.length ≤ l.length then .ok (l.take p ++ bs ++ l.drop (p + bs.length)) else .ub

def readAt (l : List Byte) (p : Nat) : Res Byte := Res.ofOption l[p]?

/-- The function signature, link.cpp 98-138. -/
def record (u : CUnit) : List Byte :=
  [0xAA#8, 0xBB#8, 0xCC#8, 0xDD#8] ++ pack32 u.hash ++
    [byte u.arguments, byte (u.locals.length - u.arguments),
     1#8 + byte u.arguments + byte (u.locals.length - u.arguments)]

def includeGlobals (flags : Byte) : Bool := flags.getLsbD 0
def embedDebug (flags : Byte) : Bool := flags.getLsbD 1
def embedSource (flags : Byte) : Bool := flags.getLsbD 2

/-- Everything before the code, link.cpp 83-198. -/
def header (P : Program) : Res (List Byte) :=
  if 255 < P.main.locals.length then .err
  else if 255 < P.fns.length then .err
  else if P.fns.any (fun u => decide (u.locals.length < u.arguments ∨ 255 < u.locals.length - u.arguments))
    then .err
  else if (embedDebug P.flags || embedSource P.flags) && decide (0xFFFF < P.symbols.length) then .err
  else .ok <|
    [byte P.main.locals.length, byte P.fns.length, P.flags] ++ P.fns.flatMap record ++
    (if includeGlobals P.flags then P.main.locals.flatMap pack32 else []) ++
    (if embedDebug P.flags || embedSource P.flags then
      pack32 (wrHash P.source) ++ pack16 (BitVec.ofNat 16 P.symbols.length) ++ P.symbols else []) ++
    (if embedSource P.flags then pack32 (BitVec.ofNat 32 P.source.length) ++ P.source else [])

/-- The first function with a given name. -/
def firstFn (fns : List CUnit) (h : Word32) : Option Nat := fns.findIdx? (fun u => decide (u.hash = h))

/-- Marking the units that a `new` refers to, link.cpp 201-219. -/
def exported (P : Program) (k : Nat) (u : CUnit) : Bool :=
  u.exportNamespace ||
    (P.main :: P.fns).any fun v => v.news.any fun N => !N.refs.isEmpty && firstFn P.fns N.hash == some k

/-- All pairs of a name and a place, in the order of the nested loops over them. -/
def sites (ls : List Lookup) : List (Word32 × Nat) := ls.flatMap fun N => N.refs.map fun r => (N.hash, r)

def yieldHash : Word32 := hashStr [121#8, 105#8, 101#8, 108#8, 100#8]

/-- One reference of the function table, link.cpp 330-396; `base` has been stored in 16 bits. -/
def fixCall (fns : List CUnit) (base : Nat) (code : List Byte) (s : Word32 × Nat) : Res (List Byte) :=
  let index := base + s.2
  match firstFn fns s.1 with
  | some k =>
    (writeAt code index [Vm.Op.CallFunctionByIndex.code]).bind fun code =>
    (writeAt code (index + 2) [byte k]).bind fun code =>
    (readAt code (index + 5)).bind fun b5 =>
    (if b5 = Vm.Op.PopOne.code then .ok true
      else (readAt code (index + 6)).bind fun b6 => .ok (decide (b6 = Vm.Op.NewObjectTable.code))).bind
      fun skip =>
    if skip then writeAt code (index + 3) [3#8]
    else (writeAt code (index + 3) [2#8]).bind fun code =>
      writeAt code (index + 5) [Vm.Op.PushIndexFunctionReturnValue.code]
  | none =>
    if s.1 = yieldHash then writeAt code index [Vm.Op.Yield.code]
    else (readAt code (index + 5)).bind fun b5 =>
      (writeAt code index [if b5 = Vm.Op.PopOne.code then Vm.Op.CallFunctionByHashAndPop.code
        else Vm.Op.CallFunctionByHash.code]).bind fun code => writeAt code (index + 2) (pack32 s.1)

def fixCalls (fns : List CUnit) (base : Nat) : List (Word32 × Nat) → List Byte → Res (List Byte)
  | [], code => .ok code
  | s :: ss, code => (fixCall fns base code s).bind (fixCalls fns base ss)

/-- The 'new' references of a unit: place and function, link.cpp 304-326. -/
def newRefs (fns : List CUnit) (base : Nat) (u : CUnit) : List (Nat × Nat) :=
  (sites u.news).filterMap fun s => (firstFn fns s.1).map fun k => (base + s.2, k)

/-- Narrowing to `uint16_t`. -/
def base16 (code : List Byte) : Nat := code.length % 65536

/-- The state of the loop over units: the image so far, the offset of each function's member map,
and the `namespaceLookups` list (most recent first). -/
structure St where
  code : List Byte
  maps : List Nat
  pending : List (Nat × Nat)

/-- The part of the loop common to all units, link.cpp 256-398. -/
def addUnit (fns : List CUnit) (u : CUnit) (st : St) : Res St :=
  let base := base16 st.code
  (fixCalls fns base (sites u.calls) (st.code ++ u.code)).bind fun code =>
  .ok { st with code := code, pending := (newRefs fns base u).reverse ++ st.pending }

/-- One function, link.cpp 222-252 and the common part. -/
def addFn (P : Program) (k : Nat) (u : CUnit) (st : St) : Res St :=
  (if exported P k u then
    (localMap u).bind fun map =>
      let base := if map = [] then 0 else base16 st.code
      (writeAt st.code (3 + 11 * k) (pack16 (BitVec.ofNat 16 base))).bind fun code =>
      .ok { st with code := code ++ map, maps := st.maps ++ [base] }
  else
    (writeAt st.code (3 + 11 * k) (pack16 0#16)).bind fun code =>
    .ok { st with code := code, maps := st.maps ++ [0] }).bind fun st =>
  (writeAt st.code (3 + 11 * k + 2) (pack16 (BitVec.ofNat 16 (base16 st.code)))).bind fun code =>
  addUnit P.fns u { st with code := code }

def addFns (P : Program) : Nat → List CUnit → St → Res St
  | _, [], st => .ok st
  | k, u :: us, st => (addFn P k u st).bind (addFns P (k + 1) us)

/-- Filling in the `new` operands, link.cpp 401-408. -/
def plugNews (maps : List Nat) : List (Nat × Nat) → List Byte → Res (List Byte)
  | [], code => .ok code
  | (loc, k) :: ps, code =>
    (writeAt code loc (pack16 (BitVec.ofNat 16 ((maps[k]?).getD 0)))).bind (plugNews maps ps)

/-- `link`, link.cpp 75-416. -/
def link (P : Program) : Res (List Byte) :=
  (header P).bind fun h =>
  (addUnit P.fns P.main { code := h, maps := [], pending := [] }).bind fun st =>
  (addFns P 0 P.fns st).bind fun st =>
  (plugNews st.maps st.pending st.code).bind fun code =>
  .ok (appendTrailer code)

/-! ### Loading -/

/-- `WRFunction`, vm.h 31-41. -/
structure FnRec where
  namespaceOffset : Word16
  functionOffset : Word16
  hash : Word32
  arguments : Byte
  frameSpaceNeeded : Byte
  frameBaseAdjustment : Byte
deriving DecidableEq, Repr

/-- What the loader puts in the context (offsets into the image). -/
structure Ctx where
  globals : Nat
  functions : List FnRec
  codeStart : Nat
deriving DecidableEq, Repr

/-- One round of the loop, utils.cpp 363-380. -/
def readRec (img : List Byte) (pos : Nat) : Option FnRec := do
  let ns ← read16 img pos
  let fo ← read16 img (pos + 2)
  let h ← read32 img (pos + 4)
  let a ← read8 img (pos + 8)
  let f ← read8 img (pos + 9)
  let b ← read8 img (pos + 10)
  return ⟨ns, fo, h, a, f, b⟩

def readRecs (img : List Byte) : Nat → Nat → Option (List FnRec)
  | 0, _ => some []
  | n + 1, pos => do
    let r ← readRec img pos
    let rs ← readRecs img n (pos + 11)
    return r :: rs

/-- Past the globals, utils.cpp 342-347. -/
def skipGlobals (flags : Byte) (g c : Nat) : Nat := if includeGlobals flags then c + g * 4 else c

/-- Past the symbols, utils.cpp 349-353. -/
def skipSymbols (img : List Byte) (flags : Byte) (c : Nat) : Res Nat :=
  if embedDebug flags || embedSource flags then
    (Res.ofOption (read16 img (c + 4))).bind fun s => .ok (c + 6 + s.toNat)
  else .ok c

/-- Past the source, utils.cpp 355-358. -/
def skipSource (img : List Byte) (flags : Byte) (c : Nat) : Res Nat :=
  if embedSource flags then
    (Res.ofOption (read32 img c)).bind fun s => .ok (c + 4 + s.toNat)
  else .ok c

/-- `wr_createContext`, utils.cpp 277-383 (allocation aside). -/
def load (img : List Byte) : Res Ctx :=
  if img.length < 8 then .err
  else (Res.ofOption (read32 img (img.length - 4))).bind fun h =>
  if h ≠ hashRead8 img (BitVec.ofNat 32 (img.length - 4)) + versionMajor then .err
  else (Res.ofOption (read8 img 0)).bind fun g =>
  (Res.ofOption (read8 img 1)).bind fun n =>
  if img.length < 3 + n.toNat * 11 + 4 then .err
  else (Res.ofOption (read8 img 2)).bind fun flags =>
  (skipSymbols img flags (skipGlobals flags g.toNat (3 + n.toNat * 11))).bind fun c =>
  (skipSource img flags c).bind fun c =>
  (Res.ofOption (readRecs img n.toNat 3)).bind fun fs =>
  .ok ⟨g.toNat, fs, c⟩

/-- The function the host gets for a name: `wr_getFunction`, utils.cpp 1108-1112, finds the entry
that the loop of the loader stored last, utils.cpp 379 (the registry is a map, property C11). -/
def hostFn (c : Ctx) (h : Word32) : Option Nat :=
  (c.functions.zipIdx.reverse.find? fun p => decide (p.1.hash = h)).map (·.2)

/-- The search of `wr_getGlobalRef`, utils.cpp 1132-1141. -/
def findGlobal (img : List Byte) (pos : Nat) (h : Word32) : Nat → Nat → Res (Option Nat)
  | 0, _ => .ok none
  | n + 1, i =>
    (Res.ofOption (read32 img (pos + 4 * i))).bind fun w =>
      if w = h then .ok (some i) else findGlobal img pos h n (i + 1)

/-- The name looked up for a label (without its terminator), utils.cpp 1117-1130: `::` is put in
front unless it is there, and then at most 61 characters are used. -/
def globalName (label : List Byte) : List Byte :=
  if label.take 2 = [58#8, 58#8] then label else [58#8, 58#8] ++ label.take 61

/-- `wr_getGlobalRef`, utils.cpp 1115-1144: the index of the global. -/
def getGlobalRef (img : List Byte) (c : Ctx) (label : List Byte) : Res (Option Nat) :=
  (Res.ofOption (read8 img 2)).bind fun flags =>
  if includeGlobals flags then
    findGlobal img (3 + c.functions.length * 11) (hashStr (globalName label)) c.globals 0
  else .ok none

/-! ### Struct instances -/

/-- A struct: `m_ROMHashTable` (offset into the image), `m_mod` and the members. -/
structure Obj (α : Type) where
  rom : Nat
  mod : Nat
  data : List α
deriving DecidableEq, Repr

/-- `wr_newObjectTable` with the place of the member map, vm.cpp 113-152.  `slot i` is the stack slot
`stackTop + i`, where the arguments and locals of the constructor still are.  The first member is
saved before the slot is overwritten.  With no members the first one is stored outside the
object. -/
def objectAt {α : Type} (img : List Byte) (table : Nat) (slot : Nat → α) : Res (Obj α) :=
  (Res.ofOption (read8 img table)).bind fun count =>
  (Res.ofOption (read8 img (table + 1))).bind fun args =>
  (Res.ofOption (read16 img (table + 2))).bind fun mod =>
  if count = 0#8 then .ub
  else .ok ⟨table + 4, mod.toNat, (List.range count.toNat).map fun i => slot (args.toNat + i)⟩

/-- `wr_newObjectTable` with the offset in the instruction, vm.cpp 96-159: `off` is read as a
signed 16-bit number and added as an unsigned 32-bit one.  `ok none` is the integer 0. -/
def newObject {α : Type} (img : List Byte) (off : Word16) (slot : Nat → α) : Res (Option (Obj α)) :=
  let table := (off.signExtend 32).toNat
  if table = 0 then .ok none
  else (objectAt img table slot).bind fun o => .ok (some o)

/-- `wr_valueFromConfirmedStruct`, index.cpp 59-64: `ok none` is the null pointer; a slot past the
members is outside the object. -/
def member {α : Type} (img : List Byte) (o : Obj α) (h : Word32) : Res (Option α) :=
  if o.mod = 0 then .ub
  else
    let p := o.rom + (h.toNat % o.mod) * 5
    (Res.ofOption (read32 img p)).bind fun w =>
    if w = h then
      (Res.ofOption (read8 img (p + 4))).bind fun i =>
      (Res.ofOption o.data[i.toNat]?).bind fun v => .ok (some v)
    else .ok none

end Wrench.Link
