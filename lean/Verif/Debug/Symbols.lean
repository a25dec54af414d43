/-
What the debugger is told about a program: the names of its functions and variables, its
source and the hash of the source.  The writer is the linker, discrete_src/cc/link.cpp 144-187;
the server finds the blocks in the image, discrete_src/debug/server_interface_private.cpp
107-137, and sends them, 310-376; the client takes them apart,
discrete_src/debug/client_interface_private.cpp 97-142 and client_debug.cpp 87-125.

The replies arrive as sent (C85).  Reading outside of the image or of a payload is the
outcome `none`.
-/
import Verif.Link.Props

namespace Wrench.Symbols

open Wrench.Link (byte Res includeGlobals embedDebug embedSource)

/-- What the linker knows of a unit: `name`, `arguments` and the labels of its `localSpace`. -/
structure SymUnit where
  name : List Byte
  arguments : Nat
  labels : List (List Byte)
  deriving DecidableEq, Repr

/-- One unit in the block, discrete_src/cc/link.cpp 158-172; `data[0]` is the terminator. -/
def unitBytes (u : SymUnit) : List Byte :=
  [byte u.labels.length, byte u.arguments] ++ (u.name ++ [0#8]) ++
    u.labels.flatMap (fun l => l ++ [0#8])

/-- `symbols`, discrete_src/cc/link.cpp 152-173. -/
def symbolBlock (us : List SymUnit) : List Byte :=
  pack16 (BitVec.ofNat 16 us.length) ++ us.flatMap unitBytes

/-- `m_embeddedSourceHash`, `m_symbolBlock`, `m_symbolBlockLen`, `m_embeddedSource`,
`m_embeddedSourceLen`, discrete_src/debug/debug.h 116-122; the pointers are offsets into the
image. -/
structure Blocks where
  hash : Word32
  symPos : Nat
  symLen : Nat
  srcPos : Nat
  srcLen : Nat
  deriving DecidableEq, Repr

/-- The fields of a server that has not loaded anything (it is zeroed on construction,
discrete_src/debug/server_interface_private.cpp 32). -/
def noBlocks : Blocks := ⟨0, 0, 0, 0, 0⟩

/-- The symbols, discrete_src/debug/server_interface_private.cpp 121-131; also where to go on. -/
def findSymbols (old : Blocks) (img : List Byte) (flags : Byte) (c : Nat) : Option (Blocks × Nat) :=
  if embedDebug flags || embedSource flags then do
    let h ← read32 img c
    let s ← read16 img (c + 4)
    return ({ old with hash := h, symLen := s.toNat, symPos := c + 6 }, c + 6 + s.toNat)
  else some (old, c)

/-- The source, discrete_src/debug/server_interface_private.cpp 133-137. -/
def findSource (old : Blocks) (img : List Byte) (flags : Byte) (c : Nat) : Option Blocks :=
  if embedSource flags then do
    let s ← read32 img c
    return { old with srcLen := s.toNat, srcPos := c + 4 }
  else some old

/-- `loadBytes` from where it has the context, discrete_src/debug/server_interface_private.cpp
107-137.  What is not in the image keeps the value it had. -/
def findBlocks (old : Blocks) (img : List Byte) (ctx : Link.Ctx) : Option Blocks := do
  let flags ← read8 img 2
  let c := 3 + ctx.functions.length * 11
  let c := if includeGlobals flags then c + ctx.globals * 4 else c
  let (b, c) ← findSymbols old img flags c
  findSource b img flags c

/-- The bytes a reply is filled with one after the other. -/
def copyOut (img : List Byte) (pos len : Nat) : Option (List Byte) :=
  if pos + len ≤ img.length then some ((img.drop pos).take len) else none

/-- A reply: the payload, or that there is none. -/
inductive Reply where
  | unavailable
  | data (payload : List Byte)
  deriving DecidableEq, Repr

/-- `WRD_RequestSymbolBlock`, discrete_src/debug/server_interface_private.cpp 337-359. -/
def symbolReply (b : Blocks) (img : List Byte) : Option Reply :=
  if b.symLen = 0 then some .unavailable else (copyOut img b.symPos b.symLen).map .data

/-- `WRD_RequestSourceBlock`, discrete_src/debug/server_interface_private.cpp 310-335. -/
def sourceReply (b : Blocks) (img : List Byte) : Option Reply :=
  if b.srcLen = 0 then some .unavailable
  else (copyOut img b.srcPos b.srcLen).map (fun s => .data (s ++ [0#8]))

/-- `isspace` in the C locale. -/
def space (b : Byte) : Bool := decide (9 ≤ b.toNat ∧ b.toNat ≤ 13 ∨ b.toNat = 32)

/-- `sscanf( text, "%63s", to )`: past white space, up to 63 characters before the next white
space or the terminator.  Nothing is stored when there is no character at all; the name is then
whatever was in the memory before (`none`). -/
def scanName (b : List Byte) : Option (List Byte) :=
  let w := ((b.dropWhile space).takeWhile (fun c => !space c && c != 0#8)).take 63
  if w = [] then none else some w

/-- `while( block[pos++] )`: what is behind the terminator, discrete_src/debug/
client_interface_private.cpp 128 and 135. -/
def pastNull : List Byte → Option (List Byte)
  | [] => none
  | c :: b => if c = 0#8 then some b else pastNull b

/-- `WrenchFunction`, discrete_src/wrench.h 1220-1225. -/
structure Func where
  name : Option (List Byte)
  arguments : Nat
  vars : List (Option (List Byte))
  deriving DecidableEq, Repr

/-- The loop over the variables, discrete_src/debug/client_interface_private.cpp 131-136. -/
def readLabels : Nat → List Byte → Option (List (Option (List Byte)) × List Byte)
  | 0, b => some ([], b)
  | n + 1, b => do
    let rest ← pastNull b
    let (ls, rest) ← readLabels n rest
    return (scanName b :: ls, rest)

/-- One function, discrete_src/debug/client_interface_private.cpp 118-136. -/
def readFunc (b : List Byte) : Option (Func × List Byte) := do
  let count ← b[0]?
  let args ← b[1]?
  let rest ← pastNull (b.drop 2)
  let (ls, rest) ← readLabels count.toNat rest
  return ({ name := scanName (b.drop 2), arguments := args.toNat, vars := ls }, rest)

/-- The loop over the functions, discrete_src/debug/client_interface_private.cpp 116-137. -/
def readFuncs : Nat → List Byte → Option (List Func)
  | 0, _ => some []
  | n + 1, b => do
    let (f, rest) ← readFunc b
    let fs ← readFuncs n rest
    return f :: fs

/-- `populateSymbols` behind the reply, discrete_src/debug/client_interface_private.cpp
111-137. -/
def readSymbols (block : List Byte) : Option (List Func) := do
  let n ← read16 block 0
  readFuncs n.toNat (block.drop 2)

/-- `getValueLabel`, discrete_src/debug/client_debug.cpp 168-187: the unit is taken by its
number among the functions. -/
def valueLabel (fs : List Func) (index depth : Nat) : Option (List Byte) :=
  ((fs[depth]?).bind (fun f => f.vars[index]?)).bind id

/-- `getSourceCode`, discrete_src/debug/client_debug.cpp 87-112: the text and the length
handed out. -/
def sourceCode (payload : List Byte) : List Byte × Nat := (payload ++ [0#8], payload.length)

end Wrench.Symbols
