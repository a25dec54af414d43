/-
The debugger's side that runs with the program: which lines it stops on and the
call stack it keeps, discrete_src/debug/server_interface_private.cpp 143-285 and
464-477, and the code words the compiler puts into the program for it,
discrete_src/cc/cc.cpp 279-299.

The lists are plain sequences here: that the linked lists behave as such is C86.
The program is the sequence of code words it runs over; stopping and going on does
not change it (discrete_src/vm/vm.cpp 847-861: the virtual machine yields behind the
code word and is continued there).
-/
import Verif.Debug.Packet

namespace Wrench.Server

open Wrench.Packet (Entry)

/-- `WrenchDebugInfoType`, discrete_src/debug/debug.h 32-43. -/
def typeMask : Word16 := 0xC000#16
def payloadMask : Word16 := 0x3FFF#16
def globalStop : Word16 := 0x0F00#16
def externalFunction : Word16 := 0x0E00#16
def functionCall : Word16 := 0x0000#16
def lineNumber : Word16 := 0x4000#16
def return_ : Word16 := 0x8000#16

/-- The code word `pushDebug` makes, discrete_src/cc/cc.cpp 296; `param` is an `int`. -/
def codewordOf (code : Word16) (param : Word32) : Word16 :=
  code ||| (param.setWidth 16 &&& payloadMask)

/-- What is in a program at the place of a debug instruction: the code word, and how much of
the stack is in use there.  (Only the 16 bits kept of it.) -/
structure Ev where
  cw : Word16
  off : Word16
  deriving DecidableEq, Repr

/-- The fields of `WRDebugServerInterfacePrivate` that matter here, discrete_src/debug/debug.h
82-127, after `loadBytes` (server_interface_private.cpp 75-140). -/
structure Sv where
  lineSteps : Int
  stepOverDepth : Int
  lineBreaks : List Int
  stopOnLine : Int
  halted : Bool
  callStack : List Entry
  deriving DecidableEq

/-- The fields as `loadBytes` leaves them, discrete_src/debug/server_interface_private.cpp 98-107,
and the entry for the global unit that the first `run` puts on the call stack, 271-274. -/
def loaded (globals : Word16) : Sv :=
  { lineSteps := 0, stepOverDepth := -1, lineBreaks := [], stopOnLine := 0, halted := false,
    callStack := [{ onLine := 0, stackOffset := 0, fromUnit := 0, thisUnit := 0,
                    locals := globals, arguments := 0 }] }

/-- `m_callStack->tail()->onLine = line`; `none` for an empty list. -/
def setLine (stack : List Entry) (line : Word32) : Option (List Entry) :=
  match stack.reverse with
  | [] => none
  | x :: xs => some (({ x with onLine := line } :: xs).reverse)

/-- `codewordEncountered`, discrete_src/debug/server_interface_private.cpp 143-217.  Whether to
stop, and the new state.  `funcs` are the arguments and the frame size of the local functions;
`none` for the access of a function or an entry that is not there. -/
def encountered (funcs : List (Byte × Word16)) (s : Sv) (ev : Ev) : Option (Bool × Sv) :=
  let type := ev.cw &&& typeMask
  let pay := ev.cw &&& payloadMask
  if type = lineNumber then
    let line := pay.setWidth 32
    match setLine s.callStack line with
    | none => none
    | some cs =>
      let s := { s with callStack := cs }
      if s.lineBreaks.any (fun L => L == line.toInt) then some (true, s)
      else if s.stepOverDepth ≤ 0 ∧ s.lineSteps ≠ 0 ∧ s.lineSteps - 1 = 0 then
        some (true, { s with lineSteps := 0, stopOnLine := 0, stepOverDepth := -1 })
      else
        let s := if s.stepOverDepth ≤ 0 ∧ s.lineSteps ≠ 0
          then { s with lineSteps := s.lineSteps - 1 } else s
        if line.toInt = s.stopOnLine then some (true, { s with stopOnLine := 0 })
        else some (false, s)
  else if type = functionCall then
    if pay = globalStop then some (false, { s with halted := true })
    else if pay = externalFunction then some (false, s)
    else
      let s := if s.stepOverDepth ≥ 0 then { s with stepOverDepth := s.stepOverDepth + 1 } else s
      match s.callStack.getLast?, funcs[(pay.setWidth 8).toNat - 1]? with
      | some fr, some f =>
        some (false, { s with callStack := s.callStack ++
          [{ onLine := -1, fromUnit := fr.thisUnit, thisUnit := pay.setWidth 8,
             stackOffset := ev.off, arguments := f.1, locals := f.2 }] })
      | _, _ => none
  else if type = return_ then
    let s := { s with callStack := s.callStack.drop 1 }
    some (false, if s.stepOverDepth ≥ 0 then { s with stepOverDepth := s.stepOverDepth - 1 } else s)
  else some (false, s)

/-- `clearBreakpoint`, discrete_src/debug/server_interface_private.cpp 221-231. -/
def clearBreakpoint (bs : List Int) (bp : Int) : List Int := bs.erase bp

/-- The requests, discrete_src/debug/server_interface_private.cpp 240-285 and 464-477. -/
inductive Req where
  | stepOver
  | stepInto
  | run (toLine : Int)
  | setBreakpoint (line : Int)
  | clearBreakpoint (line : Int)
  deriving DecidableEq, Repr

/-- The program running on until the debugger stops it or it has run over all its code words:
the words it has not come to yet, and whether it was stopped. -/
def go (funcs : List (Byte × Word16)) : Sv → List Ev → Option (Sv × List Ev × Bool)
  | s, [] => some (s, [], false)
  | s, ev :: evs =>
    match encountered funcs s ev with
    | none => none
    | some (true, s) => some (s, evs, true)
    | some (false, s) => go funcs s evs

/-- `processPacket` for these requests: the state, what is left of the program, and whether the
program was stopped (`false` also when it was not run). -/
def request (funcs : List (Byte × Word16)) (s : Sv) (evs : List Ev) : Req →
    Option (Sv × List Ev × Bool)
  | .setBreakpoint line =>
    some ({ s with lineBreaks := clearBreakpoint s.lineBreaks line ++ [line] }, evs, false)
  | .clearBreakpoint line =>
    some ({ s with lineBreaks := clearBreakpoint s.lineBreaks line }, evs, false)
  | .run toLine =>
    if s.halted then some (s, evs, false) else go funcs { s with stopOnLine := toLine } evs
  | .stepOver =>
    let s := { s with lineSteps := 1, stepOverDepth := 0 }
    if s.halted then some (s, evs, false) else go funcs { s with stopOnLine := 0 } evs
  | .stepInto =>
    let s := { s with lineSteps := 1, stepOverDepth := -1 }
    if s.halted then some (s, evs, false) else go funcs { s with stopOnLine := 0 } evs

/-- Requests one after the other. -/
def requests (funcs : List (Byte × Word16)) : Sv → List Ev → List Req →
    Option (Sv × List Ev × Bool)
  | s, evs, [] => some (s, evs, false)
  | s, evs, [r] => request funcs s evs r
  | s, evs, r :: rs =>
    match request funcs s evs r with
    | none => none
    | some (s, evs, _) => requests funcs s evs rs

end Wrench.Server
