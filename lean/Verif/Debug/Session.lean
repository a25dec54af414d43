/-
A debugging session as the user's program sees it: the functions of
`WRDebugClientInterface`, each of which sends a request and takes a reply,
discrete_src/debug/client_debug.cpp 59-287, client_interface_private.cpp 76-113; and the
server's `tick`, discrete_src/debug/server_interface_private.cpp 56-72.

Packets arrive as sent and in order (C85).  What the server answers is a parameter.
`getValueLabel` and `getFunctionLabel` only look at what `getFunctions` has fetched.
-/
namespace Wrench.Session

/-- The requests, `WrenchDebugComm`, discrete_src/debug/packet.h 30-52. -/
inductive Req where
  | load (code : List Nat)
  | run (toLine : Int)
  | stepOver
  | stepInto
  | source
  | symbols
  | hash
  | value (index depth : Int)
  | callstack
  | stackDump
  | setBreakpoint (line : Int)
  | clearBreakpoint (line : Int)
  deriving DecidableEq, Repr

/-- The types of replies, discrete_src/debug/packet.h 52-61. -/
inductive Kind where
  | ok
  | err
  | unavailable
  | source
  | symbols
  | hash
  | value
  | callstack
  | stackDump
  deriving DecidableEq, Repr

/-- A reply: its type and what it carries. -/
structure Rep (δ : Type) where
  kind : Kind
  data : δ
  deriving DecidableEq, Repr

/-- What comes from the server: replies, and text the program printed while it was run
(`WRD_DebugOut`, discrete_src/lib/debug_lib.cpp 52). -/
inductive Pkt (δ : Type) where
  | text (t : List Nat)
  | rep (r : Rep δ)
  deriving DecidableEq, Repr

/-- `processPacket`: the state of the program being debugged, the text it printed meanwhile and
the reply.  There is always one, discrete_src/debug/server_interface_private.cpp 234-491. -/
abbrev Server (σ δ : Type) := σ → Req → σ × List (List Nat) × Rep δ

/-- The two ends and what is under way between them.  Of the client, what it has fetched:
`m_sourceBlock`, `m_functions` (with `m_symbolsLoaded`) and `m_callStack` (unless
`m_callstackDirty`), and the text given to the `outputDebug` callback. -/
structure St (σ δ : Type) where
  srv : σ
  inbox : List Req
  wire : List (Pkt δ)
  source : Option δ
  syms : Option δ
  stack : Option δ
  shown : List (List Nat)

/-- At the start. -/
def start {σ δ : Type} (s : σ) : St σ δ :=
  { srv := s, inbox := [], wire := [], source := none, syms := none, stack := none, shown := [] }

/-- The requests answered one after the other. -/
def serveAll {σ δ : Type} (serve : Server σ δ) : σ → List Req → List (Pkt δ) → σ × List (Pkt δ)
  | s, [], w => (s, w)
  | s, r :: rs, w =>
    serveAll serve (serve s r).1 rs (w ++ (serve s r).2.1.map .text ++ [.rep (serve s r).2.2])

/-- `WRDebugServerInterface::tick`, discrete_src/debug/server_interface_private.cpp 56-72. -/
def tick {σ δ : Type} (serve : Server σ δ) (st : St σ δ) : St σ δ :=
  { st with srv := (serveAll serve st.srv st.inbox st.wire).1, inbox := [],
            wire := (serveAll serve st.srv st.inbox st.wire).2 }

/-- `m_comm->send`. -/
def send {σ δ : Type} (st : St σ δ) (r : Req) : St σ δ := { st with inbox := st.inbox ++ [r] }

/-- The loop of `getPacket`, discrete_src/debug/client_interface_private.cpp 78-93. -/
def takeReply {δ : Type} : List (Pkt δ) → List (List Nat) → Option (Rep δ) × List (Pkt δ) × List (List Nat)
  | [], ts => (none, [], ts)
  | .text t :: w, ts => takeReply w (ts ++ [t])
  | .rep r :: w, ts => (some r, w, ts)

/-- `getPacket`, discrete_src/debug/client_interface_private.cpp 76-94. -/
def getPacket {σ δ : Type} (st : St σ δ) : St σ δ × Option (Rep δ) :=
  ({ st with wire := (takeReply st.wire st.shown).2.1, shown := (takeReply st.wire st.shown).2.2 },
    (takeReply st.wire st.shown).1)

/-- `m_comm->receive`, which takes text for a reply. -/
def receive {σ δ : Type} (st : St σ δ) : St σ δ × Option (Pkt δ) :=
  match st.wire with
  | [] => (st, none)
  | p :: w => ({ st with wire := w }, some p)

/-- A request and the wait for a reply.  `prompt`: the server has been at work before the client
looks for the reply (the client does not wait, the timeout is 0). -/
def ask {σ δ : Type} (serve : Server σ δ) (prompt : Bool) (st : St σ δ) (r : Req) :
    St σ δ × Option (Rep δ) :=
  getPacket (if prompt then tick serve (send st r) else send st r)

/-- The data of a reply of the right type. -/
def ofKind {δ : Type} (k : Kind) (r : Option (Rep δ)) : Option δ :=
  match r with
  | none => none
  | some r => if r.kind = k then some r.data else none

/-- `populateSymbols`, discrete_src/debug/client_interface_private.cpp 97-113. -/
def populateSymbols {σ δ : Type} (serve : Server σ δ) (prompt : Bool) (st : St σ δ) : St σ δ :=
  if st.syms.isSome then st
  else
    let r := receive (if prompt then tick serve (send st .symbols) else send st .symbols)
    match r.2 with
    | some (.rep p) => if p.kind = .symbols then { r.1 with syms := some p.data } else r.1
    | _ => r.1

/-- The functions of `WRDebugClientInterface`. -/
inductive Op where
  | load (code : List Nat)
  | run (toLine : Int)
  | stepOver
  | stepInto
  | getSourceCode
  | getSourceCodeHash
  | getFunctions
  | getValue (index depth : Int)
  | getCallstack
  | getStackDump
  | setBreakpoint (line : Int)
  | clearBreakpoint (line : Int)
  deriving DecidableEq, Repr

/-- A function called by the user, discrete_src/debug/client_debug.cpp: what it returns. -/
def exec {σ δ : Type} (serve : Server σ δ) (prompt : Bool) (st : St σ δ) : Op → St σ δ × Option δ
  | .load code =>   -- 59-72
    (populateSymbols serve prompt
      { send st (.load code) with source := none, syms := none, stack := none }, none)
  | .run l => ((ask serve prompt { st with stack := none } (.run l)).1, none)   -- 75-85
  | .stepOver => ((ask serve prompt { st with stack := none } .stepOver).1, none)   -- 249-255
  | .stepInto => ((ask serve prompt { st with stack := none } .stepInto).1, none)   -- 240-246
  | .getSourceCode =>   -- 88-112
    if st.source.isSome then (st, st.source)
    else
      let r := ask serve prompt st .source
      ({ r.1 with source := ofKind .source r.2 }, ofKind .source r.2)
  | .getSourceCodeHash =>   -- 115-126
    ((ask serve prompt st .hash).1, ofKind .hash (ask serve prompt st .hash).2)
  | .getFunctions =>   -- 129-133
    (populateSymbols serve prompt st, (populateSymbols serve prompt st).syms)
  | .getValue i d =>   -- 144-165
    ((ask serve prompt st (.value i d)).1, ofKind .value (ask serve prompt st (.value i d)).2)
  | .getCallstack =>   -- 205-237
    if st.stack.isSome then (st, st.stack)
    else
      let r := ask serve prompt st .callstack
      ({ r.1 with stack := ofKind .callstack r.2 }, ofKind .callstack r.2)
  | .getStackDump =>   -- 189-202
    ((ask serve prompt st .stackDump).1, ofKind .stackDump (ask serve prompt st .stackDump).2)
  | .setBreakpoint l => ((ask serve prompt st (.setBreakpoint l)).1, none)   -- 270-276
  | .clearBreakpoint l => ((ask serve prompt st (.clearBreakpoint l)).1, none)   -- 279-285

/-- A session: what each call returned. -/
def session {σ δ : Type} (serve : Server σ δ) : List Bool → St σ δ → List Op → St σ δ × List (Option δ)
  | _, st, [] => (st, [])
  | ps, st, o :: os =>
    let r := exec serve (ps.headD true) st o
    let rs := session serve ps.tail r.1 os
    (rs.1, r.2 :: rs.2)

/-! ### Text -/

/-- The payload `wr_debugPrintEx` sends, discrete_src/lib/debug_lib.cpp 37-62: `text` is what
`wr_sprintfEx` made of the arguments, with its length; `append` is not used. -/
def debugOut (text _append : List Nat) : List Nat := text

/-- The callback is handed the payload as a string, discrete_src/debug/
client_interface_private.cpp 89: what is before the terminator, `none` when there is none in the
packet. -/
def cString : List Nat → Option (List Nat)
  | [] => none
  | c :: cs => if c = 0 then some [] else (cString cs).map (c :: ·)

end Wrench.Session
