/-
The packets the debugger exchanges with the program being debugged, and the byte
streams they travel on: discrete_src/debug/packet.h, packet.cpp, debug.cpp 30-79,
tcp_debug_comm.cpp 72-121, debug_comm.h 47-61.

The two ends may be machines of different byte order.  `g_malloc` is assumed to
succeed.
-/
import Verif.Bytes.Lemmas
import Verif.Debug.LlProps

namespace Wrench.Packet

/-- The byte order a machine keeps its words in memory with. -/
inductive Endian where
  | little
  | big
  deriving DecidableEq, Repr

/-- Four bytes in memory, lowest address first. -/
def store32 (e : Endian) (w : Word32) : List Byte :=
  match e with
  | .little => pack32 w
  | .big => (pack32 w).reverse

/-- `READ_32_FROM_PC`, discrete_src/vm/vm.h 157-163: little-endian on every machine. -/
def readLe32 (b : List Byte) : Word32 := (read32 b 0).getD 0

/-- A word loaded from memory. -/
def load32 (e : Endian) (b : List Byte) : Word32 :=
  match e with
  | .little => readLe32 b
  | .big => readLe32 b.reverse

/-- `wr_x32`, discrete_src/vm/vm.h 154 (nothing on a little-endian machine) and
discrete_src/utils/utils.cpp 82-86 (`READ_32_FROM_PC` of the word's own bytes). -/
def x32 (e : Endian) (w : Word32) : Word32 :=
  match e with
  | .little => w
  | .big => readLe32 (store32 .big w)

/-- Two bytes in memory. -/
def store16 (e : Endian) (w : Word16) : List Byte :=
  match e with
  | .little => pack16 w
  | .big => (pack16 w).reverse

/-- `READ_16_FROM_PC`, discrete_src/vm/vm.h 164-170. -/
def readLe16 (b : List Byte) : Word16 := (read16 b 0).getD 0

/-- A half word loaded from memory. -/
def load16 (e : Endian) (b : List Byte) : Word16 :=
  match e with
  | .little => readLe16 b
  | .big => readLe16 b.reverse

/-- `wr_x16`, discrete_src/vm/vm.h 155 and discrete_src/utils/utils.cpp 89-93. -/
def x16 (e : Endian) (w : Word16) : Word16 :=
  match e with
  | .little => w
  | .big => readLe16 (store16 .big w)

/-- `WrenchPacket`, discrete_src/debug/packet.h 62-87, with the bytes allocated behind the
header. -/
structure Pkt where
  size : Word32
  t : Word32
  param1 : Word32
  param2 : Word32
  payload : List Byte
  deriving DecidableEq

/-- The packet's bytes in memory. -/
def memOf (e : Endian) (p : Pkt) : List Byte :=
  store32 e p.size ++ store32 e p.t ++ store32 e p.param1 ++ store32 e p.param2 ++ p.payload

/-- `WrenchPacket::WrenchPacket( type )`, discrete_src/debug/packet.cpp 39-43. -/
def construct (type : Word32) : Pkt :=
  { size := 0, t := type, param1 := 0, param2 := 0, payload := [] }

/-- `WrenchPacket::alloc( type, payloadSize, payload )`, discrete_src/debug/packet.cpp 55-71,
with `setPayloadSize`, discrete_src/debug/packet.h 76. -/
def alloc (type : Word32) (payload : List Byte) : Pkt :=
  { size := 16 + BitVec.ofNat 32 payload.length, t := type, param1 := 0, param2 := 0,
    payload := payload }

/-- `payloadSize`, discrete_src/debug/packet.h 77. -/
def payloadSize (p : Pkt) : Word32 := if p.size.toNat ≤ 16 then 0 else p.size - 16

/-- `WrenchPacket::xlate`, discrete_src/debug/packet.cpp 74-84: also returns the size the packet
had before. -/
def xlate (e : Endian) (p : Pkt) : Pkt × Word32 :=
  ({ p with size := x32 e p.size, t := x32 e p.t, param1 := x32 e p.param1,
            param2 := x32 e p.param2 }, p.size)

/-- What a call into the transport comes to: `bad` for reading or writing memory that does not
belong to the packet, `waits` when the call does not return. -/
inductive Res (α : Type) where
  | bad
  | waits
  | ok (v : α)
  deriving DecidableEq

/-- What one call of the operating system answers: an error, or that it took some bytes.  It
never takes more than it is offered. -/
inductive Ans where
  | fail
  | took (n : Nat)
  deriving DecidableEq

/-- The loop of `sendEx`, discrete_src/debug/tcp_debug_comm.cpp 75-84 and
serial_debug_comm.cpp 49-60.  `rest` are the bytes from `data + soFar` on, `wire` what has been
sent so far.  No more answers: the call waits for ever. -/
def sendLoop : List Ans → List Byte → List Byte → Res (Bool × List Byte)
  | as, [], wire => .ok (true, wire)
  | [], _ :: _, _ => .waits
  | .fail :: _, _ :: _, wire => .ok (false, wire)
  | .took n :: as, b :: rest, wire =>
    sendLoop as ((b :: rest).drop n) (wire ++ (b :: rest).take n)

/-- `sendEx`, discrete_src/debug/tcp_debug_comm.cpp 72-87: `bytes` is an `int`. -/
def sendEx (data : List Byte) (bytes : Word32) (as : List Ans) (wire : List Byte) :
    Res (Bool × List Byte) :=
  if bytes.toInt ≤ 0 then .ok (true, wire)
  else if data.length < bytes.toNat then .bad
  else sendLoop as (data.take bytes.toNat) wire

/-- `WrenchDebugCommInterface::send`, discrete_src/debug/debug.cpp 30-36.  The answer, the wire
and the packet as it is left. -/
def send (e : Endian) (p : Pkt) (as : List Ans) (wire : List Byte) :
    Res (Bool × List Byte × Pkt) :=
  match sendEx (memOf e (xlate e p).1) (xlate e p).2 as wire with
  | .bad => .bad
  | .waits => .waits
  | .ok (r, wire) => .ok (r, wire, (xlate e (xlate e p).1).1)

/-- The loop of `recvEx`, discrete_src/debug/tcp_debug_comm.cpp 92-103 and
serial_debug_comm.cpp 68-80: `need` more bytes are wanted, `got` have been stored, `wire` has
not been read.  The answers not used are returned. -/
def recvLoop : List Ans → Nat → List Byte → List Byte → Res (Bool × List Byte × List Byte × List Ans)
  | as, 0, got, wire => .ok (true, got, wire, as)
  | [], _ + 1, _, _ => .waits
  | .fail :: as, _ + 1, got, wire => .ok (false, got, wire, as)
  | .took n :: as, need + 1, got, wire =>
    let m := min n (min (need + 1) wire.length)
    recvLoop as (need + 1 - m) (got ++ wire.take m) (wire.drop m)

/-- `recvEx`, discrete_src/debug/tcp_debug_comm.cpp 90-106.  For a size that is negative as an
`int` nothing is read and the caller goes on with memory nobody wrote: the outcome is `bad`. -/
def recvEx (bytes : Word32) (as : List Ans) (wire : List Byte) :
    Res (Bool × List Byte × List Byte × List Ans) :=
  if bytes.toInt < 0 then .bad else recvLoop as bytes.toNat [] wire

/-- The header in memory, taken as a packet. -/
def loadHeader (e : Endian) (b : List Byte) : Pkt :=
  { size := load32 e (b.take 4), t := load32 e ((b.drop 4).take 4),
    param1 := load32 e ((b.drop 8).take 4), param2 := load32 e ((b.drop 12).take 4),
    payload := [] }

/-- `WrenchDebugCommInterface::receive`, discrete_src/debug/debug.cpp 39-79; `peek` is what
`peekEx` answers.  The packet if there is one, what is left unread on the wire, and the answers
left. -/
def receive (e : Endian) (peek : Nat) (as : List Ans) (wire : List Byte) :
    Res (Option Pkt × List Byte × List Ans) :=
  if peek < 16 then .ok (none, wire, as)
  else match recvEx 16 as wire with
    | .bad => .bad
    | .waits => .waits
    | .ok (false, _, wire, as) => .ok (none, wire, as)
    | .ok (true, got, wire, as) =>
      let p := (xlate e (loadHeader e got)).1
      if payloadSize p = 0 then .ok (some p, wire, as)
      else match recvEx (payloadSize p) as wire with
        | .bad => .bad
        | .waits => .waits
        | .ok (false, _, wire, as) => .ok (none, wire, as)
        | .ok (true, got, wire, as) => .ok (some { p with payload := got }, wire, as)

/-- `WrenchDebugTcpInterface::peekEx`, discrete_src/debug/tcp_debug_comm.cpp 109-121. -/
def peekEx (ret : Int) : Nat := if ret < 0 then 0 else ret.toNat

/-- `wr_peekTCPEx`, discrete_src/lib/std_tcp.cpp 476-503, on Linux: what `poll` answers for the
one descriptor, `-1`, `0` or `1`. -/
def pollAnswers : List Int := [-1, 0, 1]

/-! ### The loopback -/

/-- `WrenchPacket::alloc( base )`, discrete_src/debug/packet.cpp 46-52: `base.size` bytes are
allocated and copied. -/
def allocCopy (e : Endian) (p : Pkt) : Option (List Byte) :=
  if (memOf e p).length < p.size.toNat then none else some ((memOf e p).take p.size.toNat)

/-- Reading the header of a block of memory as a packet; `none` when the block is smaller than
the header. -/
def view (e : Endian) (block : List Byte) : Option Pkt :=
  if block.length < 16 then none
  else some { loadHeader e block with payload := block.drop 16 }

/-- `WrenchDebugLoopbackInterface::send` and `receive`, discrete_src/debug/debug_comm.h 51-57:
copies are put in at the head of a list and taken out at its tail. -/
def loopSends (blocks : List (List Byte)) : List (Ll.Op (List Byte)) := blocks.map .addHead

/-- As many calls of `receive`. -/
def loopReceives (n : Nat) : List (Ll.Op (List Byte)) := List.replicate n .popTail

/-! ### The call stack as it is sent -/

/-- `WrenchCallStackEntry`, discrete_src/wrench.h 1228-1238. -/
structure Entry where
  onLine : Word32
  stackOffset : Word16
  fromUnit : Byte
  thisUnit : Byte
  locals : Word16
  arguments : Byte
  deriving DecidableEq

/-- The twelve bytes of an entry in memory, the last of them padding. -/
def entryMem (e : Endian) (x : Entry) : List Byte :=
  store32 e x.onLine ++ store16 e x.stackOffset ++ [x.fromUnit, x.thisUnit] ++
    store16 e x.locals ++ [x.arguments, 0]

/-- An entry loaded from memory. -/
def entryLoad (e : Endian) (b : List Byte) : Entry :=
  { onLine := load32 e (b.take 4), stackOffset := load16 e ((b.drop 4).take 2),
    fromUnit := (b.drop 6).headD 0, thisUnit := (b.drop 7).headD 0,
    locals := load16 e ((b.drop 8).take 2), arguments := (b.drop 10).headD 0 }

/-- discrete_src/debug/server_interface_private.cpp 440-442 and client_debug.cpp 229-231: the
conversion both sides make. -/
def entryX (e : Endian) (x : Entry) : Entry :=
  { x with onLine := x32 e x.onLine, locals := x16 e x.locals,
           stackOffset := x16 e x.stackOffset }

/-- The payload of `WRD_ReplyCallstack`, discrete_src/debug/server_interface_private.cpp 426-445. -/
def callstackPayload (e : Endian) (xs : List Entry) : List Byte :=
  (xs.map (fun x => entryMem e (entryX e x))).flatten

/-- The loop of `getCallstack`, discrete_src/debug/client_debug.cpp 226-233; `count` is the
packet's `param1`. -/
def callstackRead (e : Endian) : Nat → List Byte → List Entry
  | 0, _ => []
  | n + 1, b => entryX e (entryLoad e (b.take 12)) :: callstackRead e n (b.drop 12)

end Wrench.Packet
