/-
The TCP library, discrete_src/lib/std_tcp.cpp: addresses (70-243), which machine `tcp::connect`
goes to (246-266, 326-371), what `tcp::send` sends (401-426) and what `tcp::recv` returns
(429-473), on Linux.

`isIp` is only called without a mask (the branch for one, 191-236, is not modelled).  Host names
are looked up by a parameter, `getaddrinfo`, taken to find version 4 addresses.
-/
import Verif.Bytes.Model

namespace Wrench.Net

/-- `COMM_isdigit`, discrete_src/lib/std_tcp.cpp 70. -/
def digit (c : Byte) : Bool := decide (48 ≤ c.toNat ∧ c.toNat ≤ 57)

/-- One to three digits, discrete_src/lib/std_tcp.cpp 86-103 and the same code three more times
(113-130, 139-156, 165-182): the number and what follows it.  The text ends with the list (its
terminator is no digit and no dot). -/
def octet (s : List Byte) : Option (Nat × List Byte) :=
  match s with
  | [] => none
  | a :: s =>
    if digit a then
      match s with
      | [] => some (a.toNat - 48, [])
      | b :: s' =>
        if digit b then
          match s' with
          | [] => some ((a.toNat - 48) * 10 + (b.toNat - 48), [])
          | c :: s'' =>
            if digit c then
              some (((a.toNat - 48) * 10 + (b.toNat - 48)) * 10 + (c.toNat - 48), s'')
            else some ((a.toNat - 48) * 10 + (b.toNat - 48), c :: s'')
        else some (a.toNat - 48, b :: s')
    else none

/-- The number and the dot behind it, discrete_src/lib/std_tcp.cpp 105-110, 132-137 and 158-163. -/
def octetDot (s : List Byte) : Option (Nat × List Byte) :=
  match octet s with
  | none => none
  | some (n, rest) =>
    match rest with
    | [] => none
    | d :: rest => if d ≠ 46#8 ∨ n > 255 then none else some (n, rest)

/-- The last number, discrete_src/lib/std_tcp.cpp 184-189 and 237-240: nothing may follow. -/
def octetEnd (s : List Byte) : Option Nat :=
  match octet s with
  | none => none
  | some (n, rest) => if n > 255 then none else if rest = [] then some n else none

/-- `isIp`, discrete_src/lib/std_tcp.cpp 75-243: the address with its first number in the lowest
byte, 0 if the text is not an address. -/
def isIp (s : List Byte) : Word32 :=
  match octetDot s with
  | none => 0
  | some (a, s) =>
    match octetDot s with
    | none => 0
    | some (b, s) =>
      match octetDot s with
      | none => 0
      | some (c, s) =>
        match octetEnd s with
        | none => 0
        | some d => BitVec.ofNat 32 a ||| (BitVec.ofNat 32 b <<< 8) ||| (BitVec.ofNat 32 c <<< 16) |||
            (BitVec.ofNat 32 d <<< 24)

/-- `ipFromAddress`, discrete_src/lib/std_tcp.cpp 246-266, as `wr_connectTCPEx` (326-350) uses it:
the address connected to.  That there is none is reported by a null pointer which is not looked
at; the address is 0 then.  `lookup` is `getaddrinfo`. -/
def connectsTo (lookup : List Byte → Option Word32) (host : List Byte) : Word32 :=
  if isIp host = 0 then (lookup host).getD 0 else isIp host

/-- `wr_connectTCP`, discrete_src/lib/std_tcp.cpp 353-371: the address and the port (`htons` keeps
16 bits) of the connection asked for, `none` if none is.  `text` is `asMallocString`. -/
def connectTCP {V : Type} (asInt : V → Word32) (text : V → Option (List Byte))
    (lookup : List Byte → Option Word32) (args : List V) : Option (Word32 × Word16) :=
  match args with
  | host :: port :: _ =>
    match text host with
    | none => none
    | some name => if name = [] then none else some (connectsTo lookup name, (asInt port).setWidth 16)
  | _ => none

/-- `wr_sendTCP`, discrete_src/lib/std_tcp.cpp 407-426: the socket and the bytes sent on it. -/
def sendTCP {V : Type} (asInt : V → Word32) (text : V → Option (List Byte)) (args : List V) :
    Option (Word32 × List Byte) :=
  match args with
  | socket :: _ :: _ =>
    match text socket with
    | none => none
    | some bytes => some (asInt socket, bytes)
  | _ => none

/-- The string `wr_receiveTCP` makes: what was allocated for it, and its size. -/
structure Received where
  room : List Byte
  size : Nat

/-- The characters of such a string; `none` when they are not all there. -/
def Received.chars (r : Received) : Option (List Byte) :=
  if r.size ≤ r.room.length then some (r.room.take r.size) else none

/-- `wr_receiveTCP` with a size of at least 0, discrete_src/lib/std_tcp.cpp 446-473.  The system
call answered `ret` and stored `data` at the start of `fresh`, the memory allocated.  The number 0
is `none`. -/
def receiveTCP (fresh : List Byte) (ret : Int) (data : List Byte) : Option Received :=
  if ret = 0 then none
  else some { room := data ++ fresh.drop data.length, size := (BitVec.ofInt 32 ret).toNat }

end Wrench.Net
