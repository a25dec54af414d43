/-
The file library, discrete_src/lib/std_io.cpp 59-326, on Linux.

The operating system is not part of wrench.  It is modelled as the standard says for regular files:
a file is a sequence of bytes under a name, a descriptor has a position in one file, `read` and
`write` move all the bytes asked for and there are.  Not modelled: two names for one file, deleting
a file that is open, a full disk, links, directories.  Descriptors are not used again after `close`
(the system would; a script cannot tell).  `malloc` does not fail.
-/
import Verif.Bytes.Model

namespace Wrench.Io

/-- A name, as a C string. -/
abbrev Name := List Byte

/-- An open descriptor. -/
structure Desc where
  name : Name
  pos : Nat
  append : Bool
  canWrite : Bool
  deriving DecidableEq, Repr

/-- The operating system: the files; which may be read; the descriptors; how many streams are open,
and how many can be. -/
structure Sys where
  file : Name → Option (List Byte)
  readable : Name → Bool
  fds : List (Option Desc)
  streams : Nat
  maxStreams : Nat

def Sys.setFile (s : Sys) (n : Name) (c : Option (List Byte)) : Sys :=
  { s with file := fun m => if m = n then c else s.file m }

/-- The descriptor of a number. -/
def Sys.desc (s : Sys) (fd : Word32) : Option Desc :=
  if fd.toInt < 0 then none else (s.fds[fd.toNat]?).join

def Sys.setDesc (s : Sys) (fd : Word32) (d : Option Desc) : Sys :=
  { s with fds := s.fds.set fd.toNat d }

/-- The flags of `open`, as registered at discrete_src/lib/std_io.cpp 331-336, with the values they
have on Linux. -/
def O_RDWR : Word32 := 2#32
def O_CREAT : Word32 := 64#32
def O_EXCL : Word32 := 128#32
def O_TRUNC : Word32 := 512#32
def O_APPEND : Word32 := 1024#32

def has (flags f : Word32) : Bool := flags &&& f != 0#32

/-- The system call `open`. -/
def sysOpen (s : Sys) (n : Name) (flags : Word32) : Word32 × Sys :=
  let d : Desc := { name := n, pos := 0, append := has flags O_APPEND, canWrite := has flags O_RDWR }
  let add (s : Sys) : Word32 × Sys := (BitVec.ofNat 32 s.fds.length, { s with fds := s.fds ++ [some d] })
  match s.file n with
  | none => if has flags O_CREAT then add (s.setFile n (some [])) else (0xFFFFFFFF#32, s)
  | some _ =>
    if has flags O_CREAT && has flags O_EXCL then (0xFFFFFFFF#32, s)
    else if s.readable n then add (if has flags O_TRUNC then s.setFile n (some []) else s)
    else (0xFFFFFFFF#32, s)

/-- The system call `close`. -/
def sysClose (s : Sys) (fd : Word32) : Word32 × Sys :=
  match s.desc fd with
  | none => (0xFFFFFFFF#32, s)
  | some _ => (0#32, s.setDesc fd none)

/-- The system call `read`: the bytes stored, `none` for −1. -/
def sysRead (s : Sys) (fd : Word32) (n : Nat) : Option (List Byte) × Sys :=
  match s.desc fd with
  | none => (none, s)
  | some d =>
    let got := (((s.file d.name).getD []).drop d.pos).take n
    (some got, s.setDesc fd (some { d with pos := d.pos + got.length }))

/-- A file with `data` written at `p`; a gap is filled with zeros. -/
def overwrite (c : List Byte) (p : Nat) (data : List Byte) : List Byte :=
  c.take p ++ List.replicate (p - c.length) 0#8 ++ data ++ c.drop (p + data.length)

/-- The system call `write`. -/
def sysWrite (s : Sys) (fd : Word32) (data : List Byte) : Word32 × Sys :=
  match s.desc fd with
  | none => (0xFFFFFFFF#32, s)
  | some d =>
    if d.canWrite then
      let c := (s.file d.name).getD []
      let p := if d.append then c.length else d.pos
      if data = [] then (0#32, s)
      else (BitVec.ofNat 32 data.length,
        (s.setFile d.name (some (overwrite c p data))).setDesc fd (some { d with pos := p + data.length }))
    else (0xFFFFFFFF#32, s)

/-- The system call `lseek`. -/
def sysSeek (s : Sys) (fd : Word32) (off whence : Word32) : Word32 × Sys :=
  match s.desc fd with
  | none => (0xFFFFFFFF#32, s)
  | some d =>
    let base : Option Int :=
      if whence = 0#32 then some 0 else if whence = 1#32 then some (Int.ofNat d.pos)
      else if whence = 2#32 then some (Int.ofNat ((s.file d.name).getD []).length) else none
    match base with
    | none => (0xFFFFFFFF#32, s)
    | some b =>
      if b + off.toInt < 0 then (0xFFFFFFFF#32, s)
      else (BitVec.ofInt 32 (b + off.toInt), s.setDesc fd (some { d with pos := (b + off.toInt).toNat }))

/-- The values the library tells apart: numbers, strings, arrays of values, memory of the host. -/
inductive Val where
  | int (w : Word32)
  | chars (l : List Byte)
  | values
  | raw (memory : List Byte)
  deriving DecidableEq, Repr

/-- `asInt`, discrete_src/utils/utils.h 559-560: 0 for what is no number.  (Floats not modelled.) -/
def asInt : Val → Word32
  | .int w => w
  | _ => 0#32

/-- The file name of an argument, `MallocStrScoped`, used as a C string.  (Names that are no strings
are not modelled; the empty name is the name of no file.) -/
def nameOf : Val → Name
  | .chars l => l.takeWhile (· ≠ 0#8)
  | _ => []

/-- How a call ends: with a value, or using memory or a stream that is not there. -/
inductive Res where
  | ret (v : Val) (s : Sys)
  | crash

/-- What a function returns that sets nothing, discrete_src/vm/vm.cpp 1078-1079. -/
def nothing : Val := .int 0#32

/-- `wr_read_file`, discrete_src/lib/std_io.cpp 59-97.  A stream that could not be opened is closed
all the same, 94; one whose file is empty is not, 88-91. -/
def readFile (s : Sys) (args : List Val) : Res :=
  match args with
  | [n] =>
    match s.file (nameOf n) with
    | none => .ret nothing s
    | some c =>
      if s.readable (nameOf n) ∧ s.streams < s.maxStreams then
        if c = [] then .ret (.chars []) { s with streams := s.streams + 1 } else .ret (.chars c) s
      else .crash
  | _ => .ret nothing s

/-- `wr_write_file`, discrete_src/lib/std_io.cpp 100-123, with `array` (discrete_src/utils/utils.cpp
767-782) for strings.  `fwrite` counts the blocks written, here one, of no bytes none. -/
def writeFile (s : Sys) (args : List Val) : Res :=
  match args with
  | [n, .chars data] =>
    if s.streams < s.maxStreams ∧ nameOf n ≠ [] then
      match s.file (nameOf n) with
      | some _ =>
        if s.readable (nameOf n) then
          .ret (.int (if data = [] then 0#32 else 1#32)) (s.setFile (nameOf n) (some data))
        else .ret nothing s
      | none => .ret (.int (if data = [] then 0#32 else 1#32)) (s.setFile (nameOf n) (some data))
    else .ret nothing s
  | _ => .ret nothing s

/-- `wr_ioOpen`, discrete_src/lib/std_io.cpp 171-193. -/
def ioOpen (s : Sys) (args : List Val) : Res :=
  match args with
  | [] => .ret (.int 0xFFFFFFFF#32) s
  | n :: rest =>
    let mode := match rest with
      | [] => O_RDWR ||| O_CREAT
      | m :: _ => asInt m
    if nameOf n = [] then .ret (.int 0xFFFFFFFF#32) s
    else .ret (.int (sysOpen s (nameOf n) mode).1) (sysOpen s (nameOf n) mode).2

/-- `wr_ioClose`, discrete_src/lib/std_io.cpp 196-207. -/
def ioClose (s : Sys) (args : List Val) : Res :=
  match args with
  | [] => .ret nothing s
  | fd :: _ => .ret (.int (sysClose s (asInt fd)).1) (sysClose s (asInt fd)).2

/-- `wr_ioRead`, discrete_src/lib/std_io.cpp 210-242. -/
def ioRead (s : Sys) (args : List Val) : Res :=
  match args with
  | [fd, n] =>
    if (asInt n).toInt ≤ 0 then .ret nothing s
    else .ret (.chars ((sysRead s (asInt fd) (asInt n).toNat).1.getD []))
      (sysRead s (asInt fd) (asInt n).toNat).2
  | _ => .ret nothing s

/-- `wr_ioWrite`, discrete_src/lib/std_io.cpp 245-292.  For memory of the host the size and the
pointer are taken from that memory (278-288): `data.r` is the memory itself. -/
def ioWrite (s : Sys) (args : List Val) : Res :=
  match args with
  | fd :: data :: rest =>
    match data with
    | .chars l =>
      let size := match rest with
        | [] => l.length
        | n :: _ => (asInt n).toNat
      let n := if size > l.length then l.length else size
      .ret (.int (sysWrite s (asInt fd) (l.take n)).1) (sysWrite s (asInt fd) (l.take n)).2
    | .raw _ => .crash
    | _ => .ret nothing s
  | _ => .ret nothing s

/-- `wr_ioSeek`, discrete_src/lib/std_io.cpp 295-312. -/
def ioSeek (s : Sys) (args : List Val) : Res :=
  match args with
  | fd :: off :: rest =>
    let whence := match rest with
      | [] => 0#32
      | w :: _ => asInt w
    .ret (.int (sysSeek s (asInt fd) (asInt off) whence).1) (sysSeek s (asInt fd) (asInt off) whence).2
  | _ => .ret nothing s

/-- `wr_delete_file`, discrete_src/lib/std_io.cpp 126-141: the name is freed at the end of line 130
and used in line 137. -/
def deleteFile (s : Sys) (args : List Val) : Res :=
  match args with
  | [_] => .crash
  | _ => .ret nothing s

/-- The loop of `wr_getline`, discrete_src/lib/std_io.cpp 144-168: with `pos` characters read, the
line and what is left of the input. -/
def getlineGo (pos : Nat) (acc : List Byte) : List Byte → List Byte × List Byte
  | [] => (acc, [])
  | c :: rest =>
    if c = 10#8 ∨ c = 13#8 ∨ pos ≥ 256 then (acc, rest) else getlineGo (pos + 1) (acc ++ [c]) rest

/-- `wr_getline`. -/
def getline (input : List Byte) : List Byte × List Byte := getlineGo 0 [] input

/-- A script reading on until it gets nothing: `while( (s = io::read(fd, n))._count ) all += s;`
with at most `fuel` rounds. -/
def readAll (n : Val) (fd : Val) : Nat → Sys → Option (List Byte × Sys)
  | 0, _ => none
  | fuel + 1, s =>
    match ioRead s [fd, n] with
    | .ret (.chars []) s => some ([], s)
    | .ret (.chars l) s => (readAll n fd fuel s).map (fun r => (l ++ r.1, r.2))
    | _ => none

/-- A script writing pieces one after the other: what the calls returned. -/
def writeAll (fd : Val) : List (List Byte) → Sys → Option (List Val × Sys)
  | [], s => some ([], s)
  | l :: ls, s =>
    match ioWrite s [fd, .chars l] with
    | .ret v s => (writeAll fd ls s).map (fun r => (v :: r.1, r.2))
    | .crash => none

/-- A script reading `k` lines. -/
def getlines : Nat → List Byte → List (List Byte) × List Byte
  | 0, i => ([], i)
  | k + 1, i =>
    ((getline i).1 :: (getlines k (getline i).2).1, (getlines k (getline i).2).2)

end Wrench.Io
