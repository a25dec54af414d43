/-
Byte-level model: operand packing, operand reading, the FNV hash family and the
image validity check.

Bytes are `BitVec 8`, machine words `BitVec 16` / `BitVec 32`, buffers are lists
of bytes.  Reading outside a buffer is the outcome `none`.
-/
namespace Wrench

abbrev Byte := BitVec 8
abbrev Word16 := BitVec 16
abbrev Word32 := BitVec 32

/-- `wr_pack16`, discrete_src/utils/utils.cpp 63-68.  `i & 0xFF`, `(i>>8) & 0xFF`
(arithmetic shift), each stored in an `unsigned char`. -/
def pack16 (i : Word16) : List Byte :=
  [(i &&& 0xFF#16).setWidth 8, ((i.sshiftRight 8) &&& 0xFF#16).setWidth 8]

/-- `wr_pack32`, discrete_src/utils/utils.cpp 71-78. -/
def pack32 (l : Word32) : List Byte :=
  [ (l &&& 0xFF#32).setWidth 8,
    ((l.sshiftRight 8) &&& 0xFF#32).setWidth 8,
    ((l.sshiftRight 16) &&& 0xFF#32).setWidth 8,
    ((l.sshiftRight 24) &&& 0xFF#32).setWidth 8 ]

/-- `READ_8_FROM_PC`, discrete_src/vm/vm.h 199-201: the unsigned byte at `p`. -/
def read8 (code : List Byte) (p : Nat) : Option Byte := code[p]?

/-- `READ_16_FROM_PC`, discrete_src/vm/vm.h 164-170 (byte-wise form):
`(int16_t)*(P) | ((int16_t)*(P+1))<<8` truncated to `int16_t`. -/
def read16 (code : List Byte) (p : Nat) : Option Word16 := do
  let b0 ← code[p]?
  let b1 ← code[p+1]?
  return (b0.setWidth 16) ||| ((b1.setWidth 16) <<< 8)

/-- `READ_32_FROM_PC`, discrete_src/vm/vm.h 157-163 (byte-wise form). -/
def read32 (code : List Byte) (p : Nat) : Option Word32 := do
  let b0 ← code[p]?
  let b1 ← code[p+1]?
  let b2 ← code[p+2]?
  let b3 ← code[p+3]?
  return (b0.setWidth 32) ||| ((b1.setWidth 32) <<< 8)
     ||| ((b2.setWidth 32) <<< 16) ||| ((b3.setWidth 32) <<< 24)

/-- FNV offset basis, discrete_src/lib/std.cpp 34. -/
def fnvBasis : Word32 := 0x811C9DC5#32

/-- FNV prime, discrete_src/lib/std.cpp 40. -/
def fnvPrime : Word32 := 0x1000193#32

/-- One round `hash ^= w; hash *= 0x1000193`, discrete_src/lib/std.cpp 39-40. -/
def fnvRound (h w : Word32) : Word32 := (h ^^^ w) * fnvPrime

/-- `wr_hash_read8`, discrete_src/lib/std.cpp 32-45.  `len` is a signed 32-bit
`int`: the loop `for(int i=0;i<len;++i)` runs `len` times when it is positive and
not at all otherwise.  The caller guarantees that `len` bytes are readable, so the
model takes them from the list (a shorter list would be an out-of-bounds read;
`hashRead8_inBounds` callers always pass `len ≤ data.length`). -/
def hashRead8 (data : List Byte) (len : Word32) : Word32 :=
  (data.take len.toInt.toNat).foldl (fun h b => fnvRound h (b.setWidth 32)) fnvBasis

/-- `wr_hash`, discrete_src/lib/std.cpp 48-61.  The bytes hashed are the whole
list.  `serial = 0` means "start afresh". -/
def wrHash (data : List Byte) (serial : Word32 := 0#32) : Word32 :=
  data.foldl (fun h b => fnvRound h (b.setWidth 32))
    (if serial = 0#32 then fnvBasis else serial)

/-- `wr_hashStr`, discrete_src/lib/std.cpp 78-89.  Stops at the first NUL.  The
bytes are read as (signed) `char`, hence sign-extended. The list stands for the
memory from the pointer on; a list without NUL ends where the list ends. -/
def hashStr (data : List Byte) (serial : Word32 := 0#32) : Word32 :=
  (data.takeWhile (· != 0#8)).foldl (fun h b => fnvRound h (b.signExtend 32))
    (if serial = 0#32 then fnvBasis else serial)

/-- `wr_hashStr_read8`, discrete_src/lib/std.cpp 64-75 (also reads `char`). -/
def hashStrRead8 (data : List Byte) : Word32 :=
  (data.takeWhile (· != 0#8)).foldl (fun h b => fnvRound h (b.signExtend 32)) fnvBasis

/-- `WRENCH_VERSION_MAJOR`, discrete_src/wrench.h 33. -/
def versionMajor : Word32 := 7#32

/-- `wr_isBytecodeValid`, discrete_src/utils/utils.cpp 414-434.  `image` is the
buffer, its length is the `unsigned int len` argument (the wrap to 32 bits in
`len - 4` is kept). The `hash` out-parameter is the second component. -/
def isBytecodeValid (image : List Byte) : Option Word32 :=
  let len := image.length
  if len < 8 then none
  else
    match read32 image (len - 4) with
    | none => none
    | some h =>
      if h ≠ hashRead8 image (BitVec.ofNat 32 (len - 4)) + versionMajor then none
      else some h

/-- Last step of `WRCompilationContext::link`, discrete_src/cc/link.cpp 404-407:
append the salted hash of the code. -/
def appendTrailer (code : List Byte) : List Byte :=
  code ++ pack32 (wrHash code + versionMajor)

end Wrench
