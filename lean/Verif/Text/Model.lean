import Verif.Std.Itoa

/-
Text of values for the host: `WRValue::asString`, `asMallocString`, `technicalAsString`
(discrete_src/utils/utils.cpp 792-985) and `wr_ftoa` (discrete_src/lib/std.cpp 124-174).

A buffer is the list of the bytes the caller owns; a store outside it is the outcome `none`.
Values are finite trees: sharing does not matter here, cyclic values (on which the code recurses
for ever) are not representable.  Float arithmetic is a parameter.  Allocation succeeds, and
positions stay below 2^31, where the `int` results of the code are exact.
-/
namespace Wrench.Text

open Wrench.Std

/-- Store bytes from `pos` on. -/
def put (buf : List Byte) (pos : Nat) (bs : List Byte) : Option (List Byte) :=
  if pos + bs.length ≤ buf.length then some (buf.take pos ++ bs ++ buf.drop (pos + bs.length)) else none

/-- The float operations `wr_ftoa` uses. -/
structure FloatOps where
  F : Type
  /-- The float with these bits. -/
  ofBits : Word32 → F
  /-- `f < 0`, std.cpp 129. -/
  isNeg : F → Bool
  neg : F → F
  /-- `f += 5.f / (float)10e6`, std.cpp 141. -/
  round : F → F
  /-- `(int)f`, std.cpp 143; `none` when it does not fit (undefined). -/
  toInt : F → Option Word32
  /-- `f -= i`, std.cpp 147. -/
  subInt : F → Word32 → F
  /-- `f *= 10.0; c = (char)f; f -= c`, std.cpp 159-162: the byte `'0' + c` and the rest. -/
  digit : F → Byte × F
  /-- `snprintf( …, "%g", f )`. -/
  gText : Word32 → List Byte

variable (O : FloatOps)

/-- The digit loop of `wr_ftoa`, std.cpp 157-163; `n` digits are still allowed. -/
def ftoaDigits (len : Nat) : (n : Nat) → List Byte → Nat → O.F → Option (List Byte × Nat)
  | 0, buf, pos, _ => some (buf, pos)
  | n + 1, buf, pos, f =>
    if pos < len then
      match put buf pos [(O.digit f).1] with
      | none => none
      | some b => ftoaDigits len n b (pos + 1) (O.digit f).2
    else some (buf, pos)

/-- The loop `for( --pos; pos > 0 && string[pos] == '0' && … ; --pos )`, std.cpp 165, from the
`pos` already decremented. -/
def trim (buf : List Byte) : Nat → Nat
  | 0 => 0
  | pos + 1 => if buf[pos + 1]? = some 48#8 then trim buf pos else pos + 1

/-- The end of `wr_ftoa` after the digits, std.cpp 165-173. -/
def ftoaEnd (buf : List Byte) (pos : Nat) : Option (List Byte × Nat) :=
  let p := trim buf (pos - 1)
  let q := if buf[p]? = some 46#8 then p else p + 1
  (put buf q [0#8]).map (·, q)

/-- `wr_ftoa` after the integer part, std.cpp 155-173. -/
def ftoaRest (len : Nat) (b1 : List Byte) (p1 : Nat) (g : O.F) : Option (List Byte × Nat) :=
  match put b1 p1 [46#8] with
  | none => none
  | some b2 =>
    match ftoaDigits O len 5 b2 (p1 + 1) g with
    | none => none
    | some (b3, p3) => ftoaEnd b3 p3

/-- `wr_ftoa` from the point where the sign is stored, std.cpp 135-173. -/
def ftoaBody (buf : List Byte) (pos : Nat) (f : O.F) (len : Nat) : Option (List Byte × Nat) :=
  if pos > len then (put buf 0 [0#8]).map (·, 0)
  else
    match O.toInt (O.round f) with
    | none => none
    | some i =>
      let intPart : Option (List Byte × Nat × O.F) :=
        if i ≠ 0#32 then
          match itoa i (len - pos) with
          | none => none
          | some (bs, n) => (put buf pos bs).map (·, pos + n, O.subInt (O.round f) i)
        else (put buf pos [48#8]).map (·, pos + 1, O.round f)
      match intPart with
      | none => none
      | some (b1, p1, g) => ftoaRest O len b1 p1 g

/-- `wr_ftoa( f, string, len )`, std.cpp 124-174: the buffer afterwards and the returned length. -/
def ftoa (buf : List Byte) (f : O.F) (len : Nat) : Option (List Byte × Nat) :=
  if O.isNeg f then
    match put buf 0 [45#8] with
    | none => none
    | some b => ftoaBody O b 1 (O.neg f) len
  else ftoaBody O buf 0 f len

mutual
/-- A value as the conversions look at it. -/
inductive Tv where
  | int (i : Word32)
  | float (f : Word32)
  | str (bytes : List Byte)
  | arr (items : Items)
  | table (slots : Slots)
  | ref (v : Tv)
  /-- An array of neither values nor characters. -/
  | raw
  /-- Structs, container members, iterators. -/
  | other
/-- Elements of an array. -/
inductive Items where
  | nil
  | cons (v : Tv) (vs : Items)
/-- Slots of a hash table: `none` is an empty slot. -/
inductive Slots where
  | nil
  | empty (rest : Slots)
  | entry (key val : Tv) (rest : Slots)
end

/-- `WRValue::asString`, utils.cpp 947-985: the buffer and `*strLen`.  `none` also stands for the
values that go on through `singleValue` or `deref` (arrays of values, tables, container members),
which are not followed here. -/
def asString (buf : List Byte) (maxLen : Nat) : Tv → Option (List Byte × Nat)
  | .ref v => asString buf maxLen v
  | .float f => ftoa O buf (O.ofBits f) maxLen
  | .int i =>
    match itoa i maxLen with
    | none => none
    | some (bs, n) => (put buf 0 bs).map (·, n)
  | .str b =>
    let len := if maxLen ≠ 0 then (if maxLen > b.length then b.length else maxLen) else b.length
    match put buf 0 (b.take len) with
    | none => none
    | some b1 => (put b1 len [0#8]).map (·, len)
  | _ => none

/-- `WRValue::asMallocString`, utils.cpp 900-944.  `junk` is the content of fresh memory.  The
result is the allocated block and `*strLen`. -/
def asMallocString (junk : Nat → List Byte) : Tv → Option (List Byte × Nat)
  | .ref v => asMallocString junk v
  | .float f => ftoa O (junk 12) (O.ofBits f) 11
  | .int i =>
    match itoa i 12 with
    | none => none
    | some (bs, n) => (put (junk 13) 0 bs).map (·, n)
  | .str b =>
    match put (junk (b.length + 1)) 0 b with
    | none => none
    | some b1 => (put b1 b.length [0#8]).map (·, 0)
  | _ => none

/-! ### The technical form -/

/-- `%ld` of an `int`. -/
def decText (i : Word32) : List Byte :=
  (if i.slt 0#32 then [45#8] else []) ++
    ((digitLoop 12 i.toInt.natAbs).getD []).reverse

/-- One upper-case hexadecimal digit. -/
def hexDigit (n : Nat) : Byte := if n < 10 then BitVec.ofNat 8 (48 + n) else BitVec.ofNat 8 (55 + n)

/-- `0x%08lX` of an `unsigned int`. -/
def hexText (i : Word32) : List Byte :=
  [48#8, 120#8] ++ (List.range 8).map fun k => hexDigit (i.toNat / 16 ^ (7 - k) % 16)

/-- `snprintf( string + pos, maxLen - pos, text )`: at most `size - 1` characters and a NUL;
`size` is a `size_t` (64 bits here), so that `pos > maxLen` makes it huge; libraries that refuse
such a size are not followed.  The result is the buffer; the return value of the call is the
length of the text. -/
def snp (buf : List Byte) (pos maxLen : Nat) (text : List Byte) : Option (List Byte) :=
  let size := if pos ≤ maxLen then maxLen - pos else 2 ^ 64 + maxLen - pos
  if size = 0 then some buf else put buf pos (text.take (size - 1) ++ [0#8])

/-- `<raw array>`. -/
def rawText : List Byte :=
  [60#8, 114#8, 97#8, 119#8, 32#8, 97#8, 114#8, 114#8, 97#8, 121#8, 62#8]

/-- The loop over the characters of a string, utils.cpp 843-846. -/
def techChars (maxLen : Nat) : List Byte → List Byte → Nat → Option (List Byte × Nat)
  | [], buf, pos => some (buf, pos)
  | c :: cs, buf, pos =>
    if pos < maxLen then
      match put buf pos [c] with
      | none => none
      | some b => techChars maxLen cs b (pos + 1)
    else some (buf, pos)

mutual
/-- `wr_technicalAsStringEx`, utils.cpp 792-885: the buffer and the returned position. -/
def tech (hex : Bool) (maxLen : Nat) : Tv → List Byte → Nat → Option (List Byte × Nat)
  | v, buf, pos =>
    -- `return maxLen - 1` wraps for 0, and the caller reads it as an `unsigned int`
    if pos ≥ maxLen then some (buf, if maxLen = 0 then 2 ^ 32 - 1 else maxLen - 1)
    else
      match v with
      | .ref v =>
        -- `strncpy( string + pos, "ref: ", maxLen - pos )` fills up with NUL
        match put buf pos
            (([114#8, 101#8, 102#8, 58#8, 32#8] ++ List.replicate (maxLen - pos) 0#8).take (maxLen - pos)) with
        | none => none
        | some b => tech hex maxLen v b (pos + 5)
      | .float f => (snp buf pos maxLen (O.gText f)).map (·, pos + (O.gText f).length)
      | .int i =>
        let t := if hex then hexText i else decText i
        (snp buf pos maxLen t).map (·, pos + t.length)
      | .arr items =>
        match snp buf pos maxLen [91#8, 32#8] with
        | none => none
        | some b =>
          match techItems hex maxLen items true b (pos + 2) with
          | none => none
          | some (b1, p1) =>
            if p1 ≥ maxLen then some (b1, maxLen)
            else
              (snp b1 p1 maxLen [32#8, 93#8]).map
                (·, if p1 + 2 ≥ maxLen then maxLen else p1 + 2)
      | .str bytes =>
        match snp buf pos maxLen [34#8] with
        | none => none
        | some b =>
          match techChars maxLen bytes b (pos + 1) with
          | none => none
          | some (b1, p1) =>
            if p1 ≥ maxLen then some (b1, maxLen)
            else
              (snp b1 p1 maxLen [34#8]).map (·, if p1 + 1 ≥ maxLen then maxLen else p1 + 1)
      | .table slots =>
        match snp buf pos maxLen [123#8, 32#8] with
        | none => none
        | some b =>
          match techSlots hex maxLen slots true b (pos + 2) with
          | none => none
          | some (b1, p1) =>
            (snp b1 p1 maxLen [32#8, 125#8]).map
              (·, if p1 + 2 ≥ maxLen then maxLen else p1 + 2)
      | .raw =>
        (snp buf pos maxLen rawText).map
          (·, if pos + 11 ≥ maxLen then maxLen else pos + 11)
      | .other => some (buf, pos)

/-- The loop over the elements of an array, utils.cpp 821-830. -/
def techItems (hex : Bool) (maxLen : Nat) : Items → (first : Bool) → List Byte → Nat →
    Option (List Byte × Nat)
  | .nil, _, buf, pos => some (buf, pos)
  | .cons v vs, first, buf, pos =>
    if pos < maxLen then
      match (if first then some buf else snp buf pos maxLen [44#8, 32#8]) with
      | none => none
      | some b =>
        match tech hex maxLen v b (if first then pos else pos + 2) with
        | none => none
        | some (b1, p1) => techItems hex maxLen vs false b1 p1
    else some (buf, pos)

/-- The loop over the slots of a table, utils.cpp 864-879. -/
def techSlots (hex : Bool) (maxLen : Nat) : Slots → (first : Bool) → List Byte → Nat →
    Option (List Byte × Nat)
  | .nil, _, buf, pos => some (buf, pos)
  | .empty rest, first, buf, pos => techSlots hex maxLen rest first buf pos
  | .entry k v rest, first, buf, pos =>
    match (if first then some buf else snp buf pos maxLen [44#8, 32#8]) with
    | none => none
    | some b =>
      match tech hex maxLen k b (if first then pos else pos + 2) with
      | none => none
      | some (b1, p1) =>
        match snp b1 p1 maxLen [58#8] with
        | none => none
        | some b2 =>
          match tech hex maxLen v b2 (p1 + 1) with
          | none => none
          | some (b3, p3) => techSlots hex maxLen rest false b3 p3
end

/-- `WRValue::technicalAsString`, utils.cpp 888-897. -/
def technicalAsString (buf : List Byte) (maxLen : Nat) (hex : Bool) (v : Tv) :
    Option (List Byte × Nat) :=
  match tech O hex maxLen v buf 0 with
  | none => none
  | some (b, len) => (put b len [0#8]).map (·, len)

end Wrench.Text
