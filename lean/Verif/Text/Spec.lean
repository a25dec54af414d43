import Verif.Text.Model

/-
The texts the conversions are to produce.
-/
namespace Wrench.Text

open Wrench.Std

/-- Drop the zeros at the end of a list of digits. -/
def dropZeros (ds : List Byte) : List Byte := (ds.reverse.dropWhile (· == 48#8)).reverse

/-- The fraction shown for a list of digits: nothing when they are all zero. -/
def fraction (ds : List Byte) : List Byte :=
  if dropZeros ds = [] then [] else 46#8 :: dropZeros ds

/-- The first `n` digits the float operations yield. -/
def digitsOf (O : FloatOps) : Nat → O.F → List Byte
  | 0, _ => []
  | n + 1, f => (O.digit f).1 :: digitsOf O n (O.digit f).2

/-- What is shown for a raw array. -/
@[irreducible] def rawSpec : List Byte := "<raw array>".toList.map fun c => BitVec.ofNat 8 c.toNat

variable (O : FloatOps)

mutual
/-- The technical text of a value. -/
def text (hex : Bool) : Tv → List Byte
  | .ref v => [114#8, 101#8, 102#8, 58#8, 32#8] ++ text hex v
  | .float f => O.gText f
  | .int i => if hex then hexText i else decText i
  | .arr items => [91#8, 32#8] ++ textItems hex items true ++ [32#8, 93#8]
  | .str bytes => [34#8] ++ bytes ++ [34#8]
  | .table slots => [123#8, 32#8] ++ textSlots hex slots true ++ [32#8, 125#8]
  | .raw => rawSpec
  | .other => []
/-- Elements separated by commas. -/
def textItems (hex : Bool) : Items → (first : Bool) → List Byte
  | .nil, _ => []
  | .cons v vs, first => (if first then [] else [44#8, 32#8]) ++ text hex v ++ textItems hex vs false
/-- `key:value` pairs separated by commas. -/
def textSlots (hex : Bool) : Slots → (first : Bool) → List Byte
  | .nil, _ => []
  | .empty rest, first => textSlots hex rest first
  | .entry k v rest, first =>
    (if first then [] else [44#8, 32#8]) ++ text hex k ++ [58#8] ++ text hex v ++ textSlots hex rest false
end

end Wrench.Text
