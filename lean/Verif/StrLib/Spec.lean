import Verif.StrLib.Model

/-
What the string functions should do, on lists of bytes, and how arguments are read.
-/
namespace Wrench.StrLib

open Ops

/-- The arguments of a call: cell `b + i` designates `vs[i]`, through at most `K` references or
container elements. -/
def Args (σ : St) (K b : Nat) (vs : List Val) : Prop :=
  ∀ i v, vs[i]? = some v → ∃ mb, Reads σ mb K (.cell (b + i)) v

/-- The value is a string with these bytes. -/
def IsString (σ : St) (v : Val) (bs : List Byte) : Prop :=
  bs.length < 2 ^ 32 ∧ ∃ o nc, v = .arr o ∧ σ.obj o = .chars bs nc

/-- The value is not a string. -/
def NotString (σ : St) (v : Val) : Prop := ∀ o, v = .arr o → ∀ bs nc, σ.obj o ≠ .chars bs nc

/-- The integer an argument stands for: itself, a float truncated, or the hash of an object. -/
inductive IntOf (E : LEnv) (σ : St) : Val → Word32 → Prop where
  | int {w} : IntOf E σ (.int w) w
  | float {x w} : E.toInt x = some w → IntOf E σ (.float x) w
  | obj {v} : v.isNum = false → IntOf E σ v (getHash E.toEnv σ v)

/-- White space. -/
def isSpace (b : Byte) : Bool := [32#8, 9#8, 10#8, 11#8, 12#8, 13#8].contains b

def trimLeft (s : List Byte) : List Byte := s.dropWhile isSpace
def trimRight (s : List Byte) : List Byte := (s.reverse.dropWhile isSpace).reverse

/-- The letters. -/
def lower (b : Byte) : Byte := if 65 ≤ b.toNat ∧ b.toNat ≤ 90 then b + 32#8 else b
def upper (b : Byte) : Byte := if 97 ≤ b.toNat ∧ b.toNat ≤ 122 then b - 32#8 else b

/-- Bytes for which the character class functions of C are defined when passed as `char`. -/
def CtypeOk (b : Byte) : Prop := b.toNat < 128 ∨ b = 0xFF#8

instance (b : Byte) : Decidable (CtypeOk b) := inferInstanceAs (Decidable (_ ∨ _))

end Wrench.StrLib
