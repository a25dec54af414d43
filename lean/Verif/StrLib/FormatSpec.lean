import Verif.StrLib.Sprintf
import Verif.StrLib.Spec

/-
The text a format string and its arguments stand for.
-/
namespace Wrench.StrLib

open Ops

/-- An argument of a format: a number, a string, or another object. -/
inductive FArg where
  | int (w : Word32)
  | float (x : Word32)
  | str (bs : List Byte)
  | obj
deriving DecidableEq, Repr

/-- Why a format has no text: `%s` with something that is not a string, or undefined behaviour (the
number of an object, a float out of range, the decimal text of `INT_MIN`, a width of 2^32 or
more). -/
inductive Bad where
  | notString
  | undefined
deriving DecidableEq, Repr

/-- The number an argument is printed as. -/
def FArg.number (E : LEnv) : FArg → Except Bad Word32
  | .int w => .ok w
  | .float x => match E.toInt x with
    | some w => .ok w
    | none => .error .undefined
  | .str bs => .ok (wrHash bs)
  | .obj => .error .undefined

def digitText (lowercase : Bool) (d : Nat) : Byte :=
  ((if lowercase then str "0123456789abcdef" else str "0123456789ABCDEF")[d]?).getD 0#8

/-- The digits of a number, most significant first, no leading zeros. -/
def numeral (lowercase : Bool) (base n : Nat) : List Byte :=
  if _h : n < base ∨ base < 2 then [digitText lowercase n]
  else numeral lowercase base (n / base) ++ [digitText lowercase (n % base)]
termination_by n
decreasing_by exact Nat.div_lt_self (by omega) (by omega)

/-- The characters between `%` and the conversion: digits, `#`, `-`. -/
def isMod (c : Byte) : Bool := (str "0123456789#-").contains c

def isDig (c : Byte) : Bool := (str "0123456789").contains c

/-- The number written by the digits among the modifiers. -/
def widthOf (ms : List Byte) : Nat := (ms.filter isDig).foldl (fun n c => 10 * n + (c.toNat - 48)) 0

/-- Whether the width starts with a 0. -/
def zeroFlag (ms : List Byte) : Bool := (ms.filter isDig).head? = some 48#8

/-- A field: padding, sign, `0x`, the text, padding.  The width counts the text only. -/
def justify (ms : List Byte) (zeros : Bool) (sign : List Byte) (hex : Bool) (text : List Byte) :
    Except Bad (List Byte) :=
  if widthOf ms ≥ 2 ^ 32 then .error .undefined
  else
    let pad := widthOf ms - text.length
    let left := ms.contains 45#8
    .ok ((if left then [] else List.replicate pad (if zeros && zeroFlag ms then 48#8 else 32#8)) ++
      sign ++ (if ms.contains 35#8 || hex then str "0x" else []) ++ text ++
      (if left then List.replicate pad 32#8 else []))

/-- The number a directive is given: 0 when no argument is left. -/
def numberOf (E : LEnv) (arg : Option FArg) : Except Bad Word32 :=
  match arg with
  | some a => a.number E
  | none => .ok 0#32

/-- The text of one directive: modifiers, conversion, the argument if there is one left. -/
def directive (E : LEnv) (ms : List Byte) (k : Byte) (arg : Option FArg) : Except Bad (List Byte) := do
  if k = 99#8 then -- c
    match arg with
    | some a => do
      let w ← a.number E
      return [w.setWidth 8]
    | none => return []
  else if k = 37#8 then return [37#8]
  else if k = 115#8 then -- s
    match arg with
    | some (.str bs) => justify ms false [] false bs
    | some _ => .error .notString
    | none => justify ms false [] false []
  else if k = 100#8 ∨ k = 105#8 then do -- d i
    let w ← numberOf E arg
    if w = 0x80000000#32 then .error .undefined
    justify ms true (if w.toInt < 0 then [45#8] else []) false (numeral false 10 w.toInt.natAbs)
  else if k = 117#8 then do -- u
    let w ← numberOf E arg
    justify ms true [] false (numeral false 10 w.toNat)
  else if k = 98#8 then do -- b: the low 16 bits
    let w ← numberOf E arg
    justify ms true [] false (numeral false 2 (w.toNat % 2 ^ 16))
  else if k = 111#8 then do -- o: the low 15 bits
    let w ← numberOf E arg
    justify ms true [] false (numeral false 8 (w.toNat % 8 ^ 5))
  else if k = 120#8 then do -- x
    let w ← numberOf E arg
    justify ms true [] false (numeral true 16 w.toNat)
  else if k = 88#8 ∨ k = 112#8 then do -- X p
    let w ← numberOf E arg
    justify ms true [] (k = 112#8) (numeral false 16 w.toNat)
  else return []

/-- How many arguments a conversion takes. -/
def takes (k : Byte) : Nat := if (str "csdiuboxXp").contains k then 1 else 0

/-- The text of a format: everything but `%` stands for itself; an unfinished directive at the end
prints nothing. -/
def render (E : LEnv) (fmt : List Byte) (args : List FArg) : Except Bad (List Byte) :=
  match fmt with
  | [] => .ok []
  | c :: r =>
    if c ≠ 37#8 then do
      let t ← render E r args
      return c :: t
    else
      match h : r.dropWhile isMod with
      | [] => .ok []
      | k :: rest => do
        let t ← directive E (r.takeWhile isMod) k args.head?
        let u ← render E rest (args.drop (takes k))
        return t ++ u
termination_by fmt.length
decreasing_by
  · simp
  · have := (List.dropWhile_suffix isMod (l := r)).length_le
    rw [h] at this
    simp at this ⊢
    omega

/-- The value is this argument, and not a string in the output buffer.  Nothing is said about a
value described as `obj`; a format that uses it has no text. -/
inductive Denotes (σ : St) (out : Out) : Val → FArg → Prop where
  | int {w} : Denotes σ out (.int w) (.int w)
  | float {x} : Denotes σ out (.float x) (.float x)
  | str {o nc bs} : σ.obj o = .chars bs nc → out ≠ .obj o → Denotes σ out (.arr o) (.str bs)
  | obj {v} : Denotes σ out v .obj

/-- The arguments from cell `ab` on, each directly or through references. -/
def FArgs (σ : St) (out : Out) (K ab : Nat) (as : List FArg) : Prop :=
  ∀ i a, as[i]? = some a → ∃ v, Reads σ false K (.cell (ab + i)) v ∧ Denotes σ out v a

end Wrench.StrLib
