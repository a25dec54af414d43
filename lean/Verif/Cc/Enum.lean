import Verif.Cc.Scanner

/-
Enumerations: `parseEnum`, cc/cc.cpp 2438-2586, over the source text, with the tokenizer of
Verif/Cc/Scanner.lean.  Named constants are replaced by the tokenizer itself, so the list `K` of
constants grows while the declaration is read.

Simplifications.  `K` is `constantValues` of unit 0 followed by that of the current unit (the order in
which cc/token.cpp 88-121 consults them); a new constant goes to the end.  Which error is reported is
left out.  A float keeps its text; a negated one gets a minus sign in front of it.  Signed overflow
of `index` is the outcome `ub`.
-/
namespace Wrench.Cc.Enum

open Wrench Wrench.Cc

abbrev Consts := List (List Byte × Value)

/-- `token`: empty for literals other than strings (the digits of a number are there as well, but are
equal to none of the texts compared with here). -/
def text : Tok → List Byte
  | .sym t => t
  | .lit (.str t) => t
  | .lit _ => []

def ascii (s : String) : List Byte := s.toList.map fun c => BitVec.ofNat 8 c.toNat

/-- `c_reserved`, cc/cc.cpp 30-57. -/
def reserved : List (List Byte) :=
  ["enum", "break", "case", "continue", "default", "do", "else", "false", "float", "for", "if", "int", "return",
   "switch", "true", "function", "while", "new", "null", "struct", "goto", "export", "unit", "blank"].map ascii

/-- `isValidLabel( token, isGlobal, prefix, isLibConstant ) && !isGlobal && !isLibConstant`, cc/cc.cpp
193-275: a token with a colon is either refused or global. -/
def validLabel (t : List Byte) : Bool :=
  match t with
  | [] => false
  | c :: w => (isAlpha c || c == 95#8) && w.all isName && !(reserved.contains (c :: w))

/-- Result of `parseEnum`: the constants and the rest of the source, a compile error, or undefined
behaviour. -/
inductive Res where
  | ok (K : Consts) (rest : List Byte)
  | err
  | ub
deriving DecidableEq, Repr

/-- `getToken( ex )` with the push-back register, cc/token.cpp 42-47. -/
def next (L : Nat) (K : Consts) : Option Tok → List Byte → Option (Tok × List Byte)
  | some t, src => some (t, src)
  | none, src =>
    match getToken L K src with
    | .tok t r => some (t, r)
    | _ => none

/-- `value` after the optional minus sign, cc/cc.cpp 2541-2563, and `index` afterwards. -/
def settle (neg : Bool) (index : Int) : Value → Option (Option (Value × Int))
  | .int v =>
    if neg = true ∧ v = 0x80000000#32 then none                  -- -INT_MIN
    else
      let w := if neg then -v else v
      if w = 0x7FFFFFFF#32 then none                              -- INT_MAX + 1
      else some (some (.int w, w.toInt + 1))
  | .float t => some (some (.float (if neg then 45#8 :: t else t), index + 1))
  | .str _ => some none

/-- The end of `parseEnum`, cc/cc.cpp 2578-2585: an optional semicolon. -/
def finish (L : Nat) (K : Consts) (src : List Byte) : Res :=
  match getToken L K src with
  | .tok t r => if text t = ascii ";" then .ok K r else .ok K src
  | .eof => .ok K []
  | _ => .err

/-- The literal after `=`, cc/cc.cpp 2513-2532: a minus sign, then a value. -/
def explicit (L : Nat) (K : Consts) (src : List Byte) : Option (Bool × Value × List Byte) :=
  match next L K none src with
  | none => none
  | some (t, r) =>
    if text t = ascii "-" then
      match next L K none r with
      | some (.lit v, r) => some (true, v, r)
      | _ => none
    else
      match t with
      | .lit v => some (false, v, r)
      | _ => none

/-- The loop, cc/cc.cpp 2469-2576; `n` bounds the number of rounds (each one reads a token). -/
def loop (L : Nat) (pfx : List Byte) : Nat → Int → Consts → Option Tok → List Byte → Res
  | 0, _, _, _, _ => .err
  | n + 1, index, K, pend, src =>
    match next L K pend src with
    | none => .err
    | some (t, r) =>
      if t = .sym (ascii "}") then finish L K r
      else if t = .sym (ascii ",") then loop L pfx n index K none r
      else if validLabel (text t) = false then .err
      else if index = 2147483647 then .ub                          -- index++, 2495
      else
        match next L K none r with
        | none => .err
        | some (t2, r2) =>
          if t2 = .sym (ascii "=") then
            match explicit L K r2 with
            | none => .err
            | some (neg, v, r3) =>
              match settle neg index v with
              | none => .ub
              | some none => .err
              | some (some (v, index)) =>
                if (pfx ++ text t) ∈ K.map (·.1) then .err
                else loop L pfx n index (K ++ [(pfx ++ text t, v)]) none r3
          else if (pfx ++ text t) ∈ K.map (·.1) then .err
          else loop L pfx n (index + 1) (K ++ [(pfx ++ text t, .int (BitVec.ofInt 32 index))]) (some t2) r2

/-- `parseEnum` after the keyword, cc/cc.cpp 2438-2586: an optional name, `{`, the members. -/
def parseEnum (L : Nat) (K : Consts) (src : List Byte) : Res :=
  match next L K none src with
  | none => .err
  | some (t, r) =>
    match t with
    | .lit (.str _) => loop L [] (2 * src.length + 2) 0 K none r
    | _ =>
      if text t = ascii "{" then loop L [] (2 * src.length + 2) 0 K none r
      else if validLabel (text t) = false then .err
      else
        match next L K none r with
        | none => .err
        | some (t2, r2) =>
          if text t2 = ascii "{" then loop L (text t ++ ascii "::") (2 * src.length + 2) 0 K none r2
          else .err

end Wrench.Cc.Enum
