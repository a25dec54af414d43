/-
The listing of the source and the words of a command in the debugger's front end,
discrete_src/debug/debugger.cpp 588-649.
-/
import Verif.Bytes.Model

namespace Wrench.Listing

/-- `splitNL`, discrete_src/debug/debugger.cpp 611-649, on a text without terminators in it.  `cur`
is the line under way: none at the top of the outer loop, where a line is begun only if there is
more text. -/
def splitGo : Option (List Byte) → List Byte → List (List Byte)
  | none, [] => []
  | some l, [] => [l]
  | cur, c :: r =>
    let l := cur.getD []
    if c = 13#8 then
      match r with
      | [] => [l]
      | d :: r' => if d = 10#8 then l :: splitGo none r' else l :: splitGo none (d :: r')
    else if c = 10#8 then l :: splitGo none r
    else splitGo (some (l ++ [c])) r
  termination_by _ s => s.length

/-- `splitNL`. -/
def splitNL (src : List Byte) : List (List Byte) := splitGo none src

/-- `isspace` in the C locale. -/
def isSpace (c : Byte) : Bool := c == 32#8 || (decide (9 ≤ c.toNat) && decide (c.toNat ≤ 13))

/-- `splitArgs`, discrete_src/debug/debugger.cpp 588-608.  `cur` is the word under way, none when
spaces are being skipped. -/
def argsGo : Option (List Byte) → List Byte → List (List Byte)
  | none, [] => []
  | some w, [] => [w]
  | none, c :: r => if isSpace c then argsGo none r else argsGo (some [c]) r
  | some w, c :: r => if isSpace c then w :: argsGo none r else argsGo (some (w ++ [c])) r

/-- `splitArgs`: the loop begins with a word, also if the text begins with a space. -/
def splitArgs (s : List Byte) : List (List Byte) := if s = [] then [] else argsGo (some []) s

end Wrench.Listing
