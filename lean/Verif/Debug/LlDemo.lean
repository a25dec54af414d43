/-
Concrete runs of the linked list.
-/
import Verif.Debug.LlProps

namespace Wrench.Ll

/-- The answers of a run as plain data. -/
def shownOut : Out Nat → List Nat
  | .none => []
  | .item none => [0]
  | .item (some v) => [1, v]
  | .num n => [2, n]
  | .items vs => 3 :: vs

/-- A run that uses every operation, on a list with a head, a tail and a middle. -/
def demoOps : List (Op Nat) :=
  [.addHead 10, .addHead 5, .addTail 15, .addTail 20, .walk, .popAt 1, .count, .get 1, .last,
   .popFound 1, .walk, .popTail, .popHead, .popHead, .addTail 7, .get (-1), .clear, .count]

/-- The code and the plain sequence agree on it, and the answers are not all alike. -/
theorem demo_run :
    ((run (empty Nat) demoOps).map (fun r => r.2.map shownOut)) =
      some [[], [], [], [], [3, 5, 10, 15, 20], [1, 10], [2, 3], [1, 15], [1, 20], [],
        [3, 5, 20], [1, 20], [1, 5], [0], [], [1, 7], [], [2, 0]] ∧
    ((specRun [] demoOps).2.map shownOut) =
      [[], [], [], [], [3, 5, 10, 15, 20], [1, 10], [2, 3], [1, 15], [1, 20], [],
        [3, 5, 20], [1, 20], [1, 5], [0], [], [1, 7], [], [2, 0]] := by
  decide +kernel

/-- Walking a list and taking out each item when it is reached, as a user of the list might
write it: `for( x = first(); x; x = next() ) popItem( x )`. -/
def walkRemoving : Nat → LL Nat → Nat → List Nat → Option (List Nat)
  | 0, _, _, acc => some acc
  | fuel + 1, s, x, acc =>
    if x = 0 then some acc
    else match s.mem x with
      | none => none
      | some n =>
        match popItem s x with
        | none => none
        | some s =>
          match next s with
          | none => none
          | some (s, x') => walkRemoving fuel s x' (acc ++ [n.item])

/-- Taking an item out moves the iterator to the one behind it, and `next` then steps over
that one: walking `1 2 3 4` while removing visits `1` and `3` only. -/
theorem C86_removing_skips :
    (run (empty Nat) [.addTail 1, .addTail 2, .addTail 3, .addTail 4]).map
      (fun r => walkRemoving 10 (first r.1).1 (first r.1).2 []) = some (some [1, 3]) := by
  decide +kernel

end Wrench.Ll
