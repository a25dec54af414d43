import Verif.Containers.HashLibProps

/-
Concrete cases for the `hash::` library (C95).
-/
namespace Wrench.HashLib
open Wrench.HashTable

/-- Addresses of blocks. -/
def demoAddr : Nat → Nat → Nat := fun o g => 1048584 + 1048576 * o + 65536 * g

/-- Variables that hold nothing of interest. -/
def demoWorld : World Nat Nat := ⟨fun _ => none, 0, fun _ => .other 0⟩

theorem demoWorld_fresh : Fresh demoWorld := ⟨rfl, fun _ => rfl, fun _ => ⟨0, rfl⟩⟩

/-- The answers of a script. -/
def demo (cs : List (Call Nat Nat)) : Option (List (Ans Nat)) :=
  (calls 0 0 demoAddr demoWorld cs).map (·.2)

/-- Adding (with growth), reading, removing, through two variables that hold the same table. -/
theorem C95_demo : demo [.clear 0, .add 0 10 1#32 1, .copy 1 0, .add 1 30 3#32 3, .put 0 5#32 5 50, .get 1 5#32 5,
      .get 0 3#32 3, .remove 1 1#32, .exists_ 0 1#32, .count 7] =
    some [.table 0, .val 10, .unit, .val 30, .unit, .val 50, .val 30, .num 1179688#32, .num 0#32,
      .num 0#32] := by decide +kernel

example : ∃ w as, calls 0 0 demoAddr demoWorld ([.clear 0, .add 0 10 1#32 1, .copy 1 0] ++ [.exists_ 1 1#32]) =
      some (w, as) ∧ (as.getLast? == some (.num 1114152#32)) = true :=
  exists_of_check _ (by decide +kernel)

example : logOf ([.clear 0, .add 0 10 1#32 1, .copy 1 0] : List (Call Nat Nat)) 1 = some [.write 1#32 1 10] := rfl

/-- Every object's blocks can lie at plausible addresses. -/
theorem plausible_demo : Plausible fun _ _ => 8 := by
  intro o g
  refine ⟨by simp, fun i => ?_⟩
  show (8 + 32 * i) % 4294967296 ≠ 0
  omega

/-- **`hash::exists( h, k ) == 1` is false for a key that is there.** -/
theorem C95_never_one : ∃ n, demo [.clear 0, .add 0 10 1#32 1, .exists_ 0 1#32] =
    some [.table 0, .val 10, .num n] ∧ n ≠ 1#32 ∧ n ≠ 0#32 := ⟨1114152#32, by decide +kernel, by decide, by decide⟩

/-- **`hash::clear` does not empty the table**: another variable that holds it still finds everything
in it. -/
theorem C95_clear_leaves_the_others : ∃ n, demo [.clear 0, .add 0 10 1#32 1, .copy 1 0, .clear 0,
      .exists_ 0 1#32, .exists_ 1 1#32, .get 1 1#32 1] =
    some [.table 0, .val 10, .unit, .table 1, .num 0#32, .num n, .val 10] ∧ n ≠ 0#32 :=
  ⟨1114152#32, by decide +kernel, by decide⟩

/-- **`hash::count` of three keys is two.** -/
theorem C95_count_wrong : demo [.clear 0, .add 0 1 0#32 0, .add 0 2 1#32 1, .add 0 3 2#32 2, .count 0] =
    some [.table 0, .val 1, .val 2, .val 3, .num 2#32] := by decide +kernel

end Wrench.HashLib
