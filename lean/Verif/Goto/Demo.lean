import Verif.Goto.Props
import Verif.Goto.Bytes

/-
Concrete cases for `goto` (C98).
-/
namespace Wrench.Goto

open Wrench

/-- Does a run end with `x`? -/
def finAt [DecidableEq σ] (r : Option (Res σ ρ)) (x : σ) : Bool :=
  match r with
  | some (.fin y) => decide (y = x)
  | _ => false

/-- `i = 0; again: i = i + 1; if (i < 5) goto again;` by jumping backwards. -/
def demoBack : Stmt Nat Unit :=
  .seq (.act fun _ => 0) (.seq (.label 7#32) (.seq (.act (· + 1)) (.ifThen (fun x => (decide (x < 5), x)) (.goto 7#32))))

example : ((build demoBack).map fun P => finAt (run P 40 0 99) 5) = some true := by decide +kernel

/-- Out of two nested loops: `for (;;) { while (true) { x = x + 1; if (x == 3) goto out; } } out:` -/
def demoOut : Stmt Nat Unit :=
  .seq (.forLoop [] none [] (.loop (fun x => (true, x)) (.seq (.act (· + 1)) (.ifThen (fun x => (x == 3, x)) (.goto 1#32)))))
    (.label 1#32)

example : ((build demoOut).map fun P => finAt (run P 40 0 0) 3) = some true := by decide +kernel

/-- Into a loop: `goto in; do { x = x + 100; in: x = x + 1; } while (x < 102);` -/
def demoIn : Stmt Nat Unit :=
  .seq (.goto 2#32) (.doLoop (.seq (.act (· + 100)) (.seq (.label 2#32) (.act (· + 1)))) (fun x => (decide (x < 102), x)))

example : ((build demoIn).map fun P => finAt (run P 40 0 0) 102) = some true := by decide +kernel

/-- The same label twice is accepted, and the first one is used. -/
def demoTwice : Stmt Nat Unit :=
  .seq (.goto 2#32) (.seq (.act (· + 100)) (.seq (.label 2#32) (.seq (.act (· + 1)) (.seq (.label 2#32) (.act (· + 10))))))

example : ((build demoTwice).map fun P => finAt (run P 40 0 0) 11) = some true := by decide +kernel

/-- No such label, and a `break` outside a loop. -/
example : (build (.seq (.label 1#32) (.goto 2#32) : Stmt Nat Unit)).isSome = false := by decide +kernel
example : (build (.seq (.goto 1#32) (.seq (.label 1#32) .brk) : Stmt Nat Unit)).isSome = false := by decide +kernel

/-- An instance of `C98_goto`: the source of `demoIn` ends with 102. -/
example : Ends demoIn 0 (.fin 102) := ⟨40, by rfl⟩

/-- An instance of `C98_goto_bytes`. -/
example : labelStmt id ⟨[1#8, 2#8], [.PopOne]⟩ = some (⟨[1#8, 2#8], []⟩, 3) := by decide +kernel

end Wrench.Goto
