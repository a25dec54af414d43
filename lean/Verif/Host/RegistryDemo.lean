import Verif.Host.RegistryProps

/-
C72: histories outside the hypotheses, and one inside them.
-/
namespace Wrench.Registry

open Wrench Wrench.HashTable

/-- A state with two contexts: context 1 has the function `7`. -/
def demo : Option St :=
  match init zero () 0, newContext [], newContext [7] with
  | some g, some a, some b => some ⟨g, fun d => if d = 1 then b else a⟩
  | _, _, _ => none

/-- What the operations give on it; context 0 has imported context 1. -/
def demoRun (ops : List Op) : Option (List Out) :=
  (demo.bind fun s => run (fun c => if c = 0 then [1] else []) s ops).map (·.2)

/-- **The registry has no kinds**: the host calls a `wr_registerFunction` function as a library
function. -/
theorem C72_native_as_library : demoRun [.regFn 5 0x400 9, .host 0 5] = some [.done, .lib 0x400] := by decide +kernel

/-- **Looking up registers**: `sys::isFunction` knows a name only because a call of it has failed. -/
theorem C72_looked_up : demoRun [.isFunction 0 5, .libCall 5, .isFunction 0 5] = some [.num 0, .err, .num 1] := by
  decide +kernel

/-- And an imported function changes from 2 to 1 once it has been called by the importing script. -/
theorem C72_imported_looked_up : demoRun [.isFunction 1 7, .call 0 7, .isFunction 1 7] = some [.num 2, .script 1 0, .num 1] := by
  decide +kernel

/-- **A failed call from the host** leaves an entry with no function in the context; the call that a script
importing the context makes, which would have failed, then runs the top-level code of the import. -/
theorem C72_failed_host_call : demoRun [.call 0 5] = some [.err] ∧ demoRun [.host 1 5, .call 0 5] = some [.err, .main 1] := by
  decide +kernel

/-! ### The hypotheses can be met -/

/-- A script function is imported, a C function replaces it, a library function and a constant are used. -/
example : demoRun [.call 0 7, .regFn 7 0x400 9, .call 0 7, .regLib 5 0x500, .libCall 5, .host 0 5, .host 1 7, .regInt 3 12, .load 3,
      .regFloat 3 0x3F800000, .load 3, .getFunction 1 7, .isFunction 1 8] =
    some [.script 1 0, .done, .native 0x400 9, .done, .lib 0x500, .lib 0x500, .script 1 0, .done, .value 0 12, .done,
      .value 1 0x3F800000, .found (some 0), .num 0] := by decide +kernel

example : ProperRun (fun h => if h = 7 then .fn else if h = 5 then .lib else .const) (fun c => if c = 0 then [1] else [])
    (fun d h => lastIndex h (if d = 1 then [7] else [])) .start
    [.call 0 7, .regFn 7 0x400 9, .call 0 7, .regLib 5 0x500, .libCall 5, .host 0 5, .host 1 7, .regInt 3 12, .load 3,
      .regFloat 3 0x3F800000, .load 3, .getFunction 1 7, .isFunction 1 8] := by
  simp [ProperRun, Proper, spec, Op.name, nullHash, Sp.start, Sp.set, Sp.look, lastIndex]

end Wrench.Registry
