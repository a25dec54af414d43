/-
A concrete debugging session, and what goes wrong in others.
-/
import Verif.Debug.ServerProps

namespace Wrench.Server

/-- A program coming to a line, calling a function, returning. -/
def atLine (n : Word32) : Ev := { cw := codewordOf lineNumber n, off := 0 }
def calls (u : Word32) : Ev := { cw := codewordOf functionCall u, off := 3 }
def returns : Ev := { cw := codewordOf return_ 0, off := 0 }

/-- Two functions, without and with an argument. -/
def demoFuncs : List (Byte × Word16) := [(0, 1), (1, 2)]

/-- Line 1; line 2 calls the first function (line 10), which calls the second (line 20); line 3. -/
def demoEvs : List Ev :=
  [atLine 1, atLine 2, calls 1, atLine 10, calls 2, atLine 20, returns, returns, atLine 3]

theorem demo_kinds : kind (atLine 1) = .line 1 ∧ kind (atLine 2) = .line 2 ∧
    kind (atLine 3) = .line 3 ∧ kind (atLine 10) = .line 10 ∧ kind (atLine 20) = .line 20 ∧
    kind (calls 1) = .call 1 ∧ kind (calls 2) = .call 2 ∧ kind returns = .ret := by
  decide +kernel

/-- The hypotheses of `C87_run_partial` and `C87_step_into` are met. -/
theorem demo_fine : Fine demoFuncs (loaded 2).callStack.length demoEvs := by
  obtain ⟨h1, h2, h3, h4, h5, h6, h7, h8⟩ := demo_kinds
  simp only [Fine, demoEvs, loaded, demoFuncs, h1, h2, h3, h4, h5, h6, h7, h8]
  decide

/-- Running to a breakpoint on line 20, with the functions on the stack. -/
theorem demo_run :
    (requests demoFuncs (loaded 2) demoEvs [.setBreakpoint 20, .run 0]).map
      (fun r => (r.1.callStack.map (fun e => (e.thisUnit, e.onLine)), r.2.1, r.2.2)) =
    some ([(0, 2), (1, 10), (2, 20)], [returns, returns, atLine 3], true) := by decide +kernel

/-- Stepping into, into, into; and over the call on line 2. -/
theorem demo_steps :
    (requests demoFuncs (loaded 2) demoEvs [.stepInto, .stepInto, .stepInto]).map (fun r => r.2.1) =
      some [calls 2, atLine 20, returns, returns, atLine 3] ∧
    (requests demoFuncs (loaded 2) demoEvs [.stepInto, .stepInto, .stepOver]).map (fun r => r.2.1) =
      some [] := by decide +kernel

/-- The hypotheses of `C87_step_over` are met between lines 2 and 3. -/
theorem demo_inside :
    Inside [] 0 [calls 1, atLine 10, calls 2, atLine 20, returns, returns] ∧
    bal [calls 1, atLine 10, calls 2, atLine 20, returns, returns] = 0 := by
  constructor
  · obtain ⟨h1, h2, h3, h4, h5, h6, h7, h8⟩ := demo_kinds
    simp only [Inside, h4, h5, h6, h7, h8]
    decide
  · decide +kernel

/-- The call stack after the function returned shows the function, not the global unit, and
gives the line of the global unit to it. -/
theorem C87_wrong_after_return :
    (requests demoFuncs (loaded 2) [atLine 2, calls 1, atLine 10, returns, atLine 3] [.run 3]).map
      (fun r => r.1.callStack.map (fun e => (e.thisUnit, e.onLine))) = some [(1, 3)] := by
  decide +kernel

/-- A function that the host calls when the program has finished has no caller on the stack;
the next line after its return is stored through a null pointer. -/
theorem C87_null_after_host_call :
    encountered demoFuncs { loaded 2 with callStack := [] } (atLine 3) = none ∧
    (requests demoFuncs (loaded 2) [atLine 1, returns, atLine 2] [.run 0]) = none := by
  decide +kernel

/-- A step that ends on a breakpoint stays under way: the `run` behind it stops on line 3,
where there is no breakpoint. -/
theorem C87_run_stops_early :
    (requests demoFuncs (loaded 2) [atLine 1, atLine 2, atLine 3, atLine 4]
      [.stepInto, .setBreakpoint 2, .stepInto, .run 0]).map (fun r => (r.2.1, r.2.2)) =
    some ([atLine 4], true) := by decide +kernel

/-- Stepping over the end of a function, the caller going on to call another in the same line:
the step stops in that one. -/
theorem C87_step_over_into :
    (requests demoFuncs (loaded 2) [atLine 2, calls 1, atLine 10, returns, calls 2, atLine 20,
        returns, atLine 3] [.run 10, .stepOver]).map (fun r => (r.2.1, r.2.2)) =
    some ([returns, atLine 3], true) := by decide +kernel

/-- A breakpoint on line 5 stops on line 16389, and one on line 16389 never does. -/
theorem C87_far_lines :
    (requests demoFuncs (loaded 2) [atLine 16389] [.setBreakpoint 5, .run 0]).map (fun r => r.2.2)
      = some true ∧
    (requests demoFuncs (loaded 2) [atLine 16389] [.setBreakpoint 16389, .run 0]).map
      (fun r => r.2.2) = some false := by decide +kernel

end Wrench.Server
