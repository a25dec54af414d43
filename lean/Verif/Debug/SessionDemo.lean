/-
A concrete session, and one that loads a program.
-/
import Verif.Debug.SessionProps

namespace Wrench.Session

/-- A server: the state is the line reached; variable `i` has the value `100 + i`; running prints
a line of text. -/
def demoServer : Server Nat Int
  | s, .run l => (l.toNat, [[s, l.toNat]], ⟨.ok, 0⟩)
  | s, .stepOver => (s + 1, [], ⟨.ok, 0⟩)
  | s, .stepInto => (s + 1, [], ⟨.ok, 0⟩)
  | s, .value i _ => (s, [], ⟨.value, 100 + i⟩)
  | s, .callstack => (s, [], ⟨.callstack, s⟩)
  | s, .symbols => (s, [], ⟨.symbols, 7⟩)
  | s, .source => (s, [], ⟨.source, 8⟩)
  | s, .hash => (s, [], ⟨.hash, 9⟩)
  | s, .stackDump => (s, [], ⟨.stackDump, 10⟩)
  | _, .load _ => (0, [], ⟨.ok, 0⟩)
  | s, .setBreakpoint _ => (s, [], ⟨.ok, 0⟩)
  | s, .clearBreakpoint _ => (s, [], ⟨.ok, 0⟩)

/-- The hypothesis of `C89_session_partial` is met. -/
theorem demo_quiet : Quiet demoServer := fun _ => rfl

/-- A session. -/
theorem demo_session :
    (session demoServer [] (start 0) [.getFunctions, .setBreakpoint 5, .run 5, .getCallstack,
      .getValue 1 0, .getValue 2 0, .stepOver, .getCallstack]).2 =
      [some 7, none, none, some 5, some 101, some 102, none, some 6] ∧
    (session demoServer [] (start 0) [.run 5, .run 6]).1.shown = [[0, 5], [5, 6]] := by decide

/-- After `load`, the value asked for is the one asked for before. -/
theorem C89_wrong_value :
    (session demoServer [] (start 0) [.load [1], .getFunctions, .getValue 1 0, .getValue 2 0,
      .getValue 3 0, .getCallstack]).2 =
      [none, some 7, none, some 101, some 102, none] ∧
    (Direct.session demoServer ⟨0, none, none, none, []⟩ [.load [1], .getFunctions,
      .getValue 1 0, .getValue 2 0, .getValue 3 0, .getCallstack]).2 =
      [none, some 7, some 101, some 102, some 103, some 0] := by decide

/-- One reply late, and the same happens. -/
theorem C89_late :
    (session demoServer [true, false] (start 0) [.getValue 1 0, .getValue 2 0, .getValue 3 0,
      .getValue 4 0]).2 = [some 101, none, some 102, some 103] := by decide

end Wrench.Session
