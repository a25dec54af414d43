import Verif.Frames.Model

/-
Time slices: discrete_src/vm/vm.cpp 190-211 (`wr_setInstructionsPerSlice`, `wr_forceYield`,
`wr_slicesUsedLastCall`, CHECK_FORCE_YIELD), 651-661 (the count at the start of `wr_callFunction`),
684-709 (resuming), 828-845 (`doYield`), 1303 (`lastSlicesUsed` at the end); utils.cpp 239-262
(`wr_getYieldInfo`).

Simplifications.  As in Frames/Model.lean; `chk` says at which positions the instruction ends in
CHECK_FORCE_YIELD (the jumps and conditional jumps, not Switch).  The host continues a yielded context at
once, with the slice size it then has set; `wr_forceYield` is called between two instructions.
-/
namespace Wrench.Frames

/-- The state of the loop with `sliceInstructionCount` and `yieldEnabled`, wrench.h 1172-1174. -/
structure Sl where
  m : M
  count : Word32
  enabled : Bool

/-- Outcomes of one instruction.  `forced` is a yield by CHECK_FORCE_YIELD. -/
inductive SOut where
  | run (s : Sl)
  | forced (c : Ctx) (count : Word32)
  | yielded (c : Ctx) (count : Word32)
  | done (v : Val) (mem : Mem) (count : Word32)
  | err
  | ub

/-- `doYield` reached from CHECK_FORCE_YIELD, vm.cpp 211 and 839-843: no arguments, and the slot above the
stack is initialised. -/
def force (m : M) : Ctx :=
  { mem := m.mem.put (.s m.top) (.int 0), pc := m.pc, top := m.top, fb := m.fb, args := 0 }

/-- The resumption of a context with `WRC_ForceYielded`, vm.cpp 684-709: no value is expected. -/
def resumeForced (c : Ctx) : M :=
  { mem := c.mem, top := c.top, fb := c.fb, pc := c.pc, r0 := none }

/-- `sliceInstructionCount`/`yieldEnabled` at the start of `wr_callFunction`, vm.cpp 652-660; `n` is
`instructionsPerSlice`. -/
def enter (n : Word32) (m : M) (count : Word32) : Sl :=
  if n = 0 then { m := m, count := count, enabled := false } else { m := m, count := n, enabled := true }

/-- `wr_forceYield`, vm.cpp 199-203. -/
def Sl.forceYield (s : Sl) : Sl := { s with count := 1, enabled := true }

/-- `lastSlicesUsed`, vm.cpp 837 and 1303. -/
def slicesUsed (n count : Word32) : Word32 := n - count

/-- One instruction.  Decrementing the least `int` is undefined. -/
def stepS (P : Prog) (base : Nat) (chk : Nat → Bool) (s : Sl) : SOut :=
  match step P base s.m with
  | .run m =>
    if chk s.m.pc then
      if s.count = BitVec.intMin 32 then .ub
      else if s.count - 1 = 0 ∧ s.enabled = true then .forced (force m) (s.count - 1)
      else .run { s with m := m, count := s.count - 1 }
    else .run { s with m := m }
  | .yielded c => .yielded c s.count
  | .done v mem => .done v mem s.count
  | .err => .err
  | .ub => .ub

/-- What the host does around one instruction: the value with which it answers a `yield`, the slice size
that is set when it continues, whether it has just called `wr_forceYield`. -/
structure Visit where
  ans : Val
  slice : Word32
  force : Bool

/-- The host continues a yielded context; a forced yield takes no value (`wr_getYieldInfo` gives no place for
one, utils.cpp 258). -/
def goOn (e : Visit) : SOut → SOut
  | .forced c count => .run (enter e.slice (resumeForced c) count)
  | .yielded c count => .run (enter e.slice (resume (c.setResult e.ans)) count)
  | o => o

/-- One instruction and the host continuing. -/
def stepHS (P : Prog) (base : Nat) (chk : Nat → Bool) (e : Visit) (s : Sl) : SOut :=
  goOn e (stepS P base chk (if e.force then s.forceYield else s))

/-- A run in slices. -/
def runS (P : Prog) (base : Nat) (chk : Nat → Bool) : List Visit → SOut → SOut
  | e :: es, .run s => runS P base chk es (stepHS P base chk e s)
  | _, o => o

/-- A run without slices. -/
def runH (P : Prog) (base : Nat) : List Val → Out → Out
  | v :: vs, .run m => runH P base vs (stepH P base v m)
  | _, o => o

end Wrench.Frames
