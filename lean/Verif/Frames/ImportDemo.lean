import Verif.Frames.Import
import Verif.Frames.Demo

/-
A program with an imported context that meets the hypotheses of C105, and the cases in which an
imported function does not behave as an own one.
-/
namespace Wrench.Frames

open Instr

/-- The imported context:
```
function f() { var a = 7; return a; }
function h( x ) { return x + 1; }
``` -/
def importedCode : Nat → Option Instr
  | 10 => some (.plain (lit (.int 7)))
  | 11 => some (.plain (storeLocal demoEnv 0))
  | 12 => some (.plain (loadLocal 0))
  | 13 => some .ret
  | 20 => some (.plain (loadLocal 0))
  | 21 => some (.plain (lit (.int 1)))
  | 22 => some (.plain (binary demoEnv fun a b => demoWord a + demoWord b))
  | 23 => some .ret
  | 40 => some .stop
  | _ => none

def imported : Prog :=
  { demoEnv with
    code := importedCode,
    fns := fun g => if g = 0 then some (linkFn 10 0 1) else if g = 1 then some (linkFn 20 1 0) else none }

def importedDepths : Depths
  | 10 => some (some 0, 0, false)
  | 11 => some (some 0, 1, false)
  | 12 => some (some 0, 0, false)
  | 13 => some (some 0, 1, false)
  | 20 => some (some 1, 0, false)
  | 21 => some (some 1, 1, false)
  | 22 => some (some 1, 2, false)
  | 23 => some (some 1, 1, false)
  | _ => none

theorem imported_ok : imported.Ok := ⟨demoEnv_ok.elem, demoEnv_ok.lib⟩

theorem imported_wf : WF imported importedDepths := by
  have hv0 : nvars imported (some 0) = 1 := rfl
  have hv1 : nvars imported (some 1) = 1 := rfl
  refine ⟨?_, ?_, ?_⟩
  · intro g F h
    simp only [imported] at h
    split at h
    · next hg => subst hg; injection h with h; subst h; exact ⟨rfl, rfl⟩
    · split at h
      · next hg => subst hg; injection h with h; subst h; exact ⟨rfl, rfl⟩
      · cases h
  · intro pc f d h
    unfold importedDepths at h
    split at h <;> cases h
  · intro pc f d h
    unfold importedDepths at h
    split at h <;> first | (cases h; done) | skip
    all_goals
      injection h with h
      injection h with h1 h2
      injection h2 with h2 h3
    all_goals subst h1 h2
    · exact ⟨_, rfl, lit_ok rfl, by decide, fun _ => rfl, by simp [lit]⟩
    · exact ⟨_, rfl, storeLocal_ok demoEnv_ok (by rw [hv0]; decide), by decide, fun _ => rfl, by simp [storeLocal]⟩
    · exact ⟨_, rfl, loadLocal_ok (by rw [hv0]; decide), by decide, fun _ => rfl, by simp [loadLocal]⟩
    · exact ⟨_, rfl, rfl, by simp⟩
    · exact ⟨_, rfl, loadLocal_ok (by rw [hv1]; decide), by decide, fun _ => rfl, by simp [loadLocal]⟩
    · exact ⟨_, rfl, lit_ok rfl, by decide, fun _ => rfl, by simp [lit]⟩
    · exact ⟨_, rfl, binary_ok demoEnv_ok, by decide, fun _ => rfl, by simp [binary]⟩
    · exact ⟨_, rfl, rfl, by simp⟩

/-- The importing program, behind the call: `… + 5`. -/
def importerCode : Nat → Option Instr
  | 1 => some (.plain (lit (.int 5)))
  | 2 => some (.plain (binary demoEnv fun a b => demoWord a + demoWord b))
  | _ => none

def importer : Prog := { demoEnv with code := importerCode }

/-- Three operands, then a reference to the variable in slot 0 as the argument. -/
def importStart : M :=
  { mem := ⟨fun i => if i = 3 then .ref (.s 0) else .int (BitVec.ofNat 32 (100 + i)), fun _ => .int 0⟩,
    top := 4, fb := 0, pc := 0, r0 := none }

def backTop : IOut → Option (Val × Nat × Val)
  | .back m => some (m.mem.stk (m.top - 1), m.top, m.mem.stk 2)
  | _ => none

/-- `h( v )`, with `v` by reference, is 101. -/
example : backTop (importCall importer imported 40 (linkFn 20 1 0) 1 20 importStart) =
    some (.int 101, 4, .int 102) := by decide +kernel

/-- The example meets the hypotheses of `C105_import_call_partial`, for any number of instructions. -/
example (fuel : Nat) : importCall importer imported 40 (linkFn 20 1 0) 1 fuel importStart ≠ .ub := by
  refine C105_defined (R := fun i => i = 0) (g := 1) imported_ok imported_wf rfl rfl (by decide)
    (fun i h => by subst h; decide) ⟨fun _ => rfl, fun i h a ha => ?_⟩ (fun i h1 h2 a ha => ?_)
  · subst h; cases ha
  · obtain rfl : i = 3 := by
      have : importStart.top = 4 := rfl
      omega
    cases ha
    rfl

def afterCall (k : Nat) : IOut → Out
  | .back m => exec importer 0 k m
  | _ => .ub

def topOf : Out → Option (Val × Nat)
  | .run m => some (m.mem.stk (m.top - 1), m.top)
  | _ => none

/-- C105 fails: `f() + 5` with the imported `function f() { var a = 7; return a; }` is 10. -/
theorem C105_fails_sum :
    topOf (afterCall 2 (importCall importer imported 40 (linkFn 10 0 1) 0 20 { importStart with top := 3 })) =
      some (.int 10, 4) := by decide +kernel

/-- The same function as an own one: 12. -/
example : topOf (runN { demoEnv with
      code := fun pc => match pc with
        | 0 => some (.call 0 0)
        | 1 => some .pushRet
        | 2 => some (.plain (lit (.int 5)))
        | 3 => some (.plain (binary demoEnv fun a b => demoWord a + demoWord b))
        | pc => importedCode pc
      fns := imported.fns } 0 (.int 0) 8 (.run { importStart with top := 3 })) = some (.int 12, 4) := by
  decide +kernel

/-- C105 fails: the stack limit.  A function with `l` locals called from a stack of `size` slots of which
`top` are in use is entered, with its frame beyond the end of the stack, whenever `l + 5 < size` and
`size ≤ top + 1 + l`. -/
theorem C105_fails_overflow {Q : Prog} {size l entry stop fuel : Nat} {m : M} (hl : l + 5 < size)
    (hs : size ≤ m.top + 1 + l) :
    ∃ m', hostCall (Q.onStack size m.top) none m.top stop (m.mem.put (.s m.top) (.int 0)) (linkFn entry 0 l) [] =
      .run m' ∧ m'.mem.stk (m.top + 1 + l) = .frame 0 stop ∧
      importRun (Q.onStack size m.top) stop (linkFn entry 0 l) 0 fuel m = exec (Q.onStack size m.top) m.top fuel m' := by
  have htop : ∀ (k : Nat) (mem : Mem) (t : Nat), (initLocals (Q.onStack size m.top) k mem t).2 = t + k := by
    intro k
    induction k with
    | zero => intro mem t; rfl
    | succ k ih => intro mem t; rw [initLocals, ih]; omega
  have key : ∃ m', hostCall (Q.onStack size m.top) none m.top stop (m.mem.put (.s m.top) (.int 0))
      (linkFn entry 0 l) [] = .run m' ∧ m'.mem.stk (m.top + 1 + l) = .frame 0 stop := by
    have hlim : (Q.onStack size m.top).limit = m.top + (size - 2) := rfl
    have h1 : ¬ m.top + (size - 2) ≤ m.top + 1 + l + 2 := by omega
    have h2 : ¬ m.top + (size - 2) ≤ m.top + 1 + l + 1 := by omega
    simp [hostCall, callFn, linkFn, fillArgs, hlim, h1, htop, h2]
  obtain ⟨m', h1, h2⟩ := key
  refine ⟨m', h1, h2, ?_⟩
  unfold importRun
  rw [show slots m.mem (m.top - 0) 0 = [] from rfl, h1]

example : ∃ size l top : Nat, l + 5 < size ∧ size ≤ top + 1 + l ∧ top < size - 2 := ⟨64, 20, 50, by decide⟩

end Wrench.Frames
