import Verif.Frames.Stack
import Verif.Frames.Demo

/-
The recursive program of Demo.lean on a small stack meets the hypotheses of C106 and overflows; programs of
unchecked pushes do not notice.
-/
namespace Wrench.Frames

open Instr

/-- A stack of 22 slots. -/
def smallProg : Prog := { demoProg with limit := 20 }

theorem smallProg_ok : smallProg.Ok := ⟨demoProg_ok.elem, demoProg_ok.lib⟩

theorem smallProg_wf : WF smallProg demoDepths := ⟨demoProg_wf.fns, demoProg_wf.fresh, demoProg_wf.code⟩

/-- Behind the `yield()` one slot has been pushed without a check. -/
def smallSlack : Nat → Nat
  | 15 => 1
  | _ => 0

theorem smallProg_checked : Checked smallProg demoDepths smallSlack := by
  have hv : nvars smallProg (some 0) = 1 := rfl
  refine ⟨?_, ?_, ?_, ?_⟩
  · intro pc; unfold smallSlack; split <;> decide
  · intro pc f d p h hc
    unfold demoDepths at h
    split at h <;> first | (cases h; done) | skip
    all_goals
      injection h with h
      injection h with h1 h2
      injection h2 with h2 h3
      first
      | (cases h3; done)
      | skip
    all_goals subst h1 h2
    all_goals (simp only [smallProg, demoProg, demoProgCode, Option.some.injEq, Instr.plain.injEq, reduceCtorEq] at hc)
    all_goals subst hc
    · exact ⟨lit_tame _, by simp [lit]⟩
    · exact ⟨storeGlobal_tame _ _, by simp [storeGlobal, smallSlack]⟩
    · exact ⟨loadLocal_tame _, by simp [loadLocal]⟩
    · exact ⟨bz_tame _ _ _, by simp [bz, smallSlack]⟩
    · exact ⟨jump_tame _, by simp [jump, smallSlack]⟩
    · exact ⟨loadLocal_tame _, by simp [loadLocal]⟩
    · exact ⟨lit_tame _, by simp [lit]⟩
    · exact ⟨binary_tame _ _, by simp [binary, smallSlack]⟩
    · exact ⟨loadLocal_tame _, by simp [loadLocal]⟩
    · exact ⟨binary_tame _ _, by simp [binary, smallSlack]⟩
  · intro pc k n hc
    simp only [smallProg, demoProg, demoProgCode] at hc
    split at hc <;> first | (cases hc; done) | skip
  · intro pc n hc
    simp only [smallProg, demoProg, demoProgCode] at hc
    split at hc <;> first | (cases hc; done) | skip
    injection hc with hc
    injection hc with hc
    subst hc
    decide

def smallMem : Mem := ⟨fun i => .int (BitVec.ofNat 32 (100 + i)), fun _ => .int 0⟩

def isErr : Out → Bool
  | .err => true
  | _ => false

/-- The host's `f( 100 )` needs more than the 22 slots: an error. -/
example : isErr (runN smallProg 0 (.int 0) 100 (hostCall smallProg none 0 4 smallMem (linkFn 10 1 0) [.int 100]))
    = true := by decide +kernel

/-- C106 for it, at any point of the run and whatever the argument. -/
example (w : Word32) (m m' : M) (vs : List Val) (hv : ∀ v ∈ vs, v.ptr = none)
    (h : hostCall smallProg none 0 4 smallMem (linkFn 10 1 0) [.int w] = .run m)
    (hr : runH smallProg 0 vs (.run m) = .run m') (i : Nat) (hi : 22 ≤ i) :
    (after smallProg 0 m').stk i = smallMem.stk i :=
  ((C106_protected_partial (F := linkFn 10 1 0) (g := 0) smallProg_ok smallProg_wf smallProg_checked rfl rfl
    (fun _ => rfl) (by intro v hv; simp only [List.mem_singleton] at hv; subst hv; rfl) (show 0 + 1 ≤ 20 by decide) h vs hv hr).2 i hi).2

def topSlot : Out → Option (Nat × Val)
  | .run m => some (m.top, m.mem.stk 29)
  | _ => none

/-- A function of 40 literals, on a stack of 22 slots: slot 29 is written. -/
example : topSlot (runN { demoEnv with limit := 20, code := fun _ => some (.plain (litWide (.int 7))) } 0 (.int 0) 30
    (.run { mem := smallMem, top := 1, fb := 1, pc := 0, r0 := none })) = some (31, .int 7) := by decide +kernel

/-- Thirty `yield()` likewise. -/
example : topSlot (runN { demoEnv with limit := 20, code := fun _ => some (.yield 0) } 0 (.int 9) 30
    (.run { mem := smallMem, top := 1, fb := 1, pc := 0, r0 := none })) = some (31, .int 9) := by decide +kernel

end Wrench.Frames
