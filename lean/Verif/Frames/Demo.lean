import Verif.Frames.Props

/-
The instructions of Frames/Model.lean meet what Props.lean asks of plain instructions, and a
program with nested calls, recursion and a yield meets the hypotheses.
-/
namespace Wrench.Frames

open Instr

theorem lit_ok {n : Nat} {v : Val} (hv : v.ptr = none) : POk n (lit v) := by
  intro S fb lo top mem _ hb hc ho hle
  refine ⟨hc.put_flat (.s top) hv, ho.snoc (flat_good hv), ?_, rfl⟩
  intro i _ hi
  exact put_stk_ne _ _ (by simp [lit] at hi; omega)

theorem loadLocal_ok {n i : Nat} (h : i < n) : POk n (loadLocal i) := by
  intro S fb lo top mem hS hb hc ho hle
  refine ⟨hc.put_out (i := top) (fun h' => by have := hb _ h'; simp [loadLocal] at hle; omega) _,
    ho.snoc (fun a ha => ?_), ?_, rfl⟩
  · cases ha; exact hS i h
  · intro j _ hj
    exact put_stk_ne _ _ (by simp [loadLocal] at hj; omega)

theorem loadGlobal_ok {n i : Nat} : POk n (loadGlobal i) := by
  intro S fb lo top mem hS hb hc ho hle
  refine ⟨hc.put_out (i := top) (fun h' => by have := hb _ h'; simp [loadGlobal] at hle; omega) _,
    ho.snoc (fun a ha => ?_), ?_, rfl⟩
  · cases ha; trivial
  · intro j _ hj
    exact put_stk_ne _ _ (by simp [loadGlobal] at hj; omega)

theorem pop_ok {n : Nat} : POk n pop := by
  intro S fb lo top mem hS hb hc ho hle
  exact ⟨hc, ho.mono (Nat.le_refl _) (by simp [pop]), fun _ _ _ => rfl, rfl⟩

theorem jump_ok {n t : Nat} : POk n (jump t) := by
  intro S fb lo top mem hS hb hc ho hle
  exact ⟨hc, ho, fun _ _ _ => rfl, by simp [jump]⟩

theorem binary_ok {P : Prog} (hP : P.Ok) {n : Nat} {g : Val → Val → Word32} :
    POk n (binary P g) := by
  intro S fb lo top mem hS hb hc ho hle
  have hle' : lo + 2 ≤ top := hle
  obtain ⟨u, hu, -⟩ := deref_ok hP hc (ho (top - 1) (by omega) (by omega))
  obtain ⟨w, hw, -⟩ := deref_ok hP hc (ho (top - 2) (by omega) (by omega))
  simp only [binary, hu, hw]
  refine ⟨hc.put_flat (.s (top - 2)) rfl, ?_, ?_, trivial⟩
  · exact (ho.put (i := top - 2) (flat_good rfl)).mono (Nat.le_refl _) (by omega)
  · intro i _ hi
    exact put_stk_ne _ _ (by omega)

theorem bz_ok {P : Prog} (hP : P.Ok) {n t : Nat} {z : Val → Bool} : POk n (bz P z t) := by
  intro S fb lo top mem hS hb hc ho hle
  have hle' : lo + 1 ≤ top := hle
  obtain ⟨u, hu, -⟩ := deref_ok hP hc (ho (top - 1) (by omega) (by omega))
  simp only [bz, hu]
  refine ⟨hc, ho.mono (Nat.le_refl _) (by omega), fun _ _ _ => trivial, ?_⟩
  cases z u <;> simp

theorem storeGlobal_ok {P : Prog} (hP : P.Ok) {n i : Nat} : POk n (storeGlobal P i) := by
  intro S fb lo top mem hS hb hc ho hle
  have hle' : lo + 1 ≤ top := hle
  obtain ⟨u, hu, huf⟩ := deref_ok hP hc (ho (top - 1) (by omega) (by omega))
  simp only [storeGlobal, hu]
  exact ⟨hc.put_flat (.h i) huf, ho.mono (Nat.le_refl _) (by omega), fun _ _ _ => rfl, trivial⟩

theorem place_ok {S : Nat → Prop} {mem : Mem} (hc : Closed S mem) : ∀ i, S i → ∀ f,
    ∃ a, Instr.place mem (f + i + 2) (.s i) = some a ∧ Good S a := by
  intro i
  induction i using Nat.strongRecOn with
  | _ i ih =>
    intro hi f
    have hv := hc.vars i hi
    unfold Instr.place
    simp only [Mem.get]
    generalize mem.stk i = v at hv
    cases v with
    | ref a =>
      have hg := hv a rfl
      cases a with
      | s j =>
        obtain ⟨a, h1, h2⟩ := ih j hg.2 hg.1 (f + i - j - 1)
        have : f + i - j - 1 + j + 2 = f + i + 1 := by have := hg.2; omega
        rw [this] at h1
        exact ⟨a, h1, h2⟩
      | h k =>
        refine ⟨.h k, ?_, trivial⟩
        have hk := hc.heap k
        show Instr.place mem (f + i + 1) (.h k) = _
        unfold Instr.place
        simp only [Mem.get]
        generalize mem.heap k = w at hk
        cases w <;> simp [Val.ptr] at hk ⊢
    | _ => exact ⟨.s i, rfl, hi⟩

theorem storeLocal_ok {P : Prog} (hP : P.Ok) {n i : Nat} (h : i < n) : POk n (storeLocal P i) := by
  intro S fb lo top mem hS hb hc ho hle
  have hle' : lo + 1 ≤ top := hle
  obtain ⟨u, hu, huf⟩ := deref_ok hP hc (ho (top - 1) (by omega) (by omega))
  obtain ⟨a, ha, hg⟩ := place_ok hc (fb + i) (hS i h) 0
  rw [Nat.zero_add] at ha
  simp only [storeLocal, hu, ha]
  cases a with
  | s j =>
    refine ⟨hc.put_flat (.s j) huf, (ho.put (flat_good huf)).mono (Nat.le_refl _) (by omega), ?_,
      trivial⟩
    intro k hk _
    exact put_stk_ne _ _ (by rintro rfl; exact hk hg)
  | h j =>
    exact ⟨hc.put_flat (.h j) huf, ho.mono (Nat.le_refl _) (by omega), fun _ _ _ => rfl, trivial⟩

/-! ### A program -/

def demoWord : Val → Word32
  | .int w => w
  | _ => 0

/-- Containers without references, one library function. -/
def demoEnv : Prog :=
  { code := fun _ => none, fns := fun _ => none, limit := 1000, bits := fun _ => 7,
    elem := fun _ _ _ => .int 3, lib := fun _ args _ => some (.int (BitVec.ofNat 32 args.length)) }

theorem demoEnv_ok : demoEnv.Ok := by
  refine ⟨fun _ _ _ => rfl, ?_⟩
  intro k args mem v h
  simp only [demoEnv, Option.some.injEq] at h
  subst h; rfl

/-- ```
function f( x ) { if ( !x ) return yield(); return f( x - 1 ) + x; }
g = f( 5 );
``` -/
def demoProgCode : Nat → Option Instr
  | 0 => some (.plain (lit (.int 5)))
  | 1 => some (.call 0 1)
  | 2 => some .pushRet
  | 3 => some (.plain (storeGlobal demoEnv 0))
  | 4 => some .stop
  | 10 => some (.plain (loadLocal 0))
  | 11 => some (.plain (bz demoEnv (fun v => demoWord v == 0) 14))
  | 12 => some (.plain (jump 16))
  | 14 => some (.yield 0)
  | 15 => some .ret
  | 16 => some (.plain (loadLocal 0))
  | 17 => some (.plain (lit (.int 1)))
  | 18 => some (.plain (binary demoEnv fun a b => demoWord a - demoWord b))
  | 19 => some (.call 0 1)
  | 20 => some .pushRet
  | 21 => some (.plain (loadLocal 0))
  | 22 => some (.plain (binary demoEnv fun a b => demoWord a + demoWord b))
  | 23 => some .ret
  | _ => none

def demoProg : Prog :=
  { demoEnv with
    code := demoProgCode,
    fns := fun g => if g = 0 then some (linkFn 10 1 0) else none }

def demoDepths : Depths
  | 0 => some (none, 0, false)
  | 1 => some (none, 1, false)
  | 2 => some (none, 0, true)
  | 3 => some (none, 1, false)
  | 4 => some (none, 0, false)
  | 10 => some (some 0, 0, false)
  | 11 => some (some 0, 1, false)
  | 12 => some (some 0, 0, false)
  | 14 => some (some 0, 0, false)
  | 15 => some (some 0, 1, false)
  | 16 => some (some 0, 0, false)
  | 17 => some (some 0, 1, false)
  | 18 => some (some 0, 2, false)
  | 19 => some (some 0, 1, false)
  | 20 => some (some 0, 0, true)
  | 21 => some (some 0, 1, false)
  | 22 => some (some 0, 2, false)
  | 23 => some (some 0, 1, false)
  | _ => none

theorem demoProg_ok : demoProg.Ok := ⟨demoEnv_ok.elem, demoEnv_ok.lib⟩

theorem demoProg_wf : WF demoProg demoDepths := by
  have hv : nvars demoProg (some 0) = 1 := rfl
  refine ⟨?_, ?_, ?_⟩
  · intro g F h
    simp only [demoProg] at h
    split at h
    · next hg => subst hg; injection h with h; subst h; exact ⟨rfl, rfl⟩
    · cases h
  · intro pc f d h
    unfold demoDepths at h
    split at h <;> first | (cases h; done) | skip
    all_goals
      injection h with h
      injection h with h1 h2
      injection h2 with h2 h3
      first
      | (cases h3; done)
      | (subst h1 h2; exact ⟨rfl, rfl⟩)
  · intro pc f d h
    unfold demoDepths at h
    split at h <;> first | (cases h; done) | skip
    all_goals
      injection h with h
      injection h with h1 h2
      injection h2 with h2 h3
      first
      | (cases h3; done)
      | skip
    all_goals subst h1 h2
    · exact ⟨_, rfl, lit_ok rfl, by decide, fun _ => rfl, by simp [lit]⟩
    · exact ⟨_, rfl, by decide, ⟨_, rfl⟩, true, rfl⟩
    · exact ⟨_, rfl, storeGlobal_ok demoEnv_ok, by decide, fun _ => rfl, by simp [storeGlobal]⟩
    · exact ⟨_, rfl, rfl⟩
    · exact ⟨_, rfl, loadLocal_ok (by rw [hv]; decide), by decide, fun _ => rfl, by simp [loadLocal]⟩
    · exact ⟨_, rfl, bz_ok demoEnv_ok, by decide, fun _ => rfl, by
        intro t ht; simp [bz] at ht; subst ht; rfl⟩
    · exact ⟨_, rfl, jump_ok, by decide, fun h => by simp [jump] at h, by
        intro t ht; simp [jump] at ht; subst ht; rfl⟩
    · exact ⟨_, rfl, by decide, rfl⟩
    · exact ⟨_, rfl, rfl, by simp⟩
    · exact ⟨_, rfl, loadLocal_ok (by rw [hv]; decide), by decide, fun _ => rfl, by simp [loadLocal]⟩
    · exact ⟨_, rfl, lit_ok rfl, by decide, fun _ => rfl, by simp [lit]⟩
    · exact ⟨_, rfl, binary_ok demoEnv_ok, by decide, fun _ => rfl, by simp [binary]⟩
    · exact ⟨_, rfl, by decide, ⟨_, rfl⟩, true, rfl⟩
    · exact ⟨_, rfl, loadLocal_ok (by rw [hv]; decide), by decide, fun _ => rfl, by simp [loadLocal]⟩
    · exact ⟨_, rfl, binary_ok demoEnv_ok, by decide, fun _ => rfl, by simp [binary]⟩
    · exact ⟨_, rfl, rfl, by simp⟩

/-- Steps with the host answering every yield with `v`. -/
def runN (P : Prog) (base : Nat) (v : Val) : Nat → Out → Out
  | 0, o => o
  | k + 1, .run m => runN P base v k (stepH P base v m)
  | _, o => o

def demoStart : M :=
  { mem := ⟨fun i => .int (BitVec.ofNat 32 (100 + i)), fun _ => .int 0⟩, top := 3, fb := 0, pc := 0,
    r0 := none }

def demoResult : Out → Option (Val × Nat × Nat × Val)
  | .run m => some (m.mem.heap 0, m.top, m.pc, m.mem.stk 2)
  | _ => none

/-- `f(5)` with the host answering the `yield()` with 100 is 115; the stack is as before. -/
example : demoResult (runN demoProg 0 (.int 100) 63 (.run demoStart))
    = some (.int 115, 3, 4, .int 102) := by decide +kernel

/-- The hypotheses of `C33_call_and_return_partial` hold at the call in the global code. -/
example :
    stepH demoProg 0 (.int 0) { demoStart with top := 4, pc := 1 } = .err ∨
    ∃ m', stepH demoProg 0 (.int 0) { demoStart with top := 4, pc := 1 } = .run m' ∧ m'.fb = 3 := by
  rcases C33_call_and_return_partial (base := 0) (R := fun _ => False) demoProg_ok demoProg_wf
    (m := { demoStart with top := 4, pc := 1 }) (g := 0) (n := 1) rfl rfl (by decide)
    (fun _ h => h.elim) ⟨fun _ => rfl, fun _ h => h.elim⟩ (fun _ _ _ _ h => by cases h) (.int 0)
    with h | ⟨m', h, E, -⟩
  · exact .inl h
  · exact .inr ⟨m', h, E.fb⟩

/-- C33 fails: `g( 1, 2 )` with `function g( a ) { var x; return x; }` has `x` start as 2. -/
theorem C33_fails_first_local_example :
    ∃ m', callFn demoEnv (linkFn 10 1 1) 2
      { demoStart with mem := ⟨fun i => if i = 1 then .int 1 else .int 2, fun _ => .int 0⟩ } 5
        = .run m' ∧ m'.mem.stk (m'.fb + 1) = .int 2 := ⟨_, rfl, by decide +kernel⟩

def frameBase : Out → Option Nat
  | .run m => some m.fb
  | _ => none

/-- C33 fails: with 255 locals the adjustment byte overflows and the frame base is above the
locals; called from a stack of 3 slots without arguments it should be 3. -/
theorem C33_fails_frame_overflow :
    frameBase (callFn demoEnv (linkFn 10 0 255) 0 demoStart 5) = some 259 := by decide +kernel

end Wrench.Frames
