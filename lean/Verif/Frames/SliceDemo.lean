import Verif.Frames.SliceProps
import Verif.Frames.Demo

/-
The instructions of Frames/Model.lean do not read above the stack; a program with a loop, a recursive call
and a yield meets the hypotheses of C99; a function with an uninitialised local does not.
-/
namespace Wrench.Frames

open Instr

theorem lit_two {n : Nat} {v : Val} : PTwo n (lit v) := by
  intro S fb lo top mem mem' _ _ _ _ _ ha
  exact ⟨rfl, ha.snoc v⟩

theorem loadLocal_two {n i : Nat} : PTwo n (loadLocal i) := by
  intro S fb lo top mem mem' _ _ _ _ _ ha
  exact ⟨rfl, ha.snoc _⟩

theorem loadGlobal_two {n i : Nat} : PTwo n (loadGlobal i) := by
  intro S fb lo top mem mem' _ _ _ _ _ ha
  exact ⟨rfl, ha.snoc _⟩

theorem pop_two {n : Nat} : PTwo n pop := by
  intro S fb lo top mem mem' _ _ _ _ _ ha
  exact ⟨rfl, ha.mono (by simp [pop])⟩

theorem jump_two {n t : Nat} : PTwo n (jump t) := by
  intro S fb lo top mem mem' _ _ _ _ _ ha
  exact ⟨rfl, ha⟩

private theorem top_two {P : Prog} (hB : P.Blind) {S : Nat → Prop} {lo top : Nat} {mem mem' : Mem}
    (hb : ∀ i, S i → i + 1 < lo) (hc : Closed S mem) (ho : Operands S mem lo top) (ha : Agree top mem mem') {i : Nat}
    (h1 : lo ≤ i) (h2 : i < top) : deref P mem' (mem'.stk i) = deref P mem (mem.stk i) := by
  rw [ha.stk i h2]
  exact deref_two hB hc ha.heap (fun j hj => ha.stk j (by have := hb j hj; omega)) (ho i h1 h2)

theorem binary_two {P : Prog} (hB : P.Blind) {n : Nat} {g : Val → Val → Word32} : PTwo n (binary P g) := by
  intro S fb lo top mem mem' hS hb hc ho hle ha
  have hle' : lo + 2 ≤ top := hle
  simp only [binary, top_two hB hb hc ho ha (i := top - 1) (by omega) (by omega),
    top_two hB hb hc ho ha (i := top - 2) (by omega) (by omega)]
  cases deref P mem (mem.stk (top - 1)) <;> cases deref P mem (mem.stk (top - 2)) <;> first | trivial | skip
  exact ⟨rfl, (ha.put _ _).mono (by omega)⟩

theorem bz_two {P : Prog} (hB : P.Blind) {n t : Nat} {z : Val → Bool} : PTwo n (bz P z t) := by
  intro S fb lo top mem mem' hS hb hc ho hle ha
  have hle' : lo + 1 ≤ top := hle
  simp only [bz, top_two hB hb hc ho ha (i := top - 1) (by omega) (by omega)]
  cases deref P mem (mem.stk (top - 1)) <;> first | trivial | skip
  exact ⟨rfl, ha.mono (by omega)⟩

theorem storeGlobal_two {P : Prog} (hB : P.Blind) {n i : Nat} : PTwo n (storeGlobal P i) := by
  intro S fb lo top mem mem' hS hb hc ho hle ha
  have hle' : lo + 1 ≤ top := hle
  simp only [storeGlobal, top_two hB hb hc ho ha (i := top - 1) (by omega) (by omega)]
  cases deref P mem (mem.stk (top - 1)) <;> first | trivial | skip
  exact ⟨rfl, (ha.put _ _).mono (by omega)⟩

private theorem place_two {S : Nat → Prop} {mem mem' : Mem} (hc : Closed S mem) (hh : mem'.heap = mem.heap)
    (hs : ∀ i, S i → mem'.stk i = mem.stk i) : ∀ (f : Nat) (a : Addr), Good S a →
    Instr.place mem' f a = Instr.place mem f a
  | 0, _, _ => rfl
  | f + 1, a, hg => by
    have hget : mem'.get a = mem.get a := by
      cases a with
      | s i => exact hs i hg
      | h i => simp only [Mem.get, hh]
    have hnext : ∀ b, mem.get a = .ref b → Good S b := by
      intro b hb
      cases a with
      | s i => exact (hc.vars i hg b (by simp only [Mem.get] at hb; rw [hb]; rfl)).mono fun j hj => hj.1
      | h i =>
        have := hc.heap i
        simp only [Mem.get] at hb
        rw [hb] at this
        cases this
    unfold Instr.place
    rw [hget]
    cases hv : mem.get a with
    | ref b => exact place_two hc hh hs f b (hnext b hv)
    | _ => rfl

theorem storeLocal_two {P : Prog} (hB : P.Blind) {n i : Nat} (h : i < n) : PTwo n (storeLocal P i) := by
  intro S fb lo top mem mem' hS hb hc ho hle ha
  have hle' : lo + 1 ≤ top := hle
  have hs : ∀ j, S j → mem'.stk j = mem.stk j := fun j hj => ha.stk j (by have := hb j hj; omega)
  simp only [storeLocal, top_two hB hb hc ho ha (i := top - 1) (by omega) (by omega),
    place_two hc ha.heap hs _ (.s (fb + i)) (hS i h)]
  cases deref P mem (mem.stk (top - 1)) <;> cases Instr.place mem (fb + i + 2) (.s (fb + i)) <;> first | trivial | skip
  exact ⟨rfl, (ha.put _ _).mono (by omega)⟩

/-! ### A program -/

theorem demoEnv_blind : demoEnv.Blind := ⟨fun _ _ _ _ _ _ _ _ _ => rfl, fun _ _ _ _ _ _ _ _ _ => rfl⟩

/-- ```
function f( n ) { var s; s = 0; while ( n ) { s = s + g( n ); n = n - 1; } return s; }
function g( x ) { var y; return yield( x ) + y; }
``` -/
def sliceCode : Nat → Option Instr
  | 10 => some (.plain (lit (.int 0)))
  | 11 => some (.plain (storeLocal demoEnv 1))
  | 12 => some (.plain (loadLocal 0))
  | 13 => some (.plain (bz demoEnv (fun v => demoWord v == 0) 25))
  | 14 => some (.plain (loadLocal 1))
  | 15 => some (.plain (loadLocal 0))
  | 16 => some (.call 1 1)
  | 17 => some .pushRet
  | 18 => some (.plain (binary demoEnv fun a b => demoWord a + demoWord b))
  | 19 => some (.plain (storeLocal demoEnv 1))
  | 20 => some (.plain (loadLocal 0))
  | 21 => some (.plain (lit (.int 1)))
  | 22 => some (.plain (binary demoEnv fun a b => demoWord a - demoWord b))
  | 23 => some (.plain (storeLocal demoEnv 0))
  | 24 => some (.plain (jump 12))
  | 25 => some (.plain (loadLocal 1))
  | 26 => some .ret
  | 30 => some (.plain (loadLocal 0))
  | 31 => some (.yield 1)
  | 32 => some (.plain (loadLocal 1))
  | 33 => some (.plain (binary demoEnv fun a b => demoWord a + demoWord b))
  | 34 => some .ret
  | 40 => some .stop
  | _ => none

def sliceProg : Prog :=
  { demoEnv with
    code := sliceCode,
    fns := fun g => if g = 0 then some (linkFn 10 1 1) else if g = 1 then some (linkFn 30 1 1) else none }

def sliceDepths : Depths
  | 10 => some (some 0, 0, false)
  | 11 => some (some 0, 1, false)
  | 12 => some (some 0, 0, false)
  | 13 => some (some 0, 1, false)
  | 14 => some (some 0, 0, false)
  | 15 => some (some 0, 1, false)
  | 16 => some (some 0, 2, false)
  | 17 => some (some 0, 1, true)
  | 18 => some (some 0, 2, false)
  | 19 => some (some 0, 1, false)
  | 20 => some (some 0, 0, false)
  | 21 => some (some 0, 1, false)
  | 22 => some (some 0, 2, false)
  | 23 => some (some 0, 1, false)
  | 24 => some (some 0, 0, false)
  | 25 => some (some 0, 0, false)
  | 26 => some (some 0, 1, false)
  | 30 => some (some 1, 0, false)
  | 31 => some (some 1, 1, false)
  | 32 => some (some 1, 1, false)
  | 33 => some (some 1, 2, false)
  | 34 => some (some 1, 1, false)
  | _ => none

/-- The jumps. -/
def sliceChk (pc : Nat) : Bool := pc == 13 || pc == 24

theorem sliceProg_wf : WF sliceProg sliceDepths := by
  have hv : nvars sliceProg (some 0) = 2 := rfl
  have hw : nvars sliceProg (some 1) = 2 := rfl
  refine ⟨?_, ?_, ?_⟩
  · intro g F h
    simp only [sliceProg] at h
    split at h
    · next hg => subst hg; injection h with h; subst h; exact ⟨rfl, rfl⟩
    · split at h
      · next hg => subst hg; injection h with h; subst h; exact ⟨rfl, rfl⟩
      · cases h
  · intro pc f d h
    unfold sliceDepths at h
    split at h <;> first | (cases h; done) | skip
    all_goals
      injection h with h
      injection h with h1 h2
      injection h2 with h2 h3
      first
      | (cases h3; done)
      | (subst h1 h2; exact ⟨rfl, rfl⟩)
  · intro pc f d h
    unfold sliceDepths at h
    split at h <;> first | (cases h; done) | skip
    all_goals
      injection h with h
      injection h with h1 h2
      injection h2 with h2 h3
      first
      | (cases h3; done)
      | skip
    all_goals subst h1 h2
    · exact ⟨_, rfl, lit_ok rfl, by decide, fun _ => rfl, by simp [lit]⟩
    · exact ⟨_, rfl, storeLocal_ok demoEnv_ok (by rw [hv]; decide), by decide, fun _ => rfl, by simp [storeLocal]⟩
    · exact ⟨_, rfl, loadLocal_ok (by rw [hv]; decide), by decide, fun _ => rfl, by simp [loadLocal]⟩
    · exact ⟨_, rfl, bz_ok demoEnv_ok, by decide, fun _ => rfl, by
        intro t ht; simp [bz] at ht; subst ht; rfl⟩
    · exact ⟨_, rfl, loadLocal_ok (by rw [hv]; decide), by decide, fun _ => rfl, by simp [loadLocal]⟩
    · exact ⟨_, rfl, loadLocal_ok (by rw [hv]; decide), by decide, fun _ => rfl, by simp [loadLocal]⟩
    · exact ⟨_, rfl, by decide, ⟨_, rfl⟩, true, rfl⟩
    · exact ⟨_, rfl, binary_ok demoEnv_ok, by decide, fun _ => rfl, by simp [binary]⟩
    · exact ⟨_, rfl, storeLocal_ok demoEnv_ok (by rw [hv]; decide), by decide, fun _ => rfl, by simp [storeLocal]⟩
    · exact ⟨_, rfl, loadLocal_ok (by rw [hv]; decide), by decide, fun _ => rfl, by simp [loadLocal]⟩
    · exact ⟨_, rfl, lit_ok rfl, by decide, fun _ => rfl, by simp [lit]⟩
    · exact ⟨_, rfl, binary_ok demoEnv_ok, by decide, fun _ => rfl, by simp [binary]⟩
    · exact ⟨_, rfl, storeLocal_ok demoEnv_ok (by rw [hv]; decide), by decide, fun _ => rfl, by simp [storeLocal]⟩
    · exact ⟨_, rfl, jump_ok, by decide, fun h => by simp [jump] at h, by
        intro t ht; simp [jump] at ht; subst ht; rfl⟩
    · exact ⟨_, rfl, loadLocal_ok (by rw [hv]; decide), by decide, fun _ => rfl, by simp [loadLocal]⟩
    · exact ⟨_, rfl, rfl, by simp⟩
    · exact ⟨_, rfl, loadLocal_ok (by rw [hw]; decide), by decide, fun _ => rfl, by simp [loadLocal]⟩
    · exact ⟨_, rfl, by decide, rfl⟩
    · exact ⟨_, rfl, loadLocal_ok (by rw [hw]; decide), by decide, fun _ => rfl, by simp [loadLocal]⟩
    · exact ⟨_, rfl, binary_ok demoEnv_ok, by decide, fun _ => rfl, by simp [binary]⟩
    · exact ⟨_, rfl, rfl, by simp⟩

theorem sliceProg_sliceable : Sliceable sliceProg sliceDepths 40 := by
  refine ⟨⟨demoEnv_ok.elem, demoEnv_ok.lib⟩, sliceProg_wf, ⟨demoEnv_blind.elem, demoEnv_blind.lib⟩, ?_, rfl, ?_⟩
  · intro pc f d p hd h
    have hn : ∀ {f d}, sliceDepths pc = some (f, d, false) → nvars sliceProg f = 2 := by
      intro f d h
      unfold sliceDepths at h
      split at h <;> cases h <;> rfl
    rw [hn hd]
    simp only [sliceProg] at h
    unfold sliceCode at h
    split at h <;> cases h
    all_goals first
      | exact lit_two
      | exact loadLocal_two
      | exact jump_two
      | exact bz_two demoEnv_blind
      | exact binary_two demoEnv_blind
      | exact storeLocal_two demoEnv_blind (by decide)
  · intro pc
    constructor
    · intro h
      simp only [sliceProg] at h
      unfold sliceCode at h
      split at h <;> cases h
      rfl
    · rintro rfl; rfl

theorem sliceChk_plain : OnlyPlain sliceProg sliceChk := by
  intro pc h
  simp only [sliceChk, Bool.or_eq_true, beq_iff_eq] at h
  rcases h with rfl | rfl
  · exact ⟨_, rfl⟩
  · exact ⟨_, rfl⟩

/-- `ClearAt` as a check. -/
def clearAtB (P : Prog) (m : M) : Bool :=
  match P.code m.pc with
  | some (.call g n) => match P.fns g with
    | some F => !(decide (n ≤ F.arguments) && decide (0 < F.frameSpaceNeeded)) ||
        P.asInt (m.mem.stk (m.top - n + F.arguments)) == .int 0
    | none => true
  | _ => true

def clearRunB (P : Prog) (base : Nat) : List Val → Out → Bool
  | v :: vs, .run m => clearAtB P m && clearRunB P base vs (stepH P base v m)
  | _, _ => true

theorem clearRun_of {P : Prog} {base : Nat} : ∀ (vs : List Val) (o : Out), clearRunB P base vs o = true →
    ClearRun P base vs o
  | [], o, _ => by cases o <;> trivial
  | v :: vs, o, h => by
    cases o with
    | run m =>
      simp only [clearRunB, Bool.and_eq_true] at h
      refine ⟨?_, clearRun_of vs _ h.2⟩
      intro g n F h1 h2 h3 h4
      have h5 := h.1
      simp only [clearAtB, h1, h2, h3, h4, decide_true, Bool.and_self, Bool.not_true, Bool.false_or,
        beq_iff_eq] at h5
      exact h5
    | _ => trivial

def sliceMem : Mem := ⟨fun _ => .int 0, fun _ => .int 0⟩

def sliceStart : Option M :=
  match hostCall sliceProg none 0 40 sliceMem (linkFn 10 1 1) [.int 3] with
  | .run m => some m
  | _ => none

/-- 80 visits; the host answers 100, 101, …; slices of one or two jumps, and `wr_forceYield` now and then. -/
def sliceVisits : List Visit :=
  (List.range 80).map fun i => ⟨.int (BitVec.ofNat 32 (100 + i)), BitVec.ofNat 32 (1 + i % 2), i % 7 == 0⟩

def doneO : Out → Option Val
  | .done v _ => some v
  | _ => none

def doneS : SOut → Option Val
  | .done v _ _ => some v
  | _ => none

/-- The example meets every hypothesis of `C99_slices_partial`. -/
theorem slice_example : ∃ m, hostCall sliceProg none 0 40 sliceMem (linkFn 10 1 1) [.int 3] = .run m ∧
    Same sliceProg 40 (runH sliceProg 0 (sliceVisits.map (·.ans)) (.run m))
      (runS sliceProg 0 sliceChk sliceVisits (.run (enter 2 m 0))) ∧
    doneO (runH sliceProg 0 (sliceVisits.map (·.ans)) (.run m)) = some (.int (108 + 126 + 144)) := by
  refine ⟨_, rfl, ?_, by decide +kernel⟩
  refine C99_slices_partial (g := 0) (mem := sliceMem) (F := linkFn 10 1 1) (argv := [.int 3])
    sliceProg_sliceable sliceChk_plain rfl (fun _ => rfl) ?_ rfl sliceVisits ?_ (clearRun_of _ _ (by decide +kernel)) 2 0
    (C99_no_overflow _ _ ?_ ?_)
  · intro v hv
    simp only [List.mem_singleton] at hv
    subst hv; rfl
  · intro e he
    simp only [sliceVisits, List.mem_map] at he
    obtain ⟨i, -, rfl⟩ := he
    rfl
  · exact ⟨rfl, by decide, by decide⟩
  · decide +kernel

/-- The run in slices was interrupted: the number of forced yields. -/
def forcedYields (P : Prog) (base : Nat) (chk : Nat → Bool) : List Visit → SOut → Nat
  | e :: es, .run s =>
    (match stepS P base chk (if e.force then s.forceYield else s) with | .forced _ _ => 1 | _ => 0) +
      forcedYields P base chk es (stepHS P base chk e s)
  | _, _ => 0

example : (sliceStart.map fun m => forcedYields sliceProg 0 sliceChk sliceVisits (.run (enter 2 m 0))) = some 6 := by
  decide +kernel

/-- A stack of 9 slots with a 5 left above it. -/
def leftOver : M :=
  { mem := ⟨fun i => if i = 10 then .int 5 else .int 0, fun _ => .int 0⟩, top := 9, fb := 4, pc := 14, r0 := none }

def leftProg : Prog :=
  { sliceProg with
    code := fun pc => match pc with
      | 14 => some (.plain (lit (.int 1)))
      | 15 => some (.plain (jump 16))
      | pc => sliceCode pc }

def firstLocal : Out → Option Val
  | .run m => some (m.mem.stk (m.fb + 1))
  | _ => none

def firstLocalS : SOut → Option Val
  | .run s => some (s.m.mem.stk (s.m.fb + 1))
  | _ => none

def leftVisits : List Visit := [⟨.int 0, 1, false⟩, ⟨.int 0, 1, false⟩, ⟨.int 0, 1, false⟩]

/-- C99 fails: the variable `y` of `function g( x ) { var y; … }` is not initialised; it starts with what is left
in its slot, here 5, but with 0 if a slice ended just before the call. -/
theorem C99_fails_first_local :
    firstLocal (runH leftProg 0 (leftVisits.map (·.ans)) (.run leftOver)) = some (.int 5) ∧
    firstLocalS (runS leftProg 0 (fun pc => pc == 15) leftVisits (.run (enter 1 leftOver 0))) = some (.int 0) := by
  decide +kernel

end Wrench.Frames
