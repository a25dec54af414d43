import Verif.Frames.Model

/-
Well-formed code, the frame invariant, and what one instruction does to it.
-/
namespace Wrench.Frames

/-! ### Which variables can be reached -/

/-- An address outside the stack, or a stack variable of `S`. -/
def Good (S : Nat → Prop) : Addr → Prop
  | .h _ => True
  | .s i => S i

/-- `S` is a set of stack variables closed under references: cells outside the stack hold no
references, and a variable of `S` refers at most to something outside the stack or to an older
variable of `S` (a by-reference argument). -/
structure Closed (S : Nat → Prop) (mem : Mem) : Prop where
  heap : ∀ i, (mem.heap i).ptr = none
  vars : ∀ i, S i → ∀ a, (mem.stk i).ptr = some a → Good (fun j => S j ∧ j < i) a

/-- Operands `[lo, hi)` refer only to variables of `S`. -/
def Operands (S : Nat → Prop) (mem : Mem) (lo hi : Nat) : Prop :=
  ∀ i, lo ≤ i → i < hi → ∀ a, (mem.stk i).ptr = some a → Good S a

/-- Container members and library results are plain values. -/
structure Prog.Ok (P : Prog) : Prop where
  elem : ∀ mem a k, (P.elem mem a k).ptr = none
  lib : ∀ k args mem v, P.lib k args mem = some v → v.ptr = none

/-- What is asked of an instruction of a function with `n` arguments and locals: it works on
its operands, its own variables and what they refer to. -/
def POk (n : Nat) (p : Plain) : Prop :=
  ∀ (S : Nat → Prop) (fb lo top : Nat) (mem : Mem),
    (∀ i, i < n → S (fb + i)) → (∀ i, S i → i + 1 < lo) → Closed S mem → Operands S mem lo top →
    lo + p.need ≤ top →
    match p.run fb top mem with
    | .ok (mem', j) => Closed S mem' ∧ Operands S mem' lo (top - p.need + p.push) ∧
        (∀ i, ¬ S i → i < top - p.need → mem'.stk i = mem.stk i) ∧
        (match j with | none => p.falls = true | some t => t ∈ p.targets)
    | .err => True
    | .ub => False

/-! ### Well-formed code -/

def nvars (P : Prog) : Option Nat → Nat
  | none => 0
  | some g => match P.fns g with
    | some F => F.arguments + F.frameSpaceNeeded
    | none => 0

/-- `dep pc = some (f, d, fresh)`: position `pc` belongs to function `f` (`none`: the global
code), is reached with `d` operands on the stack, and (`fresh`) directly after a return. -/
abbrev Depths := Nat → Option (Option Nat × Nat × Bool)

def okAt (P : Prog) (dep : Depths) (f : Option Nat) (d pc : Nat) : Instr → Prop
  | .plain p => POk (nvars P f) p ∧ p.need ≤ d ∧
      (p.falls = true → dep (pc + 1) = some (f, d - p.need + p.push, false)) ∧
      ∀ t ∈ p.targets, dep t = some (f, d - p.need + p.push, false)
  | .call g n => n ≤ d ∧ (∃ F, P.fns g = some F) ∧
      ∃ fr, dep (pc + 1) = some (f, d - n, fr)
  | .pushRet => False
  | .ret => d = 1 ∧ f ≠ none
  | .retZero => d = 0 ∧ f ≠ none
  | .lib _ n => n ≤ d ∧ dep (pc + 1) = some (f, d - n + 1, false)
  | .libPop _ n => n ≤ d ∧ dep (pc + 1) = some (f, d - n, false)
  | .yield n => n ≤ d ∧ dep (pc + 1) = some (f, d - n + 1, false)
  | .stop => f = none

/-- Every position has one operand depth; functions return with exactly the result on top of
their frame.  This is what the compiler's statement and expression code amounts to. -/
structure WF (P : Prog) (dep : Depths) : Prop where
  fns : ∀ g F, P.fns g = some F → dep F.entry = some (some g, 0, false) ∧
    F.frameBaseAdjustment = 1 + F.arguments + F.frameSpaceNeeded
  fresh : ∀ pc f d, dep pc = some (f, d, true) →
    P.code pc = some .pushRet ∧ dep (pc + 1) = some (f, d + 1, false)
  code : ∀ pc f d, dep pc = some (f, d, false) → ∃ i, P.code pc = some i ∧ okAt P dep f d pc i

/-! ### The invariant -/

structure Inv (P : Prog) (dep : Depths) (S : Nat → Prop) (f : Option Nat) (d : Nat) (fr : Bool)
    (lo : Nat) (m : M) : Prop where
  pc : dep m.pc = some (f, d, fr)
  top : m.top = lo + d
  frame : ∀ g, f = some g → ∃ F, P.fns g = some F ∧
    lo = m.fb + F.arguments + F.frameSpaceNeeded + 1
  cover : ∀ i, i < nvars P f → S (m.fb + i)
  below : ∀ i, S i → i + 1 < lo
  closed : Closed S m.mem
  operands : Operands S m.mem lo m.top
  ret : fr = true → ∃ r T, m.r0 = some r ∧ Closed T m.mem ∧
    ∀ a, (m.mem.stk (r + 1)).ptr = some a → Good T a

/-! ### Memory -/

@[simp] theorem put_stk_same (m : Mem) (i : Nat) (v : Val) : (m.put (.s i) v).stk i = v := by
  simp [Mem.put]

theorem put_stk_ne (m : Mem) {i j : Nat} (v : Val) (h : j ≠ i) :
    (m.put (.s i) v).stk j = m.stk j := by simp [Mem.put, h]

@[simp] theorem put_stk_heap (m : Mem) (i : Nat) (v : Val) : (m.put (.s i) v).heap = m.heap := rfl

@[simp] theorem put_heap_stk (m : Mem) (i : Nat) (v : Val) : (m.put (.h i) v).stk = m.stk := rfl

/-- Writing a slot outside `S` keeps `S` closed. -/
theorem Closed.put_out {S : Nat → Prop} {mem : Mem} (h : Closed S mem) {i : Nat} (hi : ¬ S i)
    (v : Val) : Closed S (mem.put (.s i) v) :=
  ⟨h.heap, fun j hj a ha => h.vars j hj a (by
    rwa [put_stk_ne _ _ (by rintro rfl; exact hi hj)] at ha)⟩

/-- Writing a plain value anywhere keeps `S` closed. -/
theorem Closed.put_flat {S : Nat → Prop} {mem : Mem} (h : Closed S mem) (a : Addr) {v : Val}
    (hv : v.ptr = none) : Closed S (mem.put a v) := by
  cases a with
  | s i =>
    refine ⟨h.heap, fun j hj a ha => ?_⟩
    by_cases hji : j = i
    · subst hji; rw [put_stk_same, hv] at ha; cases ha
    · rw [put_stk_ne _ _ hji] at ha; exact h.vars j hj a ha
  | h i =>
    refine ⟨fun j => ?_, h.vars⟩
    simp only [Mem.put]
    split
    · exact hv
    · exact h.heap j

theorem Operands.put {S : Nat → Prop} {mem : Mem} {lo hi : Nat} (h : Operands S mem lo hi)
    {i : Nat} {v : Val} (hv : ∀ a, v.ptr = some a → Good S a) :
    Operands S (mem.put (.s i) v) lo hi := by
  intro j h1 h2 a ha
  by_cases hji : j = i
  · subst hji; rw [put_stk_same] at ha; exact hv a ha
  · rw [put_stk_ne _ _ hji] at ha; exact h j h1 h2 a ha

theorem Operands.mono {S : Nat → Prop} {mem : Mem} {lo hi lo' hi' : Nat} (h : Operands S mem lo hi)
    (h1 : lo ≤ lo') (h2 : hi' ≤ hi) : Operands S mem lo' hi' :=
  fun j h3 h4 => h j (by omega) (by omega)

/-- Pushing one more operand. -/
theorem Operands.snoc {S : Nat → Prop} {mem : Mem} {lo hi : Nat} (h : Operands S mem lo hi)
    {v : Val} (hv : ∀ a, v.ptr = some a → Good S a) :
    Operands S (mem.put (.s hi) v) lo (hi + 1) := by
  intro j h1 h2 a ha
  by_cases hji : j = hi
  · subst hji; rw [put_stk_same] at ha; exact hv a ha
  · rw [put_stk_ne _ _ hji] at ha; exact h j h1 (by omega) a ha

theorem flat_good {S : Nat → Prop} {v : Val} (hv : v.ptr = none) :
    ∀ a, v.ptr = some a → Good S a := by
  intro a ha; rw [hv] at ha; cases ha

theorem Good.mono {S T : Nat → Prop} (h : ∀ i, S i → T i) {a : Addr} (ha : Good S a) : Good T a := by
  cases a with
  | s i => exact h i ha
  | h i => trivial

theorem derefF_flat {P : Prog} {mem : Mem} {v : Val} (hv : v.ptr = none) (f : Nat) :
    derefF P mem (f + 1) v = .ok v := by
  cases v <;> first | rfl | simp [Val.ptr] at hv

private theorem derefF_slot {P : Prog} (hP : P.Ok) {S : Nat → Prop} {mem : Mem} (h : Closed S mem) :
    ∀ i, S i → ∀ f, ∃ u, derefF P mem (f + i + 2) (mem.stk i) = .ok u ∧ u.ptr = none := by
  intro i
  induction i using Nat.strongRecOn with
  | _ i ih =>
    intro hi f
    have hv := h.vars i hi
    generalize mem.stk i = v at hv
    cases v with
    | ref a =>
      have hg := hv a rfl
      cases a with
      | s j =>
        obtain ⟨u, h1, h2⟩ := ih j hg.2 hg.1 (f + i - j - 1)
        refine ⟨u, ?_, h2⟩
        show derefF P mem (f + i + 1) (mem.get (.s j)) = _
        rw [← h1]
        have : f + i - j - 1 + j + 2 = f + i + 1 := by have := hg.2; omega
        rw [this]; rfl
      | h k =>
        exact ⟨mem.heap k, derefF_flat (h.heap k) _, h.heap k⟩
    | mem a k => exact ⟨_, rfl, hP.elem _ _ _⟩
    | int _ => exact ⟨_, rfl, rfl⟩
    | obj _ => exact ⟨_, rfl, rfl⟩
    | frame _ _ => exact ⟨_, rfl, rfl⟩
    | nul => exact ⟨_, rfl, rfl⟩

/-- Dereferencing an operand that refers into a closed set ends, with a plain value. -/
theorem deref_ok {P : Prog} (hP : P.Ok) {S : Nat → Prop} {mem : Mem} (h : Closed S mem) {v : Val}
    (hv : ∀ a, v.ptr = some a → Good S a) : ∃ u, deref P mem v = .ok u ∧ u.ptr = none := by
  cases v with
  | ref a =>
    have hg := hv a rfl
    cases a with
    | s j =>
      obtain ⟨u, h1, h2⟩ := derefF_slot hP h j hg 0
      exact ⟨u, by rw [Nat.zero_add] at h1; exact h1, h2⟩
    | h k => exact ⟨mem.heap k, derefF_flat (h.heap k) _, h.heap k⟩
  | mem a k => exact ⟨_, rfl, hP.elem _ _ _⟩
  | int _ => exact ⟨_, rfl, rfl⟩
  | obj _ => exact ⟨_, rfl, rfl⟩
  | frame _ _ => exact ⟨_, rfl, rfl⟩
  | nul => exact ⟨_, rfl, rfl⟩

/-! ### Entering a function -/

theorem fillArgs_spec (limit : Nat) : ∀ (k : Nat) (mem : Mem) (top : Nat) (mem' : Mem)
    (top' : Nat), fillArgs limit k mem top = some (mem', top') →
    top' = top + k ∧ mem'.heap = mem.heap ∧ (∀ i, i < top → mem'.stk i = mem.stk i) ∧
    (∀ i, top ≤ i → i < top + k → mem'.stk i = .int 0) ∧
    (∀ i, top + k ≤ i → mem'.stk i = mem.stk i) := by
  intro k
  induction k with
  | zero =>
    intro mem top mem' top' h
    simp only [fillArgs, Option.some.injEq, Prod.mk.injEq] at h
    obtain ⟨rfl, rfl⟩ := h
    exact ⟨rfl, rfl, fun _ _ => rfl, fun i h1 h2 => by omega, fun _ _ => rfl⟩
  | succ k ih =>
    intro mem top mem' top' h
    simp only [fillArgs] at h
    split at h
    · cases h
    · obtain ⟨h1, h2, h3, h4, h5⟩ := ih _ _ _ _ h
      refine ⟨by omega, h2, ?_, ?_, ?_⟩
      · intro i hi
        rw [h3 i (by omega), put_stk_ne _ _ (by omega)]
      · intro i hi1 hi2
        by_cases hit : i = top
        · subst hit; rw [h3 _ (by omega), put_stk_same]
        · exact h4 i (by omega) (by omega)
      · intro i hi
        rw [h5 i (by omega), put_stk_ne _ _ (by omega)]

private theorem asInt_clearP (P : Prog) (v : Val) : P.asInt (clearP v) = .int 0 := by
  cases v <;> rfl

theorem initLocals_spec (P : Prog) : ∀ (k : Nat) (mem : Mem) (top : Nat),
    (initLocals P k mem top).2 = top + k ∧ (initLocals P k mem top).1.heap = mem.heap ∧
    (∀ i, i < top → (initLocals P k mem top).1.stk i = mem.stk i) ∧
    (0 < k → (initLocals P k mem top).1.stk top = P.asInt (mem.stk top)) ∧
    (∀ j, 0 < j → j < k → (initLocals P k mem top).1.stk (top + j) = .int 0) := by
  intro k
  induction k with
  | zero => intro mem top; exact ⟨rfl, rfl, fun _ _ => rfl, fun h => by omega, fun j _ h => by omega⟩
  | succ k ih =>
    intro mem top
    simp only [initLocals]
    obtain ⟨h1, h2, h3, h4, h5⟩ := ih
      ((mem.put (.s top) (P.asInt (mem.stk top))).put (.s (top + 1))
        (clearP ((mem.put (.s top) (P.asInt (mem.stk top))).stk (top + 1)))) (top + 1)
    refine ⟨by omega, h2, ?_, ?_, ?_⟩
    · intro i hi
      rw [h3 i (by omega), put_stk_ne _ _ (by omega), put_stk_ne _ _ (by omega)]
    · intro _
      rw [h3 top (by omega), put_stk_ne _ _ (by omega), put_stk_same]
    · intro j hj1 hj2
      by_cases hj : j = 1
      · subst hj
        rw [h4 (by omega), put_stk_same, asInt_clearP]
      · have := h5 (j - 1) (by omega) (by omega)
        rw [show top + 1 + (j - 1) = top + j by omega] at this
        exact this

/-- The state at the first instruction of a function called with `n` arguments from `m`. -/
structure Entered (P : Prog) (F : Fn) (n ret : Nat) (m m' : M) : Prop where
  pc : m'.pc = F.entry
  fb : m'.fb = m.top - n
  top : m'.top = m.top - n + F.arguments + F.frameSpaceNeeded + 1
  heap : m'.mem.heap = m.mem.heap
  below : ∀ i, i < m.top - n → m'.mem.stk i = m.mem.stk i
  args : ∀ i, i < F.arguments → m'.mem.stk (m'.fb + i) =
    if i < n then m.mem.stk (m.top - n + i) else .int 0
  /-- the first local keeps the bits that were in its slot -/
  local0 : 0 < F.frameSpaceNeeded → m'.mem.stk (m'.fb + F.arguments) =
    P.asInt (m.mem.stk (m.top - n + F.arguments))
  locals : ∀ j, 0 < j → j < F.frameSpaceNeeded → m'.mem.stk (m'.fb + F.arguments + j) = .int 0
  vector : m'.mem.stk (m'.fb + F.arguments + F.frameSpaceNeeded) = .frame m.fb ret

theorem callFn_entered {P : Prog} {F : Fn} {n ret : Nat} {m : M}
    (hadj : F.frameBaseAdjustment = 1 + F.arguments + F.frameSpaceNeeded) (hn : n ≤ m.top) :
    callFn P F n m ret = .err ∨ ∃ m', callFn P F n m ret = .run m' ∧ Entered P F n ret m m' := by
  -- both ways of fixing the number of arguments
  have hfill : ∀ (x : Option (Mem × Nat)), (x = if F.arguments < n then
      some (m.mem, m.top - (n - F.arguments))
      else fillArgs P.limit (F.arguments - n) m.mem m.top) → x = none ∨
      ∃ mem, x = some (mem, m.top - n + F.arguments) ∧ mem.heap = m.mem.heap ∧
        (∀ i, i < m.top - n → mem.stk i = m.mem.stk i) ∧
        (∀ i, i < F.arguments → mem.stk (m.top - n + i) =
          if i < n then m.mem.stk (m.top - n + i) else .int 0) ∧
        mem.stk (m.top - n + F.arguments) = m.mem.stk (m.top - n + F.arguments) := by
    intro x hx
    split at hx
    · next h =>
      right
      refine ⟨m.mem, ?_, rfl, fun _ _ => rfl, ?_, rfl⟩
      · rw [hx, show m.top - (n - F.arguments) = m.top - n + F.arguments by omega]
      · intro i hi
        rw [if_pos (by omega)]
    · next h =>
      cases hf : fillArgs P.limit (F.arguments - n) m.mem m.top with
      | none => left; rw [hx, hf]
      | some p =>
        obtain ⟨mem, top⟩ := p
        obtain ⟨h1, h2, h3, h4, h5⟩ := fillArgs_spec _ _ _ _ _ _ hf
        right
        refine ⟨mem, ?_, h2, ?_, ?_, ?_⟩
        · rw [hx, hf, h1, show m.top + (F.arguments - n) = m.top - n + F.arguments by omega]
        · intro i hi; exact h3 i (by omega)
        · intro i hi
          split
          · next hin => exact h3 _ (by omega)
          · next hin => exact h4 _ (by omega) (by omega)
        · exact h5 _ (by omega)
  unfold callFn
  generalize hx : (if F.arguments < n then some (m.mem, m.top - (n - F.arguments))
      else fillArgs P.limit (F.arguments - n) m.mem m.top) = x
  rcases hfill x hx.symm with rfl | ⟨mem, rfl, e1, e2, e3, e4⟩
  · left; rfl
  dsimp only
  split
  · left; rfl
  next hlim =>
  obtain ⟨g1, g2, g3, g4, g5⟩ := initLocals_spec P F.frameSpaceNeeded mem (m.top - n + F.arguments)
  generalize initLocals P F.frameSpaceNeeded mem (m.top - n + F.arguments) = q at g1 g2 g3 g4 g5
  obtain ⟨mem2, top2⟩ := q
  dsimp only at g1 g2 g3 g4 g5 ⊢
  subst g1
  rw [if_neg (by omega)]
  right
  have hfb : m.top - n + F.arguments + F.frameSpaceNeeded + 1 - F.frameBaseAdjustment
      = m.top - n := by omega
  refine ⟨_, rfl, ?_⟩
  refine ⟨rfl, hfb, rfl, by rw [put_stk_heap, g2, e1], ?_, ?_, ?_, ?_, ?_⟩
  · intro i hi
    dsimp only
    rw [put_stk_ne _ _ (by omega), g3 i (by omega), e2 i hi]
  · intro i hi
    dsimp only
    rw [hfb, put_stk_ne _ _ (by omega), g3 _ (by omega), e3 i hi]
  · intro h0
    dsimp only
    rw [hfb, put_stk_ne _ _ (by omega), g4 h0, e4]
  · intro j hj1 hj2
    dsimp only
    rw [hfb, put_stk_ne _ _ (by omega), g5 j hj1 hj2]
  · dsimp only
    rw [hfb, put_stk_same]

end Wrench.Frames
