import Verif.Prog.Script

/-
The entry of a function called by the host, step by step: `enterFn` is what it comes to.
-/
namespace Wrench.Prog
open Wrench.Vm Wrench.Vm.Jump Wrench.Peep Wrench.Whole Wrench.Ops

/-- The cells of the stack, and `stackTop`. -/
structure Stk where
  cell : Nat → Val
  top : Nat

def put (c : Nat → Val) (j : Nat) (v : Val) : Nat → Val := fun i => if i = j then v else c i

/-- `*stackTop++ = v`. -/
def Stk.push (s : Stk) (v : Val) : Stk := ⟨put s.cell s.top v, s.top + 1⟩

/-- The arguments, vm.cpp 720-723. -/
def Stk.args (s : Stk) : List Word32 → Stk
  | [] => s
  | w :: l => (s.push (.int w)).args l

/-- Arguments that are not given, vm.cpp 1031-1036. -/
def Stk.zeros (s : Stk) : Nat → Stk
  | 0 => s
  | k + 1 => (s.push (.int 0)).zeros k

/-- What a cell is before it gets a type: `pay` is the payload read as an integer, `zero` is what
`stackTop->p = 0` makes of it. -/
structure Raw where
  pay : Val → Word32
  zero : Val → Val
  pay_int : ∀ w, pay (.int w) = w
  pay_zero : ∀ v, pay (zero v) = 0

/-- The further variables, vm.cpp 1049-1053: the type of one cell is set and the payload of the next cleared. -/
def Stk.locals (R : Raw) (s : Stk) : Nat → Stk
  | 0 => s
  | k + 1 =>
    let c := put s.cell s.top (.int (R.pay (s.cell s.top)))
    Stk.locals R ⟨put c (s.top + 1) (R.zero (c (s.top + 1))), s.top + 1⟩ k

/-- `wr_callFunction` with a function, vm.cpp 712-730 and 1019-1066: the cell for the result, the arguments, their
number made right, the further variables, the return vector, the frame base. -/
def enterHost (R : Raw) (σ : St) (base gb ng a l : Nat) (argv : List Word32) : M :=
  let s : Stk := ⟨fun j => σ.cell (.cell j), base⟩
  let s := (s.push (.int 0)).args argv
  let s := if a < argv.length then { s with top := s.top - (argv.length - a) } else s.zeros (a - argv.length)
  let s := s.locals R l
  let r0 := s.top
  let s := s.push .other
  { σ := { σ with cell := fun
      | .cell j => s.cell j
      | x => σ.cell x }
    top := s.top
    fb := s.top - (1 + a + l) % 256
    gb := gb
    nl := a + l
    ng := ng
    r0 := .cell r0
    r1 := .cell base }

theorem args_spec (c : Nat → Val) (t : Nat) (l : List Word32) : Stk.args ⟨c, t⟩ l = ⟨fun j => if t ≤ j then
      match l[j - t]? with
      | some w => .int w
      | none => c j
    else c j, t + l.length⟩ := by
  induction l generalizing c t with
  | nil => simp [Stk.args]
  | cons w l ih =>
    show Stk.args ⟨put c t (.int w), t + 1⟩ l = _
    rw [ih]
    simp only [List.length_cons, Stk.mk.injEq]
    refine ⟨?_, by omega⟩
    funext j
    rcases Nat.lt_trichotomy j t with h | h | h
    · rw [if_neg (by omega), if_neg (by omega), put, if_neg (by omega)]
    · subst h
      rw [if_neg (by omega), if_pos (by omega), put, if_pos rfl, Nat.sub_self]
      rfl
    · rw [if_pos (by omega), if_pos (by omega), show j - t = j - (t + 1) + 1 by omega, List.getElem?_cons_succ, put,
        if_neg (by omega)]

theorem zeros_spec (c : Nat → Val) (t k : Nat) :
    Stk.zeros ⟨c, t⟩ k = ⟨fun j => if t ≤ j ∧ j < t + k then .int 0 else c j, t + k⟩ := by
  induction k generalizing c t with
  | zero =>
    simp only [Stk.zeros, Stk.mk.injEq]
    refine ⟨?_, rfl⟩
    funext j
    rw [if_neg (by omega)]
  | succ k ih =>
    show Stk.zeros ⟨put c t (.int 0), t + 1⟩ k = _
    rw [ih]
    simp only [Stk.mk.injEq]
    refine ⟨?_, by omega⟩
    funext j
    by_cases h : j = t
    · subst h
      rw [if_neg (by omega), if_pos (by omega), put, if_pos rfl]
    · by_cases h2 : t ≤ j ∧ j < t + (k + 1)
      · rw [if_pos (by omega), if_pos h2]
      · rw [if_neg (by omega), if_neg h2, put, if_neg h]

theorem locals_spec (R : Raw) (s : Stk) (k : Nat) : (s.locals R k).top = s.top + k ∧
    (∀ j, j < s.top → (s.locals R k).cell j = s.cell j) ∧
    (0 < k → (s.locals R k).cell s.top = .int (R.pay (s.cell s.top))) ∧
    (∀ j, s.top < j → j < s.top + k → (s.locals R k).cell j = .int 0) ∧
    ∀ j, s.top + k < j → (s.locals R k).cell j = s.cell j := by
  induction k generalizing s with
  | zero => exact ⟨rfl, fun _ _ => rfl, fun h => absurd h (by omega), fun j h h' => absurd h' (by omega), fun _ _ => rfl⟩
  | succ k ih =>
    simp only [Stk.locals]
    generalize hs : (⟨put (put s.cell s.top (.int (R.pay (s.cell s.top)))) (s.top + 1)
      (R.zero (put s.cell s.top (.int (R.pay (s.cell s.top))) (s.top + 1))), s.top + 1⟩ : Stk) = s'
    have ht : s'.top = s.top + 1 := by rw [← hs]
    have hc : ∀ j, s'.cell j = if j = s.top + 1 then R.zero (s.cell j) else if j = s.top then .int (R.pay (s.cell s.top)) else s.cell j := by
      intro j
      rw [← hs]
      simp only [put]
      by_cases h : j = s.top + 1
      · simp [h]
      · simp [h]
    obtain ⟨h1, h2, h3, h4, h5⟩ := ih s'
    rw [ht] at h1 h2 h3 h4 h5
    refine ⟨by omega, ?_, ?_, ?_, ?_⟩
    · intro j hj
      rw [h2 j (by omega), hc, if_neg (by omega), if_neg (by omega)]
    · intro _
      rw [h2 _ (by omega), hc, if_neg (by omega), if_pos rfl]
    · intro j hj hj'
      by_cases h : j = s.top + 1
      · subst h
        rw [h3 (by omega), hc, if_pos rfl, R.pay_zero]
      · exact h4 j (by omega) (by omega)
    · intro j hj
      rw [h5 j (by omega), hc, if_neg (by omega), if_neg (by omega)]

/-- What the first of the further variables holds: the argument in its place, if one was given too many, otherwise
what was in the cell. -/
def junkOf (R : Raw) (σ : St) (base a : Nat) (argv : List Word32) : Word32 :=
  (argv[a]?).getD (R.pay (σ.cell (.cell (base + 1 + a))))

/-- The entry step by step comes to `enterFn`. -/
theorem enter_steps (R : Raw) (σ : St) (base gb ng a l : Nat) (argv : List Word32) :
    enterHost R σ base gb ng a l argv = enterFn σ base gb ng a l argv (junkOf R σ base a argv) := by
  unfold enterHost
  simp only [Stk.push]
  rw [args_spec]
  generalize hs : (if a < argv.length then _ else _ : Stk) = s
  have h0 : s.top = base + 1 + a ∧ ∀ j, s.cell j = if j < base then σ.cell (.cell j) else if j = base then .int 0
      else if j < base + 1 + a then .int (argv.getD (j - base - 1) 0)
      else match argv[j - base - 1]? with
        | some w => .int w
        | none => σ.cell (.cell j) := by
    rw [← hs]
    by_cases ha : a < argv.length
    · rw [if_pos ha]
      refine ⟨by dsimp only; omega, fun j => ?_⟩
      dsimp only
      by_cases h1 : j < base
      · rw [if_neg (by omega), if_pos h1, put, if_neg (by omega)]
      · rw [if_neg h1]
        by_cases h2 : j = base
        · rw [if_neg (by omega), if_pos h2, put, if_pos h2]
        · rw [if_pos (by omega), if_neg h2, Nat.sub_add_eq]
          simp only [put, if_neg h2]
          by_cases h3 : j < base + 1 + a
          · rw [if_pos h3, List.getD_eq_getElem?_getD, List.getElem?_eq_getElem (by omega)]
            rfl
          · rw [if_neg h3]
    · rw [if_neg ha, zeros_spec]
      refine ⟨by dsimp only; omega, fun j => ?_⟩
      dsimp only
      by_cases h1 : j < base
      · rw [if_neg (by omega), if_neg (by omega), if_pos h1, put, if_neg (by omega)]
      · rw [if_neg h1]
        by_cases h2 : j = base
        · rw [if_neg (by omega), if_neg (by omega), if_pos h2, put, if_pos h2]
        · rw [if_neg h2]
          by_cases h3 : j < base + 1 + a
          · rw [if_pos h3, List.getD_eq_getElem?_getD]
            by_cases h4 : j - base - 1 < argv.length
            · rw [if_neg (by omega), if_pos (by omega), Nat.sub_add_eq, List.getElem?_eq_getElem h4]
              rfl
            · rw [if_pos (by omega), List.getElem?_eq_none (by omega)]
              rfl
          · rw [if_neg (by omega), if_pos (by omega), if_neg h3, Nat.sub_add_eq]
            simp only [put, if_neg h2]
  obtain ⟨ht, hc⟩ := h0
  obtain ⟨h1, h2, h3, h4, h5⟩ := locals_spec R s l
  unfold enterFn
  simp only [h1, ht]
  congr 2
  funext x
  cases x with
  | cell j =>
    dsimp only
    rw [put]
    by_cases e : j = base + 1 + a + l
    · rw [if_pos e, if_neg (by omega), if_neg (by omega), if_neg (by omega), if_neg (by omega), if_pos e]
    · rw [if_neg e]
      rcases Nat.lt_trichotomy j (base + 1 + a) with e1 | e1 | e1
      · rw [h2 j (by omega), hc]
        by_cases e2 : j < base
        · rw [if_pos e2, if_pos e2]
        · rw [if_neg e2, if_neg e2]
          by_cases e3 : j = base
          · rw [if_pos e3, if_pos e3]
          · rw [if_neg e3, if_neg e3, if_pos e1, if_pos e1]
      · rw [if_neg (by omega), if_neg (by omega), if_neg (by omega), if_pos (by omega), if_pos e1, e1, ← ht, h3 (by omega), hc, ht,
          if_neg (by omega), if_neg (by omega), if_neg (by omega), show base + 1 + a - base - 1 = a by omega]
        unfold junkOf
        cases argv[a]? with
        | none => rfl
        | some w => simp [R.pay_int]
      · rw [if_neg (by omega), if_neg (by omega), if_neg (by omega)]
        by_cases e2 : j < base + 1 + a + l
        · rw [if_pos e2, h4 j (by omega) (by omega), if_neg (by omega)]
        · rw [if_neg e2, if_neg e, h5 j (by omega), hc, if_neg (by omega), if_neg (by omega), if_neg (by omega)]
          cases argv[j - base - 1]? <;> rfl
  | _ => rfl

/-- **C113**, functions, with the entry step by step (partial); see `C113_function_partial`. -/
theorem C113_call_partial {neg : Word32 → Word32} {s : IS} {U : BU} (hg : s.good neg)
    (hc : compileFn neg s = some U) (R : Raw) {σ : St} {base gb ng a l : Nat} {argv : List Word32}
    {g : Byte → Option Word32} (hl : 1 + a + l < 256) (hb : gb + ng ≤ base) (hG : Globals g gb ng σ)
    {ρ' : Vars} {n : Nat} {o : Flow.Out (Option Word32)}
    (hx : Flow.exec n s.means (some (fnVars g a l argv (junkOf R σ base a argv))) = some (o, some ρ'))
    {w : Word32} (hw : Flow.valueOf (some 0) o = some (some w)) (hlast : Flow.lastRet s.means = true → o ≠ .nrm) (E : Env) :
    ∃ N σ', runFn E U.all base N (enterHost R σ base gb ng a l argv) = some (.int w, σ') ∧ Globals (ρ' .G) gb ng σ' ∧
      ∀ j, j < base → ¬ (gb ≤ j ∧ j < gb + ng) → σ'.cell (.cell j) = σ.cell (.cell j) := by
  rw [enter_steps]
  exact C113_function_partial hg hc hl hb hG hx hw hlast E

end Wrench.Prog
