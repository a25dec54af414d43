import Verif.Whole.Spec
import Verif.Peep.Rules

/-
The machine restricted to integers: the stack holds integers and references to variables, the variables
do not change.  `Sim` relates it to the machine of `Peep/Vm.lean`.
-/
namespace Wrench.Whole
open Wrench.Vm Wrench.Peep Wrench.Ops

/-- A stack slot. -/
inductive Slot where
  | int (w : Word32)
  | ref (v : Sp) (i : Byte)
deriving DecidableEq, Repr

/-- The integer a slot stands for. -/
def Slot.val (ρ : Vars) : Slot → Option Word32
  | .int w => some w
  | .ref v i => ρ v i

/-- Stack, top first, and the registers loaded by an `…Values` instruction. -/
structure AS where
  stk : List Slot
  regs : Option (Slot × Slot)

def toOpt {α : Type} : Res α → Option α
  | .ok a => some a
  | _ => none

/-- The integer entries of the operator tables. -/
def iop : BinOp → Word32 → Word32 → Res Word32
  | .add => tot (· + ·)
  | .sub => tot (· - ·)
  | .mul => tot (· * ·)
  | .div => idiv
  | .mod => imod
  | .and => tot (· &&& ·)
  | .or => tot (· ||| ·)
  | .xor => tot (· ^^^ ·)
  | .shl => ishl
  | .shr => ishr

def icmp : CmpOp → Word32 → Word32 → Bool
  | .gt => fun a b => b.slt a
  | .lt => fun a b => a.slt b
  | .eq => fun a b => a == b
  | .land => fun a b => a != 0 && b != 0
  | .lor => fun a b => a != 0 || b != 0

def slotBin (ρ : Vars) (op : BinOp) (x y : Slot) : Option Slot :=
  (x.val ρ).bind fun a => (y.val ρ).bind fun b => (toOpt (iop op a b)).map .int

def slotCmp (ρ : Vars) (op : CmpOp) (inv : Bool) (x y : Slot) : Option Slot :=
  (x.val ρ).bind fun a => (y.val ρ).map fun b => .int (truth (icmp op a b != inv))

/-- A variable that holds an integer. -/
def look (ρ : Vars) (v : Sp) (i : Byte) : Option Slot := (ρ v i).map fun _ => .ref v i

def litInt (k : Lit) (d : List Byte) : Option Word32 :=
  match litVal k d with
  | some (.int w) => some w
  | _ => none

/-- The top replaced. -/
def pop1 (s : AS) (f : Slot → Option Slot) : Option AS :=
  match s.stk with
  | x :: st => (f x).map fun r => { s with stk := r :: st }
  | _ => none

/-- The top and the slot below it replaced by one. -/
def pop2 (s : AS) (f : Slot → Slot → Option Slot) : Option AS :=
  match s.stk with
  | x :: y :: st => (f x y).map fun r => { s with stk := r :: st }
  | _ => none

def pushO (s : AS) (o : Option Slot) : Option AS := o.map fun r => { s with stk := r :: s.stk }

def var1 {α : Type} (d : List Byte) (f : Byte → Option α) : Option α :=
  match d with
  | [i] => f i
  | _ => none

def var2 {α : Type} (d : List Byte) (f : Byte → Byte → Option α) : Option α :=
  match d with
  | [i, j] => f i j
  | _ => none

/-- One instruction. -/
def astep (ρ : Vars) (a : Act) (d : List Byte) (s : AS) : Option AS :=
  match a with
  | .load v => var1 d fun i => pushO s (look ρ v i)
  | .lit k => pushO s ((litInt k d).map .int)
  | .values v w => var2 d fun i j => (look ρ v i).bind fun x => (look ρ w j).map fun y =>
      { s with regs := some (x, y) }
  | .bin op .stack => pop2 s (slotBin ρ op)
  | .bin op (.two v w) => var2 d fun i j => pushO s ((look ρ v i).bind fun y => (look ρ w j).bind fun x =>
      slotBin ρ op x y)
  | .bin op .regs => pushO s (s.regs.bind fun p => slotBin ρ op p.2 p.1)
  | .cmp op inv .stack false => pop2 s (slotCmp ρ op inv)
  | .cmp op inv (.one v) false => var1 d fun i => pop1 s fun y => (look ρ v i).bind fun x =>
      slotCmp ρ op inv x y
  | .cmp op inv (.two v w) false => var2 d fun i j => pushO s ((look ρ v i).bind fun y =>
      (look ρ w j).bind fun x => slotCmp ρ op inv x y)
  | .neg => pop1 s fun x => (x.val ρ).map fun w => .int (0 - w)
  | .lnot => pop1 s fun x => (x.val ρ).map fun w : Word32 => .int (truth (w == 0))
  | .bnot => pop1 s fun x => (x.val ρ).map fun w => .int (~~~w)
  | .swap => var1 d fun n => if n.toNat = 0 then none
      else (Expr.swapAt 0 (n.toNat - 1) s.stk).map fun st => { s with stk := st }
  | .swap2 => var2 d fun a b => if a.toNat = 0 ∨ b.toNat = 0 then none
      else ((Expr.swapAt 0 (a.toNat - 1) s.stk).bind (Expr.swapAt 1 (b.toNat - 1))).map fun st =>
        { s with stk := st }
  | _ => none

def arun (ρ : Vars) : List Ins → AS → Option AS
  | [], s => some s
  | (a, d) :: is, s => (astep ρ a d s).bind (arun ρ is)

theorem arun_append (ρ : Vars) (is js : List Ins) (s : AS) :
    arun ρ (is ++ js) s = (arun ρ is s).bind (arun ρ js) := by
  induction is generalizing s with
  | nil => rfl
  | cons x is ih =>
    obtain ⟨a, d⟩ := x
    simp only [List.cons_append, arun]
    cases astep ρ a d s with
    | none => rfl
    | some s' => exact ih s'

/-! ### The relation -/

/-- The machine a fragment starts from: frame and globals below the stack, the variables hold these
integers. -/
structure Start (ρ : Vars) (m : M) : Prop where
  locals : m.fb + m.nl ≤ m.top
  globals : m.gb + m.ng ≤ m.top
  vars : ∀ v i w, ρ v i = some w → ∃ k, m.var v i = .ok (.cell k) ∧ m.σ.cell (.cell k) = .int w

/-- The value a slot is in the machine. -/
def Slot.holds (m : M) : Slot → Val → Prop
  | .int w, x => x = .int w
  | .ref v i, x => ∃ a, m.var v i = .ok a ∧ x = .ref a

/-- `m` is `m0` with the stack `st` pushed (top first). -/
structure Sim (m0 : M) (s : AS) (m : M) : Prop where
  fb : m.fb = m0.fb
  gb : m.gb = m0.gb
  nl : m.nl = m0.nl
  ng : m.ng = m0.ng
  top : m.top = m0.top + s.stk.length
  below : ∀ a, (∀ k, a = .cell k → k < m0.top) → m.σ.cell a = m0.σ.cell a
  stack : ∀ (k : Nat) (x : Slot), s.stk[k]? = some x → x.holds m0 (m.σ.cell (.cell (m.top - 1 - k)))
  obj : m.σ.obj = m0.σ.obj
  next : m.σ.next = m0.σ.next
  raw : m.σ.rawMem = m0.σ.rawMem
  regs : ∀ x y : Slot, s.regs = some (x, y) → x.holds m0 (.ref m.r0) ∧ y.holds m0 (.ref m.r1)

theorem Sim.init (m : M) : Sim m ⟨[], none⟩ m :=
  ⟨rfl, rfl, rfl, rfl, rfl, fun _ _ => rfl, by simp, rfl, rfl, rfl, by simp⟩

theorem Sim.var {m0 m : M} {s : AS} (h : Sim m0 s m) (v : Sp) (i : Byte) : m.var v i = m0.var v i := by
  cases v <;> simp [M.var, h.fb, h.gb, h.nl, h.ng]

theorem Start.below {ρ : Vars} {m : M} (h : Start ρ m) {v : Sp} {i : Byte} {k : Nat}
    (hk : m.var v i = .ok (.cell k)) : k < m.top := by
  have h1 := h.locals
  have h2 := h.globals
  cases v <;> simp only [M.var] at hk <;> split at hk <;> simp only [Res.ok.injEq, Addr.cell.injEq, reduceCtorEq] at hk <;> omega

/-- The address of a slot's value and the integer found there. -/
theorem Sim.look {ρ : Vars} {m0 m : M} {s : AS} (h0 : Start ρ m0) (h : Sim m0 s m) {v : Sp} {i : Byte} {x : Slot}
    (hl : look ρ v i = some x) : ∃ k w, m.var v i = .ok (.cell k) ∧ m.σ.cell (.cell k) = .int w ∧
      ρ v i = some w ∧ x = .ref v i := by
  unfold Whole.look at hl
  cases hw : ρ v i with
  | none => rw [hw] at hl; simp at hl
  | some w =>
    rw [hw] at hl
    obtain ⟨k, h1, h2⟩ := h0.vars v i w hw
    refine ⟨k, w, by rw [h.var]; exact h1, ?_, rfl, by simpa using hl.symm⟩
    rw [h.below _ (by rintro j hj; cases hj; exact h0.below h1)]
    exact h2

/-- How an operand cell leads to an integer. -/
inductive Leads (σ : St) (a : Addr) (w : Word32) : Prop where
  | here : σ.cell a = .int w → Leads σ a w
  | ref (b : Addr) : σ.cell a = .ref b → σ.cell b = .int w → Leads σ a w

theorem Sim.leads {ρ : Vars} {m0 m : M} {s : AS} (h0 : Start ρ m0) (h : Sim m0 s m) {k : Nat} {x : Slot} {w : Word32}
    (hx : s.stk[k]? = some x) (hw : x.val ρ = some w) : Leads m.σ (.cell (m.top - 1 - k)) w := by
  have := h.stack k x hx
  cases x with
  | int w' =>
    simp only [Slot.val, Option.some.injEq] at hw
    subst hw
    exact .here this
  | ref v i =>
    obtain ⟨a, h1, h2⟩ := this
    obtain ⟨j, h3, h4⟩ := h0.vars v i w hw
    rw [h1] at h3
    cases h3
    refine .ref _ h2 ?_
    rw [h.below _ (by rintro j' hj; cases hj; exact h0.below h1)]
    exact h4

/-! ### The operators on integers -/

theorem disp_int {R : Type} (E : Env) (T : Ty → Ty → Entry R) (cat : St → Addr → Addr → Option (St × R)) (d : R)
    {g : St → Addr → Addr → Res (St × R)} (hII : T .I .I = .leaf g) (hIR : T .I .R = .refR) (hRI : T .R .I = .refL)
    (hRR : T .R .R = .refLR) {σ : St} {to from_ : Addr} {a b : Word32} (h1 : Leads σ to a) (h2 : Leads σ from_ b) :
    ∃ to' from', disp E T cat d 2 σ to from_ = g σ to' from' ∧ σ.cell to' = .int a ∧ σ.cell from' = .int b := by
  cases h1 with
  | here h1 =>
    cases h2 with
    | here h2 =>
      refine ⟨to, from_, ?_, h1, h2⟩
      simp [disp, h1, h2, Val.ty, hII]
    | ref c h2 h3 =>
      refine ⟨to, c, ?_, h1, h3⟩
      simp [disp, h1, h2, h3, Val.ty, hIR, hII]
  | ref c h1 h3 =>
    cases h2 with
    | here h2 =>
      refine ⟨c, from_, ?_, h3, h2⟩
      simp [disp, h1, h2, h3, Val.ty, hRI, hII]
    | ref e h2 h4 =>
      refine ⟨c, e, ?_, h3, h4⟩
      simp [disp, h1, h2, h3, h4, Val.ty, hRR, hII]

theorem binary_int {E : Env} {op : BinOp} {σ : St} {to from_ tgt : Addr} {a b r : Word32} (h1 : Leads σ to a)
    (h2 : Leads σ from_ b) (hr : iop op a b = .ok r) : binary E op 2 σ to from_ tgt = .ok (σ.set tgt (.int r)) := by
  have key : ∀ (o : Word32 → Word32 → Res Word32), binTable E tgt op .I .I = .leaf (leafT tgt .int o) → o a b = .ok r →
      binTable E tgt op .I .R = .refR → binTable E tgt op .R .I = .refL → binTable E tgt op .R .R = .refLR →
      binary E op 2 σ to from_ tgt = .ok (σ.set tgt (.int r)) := by
    intro o t1 ho t2 t3 t4
    obtain ⟨to', from', h3, h4, h5⟩ := disp_int E (binTable E tgt op) (catCheck E tgt) () t1 t2 t3 t4 h1 h2
    unfold binary
    rw [h3, leafT]
    simp only [h4, h5, Val.bits]
    show (do let r ← o a b; _) >>= _ = _
    rw [ho]
    rfl
  cases op <;> exact key _ rfl hr rfl rfl rfl

theorem compare_int {E : Env} {op : CmpOp} {σ : St} {to from_ : Addr} {a b : Word32} (h1 : Leads σ to a)
    (h2 : Leads σ from_ b) : compare E op 2 σ to from_ = .ok (σ, icmp op a b) := by
  have key : ∀ (o : Word32 → Word32 → Bool), cmpTable E op .I .I = .leaf (leafC o) → o a b = icmp op a b →
      cmpTable E op .I .R = .refR → cmpTable E op .R .I = .refL → cmpTable E op .R .R = .refLR →
      compare E op 2 σ to from_ = .ok (σ, icmp op a b) := by
    intro o t1 ho t2 t3 t4
    obtain ⟨to', from', h3, h4, h5⟩ := disp_int E (cmpTable E op) (fun _ _ _ => none) false t1 t2 t3 t4 h1 h2
    unfold Ops.compare
    rw [h3, leafC]
    simp only [h4, h5, Val.bits]
    rw [← ho]
    rfl
  cases op <;> exact key _ rfl rfl rfl rfl rfl

theorem negate_int {E : Env} {σ : St} {a tgt : Addr} {w : Word32} (h : Leads σ a w) :
    negate E 2 σ a tgt = .ok (σ.set tgt (.int (0 - w))) := by
  cases h with
  | here h => simp [negate, h]
  | ref b h h' => simp [negate, h, h']

theorem logicalNot_int {E : Env} {σ : St} {a : Addr} {w : Word32} (h : Leads σ a w) :
    logicalNot E 2 σ a = .ok (σ, w == 0) := by
  cases h with
  | here h => simp [logicalNot, h]
  | ref b h h' => simp [logicalNot, h, h']

theorem bitwiseNot_int {E : Env} {σ : St} {a : Addr} {w : Word32} (h : Leads σ a w) :
    bitwiseNot E 2 σ a = .ok (σ, ~~~w) := by
  cases h with
  | here h => simp [bitwiseNot, h]
  | ref b h h' => simp [bitwiseNot, h, h']

/-! ### One step -/

/-- Replace the top `n` slots by `r`. -/
theorem Sim.set {m0 m m' : M} {s : AS} (h : Sim m0 s m) {n : Nat} {x : Slot} {w : Val} {regs : Option (Slot × Slot)}
    (hn : n ≤ s.stk.length) (hx : x.holds m0 w) (h1 : m'.fb = m.fb ∧ m'.gb = m.gb ∧ m'.nl = m.nl ∧ m'.ng = m.ng)
    (ht : m'.top = m.top - n + 1) (hσ : m'.σ = m.σ.set (.cell (m.top - n)) w)
    (hr : ∀ x y : Slot, regs = some (x, y) → x.holds m0 (.ref m'.r0) ∧ y.holds m0 (.ref m'.r1)) :
    Sim m0 ⟨x :: s.stk.drop n, regs⟩ m' := by
  have htop := h.top
  refine ⟨h1.1.trans h.fb, h1.2.1.trans h.gb, h1.2.2.1.trans h.nl, h1.2.2.2.trans h.ng, ?_, ?_, ?_, ?_, ?_, ?_, hr⟩
  · simp only [List.length_cons, List.length_drop]; omega
  · intro a ha
    rw [hσ, St.set_ne, h.below a ha]
    rintro rfl
    have := ha _ rfl
    omega
  · intro k y hy
    rw [hσ]
    cases k with
    | zero =>
      simp only [List.getElem?_cons_zero, Option.some.injEq] at hy
      subst hy
      rw [show m'.top - 1 - 0 = m.top - n by omega, St.set_same]
      exact hx
    | succ k =>
      simp only [List.getElem?_cons_succ, List.getElem?_drop] at hy
      have hk : n + k < s.stk.length := (List.getElem?_eq_some_iff.mp hy).1
      rw [St.set_ne]
      · have := h.stack _ y hy
        rwa [show m'.top - 1 - (k + 1) = m.top - 1 - (n + k) by omega]
      · intro hc
        simp only [Addr.cell.injEq] at hc
        omega
  · rw [hσ]; exact h.obj
  · rw [hσ]; exact h.next
  · rw [hσ]; exact h.raw

/-- Exchange two slots. -/
theorem Sim.swapTop {m0 m : M} {s : AS} (h0 : m0.fb + m0.nl ≤ m0.top) (h : Sim m0 s m) {i j : Nat} {st : List Slot}
    (hs : Expr.swapAt i j s.stk = some st) :
    ∃ m', m.swapTop (i + 1) (j + 1) = .ok m' ∧ Sim m0 { s with stk := st } m' ∧ m'.r0 = m.r0 ∧ m'.r1 = m.r1 := by
  have htop := h.top
  unfold Expr.swapAt at hs
  cases hi : s.stk[i]? with
  | none => rw [hi] at hs; simp at hs
  | some x =>
    cases hj : s.stk[j]? with
    | none => rw [hi, hj] at hs; simp at hs
    | some y =>
      rw [hi, hj] at hs
      simp only [Option.some.injEq] at hs
      subst hs
      obtain ⟨li, -⟩ := List.getElem?_eq_some_iff.mp hi
      obtain ⟨lj, -⟩ := List.getElem?_eq_some_iff.mp hj
      have hx := h.stack _ _ hi
      have hy := h.stack _ _ hj
      have hfb := h.fb
      have hnl := h.nl
      unfold M.swapTop
      rw [if_pos (by omega)]
      refine ⟨_, rfl, ⟨h.fb, h.gb, h.nl, h.ng, ?_, ?_, ?_, h.obj, h.next, h.raw, h.regs⟩, rfl, rfl⟩
      · simpa using htop
      · intro a ha
        dsimp only
        rw [St.set_ne, St.set_ne, h.below a ha]
        · rintro rfl; have := ha _ rfl; omega
        · rintro rfl; have := ha _ rfl; omega
      · intro k z hz
        dsimp only at hz ⊢
        have hk : k < s.stk.length := by
          have := (List.getElem?_eq_some_iff.mp hz).1
          simpa using this
        by_cases hkj : k = j
        · subst hkj
          rw [List.getElem?_set_self (by simpa using hk)] at hz
          cases hz
          rw [show m.top - 1 - k = m.top - (k + 1) by omega, St.set_same]
          rwa [show m.top - 1 - i = m.top - (i + 1) by omega] at hx
        · rw [List.getElem?_set_ne (by omega)] at hz
          rw [St.set_ne _ _ (by intro hc; simp only [Addr.cell.injEq] at hc; omega)]
          by_cases hki : k = i
          · subst hki
            rw [List.getElem?_set_self hk] at hz
            cases hz
            rw [show m.top - 1 - k = m.top - (k + 1) by omega, St.set_same]
            rwa [show m.top - 1 - j = m.top - (j + 1) by omega] at hy
          · rw [List.getElem?_set_ne (by omega)] at hz
            rw [St.set_ne _ _ (by intro hc; simp only [Addr.cell.injEq] at hc; omega)]
            exact h.stack k z hz

theorem slotBin_inv {ρ : Vars} {op : BinOp} {x y r : Slot} (h : slotBin ρ op x y = some r) :
    ∃ a b w, x.val ρ = some a ∧ y.val ρ = some b ∧ iop op a b = .ok w ∧ r = .int w := by
  unfold slotBin at h
  cases hx : x.val ρ with
  | none => rw [hx] at h; simp at h
  | some a =>
    cases hy : y.val ρ with
    | none => rw [hx, hy] at h; simp at h
    | some b =>
      rw [hx, hy] at h
      cases hr : iop op a b with
      | ok w =>
        simp only [Option.bind_some, hr, toOpt, Option.map_some, Option.some.injEq] at h
        exact ⟨a, b, w, rfl, rfl, hr, h.symm⟩
      | ub => simp [hr, toOpt] at h
      | oof => simp [hr, toOpt] at h

theorem slotCmp_inv {ρ : Vars} {op : CmpOp} {inv : Bool} {x y r : Slot} (h : slotCmp ρ op inv x y = some r) :
    ∃ a b, x.val ρ = some a ∧ y.val ρ = some b ∧ r = .int (truth (icmp op a b != inv)) := by
  unfold slotCmp at h
  cases hx : x.val ρ with
  | none => rw [hx] at h; simp at h
  | some a =>
    cases hy : y.val ρ with
    | none => rw [hx, hy] at h; simp at h
    | some b =>
      rw [hx, hy] at h
      exact ⟨a, b, rfl, rfl, by simpa using h.symm⟩

theorem litInt_inv {k : Lit} {d : List Byte} {w : Word32} (h : litInt k d = some w) : litVal k d = some (.int w) := by
  unfold litInt at h
  split at h
  · next hl => rw [hl]; simpa using h
  · simp at h

theorem boolVal_truth (b : Bool) : boolVal b = .int (truth b) := by cases b <;> rfl

/-- A variable as operand. -/
theorem leads_var {σ : St} {k : Nat} {w : Word32} (h : σ.cell (.cell k) = .int w) : Leads σ (.cell k) w := .here h

/-- Pushing a slot. -/
theorem Sim.push {m0 m : M} {s : AS} (h : Sim m0 s m) {x : Slot} {w : Val} (hx : x.holds m0 w) :
    Sim m0 { s with stk := x :: s.stk } (m.push w) := by
  have := h.set (n := 0) (regs := s.regs) (m' := m.push w) (by omega) hx ⟨rfl, rfl, rfl, rfl⟩ rfl rfl h.regs
  simpa using this

/-- The stack is not empty. -/
theorem Sim.room {ρ : Vars} {m0 m : M} {s : AS} (h0 : Start ρ m0) (h : Sim m0 s m) {n : Nat} (hn : n < s.stk.length) :
    m.fb + m.nl < m.top - n := by
  have := h.top
  have := h0.locals
  rw [h.fb, h.nl]
  omega

theorem Sim.drop {m0 m : M} {s : AS} (h : Sim m0 s m) {x : Slot} {st : List Slot} (hs : s.stk = x :: st) :
    Sim m0 { s with stk := st } { m with top := m.top - 1 } := by
  have htop := h.top
  rw [hs] at htop
  simp only [List.length_cons] at htop
  refine ⟨h.fb, h.gb, h.nl, h.ng, by simp only; omega, h.below, ?_, h.obj, h.next, h.raw, h.regs⟩
  intro k y hy
  have := h.stack (k + 1) y (by rw [hs]; exact hy)
  rwa [show m.top - 1 - (k + 1) = m.top - 1 - 1 - k by omega] at this

theorem var1_inv {α : Type} {d : List Byte} {f : Byte → Option α} {r : α} (h : var1 d f = some r) :
    ∃ i, d = [i] ∧ f i = some r := by
  unfold var1 at h
  split at h
  · exact ⟨_, rfl, h⟩
  · simp at h

theorem var2_inv {α : Type} {d : List Byte} {f : Byte → Byte → Option α} {r : α} (h : var2 d f = some r) :
    ∃ i j, d = [i, j] ∧ f i j = some r := by
  unfold var2 at h
  split at h
  · exact ⟨_, _, rfl, h⟩
  · simp at h

theorem pop1_inv {s s' : AS} {f : Slot → Option Slot} (h : pop1 s f = some s') :
    ∃ x st r, s.stk = x :: st ∧ f x = some r ∧ s' = { s with stk := r :: st } := by
  unfold pop1 at h
  split at h
  · next x st hs =>
    rw [Option.map_eq_some_iff] at h
    obtain ⟨r, h1, h2⟩ := h
    exact ⟨x, st, r, hs, h1, h2.symm⟩
  · simp at h

theorem pop2_inv {s s' : AS} {f : Slot → Slot → Option Slot} (h : pop2 s f = some s') :
    ∃ x y st r, s.stk = x :: y :: st ∧ f x y = some r ∧ s' = { s with stk := r :: st } := by
  unfold pop2 at h
  split at h
  · next x y st hs =>
    rw [Option.map_eq_some_iff] at h
    obtain ⟨r, h1, h2⟩ := h
    exact ⟨x, y, st, r, hs, h1, h2.symm⟩
  · simp at h

theorem pushO_inv {s s' : AS} {o : Option Slot} (h : pushO s o = some s') :
    ∃ r, o = some r ∧ s' = { s with stk := r :: s.stk } := by
  unfold pushO at h
  rw [Option.map_eq_some_iff] at h
  obtain ⟨r, h1, h2⟩ := h
  exact ⟨r, h1, h2.symm⟩

theorem okbind {α β : Type} (a : α) (f : α → Res β) : (Res.ok a >>= f) = f a := rfl

/-- Two variables as operands. -/
theorem Sim.two {ρ : Vars} {m0 m : M} {s : AS} (h0 : Start ρ m0) (h : Sim m0 s m) {v w : Sp} {i j : Byte}
    {f : Slot → Slot → Option Slot} {r : Slot}
    (hr : ((Whole.look ρ v i).bind fun y => (Whole.look ρ w j).bind fun x => f x y) = some r) :
    ∃ k k' a b, m.var v i = .ok (.cell k) ∧ m.σ.cell (.cell k) = .int a ∧ m.var w j = .ok (.cell k') ∧
      m.σ.cell (.cell k') = .int b ∧ f (.ref w j) (.ref v i) = some r ∧ ρ v i = some a ∧ ρ w j = some b := by
  simp only [Option.bind_eq_some_iff] at hr
  obtain ⟨y, hy, x, hx, hf⟩ := hr
  obtain ⟨k, a, h1, h2, h3, rfl⟩ := h.look h0 hy
  obtain ⟨k', b, h1', h2', h3', rfl⟩ := h.look h0 hx
  exact ⟨k, k', a, b, h1, h2, h1', h2', hf, h3, h3'⟩

theorem pop_room {m : M} (h : m.fb + m.nl < m.top) : m.pop = .ok ({ m with top := m.top - 1 }, .cell (m.top - 1)) :=
  if_pos h

theorem peek_room {m : M} (h : m.fb + m.nl < m.top) : m.peek = .ok (.cell (m.top - 1)) := if_pos h

theorem exec_lnot {E : Env} {f : Nat} {d : List Byte} {m : M} : exec E f .lnot d m =
    m.peek >>= fun r => logicalNot E f m.σ r >>= fun p => .ok (.next { m with σ := p.1.set r (boolVal p.2) }) := rfl

theorem exec_bnot {E : Env} {f : Nat} {d : List Byte} {m : M} : exec E f .bnot d m =
    m.peek >>= fun r => bitwiseNot E f m.σ r >>= fun p => .ok (.next { m with σ := p.1.set r (.int p.2) }) := rfl

theorem exec_swap {E : Env} {f : Nat} {n : Byte} {m : M} : exec E f .swap [n] m =
    m.swapTop 1 n.toNat >>= fun m => .ok (.next m) := rfl

theorem exec_swap2 {E : Env} {f : Nat} {a b : Byte} {m : M} : exec E f .swap2 [a, b] m =
    m.swapTop 1 a.toNat >>= fun m => m.swapTop 2 b.toNat >>= fun m => .ok (.next m) := rfl

/-- Every step of the integer machine is a step of the machine. -/
theorem astep_exec {E : Env} {ρ : Vars} {m0 m : M} {a : Act} {d : List Byte} {s s' : AS} (h0 : Start ρ m0)
    (h : Sim m0 s m) (hs : astep ρ a d s = some s') :
    ∃ m', exec E 2 a d m = .ok (.next m') ∧ Sim m0 s' m' := by
  have htop := h.top
  cases a with
  | load v =>
    obtain ⟨i, rfl, hq⟩ := var1_inv hs
    obtain ⟨r, hr, rfl⟩ := pushO_inv hq
    obtain ⟨k, w, h1, h2, h3, rfl⟩ := h.look h0 hr
    rw [exec_load, h1]
    exact ⟨_, rfl, h.push ⟨_, by rw [← h.var]; exact h1, rfl⟩⟩
  | lit k =>
    obtain ⟨r, hr, rfl⟩ := pushO_inv hs
    rw [Option.map_eq_some_iff] at hr
    obtain ⟨w, hw, rfl⟩ := hr
    rw [exec_lit, litInt_inv hw]
    exact ⟨_, rfl, h.push (x := .int w) rfl⟩
  | values v w =>
    obtain ⟨i, j, rfl, hq⟩ := var2_inv hs
    rw [Option.bind_eq_some_iff] at hq
    obtain ⟨x, hx, hq⟩ := hq
    rw [Option.map_eq_some_iff] at hq
    obtain ⟨y, hy, rfl⟩ := hq
    obtain ⟨k, w1, h1, h2, h3, rfl⟩ := h.look h0 hx
    obtain ⟨k', w2, h1', h2', h3', rfl⟩ := h.look h0 hy
    rw [exec_values, h1, okbind, h1', okbind]
    refine ⟨_, rfl, ⟨h.fb, h.gb, h.nl, h.ng, h.top, h.below, h.stack, h.obj, h.next, h.raw, ?_⟩⟩
    intro x y hxy
    cases hxy
    exact ⟨⟨_, by rw [← h.var]; exact h1, rfl⟩, ⟨_, by rw [← h.var]; exact h1', rfl⟩⟩
  | bin op src =>
    cases src with
    | one v => exact absurd hs (by simp [astep])
    | stack =>
      obtain ⟨x, y, st, r, hst, hr, rfl⟩ := pop2_inv hs
      obtain ⟨a, b, w, ha, hb, hw, rfl⟩ := slotBin_inv hr
      have hlen : s.stk.length = st.length + 2 := by rw [hst]; rfl
      have r1 := h.room h0 (n := 0) (by omega)
      have r2 := h.room h0 (n := 1) (by omega)
      have l1 := h.leads h0 (k := 0) (by rw [hst]; rfl) ha
      have l2 := h.leads h0 (k := 1) (by rw [hst]; rfl) hb
      rw [exec_bin, pop_room r1, okbind, peek_room r2, okbind]
      simp only [Nat.sub_zero] at l1 l2
      dsimp only
      rw [binary_int l1 l2 hw, okbind]
      refine ⟨_, rfl, ?_⟩
      have := h.set (n := 2) (x := .int w) (w := .int w) (regs := s.regs)
        (m' := { m with top := m.top - 1, σ := m.σ.set (.cell (m.top - 1 - 1)) (.int w) }) (by omega) rfl
        ⟨rfl, rfl, rfl, rfl⟩ (by dsimp only; omega) rfl h.regs
      rw [hst] at this
      exact this
    | two v w =>
      obtain ⟨i, j, rfl, hq⟩ := var2_inv hs
      obtain ⟨r, hr, rfl⟩ := pushO_inv hq
      obtain ⟨k, k', a, b, h1, h2, h3, h4, hf, h5, h6⟩ := h.two h0 (f := slotBin ρ op) hr
      obtain ⟨a', b', w', ha, hb, hw, rfl⟩ := slotBin_inv hf
      obtain rfl : b = a' := by simpa [Slot.val, h6] using ha
      obtain rfl : a = b' := by simpa [Slot.val, h5] using hb
      rw [exec_bin2, h1, okbind, h3, okbind, binary_int (.here h4) (.here h2) hw, okbind]
      exact ⟨_, rfl, h.push (x := .int w') rfl⟩
    | regs =>
      obtain ⟨r, hr, rfl⟩ := pushO_inv hs
      rw [Option.bind_eq_some_iff] at hr
      obtain ⟨⟨x, y⟩, hreg, hr⟩ := hr
      obtain ⟨a, b, w, ha, hb, hw, rfl⟩ := slotBin_inv hr
      obtain ⟨g1, g2⟩ := h.regs x y hreg
      have key : ∀ (z : Slot) (r : Addr) (c : Word32), z.holds m0 (.ref r) → z.val ρ = some c → m.σ.cell r = .int c := by
        intro z r c hz hc
        cases z with
        | int w => simp [Slot.holds] at hz
        | ref v i =>
          obtain ⟨q, h1, h2⟩ := hz
          cases h2
          obtain ⟨k, w1, h3, h4, h5, -⟩ := h.look h0 (v := v) (i := i) (x := .ref v i) (by
            simp only [Slot.val] at hc
            simp [Whole.look, hc])
          rw [h.var, h1] at h3
          cases h3
          simp only [Slot.val] at hc
          rw [hc] at h5
          cases h5
          exact h4
      rw [exec_binR, binary_int (.here (key _ _ _ g2 ha)) (.here (key _ _ _ g1 hb)) hw, okbind]
      exact ⟨_, rfl, h.push (x := .int w) rfl⟩
  | cmp op inv src bz =>
    cases bz with
    | true => cases src <;> exact absurd hs (by simp [astep])
    | false =>
      cases src with
      | regs => exact absurd hs (by simp [astep])
      | stack =>
        obtain ⟨x, y, st, r, hst, hr, rfl⟩ := pop2_inv hs
        obtain ⟨a, b, ha, hb, rfl⟩ := slotCmp_inv hr
        have hlen : s.stk.length = st.length + 2 := by rw [hst]; rfl
        have r1 := h.room h0 (n := 0) (by omega)
        have r2 := h.room h0 (n := 1) (by omega)
        have l1 := h.leads h0 (k := 0) (by rw [hst]; rfl) ha
        have l2 := h.leads h0 (k := 1) (by rw [hst]; rfl) hb
        rw [exec_cmp, pop_room r1, okbind, pop_room r2, okbind]
        simp only [Nat.sub_zero] at l1 l2
        dsimp only
        rw [compare_int l1 l2, okbind]
        refine ⟨_, rfl, ?_⟩
        rw [boolVal_truth]
        have := ((h.drop hst).drop rfl).push (x := .int (truth (icmp op a b != inv))) (w := .int (truth (icmp op a b != inv))) rfl
        exact this
      | one v =>
        obtain ⟨i, rfl, hq⟩ := var1_inv hs
        obtain ⟨y, st, r, hst, hr, rfl⟩ := pop1_inv hq
        rw [Option.bind_eq_some_iff] at hr
        obtain ⟨x, hx, hr⟩ := hr
        obtain ⟨k, w, h1, h2, h3, rfl⟩ := h.look h0 hx
        obtain ⟨a, b, ha, hb, rfl⟩ := slotCmp_inv hr
        obtain rfl : w = a := by simpa [Slot.val, h3] using ha
        have hlen : s.stk.length = st.length + 1 := by rw [hst]; rfl
        have r1 := h.room h0 (n := 0) (by omega)
        have l1 := h.leads h0 (k := 0) (by rw [hst]; rfl) hb
        rw [exec_cmp1, h1, okbind, pop_room r1, okbind]
        simp only [Nat.sub_zero] at l1
        dsimp only
        rw [compare_int (.here h2) l1, okbind]
        refine ⟨_, rfl, ?_⟩
        rw [boolVal_truth]
        exact (h.drop hst).push (x := .int (truth (icmp op w b != inv))) rfl
      | two v w =>
        obtain ⟨i, j, rfl, hq⟩ := var2_inv hs
        obtain ⟨r, hr, rfl⟩ := pushO_inv hq
        obtain ⟨k, k', a, b, h1, h2, h3, h4, hf, h5, h6⟩ := h.two h0 (f := slotCmp ρ op inv) hr
        obtain ⟨a', b', ha, hb, rfl⟩ := slotCmp_inv hf
        obtain rfl : b = a' := by simpa [Slot.val, h6] using ha
        obtain rfl : a = b' := by simpa [Slot.val, h5] using hb
        rw [exec_cmp2, h1, okbind, h3, okbind, compare_int (.here h4) (.here h2), okbind]
        refine ⟨_, rfl, ?_⟩
        rw [boolVal_truth]
        exact h.push (x := .int (truth (icmp op b a != inv))) rfl
  | neg =>
    obtain ⟨x, st, r, hst, hr, rfl⟩ := pop1_inv hs
    rw [Option.map_eq_some_iff] at hr
    obtain ⟨w, hw, rfl⟩ := hr
    have hlen : s.stk.length = st.length + 1 := by rw [hst]; rfl
    have r1 := h.room h0 (n := 0) (by omega)
    have l1 := h.leads h0 (k := 0) (by rw [hst]; rfl) hw
    simp only [Nat.sub_zero] at l1
    rw [exec_neg, peek_room r1, okbind, negate_int l1, okbind]
    refine ⟨_, rfl, ?_⟩
    have := h.set (n := 1) (x := .int (0 - w)) (w := .int (0 - w)) (regs := s.regs)
      (m' := { m with σ := m.σ.set (.cell (m.top - 1)) (.int (0 - w)) }) (by omega) rfl ⟨rfl, rfl, rfl, rfl⟩
      (by dsimp only; omega) rfl h.regs
    rw [hst] at this
    exact this
  | lnot =>
    obtain ⟨x, st, r, hst, hr, rfl⟩ := pop1_inv hs
    rw [Option.map_eq_some_iff] at hr
    obtain ⟨w, hw, rfl⟩ := hr
    have hlen : s.stk.length = st.length + 1 := by rw [hst]; rfl
    have r1 := h.room h0 (n := 0) (by omega)
    have l1 := h.leads h0 (k := 0) (by rw [hst]; rfl) hw
    simp only [Nat.sub_zero] at l1
    rw [exec_lnot, peek_room r1, okbind, logicalNot_int l1, okbind]
    refine ⟨_, rfl, ?_⟩
    dsimp only
    rw [boolVal_truth]
    have := h.set (n := 1) (x := .int (truth (w == 0))) (w := .int (truth (w == 0))) (regs := s.regs)
      (m' := { m with σ := m.σ.set (.cell (m.top - 1)) (.int (truth (w == 0))) }) (by omega) rfl ⟨rfl, rfl, rfl, rfl⟩
      (by dsimp only; omega) rfl h.regs
    rw [hst] at this
    exact this
  | bnot =>
    obtain ⟨x, st, r, hst, hr, rfl⟩ := pop1_inv hs
    rw [Option.map_eq_some_iff] at hr
    obtain ⟨w, hw, rfl⟩ := hr
    have hlen : s.stk.length = st.length + 1 := by rw [hst]; rfl
    have r1 := h.room h0 (n := 0) (by omega)
    have l1 := h.leads h0 (k := 0) (by rw [hst]; rfl) hw
    simp only [Nat.sub_zero] at l1
    rw [exec_bnot, peek_room r1, okbind, bitwiseNot_int l1, okbind]
    refine ⟨_, rfl, ?_⟩
    have := h.set (n := 1) (x := .int (~~~w)) (w := .int (~~~w)) (regs := s.regs)
      (m' := { m with σ := m.σ.set (.cell (m.top - 1)) (.int (~~~w)) }) (by omega) rfl ⟨rfl, rfl, rfl, rfl⟩
      (by dsimp only; omega) rfl h.regs
    rw [hst] at this
    exact this
  | swap =>
    obtain ⟨n, rfl, hq⟩ := var1_inv hs
    by_cases hn : n.toNat = 0
    · rw [if_pos hn] at hq; simp at hq
    · rw [if_neg hn, Option.map_eq_some_iff] at hq
      obtain ⟨st, h1, rfl⟩ := hq
      obtain ⟨m', h2, h3, -, -⟩ := h.swapTop h0.locals h1
      rw [show n.toNat - 1 + 1 = n.toNat by omega] at h2
      rw [exec_swap, h2, okbind]
      exact ⟨_, rfl, h3⟩
  | swap2 =>
    obtain ⟨a, b, rfl, hq⟩ := var2_inv hs
    by_cases hn : a.toNat = 0 ∨ b.toNat = 0
    · rw [if_pos hn] at hq; simp at hq
    · rw [if_neg hn, Option.map_eq_some_iff] at hq
      obtain ⟨st, h1, rfl⟩ := hq
      rw [Option.bind_eq_some_iff] at h1
      obtain ⟨st1, h1, h4⟩ := h1
      obtain ⟨m1, h2, h3, -, -⟩ := h.swapTop h0.locals h1
      rw [show a.toNat - 1 + 1 = a.toNat by omega] at h2
      obtain ⟨m2, h5, h6, -, -⟩ := h3.swapTop h0.locals h4
      rw [show b.toNat - 1 + 1 = b.toNat by omega] at h5
      rw [exec_swap2, h2, okbind, h5, okbind]
      exact ⟨_, rfl, h6⟩
  | _ => exact absurd hs (by simp [astep])

theorem arun_runs {E : Env} {ρ : Vars} {m0 m : M} {is : List Ins} {s s' : AS} (h0 : Start ρ m0) (h : Sim m0 s m)
    (hs : arun ρ is s = some s') : ∃ m', RunsI E is m (.next m') ∧ Sim m0 s' m' := by
  induction is generalizing s m with
  | nil =>
    simp only [arun, Option.some.injEq] at hs
    subst hs
    exact ⟨m, rfl, h⟩
  | cons x is ih =>
    obtain ⟨a, d⟩ := x
    simp only [arun, Option.bind_eq_some_iff] at hs
    obtain ⟨s1, h1, h2⟩ := hs
    obtain ⟨m1, h3, h4⟩ := astep_exec (E := E) h0 h h1
    obtain ⟨m2, h5, h6⟩ := ih h4 h2
    exact ⟨m2, ⟨2, _, h3, h5⟩, h6⟩

end Wrench.Whole
