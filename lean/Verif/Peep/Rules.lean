import Verif.Peep.Vm
import Verif.Peep.Rel

/-
The rewriting rules of the emitter and their soundness on the machine.
-/
namespace Wrench.Peep
open Wrench.Vm Wrench.Ops

/-! ### Observations -/

/-- Below the stack top `n`, or an array element. -/
def liveAt (n : Nat) : Addr → Prop
  | .cell k => k < n
  | .elem _ _ => True
  | _ => False

/-- The same values in every variable, stack slot below `n`, array element and object. -/
structure Agree (n : Nat) (σ τ : St) : Prop where
  cell : ∀ a, liveAt n a → τ.cell a = σ.cell a
  obj : τ.obj = σ.obj
  next : τ.next = σ.next
  raw : τ.rawMem = σ.rawMem

/-- Same stack height, frame and contents. -/
structure SameM (m m' : M) : Prop where
  top : m'.top = m.top
  fb : m'.fb = m.fb
  gb : m'.gb = m.gb
  nl : m'.nl = m.nl
  ng : m'.ng = m.ng
  agree : Agree m.top m.σ m'.σ

/-- Same way of ending, same machine. -/
def SameO : Out → Out → Prop
  | .next m, .next m' => SameM m m'
  | .jump m, .jump m' => SameM m m'
  | .ret m, .ret m' => SameM m m'
  | _, _ => False

theorem SameM.refl (m : M) : SameM m m := ⟨rfl, rfl, rfl, rfl, rfl, ⟨fun _ _ => rfl, rfl, rfl, rfl⟩⟩

theorem SameO.refl (o : Out) : SameO o o := by cases o <;> exact SameM.refl _

/-- The globals and the frame lie below the working stack, and no value in a live place points to a free stack
slot or to a C++ temporary. -/
structure OkM (m : M) : Prop where
  locals : m.fb + m.nl ≤ m.top
  globals : m.gb + m.ng ≤ m.fb + m.nl
  closed : ∀ a, (∀ k, a = .cell k → k < m.top) → ∀ p, ptr (m.σ.cell a) = some p → liveAt m.top p

/-- Facts about the float unit used by some rules. -/
structure EnvOk (E : Env) : Prop where
  loc : EnvLocal E
  feq : ∀ a b, E.feq a b = E.feq b a
  fadd : ∀ a b, E.fadd a b = E.fadd b a
  fmul : ∀ a b, E.fmul a b = E.fmul b a

/-! ### The rules -/

/-- The operator leaves a result in its target (integer operators do nothing on floats, addition
nothing on two objects that are not strings). -/
def Yields (E : Env) (op : BinOp) (σ : St) (to from_ : Addr) : Prop :=
  ∀ f σ', binVal E op f σ to from_ ≠ .ok (σ', none)

/-- The operand is a number, directly or by reference. -/
def IsNumber (σ : St) (a : Addr) : Prop := ∃ b, Ends σ a b ∧ (σ.cell b).isNum = true

/-- The comparison with exchanged operands. -/
def CmpOp.flip : CmpOp → CmpOp
  | .gt => .lt
  | .lt => .gt
  | o => o

/-- The number with its sign changed. -/
def negVal (E : Env) : Val → Val
  | .int w => .int (0 - w)
  | .float w => .float (E.fneg w)
  | w => w

/-- `Rw E before after P`: the emitter replaces `before` (whose last instruction is the one being
appended) by `after`; the replacement is meant for states satisfying `P`. -/
inductive Rw (E : Env) : List Ins → List Ins → (M → Prop) → Prop where
  /-- no change: the instruction is appended -/
  | keep (is : List Ins) : Rw E is is fun _ => True
  | retZero : Rw E [(.lit .zero, []), (.ret false, [])] [(.ret true, [])] fun _ => True
  | negLit {k d d' w} : litVal k d = some w → litVal k d' = some (negVal E w) → Rw E [(.lit k, d), (.neg, [])] [(.lit k, d')] fun _ => True
  /-- the literal is the least number of its width -/
  | negLitBad {k d d'} : (k = .i8 ∧ d = [0x80#8]) ∨ (k = .i16 ∧ d = [0#8, 0x80#8]) →
      Rw E [(.lit k, d), (.neg, [])] [(.lit k, d')] fun _ => False
  | cmpVV {op inv v w i j} : Rw E [(.load v, [i]), (.load w, [j]), (.cmp op inv .stack false, [])]
      [(.cmp op inv (.two v w) false, [i, j])] fun _ => True
  | cmpLitVar {op inv k d v i} :
      Rw E [(.lit k, d), (.load v, [i]), (.cmp op inv .stack false, [])]
        [(.lit k, d), (.cmp op inv (.one v) false, [i])] fun _ => True
  | cmpVarLit {op inv k d v i} : op = .gt ∨ op = .lt ∨ op = .eq →
      Rw E [(.load v, [i]), (.lit k, d), (.cmp op inv .stack false, [])]
        [(.lit k, d), (.cmp (CmpOp.flip op) inv (.one v) false, [i])] fun m =>
          k = .f32 → op ≠ .eq → ∀ x, m.var v i = .ok x →
            ∀ b, Ends m.σ x b → (m.σ.cell b).ty ≠ .I
  | binSkip {op v w i j} : Rw E [(.load v, [i]), (.load w, [j]), (.bin op .stack, [])]
      [(.values v w, [i, j]), (.bin op .regs, [])] fun m =>
        ∀ x y, m.var v i = .ok x → m.var w j = .ok y → Yields E op m.σ y x
  /-- the container is used as the index -/
  | indexSkip {v w i j} : Rw E [(.load v, [i]), (.load w, [j]), (.index .stack, [])]
      [(.values v w, [i, j]), (.index .regs, [])] fun _ => False
  | binVV {op v w i j} : Rw E [(.load v, [i]), (.load w, [j]), (.bin op .stack, [])]
      [(.bin op (.two v w), [i, j])] fun m =>
        ∀ x y, m.var v i = .ok x → m.var w j = .ok y → Yields E op m.σ y x
  | binVVx {op v w i j} : op = .add ∨ op = .mul →
      Rw E [(.load v, [i]), (.load w, [j]), (.bin op .stack, [])]
        [(.bin op (.two w v), [j, i])] fun m =>
          ∀ x y, m.var v i = .ok x → m.var w j = .ok y → IsNumber m.σ x ∧ IsNumber m.σ y
  | indexLit16 {d} : Rw E [(.lit .i16, d), (.index .stack, [])] [(.indexLit .i16 .stack, d)]
      fun _ => True
  | indexLit8 {b} : Rw E [(.lit .i8, [b]), (.index .stack, [])] [(.indexLit .i8 .stack, [b])]
      fun _ => b.msb = false
  | cmpBZ {op inv s d e} : Rw E [(.cmp op inv s false, d), (.bz .stack, e)]
      [(.cmp op inv s true, d ++ e)] fun _ => True
  | loadBZ {v i e} : Rw E [(.load v, [i]), (.bz .stack, e)] [(.bz (.one v), i :: e)] fun _ => True
  | popLoad {v i} : Rw E [(.load v, [i]), (.pop, [])] [] fun _ => True
  | popZero : Rw E [(.lit .zero, []), (.pop, [])] [] fun _ => True
  | bumpPre {dd v i} : Rw E [(.load v, [i]), (.pre dd false, []), (.pop, [])] [(.bumpVar dd v, [i])]
      fun _ => True
  | bumpPost {dd v i} : Rw E [(.load v, [i]), (.post dd, []), (.pop, [])] [(.bumpVar dd v, [i])]
      fun m => ∀ x, m.var v i = .ok x → (m.σ.cell x).ty ≠ .R
  | prePop {dd} : Rw E [(.pre dd false, []), (.pop, [])] [(.pre dd true, [])] fun _ => True
  | postPop {dd} : Rw E [(.post dd, []), (.pop, [])] [(.pre dd true, [])] fun m =>
      ∀ x, m.σ.cell (.cell (m.top - 1)) = .ref x → (m.σ.cell x).ty ≠ .R ∧
        ∀ a, (∀ k, a = .cell k → k < m.top) → ptr (m.σ.cell a) ≠ some (.cell (m.top - 1))
  | compoundPop {op} : Rw E [(.compound op false, []), (.pop, [])] [(.compound op true, [])]
      fun _ => True
  | assignPop : Rw E [(.assign .stack false, []), (.pop, [])] [(.assign .stack true, [])]
      fun _ => True
  | litTo {k d v i} : Rw E [(.lit k, d), (.load v, [i]), (.assign .stack false, []), (.pop, [])]
      [(.litTo k v, i :: d)] fun m => ∀ x, m.var v i = .ok x → (m.σ.cell x).plain = true
  | zeroTo {v i} :
      Rw E [(.lit .zero, []), (.load v, [i]), (.assign .stack false, []), (.pop, [])]
        [(.litTo .i8 v, [i, 0])] fun m => ∀ x, m.var v i = .ok x → (m.σ.cell x).plain = true
  | binStore {op v i} :
      Rw E [(.bin op .stack, []), (.load v, [i]), (.assign .stack false, []), (.pop, [])]
        [(.binStore op v, [i])] fun m => ∀ x, m.var v i = .ok x → (m.σ.cell x).plain = true ∧
          Yields E op m.σ (.cell (m.top - 1)) (.cell (m.top - 2))
  | assignVar {v i} : Rw E [(.load v, [i]), (.assign .stack false, []), (.pop, [])]
      [(.assign (.one v) true, [i])] fun _ => True
  | indexLitVar {k v i d} : Rw E [(.load v, [i]), (.indexLit k .stack, d)]
      [(.indexLit k (.one v), i :: d)] fun _ => True
  | indexVV {v w i j} : Rw E [(.load v, [i]), (.load w, [j]), (.index .stack, [])]
      [(.values w v, [j, i]), (.index .regs, [])] fun m =>
        ∀ y, m.var w j = .ok y → NotFloat m.σ y

/-! ### Tools -/

/-- The stack slots from `n` up. -/
def deadAt (n : Nat) (a : Addr) : Prop := ∃ k, n ≤ k ∧ a = .cell k

theorem dead_deadAt (n : Nat) : Dead (deadAt n) :=
  ⟨by rintro o i ⟨k, -, h⟩; simp at h, by rintro ⟨k, -, h⟩; simp at h,
    by rintro ⟨k, -, h⟩; simp at h⟩

theorem loc_deadAt (n k : Nat) : ¬deadAt n (.loc k) := by rintro ⟨j, -, h⟩; simp at h

theorem live_not_dead {n : Nat} {a : Addr} (h : liveAt n a) : ¬deadAt n a := by
  rintro ⟨k, hk, rfl⟩; simp only [liveAt] at h; omega

theorem not_dead {n : Nat} {a : Addr} (h : ¬deadAt n a) : ∀ k, a = .cell k → k < n := by
  rintro k rfl
  by_cases hk : k < n
  · exact hk
  · exact absurd ⟨k, by omega, rfl⟩ h

theorem var_live {m : M} (hm : OkM m) {v : Sp} {i : Byte} {x : Addr} (h : m.var v i = .ok x) :
    ∃ k, x = .cell k ∧ k < m.fb + m.nl := by
  have h1 := hm.locals
  have h2 := hm.globals
  cases v <;> simp only [M.var] at h <;> split at h <;> simp only [Res.ok.injEq, reduceCtorEq] at h
  · exact ⟨_, h.symm, by omega⟩
  · exact ⟨_, h.symm, by omega⟩

@[simp] theorem var_push (m : M) (w : Val) (v : Sp) (i : Byte) : (m.push w).var v i = m.var v i := by
  cases v <;> rfl

/-- Two memories that agree with an `OkM` machine off its free stack slots. -/
theorem rel_of {m : M} (hm : OkM m) {σ τ : St}
    (h1 : ∀ a, ¬deadAt m.top a → σ.cell a = m.σ.cell a)
    (h2 : ∀ a, ¬deadAt m.top a → τ.cell a = m.σ.cell a) (ho : τ.obj = σ.obj) (hn : τ.next = σ.next)
    (hr : τ.rawMem = σ.rawMem) : Rel (deadAt m.top) σ.cell τ.cell σ τ :=
  ⟨fun a ha => (h2 a ha).trans (h1 a ha).symm,
    fun a ha p hp => live_not_dead (hm.closed a (not_dead ha) p (by rw [← h1 a ha]; exact hp)),
    fun _ _ => rfl, fun _ _ => rfl, ho, hn, hr⟩

theorem agree_of_rel {D : Addr → Prop} {u v : Addr → Val} {n : Nat} {σ τ : St}
    (h : Rel D u v σ τ) (hD : ∀ a, liveAt n a → ¬D a) : Agree n σ τ :=
  ⟨fun a ha => h.off a (hD a ha), h.obj, h.next, h.raw⟩

theorem agree_of_set {D : Addr → Prop} {u v : Addr → Val} {n : Nat} {σ τ : St} {t : Addr} {w : Val}
    (h : Rel D u v σ τ) (hD : ∀ a, liveAt n a → a ≠ t → ¬D a) :
    Agree n (σ.set t w) (τ.set t w) := by
  refine ⟨fun a ha => ?_, h.obj, h.next, h.raw⟩
  by_cases hat : a = t
  · subst hat; simp
  · rw [St.set_ne _ _ hat, St.set_ne _ _ hat, h.off a (hD a ha hat)]

theorem OkM.push {m : M} (hm : OkM m) {w : Val} (hw : ∀ p, ptr w = some p → liveAt m.top p) :
    OkM (m.push w) := by
  have mono : ∀ p, liveAt m.top p → liveAt (m.top + 1) p := by
    intro p hp; cases p <;> simp_all [liveAt]; omega
  refine ⟨Nat.le_succ_of_le hm.locals, hm.globals, ?_⟩
  intro a ha p hp
  by_cases hat : a = .cell m.top
  · subst hat
    simp only [M.push, St.set_same] at hp
    exact mono p (hw p hp)
  · simp only [M.push] at hp
    rw [St.set_ne _ _ hat] at hp
    refine mono p (hm.closed a ?_ p hp)
    rintro k rfl
    have := ha k rfl
    simp only [M.push] at this
    have : k ≠ m.top := by rintro rfl; exact hat rfl
    omega

theorem litVal_num {k : Lit} {d : List Byte} {w : Val} (h : litVal k d = some w) :
    w.isNum = true ∧ (w.ty = .F ↔ k = .f32) := by
  unfold litVal at h
  split at h <;> simp only [Option.some.injEq, reduceCtorEq] at h <;> subst h <;>
    simp [Val.isNum, Val.ty]

theorem num_ptr {w : Val} (h : w.isNum = true) : ptr w = none := by
  cases w <;> simp_all [Val.isNum, ptr]

section execs
variable (E : Env) (f : Nat) (m : M) (v w : Sp) (i j : Byte) (op : BinOp) (c : CmpOp) (inv bz p : Bool)
  (k : Lit) (d : List Byte) (dd : Word32)

theorem exec_load : exec E f (.load v) [i] m = (m.var v i >>= fun x => .ok (.next (m.push (.ref x)))) :=
  rfl

theorem exec_lit : exec E f (.lit k) d m =
    match litVal k d with
    | some v => .ok (.next (m.push v))
    | none => .ub := rfl

theorem exec_litTo : exec E f (.litTo k v) (i :: d) m = (m.var v i >>= fun x =>
    match litVal k d with
    | some w => .ok (.next { m with σ := m.σ.set x w })
    | none => .ub) := rfl

theorem exec_pop : exec E f .pop [] m = (m.pop >>= fun p => .ok (.next p.1)) := rfl

theorem exec_values : exec E f (.values v w) [i, j] m = (m.var v i >>= fun x => m.var w j >>= fun y =>
    .ok (.next { m with r0 := x, r1 := y })) := rfl

theorem exec_bin : exec E f (.bin op .stack) d m = (m.pop >>= fun p => p.1.peek >>= fun r0 =>
    binary E op f p.1.σ p.2 r0 r0 >>= fun σ => .ok (.next { p.1 with σ := σ })) := rfl

theorem exec_bin2 : exec E f (.bin op (.two v w)) [i, j] m = (m.var v i >>= fun r1 =>
    m.var w j >>= fun r0 => binary E op f m.σ r0 r1 (.cell m.top) >>= fun σ =>
    .ok (.next { m with σ := σ, top := m.top + 1 })) := rfl

theorem exec_binR : exec E f (.bin op .regs) d m = (binary E op f m.σ m.r1 m.r0 (.cell m.top) >>=
    fun σ => .ok (.next { m with σ := σ, top := m.top + 1 })) := rfl

theorem exec_binStore : exec E f (.binStore op v) [i] m = (m.pop >>= fun p => p.1.pop >>= fun q =>
    q.1.var v i >>= fun x => binary E op f q.1.σ p.2 q.2 x >>= fun σ =>
    .ok (.next { q.1 with σ := σ })) := rfl

theorem exec_cmp : exec E f (.cmp c inv .stack bz) d m = (m.pop >>= fun p => p.1.pop >>= fun q =>
    compare E c f q.1.σ p.2 q.2 >>= fun r =>
    .ok (finish bz { q.1 with σ := r.1 } (r.2 != inv))) := rfl

theorem exec_cmp1 : exec E f (.cmp c inv (.one v) bz) (i :: d) m = (m.var v i >>= fun r0 =>
    m.pop >>= fun p => compare E c f p.1.σ r0 p.2 >>= fun r =>
    .ok (finish bz { p.1 with σ := r.1 } (r.2 != inv))) := rfl

theorem exec_cmp2 : exec E f (.cmp c inv (.two v w) bz) (i :: j :: d) m = (m.var v i >>= fun r1 =>
    m.var w j >>= fun r0 => compare E c f m.σ r0 r1 >>= fun r =>
    .ok (finish bz { m with σ := r.1 } (r.2 != inv))) := rfl

theorem exec_bz : exec E f (.bz .stack) d m = (m.pop >>= fun p =>
    logicalNot E f p.1.σ p.2 >>= fun r =>
    .ok (if r.2 then .jump { p.1 with σ := r.1 } else .next { p.1 with σ := r.1 })) := rfl

theorem exec_bz1 : exec E f (.bz (.one v)) (i :: d) m = (m.var v i >>= fun r0 =>
    logicalNot E f m.σ r0 >>= fun r =>
    .ok (if r.2 then .jump { m with σ := r.1 } else .next { m with σ := r.1 })) := rfl

theorem exec_assign : exec E f (.assign .stack p) d m = (m.pop >>= fun a => a.1.pop >>= fun b =>
    Ops.assign E f a.1.σ a.2 b.2 >>= fun σ =>
    .ok (.next { (if p then b.1 else a.1) with σ := σ })) := rfl

theorem exec_assign1 : exec E f (.assign (.one v) p) [i] m = (m.var v i >>= fun r0 =>
    m.pop >>= fun a => Ops.assign E f a.1.σ r0 a.2 >>= fun σ =>
    .ok (.next { a.1 with σ := σ })) := rfl

theorem exec_compound : exec E f (.compound op p) d m = (m.pop >>= fun a => a.1.pop >>= fun b =>
    compound E op f a.1.σ a.2 b.2 >>= fun σ =>
    .ok (.next { (if p then b.1 else a.1) with σ := σ })) := rfl

theorem exec_pre : exec E f (.pre dd p) d m = (m.pop >>= fun a =>
    preBump E dd f m.σ a.2 >>= fun σ => .ok (.next { (if p then a.1 else m) with σ := σ })) := rfl

theorem exec_post : exec E f (.post dd) d m = (m.pop >>= fun a =>
    postBump E dd f m.σ a.2 a.2 >>= fun σ => .ok (.next { m with σ := σ })) := rfl

theorem exec_bump : exec E f (.bumpVar dd v) [i] m = (m.var v i >>= fun r0 =>
    preBump E dd f m.σ r0 >>= fun σ => .ok (.next { m with σ := σ })) := rfl

theorem exec_neg : exec E f .neg d m = (m.peek >>= fun r0 =>
    negate E f m.σ r0 r0 >>= fun σ => .ok (.next { m with σ := σ })) := rfl

theorem exec_index : exec E f (.index .stack) d m = (m.pop >>= fun a => a.1.pop >>= fun b =>
    index f b.1.σ a.2 b.2 b.2 >>= fun σ =>
    .ok (.next { b.1 with σ := σ, top := b.1.top + 1 })) := rfl

theorem exec_indexR : exec E f (.index .regs) d m = (index f m.σ m.r0 m.r1 (.cell m.top) >>=
    fun σ => .ok (.next { m with σ := σ, top := m.top + 1 })) := rfl

theorem exec_indexLit : exec E f (.indexLit k .stack) d m =
    match idxVal k d with
    | some w => m.peek >>= fun r0 =>
      index f (m.σ.set (.cell m.top) (.int w)) (.cell m.top) r0 r0 >>= fun σ =>
      .ok (.next { m with σ := σ })
    | none => .ub := rfl

theorem exec_indexLit1 : exec E f (.indexLit k (.one v)) (i :: d) m =
    match idxVal k d with
    | some w => m.var v i >>= fun r0 =>
      index f (m.σ.set (.cell (m.top + 1)) (.int w)) (.cell (m.top + 1)) r0 (.cell m.top) >>=
      fun σ => .ok (.next { m with σ := σ, top := m.top + 1 })
    | none => .ub := rfl

end execs

theorem runs_load {E : Env} {v : Sp} {i : Byte} {is : List Ins} {m : M} {o : Out} :
    RunsI E ((.load v, [i]) :: is) m o ↔ ∃ x, m.var v i = .ok x ∧ RunsI E is (m.push (.ref x)) o := by
  simp only [RunsI, exec_load]
  cases m.var v i <;> simp

theorem runs_lit {E : Env} {k : Lit} {d : List Byte} {is : List Ins} {m : M} {o : Out} :
    RunsI E ((.lit k, d) :: is) m o ↔ ∃ w, litVal k d = some w ∧ RunsI E is (m.push w) o := by
  simp only [RunsI, exec_lit]
  cases litVal k d <;> simp

theorem runs_values {E : Env} {v w : Sp} {i j : Byte} {is : List Ins} {m : M} {o : Out} :
    RunsI E ((.values v w, [i, j]) :: is) m o ↔ ∃ x y, m.var v i = .ok x ∧ m.var w j = .ok y ∧
      RunsI E is { m with r0 := x, r1 := y } o := by
  simp only [RunsI, exec_values]
  cases m.var v i <;> cases m.var w j <;> simp

theorem runs_pop {E : Env} {is : List Ins} {m : M} {o : Out} :
    RunsI E ((.pop, []) :: is) m o ↔ m.fb + m.nl < m.top ∧ RunsI E is { m with top := m.top - 1 } o := by
  simp only [RunsI, exec_pop, M.pop]
  by_cases h : m.fb + m.nl < m.top
  · simp [h]
  · simp [h]

theorem runs_one {E : Env} {a : Act} {d : List Byte} {m : M} {o : Out} :
    RunsI E [(a, d)] m o ↔ ∃ f, exec E f a d m = .ok o := by
  simp only [RunsI]
  constructor
  · rintro ⟨f, x, h1, h2⟩
    cases x <;> dsimp only at h2 <;> exact ⟨f, by rw [h1, h2]⟩
  · rintro ⟨f, h⟩
    refine ⟨f, o, h, ?_⟩
    cases o <;> rfl

end Wrench.Peep
