import Verif.Prog.Model
import Verif.Whole.Props

/-
Branching on an integer, and storing one in a variable.
-/
namespace Wrench.Prog
open Wrench.Vm Wrench.Vm.Jump Wrench.Peep Wrench.Whole Wrench.Ops

/-- A machine between two statements: the variables hold the integers `ρ`, locals and globals do not
overlap. -/
structure Ready (ρ : Vars) (m : M) : Prop where
  start : Start ρ m
  sep : m.gb + m.ng ≤ m.fb ∨ m.fb + m.nl ≤ m.gb

/-- `m'` is `m` but for variables, registers, the temporaries of operators and what is above the stack. -/
structure Frame (m m' : M) : Prop where
  top : m'.top = m.top
  fb : m'.fb = m.fb
  gb : m'.gb = m.gb
  nl : m'.nl = m.nl
  ng : m'.ng = m.ng
  below : ∀ a, a.real = true → (∀ k, a = .cell k → k < m.top) → (∀ v i, m.var v i ≠ .ok a) → m'.σ.cell a = m.σ.cell a
  obj : m'.σ.obj = m.σ.obj
  next : m'.σ.next = m.σ.next
  raw : m'.σ.rawMem = m.σ.rawMem

theorem Frame.refl (m : M) : Frame m m := ⟨rfl, rfl, rfl, rfl, rfl, fun _ _ _ _ => rfl, rfl, rfl, rfl⟩

theorem Frame.var {m m' : M} (h : Frame m m') (v : Sp) (i : Byte) : m'.var v i = m.var v i := by
  cases v <;> simp [M.var, h.fb, h.gb, h.nl, h.ng]

theorem Frame.trans {m m' m'' : M} (h : Frame m m') (h' : Frame m' m'') : Frame m m'' := by
  refine ⟨h'.top.trans h.top, h'.fb.trans h.fb, h'.gb.trans h.gb, h'.nl.trans h.nl, h'.ng.trans h.ng, ?_,
    h'.obj.trans h.obj, h'.next.trans h.next, h'.raw.trans h.raw⟩
  intro a h0 h1 h2
  rw [h'.below a h0 (by rw [h.top]; exact h1) (by intro v i; rw [h.var]; exact h2 v i), h.below a h0 h1 h2]

/-- The stack is as before: so is everything that counts. -/
theorem sim_ready {ρ : Vars} {m0 m : M} {r : Option (Slot × Slot)} (h0 : Ready ρ m0) (h : Sim m0 ⟨[], r⟩ m) :
    Ready ρ m ∧ Frame m0 m := by
  have ht : m.top = m0.top := h.top
  refine ⟨⟨⟨?_, ?_, ?_⟩, ?_⟩, ⟨ht, h.fb, h.gb, h.nl, h.ng, fun a _ ha _ => h.below a ha, h.obj, h.next, h.raw⟩⟩
  · rw [h.fb, h.nl, ht]; exact h0.start.locals
  · rw [h.gb, h.ng, ht]; exact h0.start.globals
  · intro v i w hw
    obtain ⟨k, h1, h2⟩ := h0.start.vars v i w hw
    refine ⟨k, by rw [h.var]; exact h1, ?_⟩
    rw [h.below _ (by rintro j hj; cases hj; exact h0.start.below h1)]
    exact h2
  · rw [h.fb, h.gb, h.nl, h.ng]; exact h0.sep

theorem var_inj {m : M} (hs : m.gb + m.ng ≤ m.fb ∨ m.fb + m.nl ≤ m.gb) {v v' : Sp} {i i' : Byte} {a : Addr}
    (h : m.var v i = .ok a) (h' : m.var v' i' = .ok a) : v' = v ∧ i' = i := by
  have key : ∀ {n : Nat} {i : Byte} {b : Nat} {a : Addr}, (if i.toNat < n then Res.ok (Addr.cell (b + i.toNat)) else .ub) = .ok a →
      i.toNat < n ∧ a = .cell (b + i.toNat) := by
    intro n i b a h
    split at h
    · next g => cases h; exact ⟨g, rfl⟩
    · cases h
  cases v <;> cases v' <;> simp only [M.var] at h h' <;> obtain ⟨h1, rfl⟩ := key h <;> obtain ⟨h2, h3⟩ := key h' <;>
    simp only [Addr.cell.injEq] at h3
  · exact ⟨rfl, BitVec.eq_of_toNat_eq (by omega)⟩
  · omega
  · omega
  · exact ⟨rfl, BitVec.eq_of_toNat_eq (by omega)⟩

/-- Storing an integer in a variable. -/
theorem store_ready {ρ : Vars} {m m' : M} {v : Sp} {i : Byte} {k : Nat} {w : Word32} (h : Ready ρ m)
    (hk : m.var v i = .ok (.cell k)) (hs : m'.σ.cell (.cell k) = .int w)
    (hσ : ∀ a, a.real = true → (∀ j, a = .cell j → j < m.top) → a ≠ .cell k → m'.σ.cell a = m.σ.cell a)
    (ho : m'.σ.obj = m.σ.obj ∧ m'.σ.next = m.σ.next ∧ m'.σ.rawMem = m.σ.rawMem)
    (hf : m'.top = m.top ∧ m'.fb = m.fb ∧ m'.gb = m.gb ∧ m'.nl = m.nl ∧ m'.ng = m.ng) :
    Ready (upd ρ v i w) m' ∧ Frame m m' := by
  obtain ⟨ht, hfb, hgb, hnl, hng⟩ := hf
  have hv : ∀ v i, m'.var v i = m.var v i := by intro v i; cases v <;> simp [M.var, hfb, hgb, hnl, hng]
  refine ⟨⟨⟨?_, ?_, ?_⟩, ?_⟩, ⟨ht, hfb, hgb, hnl, hng, ?_, ho.1, ho.2.1, ho.2.2⟩⟩
  · rw [hfb, hnl, ht]; exact h.start.locals
  · rw [hgb, hng, ht]; exact h.start.globals
  · intro v' i' w' hw
    unfold upd at hw
    by_cases hc : v' = v ∧ i' = i
    · rw [if_pos hc] at hw
      cases hw
      exact ⟨k, by rw [hv, hc.1, hc.2]; exact hk, hs⟩
    · rw [if_neg hc] at hw
      obtain ⟨k', h1, h2⟩ := h.start.vars v' i' w' hw
      refine ⟨k', by rw [hv]; exact h1, ?_⟩
      rw [hσ _ rfl (by rintro j hj; cases hj; exact h.start.below h1) ?_, h2]
      intro he
      rw [he] at h1
      exact hc (var_inj h.sep hk h1)
  · rw [hfb, hgb, hnl, hng]; exact h.sep
  · intro a h0 h1 h2
    exact hσ a h0 h1 (by rintro rfl; exact h2 v i hk)

theorem set_ready {ρ : Vars} {m m' : M} {v : Sp} {i : Byte} {k : Nat} {w : Word32} (h : Ready ρ m)
    (hk : m.var v i = .ok (.cell k)) (hσ : m'.σ = m.σ.set (.cell k) (.int w))
    (hf : m'.top = m.top ∧ m'.fb = m.fb ∧ m'.gb = m.gb ∧ m'.nl = m.nl ∧ m'.ng = m.ng) :
    Ready (upd ρ v i w) m' ∧ Frame m m' := by
  refine store_ready h hk (by rw [hσ, St.set_same]) ?_ (by rw [hσ]; exact ⟨rfl, rfl, rfl⟩) hf
  intro a _ _ ha
  rw [hσ, St.set_ne _ _ ha]

/-! ### Branches -/

theorem sim_unpush {m0 m : M} {x : Slot} {st : List Slot} {r : Option (Slot × Slot)} {w : Val}
    (h : Sim m0 ⟨x :: st, r⟩ (m.push w)) : Sim m0 ⟨st, r⟩ m ∧ x.holds m0 w := by
  have ht : m.top + 1 = m0.top + (st.length + 1) := h.top
  refine ⟨⟨h.fb, h.gb, h.nl, h.ng, by dsimp only; omega, ?_, ?_, h.obj, h.next, h.raw, h.regs⟩, ?_⟩
  · intro a ha
    rw [← h.below a ha]
    show _ = (m.σ.set _ _).cell a
    rw [St.set_ne]
    rintro rfl
    have := ha _ rfl
    omega
  · intro k y hy
    have hk : k < st.length := (List.getElem?_eq_some_iff.mp hy).1
    have := h.stack (k + 1) y hy
    change y.holds m0 ((m.σ.set _ _).cell _) at this
    rw [St.set_ne] at this
    · rwa [show (m.push w).top - 1 - (k + 1) = m.top - 1 - k by show m.top + 1 - 1 - (k + 1) = _; omega] at this
    · intro hc
      simp only [Addr.cell.injEq] at hc
      change m.top + 1 - 1 - (k + 1) = m.top at hc
      omega
  · have := h.stack 0 x rfl
    change x.holds m0 ((m.σ.set _ _).cell (.cell (m.top + 1 - 1 - 0))) at this
    rw [show m.top + 1 - 1 - 0 = m.top by omega, St.set_same] at this
    exact this

theorem bind_ok {α β : Type} {x : Res α} {f : α → Res β} {b : β} (h : (x >>= f) = .ok b) :
    ∃ a, x = .ok a ∧ f a = .ok b := by
  cases x with
  | ok a => exact ⟨a, rfl, h⟩
  | ub => cases h
  | oof => cases h

/-- A comparison that is branched on computes what the one that pushes computes. -/
theorem cmp_branch {E : Env} {c : CmpOp} {inv : Bool} {src : Src} {d xy : List Byte} {m m' : M}
    (hd : d.length = dlen (.cmp c inv src false)) (h : exec E 2 (.cmp c inv src false) d m = .ok (.next m')) :
    ∃ (m1 : M) (r : Bool), m' = m1.push (boolVal r) ∧
      exec E 2 (.cmp c inv src true) (d ++ xy) m = .ok (if r then .next m1 else .jump m1) := by
  have fin : ∀ {m1 : M} {r : Bool} {m' : M}, (Res.ok (Peep.finish false m1 r)) = .ok (.next m') →
      m' = m1.push (boolVal r) := by
    intro m1 r m' h
    simp only [Peep.finish, Bool.false_eq_true, if_false, Res.ok.injEq, Peep.Out.next.injEq] at h
    exact h.symm
  cases src with
  | stack =>
    rw [exec_cmp] at h ⊢
    obtain ⟨p, h1, h⟩ := bind_ok h
    obtain ⟨q, h2, h⟩ := bind_ok h
    obtain ⟨r, h3, h⟩ := bind_ok h
    rw [h1, okbind, h2, okbind, h3, okbind]
    exact ⟨_, _, fin h, rfl⟩
  | one v =>
    obtain ⟨i, rfl⟩ := len1 hd
    rw [List.singleton_append]
    rw [exec_cmp1] at h ⊢
    obtain ⟨p, h1, h⟩ := bind_ok h
    obtain ⟨q, h2, h⟩ := bind_ok h
    obtain ⟨r, h3, h⟩ := bind_ok h
    rw [h1, okbind, h2, okbind, h3, okbind]
    exact ⟨_, _, fin h, rfl⟩
  | two v w =>
    obtain ⟨i, j, rfl⟩ : ∃ i j, d = [i, j] := by
      match d, hd with
      | [i, j], _ => exact ⟨i, j, rfl⟩
    rw [List.cons_append, List.singleton_append]
    rw [exec_cmp2] at h ⊢
    obtain ⟨p, h1, h⟩ := bind_ok h
    obtain ⟨q, h2, h⟩ := bind_ok h
    obtain ⟨r, h3, h⟩ := bind_ok h
    rw [h1, okbind, h2, okbind, h3, okbind]
    exact ⟨_, _, fin h, rfl⟩
  | regs => cases h

/-- How the branch form of a comparison or load, or `BZ`, relates to what it replaces. -/
inductive Turns : Act → Act → Prop where
  | cmp (c : CmpOp) (inv : Bool) (s : Src) : Turns (.cmp c inv s false) (.cmp c inv s true)
  | load (v : Sp) : Turns (.load v) (.bz (.one v))

/-- The branch form jumps if the value is zero. -/
theorem turns_exec {E : Env} {ρ : Vars} {m0 m : M} {a b : Act} {d xy : List Byte} {s : AS} {x : Slot} {st : List Slot}
    {r : Option (Slot × Slot)} {w : Word32} (h0 : Start ρ m0) (h : Sim m0 s m) (ht : Turns a b)
    (hd : d.length = dlen a) (hs : astep ρ a d s = some ⟨x :: st, r⟩) (hx : x.val ρ = some w) :
    ∃ m' : M, exec E 2 b (d ++ xy) m = .ok (if w != 0 then .next m' else .jump m') ∧ Sim m0 ⟨st, r⟩ m' := by
  cases ht with
  | cmp c inv src =>
    obtain ⟨m', h1, h2⟩ := astep_exec (E := E) h0 h hs
    obtain ⟨m1, q, rfl, h3⟩ := cmp_branch (xy := xy) hd h1
    obtain ⟨h4, h5⟩ := sim_unpush h2
    refine ⟨m1, ?_, h4⟩
    rw [h3]
    cases x with
    | ref v i => obtain ⟨a, -, h6⟩ := h5; cases q <;> cases h6
    | int w' =>
      simp only [Slot.val, Option.some.injEq] at hx
      subst hx
      change boolVal q = .int w' at h5
      rw [boolVal_truth, Val.int.injEq] at h5
      subst h5
      cases q <;> rfl
  | load v =>
    obtain ⟨i, rfl, hq⟩ := var1_inv hs
    obtain ⟨y, hy, hst⟩ := pushO_inv hq
    obtain ⟨k, w', h1, h2, h3, rfl⟩ := h.look h0 hy
    obtain ⟨rfl, rfl⟩ : x = .ref v i ∧ st = s.stk := by
      have := congrArg AS.stk hst
      simp only [List.cons.injEq] at this
      exact this
    obtain rfl : r = s.regs := congrArg AS.regs hst
    simp only [Slot.val] at hx
    rw [h3] at hx
    cases hx
    refine ⟨m, ?_, ?_⟩
    · show (m.var v i >>= fun r0 => logicalNot E 2 m.σ r0 >>= fun p =>
        (.ok (if p.2 then .jump { m with σ := p.1 } else .next { m with σ := p.1 }) : Res Peep.Out)) = _
      rw [h1, okbind, logicalNot_int (.here h2), okbind]
      dsimp only
      by_cases hw : w = 0
      · subst hw; rfl
      · rw [if_neg (by simpa using hw), if_pos (by simpa using hw)]
    · exact h

/-- `BZ` jumps if the top is zero. -/
theorem bz_exec {E : Env} {ρ : Vars} {m0 m : M} {xy : List Byte} {x : Slot} {st : List Slot}
    {r : Option (Slot × Slot)} {w : Word32} (h0 : Start ρ m0) (h : Sim m0 ⟨x :: st, r⟩ m) (hx : x.val ρ = some w) :
    ∃ m' : M, exec E 2 (.bz .stack) xy m = .ok (if w != 0 then .next m' else .jump m') ∧ Sim m0 ⟨st, r⟩ m' := by
  have r1 := h.room h0 (n := 0) (by simp)
  have l1 := h.leads h0 (k := 0) rfl hx
  simp only [Nat.sub_zero] at r1 l1
  refine ⟨{ m with top := m.top - 1 }, ?_, h.drop rfl⟩
  show (m.pop >>= fun p => logicalNot E 2 p.1.σ p.2 >>= fun q =>
    (.ok (if q.2 then .jump { p.1 with σ := q.1 } else .next { p.1 with σ := q.1 }) : Res Peep.Out)) = _
  rw [pop_room r1, okbind]
  dsimp only
  rw [logicalNot_int l1, okbind]
  dsimp only
  by_cases hw : w = 0
  · subst hw; rfl
  · rw [if_neg (by simpa using hw), if_pos (by simpa using hw)]

/-! ### Stores -/

theorem assign_int {E : Env} {σ : St} {dst from_ : Addr} {w w' : Word32} (h1 : σ.cell dst = .int w')
    (h2 : Leads σ from_ w) : Ops.assign E 2 σ dst from_ = .ok (σ.set dst (.int w)) := by
  cases h2 with
  | here h2 => simp [Ops.assign, h1, h2, Val.ty]
  | ref b h2 h3 => simp [Ops.assign, h1, h2, h3, Val.ty]

/-- What the instruction that stores the value of an expression does. -/
def Stores (ρ : Vars) (E : Env) (m0 : M) (b : Act) (d : List Byte) (v : Sp) (i : Byte) (w : Word32) (m : M) : Prop :=
  ∃ m', exec E 2 b d m = .ok (.next m') ∧ Ready (upd ρ v i w) m' ∧ Frame m0 m'

theorem assign_stores {E : Env} {ρ : Vars} {m0 m : M} {x : Slot} {r : Option (Slot × Slot)} {v : Sp} {i : Byte}
    {w w0 : Word32} (h0 : Ready ρ m0) (h : Sim m0 ⟨[x], r⟩ m) (hx : x.val ρ = some w) (hv : ρ v i = some w0) (p : Bool) :
    Stores ρ E m0 (.assign (.one v) p) [i] v i w m := by
  have r1 := h.room h0.start (n := 0) (by simp)
  have l1 := h.leads h0.start (k := 0) rfl hx
  simp only [Nat.sub_zero] at r1 l1
  obtain ⟨k, g1, g2, g3, -⟩ := h.look h0.start (v := v) (i := i) (x := .ref v i) (by simp [Whole.look, hv])
  have h' := h.drop rfl
  obtain ⟨h1, h2⟩ := sim_ready h0 h'
  obtain ⟨h3, h4⟩ := set_ready (v := v) (i := i) (k := k) (w := w)
    (m' := { m with top := m.top - 1, σ := m.σ.set (.cell k) (.int w) }) h1 g2 rfl ⟨rfl, rfl, rfl, rfl, rfl⟩
  refine ⟨_, ?_, h3, h2.trans h4⟩
  show (m.var v i >>= fun r0 => m.pop >>= fun p => Ops.assign E 2 p.1.σ r0 p.2 >>= fun σ =>
    (.ok (.next { p.1 with σ := σ }) : Res Peep.Out)) = _
  rw [g2, okbind, pop_room r1, okbind]
  dsimp only
  rw [assign_int g3 l1, okbind]

theorem lit_stores {E : Env} {ρ : Vars} {m0 m : M} {r : Option (Slot × Slot)} {v : Sp} {i : Byte} {k : Lit}
    {d : List Byte} {w w0 : Word32} (h0 : Ready ρ m0) (h : Sim m0 ⟨[], r⟩ m) (hl : litInt k d = some w)
    (hv : ρ v i = some w0) : Stores ρ E m0 (.litTo k v) (i :: d) v i w m := by
  obtain ⟨j, g1, g2, g3, -⟩ := h.look h0.start (v := v) (i := i) (x := .ref v i) (by simp [Whole.look, hv])
  obtain ⟨h1, h2⟩ := sim_ready h0 h
  obtain ⟨h3, h4⟩ := set_ready (v := v) (i := i) (k := j) (w := w)
    (m' := { m with σ := m.σ.set (.cell j) (.int w) }) h1 g2 rfl ⟨rfl, rfl, rfl, rfl, rfl⟩
  refine ⟨_, ?_, h3, h2.trans h4⟩
  show (m.var v i >>= fun x => match litVal k d with
    | some w => (pure (.next { m with σ := m.σ.set x w }) : Res Peep.Out)
    | none => .ub) = _
  rw [g2, okbind, litInt_inv hl]
  rfl

theorem bin_stores {E : Env} {ρ : Vars} {m0 m : M} {op : BinOp} {x y : Slot} {r : Option (Slot × Slot)} {v : Sp}
    {i : Byte} {w w0 : Word32} (h0 : Ready ρ m0) (h : Sim m0 ⟨[x, y], r⟩ m) (hx : slotBin ρ op x y = some (.int w))
    (hv : ρ v i = some w0) : Stores ρ E m0 (.binStore op v) [i] v i w m := by
  obtain ⟨a, b, w', ha, hb, hw, he⟩ := slotBin_inv hx
  cases he
  have r1 := h.room h0.start (n := 0) (by simp)
  have r2 := h.room h0.start (n := 1) (by simp)
  have l1 := h.leads h0.start (k := 0) rfl ha
  have l2 := h.leads h0.start (k := 1) rfl hb
  simp only [Nat.sub_zero] at r1 l1 l2
  obtain ⟨k, g1, g2, g3, -⟩ := h.look h0.start (v := v) (i := i) (x := .ref v i) (by simp [Whole.look, hv])
  have h' := (h.drop rfl).drop rfl
  obtain ⟨h1, h2⟩ := sim_ready h0 h'
  obtain ⟨h3, h4⟩ := set_ready (v := v) (i := i) (k := k) (w := w)
    (m' := { m with top := m.top - 1 - 1, σ := m.σ.set (.cell k) (.int w) }) h1 g2 rfl ⟨rfl, rfl, rfl, rfl, rfl⟩
  refine ⟨_, ?_, h3, h2.trans h4⟩
  show (m.pop >>= fun p => p.1.pop >>= fun q => q.1.var v i >>= fun x => binary E op 2 q.1.σ p.2 q.2 x >>= fun σ =>
    (.ok (.next { q.1 with σ := σ }) : Res Peep.Out)) = _
  rw [pop_room r1, okbind, pop_room r2, okbind]
  have g2' : ({ m with top := m.top - 1 - 1 } : M).var v i = .ok (.cell k) := g2
  dsimp only
  rw [g2', okbind, binary_int l1 l2 hw, okbind]

/-! ### Compound assignments and increments -/

/-- The operators of compound assignments on integers. -/
def cop (op : BinOp) (a b : Word32) : Res Word32 := if op = .mul then imulAssign a b else iop op a b

theorem iop_spec {op : BinOp} {a b w : Word32} (h : binSpec (asBin op) a b = some w) : iop op a b = .ok w := by
  have h1 : act (binOp (asBin op)) = some (.bin op .stack) := by cases op <;> rfl
  have := ostep_bin (ρ := fun _ _ => none) (x := .int a) (y := .int b) (st := []) (r := none) rfl rfl h
  simp only [ostep, h1, Option.bind_some] at this
  obtain ⟨x, y, st, q, hst, hq, hs'⟩ := pop2_inv (s := ⟨[.int a, .int b], none⟩) (show pop2 _ (slotBin _ op) = _ from this)
  cases hst
  obtain ⟨p1, p2, w', g1, g2, g3, rfl⟩ := slotBin_inv hq
  cases g1
  cases g2
  cases hs'
  exact g3

theorem cop_spec {op : BinOp} {a b w : Word32} (h : compSpec op a b = some w) : cop op a b = .ok w := by
  unfold compSpec at h
  split at h
  · cases h
  · next g =>
    have := iop_spec h
    unfold cop
    by_cases ho : op = .mul
    · subst ho
      rw [if_pos rfl]
      simp only [true_and, Bool.not_eq_false, fits, Bool.and_eq_true, decide_eq_true_eq] at g
      unfold imulAssign
      rw [if_pos g]
      exact this
    · rw [if_neg ho]
      exact this

theorem compound_int {E : Env} {op : BinOp} {σ : St} {dst from_ t : Addr} {a b r : Word32} (h1 : σ.cell dst = .ref t)
    (h2 : σ.cell t = .int a) (h3 : Leads σ from_ b) (hr : cop op a b = .ok r) (hd : dst.real = true) (ht : t.real = true) :
    ∃ σ', compound E op 2 σ dst from_ = .ok σ' ∧ (from_ ≠ t → σ'.cell t = .int r) ∧
      (∀ x, x.real = true → x ≠ t → x ≠ from_ → σ'.cell x = σ.cell x) ∧ σ'.obj = σ.obj ∧ σ'.next = σ.next ∧
      σ'.rawMem = σ.rawMem := by
  have hdt : dst ≠ t := by rintro rfl; rw [h1] at h2; cases h2
  have key : ∀ (o : Word32 → Word32 → Res Word32), assignTable E op .I .I = .leaf (aII o) → o a b = .ok r →
      assignTable E op .R .I = .refLCopy → assignTable E op .R .R = .refLR →
      ∃ σ', compound E op 2 σ dst from_ = .ok σ' ∧ (from_ ≠ t → σ'.cell t = .int r) ∧
        (∀ x, x.real = true → x ≠ t → x ≠ from_ → σ'.cell x = σ.cell x) ∧ σ'.obj = σ.obj ∧ σ'.next = σ.next ∧
        σ'.rawMem = σ.rawMem := by
    intro o t1 ho t2 t3
    cases h3 with
    | here h3 =>
      refine ⟨(σ.set t (.int r)).set from_ (.int r), ?_, ?_, ?_, rfl, rfl, rfl⟩
      · simp [compound, adisp, h1, h2, h3, Val.ty, t1, t2, aII, Val.bits, ho, St.set_ne _ _ hdt, St.set_same]
      · intro hf
        rw [St.set_ne _ _ hf.symm, St.set_same]
      · intro x _ hx1 hx2
        rw [St.set_ne _ _ hx2, St.set_ne _ _ hx1]
    | ref c h3 h4 =>
      have hl : t ≠ .loc 1 := by rintro rfl; cases ht
      have hl' : dst ≠ .loc 1 := by rintro rfl; cases hd
      refine ⟨((σ.set (.loc 1) (.int b)).set t (.int r)).set from_ (.int r), ?_, ?_, ?_, rfl, rfl, rfl⟩
      · simp [compound, adisp, h1, h2, h3, h4, Val.ty, t1, t3, aII, Val.bits, ho, St.set_ne _ _ hdt, St.set_same, St.set_ne _ _ hl,
          St.set_ne _ _ hl']
      · intro hf
        rw [St.set_ne _ _ hf.symm, St.set_same]
      · intro x hx hx1 hx2
        rw [St.set_ne _ _ hx2, St.set_ne _ _ hx1, St.set_ne _ _ (by rintro rfl; cases hx)]
  cases op with
  | mul => exact key imulAssign rfl hr rfl rfl
  | add => exact key _ rfl hr rfl rfl
  | sub => exact key _ rfl hr rfl rfl
  | div => exact key _ rfl hr rfl rfl
  | mod => exact key _ rfl hr rfl rfl
  | and => exact key _ rfl hr rfl rfl
  | or => exact key _ rfl hr rfl rfl
  | xor => exact key _ rfl hr rfl rfl
  | shl => exact key _ rfl hr rfl rfl
  | shr => exact key _ rfl hr rfl rfl

theorem comp_stores {E : Env} {ρ : Vars} {m0 m : M} {op : BinOp} {x : Slot} {r : Option (Slot × Slot)} {v : Sp}
    {i : Byte} {w w0 w1 : Word32} (h0 : Ready ρ m0) (h : Sim m0 ⟨[.ref v i, x], r⟩ m) (hx : x.val ρ = some w)
    (hv : ρ v i = some w0) (hw : compSpec op w0 w = some w1) : Stores ρ E m0 (.compound op true) [] v i w1 m := by
  have r1 := h.room h0.start (n := 0) (by simp)
  have r2 := h.room h0.start (n := 1) (by simp)
  have l2 := h.leads h0.start (k := 1) rfl hx
  simp only [Nat.sub_zero] at r1
  obtain ⟨k, w', g1, g2, g3, -⟩ := h.look h0.start (v := v) (i := i) (x := .ref v i) (by simp [Whole.look, hv])
  have hd : Whole.Slot.holds m0 (.ref v i) (m.σ.cell (.cell (m.top - 1 - 0))) := h.stack 0 _ rfl
  obtain ⟨y, y1, y2⟩ := hd
  rw [← h.var, g1] at y1
  cases y1
  have ht : m.top = m0.top + 2 := h.top
  have hk : k < m0.top := h0.start.below (by rw [← h.var]; exact g1)
  rw [Nat.sub_zero] at y2
  obtain ⟨σ', q1, q2, q3, q4, q5, q6⟩ := compound_int (E := E) y2 g2 l2 (cop_spec (by rw [hv] at g3; cases g3; exact hw)) rfl rfl
  have h' := (h.drop rfl).drop rfl
  obtain ⟨h1, h2⟩ := sim_ready h0 h'
  obtain ⟨h3, h4⟩ := store_ready (v := v) (i := i) (k := k) (w := w1)
    (m' := { m with top := m.top - 1 - 1, σ := σ' }) h1 g1 (q2 (by intro hc; simp only [Addr.cell.injEq] at hc; omega))
    (by
      intro a a1 a2 a3
      refine q3 a a1 a3 ?_
      rintro rfl
      have := a2 _ rfl
      dsimp only at this
      omega) ⟨q4, q5, q6⟩ ⟨rfl, rfl, rfl, rfl, rfl⟩
  refine ⟨_, ?_, h3, h2.trans h4⟩
  rw [exec_compound, pop_room r1, okbind]
  dsimp only
  rw [pop_room r2, okbind, q1, okbind]
  rfl

theorem bump_spec {dec : Bool} {a w : Word32} (h : bumpSpec dec a = some w) :
    Ops.bump (if dec then 0xFFFFFFFF#32 else 1) a = .ok w := by
  unfold bumpSpec fits at h
  cases dec
  · simp only [Bool.false_eq_true, if_false, Bool.and_eq_true, decide_eq_true_eq, Option.ite_none_right_eq_some,
      Option.some.injEq] at h ⊢
    obtain ⟨g, rfl⟩ := h
    unfold Ops.bump
    rw [if_neg, BitVec.ofInt_add, BitVec.ofInt_toInt]
    · rfl
    · rintro (⟨-, rfl⟩ | ⟨h, -⟩)
      · exact absurd g.2 (by decide)
      · exact h rfl
  · simp only [if_true, Bool.and_eq_true, decide_eq_true_eq, Option.ite_none_right_eq_some, Option.some.injEq] at h ⊢
    obtain ⟨g, rfl⟩ := h
    unfold Ops.bump
    rw [if_neg, Int.sub_eq_add_neg, BitVec.ofInt_add, BitVec.ofInt_toInt]
    · rfl
    · rintro (⟨h, -⟩ | ⟨-, rfl⟩)
      · exact absurd h (by decide)
      · exact absurd g.1 (by decide)

theorem bump_stores {E : Env} {ρ : Vars} {m : M} {dec : Bool} {v : Sp} {i : Byte} {w w0 : Word32} (h0 : Ready ρ m)
    (hv : ρ v i = some w0) (hw : bumpSpec dec w0 = some w) :
    Stores ρ E m (.bumpVar (if dec then 0xFFFFFFFF#32 else 1) v) [i] v i w m := by
  obtain ⟨k, g1, g2⟩ := h0.start.vars v i w0 hv
  obtain ⟨h3, h4⟩ := set_ready (v := v) (i := i) (k := k) (w := w)
    (m' := { m with σ := m.σ.set (.cell k) (.int w) }) h0 g1 rfl ⟨rfl, rfl, rfl, rfl, rfl⟩
  refine ⟨_, ?_, h3, h4⟩
  rw [exec_bump, g1, okbind]
  simp only [preBump, g2, bump_spec hw]
  rfl

end Wrench.Prog
