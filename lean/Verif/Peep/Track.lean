import Verif.Peep.Rules
import Verif.Bytes.Lemmas

/-
The emitter only applies the rewriting rules: whatever it does to the end of the code when an
instruction is appended is an instance of a rule of `Rw`.
-/
namespace Wrench.Peep
open Wrench.Vm Wrench.Ops

/-! ### The opcode cache describes the end of the code -/

/-- Instructions that may stand in the cache for a longer piece of code. -/
def isOdd (op : Op) : Bool :=
  match act op with
  | some (.bin _ .regs) | some (.index .regs) | some (.cmp _ _ (.one _) _)
  | some (.assign (.one _) _) => true
  | _ => false

/-- `Seg l ops`: the bytes `l` (last first) are what the cached opcodes `ops` describe. -/
inductive Seg : List Byte → List Op → Prop where
  | nil : Seg [] []
  /-- an instruction with its operand bytes -/
  | ins {op : Op} {d l : List Byte} {ops : List Op} : (∀ a, act op = some a → d.length = dlen a) →
      Seg l ops → Seg (d.reverse ++ op.code :: l) (op :: ops)
  /-- a fused piece of code, of which only the last instruction is known, above stale entries -/
  | odd {op : Op} {c l : List Byte} {stale ops : List Op} : isOdd op = true → 2 ≤ c.length →
      (∀ o ∈ stale, o = .LoadFromLocal ∨ o = .LoadFromGlobal) →
      (∀ k inv v, act op = some (.cmp k inv (.one v) false) →
        ∃ x c', c = x :: op.code :: c') → Seg l ops → Seg (c ++ l) (op :: (stale ++ ops))

/-- The cache describes the end of the code. -/
def Tracked (b : Code) : Prop := ∃ seg base, b.rall = seg ++ base ∧ Seg seg b.rops

theorem Seg.append {l l' : List Byte} {ops ops' : List Op} (h : Seg l ops) (h' : Seg l' ops') :
    Seg (l ++ l') (ops ++ ops') := by
  induction h with
  | nil => exact h'
  | @ins op d l ops hd _ ih =>
    have := Seg.ins hd ih
    simpa [List.append_assoc] using this
  | @odd op c l stale ops h1 h0 h2 h3 _ ih =>
    have := Seg.odd h1 h0 h2 h3 ih
    simpa [List.append_assoc] using this

theorem Seg.inv {l : List Byte} {op : Op} {ops : List Op} (h : Seg l (op :: ops))
    (hn : isOdd op = false) : ∃ (d l' : List Byte), l = d.reverse ++ op.code :: l' ∧
      (∀ a, act op = some a → d.length = dlen a) ∧ Seg l' ops := by
  generalize hl : op :: ops = os at h
  cases h with
  | nil => simp at hl
  | @ins op' d l ops' hd hs =>
    simp only [List.cons.injEq] at hl
    obtain ⟨rfl, rfl⟩ := hl
    exact ⟨d, l, rfl, hd, hs⟩
  | @odd op' c l stale ops' h1 _ _ _ _ =>
    simp only [List.cons.injEq] at hl
    obtain ⟨rfl, -⟩ := hl
    rw [h1] at hn
    simp at hn

/-- The last instruction with its operands, when there is nothing odd about it. -/
theorem Tracked.last {b : Code} {op : Op} {ops : List Op} (h : Tracked b) (hb : b.rops = op :: ops)
    {a : Act} (ha : act op = some a) (hn : isOdd op = false) : ∃ (d l : List Byte), b.rall = d.reverse ++ op.code :: l ∧
      d.length = dlen a ∧ Tracked ⟨l, ops⟩ := by
  obtain ⟨seg, base, h1, h2⟩ := h
  rw [hb] at h2
  obtain ⟨d, l', rfl, hd, hs⟩ := h2.inv hn
  exact ⟨d, l' ++ base, by rw [h1]; simp, hd a ha, l', base, rfl, hs⟩

theorem Tracked.push {l d : List Byte} {op : Op} {ops : List Op} (h : Tracked ⟨l, ops⟩)
    (hd : ∀ a, act op = some a → d.length = dlen a) : Tracked ⟨d.reverse ++ op.code :: l, op :: ops⟩ := by
  obtain ⟨seg, base, h1, h2⟩ := h
  refine ⟨d.reverse ++ op.code :: seg, base, ?_, .ins hd h2⟩
  dsimp only at h1 ⊢
  rw [h1]
  simp

theorem Tracked.clear (l : List Byte) : Tracked ⟨l, []⟩ := ⟨[], l, rfl, .nil⟩

theorem Tracked.odd {l c : List Byte} {op : Op} {stale ops : List Op} (h : Tracked ⟨l, ops⟩)
    (ho : isOdd op = true) (hc2 : 2 ≤ c.length) (hs : ∀ o ∈ stale, o = .LoadFromLocal ∨ o = .LoadFromGlobal)
    (hc : ∀ k inv v, act op = some (.cmp k inv (.one v) false) → ∃ x c', c = x :: op.code :: c') :
    Tracked ⟨c ++ l, op :: (stale ++ ops)⟩ := by
  obtain ⟨seg, base, h1, h2⟩ := h
  refine ⟨c ++ seg, base, ?_, .odd ho hc2 hs hc h2⟩
  dsimp only at h1 ⊢
  rw [h1]
  simp

/-- A comparison with a variable ends in its opcode and the variable. -/
theorem Tracked.lastOne {b : Code} {op : Op} {ops : List Op} (h : Tracked b) (hb : b.rops = op :: ops)
    {k : CmpOp} {inv : Bool} {v : Sp} (ha : act op = some (.cmp k inv (.one v) false)) :
    ∃ x l, b.rall = x :: op.code :: l ∧ ∀ (op' : Op) (e : List Byte) (bz : Bool),
      act op' = some (.cmp k inv (.one v) bz) → e.length + 1 = dlen (.cmp k inv (.one v) bz) →
      Tracked ⟨e.reverse ++ x :: op'.code :: l, op' :: ops⟩ := by
  obtain ⟨seg, base, h1, h2⟩ := h
  rw [hb] at h2
  have hodd : ∀ (op' : Op) (bz : Bool), act op' = some (.cmp k inv (.one v) bz) → isOdd op' = true := by
    intro op' bz h
    simp [isOdd, h]
  generalize hl : op :: ops = os at h2
  cases h2 with
  | nil => simp at hl
  | @ins o d l ops' hd hs =>
    simp only [List.cons.injEq] at hl
    obtain ⟨rfl, rfl⟩ := hl
    obtain ⟨x, rfl⟩ := List.length_eq_one_iff.mp (hd _ ha)
    refine ⟨x, l ++ base, by rw [h1]; simp, ?_⟩
    intro op' e bz h3 h4
    have := Tracked.push (l := l ++ base) (ops := ops) (op := op') (d := x :: e)
      ⟨l, base, rfl, hs⟩ (by intro a ha'; rw [h3] at ha'; cases ha'; exact h4)
    simpa using this
  | @odd o c l stale ops' ho hc2 hst hc hs =>
    simp only [List.cons.injEq] at hl
    obtain ⟨rfl, rfl⟩ := hl
    obtain ⟨x, c', rfl⟩ := hc _ _ _ ha
    refine ⟨x, c' ++ l ++ base, by rw [h1]; simp, ?_⟩
    intro op' e bz h3 h4
    have := Tracked.odd (l := l ++ base) (ops := ops') (op := op') (c := e.reverse ++ x :: op'.code :: c')
      ⟨l, base, rfl, hs⟩ (hodd op' bz h3) (by simp; omega) hst (by
        intro k' inv' v' h5
        rw [h3] at h5
        simp only [Option.some.injEq, Act.cmp.injEq] at h5
        obtain ⟨-, -, -, rfl⟩ := h5
        have : e = [] := by
          simp only [dlen, Bool.false_eq_true, if_false] at h4
          exact List.length_eq_zero_iff.mp (by omega)
        subst this
        exact ⟨x, c', rfl⟩)
    simpa using this

/-! ### What one emission does -/

/-- `b1` with operand bytes appended. -/
def Code.data (b : Code) (d : List Byte) : Code := ⟨d.reverse ++ b.rall, b.rops⟩

/-- The end of the code and the appended bytes `code` are replaced according to a rule. -/
def Rewrites (E : Env) (b : Code) (code : List Byte) (b' : Code) : Prop :=
  ∃ pre frag frag' is js P, b.rall.reverse = pre ++ frag ∧ b'.rall.reverse = pre ++ frag' ∧
    Decodes (frag ++ code) is ∧ Decodes frag' js ∧ Rw E is js P

/-- The instruction is appended, or the end of the code is rewritten; the cache stays right. -/
def Good (E : Env) (b : Code) (op : Op) (data : List Byte) (b1 : Code) : Prop :=
  Tracked (b1.data data) ∧ (b1 = b.push op ∨ Rewrites E b (op.code :: data) (b1.data data))

theorem good_push {E : Env} {b : Code} {op : Op} {data : List Byte} (h : Tracked b)
    (hd : ∀ a, act op = some a → data.length = dlen a) : Good E b op data (b.push op) :=
  ⟨h.push hd, .inl rfl⟩

theorem Decodes.ins (op : Op) {a : Act} {d r : List Byte} {is : List Ins} (h : act op = some a)
    (hd : d.length = dlen a) (hr : Decodes r is) : Decodes (op.code :: (d ++ r)) ((a, d) :: is) :=
  .cons (Op.decode_code op) h hd hr

theorem len0 {d : List Byte} (h : d.length = 0) : d = [] := List.length_eq_zero_iff.mp h

theorem len1 {d : List Byte} (h : d.length = 1) : ∃ x, d = [x] := List.length_eq_one_iff.mp h

theorem len2 {d : List Byte} (h : d.length = 2) : ∃ x y, d = [x, y] := by
  match d, h with
  | [x, y], _ => exact ⟨x, y, rfl⟩

theorem len4 {d : List Byte} (h : d.length = 4) : ∃ x y z w, d = [x, y, z, w] := by
  match d, h with
  | [x, y, z, w], _ => exact ⟨x, y, z, w, rfl⟩

/-- The space of a load. -/
def spOf : Op → Option Sp
  | .LoadFromLocal => some .L
  | .LoadFromGlobal => some .G
  | _ => none

theorem load_act {op : Op} {v : Sp} (h : spOf op = some v) : act op = some (.load v) ∧ isOdd op = false := by
  unfold spOf at h
  split at h <;> simp at h <;> subst h <;> exact ⟨rfl, rfl⟩

/-- A load at the end. -/
theorem Tracked.load {b : Code} {op : Op} {ops : List Op} (h : Tracked b) (hb : b.rops = op :: ops)
    {v : Sp} (hv : spOf op = some v) : ∃ i l, b.rall = i :: op.code :: l ∧ Tracked ⟨l, ops⟩ := by
  obtain ⟨ha, hn⟩ := load_act hv
  obtain ⟨d, l, h1, hd, h2⟩ := h.last hb ha hn
  obtain ⟨i, rfl⟩ := len1 hd
  exact ⟨i, l, h1, h2⟩

/-- Two loads at the end. -/
theorem Tracked.loads {b : Code} {o1 o2 : Op} {ops : List Op} (h : Tracked b)
    (hb : b.rops = o2 :: o1 :: ops) {v w : Sp} (hv : spOf o1 = some v) (hw : spOf o2 = some w) :
    ∃ i j l, b.rall = j :: o2.code :: i :: o1.code :: l ∧ Tracked ⟨l, ops⟩ := by
  obtain ⟨j, l, h1, h2⟩ := h.load hb hw
  obtain ⟨i, l', h3, h4⟩ := h2.load (op := o1) (ops := ops) rfl hv
  dsimp only at h3
  subst h3
  exact ⟨i, j, l', h1, h4⟩

theorem decodes_loads {o1 o2 op : Op} {v w : Sp} {a : Act} {i j : Byte} (hv : spOf o1 = some v)
    (hw : spOf o2 = some w) (ha : act op = some a) (hd : dlen a = 0) :
    Decodes ([o1.code, i, o2.code, j] ++ op.code :: []) [(.load v, [i]), (.load w, [j]), (a, [])] :=
  Decodes.ins o1 (load_act hv).1 (d := [i]) rfl (Decodes.ins o2 (load_act hw).1 (d := [j]) rfl
    (Decodes.ins op ha (d := []) hd.symm .nil))

theorem xyValues_act {o1 o2 xy : Op} (h : xyValues o1 o2 = some xy) :
    ∃ v w, spOf o1 = some v ∧ spOf o2 = some w ∧ act xy = some (.values v w) := by
  unfold xyValues at h
  split at h <;> simp at h <;> subst h <;> exact ⟨_, _, rfl, rfl, rfl⟩

theorem skipLoad_act {op sk : Op} (h : skipLoad op = some sk) : isOdd sk = true ∧
    ((∃ o, act op = some (.bin o .stack) ∧ act sk = some (.bin o .regs)) ∨
      (act op = some (.index .stack) ∧ act sk = some (.index .regs))) := by
  unfold skipLoad at h
  split at h <;> simp at h <;> subst h <;> refine ⟨rfl, ?_⟩ <;> first
    | exact .inr ⟨rfl, rfl⟩
    | exact .inl ⟨_, rfl, rfl⟩

theorem good_fastLoad {E : Env} {b b1 : Code} {op last : Op} {rest : List Op} {data : List Byte}
    (ht : Tracked b) (hb : b.rops = last :: rest) (hd : ∀ a, act op = some a → data.length = dlen a)
    (h : fastLoad b op last rest = some (some b1)) : Good E b op data b1 := by
  unfold fastLoad at h
  cases hs : skipLoad op with
  | none => rw [hs] at h; simp at h
  | some sk =>
    rw [hs] at h
    cases rest with
    | nil => simp at h
    | cons prev more =>
      dsimp only at h
      split at h
      · cases hx : xyValues prev last with
        | none => rw [hx] at h; simp at h
        | some xy =>
          rw [hx] at h
          obtain ⟨v, w, hv, hw, hxy⟩ := xyValues_act hx
          obtain ⟨ho, hsk⟩ := skipLoad_act hs
          obtain ⟨i, j, l, hl, ht'⟩ := ht.loads hb hv hw
          rw [hl] at h
          simp [put, mov] at h
          subst h
          obtain rfl : data = [] := by
            rcases hsk with ⟨o, h1, -⟩ | ⟨h1, -⟩ <;> exact len0 (hd _ h1)
          refine ⟨?_, .inr ?_⟩
          · have := ht'.odd (c := [sk.code, j, i, xy.code]) (stale := []) ho (by simp) (by simp) (by
              intro k inv v ha
              rcases hsk with ⟨o, -, h1⟩ | ⟨-, h1⟩ <;> rw [h1] at ha <;> simp at ha)
            exact this
          · refine ⟨l.reverse, [prev.code, i, last.code, j], [xy.code, i, j, sk.code], ?_⟩
            rcases hsk with ⟨o, h1, h2⟩ | ⟨h1, h2⟩
            · refine ⟨_, _, _, by rw [hl]; simp, by simp [Code.data], decodes_loads hv hw h1 rfl,
                ?_, Rw.binSkip⟩
              exact Decodes.ins xy hxy (d := [i, j]) rfl (Decodes.ins sk h2 (d := []) rfl .nil)
            · refine ⟨_, _, _, by rw [hl]; simp, by simp [Code.data], decodes_loads hv hw h1 rfl,
                ?_, Rw.indexSkip⟩
              exact Decodes.ins xy hxy (d := [i, j]) rfl (Decodes.ins sk h2 (d := []) rfl .nil)
      · simp at h

/-! ### Negated literals -/

theorem setWidth_mask16 (v : Word16) : (v &&& 0xFF#16).setWidth 8 = v.setWidth 8 := by
  apply BitVec.eq_of_getLsbD_eq
  intro i hi
  simp only [BitVec.getLsbD_setWidth, BitVec.getLsbD_and, getLsbD_mask16, hi, decide_true,
    Bool.true_and, Bool.and_true]

theorem setWidth_mask32 (v : Word32) : (v &&& 0xFF#32).setWidth 8 = v.setWidth 8 := by
  apply BitVec.eq_of_getLsbD_eq
  intro i hi
  simp only [BitVec.getLsbD_setWidth, BitVec.getLsbD_and, getLsbD_mask32, hi, decide_true,
    Bool.true_and, Bool.and_true]

theorem join16 (v : Word16) : (((v &&& 0xFF#16).setWidth 8).setWidth 16 |||
    (((v.sshiftRight 8).setWidth 8).setWidth 16) <<< 8) = v := by
  have := join16_pack v
  rwa [setWidth_mask16 (v.sshiftRight 8)] at this

theorem join32 (v : Word32) : (((v &&& 0xFF#32).setWidth 8).setWidth 32 |||
    (((v.sshiftRight 8).setWidth 8).setWidth 32) <<< 8 |||
    (((v.sshiftRight 16).setWidth 8).setWidth 32) <<< 16 |||
    (((v.sshiftRight 24).setWidth 8).setWidth 32) <<< 24) = v := by
  have := join32_pack v
  rwa [setWidth_mask32 (v.sshiftRight 8), setWidth_mask32 (v.sshiftRight 16),
    setWidth_mask32 (v.sshiftRight 24)] at this

theorem ushift_setWidth (v : Word32) (k : Nat) (hk : k ≤ 24) :
    (v >>> k).setWidth 8 = (v.sshiftRight k).setWidth 8 := by
  apply BitVec.eq_of_getLsbD_eq
  intro i hi
  have h1 : k + i < 32 := by omega
  simp only [BitVec.getLsbD_setWidth, hi, decide_true, Bool.true_and, BitVec.getLsbD_ushiftRight,
    BitVec.getLsbD_sshiftRight]
  have h2 : ¬32 ≤ i := by omega
  simp [h1, h2]

theorem signExtend_neg {w : Nat} (x : BitVec w) (hw : 0 < w) (hl : w ≤ 32) (hx : x ≠ BitVec.intMin w) :
    (-x).signExtend 32 = 0 - x.signExtend 32 := by
  apply BitVec.eq_of_toInt_eq
  rw [BitVec.toInt_signExtend_of_le hl, BitVec.toInt_neg_of_ne_intMin hx]
  have h1 : (x.signExtend 32).toInt = x.toInt := BitVec.toInt_signExtend_of_le hl
  rw [show (0 : BitVec 32) - x.signExtend 32 = -x.signExtend 32 from BitVec.zero_sub _]
  by_cases h : x.signExtend 32 = BitVec.intMin 32
  · have h2 := BitVec.toInt_intMin (w := 32)
    rw [← h, h1] at h2
    have h3 : x.toInt ≠ (BitVec.intMin w).toInt := fun h => hx (BitVec.eq_of_toInt_eq h)
    have h4 := BitVec.le_toInt x
    rw [BitVec.toInt_intMin] at h3
    have h5 : (2 : Int) ^ (w - 1) ≤ 2 ^ 31 := by
      exact_mod_cast Nat.pow_le_pow_right (by omega : 0 < 2) (by omega : w - 1 ≤ 31)
    have h6 : (2 : Nat) ^ (w - 1) % 2 ^ w = 2 ^ (w - 1) :=
      Nat.mod_eq_of_lt (Nat.pow_lt_pow_right (by omega) (by omega))
    rw [h6] at h3
    push_cast at h3
    have h7 : (((2 : Nat) ^ (32 - 1) % 2 ^ 32 : Nat) : Int) = 2 ^ 31 := by decide
    rw [h7] at h2
    omega
  · rw [BitVec.toInt_neg_of_ne_intMin h, h1]

/-- The code ends in `rf` before and in `rf'` after. -/
theorem Rewrites.mk {E : Env} {b b' : Code} {code : List Byte} {is js : List Ins}
    {P : M → Prop} (rf rf' l : List Byte) (h1 : b.rall = rf ++ l) (h2 : b'.rall = rf' ++ l)
    (h3 : Decodes (rf.reverse ++ code) is) (h4 : Decodes rf'.reverse js)
    (h5 : Rw E is js P) : Rewrites E b code b' :=
  ⟨l.reverse, rf.reverse, rf'.reverse, is, js, P, by rw [h1, List.reverse_append],
    by rw [h2, List.reverse_append], h3, h4, h5⟩

theorem Decodes.of {c c' : List Byte} {is : List Ins} (h : Decodes c is) (e : c' = c) :
    Decodes c' is := e ▸ h

theorem Decodes.one (op : Op) {a : Act} {d : List Byte} (h : act op = some a)
    (hd : d.length = dlen a) : Decodes (op.code :: d) [(a, d)] := by
  have := Decodes.ins op h hd .nil
  rwa [List.append_nil] at this

/-- An instruction before the one being appended. -/
theorem Decodes.pair (op op' : Op) {a a' : Act} {d d' : List Byte} (h : act op = some a)
    (hd : d.length = dlen a) (h' : act op' = some a') (hd' : d'.length = dlen a') :
    Decodes ((d.reverse ++ [op.code]).reverse ++ op'.code :: d') [(a, d), (a', d')] := by
  have := Decodes.ins op h hd (Decodes.one op' h' hd')
  simpa using this

theorem good_neg {E : Env} {b b1 : Code} {last : Op} {rest : List Op} (ht : Tracked b)
    (hb : b.rops = last :: rest) (h : pushNeg E.fneg b last rest = some b1) :
    Good E b .Negate [] b1 := by
  have hneg : ∀ a, act .Negate = some a → ([] : List Byte).length = dlen a := by
    intro a ha
    have : act .Negate = some .neg := rfl
    rw [this] at ha
    cases ha
    rfl
  have key : ∀ (op : Op) (k : Lit) (d d' l : List Byte) (P : M → Prop), act op = some (.lit k) →
      d.length = dlen (.lit k) → d'.length = dlen (.lit k) → b.rall = d.reverse ++ op.code :: l →
      b1 = ⟨d'.reverse ++ op.code :: l, op :: rest⟩ → Tracked ⟨l, rest⟩ →
      Rw E [(.lit k, d), (.neg, [])] [(.lit k, d')] P → Good E b .Negate [] b1 := by
    intro op k d d' l P ha hd hd' hl hb1 ht' hr
    subst hb1
    refine ⟨ht'.push (by intro a h; rw [ha] at h; cases h; exact hd'), .inr
      (.mk (d.reverse ++ [op.code]) (d'.reverse ++ [op.code]) l (by rw [hl]; simp)
        (by simp [Code.data]) (Decodes.pair op .Negate ha hd rfl rfl) ?_ hr)⟩
    have := Decodes.one op ha hd'
    simpa using this
  unfold pushNeg at h
  split at h
  · obtain ⟨d, l, hl, hd, ht'⟩ := ht.last hb (a := .lit .i8) rfl rfl
    obtain ⟨x, rfl⟩ := len1 hd
    rw [hl] at h
    simp only [List.reverse_cons, List.reverse_nil, List.nil_append, List.cons_append,
      Option.some.injEq] at h
    by_cases hx : x = 0x80#8
    · exact key .LiteralInt8 .i8 [x] [-x] l _ rfl rfl rfl hl h.symm ht'
        (.negLitBad (.inl ⟨rfl, by rw [hx]⟩))
    · refine key .LiteralInt8 .i8 [x] [-x] l _ rfl rfl rfl hl h.symm ht'
        (.negLit (w := .int (x.signExtend 32)) rfl ?_)
      simp only [litVal, negVal]
      rw [signExtend_neg x (by omega) (by omega) hx]
  · split at h
    · obtain ⟨d, l, hl, hd, ht'⟩ := ht.last hb (a := .lit .i16) rfl rfl
      obtain ⟨x0, x1, rfl⟩ := len2 hd
      rw [hl] at h
      simp only [List.reverse_cons, List.reverse_nil, List.nil_append, List.cons_append,
        Option.some.injEq] at h
      by_cases hx : (x0.setWidth 16 ||| (x1.setWidth 16) <<< 8 : Word16) = 0x8000#16
      · refine key .LiteralInt16 .i16 [x0, x1] [_, _] l _ rfl rfl rfl hl h.symm ht'
          (.negLitBad (.inr ⟨rfl, ?_⟩))
        have h0 : x0 = (x0.setWidth 16 ||| (x1.setWidth 16) <<< 8 : Word16).setWidth 8 := by
          apply BitVec.eq_of_getLsbD_eq
          intro i hi
          simp [hi]
        have h1 : x1 = ((x0.setWidth 16 ||| (x1.setWidth 16) <<< 8 : Word16) >>> 8).setWidth 8 := by
          apply BitVec.eq_of_getLsbD_eq
          intro i hi
          have : 8 + i < 16 := by omega
          simp [hi, this]
        rw [hx] at h0 h1
        rw [h0, h1]
        rfl
      · refine key .LiteralInt16 .i16 [x0, x1] [_, _] l _ rfl rfl rfl hl h.symm ht'
          (.negLit (w := .int ((x0.setWidth 16 ||| (x1.setWidth 16) <<< 8 : Word16).signExtend 32)) rfl ?_)
        simp only [litVal, negVal, join16]
        rw [signExtend_neg _ (by omega) (by omega) hx]
    · simp only [Option.some.injEq] at h
      subst h
      exact good_push ht hneg
  · obtain ⟨d, l, hl, hd, ht'⟩ := ht.last hb (a := .lit .i32) rfl rfl
    obtain ⟨x0, x1, x2, x3, rfl⟩ := len4 hd
    rw [hl] at h
    simp only [List.reverse_cons, List.reverse_nil, List.nil_append, List.cons_append,
      Option.some.injEq] at h
    refine key .LiteralInt32 .i32 [x0, x1, x2, x3] [_, _, _, _] l _ rfl rfl rfl hl h.symm ht'
      (.negLit (w := .int _) rfl ?_)
    simp only [litVal, negVal]
    rw [ushift_setWidth _ 8 (by omega), ushift_setWidth _ 16 (by omega), ushift_setWidth _ 24 (by omega),
      join32]
    exact congrArg (fun w => some (Val.int w)) (BitVec.zero_sub _).symm
  · obtain ⟨d, l, hl, hd, ht'⟩ := ht.last hb (a := .lit .f32) rfl rfl
    obtain ⟨x0, x1, x2, x3, rfl⟩ := len4 hd
    rw [hl] at h
    simp only [List.reverse_cons, List.reverse_nil, List.nil_append, List.cons_append,
      Option.some.injEq] at h
    refine key .LiteralFloat .f32 [x0, x1, x2, x3] [_, _, _, _] l _ rfl rfl rfl hl h.symm ht'
      (.negLit (w := .float _) rfl ?_)
    simp only [litVal, negVal, join32]
  · simp only [Option.some.injEq] at h
    subst h
    exact good_push ht hneg

/-! ### Return, indexing, arithmetic -/

theorem good_ret {E : Env} {b b1 : Code} {rest : List Op} (ht : Tracked b)
    (hb : b.rops = .LiteralZero :: rest)
    (h : (do let l ← put b.rall 0 Op.ReturnZero.code; return (⟨l, .ReturnZero :: rest⟩ : Code)) = some b1) :
    Good E b .Return [] b1 := by
  obtain ⟨d, l, hl, hd, ht'⟩ := ht.last hb (a := .lit .zero) rfl rfl
  obtain rfl := len0 hd
  rw [hl] at h
  simp [put] at h
  subst h
  exact ⟨ht'.push (d := []) (by intro a h; cases h; rfl), .inr
    (.mk [Op.LiteralZero.code] [Op.ReturnZero.code] l hl rfl
      (Decodes.pair .LiteralZero .Return (d := []) (d' := []) rfl rfl rfl rfl)
      (Decodes.one .ReturnZero (d := []) rfl rfl) .retZero)⟩

theorem good_index {E : Env} {b b1 : Code} {last : Op} {rest : List Op} (ht : Tracked b)
    (hb : b.rops = last :: rest) (h : pushIndex b last rest = some b1) : Good E b .Index [] b1 := by
  unfold pushIndex at h
  split at h
  · obtain ⟨d, l, hl, hd, ht'⟩ := ht.last hb (a := .lit .i16) rfl rfl
    obtain ⟨x0, x1, rfl⟩ := len2 hd
    rw [hl] at h
    simp [put] at h
    subst h
    exact ⟨ht'.push (d := [x0, x1]) (by intro a h; cases h; rfl), .inr
      (.mk [x1, x0, Op.LiteralInt16.code] [x1, x0, Op.IndexLiteral16.code] l hl rfl
        (Decodes.pair .LiteralInt16 .Index (d := [x0, x1]) (d' := []) rfl rfl rfl rfl)
        (Decodes.one .IndexLiteral16 (d := [x0, x1]) rfl rfl) .indexLit16)⟩
  · obtain ⟨d, l, hl, hd, ht'⟩ := ht.last hb (a := .lit .i8) rfl rfl
    obtain ⟨x0, rfl⟩ := len1 hd
    rw [hl] at h
    simp [put] at h
    subst h
    exact ⟨ht'.push (d := [x0]) (by intro a h; cases h; rfl), .inr
      (.mk [x0, Op.LiteralInt8.code] [x0, Op.IndexLiteral8.code] l hl rfl
        (Decodes.pair .LiteralInt8 .Index (d := [x0]) (d' := []) rfl rfl rfl rfl)
        (Decodes.one .IndexLiteral8 (d := [x0]) rfl rfl) .indexLit8)⟩
  · simp only [Option.some.injEq] at h
    subst h
    exact good_push ht (by intro a h; cases h; rfl)

theorem fusedArith_act {op prev last fused : Op} {sw : Bool}
    (h : fusedArith op prev last = some (fused, sw)) : ∃ k v w, spOf prev = some v ∧
      spOf last = some w ∧ act op = some (.bin k .stack) ∧
      act fused = some (.bin k (if sw then .two w v else .two v w)) ∧
      (sw = true → k = .add ∨ k = .mul) := by
  unfold fusedArith at h
  split at h <;> simp at h <;> obtain ⟨rfl, rfl⟩ := h <;>
    exact ⟨_, _, _, rfl, rfl, rfl, rfl, by simp⟩

theorem good_arith {E : Env} {b b1 : Code} {op last : Op} {rest : List Op} (ht : Tracked b)
    (hb : b.rops = last :: rest) (ho : isArith op = true) (h : pushArith b op last rest = some b1) :
    Good E b op [] b1 := by
  have hlen : ∀ a, act op = some a → ([] : List Byte).length = dlen a := by
    unfold isArith at ho
    split at ho <;> first | (simp at ho; done) | (intro a h; cases h; rfl)
  have hpush : some (b.push op) = some b1 → Good E b op [] b1 := by
    intro h
    cases h
    exact good_push ht hlen
  have hfuse : ∀ prev more, rest = prev :: more → (match fusedArith op prev last with
      | some (fused, false) => (do let l ← fuse2 fused b.rall; return (⟨l, []⟩ : Code))
      | some (fused, true) => (do let l ← fuse2x fused b.rall; return ⟨l, []⟩)
      | none => some (b.push op)) = some b1 → Good E b op [] b1 := by
    intro prev more hr h
    cases hf : fusedArith op prev last with
    | none => rw [hf] at h; exact hpush h
    | some r =>
      obtain ⟨fused, sw⟩ := r
      rw [hf] at h
      obtain ⟨k, v, w, hv, hw, h1, h2, h3⟩ := fusedArith_act hf
      obtain ⟨i, j, l, hl, ht'⟩ := ht.loads (hr ▸ hb) hv hw
      cases sw with
      | false =>
        dsimp only at h
        rw [hl] at h
        simp [fuse2, put, mov] at h
        subst h
        exact ⟨Tracked.clear _, .inr (.mk [j, last.code, i, prev.code] [j, i, fused.code] l hl rfl
          (decodes_loads hv hw h1 rfl) (Decodes.one fused (d := [i, j]) h2 rfl) .binVV)⟩
      | true =>
        dsimp only at h
        rw [hl] at h
        simp [fuse2x, put, mov] at h
        subst h
        exact ⟨Tracked.clear _, .inr (.mk [j, last.code, i, prev.code] [i, j, fused.code] l hl rfl
          (decodes_loads hv hw h1 rfl) (Decodes.one fused (d := [j, i]) h2 rfl) (.binVVx (h3 rfl)))⟩
  unfold pushArith at h
  dsimp only at h
  split at h
  · cases rest with
    | nil =>
      dsimp only at h
      split at h
      · exact hpush h
      · simp at h
    | cons prev more =>
      cases more with
      | nil =>
        dsimp only at h
        split at h
        · exact hpush h
        · exact hfuse _ _ rfl h
      | cons p2 more => exact hfuse _ _ rfl h
  · exact hpush h

/-! ### Comparisons -/

theorem cmp_act {op ll gg LS GS ILS IGS : Op} (h1 : llCmp op = some ll) (h2 : ggCmp op = some gg)
    (h3 : lsgs op = some (LS, GS, ILS, IGS)) : ∃ k inv, (k = .gt ∨ k = .lt ∨ k = .eq) ∧
      act op = some (.cmp k inv .stack false) ∧
      act ll = some (.cmp k inv (.two .L .L) false) ∧ act gg = some (.cmp k inv (.two .G .G) false) ∧
      act LS = some (.cmp k inv (.one .L) false) ∧ act GS = some (.cmp k inv (.one .G) false) ∧
      act ILS = some (.cmp (CmpOp.flip k) inv (.one .L) false) ∧
      act IGS = some (.cmp (CmpOp.flip k) inv (.one .G) false) := by
  unfold llCmp at h1
  split at h1 <;> simp at h1 <;> subst h1 <;> simp only [ggCmp, lsgs, Option.some.injEq, Prod.mk.injEq] at h2 h3 <;>
    obtain ⟨rfl, rfl, rfl, rfl⟩ := h3 <;> subst h2 <;>
    exact ⟨_, _, by simp, rfl, rfl, rfl, rfl, rfl, rfl, rfl⟩

theorem isLit_act {op : Op} (h : isLit op = true) : ∃ k, act op = some (.lit k) ∧ isOdd op = false := by
  unfold isLit at h
  split at h <;> first | (simp at h; done) | exact ⟨_, rfl, rfl⟩

/-- The literal is moved before the variable. -/
theorem swapLit_eq {lit iv : Op} {k : Lit} {d l l1 : List Byte} {o i : Byte} (ha : act lit = some (.lit k))
    (hlit : isLit lit = true) (hd : d.length = dlen (.lit k))
    (h : swapLit lit iv (d.reverse ++ lit.code :: i :: o :: l) = some l1) :
    l1 = i :: iv.code :: (d.reverse ++ lit.code :: l) := by
  unfold isLit at hlit
  split at hlit <;> first
    | (simp at hlit; done)
    | skip
  · cases ha
    obtain ⟨x0, x1, x2, x3, rfl⟩ := len4 hd
    simp [swapLit, put, mov] at h
    rw [← h]; simp
  · cases ha
    obtain rfl := len0 hd
    simp [swapLit, put, mov] at h
    rw [← h]; simp
  · cases ha
    obtain ⟨x0, x1, x2, x3, rfl⟩ := len4 hd
    simp [swapLit, put, mov] at h
    rw [← h]; simp
  · cases ha
    obtain ⟨x0, rfl⟩ := len1 hd
    simp [swapLit, put, mov] at h
    rw [← h]; simp
  · cases ha
    obtain ⟨x0, x1, rfl⟩ := len2 hd
    simp [swapLit, put, mov] at h
    rw [← h]; simp

theorem good_cmpReplace {E : Env} {b b1 : Code} {op LS GS ILS IGS last prev : Op} {more : List Op}
    {k : CmpOp} {inv : Bool} (ht : Tracked b) (hb : b.rops = last :: prev :: more)
    (hk : k = .gt ∨ k = .lt ∨ k = .eq) (hop : act op = some (.cmp k inv .stack false))
    (hLS : act LS = some (.cmp k inv (.one .L) false)) (hGS : act GS = some (.cmp k inv (.one .G) false))
    (hILS : act ILS = some (.cmp (CmpOp.flip k) inv (.one .L) false))
    (hIGS : act IGS = some (.cmp (CmpOp.flip k) inv (.one .G) false))
    (h : compareReplace LS GS ILS IGS b last prev more = some (some b1)) : Good E b op [] b1 := by
  have hLV : ∀ (v : Sp) (V : Op), spOf last = some v → isLit prev = true →
      act V = some (.cmp k inv (.one v) false) →
      (do let l ← put b.rall 1 V.code; return some (⟨l, V :: prev :: more⟩ : Code)) = some (some b1) →
      Good E b op [] b1 := by
    intro v V hv hp hV h
    obtain ⟨hla, -⟩ := load_act hv
    obtain ⟨kk, hpa, hpn⟩ := isLit_act hp
    obtain ⟨i, l, hl, ht1⟩ := ht.load hb hv
    obtain ⟨d, l', hl', hd, ht2⟩ := ht1.last rfl hpa hpn
    dsimp only at hl'
    subst hl'
    rw [hl] at h
    simp [put] at h
    subst h
    refine ⟨ht1.push (d := [i]) (by intro a h; rw [hV] at h; cases h; rfl), .inr
      (.mk (i :: last.code :: (d.reverse ++ [prev.code])) (i :: V.code :: (d.reverse ++ [prev.code])) l'
        (by rw [hl]; simp) (by simp [Code.data])
        ((Decodes.ins prev hpa hd (Decodes.ins last hla (d := [i]) rfl
          (Decodes.one op (d := []) hop rfl))).of (by simp))
        ((Decodes.ins prev hpa hd (Decodes.one V (d := [i]) hV rfl)).of (by simp)) .cmpLitVar)⟩
  have hVL : ∀ (v : Sp) (V : Op), spOf prev = some v → isLit last = true →
      act V = some (.cmp (CmpOp.flip k) inv (.one v) false) →
      (do let l ← swapLit last V b.rall; return some (⟨l, V :: prev :: more⟩ : Code)) = some (some b1) →
      Good E b op [] b1 := by
    intro v V hv hl hV h
    obtain ⟨hpa, -⟩ := load_act hv
    obtain ⟨kk, hla, hln⟩ := isLit_act hl
    obtain ⟨d, l, hbl, hd, ht1⟩ := ht.last hb hla hln
    obtain ⟨i, l', hl', ht2⟩ := ht1.load rfl hv
    dsimp only at hl'
    subst hl'
    rw [hbl] at h
    cases hs : swapLit last V (d.reverse ++ last.code :: i :: prev.code :: l') with
    | none => rw [hs] at h; simp at h
    | some l1 =>
      rw [hs] at h
      have h1 := swapLit_eq hla hl hd hs
      subst h1
      simp at h
      subst h
      refine ⟨?_, .inr (.mk (d.reverse ++ last.code :: i :: [prev.code])
        (i :: V.code :: (d.reverse ++ [last.code])) l' (by rw [hbl]; simp) (by simp [Code.data])
        ((Decodes.ins prev hpa (d := [i]) rfl (Decodes.ins last hla hd
          (Decodes.one op (d := []) hop rfl))).of (by simp))
        ((Decodes.ins last hla hd (Decodes.one V (d := [i]) hV rfl)).of (by simp))
          (.cmpVarLit hk))⟩
      · have := ht2.odd (c := i :: V.code :: (d.reverse ++ [last.code])) (op := V) (stale := [prev])
          (by simp [isOdd, hV]) (by simp) (by
            intro o ho
            simp only [List.mem_singleton] at ho
            subst ho
            unfold spOf at hv
            split at hv <;> simp at hv <;> simp) (by
            intro _ _ _ _
            exact ⟨_, _, rfl⟩)
        simpa [Code.data] using this
  unfold compareReplace at h
  split at h
  · rename_i hp
    split at h
    · exact hLV .G GS rfl hp hGS h
    · exact hLV .L LS rfl hp hLS h
    · simp at h
  · split at h
    · rename_i hl
      split at h
      · exact hVL .G IGS rfl hl hIGS h
      · exact hVL .L ILS rfl hl hILS h
      · simp at h
    · simp at h

theorem good_cmp {E : Env} {b b1 : Code} {op last : Op} {rest : List Op} (ht : Tracked b)
    (hb : b.rops = last :: rest) (ho : isCmp op = true) (h : pushCmp b op last rest = some b1) :
    Good E b op [] b1 := by
  have hlen : ∀ a, act op = some a → ([] : List Byte).length = dlen a := by
    unfold isCmp llCmp at ho
    split at ho <;> first | (simp at ho; done) | (intro a h; cases h; rfl)
  have hpush : some (b.push op) = some b1 → Good E b op [] b1 := by
    intro h
    cases h
    exact good_push ht hlen
  unfold pushCmp at h
  cases rest with
  | nil => exact hpush h
  | cons prev more =>
    dsimp only at h
    split at h
    · rename_i ll gg LS GS ILS IGS h1 h2 h3
      obtain ⟨k, inv, hk, hop, hll, hgg, hLS, hGS, hILS, hIGS⟩ := cmp_act h1 h2 h3
      have hvv : ∀ (v : Sp) (V : Op), spOf last = some v → spOf prev = some v →
          act V = some (.cmp k inv (.two v v) false) →
          (do let l ← fuse2 V b.rall; return (⟨l, [V]⟩ : Code)) = some b1 → Good E b op [] b1 := by
        intro v V hv hw hV h
        obtain ⟨i, j, l, hl, ht'⟩ := ht.loads hb hw hv
        rw [hl] at h
        simp [fuse2, put, mov] at h
        subst h
        have hV' : ∀ a, act V = some a → [i, j].length = dlen a := by
          intro a h; rw [hV] at h; cases h; rfl
        exact ⟨(Tracked.clear l).push (d := [i, j]) hV', .inr
          (.mk [j, last.code, i, prev.code] [j, i, V.code] l hl rfl
          (decodes_loads hw hv hop rfl) (Decodes.one V (d := [i, j]) hV rfl) .cmpVV)⟩
      split at h
      · rename_i hL
        obtain ⟨rfl, rfl⟩ := hL
        exact hvv .L ll rfl rfl hll h
      · split at h
        · rename_i hG
          obtain ⟨rfl, rfl⟩ := hG
          exact hvv .G gg rfl rfl hgg h
        · cases hc : compareReplace LS GS ILS IGS b last prev more with
          | none => rw [hc] at h; simp at h
          | some r =>
            rw [hc] at h
            cases r with
            | none => exact hpush h
            | some b' =>
              simp at h
              subst h
              exact good_cmpReplace ht hb hk hop hLS hGS hILS hIGS hc
    · exact hpush h

/-! ### Branches -/

theorem cmpBZ_cases {last op : Op} {n : Nat} (h : cmpBZ last = some (op, n)) :
    (∃ k inv v w, act last = some (.cmp k inv (.two v w) false) ∧
      act op = some (.cmp k inv (.two v w) true) ∧ n = 2 ∧ isOdd last = false) ∨
    (∃ k inv v, act last = some (.cmp k inv (.one v) false) ∧
      act op = some (.cmp k inv (.one v) true) ∧ n = 1) ∨
    (∃ k inv, act last = some (.cmp k inv .stack false) ∧
      act op = some (.cmp k inv .stack true) ∧ n = 0 ∧ isOdd last = false) ∨
    (∃ v, spOf last = some v ∧ act op = some (.bz (.one v)) ∧ n = 1) := by
  unfold cmpBZ at h
  split at h <;> simp at h <;> obtain ⟨rfl, rfl⟩ := h <;> first
    | exact .inl ⟨_, _, _, _, rfl, rfl, rfl, rfl⟩
    | exact .inr (.inl ⟨_, _, _, rfl, rfl, rfl⟩)
    | exact .inr (.inr (.inl ⟨_, _, rfl, rfl, rfl, rfl⟩))
    | exact .inr (.inr (.inr ⟨_, rfl, rfl, rfl⟩))

theorem cmpB_act {last op : Op} (h : cmpB last = some op) :
    ∃ k inv, act last = some (.cmp k inv .stack false) ∧
      act op = some (.cmp k inv .stack true) ∧ isOdd last = false := by
  unfold cmpB at h
  split at h <;> simp at h <;> subst h <;> exact ⟨_, _, rfl, rfl, rfl⟩

theorem good_bz {E : Env} {b b1 : Code} {last : Op} {rest : List Op} {e : List Byte} (ht : Tracked b)
    (hb : b.rops = last :: rest) (he : e.length = 2) (h : pushBZ b last rest = some b1) :
    Good E b .BZ e b1 := by
  have hbz : act .BZ = some (.bz .stack) := rfl
  have hst : ∀ op k inv, act last = some (.cmp k inv .stack false) →
      act op = some (.cmp k inv .stack true) → isOdd last = false →
      (do let l ← put b.rall 0 op.code; return (⟨l, op :: rest⟩ : Code)) = some b1 → Good E b .BZ e b1 := by
    intro op k inv ha ho hn h
    obtain ⟨d, l, hl, hd, ht'⟩ := ht.last hb ha hn
    obtain rfl := len0 hd
    rw [hl] at h
    simp [put] at h
    subst h
    have := ht'.push (op := op) (d := e) (by intro a h; rw [ho] at h; cases h; exact he)
    refine ⟨this, .inr (.mk [last.code] (e.reverse ++ [op.code]) l hl (by simp [Code.data])
      (Decodes.pair last .BZ (d := []) ha rfl hbz he)
      ((Decodes.one op (d := e) ho he).of (by simp)) .cmpBZ)⟩
  unfold pushBZ at h
  cases hc : cmpBZ last with
  | some r =>
    obtain ⟨op, n⟩ := r
    rw [hc] at h
    rcases cmpBZ_cases hc with ⟨k, inv, v, w, ha, ho, rfl, hn⟩ | ⟨k, inv, v, ha, ho, rfl⟩ |
      ⟨k, inv, ha, ho, rfl, hn⟩ | ⟨v, hv, ho, rfl⟩
    · obtain ⟨d, l, hl, hd, ht'⟩ := ht.last hb ha hn
      obtain ⟨i, j, rfl⟩ := len2 hd
      dsimp only at h
      rw [hl] at h
      simp [put] at h
      subst h
      have := ht'.push (op := op) (d := i :: j :: e) (by
        intro a h; rw [ho] at h; cases h
        simp only [List.length_cons, he]; rfl)
      refine ⟨by simpa [Code.data] using this, .inr (.mk [j, i, last.code] (e.reverse ++ [j, i, op.code]) l
        hl (by simp [Code.data]) (Decodes.pair last .BZ (d := [i, j]) ha rfl hbz he)
        ((Decodes.one op (d := i :: j :: e) ho (by simp only [List.length_cons, he]; rfl)).of (by simp))
        .cmpBZ)⟩
    · obtain ⟨x, l, hl, ht'⟩ := ht.lastOne hb ha
      dsimp only at h
      rw [hl] at h
      simp [put] at h
      subst h
      have h3 : e.length + 1 = dlen (.cmp k inv (.one v) true) := by rw [he]; rfl
      refine ⟨ht' op e true ho h3, .inr (.mk [x, last.code] (e.reverse ++ [x, op.code]) l
        hl (by simp [Code.data]) (Decodes.pair last .BZ (d := [x]) ha rfl hbz he)
        ((Decodes.one op (d := x :: e) ho h3).of (by simp)) .cmpBZ)⟩
    · exact hst op k inv ha ho hn h
    · obtain ⟨i, l, hl, ht'⟩ := ht.load hb hv
      dsimp only at h
      rw [hl] at h
      simp [put] at h
      subst h
      have h3 : (i :: e).length = dlen (.bz (.one v)) := by simp only [List.length_cons, he]; rfl
      have := ht'.push (op := op) (d := i :: e) (by intro a h; rw [ho] at h; cases h; exact h3)
      refine ⟨by simpa [Code.data] using this, .inr (.mk [i, last.code] (e.reverse ++ [i, op.code]) l
        hl (by simp [Code.data]) (Decodes.pair last .BZ (d := [i]) (load_act hv).1 rfl hbz he)
        ((Decodes.one op (d := i :: e) ho h3).of (by simp)) .loadBZ)⟩
  | none =>
    rw [hc] at h
    cases hcb : cmpB last with
    | none =>
      rw [hcb] at h
      simp at h
      subst h
      exact good_push ht (by intro a h; cases h; exact he)
    | some op =>
      rw [hcb] at h
      obtain ⟨k, inv, ha, ho, hn⟩ := cmpB_act hcb
      dsimp only at h
      split at h
      · simp at h
      · simp at h
      · exact hst op k inv ha ho hn h

/-! ### Discarded values -/

theorem bumpVar_act {last load op : Op} (h : bumpVar last load = some op) : ∃ dd v,
    spOf load = some v ∧ (act last = some (.pre dd false) ∨ act last = some (.post dd)) ∧
      isOdd last = false ∧ act op = some (.bumpVar dd v) := by
  unfold bumpVar at h
  split at h <;> simp at h <;> subst h <;> first
    | exact ⟨_, _, rfl, .inl rfl, rfl, rfl⟩
    | exact ⟨_, _, rfl, .inr rfl, rfl, rfl⟩

theorem andPop_act {last op : Op} (h : andPop last = some op) : isOdd last = false ∧
    ((∃ dd, act last = some (.pre dd false) ∧ act op = some (.pre dd true)) ∨
     (∃ dd, act last = some (.post dd) ∧ act op = some (.pre dd true)) ∨
     (act last = some (.assign .stack false) ∧ act op = some (.assign .stack true)) ∨
     (∃ k, act last = some (.compound k false) ∧ act op = some (.compound k true))) := by
  unfold andPop at h
  split at h <;> simp at h <;> subst h <;> refine ⟨rfl, ?_⟩ <;> first
    | exact .inl ⟨_, rfl, rfl⟩
    | exact .inr (.inl ⟨_, rfl, rfl⟩)
    | exact .inr (.inr (.inl ⟨rfl, rfl⟩))
    | exact .inr (.inr (.inr ⟨_, rfl, rfl⟩))

theorem good_andPop {E : Env} {b b1 : Code} {last op : Op} {rest : List Op} (ht : Tracked b)
    (hb : b.rops = last :: rest) (ha : andPop last = some op)
    (h : (do let l ← put b.rall 0 op.code; return (⟨l, op :: rest⟩ : Code)) = some b1) :
    Good E b .PopOne [] b1 := by
  obtain ⟨hn, hc⟩ := andPop_act ha
  have key : ∀ (a a' : Act) (P : M → Prop), act last = some a → act op = some a' → dlen a = 0 →
      dlen a' = 0 → Rw E [(a, []), (.pop, [])] [(a', [])] P → Good E b .PopOne [] b1 := by
    intro a a' P h1 h2 h3 h4 hr
    obtain ⟨d, l, hl, hd, ht'⟩ := ht.last hb h1 hn
    rw [h3] at hd
    obtain rfl := len0 hd
    rw [hl] at h
    simp [put] at h
    subst h
    have h5 := ht'.push (d := []) (op := op) (by intro a h; rw [h2] at h; cases h; exact h4.symm)
    exact ⟨h5, .inr (.mk [last.code] [op.code] l hl rfl
      (Decodes.pair last .PopOne (d := []) (d' := []) h1 h3.symm rfl rfl)
      (Decodes.one op (d := []) h2 h4.symm) hr)⟩
  rcases hc with ⟨dd, h1, h2⟩ | ⟨dd, h1, h2⟩ | ⟨h1, h2⟩ | ⟨k, h1, h2⟩
  · exact key _ _ _ h1 h2 rfl rfl .prePop
  · exact key _ _ _ h1 h2 rfl rfl .postPop
  · exact key _ _ _ h1 h2 rfl rfl .assignPop
  · exact key _ _ _ h1 h2 rfl rfl .compoundPop

theorem good_assignPop {E : Env} {b b1 : Code} {load : Op} {v : Sp} {more : List Op} (ht : Tracked b)
    (hb : b.rops = .Assign :: load :: more) (hv : spOf load = some v)
    (h : assignPop load more.head? b = some b1) : Good E b .PopOne [] b1 := by
  obtain ⟨d0, l0, hl0, hd0, ht0⟩ := ht.last hb (a := .assign .stack false) rfl rfl
  obtain rfl := len0 hd0
  obtain ⟨i, l1, hl1, ht1⟩ := ht0.load rfl hv
  dsimp only at hl1
  subst hl1
  have hld := (load_act hv).1
  have hpop : Decodes (Op.Assign.code :: (Op.PopOne.code :: [])) [(.assign .stack false, []), (.pop, [])] :=
    Decodes.ins .Assign (d := []) rfl rfl (Decodes.one .PopOne (d := []) rfl rfl)
  have hlit : ∀ (before to : Op) (k : Lit) (d l : List Byte), act before = some (.lit k) →
      act to = some (.litTo k v) → d.length = dlen (.lit k) → dlen (.litTo k v) = d.length + 1 →
      l1 = d.reverse ++ before.code :: l → b1 = ⟨d.reverse ++ i :: to.code :: l, []⟩ →
      Good E b .PopOne [] b1 := by
    intro before to k d l h1 h2 h3 h4 hl hb1
    subst hl hb1
    refine ⟨Tracked.clear _, .inr (.mk (Op.Assign.code :: i :: load.code :: (d.reverse ++ [before.code]))
      (d.reverse ++ [i, to.code]) l (by rw [hl0]; simp) (by simp [Code.data])
      ((Decodes.ins before h1 h3 (Decodes.ins load hld (d := [i]) rfl hpop)).of (by simp))
      ((Decodes.one to (d := i :: d) h2 (by simp [h4])).of (by simp)) .litTo)⟩
  have hplain : ∀ to, act to = some (.assign (.one v) true) →
      b1 = ⟨i :: to.code :: l1, []⟩ → Good E b .PopOne [] b1 := by
    intro to h2 hb1
    subst hb1
    exact ⟨Tracked.clear _, .inr (.mk [Op.Assign.code, i, load.code] [i, to.code] l1 hl0 rfl
      ((Decodes.ins load hld (d := [i]) rfl hpop).of (by simp))
      ((Decodes.one to (d := [i]) h2 rfl).of (by simp)) .assignVar)⟩
  have hbin : ∀ (before to : Op) (k : BinOp) (l : List Byte), act before = some (.bin k .stack) →
      act to = some (.binStore k v) → l1 = before.code :: l → b1 = ⟨i :: to.code :: l, []⟩ →
      Good E b .PopOne [] b1 := by
    intro before to k l h1 h2 hl hb1
    subst hl hb1
    exact ⟨Tracked.clear _, .inr (.mk [Op.Assign.code, i, load.code, before.code] [i, to.code] l
      hl0 rfl ((Decodes.ins before (d := []) h1 rfl (Decodes.ins load hld (d := [i]) rfl hpop)).of (by simp))
      ((Decodes.one to (d := [i]) h2 rfl).of (by simp)) .binStore)⟩
  have hv' : (v = .G ∧ load = .LoadFromGlobal) ∨ (v = .L ∧ load = .LoadFromLocal) := by
    unfold spOf at hv
    split at hv <;> simp at hv <;> subst hv <;> simp
  have hsome : ∀ (o : Op), more.head? = some o → ∃ m', more = o :: m' := by
    intro o ho
    cases more with
    | nil => simp at ho
    | cons x m' => simp at ho; subst ho; exact ⟨m', rfl⟩
  unfold assignPop at h
  dsimp only at h
  split at h
  -- LiteralInt8
  · rename_i hm
    obtain ⟨m', hm'⟩ := hsome _ hm
    subst hm'
    obtain ⟨d, l, hl, hd, -⟩ := ht1.last rfl (a := .lit .i8) rfl rfl
    obtain ⟨x, rfl⟩ := len1 hd
    dsimp only at hl
    rw [hl0, hl] at h
    simp [put, mov] at h
    rcases hv' with ⟨rfl, rfl⟩ | ⟨rfl, rfl⟩
    · exact hlit .LiteralInt8 .LiteralInt8ToGlobal .i8 [x] l rfl rfl rfl rfl hl h.symm
    · exact hlit .LiteralInt8 .LiteralInt8ToLocal .i8 [x] l rfl rfl rfl rfl hl h.symm
  · rename_i hm
    obtain ⟨m', hm'⟩ := hsome _ hm
    subst hm'
    obtain ⟨d, l, hl, hd, -⟩ := ht1.last rfl (a := .lit .i16) rfl rfl
    obtain ⟨x, y, rfl⟩ := len2 hd
    dsimp only at hl
    rw [hl0, hl] at h
    simp [put, mov] at h
    rcases hv' with ⟨rfl, rfl⟩ | ⟨rfl, rfl⟩
    · exact hlit .LiteralInt16 .LiteralInt16ToGlobal .i16 [x, y] l rfl rfl rfl rfl hl h.symm
    · exact hlit .LiteralInt16 .LiteralInt16ToLocal .i16 [x, y] l rfl rfl rfl rfl hl h.symm
  · rename_i hm
    obtain ⟨m', hm'⟩ := hsome _ hm
    subst hm'
    obtain ⟨d, l, hl, hd, -⟩ := ht1.last rfl (a := .lit .i32) rfl rfl
    obtain ⟨x, y, z, w, rfl⟩ := len4 hd
    dsimp only at hl
    rw [hl0, hl] at h
    simp [put, mov] at h
    rcases hv' with ⟨rfl, rfl⟩ | ⟨rfl, rfl⟩
    · exact hlit .LiteralInt32 .LiteralInt32ToGlobal .i32 [x, y, z, w] l rfl rfl rfl rfl hl h.symm
    · exact hlit .LiteralInt32 .LiteralInt32ToLocal .i32 [x, y, z, w] l rfl rfl rfl rfl hl h.symm
  · rename_i hm
    obtain ⟨m', hm'⟩ := hsome _ hm
    subst hm'
    obtain ⟨d, l, hl, hd, -⟩ := ht1.last rfl (a := .lit .f32) rfl rfl
    obtain ⟨x, y, z, w, rfl⟩ := len4 hd
    dsimp only at hl
    rw [hl0, hl] at h
    simp [put, mov] at h
    rcases hv' with ⟨rfl, rfl⟩ | ⟨rfl, rfl⟩
    · exact hlit .LiteralFloat .LiteralFloatToGlobal .f32 [x, y, z, w] l rfl rfl rfl rfl hl h.symm
    · exact hlit .LiteralFloat .LiteralFloatToLocal .f32 [x, y, z, w] l rfl rfl rfl rfl hl h.symm
  -- LiteralZero
  · rename_i hm
    obtain ⟨m', hm'⟩ := hsome _ hm
    subst hm'
    obtain ⟨d, l, hl, hd, -⟩ := ht1.last rfl (a := .lit .zero) rfl rfl
    obtain rfl := len0 hd
    dsimp only at hl
    have key : ∀ to, act to = some (.litTo .i8 v) → b1 = ⟨0 :: i :: to.code :: l, []⟩ →
        Good E b .PopOne [] b1 := by
      intro to h2 hb1
      subst hl hb1
      exact ⟨Tracked.clear _, .inr (.mk [Op.Assign.code, i, load.code, Op.LiteralZero.code]
        [0, i, to.code] l hl0 rfl
        ((Decodes.ins .LiteralZero (d := []) rfl rfl (Decodes.ins load hld (d := [i]) rfl hpop)).of (by simp))
        ((Decodes.one to (d := [i, 0]) h2 rfl).of (by simp)) .zeroTo)⟩
    rw [hl0, hl] at h
    simp [put, mov] at h
    rcases hv' with ⟨rfl, rfl⟩ | ⟨rfl, rfl⟩
    · exact key .LiteralInt8ToGlobal rfl h.symm
    · exact key .LiteralInt8ToLocal rfl h.symm
  · rename_i hm
    obtain ⟨m', hm'⟩ := hsome _ hm
    subst hm'
    obtain ⟨d, l, hl, hd, -⟩ := ht1.last rfl (a := .bin .div .stack) rfl rfl
    obtain rfl := len0 hd
    dsimp only at hl
    rw [hl0, hl] at h
    simp [put, mov] at h
    rcases hv' with ⟨rfl, rfl⟩ | ⟨rfl, rfl⟩
    · exact hbin .BinaryDivision .BinaryDivisionAndStoreGlobal .div l rfl rfl hl h.symm
    · exact hbin .BinaryDivision .BinaryDivisionAndStoreLocal .div l rfl rfl hl h.symm
  · rename_i hm
    obtain ⟨m', hm'⟩ := hsome _ hm
    subst hm'
    obtain ⟨d, l, hl, hd, -⟩ := ht1.last rfl (a := .bin .add .stack) rfl rfl
    obtain rfl := len0 hd
    dsimp only at hl
    rw [hl0, hl] at h
    simp [put, mov] at h
    rcases hv' with ⟨rfl, rfl⟩ | ⟨rfl, rfl⟩
    · exact hbin .BinaryAddition .BinaryAdditionAndStoreGlobal .add l rfl rfl hl h.symm
    · exact hbin .BinaryAddition .BinaryAdditionAndStoreLocal .add l rfl rfl hl h.symm
  · rename_i hm
    obtain ⟨m', hm'⟩ := hsome _ hm
    subst hm'
    obtain ⟨d, l, hl, hd, -⟩ := ht1.last rfl (a := .bin .mul .stack) rfl rfl
    obtain rfl := len0 hd
    dsimp only at hl
    rw [hl0, hl] at h
    simp [put, mov] at h
    rcases hv' with ⟨rfl, rfl⟩ | ⟨rfl, rfl⟩
    · exact hbin .BinaryMultiplication .BinaryMultiplicationAndStoreGlobal .mul l rfl rfl hl h.symm
    · exact hbin .BinaryMultiplication .BinaryMultiplicationAndStoreLocal .mul l rfl rfl hl h.symm
  · rename_i hm
    obtain ⟨m', hm'⟩ := hsome _ hm
    subst hm'
    obtain ⟨d, l, hl, hd, -⟩ := ht1.last rfl (a := .bin .sub .stack) rfl rfl
    obtain rfl := len0 hd
    dsimp only at hl
    rw [hl0, hl] at h
    simp [put, mov] at h
    rcases hv' with ⟨rfl, rfl⟩ | ⟨rfl, rfl⟩
    · exact hbin .BinarySubtraction .BinarySubtractionAndStoreGlobal .sub l rfl rfl hl h.symm
    · exact hbin .BinarySubtraction .BinarySubtractionAndStoreLocal .sub l rfl rfl hl h.symm
  -- FUNCTION_CALL_PLACEHOLDER
  · rw [hl0] at h
    rcases hv' with ⟨rfl, rfl⟩ | ⟨rfl, rfl⟩
    · simp [put, hb] at h
      subst h
      refine ⟨?_, .inr (.mk [Op.Assign.code, i, Op.LoadFromGlobal.code] [i, Op.AssignToGlobalAndPop.code] l1
        hl0 rfl ((Decodes.ins .LoadFromGlobal hld (d := [i]) rfl hpop).of (by simp))
        ((Decodes.one .AssignToGlobalAndPop (d := [i]) rfl rfl).of (by simp)) .assignVar)⟩
      have := ht1.odd (c := [i, Op.AssignToGlobalAndPop.code]) (op := .AssignToGlobalAndPop)
        (stale := [.LoadFromGlobal]) rfl (by simp) (by simp) (by intro k inv v h; cases h)
      simpa [Code.data] using this
    · simp [put] at h
      exact hplain .AssignToLocalAndPop rfl h.symm
  · rw [hl0] at h
    simp [put] at h
    rcases hv' with ⟨rfl, rfl⟩ | ⟨rfl, rfl⟩
    · exact hplain .AssignToGlobalAndPop rfl h.symm
    · exact hplain .AssignToLocalAndPop rfl h.symm

theorem good_pop {E : Env} {b b1 : Code} {last : Op} {rest : List Op} (ht : Tracked b)
    (hb : b.rops = last :: rest) (hc : last ≠ .CallLibFunction)
    (hp : last ≠ .FUNCTION_CALL_PLACEHOLDER) (h : pushPop b last rest = some b1) :
    Good E b .PopOne [] b1 := by
  have hld : ∀ v, spOf last = some v →
      (if 2 ≤ b.rall.length then some (⟨b.rall.drop 2, []⟩ : Code) else none) = some b1 →
      Good E b .PopOne [] b1 := by
    intro v hv h
    obtain ⟨i, l, hl, ht'⟩ := ht.load hb hv
    rw [hl] at h
    simp at h
    subst h
    exact ⟨Tracked.clear _, .inr (.mk [i, last.code] [] l hl rfl
      (Decodes.pair last .PopOne (d := [i]) (d' := []) (load_act hv).1 rfl rfl rfl) .nil .popLoad)⟩
  unfold pushPop at h
  split at h
  · exact hld .L rfl h
  · exact hld .G rfl h
  · exact absurd rfl hc
  · exact absurd rfl hp
  · obtain ⟨d, l, hl, hd, ht'⟩ := ht.last hb (a := .lit .zero) rfl rfl
    obtain rfl := len0 hd
    rw [hl] at h
    simp at h
    subst h
    exact ⟨Tracked.clear _, .inr (.mk [Op.LiteralZero.code] [] l hl rfl
      (Decodes.pair .LiteralZero .PopOne (d := []) (d' := []) rfl rfl rfl rfl) .nil .popZero)⟩
  · split at h
    · exact good_assignPop ht hb rfl h
    · exact good_assignPop ht hb rfl h
    · exact good_andPop ht hb rfl h
  · cases hbv : (rest.head?).bind (bumpVar last) with
    | some op =>
      rw [hbv] at h
      cases rest with
      | nil => simp at hbv
      | cons load more =>
        simp only [List.head?_cons, Option.bind_some] at hbv
        obtain ⟨dd, v, hv, ha, hn, ho⟩ := bumpVar_act hbv
        have key : ∀ (a : Act), act last = some a → dlen a = 0 →
            (∀ i, ∃ P, Rw E [(.load v, [i]), (a, []), (.pop, [])] [(.bumpVar dd v, [i])] P) →
            Good E b .PopOne [] b1 := by
          intro a h1 h2 hr
          obtain ⟨d, l, hl, hd, ht'⟩ := ht.last hb h1 hn
          rw [h2] at hd
          obtain rfl := len0 hd
          obtain ⟨i, l', hl', -⟩ := ht'.load rfl hv
          dsimp only at hl' h
          subst hl'
          rw [hl] at h
          simp [put] at h
          subst h
          obtain ⟨P, hr⟩ := hr i
          exact ⟨Tracked.clear _, .inr (.mk [last.code, i, load.code] [i, op.code] l' hl rfl
            ((Decodes.ins load (load_act hv).1 (d := [i]) rfl (Decodes.ins last (d := []) h1 h2.symm
              (Decodes.one .PopOne (d := []) rfl rfl))).of (by simp))
            ((Decodes.one op (d := [i]) ho rfl).of (by simp)) hr)⟩
        rcases ha with ha | ha
        · exact key _ ha rfl fun i => ⟨_, .bumpPre⟩
        · exact key _ ha rfl fun i => ⟨_, .bumpPost⟩
    | none =>
      rw [hbv] at h
      cases ha : andPop last with
      | some op =>
        rw [ha] at h
        exact good_andPop ht hb ha h
      | none =>
        rw [ha] at h
        simp at h
        subst h
        exact good_push ht (by intro a h; cases h; rfl)

/-! ### Every emission -/

theorem good_pushOpcode {E : Env} {b b1 : Code} {op : Op} {data : List Byte} (ht : Tracked b)
    (hd : ∀ a, act op = some a → data.length = dlen a)
    (hx : op = .PopOne → b.rops.head? ≠ some .CallLibFunction ∧
      b.rops.head? ≠ some .FUNCTION_CALL_PLACEHOLDER)
    (h : pushOpcode E.fneg b op = some b1) : Good E b op data b1 := by
  have hpush : some (b.push op) = some b1 → Good E b op data b1 := by
    intro h
    cases h
    exact good_push ht hd
  unfold pushOpcode at h
  cases hb : b.rops with
  | nil => rw [hb] at h; exact hpush h
  | cons last rest =>
    rw [hb] at h hx
    dsimp only at h
    split at h
    · rename_i ho
      subst ho
      obtain rfl := len0 (hd _ rfl)
      exact good_neg ht hb h
    · split at h
      · rename_i ho
        obtain ⟨rfl, rfl⟩ := ho
        obtain rfl := len0 (hd _ rfl)
        exact good_ret ht hb h
      · split at h
        · rename_i ho
          have : data = [] := by
            have h2 := ho
            unfold isCmp llCmp at h2
            split at h2 <;> first | (simp at h2; done) | exact len0 (hd _ rfl)
          subst this
          exact good_cmp ht hb ho h
        · cases hf : fastLoad b op last rest with
          | none => rw [hf] at h; simp at h
          | some r =>
            rw [hf] at h
            cases r with
            | some b' =>
              simp at h
              subst h
              exact good_fastLoad ht hb hd hf
            | none =>
              simp only [Option.bind_eq_bind, Option.bind_some] at h
              split at h
              · rename_i ho
                have : data = [] := by
                  have h2 := ho
                  unfold isArith at h2
                  split at h2 <;> first | (simp at h2; done) | exact len0 (hd _ rfl)
                subst this
                exact good_arith ht hb ho h
              · split at h
                · rename_i ho
                  subst ho
                  obtain rfl := len0 (hd _ rfl)
                  exact good_index ht hb h
                · split at h
                  · rename_i ho
                    subst ho
                    exact good_bz ht hb (hd _ rfl) h
                  · split at h
                    · rename_i ho
                      subst ho
                      obtain rfl := len0 (hd _ rfl)
                      have hx := hx rfl
                      exact good_pop ht hb (fun e => hx.1 (by rw [e]; rfl))
                        (fun e => hx.2 (by rw [e]; rfl)) h
                    · exact hpush h

/-- Emitting an instruction keeps the cache right and either appends the instruction or applies a
rule. -/
theorem emit_step {E : Env} {b b' : Code} {op : Op} {data : List Byte} (ht : Tracked b)
    (hd : ∀ a, act op = some a → data.length = dlen a)
    (hx : op = .PopOne → b.rops.head? ≠ some .CallLibFunction ∧
      b.rops.head? ≠ some .FUNCTION_CALL_PLACEHOLDER)
    (h : emit E.fneg b op data = some b') : Tracked b' ∧
      (b'.rall.reverse = b.rall.reverse ++ op.code :: data ∨ Rewrites E b (op.code :: data) b') := by
  unfold emit at h
  obtain ⟨b1, h1, h2⟩ := Option.bind_eq_some_iff.mp h
  have h2 : Code.data b1 data = b' := Option.some.inj h2
  subst h2
  obtain ⟨h3, h4⟩ := good_pushOpcode ht hd hx h1
  refine ⟨h3, h4.imp (fun h => ?_) id⟩
  rw [h]
  simp [Code.data, Code.push]

/-! ### Appending code -/

theorem Seg.nil_ops {ops : List Op} (h : Seg [] ops) : ops = [] := by
  generalize hl : ([] : List Byte) = l at h
  cases h with
  | nil => rfl
  | ins => simp at hl
  | odd _ h2 =>
    have := congrArg List.length hl
    simp at this
    omega

/-- A single byte is a single instruction. -/
theorem Seg.single {x : Byte} {ops : List Op} (h : Seg [x] ops) : ∃ op, ops = [op] ∧ x = op.code ∧
    ∀ a, act op = some a → dlen a = 0 := by
  generalize hl : [x] = l at h
  cases h with
  | nil => simp at hl
  | @ins op d l ops hd hs =>
    have := congrArg List.length hl
    simp at this
    obtain rfl : d = [] := List.length_eq_zero_iff.mp (by omega)
    obtain rfl : l = [] := List.length_eq_zero_iff.mp (by omega)
    obtain rfl := hs.nil_ops
    simp at hl
    exact ⟨op, rfl, hl, fun a ha => (hd a ha).symm⟩
  | odd _ h2 =>
    have := congrArg List.length hl
    simp at this
    omega

/-- A single instruction. -/
theorem Seg.lone {l : List Byte} {op : Op} {a : Act} (h : Seg l [op]) (ha : act op = some a)
    (hn : isOdd op = false) : ∃ (d : List Byte), l = d.reverse ++ [op.code] ∧ d.length = dlen a := by
  obtain ⟨d, l', rfl, hd, hs⟩ := h.inv hn
  generalize he : ([] : List Op) = os at hs
  cases hs with
  | nil => exact ⟨d, rfl, hd _ ha⟩
  | ins => simp at he
  | odd => simp at he

/-- Appending code whose cache covers all of it keeps the cache right and either appends the code
or applies a rule. -/
theorem append_step {E : Env} {b add b' : Code} (ht : Tracked b) (ha : Seg add.rall add.rops)
    (hx : add.rops = [.PopOne] → b.rops.head? ≠ some .CallLibFunction ∧
      b.rops.head? ≠ some .FUNCTION_CALL_PLACEHOLDER)
    (h : appendCode E.fneg b add = some b') : Tracked b' ∧
      (b'.rall.reverse = b.rall.reverse ++ add.rall.reverse ∨ Rewrites E b add.rall.reverse b') := by
  have hplain : some (⟨add.rall ++ b.rall, add.rops ++ b.rops⟩ : Code) = some b' → Tracked b' ∧
      (b'.rall.reverse = b.rall.reverse ++ add.rall.reverse ∨ Rewrites E b add.rall.reverse b') := by
    intro h
    cases h
    obtain ⟨seg, base, h1, h2⟩ := ht
    exact ⟨⟨add.rall ++ seg, base, by simp [h1], ha.append h2⟩, .inl (by simp)⟩
  have hsingle : (if add.rall.length = 1 then
      match add.rops.getLast? with
      | some op => pushOpcode E.fneg b op
      | none => none
    else some (⟨add.rall ++ b.rall, add.rops ++ b.rops⟩ : Code)) = some b' → Tracked b' ∧
      (b'.rall.reverse = b.rall.reverse ++ add.rall.reverse ∨ Rewrites E b add.rall.reverse b') := by
    intro h
    split at h
    · rename_i hl
      obtain ⟨x, hl⟩ := len1 hl
      rw [hl] at ha
      obtain ⟨op, ho, hop, hd⟩ := ha.single
      rw [ho] at h
      have := good_pushOpcode (data := []) ht (fun a h => (hd a h).symm) (fun h => hx (by rw [ho, h])) h
      obtain ⟨h3, h4⟩ := this
      rw [hl, hop]
      refine ⟨h3, h4.imp (fun h => ?_) id⟩
      rw [h]
      simp [Code.push]
    · exact hplain h
  have hlit : ∀ (v : Sp) (load il fused : Op) (k : Lit) (rest : List Op), spOf load = some v →
      act il = some (.indexLit k .stack) → act fused = some (.indexLit k (.one v)) →
      dlen (.indexLit k (.one v)) = dlen (.indexLit k .stack) + 1 → isOdd il = false →
      b.rops = load :: rest → add.rops = [il] →
      (do let l ← put b.rall 1 fused.code; return (⟨add.rall.dropLast ++ l, [fused]⟩ : Code)) = some b' →
      Tracked b' ∧
      (b'.rall.reverse = b.rall.reverse ++ add.rall.reverse ∨ Rewrites E b add.rall.reverse b') := by
    intro v load il fused k rest hv h1 h2 h3 hn hb hr h
    rw [hr] at ha
    obtain ⟨d, hl, hd⟩ := ha.lone h1 hn
    obtain ⟨i, l, hbl, ht'⟩ := ht.load hb hv
    rw [hbl, hl] at h
    simp [put] at h
    subst h
    refine ⟨?_, .inr (.mk [i, load.code] (d.reverse ++ [i, fused.code]) l hbl (by simp)
      ((Decodes.ins load (load_act hv).1 (d := [i]) rfl (Decodes.one il h1 hd)).of (by rw [hl]; simp))
      ((Decodes.one fused (d := i :: d) h2 (by simp [hd, h3])).of (by simp)) .indexLitVar)⟩
    have := (Tracked.clear l).push (op := fused) (d := i :: d) (by
      intro a h
      rw [h2] at h
      cases h
      simp [hd, h3])
    simpa using this
  have hvar : ∀ (v w : Sp) (last first fused : Op) (rest : List Op), spOf last = some v →
      spOf first = some w → act fused = some (.values w v) → b.rops = last :: rest →
      add.rops = [.Index, first] →
      (do let x ← b.rall[0]?
          let y ← add.rall[1]?
          let l ← put b.rall 0 y
          let l ← put l 1 fused.code
          return (⟨Op.IndexSkipLoad.code :: x :: l, .IndexSkipLoad :: first :: b.rops⟩ : Code)) = some b' →
      Tracked b' ∧
      (b'.rall.reverse = b.rall.reverse ++ add.rall.reverse ∨ Rewrites E b add.rall.reverse b') := by
    intro v w last first fused rest hv hw hf hb hr h
    have hta : Tracked add := ⟨add.rall, [], by simp, ha⟩
    rw [hr] at ha
    obtain ⟨d, l1, hl, hd, hs⟩ := ha.inv rfl
    obtain rfl := len0 (hd _ rfl)
    obtain ⟨d2, hl2, hd2⟩ := hs.lone (load_act hw).1 (load_act hw).2
    obtain ⟨j, rfl⟩ := len1 hd2
    subst hl2
    obtain ⟨i, l, hbl, ht'⟩ := ht.load hb hv
    rw [hbl, hl] at h
    simp [put] at h
    subst h
    refine ⟨?_, .inr (.mk [i, last.code] [Op.IndexSkipLoad.code, i, j, fused.code] l hbl (by simp)
      ((Decodes.ins last (load_act hv).1 (d := [i]) rfl (Decodes.ins first (load_act hw).1 (d := [j]) rfl
        (Decodes.one .Index (d := []) rfl rfl))).of (by rw [hl]; simp))
      ((Decodes.ins fused (d := [j, i]) hf rfl (Decodes.one .IndexSkipLoad (d := []) rfl rfl)).of (by simp))
      .indexVV)⟩
    have hmem : ∀ (o : Op) (v : Sp), spOf o = some v → o = .LoadFromLocal ∨ o = .LoadFromGlobal := by
      intro o v h
      unfold spOf at h
      split at h <;> simp at h <;> simp
    have := ht'.odd (c := [Op.IndexSkipLoad.code, i, j, fused.code]) (op := .IndexSkipLoad)
      (stale := [first, last]) rfl (by simp) (by
        intro o ho
        simp only [List.mem_cons, List.not_mem_nil, or_false] at ho
        rcases ho with rfl | rfl
        · exact hmem _ _ hw
        · exact hmem _ _ hv) (by intro k inv v h; cases h)
    simpa [hb] using this
  unfold appendCode at h
  dsimp only at h
  split at h
  · rename_i h1 h2
    split at h
    · exact hlit .L .LoadFromLocal .IndexLiteral16 _ .i16 _ rfl rfl rfl rfl rfl h2 h1 h
    · exact hsingle h
  · rename_i h1 h2
    split at h
    · exact hlit .G .LoadFromGlobal .IndexLiteral16 _ .i16 _ rfl rfl rfl rfl rfl h2 h1 h
    · exact hsingle h
  · rename_i h1 h2
    split at h
    · exact hlit .L .LoadFromLocal .IndexLiteral8 _ .i8 _ rfl rfl rfl rfl rfl h2 h1 h
    · exact hsingle h
  · rename_i h1 h2
    split at h
    · exact hlit .G .LoadFromGlobal .IndexLiteral8 _ .i8 _ rfl rfl rfl rfl rfl h2 h1 h
    · exact hsingle h
  · rename_i h1 h2
    split at h
    · split at h
      · exact hvar .L .L _ _ _ _ rfl rfl rfl h2 h1 h
      · exact hvar .G .G _ _ _ _ rfl rfl rfl h2 h1 h
      · exact hvar .L .G _ _ _ _ rfl rfl rfl h2 h1 h
      · exact hvar .G .L _ _ _ _ rfl rfl rfl h2 h1 h
      · exact hplain h
    · exact hsingle h
  · exact hsingle h

end Wrench.Peep
