import Verif.Whole.Emit
import Verif.Whole.Bound
import Verif.Cc.LiteralProps

/-
The steps of the expression compiler and the instructions they emit compute the same integers.
-/
namespace Wrench.Whole
open Wrench.Vm Wrench.Peep Wrench.Ops

/-! ### Operators -/

/-- The integer of an operand. -/
def Opnd.val (ρ : Vars) : Opnd → Option Word32
  | .var v i => ρ v i
  | .lit w => some w
  | .paren _ e => e.eval ρ
  | .res w => w

/-- The operators on operands. -/
def interp (ρ : Vars) : Expr.Interp Opnd where
  pre u x := .res (match u with
    | .neg => (x.val ρ).map (unSpec .neg)
    | .lnot => (x.val ρ).map (unSpec .lnot)
    | .bnot => (x.val ρ).map (unSpec .bnot)
    | _ => none)
  post _ _ := .res none
  bin b x y := .res ((x.val ρ).bind fun a => (y.val ρ).bind fun c => binSpec b a c)

theorem binSpec_comm {b : Expr.Bin} (h : b.commute = true) (x y : Word32) : binSpec b x y = binSpec b y x := by
  cases b <;> first | (simp [Expr.Bin.commute] at h; done) | skip
  · simp only [binSpec, eq_comm (a := x.toInt)]
  · simp only [binSpec, ne_comm (a := x.toInt)]
  · simp [binSpec, truth, and_comm]
  · simp [binSpec, truth, or_comm]
  · simp [binSpec, Int.mul_comm]
  · simp [binSpec, BitVec.or_comm]
  · simp [binSpec, BitVec.and_comm]
  · simp [binSpec, BitVec.xor_comm]

theorem binSpec_alt {b b' : Expr.Bin} (h : b.alt = some b') (x y : Word32) : binSpec b' x y = binSpec b y x := by
  cases b <;> simp [Expr.Bin.alt] at h <;> subst h <;> simp [binSpec]

theorem bind_comm' {x y : Option Word32} {f g : Word32 → Word32 → Option Word32} (h : ∀ a b, f a b = g b a) :
    (x.bind fun a => y.bind fun b => f a b) = y.bind fun b => x.bind fun a => g b a := by
  cases x <;> cases y <;> simp [h]

theorem interp_lawful (ρ : Vars) : (interp ρ).Lawful where
  comm b hb x y := by
    show Opnd.res _ = Opnd.res _
    rw [bind_comm' (g := fun a c => binSpec b a c) (fun a c => binSpec_comm hb a c)]
  alt b b' hb x y := by
    show Opnd.res _ = Opnd.res _
    rw [bind_comm' (g := fun a c => binSpec b a c) (fun a c => binSpec_alt hb a c)]

/-! ### The machine's integer operators -/

theorem bmod_word (x : Word32) : -2147483648 ≤ x.toInt ∧ x.toInt < 2147483648 := by
  have h1 := BitVec.le_toInt x
  have h2 := BitVec.toInt_lt (x := x)
  simp at h1 h2
  exact ⟨h1, h2⟩

theorem toInt_eq_zero {x : Word32} : x.toInt = 0 ↔ x = 0 := by
  constructor
  · intro h
    exact BitVec.eq_of_toInt_eq (by rw [h]; rfl)
  · rintro rfl; rfl

/-- A binary operator on the two slots at the top. -/
theorem ostep_bin {ρ : Vars} {b : Expr.Bin} {x y : Slot} {st : List Slot} {r : Option (Slot × Slot)} {a c w : Word32}
    (hx : x.val ρ = some a) (hy : y.val ρ = some c) (hw : binSpec b a c = some w) :
    ostep ρ (binOp b, []) ⟨x :: y :: st, r⟩ = some ⟨.int w :: st, r⟩ := by
  have key : ∀ (op : BinOp), act (binOp b) = some (.bin op .stack) → iop op a c = .ok w →
      ostep ρ (binOp b, []) ⟨x :: y :: st, r⟩ = some ⟨.int w :: st, r⟩ := by
    intro op h1 h2
    simp [ostep, h1, astep, pop2, slotBin, hx, hy, h2, toOpt]
  have keyc : ∀ (op : CmpOp) (inv : Bool), act (binOp b) = some (.cmp op inv .stack false) →
      truth (icmp op a c != inv) = w →
      ostep ρ (binOp b, []) ⟨x :: y :: st, r⟩ = some ⟨.int w :: st, r⟩ := by
    intro op inv h1 h2
    simp [ostep, h1, astep, pop2, slotCmp, hx, hy, h2]
  cases b with
  | eq =>
    refine keyc .eq false rfl ?_
    simp only [binSpec, Option.some.injEq] at hw
    rw [← hw]
    congr 1
    simp only [icmp, Bool.bne_false, beq_eq_decide, BitVec.toInt_inj]
  | ne =>
    refine keyc .eq true rfl ?_
    simp only [binSpec, Option.some.injEq] at hw
    rw [← hw]
    congr 1
    simp [icmp, BitVec.toInt_inj, bne, beq_eq_decide]
  | ge =>
    refine keyc .lt true rfl ?_
    simp only [binSpec, Option.some.injEq] at hw
    rw [← hw]
    congr 1
    simp only [icmp, BitVec.slt, Bool.bne_true]
    by_cases h : a.toInt < c.toInt
    · simp [h, Int.not_le.mpr h]
    · simp [h, Int.not_lt.mp h]
  | le =>
    refine keyc .gt true rfl ?_
    simp only [binSpec, Option.some.injEq] at hw
    rw [← hw]
    congr 1
    simp only [icmp, BitVec.slt, Bool.bne_true]
    by_cases h : c.toInt < a.toInt
    · simp [h, Int.not_le.mpr h]
    · simp [h, Int.not_lt.mp h]
  | gt =>
    refine keyc .gt false rfl ?_
    simp only [binSpec, Option.some.injEq] at hw
    rw [← hw]
    congr 1
    simp [icmp, BitVec.slt]
  | lt =>
    refine keyc .lt false rfl ?_
    simp only [binSpec, Option.some.injEq] at hw
    rw [← hw]
    congr 1
    simp [icmp, BitVec.slt]
  | land =>
    refine keyc .land false rfl ?_
    simp only [binSpec, Option.some.injEq, ne_eq, toInt_eq_zero] at hw
    rw [← hw]
    congr 1
    simp [icmp, bne, beq_eq_decide]
  | lor =>
    refine keyc .lor false rfl ?_
    simp only [binSpec, Option.some.injEq, ne_eq, toInt_eq_zero] at hw
    rw [← hw]
    congr 1
    simp [icmp, bne, beq_eq_decide]
  | add =>
    refine key .add rfl ?_
    simp only [binSpec, Option.some.injEq, BitVec.ofInt_add, BitVec.ofInt_toInt] at hw
    rw [← hw]; rfl
  | sub =>
    refine key .sub rfl ?_
    simp only [binSpec, Option.some.injEq, Int.sub_eq_add_neg, BitVec.ofInt_add, BitVec.ofInt_neg, BitVec.ofInt_toInt] at hw
    rw [← hw, ← BitVec.sub_eq_add_neg]; rfl
  | mul =>
    refine key .mul rfl ?_
    simp only [binSpec, Option.some.injEq, BitVec.ofInt_mul, BitVec.ofInt_toInt] at hw
    rw [← hw]; rfl
  | div =>
    refine key .div rfl ?_
    simp only [binSpec, toInt_eq_zero] at hw
    simp only [iop, idiv]
    split at hw
    · next h => rw [if_pos h]; cases hw; rfl
    · next h =>
      rw [if_neg h]
      split at hw
      · simp at hw
      · next h' =>
        have h2 : ¬(a = 0x80000000#32 ∧ c = 0xFFFFFFFF#32) := by
          rintro ⟨rfl, rfl⟩
          exact h' ⟨rfl, rfl⟩
        rw [if_neg h2]
        cases hw
        rw [← BitVec.toInt_sdiv_of_ne_or_ne, BitVec.ofInt_toInt]
        by_cases ha : a = 0x80000000#32
        · right
          intro hc
          exact h2 ⟨ha, hc⟩
        · left
          exact ha
  | mod =>
    refine key .mod rfl ?_
    simp only [binSpec, toInt_eq_zero] at hw
    simp only [iop, imod]
    split at hw
    · simp at hw
    · next h =>
      rw [if_neg h]
      split at hw
      · simp at hw
      · next h' =>
        have h2 : ¬(a = 0x80000000#32 ∧ c = 0xFFFFFFFF#32) := by
          rintro ⟨rfl, rfl⟩
          exact h' ⟨rfl, rfl⟩
        rw [if_neg h2]
        cases hw
        rw [← BitVec.toInt_srem, BitVec.ofInt_toInt]
  | or =>
    refine key .or rfl ?_
    simp only [binSpec, Option.some.injEq] at hw
    rw [← hw]; rfl
  | and =>
    refine key .and rfl ?_
    simp only [binSpec, Option.some.injEq] at hw
    rw [← hw]; rfl
  | xor =>
    refine key .xor rfl ?_
    simp only [binSpec, Option.some.injEq] at hw
    rw [← hw]; rfl
  | shl =>
    refine key .shl rfl ?_
    simp only [binSpec] at hw
    simp only [iop, ishl]
    split at hw
    · next h =>
      rw [if_pos h]
      cases hw
      congr 1
      apply BitVec.eq_of_toNat_eq
      rw [BitVec.toNat_shiftLeft, Nat.shiftLeft_eq, BitVec.toNat_ofNat]
    · simp at hw
  | shr =>
    refine key .shr rfl ?_
    simp only [binSpec] at hw
    simp only [iop, ishr]
    split at hw
    · next h =>
      rw [if_pos h]
      cases hw
      congr 1
      rw [show ((2 : Int) ^ c.toNat) = ((2 ^ c.toNat : Nat) : Int) by push_cast; rfl, ← Int.shiftRight_eq_div_pow, ← BitVec.toInt_sshiftRight, BitVec.ofInt_toInt]
    · simp at hw

/-- A prefix operator on the slot at the top. -/
theorem ostep_un {ρ : Vars} {u : Un} {op : Op} {x : Slot} {st : List Slot} {r : Option (Slot × Slot)} {a : Word32}
    (ho : opOf (.pre u.op) = some op) (hx : x.val ρ = some a) :
    ostep ρ (op, []) ⟨x :: st, r⟩ = some ⟨.int (unSpec u a) :: st, r⟩ := by
  cases u with
  | neg =>
    cases ho
    simp only [ostep, show act .Negate = some .neg from rfl, Option.bind_some, astep, pop1, hx, Option.map_some, unSpec,
      BitVec.ofInt_neg, BitVec.ofInt_toInt]
    rw [show (0 : Word32) - a = -a from BitVec.zero_sub a]
  | lnot =>
    cases ho
    simp only [ostep, show act .LogicalNot = some .lnot from rfl, Option.bind_some, astep, pop1, hx, Option.map_some,
      unSpec, toInt_eq_zero, beq_eq_decide]
  | bnot =>
    cases ho
    simp only [ostep, show act .BitwiseNOT = some .bnot from rfl, Option.bind_some, astep, pop1, hx, Option.map_some,
      unSpec]
    congr 4
    rw [BitVec.not_eq_neg_add, Int.sub_eq_add_neg, BitVec.ofInt_add, BitVec.ofInt_neg, BitVec.ofInt_toInt,
      BitVec.sub_eq_add_neg]
    rfl

/-! ### Literals -/

/-- The instruction of a literal pushes it. -/
theorem pushInt_ok {w : Word32} (hw : w.toNat < 2147483648) : ∃ k, act (Cc.pushInt w).1 = some (.lit k) ∧
    litInt k (Cc.pushInt w).2 = some w ∧ OkIns (Cc.pushInt w) ∧ isExpr (Cc.pushInt w).1 = true := by
  have hi : w.toInt = w.toNat := by
    rw [BitVec.toInt_eq_toNat_cond, if_pos (by omega)]
  unfold Cc.pushInt
  split
  · next h => subst h; exact ⟨.zero, rfl, rfl, ⟨⟨_, rfl, rfl⟩, by simp, by simp, by simp, by simp⟩, rfl⟩
  · split
    · next h =>
      refine ⟨.i8, rfl, ?_, ⟨⟨_, rfl, rfl⟩, ?_, by simp, by simp, by simp⟩, rfl⟩
      · simp only [litInt, litVal, Cc.sext8 w h.1 h.2]
      · intro _ he
        simp only [List.cons.injEq, and_true] at he
        have := congrArg BitVec.toNat he
        rw [BitVec.toNat_setWidth] at this
        simp at this
        omega
    · split
      · next h =>
        have hj := join16_pack (w.setWidth 16)
        refine ⟨.i16, rfl, ?_, ⟨⟨_, rfl, rfl⟩, by simp, ?_, by simp, by simp⟩, rfl⟩
        · simp only [litInt, pack16, litVal]
          rw [hj, Cc.sext16 w h.1 h.2]
        · intro _ he
          simp only [pack16, List.cons.injEq, and_true] at he
          rw [he.1, he.2] at hj
          have := congrArg BitVec.toNat hj
          rw [BitVec.toNat_setWidth] at this
          simp at this
          omega
      · refine ⟨.i32, rfl, ?_, ⟨⟨_, rfl, rfl⟩, by simp, by simp, by simp, by simp⟩, rfl⟩
        simp only [litInt, pack32, litVal]
        rw [join32_pack w]

end Wrench.Whole
