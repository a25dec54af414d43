import Verif.Ops.Lemmas

/-
C11-C14: what the operators compute and what they leave alone.
-/
namespace Wrench.Ops

/-! ### C11, C12: binary operators -/

/-- Exact integer meaning of the wrapping operators. -/
def exactInt : BinOp → Int → Int → Int
  | .add, a, b => a + b
  | .sub, a, b => a - b
  | .mul, a, b => a * b
  | _, _, _ => 0

theorem catCheck_none (E : Env) (tgt : Addr) (σ : St) (a b : Addr)
    (ha : ∀ o, σ.cell a ≠ .arr o) (hb : ∀ o, σ.cell b ≠ .arr o) :
    catCheck E tgt σ a b = none := by
  unfold catCheck
  generalize σ.cell a = x at *
  generalize σ.cell b = y at *
  cases x <;> cases y <;> simp_all

theorem routed_bin (E : Env) (tgt : Addr) (op : BinOp) : ∃ fl ob er,
    Routed (binTable E tgt op) fl ob er ∧ (er = true ↔ op ∈ [.add, .sub, .mul, .div]) ∧
      (fl = true ↔ op ∈ [.add, .sub, .mul, .div]) := by
  cases op
  case add => exact ⟨_, _, _, routed_add .., by decide⟩
  case sub => exact ⟨_, _, _, routed_std .., by decide⟩
  case mul => exact ⟨_, _, _, routed_std .., by decide⟩
  case div => exact ⟨_, _, _, routed_std .., by decide⟩
  all_goals exact ⟨_, _, _, routed_int .., by decide⟩

private theorem leafT_ok {tgt : Addr} {k : Word32 → Val} {op : Word32 → Word32 → Res Word32}
    {τ : St} {to from_ : Addr} {a b r : Word32} (ha : (τ.cell to).bits = .ok a)
    (hb : (τ.cell from_).bits = .ok b) (hr : op a b = .ok r) :
    leafT tgt k op τ to from_ = .ok (τ.set tgt (k r), ()) := by
  simp [leafT, ha, hb, hr]

/-- The common form: if the table's entry for the operands' types is the leaf storing
`k (op a b)`, that is what ends up in the target and nothing else changes. -/
private theorem binary_leaf (E : Env) (op : BinOp) {mb mc : Bool} {m n : Nat} {σ : St}
    {to from_ tgt : Addr} {v w : Val} {a b r : Word32} {k : Word32 → Val}
    {f : Word32 → Word32 → Res Word32}
    (hto : to.real = true) (hfrom : from_.real = true)
    (hv : Reads σ mb m to v) (hw : Reads σ mc n from_ w)
    (hva : v.bits = .ok a) (hwb : w.bits = .ok b)
    (hint : op ∉ [.add, .sub, .mul, .div] → v.ty = .I ∧ w.ty = .I ∧
      (mb = false ∨ ∀ r, σ.cell from_ ≠ .ref r))
    (hleaf : binTable E tgt op v.ty w.ty = .leaf (leafT tgt k f)) (hr : f a b = .ok r) (d : Nat) :
    ∃ τ, binary E op (d + (m + n) + 3) σ to from_ tgt = .ok τ ∧ OnlySet σ τ tgt (k r) := by
  have hvn : v.isNum = true := by cases v <;> simp_all [Val.bits, Val.isNum]
  have hwn : w.isNum = true := by cases w <;> simp_all [Val.bits, Val.isNum]
  obtain ⟨fl, ob, er, hT, her, hfl'⟩ := routed_bin E tgt op
  have hv' := num_of_isNum E σ hvn
  have hw' := num_of_isNum E σ hwn
  have hfl : fl = false → (v.num E σ).ty = .I ∧ (w.num E σ).ty = .I := by
    intro h
    rw [hv', hw']
    have hop : op ∉ [BinOp.add, .sub, .mul, .div] := fun hc => by simp [hfl'.2 hc] at h
    exact ⟨(hint hop).1, (hint hop).2.1⟩
  obtain ⟨τ, t', f', h1, h2, h3, h4⟩ := disp_reads E (binTable E tgt op) (catCheck E tgt) () hT
    (catCheck_none E tgt) (m + n) (Nat.le_refl _) hto hfrom hv hw (fun _ => ⟨hvn, hwn⟩) hfl
    (by
      intro h
      have hop : op ∉ [BinOp.add, .sub, .mul, .div] := fun hc => by simp [her.2 hc] at h
      exact (hint hop).2.2.elim (fun h => .inl ⟨h, hvn⟩) .inr) d
  rw [hv'] at h2 h4
  rw [hw'] at h3 h4
  have := h4 _ hleaf
  rw [leafT_ok (by rw [h2, hva]) (by rw [h3, hwb]) hr] at this
  refine ⟨_, ?_, h1.onlySet (onlySet_set τ tgt _)⟩
  unfold binary
  rw [this]
  rfl

/-- C11: `a + b`, `a - b`, `a * b` on integers, for every form of operand (number on the
stack, reference chain, array element, string character, raw array byte, hash element):
the target receives the exact result wrapped to 32 bits and every other variable, element
and object keeps its value. -/
theorem C11_int_arithmetic_wraps (E : Env) (op : BinOp) (hop : op ∈ [.add, .sub, .mul])
    {mb mc : Bool} {m n : Nat} {σ : St} {to from_ tgt : Addr} {a b : Word32}
    (hto : to.real = true) (hfrom : from_.real = true)
    (ha : Reads σ mb m to (.int a)) (hb : Reads σ mc n from_ (.int b)) (d : Nat) :
    ∃ τ w, binary E op (d + (m + n) + 3) σ to from_ tgt = .ok τ ∧
      w.toInt = (exactInt op a.toInt b.toInt).bmod (2 ^ 32) ∧ OnlySet σ τ tgt (.int w) := by
  simp only [List.mem_cons, List.not_mem_nil, or_false] at hop
  rcases hop with rfl | rfl | rfl
  · obtain ⟨τ, h1, h2⟩ := binary_leaf E .add hto hfrom ha hb rfl rfl (by simp) rfl rfl d
    exact ⟨τ, a + b, h1, BitVec.toInt_add .., h2⟩
  · obtain ⟨τ, h1, h2⟩ := binary_leaf E .sub hto hfrom ha hb rfl rfl (by simp) rfl rfl d
    exact ⟨τ, a - b, h1, BitVec.toInt_sub .., h2⟩
  · obtain ⟨τ, h1, h2⟩ := binary_leaf E .mul hto hfrom ha hb rfl rfl (by simp) rfl rfl d
    exact ⟨τ, a * b, h1, BitVec.toInt_mul .., h2⟩

/-- The float operation of an operator. -/
def floatOp (E : Env) : BinOp → Word32 → Word32 → Word32
  | .add => E.fadd
  | .sub => E.fsub
  | .mul => E.fmul
  | _ => fun _ _ => 0

/-- The float a number converts to. -/
def toFloat (E : Env) : Val → Word32
  | .int w => E.ofInt w
  | .float w => w
  | _ => 0

/-- C11, mixed operands: as soon as one operand is a float the other is converted and the
result is the float operation, again with nothing else changed. -/
theorem C11_float_arithmetic (E : Env) (op : BinOp) (hop : op ∈ [.add, .sub, .mul])
    {mb mc : Bool} {m n : Nat} {σ : St} {to from_ tgt : Addr} {v w : Val}
    (hto : to.real = true) (hfrom : from_.real = true)
    (hv : Reads σ mb m to v) (hw : Reads σ mc n from_ w) (hvn : v.isNum = true)
    (hwn : w.isNum = true) (hf : v.ty = .F ∨ w.ty = .F) (d : Nat) :
    ∃ τ, binary E op (d + (m + n) + 3) σ to from_ tgt = .ok τ ∧
      OnlySet σ τ tgt (.float (floatOp E op (toFloat E v) (toFloat E w))) := by
  simp only [List.mem_cons, List.not_mem_nil, or_false] at hop
  cases v <;> cases w <;> simp_all [Val.isNum, Val.ty]
  all_goals rcases hop with rfl | rfl | rfl
  all_goals exact binary_leaf E _ hto hfrom hv hw rfl rfl (by simp) rfl rfl d

/-- C12: integer division truncates towards zero, division by zero gives 0.  Missing: the
pair `INT_MIN / -1`, which is undefined behaviour (`C12_int_min_divided_by_minus_one`). -/
theorem C12_division_partial (E : Env) {mb mc : Bool} {m n : Nat} {σ : St}
    {to from_ tgt : Addr} {a b : Word32} (hto : to.real = true) (hfrom : from_.real = true)
    (ha : Reads σ mb m to (.int a)) (hb : Reads σ mc n from_ (.int b))
    (hov : ¬(a.toInt = -2147483648 ∧ b.toInt = -1)) (d : Nat) :
    ∃ τ w, binary E .div (d + (m + n) + 3) σ to from_ tgt = .ok τ ∧
      w.toInt = (if b.toInt = 0 then 0 else a.toInt.tdiv b.toInt) ∧
      OnlySet σ τ tgt (.int w) := by
  have hov' : ¬(a = 0x80000000#32 ∧ b = 0xFFFFFFFF#32) := by
    rintro ⟨rfl, rfl⟩; exact hov (by decide)
  by_cases h0 : b = 0
  · obtain ⟨τ, h1, h2⟩ := binary_leaf (f := idiv) (r := 0) E .div hto hfrom ha hb rfl rfl
      (by simp) rfl (by simp [idiv, h0]) d
    exact ⟨τ, 0, h1, by simp [h0], h2⟩
  · obtain ⟨τ, h1, h2⟩ := binary_leaf (f := idiv) (r := a.sdiv b) E .div hto hfrom ha hb rfl rfl
      (by simp) rfl (by rw [idiv, if_neg h0, if_neg hov']) d
    refine ⟨τ, a.sdiv b, h1, ?_, h2⟩
    have hb0 : b.toInt ≠ 0 := fun h => h0 (BitVec.eq_of_toInt_eq (by simpa using h))
    rw [if_neg hb0]
    exact BitVec.toInt_sdiv_of_ne_or_ne a b (by
      by_cases h : a = 0x80000000#32
      · right; rintro rfl; exact hov' ⟨h, by decide⟩
      · left; intro hc; exact h (by rw [hc]; decide))

/-- C12: the remainder has the sign of the dividend.  Missing: a zero divisor and
`INT_MIN % -1` are undefined behaviour, and an array or hash element on the left with a
variable on the right uses the wrong table entry. -/
theorem C12_modulo_partial (E : Env) {mb mc : Bool} {m n : Nat} {σ : St}
    {to from_ tgt : Addr} {a b : Word32} (hto : to.real = true) (hfrom : from_.real = true)
    (ha : Reads σ mb m to (.int a)) (hb : Reads σ mc n from_ (.int b))
    (hform : mb = false ∨ ∀ r, σ.cell from_ ≠ .ref r)
    (hz : b.toInt ≠ 0) (hov : ¬(a.toInt = -2147483648 ∧ b.toInt = -1)) (d : Nat) :
    ∃ τ w, binary E .mod (d + (m + n) + 3) σ to from_ tgt = .ok τ ∧
      w.toInt = a.toInt.tmod b.toInt ∧ OnlySet σ τ tgt (.int w) := by
  have hov' : ¬(a = 0x80000000#32 ∧ b = 0xFFFFFFFF#32) := by
    rintro ⟨rfl, rfl⟩; exact hov (by decide)
  have h0 : b ≠ 0 := by rintro rfl; exact hz (by decide)
  obtain ⟨τ, h1, h2⟩ := binary_leaf (f := imod) (r := a.srem b) E .mod hto hfrom ha hb rfl rfl
    (fun _ => ⟨rfl, rfl, hform⟩) rfl (by rw [imod, if_neg h0, if_neg hov']) d
  exact ⟨τ, a.srem b, h1, BitVec.toInt_srem a b, h2⟩

/-- `&`, `|`, `^` and shifts by 0..31 of integers. -/
theorem C12_bit_operators (E : Env) {mb mc : Bool} {m n : Nat} {σ : St}
    {to from_ tgt : Addr} {a b : Word32} (hto : to.real = true) (hfrom : from_.real = true)
    (ha : Reads σ mb m to (.int a)) (hb : Reads σ mc n from_ (.int b))
    (hform : mb = false ∨ ∀ r, σ.cell from_ ≠ .ref r) (d : Nat) (op : BinOp) (r : Word32)
    (hr : (op = .and ∧ r = a &&& b) ∨ (op = .or ∧ r = a ||| b) ∨ (op = .xor ∧ r = a ^^^ b) ∨
      (op = .shl ∧ b.toNat < 32 ∧ r = a <<< b.toNat) ∨
      (op = .shr ∧ b.toNat < 32 ∧ r.toInt = a.toInt / 2 ^ b.toNat)) :
    ∃ τ, binary E op (d + (m + n) + 3) σ to from_ tgt = .ok τ ∧ OnlySet σ τ tgt (.int r) := by
  rcases hr with ⟨rfl, rfl⟩ | ⟨rfl, rfl⟩ | ⟨rfl, rfl⟩ | ⟨rfl, h, rfl⟩ | ⟨rfl, h, hr⟩
  · exact binary_leaf E _ hto hfrom ha hb rfl rfl (fun _ => ⟨rfl, rfl, hform⟩) rfl rfl d
  · exact binary_leaf E _ hto hfrom ha hb rfl rfl (fun _ => ⟨rfl, rfl, hform⟩) rfl rfl d
  · exact binary_leaf E _ hto hfrom ha hb rfl rfl (fun _ => ⟨rfl, rfl, hform⟩) rfl rfl d
  · exact binary_leaf (f := ishl) E _ hto hfrom ha hb rfl rfl (fun _ => ⟨rfl, rfl, hform⟩) rfl
      (by simp [ishl, h]) d
  · refine binary_leaf (f := ishr) E _ hto hfrom ha hb rfl rfl (fun _ => ⟨rfl, rfl, hform⟩) rfl
      ?_ d
    rw [ishr, if_pos h]
    congr 1
    refine BitVec.eq_of_toInt_eq ?_
    rw [hr, BitVec.toInt_sshiftRight, Int.shiftRight_eq_div_pow]
    rfl

/-! ### C13: comparisons -/

/-- The right answer of a comparison of two numbers. -/
def cmpSpec (E : Env) : CmpOp → Val → Val → Bool
  | .eq, .int a, .int b => decide (a.toInt = b.toInt)
  | .lt, .int a, .int b => decide (a.toInt < b.toInt)
  | .gt, .int a, .int b => decide (a.toInt > b.toInt)
  | .land, .int a, .int b => decide (a.toInt ≠ 0 ∧ b.toInt ≠ 0)
  | .lor, .int a, .int b => decide (a.toInt ≠ 0 ∨ b.toInt ≠ 0)
  | .eq, v, w => E.feq (toFloat E v) (toFloat E w)
  | .lt, v, w => E.flt (toFloat E v) (toFloat E w)
  | .gt, v, w => E.flt (toFloat E w) (toFloat E v)
  | .land, v, w => E.fnonzero (toFloat E v) && E.fnonzero (toFloat E w)
  | .lor, v, w => E.fnonzero (toFloat E v) || E.fnonzero (toFloat E w)

theorem routed_cmp (E : Env) (op : CmpOp) : Routed (cmpTable E op) true true true := by
  cases op <;> exact routed_std ..

theorem toInt_eq_zero {a : Word32} : a.toInt = 0 ↔ a = 0#32 := by
  constructor
  · intro h
    exact BitVec.eq_of_toInt_eq (by simpa using h)
  · rintro rfl
    rfl

/-- C13: a comparison of any two operands (numbers by value, objects by hash) gives the
right answer and changes no variable, element or object.  Missing: an integer on the left
of a float with `<`, `>`, `&&`, `||`: there an integer *variable* is retyped
(`C13_int_variable_retyped`). -/
theorem C13_comparison_partial (E : Env) (op : CmpOp) {mb mc : Bool} {m n : Nat} {σ : St}
    {to from_ : Addr} {v w : Val} (hto : to.real = true) (hfrom : from_.real = true)
    (hv : Reads σ mb m to v) (hw : Reads σ mc n from_ w)
    (hmix : op = .eq ∨ ¬((v.num E σ).ty = .I ∧ (w.num E σ).ty = .F)) (d : Nat) :
    ∃ τ, compare E op (d + (m + n) + 3) σ to from_
        = .ok (τ, cmpSpec E op (v.num E σ) (w.num E σ)) ∧ SameReal σ τ := by
  obtain ⟨τ, t', f', h1, h2, h3, h4⟩ := disp_reads E (cmpTable E op) (fun _ _ _ => none) false
    (routed_cmp E op) (fun _ _ _ _ _ => rfl) (m + n) (Nat.le_refl _) hto hfrom hv hw
    (by simp) (by simp) (by simp) d
  have hvn := num_isNum E σ v
  have hwn := num_isNum E σ w
  generalize v.num E σ = x at *
  generalize w.num E σ = y at *
  refine ⟨τ, ?_, h1⟩
  unfold compare
  cases op <;> cases x <;> cases y <;> simp_all [Val.isNum, Val.ty, cmpTable, stdTable, leafC,
    Val.bits, cmpSpec, toFloat, BitVec.slt, BitVec.toInt_inj, toInt_eq_zero]
  all_goals rfl

/-! ### C14: compound assignment -/

/-- Value of `v op w`, as C11 and C12 describe it. -/
def meaning (E : Env) (op : BinOp) : Val → Val → Res Val
  | .int a, .int b => match op with
    | .add => .ok (.int (a + b))
    | .sub => .ok (.int (a - b))
    | .mul => .ok (.int (a * b))
    | .div => idiv a b >>= fun r => .ok (.int r)
    | .mod => imod a b >>= fun r => .ok (.int r)
    | .and => .ok (.int (a &&& b))
    | .or => .ok (.int (a ||| b))
    | .xor => .ok (.int (a ^^^ b))
    | .shl => ishl a b >>= fun r => .ok (.int r)
    | .shr => ishr a b >>= fun r => .ok (.int r)
  | v, w => if v.isNum && w.isNum then match op with
    | .add => .ok (.float (E.fadd (toFloat E v) (toFloat E w)))
    | .sub => .ok (.float (E.fsub (toFloat E v) (toFloat E w)))
    | .mul => .ok (.float (E.fmul (toFloat E v) (toFloat E w)))
    | .div => .ok (.float (match w with
      | .int b => fdivI E (toFloat E v) b
      | _ => fdivOr0 E (toFloat E v) (toFloat E w)))
    | _ => .ub
    else .ub

/-- The binary operators compute `meaning`. -/
theorem binary_meaning (E : Env) (op : BinOp) {mb mc : Bool} {m n : Nat} {σ : St}
    {to from_ tgt : Addr} {v w x : Val} (hto : to.real = true) (hfrom : from_.real = true)
    (hv : Reads σ mb m to v) (hw : Reads σ mc n from_ w)
    (hform : mb = false ∨ ∀ r, σ.cell from_ ≠ .ref r)
    (hx : meaning E op v w = .ok x) (d : Nat) :
    ∃ τ, binary E op (d + (m + n) + 3) σ to from_ tgt = .ok τ ∧ OnlySet σ τ tgt x := by
  cases v <;> cases w <;> first
    | (simp [meaning, Val.isNum] at hx; done)
    | skip
  · rename_i a b
    cases op <;> simp only [meaning, Res.ok.injEq] at hx
    case div =>
      cases hd : idiv a b <;> simp [hd] at hx
      subst hx
      exact binary_leaf E _ hto hfrom hv hw rfl rfl (by simp) rfl hd d
    case mod =>
      cases hd : imod a b <;> simp [hd] at hx
      subst hx
      exact binary_leaf E _ hto hfrom hv hw rfl rfl (fun _ => ⟨rfl, rfl, hform⟩) rfl hd d
    case shl =>
      cases hd : ishl a b <;> simp [hd] at hx
      subst hx
      exact binary_leaf E _ hto hfrom hv hw rfl rfl (fun _ => ⟨rfl, rfl, hform⟩) rfl hd d
    case shr =>
      cases hd : ishr a b <;> simp [hd] at hx
      subst hx
      exact binary_leaf E _ hto hfrom hv hw rfl rfl (fun _ => ⟨rfl, rfl, hform⟩) rfl hd d
    all_goals
      subst hx
      exact binary_leaf E _ hto hfrom hv hw rfl rfl (fun _ => ⟨rfl, rfl, hform⟩) rfl rfl d
  all_goals
    cases op <;> simp only [meaning, Val.isNum, Bool.and_self, if_true, Res.ok.injEq,
      reduceCtorEq] at hx
    all_goals
      subst hx
      exact binary_leaf E _ hto hfrom hv hw rfl rfl (by simp) rfl rfl d

/-- A compound multiplication of two integers must not overflow: `*=` is the plain C++
operation. -/
def noMulOverflow (op : BinOp) : Val → Val → Prop
  | .int a, .int b => op = .mul →
    -2147483648 ≤ a.toInt * b.toInt ∧ a.toInt * b.toInt ≤ 2147483647
  | _, _ => True

/-- Only `a` and `b` (and temporaries) differ. -/
structure Touched (σ τ : St) (a b : Addr) : Prop where
  cell : ∀ c, c.real = true → c ≠ a → c ≠ b → τ.cell c = σ.cell c
  obj : τ.obj = σ.obj
  next : τ.next = σ.next
  raw : τ.rawMem = σ.rawMem

private theorem compound_leaf (E : Env) (op : BinOp) {σ : St} {a b : Addr} {v w x : Val}
    (ha : σ.cell a = v) (hb : σ.cell b = w) (hx : meaning E op v w = .ok x)
    (hm : noMulOverflow op v w) (f : Nat) :
    ∃ τ, adisp E (assignTable E op) (f + 1) σ a b = .ok τ ∧ τ.cell a = x ∧
      (∀ c, c ≠ a → c ≠ b → τ.cell c = σ.cell c) ∧ τ.obj = σ.obj ∧ τ.next = σ.next ∧
      τ.rawMem = σ.rawMem := by
  have set1 : ∀ y, ∃ τ : St, τ = σ.set a y ∧ τ.cell a = y ∧
      (∀ c, c ≠ a → c ≠ b → τ.cell c = σ.cell c) ∧ τ.obj = σ.obj ∧ τ.next = σ.next ∧
      τ.rawMem = σ.rawMem :=
    fun y => ⟨_, rfl, St.set_same .., fun c h _ => St.set_ne _ _ h, rfl, rfl, rfl⟩
  have set2 : ∀ y z, ∃ τ : St, τ = (σ.set b z).set a y ∧ τ.cell a = y ∧
      (∀ c, c ≠ a → c ≠ b → τ.cell c = σ.cell c) ∧ τ.obj = σ.obj ∧ τ.next = σ.next ∧
      τ.rawMem = σ.rawMem :=
    fun y z => ⟨_, rfl, St.set_same .., fun c h h2 => by rw [St.set_ne _ _ h, St.set_ne _ _ h2],
      rfl, rfl, rfl⟩
  rw [adisp]
  simp only [ha, hb]
  cases v <;> cases w <;> first
    | (simp [meaning, Val.isNum] at hx; done)
    | skip
  · rename_i p q
    cases op <;> simp only [meaning, Res.ok.injEq] at hx
    case div =>
      cases hd : idiv p q <;> simp [hd] at hx
      subst hx
      obtain ⟨τ, rfl, h⟩ := set1 _
      exact ⟨_, by simp [assignTable, astd, Val.ty, aII, ha, hb, Val.bits, hd], h⟩
    case mod =>
      cases hd : imod p q <;> simp [hd] at hx
      subst hx
      obtain ⟨τ, rfl, h⟩ := set1 _
      exact ⟨_, by simp [assignTable, alogic, Val.ty, aII, ha, hb, Val.bits, hd], h⟩
    case shl =>
      cases hd : ishl p q <;> simp [hd] at hx
      subst hx
      obtain ⟨τ, rfl, h⟩ := set1 _
      exact ⟨_, by simp [assignTable, alogic, Val.ty, aII, ha, hb, Val.bits, hd], h⟩
    case shr =>
      cases hd : ishr p q <;> simp [hd] at hx
      subst hx
      obtain ⟨τ, rfl, h⟩ := set1 _
      exact ⟨_, by simp [assignTable, alogic, Val.ty, aII, ha, hb, Val.bits, hd], h⟩
    case mul =>
      subst hx
      obtain ⟨τ, rfl, h⟩ := set1 _
      exact ⟨_, by simp [assignTable, astd, Val.ty, aII, ha, hb, Val.bits, imulAssign, hm rfl], h⟩
    all_goals
      subst hx
      obtain ⟨τ, rfl, h⟩ := set1 _
      exact ⟨_, by simp [assignTable, aadd, astd, alogic, Val.ty, aII, ha, hb, Val.bits, tot], h⟩
  · cases op <;> simp only [meaning, Val.isNum, Bool.and_self, if_true, Res.ok.injEq,
      reduceCtorEq] at hx
    all_goals
      subst hx
      obtain ⟨τ, rfl, h⟩ := set1 _
      exact ⟨_, by simp [assignTable, aadd, astd, Val.ty, aXF, ha, hb, Val.bits, toFloat], h⟩
  · cases op <;> simp only [meaning, Val.isNum, Bool.and_self, if_true, Res.ok.injEq,
      reduceCtorEq] at hx
    all_goals
      subst hx
      obtain ⟨τ, rfl, h⟩ := set2 _ _
      exact ⟨_, by simp [assignTable, aadd, astd, Val.ty, aFI, ha, hb, Val.bits, toFloat]; rfl, h⟩
  · cases op <;> simp only [meaning, Val.isNum, Bool.and_self, if_true, Res.ok.injEq,
      reduceCtorEq] at hx
    all_goals
      subst hx
      obtain ⟨τ, rfl, h⟩ := set1 _
      exact ⟨_, by simp [assignTable, aadd, astd, Val.ty, aXF, ha, hb, Val.bits, toFloat], h⟩

/-- Entry of a compound table for a number on the left and an `E` operand on the right. -/
private theorem assignTable_numE (E : Env) (op : BinOp) {v w x : Val}
    (hx : meaning E op v w = .ok x) :
    assignTable E op v.ty .E = .exR ∨ assignTable E op v.ty .E = .catR := by
  cases v <;> cases w <;> first
    | (simp [meaning, Val.isNum] at hx; done)
    | (cases op <;> simp_all [meaning, Val.isNum, assignTable, aadd, astd, alogic, Val.ty])

/-- Number on the left, number or container member on the right. -/
private theorem compound_num (E : Env) (op : BinOp) {mc : Bool} {m : Nat} {σ : St} {a b : Addr}
    {v w x : Val} (ha : a.real = true) (hab : b ≠ a)
    (hv : σ.cell a = v) (hw : Reads σ mc m b w) (hwn : w.isNum = true)
    (hnr : ∀ r, σ.cell b ≠ .ref r) (hx : meaning E op v w = .ok x) (hm : noMulOverflow op v w)
    (f : Nat) (hf : m ≤ f) :
    ∃ τ, adisp E (assignTable E op) (f + 2) σ a b = .ok τ ∧ τ.cell a = x ∧
      (∀ c, c ≠ a → c ≠ b → c ≠ .t1 → c ≠ .t2 → τ.cell c = σ.cell c) ∧
      ((σ.cell b).ty = .E → τ.cell b = x) ∧ τ.obj = σ.obj ∧ τ.next = σ.next ∧ τ.rawMem = σ.rawMem := by
  have ha1 : a ≠ .t1 := by rintro rfl; simp [Addr.real] at ha
  have ha2 : a ≠ .t2 := by rintro rfl; simp [Addr.real] at ha
  rcases ty_cases (σ.cell b) with ⟨hn, hn'⟩ | ⟨r, hr, -⟩ | ⟨hty, -⟩
  · obtain ⟨τ, h1, h2, h3, h4⟩ := compound_leaf E op hv (reads_num hw hn).symm hx hm (f + 1)
    exact ⟨τ, h1, h2, fun c h h' _ _ => h3 c h h',
      fun he => by (rw [he] at hn'; rcases hn' with h | h <;> cases h), h4⟩
  · exact absurd hr (hnr r)
  · have hs := single_reads E hw (f - m)
    rw [show f - m + m + 1 = f + 1 by omega] at hs
    obtain ⟨τ, h1, h2, h3, h4⟩ := hs
    have hva : τ.cell a = v := by rw [h4 a ha1 ha2, hv]
    rw [num_of_isNum E σ hwn] at h2
    obtain ⟨υ, g1, g2, g3, g4, g5, g6⟩ := compound_leaf E op hva h2 hx hm f
    have hnotarr : ∀ o, σ.cell a ≠ .arr o := by
      intro o ho
      rw [hv] at ho
      subst ho
      simp [meaning, Val.isNum] at hx
    have hres : adisp E (assignTable E op) (f + 2) σ a b = .ok (υ.set b (υ.cell a)) := by
      rw [adisp]
      simp only [hv, hty]
      rcases assignTable_numE E op hx with he | he
      · simp only [he, h1, res_bind_ok, g1, res_pure]
      · have := catCheck_none E a σ a b hnotarr (not_arr_of_E hw hwn)
        simp only [he, this, h1, res_bind_ok, g1, res_pure]
    refine ⟨_, hres, ?_, ?_, fun _ => by rw [St.set_same, g2], g4.trans h3.obj, g5.trans h3.next, g6.trans h3.raw⟩
    · rw [St.set_ne _ _ (Ne.symm hab), g2]
    · intro c c1 c2 c3 c4
      rw [St.set_ne _ _ c2, g3 c c1 c3, h4 c c3 c4]

/-- C14: `x op= e` where `x` is a variable holding a number and `e` is a number, a
variable, or an element of a container: `x` receives exactly what `x op e` evaluates to,
the expression's own value is the same, and every other variable, element and object is
unchanged.

Missing: a container element on the left (`C14_element_target_overwrites_operand`,
`C14_element_minus_element`), `*=` when the product overflows (undefined behaviour), the
string forms, and a right operand behind two or more references. -/
theorem C14_compound_assignment_partial (E : Env) (op : BinOp) {mc : Bool} {m : Nat} {σ : St}
    {to from_ t : Addr} {v w x : Val}
    (hto : to.real = true) (hfrom : from_.real = true) (ht : t.real = true)
    (hft : from_ ≠ t) (hto_from : to ≠ from_)
    (hv0 : σ.cell to = .ref t) (hv : σ.cell t = v) (hw : Reads σ mc m from_ w)
    (hwn : w.isNum = true) (hone : ∀ r r', σ.cell from_ = .ref r → σ.cell r ≠ .ref r')
    (hx : meaning E op v w = .ok x) (hm : noMulOverflow op v w) (d : Nat) :
    (∃ τ, compound E op (d + m + 3) σ to from_ = .ok τ ∧ τ.cell t = x ∧ τ.cell from_ = x ∧
      Touched σ τ t from_) ∧
    ∀ tgt, ∃ τ, binary E op (d + (1 + m) + 3) σ to from_ tgt = .ok τ ∧ OnlySet σ τ tgt x := by
  have n1 : ∀ {b : Addr}, b.real = true → b ≠ .t1 := by
    rintro b hb rfl; simp [Addr.real] at hb
  have n2 : ∀ {b : Addr}, b.real = true → b ≠ .t2 := by
    rintro b hb rfl; simp [Addr.real] at hb
  have nl : ∀ {b : Addr} {j : Nat}, b.real = true → b ≠ .loc j := by
    rintro b j hb rfl; simp [Addr.real] at hb
  have hvn : v.isNum = true := by
    cases v <;> first | rfl | simp [meaning, Val.isNum] at hx
  have hto_t : to ≠ t := by
    rintro rfl
    rw [hv0] at hv
    simp [← hv, Val.isNum] at hvn
  refine ⟨?_, fun tgt => ?_⟩
  rotate_left
  · exact binary_meaning E op hto hfrom (mb := false)
      (.ref hv0 ht (by rw [← hv]; exact .here (by rw [hv]; exact plain_of_isNum hvn))) hw (.inl rfl)
      hx d
  unfold compound
  -- the value of `to` is a reference throughout
  by_cases hr : ∃ r, σ.cell from_ = .ref r
  · obtain ⟨r, hr⟩ := hr
    obtain ⟨j, rfl, hreal, hread⟩ := reads_ref hw hr
    let ρ := σ.set (.loc (d + j + 3)) (σ.cell r)
    have hρ : SameReal σ ρ := sameReal_set _ _ rfl
    have hloc : ρ.cell (.loc (d + j + 3)) = σ.cell r := St.set_same ..
    have hread' : Reads ρ mc j (.loc (d + j + 3)) w := by
      have h1 := hread.same hρ (hρ.cell _ hreal)
      have h2 : ρ.cell (.loc (d + j + 3)) = ρ.cell r := hloc.trans (hρ.cell _ hreal).symm
      cases h1 with
      | here h => rw [← h2]; exact .here (by rw [h2]; exact h)
      | ref h => exact absurd (by rw [← hρ.cell _ hreal]; exact h) (hone r _ hr)
      | velem h0 h => exact .velem h0 (h2.trans h) ‹_› ‹_› ‹_› ‹_› ‹_›
      | celem h0 h => exact .celem h0 (h2.trans h) ‹_› ‹_› ‹_› ‹_›
      | relem h0 h => exact .relem h0 (h2.trans h) ‹_› ‹_› ‹_›
      | helem h0 h => exact .helem h0 (h2.trans h) ‹_› ‹_›
    obtain ⟨τ, h1, h2, h3, hE, h4, h5, h6⟩ := compound_num E op (a := t) (b := .loc (d + j + 3)) ht
      (nl ht).symm ((hρ.cell _ ht).trans hv) hread' hwn
      (fun r' h => hone r r' hr (hloc.symm.trans h)) hx hm (d + j + 1) (by omega)
    have hto' : τ.cell to = .ref t := by
      rw [h3 to hto_t (nl hto) (n1 hto) (n2 hto), hρ.cell _ hto, hv0]
    refine ⟨τ.set from_ (τ.cell t), ?_, ?_, ?_, ?_, h4.trans hρ.obj, h5.trans hρ.next,
      h6.trans hρ.raw⟩
    · show adisp E (assignTable E op) (d + j + 3 + 1) σ to from_ = _
      have he : assignTable E op .R .R = .refLR := by cases op <;> rfl
      rw [adisp]
      simp only [hv0, hr, ty_ref, he]
      rw [show adisp E (assignTable E op) (d + j + 3)
        (σ.set (.loc (d + j + 3)) (σ.cell r)) t (.loc (d + j + 3)) = .ok τ from h1]
      simp only [res_bind_ok, hto', res_pure]
    · rw [St.set_ne _ _ hft.symm, h2]
    · rw [St.set_same, h2]
    · intro c hc h1 h2
      rw [St.set_ne _ _ h2, h3 c h1 (nl hc) (n1 hc) (n2 hc), hρ.cell _ hc]
  · have hnr : ∀ r, σ.cell from_ ≠ .ref r := fun r h => hr ⟨r, h⟩
    obtain ⟨τ, h1, h2, h3, hE, h4, h5, h6⟩ := compound_num E op ht hft hv hw
      hwn hnr hx hm (d + m) (by omega)
    have hto' : τ.cell to = .ref t := by
      rw [h3 to hto_t hto_from (n1 hto) (n2 hto), hv0]
    have hcp : ∀ υ, (υ = τ ∧ (σ.cell from_).ty = .E) ∨ υ = τ.set from_ (τ.cell t) →
        υ.cell t = x ∧ υ.cell from_ = x ∧ Touched σ υ t from_ := by
      rintro υ (⟨rfl, he⟩ | rfl)
      · exact ⟨h2, hE he, fun c hc c1 c2 => h3 c c1 c2 (n1 hc) (n2 hc), h4, h5, h6⟩
      · refine ⟨by rw [St.set_ne _ _ hft.symm, h2], by rw [St.set_same, h2], ?_, h4, h5, h6⟩
        intro c hc c1 c2
        rw [St.set_ne _ _ c2, h3 c c1 c2 (n1 hc) (n2 hc)]
    have hgo : ∃ υ, adisp E (assignTable E op) (d + m + 2 + 1) σ to from_ = .ok υ ∧
        ((υ = τ ∧ (σ.cell from_).ty = .E) ∨ υ = τ.set from_ (τ.cell t)) := by
      have hent : assignTable E op .R (σ.cell from_).ty = .refLCopy ∨
          (assignTable E op .R (σ.cell from_).ty = .refL ∧ (σ.cell from_).ty = .E) := by
        rcases ty_cases (σ.cell from_) with ⟨hn, -⟩ | ⟨r, hr, -⟩ | ⟨hty, -⟩
        · have hw' := reads_num hw hn
          subst hw'
          generalize σ.cell from_ = y at *
          cases v <;> cases y <;> first
            | (simp [meaning, Val.isNum] at hx; done)
            | (cases op <;> simp_all [meaning, Val.isNum, assignTable, aadd, astd, alogic, Val.ty])
        · exact absurd hr (hnr r)
        · rw [hty]
          cases op <;> simp [assignTable, aadd, astd, alogic]
      rw [adisp]
      simp only [hv0, ty_ref]
      rcases hent with he | ⟨he, hty⟩
      · exact ⟨_, by simp only [he, h1, res_bind_ok, hto', res_pure], .inr rfl⟩
      · exact ⟨_, by simp only [he, h1], .inl ⟨rfl, hty⟩⟩
    obtain ⟨υ, g1, g2⟩ := hgo
    exact ⟨υ, g1, hcp υ g2⟩

end Wrench.Ops
