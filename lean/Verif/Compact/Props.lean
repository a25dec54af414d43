import Verif.Compact.Model
import Verif.Ops.Assign

/-
C64: the operators of the compact build give the results of the normal build.
-/
namespace Wrench.Compact

open Wrench.Ops

/-- What the comparison of the two builds uses about C++ floats: an int converts to a
nonzero float exactly when it is not 0, and subtracting 1 is adding -1. -/
structure FloatFacts (E : Env) : Prop where
  nonzero : ∀ b, E.fnonzero (E.ofInt b) = (b != 0)
  minus_one : ∀ a, E.fsub a (E.ofInt 1#32) = E.fadd a (E.ofInt (-1#32))

/-- The exact sum, difference or product of two integers fits in 32 bits.  (No condition
for the other operators or when a float takes part.) -/
def fits (op : BinOp) : Val → Val → Prop
  | .int a, .int b => op ∈ [.add, .sub, .mul] →
    -2147483648 ≤ exactInt op a.toInt b.toInt ∧ exactInt op a.toInt b.toInt ≤ 2147483647
  | _, _ => True

theorem routed_bin (E : Env) (tgt : Addr) (op : BinOp) :
    Routed (binTable E tgt op) true false true :=
  ⟨rfl, fun _ => rfl, .inr ⟨rfl, rfl⟩, fun _ => .inr ⟨rfl, rfl⟩, rfl, fun _ => rfl, rfl, rfl,
    .inr ⟨rfl, rfl⟩, fun _ => .inr ⟨rfl, rfl⟩, fun _ => rfl, .inr ⟨rfl, rfl⟩⟩

theorem catFor_none (E : Env) (tgt : Addr) (op : BinOp) (σ : St) (a b : Addr)
    (ha : ∀ o, σ.cell a ≠ .arr o) (hb : ∀ o, σ.cell b ≠ .arr o) :
    catFor E tgt op σ a b = none := by
  unfold catFor
  split
  · exact catCheck_none E tgt σ a b ha hb
  · rfl

/-- The callbacks compute the operator's meaning. -/
theorem call_int (E : Env) {op : BinOp} {a b : Word32} {x : Val}
    (hx : meaning E op (.int a) (.int b) = .ok x) (hf : fits op (.int a) (.int b)) :
    ∃ r, intCall op a b = .ok r ∧ x = .int r := by
  cases op <;> simp only [meaning, Res.ok.injEq] at hx
  case add => exact ⟨_, by simp [intCall, checked]; exact hf (by simp), hx.symm⟩
  case sub => exact ⟨_, by simp [intCall, checked]; exact hf (by simp), hx.symm⟩
  case mul => exact ⟨_, by simp [intCall, checked]; exact hf (by simp), hx.symm⟩
  case div => cases hd : idiv a b <;> simp [hd] at hx; exact ⟨_, hd, hx.symm⟩
  case mod => cases hd : imod a b <;> simp [hd] at hx; exact ⟨_, hd, hx.symm⟩
  case shl => cases hd : ishl a b <;> simp [hd] at hx; exact ⟨_, hd, hx.symm⟩
  case shr => cases hd : ishr a b <;> simp [hd] at hx; exact ⟨_, hd, hx.symm⟩
  all_goals exact ⟨_, rfl, hx.symm⟩

private theorem fdiv_int {E : Env} (hE : FloatFacts E) (a b : Word32) :
    fdivOr0 E a (E.ofInt b) = fdivI E a b := by
  unfold fdivOr0 fdivI
  rw [hE.nonzero]
  by_cases h : b = 0 <;> simp [h]

theorem call_float {E : Env} (hE : FloatFacts E) {op : BinOp} {v w x : Val}
    (hx : meaning E op v w = .ok x) (hf : v.ty = .F ∨ w.ty = .F) :
    x = .float (floatCall E op (toFloat E v) (toFloat E w)) := by
  cases v <;> cases w <;> first
    | (simp [meaning, Val.isNum] at hx; done)
    | (simp [Val.ty] at hf; done)
    | skip
  all_goals
    cases op <;> simp [meaning, Val.isNum] at hx
    all_goals
      subst hx
      simp [floatCall, toFloat, fdiv_int hE]

/-- The compact build's binary operators compute `meaning`. -/
theorem binary_meaning {E : Env} (hE : FloatFacts E) (op : BinOp) {mb mc : Bool} {m n : Nat}
    {σ : St} {to from_ tgt : Addr} {v w x : Val}
    (hto : to.real = true) (hfrom : from_.real = true)
    (hv : Reads σ mb m to v) (hw : Reads σ mc n from_ w)
    (hx : meaning E op v w = .ok x) (hf : fits op v w) (d : Nat) :
    ∃ τ, binary E op (d + (m + n) + 3) σ to from_ tgt = .ok τ ∧ OnlySet σ τ tgt x := by
  have hvn : v.isNum = true := by
    cases v <;> first | rfl | simp [meaning, Val.isNum] at hx
  have hwn : w.isNum = true := by
    cases v <;> cases w <;> first | rfl | simp [meaning, Val.isNum] at hx
  obtain ⟨τ, t', f', h1, h2, h3, h4⟩ := disp_reads E (binTable E tgt op) (catFor E tgt op) ()
    (routed_bin E tgt op) (catFor_none E tgt op) (m + n) (Nat.le_refl _) hto hfrom hv hw
    (fun _ => ⟨hvn, hwn⟩) (by simp) (by simp) d
  rw [num_of_isNum E σ hvn] at h2 h4
  rw [num_of_isNum E σ hwn] at h3 h4
  refine ⟨τ.set tgt x, ?_, h1.onlySet (onlySet_set τ tgt _)⟩
  unfold binary
  by_cases hff : v.ty = .F ∨ w.ty = .F
  · have := call_float hE hx hff
    subst this
    cases v <;> cases w <;> first
      | (simp [Val.isNum] at hvn; done)
      | (simp [Val.isNum] at hwn; done)
      | (simp [Val.ty] at hff; done)
      | skip
    all_goals
      rw [h4 _ rfl]
      simp [leafT, h2, h3, Val.bits, tot, toFloat]
  · cases v <;> cases w <;> first
      | (simp [Val.isNum] at hvn; done)
      | (simp [Val.isNum] at hwn; done)
      | (simp [Val.ty] at hff; done)
      | skip
    obtain ⟨r, hr, rfl⟩ := call_int E hx hf
    rw [h4 _ rfl]
    simp [leafT, h2, h3, Val.bits, hr]

/-- C64, arithmetic.  For two operands that are numbers (literals, variables, elements of
arrays, strings, raw arrays or hashes), every binary operator whose result C11 and C12
define leaves the same value in its target in both builds, and in both nothing else
changes.  Missing: a 32-bit overflow of `+ - *`, which wraps in the normal build and is
undefined in the compact one (`C64_overflow`), a container element on the left of an
integer operator with a variable on the right, which is wrong in the normal build
(`C64_element_mod_variable`), and operands that are not numbers (`C64_string_plus_float`,
`C64_array_minus_array`). -/
theorem C64_binary_partial {E : Env} (hE : FloatFacts E) (op : BinOp) {mb mc : Bool}
    {m n : Nat} {σ : St} {to from_ tgt : Addr} {v w x : Val}
    (hto : to.real = true) (hfrom : from_.real = true)
    (hv : Reads σ mb m to v) (hw : Reads σ mc n from_ w)
    (hform : mb = false ∨ ∀ r, σ.cell from_ ≠ .ref r)
    (hx : meaning E op v w = .ok x) (hf : fits op v w) (d : Nat) :
    ∃ τ τ', binary E op (d + (m + n) + 3) σ to from_ tgt = .ok τ ∧
      Ops.binary E op (d + (m + n) + 3) σ to from_ tgt = .ok τ' ∧
      OnlySet σ τ tgt x ∧ OnlySet σ τ' tgt x := by
  obtain ⟨τ, h1, h2⟩ := binary_meaning hE op hto hfrom hv hw hx hf (tgt := tgt) d
  obtain ⟨τ', g1, g2⟩ := Ops.binary_meaning E op hto hfrom hv hw hform hx (tgt := tgt) d
  exact ⟨τ, τ', h1, g1, h2, g2⟩

/-! ### Comparisons -/

theorem routed_cmp (E : Env) (form : Form) (op : CmpOp) :
    Routed (cmpTable E form op) true true true := routed_std ..

/-- The compact build's `==`, `<`, `>` (and their negations) are right for all operands,
also for an int variable on the left of a float, which the normal build retypes. -/
theorem C64_compare (E : Env) (form : Form) (op : CmpOp) {mb mc : Bool} {m n : Nat} {σ : St}
    {to from_ : Addr} {v w : Val} (hto : to.real = true) (hfrom : from_.real = true)
    (hv : Reads σ mb m to v) (hw : Reads σ mc n from_ w)
    (hop : op ∈ [.eq, .lt, .gt] ∨ ((v.num E σ).ty = .I ∧ (w.num E σ).ty = .I)) (d : Nat) :
    ∃ τ, compare E form op (d + (m + n) + 3) σ to from_
        = .ok (τ, cmpSpec E op (v.num E σ) (w.num E σ)) ∧ SameReal σ τ := by
  obtain ⟨τ, t', f', h1, h2, h3, h4⟩ := disp_reads E (cmpTable E form op) (fun _ _ _ => none)
    false (routed_cmp E form op) (fun _ _ _ _ _ => rfl) (m + n) (Nat.le_refl _) hto hfrom hv hw
    (by simp) (by simp) (by simp) d
  have hvn := num_isNum E σ v
  have hwn := num_isNum E σ w
  generalize v.num E σ = x at *
  generalize w.num E σ = y at *
  refine ⟨τ, ?_, h1⟩
  unfold compare
  cases op <;> cases x <;> cases y <;> simp_all [Val.isNum, Val.ty, cmpTable, stdTable, leafC,
    leafF, cmpInt, cmpFloat, Val.bits, cmpSpec, toFloat, BitVec.slt, BitVec.toInt_inj,
    toInt_eq_zero]
  all_goals rfl

/-- C64, comparisons: both builds answer alike and change nothing.  Missing: `&&` and `||`
with a float operand (`C64_logical_float`, `C64_branch_float`), and an int on the left of
a float, where the normal build changes the variable (`C13_int_variable_retyped`). -/
theorem C64_compare_partial (E : Env) (form : Form) (op : CmpOp) {mb mc : Bool} {m n : Nat}
    {σ : St} {to from_ : Addr} {v w : Val} (hto : to.real = true) (hfrom : from_.real = true)
    (hv : Reads σ mb m to v) (hw : Reads σ mc n from_ w)
    (hop : op = .eq ∨ (op ∈ [.lt, .gt] ∧ ¬((v.num E σ).ty = .I ∧ (w.num E σ).ty = .F)) ∨
      ((v.num E σ).ty = .I ∧ (w.num E σ).ty = .I)) (d : Nat) :
    ∃ τ τ' r, compare E form op (d + (m + n) + 3) σ to from_ = .ok (τ, r) ∧
      Ops.compare E op (d + (m + n) + 3) σ to from_ = .ok (τ', r) ∧
      SameReal σ τ ∧ SameReal σ τ' := by
  obtain ⟨τ, h1, h2⟩ := C64_compare E form op hto hfrom hv hw (by
    rcases hop with rfl | ⟨h, -⟩ | h
    · exact .inl (by simp)
    · exact .inl (List.mem_cons_of_mem _ h)
    · exact .inr h) d
  obtain ⟨τ', g1, g2⟩ := C13_comparison_partial E op hto hfrom hv hw (by
    rcases hop with rfl | ⟨-, h⟩ | ⟨h, h'⟩
    · exact .inl rfl
    · exact .inr h
    · exact .inr fun hc => by rw [h'] at hc; cases hc.2) d
  exact ⟨τ, τ', _, h1, g1, h2, g2⟩

end Wrench.Compact
