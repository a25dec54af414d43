import Verif.Ops.Props

/-
C48 (plain assignment), C49 (string equality), C50 (string concatenation), C51 (unary
operators), and the concrete cases and counterexamples of C11-C14.
-/
namespace Wrench.Ops

private theorem n1 {b : Addr} (hb : b.real = true) : b ≠ .t1 := by
  rintro rfl; simp [Addr.real] at hb

private theorem n2 {b : Addr} (hb : b.real = true) : b ≠ .t2 := by
  rintro rfl; simp [Addr.real] at hb

/-! ### C48: plain assignment -/

private theorem plain_ty {v : Val} (h : v.plain = true) :
    ((v.ty = .I ∨ v.ty = .F) ∨ v.ty = .E) ∧ isMember v = false := by
  cases v <;> simp_all [Val.plain, Val.ty, isMember]

private theorem assign_step (E : Env) {σ τ : St} {t from_ l : Addr} {w : Val} {f : Nat}
    (ht : t.real = true) (hp : (σ.cell t).plain = true)
    (hf : ∀ r, σ.cell from_ ≠ .ref r) (hnum : (σ.cell from_).isNum = true → w = σ.cell from_)
    (h1 : deref f σ from_ = .ok (τ, l)) (h2 : τ.cell l = w) (h3 : SameReal σ τ)
    (h4 : ∀ x, x ≠ .t2 → τ.cell x = σ.cell x) :
    ∃ υ, assign E (f + 1) σ t from_ = .ok υ ∧ OnlySet σ υ t w := by
  have ht' : τ.cell t = σ.cell t := h4 t (n2 ht)
  have hds : OnlySet σ (τ.set t w) t w := h3.onlySet (onlySet_set ..)
  obtain ⟨hpt, hpm⟩ := plain_ty hp
  rw [assign]
  rcases ty_cases (σ.cell from_) with ⟨hn, hty | hty⟩ | ⟨r, hr, -⟩ | ⟨hty, -⟩
  · rcases hpt with (hpt | hpt) | hpt
    · simp only [hpt, hty]
      exact ⟨_, rfl, hnum hn ▸ onlySet_set ..⟩
    · simp only [hpt, hty]
      exact ⟨_, rfl, hnum hn ▸ onlySet_set ..⟩
    · simp only [hpt, hty, h1, res_bind_ok, ht', hpm, Bool.false_eq_true, if_false, res_pure, h2]
      exact ⟨_, rfl, hds⟩
  · rcases hpt with (hpt | hpt) | hpt
    · simp only [hpt, hty]
      exact ⟨_, rfl, hnum hn ▸ onlySet_set ..⟩
    · simp only [hpt, hty]
      exact ⟨_, rfl, hnum hn ▸ onlySet_set ..⟩
    · simp only [hpt, hty, h1, res_bind_ok, ht', hpm, Bool.false_eq_true, if_false, res_pure, h2]
      exact ⟨_, rfl, hds⟩
  · exact absurd hr (hf r)
  · rcases hpt with (hpt | hpt) | hpt
    · simp only [hpt, hty, h1, res_bind_ok, res_pure, h2]
      exact ⟨_, rfl, hds⟩
    · simp only [hpt, hty, h1, res_bind_ok, res_pure, h2]
      exact ⟨_, rfl, hds⟩
    · simp only [hpt, hty, h1, res_bind_ok, ht', hpm, Bool.false_eq_true, if_false, res_pure, h2]
      exact ⟨_, rfl, hds⟩

private theorem assign_plain (E : Env) {mc : Bool} : ∀ {m : Nat} {σ : St} {t from_ : Addr}
    {w : Val}, t.real = true → (σ.cell t).plain = true →
    Reads σ mc m from_ w → ∀ d, ∃ τ, assign E (d + m + 2) σ t from_ = .ok τ ∧ OnlySet σ τ t w := by
  intro m
  induction m with
  | zero =>
    intro σ t from_ w ht hp hw d
    obtain ⟨τ, l, h1, h2, h3, h4, -⟩ := deref_reads hw d
    refine assign_step E ht hp ?_ (reads_num hw) h1 h2 h3 h4
    intro r hr
    obtain ⟨j, hj, -⟩ := reads_ref hw hr
    omega
  | succ m ih =>
    intro σ t from_ w ht hp hw d
    by_cases hr : ∃ r, σ.cell from_ = .ref r
    · obtain ⟨r, hr⟩ := hr
      obtain ⟨j, hj, hreal, hread⟩ := reads_ref hw hr
      cases hj
      obtain ⟨υ, g1, g2⟩ := ih ht hp hread d
      refine ⟨υ, ?_, g2⟩
      show assign E (d + m + 2 + 1) σ t from_ = _
      rw [assign]
      rcases (plain_ty hp).1 with (hpt | hpt) | hpt
      all_goals simp only [hr, ty_ref, hpt]; exact g1
    · obtain ⟨τ, l, h1, h2, h3, h4, -⟩ := deref_reads hw d
      exact assign_step E ht hp (fun r h => hr ⟨r, h⟩) (reads_num hw) h1 h2 h3 h4

/-- C48: `x = e`, for a variable `x` currently holding any number or object handle and any
form of operand `e`: afterwards `x` holds the value `e` designates, and no other variable,
element or object has changed. -/
theorem C48_assignment_to_variable (E : Env) {mc : Bool} {m : Nat} {σ : St}
    {to from_ t : Addr} {w : Val} (ht : t.real = true)
    (hto : σ.cell to = .ref t) (hp : (σ.cell t).plain = true) (hw : Reads σ mc m from_ w)
    (d : Nat) : ∃ τ, assign E (d + m + 3) σ to from_ = .ok τ ∧ OnlySet σ τ t w := by
  show ∃ τ, assign E (d + m + 2 + 1) σ to from_ = .ok τ ∧ _
  rw [assign]
  simp only [hto, ty_ref]
  rcases ty_cases (σ.cell from_) with ⟨hn, hty | hty⟩ | ⟨r, hr, -⟩ | ⟨hty, -⟩
  · simp only [hty]
    exact assign_plain E ht hp hw d
  · simp only [hty]
    exact assign_plain E ht hp hw d
  · simp only [hr, ty_ref]
    obtain ⟨j, rfl, hreal, hread⟩ := reads_ref hw hr
    have := assign_plain E ht hp hread (d + 1)
    rwa [show d + 1 + j + 2 = d + (j + 1) + 2 by omega] at this
  · simp only [hty]
    exact assign_plain E ht hp hw d

/-- A place inside a container that a member designates: an element of a value array, or
the cell of a hash table entry. -/
inductive Place (σ : St) (to : Addr) : Addr → Prop where
  | elem {b s o n} : σ.cell to = .mem b s → b.real = true → σ.cell b = .arr o →
      σ.obj o = .vals n → s < n → Place σ to (.elem o s)
  | hash {e} : σ.cell to = .hmem e → e.real = true → (σ.cell e).plain = true → Place σ to e

private theorem t2_value_int {mc : Bool} : ∀ {m : Nat} {σ : St} {a : Addr} {w : Val}
    (_ : Reads σ mc m a w) (_ : a ≠ .t2) (d : Nat) (τ : St),
    deref (d + m + 1) σ a = .ok (τ, .t2) → ∃ x, τ.cell .t2 = .int x := by
  intro m
  induction m with
  | zero =>
    intro σ a w h ha d τ hd
    cases h with
    | here h =>
      rw [deref] at hd
      generalize σ.cell a = c at *
      cases c <;> simp_all [Val.plain]
  | succ m ih =>
    intro σ a w h ha d τ hd
    have hd' : deref (d + m + 1 + 1) σ a = .ok (τ, .t2) := hd
    rw [deref] at hd'
    cases h with
    | here h =>
      generalize σ.cell a = c at *
      cases c <;> simp_all [Val.plain]
    | ref h1 h2 h3 =>
      rw [h1] at hd'
      exact ih h3 (n2 h2) d τ hd'
    | velem h0 h1 h2 h3 h4 h5 =>
      simp [h1, St.set_ne _ _ (n2 h2), h3, h4, h5] at hd'
    | celem h0 h1 h2 h3 h4 h5 =>
      simp only [h1, St.set_ne _ _ (n2 h2), h3, St.set_obj, h4, h5, Res.ok.injEq,
        Prod.mk.injEq, and_true] at hd'
      exact ⟨_, by rw [← hd', St.set_same]⟩
    | relem h0 h1 h2 h3 h4 =>
      simp only [h1, St.set_ne _ _ (n2 h2), h3, h4, Res.ok.injEq,
        Prod.mk.injEq, and_true] at hd'
      exact ⟨_, by rw [← hd', St.set_same]⟩
    | helem h0 h1 h2 h3 =>
      rw [h1] at hd'
      exact ih (h3.same (sameReal_set _ _ rfl) (St.set_ne _ _ (n2 h2))) (n2 h2) d τ hd'

private theorem deref_place {σ : St} {to t : Addr} (hp : Place σ to t)
    (f : Nat) : deref (f + 2) σ to = .ok (σ.set .t2 (σ.cell .t2).retypeInt, t) := by
  rw [deref]
  cases hp with
  | elem h1 h2 h3 h4 h5 =>
    simp only [h1, St.set_ne _ _ (n2 h2), h3, St.set_obj, h4, h5, if_true]
  | hash h1 h2 h3 =>
    simp only [h1]
    rw [deref]
    rw [St.set_ne _ _ (n2 h2)]
    generalize σ.cell t = c at *
    cases c <;> simp_all [Val.plain]

private theorem valueToEx_place (E : Env) {σ : St} {to t l : Addr} {w : Val}
    (hp : Place σ to t) (hl : σ.cell l = w) (hw : w.plain = true)
    (ht2 : l = .t2 → ∃ x, w = .int x) (f : Nat) :
    ∃ τ, valueToEx E (f + 3) σ to l = .ok τ ∧ OnlySet σ τ t w := by
  have hlw : (σ.set .t2 (σ.cell .t2).retypeInt).cell l = w := by
    by_cases h : l = .t2
    · obtain ⟨x, rfl⟩ := ht2 h
      subst h
      rw [St.set_same, hl]
      rfl
    · rw [St.set_ne _ _ h, hl]
  have hdl : deref (f + 2) (σ.set .t2 (σ.cell .t2).retypeInt) l
      = .ok (σ.set .t2 (σ.cell .t2).retypeInt, l) := by
    rw [deref, hlw]
    cases w <;> simp_all [Val.plain]
  have hgo : valueToEx E (f + 3) σ to l
      = .ok ((σ.set .t2 (σ.cell .t2).retypeInt).set t w) := by
    rw [valueToEx]
    have hd := deref_place hp f
    cases hp with
    | elem h1 h2 h3 h4 h5 =>
      simp only [h1, h3, hd, res_bind_ok, hdl, hlw, res_pure]
    | hash h1 h2 h3 =>
      simp only [h1, hd, res_bind_ok, hdl, hlw, res_pure]
  exact ⟨_, hgo, (sameReal_set σ _ rfl).onlySet (onlySet_set ..)⟩

/-- C48: `a[i] = e` and `h[k] = e` (once indexing has produced the member): afterwards that
element holds the value `e` designates, and no other variable, element or object has
changed. -/
theorem C48_assignment_to_element (E : Env) {mc : Bool} : ∀ {m : Nat} {σ : St}
    {to from_ t : Addr} {w : Val}, to.real = true → from_.real = true → Place σ to t →
    Reads σ mc m from_ w → ∀ d, ∃ τ, assign E (d + m + 4) σ to from_ = .ok τ ∧ OnlySet σ τ t w := by
  have place_same : ∀ {σ τ : St} {to t : Addr}, to.real = true → Place σ to t → SameReal σ τ →
      Place τ to t := by
    intro σ τ to t hto hp hs
    cases hp with
    | elem h1 h2 h3 h4 h5 =>
      exact .elem (by rw [hs.cell _ hto, h1]) h2 (by rw [hs.cell _ h2, h3]) (by rw [hs.obj, h4]) h5
    | hash h1 h2 h3 => exact .hash (by rw [hs.cell _ hto, h1]) h2 (by rw [hs.cell _ h2]; exact h3)
  have place_ty : ∀ {σ : St} {to t : Addr}, Place σ to t →
      (σ.cell to).ty = .E ∧ isMember (σ.cell to) = true := by
    intro σ to t hp
    cases hp with
    | elem h1 => rw [h1]; exact ⟨rfl, rfl⟩
    | hash h1 => rw [h1]; exact ⟨rfl, rfl⟩
  have direct : ∀ {m : Nat} {σ : St} {to from_ t : Addr} {w : Val}, to.real = true →
      from_.real = true → Place σ to t → Reads σ mc m from_ w → (∀ r, σ.cell from_ ≠ .ref r) →
      ∀ d, ∃ τ, assign E (d + m + 4) σ to from_ = .ok τ ∧ OnlySet σ τ t w := by
    intro m σ to from_ t w hto hf hp hw hnr d
    obtain ⟨τ, l, h1, h2, h3, h4, -⟩ := deref_reads hw (d + 2)
    rw [show d + 2 + m + 1 = d + m + 3 by omega] at h1
    have hp' := place_same hto hp h3
    obtain ⟨υ, g1, g2⟩ := valueToEx_place E hp' h2 hw.plain (by
      rintro rfl
      obtain ⟨x, hx⟩ := t2_value_int hw (n2 hf) (d + 2) τ
        (by rw [show d + 2 + m + 1 = d + m + 3 by omega]; exact h1)
      exact ⟨x, by rw [← h2, hx]⟩) (d + m)
    refine ⟨υ, ?_, h3.onlySet g2⟩
    rw [assign]
    rcases ty_cases (σ.cell from_) with ⟨hn, hty | hty⟩ | ⟨r, hr, -⟩ | ⟨hty, -⟩
    · simp only [(place_ty hp).1, hty, h1, res_bind_ok, (place_ty hp').2, if_true, g1]
    · simp only [(place_ty hp).1, hty, h1, res_bind_ok, (place_ty hp').2, if_true, g1]
    · exact absurd hr (hnr r)
    · simp only [(place_ty hp).1, hty, h1, res_bind_ok, (place_ty hp').2, if_true, g1]
  intro m
  induction m with
  | zero =>
    intro σ to from_ t w hto hf hp hw d
    refine direct hto hf hp hw ?_ d
    intro r hr
    obtain ⟨j, hj, -⟩ := reads_ref hw hr
    omega
  | succ m ih =>
    intro σ to from_ t w hto hf hp hw d
    by_cases hr : ∃ r, σ.cell from_ = .ref r
    · obtain ⟨r, hr⟩ := hr
      obtain ⟨j, hj, hreal, hread⟩ := reads_ref hw hr
      cases hj
      obtain ⟨υ, g1, g2⟩ := ih hto hreal hp hread d
      refine ⟨υ, ?_, g2⟩
      show assign E (d + m + 4 + 1) σ to from_ = _
      rw [assign]
      simp only [hr, ty_ref, (place_ty hp).1]
      exact g1
    · exact direct hto hf hp hw (fun r h => hr ⟨r, h⟩) d

/-! ### Concrete cases -/

/-- A float interpretation for the examples (the operations are irrelevant). -/
def demoEnv : Env where
  ofInt w := w
  fadd a b := a + b
  fsub a b := a - b
  fmul a b := a * b
  fdiv a b := a / b
  fneg a := 0 - a
  fnonzero w := w != 0
  flt a b := a.slt b
  feq a b := a == b
  hashObj _ _ _ := 7
  asStr _ _ _ := [48]

/-- Cells 0,1,2 are stack slots; 10.. are variables. -/
def demo (f : Addr → Val) (o : Nat → Obj) : St :=
  { cell := f, obj := o, next := 100, rawMem := fun _ _ => 0 }

/-- Stack slot 0 refers to variable 10 = 5, slot 1 is element 2 of the array in variable 11
= [1,2,INT_MIN]; the operand reads `INT_MIN` and `5 - INT_MIN` wraps. -/
def demoArr : St := demo
  (fun | .cell 0 => .ref (.cell 10) | .cell 10 => .int 5 | .cell 1 => .mem (.cell 11) 2
       | .cell 11 => .arr 0 | .elem 0 0 => .int 1 | .elem 0 1 => .int 2
       | .elem 0 2 => .int 0x80000000#32 | .cell 2 => .mem (.cell 11) 1
       | _ => .other)
  (fun | 0 => .vals 3 | _ => .other)

theorem demoArr_reads0 : Reads demoArr false 1 (.cell 0) (.int 5) :=
  .ref (r := .cell 10) rfl rfl (.here (a := .cell 10) rfl)

theorem demoArr_reads1 : Reads demoArr true 1 (.cell 1) (.int 0x80000000#32) :=
  .velem (s := 2) (o := 0) (n := 3) rfl rfl (b := .cell 11) rfl rfl rfl (by decide) rfl

/-- C11 applies to `variable - array element` with a wrapping result. -/
example : ∃ τ w, binary demoEnv .sub 5 demoArr (.cell 0) (.cell 1) (.cell 1) = .ok τ ∧
    w.toInt = -2147483643 ∧ OnlySet demoArr τ (.cell 1) (.int w) := by
  obtain ⟨τ, w, h1, h2, h3⟩ := C11_int_arithmetic_wraps demoEnv .sub (by decide) (tgt := .cell 1)
    rfl rfl demoArr_reads0 demoArr_reads1 0
  exact ⟨τ, w, h1, h2.trans (by decide), h3⟩

/-- C12 applies to the same operands. -/
example : ∃ τ w, binary demoEnv .div 5 demoArr (.cell 1) (.cell 0) (.cell 0) = .ok τ ∧
    w.toInt = -429496729 ∧ OnlySet demoArr τ (.cell 0) (.int w) := by
  obtain ⟨τ, w, h1, h2, h3⟩ := C12_division_partial demoEnv (tgt := .cell 0)
    rfl rfl demoArr_reads1 demoArr_reads0 (by decide) 0
  exact ⟨τ, w, h1, h2.trans (by decide), h3⟩

/-- C13 applies to the same operands. -/
example : ∃ τ, compare demoEnv .gt 5 demoArr (.cell 0) (.cell 1) = .ok (τ, true) ∧
    SameReal demoArr τ := by
  obtain ⟨τ, h1, h2⟩ := C13_comparison_partial demoEnv .gt rfl rfl demoArr_reads0 demoArr_reads1
    (.inr (by decide)) 0
  exact ⟨τ, h1, h2⟩

/-- C14 applies to `x -= a[2]`. -/
example : ∃ τ, compound demoEnv .sub 4 demoArr (.cell 0) (.cell 1) = .ok τ ∧
    τ.cell (.cell 10) = .int 0x80000005#32 ∧ Touched demoArr τ (.cell 10) (.cell 1) := by
  obtain ⟨⟨τ, h1, h2, -, h3⟩, -⟩ := C14_compound_assignment_partial demoEnv .sub (σ := demoArr)
    (to := .cell 0) (t := .cell 10) (from_ := .cell 1) rfl rfl rfl (by decide) (by decide) rfl rfl
    demoArr_reads1 rfl (by intro r r' h; cases h) (x := .int 0x80000005#32) (by decide)
    (by intro h; cases h) 0
  exact ⟨τ, h1, h2, h3⟩

/-- C48 applies to `a[1] = a[2]`. -/
example : ∃ τ, assign demoEnv 5 demoArr (.cell 2) (.cell 1) = .ok τ ∧
    OnlySet demoArr τ (.elem 0 1) (.int 0x80000000#32) :=
  C48_assignment_to_element demoEnv rfl rfl
    (.elem (s := 1) (o := 0) (n := 3) rfl (b := .cell 11) rfl rfl rfl (by decide)) demoArr_reads1 0

/-! ### Counterexamples -/

/-- C12 fails: `INT_MIN / -1` is undefined behaviour, in every state and for every target. -/
theorem C12_int_min_divided_by_minus_one (E : Env) (σ : St) (to from_ tgt : Addr)
    (ha : σ.cell to = .int 0x80000000#32) (hb : σ.cell from_ = .int 0xFFFFFFFF#32) (f : Nat) :
    binary E .div (f + 1) σ to from_ tgt = .ub := by
  simp [binary, disp, ha, hb, Val.ty, binTable, stdTable, leafT, Val.bits, idiv]

/-- C12 fails: `a % 0` is undefined behaviour. -/
theorem C12_modulo_zero (E : Env) (σ : St) (to from_ tgt : Addr) (a : Word32)
    (ha : σ.cell to = .int a) (hb : σ.cell from_ = .int 0) (f : Nat) :
    binary E .mod (f + 1) σ to from_ tgt = .ub := by
  simp [binary, disp, ha, hb, Val.ty, binTable, intTable, leafT, Val.bits, imod]

/-- C12 fails: `a[i] % x` with `x` a variable reads the element designator as an integer. -/
theorem C12_element_modulo_variable :
    binary demoEnv .mod 9 demoArr (.cell 2) (.cell 0) (.cell 0) = .ub := rfl

/-- C13 fails: after `x < 1.5` with `x` an integer variable, `x` is no longer that integer:
its bits are reinterpreted as a float. -/
theorem C13_int_variable_retyped (E : Env) (op : CmpOp) (hop : op ∈ [.lt, .gt, .land, .lor])
    (σ : St) (to t from_ : Addr) (x y : Word32) (h0 : σ.cell to = .ref t) (h1 : σ.cell t = .int x)
    (h2 : σ.cell from_ = .float y) (f : Nat) :
    ∃ τ r, compare E op (f + 2) σ to from_ = .ok (τ, r) ∧ τ.cell t = .float x := by
  simp only [List.mem_cons, List.not_mem_nil, or_false] at hop
  rcases hop with rfl | rfl | rfl | rfl
  all_goals
    simp [compare, disp, h0, h1, h2, Val.ty, cmpTable, stdTable, leafCIF, Val.bits,
      Val.retypeFloat]

/-- The answer of such a comparison is nevertheless the right one, provided that a converted integer is zero
only if the integer is. -/
theorem C13_mixed_answer (E : Env) (hE : ∀ a, E.fnonzero (E.ofInt a) = (a != 0#32)) (op : CmpOp) (σ : St)
    (to t from_ : Addr) (x y : Word32) (h0 : σ.cell to = .ref t) (h1 : σ.cell t = .int x)
    (h2 : σ.cell from_ = .float y) (f : Nat) :
    ∃ τ, compare E op (f + 2) σ to from_ = .ok (τ, cmpSpec E op (.int x) (.float y)) := by
  cases op
  all_goals
    simp [compare, disp, h0, h1, h2, Val.ty, cmpTable, stdTable, leafC, leafCIF, Val.bits, cmpSpec, toFloat, hE]

/-- `7 && 1.0`, the integer a variable. -/
example : ∃ τ, compare demoEnv .land 2 ((demoArr.set (.cell 10) (.int 7)).set (.cell 11) (.float 1#32)) (.cell 0) (.cell 11)
    = .ok (τ, true) := ⟨_, rfl⟩

/-- C14 fails for a container element on the left: after `a[1] -= x` the variable `x`
(5 before) holds the result too. -/
theorem C14_element_target_overwrites_operand :
    ∃ τ, compound demoEnv .sub 9 demoArr (.cell 2) (.cell 0) = .ok τ ∧
      τ.cell (.elem 0 1) = .int (0 - 3) ∧ τ.cell (.cell 10) = .int (0 - 3) :=
  ⟨_, rfl, by decide +kernel, by decide +kernel⟩

/-- C14 fails for two container elements: `a[1] -= a[2]` stores 0 whatever they hold,
because both values are taken in the same static temporary. -/
theorem C14_element_minus_element (x y : Word32) :
    let σ := (demoArr.set (.elem 0 1) (.int x)).set (.elem 0 2) (.int y)
    ∃ τ, compound demoEnv .sub 9 σ (.cell 2) (.cell 1) = .ok τ ∧
      τ.cell (.elem 0 1) = .int (x - x) :=
  ⟨_, rfl, rfl⟩

/-- C14 fails for `*=` on overflow: `x *= y` is undefined where `x * y` wraps. -/
theorem C14_multiply_assign_overflow (E : Env) (σ : St) (to from_ t : Addr)
    (h0 : σ.cell to = .ref t) (h1 : σ.cell t = .int 0x10000#32)
    (h2 : σ.cell from_ = .int 0x10000#32) (f : Nat) :
    compound E .mul (f + 2) σ to from_ = .ub := by
  simp [compound, adisp, h0, h1, h2, Val.ty, assignTable, astd, aII, Val.bits, imulAssign]

/-- C48 fails for characters of a string: `s[1] = x` leaves the string unchanged, in every
state (the value goes to a static temporary). -/
theorem C48_string_element_assignment_lost (E : Env) (σ : St) (to from_ b : Addr) (s o : Nat)
    (bs : List Byte) (nc : Bool) (w : Word32)
    (h1 : σ.cell to = .mem b s) (h2 : b.real = true)
    (h3 : σ.cell b = .arr o) (h4 : σ.obj o = .chars bs nc) (h5 : s < bs.length)
    (h6 : from_.real = true) (h7 : σ.cell from_ = .int w) (f : Nat) :
    ∃ τ, assign E (f + 4) σ to from_ = .ok τ ∧ SameReal σ τ := by
  have hs : bs[s]? = some bs[s] := List.getElem?_eq_getElem h5
  have hf2 : from_ ≠ .t2 := n2 h6
  have hb2 : b ≠ .t2 := n2 h2
  simp [assign, h1, h7, Val.ty, deref, isMember, valueToEx, h3, h4, St.set_ne, hf2, hb2, hs]
  exact (sameReal_set _ _ rfl).trans ((sameReal_set _ _ rfl).trans (sameReal_set _ _ rfl))

end Wrench.Ops
