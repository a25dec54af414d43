import Verif.Std.Math

/-
Claims about the `math::` library and library calls: C94, C96, C97.
-/
namespace Wrench.MathLib

/-- A library function that keeps the stack pointer and writes at most the slot at the top and the
error; `r` is what it leaves in the slot and `e` the error, given the stack it is called with. -/
def Leaves (f : Lib) (m : Mach) (argn : Nat) (r : Val) (e : Byte) : Prop :=
  ∃ m', f m argn = some m' ∧ m'.top = m.top ∧ m'.err = e ∧ m'.stack m.top = r ∧
    ∀ j, j ≠ m.top → m'.stack j = m.stack j

theorem put_stack (m : Mach) (i : Int) (v : Val) (j : Int) :
    (m.put i v).stack j = if j = i then v else m.stack j := rfl

theorem put_top (m : Mach) (i : Int) (v : Val) : (m.put i v).top = m.top := rfl

theorem put_err (m : Mach) (i : Int) (v : Val) : (m.put i v).err = m.err := rfl

/-- `m` with its `n` uppermost values replaced by `r`. -/
def Replaced (m : Mach) (n : Nat) (r : Val) (m' : Mach) : Prop :=
  m'.top = m.top - n + 1 ∧ m'.stack (m.top - n) = r ∧ ∀ j, j < m.top - n → m'.stack j = m.stack j

/-- **A library call replaces its arguments by one result**, for any number of arguments (also none),
in the compact and in the ordinary build, and leaves what is below alone; the function sees its result
slot cleared. -/
theorem C96_library_call (compact : Bool) (limit : Int) (f : Lib) (n : Nat) (m : Mach) (r : Val)
    (hf : Leaves f (m.put m.top (.int 0#32)) n r 0#8) (hl : m.top - n + 1 < limit) :
    ∃ m', callLib compact limit f n m = some (.go m') ∧ Replaced m n r m' ∧ m'.err = 0#8 := by
  obtain ⟨m1, h1, h2, h3, h4, h5⟩ := hf
  simp only [put_top] at h2 h4 h5
  unfold callLib
  rw [h1]
  cases compact
  · by_cases g : n = 0
    · subst g
      simp only [Bool.false_eq_true, if_false, ne_eq, not_true_eq_false, h3, checkStack, h2]
      rw [if_neg (by simp at hl; omega)]
      refine ⟨_, rfl, ⟨by simp, by simpa using h4, ?_⟩, rfl⟩
      intro j hj
      have : j ≠ m.top := by simp at hj; omega
      rw [h5 j this, put_stack, if_neg this]
    · simp only [Bool.false_eq_true, if_false, ne_eq, g, not_false_eq_true, if_true, put_err, h3, checkStack, h2,
        put_top, not_true_eq_false]
      rw [if_neg (by omega)]
      refine ⟨_, rfl, ⟨by simp only [put_top]; omega, ?_, ?_⟩, rfl⟩
      · rw [put_stack, if_pos (by omega)]
        rw [show m.top - ((n : Int) - 1) + ((n : Int) - 1) = m.top by omega]
        exact h4
      · intro j hj
        rw [put_stack, if_neg (by omega)]
        have : j ≠ m.top := by omega
        rw [h5 j this, put_stack, if_neg this]
  · simp only [if_true, put_err, h3, ne_eq, not_true_eq_false, if_false, checkStack, h2, put_top]
    rw [if_neg (by omega)]
    refine ⟨_, rfl, ⟨by simp only [put_top]; omega, ?_, ?_⟩, rfl⟩
    · rw [put_stack, if_pos (by omega)]
      rw [show m.top - ((n : Int) - 1) + ((n : Int) - 1) = m.top by omega]
      exact h4
    · intro j hj
      rw [put_stack, if_neg (by omega)]
      have : j ≠ m.top := by omega
      rw [h5 j this, put_stack, if_neg this]

/-- **A library call whose result is not used** drops its arguments and leaves what is below alone. -/
theorem C96_library_call_dropped (f : Lib) (n : Nat) (m : Mach) (r : Val) (hf : Leaves f m n r 0#8) :
    ∃ m', callLibPop f n m = some (.go m') ∧ m'.top = m.top - n ∧ m'.err = 0#8 ∧
      ∀ j, j < m.top - n → m'.stack j = m.stack j := by
  obtain ⟨m1, h1, h2, h3, h4, h5⟩ := hf
  unfold callLibPop
  rw [h1]
  simp only [h3, ne_eq, not_true_eq_false, if_false]
  exact ⟨_, rfl, by simp only [h2], rfl, fun j hj => h5 j (by omega)⟩

/-- **An error set by a library function stops the script there**, used or not. -/
theorem C96_error_stops (compact : Bool) (limit : Int) (f : Lib) (n : Nat) (m : Mach) (r : Val) (e : Byte)
    (he : e ≠ 0#8) (code : List Instr) :
    (Leaves f (m.put m.top (.int 0#32)) n r e →
      ∃ m', run compact limit (.lib f n :: code) m = some (.stop m') ∧ m'.err = e) ∧
    (Leaves f m n r e →
      ∃ m', run compact limit (.libPop f n :: code) m = some (.stop m') ∧ m'.err = e) := by
  constructor
  · rintro ⟨m1, h1, h2, h3, h4, h5⟩
    simp only [run, step, callLib, h1]
    cases compact
    · by_cases g : n = 0
      · subst g
        simp [h3, he]
      · simp [h3, he, g, put_err]
    · simp [h3, he, put_err]
  · rintro ⟨m1, h1, h2, h3, h4, h5⟩
    simp [run, step, callLibPop, h1, h3, he]

/-! ### The functions of the math library -/

theorem retype_int (E : Env) (w : Word32) : retypeFloat E (.int w) = .float w := rfl

/-- The machine with the arguments `l` pushed (first argument lowest). -/
def pushed (m : Mach) : List Val → Mach
  | [] => m
  | v :: l => pushed { m.put m.top v with top := m.top + 1 } l

/-- **A one-argument function** gets its argument as a float; any other number of arguments gives
the float zero. -/
theorem C94_one_argument (E : Env) (f : Fn1) (m : Mach) (a : Val) (he : m.err = 0#8)
    (compact : Bool) (limit : Int) (hl : m.top + 1 < limit) :
    ∃ m', run compact limit [.push a, .lib (math1 E f) 1] m = some (.go m') ∧
      Replaced m 0 (.float (E.c1 f (asFloat E a))) m' ∧ m'.err = 0#8 := by
  have hp : step compact limit m (.push a) = some (.go { m.put m.top a with top := m.top + 1 }) := by
    simp only [step, checkStack]
    rw [if_neg (by show ¬ m.top + 1 ≥ limit; omega)]
  have hf : Leaves (math1 E f) ((({ m.put m.top a with top := m.top + 1 } : Mach)).put (m.top + 1) (.int 0#32)) 1
      (.float (E.c1 f (asFloat E a))) 0#8 := by
    refine ⟨_, rfl, rfl, he, ?_, ?_⟩
    · simp only [put_stack, put_top, if_true]
      rw [if_neg (by omega), if_neg (by omega), if_pos (by omega)]
    · intro j hj
      simp only [put_top] at hj
      simp only [put_stack, put_top]
      rw [if_neg hj, if_neg hj]
  obtain ⟨m', h1, ⟨h2, h3, h4⟩, h5⟩ := C96_library_call compact limit (math1 E f) 1
    { m.put m.top a with top := m.top + 1 } _ hf (by show m.top + 1 - (1 : Nat) + 1 < limit; omega)
  refine ⟨m', ?_, ⟨by simp only at h2; omega, ?_, ?_⟩, h5⟩
  · simp only [run, hp]
    have : step compact limit { m.put m.top a with top := m.top + 1 } (.lib (math1 E f) 1) = some (.go m') := h1
    simp only [step] at this ⊢
    rw [this]
  · simpa using h3
  · intro j hj
    rw [h4 j (by show j < m.top + 1 - (1 : Nat); omega)]
    simp only [put_stack]
    rw [if_neg (by omega)]

/-- What the C function is given for the arguments `a`, `b` in this order. -/
def ordered (E : Env) (f : Fn2) (a b : Val) : Word32 :=
  E.c2 f (asFloat E a) (if f = .ldexp then asInt E b else asFloat E b)

/-- **A two-argument function gets its arguments in the opposite order**: `math::pow( a, b )` is
`powf( b, a )`. -/
theorem C94_two_arguments_partial (E : Env) (f : Fn2) (m : Mach) (a b : Val) (he : m.err = 0#8)
    (compact : Bool) (limit : Int) (hl : m.top + 2 < limit) :
    ∃ m', run compact limit [.push a, .push b, .lib (math2 E f) 2] m = some (.go m') ∧
      Replaced m 0 (.float (ordered E f b a)) m' ∧ m'.err = 0#8 := by
  have hp : ∀ (m : Mach) v, m.top + 1 < limit →
      step compact limit m (.push v) = some (.go { m.put m.top v with top := m.top + 1 }) := by
    intro m v h
    simp only [step, checkStack]
    rw [if_neg (by show ¬ m.top + 1 ≥ limit; omega)]
  have hp1 := hp m a (by omega)
  have hp2 := hp { m.put m.top a with top := m.top + 1 } b (by show m.top + 1 + 1 < limit; omega)
  have hf : Leaves (math2 E f) ((pushed m [a, b]).put (m.top + 2) (.int 0#32)) 2
      (.float (ordered E f b a)) 0#8 := by
    refine ⟨_, rfl, rfl, he, ?_, ?_⟩
    · simp only [put_stack, put_top, pushed, ordered]
      have e1 : m.top + 1 + 1 = m.top + 2 := by omega
      have e2 : m.top + 1 + 1 - 1 = m.top + 1 := by omega
      have e3 : m.top + 1 + 1 - 2 = m.top := by omega
      simp only [e2, e3]
      have n1 : ¬ m.top + 1 = m.top + 1 + 1 := by omega
      have n2 : ¬ m.top + 1 = m.top + 2 := by omega
      have n3 : ¬ m.top = m.top + 1 + 1 := by omega
      have n4 : ¬ m.top = m.top + 2 := by omega
      have n5 : ¬ m.top = m.top + 1 := by omega
      simp only [n1, n2, n3, n4, n5, if_false, if_true]
    · intro j hj
      simp only [put_top, pushed] at hj
      simp only [put_stack, put_top, pushed]
      rw [if_neg hj, if_neg hj]
  have e0 : (pushed m [a, b]).top = m.top + 2 := by simp only [pushed]; omega
  obtain ⟨m', h1, ⟨h2, h3, h4⟩, h5⟩ := C96_library_call compact limit (math2 E f) 2
    (pushed m [a, b]) _ (by rw [e0]; exact hf) (by rw [e0]; omega)
  rw [e0] at h2 h3 h4
  refine ⟨m', ?_, ⟨by omega, ?_, ?_⟩, h5⟩
  · simp only [run, hp1, hp2]
    have : step compact limit (pushed m [a, b]) (.lib (math2 E f) 2) = some (.go m') := h1
    simp only [step, pushed] at this ⊢
    rw [this]
  · rw [← h3]; congr 1; omega
  · intro j hj
    rw [h4 j (by omega)]
    simp only [put_stack, pushed, put_top]
    rw [if_neg (by omega), if_neg (by omega)]

/-- A library whose `powf` is the power of small whole numbers kept as such. -/
def demoEnv : Env :=
  { ofInt := id, toInt := id, intOf := fun _ => 0#32, floatOf := fun _ => 0#32, payload := fun _ => 0#32,
    c1 := fun _ x => x, c2 := fun _ x y => BitVec.ofNat 32 (x.toNat ^ y.toNat) }

/-- **`math::pow( 2, 3 )` is `9`**, not `8`. -/
theorem C94_pow_reversed :
    ∃ m', run false 10 [.push (.int 2#32), .push (.int 3#32), .lib (math2 demoEnv .pow) 2]
        ⟨fun _ => .other 0, 0, 0#8⟩ = some (.go m') ∧ m'.stack 0 = .float 9#32 ∧
      ordered demoEnv .pow (.int 2#32) (.int 3#32) = 8#32 :=
  ⟨_, rfl, by decide, by decide⟩

/-- With another number of arguments than two the result is the float zero. -/
theorem C94_wrong_count (E : Env) (m : Mach) (n : Nat) (he : m.err = 0#8) :
    (n ≠ 1 → ∀ f, Leaves (math1 E f) (m.put m.top (.int 0#32)) n (.float 0#32) 0#8) ∧
    (n ≠ 2 → ∀ f, Leaves (math2 E f) (m.put m.top (.int 0#32)) n (.float 0#32) 0#8) := by
  have key : ((m.put m.top (.int 0#32)).put m.top (retypeFloat E ((m.put m.top (.int 0#32)).stack m.top))).stack
      m.top = .float 0#32 := by
    simp [put_stack, retypeFloat]
  have oth : ∀ j, j ≠ m.top → ((m.put m.top (.int 0#32)).put m.top
      (retypeFloat E ((m.put m.top (.int 0#32)).stack m.top))).stack j = (m.put m.top (.int 0#32)).stack j := by
    intro j hj
    simp only [put_stack]
    rw [if_neg hj]
  exact ⟨fun h f => ⟨_, if_neg h, rfl, he, key, oth⟩, fun h f => ⟨_, if_neg h, rfl, he, key, oth⟩⟩

/-! ### `math::iscale` -/

theorem product_bounds (a b : Int) (ha : -2147483648 ≤ a ∧ a ≤ 2147483647)
    (hb : -2147483648 ≤ b ∧ b ≤ 2147483647) :
    -4611686018427387904 ≤ a * b ∧ a * b ≤ 4611686018427387904 := by
  have h : (a * b).natAbs ≤ 2147483648 * 2147483648 := by
    rw [Int.natAbs_mul]
    exact Nat.mul_le_mul (by omega) (by omega)
  omega

/-- The whole part of a quotient, without the division of the model: what is left over is smaller than
the divisor and has the sign of the dividend. -/
def Quotient (p d q : Int) : Prop :=
  ∃ r, p = q * d + r ∧ r.natAbs < d.natAbs ∧ (0 ≤ p → 0 ≤ r) ∧ (p ≤ 0 → r ≤ 0)

/-- **`math::iscale( a, b, d )`** never overflows on the way: the result is the whole part of
`a * b / d`, computed as if there were no bounds, if that is an int, and its low 32 bits otherwise;
dividing by zero gives zero. -/
theorem C97_iscale (E : Env) (m : Mach) (a b d : Val) (he : m.err = 0#8)
    (hs : m.stack m.top = .int 0#32) (h0 : m.stack (m.top - 3) = a) (h1 : m.stack (m.top - 2) = b)
    (h2 : m.stack (m.top - 1) = d) :
    ∃ w, Leaves (intScale E) m 3 (.int w) 0#8 ∧
      (asInt E d = 0#32 → w = 0#32) ∧
      (asInt E d ≠ 0#32 → ∃ q, Quotient ((asInt E a).toInt * (asInt E b).toInt) (asInt E d).toInt q ∧
        w = BitVec.ofInt 32 q ∧ (-2147483648 ≤ q → q ≤ 2147483647 → w.toInt = q)) := by
  have hst : ∀ w, storeInt m w = m.put m.top (.int w) := by
    intro w
    unfold storeInt
    rw [hs]
  have hl : ∀ (w : Word32), intScale E m 3 = some (m.put m.top (.int w)) →
      Leaves (intScale E) m 3 (.int w) 0#8 := by
    intro w hw
    refine ⟨_, hw, rfl, he, by simp [put_stack], fun j hj => by simp [put_stack, hj]⟩
  by_cases g : asInt E d = 0#32
  · refine ⟨0#32, hl _ ?_, fun _ => rfl, fun h => absurd g h⟩
    have e2 : m.top - (3 : Nat) + 2 = m.top - 1 := by omega
    simp only [intScale, e2, h2, g, hst]
    rw [if_pos (by omega), if_neg (by simp)]
  · have bnd : ∀ x : Word32, -2147483648 ≤ x.toInt ∧ x.toInt ≤ 2147483647 := by
      intro x
      have u := BitVec.toInt_lt (x := x)
      have v := BitVec.le_toInt (x := x)
      simp at u v
      omega
    have hd : (asInt E d).toInt ≠ 0 := by
      intro h
      apply g
      apply BitVec.eq_of_toInt_eq
      simpa using h
    have hp := product_bounds _ _ (bnd (asInt E a)) (bnd (asInt E b))
    generalize hpe : (asInt E a).toInt * (asInt E b).toInt = p at hp
    generalize hde : (asInt E d).toInt = dv at hd
    have hq : (p.tdiv dv).natAbs ≤ p.natAbs := by
      rw [Int.natAbs_tdiv]
      exact Nat.div_le_self _ _
    have f1 : fits64 p = true := by simp [fits64]; omega
    have f2 : fits64 (p.tdiv dv) = true := by simp [fits64]; omega
    refine ⟨BitVec.ofInt 32 (p.tdiv dv), hl _ ?_, fun h => absurd h g, fun _ => ⟨p.tdiv dv, ?_, rfl, ?_⟩⟩
    · have e0 : m.top - (3 : Nat) = m.top - 3 := by omega
      have e1 : m.top - (3 : Nat) + 1 = m.top - 2 := by omega
      have e2 : m.top - (3 : Nat) + 2 = m.top - 1 := by omega
      simp only [intScale, e1, e2, h1, h2]
      rw [if_pos (by omega), if_pos g, e0, h0, hpe, hde, f1, f2]
      simp [hst]
    · refine ⟨p.tmod dv, ?_, ?_, ?_, ?_⟩
      · have := Int.tdiv_mul_add_tmod p dv
        omega
      · rw [Int.natAbs_tmod]
        exact Nat.mod_lt _ (by omega)
      · intro h
        exact Int.tmod_nonneg dv h
      · intro h
        have h2 : 0 ≤ (-p).tmod dv := Int.tmod_nonneg dv (by omega)
        rw [Int.neg_tmod] at h2
        omega
    · intro l u
      rw [BitVec.toInt_ofInt]
      have : (p.tdiv dv).bmod (2 ^ 32) = p.tdiv dv := Int.bmod_eq_of_le (by omega) (by omega)
      exact this

/-- With fewer than three arguments the result is zero. -/
theorem C97_iscale_few (E : Env) (m : Mach) (argn : Nat) (ha : argn ≤ 2) (he : m.err = 0#8)
    (hs : m.stack m.top = .int 0#32) : Leaves (intScale E) m argn (.int 0#32) 0#8 := by
  refine ⟨_, if_neg (by omega), ?_⟩
  unfold storeInt
  rw [hs]
  exact ⟨rfl, he, by simp [put_stack], fun j hj => by simp [put_stack, hj]⟩

example (E : Env) : Leaves (intScale E) ⟨fun _ => .int 0#32, 2, 0#8⟩ 2 (.int 0#32) 0#8 :=
  C97_iscale_few E _ 2 (by decide) rfl rfl

/-- A case: one third of a product that does not fit in 32 bits. -/
theorem C97_iscale_demo :
    ∃ m', run false 10 [.push (.int 2000000000#32), .push (.int 3000#32), .push (.int (BitVec.ofInt 32 (-4000))),
        .lib (intScale demoEnv) 3] ⟨fun _ => .other 0, 0, 0#8⟩ = some (.go m') ∧
      m'.stack 0 = .int (BitVec.ofInt 32 (-1500000000)) := ⟨_, rfl, by decide⟩

/-! ### `sys::halt` -/

theorem halt_leaves (E : Env) (m : Mach) (a : Val) (ha : m.stack (m.top - 1) = a) :
    Leaves (halt E) m 1 (m.stack m.top)
      (if (asInt E a).toNat ≤ wrUser ∨ (asInt E a).toNat > wrLast then wrOutOfRange
        else BitVec.ofNat 8 (asInt E a).toNat) := by
  subst ha
  exact ⟨_, rfl, rfl, rfl, rfl, fun _ _ => rfl⟩

/-- **`sys::halt( e )`** stops the script at the call, whatever follows; the host then finds `e` if it
lies above `WR_USER` and not above `WR_ERR_LAST`, and `WR_ERR_USER_err_out_of_range` otherwise. -/
theorem C96_halt (E : Env) (m : Mach) (a : Val) (compact : Bool) (limit : Int) (hl : m.top + 1 < limit)
    (used : Bool) (code : List Instr) :
    ∃ m', run compact limit
        (.push a :: (if used then .lib (halt E) 1 else .libPop (halt E) 1) :: code) m = some (.stop m') ∧
      (100 < (asInt E a).toInt → (asInt E a).toInt ≤ 255 → (m'.err.toNat : Int) = (asInt E a).toInt) ∧
      (¬ (100 < (asInt E a).toInt ∧ (asInt E a).toInt ≤ 255) → m'.err = wrOutOfRange) := by
  have hp : step compact limit m (.push a) = some (.go { m.put m.top a with top := m.top + 1 }) := by
    simp only [step, checkStack]
    rw [if_neg (by show ¬ m.top + 1 ≥ limit; omega)]
  let e : Byte := if (asInt E a).toNat ≤ wrUser ∨ (asInt E a).toNat > wrLast then wrOutOfRange
    else BitVec.ofNat 8 (asInt E a).toNat
  have hint := BitVec.toInt_eq_toNat_cond (x := asInt E a)
  have hlt := (asInt E a).isLt
  have he : e ≠ 0#8 := by
    show (if _ then _ else _) ≠ _
    split
    · decide
    · rename_i h
      simp only [wrUser, wrLast, not_or] at h
      intro h0
      have := congrArg BitVec.toNat h0
      simp only [BitVec.toNat_ofNat] at this
      omega
  have l1 : Leaves (halt E) (({ m.put m.top a with top := m.top + 1 } : Mach).put (m.top + 1) (.int 0#32)) 1
      (.int 0#32) e := by
    have := halt_leaves E (({ m.put m.top a with top := m.top + 1 } : Mach).put (m.top + 1) (.int 0#32)) a
      (by simp only [put_stack, put_top]
          rw [if_neg (by omega), if_pos (by omega)])
    simp only [put_stack, put_top, if_true] at this
    exact this
  have l2 : Leaves (halt E) ({ m.put m.top a with top := m.top + 1 } : Mach) 1
      ((m.put m.top a).stack (m.top + 1)) e :=
    halt_leaves E ({ m.put m.top a with top := m.top + 1 } : Mach) a
      (by simp only [put_stack]
          rw [if_pos (by omega)])
  have fin : ∀ m' : Mach, m'.err = e →
      (100 < (asInt E a).toInt → (asInt E a).toInt ≤ 255 → (m'.err.toNat : Int) = (asInt E a).toInt) ∧
      (¬ (100 < (asInt E a).toInt ∧ (asInt E a).toInt ≤ 255) → m'.err = wrOutOfRange) := by
    intro m' hm
    rw [hm]
    show (_ → _ → (((if _ then _ else _ : Byte)).toNat : Int) = _) ∧ (_ → (if _ then _ else _ : Byte) = _)
    constructor
    · intro h1 h2
      have : ¬ ((asInt E a).toNat ≤ wrUser ∨ (asInt E a).toNat > wrLast) := by
        simp only [wrUser, wrLast]
        split at hint <;> omega
      rw [if_neg this]
      simp only [wrUser, wrLast, not_or] at this
      simp only [BitVec.toNat_ofNat]
      split at hint <;> omega
    · intro h
      rw [if_pos]
      simp only [wrUser, wrLast]
      split at hint <;> omega
  cases used
  · obtain ⟨m', h1, h2⟩ := (C96_error_stops compact limit (halt E) 1
      { m.put m.top a with top := m.top + 1 } _ e he code).2 l2
    refine ⟨m', ?_, fin m' h2⟩
    rw [← h1]
    simp only [run, hp]
    rfl
  · obtain ⟨m', h1, h2⟩ := (C96_error_stops compact limit (halt E) 1
      { m.put m.top a with top := m.top + 1 } _ e he code).1 l1
    refine ⟨m', ?_, fin m' h2⟩
    rw [← h1]
    simp only [run, hp]
    rfl

/-- A native function whose own call into the script failed with error 31. -/
def failing : Lib := fun m _ => some { m with err := 31#8 }

/-- **An error left by a native function surfaces later**: the script carries on after the native
function, and is stopped by the next library call, which did nothing wrong. -/
theorem C96_error_surfaces_later (E : Env) (m : Mach) (b : Val) (limit : Int) (hl : m.top + 2 < limit)
    (code : List Instr) :
    ∃ m', run false limit (.native failing 0 :: .push b :: .lib (math1 E .sin) 1 :: code) m = some (.stop m') ∧
      m'.err = 31#8 := by
  have h1 : ¬ m.top + 1 ≥ limit := by omega
  have h2 : ¬ m.top + 1 + 1 ≥ limit := by omega
  simp [run, step, callNative, failing, checkStack, put_top, h1, h2, callLib, math1, put_err]

end Wrench.MathLib
