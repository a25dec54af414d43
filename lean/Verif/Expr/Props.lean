import Verif.Expr.Compile

/-
C28 (expressions evaluate according to precedence and associativity) and C45 (the stack
shuffle instructions are the intended permutations).
-/
namespace Wrench.Expr

variable {V : Type} {I : Interp V}

/-! ### The specification is unambiguous -/

theorem ops_le (T : Tree V) : T.ok → ∀ x, Item.o x ∈ front 0 T → x.prec ≤ T.level := by
  induction T with
  | leaf v => intro _ x h; simp [front] at h
  | pre u t ih =>
    intro hok x h
    simp only [front, if_neg (show ¬ 3 ≤ 0 by omega), List.mem_cons, Item.o.injEq] at h
    have := hok.2
    rcases h with rfl | h
    · simp [Oper.prec, Tree.level]
    · have := ih hok.1 x h
      simp only [Tree.level]; omega
  | post q t ih =>
    intro hok x h
    simp only [front, if_neg (show ¬ 2 ≤ 0 by omega), List.mem_append, List.mem_singleton, Item.o.injEq] at h
    have := hok.2
    rcases h with h | rfl
    · have := ih hok.1 x h
      simp only [Tree.level]; omega
    · simp [Oper.prec, Tree.level]
  | bin b l r ihl ihr =>
    intro hok x h
    have h5 := b.prec_ge
    obtain ⟨hokl, hokr, hll, hlr⟩ := hok
    simp only [front, if_neg (show ¬ b.prec ≤ 0 by omega), List.mem_append, List.mem_cons, Item.o.injEq] at h
    simp only [Tree.level]
    rcases h with h | rfl | h
    · have := ihl hokl x h; omega
    · exact Nat.le_refl _
    · have := ihr hokr x h; omega

theorem bin_mem_level {T : Tree V} (hok : T.ok) {b : Bin} (h : Item.o (.bin b) ∈ front 0 T) : 5 ≤ T.level := by
  have := ops_le T hok _ h
  have := b.prec_ge
  simp only [Oper.prec] at *; omega

theorem front_head {T : Tree V} (hok : T.ok) (h : T.level ≤ 2) : ∃ v xs, front 0 T = .t (.leaf v) :: xs := by
  induction T with
  | leaf v => exact ⟨v, [], rfl⟩
  | pre u t => simp [Tree.level] at h
  | post q t ih =>
    obtain ⟨v, xs, h⟩ := ih hok.1 hok.2
    exact ⟨v, xs ++ [.o (.post q)], by simp [front, h]⟩
  | bin b l r => have := b.prec_ge; simp only [Tree.level] at h; omega

theorem split_unique {l1 r1 l2 r2 : List (Item V)} {b1 b2 : Bin}
    (h : l1 ++ .o (.bin b1) :: r1 = l2 ++ .o (.bin b2) :: r2)
    (hl2 : ∀ x, Item.o x ∈ l2 → x.prec ≤ b2.prec) (hr1 : ∀ x, Item.o x ∈ r1 → x.prec < b1.prec) :
    l2.length ≤ l1.length := by
  rcases Nat.lt_or_ge l1.length l2.length with hlt | hge
  · exfalso
    have e1 : (l2 ++ .o (.bin b2) :: r2)[l1.length]? = some (.o (.bin b1)) := by rw [← h]; simp
    have e2 : (l1 ++ .o (.bin b1) :: r1)[l2.length]? = some (.o (.bin b2)) := by rw [h]; simp
    rw [List.getElem?_append_left hlt] at e1
    rw [List.getElem?_append_right (by omega), show l2.length - l1.length = (l2.length - l1.length - 1) + 1 by omega,
      List.getElem?_cons_succ] at e2
    have h1 := hl2 _ (List.mem_of_getElem? e1)
    have h2 := hr1 _ (List.mem_of_getElem? e2)
    simp only [Oper.prec] at h1 h2
    omega
  · exact hge

theorem front_inj (T1 : Tree V) : T1.ok → ∀ T2 : Tree V, T2.ok → front 0 T1 = front 0 T2 → T1 = T2 := by
  induction T1 with
  | leaf v =>
    intro _ T2 _ h
    have h1 := front_single (p := 0) (T := T2) (by rw [← h]; simp [front])
    rw [h1] at h
    simp only [front, List.cons.injEq, Item.t.injEq, and_true] at h
    exact h
  | pre u t ih =>
    intro hok T2 hok2 h
    cases T2 with
    | leaf v =>
      have := front_length_pos 0 t
      have := congrArg List.length h
      simp only [front, if_neg (show ¬ 3 ≤ 0 by omega), if_neg (show ¬ 2 ≤ 0 by omega), List.length_cons, List.length_append, List.length_nil] at this
      omega
    | pre u2 t2 =>
      simp only [front, if_neg (show ¬ 3 ≤ 0 by omega), List.cons.injEq, Item.o.injEq, Oper.pre.injEq] at h
      rw [h.1, ih hok.1 t2 hok2.1 h.2]
    | post q2 t2 =>
      obtain ⟨v, xs, hx⟩ := front_head hok2.1 hok2.2
      simp [front, hx] at h
    | bin b l r =>
      have h5 := b.prec_ge
      have : Item.o (.bin b) ∈ front 0 (Tree.pre u t) := by
        rw [h]; simp [front, show ¬ b.prec ≤ 0 by omega]
      have := bin_mem_level hok this
      simp [Tree.level] at this
  | post q t ih =>
    intro hok T2 hok2 h
    cases T2 with
    | leaf v =>
      have := front_length_pos 0 t
      have := congrArg List.length h
      simp only [front, if_neg (show ¬ 3 ≤ 0 by omega), if_neg (show ¬ 2 ≤ 0 by omega), List.length_cons, List.length_append, List.length_nil] at this
      omega
    | pre u2 t2 =>
      obtain ⟨v, xs, hx⟩ := front_head hok.1 hok.2
      simp [front, hx] at h
    | post q2 t2 =>
      simp only [front, if_neg (show ¬ 2 ≤ 0 by omega)] at h
      obtain ⟨h1, h2⟩ := List.append_inj' h rfl
      simp only [List.cons.injEq, Item.o.injEq, Oper.post.injEq, and_true] at h2
      rw [ih hok.1 t2 hok2.1 h1, h2]
    | bin b l r =>
      have h5 := b.prec_ge
      have : Item.o (.bin b) ∈ front 0 (Tree.post q t) := by
        rw [h]; simp [front, show ¬ b.prec ≤ 0 by omega]
      have := bin_mem_level hok this
      simp [Tree.level] at this
  | bin b l r ihl ihr =>
    intro hok T2 hok2 h
    have h5 := b.prec_ge
    have hmem : Item.o (.bin b) ∈ front 0 T2 := by
      rw [← h]; simp [front, show ¬ b.prec ≤ 0 by omega]
    have hlev := bin_mem_level hok2 hmem
    cases T2 with
    | leaf v => simp [Tree.level] at hlev
    | pre u t => simp [Tree.level] at hlev
    | post q t => simp [Tree.level] at hlev
    | bin b2 l2 r2 =>
      have h52 := b2.prec_ge
      obtain ⟨hokl, hokr, hll, hlr⟩ := hok
      obtain ⟨hokl2, hokr2, hll2, hlr2⟩ := hok2
      simp only [front, if_neg (show ¬ b.prec ≤ 0 by omega), if_neg (show ¬ b2.prec ≤ 0 by omega)] at h
      have le1 := split_unique h (fun x hx => Nat.le_trans (ops_le l2 hokl2 x hx) hll2)
        (fun x hx => Nat.lt_of_le_of_lt (ops_le r hokr x hx) hlr)
      have le2 := split_unique h.symm (fun x hx => Nat.le_trans (ops_le l hokl x hx) hll)
        (fun x hx => Nat.lt_of_le_of_lt (ops_le r2 hokr2 x hx) hlr2)
      obtain ⟨h1, h2⟩ := List.append_inj h (by omega)
      simp only [List.cons.injEq, Item.o.injEq, Oper.bin.injEq] at h2
      rw [ihl hokl l2 hokl2 h1, h2.1, ihr hokr r2 hokr2 h2.2]

theorem ctx_inj {xs ys : List (Item V)} (hx : ∀ T, Item.t T ∈ xs → ∃ v, T = .leaf v)
    (hy : ∀ T, Item.t T ∈ ys → ∃ v, T = .leaf v) (h : xs.map Item.ctx = ys.map Item.ctx) : xs = ys := by
  induction xs generalizing ys with
  | nil => cases ys with
    | nil => rfl
    | cons y ys => simp at h
  | cons x xs ih =>
    cases ys with
    | nil => simp at h
    | cons y ys =>
      simp only [List.map_cons, List.cons.injEq] at h
      rw [ih (fun T hT => hx T (List.mem_cons_of_mem _ hT)) (fun T hT => hy T (List.mem_cons_of_mem _ hT)) h.2]
      congr 1
      cases x with
      | o a =>
        cases y with
        | o c => have := h.1; simp [Item.ctx] at this; rw [this]
        | t T => obtain ⟨v, rfl⟩ := hy T List.mem_cons_self; have := h.1; simp [Item.ctx] at this
      | t T =>
        obtain ⟨v, rfl⟩ := hx T List.mem_cons_self
        cases y with
        | o c => have := h.1; simp [Item.ctx] at this
        | t T' => obtain ⟨w, rfl⟩ := hy T' List.mem_cons_self; have := h.1; simp [Item.ctx] at this; rw [this]

/-- **C28**: a token sequence is the text of at most one tree that needs no parentheses, so
"the tree determined by the precedence levels and associativity" is well defined. -/
theorem C28_unambiguous (T1 T2 : Tree V) (h1 : T1.ok) (h2 : T2.ok) (h : T1.tokens = T2.tokens) : T1 = T2 := by
  have e1 := toContexts_ok h1
  rw [h, toContexts_ok h2] at e1
  injection e1 with e1
  exact front_inj T1 h1 T2 h2 (ctx_inj (front_zero_leaves T1) (front_zero_leaves T2) e1.symm)

/-! ### The compiled code computes the value of the tree -/

/-- **C28**, partial: for every expression of any length in which at most two operators
have only plain operands, the emitted code pushes exactly the value of the tree on any
stack.  Missing: expressions in which more than two intermediate values may be
pending at once; the compiler is wrong for some of those, see
`C28_miscompiled_sum`, `C28_miscompiled_compare`, `C28_miscompiled_equality`. -/
theorem C28_few_pending_partial (hI : I.Lawful) (T : Tree V) (hok : T.ok) (hb : T.births ≤ 2) :
    ∃ code, compile T.tokens = some code ∧
      ∀ base, run I code base = some (T.eval I :: base) := by
  obtain ⟨code, hc, _⟩ := compile_tree hI hok (by omega) (Or.inr hb) []
  refine ⟨code, hc, fun base => ?_⟩
  obtain ⟨code', hc', hr⟩ := compile_tree hI hok (by omega) (Or.inr hb) base
  rw [hc] at hc'; cases hc'
  exact hr

/-- **C28**, partial: for every expression whose compilation meets no defective operand
placement (both operands already on the stack, the first below the top two places and the
second not directly under the top), and with at most 253 innermost operators (the
operand of the shuffle instructions is a byte). -/
theorem C28_clean_partial (hI : I.Lawful) (T : Tree V) (hok : T.ok) (hb : T.births ≤ 253)
    (hclean : cleanRun (initial T) = true) :
    ∃ code, compile T.tokens = some code ∧
      ∀ base, run I code base = some (T.eval I :: base) := by
  obtain ⟨code, hc, _⟩ := compile_tree hI hok hb (Or.inl hclean) []
  refine ⟨code, hc, fun base => ?_⟩
  obtain ⟨code', hc', hr⟩ := compile_tree hI hok hb (Or.inl hclean) base
  rw [hc] at hc'; cases hc'
  exact hr

/-! ### Concrete cases -/

def b2i (b : Bool) : Int := if b then 1 else 0

/-- Integers with the usual operators (bit operations replaced by min and max). -/
def intI : Interp Int where
  pre := fun u x => match u with
    | .neg => -x | .lnot => b2i (x == 0) | .bnot => -x - 1 | _ => x
  post := fun _ x => x
  bin := fun b x y => match b with
    | .eq => b2i (decide (x = y)) | .ne => b2i (decide (x ≠ y))
    | .ge => b2i (decide (x ≥ y)) | .le => b2i (decide (x ≤ y))
    | .gt => b2i (decide (x > y)) | .lt => b2i (decide (x < y))
    | .land => b2i (x != 0 && y != 0) | .lor => b2i (x != 0 || y != 0)
    | .add => x + y | .sub => x - y | .mul => x * y | .div => x.tdiv y | .mod => x.tmod y
    | .or => max x y | .and => min x y | .xor => 0
    | .shr => x | .shl => y

theorem intI_lawful : intI.Lawful where
  comm := by
    intro b hb x y
    cases b <;> simp [Bin.commute] at hb <;> simp only [intI]
    · simp only [eq_comm]
    · simp only [ne_comm]
    · rw [Bool.and_comm]
    · rw [Bool.or_comm]
    · exact Int.mul_comm _ _
    · exact Int.max_comm _ _
    · exact Int.min_comm _ _
  alt := by
    intro b b' h x y
    cases b <;> simp [Bin.alt] at h <;> subst h <;> rfl

local infixl:65 " +' " => Tree.bin Bin.add
local infixl:65 " -' " => Tree.bin Bin.sub
local infixl:70 " *' " => Tree.bin Bin.mul
local infixl:50 " <' " => Tree.bin Bin.lt
local infixl:50 " >' " => Tree.bin Bin.gt
local infixl:45 " ==' " => Tree.bin Bin.eq
local infixl:35 " &&' " => Tree.bin Bin.land
local infixl:30 " ||' " => Tree.bin Bin.lor
local prefix:max "%" => Tree.leaf (V := Int)
local prefix:75 "-'" => Tree.pre Pre.neg

/-- `10 - 3 - 2 * -7 + 1`: hypotheses of `C28_few_pending_partial` hold. -/
def sample : Tree Int := %10 -' %3 -' %2 *' (-' %7) +' %1

example : sample.ok ∧ sample.births ≤ 2 ∧ sample.eval intI = 22 := by
  refine ⟨?_, by decide, by decide⟩
  simp [sample, Tree.ok, Tree.level, Bin.prec]

/-- Three pending intermediate values, still compiled without a defective placement:
`1*2 + 3*4 + 5*6`. -/
def sample3 : Tree Int := %1 *' %2 +' %3 *' %4 +' %5 *' %6

example : sample3.ok ∧ sample3.births = 3 ∧ cleanRun (initial sample3) = true := by
  refine ⟨?_, by decide, by decide⟩
  simp [sample3, Tree.ok, Tree.level, Bin.prec]

/-- `1*2 - 3*4 + 5*6 - 7*8` -/
def badSum : Tree Int := %1 *' %2 -' %3 *' %4 +' %5 *' %6 -' %7 *' %8

/-- The compiler violates C28: `1*2 - 3*4 + 5*6 - 7*8` evaluates to 16, not -36. -/
theorem C28_miscompiled_sum : badSum.ok ∧ badSum.eval intI = -36 ∧
    (compile badSum.tokens).bind (fun c => run intI c []) = some [16] := by
  refine ⟨?_, by decide, by decide⟩
  simp [badSum, Tree.ok, Tree.level, Bin.prec]

/-- `2*3 < 4+5 && 1*5 > 3` -/
def badCompare : Tree Int := %2 *' %3 <' (%4 +' %5) &&' %1 *' %5 >' %3

/-- The compiler violates C28: `2*3 < 4+5 && 1*5 > 3` evaluates to false. -/
theorem C28_miscompiled_compare : badCompare.ok ∧ badCompare.eval intI = 1 ∧
    (compile badCompare.tokens).bind (fun c => run intI c []) = some [0] := by
  refine ⟨?_, by decide, by decide⟩
  simp [badCompare, Tree.ok, Tree.level, Bin.prec]

/-- `2*3 == 2+4 || 1*5 == 3` -/
def badEquality : Tree Int := %2 *' %3 ==' (%2 +' %4) ||' %1 *' %5 ==' %3

/-- The compiler violates C28: `2*3 == 2+4 || 1*5 == 3` evaluates to false. -/
theorem C28_miscompiled_equality : badEquality.ok ∧ badEquality.eval intI = 1 ∧
    (compile badEquality.tokens).bind (fun c => run intI c []) = some [0] := by
  refine ⟨?_, by decide, by decide⟩
  simp [badEquality, Tree.ok, Tree.level, Bin.prec]

/-- Two prefix operators in a row (`!!x`) are refused: the second is not recognised. -/
theorem C28_double_prefix_refused (v : V) :
    compile [.sym .bang, .sym .bang, .val v] = none := rfl

/-! ### C45 -/

/-- **C45**: `StackSwap n` exchanges the top with the `n`-th value (counting from 1) and
leaves every other position alone; it is defined exactly when the position exists. -/
theorem C45_stack_swap (n : Nat) (st : List V) (h1 : 1 ≤ n) (h2 : n ≤ st.length) :
    ∃ st', exec I (.stackSwap n) st = some st' ∧ st'.length = st.length ∧
      st'[0]? = st[n - 1]? ∧ st'[n - 1]? = st[0]? ∧
      ∀ k, k ≠ 0 → k ≠ n - 1 → st'[k]? = st[k]? := by
  obtain ⟨st', hl, hr, a, b, c⟩ := exists_swap (st := st) (i := 0) (j := n - 1) (by omega) (by omega)
  refine ⟨st', ?_, hl, a, b, c⟩
  have := hr []
  rw [List.append_nil, List.append_nil] at this
  simp only [exec]
  rw [if_neg (by omega), this]

theorem swapAt_perm {i j : Nat} {st st' : List V} (h : swapAt i j st = some st') : st'.Perm st := by
  unfold swapAt at h
  split at h
  · next x y hx hy =>
    injection h with h
    obtain ⟨hi, rfl⟩ := List.getElem?_eq_some_iff.1 hx
    obtain ⟨hj, rfl⟩ := List.getElem?_eq_some_iff.1 hy
    rw [← h]
    exact List.set_set_perm hi hj
  · cases h

example : exec intI (.stackSwap 3) [10, 20, 30, 40] = some [30, 20, 10, 40] := by decide

/-- **C45**, partial: `SwapTwoToTop a b` brings the `a`-th and `b`-th values to the top two
positions and leaves the positions other than 1, 2, `a`, `b` alone, provided `b ≠ 1` and
`a ≠ b`.  Missing: `b = 1` (the second value is on top), where the instruction brings up
the wrong value, see `C45_swap_two_wrong`. -/
theorem C45_swap_two_partial (a b : Nat) (st : List V) (ha : 1 ≤ a) (ha2 : a ≤ st.length)
    (hb : 2 ≤ b) (hb2 : b ≤ st.length) (hab : a ≠ b) :
    ∃ st', exec I (.swapTwoToTop a b) st = some st' ∧ st'.length = st.length ∧
      st'[0]? = st[a - 1]? ∧ st'[1]? = st[b - 1]? ∧
      (∀ k, 2 ≤ k → k ≠ a - 1 → k ≠ b - 1 → st'[k]? = st[k]?) ∧ st'.Perm st := by
  obtain ⟨s1, hl1, hr1, a1, b1, c1⟩ := exists_swap (st := st) (i := 0) (j := a - 1) (by omega) (by omega)
  obtain ⟨s2, hl2, hr2, a2, b2, c2⟩ := exists_swap (st := s1) (i := 1) (j := b - 1) (by omega) (by omega)
  have h1 := hr1 []
  have h2 := hr2 []
  rw [List.append_nil, List.append_nil] at h1 h2
  refine ⟨s2, ?_, by omega, ?_, ?_, ?_, ?_⟩
  · simp only [exec]
    rw [if_neg (by omega), h1, Option.bind_some, h2]
  · rw [c2 0 (by omega) (by omega), a1]
  · rw [a2, c1 _ (by omega) (by omega)]
  · intro k h3 h4 h5
    rw [c2 k (by omega) h5, c1 k (by omega) h4]
  · exact (swapAt_perm h2).trans (swapAt_perm h1)

example : exec intI (.swapTwoToTop 4 3) [10, 20, 30, 40, 50] = some [40, 30, 20, 10, 50] := by decide

/-- With the second value on top (`b = 1`) the instruction brings up the wrong value. -/
theorem C45_swap_two_wrong : exec intI (.swapTwoToTop 3 1) [10, 20, 30] = some [20, 30, 10] := by decide

end Wrench.Expr
