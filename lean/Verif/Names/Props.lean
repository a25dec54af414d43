import Verif.Names.Tidy

/-
C57: every name in a script denotes the variable its scope says.
-/
namespace Wrench.Names

open Spec

/-- C57.  When no sub-expression hides a declaration and no two names have the same hash, the compiler
gives every occurrence of a name the slot of the variable it means: the position of that variable in the
list of the variables of its unit (or of the program), in order of declaration.  The tables the linker
writes list the same variables.  A source with an undeclared name is refused. -/
theorem C57_names_partial (enum : Name → Bool) (nv : Bool) (src : List Top) (hN : HashOk (namesT src)) :
    (∀ m, Spec.program enum nv src = .ok m → ∃ p, program enum nv src = some p ∧
      p.globals = m.globals.map (fun x => hashStr (colons ++ x)) ∧
      p.main = m.main.map (Ref.load [] m.globals) ∧
      p.units.length = m.units.length ∧
      ∀ (i : Nat) o k, m.units[i]? = some o → p.units[i]? = some k →
        o.locals.Nodup ∧ k.code.space = o.locals.map hashStr ∧
        k.code.loads = o.refs.map (Ref.load o.locals m.globals) ∧
        ∀ x, (.loc x ∈ o.refs → x ∈ o.locals) ∧ (.glob x ∈ o.refs → x ∈ m.globals)) ∧
    (Spec.program enum nv src = .err → program enum nv src = none) := by
  have T := tops_sim hN (enum := enum) (nv := nv) src (fun y hy => hy) ⟨[], [], []⟩ ⟨[], [], []⟩
    ⟨rfl, rfl, by simp, by simp, .nil⟩
  refine ⟨fun m h => ?_, T.2⟩
  obtain ⟨p, h1, h2, _⟩ := T.1 m h
  refine ⟨p, h1, h2.globals, h2.main, h2.units.length_eq.symm, fun i o k ho hk => ?_⟩
  have hr : ORel m.globals o k := by
    have := h2.units
    clear h1 h2 h T
    generalize m.units = us at this ho
    generalize p.units = ks at this hk
    induction this generalizing i with
    | nil => simp at ho
    | cons hab _ ih =>
      cases i with
      | zero => simp only [List.getElem?_cons_zero, Option.some.injEq] at ho hk; subst ho; subst hk; exact hab
      | succ i => exact ih i (by simpa using ho) (by simpa using hk)
  exact ⟨hr.nd, hr.space, hr.loads, fun x => ⟨fun hx => hr.valid _ hx, fun hx => hr.valid _ hx⟩⟩

/-- C57, slots: with at most 256 variables two variables of a unit never share a slot, and a variable
has one slot. -/
theorem C57_slots_distinct (xs : List Name) (h : xs.length ≤ 256) (x y : Name) (hx : x ∈ xs) (hy : y ∈ xs) :
    (byte (xs.idxOf x) = byte (xs.idxOf y) ↔ x = y) ∧ (byte (xs.idxOf x)).toNat < xs.length := by
  have h1 := List.idxOf_lt_length_iff.mpr hx
  have h2 := List.idxOf_lt_length_iff.mpr hy
  refine ⟨⟨fun he => ?_, fun he => by rw [he]⟩, ?_⟩
  · have := congrArg BitVec.toNat he
    simp only [byte, BitVec.toNat_ofNat] at this
    rw [Nat.mod_eq_of_lt (by omega), Nat.mod_eq_of_lt (by omega)] at this
    exact (List.idxOf_inj hx).mp this
  · simp only [byte, BitVec.toNat_ofNat]
    rw [Nat.mod_eq_of_lt (by omega)]
    exact h1

theorem distinct_nodup (ys xs : List Name) (h : (ys ++ xs).Nodup) : distinct ys xs = ys ++ xs := by
  induction xs generalizing ys with
  | nil => simp [distinct]
  | cons x xs ih =>
    have hx : x ∉ ys := fun hx => (List.nodup_append.mp h).2.2 x hx x (by simp) rfl
    rw [distinct, if_neg hx, ih _ (by simpa using h)]
    simp

/-- C57, arguments: the arguments of a function (with different names) are its first variables, so
argument `i` is slot `i`, where the call puts it. -/
theorem C57_arguments (enum : Name → Bool) (nv : Bool) (gs : List Name) (u : UnitDef)
    (hN : HashOk (gs ++ (u.args ++ namesB u.body))) (hd : u.args.Nodup)
    (gs' : List Name) (o : OutS) (h : Spec.unit enum nv gs u = .ok (gs', o)) :
    ∃ k, unit enum nv (gs.map (fun x => hashStr (colons ++ x))) u =
        some (gs'.map (fun x => hashStr (colons ++ x)), k) ∧
      k.arguments = u.args.length ∧ u.args <+: o.locals ∧
      k.code.loads = o.refs.map (Ref.load o.locals gs') ∧
      ∀ (i : Nat) x, u.args[i]? = some x → Ref.load o.locals gs' (.loc x) = .loc (byte i) := by
  obtain ⟨k, h1, h2, _, _, h5, h6⟩ := (unit_sim hN (enum := enum) (nv := nv) u (by simp +contextual)
    (by simp +contextual) gs (by simp +contextual)).1 gs' o h
  rw [distinct_nodup [] u.args (by simpa using hd)] at h6
  refine ⟨k, h1, h5, h6, h2.loads, fun i x hx => ?_⟩
  have hm : x ∈ u.args := List.mem_of_getElem? hx
  simp only [Ref.load, idxOf_prefix h6 hm]
  congr 2
  obtain ⟨hi, rfl⟩ := List.getElem?_eq_some_iff.mp hx
  exact List.Nodup.idxOf_getElem hd i hi

/-- C57, when nothing is hidden: with `var` required (the default), a source in which `var` is written
only at the top level of expressions, and names declared by an expression (the body of a `for`) are not
used in its sub-expressions (its post expressions), either has a meaning or is refused. -/
theorem C57_tidy_not_hidden (enum : Name → Bool) (src : List Top) (h : tidyT src) :
    Spec.program enum true src ≠ .hidden := tops_tidy src h _

/-! ### A program that meets the hypotheses -/

namespace Demo

def x1 (b : Byte) : Name := [b]
def a := x1 0x61#8
def b := x1 0x62#8
def x := x1 0x78#8
def y := x1 0x79#8
def g := x1 0x67#8

/-- A use of a name, and a use after `var`. -/
def use (n : Name) : Lab := ⟨n, false, false⟩
def decl (n : Name) : Lab := ⟨n, false, true⟩

/-- `l = r + s`: the operands of `+`, then the target. -/
def sum (l r s : Lab) : Expr := .mk false l.var (.label l (.other (.label r (.other (.label s .nil))))) [2, 4, 3, 0, 1]

/-- A name alone. -/
def name (l : Lab) : Expr := .mk false l.var (.label l .nil) [0]

/-- `l = h( r, s )`. -/
def call (l r s : Lab) : Expr :=
  .mk false l.var (.label l (.other (.code (.cons (.mk false true (.label r .nil) [0])
    (.cons (.mk false true (.label s .nil) [0]) .nil)) .nil))) [2, 0, 1]

/-- `var g; function f(a, b) { var x = a + b; for(;; x) { var y = h(x, g); } return y; } g;` -/
def src : List Top :=
  [.code (.expr (name (decl g)) .nil),
   .unit ⟨false, [a, b],
     .expr (sum (decl x) (use a) (use b))
     (.loop (.cons (name (use x)) .nil) (.expr (call (decl y) (use x) (use g)) .nil)
     (.expr (name (use y)) .nil))⟩,
   .code (.expr (name (use g)) .nil)]

end Demo

open Demo in
example : HashOk (namesT src) ∧ tidyT src := by
  refine ⟨by decide +kernel, ?_⟩
  simp [tidyT, tidy, tidyE, src, name, sum, call, use, decl, subsPlain, vars, subNames, plainS, plainE, plainI,
    declared, namesS, namesE, namesI, a, b, x, y, g, x1]

open Demo in
example : Spec.program (fun _ => false) true src = .ok
    ⟨[g], [.glob g, .glob g], [⟨[a, b, x, y], [.loc a, .loc b, .loc x, .loc x, .glob g, .loc y, .loc x, .loc y]⟩]⟩ := by
  decide +kernel

/-! ### Where the code departs from it -/

namespace Demo

/-- `(var a = 1)`. -/
def assign1 (l : Lab) : Expr := .mk false l.var (.label l (.other (.other .nil))) [2, 0, 1]

/-- `(var a = 1) && (var b = 2)`. -/
def both : Expr :=
  .mk false false (.code (.cons (assign1 (decl a)) .nil) (.other (.code (.cons (assign1 (decl b)) .nil) .nil))) [0, 2, 1]

/-- `for(;; y = 1) { x = 1; }` in a function. -/
def post : Stmts :=
  .loop (.cons (assign1 (use y)) .nil) (.expr (assign1 (use x)) .nil) (.expr (name (use y)) .nil)

/-- `costarring` and `liquid`. -/
def costarring : Name := [0x63#8, 0x6F#8, 0x73#8, 0x74#8, 0x61#8, 0x72#8, 0x72#8, 0x69#8, 0x6E#8, 0x67#8]
def liquid : Name := [0x6C#8, 0x69#8, 0x71#8, 0x75#8, 0x69#8, 0x64#8]

end Demo

open Demo in
/-- Two variables declared in two parentheses of one expression get one slot: in
`if ( (var a = 1) && (var b = 2) ) { a; b; }` both assignments go to slot 0, while `b` is read from
slot 1 afterwards. -/
theorem C57_parentheses_alias :
    program (fun _ => false) true [.unit ⟨false, [], .expr both (.expr (name (use a)) (.expr (name (use b)) .nil))⟩] =
      some ⟨[], [], [⟨0, ⟨[hashStr a, hashStr b], [.loc 0, .loc 0, .loc 0, .loc 1]⟩⟩]⟩ := by
  decide +kernel

open Demo in
/-- Without `var` required, a variable made by the post expression of a `for` shares its slot with the
first variable made in the body. -/
theorem C57_post_alias :
    program (fun _ => false) false [.unit ⟨false, [], post⟩] =
      some ⟨[], [], [⟨0, ⟨[hashStr x, hashStr y], [.loc 0, .loc 0, .loc 1]⟩⟩]⟩ := by
  decide +kernel

open Demo in
/-- A repeated argument name is counted as two arguments but has one slot: the next variable lies where
the call puts the second argument. -/
theorem C57_repeated_argument :
    program (fun _ => false) true [.unit ⟨false, [a, a], .expr (name (decl b)) .nil⟩] =
      some ⟨[], [], [⟨2, ⟨[hashStr a, hashStr b], [.loc 1]⟩⟩]⟩ := by
  decide +kernel

/-- Slots are one byte: the 257th variable of a function is compiled to slot 0, the first argument.
The linker only checks that the function has at most 255 variables besides its arguments. -/
theorem C57_slot_wraps (c : Cfg) (nv allow : Bool) (G : List Word32) (b : BC) (x : Name) (ht : c.top = false)
    (hb : b.space.length = 256) (hx : hashStr x ∉ b.space) (hG : hashStr x ∉ G) :
    addLocal c nv G b x false true allow =
      some (G, ⟨b.space ++ [hashStr x], b.loads ++ [.loc 0#8]⟩, 256) := by
  have h1 : find (hashStr x) b.space = 256 := by
    rw [← hb]; exact List.findIdx_eq_length_of_false (by
      intro w hw; simp only [beq_eq_false_iff_ne]; rintro rfl; exact hx hw)
  have h2 : find (hashStr x) G = G.length := List.findIdx_eq_length_of_false (by
      intro w hw; simp only [beq_eq_false_iff_ne]; rintro rfl; exact hG hw)
  unfold addLocal
  simp only [ht, h1, h2, hb, put]
  simp [byte, h2]

example : (⟨(List.range 256).map (BitVec.ofNat 32), []⟩ : BC).space.length = 256 ∧
    hashStr [0x61#8] ∉ (List.range 256).map (BitVec.ofNat 32) := by decide +kernel

open Demo in
/-- Names with the same 32-bit hash are one variable. -/
theorem C57_colliding_names :
    program (fun _ => false) true [.unit ⟨false, [costarring, liquid], .expr (name (use liquid)) .nil⟩] =
      some ⟨[], [], [⟨2, ⟨[hashStr costarring], [.loc 0]⟩⟩]⟩ := by
  decide +kernel

end Wrench.Names
