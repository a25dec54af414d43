import Verif.Prog.Host
import Verif.Whole.Demo

/-
C112 on concrete programs.
-/
namespace Wrench.Prog
open Wrench.Vm Wrench.Vm.Jump Wrench.Peep Wrench.Whole Wrench.Ops

def setA (e : IE) : IS := .asg (.set ⟨.L, 0, e⟩)

/-- `a = 0; for (b = 0; b < 10; ++b) { if (b == 3) continue; if (b > 6) break; else a += b; }
do { a = a - g; } while (a > 5); b <<= a + 2; a--;` -/
def prog : IS :=
  .seq (setA (.lit 0))
    (.seq (.forLoop [.set ⟨.L, 1, .lit 0⟩] (some (.bin .lt vB (.lit 10))) [.bump false false .L 1]
      (.seq (.ifThen (.bin .eq vB (.lit 3)) .cont)
        (.ifElse (.bin .gt vB (.lit 6)) .brk (.asg (.comp .add ⟨.L, 0, vB⟩)))))
      (.seq (.doLoop (setA (.bin .sub vA vG)) (.bin .gt vA (.lit 5)))
        (.seq (.asg (.comp .shl ⟨.L, 1, .bin .add vA (.lit 2)⟩)) (.asg (.bump true true .L 0)))))

theorem good_lit (w : Word32) (h : w.toNat < 2147483648) : Good id (.lit w) :=
  good_bare (by simpa [IE.ok] using h) (by simp [IE.bare]) (by simp [IE.few, IE.inner, IE.births]) (ρ := sqVars) rfl

theorem good_small {b : Expr.Bin} {x y : IE} {w : Word32} (h : (IE.bin b x y).ok) (hb : (IE.bin b x y).bare)
    (hf : (IE.bin b x y).few) (hv : (IE.bin b x y).eval sqVars = some w) : Good id (.bin b x y) :=
  good_bare h hb hf hv

theorem prog_good : prog.good id := by
  refine ⟨good_lit 0 (by decide), ⟨?_, ?_, ?_, ⟨?_, trivial⟩, ?_, trivial, ?_⟩, ⟨?_, ?_⟩, ?_, trivial⟩
  · intro a ha
    cases List.mem_singleton.mp ha
    exact good_lit 0 (by decide)
  · intro x hx
    cases hx
    exact good_bare (by simp [IE.ok, vB, IE.level, Expr.Bin.prec]) (by simp [IE.bare, vB])
      (by simp [IE.few, IE.inner, IE.births, IE.plain, vB]) (ρ := sqVars) rfl
  · intro a ha
    cases List.mem_singleton.mp ha
    trivial
  · exact good_small (by simp [IE.ok, vA, vB, vG, IE.level, Expr.Bin.prec]) (by simp [IE.bare, vA, vB, vG])
      (by simp [IE.few, IE.inner, IE.births, IE.plain, vA, vB, vG]) rfl
  · exact good_small (by simp [IE.ok, vA, vB, vG, IE.level, Expr.Bin.prec]) (by simp [IE.bare, vA, vB, vG])
      (by simp [IE.few, IE.inner, IE.births, IE.plain, vA, vB, vG]) rfl
  · exact good_bare (e := vB) (by simp [IE.ok, vB]) (by simp [IE.bare, vB])
      (by simp [IE.few, IE.inner, IE.births, IE.plain, vB]) (ρ := sqVars) rfl
  all_goals
    exact good_small (by simp [IE.ok, vA, vB, vG, IE.level, Expr.Bin.prec]) (by simp [IE.bare, vA, vB, vG])
      (by simp [IE.few, IE.inner, IE.births, IE.plain, vA, vB, vG]) rfl

/-- `if ((a + 1) * (b - c * 2) < ((g)) / 2) a = -(a % 7);` is handled. -/
example : (IS.ifThen exText (setA (.pre .neg (.paren (.bin .mod vA (.lit 7)))))).good id :=
  ⟨good_text (by simp [IE.ok, exText, vA, vB, vC, vG, IE.level, Expr.Bin.prec])
      (by simp [IE.few, IE.inner, IE.births, IE.plain, exText, vA, vB, vC, vG]) (by decide) (ρ := sqVars) (w := 1)
      (by decide +kernel),
    good_text (by simp [IE.ok, vA, IE.level, Expr.Bin.prec])
      (by simp [IE.few, IE.inner, IE.births, IE.plain, vA]) (by decide) (ρ := sqVars) (w := -2) (by decide +kernel)⟩

theorem sq_ready : Ready sqVars squares := ⟨sq_start, by decide⟩

/-- `0 + 1 + 2 + 4 + 5 + 6 = 18`, less 9 twice: the bytes, all jumps short, leave -1 in `a` and 7 · 4 in `b`. -/
theorem prog_runs : ∃ U, compileUnit id prog = some U ∧ U.all.length = 67 ∧
    ∃ N m' ρ', bsteps demoEnv U.all N (0, squares) = some (67, m') ∧ Ready ρ' m' ∧ ρ' .L 0 = some (-1) ∧
      ρ' .L 1 = some 28 := by
  have h1 : ((compileUnit id prog).map fun U => U.all.length) = some 67 := by decide +kernel
  cases hU : compileUnit id prog with
  | none => rw [hU] at h1; cases h1
  | some U =>
    rw [hU] at h1
    have hl : U.all.length = 67 := by simpa using h1
    have h2 : (match Flow.exec 60 prog.means (some sqVars) with
      | some (.nrm, some ρ) => decide (ρ .L 0 = some (-1) ∧ ρ .L 1 = some 28)
      | _ => false) = true := by decide +kernel
    refine ⟨U, rfl, hl, ?_⟩
    match hx : Flow.exec 60 prog.means (some sqVars), h2 with
    | some (.nrm, some ρ'), h2 =>
      obtain ⟨N, m', g1, g2, -⟩ := C112_terminates_partial prog_good hU hx demoEnv sq_ready
      rw [hl] at g1
      exact ⟨N, m', ρ', g1, g2, of_decide_eq_true h2⟩

/-- The same program with `return b - a * 2;` behind it. -/
def script : IS := .seq prog (.ret (some (.bin .sub vB (.bin .mul vA (.lit 2)))))

theorem script_good : script.good id :=
  ⟨prog_good, by
    intro e he
    cases he
    exact good_small (by simp [IE.ok, vA, vB, IE.level, Expr.Bin.prec]) (by simp [IE.bare, vA, vB])
      (by simp [IE.few, IE.inner, IE.births, IE.plain, vA, vB]) (w := -7) (by decide +kernel)⟩

/-- The host gets 30, and can call functions. -/
theorem script_runs : ∃ U, compileScript id script = some U ∧
    ∃ N stop m', runScript demoEnv U.all N squares = some ⟨.int 30, stop, m'⟩ ∧ stop + 1 = U.all.length ∧
      opAt U.all stop = some .Stop := by
  have h1 : (compileScript id script).isSome = true := by decide +kernel
  obtain ⟨U, hU⟩ := Option.isSome_iff_exists.mp h1
  have h2 : (match Flow.exec 60 script.means (some sqVars) with
    | some (.ret v, some _) => decide (v = some 30)
    | _ => false) = true := by decide +kernel
  match hx : Flow.exec 60 script.means (some sqVars), h2 with
  | some (.ret v, some ρ'), h2 =>
    have hv : Flow.valueOf (some 0) (Flow.Out.ret v) = some (some (30 : Word32)) := by rw [of_decide_eq_true h2]; rfl
    obtain ⟨N, stop, m', g1, -, -, g2⟩ := C113_script_partial script_good hU hx hv (fun _ h => by cases h) demoEnv sq_ready
    obtain ⟨g2, g3⟩ := g2 (.last _ rfl)
    exact ⟨U, hU, N, stop, m', g1, g2, g3⟩

/-- **C112 fails** where an expression is compiled wrongly: `c = -(a + b) * -5;` leaves -205 in `c` instead of
205. -/
theorem C112_fails : (Flow.exec 1 (IS.asg (.set ⟨.L, 2, exNeg⟩)).means (some sqVars)).map
      (fun r => r.2.bind fun ρ => ρ .L 2) = some (some 205) ∧ Ready sqVars squares ∧
    squares.var .L 2 = .ok (.cell 6) ∧
    ∃ U m', compileUnit id (.asg (.set ⟨.L, 2, exNeg⟩)) = some U ∧ bsteps demoEnv U.all 3 (0, squares) = some (U.all.length, m') ∧
      m'.σ.cell (.cell 6) = .int (-205) := by
  refine ⟨by decide +kernel, sq_ready, rfl, ?_⟩
  have h : ((compileUnit id (.asg (.set ⟨.L, 2, exNeg⟩))).bind fun U => (bsteps demoEnv U.all 3 (0, squares)).map fun p =>
      (decide (p.1 = U.all.length), p.2.σ.cell (.cell 6))) = some (true, .int (-205)) := by decide +kernel
  simp only [Option.bind_eq_some_iff, Option.map_eq_some_iff] at h
  obtain ⟨U, h1, ⟨q, m'⟩, h2, h3⟩ := h
  simp only [Prod.mk.injEq, decide_eq_true_eq] at h3
  obtain ⟨rfl, h3⟩ := h3
  exact ⟨U, m', h1, h2, h3⟩

/-- `function gcd(a, b) { while (b != 0) { c = a % b; a = b; b = c; } return a; }` -/
def gcd : IS :=
  .seq (.loop (.bin .ne vB (.lit 0)) (.seq (.asg (.set ⟨.L, 2, .bin .mod vA vB⟩)) (.seq (.asg (.set ⟨.L, 0, vB⟩))
    (.asg (.set ⟨.L, 1, vC⟩))))) (.ret (some vA))

theorem gcd_good : gcd.good id := by
  refine ⟨⟨?_, ?_, ?_, ?_⟩, ?_⟩
  · exact good_small (by simp [IE.ok, vB, IE.level, Expr.Bin.prec]) (by simp [IE.bare, vB])
      (by simp [IE.few, IE.inner, IE.births, IE.plain, vB]) (w := 1) (by decide +kernel)
  · exact good_small (by simp [IE.ok, vA, vB, IE.level, Expr.Bin.prec]) (by simp [IE.bare, vA, vB])
      (by simp [IE.few, IE.inner, IE.births, IE.plain, vA, vB]) (w := 16) (by decide +kernel)
  · exact good_bare (e := vB) (by simp [IE.ok, vB]) (by simp [IE.bare, vB])
      (by simp [IE.few, IE.inner, IE.births, vB]) (ρ := sqVars) rfl
  · exact good_bare (e := vC) (by simp [IE.ok, vC]) (by simp [IE.bare, vC])
      (by simp [IE.few, IE.inner, IE.births, vC]) (ρ := sqVars) rfl
  · intro e he
    cases he
    exact good_bare (e := vA) (by simp [IE.ok, vA]) (by simp [IE.bare, vA])
      (by simp [IE.few, IE.inner, IE.births, vA]) (ρ := sqVars) rfl

theorem sq_globals : Globals (sqVars .G) 0 4 squares.σ := by
  intro i w hw
  obtain ⟨k, g1, g2⟩ := sq_start.vars .G i w hw
  have hi : i.toNat < 4 := by
    simp only [sqVars] at hw
    by_cases hi : i.toNat < 4
    · exact hi
    · rw [if_neg hi] at hw; cases hw
  refine ⟨hi, ?_⟩
  have : squares.var .G i = .ok (.cell (0 + i.toNat)) := if_pos hi
  rw [this] at g1
  cases g1
  exact g2

/-- The host calls it with 84 and 36 - and one argument too many - and gets 12, whatever `c` holds at first. -/
theorem gcd_runs (junk : Word32) : ∃ U, compileFn id gcd = some U ∧
    ∃ N σ', runFn demoEnv U.all 4 N (enterFn squares.σ 4 0 4 2 1 [84, 36, 5] junk) = some (.int 12, σ') := by
  have h1 : (compileFn id gcd).isSome = true := by decide +kernel
  obtain ⟨U, hU⟩ := Option.isSome_iff_exists.mp h1
  obtain ⟨N, σ', g1, -⟩ := C113_function_partial gcd_good hU (base := 4) (a := 2) (l := 1) (argv := [84, 36, 5])
    (junk := junk) (n := 9) (o := .ret (some 12)) (by decide) (by decide)
    sq_globals rfl rfl (fun _ h => by cases h) demoEnv
  exact ⟨U, hU, N, σ', g1⟩

/-- Cells whose payload is zero unless they are integers. -/
def plainRaw : Raw where
  pay
    | .int w => w
    | _ => 0
  zero _ := .int 0
  pay_int _ := rfl
  pay_zero _ := rfl

/-- `c` starts with the third argument. -/
example : junkOf plainRaw squares.σ 4 2 [84, 36, 5] = 5 ∧ junkOf plainRaw squares.σ 4 2 [84, 36] = 49 := ⟨rfl, rfl⟩

/-- The same with the entry step by step. -/
example : ∃ U, compileFn id gcd = some U ∧
    ∃ N σ', runFn demoEnv U.all 4 N (enterHost plainRaw squares.σ 4 0 4 2 1 [84, 36, 5]) = some (.int 12, σ') := by
  rw [enter_steps]
  exact gcd_runs _

/-- `function isqrt(a) { for (;;) { ++b; if (b * b > a) return b - 1; if (b > 99) { return; } } }`: every `return` stands
in the loop. -/
def isqrt : IS :=
  .forLoop [] none [] (.seq (.asg (.bump false false .L 1))
    (.seq (.ifThen (.bin .gt (.bin .mul vB vB) vA) (.ret (some (.bin .sub vB (.lit 1)))))
      (.ifThen (.bin .gt vB (.lit 99)) (.ret none))))

theorem isqrt_good : isqrt.good id := by
  refine ⟨(by intro a h; cases h), (by intro a h; cases h), (by intro a h; cases h), trivial, ⟨?_, ?_⟩, ?_, ?_⟩
  · exact good_small (by simp [IE.ok, vA, vB, IE.level, Expr.Bin.prec]) (by simp [IE.bare, vA, vB])
      (by simp [IE.few, IE.inner, IE.births, IE.plain, vA, vB]) (w := 1) (by decide +kernel)
  · intro e he
    cases he
    exact good_small (by simp [IE.ok, vB, IE.level, Expr.Bin.prec]) (by simp [IE.bare, vB])
      (by simp [IE.few, IE.inner, IE.births, IE.plain, vB]) (w := 24) (by decide +kernel)
  · exact good_small (by simp [IE.ok, vB, IE.level, Expr.Bin.prec]) (by simp [IE.bare, vB])
      (by simp [IE.few, IE.inner, IE.births, IE.plain, vB]) (w := 0) (by decide +kernel)
  · intro e he; cases he

/-- The host asks for the root of 30 and gets 5. -/
theorem isqrt_runs : ∃ U, compileFn id isqrt = some U ∧
    ∃ N σ', runFn demoEnv U.all 4 N (enterFn squares.σ 4 0 4 2 0 [30] 0) = some (.int 5, σ') := by
  have h1 : (compileFn id isqrt).isSome = true := by decide +kernel
  obtain ⟨U, hU⟩ := Option.isSome_iff_exists.mp h1
  obtain ⟨N, σ', g1, -⟩ := C113_function_partial isqrt_good hU (base := 4) (a := 2) (l := 0) (argv := [30])
    (junk := 0) (n := 9) (o := .ret (some 5)) (by decide) (by decide)
    sq_globals rfl rfl (fun h => by cases h) demoEnv
  exact ⟨U, hU, N, σ', g1⟩

/-- **C113 fails** without `hl`: `function f(a) { if (a) return 1; }`, called with 0, runs past the end of its code. -/
theorem C113_fails : ∃ U, compileFn id (.ifThen vA (.ret (some (.lit 1)))) = some U ∧
    Flow.exec 1 (IS.ifThen vA (.ret (some (.lit 1)))).means (some (fnVars (sqVars .G) 1 0 [0] 0)) =
      some (.nrm, some (fnVars (sqVars .G) 1 0 [0] 0)) ∧
    ∃ N m, bsteps demoEnv U.all N (0, enterFn squares.σ 4 0 4 1 0 [0] 0) = some (U.all.length, m) := by
  have h : ((compileFn id (.ifThen vA (.ret (some (.lit 1))))).bind fun U =>
      (bsteps demoEnv U.all 1 (0, enterFn squares.σ 4 0 4 1 0 [0] 0)).map fun p => decide (p.1 = U.all.length)) = some true := by
    decide +kernel
  simp only [Option.bind_eq_some_iff, Option.map_eq_some_iff] at h
  obtain ⟨U, h1, ⟨q, m'⟩, h2, h3⟩ := h
  simp only [decide_eq_true_eq] at h3
  subst h3
  exact ⟨U, h1, rfl, 1, m', h2⟩

/-- `g = 10; return g * 2;` with `function add(a) { g += a; if (g > 15) return g; return; }` and `gcd`. -/
def main : IS := .seq (.asg (.set ⟨.G, 3, .lit 10⟩)) (.ret (some (.bin .mul vG (.lit 2))))

def addFn : IS := .seq (.asg (.comp .add ⟨.G, 3, vA⟩)) (.seq (.ifThen (.bin .gt vG (.lit 15)) (.ret (some vG))) (.ret none))

theorem main_good : main.good id :=
  ⟨good_lit 10 (by decide), by
    intro e he
    cases he
    exact good_small (by simp [IE.ok, vG, IE.level, Expr.Bin.prec]) (by simp [IE.bare, vG])
      (by simp [IE.few, IE.inner, IE.births, IE.plain, vG]) rfl⟩

theorem addFn_good : addFn.good id := by
  refine ⟨?_, ⟨?_, ?_⟩, ?_⟩
  · exact good_bare (e := vA) (by simp [IE.ok, vA]) (by simp [IE.bare, vA])
      (by simp [IE.few, IE.inner, IE.births, vA]) (ρ := sqVars) rfl
  · exact good_small (by simp [IE.ok, vG, IE.level, Expr.Bin.prec]) (by simp [IE.bare, vG])
      (by simp [IE.few, IE.inner, IE.births, IE.plain, vG]) rfl
  · intro e he
    cases he
    exact good_bare (e := vG) (by simp [IE.ok, vG]) (by simp [IE.bare, vG])
      (by simp [IE.few, IE.inner, IE.births, vG]) (ρ := sqVars) rfl
  · intro e he; cases he

/-- `wr_run`, then `add(5)`, `gcd(84, 36)`, `add(3)`, `add(-9)`: the host gets 20, 0, 12, 18, 0. -/
theorem session_runs : ∃ img, linkAll id [4, 2, 0] main [⟨1, 0, addFn, []⟩, ⟨2, 1, gcd, [7, 7]⟩] = some img ∧
    ∃ n ns σ', img.session demoEnv n ns squares [⟨0, [5], 0⟩, ⟨1, [84, 36], 77⟩, ⟨0, [3], 0⟩, ⟨0, [-9], 0⟩] =
      some ([.int 20, .int 0, .int 12, .int 18, .int 0], σ') := by
  have h1 : ((linkAll id [4, 2, 0] main [⟨1, 0, addFn, []⟩, ⟨2, 1, gcd, [7, 7]⟩]).map fun i => decide (i.code.length < 65536)) =
      some true := by decide +kernel
  rw [Option.map_eq_some_iff] at h1
  obtain ⟨img, hi, hl⟩ := h1
  obtain ⟨n, ns, σ', h, -⟩ := C114_session_partial main_good (by
      intro f hf
      rcases List.mem_cons.mp hf with rfl | hf
      · exact ⟨addFn_good, by decide⟩
      · cases List.mem_singleton.mp hf
        exact ⟨gcd_good, by decide⟩) (.last _ rfl) hi (of_decide_eq_true hl) (n := 9) (ρ := sqVars) (w := 20) rfl
    (cs := [⟨0, [5], 0⟩, ⟨1, [84, 36], 77⟩, ⟨0, [3], 0⟩, ⟨0, [-9], 0⟩]) (ws := [0, 12, 18, 0]) rfl demoEnv sq_ready
  exact ⟨img, hi, n, ns, σ', h⟩

def gset (g : Byte → Option Word32) (w : Word32) : Byte → Option Word32 := fun i => if i = 3 then some w else g i

theorem upd_gset (g : Byte → Option Word32) (a l : Nat) (argv : List Word32) (junk w : Word32) :
    upd (fnVars g a l argv junk) .G 3 w .G = gset g w := by
  funext i
  simp [upd, gset, fnVars]

/-- The same with the entry of functions step by step: `c` of `gcd` may hold anything at first. -/
theorem host_runs : ∃ img, linkAll id [4, 2, 0] main [⟨1, 0, addFn, []⟩, ⟨2, 1, gcd, [7, 7]⟩] = some img ∧
    ∃ n ns σ', img.host plainRaw demoEnv n ns squares [(0, [5]), (1, [84, 36]), (0, [3]), (0, [-9])] =
      some ([.int 20, .int 0, .int 12, .int 18, .int 0], σ') := by
  have h1 : ((linkAll id [4, 2, 0] main [⟨1, 0, addFn, []⟩, ⟨2, 1, gcd, [7, 7]⟩]).map fun i => decide (i.code.length < 65536)) =
      some true := by decide +kernel
  rw [Option.map_eq_some_iff] at h1
  obtain ⟨img, hi, hl⟩ := h1
  obtain ⟨n, ns, σ', h, -⟩ := C114_host_partial main_good (by
      intro f hf
      rcases List.mem_cons.mp hf with rfl | hf
      · exact ⟨addFn_good, by decide⟩
      · cases List.mem_singleton.mp hf
        exact ⟨gcd_good, by decide⟩) (.last _ rfl) hi (of_decide_eq_true hl) (n := 9) (ρ := sqVars) (w := 20) rfl
    (cs := [(0, [5]), (1, [84, 36]), (0, [3]), (0, [-9])]) (ws := [0, 12, 18, 0])
    (g := gset (gset (gset (upd sqVars .G 3 10 .G) 15) 18) 9)
    (by
      refine .cons (g1 := gset (upd sqVars .G 3 10 .G) 15) rfl (fun _ => ⟨9, _, rfl, upd_gset _ _ _ _ _ _⟩) ?_
      refine .cons (g1 := gset (upd sqVars .G 3 10 .G) 15) rfl (fun _ => ⟨9, _, rfl, rfl⟩) ?_
      refine .cons (g1 := gset (gset (upd sqVars .G 3 10 .G) 15) 18) rfl (fun _ => ⟨9, _, rfl, upd_gset _ _ _ _ _ _⟩) ?_
      refine .cons (g1 := gset (gset (gset (upd sqVars .G 3 10 .G) 15) 18) 9) rfl
        (fun _ => ⟨9, _, rfl, upd_gset _ _ _ _ _ _⟩) ?_
      exact .nil) plainRaw demoEnv sq_ready
  exact ⟨img, hi, n, ns, σ', h⟩

/-- `while (1) a = a + 1;` -/
def forever : IS := .loop (.lit 1) (setA (.bin .add vA (.lit 1)))

theorem forever_exec (n : Nat) (ρ : Vars) (h : (ρ .L 0).isSome = true) : Flow.exec n forever.means (some ρ) = none := by
  have key : ∀ (j : Nat) (ρ : Vars), (ρ .L 0).isSome = true →
      Flow.whileLoop (test (.lit 1)) (Flow.exec n (setA (.bin .add vA (.lit 1))).means) id j (some ρ) = none := by
    intro j
    induction j with
    | zero => intro ρ _; rfl
    | succ j ih =>
      intro ρ h
      obtain ⟨w, hw⟩ := Option.isSome_iff_exists.mp h
      have ht : test (.lit 1) (some ρ) = (true, some ρ) := rfl
      have hb : Flow.exec n (setA (.bin .add vA (.lit 1))).means (some ρ) =
          some (.nrm, some (upd ρ .L 0 (BitVec.ofInt 32 (w.toInt + (1 : Word32).toInt)))) := by
        have he : Asg.means ⟨.L, 0, .bin .add vA (.lit 1)⟩ (some ρ) =
            some (upd ρ .L 0 (BitVec.ofInt 32 (w.toInt + (1 : Word32).toInt))) := by
          simp only [Asg.means, Option.bind_some, IE.eval, vA, hw]
          rfl
        simp only [setA, IS.means, Flow.exec, Eff.means, he]
      unfold Flow.whileLoop
      simp only [ht, if_true, hb, id]
      exact ih _ (by simp [upd])
  exact key n ρ h

theorem forever_good : forever.good id :=
  ⟨good_lit 1 (by decide), good_bare (by simp [IE.ok, vA, IE.level, Expr.Bin.prec]) (by simp [IE.bare, vA])
    (by simp [IE.few, IE.inner, IE.births, IE.plain, vA]) (ρ := sqVars) rfl⟩

theorem forever_safe : forever.safe sqVars := by
  refine ⟨fun ρ _ => ⟨1, rfl⟩, fun ρ hd => ?_⟩
  have : (ρ .L 0).isSome = true := by rw [hd]; rfl
  obtain ⟨w, hw⟩ := Option.isSome_iff_exists.mp this
  refine ⟨upd ρ .L 0 (BitVec.ofInt 32 (w.toInt + (1 : Word32).toInt)), ?_⟩
  simp only [Eff.means, Asg.means, Option.bind_some, IE.eval, vA, hw]
  rfl

/-- It never stops. -/
example : ∃ U, compileUnit id forever = some U ∧ ∀ N, ∃ q, bsteps demoEnv U.all N (0, squares) = some q := by
  have h1 : (compileUnit id forever).isSome = true := by decide +kernel
  obtain ⟨U, hU⟩ := Option.isSome_iff_exists.mp h1
  exact ⟨U, hU, fun N => C112_diverges_partial forever_good hU forever_safe (fun n => forever_exec n sqVars rfl) demoEnv
    sq_ready N⟩

end Wrench.Prog
