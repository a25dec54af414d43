import Verif.Peep.Track
import Verif.Peep.RuleSound
import Verif.Ops.Assign

/-
C25: the optimizing emitter preserves what the code does.
-/
namespace Wrench.Peep
open Wrench.Vm Wrench.Ops

/-! ### Programs -/

/-- Code made from nothing by emitting instructions, appending code and clearing the cache
(`opcodes.clear()`, done at jump targets). -/
inductive Built (E : Env) : Code → Prop where
  | empty : Built E ⟨[], []⟩
  | emit {b b' : Code} {op : Op} {data : List Byte} : Built E b →
      (∀ a, act op = some a → data.length = dlen a) →
      (op = .PopOne → b.rops.head? ≠ some .CallLibFunction ∧
        b.rops.head? ≠ some .FUNCTION_CALL_PLACEHOLDER) →
      emit E.fneg b op data = some b' → Built E b'
  | append {b add b' : Code} : Built E b → Seg add.rall add.rops →
      (add.rops = [.PopOne] → b.rops.head? ≠ some .CallLibFunction ∧
        b.rops.head? ≠ some .FUNCTION_CALL_PLACEHOLDER) →
      appendCode E.fneg b add = some b' → Built E b'
  | clear {b : Code} : Built E b → Built E ⟨b.rall, []⟩

/-- The cache of such code describes its last instructions. -/
theorem C25_cache {E : Env} {b : Code} (h : Built E b) : Tracked b := by
  induction h with
  | empty => exact .clear _
  | emit _ hd hx h ih => exact (emit_step ih hd hx h).1
  | append _ ha hx h ih => exact (append_step ih ha hx h).1
  | clear => exact .clear _

theorem runsI_append {E : Env} {is js : List Ins} {m : M} {o : Out} : RunsI E (is ++ js) m o ↔
    (RunsI E is m o ∧ ∀ m', o ≠ .next m') ∨ ∃ m', RunsI E is m (.next m') ∧ RunsI E js m' o := by
  induction is generalizing m with
  | nil =>
    constructor
    · intro h
      exact .inr ⟨m, rfl, h⟩
    · rintro (⟨h, hn⟩ | ⟨m', h, h'⟩)
      · exact absurd h (hn m)
      · cases h
        exact h'
  | cons x is ih =>
    obtain ⟨a, d⟩ := x
    constructor
    · rintro ⟨f, x, h1, h2⟩
      cases x with
      | next m1 =>
        rcases ih.mp h2 with ⟨h3, hn⟩ | ⟨m', h3, h4⟩
        · exact .inl ⟨⟨f, _, h1, h3⟩, hn⟩
        · exact .inr ⟨m', ⟨f, _, h1, h3⟩, h4⟩
      | jump m1 =>
        dsimp only at h2
        subst h2
        exact .inl ⟨⟨f, _, h1, rfl⟩, by simp⟩
      | ret m1 =>
        dsimp only at h2
        subst h2
        exact .inl ⟨⟨f, _, h1, rfl⟩, by simp⟩
    · rintro (⟨⟨f, x, h1, h2⟩, hn⟩ | ⟨m', ⟨f, x, h1, h2⟩, h3⟩)
      · refine ⟨f, x, h1, ?_⟩
        cases x with
        | next m1 => exact ih.mpr (.inl ⟨h2, hn⟩)
        | jump m1 => exact h2
        | ret m1 => exact h2
      · refine ⟨f, x, h1, ?_⟩
        cases x with
        | next m1 => exact ih.mpr (.inr ⟨m', h2, h3⟩)
        | jump m1 => simp at h2
        | ret m1 => simp at h2

/-- `new` does what `old` does, with `P` where the two begin to differ: they have a common
beginning `pre` followed by `is` and `js`, related by a rule. -/
def Preserves (E : Env) (old new : List Byte) : Prop :=
  ∃ pre frag frag' is js P, old = pre ++ frag ∧ new = pre ++ frag' ∧ Decodes frag is ∧
    Decodes frag' js ∧ Rw E is js P ∧ ∀ ips, Decodes pre ips → ∀ m o,
      (∀ m', RunsI E ips m (.next m') → OkM m' ∧ P m') → Runs E old m o →
        ∃ o', Runs E new m o' ∧ SameO o o'

theorem preserves_of {E : Env} (hE : EnvOk E) {pre frag frag' : List Byte} {is js : List Ins}
    {P : M → Prop} (h1 : Decodes frag is) (h2 : Decodes frag' js) (h3 : Rw E is js P) :
    Preserves E (pre ++ frag) (pre ++ frag') := by
  refine ⟨pre, frag, frag', is, js, P, rfl, rfl, h1, h2, h3, ?_⟩
  intro ips hp m o hm hr
  obtain ⟨is', hd, hr⟩ := hr
  have := hd.unique (hp.append h1)
  subst this
  rcases runsI_append.mp hr with ⟨h4, hn⟩ | ⟨m', h4, h5⟩
  · exact ⟨o, ⟨_, hp.append h2, runsI_append.mpr (.inl ⟨h4, hn⟩)⟩, SameO.refl o⟩
  · obtain ⟨ho, hP⟩ := hm m' h4
    obtain ⟨o', h6, h7⟩ := Rw.sound hE h3 m' o ho hP h5
    exact ⟨o', ⟨_, hp.append h2, runsI_append.mpr (.inr ⟨m', h4, h6⟩)⟩, h7⟩

theorem preserves_rewrites {E : Env} (hE : EnvOk E) {b b' : Code} {code : List Byte}
    (h : Rewrites E b code b') : Preserves E (b.rall.reverse ++ code) b'.rall.reverse := by
  obtain ⟨pre, frag, frag', is, js, P, h1, h2, h3, h4, h5⟩ := h
  rw [h1, h2, List.append_assoc]
  exact preserves_of hE h3 h4 h5

/-- Emitting any instruction on any code made by the emitter: the instruction is appended as it
is, or the new code does what the old code followed by the instruction does, from every machine
state meeting the condition of the rule applied.  Partial: the conditions of `Rw` are real
(see the failures below); a value discarded right after a call is left out. -/
theorem C25_emit_partial {E : Env} (hE : EnvOk E) {b b' : Code} {op : Op} {data : List Byte}
    (hb : Built E b) (hd : ∀ a, act op = some a → data.length = dlen a)
    (hx : op = .PopOne → b.rops.head? ≠ some .CallLibFunction ∧
      b.rops.head? ≠ some .FUNCTION_CALL_PLACEHOLDER)
    (h : emit E.fneg b op data = some b') :
    b'.rall.reverse = b.rall.reverse ++ op.code :: data ∨
      Preserves E (b.rall.reverse ++ op.code :: data) b'.rall.reverse :=
  (emit_step (C25_cache hb) hd hx h).2.imp id (preserves_rewrites hE)

/-- The same for appending a piece of code whose cache describes all of it. -/
theorem C25_append_partial {E : Env} (hE : EnvOk E) {b add b' : Code} (hb : Built E b)
    (ha : Seg add.rall add.rops)
    (hx : add.rops = [.PopOne] → b.rops.head? ≠ some .CallLibFunction ∧
      b.rops.head? ≠ some .FUNCTION_CALL_PLACEHOLDER)
    (h : appendCode E.fneg b add = some b') :
    b'.rall.reverse = b.rall.reverse ++ add.rall.reverse ∨
      Preserves E (b.rall.reverse ++ add.rall.reverse) b'.rall.reverse :=
  (append_step (C25_cache hb) ha hx h).2.imp id (preserves_rewrites hE)

/-! ### A machine for the examples -/

/-- Four globals in cells 0-3, four locals in cells 4-7, the working stack from 8. -/
def dm (σ : St) : M := ⟨σ, 8, 4, 0, 4, 4, .cell 0, .cell 0⟩

theorem dm_ok (σ : St) (h : ∀ a, (∀ k, a = .cell k → k < 8) → ∀ p, ptr (σ.cell a) = some p → liveAt 8 p) :
    OkM (dm σ) := ⟨show 8 ≤ 8 by decide, show 4 ≤ 8 by decide, h⟩

/-- One instruction after the other with the same fuel. -/
def exe (E : Env) (f : Nat) : List Ins → M → Res Out
  | [], m => .ok (.next m)
  | (a, d) :: is, m => match exec E f a d m with
    | .ok (.next m') => exe E f is m'
    | r => r

theorem exe_runs {E : Env} {f : Nat} {is : List Ins} {m : M} {o : Out} (h : exe E f is m = .ok o) :
    RunsI E is m o := by
  induction is generalizing m with
  | nil => simp [exe] at h; exact h.symm
  | cons x is ih =>
    obtain ⟨a, d⟩ := x
    unfold exe at h
    cases he : exec E f a d m with
    | ub => rw [he] at h; simp at h
    | oof => rw [he] at h; simp at h
    | ok r =>
      rw [he] at h
      refine ⟨f, r, he, ?_⟩
      cases r with
      | next m' => exact ih h
      | jump m' => simp at h; exact h.symm
      | ret m' => simp at h; exact h.symm

/-- The value in stack slot `k` after running. -/
def obs (E : Env) (f : Nat) (is : List Ins) (m : M) (k : Nat) : Option Val :=
  match exe E f is m with
  | .ok (.next m') => if k < m'.top then some (m'.σ.cell (.cell k)) else none
  | _ => none

/-- The emitter's output and the plain code both run and end differently. -/
def Differs (E : Env) (b : Code) (code : List Byte) (b' : Code) (m : M) : Prop :=
  ∃ o o', Runs E (b.rall.reverse ++ code) m o ∧ Runs E b'.rall.reverse m o' ∧ ¬SameO o o'

theorem differs_of {E : Env} {b b' : Code} {code : List Byte} {m : M} {is js : List Ins} {x y : Val}
    (f k : Nat) (h1 : Decodes (b.rall.reverse ++ code) is) (h2 : Decodes b'.rall.reverse js)
    (hx : obs E f is m k = some x) (hy : obs E f js m k = some y) (hne : x ≠ y) :
    Differs E b code b' m := by
  have key : ∀ ks v, obs E f ks m k = some v → ∃ m', exe E f ks m = .ok (.next m') ∧ k < m'.top ∧
      m'.σ.cell (.cell k) = v := by
    intro ks v h
    unfold obs at h
    split at h
    · rename_i m' he
      split at h
      · exact ⟨m', he, ‹_›, Option.some.inj h⟩
      · simp at h
    · simp at h
  obtain ⟨m1, e1, k1, v1⟩ := key _ _ hx
  obtain ⟨m2, e2, k2, v2⟩ := key _ _ hy
  refine ⟨_, _, ⟨is, h1, exe_runs e1⟩, ⟨js, h2, exe_runs e2⟩, ?_⟩
  intro hs
  have := hs.agree.cell (.cell k) k1
  rw [v1, v2] at this
  exact hne this.symm

/-- Globals 0-3 and locals 0-3 with given values, one array `[7, 8]` and strings "a", "b". -/
def dst (f : Nat → Val) : St := demo
  (fun | .cell k => if k < 8 then f k else .int 99
       | .elem _ 0 => .int 7
       | .elem _ _ => .int 8
       | _ => .int 0)
  (fun | 0 => .vals 2 | 1 => .chars [0x61#8] false | 2 => .chars [0x62#8] false | _ => .other)

theorem dst_ok {f : Nat → Val} (h : ∀ k < 8, ∀ p, ptr (f k) = some p → liveAt 8 p) : OkM (dm (dst f)) := by
  apply dm_ok
  intro a ha p hp
  cases a with
  | cell k =>
    have hk := ha k rfl
    simp only [dst, demo, hk, if_true] at hp
    exact h k hk p hp
  | elem o i => cases i <;> simp [dst, demo, ptr] at hp
  | t1 => simp [dst, demo, ptr] at hp
  | t2 => simp [dst, demo, ptr] at hp
  | loc k => simp [dst, demo, ptr] at hp

/-- `LoadFromLocal i`, last byte first. -/
abbrev ldL (i : Byte) : List Byte := [i, Op.LoadFromLocal.code]
abbrev ldG (i : Byte) : List Byte := [i, Op.LoadFromGlobal.code]

/-- Two loads, as emitted. -/
theorem built_loads (o1 o2 : Op) (i j : Byte) (h1 : o1 = .LoadFromLocal ∨ o1 = .LoadFromGlobal)
    (h2 : o2 = .LoadFromLocal ∨ o2 = .LoadFromGlobal) :
    Built demoEnv ⟨[j, o2.code, i, o1.code], [o2, o1]⟩ := by
  have hd : ∀ (o : Op) (x : Byte), o = .LoadFromLocal ∨ o = .LoadFromGlobal → ∀ a, act o = some a →
      [x].length = dlen a := by
    rintro o x (rfl | rfl) a h <;> cases h <;> rfl
  have hp : ∀ (o : Op), o = .LoadFromLocal ∨ o = .LoadFromGlobal → o ≠ .PopOne := by
    rintro o (rfl | rfl) h <;> simp at h
  refine .emit (b := ⟨[i, o1.code], [o1]⟩) (op := o2) (data := [j]) (.emit (b := ⟨[], []⟩) (op := o1)
    (data := [i]) .empty (hd _ _ h1) (fun h => absurd h (hp _ h1)) ?_) (hd _ _ h2)
    (fun h => absurd h (hp _ h2)) ?_
  · rcases h1 with rfl | rfl <;> rfl
  · rcases h1 with rfl | rfl <;> rcases h2 with rfl | rfl <;> rfl

/-! ### The theorem on concrete code -/

theorem demo_local : EnvLocal demoEnv := fun _ _ _ _ _ _ _ _ _ => ⟨rfl, rfl⟩

theorem demo_ok : EnvOk demoEnv :=
  ⟨demo_local, fun a b => by simp [demoEnv, Bool.beq_comm (a := a)], fun a b => BitVec.add_comm a b,
    fun a b => BitVec.mul_comm a b⟩

/-- Two integers always have a result, whatever the operator. -/
theorem yields_int {E : Env} {op : BinOp} {σ : St} {a b : Addr} {x y : Word32}
    (ha : σ.cell a = .int x) (hb : σ.cell b = .int y) : Yields E op σ a b := by
  intro f σ' h
  cases f with
  | zero => simp [binVal, disp] at h
  | succ f =>
    have key : ∀ (g : Word32 → Word32 → Res Word32), binTableV E op .I .I = .leaf (leafV .int g) → False := by
      intro g hg
      rw [binVal, Ops.disp, ha, hb] at h
      dsimp only [Val.ty] at h
      rw [hg] at h
      simp only [leafV, ha, hb, Val.bits] at h
      obtain ⟨_, hr, h⟩ := bind_ok h
      obtain ⟨_, hr, h⟩ := bind_ok h
      obtain ⟨r, -, h⟩ := bind_ok h
      simp [res_pure] at h
    cases op <;> exact key _ rfl

/-- Integers in every variable: `k * k` in cell `k`. -/
def squares : M := dm (dst fun k => .int (BitVec.ofNat 32 (k * k)))

theorem squares_ok : OkM squares := dst_ok (by intro k _ p hp; simp [ptr] at hp)

/-- `a - b` on a local and a global is fused into one instruction. -/
example : Preserves demoEnv
    ([Op.LoadFromLocal.code, 0, Op.LoadFromGlobal.code, 1] ++ Op.BinarySubtraction.code :: [])
    [Op.GLBinarySubtraction.code, 0, 1] :=
  (C25_emit_partial demo_ok (b := ⟨[1, Op.LoadFromGlobal.code, 0, Op.LoadFromLocal.code],
    [.LoadFromGlobal, .LoadFromLocal]⟩) (b' := ⟨[1, 0, Op.GLBinarySubtraction.code], []⟩)
    (op := .BinarySubtraction) (data := []) (built_loads _ _ _ _ (by simp) (by simp))
    (by intro a h; cases h; rfl) (by simp) rfl).resolve_left (by decide)

/-- The condition of that rule holds for integers, and both codes leave `1 - 16` on the stack. -/
example : OkM squares ∧ Yields demoEnv .sub squares.σ (.cell 1) (.cell 4) ∧
    obs demoEnv 3 [(.bin .sub (.two .L .G), [0, 1])] squares 8 = some (.int (-15)) ∧
    obs demoEnv 3 [(.load .L, [0]), (.load .G, [1]), (.bin .sub .stack, [])] squares 8 = some (.int (-15)) :=
  ⟨squares_ok, yields_int (x := 1) (y := 16) rfl rfl, rfl, rfl⟩

/-- Indexing a local with a local through `appendCode`. -/
example : Preserves demoEnv
    ([Op.LoadFromLocal.code, 0] ++ [Op.LoadFromLocal.code, 1, Op.Index.code])
    [Op.LLValues.code, 1, 0, Op.IndexSkipLoad.code] :=
  (C25_append_partial demo_ok (b := ⟨ldL 0, [.LoadFromLocal]⟩)
    (add := ⟨[Op.Index.code, 1, Op.LoadFromLocal.code], [.Index, .LoadFromLocal]⟩)
    (b' := ⟨[Op.IndexSkipLoad.code, 0, 1, Op.LLValues.code], [.IndexSkipLoad, .LoadFromLocal, .LoadFromLocal]⟩)
    (.emit (b := ⟨[], []⟩) (op := .LoadFromLocal) (data := [0]) .empty (by intro a h; cases h; rfl)
      (by simp) rfl)
    (.ins (op := .Index) (d := []) (by intro a h; cases h; rfl)
      (.ins (op := .LoadFromLocal) (d := [1]) (by intro a h; cases h; rfl) .nil))
    (by simp) rfl).resolve_left (by decide)

/-! ### Where the code is not preserved -/

/-- The unconditional claim for single instructions. -/
def AlwaysPreserved : Prop := ∀ (E : Env), EnvOk E → ∀ (b b' : Code) (op : Op) (data : List Byte),
  Built E b → (∀ a, act op = some a → data.length = dlen a) → op ≠ .PopOne →
  emit E.fneg b op data = some b' → ∀ m o, OkM m → Runs E (b.rall.reverse ++ op.code :: data) m o →
    ∃ o', Runs E b'.rall.reverse m o' ∧ SameO o o'

/-- A literal load emitted on empty code. -/
theorem built_int8 (x : Byte) : Built demoEnv ⟨[x, Op.LiteralInt8.code], [.LiteralInt8]⟩ :=
  .emit (b := ⟨[], []⟩) (op := .LiteralInt8) (data := [x]) .empty (by intro a h; cases h; rfl)
    (by simp) rfl

/-- Negating the literal `-128` leaves `-128`. -/
theorem C25_fails_negate : ¬AlwaysPreserved := by
  intro h
  obtain ⟨o', ⟨is, hd, hr⟩, hs⟩ := h demoEnv demo_ok ⟨[0x80, Op.LiteralInt8.code], [.LiteralInt8]⟩
    ⟨[0x80, Op.LiteralInt8.code], [.LiteralInt8]⟩ .Negate [] (built_int8 _)
    (by intro a h; cases h; rfl) (by simp) rfl squares _ squares_ok
    ⟨_, Decodes.pair .LiteralInt8 .Negate (d := [0x80]) (d' := []) rfl rfl rfl rfl,
      exe_runs (f := 3) rfl⟩
  have := hd.unique (Decodes.one .LiteralInt8 (d := [0x80]) rfl rfl)
  subst this
  obtain ⟨w, hw, hr⟩ := runs_lit.mp hr
  cases hw
  have hr : o' = .next (squares.push (.int 0xFFFFFF80#32)) := hr
  subst hr
  have := hs.agree.cell (.cell 8) (show 8 < 9 by decide)
  exact absurd this (by decide)

/-- The same for the wider case `-32768`. -/
theorem C25_fails_negate16 : ∃ b', emit demoEnv.fneg
      ⟨[0x80, 0, Op.LiteralInt16.code], [.LiteralInt16]⟩ .Negate [] = some b' ∧
    Differs demoEnv ⟨[0x80, 0, Op.LiteralInt16.code], [.LiteralInt16]⟩ [Op.Negate.code] b' squares :=
  ⟨_, rfl, differs_of 3 8
    (Decodes.pair .LiteralInt16 .Negate (d := [0, 0x80]) (d' := []) rfl rfl rfl rfl)
    (Decodes.one .LiteralInt16 (d := [0, 0x80]) rfl rfl) (x := .int 32768) (y := .int (-32768))
    rfl rfl (by decide)⟩

theorem ptr_dst {f : Nat → Val} (h : ∀ k < 8, ∀ p, ptr (f k) = some p → ∃ j, j < 8 ∧ p = .cell j) :
    OkM (dm (dst f)) :=
  dst_ok fun k hk p hp => by
    obtain ⟨j, hj, rfl⟩ := h k hk p hp
    exact hj

/-- Local 0 is an array, local 1 the number 1. -/
def mIndex : M := dm (dst fun | 4 => .arr 0 | 5 => .arr 0 | _ => .int 1)

/-- Indexing after two loads (`CheckFastLoad`): `register0`, the index, is loaded from the
container.  Here local 0 (an array) is indexed with local 2: the plain code yields the element,
the fused code makes local 2 an array or a table (not modelled: it does not run). -/
theorem C25_fails_index : OkM mIndex ∧
    emit demoEnv.fneg ⟨[2, Op.LoadFromLocal.code, 0, Op.LoadFromLocal.code],
      [.LoadFromLocal, .LoadFromLocal]⟩ .Index [] = some
        ⟨[Op.IndexSkipLoad.code, 2, 0, Op.LLValues.code], [.IndexSkipLoad]⟩ ∧
    obs demoEnv 9 [(.load .L, [0]), (.load .L, [2]), (.index .stack, [])] mIndex 8 =
      some (.mem (.cell 4) 1) ∧
    exe demoEnv 9 [(.values .L .L, [0, 2]), (.index .regs, [])] mIndex = .ub := by
  refine ⟨ptr_dst ?_, rfl, rfl, rfl⟩
  intro k _ p hp
  split at hp <;> simp [ptr] at hp

/-- The same with two numbers: the plain code makes local 0 (`7`) an array of 4 elements, the
fused one makes local 1 (`3`) an array of 8. -/
def mNum : M := dm (dst fun | 4 => .int 7 | 5 => .int 3 | _ => .int 1)

theorem C25_fails_index_numbers : ∃ b', OkM mNum ∧
    emit demoEnv.fneg ⟨[1, Op.LoadFromLocal.code, 0, Op.LoadFromLocal.code],
      [.LoadFromLocal, .LoadFromLocal]⟩ .Index [] = some b' ∧
    Differs demoEnv ⟨[1, Op.LoadFromLocal.code, 0, Op.LoadFromLocal.code],
      [.LoadFromLocal, .LoadFromLocal]⟩ [Op.Index.code] b' mNum := by
  refine ⟨_, ptr_dst ?_, rfl, differs_of 9 8
    (decodes_loads (o1 := .LoadFromLocal) (o2 := .LoadFromLocal) (i := 0) (j := 1) rfl rfl (op := .Index)
      rfl rfl)
    (Decodes.ins .LLValues (d := [0, 1]) rfl rfl (Decodes.one .IndexSkipLoad (d := []) rfl rfl))
    (x := .mem (.cell 4) 3) (y := .mem (.cell 5) 7) rfl rfl (by decide)⟩
  intro k _ p hp
  split at hp <;> simp [ptr] at hp

/-- Local 0 holds a float, local 1 an integer. -/
def mFloat : M := dm (dst fun | 4 => .float 0x3FC00000#32 | 5 => .int 2 | _ => .int 1)

theorem mFloat_ok : OkM mFloat := by
  refine ptr_dst ?_
  intro k _ p hp
  split at hp <;> simp [ptr] at hp

/-- `%` on a float: the plain code leaves the first operand, the fused code whatever was above the
stack top (99 here). -/
theorem C25_fails_skipLoad : ∃ b',
    emit demoEnv.fneg ⟨[1, Op.LoadFromLocal.code, 0, Op.LoadFromLocal.code],
      [.LoadFromLocal, .LoadFromLocal]⟩ .BinaryMod [] = some b' ∧
    Differs demoEnv ⟨[1, Op.LoadFromLocal.code, 0, Op.LoadFromLocal.code],
      [.LoadFromLocal, .LoadFromLocal]⟩ [Op.BinaryMod.code] b' mFloat :=
  ⟨_, rfl, differs_of 9 8
    (decodes_loads (o1 := .LoadFromLocal) (o2 := .LoadFromLocal) (i := 0) (j := 1) rfl rfl (op := .BinaryMod)
      rfl rfl)
    (Decodes.ins .LLValues (d := [0, 1]) rfl rfl (Decodes.one .BinaryModSkipLoad (d := []) rfl rfl))
    (x := .ref (.cell 4)) (y := .int 99) rfl rfl (by decide)⟩

/-- Global 0 is "a", local 0 is "b". -/
def mStr : M := dm (dst fun | 0 => .arr 1 | 4 => .arr 2 | _ => .int 1)

theorem mStr_ok : OkM mStr := by
  refine ptr_dst ?_
  intro k _ p hp
  split at hp <;> simp [ptr] at hp

/-- `GLBinaryAddition` serves both operand orders: the two concatenations come out the same. -/
theorem C25_fails_concat : ∃ b',
    emit demoEnv.fneg ⟨[0, Op.LoadFromLocal.code, 0, Op.LoadFromGlobal.code],
      [.LoadFromLocal, .LoadFromGlobal]⟩ .BinaryAddition [] = some b' ∧
    ∃ m1 m2, exe demoEnv 9 [(.load .G, [0]), (.load .L, [0]), (.bin .add .stack, [])] mStr = .ok (.next m1) ∧
      Runs demoEnv b'.rall.reverse mStr (.next m2) ∧
      m1.σ.obj 100 = .chars [0x62#8, 0x61#8] false ∧ m2.σ.obj 100 = .chars [0x61#8, 0x62#8] false :=
  ⟨_, rfl, _, _, rfl, ⟨_, Decodes.one .GLBinaryAddition (d := [0, 0]) rfl rfl, exe_runs (f := 9) rfl⟩,
    rfl, rfl⟩

/-- `i < 1.5` with the literal moved first: the comparison changes the type of the variable. -/
theorem C25_fails_compare : ∃ b', emit demoEnv.fneg
      ⟨[0x3F, 0xC0, 0, 0, Op.LiteralFloat.code, 1, Op.LoadFromLocal.code],
        [.LiteralFloat, .LoadFromLocal]⟩ .CompareLT [] = some b' ∧
    Differs demoEnv ⟨[0x3F, 0xC0, 0, 0, Op.LiteralFloat.code, 1, Op.LoadFromLocal.code],
        [.LiteralFloat, .LoadFromLocal]⟩ [Op.CompareLT.code] b' mFloat :=
  ⟨_, rfl, differs_of 9 5
    ((Decodes.ins .LoadFromLocal (d := [1]) rfl rfl (Decodes.ins .LiteralFloat (d := [0, 0, 0xC0, 0x3F]) rfl rfl
      (Decodes.one .CompareLT (d := []) rfl rfl))).of (by simp))
    ((Decodes.ins .LiteralFloat (d := [0, 0, 0xC0, 0x3F]) rfl rfl
      (Decodes.one .LSCompareGT (d := [1]) rfl rfl)).of (by simp))
    (x := .int 2) (y := .float 2) rfl rfl (by decide)⟩

/-- Local 0 is a reference to global 1 (a parameter of a function called with a variable). -/
def mParam : M := dm (dst fun | 4 => .ref (.cell 1) | _ => .int 10)

theorem mParam_ok : OkM mParam := by
  refine ptr_dst ?_
  intro k _ p hp
  split at hp
  · simp [ptr] at hp
    exact ⟨1, by decide, hp.symm⟩
  · simp [ptr] at hp

/-- `p = 5;` on such a parameter: the plain code sets the caller's variable, the fused one cuts
the reference. -/
theorem C25_fails_literal_store : ∃ b', emit demoEnv.fneg
      ⟨[Op.Assign.code, 0, Op.LoadFromLocal.code, 5, Op.LiteralInt8.code],
        [.Assign, .LoadFromLocal, .LiteralInt8]⟩ .PopOne [] = some b' ∧
    Differs demoEnv ⟨[Op.Assign.code, 0, Op.LoadFromLocal.code, 5, Op.LiteralInt8.code],
        [.Assign, .LoadFromLocal, .LiteralInt8]⟩ [Op.PopOne.code] b' mParam :=
  ⟨_, rfl, differs_of 9 1
    ((Decodes.ins .LiteralInt8 (d := [5]) rfl rfl (Decodes.ins .LoadFromLocal (d := [0]) rfl rfl
      (Decodes.ins .Assign (d := []) rfl rfl (Decodes.one .PopOne (d := []) rfl rfl)))).of (by simp))
    (Decodes.one .LiteralInt8ToLocal (d := [0, 5]) rfl rfl)
    (x := .int 5) (y := .int 10) rfl rfl (by decide)⟩

/-- `p++;` on such a parameter: likewise. -/
theorem C25_fails_increment : ∃ b', emit demoEnv.fneg
      ⟨[Op.PostIncrement.code, 0, Op.LoadFromLocal.code], [.PostIncrement, .LoadFromLocal]⟩ .PopOne [] =
        some b' ∧
    Differs demoEnv ⟨[Op.PostIncrement.code, 0, Op.LoadFromLocal.code], [.PostIncrement, .LoadFromLocal]⟩
      [Op.PopOne.code] b' mParam :=
  ⟨_, rfl, differs_of 9 4
    ((Decodes.ins .LoadFromLocal (d := [0]) rfl rfl (Decodes.ins .PostIncrement (d := []) rfl rfl
      (Decodes.one .PopOne (d := []) rfl rfl))).of (by simp))
    (Decodes.one .IncLocal (d := [0]) rfl rfl)
    (x := .ref (.cell 1)) (y := .int 11) rfl rfl (by decide)⟩

/-- A negative literal index: 8-bit literals are sign extended, the fused index is not. -/
theorem C25_fails_negative_index : ∃ b', emit demoEnv.fneg
      ⟨[0xFF, Op.LiteralInt8.code, 1, Op.LoadFromLocal.code], [.LiteralInt8, .LoadFromLocal]⟩ .Index [] =
        some b' ∧
    Differs demoEnv ⟨[0xFF, Op.LiteralInt8.code, 1, Op.LoadFromLocal.code], [.LiteralInt8, .LoadFromLocal]⟩
      [Op.Index.code] b' mNum :=
  ⟨_, rfl, differs_of 9 8
    ((Decodes.ins .LoadFromLocal (d := [1]) rfl rfl (Decodes.ins .LiteralInt8 (d := [0xFF]) rfl rfl
      (Decodes.one .Index (d := []) rfl rfl))).of (by simp))
    ((Decodes.ins .LoadFromLocal (d := [1]) rfl rfl
      (Decodes.one .IndexLiteral8 (d := [0xFF]) rfl rfl)).of (by simp))
    (x := .mem (.cell 5) 0x1FFFFF) (y := .mem (.cell 5) 255) rfl rfl (by decide)⟩

/-- Appending code with an empty cache leaves the old cache in place: it no longer describes the
end of the code, and the next emission rewrites bytes of another instruction.  Here the cleared
piece is `LLBinaryAddition 0 1` (fusing clears the cache), appended after `LoadFromLocal 2`; the
`BZ` emitted next overwrites the addition's first operand byte. -/
theorem C25_fails_stale_cache : ∃ b1 b2,
    appendCode demoEnv.fneg ⟨ldL 2, [.LoadFromLocal]⟩ ⟨[1, 0, Op.LLBinaryAddition.code], []⟩ = some b1 ∧
    emit demoEnv.fneg b1 .BZ [0, 0] = some b2 ∧
    b2.rall.reverse = [Op.LoadFromLocal.code, 2, Op.LLBinaryAddition.code, Op.LocalBZ.code, 1, 0, 0] :=
  ⟨_, _, rfl, rfl, rfl⟩

/-- An addition emitted when the cache holds a single load reads before the cache. -/
theorem C25_fails_short_cache : emit demoEnv.fneg ⟨[0, Op.LoadFromLocal.code, 5, Op.LiteralInt8.code],
    [.LoadFromLocal]⟩ .BinaryAddition [] = none := rfl

end Wrench.Peep
