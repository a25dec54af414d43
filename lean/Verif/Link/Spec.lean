import Verif.Link.Model

/-
What the linked image is to mean: how the interpreter reads a call, and which calls a unit's
references stand for.
-/
namespace Wrench.Link

/-- `bs` is in the image at `p`. -/
def At (l : List Byte) (p : Nat) (bs : List Byte) : Prop :=
  ∀ j, j < bs.length → l[p + j]? = bs[j]?

/-- What a call instruction does: script function `k` of this image, a function found by hash at
run time (result dropped or not), or a yield; with the number of arguments and the position of
the next instruction. -/
inductive Target where
  | fn (k args next : Nat)
  | extern (h : Word32) (pop : Bool) (args next : Nat)
  | yield (args next : Nat)
deriving DecidableEq, Repr

/-- How the interpreter reads a call, discrete_src/vm/vm.cpp 828-832 (Yield), 862-870
(CallFunctionByHash), 963-968 (CallFunctionByHashAndPop), 1011-1018 (CallFunctionByIndex). -/
def decodeCall (img : List Byte) (p : Nat) : Option Target := do
  let op ← read8 img p
  let args ← read8 img (p + 1)
  if op = Vm.Op.Yield.code then return .yield args.toNat (p + 2)
  else if op = Vm.Op.CallFunctionByIndex.code then
    let k ← read8 img (p + 2)
    let skip ← read8 img (p + 3)
    return .fn k.toNat args.toNat (p + 3 + skip.toNat)
  else if op = Vm.Op.CallFunctionByHash.code then
    let h ← read32 img (p + 2)
    return .extern h false args.toNat (p + 6)
  else if op = Vm.Op.CallFunctionByHashAndPop.code then
    let h ← read32 img (p + 2)
    return .extern h true args.toNat (p + 6)
  else none

/-- The bytes a call takes in the unit's code: `yield` two, other calls six
(cc.cpp 1519-1535). -/
def width (s : Word32 × Nat) : Nat := if s.1 = yieldHash then 2 else 6

/-- Intervals `[a, a+m)` and `[b, b+n)` are disjoint. -/
def Apart (a m b n : Nat) : Prop := a + m ≤ b ∨ b + n ≤ a

/-- What the compiler guarantees of a unit's references: calls and `new` operands do not overlap,
are within the code, and a call is not on top of a NewObjectTable. -/
structure UnitOk (u : CUnit) : Prop where
  calls : (sites u.calls).Pairwise fun a b => Apart a.2 (width a) b.2 (width b)
  news : (sites u.news).Pairwise fun a b => Apart a.2 2 b.2 2
  mixed : ∀ c ∈ sites u.calls, ∀ n ∈ sites u.news, Apart c.2 (width c) n.2 2
  range : ∀ c ∈ sites u.calls, c.2 + width c ≤ u.code.length
  newRange : ∀ n ∈ sites u.news, n.2 + 2 ≤ u.code.length
  opcode : ∀ c ∈ sites u.calls, u.code[c.2]? ≠ some Vm.Op.NewObjectTable.code

/-- The result of the call is dropped, or the call is for a `new`. -/
def dropped (u : CUnit) (s : Word32 × Nat) : Bool :=
  u.code[s.2 + 5]? == some Vm.Op.PopOne.code || u.code[s.2 + 6]? == some Vm.Op.NewObjectTable.code

/-- What reference `s` of a unit placed at `fo` stands for. -/
def meant (fns : List CUnit) (fo : Nat) (u : CUnit) (s : Word32 × Nat) : Option Target :=
  (u.code[s.2 + 1]?).map fun args =>
    if s.1 = yieldHash then .yield args.toNat (fo + s.2 + 2)
    else match firstFn fns s.1 with
      | some k => .fn k args.toNat (fo + s.2 + if dropped u s then 6 else 5)
      | none => .extern s.1 (u.code[s.2 + 5]? == some Vm.Op.PopOne.code) args.toNat (fo + s.2 + 6)

/-- The unit's code is in the image at `fo`, apart from the operands of `new` (which are described
separately): outside calls it is unchanged, and calls are what they stand for.  A call to a script
function whose result is used goes on at an instruction that pushes it. -/
structure Body (fns : List CUnit) (img : List Byte) (fo : Nat) (u : CUnit) : Prop where
  plain : ∀ i, i < u.code.length →
    (∀ c ∈ sites u.calls, i < c.2 ∨ c.2 + width c ≤ i) →
    (∀ n ∈ sites u.news, i < n.2 ∨ n.2 + 2 ≤ i) → img[fo + i]? = u.code[i]?
  calls : ∀ s ∈ sites u.calls, ∃ t, meant fns fo u s = some t ∧ decodeCall img (fo + s.2) = some t
  pushes : ∀ s ∈ sites u.calls, s.1 ≠ yieldHash → firstFn fns s.1 ≠ none → dropped u s = false →
    img[fo + s.2 + 5]? = some Vm.Op.PushIndexFunctionReturnValue.code

/-- The limits of the format: the counts kept in a byte. -/
structure Fits (u : CUnit) : Prop where
  args : u.arguments ≤ u.locals.length
  locals : u.locals.length ≤ 254

/-- What the caller of the linker guarantees.  No function is called `yield`. -/
structure ProgramOk (P : Program) : Prop where
  nonempty : P.main.code ≠ []
  main : UnitOk P.main
  fns : ∀ u ∈ P.fns, UnitOk u ∧ Fits u
  yield : ∀ u ∈ P.fns, u.hash ≠ yieldHash

/-- Unit `u` is in the image at `fo`, and the operand of each of its `new`s on a function of the
image is the namespace offset the loader has for that function. -/
structure UnitIn (P : Program) (img : List Byte) (c : Ctx) (fo : Nat) (u : CUnit) : Prop where
  inside : fo + u.code.length + 4 ≤ img.length
  body : Body P.fns img fo u
  news : ∀ n ∈ sites u.news, ∀ t, firstFn P.fns n.1 = some t → ∃ r, c.functions[t]? = some r ∧
    read16 img (fo + n.2) = some r.namespaceOffset

/-- Function `k` is exported, or some `new` names it. -/
def Instanced (P : Program) (k : Nat) (u : CUnit) : Prop :=
  u.exportNamespace = true ∨ ∃ v ∈ P.main :: P.fns, ∃ n ∈ sites v.news, firstFn P.fns n.1 = some k

/-- Function `k` as loaded is function `k` of the program. -/
structure FnIn (P : Program) (img : List Byte) (c : Ctx) (k : Nat) (u : CUnit) (r : FnRec) : Prop where
  hash : r.hash = u.hash
  args : r.arguments.toNat = u.arguments
  frame : r.frameSpaceNeeded.toNat = u.locals.length - u.arguments
  adjust : r.frameBaseAdjustment.toNat = 1 + u.locals.length
  code : UnitIn P img c r.functionOffset.toNat u
  map : Instanced P k u →
    ∃ m, localMap u = .ok m ∧ ((m = [] ∧ r.namespaceOffset = 0#16) ∨
      (m ≠ [] ∧ 3 ≤ r.namespaceOffset.toNat ∧ At img r.namespaceOffset.toNat m))
  noMap : ¬ Instanced P k u → r.namespaceOffset = 0#16

end Wrench.Link
