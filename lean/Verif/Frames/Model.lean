/-
Calls, returns and yields of the interpreter: discrete_src/vm/vm.cpp `wr_callFunction`
664-860 (entry, resume, Yield), CallFunctionByIndex 1011-1067, PushIndexFunctionReturnValue,
CallLibFunction(AndPop) 1076-1136, ReturnZero/Return 1247-1272, Stop 1290-1312; the yield
interface of utils.cpp 239-262.

Simplifications.  Code is a map from positions to instructions (the byte encoding is in
Verif/Bytes and Verif/Vm).  All other instructions are `plain`: a function on memory with a
number of operands taken and left; some are defined at the end.  A library function computes
one result from its arguments.  Calls into imported contexts and host callbacks by hash and
debug directives are not modelled; time slices are in Slice.lean.
-/
namespace Wrench.Frames

abbrev Word32 := BitVec 32

/-- A stack slot, or a cell outside the stack (globals, heap). -/
inductive Addr where
  | s (i : Nat)
  | h (i : Nat)
deriving DecidableEq, Repr

/-- `WRValue`, wrench.h.  `frame` is the return vector (`frame`, `returnOffset`); `nul` is a slot
whose payload was cleared while its type was something other than an integer. -/
inductive Val where
  | int (w : Word32)
  | obj (n : Nat)
  | ref (a : Addr)
  | mem (a : Addr) (k : Nat)
  | frame (fb ret : Nat)
  | nul
deriving DecidableEq, Repr

/-- The address a value gives access to. -/
def Val.ptr : Val → Option Addr
  | .ref a => some a
  | .mem a _ => some a
  | _ => none

structure Mem where
  stk : Nat → Val
  heap : Nat → Val

def Mem.get (m : Mem) : Addr → Val
  | .s i => m.stk i
  | .h i => m.heap i

def Mem.put (m : Mem) (a : Addr) (v : Val) : Mem :=
  match a with
  | .s i => { m with stk := fun j => if j = i then v else m.stk j }
  | .h i => { m with heap := fun j => if j = i then v else m.heap j }

/-- Outcomes of a part of an instruction: `err` is a run-time error reported by the
interpreter, `ub` undefined behaviour. -/
inductive Res (α : Type) where
  | ok (a : α)
  | err
  | ub
deriving DecidableEq, Repr

/-- An instruction that stays within its frame: operands taken, operands left, jump targets,
whether it can continue with the next instruction, whether CHECK_STACK (vm.cpp 176) follows, effect
given frame base, stack top and memory.  The result names the jump target if it jumps. -/
structure Plain where
  need : Nat
  push : Nat
  targets : List Nat
  falls : Bool := true
  checked : Bool := true
  run : Nat → Nat → Mem → Res (Mem × Option Nat)

/-- `WRFunction`, wrench.h. -/
structure Fn where
  entry : Nat
  arguments : Nat
  frameSpaceNeeded : Nat
  frameBaseAdjustment : Nat
deriving DecidableEq, Repr

inductive Instr where
  | plain (p : Plain)
  /-- CallFunctionByIndex: function, number of arguments pushed -/
  | call (g n : Nat)
  /-- PushIndexFunctionReturnValue -/
  | pushRet
  | ret
  | retZero
  | lib (k n : Nat)
  | libPop (k n : Nat)
  | yield (n : Nat)
  | stop

structure Prog where
  code : Nat → Option Instr
  fns : Nat → Option Fn
  /-- slots from here on are out of bounds, vm.cpp 681 -/
  limit : Nat
  /-- the payload of a value read as an integer -/
  bits : Val → Word32
  /-- the value of a container member -/
  elem : Mem → Addr → Nat → Val
  /-- library functions; `none` is an error -/
  lib : Nat → List Val → Mem → Option Val

/-- The state of the interpreter loop.  `r0` is `register0` when a return has just set it. -/
structure M where
  mem : Mem
  top : Nat
  fb : Nat
  pc : Nat
  r0 : Option Nat

/-- What the context keeps while yielded (`yield_pc`, `yield_stackTop`, `yield_frameBase`,
`yieldArgs`), wrench.h. -/
structure Ctx where
  mem : Mem
  pc : Nat
  top : Nat
  fb : Nat
  args : Nat

inductive Out where
  | run (m : M)
  | yielded (c : Ctx)
  | done (v : Val) (mem : Mem)
  | err
  | ub

/-- Bound on the length of a reference chain that descends. -/
def Val.rank : Val → Nat
  | .ref (.s i) => i + 1
  | _ => 0

/-- `WRValue::deref`, operations.cpp 142-178, with a bound on the chain. -/
def derefF (P : Prog) (mem : Mem) : Nat → Val → Res Val
  | 0, _ => .ub
  | f + 1, .ref a => derefF P mem f (mem.get a)
  | _ + 1, .mem a k => .ok (P.elem mem a k)
  | _ + 1, v => .ok v

/-- `deref` of a value.  A chain longer than the number of slots below it is reported as `ub`:
it does not descend. -/
def deref (P : Prog) (mem : Mem) (v : Val) : Res Val := derefF P mem (v.rank + 2) v

/-- `p2 = INIT_AS_INT`: the payload stays. -/
def Prog.asInt (P : Prog) : Val → Val
  | .int w => .int w
  | .nul => .int 0
  | v => .int (P.bits v)

/-- `p = 0`: the type stays. -/
def clearP : Val → Val
  | .int _ => .int 0
  | _ => .nul

/-- The loop clearing missing arguments, vm.cpp 1028-1036 (with CHECK_STACK). -/
def fillArgs (limit : Nat) : Nat → Mem → Nat → Option (Mem × Nat)
  | 0, mem, top => some (mem, top)
  | k + 1, mem, top =>
    if limit ≤ top + 1 then none
    else fillArgs limit k (mem.put (.s top) (.int 0)) (top + 1)

/-- The loop initialising locals, vm.cpp 1048-1053: the type of each local, and the payload of
the slot *after* it. -/
def initLocals (P : Prog) : Nat → Mem → Nat → Mem × Nat
  | 0, mem, top => (mem, top)
  | k + 1, mem, top =>
    let mem := mem.put (.s top) (P.asInt (mem.stk top))
    initLocals P k (mem.put (.s (top + 1)) (clearP (mem.stk (top + 1)))) (top + 1)

/-- The code from `callFunction:` on, vm.cpp 1019-1066. -/
def callFn (P : Prog) (F : Fn) (n : Nat) (m : M) (ret : Nat) : Out :=
  let filled := if F.arguments < n then some (m.mem, m.top - (n - F.arguments))
    else fillArgs P.limit (F.arguments - n) m.mem m.top
  match filled with
  | none => .err
  | some (mem, top) =>
    if P.limit ≤ top + F.frameSpaceNeeded + 2 then .err
    else
      let (mem, top) := initLocals P F.frameSpaceNeeded mem top
      let mem := mem.put (.s top) (.frame m.fb ret)
      let top := top + 1
      if P.limit ≤ top then .err
      else .run { mem := mem, top := top, fb := top - F.frameBaseAdjustment, pc := F.entry, r0 := none }

/-- Return, vm.cpp 1253-1260. -/
def doRet (m : M) : Out :=
  if m.top < 2 then .ub
  else match m.mem.stk (m.top - 2) with
    | .frame fb ret => .run { m with top := m.fb, fb := fb, pc := ret, r0 := some (m.top - 2) }
    | _ => .ub

/-- The slots `[a, a+n)`. -/
def slots (mem : Mem) (a n : Nat) : List Val := (List.range n).map fun i => mem.stk (a + i)

/-- One instruction.  `base` is `stackBase`. -/
def step (P : Prog) (base : Nat) (m : M) : Out :=
  match P.code m.pc with
  | none => .ub
  | some (.plain p) =>
    if m.top < p.need then .ub
    else match p.run m.fb m.top m.mem with
      | .ok (mem, j) =>
        -- CHECK_STACK
        if p.checked = true ∧ p.need < p.push ∧ P.limit ≤ m.top - p.need + p.push then .err
        else .run { m with mem := mem, top := m.top - p.need + p.push, pc := j.getD (m.pc + 1),
                           r0 := none }
      | .err => .err
      | .ub => .ub
  | some (.call g n) =>
    if m.top < n then .ub
    else match P.fns g with
      | none => .ub
      | some F => callFn P F n m (m.pc + 1)
  | some .pushRet =>
    match m.r0 with
    | none => .ub
    | some r => match deref P m.mem (m.mem.stk (r + 1)) with
      | .ok v =>
        if P.limit ≤ m.top + 1 then .err
        else .run { m with mem := m.mem.put (.s m.top) v, top := m.top + 1, pc := m.pc + 1,
                           r0 := some (r + 1) }
      | .err => .err
      | .ub => .ub
  | some .ret => doRet m
  | some .retZero =>
    if P.limit ≤ m.top + 1 then .err
    else doRet { m with mem := m.mem.put (.s m.top) (.int 0), top := m.top + 1 }
  | some (.lib k n) =>
    if m.top < n then .ub
    else match P.lib k (slots m.mem (m.top - n) n) m.mem with
      | none => .err
      | some v =>
        let mem := m.mem.put (.s m.top) v
        if n = 0 then
          if P.limit ≤ m.top + 1 then .err
          else .run { m with mem := mem, top := m.top + 1, pc := m.pc + 1, r0 := none }
        else
          let top := m.top - (n - 1)
          let mem := mem.put (.s (top - 1)) (mem.stk (top + (n - 1)))
          if P.limit ≤ top then .err
          else .run { m with mem := mem, top := top, pc := m.pc + 1, r0 := none }
  | some (.libPop k n) =>
    if m.top < n then .ub
    else match P.lib k (slots m.mem (m.top - n) n) m.mem with
      | none => .err
      | some v => .run { m with mem := m.mem.put (.s m.top) v, top := m.top - n, pc := m.pc + 1,
                                r0 := none }
  -- vm.cpp 828-845
  | some (.yield n) =>
    .yielded { mem := m.mem.put (.s m.top) (.int 0), pc := m.pc + 1, top := m.top, fb := m.fb,
               args := n }
  -- vm.cpp 1295-1312
  | some .stop =>
    match m.r0 with
    | none => .ub
    | some r =>
      let mem := m.mem.put (.s base) (m.mem.stk (r + 1))
      match deref P mem (mem.stk base) with
      | .ok v => .done v mem
      | .err => .err
      | .ub => .ub

/-- The host writes the value `yield()` is to have: `*returnValue` of `wr_getYieldInfo`,
utils.cpp 257. -/
def Ctx.setResult (c : Ctx) (v : Val) : Ctx := { c with mem := c.mem.put (.s c.top) v }

/-- What the host sees of the arguments of `yield(…)`, utils.cpp 244-255. -/
def Ctx.yieldArguments (c : Ctx) : List Val := slots c.mem (c.top - c.args) c.args

/-- The resumption at the start of `wr_callFunction`, vm.cpp 684-709. -/
def resume (c : Ctx) : M :=
  let mem := if c.args ≠ 0 then c.mem.put (.s (c.top - c.args)) (c.mem.stk c.top) else c.mem
  let top := if c.args ≠ 0 then c.top - c.args else c.top
  { mem := mem, top := top + 1, fb := c.fb, pc := c.pc, r0 := none }

/-- `wr_continue`, vm.cpp 294-303: `yielded` is what the context keeps, if it has yielded. -/
def wrContinue (yielded : Option Ctx) : Option M := yielded.map resume

/-- The entry of `wr_callFunction` for a host call of a script function, vm.cpp 684-733:
`base` is `stackBase`, `stop` the context's `stopLocation`.  A yielded context is resumed
whatever the arguments. -/
def hostCall (P : Prog) (yielded : Option Ctx) (base stop : Nat) (mem : Mem) (F : Fn)
    (argv : List Val) : Out :=
  match yielded with
  | some c => .run (resume c)
  | none =>
    let mem := mem.put (.s base) (.int 0)
    let mem := { mem with stk := fun i =>
      if base + 1 ≤ i then (argv[i - (base + 1)]?).getD (mem.stk i) else mem.stk i }
    callFn P F argv.length
      { mem := mem, top := base + 1 + argv.length, fb := 0, pc := stop, r0 := none } stop

/-- The linker's function record, link.cpp 119-138 (`frameBaseAdjustment` is a byte). -/
def linkFn (entry arguments locals : Nat) : Fn :=
  { entry := entry, arguments := arguments, frameSpaceNeeded := locals,
    frameBaseAdjustment := (1 + arguments + locals) % 256 }

/-- The host answers a yield with the value `v` and continues. -/
def answer (v : Val) : Out → Out
  | .yielded c => .run (resume (c.setResult v))
  | o => o

/-- One instruction, with the host answering a yield with the value `v`. -/
def stepH (P : Prog) (base : Nat) (v : Val) (m : M) : Out := answer v (step P base m)

/-! ### Some plain instructions -/

namespace Instr

/-- Literals: LiteralZero, LiteralInt8, LiteralInt16, vm.cpp 756-762 and 1631-1647. -/
def lit (v : Val) : Plain :=
  { need := 0, push := 1, targets := [], run := fun _ top mem => .ok (mem.put (.s top) v, none) }

/-- LiteralInt32 and LiteralFloat, vm.cpp 749-754, 764-769 and 1707-1710: no CHECK_STACK. -/
def litWide (v : Val) : Plain :=
  { need := 0, push := 1, targets := [], checked := false,
    run := fun _ top mem => .ok (mem.put (.s top) v, none) }

/-- LoadFromLocal, vm.cpp 1428-1434: a reference to the variable. -/
def loadLocal (i : Nat) : Plain :=
  { need := 0, push := 1, targets := [],
    run := fun fb top mem => .ok (mem.put (.s top) (.ref (.s (fb + i))), none) }

/-- LoadFromGlobal, vm.cpp 1436-1442. -/
def loadGlobal (i : Nat) : Plain :=
  { need := 0, push := 1, targets := [],
    run := fun _ top mem => .ok (mem.put (.s top) (.ref (.h i)), none) }

/-- A binary operator: operands dereferenced, result in place of the lower one. -/
def binary (P : Prog) (g : Val → Val → Word32) : Plain :=
  { need := 2, push := 1, targets := [],
    run := fun _ top mem =>
      match deref P mem (mem.stk (top - 1)), deref P mem (mem.stk (top - 2)) with
      | .ok a, .ok b => .ok (mem.put (.s (top - 2)) (.int (g b a)), none)
      | _, _ => .ub }

/-- PopOne. -/
def pop : Plain :=
  { need := 1, push := 0, targets := [], run := fun _ _ mem => .ok (mem, none) }

def jump (t : Nat) : Plain :=
  { need := 0, push := 0, targets := [t], falls := false, run := fun _ _ mem => .ok (mem, some t) }

/-- BZ. -/
def bz (P : Prog) (z : Val → Bool) (t : Nat) : Plain :=
  { need := 1, push := 0, targets := [t],
    run := fun _ top mem =>
      match deref P mem (mem.stk (top - 1)) with
      | .ok v => .ok (mem, if z v then some t else none)
      | _ => .ub }

/-- The variable an address stands for: references are followed. -/
def place (mem : Mem) : Nat → Addr → Option Addr
  | 0, _ => none
  | f + 1, a => match mem.get a with
    | .ref b => place mem f b
    | _ => some a

/-- AssignToLocalAndPop, vm.cpp 1590-1600: a by-reference argument is assigned through. -/
def storeLocal (P : Prog) (i : Nat) : Plain :=
  { need := 1, push := 0, targets := [],
    run := fun fb top mem =>
      match deref P mem (mem.stk (top - 1)), place mem (fb + i + 2) (.s (fb + i)) with
      | .ok v, some a => .ok (mem.put a v, none)
      | _, _ => .ub }

/-- AssignToGlobalAndPop. -/
def storeGlobal (P : Prog) (i : Nat) : Plain :=
  { need := 1, push := 0, targets := [],
    run := fun _ top mem =>
      match deref P mem (mem.stk (top - 1)) with
      | .ok v => .ok (mem.put (.h i) v, none)
      | _ => .ub }

end Instr

end Wrench.Frames
