import Verif.Bytes.Model

/-
Calls of library functions from the interpreter (discrete_src/vm/vm.cpp 1076-1138, both builds), the
`math::` library (discrete_src/lib/std_math.cpp 30-284) and `sys::halt` (discrete_src/lib/std_sys.cpp
91-99).

A `WRValue` is an int, a float (its 32 payload bits) or something else (`other k`: a reference,
string, container; what `asInt` and `asFloat` make of it is arbitrary, `Env`).  The functions of the C
math library are arbitrary functions of the payload bits.  A library function gets the machine and the
number of arguments and may change the machine in any way; `none` is undefined behaviour.  Not
modelled: the look-up of the function (C47, C72), the bytes of the instruction (C45).
-/
namespace Wrench.MathLib

/-- A stack slot. -/
inductive Val where
  | int (w : Word32)
  | float (w : Word32)
  | other (k : Nat)
deriving DecidableEq, Repr

/-- The one-argument functions, std_math.cpp 30-117, 130-197, 220-227, 245-262. -/
inductive Fn1 where
  | sin | cos | tan | sinh | cosh | tanh | asin | acos | atan | log | log10 | exp | sqrt | ceil
  | floor | abs | trunc | rad2deg | deg2rad
deriving DecidableEq, Repr

/-- The two-argument functions, std_math.cpp 120-127, 200-217, 230-237. -/
inductive Fn2 where
  | atan2 | pow | fmod | ldexp
deriving DecidableEq, Repr

/-- The C math library and the conversions; `c2 f x y` is the C function of that name with `x` as its
first and `y` as its second argument (`ldexpf`'s second argument is an int). -/
structure Env where
  ofInt : Word32 → Word32
  toInt : Word32 → Word32
  intOf : Nat → Word32
  floatOf : Nat → Word32
  payload : Nat → Word32
  c1 : Fn1 → Word32 → Word32
  c2 : Fn2 → Word32 → Word32 → Word32

/-- `WRValue::asInt`, utils.cpp 598-610. -/
def asInt (E : Env) : Val → Word32
  | .int w => w
  | .float w => E.toInt w
  | .other k => E.intOf k

/-- `WRValue::asFloat`, utils.cpp 613-625. -/
def asFloat (E : Env) : Val → Word32
  | .float w => w
  | .int w => E.ofInt w
  | .other k => E.floatOf k

/-- `p2 = INIT_AS_FLOAT`: the payload keeps its bits. -/
def retypeFloat (E : Env) : Val → Val
  | .int w => .float w
  | .float w => .float w
  | .other k => .float (E.payload k)

/-- The interpreter's stack, `stackTop` (as an index) and `w->err` (a `uint8_t`, wrench.h 1188). -/
structure Mach where
  stack : Int → Val
  top : Int
  err : Byte

def Mach.put (m : Mach) (i : Int) (v : Val) : Mach :=
  { m with stack := fun j => if j = i then v else m.stack j }

/-- A library callback `lcb( stackTop, argn, context )`. -/
abbrev Lib := Mach → Nat → Option Mach

/-- `wr_math_sin` and the other one-argument functions, std_math.cpp 30-37. -/
def math1 (E : Env) (f : Fn1) : Lib := fun m argn =>
  let m := m.put m.top (retypeFloat E (m.stack m.top))
  if argn = 1 then some (m.put m.top (.float (E.c1 f (asFloat E (m.stack (m.top - 1))))))
  else some m

/-- `wr_math_atan2`, `wr_math_pow`, `wr_math_fmod`, std_math.cpp 120-127, 200-217, and
`wr_math_ldexp`, 230-237. -/
def math2 (E : Env) (f : Fn2) : Lib := fun m argn =>
  let m := m.put m.top (retypeFloat E (m.stack m.top))
  if argn = 2 then
    let x := asFloat E (m.stack (m.top - 1))
    let y := if f = .ldexp then asInt E (m.stack (m.top - 2)) else asFloat E (m.stack (m.top - 2))
    some (m.put m.top (.float (E.c2 f x y)))
  else some m

/-- The values of an `int64_t`. -/
def fits64 (i : Int) : Bool := -9223372036854775808 ≤ i && i < 9223372036854775808

/-- The 32-bit value stored by `stackTop->i = res`: the payload only. -/
def storeInt (m : Mach) (w : Word32) : Mach :=
  match m.stack m.top with
  | .int _ => m.put m.top (.int w)
  | .float _ => m.put m.top (.float w)
  | .other k => m.put m.top (.other k)

/-- `wr_intScale`, std_math.cpp 265-284: the product and the quotient are `int64_t` (undefined if
they do not fit), the result is cut to 32 bits. -/
def intScale (E : Env) : Lib := fun m argn =>
  if argn > 2 then
    let args := m.top - argn
    let dvsr := asInt E (m.stack (args + 2))
    if dvsr ≠ 0#32 then
      let fac1 := asInt E (m.stack args)
      let fac2 := asInt E (m.stack (args + 1))
      let p := fac1.toInt * fac2.toInt
      let q := p.tdiv dvsr.toInt
      if fits64 p && fits64 q then some (storeInt m (BitVec.ofInt 32 q)) else none
    else some (storeInt m 0#32)
  else some (storeInt m 0#32)

/-- `WR_USER`, `WR_ERR_LAST`, `WR_ERR_USER_err_out_of_range`, wrench.h 204-276. -/
def wrUser : Nat := 100
def wrLast : Nat := 255
def wrOutOfRange : Byte := 50#8

/-- `wr_halt`, std_sys.cpp 91-99. -/
def halt (E : Env) : Lib := fun m argn =>
  if argn > 0 then
    let e := asInt E (m.stack (m.top - argn))
    some { m with err := if e.toNat ≤ wrUser ∨ e.toNat > wrLast then wrOutOfRange
                         else BitVec.ofNat 8 e.toNat }
  else some m

/-- What the interpreter does next: the following instruction, or `return 0`. -/
inductive Out where
  | go (m : Mach)
  | stop (m : Mach)

/-- `WR_ERR_stack_overflow`. -/
def wrOverflow : Byte := 38#8

/-- `CHECK_STACK`, vm.cpp 176. -/
def checkStack (limit : Int) (m : Mach) : Out :=
  if m.top ≥ limit then .stop { m with err := wrOverflow } else .go m

/-- `CallLibFunction`, vm.cpp 1076-1116.  `args` is an `int`; the compact build decrements it without
looking at it. -/
def callLib (compact : Bool) (limit : Int) (f : Lib) (argn : Nat) (m : Mach) : Option Out :=
  match f (m.put m.top (.int 0#32)) argn with
  | none => none
  | some m1 =>
    let m2 :=
      if compact then
        let args : Int := argn - 1
        let top := m1.top - args
        { m1 with top := top }.put (top - 1) (m1.stack (top + args))
      else if argn ≠ 0 then
        let args : Int := argn - 1
        let top := m1.top - args
        { m1 with top := top }.put (top - 1) (m1.stack (top + args))
      else { m1 with top := m1.top + 1 }
    if m2.err ≠ 0#8 then some (.stop m2) else some (checkStack limit m2)

/-- `CallLibFunctionAndPop`, vm.cpp 1118-1138: the result slot is not cleared, the result is dropped. -/
def callLibPop (f : Lib) (argn : Nat) (m : Mach) : Option Out :=
  match f m argn with
  | none => none
  | some m1 =>
    let m2 := { m1 with top := m1.top - argn }
    if m2.err ≠ 0#8 then some (.stop m2) else some (.go m2)

/-- `CallFunctionByHash`, the branch of a native function, vm.cpp 866-872, 937-957: the callback may
itself run scripts and leave `w->err` as it likes; the interpreter does not look at it. -/
def callNative (limit : Int) (f : Lib) (argn : Nat) (m : Mach) : Option Out :=
  match f (m.put m.top (.int 0#32)) argn with
  | none => none
  | some m1 =>
    if argn ≠ 0 then
      let top := m1.top - ((argn : Int) - 1)
      some (checkStack limit ({ m1 with top := top }.put (top - 1) (m1.stack m1.top)))
    else some (checkStack limit { m1 with top := m1.top + 1 })

/-- One statement or push of a script, as far as it matters here. -/
inductive Instr where
  | push (v : Val)
  | lib (f : Lib) (argn : Nat)
  | libPop (f : Lib) (argn : Nat)
  | native (f : Lib) (argn : Nat)

def step (compact : Bool) (limit : Int) (m : Mach) : Instr → Option Out
  | .push v => some (checkStack limit { m.put m.top v with top := m.top + 1 })
  | .lib f n => callLib compact limit f n m
  | .libPop f n => callLibPop f n m
  | .native f n => callNative limit f n m

/-- Run straight-line code; the interpreter leaves at the first stop. -/
def run (compact : Bool) (limit : Int) : List Instr → Mach → Option Out
  | [], m => some (.go m)
  | i :: r, m =>
    match step compact limit m i with
    | none => none
    | some (.stop m') => some (.stop m')
    | some (.go m') => run compact limit r m'

end Wrench.MathLib
