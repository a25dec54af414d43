import Verif.Flow.Props

/-
How the code of a unit ends, and what happens to control after it: the end of `parseUnit`
(cc/cc.cpp 1932-1943), the end of `compile` (cc/cc.cpp 139-149), `GlobalStop` and `Stop`
(vm/vm.cpp 1287-1306), the entry of `wr_callFunction` (vm/vm.cpp 711-737) and `wr_executeContext`
(utils/utils.cpp 450-460).

Simplifications, beyond those of Flow/Model.lean: a position counts instructions, `LiteralZero` and
the return after it being one.  A function called by the host is what its body does to the state
(its code is not part of this model).
-/
namespace Wrench.Flow

open Wrench

variable {σ ρ : Type}

/-- `O_Return`, `O_ReturnZero` or `O_GlobalStop`? -/
def Instr.isRet : Instr σ ρ → Bool
  | .ret _ => true
  | _ => false

/-- Is the last opcode in the cache a return?  cc/cc.cpp 141-142 and 1934-1936. -/
def CS.endsRet (k : CS σ ρ) : Bool :=
  match k.code.getLast? with
  | some i => i.isRet
  | none => false

/-- The end of a unit, cc/cc.cpp 1934-1939 (a function) and 141-147 (the top level): a return of
zero is added unless the last opcode is a return. -/
def CS.finish (zero : ρ) (k : CS σ ρ) : CS σ ρ :=
  if k.endsRet = true then k else k.emit (.ret fun x => (zero, x))

/-- A unit, ready to be linked. -/
def unit (zero : ρ) (s : Stmt σ ρ) : Option (CS σ ρ) := (compileUnit s).map (CS.finish zero)

/-! ### The top level and the host -/

/-- How a run of the top-level code ends: a return delivers a value and `stopLocation` is the
position after it (vm/vm.cpp 1287-1295); if `Stop`, which follows the code, is reached otherwise, its
result is whatever a register points at (`stale`). -/
inductive End (σ ρ : Type) where
  | value (r : ρ) (st : σ) (stop : Nat)
  | stale (st : σ) (stop : Nat)
  | fault

/-- Run the top-level code from `c` on, at most `n` instructions. -/
def topRun (F : List (Instr σ ρ)) (T : List Nat) : Nat → Cfg σ → Option (End σ ρ)
  | 0, _ => none
  | n + 1, c =>
    match step F T c with
    | .go c' => topRun F T n c'
    | .ret r st _ => some (.value r st (c.pc + 1))
    | .fin st _ => some (.stale st c.pc)
    | .fault => some .fault

/-- A context: the state of the program and `stopLocation`, null at first. -/
structure Context (σ : Type) where
  st : σ
  stop : Option Nat

/-- What a host call delivers. -/
inductive Reply (ρ : Type) where
  | value (r : ρ)
  | garbage
  | error
deriving DecidableEq

/-- The result of a run of the top-level code for the host; `first` is false when the run was
entered by returning from a function, in which case `GlobalStop` delivers the cleared slot at the
bottom of the stack, vm/vm.cpp 715-716, 1289, 1294. -/
def toReply (zero : ρ) (first : Bool) : End σ ρ → Context σ → Reply ρ × Context σ
  | .value r st p, _ => (.value (if first then r else zero), ⟨st, some p⟩)
  | .stale st p, _ => (.garbage, ⟨st, some p⟩)
  | .fault, c => (.garbage, c)

/-- `wr_executeContext`, utils/utils.cpp 450-460. -/
def execute (zero : ρ) (u : CS σ ρ) (n : Nat) (c : Context σ) : Option (Reply ρ × Context σ) :=
  match c.stop with
  | some _ => some (.error, c)
  | none => (topRun u.code u.tg n ⟨0, c.st, []⟩).map fun e => toReply zero true e c

/-- `wr_callFunction` for a script function that does `f` to the state: utils/utils.cpp 1056-1066 and
vm/vm.cpp 711-733.  Its return address is `stopLocation`; at `Stop` the value returned is delivered,
anywhere else the top-level code goes on. -/
def hostCall (zero : ρ) (u : CS σ ρ) (n : Nat) (f : σ → Option (ρ × σ)) (c : Context σ) :
    Option (Reply ρ × Context σ) :=
  match c.stop with
  | none => some (.error, c)
  | some p =>
    (f c.st).bind fun (v, st) =>
      if p = u.code.length then some (.value v, ⟨st, some p⟩)
      else (topRun u.code u.tg n ⟨p, st, []⟩).map fun e => toReply zero false e ⟨st, some p⟩

/-! ### What the source says -/

/-- Does the code of a statement end in the code of a `return`? -/
def lastRet : Stmt σ ρ → Bool
  | .ret _ => true
  | .seq s t => if tail t = .empty then lastRet s else lastRet t
  | .ifThen _ s => lastRet s
  | .ifElse _ _ t => lastRet t
  | _ => false

/-- A statement that cannot complete: every way through it ends in `return`. -/
def mustRet : Stmt σ ρ → Bool
  | .ret _ => true
  | .seq s t => mustRet s || mustRet t
  | .ifElse _ s t => mustRet s && mustRet t
  | _ => false

mutual
/-- No `return`. -/
def noRet : Stmt σ ρ → Bool
  | .ret _ => false
  | .seq s t => noRet s && noRet t
  | .ifThen _ s => noRet s
  | .ifElse _ s t => noRet s && noRet t
  | .loop _ s => noRet s
  | .doLoop s _ => noRet s
  | .forLoop _ _ _ s => noRet s
  | .each _ _ s => noRet s
  | .switch _ b => noRetBody b
  | _ => true
def noRetBody : Body σ ρ → Bool
  | .nil => true
  | .case _ b => noRetBody b
  | .dflt b => noRetBody b
  | .stmt s b => noRet s && noRetBody b
end

/-- The value of a unit whose body ends in this way. -/
def valueOf (zero : ρ) : Out ρ → Option ρ
  | .nrm => some zero
  | .ret v => some v
  | _ => none

end Wrench.Flow
