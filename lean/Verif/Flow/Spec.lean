import Verif.Flow.Model

/-
What statements mean, without reference to code.  Loops are iterated at most `n` times;
`none` means that this was not enough.
-/
namespace Wrench.Flow

open Wrench

variable {σ ρ : Type}

/-- How a statement ends. -/
inductive Out (ρ : Type) where
  | nrm
  | brk
  | cont
  | ret (r : ρ)

/-- `while (c) body`. -/
def whileLoop (c : σ → Bool × σ) (body : σ → Option (Out ρ × σ)) (post : σ → σ) : Nat → σ → Option (Out ρ × σ)
  | 0, _ => none
  | n + 1, x =>
    if (c x).1 then
      match body (c x).2 with
      | none => none
      | some (.nrm, y) => whileLoop c body post n (post y)
      | some (.cont, y) => whileLoop c body post n (post y)
      | some (.brk, y) => some (.nrm, y)
      | some (.ret r, y) => some (.ret r, y)
    else some (.nrm, (c x).2)

/-- `do body while (c)`. -/
def untilLoop (c : σ → Bool × σ) (body : σ → Option (Out ρ × σ)) : Nat → σ → Option (Out ρ × σ)
  | 0, _ => none
  | n + 1, x =>
    match body x with
    | none => none
    | some (.brk, y) => some (.nrm, y)
    | some (.ret r, y) => some (.ret r, y)
    | some (.nrm, y) | some (.cont, y) =>
      if (c y).1 then untilLoop c body n (c y).2 else some (.nrm, (c y).2)

/-- Run a list of effects. -/
def effects (l : List (σ → σ)) (x : σ) : σ := l.foldl (fun x f => f x) x


/-- The selected part of a switch body: from the matching case on, else from the default on,
else nothing. -/
def pickSel (a b : Option (Option (Out ρ × σ))) (x : σ) : Option (Out ρ × σ) :=
  match a with
  | some r => r
  | none =>
    match b with
    | some r => r
    | none => some (.nrm, x)

mutual
def exec (n : Nat) : Stmt σ ρ → σ → Option (Out ρ × σ)
  | .skip, x => some (.nrm, x)
  | .act f, x => some (.nrm, f x)
  | .seq s t, x =>
    match exec n s x with
    | some (.nrm, y) => exec n t y
    | r => r
  | .ifThen c s, x => if (c x).1 then exec n s (c x).2 else some (.nrm, (c x).2)
  | .ifElse c s t, x => if (c x).1 then exec n s (c x).2 else exec n t (c x).2
  | .loop c s, x => whileLoop c (exec n s) id n x
  | .doLoop s c, x => untilLoop c (exec n s) n x
  | .forLoop init c post s, x =>
    whileLoop (match c with | some c => c | none => fun x => (true, x)) (exec n s) (effects post) n
      (effects init x)
  | .each start next s, x => whileLoop next (exec n s) id n (start x)
  | .brk, x => some (.brk, x)
  | .cont, x => some (.cont, x)
  | .ret r, x => some (.ret (r x).1, (r x).2)
  | .switch sel b, x =>
    match pickSel (execFrom n b (sel x).1 (sel x).2) (execDflt n b (sel x).2) (sel x).2 with
    | some (.brk, y) => some (.nrm, y)
    | r => r
/-- Statements of a switch body from the start, labels ignored. -/
def execBody (n : Nat) : Body σ ρ → σ → Option (Out ρ × σ)
  | .nil, x => some (.nrm, x)
  | .case _ b, x => execBody n b x
  | .dflt b, x => execBody n b x
  | .stmt s b, x =>
    match exec n s x with
    | some (.nrm, y) => execBody n b y
    | r => r
/-- From the matching case on. -/
def execFrom (n : Nat) : Body σ ρ → Word32 → σ → Option (Option (Out ρ × σ))
  | .nil, _, _ => none
  | .case h' b, h, x => if h' = h then some (execBody n b x) else execFrom n b h x
  | .dflt b, h, x => execFrom n b h x
  | .stmt _ b, h, x => execFrom n b h x
/-- From the default on. -/
def execDflt (n : Nat) : Body σ ρ → σ → Option (Option (Out ρ × σ))
  | .nil, _ => none
  | .case _ b, x => execDflt n b x
  | .dflt b, x => some (execBody n b x)
  | .stmt _ b, x => execDflt n b x
end

/-! ### Programs the compiler gets right -/

/-- How the code of a statement ends: no code, an instruction other than a jump, a `break` or
`continue` (nothing continues after it), or a jump with a continuation after it. -/
inductive Tail where
  | empty
  | plain
  | exit
  | opn
deriving DecidableEq, Repr

/-- Is there a label in this part of a switch body? -/
def Body.labelled : Body σ ρ → Bool
  | .nil => false
  | .case _ _ => true
  | .dflt _ => true
  | .stmt _ b => b.labelled

mutual
def tail : Stmt σ ρ → Tail
  | .skip => .empty
  | .act _ => .plain
  | .ret _ => .plain
  | .seq s t => if tail t = .empty then tail s else tail t
  | .ifThen _ s =>
    match tail s with
    | .empty => .plain
    | .plain => .plain
    | _ => .opn
  | .ifElse _ _ t =>
    match tail t with
    | .plain => .plain
    | _ => .opn
  | .loop _ _ => .opn
  | .doLoop _ _ => .opn
  | .forLoop _ _ _ _ => .opn
  | .each _ _ _ => .opn
  | .brk => .exit
  | .cont => .exit
  | .switch _ _ => .plain
def tailBody : Body σ ρ → Tail
  | .nil => .empty
  | .case _ b => tailBody b
  | .dflt b => tailBody b
  | .stmt s b =>
    if tailBody b = .empty then
      if tail s = .exit ∧ b.labelled then .opn else tail s
    else tailBody b
end

mutual
/-- Contains a `continue` of an enclosing loop. -/
def freeCont : Stmt σ ρ → Bool
  | .seq s t => freeCont s || freeCont t
  | .ifThen _ s => freeCont s
  | .ifElse _ s t => freeCont s || freeCont t
  | .cont => true
  | .switch _ b => freeContBody b
  | _ => false
def freeContBody : Body σ ρ → Bool
  | .nil => false
  | .case _ b => freeContBody b
  | .dflt b => freeContBody b
  | .stmt s b => freeCont s || freeContBody b
end

mutual
/-- No `continue` of a for-each loop, and no switch whose last statement leaves a jump with a
continuation (a loop, or an `if` ending in a jump, or a `break` followed by a label) at the end of
its code. -/
def Ok : Stmt σ ρ → Prop
  | .seq s t => Ok s ∧ Ok t
  | .ifThen _ s => Ok s
  | .ifElse _ s t => Ok s ∧ Ok t
  | .loop _ s => Ok s
  | .doLoop s _ => Ok s
  | .forLoop _ _ _ s => Ok s
  | .each _ _ s => Ok s ∧ freeCont s = false
  | .switch _ b => OkBody b ∧ tailBody b ≠ .opn
  | _ => True
def OkBody : Body σ ρ → Prop
  | .nil => True
  | .case _ b => OkBody b
  | .dflt b => OkBody b
  | .stmt s b => Ok s ∧ OkBody b
end

end Wrench.Flow
