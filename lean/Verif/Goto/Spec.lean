import Verif.Goto.Model

/-
What programs with `goto` mean, without reference to code: a statement is executed in front of what
remains to be done afterwards.
-/
namespace Wrench.Goto

open Wrench

variable {σ ρ : Type}

/-- What remains to be done after a statement. -/
inductive Rest (σ ρ : Type) where
  /-- the end of the function -/
  | stop
  /-- `t` comes next -/
  | seq (t : Stmt σ ρ) (k : Rest σ ρ)
  /-- it was the body of `while (c) s` -/
  | loop (c : σ → Bool × σ) (s : Stmt σ ρ) (k : Rest σ ρ)
  /-- it was the body of `do s while (c)` -/
  | doLoop (s : Stmt σ ρ) (c : σ → Bool × σ) (k : Rest σ ρ)
  /-- it was the body of `for (…; c; post) s` -/
  | forLoop (c : Option (σ → Bool × σ)) (post : List (σ → σ)) (s : Stmt σ ρ) (k : Rest σ ρ)

/-- Run a list of effects. -/
def effects (l : List (σ → σ)) (x : σ) : σ := l.foldl (fun x f => f x) x

/-- A missing condition of `for` is true. -/
def condOf : Option (σ → Bool × σ) → σ → Bool × σ
  | some c => c
  | none => fun x => (true, x)

/-- After `break`: what follows the innermost loop. -/
def afterBreak : Rest σ ρ → Option (Rest σ ρ)
  | .stop => none
  | .seq _ k => afterBreak k
  | .loop _ _ k => some k
  | .doLoop _ _ k => some k
  | .forLoop _ _ _ k => some k

/-- After `continue`: the rest from the end of the body of the innermost loop. -/
def afterContinue : Rest σ ρ → Option (Rest σ ρ)
  | .stop => none
  | .seq _ k => afterContinue k
  | .loop c s k => some (.loop c s k)
  | .doLoop s c k => some (.doLoop s c k)
  | .forLoop c p s k => some (.forLoop c p s k)

/-- What follows the first label `h` in `s`, when `k` follows `s`. -/
def afterLabel (h : Word32) : Stmt σ ρ → Rest σ ρ → Option (Rest σ ρ)
  | .label h', k => if h' = h then some k else none
  | .seq s t, k => (afterLabel h s (.seq t k)).or (afterLabel h t k)
  | .ifThen _ s, k => afterLabel h s k
  | .ifElse _ s t, k => (afterLabel h s k).or (afterLabel h t k)
  | .loop c s, k => afterLabel h s (.loop c s k)
  | .doLoop s c, k => afterLabel h s (.doLoop s c k)
  | .forLoop _ c p s, k => afterLabel h s (.forLoop c p s k)
  | _, _ => none

inductive SRes (σ ρ : Type) where
  | go (s : Stmt σ ρ) (k : Rest σ ρ) (x : σ)
  | fin (x : σ)
  | ret (r : ρ) (x : σ)
  | stuck

/-- The statement is complete: go on with the rest. -/
def goOn : Rest σ ρ → σ → SRes σ ρ
  | .stop, x => .fin x
  | .seq t k, x => .go t k x
  | .loop c s k, x => .go (.loop c s) k x
  | .doLoop s c k, x => if (c x).1 then .go (.doLoop s c) k (c x).2 else .go .skip k (c x).2
  | .forLoop c p s k, x => .go (.forLoop [] c p s) k (effects p x)

def goOrStuck (o : Option (Rest σ ρ)) (x : σ) : SRes σ ρ :=
  match o with
  | some k => .go .skip k x
  | none => .stuck

/-- One step of the function with body `b`. -/
def sstep (b : Stmt σ ρ) : Stmt σ ρ → Rest σ ρ → σ → SRes σ ρ
  | .skip, k, x => goOn k x
  | .act f, k, x => .go .skip k (f x)
  | .seq s t, k, x => .go s (.seq t k) x
  | .ifThen c s, k, x => .go (if (c x).1 then s else .skip) k (c x).2
  | .ifElse c s t, k, x => .go (if (c x).1 then s else t) k (c x).2
  | .loop c s, k, x => if (c x).1 then .go s (.loop c s k) (c x).2 else .go .skip k (c x).2
  | .doLoop s c, k, x => .go s (.doLoop s c k) x
  | .forLoop init c p s, k, x =>
    if (condOf c (effects init x)).1 then .go s (.forLoop c p s k) (condOf c (effects init x)).2
    else .go .skip k (condOf c (effects init x)).2
  | .brk, k, x => goOrStuck (afterBreak k) x
  | .cont, k, x => goOrStuck (afterContinue k) x
  | .ret r, _, x => .ret (r x).1 (r x).2
  | .goto h, _, x => goOrStuck (afterLabel h b .stop) x
  | .label _, k, x => .go .skip k x

/-- At most `n` steps; `none` if the program has not ended by then. -/
def srun (b : Stmt σ ρ) : Nat → Stmt σ ρ → Rest σ ρ → σ → Option (SRes σ ρ)
  | 0, _, _, _ => none
  | n + 1, s, k, x =>
    match sstep b s k x with
    | .go s' k' x' => srun b n s' k' x'
    | r => some r

/-- How a program ends. -/
inductive End (σ ρ : Type) where
  | fin (x : σ)
  | ret (r : ρ) (x : σ)

def End.spec : End σ ρ → SRes σ ρ
  | .fin x => .fin x
  | .ret r x => .ret r x

def End.mach : End σ ρ → Res σ ρ
  | .fin x => .fin x
  | .ret r x => .ret r x

/-- The program started in `x` ends with `e`. -/
def Ends (b : Stmt σ ρ) (x : σ) (e : End σ ρ) : Prop := ∃ n, srun b n b .stop x = some e.spec

/-- The labels a statement jumps to. -/
def gotos : Stmt σ ρ → List Word32
  | .goto h => [h]
  | .seq s t => gotos s ++ gotos t
  | .ifThen _ s => gotos s
  | .ifElse _ s t => gotos s ++ gotos t
  | .loop _ s => gotos s
  | .doLoop s _ => gotos s
  | .forLoop _ _ _ s => gotos s
  | _ => []

/-- The labels in a statement, in the order of the source. -/
def labels : Stmt σ ρ → List Word32
  | .label h => [h]
  | .seq s t => labels s ++ labels t
  | .ifThen _ s => labels s
  | .ifElse _ s t => labels s ++ labels t
  | .loop _ s => labels s
  | .doLoop s _ => labels s
  | .forLoop _ _ _ s => labels s
  | _ => []

/-- `break` and `continue` occur only in loops; `inl`: the statement itself is in a loop. -/
def loopOk : Bool → Stmt σ ρ → Bool
  | inl, .brk => inl
  | inl, .cont => inl
  | inl, .seq s t => loopOk inl s && loopOk inl t
  | inl, .ifThen _ s => loopOk inl s
  | inl, .ifElse _ s t => loopOk inl s && loopOk inl t
  | _, .loop _ s => loopOk true s
  | _, .doLoop s _ => loopOk true s
  | _, .forLoop _ _ _ s => loopOk true s
  | _, _ => true

end Wrench.Goto
