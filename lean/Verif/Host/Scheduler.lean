import Verif.Host.Contexts

/-
The task scheduler, discrete_src/vm/scheduler.cpp 29-161, with its tasks in a heap of nodes, and
`wr_run` (utils.cpp 462-480) and `wr_callFunction` seen from outside: a context is freed, yielded
or finished, and resuming it has some outcome.  The outcome of the k-th resumption is `beh k`, an
arbitrary function.  Touching a freed task or context is `ub`.  Running out of memory is not
modelled.  `calls` are calls of the scheduler made by a host function while the task runs.
-/
namespace Wrench.Host

/-- `WrenchScheduledTask`, scheduler.cpp 30-35. -/
structure TNode where
  context : Nat
  next : Option Nat
  id : Nat
deriving DecidableEq, Repr

/-- Everything but the list of tasks: contexts (freed, or whether `yield_pc` is set), the id
counter (scheduler.cpp 98), `m_w->err`, `m_lastErr`, `m_lastErrId`, and the ids resumed so far. -/
structure Env where
  ctxs : List (Option Bool)
  gen : Nat
  err : Nat
  lastErr : Nat
  lastErrId : Nat
  trace : List Nat
deriving DecidableEq, Repr

structure Sched where
  tasks : List (Option TNode)
  head : Option Nat
  env : Env
deriving DecidableEq, Repr

/-- What running a new script does: `wr_run` fails, or it runs to its end, or yields. -/
inductive RunResult where
  | failed (err : Nat)
  | finished
  | yielded
deriving DecidableEq, Repr

inductive Call where
  | add (r : RunResult)
  | remove (id : Nat)
deriving DecidableEq, Repr

/-- What resuming a task does. -/
structure Outcome where
  yields : Bool
  err : Nat
  calls : List Call
deriving DecidableEq, Repr

def tnode (t : List (Option TNode)) (a : Nat) : Option TNode := (t[a]?).join

def ctx (e : Env) (c : Nat) : Option Bool := (e.ctxs[c]?).join

/-- `wr_destroyContext`. -/
def destroyCtx (e : Env) (c : Nat) : Res Env :=
  match ctx e c with
  | none => .ub
  | some _ => .ok { e with ctxs := e.ctxs.set c none }

/-- `g_free( task )`. -/
def freeTask (s : Sched) (a : Nat) : Res Sched :=
  match tnode s.tasks a with
  | none => .ub
  | some _ => .ok { s with tasks := s.tasks.set a none }

/-- `*link = v`: the link is `m_tasks` or the `next` of a task. -/
def setLink (s : Sched) (link : Option Nat) (v : Option Nat) : Res Sched :=
  match link with
  | none => .ok { s with head := v }
  | some p => match tnode s.tasks p with
    | none => .ub
    | some n => .ok { s with tasks := s.tasks.set p (some { n with next := v }) }

def getLink (s : Sched) (link : Option Nat) : Res (Option Nat) :=
  match link with
  | none => .ok s.head
  | some p => match tnode s.tasks p with
    | none => .ub
    | some n => .ok n.next

/-- `addThread`, scheduler.cpp 100-130: the id, 0 for a script that ran to its end, or -1. -/
def addThread (s : Sched) (r : RunResult) : Res (Int × Sched) :=
  match r with
  | .failed err => .ok (-1, { s with env := { s.env with err := err } })
  | .finished => .ok (0, { s with env := { s.env with ctxs := s.env.ctxs ++ [some false], err := 0 } })
  | .yielded =>
    -- `++` on an `int`
    if s.env.gen + 1 < 2147483648 then
      .ok (s.env.gen + 1, { s with
        tasks := s.tasks ++ [some ⟨s.env.ctxs.length, s.head, s.env.gen + 1⟩]
        head := some s.tasks.length
        env := { s.env with ctxs := s.env.ctxs ++ [some true], err := 0, gen := s.env.gen + 1 } })
    else .ub

/-- `removeTask`, scheduler.cpp 133-161. -/
def removeLoop (id : Nat) : Nat → Option Nat → Option Nat → Sched → Res (Bool × Sched)
  | 0, _, _, _ => .ub
  | _ + 1, _, none, s => .ok (false, s)
  | fuel + 1, last, some a, s =>
    match tnode s.tasks a with
    | none => .ub
    | some n =>
      if n.id = id then
        (destroyCtx s.env n.context).bind fun e =>
        (setLink { s with env := e } last n.next).bind fun s =>
        (freeTask s a).bind fun s => .ok (true, s)
      else removeLoop id fuel (some a) n.next s

def removeTask (s : Sched) (id : Nat) : Res (Bool × Sched) :=
  removeLoop id (s.tasks.length + 1) none s.head s

def doCall (s : Sched) : Call → Res Sched
  | .add r => (addThread s r).bind fun p => .ok p.2
  | .remove id => (removeTask s id).bind fun p => .ok p.2

def doCalls (s : Sched) : List Call → Res Sched
  | [] => .ok s
  | c :: cs => (doCall s c).bind fun s => doCalls s cs

/-- `wr_callFunction` on a yielded context: `w->err` is cleared first (vm.cpp 677), `yield_pc` too
(687). -/
def resume (beh : Nat → Outcome) (e : Env) (c id : Nat) : Env :=
  { e with
    err := (beh e.trace.length).err
    ctxs := e.ctxs.set c (some (beh e.trace.length).yields)
    trace := e.trace ++ [id] }

/-- scheduler.cpp 82-87. -/
def noteError (e : Env) (id : Nat) : Env :=
  if e.err ≠ 0 then { e with lastErr := e.err, lastErrId := id, err := 0 } else e

/-- `*link = task->next; wr_destroyContext( task->context ); g_free( task );` scheduler.cpp 71-73
and 89-91. -/
def dropTask (s : Sched) (link : Option Nat) (a : Nat) : Res Sched :=
  match tnode s.tasks a with
  | none => .ub
  | some n =>
    (setLink s link n.next).bind fun s =>
    (destroyCtx s.env n.context).bind fun e =>
    freeTask { s with env := e } a

/-- `tick`, scheduler.cpp 60-96. -/
def tickLoop (beh : Nat → Outcome) : Nat → Option Nat → Sched → Res Sched
  | 0, _, _ => .ub
  | fuel + 1, link, s =>
    (getLink s link).bind fun o =>
    match o with
    | none => .ok s
    | some a =>
      match tnode s.tasks a with
      | none => .ub
      | some n =>
        match ctx s.env n.context with
        | none => .ub
        | some false => (dropTask s link a).bind (tickLoop beh fuel link)
        | some true =>
          (doCalls { s with env := resume beh s.env n.context n.id } (beh s.env.trace.length).calls).bind fun s =>
          match tnode s.tasks a with
          | none => .ub
          | some n =>
            match ctx s.env n.context with
            | none => .ub
            | some false =>
              (dropTask { s with env := noteError s.env n.id } link a).bind (tickLoop beh fuel link)
            | some true => tickLoop beh fuel (some a) s

def tick (beh : Nat → Outcome) (s : Sched) : Res Sched := tickLoop beh (s.tasks.length + 1) none s

/-- The destructor, scheduler.cpp 47-57, up to `wr_destroyState`. -/
def freeTasks : Nat → Sched → Res Sched
  | 0, _ => .ub
  | fuel + 1, s => match s.head with
    | none => .ok s
    | some a => match tnode s.tasks a with
      | none => .ub
      | some n => (freeTask s a).bind fun s => freeTasks fuel { s with head := n.next }

/-- What the host does with a scheduler; `finishes` is a context running to its end otherwise than
by a tick. -/
inductive SEv where
  | add (r : RunResult)
  | remove (id : Nat)
  | tick
  | finishes (c : Nat)
deriving DecidableEq, Repr

def finishCtx (e : Env) (c : Nat) : Env :=
  match ctx e c with
  | some true => { e with ctxs := e.ctxs.set c (some false) }
  | _ => e

def sstep (beh : Nat → Outcome) (s : Sched) : SEv → Res Sched
  | .add r => (addThread s r).bind fun p => .ok p.2
  | .remove id => (removeTask s id).bind fun p => .ok p.2
  | .tick => tick beh s
  | .finishes c => .ok { s with env := finishCtx s.env c }

def srun (beh : Nat → Outcome) (s : Sched) : List SEv → Res Sched
  | [] => .ok s
  | e :: es => (sstep beh s e).bind fun s => srun beh s es

def sstart (gen : Nat) : Sched := ⟨[], none, ⟨[], gen, 0, 0, 0, []⟩⟩

/-! ### Specification -/

/-- A task: where it is in memory, its id and its context. -/
structure Task where
  addr : Nat
  id : Nat
  context : Nat
deriving DecidableEq, Repr

structure Abs where
  count : Nat
  tasks : List Task
  env : Env
deriving DecidableEq, Repr

def yieldedB (e : Env) (c : Nat) : Bool := ctx e c == some true

def retire (e : Env) (c : Nat) : Env := { e with ctxs := e.ctxs.set c none }

/-- Each task in turn: dropped if finished, else resumed, and kept if it yields again. -/
def tickTasks (beh : Nat → Outcome) : List Task → Env → List Task × Env
  | [], e => ([], e)
  | t :: ts, e =>
    if yieldedB e t.context then
      if (beh e.trace.length).yields then
        ((t :: (tickTasks beh ts (resume beh e t.context t.id)).1), (tickTasks beh ts (resume beh e t.context t.id)).2)
      else tickTasks beh ts (retire (noteError (resume beh e t.context t.id) t.id) t.context)
    else tickTasks beh ts (retire e t.context)

def Abs.step (beh : Nat → Outcome) (l : Abs) : SEv → Abs
  | .add (.failed err) => { l with env := { l.env with err := err } }
  | .add .finished => { l with env := { l.env with ctxs := l.env.ctxs ++ [some false], err := 0 } }
  | .add .yielded => { l with
      count := l.count + 1
      tasks := ⟨l.count, l.env.gen + 1, l.env.ctxs.length⟩ :: l.tasks
      env := { l.env with ctxs := l.env.ctxs ++ [some true], err := 0, gen := l.env.gen + 1 } }
  | .remove id => match l.tasks.find? (fun t => t.id == id) with
    | none => l
    | some t => { l with tasks := l.tasks.filter (fun t => t.id ≠ id), env := retire l.env t.context }
  | .tick => { l with tasks := (tickTasks beh l.tasks l.env).1, env := (tickTasks beh l.tasks l.env).2 }
  | .finishes c => { l with env := finishCtx l.env c }

def Abs.run (beh : Nat → Outcome) (l : Abs) : List SEv → Abs
  | [] => l
  | e :: es => (l.step beh e).run beh es

end Wrench.Host
