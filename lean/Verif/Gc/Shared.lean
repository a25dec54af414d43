import Verif.Gc.Props

/-
The collectors of several contexts and when they run: `WRContext::gc` with the test of `allocatedMemoryHint` and
`getSVA`, discrete_src/vm/gc.cpp 85-182; `wr_destroyContextEx`, utils/utils.cpp 484-501;
`wr_setAllocatedMemoryGCHint`, 562-565.

Each context has its own list `svAllocated`, its own globals and the part of the stack from `stackOffset` on; an
import uses the stack of the context that imports it (utils.cpp 386-388, vm.cpp 883-886, 978-981).  Objects have their
numbers in common: a value that a function of an import returned is a pointer to an object on the import's list.

Simplifications: `globals` are those of all contexts, one after the other, and `order` of the heap is not used;
otherwise those of Verif/Gc/Model.  The bytes an object counts for are a parameter of the allocation.
-/
namespace Wrench.Gc

/-- What a context has of its own: `svAllocated`, `globals` (place and number in those of all), `stackOffset`,
`allocatedMemoryHint`. -/
structure Owned where
  order : List Nat
  first : Nat
  globals : Nat
  base : Nat
  hint : BitVec 32
deriving DecidableEq, Repr

/-- The objects, the contexts, `allocatedMemoryLimit`, and the `GCFlag_Marked` bits. -/
structure Sys where
  h : Heap
  ctx : Nat → Owned
  limit : BitVec 32
  flags : Marks

/-- The globals of context `c`. -/
def Sys.globalsOf (s : Sys) (c : Nat) : List Cell := (s.h.globals.drop (s.ctx c).first).take (s.ctx c).globals

/-- The stack from the context's base to `top`. -/
def Sys.stackOf (s : Sys) (c top : Nat) : List Cell := (s.h.stack.take top).drop (s.ctx c).base

def setCtx (f : Nat → Owned) (c : Nat) (x : Owned) : Nat → Owned := fun i => if i = c then x else f i

/-- `getSVA`, gc.cpp 155-182: object `o` with contents `x`, counted with `bytes`. -/
def Sys.alloc (s : Sys) (c o : Nat) (x : Obj) (bytes : BitVec 32) : Sys :=
  { s with
    h := { s.h with get := fun i => if i = o then some x else s.h.get i }
    ctx := setCtx s.ctx c { s.ctx c with order := o :: (s.ctx c).order, hint := (s.ctx c).hint + bytes }
    flags := fun i => if i = o then false else s.flags i }

inductive SOut where
  | done (s : Sys) (freed : List Nat)
  | ub
  | deep

/-- The sweep over the list of context `c`, gc.cpp 127-151, with marks `m`. -/
def Sys.sweepOf (s : Sys) (c : Nat) (m : Marks) : SOut :=
  let r := sweep m (s.ctx c).order
  .done { s with
    h := { s.h with get := fun o => if o ∈ r.2 then none else s.h.get o }
    ctx := setCtx s.ctx c { s.ctx c with order := r.1, hint := 0#32 }
    flags := fun o => m o && !((s.ctx c).order.contains o) } r.2

/-- `gc( stackTop )`, gc.cpp 85-152, with a stack top. -/
def Sys.gc (s : Sys) (f c top : Nat) : SOut :=
  if (s.ctx c).hint.ult s.limit then .done s []
  else
    match (markPerms s.h f (s.ctx c).order s.flags).bind fun m =>
      (visitAll (mark s.h f) (s.stackOf c top) m).bind (visitAll (mark s.h f) (s.globalsOf c)) with
    | .ok m => s.sweepOf c m
    | .ub => .ub
    | .deep => .deep

/-- `wr_destroyContextEx`, utils.cpp 486-489: `globals = 0`, `allocatedMemoryHint = (uint16_t)-1`, `gc( 0 )`.  With no
stack top nothing is marked. -/
def Sys.destroy (s : Sys) (c : Nat) : SOut :=
  if (65535#32).ult s.limit then .done s [] else s.sweepOf c s.flags

/-! ### Specification -/

/-- Reachable from the variables of context `c`: its part of the stack, its globals, its permanent objects. -/
inductive ReachFrom (s : Sys) (c top : Nat) : Nat → Prop
  | stack {i : Nat} {v : Cell} {o : Nat} : (s.ctx c).base ≤ i → i < top → s.h.stack[i]? = some v → Holds s.h v o →
      ReachFrom s c top o
  | global {i : Nat} {v : Cell} {o : Nat} : i < (s.ctx c).globals → s.h.globals[(s.ctx c).first + i]? = some v →
      Holds s.h v o → ReachFrom s c top o
  | perm {o : Nat} {x : Obj} : o ∈ (s.ctx c).order → s.h.get o = some x → x.perm = true → ReachFrom s c top o
  | elem {o o' : Nat} {v : Cell} : ReachFrom s c top o → Contains s.h o v → Holds s.h v o' → ReachFrom s c top o'
  | block {o b : Nat} : ReachFrom s c top o → IsBlockOf s.h o b → ReachFrom s c top b

/-! ### Theorems -/

theorem mem_stackOf {s : Sys} {c top : Nat} {v : Cell} :
    v ∈ s.stackOf c top ↔ ∃ i, (s.ctx c).base ≤ i ∧ i < top ∧ s.h.stack[i]? = some v := by
  rw [Sys.stackOf, List.mem_iff_getElem?]
  constructor
  · rintro ⟨i, hi⟩
    rw [List.getElem?_drop, List.getElem?_take] at hi
    split at hi
    · exact ⟨(s.ctx c).base + i, by omega, ‹_›, hi⟩
    · cases hi
  · rintro ⟨i, h1, h2, h3⟩
    refine ⟨i - (s.ctx c).base, ?_⟩
    rw [List.getElem?_drop, List.getElem?_take, show (s.ctx c).base + (i - (s.ctx c).base) = i by omega, if_pos h2, h3]

theorem mem_globalsOf {s : Sys} {c : Nat} {v : Cell} :
    v ∈ s.globalsOf c ↔ ∃ i, i < (s.ctx c).globals ∧ s.h.globals[(s.ctx c).first + i]? = some v := by
  rw [Sys.globalsOf, List.mem_iff_getElem?]
  constructor
  · rintro ⟨i, hi⟩
    rw [List.getElem?_take] at hi
    split at hi
    · exact ⟨i, ‹_›, by rw [← List.getElem?_drop]; exact hi⟩
    · cases hi
  · rintro ⟨i, h1, h2⟩
    exact ⟨i, by rw [List.getElem?_take, if_pos h1, List.getElem?_drop, h2]⟩

/-- The marking part. -/
def Sys.marking (s : Sys) (f c top : Nat) : Res :=
  (markPerms s.h f (s.ctx c).order s.flags).bind fun m =>
    (visitAll (mark s.h f) (s.stackOf c top) m).bind (visitAll (mark s.h f) (s.globalsOf c))

theorem marking_exact (s : Sys) (f c top : Nat) (hf : ∀ o, s.flags o = false) (m : Marks)
    (e : s.marking f c top = .ok m) (o : Nat) : m o = true ↔ ReachFrom s c top o := by
  unfold Sys.marking at e
  cases h1 : markPerms s.h f (s.ctx c).order s.flags with
  | ub => rw [h1] at e; cases e
  | deep => rw [h1] at e; cases e
  | ok m1 =>
    rw [h1] at e
    simp only [Res.bind] at e
    cases h2 : visitAll (mark s.h f) (s.stackOf c top) m1 with
    | ub => rw [h2] at e; cases e
    | deep => rw [h2] at e; cases e
    | ok m2 =>
      rw [h2] at e
      simp only at e
      constructor
      · have S : Stable s.h (ReachFrom s c top) :=
          ⟨fun _ ho _ hc _ hh => .elem ho (mem_cellsOf.mp hc) hh, fun _ ho _ hb => .block ho hb⟩
        have p1 := markPerms_only S f _ _ m1 h1 (fun o ho x hx hp => .perm ho hx hp)
          (by intro o ho; rw [hf o] at ho; cases ho)
        have p2 := visitAll_only (fun c m m' => mark_only S f c m m') _ _ m2 h2 (fun c hc o ho => by
          obtain ⟨i, h1, h2, h3⟩ := mem_stackOf.mp hc; exact .stack h1 h2 h3 ho) p1
        exact visitAll_only (fun c m m' => mark_only S f c m m') _ _ m e (fun c hc o ho => by
          obtain ⟨i, h1, h2⟩ := mem_globalsOf.mp hc; exact .global h1 h2 ho) p2 o
      · have hc0 : Closed s.h s.flags := by intro o ho; rw [hf o] at ho; cases ho
        obtain ⟨a1, _, d1⟩ := markPerms_post s.h f _ _ m1 h1 hc0
        obtain ⟨a2, b2, d2⟩ := visitAll_post (fun c m m' e hc => mark_post s.h f c m m' e hc) _ _ m2 h2 a1
        obtain ⟨a3, b3, d3⟩ := visitAll_post (fun c m m' e hc => mark_post s.h f c m m' e hc) _ _ m e a2
        intro ho
        induction ho with
        | stack h1 h2 h3 ho => exact b3 _ (d2 _ (mem_stackOf.mpr ⟨_, h1, h2, h3⟩) _ ho)
        | global h1 h2 ho => exact d3 _ (mem_globalsOf.mpr ⟨_, h1, h2⟩) _ ho
        | perm hm hx hp => exact b3 _ (b2 _ (d1 _ hm _ hx hp))
        | elem _ hc ho ih => exact (a3 _ ih).1 _ (mem_cellsOf.mpr hc) _ ho
        | block _ hb ih => exact (a3 _ ih).2 _ hb

theorem gc_cases {s s' : Sys} {f c top : Nat} {freed : List Nat} (e : s.gc f c top = .done s' freed)
    (hd : s.limit ≤ (s.ctx c).hint) : ∃ m, s.marking f c top = .ok m ∧ s.sweepOf c m = .done s' freed := by
  have hn : ¬ (s.ctx c).hint.ult s.limit = true := by
    rw [BitVec.ult_iff_lt]
    exact BitVec.not_lt.mpr hd
  rw [Sys.gc, if_neg hn] at e
  cases hm : s.marking f c top with
  | ok m =>
    refine ⟨m, rfl, ?_⟩
    unfold Sys.marking at hm
    rw [hm] at e
    exact e
  | ub => unfold Sys.marking at hm; rw [hm] at e; cases e
  | deep => unfold Sys.marking at hm; rw [hm] at e; cases e

/-- The counter after allocations of the given sizes, in the order of their happening. -/
def counted (start : BitVec 32) (sizes : List Nat) : BitVec 32 := sizes.foldl (fun n k => n + BitVec.ofNat 32 k) start

theorem counted_eq : ∀ (sizes : List Nat) (start : BitVec 32),
    (counted start sizes).toNat = (start.toNat + sizes.sum) % 4294967296
  | [], start => by
    show start.toNat = _
    simp [Nat.mod_eq_of_lt start.isLt]
  | k :: ks, start => by
    show (counted (start + BitVec.ofNat 32 k) ks).toNat = _
    rw [counted_eq ks, BitVec.toNat_add, BitVec.toNat_ofNat, List.sum_cons]
    omega

/-- Allocating objects one after the other. -/
def Sys.allocs (s : Sys) (c : Nat) : List (Nat × Obj × Nat) → Sys
  | [] => s
  | (o, x, n) :: l => (s.alloc c o x (BitVec.ofNat 32 n)).allocs c l

theorem allocs_hint (c : Nat) : ∀ (l : List (Nat × Obj × Nat)) (s : Sys),
    ((s.allocs c l).ctx c).hint = counted (s.ctx c).hint (l.map fun p => p.2.2) ∧ (s.allocs c l).limit = s.limit
  | [], s => ⟨rfl, rfl⟩
  | (o, x, n) :: l, s => by
    rw [Sys.allocs]
    obtain ⟨h1, h2⟩ := allocs_hint c l (s.alloc c o x (BitVec.ofNat 32 n))
    refine ⟨h1.trans ?_, h2⟩
    simp [counted, Sys.alloc, setCtx]

theorem allocs_flags (c : Nat) : ∀ (l : List (Nat × Obj × Nat)) (s : Sys), (∀ o, s.flags o = false) →
    ∀ o, (s.allocs c l).flags o = false
  | [], _, h => h
  | (o, x, n) :: l, s, h => by
    rw [Sys.allocs]
    refine allocs_flags c l _ ?_
    intro i
    show (if i = o then false else s.flags i) = false
    split
    · rfl
    · exact h i

/-- C109: after a collection, a context may allocate objects of together less than the limit without a collection
happening; once they count for the limit or more (and less than 4 GB), the next occasion collects, and what is left are
the objects its variables reach. -/
theorem C109_when_collected (s : Sys) (f c top : Nat) (l : List (Nat × Obj × Nat)) (h0 : (s.ctx c).hint = 0#32)
    (hf : ∀ o, s.flags o = false) (hsum : (l.map fun p => p.2.2).sum < 4294967296) :
    ((l.map fun p => p.2.2).sum < s.limit.toNat → (s.allocs c l).gc f c top = .done (s.allocs c l) []) ∧
    (s.limit.toNat ≤ (l.map fun p => p.2.2).sum → ∀ s' freed, (s.allocs c l).gc f c top = .done s' freed →
      (s'.ctx c).hint = 0#32 ∧
      ∀ o, o ∈ (s'.ctx c).order ↔ o ∈ ((s.allocs c l).ctx c).order ∧ ReachFrom (s.allocs c l) c top o) := by
  obtain ⟨e1, e2⟩ := allocs_hint c l s
  have ht : ((s.allocs c l).ctx c).hint.toNat = (l.map fun p => p.2.2).sum := by
    rw [e1, counted_eq, h0]
    simp only [BitVec.toNat_ofNat, Nat.zero_mod, Nat.zero_add]
    exact Nat.mod_eq_of_lt hsum
  constructor
  · intro h
    rw [Sys.gc, if_pos]
    rw [BitVec.ult_iff_lt, BitVec.lt_def, e2, ht]
    exact h
  · intro h s' freed e
    obtain ⟨m, hm, hs⟩ := gc_cases e (by rw [BitVec.le_def, e2, ht]; exact h)
    simp only [Sys.sweepOf, sweep_eq, SOut.done.injEq] at hs
    obtain ⟨rfl, rfl⟩ := hs
    refine ⟨by simp [setCtx], ?_⟩
    intro o
    simp only [setCtx, if_true, List.mem_filter]
    rw [marking_exact _ f c top (allocs_flags c l s hf) m hm o]

/-- C109: destroying a context frees all of its objects, each once, and no others', as long as the limit set with
wr_setAllocatedMemoryGCHint is at most 65535. -/
theorem C109_destroy_frees_all_partial (s : Sys) (c : Nat) (hl : s.limit.toNat ≤ 65535)
    (hf : ∀ o ∈ (s.ctx c).order, s.flags o = false) :
    ∃ s', s.destroy c = .done s' (s.ctx c).order ∧ (s'.ctx c).order = [] ∧
      ∀ o, s'.h.get o = if o ∈ (s.ctx c).order then none else s.h.get o := by
  have hn : ¬ (65535#32).ult s.limit = true := by
    rw [BitVec.ult_iff_lt, BitVec.lt_def]
    simpa using hl
  have h1 : (s.ctx c).order.filter s.flags = [] := by
    rw [List.filter_eq_nil_iff]
    intro o ho
    rw [hf o ho]; simp
  have h2 : ((s.ctx c).order.filter fun o => !s.flags o) = (s.ctx c).order := by
    rw [List.filter_eq_self]
    intro o ho
    rw [hf o ho]; rfl
  have e : s.destroy c = s.sweepOf c s.flags := if_neg hn
  simp only [e, Sys.sweepOf, sweep_eq, h1, h2]
  exact ⟨_, rfl, by simp [setCtx], fun o => rfl⟩

/-- **C109 fails for a limit above 65535**: destroying a context then frees none of its objects. -/
theorem C109_destroy_leaks (s : Sys) (c : Nat) (hl : 65535 < s.limit.toNat) : s.destroy c = .done s [] := by
  rw [Sys.destroy, if_pos]
  rw [BitVec.ult_iff_lt, BitVec.lt_def]
  simpa using hl

/-- C110: a collection of context `c`, from cleared flags, frees exactly those of its objects that its own variables
do not reach, whatever the variables of other contexts refer to. -/
theorem C110_own_variables_only {s s' : Sys} {f c top : Nat} {freed : List Nat} (hf : ∀ o, s.flags o = false)
    (hd : s.limit ≤ (s.ctx c).hint) (e : s.gc f c top = .done s' freed) (o : Nat) :
    (o ∈ freed ↔ o ∈ (s.ctx c).order ∧ ¬ ReachFrom s c top o) ∧ (o ∈ freed → s'.h.get o = none) ∧
    (o ∉ freed → s'.h.get o = s.h.get o) := by
  obtain ⟨m, hm, hs⟩ := gc_cases e hd
  have hx := marking_exact s f c top hf m hm
  simp only [Sys.sweepOf, sweep_eq, SOut.done.injEq] at hs
  obtain ⟨rfl, rfl⟩ := hs
  refine ⟨?_, fun h => if_pos h, fun h => if_neg h⟩
  rw [List.mem_filter, ← hx o]
  simp

/-- C110: where contexts keep their objects to themselves, a collection of one frees nothing that any of them
reaches, changes no object that remains, and leaves all flags cleared.  `tops` says how far the stack of each context
goes; that of a context that is calling a function of `c` ends where the stack of `c` begins. -/
theorem C110_isolated_partial {s s' : Sys} {f c : Nat} {tops : Nat → Nat} {freed : List Nat}
    (hf : ∀ o, s.flags o = false) (e : s.gc f c (tops c) = .done s' freed)
    (hown : ∀ o, ReachFrom s c (tops c) o → o ∈ (s.ctx c).order)
    (hiso : ∀ c', c' ≠ c → ∀ o ∈ (s.ctx c).order, ¬ ReachFrom s c' (tops c') o) :
    (∀ c' o, ReachFrom s c' (tops c') o → s'.h.get o = s.h.get o) ∧ (∀ o, s'.flags o = false) := by
  by_cases hd : s.limit ≤ (s.ctx c).hint
  · constructor
    · intro c' o ho
      obtain ⟨h1, h2, h3⟩ := C110_own_variables_only hf hd e o
      apply h3
      intro hfr
      obtain ⟨h4, h5⟩ := h1.mp hfr
      by_cases hc : c' = c
      · subst hc; exact h5 ho
      · exact hiso c' hc o h4 ho
    · obtain ⟨m, hm, hs⟩ := gc_cases e hd
      have hx := marking_exact s f c (tops c) hf m hm
      simp only [Sys.sweepOf, sweep_eq, SOut.done.injEq] at hs
      obtain ⟨rfl, rfl⟩ := hs
      intro o
      simp only [Bool.and_eq_false_iff, Bool.not_eq_false']
      by_cases hmo : m o = true
      · right
        rw [List.contains_iff_mem]
        exact hown o ((hx o).mp hmo)
      · left; simpa using hmo
  · have hp : (s.ctx c).hint.ult s.limit = true := by
      rw [BitVec.ult_iff_lt]
      exact BitVec.not_le.mp hd
    rw [Sys.gc, if_pos hp] at e
    cases e
    exact ⟨fun _ _ _ => rfl, hf⟩

end Wrench.Gc
