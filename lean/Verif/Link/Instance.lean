import Verif.Link.Demo
import Verif.Frames.ImportDemo

/-
Instances of structs, from the call of the constructor to the members: `new` in a script
(CallFunctionByIndex and NewObjectTable, discrete_src/vm/vm.cpp 1011-1067 and 1141-1146), `new` of a
struct of an imported context (vm.cpp 899-926), and `wr_instanceStruct` (utils.cpp 1184-1213).

The run of the constructor is that of Frames, the member maps are those of Link; a value is a
stack slot of Frames.  Not modelled: failing allocations, the collection at the end of
`wr_newObjectTable` (C15) and the flag that keeps an instance of the host from being collected.
-/
namespace Wrench.Link

open Wrench.Frames (M Mem Val Prog Fn)

/-- `wr_instanceStruct`, utils.cpp 1184-1213: the first function of that name; its member map; the
slots behind the stack base, after `wr_callFunction` has come back (its result is not looked at).
`ok none` is the null pointer. -/
def instanceStruct {α : Type} (img : List Byte) (c : Ctx) (h : Word32) (slot : Nat → α) : Res (Option (Obj α)) :=
  match c.functions.find? (fun r => decide (r.hash = h)) with
  | none => .ok none
  | some r =>
    if r.namespaceOffset = 0#16 then .ok none
    else (objectAt img r.namespaceOffset.toNat slot).bind fun o => .ok (some o)

/-- `new` of an imported struct behind its constructor, vm.cpp 899-926: `n` arguments were pushed, `m` is
the state at the call, `mem` the memory when the constructor is back.  The object goes into a new slot
above the constructor's result; the stack top afterwards is given too. -/
def importNew (img : List Byte) (ns : Word16) (n : Nat) (m : M) (mem : Mem) : Res (Obj Val × Nat) :=
  if ns = 0#16 then .err
  else
    let top := if n = 0 then m.top + 1 else m.top - (n - 1)
    let mem := if n = 0 then mem else mem.put (.s (top - 1)) (mem.stk m.top)
    (objectAt img ns.toNat fun i => mem.stk (top + i)).bind fun o => .ok (o, top + 1)

/-- The member map of `u` is at `table`, and its names can be told apart. -/
structure MapOf (u : CUnit) (img : List Byte) (table : Nat) : Prop where
  map : ∃ m, localMap u = .ok m ∧ At img table m
  members : u.arguments < u.locals.length
  distinct : (u.locals.drop u.arguments).Nodup
  named : ∀ h ∈ u.locals.drop u.arguments, h ≠ 0xABABABAB#32

/-- `F` is the function record of `u`. -/
structure RecOf (u : CUnit) (F : Fn) : Prop where
  args : F.arguments = u.arguments
  locals : F.frameSpaceNeeded = u.locals.length - u.arguments

/-- The members of `o` are the variables behind the arguments in the frame `m1`, under their names. -/
structure Holds (u : CUnit) (img : List Byte) (o : Obj Val) (m1 : M) : Prop where
  member : ∀ i h, (u.locals.drop u.arguments)[i]? = some h →
    member img o h = .ok (some (m1.mem.stk (m1.fb + u.arguments + i)))
  other : ∀ h, h ≠ 0xABABABAB#32 → h ∉ u.locals.drop u.arguments → Link.member img o h = .ok none

theorem holds_of {u : CUnit} {img : List Byte} {table : Nat} (hu : MapOf u img table) {F : Fn}
    (hF : RecOf u F) {slot : Nat → Val} {m1 : M}
    (hs : ∀ i, i < F.arguments + F.frameSpaceNeeded → slot i = m1.mem.stk (m1.fb + i)) :
    ∃ o, objectAt img table slot = .ok o ∧ Holds u img o m1 := by
  obtain ⟨m, hm, hat⟩ := hu.map
  obtain ⟨o, e, -, h1, h2⟩ := C27_object_resolves hm hat hu.members hu.distinct hu.named slot
  refine ⟨o, e, ⟨fun i h hi => ?_, h2⟩⟩
  have hlt : i < u.locals.length - u.arguments := by
    have := (List.getElem?_eq_some_iff.mp hi).1
    simpa using this
  rw [(h1 i h hi).2, hs (u.arguments + i) (by rw [hF.args, hF.locals]; omega), Nat.add_assoc]

/-- **C104, `new` in a script, partial.**  The constructor `g` is called with any number of arguments from any
state, and runs for any number of instructions.  When it has returned to the position behind the call, with
the instruction `new` there, the object made has as its members the values the constructor's variables had
when it returned.  Missing: member maps at 32768 and later (`C27_high_map_outside`). -/
theorem C104_new_partial {P : Prog} {dep : Frames.Depths} (hP : P.Ok) (hW : Frames.WF P dep)
    {base g n : Nat} {F : Fn} {m : M} {R : Nat → Prop}
    (hi : P.code m.pc = some (.call g n)) (hF : P.fns g = some F) (hn : n ≤ m.top)
    (hR : ∀ i, R i → i < m.top - n) (hc : Frames.Closed R m.mem)
    (ho : Frames.Operands R m.mem (m.top - n) m.top) (v : Val)
    {u : CUnit} {img : List Byte} {off : Word16} (hu : MapOf u img off.toNat) (hrec : RecOf u F)
    (h0 : 0 < off.toNat) (h1 : off.toNat < 32768) :
    Frames.stepH P base v m = .err ∨
    ∃ m', Frames.stepH P base v m = .run m' ∧ Frames.Entered P F n (m.pc + 1) m m' ∧
      ∀ as : List Val, (∀ w ∈ as, w.ptr = none) →
        (∃ m2, Frames.Within P base (m.top - n) as m' m2) ∨
        (∃ as1 w as2 m1, as = as1 ++ w :: as2 ∧ Frames.Within P base (m.top - n) as1 m' m1 ∧
          Frames.stepH P base w m1 = .err) ∨
        (∃ as1 w as2 m1 m2, as = as1 ++ w :: as2 ∧ Frames.Within P base (m.top - n) as1 m' m1 ∧
          Frames.stepH P base w m1 = .run m2 ∧ m2.top = m.top - n ∧ m2.pc = m.pc + 1 ∧ m1.fb = m.top - n ∧
          ∃ o, newObject img off (fun i => m2.mem.stk (m2.top + i)) = .ok (some o) ∧ Holds u img o m1) := by
  rcases Frames.C33_call_and_return_partial hP hW hi hF hn hR hc ho v (base := base) with e | ⟨m', e, E, h⟩
  · exact .inl e
  · refine .inr ⟨m', e, E, fun as has => ?_⟩
    rcases h as has with h | h | ⟨a1, w, a2, m1, m2, ha, hw, e2, ht, -, hpc, -, hfb, hv, -⟩
    · exact .inl h
    · exact .inr (.inl h)
    · refine .inr (.inr ⟨a1, w, a2, m1, m2, ha, hw, e2, ht, hpc, hfb, ?_⟩)
      obtain ⟨o, e3, ho⟩ := holds_of hu hrec (slot := fun i => m2.mem.stk (m2.top + i)) (m1 := m1) hv
      refine ⟨o, ?_, ho⟩
      have hse : (off.signExtend 32).toNat = off.toNat := by
        rw [BitVec.toNat_signExtend, BitVec.msb_eq_false_iff_two_mul_lt.mpr (by omega)]
        simp
        omega
      unfold newObject
      dsimp only
      rw [hse, if_neg (by omega), e3]
      rfl

/-- What the loader has for the first function of a name. -/
theorem find_fn {P : Program} (ok : ProgramOk P) {img : List Byte} (hl : link P = .ok img)
    (hsize : img.length ≤ 65536) {c : Ctx} (hc : load img = .ok c) {k : Nat} {u : CUnit}
    (hk : P.fns[k]? = some u)
    (hfirst : ∀ (j : Nat) (w : CUnit), j < k → P.fns[j]? = some w → w.hash ≠ u.hash) :
    ∃ r, c.functions.find? (fun r => decide (r.hash = u.hash)) = some r ∧ FnIn P img c k u r := by
  obtain ⟨c', hc', _, hlen, _, hf⟩ := C29_link_load_partial ok hl hsize
  rw [hc] at hc'; injection hc' with hc'; subst hc'
  obtain ⟨r, hr, f⟩ := hf k u hk
  refine ⟨r, ?_, f⟩
  rw [List.find?_eq_some_iff_getElem]
  obtain ⟨hlt, e⟩ := List.getElem?_eq_some_iff.mp hr
  refine ⟨by simpa using f.hash, k, hlt, e, fun j hj => ?_⟩
  have hjl : j < P.fns.length := by omega
  obtain ⟨r', hr', f'⟩ := hf j _ (List.getElem?_eq_getElem hjl)
  have e' := (List.getElem?_eq_some_iff.mp hr').2
  rw [e', f'.hash]
  simpa using hfirst j _ hj (List.getElem?_eq_getElem hjl)

/-- **C104, `wr_instanceStruct`, partial.**  For a linked program and a struct of it that is exported or that
some `new` names: when `wr_callFunction` has run the constructor to its end, with any arguments, from any
state of the stack, the instance has as its members the values the constructor's variables had when it
returned.  Unlike for `new` the member map may be anywhere in the 65536 bytes.  Missing: a constructor
that fails or yields (`C104_fails_no_constructor`), a second function of that name (`C104_fails_two_names`). -/
theorem C104_instance_partial {G : Program} (ok : ProgramOk G) {img : List Byte} (hl : link G = .ok img)
    (hsize : img.length ≤ 65536) {c : Ctx} (hc : load img = .ok c) {k : Nat} {u : CUnit}
    (hk : G.fns[k]? = some u)
    (hfirst : ∀ (j : Nat) (w : CUnit), j < k → G.fns[j]? = some w → w.hash ≠ u.hash)
    (hinst : Instanced G k u) (hne : u.arguments < u.locals.length) (hd : (u.locals.drop u.arguments).Nodup)
    (hnull : ∀ h ∈ u.locals.drop u.arguments, h ≠ 0xABABABAB#32)
    {P : Prog} {dep : Frames.Depths} (hP : P.Ok) (hW : Frames.WF P dep)
    {base stop g : Nat} {F : Fn} {mem : Mem} {argv : List Val} (hF : P.fns g = some F) (hrec : RecOf u F)
    (hs : P.code stop = some .stop) (hh : ∀ i, (mem.heap i).ptr = none) (ha : ∀ v ∈ argv, v.ptr = none) :
    Frames.hostCall P none base stop mem F argv = .err ∨
    ∃ m', Frames.hostCall P none base stop mem F argv = .run m' ∧
      (∀ i, i < F.arguments → m'.mem.stk (m'.fb + i) = (argv[i]?).getD (.int 0)) ∧
      ∀ as : List Val, (∀ w ∈ as, w.ptr = none) →
        (∃ m2, Frames.Within P base (base + 1) as m' m2) ∨
        (∃ as1 w as2 m1, as = as1 ++ w :: as2 ∧ Frames.Within P base (base + 1) as1 m' m1 ∧
          Frames.stepH P base w m1 = .err) ∨
        (∃ as1 w as2 m1 m2 y mem', as = as1 ++ w :: as2 ∧ Frames.Within P base (base + 1) as1 m' m1 ∧
          Frames.stepH P base w m1 = .run m2 ∧ Frames.step P base m2 = .done y mem' ∧ m1.fb = base + 1 ∧
          ∃ o, instanceStruct img c u.hash (fun i => mem'.stk (base + 1 + i)) = .ok (some o) ∧
            Holds u img o m1) := by
  obtain ⟨r, hr, f⟩ := find_fn ok hl hsize hc hk hfirst
  obtain ⟨mp, hmp, hat⟩ := f.map hinst
  have hm0 : mp ≠ [] := by
    intro e
    subst e
    unfold localMap at hmp
    rw [if_neg (by intro e; rw [e] at hne; simp at hne)] at hmp
    split at hmp
    · cases hmp
    · have hmp := ofOption_ok hmp
      obtain ⟨t, _, hmp⟩ := Option.map_eq_some_iff.mp hmp
      simp at hmp
  obtain ⟨h3, hat⟩ : 3 ≤ r.namespaceOffset.toNat ∧ At img r.namespaceOffset.toNat mp := by
    rcases hat with ⟨h, _⟩ | ⟨_, h⟩
    · exact absurd h hm0
    · exact h
  have hu : MapOf u img r.namespaceOffset.toNat := ⟨⟨mp, hmp, hat⟩, hne, hd, hnull⟩
  rcases Frames.C33_host_call_partial hP hW hF hs hh ha (base := base) with e | ⟨m', e, -, -, hargs, h⟩
  · exact .inl e
  · refine .inr ⟨m', e, hargs, fun as has => ?_⟩
    rcases h as has with h | h | ⟨a1, w, a2, m1, m2, x, ha', hw, e2, -, -, -, hfb, hv, -, y, -, hstop⟩
    · exact .inl h
    · exact .inr (.inl h)
    · refine .inr (.inr ⟨a1, w, a2, m1, m2, y, _, ha', hw, e2, hstop, hfb, ?_⟩)
      obtain ⟨o, e3, ho⟩ := holds_of hu hrec (m1 := m1)
        (slot := fun i => (m2.mem.put (.s base) x).stk (base + 1 + i)) (fun i hi => by
          rw [← hv i hi, Frames.put_stk_ne _ _ (by omega)])
      refine ⟨o, ?_, ho⟩
      unfold instanceStruct
      rw [hr]
      dsimp only
      rw [if_neg (fun e => by rw [e] at h3; simp at h3), e3]
      rfl

/-- C104: a name that no function has, or that is neither exported nor named by a `new`, makes no instance,
whatever is on the stack. -/
theorem C104_refused {α : Type} {G : Program} (ok : ProgramOk G) {img : List Byte} (hl : link G = .ok img)
    (hsize : img.length ≤ 65536) {c : Ctx} (hc : load img = .ok c) {h : Word32}
    (hno : ∀ (k : Nat) (u : CUnit), G.fns[k]? = some u → u.hash = h → ¬ Instanced G k u) (slot : Nat → α) :
    instanceStruct img c h slot = .ok none := by
  obtain ⟨c', hc', _, hlen, _, hf⟩ := C29_link_load_partial ok hl hsize
  rw [hc] at hc'; injection hc' with hc'; subst hc'
  unfold instanceStruct
  cases hr : c.functions.find? (fun r => decide (r.hash = h)) with
  | none => rfl
  | some r =>
    dsimp only
    obtain ⟨hh, k, hk, e, -⟩ := List.find?_eq_some_iff_getElem.mp hr
    have hkl : k < G.fns.length := by omega
    obtain ⟨r', hr', f⟩ := hf k _ (List.getElem?_eq_getElem hkl)
    rw [List.getElem?_eq_getElem hk, e] at hr'
    injection hr' with hr'; subst hr'
    rw [if_pos (f.noMap (hno k _ (List.getElem?_eq_getElem hkl) (by rw [← f.hash]; simpa using hh)))]

/-- **C104, imported `new` without arguments.**  When the constructor is back the object has as its members the
values the constructor's variables had when it returned. -/
theorem C104_import_new_partial {Q : Prog} {dep : Frames.Depths} (hQ : Q.Ok) (hW : Frames.WF Q dep)
    {stop g fuel : Nat} {F : Fn} {m : M} {R : Nat → Prop} (hF : Q.fns g = some F)
    (hs : Q.code stop = some .stop) (hR : ∀ i, R i → i < m.top) (hc : Frames.Closed R m.mem)
    {y : Val} {mem : Mem} (hrun : Frames.importRun Q stop F 0 fuel m = .done y mem)
    {u : CUnit} {img : List Byte} {ns : Word16} (hu : MapOf u img ns.toNat) (hrec : RecOf u F) (h0 : ns ≠ 0#16) :
    ∃ m1 x o, Frames.Ran Q F 0 m m1 x ∧ importNew img ns 0 m mem = .ok (o, m.top + 2) ∧ Holds u img o m1 ∧
      ∀ i, i < m.top → ¬ R i → mem.stk i = m.mem.stk i := by
  rcases Frames.import_run (n := 0) (fuel := fuel) hQ hW hF hs (Nat.zero_le _) hR hc
    (fun i h1 h2 => by omega) with ⟨m', e⟩ | ⟨c, e⟩ | e | ⟨y', mem', m1, x, e, hran, -, hlow, -, -, hv⟩
  · rw [hrun] at e; cases e
  · rw [hrun] at e; cases e
  · rw [hrun] at e; cases e
  · rw [hrun] at e
    injection e with e1 e2
    subst e1 e2
    obtain ⟨o, e3, ho⟩ := holds_of hu hrec (m1 := m1) (slot := fun i => mem.stk (m.top + 1 + i)) hv
    refine ⟨m1, x, o, hran, ?_, ho, hlow⟩
    simp only [importNew, h0, if_false, if_true, e3]
    rfl

/-- C104 fails: `new` of an imported struct with as many arguments as it has parameters gives the object's
members the values of the first slots of the constructor's frame - the arguments - instead of its
variables. -/
theorem C104_fails_import_arguments {Q : Prog} {dep : Frames.Depths} (hQ : Q.Ok) (hW : Frames.WF Q dep)
    {stop g n fuel : Nat} {F : Fn} {m : M} {R : Nat → Prop} (hF : Q.fns g = some F)
    (hs : Q.code stop = some .stop) (hn : n ≤ m.top) (hR : ∀ i, R i → i < m.top - n)
    (hc : Frames.Closed R m.mem) (ho : Frames.Operands R m.mem (m.top - n) m.top)
    {y : Val} {mem : Mem} (hrun : Frames.importRun Q stop F n fuel m = .done y mem)
    {u : CUnit} {img : List Byte} {ns : Word16} (hu : MapOf u img ns.toNat) (hrec : RecOf u F) (h0 : ns ≠ 0#16)
    (hn0 : n ≠ 0) (hargs : n = F.arguments) :
    ∃ m1 x o, Frames.Ran Q F n m m1 x ∧ importNew img ns n m mem = .ok (o, m.top - n + 2) ∧
      ∀ i h, (u.locals.drop u.arguments)[i]? = some h →
        member img o h = .ok (some (m1.mem.stk (m1.fb + i))) := by
  rcases Frames.import_run (fuel := fuel) hQ hW hF hs hn hR hc ho with
    ⟨m', e⟩ | ⟨c, e⟩ | e | ⟨y', mem', m1, x, e, hran, -, -, -, -, hv⟩
  · rw [hrun] at e; cases e
  · rw [hrun] at e; cases e
  · rw [hrun] at e; cases e
  · rw [hrun] at e
    injection e with e1 e2
    subst e1 e2
    obtain ⟨mp, hmp, hat⟩ := hu.map
    obtain ⟨o, e3, -, hm, -⟩ := C27_object_resolves hmp hat hu.members hu.distinct hu.named
      (fun i => (mem.put (.s (m.top - (n - 1) - 1)) (mem.stk m.top)).stk (m.top - (n - 1) + i))
    refine ⟨m1, x, o, hran, ?_, fun i h hi => ?_⟩
    · simp only [importNew, h0, hn0, if_false, e3]
      show Res.ok (o, m.top - (n - 1) + 1) = _
      congr 2
      omega
    · have hlt : i < u.locals.length - u.arguments := by
        have := (List.getElem?_eq_some_iff.mp hi).1
        simpa using this
      rw [(hm i h hi).2, Frames.put_stk_ne _ _ (by omega),
        show m.top - (n - 1) + (u.arguments + i) = m.top + 1 + i by rw [← hrec.args]; omega,
        hv i (by rw [hrec.locals]; omega)]

/-- C104 fails: the stack.  After `new` of an imported struct there is one operand more than after an own one:
the constructor's result is still below the object. -/
theorem C104_fails_import_operands {img : List Byte} {ns : Word16} {n top : Nat} {m : M} {mem : Mem} {o : Obj Val}
    (hn : n ≤ m.top) (h : importNew img ns n m mem = .ok (o, top)) : top = (m.top - n + 1) + 1 := by
  unfold importNew at h
  split at h
  · cases h
  · dsimp only at h
    obtain ⟨o', -, h⟩ := bind_ok h
    injection h with h
    injection h with _ h
    subst h
    split <;> omega

/-- C104 fails: whether the constructor was run is not looked at.  For every struct of a linked program that
is exported or named by a `new` there is an instance, made of whatever is on the stack. -/
theorem C104_fails_no_constructor {α : Type} {G : Program} (ok : ProgramOk G) {img : List Byte}
    (hl : link G = .ok img) (hsize : img.length ≤ 65536) {c : Ctx} (hc : load img = .ok c) {k : Nat} {u : CUnit}
    (hk : G.fns[k]? = some u)
    (hfirst : ∀ (j : Nat) (w : CUnit), j < k → G.fns[j]? = some w → w.hash ≠ u.hash)
    (hinst : Instanced G k u) (hne : u.arguments < u.locals.length) (hd : (u.locals.drop u.arguments).Nodup)
    (hnull : ∀ h ∈ u.locals.drop u.arguments, h ≠ 0xABABABAB#32) (slot : Nat → α) :
    ∃ o, instanceStruct img c u.hash slot = .ok (some o) ∧
      ∀ i h, (u.locals.drop u.arguments)[i]? = some h → member img o h = .ok (some (slot (u.arguments + i))) := by
  obtain ⟨r, hr, f⟩ := find_fn ok hl hsize hc hk hfirst
  obtain ⟨mp, hmp, hat⟩ := f.map hinst
  have hm0 : mp ≠ [] := by
    intro e
    subst e
    unfold localMap at hmp
    rw [if_neg (by intro e; rw [e] at hne; simp at hne)] at hmp
    split at hmp
    · cases hmp
    · have hmp := ofOption_ok hmp
      obtain ⟨t, _, hmp⟩ := Option.map_eq_some_iff.mp hmp
      simp at hmp
  obtain ⟨h3, hat⟩ : 3 ≤ r.namespaceOffset.toNat ∧ At img r.namespaceOffset.toNat mp := by
    rcases hat with ⟨h, _⟩ | ⟨_, h⟩
    · exact absurd h hm0
    · exact h
  obtain ⟨o, e, -, hm, -⟩ := C27_object_resolves hmp hat hne hd hnull slot
  refine ⟨o, ?_, fun i h hi => (hm i h hi).2⟩
  unfold instanceStruct
  rw [hr]
  dsimp only
  rw [if_neg (fun e => by rw [e] at h3; simp at h3), e]
  rfl

end Wrench.Link
