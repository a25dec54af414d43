import Verif.Link.Instance

/-
A program with two structs that meets the hypotheses of C104, as a linked image and as a program
of Frames, and the cases in which an instance does not hold what its constructor left.
-/
namespace Wrench.Link

open Wrench.Frames (M Mem Val Prog Fn Instr demoEnv demoEnv_ok linkFn)
open Wrench.Frames.Instr (lit storeLocal loadLocal binary)

/-- `struct S { p = 7; q = 8; }` -/
def structS : CUnit := { demoS with exportNamespace := true }

/-- `struct T( a ) { p = a + 1; }` -/
def structT : CUnit where
  hash := hashStr [84#8]
  arguments := 1
  locals := [hashStr [97#8], hashStr [112#8]]
  exportNamespace := true
  code := [Vm.Op.ReturnZero.code]
  calls := []
  news := []

def structP : Program where
  main := ⟨0#32, 0, [], false, [Vm.Op.Stop.code], [], []⟩
  fns := [structS, structT, demoF]
  flags := 0#8
  source := []
  symbols := []

theorem leafOk {u : CUnit} (h1 : u.calls = []) (h2 : u.news = []) : UnitOk u := by
  refine ⟨?_, ?_, ?_, ?_, ?_, ?_⟩ <;> simp [h1, h2, sites]

theorem structP_ok : ProgramOk structP where
  nonempty := by decide
  main := leafOk rfl rfl
  fns := by
    intro u hu
    simp only [structP, List.mem_cons, List.not_mem_nil, or_false] at hu
    rcases hu with rfl | rfl | rfl
    · exact ⟨leafOk rfl rfl, by decide, by decide⟩
    · exact ⟨leafOk rfl rfl, by decide, by decide⟩
    · exact ⟨leafOk rfl rfl, by decide, by decide⟩
  yield := by decide +kernel

def structImg : List Byte := match link structP with
  | .ok i => i
  | _ => []

def structCtx : Ctx := match load structImg with
  | .ok c => c
  | _ => ⟨0, [], 0⟩

theorem struct_linked : link structP = .ok structImg := by decide +kernel

theorem struct_loaded : load structImg = .ok structCtx := by decide +kernel

/-- The two constructors as the interpreter runs them. -/
def structCode : Nat → Option Instr
  | 10 => some (.plain (lit (.int 7)))
  | 11 => some (.plain (storeLocal demoEnv 0))
  | 12 => some (.plain (lit (.int 8)))
  | 13 => some (.plain (storeLocal demoEnv 1))
  | 14 => some .retZero
  | 20 => some (.plain (loadLocal 0))
  | 21 => some (.plain (lit (.int 1)))
  | 22 => some (.plain (binary demoEnv fun a b => Frames.demoWord a + Frames.demoWord b))
  | 23 => some (.plain (storeLocal demoEnv 1))
  | 24 => some .retZero
  | 40 => some .stop
  | 50 => some (.call 0 0)
  | _ => none

def structProg : Prog :=
  { demoEnv with
    code := structCode,
    fns := fun g => if g = 0 then some (linkFn 10 0 2) else if g = 1 then some (linkFn 20 1 1) else none }

def structDepths : Frames.Depths
  | 10 => some (some 0, 0, false)
  | 11 => some (some 0, 1, false)
  | 12 => some (some 0, 0, false)
  | 13 => some (some 0, 1, false)
  | 14 => some (some 0, 0, false)
  | 20 => some (some 1, 0, false)
  | 21 => some (some 1, 1, false)
  | 22 => some (some 1, 2, false)
  | 23 => some (some 1, 1, false)
  | 24 => some (some 1, 0, false)
  | _ => none

theorem structProg_ok : structProg.Ok := ⟨demoEnv_ok.elem, demoEnv_ok.lib⟩

open Wrench.Frames in
theorem structProg_wf : WF structProg structDepths := by
  have hv0 : nvars structProg (some 0) = 2 := rfl
  have hv1 : nvars structProg (some 1) = 2 := rfl
  refine ⟨?_, ?_, ?_⟩
  · intro g F h
    simp only [structProg] at h
    split at h
    · next hg => subst hg; injection h with h; subst h; exact ⟨rfl, rfl⟩
    · split at h
      · next hg => subst hg; injection h with h; subst h; exact ⟨rfl, rfl⟩
      · cases h
  · intro pc f d h
    unfold structDepths at h
    split at h <;> cases h
  · intro pc f d h
    unfold structDepths at h
    split at h <;> first | (cases h; done) | skip
    all_goals
      injection h with h
      injection h with h1 h2
      injection h2 with h2 h3
    all_goals subst h1 h2
    · exact ⟨_, rfl, lit_ok rfl, by decide, fun _ => rfl, by simp [lit]⟩
    · exact ⟨_, rfl, storeLocal_ok demoEnv_ok (by rw [hv0]; decide), by decide, fun _ => rfl, by simp [storeLocal]⟩
    · exact ⟨_, rfl, lit_ok rfl, by decide, fun _ => rfl, by simp [lit]⟩
    · exact ⟨_, rfl, storeLocal_ok demoEnv_ok (by rw [hv0]; decide), by decide, fun _ => rfl, by simp [storeLocal]⟩
    · exact ⟨_, rfl, rfl, by simp⟩
    · exact ⟨_, rfl, loadLocal_ok (by rw [hv1]; decide), by decide, fun _ => rfl, by simp [loadLocal]⟩
    · exact ⟨_, rfl, lit_ok rfl, by decide, fun _ => rfl, by simp [lit]⟩
    · exact ⟨_, rfl, binary_ok demoEnv_ok, by decide, fun _ => rfl, by simp [binary]⟩
    · exact ⟨_, rfl, storeLocal_ok demoEnv_ok (by rw [hv1]; decide), by decide, fun _ => rfl, by simp [storeLocal]⟩
    · exact ⟨_, rfl, rfl, by simp⟩

def structStart : M :=
  { mem := ⟨fun i => .int (BitVec.ofNat 32 (100 + i)), fun _ => .int 0⟩, top := 4, fb := 0, pc := 50, r0 := none }

theorem structT_first (j : Nat) (w : CUnit) (hj : j < 1) (h : structP.fns[j]? = some w) : w.hash ≠ structT.hash := by
  obtain rfl : j = 0 := by omega
  have : w = structS := by
    simp only [structP, List.getElem?_cons_zero] at h
    injection h with h
    exact h.symm
  rw [this]
  decide +kernel

/-- The hypotheses of `C104_instance_partial` are met for `T`, whatever the stack holds. -/
example (mem : Mem) (hh : ∀ i, (mem.heap i).ptr = none) : True := by
  have hn : (structT.locals.drop structT.arguments).Nodup := by simp [structT]
  have h0 : ∀ h ∈ structT.locals.drop structT.arguments, h ≠ 0xABABABAB#32 := by
    have : hashStr [112#8] ≠ 0xABABABAB#32 := by decide +kernel
    simp [structT, this]
  have hk : structP.fns[1]? = some structT := by simp [structP]
  have h := C104_instance_partial structP_ok struct_linked (by decide +kernel) struct_loaded hk
    structT_first (.inl rfl) (by decide) hn h0 structProg_ok structProg_wf (g := 1) (base := 4)
    (F := linkFn 20 1 1) rfl ⟨rfl, rfl⟩ (stop := 40) rfl hh (argv := [.int 5])
    (fun v hv => by rw [List.mem_singleton.mp hv]; rfl)
  trivial

/-- The member `h` of the object, if there is one. -/
def memberOf (img : List Byte) (h : Word32) : Res (Option (Obj Val)) → Res (Option Val)
  | .ok (some o) => member img o h
  | _ => .err

def finalMem : Frames.Out → Mem
  | .done _ mem => mem
  | .run m => m.mem
  | _ => ⟨fun _ => .int 0, fun _ => .int 0⟩

/-- `wr_instanceStruct( "T", 5 )`, with the member `h`. -/
def instanceT (h : Word32) : Res (Option Val) :=
  let mem := finalMem (Frames.runN structProg 4 (.int 0) 6
    (Frames.hostCall structProg none 4 40 structStart.mem (linkFn 20 1 1) [.int 5]))
  memberOf structImg h (instanceStruct structImg structCtx (hashStr [84#8]) fun i => mem.stk (4 + 1 + i))

/-- `p` is 6 and `a` no member. -/
example : instanceT (hashStr [112#8]) = .ok (some (.int 6)) ∧ instanceT (hashStr [97#8]) = .ok none := by
  constructor <;> decide +kernel

/-- `f` is a function and no struct, and nothing is called `g`. -/
example (slot : Nat → Nat) : instanceStruct structImg structCtx (hashStr [102#8]) slot = .ok none :=
  C104_refused structP_ok struct_linked (by decide +kernel) struct_loaded (by
    intro k u hk hu
    rintro (he | ⟨v, hv, n, hn, -⟩)
    · match k, hk with
      | 0, h => cases h; exact absurd hu (by decide +kernel)
      | 1, h => cases h; exact absurd hu (by decide +kernel)
      | 2, h => cases h; cases he
    · simp only [structP, List.mem_cons, List.not_mem_nil, or_false] at hv
      rcases hv with rfl | rfl | rfl | rfl <;> cases hn) slot

theorem structS_nodup : (structS.locals.drop structS.arguments).Nodup := by
  have : hashStr [112#8] ≠ hashStr [113#8] := by decide +kernel
  simp [structS, demoS, this]

theorem structS_named : ∀ h ∈ structS.locals.drop structS.arguments, h ≠ 0xABABABAB#32 := by
  have h1 : hashStr [112#8] ≠ 0xABABABAB#32 := by decide +kernel
  have h2 : hashStr [113#8] ≠ 0xABABABAB#32 := by decide +kernel
  simp [structS, demoS, h1, h2]

theorem structS_map : ∃ off : Word16, off ≠ 0#16 ∧ off.toNat < 32768 ∧ MapOf structS structImg off.toNat := by
  obtain ⟨r, hr, f⟩ := find_fn structP_ok struct_linked (by decide +kernel) struct_loaded (k := 0) (u := structS) rfl
    (fun j w hj => by omega)
  obtain ⟨mp, hmp, h⟩ := f.map (.inl rfl)
  have hlen : structImg.length < 32768 := by decide +kernel
  rcases h with ⟨h, _⟩ | ⟨_, h3, h⟩
  · subst h; exact absurd hmp (by decide +kernel)
  · refine ⟨r.namespaceOffset, fun e => by rw [e] at h3; simp at h3, ?_, ⟨mp, hmp, h⟩, by decide, structS_nodup,
      structS_named⟩
    have hpos : 0 < mp.length := by
      cases mp with
      | nil => exact absurd hmp (by decide +kernel)
      | cons _ _ => simp
    have := h 0 hpos
    have : r.namespaceOffset.toNat + 0 < structImg.length := by
      by_cases hc : r.namespaceOffset.toNat + 0 < structImg.length
      · exact hc
      · rw [List.getElem?_eq_none (by omega), List.getElem?_eq_getElem hpos] at this
        cases this
    omega

/-- The hypotheses of `C104_new_partial` are met by `new S()`. -/
example : ∃ off : Word16, off ≠ 0#16 := by
  obtain ⟨off, h0, h1, hu⟩ := structS_map
  have := C104_new_partial (base := 0) (R := fun _ => False) structProg_ok structProg_wf (m := structStart) (g := 0)
    (n := 0) rfl rfl (Nat.zero_le _) (fun i h => h.elim) ⟨fun _ => rfl, fun i h => h.elim⟩
    (fun i h1 h2 => by omega) (.int 0) hu ⟨rfl, rfl⟩ (by
      rcases Nat.eq_zero_or_pos off.toNat with h | h
      · exact absurd (BitVec.eq_of_toNat_eq (by simpa using h)) h0
      · exact h) h1
  exact ⟨off, h0⟩

def ran (o : Frames.Out) : Bool := match o with
  | .done _ _ => true
  | _ => false

/-- The hypotheses of `C104_import_new_partial` are met by `new S()` from an importing script. -/
example : ∃ m1 x o ns, Frames.Ran structProg (linkFn 10 0 2) 0 structStart m1 x ∧ Holds structS structImg o m1 ∧
    ∃ mem, importNew structImg ns 0 structStart mem = .ok (o, 6) := by
  obtain ⟨ns, h0, -, hu⟩ := structS_map
  have hd : ran (Frames.importRun structProg 40 (linkFn 10 0 2) 0 20 structStart) = true := by decide +kernel
  cases hrun : Frames.importRun structProg 40 (linkFn 10 0 2) 0 20 structStart with
  | done y mem =>
    obtain ⟨m1, x, o, h1, h2, h3, -⟩ := C104_import_new_partial (R := fun _ => False)
      structProg_ok structProg_wf (g := 0) rfl rfl (fun i h => h.elim)
      ⟨fun _ => rfl, fun i h => h.elim⟩ hrun hu ⟨rfl, rfl⟩ h0
    exact ⟨m1, x, o, ns, h1, h3, _, h2⟩
  | _ => rw [hrun] at hd; cases hd

/-- The offset the loader has for `T`. -/
def structTns : Word16 := ((structCtx.functions[1]?).map FnRec.namespaceOffset).getD 0#16

/-- `new T( 5 )` from an importing script: the member `p`, and the stack top. -/
def importT : Res (Option Val) × Res Nat :=
  let m := { structStart with mem := structStart.mem.put (.s 3) (.int 5) }
  let mem := finalMem (Frames.importRun structProg 40 (linkFn 20 1 1) 1 20 m)
  let r := importNew structImg structTns 1 m mem
  (memberOf structImg (hashStr [112#8]) (r.bind fun o => .ok (some o.1)), r.bind fun o => .ok o.2)

/-- C104 fails: `new T( 5 )` from an importing script has `p` equal to 5, where an own one has 6, and leaves
5 operands where there should be 4. -/
theorem C104_fails_import_example : importT.1 = .ok (some (.int 5)) ∧ importT.2 = .ok 5 := by
  constructor <;> decide +kernel

/-- Two structs of one name, with the members `p`, `q` and `z`. -/
def twoP : Program := ⟨⟨0#32, 0, [], false, [Vm.Op.Stop.code], [], []⟩,
  [structS, { structS with locals := [hashStr [122#8]] }], 0#8, [], []⟩

def twoImg : List Byte := match link twoP with
  | .ok i => i
  | _ => []

def twoCtx : Ctx := match load twoImg with
  | .ok c => c
  | _ => ⟨0, [], 0⟩

/-- C104 fails: two structs of one name.  `wr_instanceStruct` runs the constructor of the second (`hostFn`)
and makes an object with the members of the first. -/
theorem C104_fails_two_names : link twoP = .ok twoImg ∧ load twoImg = .ok twoCtx ∧
    hostFn twoCtx (hashStr [83#8]) = some 1 ∧ (twoP.fns[1]?).map CUnit.locals = some [hashStr [122#8]] ∧
    memberOf twoImg (hashStr [113#8]) (instanceStruct twoImg twoCtx (hashStr [83#8]) fun i =>
      .int (BitVec.ofNat 32 i)) = .ok (some (.int 1)) ∧
    memberOf twoImg (hashStr [122#8]) (instanceStruct twoImg twoCtx (hashStr [83#8]) fun i =>
      .int (BitVec.ofNat 32 i)) = .ok none := by
  refine ⟨?_, ?_, ?_, ?_, ?_, ?_⟩ <;> decide +kernel

end Wrench.Link
