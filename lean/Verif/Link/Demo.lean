import Verif.Link.Members
import Verif.Link.Links

/-
A concrete program that meets the hypotheses, and places where the code does not have the
properties.
-/
namespace Wrench.Link

open Wrench.Util

/-- `x = f(1); S s = new S(); g();` with `function f(a)` and `struct S { p; q; }`. -/
def demoMain : CUnit where
  hash := 0#32
  arguments := 0
  locals := [hashStr [58#8, 58#8, 120#8], hashStr [58#8, 58#8, 115#8]]
  exportNamespace := false
  code := [0#8, 1#8, 0#8, 0#8, 0#8, 0#8, 9#8, 0#8, 0#8, 0#8, 0#8, 0#8, 0#8, Vm.Op.NewObjectTable.code, 0#8, 0#8,
    0#8, 0#8, 0#8, 0#8, 0#8, Vm.Op.PopOne.code, Vm.Op.Stop.code]
  calls := [⟨hashStr [102#8], [0]⟩, ⟨hashStr [83#8], [7]⟩, ⟨hashStr [103#8], [16]⟩]
  news := [⟨hashStr [83#8], [14]⟩]

def demoF : CUnit where
  hash := hashStr [102#8]
  arguments := 1
  locals := [hashStr [97#8]]
  exportNamespace := false
  code := [Vm.Op.ReturnZero.code]
  calls := []
  news := []

def demoS : CUnit where
  hash := hashStr [83#8]
  arguments := 0
  locals := [hashStr [112#8], hashStr [113#8]]
  exportNamespace := false
  code := [Vm.Op.ReturnZero.code]
  calls := []
  news := []

def demoP : Program where
  main := demoMain
  fns := [demoF, demoS]
  flags := 1#8
  source := []
  symbols := []

private theorem unitOk_leaf {u : CUnit} (h1 : u.calls = []) (h2 : u.news = []) : UnitOk u := by
  refine ⟨?_, ?_, ?_, ?_, ?_, ?_⟩ <;> simp [h1, h2, sites]

private theorem demoMain_ok : UnitOk demoMain where
  calls := by unfold Apart; decide +kernel
  news := by unfold Apart; decide +kernel
  mixed := by unfold Apart; decide +kernel
  range := by decide +kernel
  newRange := by decide +kernel
  opcode := by decide +kernel

theorem demoP_ok : ProgramOk demoP where
  nonempty := by decide
  main := demoMain_ok
  fns := by
    intro u hu
    simp only [demoP, List.mem_cons, List.not_mem_nil, or_false] at hu
    rcases hu with rfl | rfl
    · exact ⟨unitOk_leaf rfl rfl, by decide, by decide⟩
    · exact ⟨unitOk_leaf rfl rfl, by decide, by decide⟩
  yield := by decide +kernel

def demoImg : List Byte := match link demoP with
  | .ok i => i
  | _ => []

theorem demo_linked : link demoP = .ok demoImg := by decide +kernel

/-- The hypotheses of C29_links are met; both sides hold. -/
example : Limits demoP ∧ ∀ k u, demoP.fns[k]? = some u → Instanced demoP k u → ∃ m, localMap u = .ok m :=
  (C29_links demoP_ok (fun u hu => by
    simp only [demoP, List.mem_cons, List.not_mem_nil, or_false] at hu
    rcases hu with rfl | rfl | rfl
    · unfold NotLast; decide +kernel
    · exact fun c hc => by simp [demoF, sites] at hc
    · exact fun c hc => by simp [demoS, sites] at hc) (by decide +kernel)).1 ⟨_, demo_linked⟩

/-- With 256 globals there is an error. -/
example : link { demoP with main := { demoMain with locals := List.replicate 256 1#32 } } = .err := by
  unfold link
  rw [(C29_limits _).2 (fun l => absurd l.globals (by
    show ¬ (List.replicate 256 1#32).length ≤ 255
    rw [List.length_replicate]; omega))]
  rfl

/-- The hypotheses of C29 are met, and what it says of the table. -/
example : ∃ c, load demoImg = .ok c ∧ c.globals = 2 ∧ c.functions.length = 2 := by
  obtain ⟨c, h1, h2, h3, _⟩ := C29_link_load_partial demoP_ok demo_linked (by decide +kernel)
  exact ⟨c, h1, h2, h3⟩

example : (load demoImg).bind (fun c => .ok (c.functions.map fun r => (r.hash, r.functionOffset.toNat))) =
    .ok [(hashStr [102#8], 56), (hashStr [83#8], 71)] := by decide +kernel

/-- The calls: `f` with result, `S` for `new`, and `g` which is not in the program. -/
example : (load demoImg).bind (fun c => .ok
      [decodeCall demoImg c.codeStart, decodeCall demoImg (c.codeStart + 7),
        decodeCall demoImg (c.codeStart + 16)]) =
    .ok [some (.fn 0 1 38), some (.fn 1 0 46), some (.extern (hashStr [103#8]) true 0 55)] := by
  decide +kernel

/-- `s` is the second global. -/
example : (load demoImg).bind (fun c => getGlobalRef demoImg c [115#8]) = .ok (some 1) := by decide +kernel

/-- The `new S()` object: `q` is slot 1, `p` slot 0, and there is no `z`. -/
example : ∃ o, newObject demoImg 57#16 (fun i => i) = .ok (some o) ∧
    member demoImg o (hashStr [113#8]) = .ok (some 1) ∧ member demoImg o (hashStr [112#8]) = .ok (some 0) ∧
    member demoImg o (hashStr [122#8]) = .ok none :=
  ⟨⟨61, 2, [0, 1]⟩, by decide +kernel, by decide +kernel, by decide +kernel, by decide +kernel⟩

/-! ### The host and the script agree on names -/

theorem hostFn_unique {c : Ctx} {h : Word32} {k : Nat} {r : FnRec} (hk : c.functions[k]? = some r)
    (hr : r.hash = h) (hu : ∀ (j : Nat) (s : FnRec), c.functions[j]? = some s → s.hash = h → j = k) :
    hostFn c h = some k := by
  unfold hostFn
  have hmem : (r, k) ∈ c.functions.zipIdx.reverse := by
    rw [List.mem_reverse, List.mem_zipIdx_iff_getElem?]; exact hk
  cases hf : c.functions.zipIdx.reverse.find? fun p => decide (p.1.hash = h) with
  | none =>
    rw [List.find?_eq_none] at hf
    exact absurd hr (by simpa using hf _ hmem)
  | some p =>
    have h1 := List.find?_some hf
    have h2 := List.mem_of_find?_eq_some hf
    rw [List.mem_reverse, List.mem_zipIdx_iff_getElem?] at h2
    rw [Option.map_some, hu p.2 p.1 h2 (by simpa using h1)]

/-- C53: when no two functions have the same name, the host and a call in the script get the same
function for a name. -/
theorem C53_host_agrees_partial {P : Program} (ok : ProgramOk P) {img : List Byte} (h : link P = .ok img)
    (hsize : img.length ≤ 65536) {c : Ctx} (hc : load img = .ok c)
    (hd : (P.fns.map CUnit.hash).Nodup) {k : Nat} {u : CUnit} (hk : P.fns[k]? = some u) :
    hostFn c u.hash = some k ∧ firstFn P.fns u.hash = some k := by
  obtain ⟨c', hc', _, hlen, _, hf⟩ := C29_link_load_partial ok h hsize
  rw [hc] at hc'; injection hc' with hc'; subst hc'
  have uniq : ∀ (j : Nat) (v : CUnit), P.fns[j]? = some v → v.hash = u.hash → j = k := by
    intro j v hj e
    have h1 : (P.fns.map CUnit.hash)[j]? = some u.hash := by rw [List.getElem?_map, hj, ← e]; rfl
    have h2 : (P.fns.map CUnit.hash)[k]? = some u.hash := by rw [List.getElem?_map, hk]; rfl
    have hjl := (List.getElem?_eq_some_iff.mp h1).1
    exact (List.getElem?_inj hjl hd).mp (by rw [h1, h2])
  obtain ⟨r, hr, f⟩ := hf k u hk
  refine ⟨hostFn_unique hr f.hash ?_, ?_⟩
  · intro j s hs e
    have hj : j < P.fns.length := by rw [← hlen]; exact (List.getElem?_eq_some_iff.mp hs).1
    obtain ⟨s', hs', f'⟩ := hf j P.fns[j] (List.getElem?_eq_getElem hj)
    rw [hs] at hs'; injection hs' with hs'; subst hs'
    exact uniq j _ (List.getElem?_eq_getElem hj) (by rw [← f'.hash, e])
  · unfold firstFn
    rw [List.findIdx?_eq_some_iff_getElem]
    obtain ⟨hlt, e⟩ := List.getElem?_eq_some_iff.mp hk
    refine ⟨hlt, by rw [e]; simp, ?_⟩
    intro j hj
    have hne : P.fns[j].hash ≠ u.hash := fun e => by
      have := uniq j _ (List.getElem?_eq_getElem (by omega)) e
      omega
    simpa using hne

example : (load demoImg).bind (fun c => .ok (hostFn c (hashStr [83#8]))) = .ok (some 1) := by decide +kernel

/-! ### Where the code does not have the property -/

/-- Two functions of one name are not rejected: the script calls the first and the host the
second. -/
theorem C53_duplicate_names_disagree :
    ∃ P img c, link P = .ok img ∧ load img = .ok c ∧ P.fns.length = 2 ∧
      decodeCall img c.codeStart = some (.fn 0 0 (c.codeStart + 6)) ∧ hostFn c (hashStr [102#8]) = some 1 := by
  let P : Program := ⟨⟨0#32, 0, [], false, [0#8, 0#8, 0#8, 0#8, 0#8, Vm.Op.PopOne.code, Vm.Op.Stop.code],
    [⟨hashStr [102#8], [0]⟩], []⟩, [{ demoF with arguments := 0, locals := [] },
      { demoF with arguments := 0, locals := [] }], 0#8, [], []⟩
  refine ⟨P, (match link P with | .ok i => i | _ => []),
    ⟨0, [⟨0#16, 32#16, hashStr [102#8], 0#8, 0#8, 1#8⟩, ⟨0#16, 33#16, hashStr [102#8], 0#8, 0#8, 1#8⟩], 25⟩,
    ?_, ?_, rfl, ?_, ?_⟩ <;> decide +kernel

/-- A function called `yield`: the two-byte call is taken for a six-byte one and the following code
is overwritten. -/
theorem C53_yield_function_overwrites :
    ∃ P img c, link P = .ok img ∧ load img = .ok c ∧ P.main.code[2]? = some Vm.Op.Stop.code ∧
      (∀ s ∈ sites P.main.calls, s.2 + width s ≤ 2) ∧ img[c.codeStart + 2]? ≠ some Vm.Op.Stop.code := by
  let P : Program := ⟨⟨0#32, 0, [], false, [0#8, 0#8, Vm.Op.Stop.code, 0#8, 0#8, 0#8, 0#8],
    [⟨yieldHash, [0]⟩], []⟩, [{ demoF with hash := yieldHash }], 0#8, [], []⟩
  refine ⟨P, (match link P with | .ok i => i | _ => []), ⟨0, [⟨0#16, 21#16, yieldHash, 1#8, 0#8, 2#8⟩], 14⟩,
    ?_, ?_, ?_, ?_, ?_⟩ <;> decide +kernel

/-- A function placed at or after 65536 is called elsewhere: the offset is kept modulo 65536. -/
theorem C29_offset_wraps {P : Program} {k : Nat} {u : CUnit} {st st' : St} (h : addFn P k u st = .ok st')
    (he : exported P k u = false) (hc : u.calls = []) (hk : 3 + 11 * k + 4 ≤ st.code.length) :
    At st'.code st.code.length u.code ∧
    read16 st'.code (3 + 11 * k + 2) = some (BitVec.ofNat 16 (st.code.length % 65536)) := by
  unfold addFn at h
  obtain ⟨s1, h1, h⟩ := bind_ok h
  obtain ⟨c2, h2, h⟩ := bind_ok h
  rw [if_neg (by simp [he])] at h1
  obtain ⟨c, e1, h1⟩ := bind_ok h1
  injection h1 with h1; subst h1
  obtain ⟨_, w2, _, _⟩ := writeAt_ok e1
  obtain ⟨v1, v2, v3, _⟩ := writeAt_ok h2
  dsimp only at v1 v2 v3 h
  unfold addUnit at h
  rw [show sites u.calls = [] by rw [hc]; rfl] at h
  obtain ⟨c3, e3, h⟩ := bind_ok h
  injection e3 with e3
  injection h with h; subst h
  subst e3
  dsimp only
  rw [← w2, ← v2]
  refine ⟨at_end c2 u.code, ?_⟩
  have := (v3.append (by simp only [pack16_length]; omega) u.code).read16
  rw [this]
  unfold base16
  rw [v2]

/-- Two labels that agree in the first 61 characters get the same global. -/
theorem C29_long_labels_confused (img : List Byte) (c : Ctx) (a b : List Byte) (h : a.take 61 = b.take 61)
    (ha : a.take 2 ≠ [58#8, 58#8]) : getGlobalRef img c a = getGlobalRef img c b := by
  have hb : b.take 2 ≠ [58#8, 58#8] := by
    intro e
    apply ha
    have := congrArg (List.take 2) h
    rw [List.take_take, List.take_take] at this
    rw [show a.take 2 = a.take (min 2 61) from rfl, this]
    exact e
  unfold getGlobalRef globalName
  rw [if_neg ha, if_neg hb, h]

/-- A constructor with an argument and no members: `new` stores outside the object. -/
theorem C27_no_members_overflows (slot : Nat → Nat) : ∃ u m, u.arguments = 1 ∧ localMap u = .ok m ∧
    newObject ([0#8] ++ m) 1#16 slot = .ub := by
  refine ⟨demoF, _, rfl, (by rfl : localMap demoF = .ok _), ?_⟩
  rfl

/-- A member map at 32768 or later is looked for outside the image. -/
theorem C27_high_map_outside {α : Type} (img : List Byte) (off : Word16) (slot : Nat → α)
    (h : 32768 ≤ off.toNat) (hi : img.length ≤ 65536) : newObject img off slot = .ub := by
  have hse : (off.signExtend 32).toNat = off.toNat + 4294901760 := by
    rw [BitVec.toNat_signExtend, BitVec.msb_eq_true_iff_two_mul_ge.mpr (by omega)]
    have := off.isLt
    simp
    omega
  unfold newObject objectAt
  dsimp only
  rw [hse, if_neg (by omega)]
  have : read8 img (off.toNat + 4294901760) = none := by
    unfold read8
    exact List.getElem?_eq_none (by omega)
  rw [this]
  rfl

/-- A name with the reserved hash is found in an empty slot, and the slot number is outside the
object. -/
theorem C27_null_name_outside : ∃ u : CUnit, ∃ m, localMap u = .ok m ∧ u.locals.length = 1 ∧
      newObject ([0#8] ++ m) 1#16 (fun i => i) = .ok (some ⟨5, 2, [0]⟩) ∧
      member ([0#8] ++ m) (⟨5, 2, [0]⟩ : Obj Nat) 0xABABABAB#32 = .ub := by
  refine ⟨⟨0#32, 0, [hashStr [113#8]], false, [], [], []⟩, _, rfl, rfl,
    ?_, ?_⟩
  · decide +kernel
  · decide +kernel

/-- Ten arguments and 250 locals pass the linker's test on the frame but not its counter. -/
theorem C27_many_locals_hang : ∃ u : CUnit, u.locals.length - u.arguments ≤ 255 ∧ localMap u = .ub :=
  ⟨⟨0#32, 10, List.replicate 260 1#32, true, [], [], []⟩, by decide +kernel, by decide +kernel⟩

end Wrench.Link
