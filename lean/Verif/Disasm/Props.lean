import Verif.Disasm.Lemmas

/-
C65: the listing of a unit shows every byte once, follows the interpreter's instruction
boundaries, and prints the addresses and variables the interpreter uses.
-/
namespace Wrench.Disasm
open Wrench.Vm Wrench.Vm.Jump

/-! ### Any bytes -/

/-- Listing a unit never reads outside it, for any bytes.  Every line starts where the previous one
ends, the bytes shown are the bytes of the unit in order, and bytes are left out only after a line
that says so. -/
theorem C65_every_byte_once (w : List Byte) (pc : Nat) :
    ∃ ls, range w pc = some ls ∧ Consecutive pc ls ∧
      ∃ skipped, w.drop pc = ls.flatMap Line.bytes ++ skipped ∧
        (skipped = [] ∨ ∃ l, ls.getLast? = some l ∧ l.isStop = true ∧ w.drop l.off = skipped) := by
  obtain ⟨ls, h1, h2, _, h3⟩ := range_spec w (w.length - pc) pc (Nat.le_refl _)
  exact ⟨ls, h1, h2, h3⟩

/-- Every line names the instruction its first byte stands for. -/
theorem C65_opcode (w : List Byte) (pc : Nat) (ls : List Line) (h : range w pc = some ls)
    {off : Nat} {bs : List Byte} {o : Op} {fs : List Field} (hm : Line.ins off bs o fs ∈ ls) :
    w[off]? = some o.code := by
  obtain ⟨ls', h1, _, h2, _⟩ := range_spec w (w.length - pc) pc (Nat.le_refl _)
  obtain rfl : ls = ls' := by simpa [h] using h1
  obtain ⟨n, hd, _⟩ := h2 _ hm
  obtain ⟨b, hb, hd⟩ := Option.bind_eq_some_iff.mp hd
  rw [hb, code_decode hd]

/-! ### Instructions -/

/-- Instructions whose size the disassembler has right: all but the `…Values` ones, calls bound to
a function of the module, and `GlobalStop`. -/
def sized : Op → Bool
  | .LLValues | .LGValues | .GLValues | .GGValues | .CallFunctionByIndex | .GlobalStop => false
  | .HASH_PLACEHOLDER | .FUNCTION_CALL_PLACEHOLDER => false
  | _ => true

/-- The instructions with a length of their own. -/
def varies : Op → Bool
  | .LiteralString | .Switch | .SwitchLinear => true
  | _ => false

theorem constant_size (o : Op) (hs : sized o = true) (hv : varies o = false) (d : List Byte) :
    operandLen o d = some (least o) ∧ ∀ w p, operandSize w p o = .size (least o) := by
  cases o <;> first
    | (exact absurd hs (by decide))
    | (exact absurd hv (by decide))
    | exact ⟨rfl, fun _ _ => rfl⟩

theorem read8_app {pre d : List Byte} {k : Nat} (x : Byte) (h : k < d.length) (post : List Byte) :
    read8 (pre ++ x :: (d ++ post)) (pre.length + 1 + k) = read8 d k := by
  simp only [read8]
  rw [List.getElem?_append_right (by omega), show pre.length + 1 + k - pre.length = k + 1 by omega,
    List.getElem?_cons_succ, List.getElem?_append_left h]

theorem read16_app {pre d : List Byte} {k : Nat} (x : Byte) (h : k + 1 < d.length) (post : List Byte) :
    read16 (pre ++ x :: (d ++ post)) (pre.length + 1 + k) = read16 d k := by
  have h1 := read8_app (pre := pre) x (show k < d.length by omega) post
  have h2 := read8_app (pre := pre) x h post
  simp only [read8] at h1 h2
  simp only [read16, h1]
  rw [show pre.length + 1 + k + 1 = pre.length + 1 + (k + 1) by omega, h2]

theorem proper_size {i : Ins} (hs : sized i.1 = true) (hp : i.Proper) (pre post : List Byte) :
    operandSize (pre ++ i.bytes ++ post) (pre.length + 1) i.1 = .size i.2.length := by
  obtain ⟨o, d⟩ := i
  simp only [Ins.Proper, Ins.bytes, List.append_assoc, List.cons_append] at *
  by_cases hv : varies o = false
  · obtain ⟨h1, h2⟩ := constant_size o hs hv d
    rw [hp] at h1
    rw [h2]
    simp only [Option.some.injEq] at h1
    rw [h1]
  · have hlen : (pre ++ o.code :: (d ++ post)).length = pre.length + 1 + d.length + post.length := by
      simp only [List.length_append, List.length_cons]; omega
    cases o <;> first
      | (exact absurd rfl hv)
      | skip
    · have hp' : (read16 d 0).map (fun l => 2 + l.toNat) = some d.length := hp
      obtain ⟨l, hl, he⟩ := Option.map_eq_some_iff.mp hp'
      have : operandSize (pre ++ Op.LiteralString.code :: (d ++ post)) (pre.length + 1) .LiteralString =
        (if pre.length + 1 + 2 > (pre ++ Op.LiteralString.code :: (d ++ post)).length then Size.short
          else match read16 (pre ++ Op.LiteralString.code :: (d ++ post)) (pre.length + 1) with
          | some l => .size (2 + l.toNat)
          | none => .ub) := rfl
      rw [this, if_neg (by rw [hlen]; omega)]
      have hr := read16_app (pre := pre) (k := 0) Op.LiteralString.code (show 0 + 1 < d.length by omega) post
      rw [Nat.add_zero] at hr
      rw [hr, hl]
      simp [he]
    · have hp' : (read16 d 0).map (fun l => 4 + 6 * l.toNat) = some d.length := hp
      obtain ⟨l, hl, he⟩ := Option.map_eq_some_iff.mp hp'
      have : operandSize (pre ++ Op.Switch.code :: (d ++ post)) (pre.length + 1) .Switch =
        (if pre.length + 1 + 2 > (pre ++ Op.Switch.code :: (d ++ post)).length then Size.short
          else match read16 (pre ++ Op.Switch.code :: (d ++ post)) (pre.length + 1) with
          | some l => .size (4 + l.toNat * 6)
          | none => .ub) := rfl
      rw [this, if_neg (by rw [hlen]; omega)]
      have hr := read16_app (pre := pre) (k := 0) Op.Switch.code (show 0 + 1 < d.length by omega) post
      rw [Nat.add_zero] at hr
      rw [hr, hl]
      simp only [Size.size.injEq]
      omega
    · have hp' : (read8 d 0).map (fun l => 3 + 2 * l.toNat) = some d.length := hp
      obtain ⟨l, hl, he⟩ := Option.map_eq_some_iff.mp hp'
      have : operandSize (pre ++ Op.SwitchLinear.code :: (d ++ post)) (pre.length + 1) .SwitchLinear =
        (if pre.length + 1 + 1 > (pre ++ Op.SwitchLinear.code :: (d ++ post)).length then Size.short
          else match read8 (pre ++ Op.SwitchLinear.code :: (d ++ post)) (pre.length + 1) with
          | some l => .size (3 + l.toNat * 2)
          | none => .ub) := rfl
      rw [this, if_neg (by rw [hlen]; omega)]
      have hr := read8_app (pre := pre) (k := 0) Op.SwitchLinear.code (show 0 < d.length by omega) post
      rw [Nat.add_zero] at hr
      rw [hr, hl]
      simp only [Size.size.injEq]
      omega

/-- One instruction of a listing. -/
theorem range_cons {pre post : List Byte} {o : Op} {d : List Byte} (ho : o.ctorIdx < 250)
    (hs : operandSize (pre ++ o.code :: (d ++ post)) (pre.length + 1) o = .size d.length) :
    ∃ fs, decodeOperands (pre ++ o.code :: (d ++ post)) o (pre.length + 1) d.length pre.length = some fs ∧
      range (pre ++ o.code :: (d ++ post)) pre.length =
        (range (pre ++ o.code :: (d ++ post)) (pre.length + 1 + d.length)).map
          (Line.ins pre.length (o.code :: d) o fs :: ·) := by
  have hlen : (pre ++ o.code :: (d ++ post)).length = pre.length + 1 + d.length + post.length := by
    simp only [List.length_append, List.length_cons]; omega
  obtain ⟨fs, hf⟩ := decodeOperands_some pre.length hs (by omega)
  refine ⟨fs, hf, ?_⟩
  have hb : read8 (pre ++ o.code :: (d ++ post)) pre.length = some o.code := by simp [read8]
  have hcode : o.code.toNat = o.ctorIdx := by
    rw [Op.code, BitVec.toNat_ofNat]; omega
  have hbs := bytesAt_eq (pre ++ o.code :: (d ++ post)) (d.length + 1) pre.length (by omega)
  have ht : ((pre ++ o.code :: (d ++ post)).drop pre.length).take (d.length + 1) = o.code :: d := by
    simp
  rw [ht] at hbs
  rw [show ∀ r, range (pre ++ o.code :: (d ++ post)) pre.length = r ↔ _ = r from fun r => by rw [range]]
  rw [if_pos (by omega), hb]
  simp only [hcode]
  rw [if_neg (by omega)]
  simp only [Op.decode_code, hs]
  rw [if_neg (by omega), hf, hbs]
  cases range (pre ++ o.code :: (d ++ post)) (pre.length + 1 + d.length) <;> rfl

/-- The listing of a sequence of instructions is that sequence, for all instructions whose size
is right. -/
theorem C65_follows_partial (is : List Ins) (h : ∀ i ∈ is, sized i.1 = true ∧ i.Proper) (pre : List Byte) :
    ∃ ls, range (pre ++ layout is) pre.length = some ls ∧
      ls.map Line.head = (heads pre.length is).map some := by
  induction is generalizing pre with
  | nil =>
    refine ⟨[], ?_, rfl⟩
    rw [range, if_neg (by simp [layout])]
  | cons i is ih =>
    obtain ⟨hs, hp⟩ := h i (by simp)
    have hsz := proper_size hs hp pre (layout is)
    have hlt : i.1.ctorIdx < 250 := by
      revert hs; cases i.1 <;> decide
    have hw : pre ++ layout (i :: is) = pre ++ i.1.code :: (i.2 ++ layout is) := by
      simp [layout, Ins.bytes]
    have hw' : pre ++ i.bytes ++ layout is = pre ++ i.1.code :: (i.2 ++ layout is) := by
      simp [Ins.bytes]
    rw [hw'] at hsz
    obtain ⟨fs, _, hr⟩ := range_cons hlt hsz
    obtain ⟨ls, h1, h2⟩ := ih (fun j hj => h j (by simp [hj])) (pre ++ i.bytes)
    have hl : (pre ++ i.bytes).length = pre.length + 1 + i.2.length := by
      simp only [List.length_append, Ins.bytes, List.length_cons]; omega
    rw [hl, hw'] at h1
    refine ⟨_, by rw [hw, hr, h1]; rfl, ?_⟩
    simp only [List.map_cons, Line.head, heads, h2, hl]
    simp only [Ins.bytes, List.length_cons, Nat.add_assoc, Nat.add_comm 1]

/-- The bytes of `x = a + 1; return x;` in a function, after an empty prefix. -/
theorem C65_follows_example : ∃ is : List Ins, (∀ i ∈ is, sized i.1 = true ∧ i.Proper) ∧ is.length = 4 ∧
    layout is = [Op.LoadFromLocal.code, 1, Op.LiteralInt8.code, 1, Op.BinaryAdditionAndStoreLocal.code, 0,
      Op.Return.code] := by
  refine ⟨[(.LoadFromLocal, [1]), (.LiteralInt8, [1]), (.BinaryAdditionAndStoreLocal, [0]), (.Return, [])],
    ?_, rfl, rfl⟩
  intro i hi
  simp only [List.mem_cons, List.not_mem_nil, or_false] at hi
  rcases hi with rfl | rfl | rfl | rfl <;> exact ⟨rfl, rfl⟩

/-! ### The instructions whose size is wrong -/

/-- A call bound to a function of the module: the byte the interpreter skips (`'X'`, left from the
placeholder) and the one after it are listed as a comparison the program does not contain, and the
listing goes on after the six bytes of the call. -/
theorem C65_call_phantom (pre post : List Byte) (args idx skip last : Byte) :
    ∃ fs gs, range (pre ++ [Op.CallFunctionByIndex.code, args, idx, skip, 0x58#8, last] ++ post) pre.length =
      (range (pre ++ [Op.CallFunctionByIndex.code, args, idx, skip, 0x58#8, last] ++ post) (pre.length + 6)).map
        fun ls => .ins pre.length [Op.CallFunctionByIndex.code, args, idx, skip] .CallFunctionByIndex fs ::
          .ins (pre.length + 4) [Op.GSCompareLT.code, last] .GSCompareLT gs :: ls := by
  have h1 : pre ++ [Op.CallFunctionByIndex.code, args, idx, skip, 0x58#8, last] ++ post =
      pre ++ Op.CallFunctionByIndex.code :: ([args, idx, skip] ++ (Op.GSCompareLT.code :: last :: post)) := by
    simp; rfl
  obtain ⟨fs, _, hr⟩ := range_cons (pre := pre) (post := Op.GSCompareLT.code :: last :: post)
    (o := .CallFunctionByIndex) (d := [args, idx, skip]) (by decide) rfl
  have h2 : pre ++ Op.CallFunctionByIndex.code :: ([args, idx, skip] ++ (Op.GSCompareLT.code :: last :: post)) =
      (pre ++ [Op.CallFunctionByIndex.code, args, idx, skip]) ++ Op.GSCompareLT.code :: ([last] ++ post) := by
    simp
  obtain ⟨gs, _, hg⟩ := range_cons (pre := pre ++ [Op.CallFunctionByIndex.code, args, idx, skip]) (post := post)
    (o := .GSCompareLT) (d := [last]) (by decide) rfl
  rw [← h2] at hg
  refine ⟨fs, gs, ?_⟩
  rw [h1, hr]
  have e : pre.length + 1 + [args, idx, skip].length =
    (pre ++ [Op.CallFunctionByIndex.code, args, idx, skip]).length := by simp
  rw [e, hg]
  simp only [List.length_append, List.length_cons, List.length_nil, Option.map_map, Nat.zero_add]
  rfl

/-- Such a call as the interpreter sees it: one instruction that ends after the skipped byte. -/
theorem C65_call_real (args idx : Byte) : Ins.Proper (.CallFunctionByIndex, [args, idx, 2#8, 0x58#8]) := rfl

theorem range_end {w : List Byte} {pc : Nat} (h : w.length ≤ pc) : range w pc = some [] := by
  rw [range, if_neg (by omega)]

/-- `a | b` on two locals: the two variable numbers are read as an instruction with four operand
bytes, and the rest of the unit is not listed. -/
theorem C65_values_misaligned : ∃ is : List Ins, (∀ i ∈ is, i.Proper) ∧
    is.map (·.1) = [.LLValues, .BinaryOrSkipLoad, .Return] ∧
    range (layout is) 0 = some [.ins 0 [Op.LLValues.code] .LLValues [], .truncated 1 .LiteralInt32] := by
  refine ⟨[(.LLValues, [1, 2]), (.BinaryOrSkipLoad, []), (.Return, [])], ?_, rfl, ?_⟩
  · intro i hi
    simp only [List.mem_cons, List.not_mem_nil, or_false] at hi
    rcases hi with rfl | rfl | rfl <;> rfl
  · obtain ⟨fs, h1, h2⟩ := range_cons (pre := []) (post := [1, 2, Op.BinaryOrSkipLoad.code, Op.Return.code])
      (o := .LLValues) (d := []) (by decide) rfl
    have h3 : range [Op.LLValues.code, 1, 2, Op.BinaryOrSkipLoad.code, Op.Return.code] 1 =
        some [.truncated 1 .LiteralInt32] := by
      rw [range]; rfl
    have hfs : ([] : List Field) = fs := Option.some.inj h1
    subst hfs
    refine h2.trans ?_
    have h4 : range ([] ++ Op.LLValues.code :: ([] ++ [1, 2, Op.BinaryOrSkipLoad.code, Op.Return.code]))
      (([] : List Byte).length + 1 + ([] : List Byte).length) = _ := h3
    rw [h4]; rfl

/-- The end of the main program: its last instruction is shown as an operand. -/
theorem C65_stop_hidden : ∃ is : List Ins, (∀ i ∈ is, i.Proper) ∧
    is.map (·.1) = [.GlobalStop, .Stop] ∧
    range (layout is) 0 =
      some [.ins 0 [Op.GlobalStop.code, Op.Stop.code] .GlobalStop [.var false Op.Stop.code]] := by
  refine ⟨[(.GlobalStop, []), (.Stop, [])], ?_, rfl, ?_⟩
  · intro i hi
    simp only [List.mem_cons, List.not_mem_nil, or_false] at hi
    rcases hi with rfl | rfl <;> rfl
  · obtain ⟨fs, h1, h2⟩ := range_cons (pre := []) (post := []) (o := .GlobalStop) (d := [Op.Stop.code]) (by decide) rfl
    have hfs : [Field.var false Op.Stop.code] = fs := Option.some.inj h1
    subst hfs
    refine h2.trans ?_
    rw [range_end (by simp)]; rfl

/-! ### Jumps -/

theorem tgt16_eq (inst k : Nat) (r : Word16) : tgt16 inst k r = BitVec.ofInt 32 ((inst + k : Nat) + r.toInt) := by
  rw [tgt16, BitVec.ofInt_add, BitVec.ofInt_natCast]; rfl

theorem tgt8_eq (inst k : Nat) (r : Byte) : tgt8 inst k r = BitVec.ofInt 32 ((inst + k : Nat) + r.toInt) := by
  rw [tgt8, BitVec.ofInt_add, BitVec.ofInt_natCast]; rfl

theorem jump0_16 {o : Op} (h : vmBranch o = some (0, .w16)) (w : List Byte) (p inst : Nat) :
    least o = 2 ∧ decodeOperands w o p 2 inst =
      (read16 w p).bind fun r => some [.rel r, .target (tgt16 inst 1 r)] := by
  revert h
  cases o <;> intro h <;> first | (cases h; done) | exact ⟨rfl, rfl⟩

theorem jump0_8 {o : Op} (h : vmBranch o = some (0, .w8)) (w : List Byte) (p inst : Nat) :
    least o = 2 ∧ decodeOperands w o p 2 inst =
      (read8 w p).bind fun r => (read8 w (p + 1)).bind fun q =>
        some [.rel8 r, .pad q, .target (tgt8 inst 1 r)] := by
  revert h
  cases o <;> intro h <;> first | (cases h; done) | exact ⟨rfl, rfl⟩

theorem jump1_16 {o : Op} (h : vmBranch o = some (1, .w16)) (w : List Byte) (p inst : Nat) :
    least o = 3 ∧ ∃ l, (decodeOperands w o p 3 inst =
      (read8 w p).bind fun a => (read16 w (p + 1)).bind fun r =>
        some [.var l a, .rel r, .target (tgt16 inst 2 r)]) ∨
     (decodeOperands w o p 3 inst =
      (read16 w (p + 1)).bind fun r => (read8 w p).bind fun a =>
        some [.var l a, .rel r, .target (tgt16 inst 2 r)]) := by
  revert h
  cases o <;> intro h <;> first | (cases h; done) | exact ⟨rfl, _, .inl rfl⟩ | exact ⟨rfl, _, .inr rfl⟩

theorem jump1_8 {o : Op} (h : vmBranch o = some (1, .w8)) (w : List Byte) (p inst : Nat) :
    least o = 3 ∧ ∃ l, (decodeOperands w o p 3 inst =
      (read8 w p).bind fun a => (read8 w (p + 1)).bind fun r => (read8 w (p + 2)).bind fun q =>
        some [.var l a, .rel8 r, .pad q, .target (tgt8 inst 2 r)]) ∨
     (decodeOperands w o p 3 inst =
      (read8 w (p + 1)).bind fun r => (read8 w p).bind fun a => (read8 w (p + 2)).bind fun q =>
        some [.var l a, .rel8 r, .pad q, .target (tgt8 inst 2 r)]) := by
  revert h
  cases o <;> intro h <;> first | (cases h; done) | exact ⟨rfl, _, .inl rfl⟩ | exact ⟨rfl, _, .inr rfl⟩

theorem jump2_16 {o : Op} (h : vmBranch o = some (2, .w16)) (w : List Byte) (p inst : Nat) :
    least o = 4 ∧ ∃ l m, (decodeOperands w o p 4 inst =
      (read8 w p).bind fun a => (read8 w (p + 1)).bind fun b => (read16 w (p + 2)).bind fun r =>
        some [.var l a, .var m b, .rel r, .target (tgt16 inst 3 r)]) ∨
     (decodeOperands w o p 4 inst =
      (read16 w (p + 2)).bind fun r => (read8 w p).bind fun a => (read8 w (p + 1)).bind fun b =>
        some [.var l a, .var m b, .rel r, .target (tgt16 inst 3 r)]) := by
  revert h
  cases o <;> intro h <;> first | (cases h; done) | exact ⟨rfl, _, _, .inl rfl⟩ | exact ⟨rfl, _, _, .inr rfl⟩

theorem jump2_8 {o : Op} (h : vmBranch o = some (2, .w8)) (w : List Byte) (p inst : Nat) :
    least o = 4 ∧ ∃ l m, decodeOperands w o p 4 inst =
      (read8 w p).bind fun a => (read8 w (p + 1)).bind fun b => (read8 w (p + 2)).bind fun r =>
        (read8 w (p + 3)).bind fun q =>
        some [.var l a, .var m b, .rel8 r, .pad q, .target (tgt8 inst 3 r)] := by
  revert h
  cases o <;> intro h <;> first | (cases h; done) | exact ⟨rfl, _, _, rfl⟩

theorem jump3_16 {o : Op} (h : vmBranch o = some (3, .w16)) (w : List Byte) (p inst : Nat) :
    least o = 5 ∧ ∃ l m, decodeOperands w o p 5 inst =
      (read8 w p).bind fun a => (read8 w (p + 1)).bind fun b => (read16 w (p + 3)).bind fun r =>
        (read8 w (p + 2)).bind fun c =>
        some [.var l a, .var m b, .var false c, .rel r, .target (tgt16 inst 4 r)] := by
  revert h
  cases o <;> intro h <;> first | (cases h; done) | exact ⟨rfl, _, _, rfl⟩

theorem branch_forms (o : Op) (k : Nat) (wd : Width) (h : vmBranch o = some (k, wd)) :
    (k = 0 ∨ k = 1 ∨ k = 2 ∨ (k = 3 ∧ wd = .w16)) ∧ sized o = true ∧ varies o = false := by
  revert h
  cases o <;> intro h <;> first | (cases h; done) | (cases h; decide)

/-- The address printed for a branch is the one the interpreter goes to, for every line of every
listing. -/
theorem C65_targets (w : List Byte) (pc : Nat) (ls : List Line) (h : range w pc = some ls)
    {off : Nat} {bs : List Byte} {o : Op} {fs : List Field} (hm : Line.ins off bs o fs ∈ ls)
    {k : Nat} {wd : Width} (hb : vmBranch o = some (k, wd)) :
    ∃ t, branch w off true = some t ∧ targets fs = [BitVec.ofInt 32 t] := by
  obtain ⟨ls', h1, _, h2, _⟩ := range_spec w (w.length - pc) pc (Nat.le_refl _)
  obtain rfl : ls = ls' := by simpa [h] using h1
  obtain ⟨n, hd, _, hs, hn, hf, _⟩ := h2 _ hm
  obtain ⟨hk, hsz, hv⟩ := branch_forms o k wd hb
  rw [(constant_size o hsz hv []).2] at hs
  simp only [Size.size.injEq] at hs
  have key : ∀ t : Int, (match wd with
        | .w8 => (read8 w (off + 1 + k)).map fun b => ((off + 1 + k : Nat) : Int) + b.toInt
        | .w16 => (read16 w (off + 1 + k)).map fun b => ((off + 1 + k : Nat) : Int) + b.toInt) = some t →
      branch w off true = some t := by
    intro t ht
    simp only [branch, hd, hb, if_true]
    cases wd <;> exact ht
  rcases hk with rfl | rfl | rfl | ⟨rfl, rfl⟩
  · cases wd with
    | w16 =>
      obtain ⟨hl, he⟩ := jump0_16 hb w (off + 1) off
      rw [← hs, hl, he] at hf
      obtain ⟨r, hr, hf⟩ := Option.bind_eq_some_iff.mp hf
      refine ⟨_, key _ (by simp only [Nat.add_zero, hr, Option.map_some]; rfl), ?_⟩
      rw [← Option.some.inj hf, ← tgt16_eq]; rfl
    | w8 =>
      obtain ⟨hl, he⟩ := jump0_8 hb w (off + 1) off
      rw [← hs, hl, he] at hf
      obtain ⟨r, hr, hf⟩ := Option.bind_eq_some_iff.mp hf
      obtain ⟨q, _, hf⟩ := Option.bind_eq_some_iff.mp hf
      refine ⟨_, key _ (by simp only [Nat.add_zero, hr, Option.map_some]; rfl), ?_⟩
      rw [← Option.some.inj hf, ← tgt8_eq]; rfl
  · cases wd with
    | w16 =>
      obtain ⟨hl, l, he⟩ := jump1_16 hb w (off + 1) off
      rw [← hs, hl] at hf
      have : ∃ r a, read16 w (off + 1 + 1) = some r ∧ fs = [.var l a, .rel r, .target (tgt16 off 2 r)] := by
        rcases he with he | he
        · rw [he] at hf
          obtain ⟨a, _, hf⟩ := Option.bind_eq_some_iff.mp hf
          obtain ⟨r, hr, hf⟩ := Option.bind_eq_some_iff.mp hf
          exact ⟨r, a, hr, (Option.some.inj hf).symm⟩
        · rw [he] at hf
          obtain ⟨r, hr, hf⟩ := Option.bind_eq_some_iff.mp hf
          obtain ⟨a, _, hf⟩ := Option.bind_eq_some_iff.mp hf
          exact ⟨r, a, hr, (Option.some.inj hf).symm⟩
      obtain ⟨r, a, hr, rfl⟩ := this
      refine ⟨_, key _ (by simp only [hr, Option.map_some]; rfl), ?_⟩
      rw [Nat.add_assoc, ← tgt16_eq]; rfl
    | w8 =>
      obtain ⟨hl, l, he⟩ := jump1_8 hb w (off + 1) off
      rw [← hs, hl] at hf
      have : ∃ r a q, read8 w (off + 1 + 1) = some r ∧
          fs = [.var l a, .rel8 r, .pad q, .target (tgt8 off 2 r)] := by
        rcases he with he | he
        · rw [he] at hf
          obtain ⟨a, _, hf⟩ := Option.bind_eq_some_iff.mp hf
          obtain ⟨r, hr, hf⟩ := Option.bind_eq_some_iff.mp hf
          obtain ⟨q, _, hf⟩ := Option.bind_eq_some_iff.mp hf
          exact ⟨r, a, q, hr, (Option.some.inj hf).symm⟩
        · rw [he] at hf
          obtain ⟨r, hr, hf⟩ := Option.bind_eq_some_iff.mp hf
          obtain ⟨a, _, hf⟩ := Option.bind_eq_some_iff.mp hf
          obtain ⟨q, _, hf⟩ := Option.bind_eq_some_iff.mp hf
          exact ⟨r, a, q, hr, (Option.some.inj hf).symm⟩
      obtain ⟨r, a, q, hr, rfl⟩ := this
      refine ⟨_, key _ (by simp only [hr, Option.map_some]; rfl), ?_⟩
      rw [Nat.add_assoc, ← tgt8_eq]; rfl
  · cases wd with
    | w16 =>
      obtain ⟨hl, l, m, he⟩ := jump2_16 hb w (off + 1) off
      rw [← hs, hl] at hf
      have : ∃ r a b, read16 w (off + 1 + 2) = some r ∧
          fs = [.var l a, .var m b, .rel r, .target (tgt16 off 3 r)] := by
        rcases he with he | he
        · rw [he] at hf
          obtain ⟨a, _, hf⟩ := Option.bind_eq_some_iff.mp hf
          obtain ⟨b, _, hf⟩ := Option.bind_eq_some_iff.mp hf
          obtain ⟨r, hr, hf⟩ := Option.bind_eq_some_iff.mp hf
          exact ⟨r, a, b, hr, (Option.some.inj hf).symm⟩
        · rw [he] at hf
          obtain ⟨r, hr, hf⟩ := Option.bind_eq_some_iff.mp hf
          obtain ⟨a, _, hf⟩ := Option.bind_eq_some_iff.mp hf
          obtain ⟨b, _, hf⟩ := Option.bind_eq_some_iff.mp hf
          exact ⟨r, a, b, hr, (Option.some.inj hf).symm⟩
      obtain ⟨r, a, b, hr, rfl⟩ := this
      refine ⟨_, key _ (by simp only [hr, Option.map_some]; rfl), ?_⟩
      rw [Nat.add_assoc, ← tgt16_eq]; rfl
    | w8 =>
      obtain ⟨hl, l, m, he⟩ := jump2_8 hb w (off + 1) off
      rw [← hs, hl, he] at hf
      obtain ⟨a, _, hf⟩ := Option.bind_eq_some_iff.mp hf
      obtain ⟨b, _, hf⟩ := Option.bind_eq_some_iff.mp hf
      obtain ⟨r, hr, hf⟩ := Option.bind_eq_some_iff.mp hf
      obtain ⟨q, _, hf⟩ := Option.bind_eq_some_iff.mp hf
      refine ⟨_, key _ (by simp only [hr, Option.map_some]; rfl), ?_⟩
      rw [← Option.some.inj hf, Nat.add_assoc, ← tgt8_eq]; rfl
  · obtain ⟨hl, l, m, he⟩ := jump3_16 hb w (off + 1) off
    rw [← hs, hl, he] at hf
    obtain ⟨a, _, hf⟩ := Option.bind_eq_some_iff.mp hf
    obtain ⟨b, _, hf⟩ := Option.bind_eq_some_iff.mp hf
    obtain ⟨r, hr, hf⟩ := Option.bind_eq_some_iff.mp hf
    obtain ⟨q, _, hf⟩ := Option.bind_eq_some_iff.mp hf
    refine ⟨_, key _ (by simp only [hr, Option.map_some]; rfl), ?_⟩
    rw [← Option.some.inj hf, Nat.add_assoc, ← tgt16_eq]; rfl

/-- A conditional branch listed at offset 3, over two bytes. -/
theorem C65_targets_example : ∃ ls, range [2, 2, 2, Op.BZ8.code, 4, 0, 2, 2] 0 = some ls ∧
    Line.ins 3 [Op.BZ8.code, 4, 0] .BZ8 [.rel8 4, .pad 0, .target 8] ∈ ls ∧
    vmBranch .BZ8 = some (0, .w8) := by
  obtain ⟨fs, h1, h2⟩ := range_cons (pre := [2, 2, 2]) (post := [2, 2]) (o := .BZ8) (d := [4, 0]) (by decide) rfl
  have hfs : [Field.rel8 4, .pad 0, .target 8] = fs := Option.some.inj h1
  subst hfs
  obtain ⟨f0, _, h3⟩ := range_cons (pre := []) (post := [2, 2, Op.BZ8.code, 4, 0, 2, 2]) (o := .LiteralZero)
    (d := []) (by decide) rfl
  obtain ⟨f1, _, h4⟩ := range_cons (pre := [2]) (post := [2, Op.BZ8.code, 4, 0, 2, 2]) (o := .LiteralZero)
    (d := []) (by decide) rfl
  obtain ⟨f2, _, h5⟩ := range_cons (pre := [2, 2]) (post := [Op.BZ8.code, 4, 0, 2, 2]) (o := .LiteralZero)
    (d := []) (by decide) rfl
  obtain ⟨ls, hr, _⟩ := range_spec [2, 2, 2, Op.BZ8.code, 4, 0, 2, 2] 2 6 (by decide)
  refine ⟨_, (h3.trans (congrArg _ (h4.trans (congrArg _ (h5.trans (congrArg _ (h2.trans
    (congrArg _ hr)))))))).trans rfl, by simp, rfl⟩

/-- The default address printed for a `SwitchLinear` is where the interpreter goes for every
selector that is not a label. -/
theorem C65_switch_linear_default (w : List Byte) (pc : Nat) (ls : List Line) (h : range w pc = some ls)
    {off : Nat} {bs : List Byte} {fs : List Field} (hm : Line.ins off bs .SwitchLinear fs ∈ ls)
    (sel : Word32) (t : Int) (ht : Cc.vmSwitch w off sel = some t)
    (hd : ∀ c, w[off + 1]? = some c → c.toNat ≤ sel.toNat) : targets fs = [BitVec.ofInt 32 t] := by
  obtain ⟨ls', h1, _, h2, _⟩ := range_spec w (w.length - pc) pc (Nat.le_refl _)
  obtain rfl : ls = ls' := by simpa [h] using h1
  obtain ⟨n, ho, _, hs, hn, hf, _⟩ := h2 _ hm
  have hl : 3 ≤ n := size_least hs
  have he : decodeOperands w .SwitchLinear (off + 1) n off = (read8 w (off + 1)).bind fun c =>
      (read16 w (off + 1 + 1)).bind fun d => some [.count c, .defaultRel d, .target (tgt16 off 2 d)] := by
    unfold decodeOperands
    rw [if_neg (by omega), if_neg (by decide), if_neg (by decide), if_neg (by decide), if_neg (by decide),
      if_neg (by rintro ⟨h, _⟩; cases h), if_neg (by decide), if_neg (by decide), if_neg (by decide),
      if_neg (by decide), if_neg (by decide), if_neg (by decide), if_neg (by rintro ⟨h, _⟩; cases h),
      if_pos ⟨rfl, hl⟩]
    rfl
  rw [he] at hf
  obtain ⟨c, hc, hf⟩ := Option.bind_eq_some_iff.mp hf
  obtain ⟨d, hdd, hf⟩ := Option.bind_eq_some_iff.mp hf
  have hcd := hd c hc
  simp only [Cc.vmSwitch, ho, hc, Option.bind_some] at ht
  rw [if_neg (by omega), show off + 2 = off + 1 + 1 from rfl, hdd] at ht
  rw [← Option.some.inj hf, ← Option.some.inj ht]
  simp only [targets]
  rw [tgt16_eq]

/-- The default address printed for a `Switch` is where the interpreter goes for every selector
that its bucket does not hold. -/
theorem C65_switch_default (w : List Byte) (pc : Nat) (ls : List Line) (h : range w pc = some ls)
    {off : Nat} {bs : List Byte} {fs : List Field} (hm : Line.ins off bs .Switch fs ∈ ls)
    (sel : Word32) (t : Int) (ht : Cc.vmSwitch w off sel = some t)
    (hd : ∀ m k, read16 w (off + 1) = some m →
      read32 w (off + 5 + 6 * (sel.toNat % m.toNat)) = some k → k ≠ sel) :
    targets fs = [BitVec.ofInt 32 t] := by
  obtain ⟨ls', h1, _, h2, _⟩ := range_spec w (w.length - pc) pc (Nat.le_refl _)
  obtain rfl : ls = ls' := by simpa [h] using h1
  obtain ⟨n, ho, _, hs, hn, hf, _⟩ := h2 _ hm
  have hl : 4 ≤ n := size_least hs
  have he : decodeOperands w .Switch (off + 1) n off = (read16 w (off + 1)).bind fun c =>
      (read16 w (off + 1 + 2)).bind fun d => some [.buckets c, .defaultRel d, .target (tgt16 off 1 d)] := by
    unfold decodeOperands
    rw [if_neg (by omega), if_neg (by decide), if_neg (by decide), if_neg (by decide), if_neg (by decide),
      if_neg (by rintro ⟨h, _⟩; cases h), if_neg (by decide), if_neg (by decide), if_neg (by decide),
      if_neg (by decide), if_neg (by decide), if_neg (by decide), if_pos ⟨rfl, hl⟩]
    rfl
  rw [he] at hf
  obtain ⟨m, hm', hf⟩ := Option.bind_eq_some_iff.mp hf
  obtain ⟨d, hdd, hf⟩ := Option.bind_eq_some_iff.mp hf
  simp only [Cc.vmSwitch, ho, hm', Option.bind_some] at ht
  by_cases hz : m.toNat = 0
  · rw [if_pos hz] at ht; cases ht
  rw [if_neg hz] at ht
  obtain ⟨k, hk, ht⟩ := Option.bind_eq_some_iff.mp ht
  have hne := hd m k hm' (by rw [← hk])
  rw [if_neg hne, hdd] at ht
  rw [← Option.some.inj hf, ← Option.some.inj ht]
  simp only [targets]
  rw [tgt16_eq]

/-! ### Variables -/

theorem drop_of_read {w : List Byte} {p : Nat} {a : Byte} (h : read8 w p = some a) :
    w.drop p = a :: w.drop (p + 1) := by
  obtain ⟨hl, rfl⟩ := List.getElem?_eq_some_iff.mp h
  exact List.drop_eq_getElem_cons hl

theorem vars0 {w : List Byte} {p : Nat} {g : List Field} (hg : vars g = []) {fs : List Field}
    (h : some g = some fs) : vars fs = List.zip [] (w.drop p) := by
  cases h; exact hg

theorem vars0b {α : Type} {w : List Byte} {p : Nat} {x : Option α} {g : α → List Field} (hg : ∀ a, vars (g a) = [])
    {fs : List Field} (h : (x.bind fun a => some (g a)) = some fs) : vars fs = List.zip [] (w.drop p) := by
  obtain ⟨a, _, h⟩ := Option.bind_eq_some_iff.mp h
  cases h; exact hg a

theorem vars0c {α β : Type} {w : List Byte} {p : Nat} {x : Option α} {y : Option β} {g : α → β → List Field}
    (hg : ∀ a b, vars (g a b) = []) {fs : List Field}
    (h : (x.bind fun a => y.bind fun b => some (g a b)) = some fs) : vars fs = List.zip [] (w.drop p) := by
  obtain ⟨a, _, h⟩ := Option.bind_eq_some_iff.mp h
  obtain ⟨b, _, h⟩ := Option.bind_eq_some_iff.mp h
  cases h; exact hg a b

theorem vars1 {w : List Byte} {p : Nat} {l : Bool} {g : Byte → List Field} (hg : ∀ a, vars (g a) = [(l, a)])
    {fs : List Field} (h : ((read8 w p).bind fun a => some (g a)) = some fs) :
    vars fs = List.zip [l] (w.drop p) := by
  obtain ⟨a, ha, h⟩ := Option.bind_eq_some_iff.mp h
  cases h
  rw [hg, drop_of_read ha]; rfl

theorem vars1b {α : Type} {x : Option α} {w : List Byte} {p : Nat} {l : Bool} {g : Byte → α → List Field}
    (hg : ∀ a b, vars (g a b) = [(l, a)])
    {fs : List Field} (h : ((read8 w p).bind fun a => x.bind fun b => some (g a b)) = some fs) :
    vars fs = List.zip [l] (w.drop p) := by
  obtain ⟨a, ha, h⟩ := Option.bind_eq_some_iff.mp h
  obtain ⟨b, _, h⟩ := Option.bind_eq_some_iff.mp h
  cases h
  rw [hg, drop_of_read ha]; rfl

theorem vars1c {α : Type} {x : Option α} {w : List Byte} {p : Nat} {l : Bool} {g : Byte → α → List Field}
    (hg : ∀ a b, vars (g a b) = [(l, a)])
    {fs : List Field} (h : (x.bind fun b => (read8 w p).bind fun a => some (g a b)) = some fs) :
    vars fs = List.zip [l] (w.drop p) := by
  obtain ⟨b, _, h⟩ := Option.bind_eq_some_iff.mp h
  obtain ⟨a, ha, h⟩ := Option.bind_eq_some_iff.mp h
  cases h
  rw [hg, drop_of_read ha]; rfl

theorem vars1d {α β : Type} {x : Option α} {y : Option β} {w : List Byte} {p : Nat} {l : Bool}
    {g : Byte → α → β → List Field} (hg : ∀ a b c, vars (g a b c) = [(l, a)])
    {fs : List Field} (h : ((read8 w p).bind fun a => x.bind fun b => y.bind fun c => some (g a b c)) = some fs) :
    vars fs = List.zip [l] (w.drop p) := by
  obtain ⟨a, ha, h⟩ := Option.bind_eq_some_iff.mp h
  obtain ⟨b, _, h⟩ := Option.bind_eq_some_iff.mp h
  obtain ⟨c, _, h⟩ := Option.bind_eq_some_iff.mp h
  cases h
  rw [hg, drop_of_read ha]; rfl

theorem vars1e {α β : Type} {x : Option α} {y : Option β} {w : List Byte} {p : Nat} {l : Bool}
    {g : Byte → α → β → List Field} (hg : ∀ a b c, vars (g a b c) = [(l, a)])
    {fs : List Field} (h : (x.bind fun b => (read8 w p).bind fun a => y.bind fun c => some (g a b c)) = some fs) :
    vars fs = List.zip [l] (w.drop p) := by
  obtain ⟨b, _, h⟩ := Option.bind_eq_some_iff.mp h
  obtain ⟨a, ha, h⟩ := Option.bind_eq_some_iff.mp h
  obtain ⟨c, _, h⟩ := Option.bind_eq_some_iff.mp h
  cases h
  rw [hg, drop_of_read ha]; rfl

theorem vars2 {w : List Byte} {p : Nat} {l m : Bool} {g : Byte → Byte → List Field}
    (hg : ∀ a b, vars (g a b) = [(l, a), (m, b)])
    {fs : List Field} (h : ((read8 w p).bind fun a => (read8 w (p + 1)).bind fun b => some (g a b)) = some fs) :
    vars fs = List.zip [l, m] (w.drop p) := by
  obtain ⟨a, ha, h⟩ := Option.bind_eq_some_iff.mp h
  obtain ⟨b, hb, h⟩ := Option.bind_eq_some_iff.mp h
  cases h
  rw [hg, drop_of_read ha, drop_of_read hb]; rfl

theorem vars2b {α : Type} {x : Option α} {w : List Byte} {p : Nat} {l m : Bool} {g : Byte → Byte → α → List Field}
    (hg : ∀ a b c, vars (g a b c) = [(l, a), (m, b)])
    {fs : List Field} (h : ((read8 w p).bind fun a => (read8 w (p + 1)).bind fun b => x.bind fun c =>
      some (g a b c)) = some fs) :
    vars fs = List.zip [l, m] (w.drop p) := by
  obtain ⟨a, ha, h⟩ := Option.bind_eq_some_iff.mp h
  obtain ⟨b, hb, h⟩ := Option.bind_eq_some_iff.mp h
  obtain ⟨c, _, h⟩ := Option.bind_eq_some_iff.mp h
  cases h
  rw [hg, drop_of_read ha, drop_of_read hb]; rfl

theorem vars2c {α β : Type} {x : Option α} {y : Option β} {w : List Byte} {p : Nat} {l m : Bool}
    {g : Byte → Byte → α → β → List Field}
    (hg : ∀ a b c d, vars (g a b c d) = [(l, a), (m, b)])
    {fs : List Field} (h : ((read8 w p).bind fun a => (read8 w (p + 1)).bind fun b => x.bind fun c =>
      y.bind fun d => some (g a b c d)) = some fs) :
    vars fs = List.zip [l, m] (w.drop p) := by
  obtain ⟨a, ha, h⟩ := Option.bind_eq_some_iff.mp h
  obtain ⟨b, hb, h⟩ := Option.bind_eq_some_iff.mp h
  obtain ⟨c, _, h⟩ := Option.bind_eq_some_iff.mp h
  obtain ⟨d, _, h⟩ := Option.bind_eq_some_iff.mp h
  cases h
  rw [hg, drop_of_read ha, drop_of_read hb]; rfl

theorem varsRaw {w : List Byte} {p q : Nat} (n : Nat) {fs : List Field} (h : rawFields w p n = some fs) :
    vars fs = List.zip [] (w.drop q) := by
  induction n generalizing p fs with
  | zero => cases h; rfl
  | succ n ih =>
    have h' : ((read8 w p).bind fun b => (rawFields w (p + 1) n).bind fun r => some (.raw b :: r)) = some fs := h
    obtain ⟨b, _, h'⟩ := Option.bind_eq_some_iff.mp h'
    obtain ⟨r, hr, h'⟩ := Option.bind_eq_some_iff.mp h'
    cases h'
    show vars r = _
    exact ih hr

/-- Instructions on one local and one global variable that compute. -/
def mixed : Peep.Act → Bool
  | .bin _ (.two .L .G) | .bin _ (.two .G .L) => true
  | _ => false

set_option maxHeartbeats 2000000 in
theorem vars_decode {o : Op} {a : Peep.Act} (ha : Peep.act o = some a) (hs : sized o = true)
    (hm : mixed a = false) {w : List Byte} {p inst : Nat} {fs : List Field}
    (h : decodeOperands w o p (least o) inst = some fs) :
    vars fs = List.zip ((spaces a).map isL) (w.drop p) := by
  revert h
  cases o <;> intro h <;> first
    | (exact absurd hs (by decide))
    | (cases ha; done)
    | (cases ha; exact absurd hm (by decide))
    | (cases ha; exact vars0 rfl h)
    | (cases ha; exact vars1 (fun _ => rfl) h)
    | (cases ha; exact vars2 (fun _ _ => rfl) h)
    | (cases ha; exact vars1b (fun _ _ => rfl) h)
    | (cases ha; exact vars1c (fun _ _ => rfl) h)
    | (cases ha; exact vars1d (fun _ _ _ => rfl) h)
    | (cases ha; exact vars1e (fun _ _ _ => rfl) h)
    | (cases ha; exact vars2b (fun _ _ _ => rfl) h)
    | (cases ha; exact vars2c (fun _ _ _ _ => rfl) h)
    | (cases ha; exact vars0b (fun _ => rfl) h)
    | (cases ha; exact varsRaw _ h)

/-- The variables printed on a line are those the interpreter uses for the operand bytes, in order:
all instructions of the peephole areas but the `…Values` ones and the arithmetic on one local and
one global variable. -/
theorem C65_variables_partial (w : List Byte) (pc : Nat) (ls : List Line) (h : range w pc = some ls)
    {off : Nat} {bs : List Byte} {o : Op} {fs : List Field} (hm : Line.ins off bs o fs ∈ ls)
    {a : Peep.Act} (ha : Peep.act o = some a) (hs : sized o = true) (hx : mixed a = false) :
    vars fs = List.zip ((spaces a).map isL) (w.drop (off + 1)) := by
  obtain ⟨ls', h1, _, h2, _⟩ := range_spec w (w.length - pc) pc (Nat.le_refl _)
  obtain rfl : ls = ls' := by simpa [h] using h1
  obtain ⟨n, _, _, hz, _, hf, _⟩ := h2 _ hm
  have hv : varies o = false := by
    revert ha; cases o <;> intro ha <;> first | rfl | (cases ha; done)
  rw [(constant_size o hs hv []).2] at hz
  simp only [Size.size.injEq] at hz
  rw [← hz] at hf
  exact vars_decode ha hs hx hf

set_option maxHeartbeats 2000000 in
theorem vars_short {o o' : Op} {k : Nat} {a : Peep.Act} (ht : toShort o = some (o', k))
    (ha : Peep.act o = some a) {w : List Byte} {p inst : Nat} {fs : List Field}
    (h : decodeOperands w o' p (least o') inst = some fs) :
    vars fs = List.zip ((spaces a).map isL) (w.drop p) := by
  revert h
  cases o <;> first
    | (cases ht; done)
    | (cases ha; done)
    | (cases ht; cases ha; intro h; exact vars1d (fun _ _ _ => rfl) h)
    | (cases ht; cases ha; intro h; exact vars1e (fun _ _ _ => rfl) h)
    | (cases ht; cases ha; intro h; exact vars2c (fun _ _ _ _ => rfl) h)
    | (cases ht; cases ha; intro h; exact vars0b (fun _ => rfl) h)
    | (cases ht; cases ha; intro h; exact vars0c (fun _ _ => rfl) h)

/-- The same for the branches the compiler stores with one-byte displacements. -/
theorem C65_variables_short (w : List Byte) (pc : Nat) (ls : List Line) (h : range w pc = some ls)
    {off : Nat} {bs : List Byte} {o o' : Op} {k : Nat} {fs : List Field} (ht : toShort o = some (o', k))
    (hm : Line.ins off bs o' fs ∈ ls) {a : Peep.Act} (ha : Peep.act o = some a) :
    vars fs = List.zip ((spaces a).map isL) (w.drop (off + 1)) := by
  obtain ⟨ls', h1, _, h2, _⟩ := range_spec w (w.length - pc) pc (Nat.le_refl _)
  obtain rfl : ls = ls' := by simpa [h] using h1
  obtain ⟨n, _, _, hz, _, hf, _⟩ := h2 _ hm
  have hv : sized o' = true ∧ varies o' = false := by
    revert ht; cases o <;> intro ht <;> first | (cases ht; done) | (cases ht; decide)
  rw [(constant_size o' hv.1 hv.2 []).2] at hz
  simp only [Size.size.injEq] at hz
  rw [← hz] at hf
  exact vars_short ht ha hf

theorem C65_variables_short_example : toShort .LLCompareLTBZ = some (.LLCompareLTBZ8, 2) ∧
    Peep.act .LLCompareLTBZ = some (.cmp .lt false (.two .L .L) true) := ⟨rfl, rfl⟩

theorem C65_variables_example : Peep.act .LLCompareLTBZ = some (.cmp .lt false (.two .L .L) true) ∧
    sized .LLCompareLTBZ = true ∧ mixed (.cmp .lt false (.two .L .L) true) = false ∧
    spaces (.cmp .lt false (.two .L .L) true) = [.L, .L] ∧
    range [Op.LLCompareLTBZ.code, 3, 5, 9, 0] 0 =
      some [.ins 0 [Op.LLCompareLTBZ.code, 3, 5, 9, 0] .LLCompareLTBZ
        [.var true 3, .var true 5, .rel 9, .target 12]] := by
  refine ⟨rfl, rfl, rfl, rfl, ?_⟩
  obtain ⟨fs, h1, h2⟩ := range_cons (pre := []) (post := []) (o := .LLCompareLTBZ) (d := [3, 5, 9, 0])
    (by decide) rfl
  have hfs : [Field.var true 3, .var true 5, .rel 9, .target 12] = fs := Option.some.inj h1
  subst hfs
  refine h2.trans ?_
  rw [range_end (by simp)]; rfl

/-- `l[3] + g[5]`: the line says `l[5]` and `g[3]`. -/
theorem C65_mixed_wrong : ∃ a, Peep.act .GLBinaryAddition = some a ∧ mixed a = true ∧
    (spaces a).map isL = [true, false] ∧
    range [Op.GLBinaryAddition.code, 3, 5] 0 =
      some [.ins 0 [Op.GLBinaryAddition.code, 3, 5] .GLBinaryAddition [.var false 3, .var true 5]] := by
  refine ⟨_, rfl, rfl, rfl, ?_⟩
  obtain ⟨fs, h1, h2⟩ := range_cons (pre := []) (post := []) (o := .GLBinaryAddition) (d := [3, 5])
    (by decide) rfl
  have hfs : [Field.var false 3, .var true 5] = fs := Option.some.inj h1
  subst hfs
  refine h2.trans ?_
  rw [range_end (by simp)]; rfl

/-! ### Units -/

theorem unitEnd_spec (start : Nat) : ∀ (offsets : List Nat) (e : Nat),
    unitEnd offsets start e ≤ e ∧ (∀ c ∈ offsets, start < c → unitEnd offsets start e ≤ c) ∧
    (unitEnd offsets start e = e ∨ unitEnd offsets start e ∈ offsets ∧ start < unitEnd offsets start e) := by
  intro offsets
  induction offsets with
  | nil => intro e; simp [unitEnd]
  | cons c cs ih =>
    intro e
    have hstep : unitEnd (c :: cs) start e = unitEnd cs start (if c > start ∧ c < e then c else e) := rfl
    rw [hstep]
    by_cases h : c > start ∧ c < e
    · rw [if_pos h]
      obtain ⟨h1, h2, h3⟩ := ih c
      refine ⟨by omega, ?_, ?_⟩
      · intro d hd hs
        rcases List.mem_cons.mp hd with rfl | hd
        · exact h1
        · exact h2 d hd hs
      · rcases h3 with h3 | h3
        · right; rw [h3]; exact ⟨by simp, h.1⟩
        · exact .inr ⟨by simp [h3.1], h3.2⟩
    · rw [if_neg h]
      obtain ⟨h1, h2, h3⟩ := ih e
      refine ⟨h1, ?_, ?_⟩
      · intro d hd hs
        rcases List.mem_cons.mp hd with rfl | hd
        · omega
        · exact h2 d hd hs
      · rcases h3 with h3 | h3
        · exact .inl h3
        · exact .inr ⟨by simp [h3.1], h3.2⟩

theorem greatest (q s : Nat) (hs : s ≤ q) : ∀ offsets : List Nat, ∃ m ∈ s :: offsets, m ≤ q ∧ s ≤ m ∧
    ∀ c ∈ offsets, c ≤ q → c ≤ m := by
  intro offsets
  induction offsets with
  | nil => exact ⟨s, by simp, hs, Nat.le_refl _, by simp⟩
  | cons c cs ih =>
    obtain ⟨m, h1, h2, h3, h4⟩ := ih
    by_cases hc : c ≤ q ∧ m < c
    · refine ⟨c, by simp, hc.1, by omega, ?_⟩
      intro d hd hq
      rcases List.mem_cons.mp hd with rfl | hd
      · exact Nat.le_refl _
      · have := h4 d hd hq; omega
    · refine ⟨m, ?_, h2, h3, ?_⟩
      · rcases List.mem_cons.mp h1 with rfl | h1
        · simp
        · simp [h1]
      · intro d hd hq
        rcases List.mem_cons.mp hd with rfl | hd
        · omega
        · exact h4 d hd hq

/-- Every byte of the code is in one of the units listed, and in no other: for any table of
distinct function offsets, in any order, none of them the start of the main program. -/
theorem C65_units (offsets : List Nat) (codeStart codeEnd : Nat) (hn : offsets.Nodup)
    (ho : ∀ c ∈ offsets, codeStart < c) :
    (units offsets codeStart codeEnd).Nodup ∧
    ∀ q, codeStart ≤ q → q < codeEnd →
      ∃ u ∈ units offsets codeStart codeEnd, u.1 ≤ q ∧ q < u.2 ∧
        ∀ v ∈ units offsets codeStart codeEnd, v.1 ≤ q → q < v.2 → v = u := by
  have hmem : ∀ u, u ∈ units offsets codeStart codeEnd ↔
      ∃ s ∈ codeStart :: offsets, u = (s, unitEnd offsets s codeEnd) := by
    intro u
    simp only [units, List.mem_cons, List.mem_map]
    constructor
    · rintro (h | ⟨a, ha, rfl⟩)
      · exact ⟨codeStart, .inl rfl, h⟩
      · exact ⟨a, .inr ha, rfl⟩
    · rintro ⟨s, rfl | hs, rfl⟩
      · exact .inl rfl
      · exact .inr ⟨s, hs, rfl⟩
  constructor
  · have : (units offsets codeStart codeEnd) =
        (codeStart :: offsets).map fun f => (f, unitEnd offsets f codeEnd) := rfl
    rw [this, List.nodup_iff_pairwise_ne, List.pairwise_map]
    have hp : (codeStart :: offsets).Pairwise fun a b => a ≠ b := by
      rw [List.pairwise_cons]
      exact ⟨fun c hc => by have := ho c hc; omega, hn⟩
    exact hp.imp fun {a b} hab he => hab (Prod.mk.inj he).1
  · intro q hq1 hq2
    obtain ⟨m, h1, h2, _, h4⟩ := greatest q codeStart hq1 offsets
    refine ⟨_, (hmem _).mpr ⟨m, h1, rfl⟩, h2, ?_, ?_⟩
    · show q < unitEnd offsets m codeEnd
      obtain ⟨_, _, he | he⟩ := unitEnd_spec m offsets codeEnd
      · omega
      · by_cases hc : unitEnd offsets m codeEnd ≤ q
        · have := h4 _ he.1 hc; omega
        · omega
    · intro v hv hv1 hv2
      obtain ⟨s, hs, rfl⟩ := (hmem v).mp hv
      have hle : s ≤ m := by
        rcases List.mem_cons.mp hs with rfl | hs
        · rcases List.mem_cons.mp h1 with rfl | h1
          · exact Nat.le_refl _
          · exact Nat.le_of_lt (ho _ h1)
        · exact h4 s hs hv1
      have hge : ¬ s < m := by
        intro hlt
        have hm' : m ∈ offsets := by
          rcases List.mem_cons.mp h1 with rfl | h1
          · rcases List.mem_cons.mp hs with rfl | hs
            · omega
            · have := ho _ hs; omega
          · exact h1
        have := (unitEnd_spec s offsets codeEnd).2.1 m hm' hlt
        simp only at hv2
        omega
      rw [show s = m by omega]

/-- Two functions stored in the table in the opposite order of their code. -/
theorem C65_units_example : units [30, 17] 9 40 = [(9, 17), (30, 40), (17, 30)] := by decide

/-- Listing an image never reads outside it and never fails, for any bytes and any table. -/
theorem C65_total (img : List Byte) (offsets : List Nat) (codeStart : Nat) :
    ∃ us, disassemble img offsets codeStart = some us ∧ us.length = offsets.length + 1 := by
  have key : ∀ l : List (Nat × Nat), ∃ us, (l.mapM fun u => range (img.take u.2) u.1) = some us ∧
      us.length = l.length := by
    intro l
    induction l with
    | nil => exact ⟨[], rfl, rfl⟩
    | cons u l ih =>
      obtain ⟨us, h1, h2⟩ := ih
      obtain ⟨ls, hr, _⟩ := C65_every_byte_once (img.take u.2) u.1
      refine ⟨ls :: us, ?_, by simp [h2]⟩
      rw [List.mapM_cons, hr, h1]; rfl
  obtain ⟨us, h1, h2⟩ := key (units offsets codeStart (img.length - 4))
  exact ⟨us, h1, by rw [h2]; simp [units]⟩

/-! ### Text of string literals -/

theorem unhex_hexDigit : ∀ c : Byte, unhex (hexDigit (c.toNat / 16)) (hexDigit (c.toNat % 16)) = c := by
  decide +kernel

/-- The text printed for a string literal can be read back: distinct literals look distinct. -/
theorem C65_text_exact (t : List Byte) : unescape (escape t) = some t := by
  induction t with
  | nil => rw [escape, unescape]
  | cons c r ih =>
    rw [escape]
    by_cases h1 : c = 92#8 ∨ c = 34#8
    · rw [if_pos h1, List.cons_append, List.cons_append, List.nil_append, unescape]
      rw [if_pos rfl, if_neg (by rcases h1 with rfl | rfl <;> decide), ih]; rfl
    · rw [if_neg h1]
      by_cases h2 : 32 ≤ c.toNat ∧ c.toNat < 127
      · rw [if_pos h2, List.cons_append, List.nil_append]
        have hne : c ≠ 92#8 := fun e => h1 (.inl e)
        cases hr : escape r with
        | nil =>
          rw [unescape, if_neg hne]
          rw [hr, unescape] at ih
          rw [← Option.some.inj ih]
        | cons d l => rw [unescape, if_neg hne, ← hr, ih]; rfl
      · rw [if_neg h2, List.cons_append, List.cons_append, List.cons_append, List.cons_append, List.nil_append,
          unescape, if_pos rfl, if_pos rfl]
        simp only [List.getElem?_cons_zero, List.getElem?_cons_succ, Option.bind_some, List.drop_succ_cons,
          List.drop_zero, ih, unhex_hexDigit, Option.map_some]

/-- … and consists of printable characters only. -/
theorem C65_text_printable (t : List Byte) : ∀ c ∈ escape t, 32 ≤ c.toNat ∧ c.toNat < 127 := by
  have hex : ∀ n, n < 16 → 32 ≤ (hexDigit n).toNat ∧ (hexDigit n).toNat < 127 := by decide
  induction t with
  | nil => intro c hc; rw [escape] at hc; cases hc
  | cons a r ih =>
    intro c hc
    rw [escape, List.mem_append] at hc
    rcases hc with hc | hc
    · by_cases h1 : a = 92#8 ∨ a = 34#8
      · rw [if_pos h1] at hc
        simp only [List.mem_cons, List.not_mem_nil, or_false] at hc
        rcases hc with rfl | rfl
        · decide
        · rcases h1 with rfl | rfl <;> decide
      · rw [if_neg h1] at hc
        by_cases h2 : 32 ≤ a.toNat ∧ a.toNat < 127
        · rw [if_pos h2] at hc
          simp only [List.mem_cons, List.not_mem_nil, or_false] at hc
          rw [hc]; exact h2
        · rw [if_neg h2] at hc
          simp only [List.mem_cons, List.not_mem_nil, or_false] at hc
          have := a.isLt
          rcases hc with rfl | rfl | rfl | rfl
          · decide
          · decide
          · exact hex _ (by omega)
          · exact hex _ (by omega)
    · exact ih c hc

end Wrench.Disasm
