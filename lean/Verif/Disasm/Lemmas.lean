import Verif.Disasm.Spec

namespace Wrench.Disasm
open Wrench.Vm Wrench.Vm.Jump

theorem r8 {w : List Byte} {p : Nat} (h : p < w.length) : ∃ b, read8 w p = some b :=
  ⟨w[p], List.getElem?_eq_getElem h⟩

theorem r16 {w : List Byte} {p : Nat} (h : p + 1 < w.length) : ∃ b, read16 w p = some b := by
  simp only [read16, List.getElem?_eq_getElem (show p < w.length by omega), List.getElem?_eq_getElem h]
  exact ⟨_, rfl⟩

theorem r32 {w : List Byte} {p : Nat} (h : p + 3 < w.length) : ∃ b, read32 w p = some b := by
  simp only [read32, List.getElem?_eq_getElem (show p < w.length by omega),
    List.getElem?_eq_getElem (show p + 1 < w.length by omega),
    List.getElem?_eq_getElem (show p + 2 < w.length by omega), List.getElem?_eq_getElem h]
  exact ⟨_, rfl⟩

theorem bytesAt_eq (w : List Byte) (n : Nat) : ∀ p, p + n ≤ w.length →
    bytesAt w p n = some ((w.drop p).take n) := by
  induction n with
  | zero => intro p _; simp [bytesAt]
  | succ n ih =>
    intro p h
    have hp : p < w.length := by omega
    rw [bytesAt, ih (p + 1) (by omega), read8, List.getElem?_eq_getElem hp, List.drop_eq_getElem_cons hp,
      List.take_succ_cons]
    rfl

theorem rawFields_some (w : List Byte) (n : Nat) : ∀ p, p + n ≤ w.length →
    ∃ fs, rawFields w p n = some fs := by
  induction n with
  | zero => intro p _; exact ⟨[], rfl⟩
  | succ n ih =>
    intro p h
    obtain ⟨b, hb⟩ := r8 (w := w) (p := p) (by omega)
    obtain ⟨fs, hf⟩ := ih (p + 1) (by omega)
    exact ⟨.raw b :: fs, by simp [rawFields, hb, hf]⟩

/-- The operand bytes `decodeFamilies` looks at. -/
def needs (o : Op) : Nat :=
  if twoVars (name o) then
    if contains (name o) (n! "NextKeyValueOrJump") then 5
    else if contains (name o) (n! "BZ") then 4 else 2
  else if oneVar (name o) then
    if contains (name o) (n! "BZ") then 3 else 1
  else if nextValue (name o) then 4
  else 0

theorem decodeFamilies_some {w : List Byte} {o : Op} {p n : Nat} (inst : Nat) (h : p + n ≤ w.length)
    (hn : needs o ≤ n) : ∃ fs, decodeFamilies w o p n inst = some fs := by
  unfold needs at hn
  unfold decodeFamilies
  by_cases h1 : twoVars (name o) = true
  · rw [if_pos h1] at hn ⊢
    by_cases h2 : contains (name o) (n! "NextKeyValueOrJump") = true
    · rw [if_pos h2] at hn
      obtain ⟨a, ha⟩ := r8 (w := w) (p := p) (by omega)
      obtain ⟨b, hb⟩ := r8 (w := w) (p := p + 1) (by omega)
      obtain ⟨c, hc⟩ := r16 (w := w) (p := p + 3) (by omega)
      obtain ⟨d, hd⟩ := r8 (w := w) (p := p + 2) (by omega)
      simp [ha, hb, hc, hd, h2]
    · rw [if_neg h2] at hn
      by_cases h3 : contains (name o) (n! "BZ") = true
      · rw [if_pos h3] at hn
        obtain ⟨a, ha⟩ := r8 (w := w) (p := p) (by omega)
        obtain ⟨b, hb⟩ := r8 (w := w) (p := p + 1) (by omega)
        obtain ⟨c, hc⟩ := r16 (w := w) (p := p + 2) (by omega)
        obtain ⟨d, hd⟩ := r8 (w := w) (p := p + 2) (by omega)
        obtain ⟨e, he⟩ := r8 (w := w) (p := p + 3) (by omega)
        by_cases h4 : endsWith (name o) (n! "BZ8") = true <;> simp [ha, hb, hc, hd, he, h2, h3, h4]
      · rw [if_neg h3] at hn
        obtain ⟨a, ha⟩ := r8 (w := w) (p := p) (by omega)
        obtain ⟨b, hb⟩ := r8 (w := w) (p := p + 1) (by omega)
        simp [ha, hb, h2, h3]
  · rw [if_neg h1] at hn ⊢
    by_cases h2 : oneVar (name o) = true
    · rw [if_pos h2] at hn ⊢
      by_cases h3 : contains (name o) (n! "BZ") = true
      · rw [if_pos h3] at hn
        obtain ⟨a, ha⟩ := r8 (w := w) (p := p) (by omega)
        obtain ⟨c, hc⟩ := r16 (w := w) (p := p + 1) (by omega)
        obtain ⟨d, hd⟩ := r8 (w := w) (p := p + 1) (by omega)
        obtain ⟨e, he⟩ := r8 (w := w) (p := p + 2) (by omega)
        by_cases h4 : endsWith (name o) (n! "BZ8") = true <;> simp [ha, hc, hd, he, h3, h4]
      · rw [if_neg h3] at hn
        obtain ⟨a, ha⟩ := r8 (w := w) (p := p) (by omega)
        simp [ha, h3]
    · rw [if_neg h2] at hn ⊢
      by_cases h3 : nextValue (name o) = true
      · rw [if_pos h3] at hn ⊢
        obtain ⟨a, ha⟩ := r8 (w := w) (p := p) (by omega)
        obtain ⟨b, hb⟩ := r8 (w := w) (p := p + 1) (by omega)
        obtain ⟨c, hc⟩ := r16 (w := w) (p := p + 2) (by omega)
        simp [ha, hb, hc]
      · rw [if_neg h3]
        have hs : ∀ b, 1 ≤ n ∧ n ≤ 3 → ∃ fs, scopedFields w p n b = some fs := by
          intro b ⟨g1, g2⟩
          obtain ⟨a, ha⟩ := r8 (w := w) (p := p) (by omega)
          rcases (by omega : n = 1 ∨ n = 2 ∨ n = 3) with rfl | rfl | rfl
          · simp [scopedFields, ha]
          · obtain ⟨b, hb⟩ := r8 (w := w) (p := p + 1) (by omega)
            simp [scopedFields, ha, hb]
          · obtain ⟨b, hb⟩ := r16 (w := w) (p := p + 1) (by omega)
            simp [scopedFields, ha, hb]
        unfold decodeRest
        split
        · rename_i g
          simp only [Bool.and_eq_true, decide_eq_true_eq] at g
          exact hs _ g.2
        · split
          · rename_i g
            simp only [Bool.and_eq_true, decide_eq_true_eq] at g
            exact hs _ g.2
          · exact rawFields_some w n p h

/-- The least operand count of each instruction the disassembler decodes by itself. -/
def least (o : Op) : Nat :=
  match fixedSize o with
  | some n => n
  | none =>
    match o with
    | .LiteralString => 2
    | .Switch => 4
    | .SwitchLinear => 3
    | o => namedSize (name o)

theorem needs_le (o : Op) : fixedSize o = some 0 ∨ needs o ≤ least o := by
  cases o <;> decide

theorem branch_two (o : Op) (h : branchName (name o) = true) : least o = 2 := by
  revert h; cases o <;> decide

theorem size_least {w : List Byte} {p : Nat} {o : Op} {n : Nat} (h : operandSize w p o = .size n) :
    least o ≤ n := by
  unfold operandSize at h
  unfold least
  cases hf : fixedSize o with
  | some k => rw [hf] at h; simp only [Size.size.injEq] at h; simp [h]
  | none =>
    rw [hf] at h
    cases o <;> first
      | (exact absurd hf (by decide))
      | (simp only [Size.size.injEq] at h; simp only [h]; exact Nat.le_refl _)
      | (simp only at h ⊢
         split at h
         · cases h
         · split at h
           · simp only [Size.size.injEq] at h; omega
           · cases h)

theorem size_string {w : List Byte} {p : Nat} {n : Nat} (h : operandSize w p .LiteralString = .size n) :
    ∃ l, read16 w p = some l ∧ n = 2 + l.toNat := by
  have h' : (if p + 2 > w.length then Size.short else match read16 w p with
        | some l => .size (2 + l.toNat)
        | none => .ub) = .size n := h
  split at h'
  · cases h'
  · split at h'
    · rename_i l hl
      simp only [Size.size.injEq] at h'
      exact ⟨l, hl, h'.symm⟩
    · cases h'

/-- The instructions listed with their own code in `decodeOperands`. -/
theorem decodeOperands_some {w : List Byte} {o : Op} {p n : Nat} (inst : Nat)
    (hs : operandSize w p o = .size n) (h : p + n ≤ w.length) :
    ∃ fs, decodeOperands w o p n inst = some fs := by
  have hl := size_least hs
  have hnd := needs_le o
  unfold decodeOperands
  by_cases h0 : n = 0
  · exact ⟨[], if_pos h0⟩
  rw [if_neg h0]
  by_cases g : o = .CallFunctionByHash ∨ o = .CallFunctionByHashAndPop ∨ o = .CallLibFunction ∨ o = .CallLibFunctionAndPop
  · rw [if_pos g]
    have : least o = 5 := by rcases g with g | g | g | g <;> subst g <;> decide
    obtain ⟨a, ha⟩ := r8 (w := w) (p := p) (by omega)
    obtain ⟨b, hb⟩ := r32 (w := w) (p := p + 1) (by omega)
    simp [ha, hb]
  rw [if_neg g]
  by_cases g : o = .CallFunctionByIndex
  · rw [if_pos g]
    have : least o = 3 := by subst g; decide
    obtain ⟨a, ha⟩ := r8 (w := w) (p := p) (by omega)
    obtain ⟨b, hb⟩ := r8 (w := w) (p := p + 1) (by omega)
    obtain ⟨c, hc⟩ := r8 (w := w) (p := p + 2) (by omega)
    simp [ha, hb, hc]
  rw [if_neg g]
  by_cases g : o = .LoadLibConstant ∨ o = .AssignToObjectTableByHash ∨ o = .StackIndexHash
  · rw [if_pos g]
    have : least o = 4 := by rcases g with g | g | g <;> subst g <;> decide
    obtain ⟨b, hb⟩ := r32 (w := w) (p := p) (by omega)
    simp [hb]
  rw [if_neg g]
  by_cases g : o = .GlobalIndexHash ∨ o = .LocalIndexHash
  · rw [if_pos g]
    have : least o = 5 := by rcases g with g | g <;> subst g <;> decide
    obtain ⟨a, ha⟩ := r8 (w := w) (p := p) (by omega)
    obtain ⟨b, hb⟩ := r32 (w := w) (p := p + 1) (by omega)
    simp [ha, hb]
  rw [if_neg g]
  by_cases g : o = .LiteralString ∧ 2 ≤ n
  · rw [if_pos g]
    obtain ⟨rfl, _⟩ := g
    obtain ⟨l, hl', rfl⟩ := size_string hs
    have ht := bytesAt_eq w l.toNat (p + 2) (by omega)
    simp [hl', ht]
  rw [if_neg g]
  by_cases g : o = .LiteralInt32 ∨ o = .LiteralFloat
  · rw [if_pos g]
    have : least o = 4 := by rcases g with g | g <;> subst g <;> decide
    obtain ⟨b, hb⟩ := r32 (w := w) (p := p) (by omega)
    simp [hb]
  rw [if_neg g]
  by_cases g : o = .LiteralInt32ToLocal ∨ o = .LiteralInt32ToGlobal ∨ o = .LiteralFloatToLocal ∨ o = .LiteralFloatToGlobal
  · rw [if_pos g]
    have : least o = 5 := by rcases g with g | g | g | g <;> subst g <;> decide
    obtain ⟨a, ha⟩ := r8 (w := w) (p := p) (by omega)
    obtain ⟨b, hb⟩ := r32 (w := w) (p := p + 1) (by omega)
    simp [ha, hb]
  rw [if_neg g]
  by_cases g : o = .RelativeJump ∨ o = .BZ ∨ (branchName (name o) && !endsWith (name o) (n! "8")) = true
  · rw [if_pos g]
    have : least o = 2 := by
      rcases g with g | g | g
      · subst g; decide
      · subst g; decide
      · exact branch_two o (by simp only [Bool.and_eq_true] at g; exact g.1)
    obtain ⟨b, hb⟩ := r16 (w := w) (p := p) (by omega)
    simp [hb]
  rw [if_neg g]
  by_cases g : o = .RelativeJump8 ∨ o = .BZ8 ∨ (branchName (name o) && endsWith (name o) (n! "8")) = true
  · rw [if_pos g]
    have : least o = 2 := by
      rcases g with g | g | g
      · subst g; decide
      · subst g; decide
      · exact branch_two o (by simp only [Bool.and_eq_true] at g; exact g.1)
    obtain ⟨a, ha⟩ := r8 (w := w) (p := p) (by omega)
    obtain ⟨b, hb⟩ := r8 (w := w) (p := p + 1) (by omega)
    have h2 : 2 ≤ n := by omega
    simp [ha, hb, h2]
  rw [if_neg g]
  by_cases g : o = .LocalBZ ∨ o = .GlobalBZ
  · rw [if_pos g]
    have : least o = 3 := by rcases g with g | g <;> subst g <;> decide
    obtain ⟨a, ha⟩ := r8 (w := w) (p := p) (by omega)
    obtain ⟨b, hb⟩ := r16 (w := w) (p := p + 1) (by omega)
    simp [ha, hb]
  rw [if_neg g]
  by_cases g : o = .LocalBZ8 ∨ o = .GlobalBZ8
  · rw [if_pos g]
    have : least o = 3 := by rcases g with g | g <;> subst g <;> decide
    obtain ⟨a, ha⟩ := r8 (w := w) (p := p) (by omega)
    obtain ⟨b, hb⟩ := r8 (w := w) (p := p + 1) (by omega)
    obtain ⟨c, hc⟩ := r8 (w := w) (p := p + 2) (by omega)
    simp [ha, hb, hc]
  rw [if_neg g]
  by_cases g : o = .Switch ∧ 4 ≤ n
  · rw [if_pos g]
    obtain ⟨a, ha⟩ := r16 (w := w) (p := p) (by omega)
    obtain ⟨b, hb⟩ := r16 (w := w) (p := p + 2) (by omega)
    simp [ha, hb]
  rw [if_neg g]
  by_cases g : o = .SwitchLinear ∧ 3 ≤ n
  · rw [if_pos g]
    obtain ⟨a, ha⟩ := r8 (w := w) (p := p) (by omega)
    obtain ⟨b, hb⟩ := r16 (w := w) (p := p + 1) (by omega)
    simp [ha, hb]
  rw [if_neg g]
  rcases hnd with hz | hnd
  · simp only [operandSize, hz, Size.size.injEq] at hs
    omega
  · exact decodeFamilies_some inst h (by omega)

theorem size_ne_ub (w : List Byte) (p : Nat) (o : Op) : operandSize w p o ≠ .ub := by
  unfold operandSize
  cases hf : fixedSize o with
  | some k => simp
  | none =>
    simp only
    split
    · split
      · simp
      · obtain ⟨b, hb⟩ := r16 (w := w) (p := p) (by omega)
        simp [hb]
    · split
      · simp
      · obtain ⟨b, hb⟩ := r16 (w := w) (p := p) (by omega)
        simp [hb]
    · split
      · simp
      · obtain ⟨b, hb⟩ := r8 (w := w) (p := p) (by omega)
        simp [hb]
    · simp

set_option maxRecDepth 4000 in
theorem list_length : Op.list.length = 252 := by rfl

set_option maxRecDepth 8000 in
theorem list_idx : ∀ i, i < 252 → (Op.list[i]?).map Op.ctorIdx = some i := by decide

theorem decode_lt {b : Byte} (h : b.toNat < 252) : ∃ o, Op.decode b = some o := by
  have : b.toNat < Op.list.length := by rw [list_length]; exact h
  exact ⟨_, List.getElem?_eq_getElem this⟩

theorem code_decode {b : Byte} {o : Op} (h : Op.decode b = some o) : b = o.code := by
  have hb : b.toNat < Op.list.length := (List.getElem?_eq_some_iff.mp h).1
  have := list_idx b.toNat (by rw [list_length] at hb; exact hb)
  have h' : Op.list[b.toNat]? = some o := h
  rw [h'] at this
  simp only [Option.map_some, Option.some.injEq] at this
  unfold Op.code
  rw [this]
  simp

/-- What is known of a line of a listing. -/
def LineOk (w : List Byte) : Line → Prop
  | .ins off bs o fs => ∃ n, (w[off]?).bind Op.decode = some o ∧ o.ctorIdx < 250 ∧
      operandSize w (off + 1) o = .size n ∧ off + 1 + n ≤ w.length ∧
      decodeOperands w o (off + 1) n off = some fs ∧ bs = (w.drop off).take (n + 1)
  | .data off b => w[off]? = some b ∧ 250 ≤ b.toNat
  | .truncated off o => (w[off]?).bind Op.decode = some o ∧ (operandSize w (off + 1) o = .short ∨
      ∃ n, operandSize w (off + 1) o = .size n ∧ w.length < off + 1 + n)

theorem range_spec (w : List Byte) (k : Nat) : ∀ pc, w.length - pc ≤ k →
    ∃ ls, range w pc = some ls ∧ Consecutive pc ls ∧ (∀ l ∈ ls, LineOk w l) ∧
      ∃ skipped, w.drop pc = ls.flatMap Line.bytes ++ skipped ∧
        (skipped = [] ∨ ∃ l, ls.getLast? = some l ∧ l.isStop = true ∧ w.drop l.off = skipped) := by
  induction k with
  | zero =>
    intro pc h
    refine ⟨[], ?_, trivial, by simp, [], ?_, .inl rfl⟩
    · rw [range, if_neg (by omega)]
    · simp only [List.flatMap_nil, List.append_nil, List.drop_eq_nil_iff]; omega
  | succ k ih =>
    intro pc h
    by_cases hpc : pc < w.length
    · obtain ⟨b, hb⟩ := r8 hpc
      have hb' : w[pc]? = some b := hb
      by_cases hd : b.toNat ≥ 252 ∨ b.toNat ≥ 250
      · refine ⟨[.data pc b], ?_, ⟨rfl, fun _ => rfl, trivial⟩, ?_, w.drop pc, ?_, .inr ⟨_, rfl, rfl, rfl⟩⟩
        · rw [range, if_pos hpc, hb]; simp only [if_pos hd]
        · simp only [List.mem_singleton, forall_eq]
          exact ⟨hb', by omega⟩
        · simp [Line.bytes]
      · obtain ⟨o, ho⟩ := decode_lt (b := b) (by omega)
        have hlt : o.ctorIdx < 250 := by
          have h1 := code_decode ho
          have h2 : b.toNat = o.ctorIdx := by
            rw [h1, Op.code, BitVec.toNat_ofNat]
            have : o.ctorIdx < 252 := by cases o <;> decide
            omega
          omega
        have stop : ∀ P : Prop, (P → LineOk w (.truncated pc o)) → P →
            range w pc = some [.truncated pc o] →
            ∃ ls, range w pc = some ls ∧ Consecutive pc ls ∧ (∀ l ∈ ls, LineOk w l) ∧
              ∃ skipped, w.drop pc = ls.flatMap Line.bytes ++ skipped ∧
                (skipped = [] ∨ ∃ l, ls.getLast? = some l ∧ l.isStop = true ∧ w.drop l.off = skipped) := by
          intro P hP p hr
          refine ⟨_, hr, ⟨rfl, fun _ => rfl, trivial⟩, ?_, w.drop pc, by simp [Line.bytes],
            .inr ⟨_, rfl, rfl, rfl⟩⟩
          simp only [List.mem_singleton, forall_eq]
          exact hP p
        cases hs : operandSize w (pc + 1) o with
        | ub => exact absurd hs (size_ne_ub _ _ _)
        | short =>
          refine stop True (fun _ => ⟨by simp [hb', ho], .inl hs⟩) trivial ?_
          rw [range, if_pos hpc, hb]; simp only [if_neg hd, ho, hs]
        | size n =>
          by_cases hn : pc + 1 + n > w.length
          · refine stop True (fun _ => ⟨by simp [hb', ho], .inr ⟨n, hs, hn⟩⟩) trivial ?_
            rw [range, if_pos hpc, hb]; simp only [if_neg hd, ho, hs, if_pos hn]
          · obtain ⟨fs, hf⟩ := decodeOperands_some pc hs (by omega)
            obtain ⟨ls, hr, hc, hall, skipped, he, hk⟩ := ih (pc + 1 + n) (by omega)
            have hbs := bytesAt_eq w (n + 1) pc (by omega)
            refine ⟨.ins pc ((w.drop pc).take (n + 1)) o fs :: ls, ?_, ⟨rfl, (fun e => by cases e), ?_⟩, ?_,
              skipped, ?_, ?_⟩
            · rw [range, if_pos hpc, hb]
              simp only [if_neg hd, ho, hs, if_neg hn, hf, hbs, hr]
              rfl
            · have : ((w.drop pc).take (n + 1)).length = n + 1 := by
                simp only [List.length_take, List.length_drop]; omega
              simp only [Line.bytes, this]
              rw [show pc + (n + 1) = pc + 1 + n by omega]
              exact hc
            · intro l hl
              rcases List.mem_cons.mp hl with rfl | hl
              · exact ⟨n, by simp [hb', ho], hlt, hs, by omega, hf, rfl⟩
              · exact hall l hl
            · simp only [List.flatMap_cons, Line.bytes, List.append_assoc]
              rw [← he, show pc + 1 + n = pc + (n + 1) by omega, ← List.drop_drop, List.take_append_drop]
            · rcases hk with hk | ⟨l, h1, h2, h3⟩
              · exact .inl hk
              · exact .inr ⟨l, by rw [List.getLast?_cons, h1]; rfl, h2, h3⟩
    · refine ⟨[], ?_, trivial, by simp, [], ?_, .inl rfl⟩
      · rw [range, if_neg (by omega)]
      · simp only [List.flatMap_nil, List.append_nil, List.drop_eq_nil_iff]; omega

end Wrench.Disasm
