import Verif.Link.Lemmas

namespace Wrench.Link

/-- `dropped` and `meant` read from a buffer at a position. -/
private def droppedAt (code : List Byte) (p : Nat) : Bool :=
  code[p + 5]? == some Vm.Op.PopOne.code || code[p + 6]? == some Vm.Op.NewObjectTable.code

private def meantAt (fns : List CUnit) (code : List Byte) (p : Nat) (h : Word32) : Option Target :=
  (code[p + 1]?).map fun args =>
    if h = yieldHash then .yield args.toNat (p + 2)
    else match firstFn fns h with
      | some k => .fn k args.toNat (p + if droppedAt code p then 6 else 5)
      | none => .extern h (code[p + 5]? == some Vm.Op.PopOne.code) args.toNat (p + 6)

theorem firstFn_lt {fns : List CUnit} {h : Word32} {k : Nat} (hk : firstFn fns h = some k) :
    k < fns.length := by
  have := List.findIdx?_eq_some_iff_getElem.mp hk
  exact this.1

theorem byte_toNat {n : Nat} (h : n < 256) : (byte n).toNat = n := by
  simp [byte, BitVec.toNat_ofNat]; omega

private theorem decode_fn {img : List Byte} {p : Nat} {a k s : Byte}
    (h0 : img[p]? = some Vm.Op.CallFunctionByIndex.code) (h1 : img[p + 1]? = some a)
    (h2 : img[p + 2]? = some k) (h3 : img[p + 3]? = some s) :
    decodeCall img p = some (.fn k.toNat a.toNat (p + 3 + s.toNat)) := by
  simp only [decodeCall, read8, h0, h1, h2, h3, Option.bind_eq_bind, Option.bind_some]
  rw [if_neg (by decide), if_pos (by decide)]
  rfl

private theorem decode_yield {img : List Byte} {p : Nat} {a : Byte}
    (h0 : img[p]? = some Vm.Op.Yield.code) (h1 : img[p + 1]? = some a) :
    decodeCall img p = some (.yield a.toNat (p + 2)) := by
  simp only [decodeCall, read8, h0, h1, Option.bind_eq_bind, Option.bind_some]
  rw [if_pos (by decide)]
  rfl

private theorem decode_extern {img : List Byte} {p : Nat} {a : Byte} {h : Word32} (pop : Bool)
    (h0 : img[p]? = some (if pop then Vm.Op.CallFunctionByHashAndPop.code
      else Vm.Op.CallFunctionByHash.code)) (h1 : img[p + 1]? = some a)
    (h2 : read32 img (p + 2) = some h) :
    decodeCall img p = some (.extern h pop a.toNat (p + 6)) := by
  cases pop
  · simp only [decodeCall, read8, h0, h1, h2, Option.bind_eq_bind, Option.bind_some]
    rw [if_neg (by decide), if_neg (by decide), if_pos (by decide)]
    rfl
  · simp only [decodeCall, read8, h0, h1, h2, Option.bind_eq_bind, Option.bind_some]
    rw [if_neg (by decide), if_neg (by decide), if_neg (by decide), if_pos (by decide)]
    rfl

private structure CallFixed (fns : List CUnit) (p : Nat) (s : Word32 × Nat) (code code' : List Byte) :
    Prop where
  length : code'.length = code.length
  outside : ∀ i, (i < p ∨ p + width s ≤ i) → code'[i]? = code[i]?
  opcode : code'[p]? ≠ some Vm.Op.NewObjectTable.code
  call : ∃ t, meantAt fns code p s.1 = some t ∧ decodeCall code' p = some t
  pushes : s.1 ≠ yieldHash → firstFn fns s.1 ≠ none → droppedAt code p = false →
    code'[p + 5]? = some Vm.Op.PushIndexFunctionReturnValue.code

private theorem one {l : List Byte} {p : Nat} {b : Byte} (h : At l p [b]) : l[p]? = some b :=
  h 0 (by simp)

private theorem fixCall_ok {fns : List CUnit} (hf : fns.length ≤ 255)
    (hy : firstFn fns yieldHash = none) {base : Nat} {s : Word32 × Nat} {code code' : List Byte}
    (hw : base + s.2 + width s ≤ code.length) (h : fixCall fns base code s = .ok code') :
    CallFixed fns (base + s.2) s code code' := by
  unfold fixCall at h
  generalize base + s.2 = p at h hw
  obtain ⟨args, hargs⟩ : ∃ a, code[p + 1]? = some a := by
    have : p + 1 < code.length := by unfold width at hw; split at hw <;> omega
    exact ⟨_, List.getElem?_eq_getElem this⟩
  cases hk : firstFn fns s.1 with
  | some k =>
    have hny : s.1 ≠ yieldHash := by intro he; rw [he, hy] at hk; cases hk
    have hwd : width s = 6 := if_neg hny
    have hk256 : k < 256 := by have := firstFn_lt hk; omega
    simp only [hk] at h
    obtain ⟨c1, e1, h⟩ := bind_ok h
    obtain ⟨c2, e2, h⟩ := bind_ok h
    obtain ⟨b5, e5, h⟩ := bind_ok h
    obtain ⟨skip, es, h⟩ := bind_ok h
    obtain ⟨-, l1, a1, o1⟩ := writeAt_ok e1
    obtain ⟨-, l2, a2, o2⟩ := writeAt_ok e2
    have e5 := readAt_ok e5
    simp only [List.length_singleton] at o1 o2
    -- bytes the decision reads
    have r5 : code[p + 5]? = some b5 := by rw [← o1 _ (by omega), ← o2 _ (by omega)]; exact e5
    have hd : droppedAt code p = skip := by
      unfold droppedAt
      rw [r5]
      split at es
      · next hb => injection es with es; subst es; simp [hb]
      · next hb =>
        obtain ⟨b6, e6, es⟩ := bind_ok es
        have e6 := readAt_ok e6
        injection es with es
        have r6 : code[p + 6]? = some b6 := by rw [← o1 _ (by omega), ← o2 _ (by omega)]; exact e6
        rw [r6, ← es, Bool.eq_iff_iff]
        simp [hb]
    cases hskip : skip with
    | true =>
      simp only [hskip, if_true] at h
      obtain ⟨-, l3, a3, o3⟩ := writeAt_ok h
      simp only [List.length_singleton] at o3
      have hp : code'[p]? = some Vm.Op.CallFunctionByIndex.code := by
        rw [o3 _ (by omega), o2 _ (by omega)]; exact one a1
      refine ⟨by omega, ?_, by rw [hp]; decide, ?_, ?_⟩
      · intro i hi
        rw [hwd] at hi
        rw [o3 _ (by omega), o2 _ (by omega), o1 _ (by omega)]
      · refine ⟨.fn k args.toNat (p + 6), ?_, ?_⟩
        · simp only [meantAt, hargs, hk, hd, hskip, hny, if_false, if_true, Option.map_some]
        · have := decode_fn (img := code') (p := p) (a := args) (k := byte k) (s := 3#8) hp
            (by rw [o3 _ (by omega), o2 _ (by omega), o1 _ (by omega)]; exact hargs)
            (by rw [o3 _ (by omega)]; exact one a2) (one a3)
          rw [this, byte_toNat hk256]; rfl
      · intro _ _ hdf
        rw [hd, hskip] at hdf; cases hdf
    | false =>
      simp only [hskip, Bool.false_eq_true, if_false] at h
      obtain ⟨c3, e3, h⟩ := bind_ok h
      obtain ⟨-, l3, a3, o3⟩ := writeAt_ok e3
      obtain ⟨-, l4, a4, o4⟩ := writeAt_ok h
      simp only [List.length_singleton] at o3 o4
      have hp : code'[p]? = some Vm.Op.CallFunctionByIndex.code := by
        rw [o4 _ (by omega), o3 _ (by omega), o2 _ (by omega)]; exact one a1
      refine ⟨by omega, ?_, by rw [hp]; decide, ?_, ?_⟩
      · intro i hi
        rw [hwd] at hi
        rw [o4 _ (by omega), o3 _ (by omega), o2 _ (by omega), o1 _ (by omega)]
      · refine ⟨.fn k args.toNat (p + 5), ?_, ?_⟩
        · simp only [meantAt, hargs, hk, hd, hskip, hny, if_false, Option.map_some]
          rfl
        · have := decode_fn (img := code') (p := p) (a := args) (k := byte k) (s := 2#8) hp
            (by rw [o4 _ (by omega), o3 _ (by omega), o2 _ (by omega), o1 _ (by omega)]; exact hargs)
            (by rw [o4 _ (by omega), o3 _ (by omega)]; exact one a2)
            (by rw [o4 _ (by omega)]; exact one a3)
          rw [this, byte_toNat hk256]; rfl
      · intro _ _ _
        exact one a4
  | none =>
    simp only [hk] at h
    split at h
    · next hy' =>
      have hwd : width s = 2 := if_pos hy'
      obtain ⟨-, l1, a1, o1⟩ := writeAt_ok h
      simp only [List.length_singleton] at o1
      refine ⟨by omega, ?_, by rw [one a1]; decide, ?_, ?_⟩
      · intro i hi; rw [hwd] at hi; exact o1 _ (by omega)
      · refine ⟨.yield args.toNat (p + 2), ?_, decode_yield (one a1) (by
          rw [o1 _ (by omega)]; exact hargs)⟩
        simp only [meantAt, hargs, hy', if_true, Option.map_some]
      · intro _ h2; exact absurd hk h2
    · next hy' =>
      have hwd : width s = 6 := if_neg hy'
      obtain ⟨b5, e5, h⟩ := bind_ok h
      obtain ⟨c1, e1, h⟩ := bind_ok h
      have e5 := readAt_ok e5
      obtain ⟨-, l1, a1, o1⟩ := writeAt_ok e1
      obtain ⟨-, l2, a2, o2⟩ := writeAt_ok h
      simp only [List.length_singleton, pack32_length] at o1 o2
      have hp : code'[p]? = some (if b5 = Vm.Op.PopOne.code then Vm.Op.CallFunctionByHashAndPop.code
          else Vm.Op.CallFunctionByHash.code) := by
        rw [o2 _ (by omega)]; exact one a1
      refine ⟨by omega, ?_, ?_, ?_, ?_⟩
      · intro i hi
        rw [hwd] at hi
        rw [o2 _ (by omega), o1 _ (by omega)]
      · rw [hp]; split <;> decide
      · refine ⟨.extern s.1 (decide (b5 = Vm.Op.PopOne.code)) args.toNat (p + 6), ?_, ?_⟩
        · simp only [meantAt, hargs, hk, hy', if_false, Option.map_some, e5]
          have hb : ∀ x y : Byte, (some x == some y) = decide (x = y) := by
            intro x y; rw [Bool.eq_iff_iff]; simp
          rw [hb]
        · refine decode_extern _ ?_ ?_ a2.read32
          · rw [hp]; simp
          · rw [o2 _ (by omega), o1 _ (by omega)]; exact hargs
      · intro _ h2; exact absurd hk h2

/-! ### All calls of a unit -/

private theorem decode_congr {img img' : List Byte} {p : Nat} {s : Word32 × Nat}
    {fns : List CUnit} {code : List Byte} {t : Target} (hm : meantAt fns code p s.1 = some t)
    (h : ∀ i, p ≤ i → i < p + width s → img'[i]? = img[i]?) (hd : decodeCall img p = some t) :
    decodeCall img' p = some t := by
  have h0 := h p (by omega) (by unfold width; split <;> omega)
  have h1 := h (p + 1) (by omega) (by unfold width; split <;> omega)
  by_cases hy : s.1 = yieldHash
  · -- two bytes are read
    unfold meantAt at hm
    cases ha : code[p + 1]? with
    | none => rw [ha] at hm; cases hm
    | some a =>
      rw [ha] at hm
      simp only [Option.map_some, hy, if_true, Option.some.injEq] at hm
      subst hm
      unfold decodeCall at hd ⊢
      simp only [read8, h0, h1] at hd ⊢
      cases e0 : img[p]? with
      | none => rw [e0] at hd; cases hd
      | some op =>
        cases e1 : img[p + 1]? with
        | none => rw [e0, e1] at hd; cases hd
        | some a' =>
          rw [e0, e1] at hd
          simp only [Option.bind_eq_bind, Option.bind_some] at hd ⊢
          split at hd
          · next hop => rw [if_pos hop]; exact hd
          · exfalso
            split at hd
            · cases e2 : img[p + 2]? with
              | none => rw [e2] at hd; cases hd
              | some _ =>
                cases e3 : img[p + 3]? with
                | none => rw [e2, e3] at hd; cases hd
                | some _ => rw [e2, e3] at hd; simp at hd
            · split at hd
              · cases e2 : read32 img (p + 2) with
                | none => rw [e2] at hd; cases hd
                | some _ => rw [e2] at hd; simp at hd
              · split at hd
                · cases e2 : read32 img (p + 2) with
                  | none => rw [e2] at hd; cases hd
                  | some _ => rw [e2] at hd; simp at hd
                · cases hd
  · have hw : width s = 6 := if_neg hy
    rw [hw] at h
    have h2 := h (p + 2) (by omega) (by omega)
    have h3 := h (p + 3) (by omega) (by omega)
    have h4 := h (p + 4) (by omega) (by omega)
    have h5 := h (p + 5) (by omega) (by omega)
    have h32 : read32 img' (p + 2) = read32 img (p + 2) := by
      unfold read32
      rw [h2, show p + 2 + 1 = p + 3 by omega, show p + 2 + 2 = p + 4 by omega,
        show p + 2 + 3 = p + 5 by omega, h3, h4, h5]
    unfold decodeCall at hd ⊢
    simp only [read8, h0, h1, h2, h3, h32]
    exact hd

private theorem droppedAt_congr {c c1 : List Byte} {p q w : Nat} (ha : q + 6 ≤ p ∨ p + w ≤ q)
    (hout : ∀ i, (i < p ∨ p + w ≤ i) → c1[i]? = c[i]?)
    (h1 : c1[p]? ≠ some Vm.Op.NewObjectTable.code) (h0 : c[p]? ≠ some Vm.Op.NewObjectTable.code) :
    droppedAt c1 q = droppedAt c q := by
  unfold droppedAt
  rw [hout (q + 5) (by omega)]
  by_cases h6 : q + 6 = p
  · rw [h6]
    have a : (c1[p]? == some Vm.Op.NewObjectTable.code) = false := by simpa using h1
    have b : (c[p]? == some Vm.Op.NewObjectTable.code) = false := by simpa using h0
    rw [a, b]
  · rw [hout (q + 6) (by omega)]

private theorem meantAt_congr {fns : List CUnit} {c c1 : List Byte} {p q w : Nat} {s : Word32 × Nat}
    (ha : q + width s ≤ p ∨ p + w ≤ q)
    (hout : ∀ i, (i < p ∨ p + w ≤ i) → c1[i]? = c[i]?)
    (h1 : c1[p]? ≠ some Vm.Op.NewObjectTable.code) (h0 : c[p]? ≠ some Vm.Op.NewObjectTable.code) :
    meantAt fns c1 q s.1 = meantAt fns c q s.1 := by
  unfold meantAt
  by_cases hy : s.1 = yieldHash
  · have hw : width s = 2 := if_pos hy
    rw [hout (q + 1) (by omega)]
    simp only [hy, if_true]
  · have hw : width s = 6 := if_neg hy
    rw [hout (q + 1) (by omega), hout (q + 5) (by omega),
      droppedAt_congr (w := w) (by omega) hout h1 h0]

private theorem fixCalls_ok {fns : List CUnit} (hf : fns.length ≤ 255)
    (hy : firstFn fns yieldHash = none) {base : Nat} : ∀ (ss : List (Word32 × Nat))
    (code code' : List Byte), fixCalls fns base ss code = .ok code' →
    (ss.Pairwise fun a b => Apart a.2 (width a) b.2 (width b)) →
    (∀ s ∈ ss, base + s.2 + width s ≤ code.length) →
    (∀ s ∈ ss, code[base + s.2]? ≠ some Vm.Op.NewObjectTable.code) →
    code'.length = code.length ∧
    (∀ i, (∀ s ∈ ss, i < base + s.2 ∨ base + s.2 + width s ≤ i) → code'[i]? = code[i]?) ∧
    (∀ s ∈ ss, ∃ t, meantAt fns code (base + s.2) s.1 = some t ∧
      decodeCall code' (base + s.2) = some t) ∧
    (∀ s ∈ ss, s.1 ≠ yieldHash → firstFn fns s.1 ≠ none → droppedAt code (base + s.2) = false →
      code'[base + s.2 + 5]? = some Vm.Op.PushIndexFunctionReturnValue.code)
  | [], code, code', h, _, _, _ => by
    injection h with h; subst h
    exact ⟨rfl, fun _ _ => rfl, fun s hs => absurd hs (by simp), fun s hs => absurd hs (by simp)⟩
  | s :: ss, code, code', h, hp, hr, ho => by
    obtain ⟨c1, e1, h⟩ := bind_ok h
    have F := fixCall_ok hf hy (hr s (by simp)) e1
    have hps := (List.pairwise_cons.mp hp).1
    have ap : ∀ s' ∈ ss, base + s'.2 + width s' ≤ base + s.2 ∨ base + s.2 + width s ≤ base + s'.2 := by
      intro s' hs'
      have := hps s' hs'
      unfold Apart at this
      omega
    have hwpos : ∀ x, 0 < width x := by intro x; unfold width; split <;> omega
    obtain ⟨l, o, c, q⟩ := fixCalls_ok hf hy ss c1 code' h (List.pairwise_cons.mp hp).2
      (fun s' hs' => by rw [F.length]; exact hr s' (by simp [hs']))
      (fun s' hs' => by
        rw [F.outside _ (by have := ap s' hs'; have := hwpos s'; omega)]
        exact ho s' (by simp [hs']))
    have hs_out : ∀ i, base + s.2 ≤ i → i < base + s.2 + width s → code'[i]? = c1[i]? := by
      intro i h1 h2
      exact o i (fun s' hs' => by have := ap s' hs'; omega)
    refine ⟨by rw [l, F.length], ?_, ?_, ?_⟩
    · intro i hi
      rw [o i (fun s' hs' => hi s' (by simp [hs'])), F.outside i (hi s (by simp))]
    · intro s' hs'
      rcases List.mem_cons.mp hs' with rfl | hs'
      · obtain ⟨t, h1, h2⟩ := F.call
        exact ⟨t, h1, decode_congr h1 hs_out h2⟩
      · obtain ⟨t, h1, h2⟩ := c s' hs'
        refine ⟨t, ?_, h2⟩
        rw [← h1]
        exact (meantAt_congr (ap s' hs') F.outside F.opcode (ho s (by simp))).symm
    · intro s' hs' hny hk hd
      rcases List.mem_cons.mp hs' with rfl | hs'
      · have hw : width s' = 6 := if_neg hny
        rw [hs_out _ (by omega) (by omega)]
        exact F.pushes hny hk hd
      · have hw : width s' = 6 := if_neg hny
        refine q s' hs' hny hk ?_
        rw [← hd]
        have := ap s' hs'
        exact droppedAt_congr (by omega) F.outside F.opcode (ho s (by simp))

private theorem meantAt_shift {fns : List CUnit} {img : List Byte} {u : CUnit} {fo : Nat}
    (hg : ∀ i, img[fo + i]? = u.code[i]?) (s : Word32 × Nat) :
    meantAt fns img (fo + s.2) s.1 = meant fns fo u s := by
  have h1 : img[fo + s.2 + 1]? = u.code[s.2 + 1]? := by rw [← hg]; rfl
  have h5 : img[fo + s.2 + 5]? = u.code[s.2 + 5]? := by rw [← hg]; rfl
  have h6 : img[fo + s.2 + 6]? = u.code[s.2 + 6]? := by rw [← hg]; rfl
  unfold meantAt meant droppedAt dropped
  rw [h1, h5, h6]
  cases firstFn fns s.1 <;> rfl

/-- The unit's calls after linking it at the end of the image. -/
theorem unit_body {fns : List CUnit} (hf : fns.length ≤ 255) (hy : firstFn fns yieldHash = none)
    {u : CUnit} (hu : UnitOk u) {pre code' : List Byte}
    (h : fixCalls fns pre.length (sites u.calls) (pre ++ u.code) = .ok code') :
    code'.length = pre.length + u.code.length ∧ (∀ i, i < pre.length → code'[i]? = pre[i]?) ∧
    (∀ i, i < u.code.length → (∀ c ∈ sites u.calls, i < c.2 ∨ c.2 + width c ≤ i) →
      code'[pre.length + i]? = u.code[i]?) ∧ Body fns code' pre.length u := by
  have hg : ∀ i, (pre ++ u.code)[pre.length + i]? = u.code[i]? := by
    intro i
    rw [List.getElem?_append_right (by omega)]; congr 1; omega
  obtain ⟨l, o, c, q⟩ := fixCalls_ok hf hy (sites u.calls) _ _ h hu.calls
    (fun s hs => by have := hu.range s hs; simp; omega)
    (fun s hs => by rw [hg]; exact hu.opcode s hs)
  have hpl : ∀ i, i < u.code.length → (∀ c ∈ sites u.calls, i < c.2 ∨ c.2 + width c ≤ i) →
      code'[pre.length + i]? = u.code[i]? := by
    intro i _ hic
    rw [o _ (fun s hs => by have := hic s hs; omega), hg]
  have hdrop : ∀ s, droppedAt (pre ++ u.code) (pre.length + s.2) = dropped u s := by
    intro s
    unfold droppedAt dropped
    rw [Nat.add_assoc, Nat.add_assoc, hg, hg]
  refine ⟨by rw [l]; simp, ?_, hpl, ?_⟩
  · intro i hi
    rw [o i (fun s hs => by omega), List.getElem?_append_left hi]
  · refine ⟨fun i h1 h2 _ => hpl i h1 h2, ?_, ?_⟩
    · intro s hs
      obtain ⟨t, h1, h2⟩ := c s hs
      refine ⟨t, ?_, h2⟩
      rw [← h1]
      exact (meantAt_shift hg s).symm
    · intro s hs h1 h2 h3
      exact q s hs h1 h2 (by rw [hdrop]; exact h3)

/-- What is said of a unit's code stays true when other parts of the image, or the unit's `new`
operands, change. -/
theorem Body.congr {fns : List CUnit} {img img' : List Byte} {fo : Nat} {u : CUnit} (hu : UnitOk u)
    (h : Body fns img fo u)
    (he : ∀ i, i < u.code.length → (∀ n ∈ sites u.news, i < n.2 ∨ n.2 + 2 ≤ i) →
      img'[fo + i]? = img[fo + i]?) : Body fns img' fo u := by
  have hreg : ∀ s ∈ sites u.calls, ∀ i, fo + s.2 ≤ i → i < fo + s.2 + width s → img'[i]? = img[i]? := by
    intro s hs i h1 h2
    have hr := hu.range s hs
    have := he (i - fo) (by omega) (fun n hn => by
      have := hu.mixed s hs n hn
      unfold Apart at this
      omega)
    rwa [show fo + (i - fo) = i by omega] at this
  refine ⟨?_, ?_, ?_⟩
  · intro i h1 h2 h3
    rw [he i h1 h3]; exact h.plain i h1 h2 h3
  · intro s hs
    obtain ⟨t, h1, h2⟩ := h.calls s hs
    refine ⟨t, h1, ?_⟩
    have : meantAt fns (List.replicate fo 0#8 ++ u.code) (fo + s.2) s.1 = some t := by
      rw [← h1]
      have hg : ∀ i, (List.replicate fo 0#8 ++ u.code)[fo + i]? = u.code[i]? := by
        intro i
        rw [List.getElem?_append_right (by simp)]; congr 1; simp
      exact meantAt_shift hg s
    exact decode_congr this (hreg s hs) h2
  · intro s hs h1 h2 h3
    have hw : width s = 6 := if_neg h1
    rw [hreg s hs _ (by omega) (by omega)]
    exact h.pushes s hs h1 h2 h3

end Wrench.Link
