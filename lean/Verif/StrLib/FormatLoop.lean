import Verif.StrLib.FormatInv

/-
The format routine produces the text the format stands for.
-/
namespace Wrench.StrLib

open Ops

/-! ### Arguments -/

/-- Following references only looks at real cells. -/
theorem reads_cells {σ τ : St} {k : Nat} {a : Addr} {v : Val} (h : Reads σ false k a v)
    (ha : a.real = true) (hs : ∀ x, x.real = true → τ.cell x = σ.cell x) : Reads τ false k a v := by
  generalize hm : false = mb at h
  induction h with
  | here hp => rw [← hs _ ha]; exact .here (by rw [hs _ ha]; exact hp)
  | ref h1 h2 _ ih => exact .ref (by rw [hs _ ha, h1]) h2 (ih h2)
  | velem h0 => rw [← hm] at h0; cases h0
  | celem h0 => rw [← hm] at h0; cases h0
  | relem h0 => rw [← hm] at h0; cases h0
  | helem h0 => rw [← hm] at h0; cases h0

variable {σ : St} {old : List Byte} {out : Out} {max : Nat}

theorem number_inv (E : LEnv) {t : List Byte} {s : PS} (h : Inv σ old out max t s) {K : Nat} {a : Addr}
    (ha : a.real = true) {v : Val} {x : FArg} (hr : Reads σ false K a v) (hd : Denotes σ out v x)
    {w : Word32} (hw : x.number E = .ok w) (d : Nat) :
    ∃ τ, asInt E (d + K + 1) s.mem a = .ok (τ, w) ∧ Inv σ old out max t { s with mem := τ } := by
  have hr' := reads_cells hr ha h.cell
  have hi : IntOf E s.mem v w := by
    cases hd with
    | int => simp only [FArg.number, Except.ok.injEq] at hw; subst hw; exact .int
    | float =>
      simp only [FArg.number] at hw
      split at hw
      · rename_i i hx
        simp only [Except.ok.injEq] at hw
        subst hw
        exact .float hx
      · cases hw
    | @str o nc bs ho hne =>
      simp only [FArg.number, Except.ok.injEq] at hw
      subst hw
      have : getHash E.toEnv s.mem (.arr o) = wrHash bs := by
        simp [getHash, h.obj o hne, ho]
      rw [← this]
      exact .obj rfl
    | obj => simp [FArg.number] at hw
  obtain ⟨τ, h1, h2⟩ := asInt_reads E hr' hi d
  refine ⟨τ, h1, h.pos, ?_, ?_, ?_, ?_, ?_, ?_⟩
  · have := h.buf
    cases out with
    | tmp => exact this
    | obj o => simpa only [outBytes, h2.obj] using this
  · intro a ha; rw [h2.cell a ha]; exact h.cell a ha
  · intro o ho; rw [h2.obj]; exact h.obj o ho
  · rw [h2.obj]; exact h.ctx
  · rw [h2.next]; exact h.next
  · rw [h2.raw]; exact h.raw

theorem charsObj_inv {t : List Byte} {s : PS} (h : Inv σ old out max t s) {K : Nat} {a : Addr}
    (ha : a.real = true) {o : Nat} {bs : List Byte} {nc : Bool} (hr : Reads σ false K a (.arr o))
    (ho : σ.obj o = .chars bs nc) (hne : out ≠ .obj o) (d : Nat) :
    ∃ τ, charsObj (d + K + 1) s.mem a = .ok (τ, some (o, bs.length)) ∧
      Inv σ old out max t { s with mem := τ } := by
  obtain ⟨τ, l, h1, h2, h3, -, -⟩ := deref_reads (reads_cells hr ha h.cell) d
  refine ⟨τ, by simp [charsObj, h1, h2, h3.obj, h.obj o hne, ho], h.pos, ?_, ?_, ?_, ?_, ?_, ?_⟩
  · have := h.buf
    cases out with
    | tmp => exact this
    | obj o => simpa only [outBytes, h3.obj] using this
  · intro a ha; rw [h3.cell a ha]; exact h.cell a ha
  · intro o ho; rw [h3.obj]; exact h.obj o ho
  · rw [h3.obj]; exact h.ctx
  · rw [h3.next]; exact h.next
  · rw [h3.raw]; exact h.raw

/-! ### Modifiers -/

theorem modifier_isMod (c : Byte) (q : Spec) : (modifier c q).isSome = isMod c := by
  have h : ∀ n : Fin 256, (48 ≤ (BitVec.ofNat 8 n.val).toNat ∧ (BitVec.ofNat 8 n.val).toNat ≤ 57) ∨
      BitVec.ofNat 8 n.val = 35#8 ∨ BitVec.ofNat 8 n.val = 45#8 ↔ isMod (BitVec.ofNat 8 n.val) = true := by
    decide +kernel
  have h := h ⟨c.toNat, c.isLt⟩
  simp only [BitVec.ofNat_toNat, BitVec.setWidth_eq] at h
  unfold modifier
  by_cases h1 : 48 ≤ c.toNat ∧ c.toNat ≤ 57
  · rw [if_pos h1, h.1 (.inl h1)]; rfl
  · rw [if_neg h1]
    by_cases h2 : c = 35#8
    · rw [if_pos h2, h.1 (.inr (.inl h2))]; rfl
    · rw [if_neg h2]
      by_cases h3 : c = 45#8
      · rw [if_pos h3, h.1 (.inr (.inr h3))]; rfl
      · rw [if_neg h3]
        cases hm : isMod c with
        | false => rfl
        | true =>
          rcases h.2 hm with h | h | h
          · exact absurd h h1
          · exact absurd h h2
          · exact absurd h h3

/-- The directive state the modifiers lead to. -/
def applyMods (ms : List Byte) (q : Spec) : Spec := ms.foldl (fun q c => (modifier c q).getD q) q

theorem isDig_iff (c : Byte) : isDig c = true ↔ 48 ≤ c.toNat ∧ c.toNat ≤ 57 := by
  have h : ∀ n : Fin 256, isDig (BitVec.ofNat 8 n.val) = true ↔
      (48 ≤ (BitVec.ofNat 8 n.val).toNat ∧ (BitVec.ofNat 8 n.val).toNat ≤ 57) := by decide +kernel
  simpa using h ⟨c.toNat, c.isLt⟩

/-- Reading digits never makes the number smaller. -/
theorem digits_le (ds : List Byte) : ∀ n, n ≤ ds.foldl (fun n c => 10 * n + (c.toNat - 48)) n := by
  induction ds with
  | nil => intro n; exact Nat.le_refl _
  | cons d ds ih => intro n; exact Nat.le_trans (show n ≤ 10 * n + (d.toNat - 48) by omega) (ih _)

/-- The state after modifiers, from a state that has read the number `q.columns`. -/
theorem applyMods_spec : ∀ (ms : List Byte) (q : Spec), (∀ c ∈ ms, isMod c = true) →
    (applyMods ms q).inside = q.inside ∧
    (applyMods ms q).left = (q.left || ms.contains 45#8) ∧
    (applyMods ms q).alt = (q.alt || ms.contains 35#8) ∧
    ((ms.filter isDig).foldl (fun n c => 10 * n + (c.toNat - 48)) q.columns < 2 ^ 32 →
      (applyMods ms q).columns = (ms.filter isDig).foldl (fun n c => 10 * n + (c.toNat - 48)) q.columns ∧
      (q.columns ≠ 0 → (applyMods ms q).padZero = q.padZero) ∧
      (q.columns = 0 → (applyMods ms q).padZero = (q.padZero || zeroFlag ms))) := by
  intro ms
  induction ms with
  | nil => intro q _; simp [applyMods, zeroFlag]
  | cons c ms ih =>
    intro q hms
    have hc : isMod c = true := hms c (by simp)
    have step : applyMods (c :: ms) q = applyMods ms ((modifier c q).getD q) := rfl
    rw [step]
    by_cases hd : 48 ≤ c.toNat ∧ c.toNat ≤ 57
    · have hdig : isDig c = true := (isDig_iff c).2 hd
      have hm : modifier c q = some { q with
          columns := (q.columns * 10 + (c.toNat - 48)) % 2 ^ 32,
          padZero := q.padZero || decide ((q.columns * 10 + (c.toNat - 48)) % 2 ^ 32 = 0) } := by
        unfold modifier; rw [if_pos hd]
      have n45 : c ≠ 45#8 := by rintro rfl; simp at hd
      have n35 : c ≠ 35#8 := by rintro rfl; simp at hd
      obtain ⟨i1, i2, i3, i4⟩ := ih ((modifier c q).getD q) fun x hx => hms x (by simp [hx])
      rw [hm] at i1 i2 i3 i4 ⊢
      simp only [Option.getD_some] at i1 i2 i3 i4 ⊢
      refine ⟨i1, ?_, ?_, ?_⟩
      · rw [i2]; simp [Ne.symm n45]
      · rw [i3]; simp [Ne.symm n35]
      · intro hlt
        rw [List.filter_cons_of_pos hdig, List.foldl_cons] at hlt ⊢
        have hsmall : 10 * q.columns + (c.toNat - 48) < 2 ^ 32 :=
          Nat.lt_of_le_of_lt (digits_le _ _) hlt
        have e : (q.columns * 10 + (c.toNat - 48)) % 2 ^ 32 = 10 * q.columns + (c.toNat - 48) := by
          rw [Nat.mod_eq_of_lt (by omega)]; omega
        rw [e] at i4 ⊢
        obtain ⟨j1, j2, j3⟩ := i4 hlt
        refine ⟨j1, ?_, ?_⟩
        · intro hne
          rw [j2 (by omega)]
          have : ¬ (10 * q.columns + (c.toNat - 48) = 0) := by omega
          rw [decide_eq_false this, Bool.or_false]
        · intro h0
          by_cases hz : c = 48#8
          · subst hz
            have : 10 * q.columns + ((48#8 : Byte).toNat - 48) = 0 := by rw [h0]; rfl
            rw [j3 this, decide_eq_true this]
            simp [zeroFlag, hdig]
          · have hz' : c.toNat ≠ 48 := fun e => hz (by apply BitVec.eq_of_toNat_eq; exact e)
            rw [j2 (by omega)]
            have : ¬ (10 * q.columns + (c.toNat - 48) = 0) := by omega
            rw [decide_eq_false this]
            simp [zeroFlag, hdig, hz]
    · have hndig : ¬ isDig c = true := fun h => hd ((isDig_iff c).1 h)
      have hf : (c :: ms).filter isDig = ms.filter isDig := List.filter_cons_of_neg hndig
      have hz : zeroFlag (c :: ms) = zeroFlag ms := by unfold zeroFlag; rw [hf]
      have hsome := modifier_isMod c q
      rw [hc] at hsome
      rw [hf, hz]
      by_cases h1 : c = 35#8
      · have hm : modifier c q = some { q with alt := true } := by
          unfold modifier; rw [if_neg hd, if_pos h1]
        obtain ⟨i1, i2, i3, i4⟩ := ih { q with alt := true } fun x hx => hms x (by simp [hx])
        rw [hm]
        simp only [Option.getD_some]
        exact ⟨i1, by rw [i2]; simp [h1], by rw [i3]; simp [h1], i4⟩
      · have h2 : c = 45#8 := by
          unfold modifier at hsome
          rw [if_neg hd, if_neg h1] at hsome
          by_cases h2 : c = 45#8
          · exact h2
          · rw [if_neg h2] at hsome; simp at hsome
        have hm : modifier c q = some { q with left := true } := by
          unfold modifier; rw [if_neg hd, if_neg h1, if_pos h2]
        obtain ⟨i1, i2, i3, i4⟩ := ih { q with left := true } fun x hx => hms x (by simp [hx])
        rw [hm]
        simp only [Option.getD_some]
        exact ⟨i1, by rw [i2]; simp [h2], by rw [i3]; simp [h2], i4⟩

/-- The state at the end of the modifiers of a directive. -/
structure ModsDone (ms : List Byte) (q : Spec) : Prop where
  inside : q.inside = true
  left : q.left = ms.contains 45#8
  alt : q.alt = ms.contains 35#8
  columns : widthOf ms < 2 ^ 32 → q.columns = widthOf ms
  padZero : widthOf ms < 2 ^ 32 → q.padZero = zeroFlag ms

theorem modsDone {ms : List Byte} (h : ∀ c ∈ ms, isMod c = true) :
    ModsDone ms (applyMods ms { inside := true }) := by
  obtain ⟨h1, h2, h3, h4⟩ := applyMods_spec ms { inside := true } h
  exact ⟨h1, by simpa using h2, by simpa using h3, fun h => (h4 h).1,
    fun h => by simpa using (h4 h).2.2 rfl⟩

/-! ### One directive -/

@[simp] theorem ex_pure {ε α : Type} (a : α) : (pure a : Except ε α) = .ok a := rfl
@[simp] theorem ex_bind {ε α β : Type} (a : α) (g : α → Except ε β) : (Except.ok a >>= g) = g a := rfl
@[simp] theorem ex_bind_err {ε α β : Type} (e : ε) (g : α → Except ε β) :
    ((Except.error e : Except ε α) >>= g) = .error e := rfl

theorem justify_ok {ms : List Byte} {z hex : Bool} {sg text u : List Byte}
    (h : justify ms z sg hex text = .ok u) : widthOf ms < 2 ^ 32 ∧
    u = (if ms.contains 45#8 then [] else List.replicate (widthOf ms - text.length)
        (if z && zeroFlag ms then 48#8 else 32#8)) ++ sg ++
      (if ms.contains 35#8 || hex then [48#8, 120#8] else []) ++ text ++
      (if ms.contains 45#8 then List.replicate (widthOf ms - text.length) 32#8 else []) := by
  unfold justify at h
  by_cases hw : widthOf ms ≥ 2 ^ 32
  · rw [if_pos hw] at h; cases h
  · rw [if_neg hw] at h
    simp only [Except.ok.injEq] at h
    exact ⟨by omega, h.symm⟩

variable {E : LEnv} {K : Nat} {A : ArgList} {args : List FArg}

theorem drop_past (i : Nat) (h : args[i]? = none) : args.drop i = args.drop (i + 1) := by
  have : args.length ≤ i := by simpa using h
  rw [List.drop_eq_nil_of_le this, List.drop_eq_nil_of_le (by omega)]

theorem numArg_inv (hA : FArgs σ out K A.ab args) (hn : A.argn = args.length) {t : List Byte} {s : PS}
    (h : Inv σ old out max t s) {i : Nat} {w : Word32} (hw : numberOf E args[i]? = .ok w)
    {signed : Bool} (hs : signed = true → w ≠ 0x80000000#32) (d : Nat) :
    ∃ s' j, numArg E (d + K + 1) A signed i s = .ok (s', j, signed && w.msb,
        if signed && w.msb then 0 - w else w) ∧ Inv σ old out max t s' ∧
      args.drop j = args.drop (i + 1) := by
  cases ha : args[i]? with
  | none =>
    rw [ha] at hw
    simp only [numberOf, Except.ok.injEq] at hw
    subst hw
    refine ⟨s, i, ?_, h, drop_past i ha⟩
    unfold numArg
    have : ¬ i < A.argn := by rw [hn]; simpa using ha
    rw [if_neg this]
    simp
  | some a =>
    rw [ha] at hw
    simp only [numberOf] at hw
    obtain ⟨v, h1, h2⟩ := hA i a ha
    obtain ⟨τ, h3, h4⟩ := number_inv E h rfl h1 h2 hw d
    refine ⟨{ s with mem := τ }, i + 1, ?_, h4, rfl⟩
    have : i < A.argn := by
      rw [hn]
      exact (List.getElem?_eq_some_iff.1 ha).1
    unfold numArg
    rw [if_pos this, h3]
    simp only [res_bind, res_pure]
    by_cases hm : (signed && w.msb) = true
    · rw [if_pos hm, if_pos hm, hm, if_neg]
      exact hs (by revert hm; cases signed <;> simp)
    · rw [if_neg hm, if_neg hm, Bool.eq_false_iff.2 hm]

theorem number_conv {k : Byte} {base width : Nat} {lc signed : Bool}
    (hk : numConv k = some (base, width, lc, signed)) (h1 : k ≠ 99#8) (h2 : k ≠ 37#8) (h3 : k ≠ 115#8)
    (hb : 2 ≤ base) (hb' : base ≤ 16) (hw1 : 1 ≤ width)
    (hm : max ≤ old.length) (hA : FArgs σ out K A.ab args) (hn : A.argn = args.length)
    {t u ms : List Byte} {s : PS} {q : Spec} (h : Inv σ old out max t s) (hq : ModsDone ms q)
    {i : Nat} {w : Word32} (hw : numberOf E args[i]? = .ok w)
    (hs : signed = true → w ≠ 0x80000000#32)
    (hu : justify ms true (if signed && w.msb then [45#8] else []) (k = 112#8)
      (numeral lc base ((if signed && w.msb then 0 - w else w).toNat % base ^ width)) = .ok u)
    (hl : (t ++ u).length < 2 ^ 32) (d : Nat) :
    ∃ s' j, conversion E (d + K + 1) out max A k q i s = .ok (s', some j) ∧
      Inv σ old out max (t ++ u) s' ∧ args.drop j = args.drop (i + 1) := by
  obtain ⟨s1, j, a1, b1, c1⟩ := numArg_inv (signed := signed) hA hn h hw hs d
  obtain ⟨hwid, hu⟩ := justify_ok hu
  rw [← numText_eq lc hb hb' hw1] at hu
  obtain ⟨s2, a2, b2⟩ := field_inv (q := q) (minus := signed && w.msb) (hex := decide (k = 112#8)) hm
    (text := numText base width lc (if signed && w.msb then 0 - w else w).toNat)
    (body := addChars out max (numText base width lc (if signed && w.msb then 0 - w else w).toNat))
    (fun h hl => addChars_inv hm h hl) (u := u) b1
    (by rw [hu, hq.left, hq.alt, hq.columns hwid, hq.padZero hwid, Bool.true_and]) hl
  refine ⟨s2, j, ?_, b2, c1⟩
  unfold conversion
  rw [if_neg h1, if_neg h2, if_neg h3, hk]
  simp only [a1, res_bind, a2, res_pure]

theorem neg_natAbs {w : Word32} (h : w.msb = true) : (0 - w).toNat = w.toInt.natAbs := by
  rw [BitVec.toInt_eq_msb_cond, if_pos h]
  have := BitVec.msb_eq_true_iff_two_mul_ge.1 h
  have hl := w.isLt
  simp
  omega

theorem pos_natAbs {w : Word32} (h : ¬ w.msb = true) : w.toNat = w.toInt.natAbs := by
  rw [BitVec.toInt_eq_msb_cond, if_neg h]
  simp

theorem toInt_neg_iff (w : Word32) : w.toInt < 0 ↔ w.msb = true := by
  rw [BitVec.toInt_eq_msb_cond]
  have hl := w.isLt
  split <;> simp_all <;> omega

theorem takes_one {k : Byte} (h : k = 99#8 ∨ k = 115#8 ∨ k = 100#8 ∨ k = 105#8 ∨ k = 117#8 ∨ k = 98#8 ∨
    k = 111#8 ∨ k = 120#8 ∨ k = 88#8 ∨ k = 112#8) : takes k = 1 := by
  rcases h with h | h | h | h | h | h | h | h | h | h <;> subst h <;> decide +kernel

theorem takes_zero {k : Byte} (h : ¬ (k = 99#8 ∨ k = 115#8 ∨ k = 100#8 ∨ k = 105#8 ∨ k = 117#8 ∨
    k = 98#8 ∨ k = 111#8 ∨ k = 120#8 ∨ k = 88#8 ∨ k = 112#8)) : takes k = 0 := by
  have e : str "csdiuboxXp" =
      [99#8, 115#8, 100#8, 105#8, 117#8, 98#8, 111#8, 120#8, 88#8, 112#8] := by decide +kernel
  unfold takes
  rw [e, if_neg]
  simpa using h

theorem conversion_inv (hm : max ≤ old.length) (hA : FArgs σ out K A.ab args)
    (hn : A.argn = args.length) {t u ms : List Byte} {s : PS} {q : Spec} {k : Byte} {i : Nat}
    (h : Inv σ old out max t s) (hq : ModsDone ms q) (hd : directive E ms k args[i]? = .ok u)
    (hl : (t ++ u).length < 2 ^ 32) (d : Nat) :
    ∃ s' j, conversion E (d + K + 1) out max A k q i s = .ok (s', some j) ∧
      Inv σ old out max (t ++ u) s' ∧ args.drop j = args.drop (i + takes k) := by
  have hlt : ∀ w : Word32, w.toNat < 10 ^ 10 := fun w => Nat.lt_trans w.isLt (by decide)
  have hcond : ∀ (w : Word32), (if w.msb = true then 0 - w else w).toNat % 10 ^ 10 = w.toInt.natAbs := by
    intro w
    rw [Nat.mod_eq_of_lt (hlt _)]
    by_cases hb : w.msb = true
    · rw [if_pos hb, neg_natAbs hb]
    · rw [if_neg hb, pos_natAbs hb]
  have hsg : ∀ (w : Word32), (if w.toInt < 0 then [45#8] else []) = (if w.msb = true then [45#8] else []) := by
    intro w
    by_cases hb : w.msb = true
    · rw [if_pos hb, if_pos ((toInt_neg_iff w).2 hb)]
    · rw [if_neg hb, if_neg (fun x => hb ((toInt_neg_iff w).1 x))]
  unfold directive at hd
  by_cases k1 : k = 99#8
  · rw [if_pos k1] at hd
    rw [takes_one (.inl k1)]
    cases ha : args[i]? with
    | none =>
      rw [ha] at hd
      simp only [ex_pure, Except.ok.injEq] at hd
      subst hd
      have : ¬ i < A.argn := by rw [hn]; simpa using ha
      refine ⟨s, i, ?_, by simpa using h, drop_past i ha⟩
      unfold conversion
      rw [if_pos k1, if_neg this]
    | some a =>
      rw [ha] at hd
      simp only at hd
      cases hw : a.number E with
      | error e => rw [hw] at hd; cases hd
      | ok w =>
        rw [hw] at hd
        simp only [ex_bind, ex_pure, Except.ok.injEq] at hd
        subst hd
        obtain ⟨v, h1, h2⟩ := hA i a ha
        obtain ⟨τ, h3, h4⟩ := number_inv E h rfl h1 h2 hw d
        obtain ⟨s2, h5, h6⟩ := addChar_inv hm h4 hl
        have : i < A.argn := by
          rw [hn]
          exact (List.getElem?_eq_some_iff.1 ha).1
        refine ⟨s2, i + 1, ?_, h6, rfl⟩
        unfold conversion
        rw [if_pos k1, if_pos this, h3]
        simp only [res_bind, h5, res_pure]
  rw [if_neg k1] at hd
  by_cases k2 : k = 37#8
  · rw [if_pos k2] at hd
    simp only [ex_pure, Except.ok.injEq] at hd
    subst hd
    obtain ⟨s2, h5, h6⟩ := addChar_inv hm h hl
    refine ⟨s2, i, ?_, h6, by rw [k2]; rfl⟩
    unfold conversion
    rw [if_neg k1, if_pos k2, k2]
    simp only [h5, res_bind, res_pure]
  rw [if_neg k2] at hd
  by_cases k3 : k = 115#8
  · rw [if_pos k3] at hd
    rw [takes_one (.inr (.inl k3))]
    cases ha : args[i]? with
    | none =>
      rw [ha] at hd
      simp only at hd
      obtain ⟨hwid, hu⟩ := justify_ok hd
      have : ¬ i < A.argn := by rw [hn]; simpa using ha
      obtain ⟨s2, a2, b2⟩ := field_inv (q := { q with padZero := false }) (minus := false) (hex := false)
        hm (text := []) (body := .ok) (fun {t s} h _ => ⟨s, rfl, by simpa using h⟩) (u := u) h
        (by rw [hu]; simp only [hq.left, hq.alt, hq.columns hwid]; simp) hl
      refine ⟨s2, i, ?_, b2, drop_past i ha⟩
      unfold conversion
      rw [if_neg k1, if_neg k2, if_pos k3, if_neg this]
      simp only [List.length_nil] at a2
      simp only [a2, res_bind, res_pure]
    | some a =>
      rw [ha] at hd
      have : i < A.argn := by
        rw [hn]
        exact (List.getElem?_eq_some_iff.1 ha).1
      cases a with
      | int w => cases hd
      | float w => cases hd
      | obj => cases hd
      | str bs =>
        simp only at hd
        obtain ⟨hwid, hu⟩ := justify_ok hd
        obtain ⟨v, h1, h2⟩ := hA i _ ha
        cases h2 with
        | @str o nc _ ho hne =>
          obtain ⟨τ, h3, h4⟩ := charsObj_inv h rfl h1 ho hne d
          obtain ⟨s2, a2, b2⟩ := field_inv (q := { q with padZero := false }) (minus := false)
            (hex := false) hm (text := bs) (body := copyChars out max o bs.length bs.length)
            (fun h hl => by
              have := copyChars_inv hm ho hne bs.length (Nat.le_refl _) h (by simpa using hl)
              simpa using this) (u := u) h4
            (by rw [hu]; simp only [hq.left, hq.alt, hq.columns hwid]; simp) hl
          refine ⟨s2, i + 1, ?_, b2, rfl⟩
          unfold conversion
          rw [if_neg k1, if_neg k2, if_pos k3, if_pos this, h3]
          simp only [res_bind, a2, res_pure]
  rw [if_neg k3] at hd
  by_cases k4 : k = 100#8 ∨ k = 105#8
  · rw [if_pos k4] at hd
    rw [takes_one (by rcases k4 with h | h <;> simp [h])]
    cases hw : numberOf E args[i]? with
    | error e => rw [hw] at hd; cases hd
    | ok w =>
      rw [hw] at hd
      simp only [ex_bind] at hd
      by_cases hi : w = 0x80000000#32
      · rw [if_pos hi] at hd; cases hd
      · rw [if_neg hi] at hd
        have hp : decide (k = 112#8) = false := by rcases k4 with h | h <;> subst h <;> rfl
        refine number_conv (base := 10) (width := 10) (lc := false) (signed := true)
          (by unfold numConv; rw [if_pos k4]) k1 k2 k3 (by decide) (by decide) (by decide) hm hA hn h hq hw
          (fun _ => hi) ?_ hl d
        rw [hp]
        simp only [Bool.true_and]
        rw [hcond, ← hsg]
        exact hd
  rw [if_neg k4] at hd
  by_cases k5 : k = 117#8
  · rw [if_pos k5] at hd
    rw [takes_one (by simp [k5])]
    cases hw : numberOf E args[i]? with
    | error e => rw [hw] at hd; cases hd
    | ok w =>
      rw [hw] at hd
      simp only [ex_bind] at hd
      refine number_conv (base := 10) (width := 10) (lc := false) (signed := false)
        (by unfold numConv; rw [if_neg k4, if_pos k5]) k1 k2 k3 (by decide) (by decide) (by decide) hm hA hn
        h hq hw (fun h => by cases h) ?_ hl d
      simp only [Bool.false_and, Bool.false_eq_true, if_false]
      rw [Nat.mod_eq_of_lt (hlt _), show decide (k = 112#8) = false by subst k5; rfl]
      exact hd
  rw [if_neg k5] at hd
  by_cases k6 : k = 98#8
  · rw [if_pos k6] at hd
    rw [takes_one (by simp [k6])]
    cases hw : numberOf E args[i]? with
    | error e => rw [hw] at hd; cases hd
    | ok w =>
      rw [hw] at hd
      simp only [ex_bind] at hd
      refine number_conv (base := 2) (width := 16) (lc := false) (signed := false)
        (by unfold numConv; rw [if_neg k4, if_neg k5, if_pos k6]) k1 k2 k3 (by decide) (by decide)
        (by decide) hm hA hn h hq hw (fun h => by cases h) ?_ hl d
      simp only [Bool.false_and, Bool.false_eq_true, if_false]
      rw [show decide (k = 112#8) = false by subst k6; rfl]
      exact hd
  rw [if_neg k6] at hd
  by_cases k7 : k = 111#8
  · rw [if_pos k7] at hd
    rw [takes_one (by simp [k7])]
    cases hw : numberOf E args[i]? with
    | error e => rw [hw] at hd; cases hd
    | ok w =>
      rw [hw] at hd
      simp only [ex_bind] at hd
      refine number_conv (base := 8) (width := 5) (lc := false) (signed := false)
        (by unfold numConv; rw [if_neg k4, if_neg k5, if_neg k6, if_pos k7]) k1 k2 k3 (by decide)
        (by decide) (by decide) hm hA hn h hq hw (fun h => by cases h) ?_ hl d
      simp only [Bool.false_and, Bool.false_eq_true, if_false]
      rw [show decide (k = 112#8) = false by subst k7; rfl]
      exact hd
  rw [if_neg k7] at hd
  by_cases k8 : k = 120#8
  · rw [if_pos k8] at hd
    rw [takes_one (by simp [k8])]
    cases hw : numberOf E args[i]? with
    | error e => rw [hw] at hd; cases hd
    | ok w =>
      rw [hw] at hd
      simp only [ex_bind] at hd
      refine number_conv (base := 16) (width := 8) (lc := true) (signed := false)
        (by unfold numConv; rw [if_neg k4, if_neg k5, if_neg k6, if_neg k7, if_pos k8]) k1 k2 k3 (by decide)
        (by decide) (by decide) hm hA hn h hq hw (fun h => by cases h) ?_ hl d
      simp only [Bool.false_and, Bool.false_eq_true, if_false]
      rw [Nat.mod_eq_of_lt (show w.toNat < 16 ^ 8 from w.isLt),
        show decide (k = 112#8) = false by subst k8; rfl]
      exact hd
  rw [if_neg k8] at hd
  by_cases k9 : k = 88#8 ∨ k = 112#8
  · rw [if_pos k9] at hd
    rw [takes_one (by rcases k9 with h | h <;> simp [h])]
    cases hw : numberOf E args[i]? with
    | error e => rw [hw] at hd; cases hd
    | ok w =>
      rw [hw] at hd
      simp only [ex_bind] at hd
      refine number_conv (base := 16) (width := 8) (lc := false) (signed := false)
        (by unfold numConv; rw [if_neg k4, if_neg k5, if_neg k6, if_neg k7, if_neg k8, if_pos k9]) k1 k2 k3
        (by decide) (by decide) (by decide) hm hA hn h hq hw (fun h => by cases h) ?_ hl d
      simp only [Bool.false_and, Bool.false_eq_true, if_false]
      rw [Nat.mod_eq_of_lt (show w.toNat < 16 ^ 8 from w.isLt)]
      exact hd
  rw [if_neg k9] at hd
  simp only [ex_pure, Except.ok.injEq] at hd
  subst hd
  refine ⟨s, i, ?_, by simpa using h, ?_⟩
  · unfold conversion
    rw [if_neg k1, if_neg k2, if_neg k3]
    unfold numConv
    rw [if_neg k4, if_neg k5, if_neg k6, if_neg k7, if_neg k8, if_neg k9]
  · rw [takes_zero]
    · rfl
    · simp only [not_or] at k4 k9 ⊢
      exact ⟨k1, k3, k4.1, k4.2, k5, k6, k7, k8, k9.1, k9.2⟩

/-! ### The whole format -/

theorem render_nil (as : List FArg) : render E [] as = .ok [] := by rw [render]

theorem render_char {c : Byte} (h : c ≠ 37#8) (r : List Byte) (as : List FArg) :
    render E (c :: r) as = (render E r as).bind fun t => .ok (c :: t) := by
  rw [render, if_pos h]; rfl

theorem render_open {r : List Byte} (h : r.dropWhile isMod = []) (as : List FArg) :
    render E (37#8 :: r) as = .ok [] := by
  rw [render, if_neg (by simp)]
  split
  · rfl
  · rename_i h'; rw [h] at h'; cases h'

theorem render_dir {r rest : List Byte} {k : Byte} (h : r.dropWhile isMod = k :: rest)
    (as : List FArg) : render E (37#8 :: r) as =
      (directive E (r.takeWhile isMod) k as.head?).bind fun t =>
        (render E rest (as.drop (takes k))).bind fun u => .ok (t ++ u) := by
  rw [render, if_neg (by simp)]
  split
  · rename_i h'; rw [h] at h'; cases h'
  · rename_i k' rest' h'
    rw [h] at h'
    cases h'
    rfl

theorem byteAt_next {t : List Byte} {s : PS} (h : Inv σ old out max t s) {fo : Nat} {nc : Bool}
    {pre r : List Byte} {c : Byte} (ho : σ.obj fo = .chars (pre ++ c :: r) nc) (hne : out ≠ .obj fo) :
    byteAt s.mem fo ((pre ++ c :: r).length - (r.length + 1)) = .ok c := by
  refine byteAt_inv h ho hne ?_
  have : (pre ++ c :: r).length - (r.length + 1) = pre.length := by simp
  rw [this]
  simp

theorem mods_loop {t : List Byte} {s : PS} (h : Inv σ old out max t s) {fo : Nat} {nc : Bool}
    (hne : out ≠ .obj fo) {r : List Byte} (f i : Nat) : ∀ (ms pre : List Byte) (q : Spec),
    (∀ c ∈ ms, isMod c = true) → q.inside = true → σ.obj fo = .chars (pre ++ (ms ++ r)) nc →
    sprintfLoop E f out max fo (pre ++ (ms ++ r)).length A (ms ++ r).length q i s =
      sprintfLoop E f out max fo (pre ++ (ms ++ r)).length A r.length (applyMods ms q) i s := by
  intro ms
  induction ms with
  | nil => intro pre q _ _ _; rfl
  | cons c ms ih =>
    intro pre q hms hq ho
    have hc := modifier_isMod c q
    rw [hms c (by simp)] at hc
    obtain ⟨q', hq'⟩ := Option.isSome_iff_exists.1 hc
    have hin : q'.inside = true := by
      unfold modifier at hq'
      by_cases h1 : 48 ≤ c.toNat ∧ c.toNat ≤ 57
      · rw [if_pos h1] at hq'; simp only [Option.some.injEq] at hq'; rw [← hq']; exact hq
      · rw [if_neg h1] at hq'
        by_cases h2 : c = 35#8
        · rw [if_pos h2] at hq'; simp only [Option.some.injEq] at hq'; rw [← hq']; exact hq
        · rw [if_neg h2] at hq'
          by_cases h3 : c = 45#8
          · rw [if_pos h3] at hq'; simp only [Option.some.injEq] at hq'; rw [← hq']; exact hq
          · rw [if_neg h3] at hq'; cases hq'
    have e : pre ++ (c :: ms ++ r) = (pre ++ [c]) ++ (ms ++ r) := by simp
    have hb := byteAt_next (c := c) (r := ms ++ r) h ho hne
    have key := ih (pre ++ [c]) q' (fun x hx => hms x (by simp [hx])) hin (by rw [ho, e])
    rw [← e] at key
    have a1 : applyMods (c :: ms) q = applyMods ms q' := by
      show applyMods ms ((modifier c q).getD q) = _
      rw [hq']; rfl
    rw [a1, ← key]
    show sprintfLoop E f out max fo _ A ((ms ++ r).length + 1) q i s = _
    conv => lhs; unfold sprintfLoop
    simp only [List.cons_append] at hb ⊢
    rw [hb]
    simp only [res_bind, hq, Bool.true_eq_false, if_false, hq']

theorem loop_inv (hm : max ≤ old.length) (hA : FArgs σ out K A.ab args)
    (hn : A.argn = args.length) {fo : Nat} {bs : List Byte} {nc : Bool}
    (ho : σ.obj fo = .chars bs nc) (hne : out ≠ .obj fo) (d : Nat) : ∀ (N : Nat) (r : List Byte),
    r.length = N → ∀ (pre t u : List Byte) (s : PS) (i : Nat), bs = pre ++ r →
    Inv σ old out max t s → render E r (args.drop i) = .ok u → (t ++ u).length < 2 ^ 32 →
    ∃ s', sprintfLoop E (d + K + 1) out max fo bs.length A r.length {} i s =
        .ok (s', (t ++ u).length) ∧ Inv σ old out max (t ++ u) s' := by
  intro N
  induction N using Nat.strongRecOn with
  | _ N ih =>
    intro r hr pre t u s i hbs h hu hl
    subst hbs
    match r, hr, hu with
    | [], hr, hu =>
      rw [render_nil] at hu
      cases hu
      exact ⟨s, by simp [sprintfLoop, h.pos], by simpa using h⟩
    | c :: r, hr, hu =>
      have hb := byteAt_next (c := c) (r := r) h ho hne
      by_cases hc : c = 37#8
      · subst hc
        have hsp := List.takeWhile_append_dropWhile (p := isMod) (l := r)
        have hms : ∀ c ∈ r.takeWhile isMod, isMod c = true := List.all_eq_true.1 List.all_takeWhile
        have hgo : ∀ rest, r.dropWhile isMod = rest →
            sprintfLoop E (d + K + 1) out max fo (pre ++ 37#8 :: r).length A (37#8 :: r).length {} i s =
            sprintfLoop E (d + K + 1) out max fo (pre ++ 37#8 :: r).length A rest.length
              (applyMods (r.takeWhile isMod) { inside := true }) i s := by
          intro rest hrest
          rw [hrest] at hsp
          have e : pre ++ 37#8 :: r = (pre ++ [37#8]) ++ (r.takeWhile isMod ++ rest) := by
            rw [hsp]; simp
          have := mods_loop (E := E) (A := A) (r := rest) (nc := nc) h hne (d + K + 1) i
            (r.takeWhile isMod) (pre ++ [37#8]) { inside := true } hms rfl (by rw [ho, e])
          rw [← e] at this
          rw [← this, hsp]
          show sprintfLoop E _ out max fo _ A (r.length + 1) {} i s = _
          conv => lhs; unfold sprintfLoop
          rw [hb]
          simp
        cases hrest : r.dropWhile isMod with
        | nil =>
          rw [render_open hrest] at hu
          cases hu
          rw [hgo _ hrest]
          exact ⟨s, by simp [sprintfLoop, h.pos], by simpa using h⟩
        | cons k rest =>
          rw [render_dir hrest, List.head?_drop] at hu
          cases hd : directive E (r.takeWhile isMod) k args[i]? with
          | error e => rw [hd] at hu; cases hu
          | ok v =>
            rw [hd] at hu
            simp only [Except.bind] at hu
            cases hx : render E rest ((args.drop i).drop (takes k)) with
            | error e => rw [hx] at hu; cases hu
            | ok v' =>
              rw [hx] at hu
              simp only [Except.ok.injEq] at hu
              subst hu
              obtain ⟨s1, j, a1, b1, c1⟩ := conversion_inv hm hA hn h (modsDone hms) hd
                (by simp only [List.length_append] at hl ⊢; omega) d
              rw [List.drop_drop, ← c1] at hx
              have hlen : rest.length < N := by
                have := (List.dropWhile_suffix isMod (l := r)).length_le
                rw [hrest] at this
                simp at this hr
                omega
              have el : (pre ++ 37#8 :: r.takeWhile isMod ++ k :: rest) = pre ++ 37#8 :: r := by
                rw [hrest] at hsp
                conv => rhs; rw [← hsp]
                simp
              obtain ⟨s2, a2, b2⟩ := ih rest.length hlen rest rfl
                (pre ++ 37#8 :: (r.takeWhile isMod ++ [k])) (t ++ v) v' s1 j
                (by rw [← el]; simp) b1 hx (by simpa using hl)
              refine ⟨s2, ?_, by simpa using b2⟩
              rw [hgo _ hrest]
              have hbk := byteAt_next (c := k) (r := rest) (nc := nc)
                (pre := pre ++ 37#8 :: r.takeWhile isMod) h
                (by rw [ho, el]) hne
              rw [el] at hbk
              show sprintfLoop E _ out max fo _ A (rest.length + 1) _ i s = _
              conv => lhs; unfold sprintfLoop
              rw [hbk]
              have hk : modifier k (applyMods (r.takeWhile isMod) { inside := true }) = none := by
                have := modifier_isMod k (applyMods (r.takeWhile isMod) { inside := true })
                have hnk : isMod k = false := by
                  have := List.head?_dropWhile_not isMod r
                  rw [hrest] at this
                  simpa using this
                rw [hnk] at this
                simpa using this
              simp only [res_bind, (modsDone hms).inside, Bool.true_eq_false, if_false, hk, a1]
              rw [a2]
              simp
      · rw [render_char hc] at hu
        cases hx : render E r (args.drop i) with
        | error e => rw [hx] at hu; cases hu
        | ok v =>
          rw [hx] at hu
          simp only [Except.bind, Except.ok.injEq] at hu
          subst hu
          obtain ⟨s1, a1, b1⟩ := addChar_inv (c := c) hm h (by
            simp only [List.length_append, List.length_cons] at hl ⊢; simp; omega)
          obtain ⟨s2, a2, b2⟩ := ih r.length (by simp at hr; omega) r rfl (pre ++ [c]) (t ++ [c]) v s1 i
            (by simp) b1 hx (by simpa using hl)
          refine ⟨s2, ?_, by simpa using b2⟩
          show sprintfLoop E _ out max fo _ A (r.length + 1) _ i s = _
          conv => lhs; unfold sprintfLoop
          rw [hb]
          simp only [res_bind, if_true, ne_eq, hc, not_false_eq_true, a1]
          rw [a2]
          simp

/-- **C22.**  `wr_sprintfEx` on a buffer of at least `max` bytes: it returns the length of the text
the format stands for, whatever `max` is; the first `max` bytes of the text are in the buffer, and
every other byte of the buffer, every value and every other object is as before. -/
theorem C22_buffer_partial (hm : max ≤ old.length) (hA : FArgs σ out K A.ab args)
    (hn : A.argn = args.length) {fo : Nat} {fmt : List Byte} {nc : Bool}
    (ho : σ.obj fo = .chars fmt nc) (hne : out ≠ .obj fo) {tmp : List Byte}
    (hold : outBytes out ⟨σ, tmp, 0⟩ = some old) {u : List Byte} (hu : render E fmt args = .ok u)
    (hl : u.length < 2 ^ 32) (d : Nat) :
    ∃ s, sprintfEx E (d + K + 1) out max fo fmt.length A σ tmp = .ok (s, u.length) ∧
      outBytes out s = some (u.take max ++ old.drop (min max u.length)) ∧
      (∀ a, a.real = true → s.mem.cell a = σ.cell a) ∧
      (∀ o, out ≠ .obj o → s.mem.obj o = σ.obj o) ∧
      (∀ o bs nc, σ.obj o = .chars bs nc → ∃ bs', s.mem.obj o = .chars bs' nc) ∧
      s.mem.next = σ.next ∧ s.mem.rawMem = σ.rawMem := by
  have h0 : Inv σ old out max [] ⟨σ, tmp, 0⟩ :=
    ⟨rfl, by rw [hold]; simp [overlay], fun _ _ => rfl, fun _ _ => rfl, fun _ bs _ h => ⟨bs, h⟩, rfl, rfl⟩
  obtain ⟨s, h1, h2⟩ := loop_inv hm hA hn ho hne d fmt.length fmt rfl [] [] u _ 0 rfl h0 hu hl
  exact ⟨s, h1, h2.buf, h2.cell, h2.obj, h2.ctx, h2.next, h2.raw⟩

end Wrench.StrLib
