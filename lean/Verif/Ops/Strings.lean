import Verif.Ops.Assign

/-
C49 (string equality), C50 (concatenation), C51 (unary operators).
-/
namespace Wrench.Ops

private theorem n1 {b : Addr} (hb : b.real = true) : b ≠ .t1 := by
  rintro rfl; simp [Addr.real] at hb

private theorem n2 {b : Addr} (hb : b.real = true) : b ≠ .t2 := by
  rintro rfl; simp [Addr.real] at hb

/-- The operand is a string with these bytes. -/
def IsStr (σ : St) (v : Val) (bs : List Byte) : Prop := ∃ o, v = .arr o ∧ σ.obj o = .chars bs false

theorem IsStr.num {σ : St} {v : Val} {bs : List Byte} (h : IsStr σ v bs) (E : Env) :
    v.num E σ = .int (wrHash bs) := by
  obtain ⟨o, rfl, ho⟩ := h
  simp [Val.num, getHash, ho]

/-- C49: comparing two strings with `==` compares their 32-bit hashes: it never changes
anything, and equal strings always compare equal.  Missing: different strings whose hashes
collide also compare equal (`C49_colliding_strings_equal`). -/
theorem C49_string_equality_partial (E : Env) {mb mc : Bool} {m n : Nat} {σ : St}
    {to from_ : Addr} {v w : Val} {bs cs : List Byte} (hto : to.real = true)
    (hfrom : from_.real = true) (hv : Reads σ mb m to v) (hw : Reads σ mc n from_ w)
    (hs : IsStr σ v bs) (ht : IsStr σ w cs) (d : Nat) :
    ∃ τ r, compare E .eq (d + (m + n) + 3) σ to from_ = .ok (τ, r) ∧ SameReal σ τ ∧
      (bs = cs → r = true) ∧ (r = true ↔ wrHash bs = wrHash cs) := by
  obtain ⟨τ, h1, h2⟩ := C13_comparison_partial E .eq hto hfrom hv hw (.inl rfl) d
  have key : cmpSpec E .eq (v.num E σ) (w.num E σ) = true ↔ wrHash bs = wrHash cs := by
    rw [hs.num, ht.num]
    simp [cmpSpec, BitVec.toInt_inj]
  exact ⟨τ, _, h1, h2, fun h => key.2 (by rw [h]), key⟩

def str (s : String) : List Byte := s.toList.map fun c => BitVec.ofNat 8 c.toNat

/-- Two strings in variables. -/
def demoStr (a b : List Byte) : St := demo
  (fun | .cell 0 => .ref (.cell 10) | .cell 10 => .arr 0 | .cell 1 => .ref (.cell 11)
       | .cell 11 => .arr 1 | .cell 3 => .mem (.cell 12) 0 | .cell 12 => .arr 2
       | .elem 2 0 => .arr 0 | .cell 4 => .int 5 | .cell 5 => .float 0x3FC00000#32 | _ => .other)
  (fun | 0 => .chars a false | 1 => .chars b false | 2 => .vals 1 | _ => .other)

/-- C49 fails: "costarring" == "liquid". -/
theorem C49_colliding_strings_equal (E : Env) :
    ∃ τ, compare E .eq 5 (demoStr (str "costarring") (str "liquid")) (.cell 0) (.cell 1)
      = .ok (τ, true) := by
  obtain ⟨τ, r, h1, -, -, h2⟩ := C49_string_equality_partial E (mb := false) (mc := false)
    (σ := demoStr (str "costarring") (str "liquid")) (to := .cell 0) (from_ := .cell 1) rfl rfl
    (.ref (r := .cell 10) rfl rfl (.here (a := .cell 10) rfl))
    (.ref (r := .cell 11) rfl rfl (.here (a := .cell 11) rfl))
    ⟨0, rfl, rfl⟩ ⟨1, rfl, rfl⟩ 0 (m := 1) (n := 1)
  have : r = true := h2.2 (by decide +kernel)
  exact ⟨τ, this ▸ h1⟩

/-! ### C50: concatenation -/

/-- Operand forms `wr_AdditionBinary` concatenates: two strings in any form, or a string
that is not a container element together with an integer in any form. -/
def CatForm (mb mc : Bool) (v w : Val) : Prop :=
  ((∃ o, v = .arr o) ∧ (∃ o, w = .arr o)) ∨
  ((∃ o, v = .arr o) ∧ mb = false ∧ ∃ x, w = .int x) ∨
  ((∃ x, v = .int x) ∧ mc = false ∧ ∃ o, w = .arr o)

private theorem plain_of_no_members {σ : St} {k : Nat} {a : Addr} {v : Val}
    (h : Reads σ false k a v) (hty : (σ.cell a).ty = .E) : σ.cell a = v := by
  cases h with
  | here => rfl
  | ref h1 => simp [h1, Val.ty] at hty
  | velem h0 => cases h0
  | celem h0 => cases h0
  | relem h0 => cases h0
  | helem h0 => cases h0

private theorem not_member_plain {v : Val} (h : v.plain = true) : isMember v = false := by
  cases v <;> simp_all [Val.plain, isMember]

/-- A table that sends a string operand to `wr_concatStringCheck`. -/
structure CatRouted (T : Ty → Ty → Entry Unit) : Prop where
  ir : T .I .R = .refR
  ie : T .I .E = .catR
  ri : T .R .I = .refL
  rf : T .R .F = .refL
  rr : T .R .R = .refLR
  re : T .R .E = .refL
  ei : T .E .I = .catL
  er : T .E .R = .refR
  ee : T .E .E = .catLR

theorem disp_cat (E : Env) (tgt : Addr) {T : Ty → Ty → Entry Unit} (hT : CatRouted T)
    {mb mc : Bool} :
    ∀ N {k m : Nat} {σ : St} {to from_ : Addr} {v w : Val}, k + m ≤ N →
      to.real = true → from_.real = true → Reads σ mb k to v → Reads σ mc m from_ w →
      CatForm mb mc v w → ∀ n, ∃ τ a b, SameReal σ τ ∧ τ.cell a = v ∧ τ.cell b = w ∧
        ∀ r, catCheck E tgt τ a b = some r →
          disp E (T) (catCheck E tgt) () (n + N + 3) σ to from_ = .ok r := by
  have enter : ∀ (f : Nat) (τ : St) (a b : Addr) (v w : Val) r, τ.cell a = v → τ.cell b = w →
      CatForm mb mc v w → catCheck E tgt τ a b = some r →
      disp E (T) (catCheck E tgt) () (f + 1) τ a b = .ok r := by
    intro f τ a b v w r ha hb hc hr
    rw [disp]
    rcases hc with ⟨⟨o, rfl⟩, o', rfl⟩ | ⟨⟨o, rfl⟩, -, x, rfl⟩ | ⟨⟨x, rfl⟩, -, o, rfl⟩
    all_goals simp only [ha, hb, Val.ty, hT.ie, hT.ei, hT.ee, isMember, Bool.or_self,
      Bool.false_eq_true, if_false, hr]
  intro N
  induction N using Nat.strongRecOn with
  | _ N ih =>
  intro k m σ to from_ v w hN hto hfrom hv hw hc n
  have rec2 : ∀ {k' m' : Nat} {a b : Addr}, k' + m' < N → a.real = true → b.real = true →
      Reads σ mb k' a v → Reads σ mc m' b w →
      ∃ τ a' b', SameReal σ τ ∧ τ.cell a' = v ∧ τ.cell b' = w ∧
        ∀ r, catCheck E tgt τ a' b' = some r →
          disp E (T) (catCheck E tgt) () (n + N + 2) σ a b = .ok r := by
    intro k' m' a b hlt ha hb hva hwb
    have := ih (N - 1) (by omega) (by omega) ha hb hva hwb hc n
    rwa [show n + (N - 1) + 3 = n + N + 2 by omega] at this
  have snd_deref : ∀ {a : Addr} {x : Val} {j : Nat} {mb : Bool} {ρ : St}, Reads ρ mb j a x →
      j ≤ N → ∃ τ l, deref (n + N + 2) ρ a = .ok (τ, l) ∧ τ.cell l = x ∧ SameReal ρ τ ∧
        (∀ x, x ≠ .t2 → τ.cell x = ρ.cell x) ∧ (l = a ∨ l = .t2 ∨ l.real = true) := by
    intro a x j mb ρ h hj
    have := deref_reads h (n + N + 1 - j)
    rwa [show n + N + 1 - j + j + 1 = n + N + 2 by omega] at this
  show ∃ τ a b, _ ∧ _ ∧ _ ∧ ∀ r, _ → disp E (T) _ _ (n + N + 2 + 1) σ to from_ = _
  rcases ty_cases (σ.cell to) with ⟨hn, hty⟩ | ⟨r, hr, hty⟩ | ⟨hty, hn⟩
  · have hv' := reads_num hv hn
    -- `to` is an integer, `from_` a string reached without container members
    obtain ⟨⟨x, hx⟩, hmc, o, ho⟩ : (∃ x, v = .int x) ∧ mc = false ∧ ∃ o, w = .arr o := by
      rcases hc with ⟨⟨o, h⟩, -⟩ | ⟨⟨o, h⟩, -⟩ | h
      · rw [← hv', h] at hn; simp [Val.isNum] at hn
      · rw [← hv', h] at hn; simp [Val.isNum] at hn
      · exact h
    subst hmc
    rcases ty_cases (σ.cell from_) with ⟨hn2, hty2⟩ | ⟨r2, hr2, hty2⟩ | ⟨hty2, hn2⟩
    · rw [← reads_num hw hn2, ho] at hn2; simp [Val.isNum] at hn2
    · obtain ⟨j, rfl, hreal, hread⟩ := reads_ref hw hr2
      obtain ⟨τ, a, b, h1, h2, h3, h4⟩ := rec2 (by omega) hto hreal hv hread
      refine ⟨τ, a, b, h1, h2, h3, fun r hr => ?_⟩
      rw [← h4 r hr, disp]
      have : σ.cell to = .int x := by rw [← hv', hx]
      simp only [this, hr2, Val.ty, hT.ir, hT.ri, hT.rf, hT.rr, hT.re, hT.er]
    · exact ⟨σ, to, from_, .refl σ, hv'.symm, plain_of_no_members hw hty2, fun r hr =>
        enter _ _ _ _ _ _ r hv'.symm (plain_of_no_members hw hty2) hc hr⟩
  · obtain ⟨j, rfl, hreal, hread⟩ := reads_ref hv hr
    rcases ty_cases (σ.cell from_) with ⟨hn2, hty2⟩ | ⟨r2, hr2, hty2⟩ | ⟨hty2, hn2⟩
    · obtain ⟨τ, a, b, h1, h2, h3, h4⟩ := rec2 (by omega) hreal hfrom hread hw
      refine ⟨τ, a, b, h1, h2, h3, fun r' hr' => ?_⟩
      rw [← h4 r' hr', disp]
      rcases hty2 with hty2 | hty2
      · simp only [hr, ty_ref, hty2, hT.ir, hT.ri, hT.rf, hT.rr, hT.re, hT.er]
      · simp only [hr, ty_ref, hty2, hT.ir, hT.ri, hT.rf, hT.rr, hT.re, hT.er]
    · obtain ⟨j2, rfl, hreal2, hread2⟩ := reads_ref hw hr2
      obtain ⟨τ, a, b, h1, h2, h3, h4⟩ := rec2 (by omega) hreal hreal2 hread hread2
      refine ⟨τ, a, b, h1, h2, h3, fun r' hr' => ?_⟩
      rw [← h4 r' hr', disp]
      simp only [hr, hr2, ty_ref, hT.ir, hT.ri, hT.rf, hT.rr, hT.re, hT.er]
    · obtain ⟨τ, a, b, h1, h2, h3, h4⟩ := rec2 (by omega) hreal hfrom hread hw
      refine ⟨τ, a, b, h1, h2, h3, fun r' hr' => ?_⟩
      rw [← h4 r' hr', disp]
      simp only [hr, ty_ref, hty2, hT.ir, hT.ri, hT.rf, hT.rr, hT.re, hT.er]
  · rcases ty_cases (σ.cell from_) with ⟨hn2, hty2⟩ | ⟨r2, hr2, hty2⟩ | ⟨hty2, hn2⟩
    · have hw' := reads_num hw hn2
      have hmb : mb = false ∨ ∃ x, v = .int x ∧ ∃ o, w = .arr o := by
        rcases hc with ⟨-, o, h⟩ | ⟨-, h, -⟩ | ⟨⟨x, h⟩, -, h'⟩
        · rw [← hw', h] at hn2; simp [Val.isNum] at hn2
        · exact .inl h
        · exact .inr ⟨x, h, h'⟩
      rcases hmb with rfl | ⟨-, -, o, h⟩
      · exact ⟨σ, to, from_, .refl σ, plain_of_no_members hv hty, hw'.symm, fun r hr =>
          enter _ _ _ _ _ _ r (plain_of_no_members hv hty) hw'.symm hc hr⟩
      · rw [← hw', h] at hn2; simp [Val.isNum] at hn2
    · obtain ⟨j, rfl, hreal, hread⟩ := reads_ref hw hr2
      obtain ⟨τ, a, b, h1, h2, h3, h4⟩ := rec2 (by omega) hto hreal hv hread
      refine ⟨τ, a, b, h1, h2, h3, fun r hr => ?_⟩
      rw [← h4 r hr, disp]
      simp only [hr2, ty_ref, hty, hT.ir, hT.ri, hT.rf, hT.rr, hT.re, hT.er]
    · by_cases hm : (isMember (σ.cell to) || isMember (σ.cell from_)) = true
      · obtain ⟨τ, l, h1, h2, h3, h4, -⟩ := snd_deref hv (by omega)
        have hs : SameReal σ (τ.set (.loc (n + N + 2)) (τ.cell l)) :=
          h3.trans (sameReal_set _ _ rfl)
        obtain ⟨τ', l', g1, g2, g3, g4, -⟩ := snd_deref (hw.same hs (hs.cell _ hfrom)) (by omega)
        have hl : τ'.cell (.loc (n + N + 2)) = v := by
          rw [g4 _ (by simp), St.set_same, h2]
        refine ⟨τ', .loc (n + N + 2), l', hs.trans g3, hl, g2, fun r hr => ?_⟩
        rw [disp]
        simp only [hty, hty2, hT.ee, hm, if_true, h1, res_bind_ok, g1]
        exact enter _ _ _ _ _ _ r hl g2 hc hr
      · have hm' : isMember (σ.cell to) = false ∧ isMember (σ.cell from_) = false := by
          simpa using hm
        have pl : ∀ {mb : Bool} {j : Nat} {a : Addr} {x : Val}, Reads σ mb j a x →
            (σ.cell a).ty = .E → isMember (σ.cell a) = false → σ.cell a = x := by
          intro mb j a x h ht hm
          cases h with
          | here => rfl
          | ref h1 => simp [h1, Val.ty] at ht
          | velem h0 h1 => simp [h1, isMember] at hm
          | celem h0 h1 => simp [h1, isMember] at hm
          | relem h0 h1 => simp [h1, isMember] at hm
          | helem h0 h1 => simp [h1, isMember] at hm
        exact ⟨σ, to, from_, .refl σ, pl hv hty hm'.1, pl hw hty2 hm'.2, fun r hr =>
          enter _ _ _ _ _ _ r (pl hv hty hm'.1) (pl hw hty2 hm'.2) hc hr⟩

/-- The target holds a new string object with these bytes; nothing else changed. -/
structure NewStr (σ τ : St) (tgt : Addr) (bs : List Byte) : Prop where
  here : τ.cell tgt = .arr σ.next
  bytes : τ.obj σ.next = .chars bs false
  cell : ∀ a, a.real = true → a ≠ tgt → τ.cell a = σ.cell a
  obj : ∀ o, o ≠ σ.next → τ.obj o = σ.obj o
  next : τ.next = σ.next + 1
  raw : τ.rawMem = σ.rawMem

/-- The bytes an operand contributes to a concatenation: its own bytes for a string, the
rendering of an integer otherwise. -/
inductive CatBytes (E : Env) (σ : St) : Val → List Byte → Prop where
  | str {v bs} : IsStr σ v bs → CatBytes E σ v bs
  | int {x} : CatBytes E σ (.int x) (E.asStr σ.mem σ.obj (.int x))

private theorem newStr_of (σ τ : St) (h : SameReal σ τ) (tgt : Addr) (bs : List Byte) :
    NewStr σ (({ τ.setObj τ.next (.chars bs false) with next := τ.next + 1 } : St).set tgt
      (.arr τ.next)) tgt bs := by
  refine ⟨?_, ?_, ?_, ?_, ?_, ?_⟩
  · rw [St.set_same, h.next]
  · simp [St.setObj, h.next]
  · intro a ha hne
    rw [St.set_ne _ _ hne]
    exact h.cell a ha
  · intro o ho
    simp [St.setObj, h.next, ho, h.obj]
  · simp [h.next]
  · exact h.raw

/-- A table that routes strings to the concatenation builds the concatenation. -/
theorem cat_run (E : Env) {T : Ty → Ty → Entry Unit} (hT : CatRouted T) {mb mc : Bool}
    {m n : Nat} {σ : St}
    {to from_ tgt : Addr} {v w : Val} {bs cs : List Byte} (hto : to.real = true)
    (hfrom : from_.real = true) (hv : Reads σ mb m to v) (hw : Reads σ mc n from_ w)
    (hf : CatForm mb mc v w) (hs : CatBytes E σ v bs) (ht : CatBytes E σ w cs) (d : Nat) :
    ∃ τ, disp E T (catCheck E tgt) () (d + (m + n) + 3) σ to from_ = .ok (τ, ()) ∧
      NewStr σ τ tgt (bs ++ cs) := by
  obtain ⟨τ, a, b, h1, h2, h3, h4⟩ := disp_cat E tgt (T := T) hT (m + n) (Nat.le_refl _) hto hfrom hv hw hf d
  have key : catCheck E tgt τ a b = some ((({ τ.setObj τ.next (.chars (bs ++ cs) false) with
      next := τ.next + 1 } : St).set tgt (.arr τ.next)), ()) := by
    unfold catCheck
    cases hs with
    | str hs =>
      obtain ⟨o, rfl, ho⟩ := hs
      cases ht with
      | str ht =>
        obtain ⟨o', rfl, ho'⟩ := ht
        simp [h2, h3, h1.obj, ho, ho']
      | int => simp [h2, h3, h1.obj, ho, h1.mem]
    | int =>
      cases ht with
      | str ht =>
        obtain ⟨o', rfl, ho'⟩ := ht
        simp [h2, h3, h1.obj, ho', h1.mem]
      | int => rcases hf with ⟨⟨o, h⟩, -⟩ | ⟨⟨o, h⟩, -⟩ | ⟨-, -, o, h⟩ <;> cases h
  refine ⟨_, ?_, newStr_of σ τ h1 tgt (bs ++ cs)⟩
  exact h4 _ key

/-- C50: `+` with a string operand builds a new string made of the bytes of the left
operand followed by those of the right one; the operands and everything else are
unchanged.  Missing: an element of a container that is a string added to an integer, and
a string added to a float, are not concatenated but added as hash values
(`C50_element_string_plus_int`, `C50_string_plus_float`). -/
theorem C50_concatenation_partial (E : Env) {mb mc : Bool} {m n : Nat} {σ : St}
    {to from_ tgt : Addr} {v w : Val} {bs cs : List Byte} (hto : to.real = true)
    (hfrom : from_.real = true) (hv : Reads σ mb m to v) (hw : Reads σ mc n from_ w)
    (hf : CatForm mb mc v w) (hs : CatBytes E σ v bs) (ht : CatBytes E σ w cs) (d : Nat) :
    ∃ τ, binary E .add (d + (m + n) + 3) σ to from_ tgt = .ok τ ∧ NewStr σ τ tgt (bs ++ cs) := by
  obtain ⟨τ, h1, h2⟩ := cat_run E (T := binTable E tgt .add) ⟨rfl, rfl, rfl, rfl, rfl, rfl, rfl, rfl, rfl⟩
    hto hfrom hv hw hf hs ht d
  exact ⟨τ, by unfold binary; rw [h1]; rfl, h2⟩

/-- `s1 + s2` for two string variables, and `a[0] + s2` with a string element. -/
example (E : Env) (d : Nat) : let σ := demoStr (str "ab") (str "cd")
    (∃ τ, binary E .add (d + (1 + 1) + 3) σ (.cell 0) (.cell 1) (.cell 1) = .ok τ ∧
      NewStr σ τ (.cell 1) (str "abcd")) ∧
    (∃ τ, binary E .add (d + (1 + 1) + 3) σ (.cell 3) (.cell 1) (.cell 1) = .ok τ ∧
      NewStr σ τ (.cell 1) (str "abcd")) :=
  have h0 : Reads (demoStr (str "ab") (str "cd")) false 1 (.cell 0) (.arr 0) :=
    .ref (r := .cell 10) rfl rfl (.here (a := .cell 10) rfl)
  have h1 : Reads (demoStr (str "ab") (str "cd")) false 1 (.cell 1) (.arr 1) :=
    .ref (r := .cell 11) rfl rfl (.here (a := .cell 11) rfl)
  have h3 : Reads (demoStr (str "ab") (str "cd")) true 1 (.cell 3) (.arr 0) :=
    .velem (b := .cell 12) (s := 0) (o := 2) (n := 1) rfl rfl rfl rfl rfl (by decide) rfl
  ⟨C50_concatenation_partial E rfl rfl h0 h1 (.inl ⟨⟨0, rfl⟩, 1, rfl⟩) (.str ⟨0, rfl, rfl⟩)
      (.str ⟨1, rfl, rfl⟩) d,
   C50_concatenation_partial E rfl rfl h3 h1 (.inl ⟨⟨0, rfl⟩, 1, rfl⟩) (.str ⟨0, rfl, rfl⟩)
      (.str ⟨1, rfl, rfl⟩) d⟩

/-- C50 fails: with `a[0]` the string "ab", `a[0] + 5` is the integer `hash("ab") + 5`. -/
theorem C50_element_string_plus_int :
    ∃ τ, binary demoEnv .add 9 (demoStr (str "ab") []) (.cell 3) (.cell 4) (.cell 4) = .ok τ ∧
      τ.cell (.cell 4) = .int (wrHash (str "ab") + 5) :=
  ⟨_, rfl, rfl⟩

/-- C50 fails: `"ab" + 1.5` is a float computed from the hash. -/
theorem C50_string_plus_float (E : Env) :
    ∃ τ, binary E .add 9 (demoStr (str "ab") []) (.cell 0) (.cell 5) (.cell 5) = .ok τ ∧
      τ.cell (.cell 5) = .float (E.fadd (E.ofInt (wrHash (str "ab"))) 0x3FC00000#32) :=
  ⟨_, rfl, rfl⟩

/-! ### C51: unary operators -/

private theorem num_cases {v : Val} (h : v.isNum = true) : (∃ w, v = .int w) ∨ ∃ w, v = .float w := by
  cases v <;> simp_all [Val.isNum]

/-- C51: `-x` of any operand that designates an integer is its negation wrapped to 32 bits,
and nothing but the target changes. -/
theorem C51_negate (E : Env) {mb : Bool} {a : Word32} : ∀ {m : Nat} {σ : St} {x tgt : Addr},
    Reads σ mb m x (.int a) → ∀ d, ∃ τ w, negate E (d + m + 2) σ x tgt = .ok τ ∧
      w.toInt = (-a.toInt).bmod (2 ^ 32) ∧ OnlySet σ τ tgt (.int w) := by
  have hneg : (0 - a : Word32).toInt = (-a.toInt).bmod (2 ^ 32) := by
    rw [BitVec.toInt_sub]; simp
  intro m
  induction m with
  | zero =>
    intro σ x tgt h d
    have hc : σ.cell x = .int a := by
      generalize hy : (Val.int a) = y at h
      cases h with
      | here => rfl
    refine ⟨_, 0 - a, ?_, hneg, onlySet_set ..⟩
    rw [negate, hc]
  | succ m ih =>
    intro σ x tgt h d
    show ∃ τ w, negate E (d + m + 2 + 1) σ x tgt = .ok τ ∧ _
    rcases ty_cases (σ.cell x) with ⟨hn, -⟩ | ⟨r, hr, -⟩ | ⟨hty, hn⟩
    · have hc := reads_num h hn
      refine ⟨_, 0 - a, ?_, hneg, onlySet_set ..⟩
      rw [negate, ← hc]
    · obtain ⟨j, hj, hreal, hread⟩ := reads_ref h hr
      cases hj
      obtain ⟨τ, w, h1, h2, h3⟩ := ih (tgt := tgt) hread d
      exact ⟨τ, w, by rw [negate, hr]; exact h1, h2, h3⟩
    · obtain ⟨τ, h1, h2, h3, h4⟩ := single_reads E h d
      rw [show d + (m + 1) + 1 = d + m + 2 by omega] at h1
      refine ⟨τ.set tgt (.int (0 - a)), 0 - a, ?_, hneg, h3.onlySet (onlySet_set ..)⟩
      have hst : negate E (d + m + 2) τ .t1 tgt = .ok (τ.set tgt (.int (0 - a))) := by
        rw [negate, h2]
        rfl
      rw [negate]
      generalize σ.cell x = c at *
      cases c <;> simp_all [Val.ty]

/-- C51: `!x` of any operand that designates a number tells whether its payload is zero,
and changes nothing. -/
theorem C51_logical_not (E : Env) {mb : Bool} {v : Val} : ∀ {m : Nat} {σ : St} {x : Addr},
    Reads σ mb m x v → ∀ d, ∃ τ, logicalNot E (d + m + 2) σ x
      = .ok (τ, decide ((v.num E σ).bits = .ok 0)) ∧ SameReal σ τ := by
  have base : ∀ {σ : St} {x : Addr} {y : Val} (f : Nat), σ.cell x = y → y.isNum = true →
      logicalNot E (f + 1) σ x = .ok (σ, decide (y.bits = .ok 0)) := by
    intro σ x y f hx hy
    rw [logicalNot, hx]
    rcases num_cases hy with ⟨w, rfl⟩ | ⟨w, rfl⟩ <;> simp [Val.bits] <;> rfl
  intro m
  induction m with
  | zero =>
    intro σ x h d
    by_cases hn : (σ.cell x).isNum = true
    · have hc := reads_num h hn
      refine ⟨σ, ?_, .refl σ⟩
      rw [base (d + 0 + 1) hc.symm (hc ▸ hn), num_of_isNum E σ (hc ▸ hn)]
    · obtain ⟨τ, h1, h2, h3, h4⟩ := single_reads E h d
      refine ⟨τ, ?_, h3⟩
      have hst := base (d + 0) h2 (num_isNum E σ v)
      show logicalNot E (d + 0 + 1 + 1) σ x = _
      rw [logicalNot]
      cases h with
      | here hp =>
        generalize hc : σ.cell x = c at *
        cases c <;> simp_all [Val.isNum, Val.plain]
  | succ m ih =>
    intro σ x h d
    show ∃ τ, logicalNot E (d + m + 2 + 1) σ x = _ ∧ _
    rcases ty_cases (σ.cell x) with ⟨hn, -⟩ | ⟨r, hr, -⟩ | ⟨hty, hn⟩
    · have hc := reads_num h hn
      refine ⟨σ, ?_, .refl σ⟩
      rw [base (d + m + 2) hc.symm (hc ▸ hn), num_of_isNum E σ (hc ▸ hn)]
    · obtain ⟨j, hj, hreal, hread⟩ := reads_ref h hr
      cases hj
      obtain ⟨τ, h1, h2⟩ := ih hread d
      exact ⟨τ, by rw [logicalNot, hr]; exact h1, h2⟩
    · obtain ⟨τ, h1, h2, h3, h4⟩ := single_reads E h d
      rw [show d + (m + 1) + 1 = d + m + 2 by omega] at h1
      refine ⟨τ, ?_, h3⟩
      have hst := base (d + m + 1) h2 (num_isNum E σ v)
      rw [logicalNot]
      generalize σ.cell x = c at *
      cases c <;> simp_all [Val.ty]

/-- C51: `++x` / `--x` on an integer variable: adds 1 / subtracts 1 and yields the new
value.  Missing: the largest / smallest integer (`C51_increment_overflow`), floats; container
elements are in BumpElem.lean. -/
theorem C51_increment_partial (E : Env) {σ : St} {x t : Addr} {a dlt : Word32}
    (hd : dlt = 1 ∨ dlt = 0xFFFFFFFF#32) (hx : σ.cell x = .ref t) (ht : σ.cell t = .int a)
    (hr : -2147483648 ≤ a.toInt + dlt.toInt ∧ a.toInt + dlt.toInt ≤ 2147483647) (f : Nat) :
    ∃ τ w, preBump E dlt (f + 2) σ x = .ok τ ∧ w.toInt = a.toInt + dlt.toInt ∧
      τ.cell t = .int w ∧ τ.cell x = .int w ∧
      ∀ c, c ≠ t → c ≠ x → τ.cell c = σ.cell c := by
  have hxt : x ≠ t := by rintro rfl; rw [hx] at ht; cases ht
  have hb : bump dlt a = .ok (a + dlt) := by
    unfold bump
    rw [if_neg]
    rintro (⟨rfl, rfl⟩ | ⟨h, rfl⟩)
    · revert hr; decide
    · rcases hd with rfl | rfl
      · exact h rfl
      · revert hr; decide
  have hw : (a + dlt).toInt = a.toInt + dlt.toInt := by
    rw [BitVec.toInt_add]
    rw [Int.bmod_eq_of_le] <;> omega
  refine ⟨(σ.set t (.int (a + dlt))).set x (.int (a + dlt)), a + dlt, ?_, hw, ?_, ?_, ?_⟩
  · simp [preBump, hx, ht, hb, St.set_ne _ _ hxt]
  · rw [St.set_ne _ _ hxt.symm, St.set_same]
  · rw [St.set_same]
  · intro c h1 h2
    rw [St.set_ne _ _ h2, St.set_ne _ _ h1]

/-- C51 fails: incrementing the largest integer is undefined behaviour. -/
theorem C51_increment_overflow (E : Env) (σ : St) (x t : Addr) (hx : σ.cell x = .ref t)
    (ht : σ.cell t = .int 0x7FFFFFFF#32) (f : Nat) : preBump E 1 (f + 2) σ x = .ub := by
  simp [preBump, hx, ht, bump]

/-- C51: `x++` / `x--` on an integer variable yield the old value and bump the variable. -/
theorem C51_post_increment_partial (E : Env) {σ : St} {x t stack : Addr} {a dlt : Word32}
    (hd : dlt = 1 ∨ dlt = 0xFFFFFFFF#32) (hx : σ.cell x = .ref t) (ht : σ.cell t = .int a)
    (hst : stack ≠ t)
    (hr : -2147483648 ≤ a.toInt + dlt.toInt ∧ a.toInt + dlt.toInt ≤ 2147483647) (f : Nat) :
    ∃ τ w, postBump E dlt (f + 2) σ x stack = .ok τ ∧ w.toInt = a.toInt + dlt.toInt ∧
      τ.cell t = .int w ∧ τ.cell stack = .int a ∧
      ∀ c, c ≠ t → c ≠ stack → τ.cell c = σ.cell c := by
  have hb : bump dlt a = .ok (a + dlt) := by
    unfold bump
    rw [if_neg]
    rintro (⟨rfl, rfl⟩ | ⟨h, rfl⟩)
    · revert hr; decide
    · rcases hd with rfl | rfl
      · exact h rfl
      · revert hr; decide
  have hw : (a + dlt).toInt = a.toInt + dlt.toInt := by
    rw [BitVec.toInt_add]
    rw [Int.bmod_eq_of_le] <;> omega
  refine ⟨(σ.set t (.int (a + dlt))).set stack (.int a), a + dlt, ?_, hw, ?_, ?_, ?_⟩
  · simp [postBump, hx, ht, hb]
  · rw [St.set_ne _ _ hst.symm, St.set_same]
  · rw [St.set_same]
  · intro c h1 h2
    rw [St.set_ne _ _ h2, St.set_ne _ _ h1]

example : ∃ τ w, preBump demoEnv 0xFFFFFFFF#32 2 demoArr (.cell 0) = .ok τ ∧ w.toInt = 4 ∧
    τ.cell (.cell 10) = .int w ∧ τ.cell (.cell 0) = .int w ∧
    ∀ c, c ≠ .cell 10 → c ≠ .cell 0 → τ.cell c = demoArr.cell c :=
  C51_increment_partial demoEnv (a := 5) (.inr rfl) rfl rfl (by decide) 0

end Wrench.Ops
