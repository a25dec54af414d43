import Verif.Compact.Props
import Verif.Ops.Strings

/-
C64, continued: concatenation, compound assignment, increments; concrete cases and the
places where the two builds differ.
-/
namespace Wrench.Compact

open Wrench.Ops

private theorem n1 {b : Addr} (hb : b.real = true) : b ≠ .t1 := by
  rintro rfl; simp [Addr.real] at hb

private theorem n2 {b : Addr} (hb : b.real = true) : b ≠ .t2 := by
  rintro rfl; simp [Addr.real] at hb

private theorem nl {b : Addr} {j : Nat} (hb : b.real = true) : b ≠ .loc j := by
  rintro rfl; simp [Addr.real] at hb

/-- C64, concatenation: `+` of two strings, or of a string and an integer, in every form in
which the normal build concatenates (C50), builds the same new string in both builds. -/
theorem C64_concatenation (E : Env) {mb mc : Bool} {m n : Nat} {σ : St}
    {to from_ tgt : Addr} {v w : Val} {bs cs : List Byte} (hto : to.real = true)
    (hfrom : from_.real = true) (hv : Reads σ mb m to v) (hw : Reads σ mc n from_ w)
    (hf : CatForm mb mc v w) (hs : CatBytes E σ v bs) (ht : CatBytes E σ w cs) (d : Nat) :
    ∃ τ τ', binary E .add (d + (m + n) + 3) σ to from_ tgt = .ok τ ∧
      Ops.binary E .add (d + (m + n) + 3) σ to from_ tgt = .ok τ' ∧
      NewStr σ τ tgt (bs ++ cs) ∧ NewStr σ τ' tgt (bs ++ cs) := by
  obtain ⟨τ', g1, g2⟩ := C50_concatenation_partial E hto hfrom hv hw hf hs ht (tgt := tgt) d
  obtain ⟨τ, h1, h2⟩ := cat_run E (T := binTable E tgt .add)
    ⟨rfl, rfl, rfl, rfl, rfl, rfl, rfl, rfl, rfl⟩ hto hfrom hv hw hf hs ht (tgt := tgt) d
  refine ⟨τ, τ', ?_, g1, h2, g2⟩
  have : catFor E tgt .add = catCheck E tgt := by
    funext σ a b
    simp [catFor]
  unfold binary
  rw [this, h1]
  rfl

/-! ### Compound assignment -/

private theorem assign_leaf {E : Env} (hE : FloatFacts E) (op : BinOp) {σ : St} {a b : Addr}
    {v w x : Val} (ha : σ.cell a = v) (hb : σ.cell b = w) (hx : meaning E op v w = .ok x)
    (hf : fits op v w) (f : Nat) : funcAssign E op (f + 1) σ a b = .ok (σ.set a x) := by
  rw [funcAssign]
  by_cases hff : v.ty = .F ∨ w.ty = .F
  · have := call_float hE hx hff
    subst this
    cases v <;> cases w <;> first
      | (simp [meaning, Val.isNum] at hx; done)
      | (simp [Val.ty] at hff; done)
      | skip
    all_goals simp [ha, hb, Val.ty, Val.bits, toFloat]
  · cases v <;> cases w <;> first
      | (simp [meaning, Val.isNum] at hx; done)
      | (simp [Val.ty] at hff; done)
      | skip
    obtain ⟨r, hr, rfl⟩ := call_int E hx hf
    simp [ha, hb, Val.ty, Val.bits, hr]

/-- Number on the left, number or container member on the right. -/
private theorem assign_num {E : Env} (hE : FloatFacts E) (op : BinOp) {mc : Bool} {m : Nat}
    {σ : St} {a b : Addr} {v w x : Val} (ha : a.real = true) (hab : b ≠ a)
    (hv : σ.cell a = v) (hw : Reads σ mc m b w) (hwn : w.isNum = true)
    (hnr : ∀ r, σ.cell b ≠ .ref r) (hx : meaning E op v w = .ok x) (hm : fits op v w)
    (f : Nat) (hf : m ≤ f) :
    ∃ τ, funcAssign E op (f + 2) σ a b = .ok τ ∧ τ.cell a = x ∧
      (∀ c, c ≠ a → c ≠ b → c ≠ .t1 → c ≠ .t2 → τ.cell c = σ.cell c) ∧
      ((σ.cell b).ty = .E → τ.cell b = x) ∧ τ.obj = σ.obj ∧ τ.next = σ.next ∧
      τ.rawMem = σ.rawMem := by
  have hvn : v.isNum = true := by
    cases v <;> first | rfl | simp [meaning, Val.isNum] at hx
  rcases ty_cases (σ.cell b) with ⟨hn, hn'⟩ | ⟨r, hr, -⟩ | ⟨hty, -⟩
  · have h1 := assign_leaf hE op hv (reads_num hw hn).symm hx hm (f + 1)
    exact ⟨_, h1, St.set_same .., fun c h h' _ _ => St.set_ne _ _ h,
      fun he => by (rw [he] at hn'; rcases hn' with h | h <;> cases h), rfl, rfl, rfl⟩
  · exact absurd hr (hnr r)
  · have hs := single_reads E hw (f - m)
    rw [show f - m + m + 1 = f + 1 by omega] at hs
    obtain ⟨τ, h1, h2, h3, h4⟩ := hs
    have hva : τ.cell a = v := by rw [h4 a (n1 ha) (n2 ha), hv]
    rw [num_of_isNum E σ hwn] at h2
    have g1 := assign_leaf hE op hva h2 hx hm f
    have hnotarr : ∀ o, σ.cell a ≠ .arr o := by
      intro o ho
      rw [hv] at ho
      subst ho
      simp [Val.isNum] at hvn
    have hcat := catCheck_none E a σ a b hnotarr (not_arr_of_E hw hwn)
    have hres : funcAssign E op (f + 2) σ a b = .ok ((τ.set a x).set b x) := by
      rw [funcAssign]
      rcases ty_I_or_F hvn with ht | ht
      · simp only [hv, ht, hty, hcat, h1, res_bind_ok, g1, St.set_same, res_pure]
      · simp only [hv, ht, hty, hcat, h1, res_bind_ok, g1, St.set_same, res_pure]
    refine ⟨_, hres, ?_, ?_, fun _ => St.set_same .., h3.obj, h3.next, h3.raw⟩
    · rw [St.set_ne _ _ (Ne.symm hab), St.set_same]
    · intro c c1 c2 c3 c4
      rw [St.set_ne _ _ c2, St.set_ne _ _ c1, h4 c c3 c4]

/-- The compact build's `x op= e`: the statement of C14 for it. -/
theorem funcAssign_variable {E : Env} (hE : FloatFacts E) (op : BinOp) {mc : Bool} {m : Nat}
    {σ : St} {to from_ t : Addr} {v w x : Val}
    (hto : to.real = true) (hfrom : from_.real = true) (ht : t.real = true)
    (hft : from_ ≠ t) (hto_from : to ≠ from_)
    (hv0 : σ.cell to = .ref t) (hv : σ.cell t = v) (hw : Reads σ mc m from_ w)
    (hwn : w.isNum = true) (hone : ∀ r r', σ.cell from_ = .ref r → σ.cell r ≠ .ref r')
    (hx : meaning E op v w = .ok x) (hm : fits op v w) (d : Nat) :
    ∃ τ, funcAssign E op (d + m + 3) σ to from_ = .ok τ ∧ τ.cell t = x ∧ τ.cell from_ = x ∧
      Touched σ τ t from_ := by
  have hvn : v.isNum = true := by
    cases v <;> first | rfl | simp [meaning, Val.isNum] at hx
  have hto_t : to ≠ t := by
    rintro rfl
    rw [hv0] at hv
    simp [← hv, Val.isNum] at hvn
  by_cases hr : ∃ r, σ.cell from_ = .ref r
  · obtain ⟨r, hr⟩ := hr
    obtain ⟨j, rfl, hreal, hread⟩ := reads_ref hw hr
    let ρ := σ.set (.loc (d + j + 3)) (σ.cell r)
    have hρ : SameReal σ ρ := sameReal_set _ _ rfl
    have hloc : ρ.cell (.loc (d + j + 3)) = σ.cell r := St.set_same ..
    have hread' : Reads ρ mc j (.loc (d + j + 3)) w := by
      have h1 := hread.same hρ (hρ.cell _ hreal)
      have h2 : ρ.cell (.loc (d + j + 3)) = ρ.cell r := hloc.trans (hρ.cell _ hreal).symm
      cases h1 with
      | here h => rw [← h2]; exact .here (by rw [h2]; exact h)
      | ref h => exact absurd (by rw [← hρ.cell _ hreal]; exact h) (hone r _ hr)
      | velem h0 h => exact .velem h0 (h2.trans h) ‹_› ‹_› ‹_› ‹_› ‹_›
      | celem h0 h => exact .celem h0 (h2.trans h) ‹_› ‹_› ‹_› ‹_›
      | relem h0 h => exact .relem h0 (h2.trans h) ‹_› ‹_› ‹_›
      | helem h0 h => exact .helem h0 (h2.trans h) ‹_› ‹_›
    obtain ⟨τ, h1, h2, h3, hE', h4, h5, h6⟩ := assign_num hE op (a := t)
      (b := .loc (d + j + 3)) ht (nl ht).symm ((hρ.cell _ ht).trans hv) hread' hwn
      (fun r' h => hone r r' hr (hloc.symm.trans h)) hx hm (d + j + 1) (by omega)
    have hto' : τ.cell to = .ref t := by
      rw [h3 to hto_t (nl hto) (n1 hto) (n2 hto), hρ.cell _ hto, hv0]
    refine ⟨τ.set from_ (τ.cell t), ?_, ?_, ?_, ?_, h4.trans hρ.obj, h5.trans hρ.next,
      h6.trans hρ.raw⟩
    · show funcAssign E op (d + j + 3 + 1) σ to from_ = _
      rw [funcAssign]
      simp only [hv0, hr, ty_ref]
      rw [show funcAssign E op (d + j + 3)
        (σ.set (.loc (d + j + 3)) (σ.cell r)) t (.loc (d + j + 3)) = .ok τ from h1]
      simp only [res_bind_ok, hto', res_pure]
    · rw [St.set_ne _ _ hft.symm, h2]
    · rw [St.set_same, h2]
    · intro c hc h1 h2
      rw [St.set_ne _ _ h2, h3 c h1 (nl hc) (n1 hc) (n2 hc), hρ.cell _ hc]
  · have hnr : ∀ r, σ.cell from_ ≠ .ref r := fun r h => hr ⟨r, h⟩
    obtain ⟨τ, h1, h2, h3, hE', h4, h5, h6⟩ := assign_num hE op ht hft hv hw
      hwn hnr hx hm (d + m) (by omega)
    have hto' : τ.cell to = .ref t := by
      rw [h3 to hto_t hto_from (n1 hto) (n2 hto), hv0]
    have hcopy : ∀ c, c.real = true → c ≠ t → c ≠ from_ →
        (τ.set from_ (τ.cell t)).cell c = σ.cell c := by
      intro c hc c1 c2
      rw [St.set_ne _ _ c2, h3 c c1 c2 (n1 hc) (n2 hc)]
    rcases ty_cases (σ.cell from_) with ⟨-, hty⟩ | ⟨r, hr, -⟩ | ⟨hty, -⟩
    · refine ⟨τ.set from_ (τ.cell t), ?_, by rw [St.set_ne _ _ hft.symm, h2],
        by rw [St.set_same, h2], hcopy, h4, h5, h6⟩
      show funcAssign E op (d + m + 2 + 1) σ to from_ = _
      rw [funcAssign]
      rcases hty with hty | hty
      · simp only [hv0, ty_ref, hty, h1, res_bind_ok, hto', res_pure]
      · simp only [hv0, ty_ref, hty, h1, res_bind_ok, hto', res_pure]
    · exact absurd hr (hnr r)
    · refine ⟨τ, ?_, h2, hE' hty, fun c hc c1 c2 => h3 c c1 c2 (n1 hc) (n2 hc), h4, h5, h6⟩
      show funcAssign E op (d + m + 2 + 1) σ to from_ = _
      rw [funcAssign]
      simp only [hv0, ty_ref, hty, h1]

/-- C64, compound assignment: for a variable holding a number and an operand that is a
number, a variable or a container element, `x op= e` gives the same variable and the same
expression value in both builds.  Missing: what is missing from C14, a 32-bit overflow of
`+= -= *=`, and strings, where the compact build concatenates for every operator
(`C64_string_minus_assign`). -/
theorem C64_compound_partial {E : Env} (hE : FloatFacts E) (op : BinOp) {mc : Bool} {m : Nat}
    {σ : St} {to from_ t : Addr} {v w x : Val}
    (hto : to.real = true) (hfrom : from_.real = true) (ht : t.real = true)
    (hft : from_ ≠ t) (hto_from : to ≠ from_)
    (hv0 : σ.cell to = .ref t) (hv : σ.cell t = v) (hw : Reads σ mc m from_ w)
    (hwn : w.isNum = true) (hone : ∀ r r', σ.cell from_ = .ref r → σ.cell r ≠ .ref r')
    (hx : meaning E op v w = .ok x) (hm : fits op v w) (d : Nat) :
    ∃ τ τ', funcAssign E op (d + m + 3) σ to from_ = .ok τ ∧
      compound E op (d + m + 3) σ to from_ = .ok τ' ∧
      τ.cell t = x ∧ τ.cell from_ = x ∧ Touched σ τ t from_ ∧
      τ'.cell t = x ∧ τ'.cell from_ = x ∧ Touched σ τ' t from_ := by
  obtain ⟨τ, h1, h2, h3, h4⟩ := funcAssign_variable hE op hto hfrom ht hft hto_from hv0 hv hw hwn
    hone hx hm d
  obtain ⟨⟨τ', g1, g2, g3, g4⟩, -⟩ := C14_compound_assignment_partial E op hto hfrom ht hft
    hto_from hv0 hv hw hwn hone hx (by
      cases v <;> cases w <;> first | trivial | skip
      intro h
      subst h
      exact hm (by simp)) d
  exact ⟨τ, τ', h1, g1, h2, h3, h4, g2, g3, g4⟩

/-! ### Increments -/

/-- C64, `++x` and `--x` on a variable holding an int (within range) or a float: in both
builds the variable receives the same new value, and the stack slot designates it.
`scratch` is the unused stack slot the compact build puts its constant 1 in. -/
theorem C64_increment_partial {E : Env} (hE : FloatFacts E) {σ : St} {x t scratch : Addr}
    {v : Val} (up : Bool) (hx : σ.cell x = .ref t) (ht : σ.cell t = v) (hvn : v.isNum = true)
    (hxr : x.real = true) (htr : t.real = true) (hs : scratch ≠ x) (hst : scratch ≠ t)
    (hr : ∀ a, v = .int a → if up then a.toInt < 2147483647 else -2147483648 < a.toInt)
    (f : Nat) :
    ∃ τ τ' u, preBump E (if up then .add else .sub) (f + 2) σ x scratch = .ok τ ∧
      Ops.preBump E (if up then 1#32 else -1#32) (f + 2) σ x = .ok τ' ∧
      τ.cell t = u ∧ τ'.cell t = u ∧ τ.cell x = .ref t ∧ τ'.cell x = u ∧
      (∀ c, c ≠ t → c ≠ x → c ≠ scratch → τ.cell c = σ.cell c ∧ τ'.cell c = σ.cell c) := by
  have hxt : x ≠ t := by
    rintro rfl
    rw [hx] at ht
    simp [← ht, Val.isNum] at hvn
  have go : ∀ (op : BinOp) (d : Word32) (u : Val),
      meaning E op v (.int 1#32) = .ok u → fits op v (.int 1#32) →
      Ops.preBump E d (f + 1) σ t = .ok (σ.set t u) →
      ∃ τ τ', preBump E op (f + 2) σ x scratch = .ok τ ∧
        Ops.preBump E d (f + 2) σ x = .ok τ' ∧ τ.cell t = u ∧ τ'.cell t = u ∧
        τ.cell x = .ref t ∧ τ'.cell x = u ∧
        (∀ c, c ≠ t → c ≠ x → c ≠ scratch → τ.cell c = σ.cell c ∧ τ'.cell c = σ.cell c) := by
    intro op d u hm hf hb
    have h1 := assign_leaf hE op (σ := σ.set scratch (.int 1#32)) (a := t) (b := scratch)
      (v := v) (w := .int 1#32) (by rw [St.set_ne _ _ hst.symm, ht]) (St.set_same ..) hm hf f
    have h2 : ((σ.set scratch (.int 1#32)).set t u).cell x = .ref t := by
      rw [St.set_ne _ _ hxt, St.set_ne _ _ hs.symm, hx]
    refine ⟨((σ.set scratch (.int 1#32)).set t u).set scratch u, (σ.set t u).set x u, ?_, ?_,
      by rw [St.set_ne _ _ hst.symm, St.set_same], by rw [St.set_ne _ _ hxt.symm, St.set_same],
      by rw [St.set_ne _ _ hs.symm, h2], St.set_same .., ?_⟩
    · show funcAssign E op (f + 1 + 1) (σ.set scratch (.int 1#32)) x scratch = _
      rw [funcAssign]
      simp only [St.set_same, St.set_ne _ _ hs.symm, hx, Val.ty, h1, res_bind_ok, h2, res_pure]
    · rw [Ops.preBump]
      simp only [hx, hb, res_bind_ok, St.set_ne _ _ hxt, St.set_same, res_pure]
    · intro c c1 c2 c3
      exact ⟨by rw [St.set_ne _ _ c3, St.set_ne _ _ c1, St.set_ne _ _ c3],
        by rw [St.set_ne _ _ c2, St.set_ne _ _ c1]⟩
  cases v with
  | int a =>
    have h := hr a rfl
    cases up
    · have hb : bump (-1#32) a = .ok (a + -1#32) := by
        unfold bump
        rw [if_neg]
        rintro (⟨h', -⟩ | ⟨-, rfl⟩)
        · cases h'
        · revert h; decide
      obtain ⟨τ, τ', h⟩ := go .sub (-1#32) (.int (a - 1#32)) rfl (by
        intro _
        simp only [exactInt]
        have : (1#32).toInt = 1 := by decide
        have := a.toInt_lt
        simp at h
        omega) (by
        rw [Ops.preBump]
        simp only [ht, hb, res_bind_ok, res_pure, BitVec.sub_eq_add_neg])
      exact ⟨τ, τ', _, h⟩
    · have hb : bump 1#32 a = .ok (a + 1#32) := by
        unfold bump
        rw [if_neg]
        rintro (⟨-, rfl⟩ | ⟨h', -⟩)
        · revert h; decide
        · exact h' rfl
      obtain ⟨τ, τ', h⟩ := go .add 1#32 (.int (a + 1#32)) rfl (by
        intro _
        simp only [exactInt]
        have : (1#32).toInt = 1 := by decide
        have := a.le_toInt
        simp at h
        omega) (by
        rw [Ops.preBump]
        simp only [ht, hb, res_bind_ok, res_pure])
      exact ⟨τ, τ', _, h⟩
  | float a =>
    cases up
    · obtain ⟨τ, τ', h⟩ := go .sub (-1#32) (.float (E.fsub a (E.ofInt 1#32))) rfl trivial (by
        rw [Ops.preBump]
        simp only [ht, hE.minus_one])
      exact ⟨τ, τ', _, h⟩
    · obtain ⟨τ, τ', h⟩ := go .add 1#32 (.float (E.fadd a (E.ofInt 1#32))) rfl trivial (by
        rw [Ops.preBump]
        simp only [ht])
      exact ⟨τ, τ', _, h⟩
  | _ => simp [Val.isNum] at hvn

/-- C64, `x++` and `x--` on an int variable (within range): the same old value on the stack
and the same new value in the variable. -/
theorem C64_post_increment_partial (E : Env) {σ : St} {x t stack : Addr} {a : Word32} {d : Int}
    (hd : d = 1 ∨ d = -1) (hx : σ.cell x = .ref t) (ht : σ.cell t = .int a) (hst : stack ≠ t)
    (hr : -2147483648 ≤ a.toInt + d ∧ a.toInt + d ≤ 2147483647) (f : Nat) :
    ∃ τ τ' w, postBump E d (f + 2) σ x stack = .ok τ ∧
      Ops.postBump E (BitVec.ofInt 32 d) (f + 2) σ x stack = .ok τ' ∧
      τ.cell t = .int w ∧ τ'.cell t = .int w ∧ w.toInt = a.toInt + d ∧
      τ.cell stack = .int a ∧ τ'.cell stack = .int a ∧
      ∀ c, c ≠ t → c ≠ stack → τ.cell c = σ.cell c ∧ τ'.cell c = σ.cell c := by
  have hdi : (BitVec.ofInt 32 d).toInt = d := by rcases hd with rfl | rfl <;> decide
  have hdd : BitVec.ofInt 32 d = 1 ∨ BitVec.ofInt 32 d = 0xFFFFFFFF#32 := by
    rcases hd with rfl | rfl
    · exact .inl (by decide)
    · exact .inr (by decide)
  have hadd : (a + BitVec.ofInt 32 d).toInt = a.toInt + d := by
    rw [BitVec.toInt_add, hdi, Int.bmod_eq_of_le] <;> omega
  obtain ⟨τ', w, g1, g2, g3, g4, g5⟩ := C51_post_increment_partial E hdd hx ht hst
    (by rw [hdi]; exact hr) f
  have hw : w = a + BitVec.ofInt 32 d := BitVec.eq_of_toInt_eq (by rw [g2, hdi, hadd])
  subst hw
  refine ⟨(σ.set stack (.int a)).set t (.int (a + BitVec.ofInt 32 d)), τ', _, ?_, g1,
    St.set_same .., g3, hadd, by rw [St.set_ne _ _ hst, St.set_same], g4, fun c c1 c2 =>
    ⟨by rw [St.set_ne _ _ c1, St.set_ne _ _ c2], g5 c c1 c2⟩⟩
  rw [postBump]
  simp only [hx]
  rw [postBump]
  simp [ht, St.set_ne _ _ hst.symm, bumpBy, checked, hr]

/-! ### Concrete cases -/

theorem demoFacts : FloatFacts demoEnv :=
  ⟨fun _ => rfl, fun a => BitVec.sub_eq_add_neg ..⟩

/-- `x - a[1]` with `x` = 5 and `a[1]` = 2. -/
example : ∃ τ τ', binary demoEnv .sub 5 demoArr (.cell 0) (.cell 2) (.cell 2) = .ok τ ∧
    Ops.binary demoEnv .sub 5 demoArr (.cell 0) (.cell 2) (.cell 2) = .ok τ' ∧
    OnlySet demoArr τ (.cell 2) (.int 3) ∧ OnlySet demoArr τ' (.cell 2) (.int 3) :=
  C64_binary_partial demoFacts .sub rfl rfl demoArr_reads0
    (.velem (s := 1) (o := 0) (n := 3) rfl rfl (b := .cell 11) rfl rfl rfl (by decide) rfl
      : Reads demoArr true 1 (.cell 2) (.int 2)) (.inl rfl) (by decide)
    (by intro _; decide) 0

/-- `x > a[2]`. -/
example : ∃ τ τ' r, compare demoEnv .value .gt 5 demoArr (.cell 0) (.cell 1) = .ok (τ, r) ∧
    Ops.compare demoEnv .gt 5 demoArr (.cell 0) (.cell 1) = .ok (τ', r) ∧
    SameReal demoArr τ ∧ SameReal demoArr τ' :=
  C64_compare_partial demoEnv .value .gt rfl rfl demoArr_reads0 demoArr_reads1
    (.inr (.inl ⟨by decide, by decide⟩)) 0

/-- `x -= a[1]`. -/
example : ∃ τ τ', funcAssign demoEnv .sub 4 demoArr (.cell 0) (.cell 2) = .ok τ ∧
    compound demoEnv .sub 4 demoArr (.cell 0) (.cell 2) = .ok τ' ∧
    τ.cell (.cell 10) = .int 3 ∧ τ'.cell (.cell 10) = .int 3 := by
  obtain ⟨τ, τ', h1, h2, h3, -, -, h4, -⟩ := C64_compound_partial demoFacts .sub (σ := demoArr)
    (to := .cell 0) (t := .cell 10) (from_ := .cell 2) rfl rfl rfl (by decide) (by decide) rfl rfl
    (.velem (s := 1) (o := 0) (n := 3) rfl rfl (b := .cell 11) rfl rfl rfl (by decide) rfl
      : Reads demoArr true 1 (.cell 2) (.int 2)) rfl (by intro r r' h; cases h) (x := .int 3)
    (by decide) (by intro _; decide) 0
  exact ⟨τ, τ', h1, h2, h3, h4⟩

/-- `--x`. -/
example : ∃ τ τ' u, preBump demoEnv .sub 2 demoArr (.cell 0) (.cell 50) = .ok τ ∧
    Ops.preBump demoEnv (-1#32) 2 demoArr (.cell 0) = .ok τ' ∧
    τ.cell (.cell 10) = u ∧ τ'.cell (.cell 10) = u := by
  obtain ⟨τ, τ', u, h1, h2, h3, h4, -⟩ := C64_increment_partial demoFacts (σ := demoArr)
    (x := .cell 0) (t := .cell 10) (scratch := .cell 50) (v := .int 5) false rfl rfl rfl rfl rfl
    (by decide) (by decide) (by intro a h; cases h; decide) 0
  exact ⟨τ, τ', u, h1, h2, h3, h4⟩

/-! ### Where the builds differ -/

/-- Two stack slots with the given values, plus the strings "ab" (object 0) and "c"
(object 1). -/
def two (v w : Val) : St := demo
  (fun | .cell 0 => v | .cell 1 => w | _ => .other)
  (fun | 0 => .chars [97, 98] false | 1 => .chars [99] false | 2 => .vals 0 | _ => .other)

/-- The largest int plus 1: wraps in the normal build, undefined in the compact one. -/
theorem C64_overflow (E : Env) :
    binary E .add 3 (two (.int 0x7FFFFFFF#32) (.int 1#32)) (.cell 0) (.cell 1) (.cell 1) = .ub ∧
    ∃ τ, Ops.binary E .add 3 (two (.int 0x7FFFFFFF#32) (.int 1#32)) (.cell 0) (.cell 1) (.cell 1)
      = .ok τ ∧ τ.cell (.cell 1) = .int 0x80000000#32 :=
  ⟨rfl, _, rfl, rfl⟩

/-- An integer-only operator with a float operand: the compact build stores the float 0,
the normal build leaves the target as it was. -/
theorem C64_integer_operator_with_float (E : Env) (op : BinOp)
    (hop : op ∈ [.mod, .and, .or, .xor, .shl, .shr]) (a b : Word32) :
    (∃ τ, binary E op 3 (two (.int a) (.float b)) (.cell 0) (.cell 1) (.cell 1) = .ok τ ∧
      τ.cell (.cell 1) = .float 0) ∧
    ∃ τ, Ops.binary E op 3 (two (.int a) (.float b)) (.cell 0) (.cell 1) (.cell 1) = .ok τ ∧
      τ.cell (.cell 1) = .float b := by
  simp only [List.mem_cons, List.not_mem_nil, or_false] at hop
  rcases hop with rfl | rfl | rfl | rfl | rfl | rfl <;> exact ⟨⟨_, rfl, rfl⟩, _, rfl, rfl⟩

/-- A string plus a float: concatenated by the compact build, computed from the string's
hash by the normal one. -/
theorem C64_string_plus_float (E : Env) (x : Word32) :
    (∃ τ, binary E .add 3 (two (.arr 0) (.float x)) (.cell 0) (.cell 1) (.cell 1) = .ok τ ∧
      τ.cell (.cell 1) = .arr 100) ∧
    ∃ τ, Ops.binary E .add 3 (two (.arr 0) (.float x)) (.cell 0) (.cell 1) (.cell 1) = .ok τ ∧
      τ.cell (.cell 1) = .float (E.fadd (E.ofInt (wrHash [97, 98])) x) :=
  ⟨⟨_, rfl, rfl⟩, _, rfl, rfl⟩

/-- A string minus a string: nothing happens in the compact build (the right operand is
the result), the hashes are subtracted in the normal one. -/
theorem C64_string_minus_string (E : Env) :
    (∃ τ, binary E .sub 3 (two (.arr 0) (.arr 1)) (.cell 0) (.cell 1) (.cell 1) = .ok τ ∧
      τ.cell (.cell 1) = .arr 1) ∧
    ∃ τ, Ops.binary E .sub 3 (two (.arr 0) (.arr 1)) (.cell 0) (.cell 1) (.cell 1) = .ok τ ∧
      τ.cell (.cell 1) = .int (wrHash [97, 98] - wrHash [99]) :=
  ⟨⟨_, rfl, rfl⟩, _, rfl, rfl⟩

/-- A container element on the left of `%` with a variable on the right: right in the
compact build (2 % 5), a misread in the normal one. -/
theorem C64_element_mod_variable :
    (∃ τ, binary demoEnv .mod 9 demoArr (.cell 2) (.cell 0) (.cell 0) = .ok τ ∧
      τ.cell (.cell 0) = .int 2) ∧
    Ops.binary demoEnv .mod 9 demoArr (.cell 2) (.cell 0) (.cell 0) = .ub :=
  ⟨⟨_, rfl, by decide +kernel⟩, rfl⟩

/-- `x && 1.5` as a value: the compact build calls a callback nobody set; the normal build
answers. -/
theorem C64_logical_float (E : Env) (op : CmpOp) (hop : op ∈ [.land, .lor]) (a b : Word32) :
    compare E .value op 3 (two (.int a) (.float b)) (.cell 0) (.cell 1) = .ub ∧
    ∃ τ r, Ops.compare E op 3 (two (.int a) (.float b)) (.cell 0) (.cell 1) = .ok (τ, r) := by
  simp only [List.mem_cons, List.not_mem_nil, or_false] at hop
  rcases hop with rfl | rfl <;> exact ⟨rfl, _, _, rfl⟩

/-- `if ( x || 1.5 )`: always false in the compact build, true in the normal one. -/
theorem C64_branch_float (E : Env) (a b : Word32) (hb : E.fnonzero b = true) :
    (∃ τ, compare E .branch .lor 3 (two (.int a) (.float b)) (.cell 0) (.cell 1)
      = .ok (τ, false)) ∧
    ∃ τ, Ops.compare E .lor 3 (two (.int a) (.float b)) (.cell 0) (.cell 1) = .ok (τ, true) := by
  refine ⟨⟨_, rfl⟩, (two (.int a) (.float b)).set (.cell 0) (.float a), ?_⟩
  show Res.ok (_, (a != 0 || E.fnonzero b)) = _
  rw [hb, Bool.or_true]
  rfl

/-- `s -= "c"` with `s` = "ab": the compact build concatenates. -/
theorem C64_string_minus_assign (E : Env) :
    (∃ τ, funcAssign E .sub 3 (two (.arr 0) (.arr 1)) (.cell 0) (.cell 1) = .ok τ ∧
      τ.cell (.cell 0) = .arr 100 ∧ τ.obj 100 = .chars [97, 98, 99] false) :=
  ⟨_, rfl, rfl, rfl⟩

/-- `++s` with `s` = "ab": the compact build appends the text of 1. -/
theorem C64_string_increment (E : Env) :
    ∃ τ, preBump E .add 3 (two (.arr 0) .other) (.cell 0) (.cell 5) = .ok τ ∧
      τ.cell (.cell 0) = .arr 100 ∧ ∃ m o, τ.obj 100 = .chars ([97, 98] ++ E.asStr m o (.int 1)) false :=
  ⟨_, rfl, rfl, _, _, rfl⟩

end Wrench.Compact
