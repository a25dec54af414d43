import Verif.Ops.Spec
import Mathlib.Tactic.ByContra

namespace Wrench.Ops

@[simp] theorem St.set_same (σ : St) (a : Addr) (v : Val) : (σ.set a v).cell a = v := by
  simp [St.set]

theorem St.set_ne (σ : St) {a b : Addr} (v : Val) (h : b ≠ a) : (σ.set a v).cell b = σ.cell b := by
  simp [St.set, h]

@[simp] theorem St.set_obj (σ : St) (a : Addr) (v : Val) : (σ.set a v).obj = σ.obj := rfl
@[simp] theorem St.set_next (σ : St) (a : Addr) (v : Val) : (σ.set a v).next = σ.next := rfl
@[simp] theorem St.set_raw (σ : St) (a : Addr) (v : Val) : (σ.set a v).rawMem = σ.rawMem := rfl

@[simp] theorem res_bind_ok {α β : Type} (a : α) (f : α → Res β) : ((Res.ok a) >>= f) = f a := rfl
@[simp] theorem res_bind_ub {α β : Type} (f : α → Res β) : ((Res.ub : Res α) >>= f) = .ub := rfl
@[simp] theorem res_bind_oof {α β : Type} (f : α → Res β) : ((Res.oof : Res α) >>= f) = .oof := rfl
@[simp] theorem res_pure {α : Type} (a : α) : (pure a : Res α) = .ok a := rfl

theorem SameReal.refl (σ : St) : SameReal σ σ := ⟨fun _ _ => rfl, rfl, rfl, rfl⟩

theorem SameReal.trans {σ τ υ : St} (h : SameReal σ τ) (g : SameReal τ υ) : SameReal σ υ :=
  ⟨fun a ha => (g.cell a ha).trans (h.cell a ha), g.obj.trans h.obj, g.next.trans h.next,
    g.raw.trans h.raw⟩

theorem sameReal_set (σ : St) {a : Addr} (v : Val) (h : a.real = false) : SameReal σ (σ.set a v) :=
  ⟨fun b hb => St.set_ne σ v (by rintro rfl; simp [h] at hb), rfl, rfl, rfl⟩

theorem SameReal.mem {σ τ : St} (h : SameReal σ τ) : τ.mem = σ.mem := by
  funext a
  simp only [St.mem]
  split
  · next ha => exact h.cell a ha
  · rfl

theorem SameReal.getHash {σ τ : St} (h : SameReal σ τ) (E : Env) (v : Val) :
    getHash E τ v = getHash E σ v := by
  cases v <;> simp [Ops.getHash, h.mem, h.obj]

theorem SameReal.num {σ τ : St} (h : SameReal σ τ) (E : Env) (v : Val) :
    v.num E τ = v.num E σ := by
  cases v <;> simp [Val.num, h.getHash]

theorem SameReal.onlySet {σ τ υ : St} {t : Addr} {v : Val} (h : SameReal σ τ)
    (g : OnlySet τ υ t v) : OnlySet σ υ t v :=
  ⟨g.here, fun a ha hn => (g.cell a ha hn).trans (h.cell a ha), g.obj.trans h.obj,
    g.raw.trans h.raw⟩

theorem onlySet_set (σ : St) (t : Addr) (v : Val) : OnlySet σ (σ.set t v) t v :=
  ⟨St.set_same .., fun _ _ h => St.set_ne _ _ h, rfl, rfl⟩

theorem num_isNum (E : Env) (σ : St) (v : Val) : (v.num E σ).isNum = true := by
  cases v <;> rfl

theorem num_of_isNum (E : Env) (σ : St) {v : Val} (h : v.isNum = true) : v.num E σ = v := by
  cases v <;> first | rfl | simp [Val.isNum] at h

theorem plain_of_isNum {v : Val} (h : v.isNum = true) : v.plain = true := by
  cases v <;> first | rfl | simp [Val.isNum] at h

/-- A bigger budget reads the same value. -/
theorem Reads.mono {σ : St} {mb : Bool} {k : Nat} {a : Addr} {v : Val} (h : Reads σ mb k a v) :
    ∀ {m}, k ≤ m → Reads σ mb m a v := by
  induction h with
  | here h => intro m _; exact .here h
  | ref h1 h2 _ ih =>
    intro m hm
    obtain ⟨m, rfl⟩ : ∃ j, m = j + 1 := ⟨m - 1, by omega⟩
    exact .ref h1 h2 (ih (by omega))
  | velem h0 h1 h2 h3 h4 h5 h6 =>
    intro m hm
    obtain ⟨m, rfl⟩ : ∃ j, m = j + 1 := ⟨m - 1, by omega⟩
    exact .velem h0 h1 h2 h3 h4 h5 h6
  | celem h0 h1 h2 h3 h4 h5 =>
    intro m hm
    obtain ⟨m, rfl⟩ : ∃ j, m = j + 1 := ⟨m - 1, by omega⟩
    exact .celem h0 h1 h2 h3 h4 h5
  | relem h0 h1 h2 h3 h4 =>
    intro m hm
    obtain ⟨m, rfl⟩ : ∃ j, m = j + 1 := ⟨m - 1, by omega⟩
    exact .relem h0 h1 h2 h3 h4
  | helem h0 h1 h2 _ ih =>
    intro m hm
    obtain ⟨m, rfl⟩ : ∃ j, m = j + 1 := ⟨m - 1, by omega⟩
    exact .helem h0 h1 h2 (ih (by omega))

/-- Reading only looks at the starting cell and real memory. -/
theorem Reads.same {σ τ : St} {mb : Bool} {k : Nat} {a : Addr} {v : Val} (h : Reads σ mb k a v)
    (hs : SameReal σ τ) (ha : τ.cell a = σ.cell a) : Reads τ mb k a v := by
  induction h with
  | here h => rw [← ha]; exact .here (by rw [ha]; exact h)
  | ref h1 h2 _ ih => exact .ref (by rw [ha, h1]) h2 (ih (hs.cell _ h2))
  | @velem k a b s o n h0 h1 h2 h3 h4 h5 h6 =>
    have := hs.cell (.elem o s) rfl
    rw [← this]
    exact .velem h0 (by rw [ha, h1]) h2 (by rw [hs.cell _ h2, h3]) (by rw [hs.obj, h4]) h5
      (by rw [this]; exact h6)
  | celem h0 h1 h2 h3 h4 h5 =>
    exact .celem h0 (by rw [ha, h1]) h2 (by rw [hs.cell _ h2, h3]) (by rw [hs.obj, h4]) h5
  | relem h0 h1 h2 h3 h4 =>
    rw [← hs.raw]
    exact .relem h0 (by rw [ha, h1]) h2 (by rw [hs.cell _ h2, h3]) h4
  | helem h0 h1 h2 _ ih => exact .helem h0 (by rw [ha, h1]) h2 (ih (hs.cell _ h2))

theorem Reads.plain {σ : St} {mb : Bool} {k : Nat} {a : Addr} {v : Val} (h : Reads σ mb k a v) :
    v.plain = true := by
  induction h <;> first | assumption | rfl

private theorem deref_plain {σ : St} {a : Addr} (h : (σ.cell a).plain = true) (f : Nat) :
    deref (f + 1) σ a = .ok (σ, a) := by
  unfold deref
  split <;> simp_all [Val.plain]

/-- `deref` finds the designated value, and touches nothing but `s_temp2`. -/
theorem deref_reads {mb : Bool} : ∀ {k : Nat} {σ : St} {a : Addr} {v : Val}, Reads σ mb k a v →
    ∀ n, ∃ τ l, deref (n + k + 1) σ a = .ok (τ, l) ∧ τ.cell l = v ∧ SameReal σ τ ∧
      (∀ x, x ≠ .t2 → τ.cell x = σ.cell x) ∧ (l = a ∨ l = .t2 ∨ l.real = true) := by
  intro k
  induction k with
  | zero =>
    intro σ a v h n
    cases h with
    | here h => exact ⟨σ, _, deref_plain h _, rfl, .refl σ, fun _ _ => rfl, .inl rfl⟩
  | succ k ih =>
    intro σ a v h n
    show ∃ τ l, deref (n + k + 1 + 1) σ a = .ok (τ, l) ∧ _
    have t2ne : ∀ {b : Addr}, b.real = true → b ≠ .t2 := by
      rintro b hb rfl; simp [Addr.real] at hb
    cases h with
    | here h => exact ⟨σ, _, deref_plain h _, rfl, .refl σ, fun _ _ => rfl, .inl rfl⟩
    | @ref _ _ r _ h1 h2 h3 =>
      obtain ⟨τ, l, e1, e2, e3, e4, e5⟩ := ih h3 n
      refine ⟨τ, l, ?_, e2, e3, e4, ?_⟩
      · rw [deref, h1]
        exact e1
      · rcases e5 with rfl | h | h
        · exact .inr (.inr h2)
        · exact .inr (.inl h)
        · exact .inr (.inr h)
    | @velem _ _ b s o m h0 h1 h2 h3 h4 h5 h6 =>
      refine ⟨σ.set .t2 (σ.cell .t2).retypeInt, .elem o s, ?_, ?_, sameReal_set σ _ rfl,
        fun x hx => St.set_ne _ _ hx, .inr (.inr rfl)⟩
      · rw [deref, h1]
        simp only [St.set_ne _ _ (t2ne h2), h3, St.set_obj, h4, h5, if_true]
      · exact St.set_ne _ _ (by simp)
    | @celem _ _ b s o bs nc c h0 h1 h2 h3 h4 h5 =>
      refine ⟨(σ.set .t2 (σ.cell .t2).retypeInt).set .t2 (.int (c.setWidth 32)), .t2, ?_, ?_,
        (sameReal_set σ _ rfl).trans (sameReal_set _ _ rfl),
        fun x hx => by rw [St.set_ne _ _ hx, St.set_ne _ _ hx], .inr (.inl rfl)⟩
      · rw [deref, h1]
        simp only [St.set_ne _ _ (t2ne h2), h3, St.set_obj, h4, h5]
      · exact St.set_same ..
    | @relem _ _ b s p m h0 h1 h2 h3 h4 =>
      refine ⟨(σ.set .t2 (σ.cell .t2).retypeInt).set .t2 (.int ((σ.rawMem p s).setWidth 32)), .t2,
        ?_, ?_, (sameReal_set σ _ rfl).trans (sameReal_set _ _ rfl),
        fun x hx => by rw [St.set_ne _ _ hx, St.set_ne _ _ hx], .inr (.inl rfl)⟩
      · rw [deref, h1]
        simp only [St.set_ne _ _ (t2ne h2), h3, St.set_raw, h4, if_true]
      · exact St.set_same ..
    | @helem _ _ e _ h0 h1 h2 h3 =>
      have hs : SameReal σ (σ.set .t2 (σ.cell .t2).retypeInt) := sameReal_set σ _ rfl
      obtain ⟨τ, l, e1, e2, e3, e4, e5⟩ := ih (h3.same hs (St.set_ne _ _ (t2ne h2))) n
      refine ⟨τ, l, ?_, e2, hs.trans e3, ?_, ?_⟩
      · rw [deref, h1]
        exact e1
      · intro x hx
        rw [e4 x hx, St.set_ne _ _ hx]
      · rcases e5 with rfl | h | h
        · exact .inr (.inr h2)
        · exact .inr (.inl h)
        · exact .inr (.inr h)

/-- `singleValue` leaves the operand's number in `s_temp1`. -/
theorem single_reads (E : Env) {mb : Bool} {k : Nat} {σ : St} {a : Addr} {v : Val}
    (h : Reads σ mb k a v) (n : Nat) : ∃ τ, single E (n + k + 1) σ a = .ok τ ∧
      τ.cell .t1 = v.num E σ ∧ SameReal σ τ ∧
      ∀ x, x ≠ .t1 → x ≠ .t2 → τ.cell x = σ.cell x := by
  obtain ⟨τ, l, e1, e2, e3, e4, -⟩ := deref_reads h n
  have key : single E (n + k + 1) σ a = .ok (τ.set .t1 (v.num E τ)) := by
    unfold single
    rw [e1]
    simp only [res_bind_ok, e2]
    cases v <;> rfl
  refine ⟨_, key, ?_, e3.trans (sameReal_set _ _ rfl), ?_⟩
  · rw [St.set_same, e3.num]
  · intro x h1 h2
    rw [St.set_ne _ _ h1, e4 x h2]

/-! ### Dispatch -/

/-- A table sends every operand form towards its numeric entries.  `fl`: float rows
included.  `ob`: object operands are used by their hash (no string concatenation).
`er`: the `E_R` entry is right. -/
structure Routed {R : Type} (T : Ty → Ty → Entry R) (fl ob er : Bool) : Prop where
  ir : T .I .R = .refR
  fr : fl = true → T .F .R = .refR
  ie : T .I .E = .exR ∨ (ob = false ∧ T .I .E = .catR)
  fe : fl = true → T .F .E = .exR ∨ (ob = false ∧ T .F .E = .catR)
  ri : T .R .I = .refL
  rf : fl = true → T .R .F = .refL
  rr : T .R .R = .refLR
  re : T .R .E = .refL
  ei : T .E .I = .exL ∨ (ob = false ∧ T .E .I = .catL)
  ef : fl = true → T .E .F = .exL ∨ (ob = false ∧ T .E .F = .catL)
  er : er = true → T .E .R = .refR
  ee : T .E .E = .exLR ∨ (ob = false ∧ T .E .E = .catLR)

theorem routed_std {R : Type} (ii iF fI fF : St → Addr → Addr → Res (St × R)) :
    Routed (stdTable ii iF fI fF) true true true :=
  ⟨rfl, fun _ => rfl, .inl rfl, fun _ => .inl rfl, rfl, fun _ => rfl, rfl, rfl, .inl rfl,
    fun _ => .inl rfl, fun _ => rfl, .inl rfl⟩

theorem routed_add {R : Type} (ii iF fI fF : St → Addr → Addr → Res (St × R)) :
    Routed (addTable ii iF fI fF) true false true :=
  ⟨rfl, fun _ => rfl, .inr ⟨rfl, rfl⟩, fun _ => .inl rfl, rfl, fun _ => rfl, rfl, rfl,
    .inr ⟨rfl, rfl⟩, fun _ => .inl rfl, fun _ => rfl, .inr ⟨rfl, rfl⟩⟩

theorem routed_int {R : Type} (b : R) (ii : St → Addr → Addr → Res (St × R)) :
    Routed (intTable b ii) false true false :=
  ⟨rfl, nofun, .inl rfl, nofun, rfl, nofun, rfl, rfl, .inl rfl, nofun, nofun, .inl rfl⟩

theorem reads_num {σ : St} {mb : Bool} {k : Nat} {a : Addr} {v : Val} (h : Reads σ mb k a v)
    (hn : (σ.cell a).isNum = true) : v = σ.cell a := by
  cases h <;> first | rfl | simp_all [Val.isNum]

theorem reads_ref {σ : St} {mb : Bool} {k : Nat} {a r : Addr} {v : Val} (h : Reads σ mb k a v)
    (hn : σ.cell a = .ref r) : ∃ j, k = j + 1 ∧ r.real = true ∧ Reads σ mb j r v := by
  cases h with
  | here h => simp [hn, Val.plain] at h
  | ref h1 h2 h3 =>
    rw [hn] at h1
    cases h1
    exact ⟨_, rfl, h2, h3⟩
  | _ => simp_all

theorem ty_cases (v : Val) : (v.isNum = true ∧ (v.ty = .I ∨ v.ty = .F)) ∨
    (∃ r, v = .ref r ∧ v.ty = .R) ∨ (v.ty = .E ∧ v.isNum = false) := by
  cases v <;> simp [Val.isNum, Val.ty]

/-- An `E` operand that designates a number is a member, not an array handle. -/
theorem not_arr_of_E {σ : St} {mb : Bool} {k : Nat} {a : Addr} {v : Val} (h : Reads σ mb k a v)
    (hv : v.isNum = true) : (∀ o, σ.cell a ≠ .arr o) := by
  intro o ho
  cases h <;> simp_all [Val.isNum]

theorem isMember_of_E {σ : St} {mb : Bool} {k : Nat} {a : Addr} {v : Val} (h : Reads σ mb k a v)
    (hv : v.isNum = true) (he : (σ.cell a).ty = .E) : isMember (σ.cell a) = true ∧ mb = true := by
  cases h with
  | here h => generalize σ.cell a = c at *; cases c <;> simp_all [Val.isNum, Val.ty]
  | ref h1 => simp [h1, Val.ty] at he
  | velem h0 h1 => simp [h1, isMember, h0]
  | celem h0 h1 => simp [h1, isMember, h0]
  | relem h0 h1 => simp [h1, isMember, h0]
  | helem h0 h1 => simp [h1, isMember, h0]

theorem ty_I_or_F {v : Val} (h : v.isNum = true) : v.ty = .I ∨ v.ty = .F := by
  cases v <;> simp_all [Val.isNum, Val.ty]

theorem ty_ref (r : Addr) : (Val.ref r).ty = .R := rfl

/-- The dispatcher brings the operands' numbers to the numeric entry for their types,
without disturbing real memory. -/
theorem disp_reads {R : Type} (E : Env) (T : Ty → Ty → Entry R)
    (cat : St → Addr → Addr → Option (St × R)) (nn : R) {fl ob er : Bool} (hT : Routed T fl ob er)
    (hcat : ∀ σ a b, (∀ o, σ.cell a ≠ .arr o) → (∀ o, σ.cell b ≠ .arr o) → cat σ a b = none)
    {mb mc : Bool} :
    ∀ N {k m : Nat} {σ : St} {to from_ : Addr} {v w : Val}, k + m ≤ N →
      to.real = true → from_.real = true → Reads σ mb k to v → Reads σ mc m from_ w →
      (ob = false → v.isNum = true ∧ w.isNum = true) →
      (fl = false → (v.num E σ).ty = .I ∧ (w.num E σ).ty = .I) →
      (er = false → (mb = false ∧ v.isNum = true) ∨ ∀ r, σ.cell from_ ≠ .ref r) →
      ∀ n, ∃ τ to' from', SameReal σ τ ∧ τ.cell to' = v.num E σ ∧ τ.cell from' = w.num E σ ∧
        ∀ g, T (v.num E σ).ty (w.num E σ).ty = .leaf g →
          disp E T cat nn (n + N + 3) σ to from_ = g τ to' from' := by
  have enter : ∀ (f : Nat) (τ : St) (a b : Addr) (x y : Val) g, τ.cell a = x → τ.cell b = y →
      T x.ty y.ty = .leaf g → disp E T cat nn (f + 1) τ a b = g τ a b := by
    intro f τ a b x y g hx hy hg
    subst hx hy
    rw [disp]
    simp only [hg]
  intro N
  induction N using Nat.strongRecOn with
  | _ N ih =>
  intro k m σ to from_ v w hN hto hfrom hv hw hob hfl her n
  have nt1 : ∀ {b : Addr}, b.real = true → b ≠ .t1 := by
    rintro b hb rfl; simp [Addr.real] at hb
  have nt2 : ∀ {b : Addr}, b.real = true → b ≠ .t2 := by
    rintro b hb rfl; simp [Addr.real] at hb
  have snd_single : ∀ {a : Addr} {x : Val} {j : Nat} {mb : Bool} {ρ : St}, Reads ρ mb j a x →
      j ≤ N → ∃ τ, single E (n + N + 2) ρ a = .ok τ ∧ τ.cell .t1 = x.num E ρ ∧ SameReal ρ τ ∧
        ∀ x, x ≠ .t1 → x ≠ .t2 → τ.cell x = ρ.cell x := by
    intro a x j mb ρ h hj
    have := single_reads E h (n + N + 1 - j)
    rwa [show n + N + 1 - j + j + 1 = n + N + 2 by omega] at this
  have snd_deref : ∀ {a : Addr} {x : Val} {j : Nat} {mb : Bool} {ρ : St}, Reads ρ mb j a x →
      j ≤ N → ∃ τ l, deref (n + N + 2) ρ a = .ok (τ, l) ∧ τ.cell l = x ∧ SameReal ρ τ ∧
        (∀ x, x ≠ .t2 → τ.cell x = ρ.cell x) ∧ (l = a ∨ l = .t2 ∨ l.real = true) := by
    intro a x j mb ρ h hj
    have := deref_reads h (n + N + 1 - j)
    rwa [show n + N + 1 - j + j + 1 = n + N + 2 by omega] at this
  show ∃ τ to' from', _ ∧ _ ∧ _ ∧ ∀ g, _ → disp E T cat nn (n + N + 2 + 1) σ to from_ = _
  -- recursion after following references
  have rec2 : ∀ {k' m' : Nat} {a b : Addr}, k' + m' < N → a.real = true → b.real = true →
      Reads σ mb k' a v → Reads σ mc m' b w →
      (er = false → (mb = false ∧ v.isNum = true) ∨ ∀ r, σ.cell b ≠ .ref r) →
      ∃ τ to' from', SameReal σ τ ∧ τ.cell to' = v.num E σ ∧ τ.cell from' = w.num E σ ∧
        ∀ g, T (v.num E σ).ty (w.num E σ).ty = .leaf g →
          disp E T cat nn (n + N + 2) σ a b = g τ to' from' := by
    intro k' m' a b hlt ha hb hva hwb her'
    have := ih (N - 1) (by omega) (by omega) ha hb hva hwb hob hfl her' n
    rwa [show n + (N - 1) + 3 = n + N + 2 by omega] at this
  rcases ty_cases (σ.cell to) with ⟨hn, hty⟩ | ⟨r, hr, hty⟩ | ⟨hty, hn⟩
  · -- `to` is a number
    have hv' := reads_num hv hn
    subst hv'
    have hvn : (σ.cell to).num E σ = σ.cell to := num_of_isNum E σ hn
    rcases ty_cases (σ.cell from_) with ⟨hn2, hty2⟩ | ⟨r2, hr2, hty2⟩ | ⟨hty2, hn2⟩
    · have hw' := reads_num hw hn2
      subst hw'
      have hwn : (σ.cell from_).num E σ = σ.cell from_ := num_of_isNum E σ hn2
      refine ⟨σ, to, from_, .refl σ, hvn.symm, hwn.symm, fun g hg => ?_⟩
      rw [hvn, hwn] at hg
      exact enter _ _ _ _ _ _ g rfl rfl hg
    · obtain ⟨j, rfl, hreal, hread⟩ := reads_ref hw hr2
      obtain ⟨τ, t, f, h1, h2, h3, h4⟩ := rec2 (by omega) hto hreal hv hread
        (fun h => (her h).elim .inl fun h' => absurd hr2 (h' _))
      refine ⟨τ, t, f, h1, h2, h3, fun g hg => ?_⟩
      rw [← h4 g hg, disp]
      rcases hty with hty | hty
      · simp only [hty, hT.ir, hr2, ty_ref]
      · have : fl = true := by
          by_contra hc
          have := (hfl (by simpa using hc)).1
          rw [hvn, hty] at this
          cases this
        simp only [hty, hT.fr this, hr2, ty_ref]
    · obtain ⟨τ, h1, h2, h3, h4⟩ := snd_single hw (by omega)
      have hto' : τ.cell to = σ.cell to := h4 _ (nt1 hto) (nt2 hto)
      refine ⟨τ, to, .t1, h3, by rw [hto', hvn], h2, fun g hg => ?_⟩
      have hgo : disp E T cat nn (n + N + 2) τ to .t1 = g τ to .t1 := by
        refine enter _ _ _ _ _ _ g rfl rfl ?_
        rw [hto', h2]
        rwa [hvn] at hg
      rw [← hgo, disp]
      rcases hty with hty | hty
      · rcases hT.ie with he | ⟨ho, he⟩
        · simp only [hty, hty2, he, h1, res_bind_ok]
        · have hc := hcat σ to from_ (not_arr_of_E hv (hob ho).1) (not_arr_of_E hw (hob ho).2)
          simp only [hty, hty2, he, hc, h1, res_bind_ok]
      · have : fl = true := by
          by_contra hc
          have := (hfl (by simpa using hc)).1
          rw [hvn, hty] at this
          cases this
        rcases hT.fe this with he | ⟨ho, he⟩
        · simp only [hty, hty2, he, h1, res_bind_ok]
        · have hc := hcat σ to from_ (not_arr_of_E hv (hob ho).1) (not_arr_of_E hw (hob ho).2)
          simp only [hty, hty2, he, hc, h1, res_bind_ok]
  · -- `to` is a reference
    obtain ⟨j, rfl, hreal, hread⟩ := reads_ref hv hr
    rcases ty_cases (σ.cell from_) with ⟨hn2, hty2⟩ | ⟨r2, hr2, hty2⟩ | ⟨hty2, hn2⟩
    · obtain ⟨τ, t, f, h1, h2, h3, h4⟩ := rec2 (by omega) hreal hfrom hread hw her
      refine ⟨τ, t, f, h1, h2, h3, fun g hg => ?_⟩
      rw [← h4 g hg, disp]
      rcases hty2 with hty2 | hty2
      · simp only [hty2, hT.ri, hr, ty_ref]
      · have : fl = true := by
          by_contra hc
          have := (hfl (by simpa using hc)).2
          rw [reads_num hw hn2, num_of_isNum E σ hn2, hty2] at this
          cases this
        simp only [hty2, hT.rf this, hr, ty_ref]
    · obtain ⟨j2, rfl, hreal2, hread2⟩ := reads_ref hw hr2
      obtain ⟨τ, t, f, h1, h2, h3, h4⟩ := rec2 (by omega) hreal hreal2 hread hread2
        (fun h => (her h).elim .inl fun h' => absurd hr2 (h' _))
      refine ⟨τ, t, f, h1, h2, h3, fun g hg => ?_⟩
      rw [← h4 g hg, disp]
      simp only [hT.rr, hr, hr2, ty_ref]
    · obtain ⟨τ, t, f, h1, h2, h3, h4⟩ := rec2 (by omega) hreal hfrom hread hw her
      refine ⟨τ, t, f, h1, h2, h3, fun g hg => ?_⟩
      rw [← h4 g hg, disp]
      simp only [hty2, hT.re, hr, ty_ref]
  · -- `to` is a member or an object
    rcases ty_cases (σ.cell from_) with ⟨hn2, hty2⟩ | ⟨r2, hr2, hty2⟩ | ⟨hty2, hn2⟩
    · have hw' := reads_num hw hn2
      subst hw'
      have hwn : (σ.cell from_).num E σ = σ.cell from_ := num_of_isNum E σ hn2
      obtain ⟨τ, h1, h2, h3, h4⟩ := snd_single hv (by omega)
      have hf' : τ.cell from_ = σ.cell from_ := h4 _ (nt1 hfrom) (nt2 hfrom)
      refine ⟨τ, .t1, from_, h3, h2, by rw [hf', hwn], fun g hg => ?_⟩
      have hgo : disp E T cat nn (n + N + 2) τ .t1 from_ = g τ .t1 from_ := by
        refine enter _ _ _ _ _ _ g rfl rfl ?_
        rw [hf', h2]
        rwa [hwn] at hg
      rw [← hgo, disp]
      rcases hty2 with hty2 | hty2
      · rcases hT.ei with he | ⟨ho, he⟩
        · simp only [hty, hty2, he, h1, res_bind_ok]
        · have hc := hcat σ to from_ (not_arr_of_E hv (hob ho).1) (not_arr_of_E hw (hob ho).2)
          simp only [hty, hty2, he, hc, h1, res_bind_ok]
      · have : fl = true := by
          by_contra hc
          have := (hfl (by simpa using hc)).2
          rw [hwn, hty2] at this
          cases this
        rcases hT.ef this with he | ⟨ho, he⟩
        · simp only [hty, hty2, he, h1, res_bind_ok]
        · have hc := hcat σ to from_ (not_arr_of_E hv (hob ho).1) (not_arr_of_E hw (hob ho).2)
          simp only [hty, hty2, he, hc, h1, res_bind_ok]
    · have her' : er = true := by
        by_contra hc
        rcases her (by simpa using hc) with ⟨h1, h2⟩ | h1
        · have := (isMember_of_E hv h2 hty).2
          simp [h1] at this
        · exact h1 _ hr2
      obtain ⟨j, rfl, hreal, hread⟩ := reads_ref hw hr2
      obtain ⟨τ, t, f, h1, h2, h3, h4⟩ := rec2 (by omega) hto hreal hv hread
        (fun h => by simp [her'] at h)
      refine ⟨τ, t, f, h1, h2, h3, fun g hg => ?_⟩
      rw [← h4 g hg, disp]
      simp only [hty, hT.er her', hr2, ty_ref]
    · rcases hT.ee with he | ⟨ho, he⟩
      · obtain ⟨τ, h1, h2, h3, h4⟩ := snd_single hv (by omega)
        have hs : SameReal σ (τ.set (.loc (n + N + 2)) (τ.cell .t1)) :=
          h3.trans (sameReal_set _ _ rfl)
        obtain ⟨τ', g1, g2, g3, g4⟩ := snd_single (hw.same hs (hs.cell _ hfrom)) (by omega)
        have hl : τ'.cell (.loc (n + N + 2)) = v.num E σ := by
          rw [g4 _ (by simp) (by simp), St.set_same, h2]
        refine ⟨τ', .loc (n + N + 2), .t1, hs.trans g3, hl, by rw [g2, hs.num], fun g hg => ?_⟩
        have hgo : disp E T cat nn (n + N + 2) τ' (.loc (n + N + 2)) .t1
            = g τ' (.loc (n + N + 2)) .t1 := by
          refine enter _ _ _ _ _ _ g rfl rfl ?_
          rw [hl, g2, hs.num]
          exact hg
        rw [← hgo, disp]
        simp only [hty, hty2, he, h1, res_bind_ok, g1]
      · have hm := (isMember_of_E hv (hob ho).1 hty).1
        obtain ⟨τ, l, h1, h2, h3, h4, -⟩ := snd_deref hv (by omega)
        have hs : SameReal σ (τ.set (.loc (n + N + 2)) (τ.cell l)) :=
          h3.trans (sameReal_set _ _ rfl)
        obtain ⟨τ', l', g1, g2, g3, g4, -⟩ := snd_deref (hw.same hs (hs.cell _ hfrom)) (by omega)
        have hl : τ'.cell (.loc (n + N + 2)) = v.num E σ := by
          rw [g4 _ (by simp), St.set_same, h2, num_of_isNum E σ (hob ho).1]
        have hl2 : τ'.cell l' = w.num E σ := by rw [g2, num_of_isNum E σ (hob ho).2]
        refine ⟨τ', .loc (n + N + 2), l', hs.trans g3, hl, hl2, fun g hg => ?_⟩
        have hgo : disp E T cat nn (n + N + 2) τ' (.loc (n + N + 2)) l'
            = g τ' (.loc (n + N + 2)) l' := by
          refine enter _ _ _ _ _ _ g rfl rfl ?_
          rw [hl, hl2]
          exact hg
        rw [← hgo, disp]
        simp only [hty, hty2, he, hm, Bool.true_or, if_true, h1, res_bind_ok, g1]

end Wrench.Ops
