import Verif.Tables.Sim

/- Initializers, `_exists`, `_remove` and whole scripts. -/
namespace Wrench.Tables

open HashTable

/-! ### Initializers -/

theorem getHash_reach {σ : St} {A : Spec.St} (S : Sim σ A) {op : Opd} {s : Src} (r : Reach σ op s) {a : V}
    {h : Word32} (hr : op.read A = some a) (hh : Spec.hash a = some h) : getHash σ s = .ok h := by
  obtain ⟨s', p, e⟩ := r
  simp only [getHash, e, ex_bind, (p.src S hr).1]
  exact hashPlain_spec hh

theorem strip_plain {σ : St} {s : Src} {v : Val} (h : σ.src s = .ok v) (hp : Plain v) (f : Nat) :
    strip (f + 1) σ s = .ok s := by
  simp only [strip, h, ex_bind]
  cases v with
  | ref l => exact absurd rfl (hp l)
  | _ => rfl

theorem strip_seen {σ : St} {A : Spec.St} (S : Sim σ A) {op : Opd} {v : Val} (h : OSim σ v op) :
    ∃ s vs, strip depth σ (.slot v) = .ok s ∧ Seen σ A op s vs := by
  obtain ⟨f, hf⟩ : ∃ f, depth = f + 1 + 1 := ⟨62, rfl⟩
  rw [hf]
  cases h with
  | val a ha => exact ⟨_, _, strip_plain (src_slot _ _) (plain_toVal a) _, .val a ha⟩
  | el o g j h t ho hn ht d =>
    exact ⟨_, _, strip_plain (src_slot _ _) (fun l => by simp) _, .el o h _ (.el o g j h t ho hn ht d)⟩
  | var n =>
    refine ⟨.at_ (.var n), _, ?_, .var n⟩
    have : strip (f + 1 + 1) σ (.slot (.ref (.var n))) = strip (f + 1) σ (.at_ (.var n)) := by
      rw [strip]
      simp only [src_slot, ex_bind]
    rw [this]
    exact strip_plain (v := toVal (A.var n)) (by simp [St.src, St.read, S.var n]) (plain_toVal _) _

/-- An operand keeps being reached from where it was seen. -/
theorem Seen.reachLater {σ σ' : St} {A A' : Spec.St} {op : Opd} {s : Src} {v : Val}
    (h : Seen σ A op s v) (S' : Sim σ' A') (l : Le σ σ') : Reach σ' op s := by
  cases h with
  | val a ha => exact .ofPtr S' (.val a (okV_mono l.1 ha))
  | var n => exact .ofPtr S' (.var n)
  | el o h l' os => exact .ofOpd S' (os.later l)

theorem Seen.srcLater {σ : St} (σ' : St) {A : Spec.St} {op : Opd} {s : Src} {v : Val}
    (h : Seen σ A op s v) : ∃ w, σ'.src s = .ok w := by
  cases h with
  | val a ha => exact ⟨_, rfl⟩
  | var n => exact ⟨_, rfl⟩
  | el o h l' os => exact ⟨_, rfl⟩

theorem touch_write {A : Spec.St} {o : Nat} {h : Word32} {v : V} :
    (A.touch o h).1.write v (.el o h) = A.write v (.el o h) := by
  simp only [Spec.St.touch, Spec.St.write]
  cases he : (A.tab o).ent h with
  | absent =>
    simp only [Spec.St.setTab, Spec.Table.set, if_pos rfl, Spec.St.mk.injEq, true_and, and_true]
    funext p
    by_cases hp : p = o
    · simp only [hp, if_true, Spec.Table.mk.injEq, and_true]
      funext x
      by_cases hx : x = h <;> simp [hx]
    · simp [hp]
  | some_ => rfl
  | is w => rfl

/-- The end of `wr_assignToHashTable`. -/
theorem put_sim {σ : St} {A : Spec.St} (S : Sim σ A) {ix value : Src} {ko vo : Opd} {kv vv : Val}
    {σ0 : St} {A0 : Spec.St} (sk : Seen σ0 A0 ko ix kv) (sv : Seen σ0 A0 vo value vv) (l0 : Le σ0 σ)
    (hvar : ∀ n, A0.var n = A.var n) (hS0 : Sim σ0 A0)
    (hd : ∀ o h, vo ≠ .at_ (.el o h)) {k v : V} {h : Word32} (hr : ko.read A = some k)
    (hh : Spec.hash k = some h) (hn : h ≠ nullHash) (hv : vo.read A0 = some v) {o : Nat} (ho : o < A.next) :
    Good ((do
      let h ← getHash σ ix
      let (σ, t, i) ← getCell σ o h
      let v ← σ.src value
      let σ := σ.setTab o { t with vals := upd t.vals i v }
      let k ← σ.src ix
      match σ.tab o with
      | none => .error .stale
      | some t => return (σ.setTab o { t with keys := upd t.keys i k }, Val.tbl o)) : Except Err (St × Val))
      fun r => r.2 = Val.tbl o ∧ Sim r.1 (A.write v (.el o h)) ∧ Le σ r.1 := by
  rw [getHash_reach S (sk.reachLater S l0) hr hh]
  simp only [ex_bind]
  refine (getCell_touch S ho hn).bind ?_
  rintro ⟨σ1, t, i⟩ ⟨e1, l1, hk⟩
  simp only at e1 l1 hk ⊢
  have okv : okV A.next v := by
    obtain ⟨Y, py, _⟩ := sv.reach hS0
    have := (py.src hS0 hv).2
    have h1 := l0.1
    rw [← S.next]
    exact okV_mono h1 this
  have evs : σ1.src value = .ok (toVal v) := by
    cases sv with
    | val a ha => cases hv; rfl
    | var n =>
      simp only [Spec.Opd.read, Spec.St.read, Option.some.injEq] at hv
      rw [e1]
      show Except.ok (σ.var n) = _
      rw [S.var n, ← hvar n, hv]
    | el o' h' l os => exact absurd rfl (hd o' h')
  rw [evs]
  simp only [ex_bind]
  obtain ⟨kw, hkw⟩ := sk.srcLater (σ1.setTab o { t with vals := upd t.vals i (toVal v) })
  rw [hkw]
  simp only [ex_bind, ex_pure]
  have htab : (σ1.setTab o { t with vals := upd t.vals i (toVal v) }).tab o =
      some { t with vals := upd t.vals i (toVal v) } := upd_same _ _ _
  rw [htab]
  simp only
  obtain ⟨a, b, c, hi, hs⟩ := hk (upd t.keys i kw)
  have htab2 : (σ.setTab o { t with keys := upd t.keys i kw }).tab o =
      some { t with keys := upd t.keys i kw } := upd_same _ _ _
  have hsn := S.next
  have q : Ptr (σ.setTab o { t with keys := upd t.keys i kw }) (.at_ (.el o h))
      (.at_ (.el o t.fwds.length i)) :=
    .el o i h { t with keys := upd t.keys i kw } (by show o < σ.next; omega) hn htab2 hi hs
  have hnx : (A.touch o h).1.next = A.next := by
    simp only [Spec.St.touch]
    cases (A.tab o).ent h <;> rfl
  obtain ⟨σ', e3, S3, l3⟩ := store_ptr a q (a := v) (by rw [hnx]; exact okv)
  have he : σ' = (σ1.setTab o { t with vals := upd t.vals i (toVal v) }).setTab o
      { t with vals := upd t.vals i (toVal v), keys := upd t.keys i kw } := by
    simp only [St.store, St.write, htab2] at e3
    simp only [if_true, Except.ok.injEq] at e3
    rw [← e3, setTab_setTab, setTab_setTab, e1, setTab_setTab]
  refine ⟨rfl, ?_, ?_⟩
  · rw [touch_write] at S3
    rw [← he]
    exact S3
  · rw [← he]
    exact b.trans l3

theorem read_new' {A : Spec.St} {key : Opd} (hel : ∀ o h, key = .at_ (.el o h) → o < A.next) :
    key.read A.new.1 = key.read A := by
  cases key with
  | val a => rfl
  | at_ p =>
    cases p with
    | var m => rfl
    | el o h =>
      have hne : o ≠ A.next := by have := hel o h rfl; omega
      simp [Spec.Opd.read, Spec.St.read, Spec.St.new, Spec.St.setTab, hne]

/-- The slot of an initializer under construction. -/
inductive SlotSim (σ : St) : Val → Option Nat → Prop where
  | none : SlotSim σ (.int 0) none
  | some (o : Nat) : o < σ.next → SlotSim σ (.tbl o) (some o)

/-- One entry of an initializer. -/
theorem assignToHash_sim {σ : St} {A : Spec.St} (S : Sim σ A) {kv vv slot : Val} {ko vo : Opd}
    {so : Option Nat} (ok : OSim σ kv ko) (ov : OSim σ vv vo) (os : SlotSim σ slot so)
    (hd : ∀ o h, vo ≠ .at_ (.el o h)) {k v : V} {h : Word32} (hr : ko.read A = some k)
    (hh : Spec.hash k = some h) (hn : h ≠ nullHash) (hv : vo.read A = some v) :
    Good (assignToHash σ kv vv slot) fun r =>
      let B := A.some so
      r.2 = .tbl B.2 ∧ Sim r.1 (B.1.write v (.el B.2 h)) ∧ Le σ r.1 := by
  obtain ⟨sv, wv, e1, see1⟩ := strip_seen S ov
  obtain ⟨sk, wk, e2, see2⟩ := strip_seen S ok
  unfold assignToHash
  rw [e1, e2]
  simp only [ex_bind]
  cases os with
  | some o ho =>
    simp only [ex_bind]
    exact put_sim S see2 see1 (Le.refl _) (fun _ => rfl) S hd hr hh hn hv (S.next ▸ ho)
  | none =>
    simp only
    refine (newTable_sim S).bind ?_
    rintro ⟨σ1, o⟩ ⟨ho, S1, l1, _⟩
    simp only at ho S1 l1 ⊢
    subst ho
    have hr1 : ko.read A.new.1 = some k := by
      rw [read_new', hr]
      intro o h' e
      subst e
      rw [← S.next]
      exact ok.elLt
    have := put_sim S1 see2 see1 l1 (fun _ => rfl) S hd hr1 hh hn hv (o := A.next)
      (by show A.next < A.next + 1; omega)
    exact this.mono fun r hres => ⟨hres.1, hres.2.1, l1.trans hres.2.2⟩

theorem entries_sim : ∀ (es : List (Ex × Ex)) {σ : St} {A A' : Spec.St} {slot : Val} {so so' : Option Nat},
    Sim σ A → SlotSim σ slot so → Spec.entries A so es = some (A', so') →
    Good (entries σ slot es) fun r => Sim r.1 A' ∧ SlotSim r.1 r.2 so' ∧ Le σ r.1 := by
  intro es
  induction es with
  | nil =>
    intro σ A A' slot so so' S os h
    cases h
    exact ⟨S, os, Le.refl _⟩
  | cons e es ih =>
    intro σ A A' slot so so' S os h
    obtain ⟨k, v⟩ := e
    simp only [Spec.entries, Option.bind_eq_bind, Option.bind_eq_some_iff] at h
    obtain ⟨⟨A1, ko⟩, h1, ⟨A2, vo⟩, h2, kk, h3, h', h4, hh, h5, h6⟩ := h
    obtain ⟨rfl, hn⟩ := usable_eq h5
    have hd : ∀ o h, vo ≠ .at_ (.el o h) := by
      rintro o h rfl
      cases h6
    have h7 : ∃ w, vo.read A2 = some w ∧
        Spec.entries ((A2.some so).1.write w
          (.el (A2.some so).2 hh))
          (some (A2.some so).2) es = some (A', so') := by
      rcases vo with (n | ⟨o, x⟩) | w
      · simpa only [Option.bind_eq_some_iff] using h6
      · exact absurd rfl (hd o x)
      · simpa only [Option.bind_eq_some_iff] using h6
    obtain ⟨w, h8, h9⟩ := h7
    simp only [entries]
    refine (eval_sim k S h1).bind ?_
    rintro ⟨σ1, kv⟩ ⟨S1, ok1, l1⟩
    refine (eval_sim v S1 h2).bind ?_
    rintro ⟨σ2, vv⟩ ⟨S2, ov2, l2⟩
    have os2 : SlotSim σ2 slot so := by
      cases os with
      | none => exact .none
      | some o ho => exact .some o (Nat.lt_of_lt_of_le ho (l1.trans l2).1)
    refine (assignToHash_sim S2 (ok1.later l2) ov2 os2 hd h3 h4 hn h8).bind ?_
    rintro ⟨σ3, slot3⟩ ⟨e3, S3, l3⟩
    simp only at e3 S3 l3 ⊢
    subst e3
    have os3 : SlotSim σ3 (.tbl (A2.some so).2)
        (some (A2.some so).2) := by
      refine .some _ ?_
      cases os2 with
      | none =>
        rw [S3.next]
        show A2.next < A2.next + 1
        omega
      | some o ho => exact Nat.lt_of_lt_of_le ho l3.1
    exact (ih S3 os3 h9).mono fun r hres =>
      ⟨hres.1, hres.2.1, ((l1.trans l2).trans l3).trans hres.2.2⟩

/-! ### `_exists` and `_remove` -/

theorem exists_sim {σ : St} {A : Spec.St} (S : Sim σ A) {p : Spec.Place} {key : Opd} {b i : Val}
    (ob : OSim σ b (.at_ p)) (oi : OSim σ i key) {o : Nat} (hb : A.read p = some (.tbl o)) {k : V}
    {h : Word32} (hr : key.read A = some k) (hh : Spec.hash k = some h) (hn : h ≠ nullHash) :
    exists' σ b i = .ok (.int (if (A.tab o).ent h = .absent then 0 else 1)) := by
  obtain ⟨s, q, e⟩ := Reach.ofOpd S ob
  obtain ⟨e2, ok⟩ := q.src S (a := .tbl o) hb
  have ho : o < A.next := S.next ▸ ok
  obtain ⟨t, ht, T⟩ := S.tab o ho
  simp only [exists', e, ex_bind]
  have hs : ∃ l, s = .at_ l := by cases q <;> exact ⟨_, rfl⟩
  obtain ⟨l, rfl⟩ := hs
  have e3 : σ.read l = .ok (.tbl o) := e2
  simp only [e3, ex_bind, ht, getHash_opd S oi hr hh, ex_pure]
  congr 2
  rcases probe_false_cases T.inv hn with ⟨j, hj, hsj, hp⟩ | ⟨hnp, hp⟩
  · have hne : (A.tab o).ent h ≠ .absent := fun c => (T.absent h hn).1 c ⟨j, hj, hsj⟩
    rw [if_neg hne]
    simp [exists_, hp]
  · rw [if_pos ((T.absent h hn).2 hnp)]
    simp [exists_, hp]

theorem exists_not {σ : St} {A : Spec.St} (S : Sim σ A) {p : Spec.Place} {b i : Val}
    (ob : OSim σ b (.at_ p)) {w : V} (hb : A.read p = some w) (hw : ∀ o, w ≠ .tbl o) :
    exists' σ b i = .ok (.int 0) := by
  obtain ⟨s, q, e⟩ := Reach.ofOpd S ob
  have e2 := (q.src S (a := w) hb).1
  simp only [exists', e, ex_bind]
  have hs : ∃ l, s = .at_ l := by cases q <;> exact ⟨_, rfl⟩
  obtain ⟨l, rfl⟩ := hs
  have e3 : σ.read l = .ok (toVal w) := e2
  simp only [e3, ex_bind]
  cases w with
  | tbl o => exact absurd rfl (hw o)
  | int _ => rfl
  | float _ => rfl
  | str _ => rfl

theorem remove_tab {t : HT Val Val} {T : Spec.Table} {N : Nat} {h : Word32} (S : TSim t T N)
    (hn : h ≠ nullHash) (d : Bool)
    (hd : d = false → T.dirty = false ∧ T.ent h = .is (.int 0)) :
    TSim (exists_ t h true).1 ⟨(T.set h .absent).ent, d⟩ N := by
  have hent : ∀ x, (T.set h .absent).ent x = if x = h then .absent else T.ent x := fun _ => rfl
  rcases probe_false_cases S.inv hn with ⟨i, hi, hsi, hp⟩ | ⟨hnp, hp⟩
  · have he : (exists_ t h true).1 = { t with size := t.size - 1, slots := upd t.slots i nullHash } := by
      simp [exists_, hp]
    rw [he]
    have hpres : ∀ x, x ≠ nullHash → (Present t.mod (upd t.slots i nullHash) x ↔
        x ≠ h ∧ Present t.mod t.slots x) := by
      intro x hx
      constructor
      · rintro ⟨j, hj, hsj⟩
        have hji : j ≠ i := by rintro rfl; rw [upd_same] at hsj; exact hx hsj.symm
        rw [upd_ne _ _ hji] at hsj
        refine ⟨?_, j, hj, hsj⟩
        rintro rfl
        exact hji (S.inv.inj j i hj hi (by rw [hsj]; exact hx) (by rw [hsj, hsi]))
      · rintro ⟨hxh, j, hj, hsj⟩
        have hji : j ≠ i := by rintro rfl; exact hxh (hsj.symm.trans hsi)
        exact ⟨j, hj, by rw [upd_ne _ _ hji]; exact hsj⟩
    refine ⟨inv_remove S.inv i, S.gen, S.plain, ?_, ?_, ?_⟩
    · intro x hx
      rw [hpres x hx]
      simp only [hent]
      by_cases hxh : x = h
      · simp [hxh]
      · simp [hxh, S.absent x hx]
    · intro x v hx hv j hj hsj
      simp only [hent] at hv
      by_cases hxh : x = h
      · rw [if_pos hxh] at hv; cases hv
      · rw [if_neg hxh] at hv
        have hji : j ≠ i := by rintro rfl; simp only [upd_same] at hsj; exact hx hsj.symm
        simp only [upd_ne _ _ hji] at hsj
        exact S.is_ x v hx hv j hj hsj
    · intro hdd j hj hsj
      obtain ⟨h1, h2⟩ := hd hdd
      by_cases hji : j = i
      · subst hji
        exact S.is_ h _ hn h2 j hj hsi
      · simp only [upd_ne _ _ hji] at hsj
        exact S.clean h1 j hj hsj
  · have he : (exists_ t h true).1 = t := by simp [exists_, hp]
    rw [he]
    refine ⟨S.inv, S.gen, S.plain, ?_, ?_, fun hdd => S.clean (hd hdd).1⟩
    · intro x hx
      simp only [hent]
      by_cases hxh : x = h
      · subst hxh; simp [hnp]
      · simp [hxh, S.absent x hx]
    · intro x v hx hv j hj hsj
      simp only [hent] at hv
      by_cases hxh : x = h
      · rw [if_pos hxh] at hv; cases hv
      · rw [if_neg hxh] at hv
        exact S.is_ x v hx hv j hj hsj

theorem remove_sim {σ : St} {A : Spec.St} (S : Sim σ A) {base key : Opd} {b i : Val}
    (ob : OSim σ b base) (oi : OSim σ i key) {o : Nat} (hb : base.read A = some (.tbl o)) {k : V}
    {h : Word32} (hr : key.read A = some k) (hh : Spec.hash k = some h) (hn : h ≠ nullHash) (d : Bool)
    (hd : d = false → (A.tab o).dirty = false ∧ (A.tab o).ent h = .is (.int 0)) :
    Good (remove σ b i) fun σ' =>
      Sim σ' (A.setTab o ⟨((A.tab o).set h .absent).ent, d⟩) ∧ σ'.next = σ.next := by
  obtain ⟨s, q, e⟩ := Reach.ofOpd S ob
  obtain ⟨e2, ok⟩ := q.src S hb
  have ho : o < A.next := S.next ▸ ok
  obtain ⟨t, ht, T⟩ := S.tab o ho
  simp only [remove, getHash_opd S oi hr hh, e, ex_bind, e2, toVal, ht, ex_pure]
  exact ⟨S.setTab (remove_tab T hn d hd), rfl⟩

/-! ### Statements -/

theorem exec_sim {σ : St} {A A' : Spec.St} (S : Sim σ A) (s : Stmt) (h : Spec.exec A s = some A') :
    Good (exec σ s) fun σ' => Sim σ' A' := by
  cases s with
  | assign first dst src =>
    cases first with
    | true =>
      simp only [Spec.exec, Option.bind_eq_bind, Option.bind_eq_some_iff] at h
      obtain ⟨⟨A1, d⟩, h1, ⟨A2, s⟩, h2, h3⟩ := h
      simp only [exec]
      refine (eval_sim _ S h1).bind ?_
      rintro ⟨σ1, vd⟩ ⟨S1, o1, l1⟩
      refine (eval_sim _ S1 h2).bind ?_
      rintro ⟨σ2, vs⟩ ⟨S2, o2, l2⟩
      exact assign_sim S2 (o1.later l2) o2 h3
    | false =>
      simp only [Spec.exec, Option.bind_eq_bind, Option.bind_eq_some_iff] at h
      obtain ⟨⟨A1, s⟩, h1, ⟨A2, d⟩, h2, h3⟩ := h
      simp only [exec]
      refine (eval_sim _ S h1).bind ?_
      rintro ⟨σ1, vs⟩ ⟨S1, o1, l1⟩
      refine (eval_sim _ S1 h2).bind ?_
      rintro ⟨σ2, vd⟩ ⟨S2, o2, l2⟩
      exact assign_sim S2 o2 (o1.later l2) h3
  | table dst es =>
    simp only [Spec.exec, Option.bind_eq_bind, Option.bind_eq_some_iff] at h
    obtain ⟨⟨A1, so⟩, h1, ⟨A2, d⟩, h2, h3⟩ := h
    simp only [exec]
    refine (entries_sim es S .none h1).bind ?_
    rintro ⟨σ1, vs⟩ ⟨S1, o1, l1⟩
    refine (eval_sim _ S1 h2).bind ?_
    rintro ⟨σ2, vd⟩ ⟨S2, o2, l2⟩
    simp only at h3 o1 o2 ⊢
    cases o1 with
    | none => exact assign_sim S2 o2 (.val (.int 0) trivial) h3
    | some o ho => exact assign_sim S2 o2 (.val (.tbl o) (Nat.lt_of_lt_of_le ho l2.1)) h3
  | empty dst =>
    simp only [Spec.exec, Option.bind_eq_bind, Option.bind_eq_some_iff] at h
    obtain ⟨⟨A2, d⟩, h2, h3⟩ := h
    simp only [exec]
    have hz : (0#32 : Word32) ≠ nullHash := by decide
    refine (assignToHash_sim S (ko := .val (.int 0)) (vo := .val (.int 0)) (.val (.int 0) trivial)
      (.val (.int 0) trivial) .none (by simp) rfl rfl hz rfl).bind ?_
    rintro ⟨σ1, vs⟩ ⟨e1, S1, l1⟩
    simp only [show A.some none = A.new from rfl] at e1 S1 l1 ⊢
    subst e1
    have hn1 : σ1.next = A.next + 1 := S1.next
    have oT : OSim σ1 (.tbl A.new.2) (.val (.tbl A.next)) :=
      .val (.tbl A.next) (by show A.next < σ1.next; omega)
    have hent : (A.new.1.write (.int 0) (.el A.new.2 0)).tab A.next =
        ⟨fun x => if x = 0 then .is (.int 0) else .absent, false⟩ := by
      simp [Spec.St.new, Spec.St.write, Spec.St.setTab, Spec.Table.set]
    refine (remove_sim S1 oT (.val (.int 0) trivial) (key := .val (.int 0)) rfl rfl rfl hz false
      (fun _ => by rw [hent]; exact ⟨rfl, rfl⟩)).bind ?_
    rintro σ2 ⟨S2, hn2⟩
    have hA : (A.new.1.write (.int 0) (.el A.new.2 0)).setTab A.next
        ⟨(((A.new.1.write (.int 0) (.el A.new.2 0)).tab A.next).set 0 .absent).ent, false⟩ = A.new.1 := by
      rw [hent]
      simp only [Spec.St.new, Spec.St.write, Spec.St.setTab, Spec.Table.set, Spec.St.mk.injEq, true_and,
        and_true]
      funext p
      by_cases hp : p = A.next
      · simp only [hp, if_true, Spec.Table.mk.injEq, and_true]
        funext x
        by_cases hx : x = 0#32 <;> simp [hx]
      · simp [hp]
    rw [hA] at S2
    refine (eval_sim _ S2 h2).bind ?_
    rintro ⟨σ3, vd⟩ ⟨S3, o3, l3⟩
    refine assign_sim S3 o3 (.val (.tbl A.next) ?_) h3
    have := l3.1
    show A.next < σ3.next
    simp only at this
    omega
  | exists_ dst e k =>
    simp only [Spec.exec, Option.bind_eq_bind, Option.bind_eq_some_iff] at h
    obtain ⟨⟨A1, b⟩, h1, ⟨A2, i⟩, h2, h3⟩ := h
    simp only [exec]
    refine (eval_sim _ S h1).bind ?_
    rintro ⟨σ1, vb⟩ ⟨S1, o1, l1⟩
    refine (eval_sim _ S1 h2).bind ?_
    rintro ⟨σ2, vi⟩ ⟨S2, o2, l2⟩
    have o1' := o1.later l2
    simp only at h3 o1' o2 ⊢
    cases b with
    | val a => cases h3
    | at_ p =>
      simp only [Option.bind_eq_some_iff] at h3
      obtain ⟨w, hw, h4⟩ := h3
      by_cases ht : ∃ o, w = .tbl o
      · obtain ⟨o, rfl⟩ := ht
        simp only [Option.bind_eq_some_iff] at h4
        obtain ⟨kk, hk, h', hh, h'', hu, ⟨A3, d⟩, h5, h6⟩ := h4
        obtain ⟨rfl, hn⟩ := usable_eq hu
        rw [exists_sim S2 o1' o2 hw hk hh hn]
        simp only [ex_bind]
        refine (eval_sim _ S2 h5).bind ?_
        rintro ⟨σ3, vd⟩ ⟨S3, o3, l3⟩
        refine assign_sim S3 o3 ?_ h6
        by_cases hab : (A2.tab o).ent h'' = .absent
        · rw [if_pos hab, if_pos hab]; exact .val (.int 0) trivial
        · rw [if_neg hab, if_neg hab]; exact .val (.int 1) trivial
      · have h5 : ∃ r : Spec.St × Opd, Spec.eval A2 dst = some r ∧
            Spec.assign r.1 r.2 (.val (.int 0)) = some A' := by
          cases w with
          | tbl o => exact absurd ⟨o, rfl⟩ ht
          | int _ => simpa only [Option.bind_eq_some_iff] using h4
          | float _ => simpa only [Option.bind_eq_some_iff] using h4
          | str _ => simpa only [Option.bind_eq_some_iff] using h4
        obtain ⟨⟨A3, d⟩, h5, h6⟩ := h5
        rw [exists_not S2 o1' hw (fun o e => ht ⟨o, e⟩)]
        simp only [ex_bind]
        refine (eval_sim _ S2 h5).bind ?_
        rintro ⟨σ3, vd⟩ ⟨S3, o3, l3⟩
        exact assign_sim S3 o3 (.val (.int 0) trivial) h6
  | remove e k =>
    simp only [Spec.exec, Option.bind_eq_bind, Option.bind_eq_some_iff] at h
    obtain ⟨⟨A1, b⟩, h1, ⟨A2, i⟩, h2, h3⟩ := h
    simp only [exec]
    refine (eval_sim _ S h1).bind ?_
    rintro ⟨σ1, vb⟩ ⟨S1, o1, l1⟩
    refine (eval_sim _ S1 h2).bind ?_
    rintro ⟨σ2, vi⟩ ⟨S2, o2, l2⟩
    have o1' := o1.later l2
    simp only at h3 o1' o2 ⊢
    cases b with
    | val a => cases h3
    | at_ p =>
      simp only [Option.bind_eq_some_iff] at h3
      obtain ⟨w, hw, h4⟩ := h3
      cases w with
      | int _ => cases h4
      | float _ => cases h4
      | str _ => cases h4
      | tbl o =>
        simp only [Option.bind_eq_some_iff, Option.pure_def, Option.some.injEq] at h4
        obtain ⟨kk, hk, h', hh, h'', hu, rfl⟩ := h4
        obtain ⟨rfl, hn⟩ := usable_eq hu
        exact (remove_sim S2 o1' o2 hw hk hh hn true (by simp)).mono fun σ' hs => hs.1

theorem run_sim : ∀ (ss : List Stmt) {σ : St} {A A' : Spec.St}, Sim σ A → Spec.run A ss = some A' →
    Good (run σ ss) fun σ' => Sim σ' A' := by
  intro ss
  induction ss with
  | nil => intro σ A A' S h; cases h; exact S
  | cons s ss ih =>
    intro σ A A' S h
    simp only [Spec.run, Option.bind_eq_bind, Option.bind_eq_some_iff] at h
    obtain ⟨A1, h1, h2⟩ := h
    simp only [run]
    exact (exec_sim S s h1).bind fun σ1 S1 => ih S1 h2

theorem start_sim : Sim start Spec.start :=
  ⟨fun _ => rfl, fun _ => trivial, rfl, fun o ho => absurd ho (Nat.not_lt_zero o)⟩

end Wrench.Tables
