import Verif.Tables.Lemmas

/- Every operation of the model does what the specification says. -/
namespace Wrench.Tables

open HashTable

/-- The result of evaluating an operand. -/
def Res (σ : St) (A' : Spec.St) (op : Opd) (r : St × Val) : Prop :=
  Sim r.1 A' ∧ OSim r.1 r.2 op ∧ Le σ r.1

theorem src_slot (σ : St) (v : Val) : σ.src (.slot v) = .ok v := rfl

theorem ex_err {α β : Type} (e : Err) (f : α → Except Err β) : (Except.error e >>= f) = .error e := rfl

/-! ### Indexing -/

theorem indexHash_sim {σ : St} {A : Spec.St} (S : Sim σ A) {key : Opd} {s : Src} (p : Ptr σ key s)
    {k : V} {h : Word32} (hr : key.read A = some k) (hh : Spec.hash k = some h) (hn : h ≠ nullHash)
    {o : Nat} (ho : o < A.next) :
    Good (indexHash σ s o) (Res σ (A.touch o h).1 (.at_ (.el o h))) := by
  unfold indexHash
  rw [getHash_ptr S p hr hh]
  simp only [ex_bind]
  refine (getCell_touch S ho hn).bind ?_
  rintro ⟨σ1, t, i⟩ ⟨e1, l1, hk⟩
  simp only at e1 l1 hk ⊢
  obtain ⟨v, hv⟩ := p.later l1
  rw [hv]
  simp only [ex_bind, ex_pure]
  rw [e1, setTab_setTab]
  obtain ⟨a, b, c, _⟩ := hk (upd t.keys i v)
  exact ⟨a, c, b⟩

theorem OSim.elLt {σ : St} {v : Val} {o : Nat} {h : Word32} (os : OSim σ v (.at_ (.el o h))) :
    o < σ.next := by
  cases os with
  | el _ _ _ _ _ ho => exact ho

/-- The operand `op` is reached from `s`. -/
def Reach (σ : St) (op : Opd) (s : Src) : Prop :=
  ∃ s', Ptr σ op s' ∧ deref depth σ s = .ok s'

theorem Reach.ofPtr {σ : St} {A : Spec.St} (S : Sim σ A) {op : Opd} {s : Src} (p : Ptr σ op s) :
    Reach σ op s := ⟨s, p, deref_ptr S p 63⟩

theorem Reach.ofOpd {σ : St} {A : Spec.St} (S : Sim σ A) {op : Opd} {v : Val} (h : OSim σ v op) :
    Reach σ op (.slot v) := by
  obtain ⟨s, e, p⟩ := deref_opd S h depth (by decide)
  exact ⟨s, p, e⟩

theorem indexIE_sim {σ : St} {A : Spec.St} (S : Sim σ A) {key base : Opd} {ix value : Src}
    (p : Ptr σ key ix) (rb : Reach σ base value)
    {k : V} {h : Word32} (hr : key.read A = some k) (hh : Spec.hash k = some h) (hn : h ≠ nullHash)
    {o : Nat} (hb : base.read A = some (.tbl o)) :
    Good (indexIE σ ix value) (Res σ (A.touch o h).1 (.at_ (.el o h))) := by
  obtain ⟨s, q, e⟩ := rb
  obtain ⟨e2, ok⟩ := q.src S hb
  simp only [indexIE, e, ex_bind, e2, toVal]
  exact indexHash_sim S p hr hh hn (S.next ▸ ok)

theorem indexEE_sim {σ : St} {A : Spec.St} (S : Sim σ A) {key base : Opd} {ix value : Src}
    (rk : Reach σ key ix) (rb : Reach σ base value)
    {k : V} {h : Word32} (hr : key.read A = some k) (hh : Spec.hash k = some h) (hn : h ≠ nullHash)
    {o : Nat} (hb : base.read A = some (.tbl o)) :
    Good (indexEE σ ix value) (Res σ (A.touch o h).1 (.at_ (.el o h))) := by
  obtain ⟨s, p, e⟩ := rk
  have e2 := (p.src S hr).1
  have hIE := indexIE_sim S p rb hr hh hn hb
  obtain ⟨sb, q, e3⟩ := rb
  obtain ⟨e4, ok⟩ := q.src S hb
  simp only [indexEE, e, ex_bind, e2]
  cases k with
  | int w => exact hIE
  | float w => exact hIE
  | str bs =>
    simp only [toVal, e3, ex_bind, e4]
    exact indexHash_sim S p hr hh hn (S.next ▸ ok)
  | tbl o' => cases hh

theorem indexEE_lost {σ : St} {A : Spec.St} (S : Sim σ A) {key base : Opd} {ix value : Src}
    (rk : Reach σ key ix) (rb : Reach σ base value)
    {bs : List Byte} (hr : key.read A = some (.str bs)) {w : V}
    (hb : base.read A = some w) (hw : ∀ o, w ≠ .tbl o) :
    Good (indexEE σ ix value) (Res σ A (.val (.int 0))) := by
  obtain ⟨s, p, e⟩ := rk
  have e2 := (p.src S hr).1
  obtain ⟨sb, q, e3⟩ := rb
  have e4 := (q.src S hb).1
  simp only [indexEE, e, ex_bind, e2, toVal, e3, e4]
  have : Res σ A (.val (.int 0)) (σ, .int 0) := ⟨S, .val (.int 0) trivial, Le.refl _⟩
  cases w with
  | tbl o => exact absurd rfl (hw o)
  | int w => exact this
  | float w => exact this
  | str w => exact this

/-- The key is not affected by a number becoming a table. -/
theorem read_new {A : Spec.St} {key : Opd} (hk : ∀ n, key ≠ .at_ (.var n))
    (hel : ∀ o h, key = .at_ (.el o h) → o < A.next) (v : V) (n : Nat) :
    key.read (A.new.1.write v (.var n)) = key.read A := by
  cases key with
  | val a => rfl
  | at_ p =>
    cases p with
    | var m => exact absurd rfl (hk m)
    | el o h =>
      have := hel o h rfl
      have hne : o ≠ A.next := by omega
      simp [Spec.Opd.read, Spec.St.read, Spec.St.write, Spec.St.new, Spec.St.setTab, hne]

/-- `become` in memory. -/
theorem become_sim {σ : St} {A : Spec.St} (S : Sim σ A) {base : Spec.Place} {V : Src}
    (q : Ptr σ (.at_ base) V) {β : Type} {f : St → Nat → Except Err β} {P : β → Prop}
    (hf : ∀ σ2, Sim σ2 (A.new.1.write (.tbl A.next) base) → Le σ σ2 → A.next < σ2.next →
      Good (f σ2 A.next) P) :
    Good (newTable σ >>= fun r => r.1.store V (.tbl r.2) >>= fun σ2 => f σ2 r.2) P := by
  refine (newTable_sim S).bind ?_
  rintro ⟨σ1, o⟩ ⟨ho, S1, l1, hsame⟩
  simp only at ho S1 l1 hsame ⊢
  subst ho
  have q1 : Ptr σ1 (.at_ base) V := by
    cases q with
    | var n => exact .var n
    | el o j h t ho hn ht hj hs =>
      exact .el o j h t (Nat.lt_of_lt_of_le ho l1.1) hn ((hsame o ho).trans ht) hj hs
  obtain ⟨σ2, e2, S2, l2⟩ := store_ptr S1 q1 (a := .tbl A.next)
    (by show A.next < A.next + 1; omega)
  rw [show (Val.tbl A.next) = toVal (.tbl A.next) from rfl, e2]
  simp only [ex_bind]
  refine hf σ2 S2 (l1.trans l2) ?_
  have h1 := l2.1
  have h2 := S1.next
  have : A.new.1.next = A.next + 1 := rfl
  omega

theorem indexEI_sim {σ : St} {A : Spec.St} (S : Sim σ A) {key : Opd} {ix : Src} {n : Nat}
    (hre : ∀ σ2, Sim σ2 (A.new.1.write (.tbl A.next) (.var n)) → Le σ σ2 → Reach σ2 key ix)
    {k : V} {h : Word32} (hr : key.read (A.new.1.write (.tbl A.next) (.var n)) = some k)
    (hh : Spec.hash k = some h) (hn : h ≠ nullHash) :
    Good (indexEI σ ix (.at_ (.var n)))
      (Res σ (A.become (.var n) h).1 (.at_ (.el A.next h))) := by
  have q : Ptr σ (.at_ (.var n)) (.at_ (.var n)) := .var n
  simp only [indexEI]
  rw [show deref depth σ (.at_ (.var n)) = .ok (.at_ (.var n)) from deref_ptr S q 63]
  simp only [ex_bind]
  refine become_sim S q (f := fun σ2 o => single σ2 ix >>= fun I => indexHash σ2 (.slot I) o) ?_
  intro σ2 S2 l2 hlt
  obtain ⟨s, p, e⟩ := hre σ2 S2 l2
  obtain ⟨b, e1, hb, okb⟩ := single_reach S2 e p hr hh
  rw [e1]
  simp only [ex_bind]
  have hlt2 : A.next < (A.new.1.write (.tbl A.next) (.var n)).next := by rw [← S2.next]; exact hlt
  have := indexHash_sim S2 (.val b okb) (k := b) rfl hb hn (o := A.next) hlt2
  exact this.mono fun r hres => ⟨hres.1, hres.2.1, l2.trans hres.2.2⟩

/-! ### `t[k]` -/

/-- The part of `wr_index` after the references. -/
def core (σ : St) (ix value : Src) (keep : Val) : Val → Val → Except Err (St × Val)
  | .float _, _ => .ok (σ, keep)
  | .int _, .int _ => .error .scope
  | .int _, .float _ => .error .scope
  | .int _, _ => indexIE σ ix value
  | _, .int _ => indexEI σ ix value
  | _, .float _ => indexEI σ ix value
  | _, _ => indexEE σ ix value

def Plain (v : Val) : Prop := ∀ l, v ≠ .ref l

theorem disp_core {σ : St} {ix value : Src} {keep vi vb : Val} (f : Nat) (hi : σ.src ix = .ok vi)
    (hb : σ.src value = .ok vb) (ni : Plain vi) (nb : Plain vb) :
    indexDisp (f + 1) σ ix value keep = core σ ix value keep vi vb := by
  simp only [indexDisp, hi, hb, ex_bind]
  cases vi with
  | ref l => exact absurd rfl (ni l)
  | int _ => cases vb <;> first | rfl | exact absurd rfl (nb _)
  | float _ => cases vb <;> first | rfl | exact absurd rfl (nb _)
  | str _ => cases vb <;> first | rfl | exact absurd rfl (nb _)
  | tbl _ => cases vb <;> first | rfl | exact absurd rfl (nb _)
  | mem _ => cases vb <;> first | rfl | exact absurd rfl (nb _)

/-- An operand where `wr_index` looks at it: its value in a slot or variable, or an element. -/
inductive Seen (σ : St) (A : Spec.St) : Opd → Src → Val → Prop where
  | val (a : V) : okV σ.next a → Seen σ A (.val a) (.slot (toVal a)) (toVal a)
  | var (n : Nat) : Seen σ A (.at_ (.var n)) (.at_ (.var n)) (toVal (A.var n))
  | el (o : Nat) (h : Word32) (l : Loc) : OSim σ (.mem l) (.at_ (.el o h)) →
      Seen σ A (.at_ (.el o h)) (.slot (.mem l)) (.mem l)

theorem plain_toVal (a : V) : Plain (toVal a) := by
  intro l; cases a <;> simp [toVal]

theorem Seen.plain {σ : St} {A : Spec.St} {op : Opd} {s : Src} {v : Val} (h : Seen σ A op s v) :
    Plain v := by
  cases h with
  | val a => exact plain_toVal a
  | var n => exact plain_toVal _
  | el o h l => intro l; simp

theorem Seen.src {σ : St} {A : Spec.St} (S : Sim σ A) {op : Opd} {s : Src} {v : Val}
    (h : Seen σ A op s v) : σ.src s = .ok v := by
  cases h with
  | val a => rfl
  | var n => simp [St.src, St.read, S.var n]
  | el o h l => rfl

theorem Seen.reach {σ : St} {A : Spec.St} (S : Sim σ A) {op : Opd} {s : Src} {v : Val}
    (h : Seen σ A op s v) : Reach σ op s := by
  cases h with
  | val a ha => exact .ofPtr S (.val a ha)
  | var n => exact .ofPtr S (.var n)
  | el o h l os => exact .ofOpd S os

theorem disp_rr {σ : St} {ix value : Src} {keep : Val} {a b : Loc} (f : Nat)
    (hi : σ.src ix = .ok (.ref a)) (hb : σ.src value = .ok (.ref b)) :
    indexDisp (f + 1) σ ix value keep = indexDisp f σ (.at_ a) (.at_ b) keep := by
  simp only [indexDisp, hi, hb, ex_bind]

theorem disp_rp {σ : St} {ix value : Src} {keep vb : Val} {a : Loc} (f : Nat)
    (hi : σ.src ix = .ok (.ref a)) (hb : σ.src value = .ok vb) (nb : Plain vb) :
    indexDisp (f + 1) σ ix value keep = indexDisp f σ (.at_ a) value keep := by
  simp only [indexDisp, hi, hb, ex_bind]
  cases vb with
  | ref l => exact absurd rfl (nb l)
  | _ => rfl

theorem disp_pr {σ : St} {ix value : Src} {keep vi : Val} {b : Loc} (f : Nat)
    (hi : σ.src ix = .ok vi) (ni : Plain vi) (nf : ∀ w, vi ≠ .float w)
    (hb : σ.src value = .ok (.ref b)) :
    indexDisp (f + 1) σ ix value keep = indexDisp f σ ix (.at_ b) keep := by
  simp only [indexDisp, hi, hb, ex_bind]
  cases vi with
  | ref l => exact absurd rfl (ni l)
  | float w => exact absurd rfl (nf w)
  | _ => rfl

theorem disp_f {σ : St} {ix value : Src} {keep vb : Val} {w : Word32} (f : Nat)
    (hi : σ.src ix = .ok (.float w)) (hb : σ.src value = .ok vb) :
    indexDisp (f + 1) σ ix value keep = .ok (σ, keep) := by
  simp only [indexDisp, hi, hb, ex_bind]
  cases vb <;> rfl

/-- The references in front of the operands are followed, except in front of a table indexed with a
float. -/
theorem disp_seen {σ : St} {A : Spec.St} (S : Sim σ A) {key base : Opd} {i b : Val}
    (ok : OSim σ i key) (ob : OSim σ b base) :
    ∃ ix value vi vb, Seen σ A key ix vi ∧ Seen σ A base value vb ∧
      index σ i b = core σ ix value b vi vb := by
  have sv : ∀ n, σ.src (.at_ (.var n)) = .ok (toVal (A.var n)) := fun n => by
    simp [St.src, St.read, S.var n]
  unfold index
  obtain ⟨f, hf⟩ : ∃ f, depth = f + 1 + 1 := ⟨62, rfl⟩
  rw [hf]
  have hk : ∀ (ix : Src) (vi : Val), σ.src ix = .ok vi → Plain vi →
      ∃ value vb, Seen σ A base value vb ∧
        indexDisp (f + 1 + 1) σ ix (.slot b) b = core σ ix value b vi vb := by
    intro ix vi hi hp
    cases ob with
    | val a ha => exact ⟨_, _, .val a ha, disp_core _ hi (src_slot _ _) hp (plain_toVal a)⟩
    | el o g j h t ho hn ht d =>
      exact ⟨_, _, .el o h _ (.el o g j h t ho hn ht d),
        disp_core _ hi (src_slot _ _) hp (fun l => by simp)⟩
    | var n =>
      refine ⟨_, _, .var n, ?_⟩
      by_cases hf : ∃ w, vi = .float w
      · obtain ⟨w, rfl⟩ := hf
        rw [disp_f _ hi (src_slot _ _)]
        cases A.var n <;> rfl
      · rw [disp_pr _ hi hp (fun w e => hf ⟨w, e⟩) (src_slot _ _)]
        exact disp_core _ hi (sv n) hp (plain_toVal _)
  cases ok with
  | val a ha =>
    obtain ⟨v, vb, h1, h2⟩ := hk (.slot (toVal a)) (toVal a) (src_slot _ _) (plain_toVal a)
    exact ⟨_, _, _, _, .val a ha, h1, h2⟩
  | el o g j h t ho hn ht d =>
    obtain ⟨v, vb, h1, h2⟩ := hk (.slot (.mem (.el o g j))) _ (src_slot _ _) (fun l => by simp)
    exact ⟨_, _, _, _, .el o h _ (.el o g j h t ho hn ht d), h1, h2⟩
  | var m =>
    cases ob with
    | val a ha =>
      refine ⟨_, _, _, _, .var m, .val a ha, ?_⟩
      rw [disp_rp _ (src_slot _ _) (src_slot _ _) (plain_toVal a)]
      exact disp_core _ (sv m) (src_slot _ _) (plain_toVal _) (plain_toVal a)
    | var n =>
      refine ⟨_, _, _, _, .var m, .var n, ?_⟩
      rw [disp_rr _ (src_slot _ _) (src_slot _ _)]
      exact disp_core _ (sv m) (sv n) (plain_toVal _) (plain_toVal _)
    | el o g j h t ho hn ht d =>
      refine ⟨_, _, _, _, .var m, .el o h _ (.el o g j h t ho hn ht d), ?_⟩
      rw [disp_rp _ (src_slot _ _) (src_slot _ _) (fun l => by simp)]
      exact disp_core _ (sv m) (src_slot _ _) (plain_toVal _) (fun l => by simp)

/-- What the specification does with a key that is a string or in an element, and a base. -/
theorem core_num {σ : St} {A : Spec.St} (S : Sim σ A) {key : Opd} {ix : Src} {vi : Val} {n : Nat}
    (sk : Seen σ A key ix vi) (keep : Val) {k w : V} {h : Word32} (hr : key.read A = some k)
    (hw : A.var n = w) (hnum : (∃ x, w = .int x) ∨ ∃ x, w = .float x) (hh : Spec.hash k = some h)
    (hn : h ≠ nullHash) (hvi : (∃ bs, vi = .str bs) ∨ ∃ l, vi = .mem l) :
    Good (core σ ix (.at_ (.var n)) keep vi (toVal w))
      (Res σ (A.become (.var n) h).1 (.at_ (.el A.next h))) := by
  have he : core σ ix (.at_ (.var n)) keep vi (toVal w) = indexEI σ ix (.at_ (.var n)) := by
    rcases hvi with ⟨bs, rfl⟩ | ⟨l, rfl⟩ <;> rcases hnum with ⟨x, rfl⟩ | ⟨x, rfl⟩ <;> rfl
  rw [he]
  cases sk with
  | val a ha =>
    exact indexEI_sim S (fun σ2 S2 l2 => .ofPtr S2 (.val a (okV_mono l2.1 ha))) (key := .val a) hr hh hn
  | el o h' l os =>
    refine indexEI_sim S (fun σ2 S2 l2 => .ofOpd S2 (os.later l2)) (key := .at_ (.el o h')) ?_ hh hn
    rw [read_new (by simp) _ _ _, hr]
    intro o2 h2 e
    cases e
    rw [← S.next]
    exact os.elLt
  | var m =>
    have hmn : m ≠ n := by
      rintro rfl
      rw [hw] at hvi
      rcases hnum with ⟨x, rfl⟩ | ⟨x, rfl⟩ <;> rcases hvi with ⟨bs, e⟩ | ⟨l, e⟩ <;> cases e
    refine indexEI_sim S (fun σ2 S2 l2 => .ofPtr S2 (.var m)) (key := .at_ (.var m)) ?_ hh hn
    simp only [Spec.Opd.read, Spec.St.read, Spec.St.write, if_neg hmn] at hr ⊢
    exact hr

theorem core_tbl {σ : St} {A : Spec.St} (S : Sim σ A) {key base : Opd} {ix value : Src} {vi vb : Val}
    (sk : Seen σ A key ix vi) (sb : Seen σ A base value vb) (keep : Val) {k : V} {h : Word32} {o : Nat}
    (hr : key.read A = some k) (hb : base.read A = some (.tbl o)) (hh : Spec.hash k = some h)
    (hn : h ≠ nullHash) (hf : ∀ w, vi ≠ .float w) :
    Good (core σ ix value keep vi vb) (Res σ (A.touch o h).1 (.at_ (.el o h))) := by
  have hvb : vb = .tbl o ∨ ∃ l, vb = .mem l := by
    cases sb with
    | val a => cases hb; exact Or.inl rfl
    | var n =>
      simp only [Spec.Opd.read, Spec.St.read, Option.some.injEq] at hb
      exact Or.inl (by rw [hb]; rfl)
    | el _ _ l => exact Or.inr ⟨l, rfl⟩
  have rk := sk.reach S
  have rb := sb.reach S
  have hEE := indexEE_sim S rk rb hr hh hn hb
  have hIE : ∀ w, vi = .int w → Good (indexIE σ ix value) (Res σ (A.touch o h).1 (.at_ (.el o h))) := by
    intro w e
    refine indexIE_sim S ?_ rb hr hh hn hb
    cases sk with
    | val a ha => exact .val a ha
    | var n => exact .var n
    | el => cases e
  cases vi with
  | float w => exact absurd rfl (hf w)
  | ref l => exact absurd rfl (sk.plain l)
  | int w => rcases hvb with rfl | ⟨l, rfl⟩ <;> exact hIE w rfl
  | str bs => rcases hvb with rfl | ⟨l, rfl⟩ <;> exact hEE
  | tbl x => rcases hvb with rfl | ⟨l, rfl⟩ <;> exact hEE
  | mem x => rcases hvb with rfl | ⟨l, rfl⟩ <;> exact hEE

theorem core_lost {σ : St} {A : Spec.St} (S : Sim σ A) {key base : Opd} {ix value : Src} {vi vb : Val}
    (sk : Seen σ A key ix vi) (sb : Seen σ A base value vb) (keep : Val) {bs : List Byte} {w : V}
    (hr : key.read A = some (.str bs)) (hb : base.read A = some w) (hw : ∀ o, w ≠ .tbl o)
    (hvb : (∃ x, vb = .str x) ∨ ∃ l, vb = .mem l) :
    Good (core σ ix value keep vi vb) (Res σ A (.val (.int 0))) := by
  have hEE := indexEE_lost S (sk.reach S) (sb.reach S) hr hb hw
  have hvi : vi = .str bs ∨ ∃ l, vi = .mem l := by
    cases sk with
    | val a => cases hr; exact Or.inl rfl
    | var n =>
      simp only [Spec.Opd.read, Spec.St.read, Option.some.injEq] at hr
      exact Or.inl (by rw [hr]; rfl)
    | el _ _ l => exact Or.inr ⟨l, rfl⟩
  rcases hvi with rfl | ⟨l, rfl⟩ <;> rcases hvb with ⟨x, rfl⟩ | ⟨l, rfl⟩ <;> exact hEE

theorem seen_direct {σ : St} {A : Spec.St} {key : Opd} {ix : Src} {vi : Val} (sk : Seen σ A key ix vi)
    {k : V} (hr : key.read A = some k) :
    (Spec.direct key = true ∧ vi = toVal k) ∨ (Spec.direct key = false ∧ ∃ l, vi = .mem l) := by
  cases sk with
  | val a => cases hr; exact Or.inl ⟨rfl, rfl⟩
  | var n =>
    simp only [Spec.Opd.read, Spec.St.read, Option.some.injEq] at hr
    rw [hr]; exact Or.inl ⟨rfl, rfl⟩
  | el _ _ l => exact Or.inr ⟨rfl, l, rfl⟩

theorem index_sim {σ : St} {A A' : Spec.St} (S : Sim σ A) {key base r : Opd} {i b : Val}
    (ok : OSim σ i key) (ob : OSim σ b base) (h : Spec.index A key base = some (A', r)) :
    Good (index σ i b) (Res σ A' r) := by
  obtain ⟨ix, value, vi, vb, sk, sb, e⟩ := disp_seen S ok ob
  rw [e]
  unfold Spec.index at h
  cases hr : key.read A with
  | none => rw [hr] at h; cases h
  | some k =>
  rw [hr] at h
  cases base with
  | val a => cases h
  | at_ p =>
  simp only at h
  have hsd := seen_direct sk hr
  by_cases hf : (Spec.direct key && k.isFloat) = true
  · rw [if_pos hf] at h
    simp only [Option.some.injEq, Prod.mk.injEq] at h
    rw [← h.1, ← h.2]
    rw [Bool.and_eq_true] at hf
    rcases hsd with ⟨_, rfl⟩ | ⟨h1, _⟩
    · cases k <;> simp [Spec.V.isFloat] at hf
      have : core σ ix value b (toVal (.float ‹_›)) vb = .ok (σ, b) := by cases vb <;> rfl
      rw [this]
      exact ⟨S, ob, Le.refl _⟩
    · rw [h1] at hf; exact absurd hf.1 (by simp)
  · rw [if_neg hf] at h
    have hnf : ∀ w, vi ≠ .float w := by
      rintro w rfl
      rcases hsd with ⟨h1, h2⟩ | ⟨_, l, h2⟩
      · cases k <;> simp [toVal] at h2
        exact hf (by simp [h1, Spec.V.isFloat])
      · cases h2
    cases hw : A.read p with
    | none => rw [hw] at h; cases h
    | some w =>
      rw [hw] at h
      have hb : (Spec.Opd.at_ p).read A = some w := hw
      have hus : ∀ {f : Word32 → Spec.St × Opd} {R : Spec.St × Opd},
          ((Spec.hash k).bind fun a => (Spec.usable a).bind fun a => some (f a)) = some R →
          ∃ hh, Spec.hash k = some hh ∧ hh ≠ nullHash ∧ f hh = R := by
        intro f R e
        cases e1 : Spec.hash k with
        | none => rw [e1] at e; cases e
        | some a =>
          rw [e1] at e
          simp only [Option.bind_some] at e
          cases e2 : Spec.usable a with
          | none => rw [e2] at e; cases e
          | some b =>
            obtain ⟨rfl, hn⟩ := usable_eq e2
            rw [e2] at e
            simp only [Option.bind_some, Option.some.injEq] at e
            exact ⟨b, rfl, hn, e⟩
      by_cases ht : ∃ o, w = .tbl o
      · obtain ⟨o, rfl⟩ := ht
        simp only at h
        obtain ⟨hh, h1, h2, h3⟩ := hus h
        rw [show A' = (A.touch o hh).1 from (congrArg Prod.fst h3).symm,
          show r = .at_ (.el o hh) from (congrArg Prod.snd h3).symm]
        exact core_tbl S sk sb b hr hb h1 h2 hnf
      · have h' : (if p.isVar && (w.isInt || w.isFloat) then
            if Spec.direct key && k.isInt then none else do
              let h ← Spec.usable (← Spec.hash k)
              return A.become p h
            else if k.isStr then some (A, .val (.int 0)) else none) = some (A', r) := by
          cases w with
          | tbl o => exact absurd ⟨o, rfl⟩ ht
          | int _ => exact h
          | float _ => exact h
          | str _ => exact h
        by_cases hv : (p.isVar && (w.isInt || w.isFloat)) = true
        · rw [if_pos hv] at h'
          by_cases hd : (Spec.direct key && k.isInt) = true
          · rw [if_pos hd] at h'; cases h'
          · rw [if_neg hd] at h'
            obtain ⟨hh, h1, h2, h3⟩ := hus h'
            rw [show A' = (A.become p hh).1 from (congrArg Prod.fst h3).symm,
              show r = .at_ (.el A.next hh) from (congrArg Prod.snd h3).symm]
            have hnum : (∃ x, w = .int x) ∨ ∃ x, w = .float x := by
              cases w <;> simp [Spec.V.isInt, Spec.V.isFloat] at hv ⊢
            cases p with
            | el o x => simp [Spec.Place.isVar] at hv
            | var n =>
              have hwn : A.var n = w := by simpa [Spec.St.read] using hw
              have hvi : (∃ bs, vi = .str bs) ∨ ∃ l, vi = .mem l := by
                rcases hsd with ⟨h4, rfl⟩ | ⟨_, h5⟩
                · left
                  cases k with
                  | int x => exact absurd (by simp [h4, Spec.V.isInt]) hd
                  | float x => exact absurd rfl (hnf x)
                  | str bs => exact ⟨bs, rfl⟩
                  | tbl o => cases h1
                · exact Or.inr h5
              cases sb with
              | var n =>
                rw [hwn]
                exact core_num S sk b hr hwn hnum h1 h2 hvi
        · rw [if_neg hv] at h'
          by_cases hs : k.isStr = true
          · rw [if_pos hs] at h'
            simp only [Option.some.injEq, Prod.mk.injEq] at h'
            rw [← h'.1, ← h'.2]
            cases k with
            | str bs =>
              refine core_lost S sk sb b hr hb (fun o e => ht ⟨o, e⟩) ?_
              cases sb with
              | var n =>
                have hwn : A.var n = w := by simpa [Spec.St.read] using hw
                rw [hwn]
                cases w with
                | tbl o => exact absurd ⟨o, rfl⟩ ht
                | int _ => simp [Spec.Place.isVar, Spec.V.isInt] at hv
                | float _ => simp [Spec.Place.isVar, Spec.V.isInt, Spec.V.isFloat] at hv
                | str x => exact Or.inl ⟨x, rfl⟩
              | el _ _ l => exact Or.inr ⟨l, rfl⟩
            | int _ => cases hs
            | float _ => cases hs
            | tbl _ => cases hs
          · rw [if_neg hs] at h'; cases h'

/-! ### `t.name` -/

theorem name_sim {σ : St} {A A' : Spec.St} (S : Sim σ A) {base r : Opd} {b : Val} {h : Word32}
    (ob : OSim σ b base) (e : Spec.name A base h = some (A', r)) :
    Good (indexName σ b h) (Res σ A' r) := by
  unfold Spec.name at e
  cases hu : Spec.usable h with
  | none => rw [hu] at e; cases e
  | some h' =>
  obtain ⟨rfl, hn⟩ := usable_eq hu
  rw [hu] at e
  simp only [Option.bind_eq_bind, Option.bind_some] at e
  cases base with
  | val a => cases e
  | at_ p =>
  simp only at e
  cases hw : A.read p with
  | none => rw [hw] at e; cases e
  | some w =>
  rw [hw] at e
  simp only [Option.bind_some] at e
  obtain ⟨s, q, e1⟩ := Reach.ofOpd S ob
  obtain ⟨e2, ok⟩ := q.src S (a := w) hw
  simp only [indexName, e1, ex_bind, e2]
  by_cases ht : ∃ o, w = .tbl o
  · obtain ⟨o, rfl⟩ := ht
    simp only [Option.pure_def, Option.some.injEq] at e
    rw [show A' = (A.touch o h').1 from (congrArg Prod.fst e).symm,
      show r = .at_ (.el o h') from (congrArg Prod.snd e).symm]
    exact indexHash_sim S (.val (.int h') trivial) (k := .int h') rfl rfl hn (S.next ▸ ok)
  · have e' : some (A.become p h') = some (A', r) := by
      cases w with
      | tbl o => exact absurd ⟨o, rfl⟩ ht
      | int _ => exact e
      | float _ => exact e
      | str _ => exact e
    simp only [Option.some.injEq] at e'
    rw [show A' = (A.become p h').1 from (congrArg Prod.fst e').symm,
      show r = .at_ (.el A.next h') from (congrArg Prod.snd e').symm]
    have hb := become_sim S q (f := fun σ2 o => indexHash σ2 (.slot (.int h')) o)
      (P := Res σ (A.become p h').1 (.at_ (.el A.next h'))) (by
        intro σ2 S2 l2 hlt
        have hlt2 : A.next < (A.new.1.write (.tbl A.next) p).next := by rw [← S2.next]; exact hlt
        have := indexHash_sim S2 (.val (.int h') trivial) (k := .int h') rfl rfl hn (o := A.next) hlt2
        exact this.mono fun r hres => ⟨hres.1, hres.2.1, l2.trans hres.2.2⟩)
    cases w with
    | tbl o => exact absurd ⟨o, rfl⟩ ht
    | int _ => exact hb
    | float _ => exact hb
    | str _ => exact hb

theorem eval_sim : ∀ (e : Ex) {σ : St} {A A' : Spec.St} {r : Opd}, Sim σ A →
    Spec.eval A e = some (A', r) → Good (eval σ e) (Res σ A' r) := by
  intro e
  induction e with
  | int w =>
    intro σ A A' r S h
    cases h
    exact ⟨S, .val (.int w) trivial, Le.refl _⟩
  | float w =>
    intro σ A A' r S h
    cases h
    exact ⟨S, .val (.float w) trivial, Le.refl _⟩
  | str w =>
    intro σ A A' r S h
    cases h
    exact ⟨S, .val (.str w) trivial, Le.refl _⟩
  | var n =>
    intro σ A A' r S h
    cases h
    exact ⟨S, .var n, Le.refl _⟩
  | ix e k ihe ihk =>
    intro σ A A' r S h
    simp only [Spec.eval, Option.bind_eq_bind, Option.bind_eq_some_iff] at h
    obtain ⟨⟨A1, b⟩, h1, ⟨A2, i⟩, h2, h3⟩ := h
    simp only [eval]
    refine (ihe S h1).bind ?_
    rintro ⟨σ1, vb⟩ ⟨S1, ob, l1⟩
    refine (ihk S1 h2).bind ?_
    rintro ⟨σ2, vi⟩ ⟨S2, oi, l2⟩
    exact (index_sim S2 oi (ob.later l2) h3).mono fun r hres =>
      ⟨hres.1, hres.2.1, (l1.trans l2).trans hres.2.2⟩
  | name e h ihe =>
    intro σ A A' r S h
    simp only [Spec.eval, Option.bind_eq_bind, Option.bind_eq_some_iff] at h
    obtain ⟨⟨A1, b⟩, h1, h3⟩ := h
    simp only [eval]
    refine (ihe S h1).bind ?_
    rintro ⟨σ1, vb⟩ ⟨S1, ob, l1⟩
    exact (name_sim S1 ob h3).mono fun r hres => ⟨hres.1, hres.2.1, l1.trans hres.2.2⟩

/-! ### Assignment -/

/-- The part of `wr_assign` after the references. -/
def acore (σ : St) (to_ from_ : Src) : Val → Val → Except Err St
  | .int _, .int w => σ.store to_ (.int w)
  | .int _, .float w => σ.store to_ (.float w)
  | .float _, .int w => σ.store to_ (.int w)
  | .float _, .float w => σ.store to_ (.float w)
  | .int _, _ => do σ.store to_ (← σ.src (← deref depth σ from_))
  | .float _, _ => do σ.store to_ (← σ.src (← deref depth σ from_))
  | _, _ => assignE σ to_ from_

theorem adisp_core {σ : St} {a b : Src} {va vb : Val} (f : Nat) (ha : σ.src a = .ok va)
    (hb : σ.src b = .ok vb) (na : Plain va) (nb : Plain vb) :
    assignDisp (f + 1) σ a b = acore σ a b va vb := by
  simp only [assignDisp, ha, hb, ex_bind]
  cases va with
  | ref l => exact absurd rfl (na l)
  | int _ => cases vb <;> first | rfl | exact absurd rfl (nb _)
  | float _ => cases vb <;> first | rfl | exact absurd rfl (nb _)
  | str _ => cases vb <;> first | rfl | exact absurd rfl (nb _)
  | tbl _ => cases vb <;> first | rfl | exact absurd rfl (nb _)
  | mem _ => cases vb <;> first | rfl | exact absurd rfl (nb _)

theorem adisp_rr {σ : St} {x y : Src} {a b : Loc} (f : Nat)
    (hi : σ.src x = .ok (.ref a)) (hb : σ.src y = .ok (.ref b)) :
    assignDisp (f + 1) σ x y = assignDisp f σ (.at_ a) (.at_ b) := by
  simp only [assignDisp, hi, hb, ex_bind]

theorem adisp_rp {σ : St} {x y : Src} {a : Loc} {vb : Val} (f : Nat)
    (hi : σ.src x = .ok (.ref a)) (hb : σ.src y = .ok vb) (nb : Plain vb) :
    assignDisp (f + 1) σ x y = assignDisp f σ (.at_ a) y := by
  simp only [assignDisp, hi, hb, ex_bind]
  cases vb with
  | ref l => exact absurd rfl (nb l)
  | _ => rfl

theorem adisp_pr {σ : St} {x y : Src} {va : Val} {b : Loc} (f : Nat)
    (hi : σ.src x = .ok va) (na : Plain va) (hb : σ.src y = .ok (.ref b)) :
    assignDisp (f + 1) σ x y = assignDisp f σ x (.at_ b) := by
  simp only [assignDisp, hi, hb, ex_bind]
  cases va with
  | ref l => exact absurd rfl (na l)
  | _ => rfl

theorem adisp_seen {σ : St} {A : Spec.St} (S : Sim σ A) {d s : Opd} {a b : Val}
    (oa : OSim σ a d) (ob : OSim σ b s) :
    ∃ x y va vb, Seen σ A d x va ∧ Seen σ A s y vb ∧ assign σ a b = acore σ x y va vb := by
  have sv : ∀ n, σ.src (.at_ (.var n)) = .ok (toVal (A.var n)) := fun n => by
    simp [St.src, St.read, S.var n]
  unfold assign
  obtain ⟨f, hf⟩ : ∃ f, depth = f + 1 + 1 := ⟨62, rfl⟩
  rw [hf]
  have hk : ∀ (x : Src) (va : Val), σ.src x = .ok va → Plain va →
      ∃ y vb, Seen σ A s y vb ∧ assignDisp (f + 1 + 1) σ x (.slot b) = acore σ x y va vb := by
    intro x va hi hp
    cases ob with
    | val a ha => exact ⟨_, _, .val a ha, adisp_core _ hi (src_slot _ _) hp (plain_toVal a)⟩
    | el o g j h t ho hn ht d =>
      exact ⟨_, _, .el o h _ (.el o g j h t ho hn ht d),
        adisp_core _ hi (src_slot _ _) hp (fun l => by simp)⟩
    | var n =>
      refine ⟨_, _, .var n, ?_⟩
      rw [adisp_pr _ hi hp (src_slot _ _)]
      exact adisp_core _ hi (sv n) hp (plain_toVal _)
  cases oa with
  | val a ha =>
    obtain ⟨v, vb, h1, h2⟩ := hk (.slot (toVal a)) (toVal a) (src_slot _ _) (plain_toVal a)
    exact ⟨_, _, _, _, .val a ha, h1, h2⟩
  | el o g j h t ho hn ht d =>
    obtain ⟨v, vb, h1, h2⟩ := hk (.slot (.mem (.el o g j))) _ (src_slot _ _) (fun l => by simp)
    exact ⟨_, _, _, _, .el o h _ (.el o g j h t ho hn ht d), h1, h2⟩
  | var m =>
    cases ob with
    | val a ha =>
      refine ⟨_, _, _, _, .var m, .val a ha, ?_⟩
      rw [adisp_rp _ (src_slot _ _) (src_slot _ _) (plain_toVal a)]
      exact adisp_core _ (sv m) (src_slot _ _) (plain_toVal _) (plain_toVal a)
    | var n =>
      refine ⟨_, _, _, _, .var m, .var n, ?_⟩
      rw [adisp_rr _ (src_slot _ _) (src_slot _ _)]
      exact adisp_core _ (sv m) (sv n) (plain_toVal _) (plain_toVal _)
    | el o g j h t ho hn ht d =>
      refine ⟨_, _, _, _, .var m, .el o h _ (.el o g j h t ho hn ht d), ?_⟩
      rw [adisp_rp _ (src_slot _ _) (src_slot _ _) (fun l => by simp)]
      exact adisp_core _ (sv m) (src_slot _ _) (plain_toVal _) (fun l => by simp)

/-- Whatever the types, the value of the source is stored. -/
theorem acore_store {σ : St} {A : Spec.St} (S : Sim σ A) {d s : Opd} {x y : Src} {va vb : Val}
    (sa : Seen σ A d x va) (sb : Seen σ A s y vb) {v : V} (hr : s.read A = some v) :
    ∃ D, Ptr σ d D ∧ acore σ x y va vb = σ.store D (toVal v) := by
  obtain ⟨Y, py, ey⟩ := sb.reach S
  have e2 := (py.src S hr).1
  have ed : deref depth σ Y = .ok Y := deref_ptr S py 63
  have hx := sa.src S
  have hE : ∀ {l : Loc}, va = .mem l → assignE σ x y = (deref depth σ x >>=
      fun D => σ.store D (toVal v)) := by
    intro l hm
    subst hm
    simp only [assignE, ey, ex_bind, hx, ed, e2]
  have hE2 : ∀ a : V, va = toVal a → assignE σ x y = σ.store x (toVal v) := by
    intro a ha
    subst ha
    simp only [assignE, ey, ex_bind, hx, e2]
    cases a <;> simp only [toVal]
  have hvb : vb = toVal v ∨ ∃ l, vb = .mem l := by
    rcases seen_direct sb hr with ⟨_, h⟩ | ⟨_, h⟩
    · exact Or.inl h
    · exact Or.inr h
  have hD : (deref depth σ y >>= fun s => σ.src s >>= fun w => σ.store x w) = σ.store x (toVal v) := by
    simp only [ey, ex_bind, e2]
  have hst : ∀ a : V, va = toVal a → acore σ x y va vb = σ.store x (toVal v) := by
    intro a ha
    have hE3 := hE2 a ha
    subst ha
    rcases hvb with rfl | ⟨l, rfl⟩
    · cases a <;> cases v <;> simp only [toVal, acore] at hE3 hD ⊢ <;> assumption
    · cases a <;> simp only [toVal, acore] at hE3 hD ⊢ <;> assumption
  cases sa with
  | val a ha => exact ⟨_, .val a ha, hst a rfl⟩
  | var n => exact ⟨_, .var n, hst _ rfl⟩
  | el o h l os =>
    obtain ⟨D, p, e⟩ := Reach.ofOpd S os
    refine ⟨D, p, ?_⟩
    have : acore σ (.slot (.mem l)) y (.mem l) vb = assignE σ (.slot (.mem l)) y := by
      rcases hvb with rfl | ⟨l, rfl⟩
      · cases v <;> simp only [toVal, acore]
      · simp only [acore]
    rw [this, hE rfl, e]
    simp only [ex_bind]

theorem assign_sim {σ : St} {A A' : Spec.St} (S : Sim σ A) {d s : Opd} {a b : Val}
    (oa : OSim σ a d) (ob : OSim σ b s) (h : Spec.assign A d s = some A') :
    Good (assign σ a b) fun σ' => Sim σ' A' := by
  unfold Spec.assign at h
  cases hr : s.read A with
  | none => rw [hr] at h; cases h
  | some v =>
  rw [hr] at h
  simp only [Option.bind_eq_bind, Option.bind_some] at h
  obtain ⟨x, y, va, vb, sa, sb, e⟩ := adisp_seen S oa ob
  obtain ⟨D, p, e2⟩ := acore_store S sa sb hr
  have okv : okV A.next v := by
    obtain ⟨Y, py, _⟩ := sb.reach S
    rw [← S.next]
    exact (py.src S hr).2
  rw [e, e2]
  cases d with
  | val w =>
    cases p
    simp only [Option.pure_def, Option.some.injEq] at h
    rw [← h]
    exact S
  | at_ q =>
    obtain ⟨σ', e3, S', _⟩ := store_ptr S p okv
    rw [e3]
    simp only [Option.pure_def, Option.some.injEq] at h
    rw [← h]
    exact S'

end Wrench.Tables
