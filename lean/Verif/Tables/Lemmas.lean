import Verif.Tables.Spec
import Verif.HashTable.Histories

/- The memory of the model holds the tables of the specification. -/
namespace Wrench.Tables

open HashTable

abbrev V := Spec.V
abbrev Opd := Spec.Opd

def toVal : V → Val
  | .int w => .int w
  | .float w => .float w
  | .str bs => .str bs
  | .tbl o => .tbl o

theorem toVal_inj {a b : V} (h : toVal a = toVal b) : a = b := by
  cases a <;> cases b <;> simp [toVal] at h <;> simp [h]

/-- Its table exists. -/
def okV (N : Nat) : V → Prop
  | .tbl o => o < N
  | _ => True

theorem okV_mono {N M : Nat} (h : N ≤ M) {a : V} (ha : okV N a) : okV M a := by
  cases a <;> simp [okV] at ha ⊢
  omega

/-! ### Outcomes -/

/-- Succeeds with `P`, or runs out of primes. -/
def Good {α : Type} (r : Except Err α) (P : α → Prop) : Prop :=
  match r with
  | .ok a => P a
  | .error e => e = .full

theorem Good.bind {α β : Type} {r : Except Err α} {f : α → Except Err β} {P : α → Prop}
    {Q : β → Prop} (h : Good r P) (hf : ∀ a, P a → Good (f a) Q) : Good (r >>= f) Q := by
  cases r with
  | ok a => exact hf a h
  | error e => exact h

theorem Good.mono {α : Type} {r : Except Err α} {P Q : α → Prop} (h : Good r P)
    (hf : ∀ a, P a → Q a) : Good r Q := by
  cases r with
  | ok a => exact hf a h
  | error e => exact h

@[simp] theorem ex_pure {α : Type} (a : α) : (pure a : Except Err α) = .ok a := rfl
@[simp] theorem ex_bind {α β : Type} (a : α) (f : α → Except Err β) : (Except.ok a >>= f) = f a := rfl

/-! ### Growth -/

theorem probeInsert_keeps {W K : Type} {t t' : HT W K} {h : Word32} {i : Nat}
    (e : probeInsert t h = some (t', i)) : t'.mod = t.mod ∧ t'.vals = t.vals ∧ t'.fwds = t.fwds := by
  unfold probeInsert at e
  cases hp : probe t.mod t.slots h true with
  | hit j => rw [hp] at e; simp only [Option.some.injEq, Prod.mk.injEq] at e; rw [← e.1]; exact ⟨rfl, rfl, rfl⟩
  | insert j => rw [hp] at e; simp only [Option.some.injEq, Prod.mk.injEq] at e; rw [← e.1]; exact ⟨rfl, rfl, rfl⟩
  | miss => rw [hp] at e; cases e

/-- Every cell of a table after growth is new or a copy. -/
theorem copy_keeps {W K : Type} (dv : W) (old : HT W K) : ∀ (l : List Nat)
    (st st' : HT W K × (Nat → Option Nat)), (∀ v ∈ l, v < old.mod) →
    (∀ j, st.1.vals j = dv ∨ ∃ j0, j0 < old.mod ∧ st.1.vals j = old.vals j0) →
    l.foldlM (copyStep old) st = some st' →
    st'.1.mod = st.1.mod ∧
    (∀ j, st'.1.vals j = dv ∨ ∃ j0, j0 < old.mod ∧ st'.1.vals j = old.vals j0) := by
  intro l
  induction l with
  | nil =>
    intro st st' _ hv e
    simp only [List.foldlM_nil] at e
    cases e
    exact ⟨rfl, hv⟩
  | cons v l ih =>
    intro st st' hl hv e
    simp only [List.foldlM_cons] at e
    cases hc : copyStep old st v with
    | none => rw [hc] at e; cases e
    | some st1 =>
      rw [hc] at e
      have h1 : st1.1.mod = st.1.mod ∧
          (∀ j, st1.1.vals j = dv ∨ ∃ j0, j0 < old.mod ∧ st1.1.vals j = old.vals j0) := by
        unfold copyStep at hc
        by_cases hn : (old.slots v == nullHash) = true
        · rw [if_pos hn] at hc; cases hc; exact ⟨rfl, hv⟩
        · rw [if_neg hn] at hc
          cases hp : probeInsert st.1 (old.slots v) with
          | none => rw [hp] at hc; cases hc
          | some r =>
            obtain ⟨t, p⟩ := r
            rw [hp] at hc
            obtain ⟨k1, k2, _⟩ := probeInsert_keeps hp
            simp only [Option.some.injEq] at hc
            rw [← hc]
            refine ⟨k1, fun j => ?_⟩
            by_cases hj : j = p
            · subst hj
              right
              exact ⟨v, hl v (by simp), upd_same _ _ _⟩
            · simp only [upd_ne _ _ hj, k2]
              exact hv j
      have := ih st1 st' (fun w hw => hl w (by simp [hw])) h1.2 e
      exact ⟨this.1.trans h1.1, this.2⟩

theorem growHash_keeps {W K : Type} {dv : W} {dk : K} {t t' : HT W K} {h : Word32} {hint i : Nat}
    (e : growHash dv dk t h hint = some (t', i)) :
    t'.mod ∈ primeTable ∧
    (∀ j, t'.vals j = dv ∨ ∃ j0, j0 < t.mod ∧ t'.vals j = t.vals j0) := by
  unfold growHash at e
  simp only at e
  cases hf : findMod t.mod t.slots h
      (primeTable.dropWhile (· ≤ if hint > t.mod then hint else t.mod)) with
  | none => rw [hf] at e; simp at e
  | some r =>
    obtain ⟨newMod, prop⟩ := r
    rw [hf] at e
    simp only at e
    have hmem : ∀ l : List Nat, findMod t.mod t.slots h l = some (newMod, prop) → newMod ∈ l := by
      intro l
      induction l with
      | nil => intro hf; simp [findMod] at hf
      | cons p ps ih =>
        intro hf
        simp only [findMod] at hf
        cases hp : propose t.mod t.slots h p with
        | some s => rw [hp] at hf; simp only [Option.some.injEq, Prod.mk.injEq] at hf; simp [hf.1]
        | none => rw [hp] at hf; exact List.mem_cons_of_mem _ (ih hf)
    have hm : newMod ∈ primeTable := (List.dropWhile_suffix _).subset (hmem _ hf)
    cases hc : (List.range t.mod).foldlM (copyStep t)
        (({ mod := newMod, slots := prop, vals := fun _ => dv, keys := fun _ => dk,
            size := t.size, fwds := t.fwds } : HT W K), fun _ => none) with
    | none => rw [hc] at e; simp at e
    | some st =>
      obtain ⟨t2, fwd⟩ := st
      rw [hc] at e
      simp only at e
      obtain ⟨k1, k2⟩ := copy_keeps dv t (List.range t.mod) _ _ (fun v hv => List.mem_range.1 hv)
        (fun j => Or.inl rfl) hc
      obtain ⟨p1, p2, p3⟩ := probeInsert_keeps e
      refine ⟨?_, fun j => ?_⟩
      · rw [p1]; simp only at k1 ⊢; rw [k1]; exact hm
      · rw [p2]; exact k2 j

theorem hit_keeps {W K : Type} {dv : W} {dk : K} {t t' : HT W K} {h : Word32} {i : Nat}
    (e : getIndexOfHit dv dk t h = some (t', i)) :
    (t'.mod = t.mod ∧ t'.vals = t.vals ∧ t'.fwds = t.fwds) ∨ (t'.mod ∈ primeTable ∧
      (∀ j, t'.vals j = dv ∨ ∃ j0, j0 < t.mod ∧ t'.vals j = t.vals j0)) := by
  have hins : ∀ r, hitInsert dv dk t h = some r →
      (r.1.mod = t.mod ∧ r.1.vals = t.vals ∧ r.1.fwds = t.fwds) ∨ (r.1.mod ∈ primeTable ∧
      (∀ j, r.1.vals j = dv ∨ ∃ j0, j0 < t.mod ∧ r.1.vals j = t.vals j0)) := by
    intro r hr
    unfold hitInsert at hr
    cases hp : probe t.mod t.slots h true with
    | hit j => rw [hp] at hr; simp only [Option.some.injEq] at hr; rw [← hr]; exact Or.inl ⟨rfl, rfl, rfl⟩
    | insert j => rw [hp] at hr; simp only [Option.some.injEq] at hr; rw [← hr]; exact Or.inl ⟨rfl, rfl, rfl⟩
    | miss => rw [hp] at hr; exact Or.inr (growHash_keeps hr)
  unfold getIndexOfHit at e
  cases hp : probe t.mod t.slots h false with
  | hit j => rw [hp] at e; simp only [Option.some.injEq, Prod.mk.injEq] at e; rw [← e.1]; exact Or.inl ⟨rfl, rfl, rfl⟩
  | insert j => rw [hp] at e; simp only [Option.some.injEq, Prod.mk.injEq] at e; rw [← e.1]; exact Or.inl ⟨rfl, rfl, rfl⟩
  | miss => rw [hp] at e; exact hins _ e

/-- A table has had at most as many blocks as there are primes up to its size. -/
def Gen {W K : Type} (t : HT W K) : Prop :=
  t.mod ∈ primeTable ∧ t.fwds.length ≤ primeTable.countP (· ≤ t.mod)

theorem prime_count : ∀ a ∈ primeTable, ∀ b ∈ primeTable, a < b →
    primeTable.countP (· ≤ a) + 1 ≤ primeTable.countP (· ≤ b) := by decide

theorem Gen.small {W K : Type} {t : HT W K} (g : Gen t) : t.fwds.length ≤ 17 :=
  Nat.le_trans g.2 (List.countP_le_length (l := primeTable))

theorem gen_hit {dv : Val} {dk : Val} {t t' : HT Val Val} {h : Word32} {i : Nat}
    (inv : Inv t.mod t.slots) (hn : h ≠ nullHash) (g : Gen t)
    (e : getIndexOfHit dv dk t h = some (t', i)) : Gen t' := by
  have E := getIndexOfHit_ext inv hn e
  rcases E.kind with h1 | ⟨_, h2, _, _, _, h3, _⟩ | ⟨_, _, _, hlt, f, hf, _⟩
  · rw [h1]; exact g
  · unfold Gen; rw [h2, h3]; exact g
  · rcases hit_keeps e with ⟨h2, _, h3⟩ | ⟨h2, _⟩
    · omega
    · refine ⟨h2, ?_⟩
      have := prime_count _ g.1 _ h2 hlt
      have := g.2
      rw [hf, List.length_cons]
      omega

/-! ### The correspondence -/

structure TSim (t : HT Val Val) (T : Spec.Table) (N : Nat) : Prop where
  inv : Inv t.mod t.slots
  gen : Gen t
  plain : ∀ j, j < t.mod → ∃ a, t.vals j = toVal a ∧ okV N a
  absent : ∀ h, h ≠ nullHash → (T.ent h = .absent ↔ ¬ Present t.mod t.slots h)
  is_ : ∀ h v, h ≠ nullHash → T.ent h = .is v → ∀ i, i < t.mod → t.slots i = h → t.vals i = toVal v
  clean : T.dirty = false → Clean (.int 0) t

structure Sim (σ : St) (A : Spec.St) : Prop where
  var : ∀ n, σ.var n = toVal (A.var n)
  varOk : ∀ n, okV A.next (A.var n)
  next : σ.next = A.next
  tab : ∀ o, o < A.next → ∃ t, σ.tab o = some t ∧ TSim t (A.tab o) A.next

/-- Later: everything denoted before is still denoted. -/
def Le (σ σ' : St) : Prop :=
  σ.next ≤ σ'.next ∧ ∀ o t, o < σ.next → σ.tab o = some t → ∃ t', σ'.tab o = some t' ∧
    ∀ g i h, h ≠ nullHash → Denotes t g i h → Denotes t' g i h

theorem Le.refl (σ : St) : Le σ σ := ⟨Nat.le_refl _, fun _ t _ h => ⟨t, h, fun _ _ _ _ d => d⟩⟩

theorem Le.trans {a b c : St} (h1 : Le a b) (h2 : Le b c) : Le a c := by
  refine ⟨Nat.le_trans h1.1 h2.1, fun o t ho ht => ?_⟩
  obtain ⟨t1, e1, d1⟩ := h1.2 o t ho ht
  obtain ⟨t2, e2, d2⟩ := h2.2 o t1 (Nat.lt_of_lt_of_le ho h1.1) e1
  exact ⟨t2, e2, fun g i h hn d => d2 g i h hn (d1 g i h hn d)⟩

/-- The stack value `v` stands for the operand. -/
inductive OSim (σ : St) : Val → Opd → Prop where
  | val (a : V) : okV σ.next a → OSim σ (toVal a) (.val a)
  | var (n : Nat) : OSim σ (.ref (.var n)) (.at_ (.var n))
  | el (o g i : Nat) (h : Word32) (t : HT Val Val) : o < σ.next → h ≠ nullHash → σ.tab o = some t →
      Denotes t g i h → OSim σ (.mem (.el o g i)) (.at_ (.el o h))

theorem OSim.later {σ σ' : St} (l : Le σ σ') {v : Val} {op : Opd} (h : OSim σ v op) : OSim σ' v op := by
  cases h with
  | val a ha => exact .val a (okV_mono l.1 ha)
  | var n => exact .var n
  | el o g i h t ho hn ht d =>
    obtain ⟨t', e, d'⟩ := l.2 o t ho ht
    exact .el o g i h t' (Nat.lt_of_lt_of_le ho l.1) hn e (d' g i h hn d)

/-- The cell (or stack slot) an operand designates. -/
inductive Ptr (σ : St) : Opd → Src → Prop where
  | val (a : V) : okV σ.next a → Ptr σ (.val a) (.slot (toVal a))
  | var (n : Nat) : Ptr σ (.at_ (.var n)) (.at_ (.var n))
  | el (o j : Nat) (h : Word32) (t : HT Val Val) : o < σ.next → h ≠ nullHash → σ.tab o = some t →
      j < t.mod → t.slots j = h → Ptr σ (.at_ (.el o h)) (.at_ (.el o t.fwds.length j))

theorem Ptr.plain {σ : St} {A : Spec.St} (S : Sim σ A) {op : Opd} {s : Src} (p : Ptr σ op s) :
    ∃ a, σ.src s = .ok (toVal a) ∧ okV σ.next a ∧ ∀ b, op.read A = some b → b = a := by
  cases p with
  | val a ha => exact ⟨a, rfl, ha, fun b hb => by cases hb; rfl⟩
  | var n =>
    refine ⟨A.var n, ?_, S.next ▸ S.varOk n, fun b hb => by cases hb; rfl⟩
    simp [St.src, St.read, S.var n]
  | el o j h t ho hn ht hj hs =>
    obtain ⟨t', e, T⟩ := S.tab o (S.next ▸ ho)
    rw [ht] at e; cases e
    obtain ⟨a, ha, hok⟩ := T.plain j hj
    refine ⟨a, ?_, S.next ▸ hok, fun b hb => ?_⟩
    · simp [St.src, St.read, ht, ha]
    · simp only [Spec.Opd.read, Spec.St.read] at hb
      cases he : (A.tab o).ent h with
      | is v =>
        rw [he] at hb
        cases hb
        have := T.is_ h b hn he j hj hs
        rw [ha] at this
        exact (toVal_inj this).symm
      | absent => rw [he] at hb; cases hb
      | some_ => rw [he] at hb; cases hb

theorem Ptr.src {σ : St} {A : Spec.St} (S : Sim σ A) {op : Opd} {s : Src} (p : Ptr σ op s) {a : V}
    (h : op.read A = some a) : σ.src s = .ok (toVal a) ∧ okV σ.next a := by
  obtain ⟨b, e, hok, hu⟩ := p.plain S
  have := hu a h
  subst this
  exact ⟨e, hok⟩

theorem deref_plain {σ : St} {s : Src} {a : V} (h : σ.src s = .ok (toVal a)) (f : Nat) :
    deref (f + 1) σ s = .ok s := by
  simp only [deref, h, ex_bind]
  cases a <;> rfl

/-- Following an element reference through the superseded blocks. -/
theorem deref_el {σ : St} {o : Nat} {t : HT Val Val} (ht : σ.tab o = some t)
    (plain : ∀ j, j < t.mod → ∃ a, t.vals j = toVal a) :
    ∀ (n g i j : Nat) (f : Nat), t.fwds.length - g = n → g ≤ t.fwds.length →
      derefHandle t g i = some j → j < t.mod → n < f →
      deref f σ (.at_ (.el o g i)) = .ok (.at_ (.el o t.fwds.length j)) := by
  intro n
  induction n with
  | zero =>
    intro g i j f hn hg hd hj hf
    have : g = t.fwds.length := by omega
    subst this
    simp only [derefHandle, Nat.sub_self, List.take_zero, List.reverse_nil, follow,
      Option.some.injEq] at hd
    subst hd
    obtain ⟨a, ha⟩ := plain i hj
    cases f with
    | zero => omega
    | succ f =>
      apply deref_plain (a := a)
      simp [St.src, St.read, ht, ha]
  | succ n ih =>
    intro g i j f hn hg hd hj hf
    have hlt : g < t.fwds.length := by omega
    have hix : t.fwds.length - 1 - g < t.fwds.length := by omega
    have htake : t.fwds.take (t.fwds.length - g) =
        t.fwds.take (t.fwds.length - (g + 1)) ++ [t.fwds[t.fwds.length - 1 - g]] := by
      have e1 : t.fwds.length - g = (t.fwds.length - 1 - g) + 1 := by omega
      have e2 : t.fwds.length - (g + 1) = t.fwds.length - 1 - g := by omega
      rw [e1, e2, List.take_succ_eq_append_getElem hix]
    unfold derefHandle at hd
    rw [htake, List.reverse_append] at hd
    simp only [List.reverse_cons, List.reverse_nil, List.nil_append, List.cons_append, follow] at hd
    cases hfi : t.fwds[t.fwds.length - 1 - g] i with
    | none => rw [hfi] at hd; cases hd
    | some k =>
      rw [hfi] at hd
      cases f with
      | zero => omega
      | succ f =>
        have := ih (g + 1) k j f (by omega) (by omega) hd hj (by omega)
        have hr : σ.read (.el o g i) = .ok (.ref (.el o (g + 1) k)) := by
          simp only [St.read, ht]
          rw [if_neg (by omega), if_neg (by omega), List.getElem?_eq_getElem hix]
          simp [hfi]
        simp only [deref, St.src, hr, ex_bind]
        exact this

/-- Reading a cell that is denoted never fails. -/
theorem read_denotes {σ : St} {o g i : Nat} {h : Word32} {t : HT Val Val} (ht : σ.tab o = some t)
    (d : Denotes t g i h) : ∃ v, σ.read (.el o g i) = .ok v := by
  obtain ⟨hg, j, hd, hj, hs⟩ := d
  by_cases e : t.fwds.length = g
  · exact ⟨_, by simp only [St.read, ht]; rw [if_pos e]⟩
  · have hix : t.fwds.length - 1 - g < t.fwds.length := by omega
    have htake : t.fwds.take (t.fwds.length - g) =
        t.fwds.take (t.fwds.length - (g + 1)) ++ [t.fwds[t.fwds.length - 1 - g]] := by
      have e1 : t.fwds.length - g = (t.fwds.length - 1 - g) + 1 := by omega
      have e2 : t.fwds.length - (g + 1) = t.fwds.length - 1 - g := by omega
      rw [e1, e2, List.take_succ_eq_append_getElem hix]
    unfold derefHandle at hd
    rw [htake, List.reverse_append] at hd
    simp only [List.reverse_cons, List.reverse_nil, List.nil_append, List.cons_append, follow] at hd
    cases hfi : t.fwds[t.fwds.length - 1 - g] i with
    | none => rw [hfi] at hd; cases hd
    | some k =>
      refine ⟨.ref (.el o (g + 1) k), ?_⟩
      simp only [St.read, ht]
      rw [if_neg e, if_neg (by omega), List.getElem?_eq_getElem hix]
      simp [hfi]

theorem deref_opd {σ : St} {A : Spec.St} (S : Sim σ A) {v : Val} {op : Opd} (h : OSim σ v op)
    (f : Nat) (hf : 19 ≤ f) : ∃ s, deref f σ (.slot v) = .ok s ∧ Ptr σ op s := by
  cases f with
  | zero => omega
  | succ f =>
    cases h with
    | val a ha => exact ⟨_, deref_plain (a := a) rfl f, .val a ha⟩
    | var n =>
      refine ⟨.at_ (.var n), ?_, .var n⟩
      simp only [deref, St.src, ex_bind]
      cases f with
      | zero => omega
      | succ f => exact deref_plain (a := A.var n) (by simp [St.src, St.read, S.var n]) f
    | el o g i h t ho hn ht d =>
      obtain ⟨t', e, T⟩ := S.tab o (S.next ▸ ho)
      rw [ht] at e; cases e
      obtain ⟨hg, j, hd, hj, hs⟩ := d
      refine ⟨.at_ (.el o t.fwds.length j), ?_, .el o j h t ho hn ht hj hs⟩
      simp only [deref, St.src, ex_bind]
      have := T.gen.small
      exact deref_el ht (fun j hj => (T.plain j hj).imp fun a ha => ha.1) _ g i j f rfl hg hd hj
        (by omega)

theorem deref_ptr {σ : St} {A : Spec.St} (S : Sim σ A) {op : Opd} {s : Src} (p : Ptr σ op s)
    (f : Nat) : deref (f + 1) σ s = .ok s := by
  obtain ⟨a, e, _⟩ := p.plain S
  exact deref_plain e f

/-- What a cell designated before holds later can be read (a growth turns it into a reference). -/
theorem Ptr.later {σ σ' : St} (l : Le σ σ') {op : Opd} {s : Src} (p : Ptr σ op s) :
    ∃ v, σ'.src s = .ok v := by
  cases p with
  | val a ha => exact ⟨_, rfl⟩
  | var n => exact ⟨_, rfl⟩
  | el o j h t ho hn ht hj hs =>
    have d : Denotes t t.fwds.length j h :=
      ⟨Nat.le_refl _, j, by simp [derefHandle, follow], hj, hs⟩
    obtain ⟨t', e, d'⟩ := l.2 o t ho ht
    exact read_denotes e (d' _ _ _ hn d)

/-! ### Hashes -/

theorem hashPlain_spec {a : V} {h : Word32} (e : Spec.hash a = some h) : hashPlain (toVal a) = .ok h := by
  cases a <;> simp only [Spec.hash, Option.some.injEq, reduceCtorEq] at e <;>
    simp [hashPlain, toVal, e]

theorem getHash_ptr {σ : St} {A : Spec.St} (S : Sim σ A) {op : Opd} {s : Src} (p : Ptr σ op s) {a : V}
    {h : Word32} (hr : op.read A = some a) (hh : Spec.hash a = some h) : getHash σ s = .ok h := by
  simp only [getHash, depth]
  rw [deref_ptr S p]
  simp only [ex_bind]
  rw [(p.src S hr).1]
  simp only [ex_bind]
  exact hashPlain_spec hh

theorem getHash_opd {σ : St} {A : Spec.St} (S : Sim σ A) {v : Val} {op : Opd} (o : OSim σ v op) {a : V}
    {h : Word32} (hr : op.read A = some a) (hh : Spec.hash a = some h) :
    getHash σ (.slot v) = .ok h := by
  obtain ⟨s, e, p⟩ := deref_opd S o depth (by decide)
  simp only [getHash, e, ex_bind]
  rw [(p.src S hr).1]
  simp only [ex_bind]
  exact hashPlain_spec hh

theorem single_reach {σ : St} {A : Spec.St} (S : Sim σ A) {ix s : Src} {op : Opd}
    (e : deref depth σ ix = .ok s) (p : Ptr σ op s) {a : V}
    {h : Word32} (hr : op.read A = some a) (hh : Spec.hash a = some h) :
    ∃ b, single σ ix = .ok (toVal b) ∧ Spec.hash b = some h ∧ okV σ.next b := by
  simp only [single, e, ex_bind]
  rw [(p.src S hr).1]
  cases a with
  | int w => exact ⟨.int w, rfl, hh, trivial⟩
  | float w => exact ⟨.float w, rfl, hh, trivial⟩
  | str bs =>
    simp only [Spec.hash, Option.some.injEq] at hh
    refine ⟨.int h, ?_, rfl, trivial⟩
    simp [toVal, hashPlain, hh]
  | tbl o => cases hh

theorem usable_eq {h h' : Word32} (e : Spec.usable h = some h') : h' = h ∧ h ≠ nullHash := by
  unfold Spec.usable at e
  by_cases hn : h = 0xABABABAB#32
  · rw [if_pos hn] at e; cases e
  · rw [if_neg hn] at e; cases e; exact ⟨rfl, hn⟩

/-! ### Making a key present, storing, making a table -/

theorem denotes_keys {t : HT Val Val} {g i : Nat} {h : Word32} {k : Nat → Val} {v : Nat → Val} :
    Denotes { t with keys := k, vals := v } g i h ↔ Denotes t g i h := Iff.rfl

/-- The table part of `touch`. -/
theorem touch_tab {t t' : HT Val Val} {T : Spec.Table} {N : Nat} {h : Word32} {i : Nat}
    (S : TSim t T N) (hn : h ≠ nullHash)
    (e : getIndexOfHit (.int 0) (.int 0) t h = some (t', i)) (k : Nat → Val) :
    TSim { t' with keys := k }
      (match T.ent h with
        | .absent => T.set h (if T.dirty then .some_ else .is (.int 0))
        | _ => T) N ∧ i < t'.mod ∧ t'.slots i = h := by
  have E := getIndexOfHit_ext S.inv hn e
  refine ⟨?_, E.lt, E.at_⟩
  have hplain : ∀ j, j < t'.mod → ∃ a, t'.vals j = toVal a ∧ okV N a := by
    intro j hj
    rcases hit_keeps e with ⟨h1, h2, _⟩ | ⟨_, h2⟩
    · rw [h2]; exact S.plain j (h1 ▸ hj)
    · rcases h2 j with h3 | ⟨j0, hj0, h3⟩
      · exact ⟨.int 0, h3, trivial⟩
      · rw [h3]; exact S.plain j0 hj0
  have hpres : ∀ h', h' ≠ nullHash → h' ≠ h →
      (Present t'.mod t'.slots h' ↔ Present t.mod t.slots h') := by
    intro h' hn' hne
    constructor
    · rintro ⟨j, hj, hs⟩
      obtain ⟨j0, hj0, hs0, _⟩ := E.back j hj (by rw [hs]; exact hn') (by rw [hs]; exact hne)
      exact ⟨j0, hj0, hs0.trans hs⟩
    · rintro ⟨j, hj, hs⟩
      obtain ⟨j1, hj1, hs1, _⟩ := E.fwd j hj (by rw [hs]; exact hn')
      exact ⟨j1, hj1, hs1.trans hs⟩
  have hold : ∀ h' v, h' ≠ nullHash → Present t.mod t.slots h' → T.ent h' = .is v → ∀ j, j < t'.mod →
      t'.slots j = h' → t'.vals j = toVal v := by
    intro h' v hn' ⟨j0, hj0, hs0⟩ hv j hj hs
    obtain ⟨j1, hj1, hs1, hv1, _⟩ := E.fwd j0 hj0 (by rw [hs0]; exact hn')
    have : j = j1 := E.inv.inj j j1 hj hj1 (by rw [hs]; exact hn') (by rw [hs, hs1, hs0])
    subst this
    rw [hv1]
    exact S.is_ h' v hn' hv j0 hj0 hs0
  have hgen := gen_hit S.inv hn S.gen e
  have hisP : ∀ h' v, h' ≠ nullHash → T.ent h' = .is v → Present t.mod t.slots h' := by
    intro h' v hn' hv
    by_cases hp : Present t.mod t.slots h'
    · exact hp
    · rw [(S.absent h' hn').2 hp] at hv; cases hv
  cases ht : T.ent h with
  | absent =>
    have habs := (S.absent h hn).1 ht
    simp only
    refine ⟨E.inv, hgen, hplain, ?_, ?_, ?_⟩
    · intro h' hn'
      simp only [Spec.Table.set]
      by_cases he : h' = h
      · subst he
        rw [if_pos rfl]
        constructor
        · intro hc; cases hd : T.dirty <;> simp [hd] at hc
        · intro hc; exact absurd ⟨i, E.lt, E.at_⟩ hc
      · rw [if_neg he, S.absent h' hn', hpres h' hn' he]
    · intro h' v hn' hv j hj hs
      simp only [Spec.Table.set] at hv
      by_cases he : h' = h
      · subst he
        rw [if_pos rfl] at hv
        cases hd : T.dirty with
        | true => rw [hd] at hv; cases hv
        | false =>
          rw [hd] at hv
          simp only [Bool.false_eq_true, if_false, Spec.Ent.is.injEq] at hv
          subst hv
          have hji : j = i := E.inv.inj j i hj E.lt (by rw [hs]; exact hn') (by rw [hs, E.at_])
          subst hji
          exact E.fresh habs (S.clean hd)
      · rw [if_neg he] at hv
        exact hold h' v hn' (hisP h' v hn' hv) hv j hj hs
    · intro hd
      exact E.clean (S.clean hd)
  | some_ =>
    simp only
    refine ⟨E.inv, hgen, hplain, ?_, fun h' v hn' hv => hold h' v hn' (hisP h' v hn' hv) hv,
      fun hd => E.clean (S.clean hd)⟩
    intro h' hn'
    by_cases he : h' = h
    · subst he
      rw [ht]
      constructor
      · intro hc; cases hc
      · intro hc; exact absurd ⟨i, E.lt, E.at_⟩ hc
    · rw [S.absent h' hn', hpres h' hn' he]
  | is v0 =>
    simp only
    refine ⟨E.inv, hgen, hplain, ?_, fun h' v hn' hv => hold h' v hn' (hisP h' v hn' hv) hv,
      fun hd => E.clean (S.clean hd)⟩
    intro h' hn'
    by_cases he : h' = h
    · subst he
      rw [ht]
      constructor
      · intro hc; cases hc
      · intro hc; exact absurd ⟨i, E.lt, E.at_⟩ hc
    · rw [S.absent h' hn', hpres h' hn' he]

theorem Sim.setTab {σ : St} {A : Spec.St} (S : Sim σ A) {o : Nat} {t : HT Val Val} {T : Spec.Table}
    (h : TSim t T A.next) : Sim (σ.setTab o t) (A.setTab o T) := by
  refine ⟨S.var, S.varOk, S.next, fun p hp => ?_⟩
  by_cases e : p = o
  · subst e
    exact ⟨t, upd_same _ _ _, by simpa [Spec.St.setTab] using h⟩
  · obtain ⟨t', e1, e2⟩ := S.tab p hp
    refine ⟨t', ?_, by simpa [Spec.St.setTab, e] using e2⟩
    simp [Tables.St.setTab, upd_ne _ _ e, e1]

theorem setTab_self (A : Spec.St) (o : Nat) : A.setTab o (A.tab o) = A := by
  cases A
  simp only [Spec.St.setTab, Spec.St.mk.injEq, true_and, and_true]
  funext p
  by_cases h : p = o
  · simp [h]
  · simp [h]

theorem le_setTab {σ : St} {o : Nat} {t t' : HT Val Val} (ht : σ.tab o = some t)
    (hd : ∀ g i h, h ≠ nullHash → Denotes t g i h → Denotes t' g i h) : Le σ (σ.setTab o t') := by
  refine ⟨Nat.le_refl _, fun p u hp hu => ?_⟩
  by_cases e : p = o
  · subst e
    rw [ht] at hu; cases hu
    exact ⟨t', upd_same _ _ _, hd⟩
  · exact ⟨u, by simp [Tables.St.setTab, upd_ne _ _ e, hu], fun _ _ _ _ d => d⟩

theorem upd_upd {α : Type} (f : Nat → α) (i : Nat) (x y : α) : upd (upd f i x) i y = upd f i y := by
  funext j
  simp only [upd]
  by_cases h : j = i <;> simp [h]

theorem setTab_setTab (σ : St) (o : Nat) (t u : HT Val Val) :
    (σ.setTab o t).setTab o u = σ.setTab o u := by
  simp [Tables.St.setTab, upd_upd]

/-- `va->get`: the key becomes present. -/
theorem getCell_touch {σ : St} {A : Spec.St} (S : Sim σ A) {o : Nat} {h : Word32} (ho : o < A.next)
    (hn : h ≠ nullHash) :
    Good (getCell σ o h) fun r => r.1 = σ.setTab o r.2.1 ∧ Le σ r.1 ∧
      ∀ k, Sim (σ.setTab o { r.2.1 with keys := k }) (A.touch o h).1 ∧
        Le σ (σ.setTab o { r.2.1 with keys := k }) ∧
        OSim (σ.setTab o { r.2.1 with keys := k }) (.mem (.el o r.2.1.fwds.length r.2.2)) (.at_ (.el o h)) ∧
        r.2.2 < r.2.1.mod ∧ r.2.1.slots r.2.2 = h := by
  obtain ⟨t, ht, T⟩ := S.tab o ho
  simp only [getCell, ht]
  cases hg : getIndexOfHit (.int 0) (.int 0) t h with
  | none => rfl
  | some r =>
    obtain ⟨t', i⟩ := r
    have E := getIndexOfHit_ext T.inv hn hg
    have hden : ∀ g j h', h' ≠ nullHash → Denotes t g j h' → Denotes t' g j h' :=
      fun g j h' hn' d => ext_denotes E hn' d
    refine ⟨rfl, le_setTab ht hden, fun k => ?_⟩
    have tt := touch_tab T hn hg k
    refine ⟨?_, le_setTab ht (fun g j h' hn' d => denotes_keys.2 (hden g j h' hn' d)), ?_, E.lt, E.at_⟩
    · have := S.setTab (o := o) tt.1
      simp only [Spec.St.touch]
      cases he : (A.tab o).ent h with
      | absent => rw [he] at this; exact this
      | some_ => rw [he] at this; simp only at this; rw [setTab_self] at this; exact this
      | is v => rw [he] at this; simp only at this; rw [setTab_self] at this; exact this
    · refine .el o _ i h { t' with keys := k } (S.next ▸ ho) hn (upd_same _ _ _) ?_
      exact ⟨Nat.le_refl _, i, by simp [derefHandle, follow], E.lt, E.at_⟩

/-- Storing a value in the cell of `h`. -/
theorem write_tab {t : HT Val Val} {T : Spec.Table} {N : Nat} {h : Word32} {i : Nat} {a : V}
    (S : TSim t T N) (hn : h ≠ nullHash) (hi : i < t.mod) (hs : t.slots i = h) (ha : okV N a) :
    TSim { t with vals := upd t.vals i (toVal a) } (T.set h (.is a)) N := by
  refine ⟨S.inv, S.gen, ?_, ?_, ?_, ?_⟩
  · intro j hj
    by_cases e : j = i
    · subst e; exact ⟨a, upd_same _ _ _, ha⟩
    · simp only [upd_ne _ _ e]; exact S.plain j hj
  · intro h' hn'
    simp only [Spec.Table.set]
    by_cases e : h' = h
    · subst e
      rw [if_pos rfl]
      constructor
      · intro hc; cases hc
      · intro hc; exact absurd ⟨i, hi, hs⟩ hc
    · rw [if_neg e]; exact S.absent h' hn'
  · intro h' v hn' hv j hj hsj
    simp only [Spec.Table.set] at hv
    by_cases e : h' = h
    · subst e
      rw [if_pos rfl] at hv
      cases hv
      have : j = i := S.inv.inj j i hj hi (by rw [hsj]; exact hn') (by rw [hsj, hs])
      subst this
      exact upd_same _ _ _
    · rw [if_neg e] at hv
      have : j ≠ i := by
        intro c; subst c; exact e (hsj.symm.trans hs)
      simp only [upd_ne _ _ this]
      exact S.is_ h' v hn' hv j hj hsj
  · intro hd j hj hsj
    have : j ≠ i := by
      intro c; subst c; rw [hs] at hsj; exact hn hsj
    simp only [upd_ne _ _ this]
    exact S.clean hd j hj hsj

/-- A store through a designated cell. -/
theorem store_ptr {σ : St} {A : Spec.St} (S : Sim σ A) {p : Spec.Place} {s : Src}
    (q : Ptr σ (.at_ p) s) {a : V} (ha : okV A.next a) :
    ∃ σ', σ.store s (toVal a) = .ok σ' ∧ Sim σ' (A.write a p) ∧ Le σ σ' := by
  cases q with
  | var n =>
    refine ⟨σ.setVar n (toVal a), rfl, ⟨fun m => ?_, fun m => ?_, S.next, S.tab⟩, Le.refl _⟩
    · simp only [St.setVar, Spec.St.write]
      by_cases e : m = n
      · subst e; simp [upd_same]
      · simp [upd_ne _ _ e, e, S.var m]
    · simp only [Spec.St.write]
      by_cases e : m = n
      · simp [e]; exact ha
      · simp [e]; exact S.varOk m
  | el o j h t ho hn ht hj hs =>
    obtain ⟨t', e, T⟩ := S.tab o (S.next ▸ ho)
    rw [ht] at e; cases e
    refine ⟨σ.setTab o { t with vals := upd t.vals j (toVal a) }, ?_, ?_, ?_⟩
    · simp [St.store, St.write, ht]
    · exact S.setTab (write_tab T hn hj hs ha)
    · exact le_setTab ht (fun g i h' _ d => d)

theorem init_mod {W K : Type} {dv : W} {dk : K} {n : Nat} {t : HT W K} (h : init dv dk n = some t) :
    t.mod ∈ primeTable := by
  unfold init at h
  simp only [Option.map_eq_some_iff] at h
  obtain ⟨⟨t1, i⟩, hg, he⟩ := h
  simp only at he
  subst he
  exact (growHash_keeps hg).1

theorem prime_pos : ∀ a ∈ primeTable, 1 ≤ primeTable.countP (· ≤ a) := by decide

theorem init_tsim {n N : Nat} {t : HT Val Val} (h : init (.int 0) (.int 0) n = some t) :
    TSim t ⟨fun _ => .absent, false⟩ N := by
  obtain ⟨h1, h2, h3, h4, h5⟩ := init_spec h
  have hm := init_mod h
  refine ⟨h1, ⟨hm, ?_⟩, ?_, ?_, ?_, fun _ => h3⟩
  · rw [h5]
    exact prime_pos _ hm
  · intro j hj
    exact ⟨.int 0, h3 j hj (h2 j hj), trivial⟩
  · intro h' hn'
    constructor
    · rintro _ ⟨i, hi, hs⟩
      rw [h2 i hi] at hs
      exact hn' hs.symm
    · intro _; rfl
  · intro h' v _ hv; cases hv

theorem TSim.mono {t : HT Val Val} {T : Spec.Table} {N M : Nat} (h : TSim t T N) (l : N ≤ M) :
    TSim t T M :=
  ⟨h.inv, h.gen, fun j hj => (h.plain j hj).imp fun _ ha => ⟨ha.1, okV_mono l ha.2⟩, h.absent, h.is_,
    h.clean⟩

theorem newTable_sim {σ : St} {A : Spec.St} (S : Sim σ A) :
    Good (newTable σ) fun r => r.2 = A.next ∧ Sim r.1 A.new.1 ∧ Le σ r.1 ∧
      ∀ o, o < σ.next → r.1.tab o = σ.tab o := by
  unfold newTable
  cases hi : init (Val.int 0) (Val.int 0) 0 with
  | none => rfl
  | some t =>
    refine ⟨S.next, ⟨S.var, fun n => okV_mono (Nat.le_succ _) (S.varOk n), ?_, ?_⟩, ⟨?_, ?_⟩,
      fun o ho => upd_ne _ _ (by omega)⟩
    · show σ.next + 1 = A.next + 1
      rw [S.next]
    · intro o ho
      have ho : o < A.next + 1 := ho
      by_cases e : o = A.next
      · subst e
        refine ⟨t, ?_, ?_⟩
        · show upd σ.tab σ.next (some t) A.next = some t
          rw [S.next, upd_same]
        · have := init_tsim (N := A.new.1.next) hi
          simpa [Spec.St.new, Spec.St.setTab] using this
      · obtain ⟨t', e1, e2⟩ := S.tab o (by omega)
        refine ⟨t', ?_, ?_⟩
        · show upd σ.tab σ.next (some t) o = some t'
          rw [S.next, upd_ne _ _ e, e1]
        · have := e2.mono (Nat.le_succ A.next)
          simpa [Spec.St.new, Spec.St.setTab, e] using this
    · exact Nat.le_succ _
    · intro o u ho hu
      refine ⟨u, ?_, fun _ _ _ _ d => d⟩
      show upd σ.tab σ.next (some t) o = some u
      rw [upd_ne _ _ (by omega), hu]

end Wrench.Tables
