import Verif.Serializer.Spec
import Verif.Bytes.Lemmas

namespace Wrench.Serializer

@[simp] theorem bind_eq {α β : Type} (p : Rd α) (q : α → Rd β) : (p >>= q) = Rd.bind p q := rfl
@[simp] theorem pure_eq {α : Type} (a : α) : (pure a : Rd α) = Rd.pure a := rfl

theorem bind_ok {α β : Type} {p : Rd α} {q : α → Rd β} {b : List Byte} {v : β} {r : List Byte}
    (h : Rd.bind p q b = .ok v r) : ∃ a m, p b = .ok a m ∧ q a m = .ok v r := by
  unfold Rd.bind at h
  cases hp : p b with
  | ok a m => rw [hp] at h; exact ⟨a, m, rfl, h⟩
  | fail => rw [hp] at h; cases h
  | ub => rw [hp] at h; cases h
  | oof => rw [hp] at h; cases h

theorem bind_of_ok {α β : Type} {p : Rd α} {q : α → Rd β} {b m : List Byte} {a : α}
    (h : p b = .ok a m) : Rd.bind p q b = q a m := by
  unfold Rd.bind; rw [h]

theorem bind_of_fail {α β : Type} {p : Rd α} {q : α → Rd β} {b : List Byte}
    (h : p b = .fail) : Rd.bind p q b = .fail := by
  unfold Rd.bind; rw [h]

/-! ### Readers only depend on, and need all of, the bytes they consume -/

/-- A successful run consumes a prefix `c`; it succeeds the same way on `c` followed by
anything, and fails on every proper prefix of `c`. -/
def Exact {α : Type} (p : Rd α) : Prop :=
  ∀ b v r, p b = .ok v r → ∃ c, b = c ++ r ∧ (∀ r', p (c ++ r') = .ok v r') ∧
    ∀ c', c' <+: c → c' ≠ c → p c' = .fail

theorem exact_pure {α : Type} (a : α) : Exact (Rd.pure a) := by
  intro b v r h
  simp only [Rd.pure, Res.ok.injEq] at h
  obtain ⟨rfl, rfl⟩ := h
  refine ⟨[], rfl, fun r' => rfl, fun c' hp hne => ?_⟩
  exact absurd (List.prefix_nil.mp hp) hne

theorem exact_fail {α : Type} : Exact (Rd.fail : Rd α) := by
  intro b v r h; cases h

theorem exact_ub {α : Type} : Exact (Rd.ub : Rd α) := by
  intro b v r h; cases h

theorem prefix_split {α : Type} : ∀ {c1 c2 c' : List α}, c' <+: c1 ++ c2 →
    c' <+: c1 ∨ ∃ t, c' = c1 ++ t ∧ t <+: c2
  | [], _, c', h => Or.inr ⟨c', rfl, h⟩
  | x :: c1, c2, [], _ => Or.inl List.nil_prefix
  | x :: c1, c2, y :: c', h => by
    rw [List.cons_append, List.cons_prefix_cons] at h
    obtain ⟨rfl, h⟩ := h
    rcases prefix_split h with h | ⟨t, rfl, ht⟩
    · exact Or.inl (List.cons_prefix_cons.mpr ⟨rfl, h⟩)
    · exact Or.inr ⟨t, rfl, ht⟩

theorem exact_bind {α β : Type} {p : Rd α} {q : α → Rd β} (hp : Exact p) (hq : ∀ a, Exact (q a)) :
    Exact (Rd.bind p q) := by
  intro b v r h
  obtain ⟨a, m, h1, h2⟩ := bind_ok h
  obtain ⟨c1, e1, l1, f1⟩ := hp _ _ _ h1
  obtain ⟨c2, e2, l2, f2⟩ := hq _ _ _ _ h2
  refine ⟨c1 ++ c2, by rw [e1, e2, List.append_assoc], fun r' => ?_, fun c' hpre hne => ?_⟩
  · rw [List.append_assoc, bind_of_ok (l1 _), l2]
  · rcases prefix_split hpre with hpre | ⟨t, rfl, ht⟩
    · by_cases e : c' = c1
      · subst e
        have := l1 []
        rw [List.append_nil] at this
        rw [bind_of_ok this]
        apply f2 [] (List.nil_prefix)
        rintro rfl
        exact hne (by simp)
      · exact bind_of_fail (f1 _ hpre e)
    · rw [bind_of_ok (l1 _)]
      apply f2 _ ht
      rintro rfl; exact hne rfl

theorem exact_rd1 : Exact rd1 := by
  intro b v r h
  match b, h with
  | x :: b, h =>
    simp only [rd1, Res.ok.injEq] at h
    obtain ⟨rfl, rfl⟩ := h
    refine ⟨[x], rfl, fun _ => rfl, fun c' hp hne => ?_⟩
    match c', hp, hne with
    | [], _, _ => rfl
    | y :: c', hp, hne =>
      have hl := hp.length_le
      simp at hl
      subst hl
      exact absurd (hp.eq_of_length (by simp)) hne

theorem exact_rd16 : Exact rd16 := by
  intro b v r h
  match b, h with
  | x :: y :: b, h =>
    simp only [rd16, Res.ok.injEq] at h
    obtain ⟨rfl, rfl⟩ := h
    refine ⟨[x, y], rfl, fun _ => rfl, fun c' hp hne => ?_⟩
    match c', hp, hne with
    | [], _, _ => rfl
    | [_], _, _ => rfl
    | u :: w :: c', hp, hne =>
      have hl := hp.length_le
      simp at hl
      subst hl
      exact absurd (hp.eq_of_length (by simp)) hne

theorem exact_rd32 : Exact rd32 := by
  intro b v r h
  match b, h with
  | x :: y :: z :: w :: b, h =>
    simp only [rd32, Res.ok.injEq] at h
    obtain ⟨rfl, rfl⟩ := h
    refine ⟨[x, y, z, w], rfl, fun _ => rfl, fun c' hp hne => ?_⟩
    match c', hp, hne with
    | [], _, _ => rfl
    | [_], _, _ => rfl
    | [_, _], _, _ => rfl
    | [_, _, _], _, _ => rfl
    | u :: w :: _ :: _ :: c', hp, hne =>
      have hl := hp.length_le
      simp at hl
      subst hl
      exact absurd (hp.eq_of_length (by simp)) hne

theorem exact_rdN (n : Nat) : Exact (rdN n) := by
  intro b v r h
  unfold rdN at h
  split at h
  · rename_i hn
    simp only [Res.ok.injEq] at h
    obtain ⟨rfl, rfl⟩ := h
    refine ⟨b.take n, (List.take_append_drop n b).symm, fun r' => ?_, fun c' hp hne => ?_⟩
    · unfold rdN
      have hl : (b.take n).length = n := by simp [hn]
      rw [if_pos (by simp; omega)]
      rw [List.take_append_of_le_length (by omega), List.take_of_length_le (by omega),
        List.drop_append_of_le_length (by omega), List.drop_of_length_le (by omega)]
      rfl
    · unfold rdN
      have := hp.length_le
      simp only [List.length_take] at this
      rw [if_neg]
      intro hle
      exact hne (hp.eq_of_length (by simp; omega))
  · cases h

theorem exact_ite {α : Type} {c : Prop} [Decidable c] {p q : Rd α} (hp : Exact p) (hq : Exact q) :
    Exact (if c then p else q) := by
  split <;> assumption

variable {exHash : SVal → Word32}

theorem exact_des_all (f : Nat) : Exact (des exHash f) ∧ (∀ n, Exact (desElems exHash f n)) ∧
    (∀ n, Exact (desSlots exHash f n)) := by
  induction f with
  | zero =>
    refine ⟨?_, fun n => ?_, fun n => ?_⟩
    · intro b v r h; rw [des] at h; cases h
    · intro b v r h; rw [desElems] at h; cases h
    · intro b v r h; rw [desSlots] at h; cases h
  | succ f ih =>
    obtain ⟨i1, i2, i3⟩ := ih
    refine ⟨?_, fun n => ?_, fun n => ?_⟩
    · rw [des]
      simp only [bind_eq, pure_eq]
      refine exact_bind exact_rd1 fun t => ?_
      refine exact_ite (exact_bind exact_rd32 fun _ => exact_pure _) ?_
      refine exact_ite (exact_bind exact_rd32 fun _ => exact_pure _) ?_
      refine exact_ite (exact_bind exact_rd1 fun x => ?_) exact_fail
      refine exact_ite (exact_bind exact_rd1 fun ty => exact_bind exact_rd16 fun n => ?_) ?_
      · refine exact_ite (exact_bind (exact_rdN n) fun _ => exact_pure _) ?_
        exact exact_ite (exact_bind (i2 n) fun _ => exact_pure _) exact_fail
      · refine exact_ite (exact_bind exact_rd16 fun m => ?_) exact_fail
        split
        · exact exact_ub
        · exact exact_bind (i3 m) fun _ => exact_pure _
    · cases n with
      | zero => rw [desElems]; exact exact_pure _
      | succ n =>
        rw [desElems]
        exact exact_bind i1 fun _ => exact_bind (i2 n) fun _ => exact_pure _
    · cases n with
      | zero => rw [desSlots]; exact exact_pure _
      | succ n =>
        rw [desSlots]
        refine exact_bind exact_rd1 fun t => ?_
        refine exact_ite (exact_bind (i3 n) fun _ => exact_pure _) ?_
        exact exact_bind i1 fun _ => exact_bind i1 fun _ => exact_bind (i3 n) fun _ => exact_pure _

/-! ### Fuel is never exhausted -/

/-- A successful run consumes at least `k` bytes. -/
def Eats {α : Type} (k : Nat) (p : Rd α) : Prop := ∀ b v r, p b = .ok v r → r.length + k ≤ b.length

theorem eats_bind {α β : Type} {k l : Nat} {p : Rd α} {q : α → Rd β} (hp : Eats k p)
    (hq : ∀ a, Eats l (q a)) : Eats (k + l) (Rd.bind p q) := by
  intro b v r h
  obtain ⟨a, m, h1, h2⟩ := bind_ok h
  have := hp _ _ _ h1
  have := hq _ _ _ _ h2
  omega

theorem eats_of_exact {α : Type} {p : Rd α} (hp : Exact p) : Eats 0 p := by
  intro b v r h
  obtain ⟨c, e, _⟩ := hp b v r h
  rw [e]; simp

theorem eats_rd1 : Eats 1 rd1 := by
  intro b v r h
  match b, h with
  | x :: b, h =>
    simp only [rd1, Res.ok.injEq] at h
    simp [h.2]

theorem eats_rd16 : Eats 2 rd16 := by
  intro b v r h
  match b, h with
  | x :: y :: b, h =>
    simp only [rd16, Res.ok.injEq] at h
    simp [h.2]

theorem eats_des (f : Nat) : Eats 1 (des exHash f) := by
  intro b v r h
  cases f with
  | zero => rw [des] at h; cases h
  | succ f =>
    have ex := (exact_des_all (exHash := exHash) (f + 1)).1
    obtain ⟨c, e, hs, hf⟩ := ex b v r h
    match c, e, hs, hf with
    | [], e, hs, _ =>
      exfalso
      have := hs []
      rw [des] at this
      simp only [List.nil_append, bind_eq] at this
      unfold Rd.bind rd1 at this
      cases this
    | x :: c, e, _, _ => rw [e]; simp

/-- On buffers of length at most `L` the fuel is not exhausted. -/
def NoOof {α : Type} (L : Nat) (p : Rd α) : Prop := ∀ b, b.length ≤ L → p b ≠ .oof

theorem noOof_bind {α β : Type} {L k : Nat} {p : Rd α} {q : α → Rd β} (hp : NoOof L p)
    (he : Eats k p) (hq : ∀ a, k ≤ L → NoOof (L - k) (q a)) : NoOof L (Rd.bind p q) := by
  intro b hb
  unfold Rd.bind
  cases h : p b with
  | ok a m =>
    have := he _ _ _ h
    exact hq a (by omega) m (by omega)
  | fail => simp
  | ub => simp
  | oof => exact absurd h (hp b hb)

theorem noOof_pure {α : Type} {L : Nat} (a : α) : NoOof L (Rd.pure a) := by
  intro b _; simp [Rd.pure]

theorem noOof_fail {α : Type} {L : Nat} : NoOof L (Rd.fail : Rd α) := by
  intro b _; simp [Rd.fail]

theorem noOof_ub {α : Type} {L : Nat} : NoOof L (Rd.ub : Rd α) := by
  intro b _; simp [Rd.ub]

theorem noOof_rd1 {L : Nat} : NoOof L rd1 := by
  intro b _; cases b <;> simp [rd1]

theorem noOof_rd16 {L : Nat} : NoOof L rd16 := by
  intro b _
  match b with
  | [] => simp [rd16]
  | [_] => simp [rd16]
  | _ :: _ :: _ => simp [rd16]

theorem noOof_rd32 {L : Nat} : NoOof L rd32 := by
  intro b _
  match b with
  | [] => simp [rd32]
  | [_] => simp [rd32]
  | [_, _] => simp [rd32]
  | [_, _, _] => simp [rd32]
  | _ :: _ :: _ :: _ :: _ => simp [rd32]

theorem noOof_rdN {L : Nat} (n : Nat) : NoOof L (rdN n) := by
  intro b _; unfold rdN; split <;> simp

theorem noOof_ite {α : Type} {c : Prop} [Decidable c] {L : Nat} {p q : Rd α} (hp : NoOof L p)
    (hq : NoOof L q) : NoOof L (if c then p else q) := by
  split <;> assumption

theorem noOof_all (f : Nat) : (∀ L, 2 * L + 1 ≤ f → NoOof L (des exHash f)) ∧
    (∀ L n, 2 * L + 2 ≤ f → NoOof L (desElems exHash f n)) ∧
    (∀ L n, 2 * L + 2 ≤ f → NoOof L (desSlots exHash f n)) := by
  induction f with
  | zero => refine ⟨fun L h => ?_, fun L n h => ?_, fun L n h => ?_⟩ <;> omega
  | succ f ih =>
    obtain ⟨i1, i2, i3⟩ := ih
    have e0 : ∀ n, Eats 0 (desElems exHash f n) := fun n => eats_of_exact ((exact_des_all f).2.1 n)
    have e1 : ∀ n, Eats 0 (desSlots exHash f n) := fun n => eats_of_exact ((exact_des_all f).2.2 n)
    refine ⟨fun L h => ?_, fun L n h => ?_, fun L n h => ?_⟩
    · rw [des]
      simp only [bind_eq, pure_eq]
      refine noOof_bind noOof_rd1 eats_rd1 fun t h1 => ?_
      refine noOof_ite (noOof_bind noOof_rd32 (eats_of_exact exact_rd32) fun _ _ => noOof_pure _) ?_
      refine noOof_ite (noOof_bind noOof_rd32 (eats_of_exact exact_rd32) fun _ _ => noOof_pure _) ?_
      refine noOof_ite (noOof_bind noOof_rd1 eats_rd1 fun x h2 => ?_) noOof_fail
      refine noOof_ite (noOof_bind noOof_rd1 eats_rd1 fun ty h3 =>
        noOof_bind noOof_rd16 eats_rd16 fun n h4 => ?_) ?_
      · refine noOof_ite (noOof_bind (noOof_rdN n) (eats_of_exact (exact_rdN n))
          fun _ _ => noOof_pure _) ?_
        refine noOof_ite (noOof_bind (i2 _ n (by omega)) (e0 n) fun _ _ => noOof_pure _) noOof_fail
      · refine noOof_ite (noOof_bind noOof_rd16 eats_rd16 fun m h3 => ?_) noOof_fail
        split
        · exact noOof_ub
        · exact noOof_bind (i3 _ m (by omega)) (e1 m) fun _ _ => noOof_pure _
    · cases n with
      | zero => rw [desElems]; exact noOof_pure _
      | succ n =>
        rw [desElems]
        refine noOof_bind (i1 L (by omega)) (eats_des f) fun _ h1 => ?_
        exact noOof_bind (i2 _ n (by omega)) (e0 n) fun _ _ => noOof_pure _
    · cases n with
      | zero => rw [desSlots]; exact noOof_pure _
      | succ n =>
        rw [desSlots]
        refine noOof_bind noOof_rd1 eats_rd1 fun t h1 => ?_
        refine noOof_ite (noOof_bind (i3 _ n (by omega)) (e1 n) fun _ _ => noOof_pure _) ?_
        refine noOof_bind (i1 _ (by omega)) (eats_des f) fun _ h2 => ?_
        refine noOof_bind (i1 _ (by omega)) (eats_des f) fun _ h3 => ?_
        exact noOof_bind (i3 _ n (by omega)) (e1 n) fun _ _ => noOof_pure _

/-- `p'` answers like `p` wherever `p` does not run out of fuel. -/
def Le {α : Type} (p p' : Rd α) : Prop := ∀ b, p b ≠ .oof → p' b = p b

theorem le_refl {α : Type} (p : Rd α) : Le p p := fun _ _ => rfl

theorem le_bind {α β : Type} {p p' : Rd α} {q q' : α → Rd β} (hp : Le p p') (hq : ∀ a, Le (q a) (q' a)) :
    Le (Rd.bind p q) (Rd.bind p' q') := by
  intro b h
  unfold Rd.bind at h ⊢
  cases hc : p b with
  | ok a m => rw [hp b (by rw [hc]; simp), hc]; rw [hc] at h; exact hq a m h
  | fail => rw [hp b (by rw [hc]; simp), hc]
  | ub => rw [hp b (by rw [hc]; simp), hc]
  | oof => rw [hc] at h; exact absurd rfl h

theorem le_ite {α : Type} {c : Prop} [Decidable c] {p q p' q' : Rd α} (hp : Le p p') (hq : Le q q') :
    Le (if c then p else q) (if c then p' else q') := by
  split <;> assumption

theorem le_all (f : Nat) : Le (des exHash f) (des exHash (f + 1)) ∧
    (∀ n, Le (desElems exHash f n) (desElems exHash (f + 1) n)) ∧
    (∀ n, Le (desSlots exHash f n) (desSlots exHash (f + 1) n)) := by
  induction f with
  | zero =>
    refine ⟨?_, fun n => ?_, fun n => ?_⟩
    · intro b h; rw [des] at h; exact absurd rfl h
    · intro b h; rw [desElems] at h; exact absurd rfl h
    · intro b h; rw [desSlots] at h; exact absurd rfl h
  | succ f ih =>
    obtain ⟨i1, i2, i3⟩ := ih
    refine ⟨?_, fun n => ?_, fun n => ?_⟩
    · rw [des, des]
      simp only [bind_eq, pure_eq]
      refine le_bind (le_refl _) fun t => ?_
      refine le_ite (le_refl _) (le_ite (le_refl _) (le_ite ?_ (le_refl _)))
      refine le_bind (le_refl _) fun x => ?_
      refine le_ite (le_bind (le_refl _) fun ty => le_bind (le_refl _) fun n => ?_) ?_
      · exact le_ite (le_refl _) (le_ite (le_bind (i2 n) fun _ => le_refl _) (le_refl _))
      · refine le_ite (le_bind (le_refl _) fun m => ?_) (le_refl _)
        cases newMod m with
        | none => exact le_refl _
        | some p => exact le_bind (i3 m) fun _ => le_refl _
    · cases n with
      | zero => rw [desElems, desElems]; exact le_refl _
      | succ n =>
        rw [desElems, desElems]
        exact le_bind i1 fun _ => le_bind (i2 n) fun _ => le_refl _
    · cases n with
      | zero => rw [desSlots, desSlots]; exact le_refl _
      | succ n =>
        rw [desSlots, desSlots]
        refine le_bind (le_refl _) fun t => ?_
        refine le_ite (le_bind (i3 n) fun _ => le_refl _) ?_
        exact le_bind i1 fun _ => le_bind i1 fun _ => le_bind (i3 n) fun _ => le_refl _

theorem des_fuel {b : List Byte} {f : Nat} (hf : 2 * b.length + 1 ≤ f) :
    des exHash f b = deserialize exHash b := by
  unfold deserialize
  obtain ⟨k, rfl⟩ := Nat.exists_eq_add_of_le hf
  clear hf
  induction k with
  | zero => rfl
  | succ k ih =>
    rw [← ih]
    exact (le_all (2 * b.length + 1 + k)).1 b
      ((noOof_all _).1 b.length (by omega) b (Nat.le_refl _))

/-! ### Where undefined behaviour can come from -/

/-- The buffer contains a hash-table header announcing an impossible slot count. -/
def BadHeader (b : List Byte) : Prop :=
  ∃ pre lo hi post, b = pre ++ [3#8, 0xE0#8, lo, hi] ++ post ∧
    (lo.toNat + 256 * hi.toNat = 0 ∨ 49157 < lo.toNat + 256 * hi.toNat)

/-- If `p` hits undefined behaviour, its input (preceded by `pre`) contains a bad header. -/
def UbOnly {α : Type} (pre : List Byte) (p : Rd α) : Prop := ∀ b, p b = .ub → BadHeader (pre ++ b)

theorem badHeader_append {c b : List Byte} (h : BadHeader b) : BadHeader (c ++ b) := by
  obtain ⟨pre, lo, hi, post, e, hm⟩ := h
  exact ⟨c ++ pre, lo, hi, post, by rw [e]; simp, hm⟩

theorem ubOnly_bind {α β : Type} {p : Rd α} {q : α → Rd β} (hx : Exact p) (hp : UbOnly [] p)
    (hq : ∀ a, UbOnly [] (q a)) : UbOnly [] (Rd.bind p q) := by
  intro b h
  unfold Rd.bind at h
  cases hp' : p b with
  | ok a m =>
    rw [hp'] at h
    obtain ⟨c, e, _⟩ := hx _ _ _ hp'
    rw [e]
    exact badHeader_append (c := c) (hq a m h)
  | fail => rw [hp'] at h; cases h
  | ub => exact hp b hp'
  | oof => rw [hp'] at h; cases h

theorem ubOnly_pure {α : Type} (a : α) : UbOnly [] (Rd.pure a) := by
  intro b h; cases h

theorem ubOnly_fail {α : Type} : UbOnly [] (Rd.fail : Rd α) := by
  intro b h; cases h

theorem ubOnly_rd1 : UbOnly [] rd1 := by
  intro b h; cases b <;> cases h

theorem ubOnly_rd16 : UbOnly [] rd16 := by
  intro b h
  match b, h with
  | [], h => cases h
  | [_], h => cases h
  | _ :: _ :: _, h => cases h

theorem ubOnly_rd32 : UbOnly [] rd32 := by
  intro b h
  match b, h with
  | [], h => cases h
  | [_], h => cases h
  | [_, _], h => cases h
  | [_, _, _], h => cases h
  | _ :: _ :: _ :: _ :: _, h => cases h

theorem ubOnly_rdN (n : Nat) : UbOnly [] (rdN n) := by
  intro b h; unfold rdN at h; split at h <;> cases h

theorem ubOnly_ite {α : Type} {c : Prop} [Decidable c] {p q : Rd α} (hp : UbOnly [] p)
    (hq : UbOnly [] q) : UbOnly [] (if c then p else q) := by
  split <;> assumption

theorem newMod_none {m : Nat} (hm : newMod m = none) : m = 0 ∨ 49157 < m := by
  by_cases h0 : m = 0
  · exact Or.inl h0
  · right
    have := List.find?_eq_none.mp hm 49157 (by decide)
    simp [h0] at this
    omega

theorem ubOnly_all (f : Nat) : UbOnly [] (des exHash f) ∧ (∀ n, UbOnly [] (desElems exHash f n)) ∧
    (∀ n, UbOnly [] (desSlots exHash f n)) := by
  induction f with
  | zero =>
    refine ⟨?_, fun n => ?_, fun n => ?_⟩
    · intro b h; rw [des] at h; cases h
    · intro b h; rw [desElems] at h; cases h
    · intro b h; rw [desSlots] at h; cases h
  | succ f ih =>
    obtain ⟨i1, i2, i3⟩ := ih
    obtain ⟨x1, x2, x3⟩ := exact_des_all (exHash := exHash) f
    refine ⟨?_, fun n => ?_, fun n => ?_⟩
    · intro b h
      rw [des] at h
      match b, h with
      | [], h => cases h
      | t :: b, h =>
        simp only [bind_eq, pure_eq] at h
        rw [bind_of_ok (p := rd1) (a := t) (m := b) rfl] at h
        split at h
        · exact absurd h (by
            intro h
            have := ubOnly_bind exact_rd32 ubOnly_rd32 (fun w => ubOnly_pure (SVal.int w)) b h
            unfold Rd.bind at h
            revert h
            split <;> first | (intro h; cases h) | skip
            rename_i h2
            match b, h2 with
            | [], h => cases h
            | [_], h => cases h
            | [_, _], h => cases h
            | [_, _, _], h => cases h
            | _ :: _ :: _ :: _ :: _, h => cases h)
        · split at h
          · have := ubOnly_bind exact_rd32 ubOnly_rd32 (fun w => ubOnly_pure (SVal.float w)) b h
            exact badHeader_append (c := [t]) this
          · split at h
            · rename_i ht
              match b, h with
              | [], h => cases h
              | x :: b, h =>
                rw [bind_of_ok (p := rd1) (a := x) (m := b) rfl] at h
                split at h
                · refine badHeader_append (c := [t, x])
                    (ubOnly_bind exact_rd1 ubOnly_rd1 (fun ty => ubOnly_bind exact_rd16 ubOnly_rd16
                      (fun n => ?_)) b h)
                  refine ubOnly_ite (ubOnly_bind (exact_rdN n) (ubOnly_rdN n) fun _ => ubOnly_pure _) ?_
                  exact ubOnly_ite (ubOnly_bind (x2 n) (i2 n) fun _ => ubOnly_pure _) ubOnly_fail
                · split at h
                  · rename_i hx
                    match b, h with
                    | [], h => cases h
                    | [_], h => cases h
                    | lo :: hi :: b, h =>
                      rw [bind_of_ok (p := rd16) (a := lo.toNat + 256 * hi.toNat) (m := b) rfl] at h
                      generalize hm : newMod (lo.toNat + 256 * hi.toNat) = o at h
                      cases o with
                      | none => exact ⟨[], lo, hi, b, by simp [ht, hx], newMod_none hm⟩
                      | some p =>
                        exact badHeader_append (c := [t, x, lo, hi])
                          (ubOnly_bind (x3 _) (i3 _) (fun _ => ubOnly_pure _) b h)
                  · cases h
            · cases h
    · cases n with
      | zero => rw [desElems]; exact ubOnly_pure _
      | succ n =>
        rw [desElems]
        exact ubOnly_bind x1 i1 fun _ => ubOnly_bind (x2 n) (i2 n) fun _ => ubOnly_pure _
    · cases n with
      | zero => rw [desSlots]; exact ubOnly_pure _
      | succ n =>
        rw [desSlots]
        refine ubOnly_bind exact_rd1 ubOnly_rd1 fun t => ?_
        refine ubOnly_ite (ubOnly_bind (x3 n) (i3 n) fun _ => ubOnly_pure _) ?_
        exact ubOnly_bind x1 i1 fun _ => ubOnly_bind x1 i1 fun _ =>
          ubOnly_bind (x3 n) (i3 n) fun _ => ubOnly_pure _

/-! ### Round trip -/

theorem rd32_pack32 (w : Word32) (rest : List Byte) : rd32 (pack32 w ++ rest) = .ok w rest := by
  have h := join32_pack w
  simp only [pack32, List.cons_append, List.nil_append, rd32]
  rw [h]

theorem rd16_pack16 (n : Nat) (hn : n < 65536) (rest : List Byte) :
    rd16 (pack16 (BitVec.ofNat 16 n) ++ rest) = .ok n rest := by
  simp only [pack16, List.cons_append, List.nil_append, rd16, Res.ok.injEq, and_true]
  have h1 : ((BitVec.ofNat 16 n &&& 255#16).setWidth 8).toNat = n % 256 := by
    simp only [BitVec.toNat_setWidth, BitVec.toNat_and, BitVec.toNat_ofNat]
    have : n % 2 ^ 16 &&& 255 % 2 ^ 16 = n % 2 ^ 16 % 256 := by
      exact Nat.and_two_pow_sub_one_eq_mod (n % 2 ^ 16) 8
    rw [this]; omega
  have h2 : (((BitVec.ofNat 16 n).sshiftRight 8 &&& 255#16).setWidth 8).toNat = n / 256 := by
    have : ((BitVec.ofNat 16 n).sshiftRight 8 &&& 255#16).setWidth 8
        = BitVec.ofNat 8 (n / 256) := by
      apply BitVec.eq_of_getLsbD_eq
      intro i hi
      have h8 : 8 + i < 16 := by omega
      have h9 : i < 16 := by omega
      have h10 := getLsbD_mask16 i
      simp only [BitVec.getLsbD_setWidth, BitVec.getLsbD_and, h10,
        BitVec.getLsbD_sshiftRight, BitVec.getLsbD_ofNat]
      simp only [hi, h8, decide_true, Bool.true_and, Bool.and_true, if_true]
      have : n / 256 = n >>> 8 := by rw [Nat.shiftRight_eq_div_pow]
      rw [this, Nat.testBit_shiftRight]
      simp; omega
    rw [this, BitVec.toNat_ofNat]; omega
  rw [h1, h2]; omega

theorem rdN_append (bs rest : List Byte) : rdN bs.length (bs ++ rest) = .ok bs rest := by
  unfold rdN
  rw [if_pos (by simp)]
  simp

theorem keyHash_of_hashOf {k : SVal} {h : Word32} (hk : hashOf k = some h) :
    keyHash exHash k = h ∧ recount k = k := by
  cases k <;> simp_all [hashOf, keyHash, recount]

theorem recountSlots_length : ∀ s : Slots, (recountSlots s).length = s.length
  | .nil => by simp [recountSlots]
  | .empty s => by simp [recountSlots, Slots.length, recountSlots_length s]
  | .full _ _ _ s => by simp [recountSlots, Slots.length, recountSlots_length s]

theorem pad_zero : ∀ s : Slots, s.pad 0 = s
  | .nil => by simp [Slots.pad, Slots.blank]
  | .empty s => by simp [Slots.pad, pad_zero s]
  | .full _ _ _ s => by simp [Slots.pad, pad_zero s]

theorem newMod_prime {m : Nat} (hm : m ∈ HashTable.primeTable) : newMod m = some m := by
  have : ∀ m ∈ HashTable.primeTable, newMod m = some m := by decide
  exact this m hm

theorem prime_lt {m : Nat} (hm : m ∈ HashTable.primeTable) : m < 65536 := by
  have : ∀ m ∈ HashTable.primeTable, m < 65536 := by decide
  exact this m hm

mutual
theorem ser_ok (v : SVal) (hv : Supported v) : (ser v).2 = true := by
  cases v with
  | int w => rfl
  | float w => rfl
  | str bs => rfl
  | arr es => rw [Supported] at hv; simp only [ser]; exact serElems_ok es hv.2
  | hash n ss => rfl
  | other x => rw [Supported] at hv; exact hv.elim
theorem serElems_ok (es : SVals) (hv : SupportedElems es) : (serElems es).2 = true := by
  cases es with
  | nil => rfl
  | cons v vs =>
    rw [SupportedElems] at hv
    simp only [serElems, ser_ok v hv.1, if_true]
    exact serElems_ok vs hv.2
end

theorem pack16_len (i : Word16) : (pack16 i).length = 2 := rfl

mutual
theorem des_ser (v : SVal) (hv : Supported v) (f : Nat) (hf : 2 * (ser v).1.length + 1 ≤ f)
    (rest : List Byte) : des exHash f ((ser v).1 ++ rest) = .ok (recount v) rest := by
  match f, hf with
  | f + 1, hf =>
  rw [des]
  simp only [bind_eq, pure_eq]
  cases v with
  | int w =>
    simp only [ser, List.cons_append]
    rw [bind_of_ok (p := rd1) (a := 0#8) rfl, if_pos rfl, bind_of_ok (rd32_pack32 w rest)]
    rfl
  | float w =>
    simp only [ser, List.cons_append]
    rw [bind_of_ok (p := rd1) (a := 1#8) rfl, if_neg (by decide), if_pos rfl,
      bind_of_ok (rd32_pack32 w rest)]
    rfl
  | str bs =>
    rw [Supported] at hv
    simp only [ser, List.cons_append, List.nil_append, List.append_assoc]
    rw [bind_of_ok (p := rd1) (a := 3#8) rfl, if_neg (by decide), if_neg (by decide), if_pos rfl,
      bind_of_ok (p := rd1) (a := 0xA0#8) rfl, if_pos rfl,
      bind_of_ok (p := rd1) (a := 5#8) rfl, bind_of_ok (rd16_pack16 _ hv _), if_pos rfl,
      bind_of_ok (rdN_append bs rest)]
    rfl
  | arr es =>
    rw [Supported] at hv
    simp only [ser, List.length_append, List.length_cons, List.length_nil] at hf
    simp only [ser, List.cons_append, List.nil_append, List.append_assoc]
    rw [bind_of_ok (p := rd1) (a := 3#8) rfl, if_neg (by decide), if_neg (by decide), if_pos rfl,
      bind_of_ok (p := rd1) (a := 0xA0#8) rfl, if_pos rfl,
      bind_of_ok (p := rd1) (a := 4#8) rfl, bind_of_ok (rd16_pack16 _ hv.1 _), if_neg (by decide),
      if_pos rfl, bind_of_ok (desElems_ser es hv.2 f (by omega) rest)]
    simp only [recount]; rfl
  | hash n ss =>
    rw [Supported] at hv
    simp only [ser, List.length_append, List.length_cons, List.length_nil] at hf
    simp only [ser, List.cons_append, List.nil_append, List.append_assoc]
    rw [bind_of_ok (p := rd1) (a := 3#8) rfl, if_neg (by decide), if_neg (by decide), if_pos rfl,
      bind_of_ok (p := rd1) (a := 0xE0#8) rfl, if_neg (by decide), if_pos rfl,
      bind_of_ok (rd16_pack16 _ (prime_lt hv.1) _), newMod_prime hv.1]
    simp only []
    rw [bind_of_ok (desSlots_ser ss hv.2 f (by omega) rest), Nat.sub_self, pad_zero]
    simp only [recount]; rfl
  | other x => rw [Supported] at hv; exact hv.elim
theorem desElems_ser (es : SVals) (hv : SupportedElems es) (f : Nat)
    (hf : 2 * (serElems es).1.length + 2 ≤ f) (rest : List Byte) :
    desElems exHash f es.length ((serElems es).1 ++ rest) = .ok (recountElems es) rest := by
  match f, hf with
  | f + 1, hf =>
  cases es with
  | nil =>
    simp only [SVals.length]
    rw [desElems]
    simp only [serElems, recountElems]; rfl
  | cons v vs =>
    rw [SupportedElems] at hv
    simp only [SVals.length]
    rw [desElems]
    simp only [serElems, ser_ok v hv.1, if_true, List.length_append] at hf ⊢
    simp only [bind_eq, pure_eq, List.append_assoc]
    have : 1 ≤ (ser v).1.length := ser_pos v
    rw [bind_of_ok (des_ser v hv.1 f (by omega) _),
      bind_of_ok (desElems_ser vs hv.2 f (by omega) rest)]
    simp only [recountElems]; rfl
theorem desSlots_ser (ss : Slots) (hv : SupportedSlots ss) (f : Nat)
    (hf : 2 * (serSlots ss).length + 2 ≤ f) (rest : List Byte) :
    desSlots exHash f ss.length (serSlots ss ++ rest) = .ok (recountSlots ss) rest := by
  match f, hf with
  | f + 1, hf =>
  cases ss with
  | nil =>
    simp only [Slots.length]
    rw [desSlots]
    simp only [serSlots, recountSlots]; rfl
  | empty s =>
    rw [SupportedSlots] at hv
    simp only [Slots.length]
    rw [desSlots]
    simp only [serSlots, List.length_cons, List.cons_append] at hf ⊢
    simp only [bind_eq, pure_eq]
    rw [bind_of_ok (p := rd1) (a := 0#8) rfl, if_pos rfl,
      bind_of_ok (desSlots_ser s hv f (by omega) rest)]
    simp only [recountSlots]; rfl
  | full h v k s =>
    rw [SupportedSlots] at hv
    obtain ⟨hk, h1, h2, h3⟩ := hv
    simp only [Slots.length]
    rw [desSlots]
    simp only [serSlots, List.length_cons, List.length_append, List.cons_append] at hf ⊢
    simp only [bind_eq, pure_eq, List.append_assoc]
    rw [bind_of_ok (p := rd1) (a := 1#8) rfl, if_neg (by decide),
      bind_of_ok (des_ser v h1 f (by omega) _), bind_of_ok (des_ser k h2 f (by omega) _),
      bind_of_ok (desSlots_ser s h3 f (by omega) rest), (keyHash_of_hashOf (exHash := exHash) hk).2,
      (keyHash_of_hashOf (exHash := exHash) hk).1]
    simp only [recountSlots, (keyHash_of_hashOf (exHash := exHash) hk).2]; rfl
theorem ser_pos (v : SVal) : 1 ≤ (ser v).1.length := by
  cases v <;> simp [ser]
end

mutual
theorem recount_noHash (v : SVal) (h : NoHash v) : recount v = v := by
  cases v with
  | arr es => rw [NoHash] at h; simp only [recount]; rw [recountElems_noHash es h]
  | hash n s => rw [NoHash] at h; exact h.elim
  | int | float | str | other => simp only [recount]
theorem recountElems_noHash (es : SVals) (h : NoHashElems es) : recountElems es = es := by
  cases es with
  | nil => rfl
  | cons v vs =>
    rw [NoHashElems] at h
    simp only [recountElems]
    rw [recount_noHash v h.1, recountElems_noHash vs h.2]
end

theorem serElems_fail : ∀ es : SVals, (∃ v, es.Mem v ∧ serialize v = none) → (serElems es).2 = false
  | .nil => by rintro ⟨v, hm, _⟩; simp [SVals.Mem] at hm
  | .cons w ws => by
    rintro ⟨v, hm, hs⟩
    simp only [serElems]
    by_cases hw : (ser w).2
    · rw [if_pos hw]
      rcases hm with rfl | hm
      · simp [serialize, hw] at hs
      · exact serElems_fail ws ⟨v, hm, hs⟩
    · rw [if_neg hw]

theorem write_init (ds : List (List Byte)) (w : Writer) (hw : w.data.length ≤ w.cap) :
    ∃ w', ds.foldlM Writer.write w = some w' ∧ w'.data = w.data ++ ds.flatten ∧
      w'.data.length ≤ w'.cap := by
  induction ds generalizing w with
  | nil => exact ⟨w, rfl, by simp, hw⟩
  | cons d ds ih =>
    have : ∃ w1, w.write d = some w1 ∧ w1.data = w.data ++ d ∧ w1.data.length ≤ w1.cap := by
      unfold Writer.write
      by_cases h0 : d.length = 0
      · rw [if_pos h0]
        refine ⟨w, rfl, ?_, hw⟩
        rw [List.eq_nil_of_length_eq_zero h0]; simp
      · rw [if_neg h0]
        simp only []
        split
        · rw [if_pos (by omega)]
          exact ⟨_, rfl, rfl, by simp; omega⟩
        · rw [if_pos (by omega)]
          exact ⟨_, rfl, rfl, by simp; omega⟩
    obtain ⟨w1, e, hd, hc⟩ := this
    obtain ⟨w', e', hd', hc'⟩ := ih w1 hc
    refine ⟨w', ?_, ?_, hc'⟩
    · rw [List.foldlM_cons, e]; exact e'
    · rw [hd', hd]; simp

end Wrench.Serializer
