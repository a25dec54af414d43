import Verif.HostCont.Spec
import Verif.HashTable.Refine
import Verif.Bytes.Props
import Mathlib.Data.List.Perm.Basic
import Mathlib.Data.List.Nodup

/-! Simulation of the container model by its specification, and the memory it owns. -/
namespace Wrench.HostCont

open Wrench.HashTable

/-! ### Names -/

theorem cstr_eq {n : List Byte} (h : 0#8 ∉ n) : cstr n = n := by
  unfold cstr
  induction n with
  | nil => rfl
  | cons x l ih =>
    simp only [List.mem_cons, not_or] at h
    rw [List.takeWhile_cons, if_pos (by simpa using fun e : x = 0#8 => h.1 e.symm), ih h.2]

theorem hashStr_eq {n : List Byte} (h : ∀ b ∈ n, b ≠ 0#8 ∧ b.toNat < 128) : hashStr n = wrHash n := by
  have h0 : cstr n = n := cstr_eq fun hm => (h _ hm).1 rfl
  unfold cstr at h0
  simp only [hashStr, wrHash, h0, foldl_signExtend (fun b hb => (h b hb).2)]

/-! ### Specification lists -/

theorem mem_put {a : Spec} {e x : Ent} :
    x ∈ (a.put e).ents ↔ x = e ∨ (x ∈ a.ents ∧ x.name ≠ e.name) := by
  unfold Spec.put
  by_cases h : a.ents.any (·.name == e.name) = true
  · rw [if_pos h]
    simp only [List.mem_map]
    constructor
    · rintro ⟨y, hy, rfl⟩
      by_cases c : y.name = e.name
      · simp [c]
      · simp [c, hy]
    · rintro (rfl | ⟨hx, hne⟩)
      · simp only [List.any_eq_true, beq_iff_eq] at h
        obtain ⟨y, hy, c⟩ := h
        exact ⟨y, hy, by simp [c]⟩
      · exact ⟨x, hx, by simp [hne]⟩
  · rw [if_neg h]
    simp only [List.mem_append, List.mem_singleton]
    have h' : ∀ y ∈ a.ents, y.name ≠ e.name := by
      intro y hy c
      apply h
      simp only [List.any_eq_true, beq_iff_eq]
      exact ⟨y, hy, c⟩
    constructor
    · rintro (hx | rfl)
      · exact Or.inr ⟨hx, h' x hx⟩
      · exact Or.inl rfl
    · rintro (rfl | ⟨hx, _⟩)
      · exact Or.inr rfl
      · exact Or.inl hx

theorem nodup_put {a : Spec} {e : Ent} (h : (a.ents.map Ent.name).Nodup) :
    ((a.put e).ents.map Ent.name).Nodup := by
  unfold Spec.put
  by_cases c : a.ents.any (·.name == e.name) = true
  · rw [if_pos c]
    simp only [List.map_map]
    have : (Ent.name ∘ fun x => if x.name == e.name then e else x) = Ent.name := by
      funext x
      by_cases d : x.name = e.name <;> simp [d]
    rw [this]; exact h
  · rw [if_neg c]
    simp only [List.map_append, List.map_cons, List.map_nil]
    rw [List.nodup_append]
    refine ⟨h, by simp, ?_⟩
    intro x hx y hy
    simp only [List.mem_singleton] at hy
    subst hy
    intro e'
    subst e'
    apply c
    simp only [List.mem_map] at hx
    obtain ⟨z, hz, ez⟩ := hx
    simp only [List.any_eq_true, beq_iff_eq]
    exact ⟨z, hz, ez⟩

@[simp] theorem put_vars (a : Spec) (e : Ent) : (a.put e).vars = a.vars := by
  unfold Spec.put; split <;> rfl

theorem find_some {a : Spec} {n : List Byte} {e : Ent} (h : a.find n = some e) :
    e ∈ a.ents ∧ e.name = n := by
  unfold Spec.find at h
  exact ⟨List.mem_of_find?_eq_some h, by simpa using List.find?_some h⟩

theorem find_none {a : Spec} {n : List Byte} (h : a.find n = none) : ∀ e ∈ a.ents, e.name ≠ n := by
  unfold Spec.find at h
  rw [List.find?_eq_none] at h
  intro e he c
  exact h e he (by simp [c])

theorem find_of_mem {a : Spec} (hnd : (a.ents.map Ent.name).Nodup) {e : Ent} (h : e ∈ a.ents) :
    a.find e.name = some e := by
  cases hf : a.find e.name with
  | none => exact absurd rfl (find_none hf e h)
  | some f =>
    obtain ⟨hm, hn⟩ := find_some hf
    rw [List.inj_on_of_nodup_map hnd hm h hn]

/-! ### The relation -/

/-- A key cell shows this name. -/
def KeyIs (s : St) (c : Cell) : Option (List Byte) → Prop
  | none => c = zero
  | some n => ∃ id, c = ⟨.obj id, asArray⟩ ∧ id < s.next ∧ s.strs id = some n

/-- Values the entries of a container hold. -/
def Val (c : Cell) : Prop := (∃ n, c = ⟨.var n, asRef⟩) ∨ c.plain

/-- The container `s` stores exactly the entries of `a`. -/
structure Rel (s : St) (a : Spec) : Prop where
  inv : Inv s.t.mod s.t.slots
  clean : Clean (zero, zero) s.t
  nd : (a.ents.map Ent.name).Nodup
  real : ∀ e ∈ a.ents, wrHash e.name ≠ nullHash
  inj : ∀ e ∈ a.ents, ∀ f ∈ a.ents, wrHash e.name = wrHash f.name → e.name = f.name
  ents : ∀ e ∈ a.ents, ∃ i, i < s.t.mod ∧ s.t.slots i = wrHash e.name ∧ (s.t.vals i).1 = e.val ∧
    KeyIs s (s.t.vals i).2 e.key
  slots : ∀ i, i < s.t.mod → s.t.slots i ≠ nullHash → ∃ e ∈ a.ents, wrHash e.name = s.t.slots i
  good : ∀ e ∈ a.ents, Val e.val
  vars : s.vars = a.vars
  plain : ∀ n, (s.vars n).plain

/-- `n` is a name that may be used next to the entries of `a`. -/
structure Fits (a : Spec) (n : List Byte) : Prop where
  real : wrHash n ≠ nullHash
  inj : ∀ e ∈ a.ents, wrHash e.name = wrHash n → e.name = n

theorem KeyIs.mono {s s' : St} {c : Cell} {k : Option (List Byte)} (h : KeyIs s c k)
    (hn : s.next ≤ s'.next) (hs : ∀ id, id < s.next → s'.strs id = s.strs id) : KeyIs s' c k := by
  cases k with
  | none => exact h
  | some n =>
    obtain ⟨id, e, hl, hb⟩ := h
    exact ⟨id, e, by omega, by rw [hs id hl]; exact hb⟩

/-- Changes of memory that leave the table and the strings alone. -/
theorem Rel.frame {s s' : St} {a : Spec} (R : Rel s a) (ht : s'.t = s.t) (hv : s'.vars = s.vars)
    (hn : s.next ≤ s'.next) (hs : ∀ id, id < s.next → s'.strs id = s.strs id) : Rel s' a := by
  refine ⟨by rw [ht]; exact R.inv, by rw [ht]; exact R.clean, R.nd, R.real, R.inj, ?_, by rw [ht]; exact R.slots,
    R.good, by rw [hv]; exact R.vars, by rw [hv]; exact R.plain⟩
  intro e he
  obtain ⟨i, hi, h1, h2, h3⟩ := R.ents e he
  rw [ht]
  exact ⟨i, hi, h1, h2, h3.mono hn hs⟩

/-- Overwriting the cells of an occupied slot. -/
theorem Rel.write {s s' : St} {a : Spec} {e f : Ent} {i : Nat} (R : Rel s a) (he : e ∈ a.ents)
    (hi : i < s.t.mod) (hs : s.t.slots i = wrHash e.name)
    (hm : s'.t.mod = s.t.mod) (hsl : s'.t.slots = s.t.slots)
    (ho : ∀ j, j ≠ i → s'.t.vals j = s.t.vals j)
    (hf : f.name = e.name) (hv : (s'.t.vals i).1 = f.val) (hk : KeyIs s' (s'.t.vals i).2 f.key)
    (hg : Val f.val) (hvars : s'.vars = s.vars)
    (hn : s.next ≤ s'.next) (hst : ∀ id, id < s.next → s'.strs id = s.strs id) :
    Rel s' (a.put f) := by
  have hreal := R.real e he
  refine ⟨by rw [hm, hsl]; exact R.inv, ?_, nodup_put R.nd, ?_, ?_, ?_, ?_, ?_, by rw [hvars, put_vars]; exact R.vars,
    by rw [hvars]; exact R.plain⟩
  · intro j hj hj0
    rw [hm] at hj; rw [hsl] at hj0
    have : j ≠ i := by intro c; subst c; rw [hs] at hj0; exact hreal hj0
    rw [ho j this]; exact R.clean j hj hj0
  · intro x hx
    rcases mem_put.mp hx with rfl | ⟨hx, _⟩
    · rw [hf]; exact hreal
    · exact R.real x hx
  · intro x hx y hy hxy
    rcases mem_put.mp hx with h1 | ⟨h1, _⟩ <;> rcases mem_put.mp hy with h2 | ⟨h2, _⟩
    · rw [h1, h2]
    · rw [h1, hf] at hxy ⊢; exact R.inj e he y h2 hxy
    · rw [h2, hf] at hxy ⊢; exact R.inj x h1 e he hxy
    · exact R.inj x h1 y h2 hxy
  · intro x hx
    rcases mem_put.mp hx with rfl | ⟨hx, hxn⟩
    · exact ⟨i, by rw [hm]; exact hi, by rw [hsl, hs, hf], hv, hk⟩
    · obtain ⟨j, hj, h1, h2, h3⟩ := R.ents x hx
      have hji : j ≠ i := by
        intro c; subst c
        exact hxn (by rw [hf]; exact R.inj x hx e he (by rw [← h1, hs]))
      exact ⟨j, by rw [hm]; exact hj, by rw [hsl]; exact h1, by rw [ho j hji]; exact h2,
        by rw [ho j hji]; exact h3.mono hn hst⟩
  · intro j hj hj0
    rw [hm] at hj; rw [hsl] at hj0 ⊢
    obtain ⟨x, hx, hxs⟩ := R.slots j hj hj0
    by_cases c : x.name = e.name
    · exact ⟨f, mem_put.mpr (Or.inl rfl), by rw [hf, ← c]; exact hxs⟩
    · exact ⟨x, mem_put.mpr (Or.inr ⟨hx, by rw [hf]; exact c⟩), hxs⟩
  · intro x hx
    rcases mem_put.mp hx with rfl | ⟨hx, _⟩
    · exact hg
    · exact R.good x hx

theorem val_zero : Val zero := Or.inr ⟨rfl, rfl⟩

/-! ### Memory -/

/-- What one of the model's memory operations leaves alone. -/
structure Same (s s' : St) : Prop where
  t : s'.t = s.t
  vars : s'.vars = s.vars
  strs : s'.strs = s.strs
  next : s.next ≤ s'.next
  chain : s'.chain = s.chain
  ctx : s'.ctx = s.ctx
  hdr : s'.hdr = s.hdr

theorem free_eq {s s' : St} {id : Nat} (h : free s id = some s') :
    id ∈ s.live ∧ s' = { s with live := s.live.erase id } := by
  unfold free at h
  split at h
  · rename_i hm; cases h; exact ⟨hm, rfl⟩
  · cases h

theorem free_alloc (s : St) : free (alloc s).1 (alloc s).2 = some { s with next := s.next + 1 } := by
  simp [free, alloc]

theorem tryBlocks_eq (n : Nat) (s : St) : tryBlocks n s = some { s with next := s.next + n } := by
  induction n generalizing s with
  | zero => rfl
  | succ n ih =>
    simp only [tryBlocks, free_alloc, ih]
    simp only [Option.some.injEq, St.mk.injEq, and_true, true_and]
    omega

/-- What a growth does. -/
theorem grow_eq {s s' : St} {h : Word32} {hint i : Nat} (hg : grow s h hint = some (s', i)) :
    ∃ t' r, growHash (zero, zero) () s.t h hint = some (t', i) ∧
      s' = { s with t := t', next := s.next + r + 1, live := (s.next + r) :: s.live,
                    chain := .internal (s.next + r) :: s.chain } := by
  unfold grow at hg
  cases hh : growHash (zero, zero) () s.t h hint with
  | none => rw [hh] at hg; cases hg
  | some p =>
    obtain ⟨t', j⟩ := p
    rw [hh] at hg
    simp only [tryBlocks_eq, alloc] at hg
    cases hg
    exact ⟨t', _, rfl, rfl⟩

/-- The memory of a container: the live blocks are exactly its header and the blocks of the objects
on the two chains, each once. -/
structure Mem (s : St) : Prop where
  perm : s.live.Perm (s.hdr :: (s.chain ++ s.ctx).flatMap Obj.blocks)
  nd : s.live.Nodup
  lt : ∀ id ∈ s.live, id < s.next

theorem Mem.frame {s s' : St} (m : Mem s) (hl : s'.live = s.live) (hh : s'.hdr = s.hdr)
    (hc : s'.chain = s.chain) (hx : s'.ctx = s.ctx) (hn : s.next ≤ s'.next) : Mem s' := by
  refine ⟨by rw [hl, hh, hc, hx]; exact m.perm, by rw [hl]; exact m.nd, ?_⟩
  intro id h; rw [hl] at h; have := m.lt id h; omega

theorem Mem.internal {s s' : St} (m : Mem s) {b : Nat} (hb : s.next ≤ b) (hl : s'.live = b :: s.live)
    (hh : s'.hdr = s.hdr) (hc : s'.chain = .internal b :: s.chain) (hx : s'.ctx = s.ctx)
    (hn : b < s'.next) : Mem s' := by
  refine ⟨?_, ?_, ?_⟩
  · rw [hl, hh, hc, hx]
    simp only [List.cons_append, List.flatMap_cons, Obj.blocks, List.nil_append]
    exact ((List.Perm.cons b m.perm).trans (List.Perm.swap _ _ _))
  · rw [hl, List.nodup_cons]
    refine ⟨fun h => ?_, m.nd⟩
    have := m.lt b h; omega
  · intro id h
    rw [hl, List.mem_cons] at h
    rcases h with rfl | h
    · exact hn
    · have := m.lt id h; omega

theorem newStr_eq (s : St) (b : List Byte) :
    newStr s b = ({ s with next := s.next + 2, live := (s.next + 1) :: s.next :: s.live,
                           strs := upd s.strs s.next (some b) }, s.next, s.next + 1) := rfl

theorem Mem.str {s s' : St} (m : Mem s) (hl : s'.live = (s.next + 1) :: s.next :: s.live)
    (hh : s'.hdr = s.hdr) (hn : s'.next = s.next + 2)
    (hc : (s'.chain = .str s.next (s.next + 1) :: s.chain ∧ s'.ctx = s.ctx) ∨
      (s'.ctx = .str s.next (s.next + 1) :: s.ctx ∧ s'.chain = s.chain)) : Mem s' := by
  have hnm : ∀ id, s.next ≤ id → id ∉ s.live := by
    intro id h hm; have := m.lt id hm; omega
  refine ⟨?_, ?_, ?_⟩
  · rw [hl, hh]
    have p : ((s.next + 1) :: s.next :: s.live).Perm
        (s.hdr :: (s.next + 1) :: s.next :: (s.chain ++ s.ctx).flatMap Obj.blocks) := by
      refine ((m.perm.cons s.next).cons (s.next + 1)).trans ?_
      refine List.Perm.trans ?_ (List.Perm.swap _ _ _)
      exact (List.Perm.swap _ _ _).cons _
    refine p.trans (List.Perm.cons _ ?_)
    rcases hc with ⟨h1, h2⟩ | ⟨h1, h2⟩
    · rw [h1, h2]; exact List.Perm.refl _
    · rw [h1, h2]
      simp only [List.flatMap_append, List.flatMap_cons, Obj.blocks, List.cons_append, List.nil_append]
      exact (List.perm_middle.trans (List.perm_middle.cons _)).symm.trans (List.Perm.refl _) |>.symm.symm
  · rw [hl]
    simp only [List.nodup_cons, List.mem_cons, not_or]
    exact ⟨⟨by omega, hnm _ (by omega)⟩, hnm _ (Nat.le_refl _), m.nd⟩
  · intro id h
    rw [hl] at h
    simp only [List.mem_cons] at h
    rcases h with rfl | rfl | h
    · omega
    · omega
    · have := m.lt id h; omega

/-! ### Reaching an entry -/

theorem getIdx_t {s s' : St} {h : Word32} {i : Nat} (hg : getIdx s h = some (s', i)) :
    getIndexOfHit (zero, zero) () s.t h = some (s'.t, i) := by
  unfold getIdx at hg
  unfold getIndexOfHit
  cases hp : probe s.t.mod s.t.slots h false with
  | hit j => rw [hp] at hg; cases hg; rfl
  | insert j => rw [hp] at hg; cases hg; rfl
  | miss =>
    rw [hp] at hg
    simp only at hg ⊢
    unfold getInsert at hg
    unfold hitInsert
    cases hq : probe s.t.mod s.t.slots h true with
    | hit j => rw [hq] at hg; cases hg; rfl
    | insert j => rw [hq] at hg; cases hg; rfl
    | miss =>
      rw [hq] at hg
      simp only at hg ⊢
      obtain ⟨t', r, e, rfl⟩ := grow_eq hg
      exact e

theorem getIdx_mem {s s' : St} {h : Word32} {i : Nat} (hg : getIdx s h = some (s', i)) :
    s'.vars = s.vars ∧ s'.strs = s.strs ∧ s.next ≤ s'.next ∧ s'.ctx = s.ctx ∧ s'.hdr = s.hdr ∧
      (Mem s → Mem s') := by
  unfold getIdx at hg
  have keep : ∀ {s1 : St} {j : Nat}, some (s1, j) = some (s', i) → s1.vars = s.vars → s1.strs = s.strs →
      s1.next = s.next → s1.ctx = s.ctx → s1.hdr = s.hdr → s1.live = s.live → s1.chain = s.chain →
      s'.vars = s.vars ∧ s'.strs = s.strs ∧ s.next ≤ s'.next ∧ s'.ctx = s.ctx ∧ s'.hdr = s.hdr ∧
      (Mem s → Mem s') := by
    intro s1 j e a b c d f g k
    cases e
    exact ⟨a, b, by omega, d, f, fun m => m.frame g f k d (by omega)⟩
  cases hp : probe s.t.mod s.t.slots h false with
  | hit j => rw [hp] at hg; exact keep hg rfl rfl rfl rfl rfl rfl rfl
  | insert j => rw [hp] at hg; exact keep hg rfl rfl rfl rfl rfl rfl rfl
  | miss =>
    rw [hp] at hg
    simp only at hg
    unfold getInsert at hg
    cases hq : probe s.t.mod s.t.slots h true with
    | hit j => rw [hq] at hg; exact keep hg rfl rfl rfl rfl rfl rfl rfl
    | insert j => rw [hq] at hg; exact keep hg rfl rfl rfl rfl rfl rfl rfl
    | miss =>
      rw [hq] at hg
      simp only at hg
      obtain ⟨t', r, e, rfl⟩ := grow_eq hg
      refine ⟨rfl, rfl, by simp only; omega, rfl, rfl, fun m => ?_⟩
      exact m.internal (b := s.next + r) (by omega) rfl rfl rfl rfl (by simp only; omega)

/-- Looking an entry up creates it when it is missing, and finds it in its slot. -/
theorem Rel.get {s s' : St} {a : Spec} {n : List Byte} {i : Nat} (R : Rel s a) (F : Fits a n)
    (hg : getIdx s (wrHash n) = some (s', i)) :
    let e := (a.find n).getD ⟨n, zero, none⟩
    Rel s' (a.put e) ∧ e.name = n ∧ i < s'.t.mod ∧ s'.t.slots i = wrHash n ∧
      (s'.t.vals i).1 = e.val ∧ KeyIs s' (s'.t.vals i).2 e.key := by
  intro e
  obtain ⟨hvars, hstrs, hnext, _, _, _⟩ := getIdx_mem hg
  have E := getIndexOfHit_ext R.inv F.real (getIdx_t hg)
  have hst : ∀ id, id < s.next → s'.strs id = s.strs id := fun id _ => by rw [hstrs]
  have hname : e.name = n := by
    show ((a.find n).getD ⟨n, zero, none⟩).name = n
    cases hf : a.find n with
    | none => rfl
    | some x => exact (find_some hf).2
  have hslot : (s'.t.vals i).1 = e.val ∧ KeyIs s' (s'.t.vals i).2 e.key ∧ Val e.val := by
    show _ = ((a.find n).getD ⟨n, zero, none⟩).val ∧ KeyIs s' _ ((a.find n).getD ⟨n, zero, none⟩).key ∧
      Val ((a.find n).getD ⟨n, zero, none⟩).val
    cases hf : a.find n with
    | none =>
      have habs : ¬ Present s.t.mod s.t.slots (wrHash n) := by
        rintro ⟨j, hj, hs⟩
        obtain ⟨x, hx, hxs⟩ := R.slots j hj (by rw [hs]; exact F.real)
        exact find_none hf x hx (F.inj x hx (by rw [hxs, hs]))
      have := E.fresh habs R.clean
      rw [this]
      exact ⟨rfl, rfl, val_zero⟩
    | some x =>
      obtain ⟨hx, hxn⟩ := find_some hf
      obtain ⟨j0, hj0, h1, h2, h3⟩ := R.ents x hx
      obtain ⟨j, hj, c, d, _⟩ := E.fwd j0 hj0 (by rw [h1]; exact R.real x hx)
      have : j = i := E.inv.inj j i hj E.lt (by rw [c, h1]; exact R.real x hx)
        (by rw [c, h1, hxn, E.at_])
      subst this
      rw [d]
      exact ⟨h2, h3.mono hnext hst, R.good x hx⟩
  refine ⟨?_, hname, E.lt, E.at_, hslot.1, hslot.2.1⟩
  have memput : ∀ x, x ∈ (a.put e).ents ↔ x = e ∨ (x ∈ a.ents ∧ x.name ≠ n) := by
    intro x; rw [mem_put, hname]
  refine ⟨E.inv, E.clean R.clean, nodup_put R.nd, ?_, ?_, ?_, ?_, ?_, by rw [hvars, put_vars]; exact R.vars,
    by rw [hvars]; exact R.plain⟩
  · intro x hx
    rcases (memput x).mp hx with rfl | ⟨hx, _⟩
    · rw [hname]; exact F.real
    · exact R.real x hx
  · intro x hx y hy hxy
    rcases (memput x).mp hx with rfl | ⟨hx, hxn⟩ <;> rcases (memput y).mp hy with rfl | ⟨hy, hyn⟩
    · rfl
    · rw [hname] at hxy ⊢; exact (F.inj y hy hxy.symm).symm
    · rw [hname] at hxy ⊢; exact F.inj x hx hxy
    · exact R.inj x hx y hy hxy
  · intro x hx
    rcases (memput x).mp hx with rfl | ⟨hx, hxn⟩
    · exact ⟨i, E.lt, by rw [hname]; exact E.at_, hslot.1, hslot.2.1⟩
    · obtain ⟨j0, hj0, h1, h2, h3⟩ := R.ents x hx
      obtain ⟨j, hj, c, d, _⟩ := E.fwd j0 hj0 (by rw [h1]; exact R.real x hx)
      exact ⟨j, hj, by rw [c, h1], by rw [d]; exact h2, by rw [d]; exact h3.mono hnext hst⟩
  · intro j hj hj0
    by_cases c : s'.t.slots j = wrHash n
    · exact ⟨e, (memput e).mpr (Or.inl rfl), by rw [hname]; exact c.symm⟩
    · obtain ⟨j0, h1, h2, _⟩ := E.back j hj hj0 c
      obtain ⟨x, hx, hxs⟩ := R.slots j0 h1 (by rw [h2]; exact hj0)
      refine ⟨x, (memput x).mpr (Or.inr ⟨hx, ?_⟩), by rw [hxs, h2]⟩
      intro h; apply c; rw [← h2, ← hxs, h]
  · intro x hx
    rcases (memput x).mp hx with rfl | ⟨hx, _⟩
    · exact hslot.2.2
    · exact R.good x hx

end Wrench.HostCont
