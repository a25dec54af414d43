import Verif.Link.Props

/-
Struct members: the member map written by the linker, read by the interpreter.
-/
namespace Wrench.Link

open Wrench.Util

theorem u32_inj {a b : Word32} (h : u32 a = u32 b) : a = b := congrArg UInt32.toBitVec h

private theorem memberTable_spec : ∀ (hs : List Word32) (i : Nat) (t t' : NameTable.Tbl Byte),
    memberTable hs i t = some t' → NameTable.WF t → hs.Nodup → (∀ h ∈ hs, u32 h ≠ NameTable.NULL) →
    NameTable.WF t' ∧
    (∀ j h, hs[j]? = some h → NameTable.get t' (u32 h) = some (byte (i + j))) ∧
    ∀ k, k ≠ NameTable.NULL → (∀ h ∈ hs, u32 h ≠ k) → NameTable.get t' k = NameTable.get t k
  | [], i, t, t', h, hw, _, _ => by
    injection h with h; subst h
    exact ⟨hw, fun j h e => by simp at e, fun k _ _ => rfl⟩
  | h :: hs, i, t, t', e, hw, hd, hn => by
    unfold memberTable at e
    obtain ⟨t1, e1, e2⟩ := Option.bind_eq_some_iff.mp e
    obtain ⟨w1, g1⟩ := NameTable.setFrom_spec 0#8 (hn h (by simp)) (byte i) _ t t1
      (fun p hp => NameTable.primesAfter_sub hp) hw e1
    rw [List.nodup_cons] at hd
    obtain ⟨w2, g2, g3⟩ := memberTable_spec hs (i + 1) t1 t' e2 w1 hd.2 (fun x hx => hn x (by simp [hx]))
    refine ⟨w2, ?_, ?_⟩
    · intro j x hx
      cases j with
      | zero =>
        simp only [List.getElem?_cons_zero, Option.some.injEq] at hx
        subst hx
        rw [g3 _ (hn h (by simp)) (fun y hy hyk => hd.1 (u32_inj hyk ▸ hy)), g1 _ (hn h (by simp)), if_pos rfl]
        rfl
      | succ j =>
        rw [List.getElem?_cons_succ] at hx
        rw [g2 j x hx]
        congr 2; omega
    · intro k hk hne
      rw [g3 k hk (fun x hx => hne x (by simp [hx])), g1 k hk, if_neg (fun hkh => hne h (by simp) hkh.symm)]

private theorem nodeBytes_length (n : UInt32 × Byte) : (nodeBytes n).length = 5 := by
  simp [nodeBytes, pack32_length]

private theorem nodes_at : ∀ (ns : List (UInt32 × Byte)) (l : List Byte) (p : Nat),
    At l p (ns.flatMap nodeBytes) → ∀ j n, ns[j]? = some n → At l (p + j * 5) (nodeBytes n)
  | [], _, _, _, j, n, h => by simp at h
  | v :: ns, l, p, h, j, n, hj => by
    rw [List.flatMap_cons] at h
    cases j with
    | zero =>
      simp only [List.getElem?_cons_zero, Option.some.injEq] at hj
      subst hj
      rw [Nat.zero_mul]
      exact h.left
    | succ j =>
      rw [List.getElem?_cons_succ] at hj
      have := nodes_at ns l _ h.right j n hj
      rw [nodeBytes_length] at this
      rwa [show p + (j + 1) * 5 = p + 5 + j * 5 by omega]

/-- Looking a member up in the map is looking it up in the table it was made from. -/
private theorem member_get {α : Type} {img : List Byte} {o : Obj α} {t : NameTable.Tbl Byte}
    (hw : NameTable.WF t) (hm : o.mod = t.mod) (ha : At img o.rom (t.nodes.flatMap nodeBytes)) {h : Word32}
    (hh : u32 h ≠ NameTable.NULL) :
    (∀ i v, NameTable.get t (u32 h) = some i → o.data[i.toNat]? = some v → member img o h = .ok (some v)) ∧
    (NameTable.get t (u32 h) = none → member img o h = .ok none) := by
  have hpos := NameTable.pos_of_mem hw.mem
  have hlt : h.toNat % t.mod < t.nodes.length := by rw [hw.placed.1]; exact Nat.mod_lt _ hpos
  have hx := List.getElem?_eq_getElem hlt
  have hn : (u32 h).toNat = h.toNat := rfl
  generalize t.nodes[h.toNat % t.mod] = n at hx
  have a := nodes_at _ _ _ ha _ _ hx
  have r1 := a.left.read32
  have r2 := a.right.read8
  rw [pack32_length] at r2
  have hg : NameTable.get t (u32 h) = if n.1 = u32 h then some n.2 else none := by
    unfold NameTable.get NameTable.lookupAt
    rw [hn, hx]
  unfold member
  rw [if_neg (by omega), hm]
  dsimp only
  rw [r1]
  simp only [Res.ofOption, Res.bind]
  by_cases he : n.1 = u32 h
  · have hb : n.1.toBitVec = h := by rw [he]; rfl
    rw [if_pos hb, r2]
    rw [if_pos (by rw [he]; exact hh)]
    rw [if_pos he] at hg
    constructor
    · intro i v hi hv
      rw [hg] at hi; injection hi with hi; subst hi
      dsimp only
      rw [hv]
    · intro h0; rw [hg] at h0; cases h0
  · have hb : ¬n.1.toBitVec = h := fun e => he (by rw [← e]; rfl)
    rw [if_neg hb]
    rw [if_neg he] at hg
    constructor
    · intro i v hi; rw [hg] at hi; cases hi
    · intro _; rfl

theorem primes_small {p : Nat} (h : p ∈ NameTable.primes) : p < 65536 := by
  have : ∀ q ∈ NameTable.primes, q < 65536 := by decide
  exact this p h

/-- C27: an object made with the member map of a constructor has the constructor's locals as
members; each member name gives its own slot and other names none. -/
theorem C27_object_resolves {α : Type} {u : CUnit} {m img : List Byte} {table : Nat}
    (hm : localMap u = .ok m) (hat : At img table m) (hne : u.arguments < u.locals.length) (hd : (u.locals.drop u.arguments).Nodup)
    (hnull : ∀ h ∈ u.locals.drop u.arguments, h ≠ 0xABABABAB#32) (slot : Nat → α) :
    ∃ o, objectAt img table slot = .ok o ∧ o.data.length = u.locals.length - u.arguments ∧
      (∀ i h, (u.locals.drop u.arguments)[i]? = some h →
        o.data[i]? = some (slot (u.arguments + i)) ∧ member img o h = .ok (some (slot (u.arguments + i)))) ∧
      ∀ h, h ≠ 0xABABABAB#32 → h ∉ u.locals.drop u.arguments → member img o h = .ok none := by
  have hnl : u.locals ≠ [] := by intro e; rw [e] at hne; simp at hne
  unfold localMap at hm
  rw [if_neg hnl] at hm
  split at hm
  · cases hm
  rename_i h255
  have hm := ofOption_ok hm
  obtain ⟨t, ht, hm⟩ := Option.map_eq_some_iff.mp hm
  obtain ⟨t0, ht0, ht⟩ := Option.bind_eq_some_iff.mp ht
  obtain ⟨w0, g0⟩ := NameTable.new_spec _ ht0
  have hnull' : ∀ h, h ≠ 0xABABABAB#32 → u32 h ≠ NameTable.NULL := by
    intro h hh e; exact hh (congrArg UInt32.toBitVec e)
  obtain ⟨w, g1, g2⟩ := memberTable_spec _ _ _ _ ht w0 hd (fun h hh => hnull' h (hnull h hh))
  subst hm
  have b0 : read8 img table = some (byte (u.locals.length - u.arguments)) := by
    have := hat 0 (by simp)
    simpa [read8] using this
  have b1 : read8 img (table + 1) = some (byte u.arguments) := by
    have := hat 1 (by simp)
    simpa [read8] using this
  have b2 : read16 img (table + 2) = some (BitVec.ofNat 16 t.mod) := by
    have := hat.left.right
    exact this.read16
  have b3 : At img (table + 4) (t.nodes.flatMap nodeBytes) := by
    have := hat.right
    simpa only [List.length_append, pack16_length, List.length_cons, List.length_nil] using this
  refine ⟨⟨table + 4, t.mod, (List.range (u.locals.length - u.arguments)).map
    fun i => slot (u.arguments + i)⟩, ?_, by simp, ?_, ?_⟩
  · unfold objectAt
    rw [b0]
    simp only [Res.ofOption, Res.bind]
    rw [b1]
    dsimp only
    rw [b2]
    dsimp only
    have hc : byte (u.locals.length - u.arguments) ≠ 0#8 := by
      intro e
      have := byte_toNat_of (n := u.locals.length - u.arguments) (by omega)
      rw [e] at this
      simp at this
      omega
    rw [if_neg hc, byte_toNat_of (by omega), byte_toNat_of (by omega), ofNat16_toNat (primes_small w.mem)]
  · intro i h hi
    have hlt : i < u.locals.length - u.arguments := by
      have := (List.getElem?_eq_some_iff.mp hi).1
      simpa using this
    have hdata : ((List.range (u.locals.length - u.arguments)).map fun i => slot (u.arguments + i))[i]? =
        some (slot (u.arguments + i)) := by
      simp [hlt]
    refine ⟨hdata, ?_⟩
    have hh := hnull' h (hnull h (List.mem_of_getElem? hi))
    refine (member_get (o := ⟨table + 4, t.mod, _⟩) w rfl b3 hh).1 (byte i) _ ?_ ?_
    · have := g1 i h hi
      rwa [Nat.zero_add] at this
    · rw [byte_toNat_of (by omega)]; exact hdata
  · intro h hh hmem
    refine (member_get (o := ⟨table + 4, t.mod, _⟩) w rfl b3 (hnull' h hh)).2 ?_
    rw [g2 _ (hnull' h hh) (fun x hx e => hmem (u32_inj e ▸ hx))]
    exact g0 _ (hnull' h hh)

/-- C27: with the member map of a constructor in the image below 32768, `new` makes an object whose
members are the constructor's locals; each member name gives its own slot and other names none. -/
theorem C27_member_resolves_partial {α : Type} {u : CUnit} {m img : List Byte} {off : Word16}
    (hm : localMap u = .ok m) (hat : At img off.toNat m) (h0 : 0 < off.toNat) (h1 : off.toNat < 32768)
    (hne : u.arguments < u.locals.length) (hd : (u.locals.drop u.arguments).Nodup)
    (hnull : ∀ h ∈ u.locals.drop u.arguments, h ≠ 0xABABABAB#32) (slot : Nat → α) :
    ∃ o, newObject img off slot = .ok (some o) ∧ o.data.length = u.locals.length - u.arguments ∧
      (∀ i h, (u.locals.drop u.arguments)[i]? = some h →
        o.data[i]? = some (slot (u.arguments + i)) ∧ member img o h = .ok (some (slot (u.arguments + i)))) ∧
      ∀ h, h ≠ 0xABABABAB#32 → h ∉ u.locals.drop u.arguments → member img o h = .ok none := by
  have hse : (off.signExtend 32).toNat = off.toNat := by
    rw [BitVec.toNat_signExtend, BitVec.msb_eq_false_iff_two_mul_lt.mpr (by omega)]
    simp
    omega
  obtain ⟨o, e, h⟩ := C27_object_resolves hm hat hne hd hnull slot
  refine ⟨o, ?_, h⟩
  unfold newObject
  dsimp only
  rw [hse, if_neg (by omega), e]
  rfl

/-- C27: the operand of every `new` in a linked program makes such an object of the struct it
names. -/
theorem C27_new_resolves_partial {α : Type} {P : Program} (ok : ProgramOk P) {img : List Byte}
    (h : link P = .ok img) (hsize : img.length ≤ 32768) {c : Ctx} (hc : load img = .ok c) {fo : Nat} {u : CUnit}
    (hu : (u = P.main ∧ fo = c.codeStart) ∨
      ∃ (k : Nat) (r : FnRec), P.fns[k]? = some u ∧ c.functions[k]? = some r ∧
        fo = r.functionOffset.toNat)
    {n : Word32 × Nat} (hn : n ∈ sites u.news) {k : Nat} {v : CUnit} (hv : P.fns[k]? = some v)
    (hvh : v.hash = n.1) (hfirst : ∀ (j : Nat) (w : CUnit), j < k → P.fns[j]? = some w → w.hash ≠ n.1)
    (hne : v.arguments < v.locals.length) (hd : (v.locals.drop v.arguments).Nodup)
    (hnull : ∀ h ∈ v.locals.drop v.arguments, h ≠ 0xABABABAB#32) (slot : Nat → α) :
    ∃ off o, read16 img (fo + n.2) = some off ∧ newObject img off slot = .ok (some o) ∧
      (∀ i h, (v.locals.drop v.arguments)[i]? = some h →
        member img o h = .ok (some (slot (v.arguments + i)))) ∧
      ∀ h, h ≠ 0xABABABAB#32 → h ∉ v.locals.drop v.arguments → member img o h = .ok none := by
  obtain ⟨off, m, h1, h2, h3⟩ := (C53_calls_bound_partial ok h (by omega) hc hu).2 n hn k v hv hvh hfirst
  have hm0 : m ≠ [] := by
    intro e
    subst e
    unfold localMap at h2
    rw [if_neg (by intro e; rw [e] at hne; simp at hne)] at h2
    split at h2
    · cases h2
    · have h2 := ofOption_ok h2
      obtain ⟨t, _, h2⟩ := Option.map_eq_some_iff.mp h2
      simp at h2
  rcases h3 with ⟨h3, _⟩ | ⟨_, h4, h5⟩
  · exact absurd h3 hm0
  · have := h5.le hm0
    have := List.length_pos_iff.mpr hm0
    obtain ⟨o, a, _, b, d⟩ := C27_member_resolves_partial h2 h5 (by omega) (by omega) hne hd hnull slot
    exact ⟨off, o, h1, a, fun i h hi => (b i h hi).2, d⟩

end Wrench.Link
