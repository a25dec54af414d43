import Verif.Link.Calls

/-
Where the linker puts each unit, and that later steps of the linker leave it there.
-/
namespace Wrench.Link

/-- Unit `u` is at `fo`; the places waiting for a `new` operand are its own or elsewhere, and all
of its own are waiting. -/
structure UnitAt (fns : List CUnit) (H : Nat) (code : List Byte) (pending : List (Nat × Nat))
    (fo : Nat) (u : CUnit) : Prop where
  low : H ≤ fo
  high : fo + u.code.length ≤ code.length
  body : Body fns code fo u
  clear : ∀ p ∈ pending, (∃ n ∈ sites u.news, p.1 = fo + n.2) ∨ Apart p.1 2 fo u.code.length
  news : ∀ n ∈ sites u.news, ∀ t, firstFn fns n.1 = some t → (fo + n.2, t) ∈ pending

/-- The member map of function `k` is at `ns`, before `fo`. -/
def MapAt (P : Program) (H : Nat) (code : List Byte) (pending : List (Nat × Nat)) (k : Nat) (u : CUnit)
    (ns fo : Nat) : Prop :=
  (exported P k u = false ∧ ns = 0) ∨ ∃ m, exported P k u = true ∧ localMap u = .ok m ∧
    ((m = [] ∧ ns = 0) ∨ (m ≠ [] ∧ H ≤ ns ∧ ns + m.length ≤ fo ∧ At code ns m ∧
      ∀ p ∈ pending, Apart p.1 2 ns m.length))

structure FnAt (P : Program) (H : Nat) (code : List Byte) (pending : List (Nat × Nat)) (k : Nat) (u : CUnit)
    (ns fo : Nat) : Prop where
  nsLt : ns < 65536
  foLt : fo < 65536
  entry : At code (3 + 11 * k) (pack16 (BitVec.ofNat 16 ns) ++ pack16 (BitVec.ofNat 16 fo))
  map : MapAt P H code pending k u ns fo
  unit : UnitAt P.fns H code pending fo u

/-- One step of the linker: bytes from `H` on are kept, bytes are added, and the new waiting places
are in the added part. -/
structure Step (H : Nat) (code : List Byte) (pending : List (Nat × Nat)) (code' : List Byte)
    (pending' : List (Nat × Nat)) : Prop where
  grows : code.length ≤ code'.length
  keeps : ∀ i, H ≤ i → i < code.length → code'[i]? = code[i]?
  pend : ∀ p ∈ pending', p ∈ pending ∨ code.length ≤ p.1
  pend' : ∀ p ∈ pending, p ∈ pending'

theorem UnitAt.step {fns : List CUnit} {H : Nat} {code code' : List Byte} {pd pd' : List (Nat × Nat)}
    {fo : Nat} {u : CUnit} (hu : UnitOk u) (h : UnitAt fns H code pd fo u)
    (s : Step H code pd code' pd') : UnitAt fns H code' pd' fo u := by
  have hl := h.low
  have hh := h.high
  refine ⟨h.low, by have := s.grows; omega, h.body.congr hu ?_, ?_, ?_⟩
  · intro i hi _
    exact s.keeps _ (by omega) (by omega)
  · intro p hp
    rcases s.pend p hp with hp | hp
    · exact h.clear p hp
    · exact Or.inr (Or.inr (by omega))
  · intro n hn t ht
    exact s.pend' _ (h.news n hn t ht)

theorem MapAt.step {P : Program} {H : Nat} {code code' : List Byte} {pd pd' : List (Nat × Nat)} {k : Nat}
    {u : CUnit} {ns fo : Nat} (hfo : fo ≤ code.length)
    (h : MapAt P H code pd k u ns fo) (s : Step H code pd code' pd') : MapAt P H code' pd' k u ns fo := by
  rcases h with h | ⟨m, h1, h2, h | ⟨h3, h4, h5, h6, h7⟩⟩
  · exact Or.inl h
  · exact Or.inr ⟨m, h1, h2, Or.inl h⟩
  · refine Or.inr ⟨m, h1, h2, Or.inr ⟨h3, h4, h5, ?_, ?_⟩⟩
    · exact h6.congr (fun i a b => s.keeps i (by omega) (by omega))
    · intro p hp
      rcases s.pend p hp with hp | hp
      · exact h7 p hp
      · exact Or.inr (by omega)

theorem FnAt.step {P : Program} {H : Nat} {code code' : List Byte} {pd pd' : List (Nat × Nat)} {k : Nat}
    {u : CUnit} {ns fo : Nat} (hu : UnitOk u) (h : FnAt P H code pd k u ns fo)
    (s : Step H code pd code' pd')
    (hr : ∀ i, 3 + 11 * k ≤ i → i < 3 + 11 * k + 4 → code'[i]? = code[i]?) :
    FnAt P H code' pd' k u ns fo := by
  have := h.unit.high
  refine ⟨h.nsLt, h.foLt, ?_, h.map.step (by omega) s, h.unit.step hu s⟩
  refine h.entry.congr (fun i a b => hr i a ?_)
  simpa [pack16_length] using b

/-! ### Lengths -/

theorem fixCall_length {fns : List CUnit} {base : Nat} {code code' : List Byte} {s : Word32 × Nat}
    (h : fixCall fns base code s = .ok code') : code'.length = code.length := by
  unfold fixCall at h
  dsimp only at h
  generalize firstFn fns s.1 = f at h
  cases f with
  | some k =>
    dsimp only at h
    obtain ⟨c1, h1, h⟩ := bind_ok h
    obtain ⟨c2, h2, h⟩ := bind_ok h
    obtain ⟨b5, _, h⟩ := bind_ok h
    obtain ⟨sk, _, h⟩ := bind_ok h
    have l1 := (writeAt_ok h1).2.1
    have l2 := (writeAt_ok h2).2.1
    by_cases hs : sk = true
    · rw [if_pos hs] at h
      have := (writeAt_ok h).2.1
      omega
    · rw [if_neg hs] at h
      obtain ⟨c3, h3, h⟩ := bind_ok h
      have := (writeAt_ok h3).2.1
      have := (writeAt_ok h).2.1
      omega
  | none =>
    dsimp only at h
    by_cases hy : s.1 = yieldHash
    · rw [if_pos hy] at h
      exact (writeAt_ok h).2.1
    · rw [if_neg hy] at h
      obtain ⟨b5, _, h⟩ := bind_ok h
      obtain ⟨c1, h1, h⟩ := bind_ok h
      have := (writeAt_ok h1).2.1
      have := (writeAt_ok h).2.1
      omega

theorem fixCalls_length {fns : List CUnit} {base : Nat} : ∀ (ss : List (Word32 × Nat))
    (code code' : List Byte), fixCalls fns base ss code = .ok code' → code'.length = code.length
  | [], _, _, h => by injection h with h; rw [h]
  | s :: ss, code, code', h => by
    obtain ⟨c, h1, h2⟩ := bind_ok h
    rw [fixCalls_length ss c code' h2, fixCall_length h1]

theorem addUnit_length {fns : List CUnit} {u : CUnit} {st st' : St} (h : addUnit fns u st = .ok st') :
    st'.code.length = st.code.length + u.code.length := by
  obtain ⟨c, hc, h⟩ := bind_ok h
  injection h with h; subst h
  have := fixCalls_length _ _ _ hc
  simpa using this

theorem addFn_length {P : Program} {k : Nat} {u : CUnit} {st st' : St} (h : addFn P k u st = .ok st') :
    st.code.length ≤ st'.code.length := by
  unfold addFn at h
  obtain ⟨s1, h1, h⟩ := bind_ok h
  obtain ⟨c2, h2, h⟩ := bind_ok h
  have l2 := (writeAt_ok h2).2.1
  have l3 : st'.code.length = c2.length + u.code.length := addUnit_length h
  have l1 : st.code.length ≤ s1.code.length := by
    by_cases he : exported P k u = true
    · rw [if_pos he] at h1
      obtain ⟨m, hm, h1⟩ := bind_ok h1
      obtain ⟨c, hc, h1⟩ := bind_ok h1
      injection h1 with h1; subst h1
      have := (writeAt_ok hc).2.1
      simp only [List.length_append]
      omega
    · rw [if_neg he] at h1
      obtain ⟨c, hc, h1⟩ := bind_ok h1
      injection h1 with h1; subst h1
      have := (writeAt_ok hc).2.1
      show _ ≤ c.length
      omega
  omega

theorem addFns_length {P : Program} : ∀ (us : List CUnit) (k : Nat) (st st' : St),
    addFns P k us st = .ok st' → st.code.length ≤ st'.code.length
  | [], _, _, _, h => by injection h with h; rw [h]; exact Nat.le_refl _
  | u :: us, k, st, st', h => by
    obtain ⟨s1, h1, h⟩ := bind_ok h
    have := addFn_length h1
    have := addFns_length us (k + 1) s1 st' h
    omega

theorem plugNews_length {maps : List Nat} : ∀ (ps : List (Nat × Nat)) (code code' : List Byte),
    plugNews maps ps code = .ok code' → code'.length = code.length
  | [], _, _, h => by injection h with h; rw [h]
  | p :: ps, code, code', h => by
    obtain ⟨c, h1, h⟩ := bind_ok h
    rw [plugNews_length ps c code' h, (writeAt_ok h1).2.1]

/-! ### One unit -/

theorem addUnit_ok {fns : List CUnit} (hf : fns.length ≤ 255) (hy : firstFn fns yieldHash = none)
    {u : CUnit} (hu : UnitOk u) {st st' : St} {H : Nat} (hH : H ≤ st.code.length)
    (hl : st.code.length < 65536) (hp : ∀ p ∈ st.pending, p.1 + 2 ≤ st.code.length)
    (h : addUnit fns u st = .ok st') :
    st'.maps = st.maps ∧ st'.code.length = st.code.length + u.code.length ∧
    (∀ i, i < st.code.length → st'.code[i]? = st.code[i]?) ∧
    st'.pending = (newRefs fns st.code.length u).reverse ++ st.pending ∧
    UnitAt fns H st'.code st'.pending st.code.length u := by
  have hb : base16 st.code = st.code.length := Nat.mod_eq_of_lt hl
  unfold addUnit at h
  rw [hb] at h
  obtain ⟨c, hc, h⟩ := bind_ok h
  injection h with h; subst h
  obtain ⟨l, lo, _, b⟩ := unit_body hf hy hu hc
  refine ⟨rfl, l, lo, rfl, ⟨hH, by rw [l]; exact Nat.le_refl _, b, ?_, ?_⟩⟩
  · intro p hpm
    rcases List.mem_append.mp hpm with hpm | hpm
    · rw [List.mem_reverse] at hpm
      obtain ⟨n, hn, he⟩ := List.mem_filterMap.mp hpm
      obtain ⟨t, _, he⟩ := Option.map_eq_some_iff.mp he
      subst he
      exact Or.inl ⟨n, hn, rfl⟩
    · exact Or.inr (Or.inl (hp p hpm))
  · intro n hn t ht
    refine List.mem_append.mpr (Or.inl (List.mem_reverse.mpr ?_))
    exact List.mem_filterMap.mpr ⟨n, hn, by rw [ht]; rfl⟩

/-- New places are apart from each other, within the unit. -/
theorem newRefs_ok {fns : List CUnit} {u : CUnit} (hu : UnitOk u) (base : Nat) :
    ((newRefs fns base u).Pairwise fun a b => Apart a.1 2 b.1 2) ∧
    ∀ p ∈ newRefs fns base u, base ≤ p.1 ∧ p.1 + 2 ≤ base + u.code.length := by
  constructor
  · unfold newRefs
    refine List.Pairwise.filterMap _ ?_ hu.news
    intro a b hab x hx y hy
    obtain ⟨t, _, rfl⟩ := Option.map_eq_some_iff.mp hx
    obtain ⟨t', _, rfl⟩ := Option.map_eq_some_iff.mp hy
    unfold Apart at *
    dsimp only
    omega
  · intro p hp
    obtain ⟨n, hn, he⟩ := List.mem_filterMap.mp hp
    obtain ⟨t, _, rfl⟩ := Option.map_eq_some_iff.mp he
    have := hu.newRange n hn
    dsimp only
    omega

/-- The waiting places are apart from each other and in the code. -/
structure PendOk (H : Nat) (code : List Byte) (pd : List (Nat × Nat)) : Prop where
  apart : pd.Pairwise fun a b => Apart a.1 2 b.1 2
  range : ∀ p ∈ pd, H ≤ p.1 ∧ p.1 + 2 ≤ code.length

theorem PendOk.add {H : Nat} {code code' : List Byte} {pd : List (Nat × Nat)} (h : PendOk H code pd)
    {fns : List CUnit} {u : CUnit} (hu : UnitOk u) {base : Nat} (hb : code.length ≤ base) (hH : H ≤ base)
    (hc : code'.length = base + u.code.length) :
    PendOk H code' ((newRefs fns base u).reverse ++ pd) := by
  obtain ⟨h1, h2⟩ := newRefs_ok (fns := fns) hu base
  refine ⟨List.pairwise_append.mpr ⟨?_, h.apart, ?_⟩, ?_⟩
  · rw [List.pairwise_reverse]
    exact h1.imp (fun {a b} hab => by unfold Apart at *; omega)
  · intro a ha b hb'
    have := h2 a (List.mem_reverse.mp ha)
    have := h.range b hb'
    exact Or.inr (by omega)
  · intro p hp
    rcases List.mem_append.mp hp with hp | hp
    · have := h2 p (List.mem_reverse.mp hp)
      omega
    · have := h.range p hp
      omega

/-! ### One function -/

theorem addFn_ok {P : Program} (hf : P.fns.length ≤ 255) (hy : firstFn P.fns yieldHash = none) {k : Nat}
    {u : CUnit} (hu : UnitOk u) {st st' : St} {H : Nat} (hk : 3 + 11 * k + 4 ≤ H) (hH : H ≤ st.code.length)
    (hp : PendOk H st.code st.pending) (h : addFn P k u st = .ok st') (hl : st'.code.length < 65536) :
    (∀ i, i < st.code.length → (i < 3 + 11 * k ∨ 3 + 11 * k + 4 ≤ i) → st'.code[i]? = st.code[i]?) ∧
    PendOk H st'.code st'.pending ∧ Step H st.code st.pending st'.code st'.pending ∧
    ∃ ns fo, st'.maps = st.maps ++ [ns] ∧ FnAt P H st'.code st'.pending k u ns fo := by
  unfold addFn at h
  obtain ⟨s1, h1, h⟩ := bind_ok h
  obtain ⟨c2, h2, h⟩ := bind_ok h
  -- the first part: `ns`, and the map if there is one
  have A : ∃ ns m, s1.maps = st.maps ++ [ns] ∧ s1.pending = st.pending ∧
      s1.code.length = st.code.length + m.length ∧
      (∀ i, i < st.code.length → (i < 3 + 11 * k ∨ 3 + 11 * k + 2 ≤ i) → s1.code[i]? = st.code[i]?) ∧
      At s1.code (3 + 11 * k) (pack16 (BitVec.ofNat 16 ns)) ∧
      ((exported P k u = false ∧ ns = 0) ∨ (exported P k u = true ∧ localMap u = .ok m ∧
        ((m = [] ∧ ns = 0) ∨ (m ≠ [] ∧ ns = base16 st.code ∧ At s1.code st.code.length m)))) := by
    by_cases he : exported P k u = true
    · rw [if_pos he] at h1
      obtain ⟨m, hm, h1⟩ := bind_ok h1
      obtain ⟨c, hc, h1⟩ := bind_ok h1
      injection h1 with h1; subst h1
      obtain ⟨w1, w2, w3, w4⟩ := writeAt_ok hc
      simp only [pack16_length] at w1 w4
      refine ⟨_, m, rfl, rfl, by simp [w2], ?_, w3.append (by simp only [pack16_length]; omega) m,
        Or.inr ⟨he, hm, ?_⟩⟩
      · intro i hi hi'
        show (c ++ m)[i]? = _
        rw [List.getElem?_append_left (by omega), w4 i hi']
      · by_cases hm0 : m = []
        · exact Or.inl ⟨hm0, if_pos hm0⟩
        · refine Or.inr ⟨hm0, if_neg hm0, ?_⟩
          rw [← w2]
          exact at_end c m
    · rw [if_neg he] at h1
      obtain ⟨c, hc, h1⟩ := bind_ok h1
      injection h1 with h1; subst h1
      obtain ⟨w1, w2, w3, w4⟩ := writeAt_ok hc
      simp only [pack16_length] at w1 w4
      refine ⟨0, [], rfl, rfl, by simp [w2], ?_, w3, Or.inl ⟨by simpa using he, rfl⟩⟩
      intro i hi hi'
      exact w4 i hi'
  obtain ⟨ns, m, a1, a2, a3, a4, a5, a6⟩ := A
  obtain ⟨w1, w2, w3, w4⟩ := writeAt_ok h2
  simp only [pack16_length] at w1 w4
  have len := addUnit_length h
  have hc2 : c2.length < 65536 := by
    have : st'.code.length = c2.length + u.code.length := len
    omega
  obtain ⟨b1, b2, b3, b4, b5⟩ := addUnit_ok (H := H) hf hy hu (st := { s1 with code := c2 })
    (by show H ≤ c2.length; omega) hc2
    (by
      intro p hpm
      show p.1 + 2 ≤ c2.length
      have := hp.range p (by rw [← a2]; exact hpm)
      omega) h
  dsimp only at b1 b2 b3 b4 b5
  have keep : ∀ i, i < st.code.length → (i < 3 + 11 * k ∨ 3 + 11 * k + 4 ≤ i) →
      st'.code[i]? = st.code[i]? := by
    intro i hi hi'
    rw [b3 i (by omega), w4 i (by omega), a4 i hi (by omega)]
  have pend : st'.pending = (newRefs P.fns c2.length u).reverse ++ st.pending := by rw [b4, a2]
  have hsb : base16 s1.code = c2.length := by
    unfold base16; rw [w2]; exact Nat.mod_eq_of_lt (by omega)
  have hst : base16 st.code = st.code.length := Nat.mod_eq_of_lt (by omega)
  refine ⟨keep, ?_, ⟨by omega, fun i h1 h2 => keep i h2 (by omega), ?_, ?_⟩, ns, c2.length, by rw [b1, a1], ?_⟩
  · rw [pend]
    exact hp.add hu (by omega) (by omega) b2
  · intro p hpm
    rw [pend] at hpm
    rcases List.mem_append.mp hpm with hpm | hpm
    · have := (newRefs_ok (fns := P.fns) hu c2.length).2 p (List.mem_reverse.mp hpm)
      exact Or.inr (by omega)
    · exact Or.inl hpm
  · intro p hpm
    rw [pend]; exact List.mem_append.mpr (Or.inr hpm)
  · have nsl : ns < 65536 := by
      rcases a6 with ⟨_, h⟩ | ⟨_, _, ⟨_, h⟩ | ⟨_, h, _⟩⟩ <;> omega
    refine ⟨nsl, hc2, ?_, ?_, b5⟩
    · refine at_append ?_ ?_
      · refine a5.congr (fun i h1 h2 => ?_)
        simp only [pack16_length] at h2
        rw [b3 i (by omega), w4 i (by omega)]
      · rw [hsb] at w3
        refine w3.congr (fun i h1 h2 => ?_)
        simp only [pack16_length] at h1 h2
        rw [b3 i (by omega)]
    · rcases a6 with ⟨h1, h2⟩ | ⟨h1, h2, ⟨h3, h4⟩ | ⟨h3, h4, h5⟩⟩
      · exact Or.inl ⟨h1, h2⟩
      · exact Or.inr ⟨m, h1, h2, Or.inl ⟨h3, h4⟩⟩
      · refine Or.inr ⟨m, h1, h2, Or.inr ⟨h3, by omega, by omega, ?_, ?_⟩⟩
        · rw [h4, hst]
          refine h5.congr (fun i h1 h2 => ?_)
          rw [b3 i (by omega), w4 i (by omega)]
        · intro p hpm
          rw [pend] at hpm
          rcases List.mem_append.mp hpm with hpm | hpm
          · have := (newRefs_ok (fns := P.fns) hu c2.length).2 p (List.mem_reverse.mp hpm)
            exact Or.inr (by omega)
          · have := hp.range p hpm
            exact Or.inl (by omega)

/-! ### All functions -/

/-- What holds after the first `k` functions have been added to header `hdr`. -/
structure Inv (P : Program) (hdr : List Byte) (k : Nat) (st : St) : Prop where
  len : hdr.length ≤ st.code.length
  head : ∀ i, i < hdr.length → (∀ j, j < k → i < 3 + 11 * j ∨ 3 + 11 * j + 4 ≤ i) →
    st.code[i]? = hdr[i]?
  main : UnitAt P.fns hdr.length st.code st.pending hdr.length P.main
  maps : st.maps.length = k
  fns : ∀ j u, j < k → P.fns[j]? = some u → ∃ ns fo, st.maps[j]? = some ns ∧
    FnAt P hdr.length st.code st.pending j u ns fo
  pend : PendOk hdr.length st.code st.pending

theorem addFns_ok {P : Program} (hf : P.fns.length ≤ 255) (hy : firstFn P.fns yieldHash = none)
    (hm : UnitOk P.main) (hu : ∀ u ∈ P.fns, UnitOk u) {hdr : List Byte}
    (hh : 3 + 11 * P.fns.length ≤ hdr.length) : ∀ (us : List CUnit) (k : Nat) (st st' : St),
    P.fns.drop k = us → k + us.length = P.fns.length →
    Inv P hdr k st → addFns P k us st = .ok st' → st'.code.length < 65536 →
    Inv P hdr P.fns.length st'
  | [], k, st, st', _, hk, hi, h, _ => by
    injection h with h; subst h
    have : k = P.fns.length := by simpa using hk
    rw [← this]; exact hi
  | u :: us, k, st, st', hd, hk, hi, h, hl => by
    obtain ⟨s1, h1, h⟩ := bind_ok h
    have l1 := addFns_length us (k + 1) s1 st' h
    simp only [List.length_cons] at hk
    have hget : P.fns[k]? = some u := by
      have : (P.fns.drop k)[0]? = some u := by rw [hd]; rfl
      rwa [List.getElem?_drop, Nat.add_zero] at this
    have huk : UnitOk u := hu u (List.mem_of_getElem? hget)
    obtain ⟨a1, a2, a3, ns, fo, a4, a5⟩ := addFn_ok hf hy huk (H := hdr.length) (by omega) hi.len hi.pend h1
      (by omega)
    refine addFns_ok hf hy hm hu hh us (k + 1) s1 st' ?_ (by omega) ⟨?_, ?_, ?_, ?_, ?_, a2⟩ h hl
    · rw [← List.drop_drop, hd]; rfl
    · have := a3.grows; have := hi.len; omega
    · intro i h1 h2
      have := hi.len
      rw [a1 i (by omega) (h2 k (by omega)), hi.head i h1 (fun j hj => h2 j (by omega))]
    · exact hi.main.step hm a3
    · rw [a4]; simp [hi.maps]
    · intro j v hj hv
      by_cases hjk : j = k
      · subst hjk
        rw [hget] at hv
        injection hv with hv; subst hv
        refine ⟨ns, fo, ?_, a5⟩
        rw [a4, List.getElem?_append_right (by rw [hi.maps]; omega), hi.maps]
        simp
      · obtain ⟨ns', fo', e1, e2⟩ := hi.fns j v (by omega) hv
        refine ⟨ns', fo', ?_, e2.step (hu v (List.mem_of_getElem? hv)) a3 ?_⟩
        · rw [a4, List.getElem?_append_left (by rw [hi.maps]; omega)]; exact e1
        · intro i b1 b2
          have := hi.len
          exact a1 i (by omega) (by omega)

/-! ### The operands of `new` -/

theorem plugNews_ok {maps : List Nat} : ∀ (ps : List (Nat × Nat)) (code code' : List Byte),
    plugNews maps ps code = .ok code' → (ps.Pairwise fun a b => Apart a.1 2 b.1 2) →
    code'.length = code.length ∧
    (∀ i, (∀ p ∈ ps, i < p.1 ∨ p.1 + 2 ≤ i) → code'[i]? = code[i]?) ∧
    ∀ p ∈ ps, At code' p.1 (pack16 (BitVec.ofNat 16 ((maps[p.2]?).getD 0)))
  | [], code, code', h, _ => by
    injection h with h; subst h
    exact ⟨rfl, fun _ _ => rfl, fun p hp => absurd hp (by simp)⟩
  | p :: ps, code, code', h, hp => by
    obtain ⟨c, h1, h⟩ := bind_ok h
    obtain ⟨w1, w2, w3, w4⟩ := writeAt_ok h1
    simp only [pack16_length] at w1 w4
    obtain ⟨a, b, d⟩ := plugNews_ok ps c code' h (List.pairwise_cons.mp hp).2
    refine ⟨by omega, ?_, ?_⟩
    · intro i hi
      rw [b i (fun q hq => hi q (by simp [hq])), w4 i (hi p (by simp))]
    · intro q hq
      rcases List.mem_cons.mp hq with rfl | hq
      · refine w3.congr (fun i h1 h2 => b i (fun r hr => ?_))
        have := (List.pairwise_cons.mp hp).1 r hr
        unfold Apart at this
        simp only [pack16_length] at h2
        omega
      · exact d q hq

end Wrench.Link
