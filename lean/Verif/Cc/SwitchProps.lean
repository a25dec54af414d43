import Verif.Cc.Switch
import Verif.Bytes.Props

/-
C26: switch selects the matching case, otherwise default.
-/
namespace Wrench.Cc

open Wrench Wrench.Vm

/-! ### Displacements -/

theorem off16_toInt (off cur : Nat) (h1 : (cur : Int) - off ≤ 32768) (h2 : (off : Int) - cur < 32768) :
    (off16 off cur).toInt = (off : Int) - cur := by
  unfold off16
  rw [BitVec.toInt_eq_toNat_bmod, BitVec.toNat_sub, BitVec.toNat_ofNat, BitVec.toNat_ofNat]
  unfold Int.bmod
  dsimp only
  split <;> omega

theorem ofNat16_toInt (n : Nat) (h : n < 32768) : (BitVec.ofNat 16 n).toInt = n := by
  rw [BitVec.toInt_eq_toNat_bmod, BitVec.toNat_ofNat]
  unfold Int.bmod
  dsimp only
  split <;> omega

/-- Where control must go when no label matches. -/
def elseTo (d : Option Nat) (fin : Nat) : Nat :=
  match d with
  | some o => o
  | none => fin

theorem defOff_toInt (d : Option Nat) (skip cur : Nat)
    (hd : ∀ o ∈ d, o % 65536 ≠ 65535 ∧ (cur : Int) - o ≤ 32768 ∧ (o : Int) - cur < 32768)
    (hs : d = none → skip < 32768) :
    (cur : Int) + (defOff d skip cur).toInt = elseTo d (cur + skip) := by
  cases d with
  | none =>
    simp only [defOff, defWord, if_true, elseTo]
    rw [ofNat16_toInt _ (hs rfl)]
    omega
  | some o =>
    obtain ⟨h1, h2, h3⟩ := hd o rfl
    have : BitVec.ofNat 16 o ≠ 0xFFFF#16 := by
      intro h
      have := congrArg BitVec.toNat h
      simp at this
      omega
    simp only [defOff, elseTo]
    rw [if_neg (show ¬ defWord (some o) = 0xFFFF#16 from this)]
    simp only [defWord]
    have := off16_toInt o cur h2 h3
    unfold off16 at this
    rw [this]
    omega

/-! ### Reading tables -/

theorem flatMap_split {α : Type} (f : α → List Byte) (k : Nat) (hk : ∀ x, (f x).length = k) (l : List α) (i : Nat)
    (x : α) (h : l[i]? = some x) :
    ∃ a b, l.flatMap f = a ++ f x ++ b ∧ a.length = k * i := by
  refine ⟨(l.take i).flatMap f, (l.drop (i + 1)).flatMap f, ?_, ?_⟩
  · have hl := (List.getElem?_eq_some_iff.mp h)
    obtain ⟨hi, hx⟩ := hl
    conv => lhs; rw [← List.take_append_drop i l, List.drop_eq_getElem_cons hi, hx]
    simp [List.flatMap_append]
  · have hi := (List.getElem?_eq_some_iff.mp h).1
    have : ∀ m : List α, (m.flatMap f).length = k * m.length := by
      intro m
      induction m with
      | nil => simp
      | cons y m ih => simp [ih, hk, Nat.mul_add]; omega
    rw [this]
    simp [Nat.min_eq_left (Nat.le_of_lt hi)]

theorem flatMap_length {α : Type} (f : α → List Byte) (k : Nat) (hk : ∀ x, (f x).length = k) (l : List α) :
    (l.flatMap f).length = k * l.length := by
  induction l with
  | nil => simp
  | cons y m ih => simp [ih, hk, Nat.mul_add]; omega

theorem read16_at {all : List Byte} {a b : List Byte} {v : Word16} {p : Nat} (h : all = a ++ pack16 v ++ b)
    (hp : p = a.length) : read16 all p = some v := by
  subst h hp; exact read16_pack16 a b v

theorem read32_at {all : List Byte} {a b : List Byte} {v : Word32} {p : Nat} (h : all = a ++ pack32 v ++ b)
    (hp : p = a.length) : read32 all p = some v := by
  subst h hp; exact read32_pack32 a b v

/-! ### The size of the linear table -/

theorem sizeLoop_spec (cs : List Case) : ∀ s : Word32, s.toNat < 254 →
    (sizeLoop s cs = s ∨ ∃ c ∈ cs, sizeLoop s cs = c.hash) ∧
    ((sizeLoop s cs).toNat < 254 → s.toNat ≤ (sizeLoop s cs).toNat ∧
      ∀ c ∈ cs, c.hash.toNat ≤ (sizeLoop s cs).toNat) := by
  induction cs with
  | nil => intro s _; exact ⟨Or.inl rfl, fun _ => ⟨Nat.le_refl _, by simp⟩⟩
  | cons c cs ih =>
    intro s hs
    simp only [sizeLoop]
    by_cases h1 : s.toNat < c.hash.toNat
    · simp only [if_pos h1]
      by_cases h2 : 254 ≤ c.hash.toNat
      · rw [if_pos h2]
        exact ⟨Or.inr ⟨c, by simp, rfl⟩, fun h => by omega⟩
      · rw [if_neg h2]
        obtain ⟨i1, i2⟩ := ih c.hash (by omega)
        constructor
        · rcases i1 with i1 | ⟨x, hx, i1⟩
          · exact Or.inr ⟨c, by simp, i1⟩
          · exact Or.inr ⟨x, by simp [hx], i1⟩
        · intro h
          obtain ⟨j1, j2⟩ := i2 h
          refine ⟨by omega, fun x hx => ?_⟩
          rcases List.mem_cons.mp hx with rfl | hx
          · exact j1
          · exact j2 x hx
    · simp only [if_neg h1, if_neg (show ¬ 254 ≤ s.toNat by omega)]
      obtain ⟨i1, i2⟩ := ih s hs
      constructor
      · rcases i1 with i1 | ⟨x, hx, i1⟩
        · exact Or.inl i1
        · exact Or.inr ⟨x, by simp [hx], i1⟩
      · intro h
        obtain ⟨j1, j2⟩ := i2 h
        refine ⟨j1, fun x hx => ?_⟩
        rcases List.mem_cons.mp hx with rfl | hx
        · omega
        · exact j2 x hx

theorem tableSize_linear (cs : List Case) (hFF : ∀ c ∈ cs, c.hash ≠ 0xFFFFFFFF#32)
    (h : (tableSize cs).toNat < 254) : ∀ c ∈ cs, c.hash.toNat < (tableSize cs).toNat := by
  obtain ⟨h1, h2⟩ := sizeLoop_spec cs 0#32 (by decide)
  have hne : sizeLoop 0#32 cs ≠ 0xFFFFFFFF#32 := by
    rcases h1 with h1 | ⟨c, hc, h1⟩
    · rw [h1]; decide
    · rw [h1]; exact hFF c hc
  have hlt : (sizeLoop 0#32 cs).toNat < 4294967295 := by
    have := (sizeLoop 0#32 cs).isLt
    have : (sizeLoop 0#32 cs).toNat ≠ 4294967295 := fun e => hne (BitVec.eq_of_toNat_eq e)
    omega
  have e : (tableSize cs).toNat = (sizeLoop 0#32 cs).toNat + 1 := by
    simp only [tableSize, BitVec.toNat_add, BitVec.toNat_ofNat]
    omega
  intro c hc
  have := (h2 (by omega)).2 c hc
  omega

/-! ### The hashed table -/

theorem fill_spec (mod : Nat) (hm : 0 < mod) : ∀ (cs : List Case) (t t' : List (Option Case)),
    t.length = mod → fill mod cs t = some t' →
    t'.length = mod ∧ (∀ c ∈ cs, t'[c.hash.toNat % mod]? = some (some c)) ∧
      (∀ (i : Nat) (c : Case), t[i]? = some (some c) → t'[i]? = some (some c)) ∧
      (∀ (i : Nat) (c : Case), t'[i]? = some (some c) → t[i]? = some (some c) ∨ (c ∈ cs ∧ i = c.hash.toNat % mod)) := by
  intro cs
  induction cs with
  | nil =>
    intro t t' hl h
    cases h
    exact ⟨hl, by simp, fun _ _ h => h, fun _ _ h => Or.inl h⟩
  | cons c cs ih =>
    intro t t' hl h
    simp only [fill] at h
    have hi : c.hash.toNat % mod < t.length := by rw [hl]; exact Nat.mod_lt _ hm
    split at h
    · next hn =>
      obtain ⟨i1, i2, i3, i4⟩ := ih _ _ (by simp [hl]) h
      refine ⟨i1, ?_, ?_, ?_⟩
      · intro x hx
        rcases List.mem_cons.mp hx with rfl | hx
        · exact i3 _ _ (by rw [List.getElem?_set_self hi])
        · exact i2 x hx
      · intro i x hx
        refine i3 i x ?_
        rw [List.getElem?_set_ne]
        · exact hx
        · rintro rfl
          rw [hn] at hx
          cases hx
      · intro i x hx
        rcases i4 i x hx with h | ⟨h, h'⟩
        · by_cases e : c.hash.toNat % mod = i
          · subst e
            rw [List.getElem?_set_self hi] at h
            cases h
            exact Or.inr ⟨by simp, rfl⟩
          · rw [List.getElem?_set_ne e] at h
            exact Or.inl h
        · exact Or.inr ⟨by simp [h], h'⟩
    · cases h

theorem findMod_spec {cs : List Case} {mod : Nat} {t : List (Option Case)} (h : findMod cs = some (mod, t)) :
    0 < mod ∧ mod < 0x7FFE ∧ t.length = mod ∧ (∀ c ∈ cs, t[c.hash.toNat % mod]? = some (some c)) ∧
      (∀ (i : Nat) (c : Case), t[i]? = some (some c) → c ∈ cs) := by
  unfold findMod at h
  obtain ⟨m, hm, h⟩ := List.exists_of_findSome?_eq_some h
  rw [List.mem_range'_1] at hm
  cases hf : fill m cs (List.replicate m none) with
  | none => rw [hf] at h; cases h
  | some t' =>
    rw [hf] at h
    cases h
    obtain ⟨h1, h2, _, h4⟩ := fill_spec mod (by omega) cs _ _ (by simp) hf
    refine ⟨by omega, by omega, h1, h2, ?_⟩
    intro i c hc
    rcases h4 i c hc with h | h
    · rw [List.getElem?_replicate] at h
      split at h <;> cases h
    · exact h.1

theorem distinct_eq {cs : List Case} (hd : cs.Pairwise fun a b => a.hash ≠ b.hash) {x y : Case} (hx : x ∈ cs)
    (hy : y ∈ cs) (h : x.hash = y.hash) : x = y := by
  induction hd with
  | nil => cases hx
  | cons h1 _ ih =>
    rcases List.mem_cons.mp hx with ex | hx'
    · rcases List.mem_cons.mp hy with ey | hy'
      · rw [ex, ey]
      · rw [ex] at h; exact absurd h (h1 y hy')
    · rcases List.mem_cons.mp hy with ey | hy'
      · rw [ey] at h; exact absurd h.symm (h1 x hx')
      · exact ih hx' hy'

/-! ### Dispatch -/

/-- The displacements from the table at `pos` to `o` fit a 16-bit word. -/
def Near (pos o : Nat) : Prop := pos + 2 ≤ o + 32768 ∧ o < pos + 32768

instance (pos o : Nat) : Decidable (Near pos o) := by unfold Near; infer_instance

/-- **C26**.  For every set of cases with distinct labels, laid out anywhere in the code, the
emitted selection logic sends a selector to the case with that label, and any other selector to
`default`, or past the switch if there is none.  Conditions: no label hashes to 0xFFFFFFFF, cases
and default are within reach of a 16-bit displacement, the default is not at a position ≡ 65535
(mod 65536), and without a default the table is at most 32768 bytes long.  Each is needed, see
`C26_all_ones_label`, `C26_far_case`. -/
theorem C26_dispatch_partial (cs : List Case) (d : Option Nat) (pre post code : List Byte)
    (hemit : emitSwitch cs d pre.length = some code)
    (hdist : cs.Pairwise fun a b => a.hash ≠ b.hash)
    (hFF : ∀ c ∈ cs, c.hash ≠ 0xFFFFFFFF#32)
    (hoff : ∀ c ∈ cs, Near pre.length c.off)
    (hd : ∀ o ∈ d, Near pre.length o ∧ o % 65536 ≠ 65535)
    (hlen : d = none → code.length ≤ 32768) (h : Word32) :
    (∀ c ∈ cs, c.hash = h → vmSwitch (pre ++ code ++ post) pre.length h = some (c.off : Int)) ∧
    ((∀ c ∈ cs, c.hash ≠ h) → vmSwitch (pre ++ code ++ post) pre.length h =
      some (elseTo d (pre ++ code).length : Int)) := by
  unfold emitSwitch at hemit
  simp only at hemit
  by_cases hs : (tableSize cs).toNat < 254
  · -- linear table
    rw [if_pos hs] at hemit
    generalize hn : (tableSize cs).toNat = n at hemit hs
    have hlab := tableSize_linear cs hFF (by omega)
    rw [hn] at hlab
    simp only [Option.some.injEq] at hemit
    let f : Nat → List Byte := fun i =>
      pack16 (match cs.find? (fun c => c.hash.toNat == i) with
        | some c => off16 c.off (pre.length + 2)
        | none => defOff d (n * 2 + 2) (pre.length + 2))
    have hf : ∀ i, (f i).length = 2 := fun i => rfl
    have hcode : code = [Op.SwitchLinear.code, BitVec.ofNat 8 n] ++
        pack16 (defOff d (n * 2 + 2) (pre.length + 2)) ++ (List.range n).flatMap f := by
      rw [← hemit]; rfl
    have hclen : code.length = n * 2 + 4 := by
      rw [hcode]
      simp only [List.length_append, List.length_cons, List.length_nil, pack16_length,
        flatMap_length f 2 hf, List.length_range]
      omega
    have hop : ((pre ++ code ++ post)[pre.length]?).bind Op.decode = some .SwitchLinear := by
      have : (pre ++ code ++ post)[pre.length]? = some Op.SwitchLinear.code := by
        rw [hcode]; simp
      rw [this]; rfl
    have hnb : read8 (pre ++ code ++ post) (pre.length + 1) = some (BitVec.ofNat 8 n) := by
      unfold read8
      rw [hcode]; simp
    have hdef : read16 (pre ++ code ++ post) (pre.length + 2) =
        some (defOff d (n * 2 + 2) (pre.length + 2)) := by
      refine read16_at (a := pre ++ [Op.SwitchLinear.code, BitVec.ofNat 8 n])
        (b := (List.range n).flatMap f ++ post) ?_ (by simp)
      rw [hcode]; simp
    have hent : ∀ i, i < n → read16 (pre ++ code ++ post) (pre.length + 2 + 2 * i + 2) =
        some (match cs.find? (fun c => c.hash.toNat == i) with
          | some c => off16 c.off (pre.length + 2)
          | none => defOff d (n * 2 + 2) (pre.length + 2)) := by
      intro i hi
      obtain ⟨a, b, e1, e2⟩ := flatMap_split f 2 hf (List.range n) i i (by simp [hi])
      refine read16_at (a := pre ++ [Op.SwitchLinear.code, BitVec.ofNat 8 n] ++
        pack16 (defOff d (n * 2 + 2) (pre.length + 2)) ++ a) (b := b ++ post) ?_ (by
          simp [pack16_length]; omega)
      rw [hcode, e1]; simp [f]
    have hnn : (BitVec.ofNat 8 n).toNat = n := by
      rw [BitVec.toNat_ofNat]; omega
    have hdt : ((pre.length + 2 : Nat) : Int) + (defOff d (n * 2 + 2) (pre.length + 2)).toInt =
        elseTo d (pre ++ code).length := by
      rw [defOff_toInt]
      · cases d with
        | none => simp only [elseTo, List.length_append, hclen]; omega
        | some o => rfl
      · intro o ho
        have := hd o ho
        unfold Near at this
        omega
      · intro hnone
        have := hlen hnone
        omega
    unfold vmSwitch
    simp only [hop, hnb, Option.bind_some, hnn]
    constructor
    · rintro c hc rfl
      have hlt := hlab c hc
      rw [if_pos hlt, hent _ hlt]
      have hfind : cs.find? (fun x => x.hash.toNat == c.hash.toNat) = some c := by
        cases hx : cs.find? (fun x => x.hash.toNat == c.hash.toNat) with
        | none => exact absurd (List.find?_eq_none.mp hx c hc) (by simp)
        | some y =>
          have h1 := List.mem_of_find?_eq_some hx
          have h2 := List.find?_some hx
          simp only [beq_iff_eq] at h2
          have h3 : y.hash = c.hash := BitVec.eq_of_toNat_eq h2
          rw [distinct_eq hdist h1 hc h3]
      rw [hfind]
      have := hoff c hc
      unfold Near at this
      simp only [Option.map_some, Option.some.injEq]
      rw [off16_toInt] <;> omega
    · intro hno
      by_cases hlt : h.toNat < n
      · rw [if_pos hlt, hent _ hlt]
        have : cs.find? (fun c => c.hash.toNat == h.toNat) = none := by
          rw [List.find?_eq_none]
          intro x hx
          simp only [beq_iff_eq]
          exact fun e => hno x hx (BitVec.eq_of_toNat_eq e)
        rw [this]
        simp only [Option.map_some, Option.some.injEq]
        exact hdt
      · rw [if_neg hlt, hdef]
        simp only [Option.map_some, Option.some.injEq]
        exact hdt
  · -- hashed table
    rw [if_neg hs] at hemit
    cases hfm : findMod cs with
    | none => rw [hfm] at hemit; cases hemit
    | some mt =>
    obtain ⟨m, t⟩ := mt
    rw [hfm] at hemit
    simp only [Option.map_some, Option.some.injEq] at hemit
    obtain ⟨m1, m2, m3, m4, m5⟩ := findMod_spec hfm
    let df := defOff d (m * 6 + 4) (pre.length + 1)
    let f : Option Case → List Byte := fun s =>
      match s with
      | none => pack32 0#32 ++ pack16 df
      | some c => pack32 c.hash ++ pack16 (off16 c.off (pre.length + 1))
    have hf : ∀ s, (f s).length = 6 := by intro s; cases s <;> rfl
    have hcode : code = [Op.Switch.code] ++ pack16 (BitVec.ofNat 16 m) ++ pack16 df ++ t.flatMap f := by
      rw [← hemit]; rfl
    have hclen : code.length = m * 6 + 5 := by
      rw [hcode]
      simp only [List.length_append, List.length_cons, List.length_nil, pack16_length,
        flatMap_length f 6 hf, m3]
      omega
    have hop : ((pre ++ code ++ post)[pre.length]?).bind Op.decode = some .Switch := by
      have : (pre ++ code ++ post)[pre.length]? = some Op.Switch.code := by
        rw [hcode]; simp
      rw [this]; rfl
    have hmr : read16 (pre ++ code ++ post) (pre.length + 1) = some (BitVec.ofNat 16 m) := by
      refine read16_at (a := pre ++ [Op.Switch.code]) (b := pack16 df ++ t.flatMap f ++ post) ?_ (by simp)
      rw [hcode]; simp
    have hdef : read16 (pre ++ code ++ post) (pre.length + 1 + 2) = some df := by
      refine read16_at (a := pre ++ [Op.Switch.code] ++ pack16 (BitVec.ofNat 16 m))
        (b := t.flatMap f ++ post) ?_ (by simp [pack16_length])
      rw [hcode]; simp
    have hmm : (BitVec.ofNat 16 m).toNat = m := by
      rw [BitVec.toNat_ofNat]; omega
    have hdt : ((pre.length + 1 : Nat) : Int) + df.toInt = elseTo d (pre ++ code).length := by
      rw [defOff_toInt]
      · cases d with
        | none => simp only [elseTo, List.length_append, hclen]; omega
        | some o => rfl
      · intro o ho
        have := hd o ho
        unfold Near at this
        omega
      · intro hnone
        have := hlen hnone
        omega
    have hi : h.toNat % m < t.length := by rw [m3]; exact Nat.mod_lt _ m1
    obtain ⟨s, hs'⟩ : ∃ s, t[h.toNat % m]? = some s := ⟨_, List.getElem?_eq_getElem hi⟩
    obtain ⟨a, b, e1, e2⟩ := flatMap_split f 6 hf t _ s hs'
    have hkey : ∀ (k : Word32) (w : Word16), f s = pack32 k ++ pack16 w →
        read32 (pre ++ code ++ post) (pre.length + 1 + 4 + 6 * (h.toNat % m)) = some k ∧
        read16 (pre ++ code ++ post) (pre.length + 1 + 4 + 6 * (h.toNat % m) + 4) = some w := by
      intro k w hkw
      constructor
      · refine read32_at (a := pre ++ [Op.Switch.code] ++ pack16 (BitVec.ofNat 16 m) ++ pack16 df ++ a)
          (b := pack16 w ++ b ++ post) ?_ (by simp [pack16_length]; omega)
        rw [hcode, e1, hkw]; simp
      · refine read16_at (a := pre ++ [Op.Switch.code] ++ pack16 (BitVec.ofNat 16 m) ++ pack16 df ++ a ++ pack32 k)
          (b := b ++ post) ?_ (by simp [pack16_length, pack32_length]; omega)
        rw [hcode, e1, hkw]; simp
    unfold vmSwitch
    simp only [hop, hmr, Option.bind_some, hmm, if_neg (show ¬ m = 0 by omega)]
    constructor
    · rintro c hc rfl
      have := m4 c hc
      rw [hs'] at this
      cases this
      obtain ⟨r1, r2⟩ := hkey c.hash (off16 c.off (pre.length + 1)) rfl
      rw [r1]
      simp only [Option.bind_some, if_true]
      rw [r2]
      have := hoff c hc
      unfold Near at this
      simp only [Option.map_some, Option.some.injEq]
      rw [off16_toInt] <;> omega
    · intro hno
      cases s with
      | none =>
        obtain ⟨r1, r2⟩ := hkey 0#32 df rfl
        rw [r1]
        simp only [Option.bind_some]
        split
        · rw [r2]
          simp only [Option.map_some, Option.some.injEq]
          exact hdt
        · rw [hdef]
          simp only [Option.map_some, Option.some.injEq]
          exact hdt
      | some c =>
        obtain ⟨r1, r2⟩ := hkey c.hash (off16 c.off (pre.length + 1)) rfl
        rw [r1]
        simp only [Option.bind_some]
        rw [if_neg (hno c (m5 _ _ hs')), hdef]
        simp only [Option.map_some, Option.some.injEq]
        exact hdt

/-- Labels collected by the parser are distinct. -/
theorem C26_labels_distinct (cs r out : List Case) (h : addCases cs r = some out)
    (hd : cs.Pairwise fun a b => a.hash ≠ b.hash) :
    (out.Pairwise fun a b => a.hash ≠ b.hash) ∧ out = cs ++ r := by
  induction r generalizing cs with
  | nil => cases h; exact ⟨hd, by simp⟩
  | cons c r ih =>
    simp only [addCases, addCase] at h
    split at h
    · cases h
    · next hn =>
      have := ih (cs ++ [c]) h (by
        rw [List.pairwise_append]
        refine ⟨hd, by simp, ?_⟩
        intro x hx y hy
        simp only [List.mem_singleton] at hy
        subst hy
        intro e
        apply hn
        rw [List.any_eq_true]
        exact ⟨x, hx, by simp [e]⟩)
      simpa using this

/-- A label occurring twice is reported. -/
theorem C26_duplicate_rejected (r : List Case) (a b : Case) (hs : [a, b].Sublist r)
    (h : a.hash = b.hash) : addCases [] r = none := by
  cases ho : addCases [] r with
  | none => rfl
  | some out =>
    obtain ⟨h1, h2⟩ := C26_labels_distinct [] r out ho (by simp)
    rw [List.nil_append] at h2
    subst h2
    have := h1.sublist hs
    simp [h] at this

/-- **C26** for integer labels and an integer selector: the case whose label is the selector. -/
theorem C26_int_partial (labels : List (Word32 × Nat)) (d : Option Nat) (pre post code : List Byte)
    (cs : List Case) (hcs : addCases [] (labels.map fun l => ⟨(Lab.int l.1).labelHash, l.2⟩) = some cs)
    (hemit : emitSwitch cs d pre.length = some code)
    (hFF : ∀ l ∈ labels, l.1.toInt ≠ -1)
    (hsmall : ∀ l ∈ labels, l.2 ≤ pre.length) (hd : ∀ o ∈ d, o ≤ pre.length)
    (hlen : (pre ++ code).length < 32767) (v : Word32) :
    (∀ l ∈ labels, l.1.toInt = v.toInt → vmSwitch (pre ++ code ++ post) pre.length (Lab.int v).valueHash = some (l.2 : Int)) ∧
    ((∀ l ∈ labels, l.1.toInt ≠ v.toInt) → vmSwitch (pre ++ code ++ post) pre.length (Lab.int v).valueHash =
      some (elseTo d (pre ++ code).length : Int)) := by
  obtain ⟨h1, h2⟩ := C26_labels_distinct _ _ _ hcs (by simp)
  rw [List.nil_append] at h2
  rw [List.length_append] at hlen
  have hmem : ∀ c ∈ cs, ∃ l ∈ labels, c.hash = l.1 ∧ c.off = l.2 := by
    intro c hc
    rw [h2] at hc
    obtain ⟨l, hl, rfl⟩ := List.mem_map.mp hc
    exact ⟨l, hl, rfl, rfl⟩
  have key := C26_dispatch_partial cs d pre post code hemit h1
    (by
      intro c hc
      obtain ⟨l, hl, e1, _⟩ := hmem c hc
      intro e
      exact hFF l hl (by rw [← e1, e]; decide))
    (by
      intro c hc
      obtain ⟨l, hl, _, e2⟩ := hmem c hc
      have := hsmall l hl
      unfold Near
      omega)
    (by
      intro o ho
      have := hd o ho
      unfold Near
      omega)
    (by omega) v
  constructor
  · intro l hl he
    have hl' : (⟨l.1, l.2⟩ : Case) ∈ cs := by
      rw [h2]; exact List.mem_map.mpr ⟨l, hl, rfl⟩
    exact key.1 _ hl' (BitVec.eq_of_toInt_eq he)
  · intro hno
    refine key.2 ?_
    intro c hc
    obtain ⟨l, hl, e1, _⟩ := hmem c hc
    intro e
    exact hno l hl (by rw [← e1, e])

/-- **C26** for a string selector of 7-bit characters: the case with the same text is taken. -/
theorem C26_string_partial (cs : List Case) (d : Option Nat) (pre post code : List Byte)
    (hemit : emitSwitch cs d pre.length = some code)
    (hdist : cs.Pairwise fun a b => a.hash ≠ b.hash)
    (hFF : ∀ c ∈ cs, c.hash ≠ 0xFFFFFFFF#32)
    (hsmall : ∀ c ∈ cs, c.off ≤ pre.length) (hd : ∀ o ∈ d, o ≤ pre.length)
    (hlen : (pre ++ code).length < 32767)
    (text : List Byte) (h0 : ∀ b ∈ text, b ≠ 0#8) (h7 : ∀ b ∈ text, b.toNat < 128) (off : Nat)
    (hc : ⟨(Lab.str text).labelHash, off⟩ ∈ cs) :
    vmSwitch (pre ++ code ++ post) pre.length (Lab.str text).valueHash = some (off : Int) := by
  rw [List.length_append] at hlen
  have key := C26_dispatch_partial cs d pre post code hemit hdist hFF
    (by
      intro c hc
      have := hsmall c hc
      unfold Near
      omega)
    (by
      intro o ho
      have := hd o ho
      unfold Near
      omega)
    (by omega) (Lab.str text).valueHash
  exact key.1 _ hc (C04_hashStr_eq_hash_partial text [] h0 h7).1

/-- Without the condition on 0xFFFFFFFF the property fails: with labels 5 and 0xFFFFFFFF the table is
built with size 0, and selector 5 goes to default. -/
theorem C26_all_ones_label :
    ∃ code, emitSwitch [⟨5#32, 0⟩, ⟨0xFFFFFFFF#32, 1⟩] (some 2) 3 = some code ∧
      vmSwitch ([0#8, 0#8, 0#8] ++ code) 3 5#32 = some 2 :=
  ⟨_, rfl, by decide +kernel⟩

/-- A case more than 32768 bytes before the table is missed, and no error is reported: whatever the
code, the selector ends up 65536 bytes after the case. -/
theorem C26_far_case (pre post : List Byte) (h1 : 32766 < pre.length) (h2 : pre.length ≤ 65533) :
    ∃ code, emitSwitch [⟨1#32, 0⟩] none pre.length = some code ∧
      vmSwitch (pre ++ code ++ post) pre.length 1#32 = some 65536 := by
  refine ⟨_, rfl, ?_⟩
  have hsz : (tableSize [⟨1#32, 0⟩]).toNat = 2 := by decide
  rw [hsz]
  unfold vmSwitch
  have hop : ((pre ++ Op.SwitchLinear.code :: BitVec.ofNat 8 2 :: linear [⟨1#32, 0⟩] none (pre.length + 2) 2 ++
      post)[pre.length]?).bind Op.decode = some .SwitchLinear := by
    have : (pre ++ Op.SwitchLinear.code :: BitVec.ofNat 8 2 :: linear [⟨1#32, 0⟩] none (pre.length + 2) 2 ++
      post)[pre.length]? = some Op.SwitchLinear.code := by simp
    rw [this]; rfl
  rw [hop]
  have hnb : read8 (pre ++ Op.SwitchLinear.code :: BitVec.ofNat 8 2 :: linear [⟨1#32, 0⟩] none (pre.length + 2) 2 ++
      post) (pre.length + 1) = some 2#8 := by
    unfold read8; simp
  have hr : read16 (pre ++ Op.SwitchLinear.code :: BitVec.ofNat 8 2 :: linear [⟨1#32, 0⟩] none (pre.length + 2) 2 ++
      post) (pre.length + 2 + 2 * (1#32).toNat + 2) = some (off16 0 (pre.length + 2)) := by
    refine read16_at (a := pre ++ Op.SwitchLinear.code :: BitVec.ofNat 8 2 :: (pack16 (defOff none 6 (pre.length + 2)) ++
      pack16 (defOff none 6 (pre.length + 2)))) (b := post) ?_ (by simp [pack16_length])
    simp [linear, List.range, List.range.loop]
  simp only [hnb, Option.bind_some]
  rw [if_pos (by decide), hr]
  simp only [Option.map_some, Option.some.injEq]
  have : (off16 0 (pre.length + 2)).toInt = 65536 - (pre.length + 2 : Int) := by
    unfold off16
    rw [BitVec.toInt_eq_toNat_bmod, BitVec.toNat_sub, BitVec.toNat_ofNat, BitVec.toNat_ofNat]
    unfold Int.bmod
    dsimp only
    split <;> omega
  rw [this]
  omega

/-- Labels and selectors of different kinds are compared by hash: the float 1.0 selects
`case 0x3F800000`. -/
theorem C26_kinds_mixed : (Lab.flt 0x3F800000#32).valueHash = (Lab.int 0x3F800000#32).labelHash := rfl

/-- A string label with a byte ≥ 0x80 is not selected by the same string. -/
theorem C26_high_byte_label :
    ∃ text : List Byte, (∀ b ∈ text, b ≠ 0#8) ∧ (Lab.str text).labelHash ≠ (Lab.str text).valueHash :=
  C04_hashStr_differs_on_high_bytes

/-- The hypotheses are met, linear table: labels 3 and 7, default. -/
example : ∃ code, emitSwitch [⟨3#32, 0⟩, ⟨7#32, 2⟩] (some 4) 5 = some code ∧
    vmSwitch ([0#8, 0#8, 0#8, 0#8, 0#8] ++ code ++ [9#8]) 5 7#32 = some 2 ∧
    vmSwitch ([0#8, 0#8, 0#8, 0#8, 0#8] ++ code ++ [9#8]) 5 6#32 = some 4 := by
  refine ⟨_, rfl, ?_, ?_⟩
  · exact (C26_dispatch_partial [⟨3#32, 0⟩, ⟨7#32, 2⟩] (some 4) [0#8, 0#8, 0#8, 0#8, 0#8] [9#8] _ rfl (by decide) (by decide)
      (by decide) (by decide) (by decide) 7#32).1 ⟨7#32, 2⟩ (by decide) rfl
  · exact (C26_dispatch_partial [⟨3#32, 0⟩, ⟨7#32, 2⟩] (some 4) [0#8, 0#8, 0#8, 0#8, 0#8] [9#8] _ rfl (by decide) (by decide)
      (by decide) (by decide) (by decide) 6#32).2 (by decide)

/-- Hashed table without default: labels 1000, 2000 and 3. -/
example : ∃ code, emitSwitch [⟨1000#32, 0⟩, ⟨2000#32, 2⟩, ⟨3#32, 4⟩] none 5 = some code ∧
    vmSwitch ([0#8, 0#8, 0#8, 0#8, 0#8] ++ code ++ [9#8]) 5 2000#32 = some 2 ∧
    vmSwitch ([0#8, 0#8, 0#8, 0#8, 0#8] ++ code ++ [9#8]) 5 0#32 = some (5 + code.length) := by
  refine ⟨_, rfl, ?_, ?_⟩ <;> decide +kernel

end Wrench.Cc
