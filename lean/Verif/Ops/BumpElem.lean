import Verif.Ops.Stores

/-
`++` and `--` on what indexing yields: elements of arrays and hash tables, characters of strings, bytes
of host arrays (`X_UNARY_PRE`, `X_UNARY_POST`, operations_non_compact.cpp 841-878, their `_E` entries).
-/
namespace Wrench.Ops

open Wrench

private theorem r1 {a : Addr} (h : a.real = true) : a ≠ .t1 := by rintro rfl; simp [Addr.real] at h

private theorem r2 {a : Addr} (h : a.real = true) : a ≠ .t2 := by rintro rfl; simp [Addr.real] at h

private theorem rl {a : Addr} (h : a.real = true) (k : Nat) : a ≠ .loc k := by rintro rfl; simp [Addr.real] at h

/-- One step up or down inside the range of `int`. -/
private theorem bump_ok {a dlt : Word32} (hd : dlt = 1 ∨ dlt = 0xFFFFFFFF#32)
    (hr : -2147483648 ≤ a.toInt + dlt.toInt ∧ a.toInt + dlt.toInt ≤ 2147483647) :
    bump dlt a = .ok (a + dlt) ∧ (a + dlt).toInt = a.toInt + dlt.toInt := by
  constructor
  · unfold bump
    rw [if_neg]
    rintro (⟨rfl, rfl⟩ | ⟨h, rfl⟩)
    · revert hr; decide
    · rcases hd with rfl | rfl
      · exact h rfl
      · revert hr; decide
  · rw [BitVec.toInt_add]
    rw [Int.bmod_eq_of_le] <;> omega

/-- C51: `++a[i]` / `--a[i]` (and of an entry of a hash table) on an element holding an integer: the element
changes by one, nothing else in memory does, and the result, which still names the element, reads as the new
value.  Missing: the largest / smallest integer, floats. -/
theorem C51_increment_element_partial (E : Env) {σ : St} {x t : Addr} {a dlt : Word32}
    (hd : dlt = 1 ∨ dlt = 0xFFFFFFFF#32) (hx : x.real = true) (hp : Place σ x t) (ht : σ.cell t = .int a)
    (hr : -2147483648 ≤ a.toInt + dlt.toInt ∧ a.toInt + dlt.toInt ≤ 2147483647) (f : Nat) :
    ∃ τ w, preBump E dlt (f + 4) σ x = .ok τ ∧ w.toInt = a.toInt + dlt.toInt ∧ OnlySet σ τ t (.int w) ∧
      Reads τ true 1 x (.int w) := by
  obtain ⟨hb, hw⟩ := bump_ok hd hr
  cases hp with
  | @elem b s o n h1 h2 h3 h4 h5 =>
    have hxt : x ≠ .elem o s := by rintro rfl; rw [h1] at ht; cases ht
    have hbt : b ≠ .elem o s := by rintro rfl; rw [h3] at ht; cases ht
    have key : ∃ u v, preBump E dlt (f + 4) σ x = .ok ((((σ.set .t2 u).set .t1 (.int a)).set .t1 (.int (a + dlt))).set
        .t2 v |>.set (.elem o s) (.int (a + dlt))) := by
      rw [preBump]
      simp only [h1]
      simp [single, deref, h1, h3, h4, h5, ht, preBump, hb, valueToEx, St.set_ne, r1 hx, r2 hx, r1 h2, r2 h2]
      exact ⟨_, _, rfl⟩
    obtain ⟨u, v, key⟩ := key
    have ho : OnlySet σ ((((σ.set .t2 u).set .t1 (.int a)).set .t1 (.int (a + dlt))).set
        .t2 v |>.set (.elem o s) (.int (a + dlt))) (.elem o s) (.int (a + dlt)) := by
      have hs := (((sameReal_set σ u (a := .t2) rfl).trans (sameReal_set _ (.int a) (a := .t1) rfl)).trans
        (sameReal_set _ (.int (a + dlt)) (a := .t1) rfl)).trans (sameReal_set _ v (a := .t2) rfl)
      exact hs.onlySet (onlySet_set ..)
    refine ⟨_, a + dlt, key, hw, ho, ?_⟩
    have hv := Reads.velem (mb := true) (k := 0) rfl (by rw [ho.cell _ hx hxt, h1]) h2 (by rw [ho.cell _ h2 hbt, h3])
      (by rw [ho.obj, h4]) h5 (by rw [ho.here]; rfl)
    rwa [ho.here] at hv
  | hash h1 h2 h3 =>
    have hxt : x ≠ t := by rintro rfl; rw [h1] at ht; cases ht
    have key : ∃ u v, preBump E dlt (f + 4) σ x = .ok ((((σ.set .t2 u).set .t1 (.int a)).set .t1 (.int (a + dlt))).set
        .t2 v |>.set t (.int (a + dlt))) := by
      rw [preBump]
      simp only [h1]
      simp [single, deref, h1, ht, preBump, hb, valueToEx, St.set_ne, r1 hx, r2 hx, r1 h2, r2 h2]
      exact ⟨_, _, rfl⟩
    obtain ⟨u, v, key⟩ := key
    have ho : OnlySet σ ((((σ.set .t2 u).set .t1 (.int a)).set .t1 (.int (a + dlt))).set
        .t2 v |>.set t (.int (a + dlt))) t (.int (a + dlt)) := by
      have hs := (((sameReal_set σ u (a := .t2) rfl).trans (sameReal_set _ (.int a) (a := .t1) rfl)).trans
        (sameReal_set _ (.int (a + dlt)) (a := .t1) rfl)).trans (sameReal_set _ v (a := .t2) rfl)
      exact hs.onlySet (onlySet_set ..)
    refine ⟨_, a + dlt, key, hw, ho, ?_⟩
    have hv := Reads.here (mb := true) (k := 0) (a := t) (by rw [ho.here]; rfl)
    rw [ho.here] at hv
    exact .helem rfl (by rw [ho.cell _ hx hxt, h1]) h2 hv

/-- C51: `a[i]++` / `a[i]--` on an element holding an integer: the element changes by one, the result is the
old value, and nothing else in memory changes. -/
theorem C51_post_increment_element_partial (E : Env) {σ : St} {x t stack : Addr} {a dlt : Word32}
    (hd : dlt = 1 ∨ dlt = 0xFFFFFFFF#32) (hx : x.real = true) (hp : Place σ x t) (ht : σ.cell t = .int a)
    (htr : t.real = true) (hst : stack ≠ t)
    (hr : -2147483648 ≤ a.toInt + dlt.toInt ∧ a.toInt + dlt.toInt ≤ 2147483647) (f : Nat) :
    ∃ τ w, postBump E dlt (f + 4) σ x stack = .ok τ ∧ w.toInt = a.toInt + dlt.toInt ∧ τ.cell t = .int w ∧
      τ.cell stack = .int a ∧ (∀ c, c.real = true → c ≠ t → c ≠ stack → τ.cell c = σ.cell c) ∧
      τ.obj = σ.obj ∧ τ.rawMem = σ.rawMem := by
  obtain ⟨hb, hw⟩ := bump_ok hd hr
  have key : ∃ u v, postBump E dlt (f + 4) σ x stack = .ok ((((((σ.set .t2 u).set .t1 (.int a)).set .t1
      (.int (a + dlt))).set (.loc (f + 3)) (.int a)).set .t2 v |>.set t (.int (a + dlt))).set stack (.int a)) := by
    have hl : (Addr.loc (f + 3)) ≠ t := fun h => rl htr _ h.symm
    cases hp with
    | elem h1 h2 h3 h4 h5 =>
      rw [postBump]
      simp only [h1]
      simp [single, deref, h1, h3, h4, h5, ht, postBump, hb, valueToEx, St.set_ne, r1 hx, r2 hx, r1 h2, r2 h2,
        rl hx, rl h2]
      exact ⟨_, _, rfl⟩
    | hash h1 h2 h3 =>
      rw [postBump]
      simp only [h1]
      simp [single, deref, h1, ht, postBump, hb, valueToEx, St.set_ne, r1 hx, r2 hx, r1 h2, r2 h2,
        rl hx, rl h2, hl]
      exact ⟨_, _, rfl⟩
  obtain ⟨u, v, key⟩ := key
  refine ⟨_, a + dlt, key, hw, ?_, St.set_same .., ?_, rfl, rfl⟩
  · rw [St.set_ne _ _ hst.symm, St.set_same]
  · intro c hc h1 h2
    rw [St.set_ne _ _ h2, St.set_ne _ _ h1, St.set_ne _ _ (r2 hc), St.set_ne _ _ (rl hc _), St.set_ne _ _ (r1 hc),
      St.set_ne _ _ (r1 hc), St.set_ne _ _ (r2 hc)]

/-- C51 fails for characters of strings: `++s[i]` and `--s[i]` change nothing, and the result reads as the
old character. -/
theorem C51_increment_character (E : Env) {σ : St} {x b : Addr} {s o : Nat} {bs : List Byte} {nc : Bool} {c : Byte}
    {dlt : Word32} (hd : dlt = 1 ∨ dlt = 0xFFFFFFFF#32) (hx : x.real = true) (h1 : σ.cell x = .mem b s)
    (h2 : b.real = true) (h3 : σ.cell b = .arr o) (h4 : σ.obj o = .chars bs nc) (h5 : bs[s]? = some c) (f : Nat) :
    ∃ τ, preBump E dlt (f + 4) σ x = .ok τ ∧ SameReal σ τ ∧ Reads τ true 1 x (.int (c.setWidth 32)) := by
  have hb : bump dlt (c.setWidth 32) = .ok (c.setWidth 32 + dlt) := by
    unfold bump
    rw [if_neg]
    have : (c.setWidth 32).toNat < 256 := by
      rw [BitVec.toNat_setWidth]
      have := c.isLt
      omega
    rintro (⟨-, h⟩ | ⟨-, h⟩) <;> rw [h] at this <;> exact absurd this (by decide)
  have key : ∃ τ, preBump E dlt (f + 4) σ x = .ok τ ∧ SameReal σ τ := by
    rw [preBump]
    simp only [h1]
    simp [single, deref, h1, h3, h4, h5, preBump, hb, valueToEx, St.set_ne, r1 hx, r2 hx, r1 h2, r2 h2]
    constructor <;> first | rfl | skip
    intro a ha
    simp [St.set_ne, r1 ha, r2 ha]
  obtain ⟨τ, key, hs⟩ := key
  exact ⟨τ, key, hs, .celem rfl (by rw [hs.cell _ hx, h1]) h2 (by rw [hs.cell _ h2, h3]) (by rw [hs.obj, h4]) h5⟩

/-- C51: `++h[i]` / `--h[i]` on a byte of a host array: the byte changes by one modulo 256, and no other byte
of the host and nothing in the script's memory changes. -/
theorem C51_increment_host_byte (E : Env) {σ : St} {x b : Addr} {s p n : Nat} {dlt : Word32}
    (hd : dlt = 1 ∨ dlt = 0xFFFFFFFF#32) (hx : x.real = true) (h1 : σ.cell x = .mem b s) (h2 : b.real = true)
    (h3 : σ.cell b = .raw p n) (h5 : s < n) (f : Nat) :
    ∃ τ, preBump E dlt (f + 4) σ x = .ok τ ∧ τ.rawMem p s = σ.rawMem p s + dlt.setWidth 8 ∧
      (∀ q i, ¬ (q = p ∧ i = s) → τ.rawMem q i = σ.rawMem q i) ∧ τ.obj = σ.obj ∧
      ∀ a, a.real = true → τ.cell a = σ.cell a := by
  have hb : bump dlt ((σ.rawMem p s).setWidth 32) = .ok ((σ.rawMem p s).setWidth 32 + dlt) := by
    unfold bump
    rw [if_neg]
    have : ((σ.rawMem p s).setWidth 32).toNat < 256 := by
      rw [BitVec.toNat_setWidth]
      have := (σ.rawMem p s).isLt
      omega
    rintro (⟨-, h⟩ | ⟨-, h⟩) <;> rw [h] at this <;> exact absurd this (by decide)
  have key : ∃ υ, preBump E dlt (f + 4) σ x = .ok (storeByte υ p s ((σ.rawMem p s).setWidth 32 + dlt)) ∧
      SameReal σ υ := by
    refine ⟨(((σ.set .t2 (σ.cell .t2).retypeInt).set .t2 (.int ((σ.rawMem p s).setWidth 32))).set .t1
      (.int ((σ.rawMem p s).setWidth 32))).set .t1 (.int ((σ.rawMem p s).setWidth 32 + dlt)), ?_, ?_⟩
    · rw [preBump]
      simp only [h1]
      simp [single, deref, h1, h3, h5, preBump, hb, valueToEx, St.set_ne, r1 hx, r2 hx, r1 h2, r2 h2, Val.bits,
        St.set]
    · exact (((sameReal_set σ _ (a := .t2) rfl).trans (sameReal_set _ _ (a := .t2) rfl)).trans
        (sameReal_set _ _ (a := .t1) rfl)).trans (sameReal_set _ _ (a := .t1) rfl)
  obtain ⟨υ, key, hs⟩ := key
  refine ⟨_, key, ?_, ?_, hs.obj, fun a ha => hs.cell a ha⟩
  · simp only [storeByte, and_self, if_true]
    rw [BitVec.setWidth_add _ _ (by decide)]
    simp
  · intro q i h
    simp only [storeByte]
    rw [if_neg h, hs.raw]

/-! ### Concrete cases -/

/-- `--a[1]` on `a = {1, 2, INT_MIN}`. -/
example : ∃ τ w, preBump demoEnv 0xFFFFFFFF#32 4 demoArr (.cell 2) = .ok τ ∧ w.toInt = 1 ∧
    OnlySet demoArr τ (.elem 0 1) (.int w) := by
  obtain ⟨τ, w, h1, h2, h3, -⟩ := C51_increment_element_partial demoEnv (σ := demoArr) (x := .cell 2) (a := 2)
    (.inr rfl) rfl (.elem (s := 1) (o := 0) (n := 3) rfl (b := .cell 11) rfl rfl rfl (by decide)) rfl (by decide) 0
  exact ⟨τ, w, h1, h2, h3⟩

/-- `a[1]++`. -/
example : ∃ τ w, postBump demoEnv 1 4 demoArr (.cell 2) (.cell 2) = .ok τ ∧ w.toInt = 3 ∧
    τ.cell (.elem 0 1) = .int w ∧ τ.cell (.cell 2) = .int 2 := by
  obtain ⟨τ, w, h1, h2, h3, h4, -⟩ := C51_post_increment_element_partial demoEnv (σ := demoArr) (x := .cell 2)
    (stack := .cell 2) (a := 2) (.inl rfl) rfl
    (.elem (s := 1) (o := 0) (n := 3) rfl (b := .cell 11) rfl rfl rfl (by decide)) rfl rfl (by decide) (by decide) 0
  exact ⟨τ, w, h1, h2, h3, h4⟩

/-- Slot 0 names character 1 of the string "ab", slot 1 byte 2 of a host array of 4 bytes, all zero. -/
def demoBump : St := demo
  (fun | .cell 0 => .mem (.cell 10) 1 | .cell 10 => .arr 0 | .cell 1 => .mem (.cell 11) 2 | .cell 11 => .raw 7 4
       | _ => .other)
  (fun _ => .chars [0x61, 0x62] false)

example : ∃ τ, preBump demoEnv 1 4 demoBump (.cell 0) = .ok τ ∧ τ.obj 0 = .chars [0x61, 0x62] false := by
  obtain ⟨τ, h1, h2, -⟩ := C51_increment_character demoEnv (σ := demoBump) (x := .cell 0) (b := .cell 10)
    (bs := [0x61, 0x62]) (nc := false) (c := 0x62) (.inl rfl) rfl rfl rfl rfl rfl rfl 0
  exact ⟨τ, h1, by rw [h2.obj]; rfl⟩

example : ∃ τ, preBump demoEnv 0xFFFFFFFF#32 4 demoBump (.cell 1) = .ok τ ∧ τ.rawMem 7 2 = 0xFF#8 := by
  obtain ⟨τ, h1, h2, -⟩ := C51_increment_host_byte demoEnv (σ := demoBump) (x := .cell 1) (b := .cell 11)
    (p := 7) (n := 4) (.inr rfl) rfl rfl rfl rfl (by decide) 0
  exact ⟨τ, h1, by rw [h2]; decide⟩

end Wrench.Ops
