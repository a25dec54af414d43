import Verif.Ops.Assign
import Verif.Ops.Strings
import Verif.Ops.IndexProps

/-
What `wr_valueToEx` does to arrays: `++` and `--` on a string, and storing into a host array.
-/
namespace Wrench.Ops

open Wrench

/-- C51 fails for strings: `++s` and `--s` do not refuse a string.  They take its hash, add 1 or subtract
1, and overwrite the first character with the low byte of that; an empty string becomes one of one
character.  Everything else stays. -/
theorem C51_increment_string (E : Env) {σ : St} {x t : Addr} {o : Nat} {bs : List Byte} {nc : Bool} {dlt h : Word32}
    (hx : σ.cell x = .ref t) (hxr : x.real = true) (htr : t.real = true) (ht : σ.cell t = .arr o)
    (ho : σ.obj o = .chars bs nc) (hb : bump dlt (getHash E σ (.arr o)) = .ok h) (f : Nat) :
    ∃ τ, preBump E dlt (f + 4) σ x = .ok τ ∧ τ.obj o = .chars (h.setWidth 8 :: bs.drop 1) nc ∧
      (∀ p, p ≠ o → τ.obj p = σ.obj p) ∧ τ.cell x = .arr o ∧ τ.rawMem = σ.rawMem ∧
      ∀ a, a.real = true → a ≠ x → τ.cell a = σ.cell a := by
  have ht1 : t ≠ .t1 := by rintro rfl; simp [Addr.real] at htr
  have hset : ((if bs = [] then [0] else bs).set 0 (h.setWidth 8) : List Byte) = h.setWidth 8 :: bs.drop 1 := by
    cases bs <;> simp
  have hx1 : x ≠ .t1 := by rintro rfl; simp [Addr.real] at hxr
  have hxt : x ≠ t := by rintro rfl; rw [hx] at ht; cases ht
  have hin : preBump E dlt (f + 3) σ t = .ok
      (((σ.set .t1 (.int (getHash E σ (.arr o)))).set .t1 (.int h)).setObj o (.chars (h.setWidth 8 :: bs.drop 1) nc)) := by
    rw [← hset, preBump]
    simp only [ht]
    simp [single, deref, ht, preBump, hb, valueToEx, St.set_ne, ht1, ho, Val.bits, St.setObj]
  refine ⟨(((σ.set .t1 (.int (getHash E σ (.arr o)))).set .t1 (.int h)).setObj o
      (.chars (h.setWidth 8 :: bs.drop 1) nc)).set x (.arr o), ?_, ?_, ?_, ?_, rfl, ?_⟩
  · rw [preBump]
    simp only [hx, hin, res_bind_ok]
    simp [St.setObj, St.set_ne, hx1, ht1, hx, ht]
  · simp [St.setObj, St.set]
  · intro p hp
    simp [St.setObj, St.set, hp]
  · simp [St.setObj, St.set]
  · intro a ha hax
    have ha1 : a ≠ .t1 := by rintro rfl; simp [Addr.real] at ha
    rw [St.set_ne _ _ hax]
    simp [St.setObj, St.set, ha1]

/-- Storing into a named element of a host array: the byte at that index
becomes the low byte of the number, and nothing else changes.  The index is not compared with the size
here but when the element is named: `C48_host_array`. -/
theorem C48_raw_store (E : Env) {σ : St} {to from_ b : Addr} {s p n : Nat} {w : Word32}
    (h1 : σ.cell to = .mem b s) (h3 : σ.cell b = .raw p n) (h7 : σ.cell from_ = .int w) (f : Nat) :
    ∃ τ, assign E (f + 3) σ to from_ = .ok τ ∧ τ.rawMem p s = w.setWidth 8 ∧
      (∀ q i, ¬ (q = p ∧ i = s) → τ.rawMem q i = σ.rawMem q i) ∧ τ.obj = σ.obj ∧
      ∀ a, τ.cell a = σ.cell a := by
  refine ⟨storeByte σ p s w, ?_, ?_, ?_, rfl, fun _ => rfl⟩
  · simp [assign, h1, h7, Val.ty, deref, isMember, valueToEx, h3, Val.bits]
  · simp [storeByte]
  · intro q i h
    simp only [storeByte]
    rw [if_neg h]

/-- `h[i] = x` for a host array `h` of `n` bytes: the low byte of `x` becomes byte `i`, and no other byte
of the host changes; with `i` outside the array nothing of the host's memory changes. -/
theorem C48_host_array (E : Env) {σ : St} {idx value b tgt from_ : Addr} {i w : Word32} {p n : Nat}
    (hi : σ.cell idx = .int i) (hv : σ.cell value = .ref b) (hb : σ.cell b = .raw p n)
    (hbt : b ≠ tgt) (hft : from_ ≠ tgt) (hw : σ.cell from_ = .int w) (h21 : i.toNat < 2 ^ 21) (f : Nat) :
    ∃ τ υ, index (f + 3) σ idx value tgt = .ok τ ∧ assign E (f + 3) τ tgt from_ = .ok υ ∧
      (∀ q j, υ.rawMem q j = if q = p ∧ j = i.toNat ∧ i.toNat < n then w.setWidth 8 else σ.rawMem q j) ∧
      υ.obj = σ.obj ∧ ∀ a, a ≠ tgt → υ.cell a = σ.cell a := by
  have hix : index (f + 3) σ idx value tgt =
      if i.toNat ≥ n then .ok (σ.set tgt (.int 0)) else elemTo σ i tgt b := by
    rw [index]
    simp only [hi, hv, Val.ty]
    rw [index]
    simp only [hi, hb, Val.ty, indexIE]
    simp [deref, hb, hi, Val.bits]
  by_cases hn : i.toNat ≥ n
  · rw [if_pos hn] at hix
    refine ⟨_, (σ.set tgt (.int 0)).set tgt (.int w), hix, ?_, ?_, rfl, ?_⟩
    · rw [assign]
      simp [St.set_ne _ _ hft, hw, Val.ty]
    · intro q j
      rw [if_neg (by omega)]
      rfl
    · intro a ha
      rw [St.set_ne _ _ ha, St.set_ne _ _ ha]
  · rw [if_neg hn, elemTo, if_neg (Ne.symm hbt)] at hix
    have henc : encElem i = i.toNat := by
      unfold encElem
      omega
    rw [henc] at hix
    obtain ⟨υ, e1, e2, e3, e4, e5⟩ := C48_raw_store (σ := σ.set tgt (.mem b i.toNat)) (to := tgt) (from_ := from_)
      (b := b) (s := i.toNat) (p := p) (n := n) (w := w) E (St.set_same _ _ _) (by rw [St.set_ne _ _ hbt]; exact hb)
      (by rw [St.set_ne _ _ hft]; exact hw) f
    refine ⟨_, υ, hix, e1, ?_, e4, ?_⟩
    · intro q j
      by_cases hq : q = p ∧ j = i.toNat
      · rw [if_pos ⟨hq.1, hq.2, by omega⟩, hq.1, hq.2]
        exact e2
      · rw [if_neg (fun h => hq ⟨h.1, h.2.1⟩)]
        exact e3 q j hq
    · intro a ha
      rw [e5, St.set_ne _ _ ha]

/-! ### Concrete cases -/

/-- Slot 0 refers to the string "ab" in variable 10, slot 1 to a host array of 4 bytes in variable 11. -/
def demoStore : St := demo
  (fun | .cell 0 => .ref (.cell 10) | .cell 10 => .arr 0 | .cell 1 => .ref (.cell 11) | .cell 11 => .raw 7 4
       | .cell 2 => .int 2 | .cell 3 => .int 0x1FF#32 | .cell 4 => .int 9 | _ => .other)
  (fun _ => .chars [0x61, 0x62] false)

example : ∃ τ h, preBump demoEnv 1 5 demoStore (.cell 0) = .ok τ ∧ τ.obj 0 = .chars [h, 0x62] false := by
  have hb : bump 1 (wrHash [0x61, 0x62]) = .ok (wrHash [0x61, 0x62] + 1) := by decide +kernel
  obtain ⟨τ, h1, h2, -⟩ := C51_increment_string demoEnv (σ := demoStore) (x := .cell 0) (t := .cell 10)
    (bs := [0x61, 0x62]) (nc := false) rfl rfl rfl rfl rfl hb 1
  exact ⟨τ, _, h1, h2⟩

/-- `h[2] = 0x1FF` stores 0xFF; `h[9] = 0x1FF` stores nothing. -/
example : ∃ τ υ, index 3 demoStore (.cell 2) (.cell 1) (.cell 5) = .ok τ ∧
    assign demoEnv 3 τ (.cell 5) (.cell 3) = .ok υ ∧ υ.rawMem 7 2 = 0xFF#8 ∧ υ.rawMem 7 1 = 0 := by
  obtain ⟨τ, υ, h1, h2, h3, -⟩ := C48_host_array demoEnv (σ := demoStore) (idx := .cell 2) (value := .cell 1)
    (b := .cell 11) (tgt := .cell 5) (from_ := .cell 3) (p := 7) (n := 4) rfl rfl rfl (by decide) (by decide) rfl
    (by decide) 0
  exact ⟨τ, υ, h1, h2, by rw [h3]; decide, by rw [h3]; decide⟩

example : ∃ τ υ, index 3 demoStore (.cell 4) (.cell 1) (.cell 5) = .ok τ ∧
    assign demoEnv 3 τ (.cell 5) (.cell 3) = .ok υ ∧ υ.rawMem 7 9 = 0 := by
  obtain ⟨τ, υ, h1, h2, h3, -⟩ := C48_host_array demoEnv (σ := demoStore) (idx := .cell 4) (value := .cell 1)
    (b := .cell 11) (tgt := .cell 5) (from_ := .cell 3) (p := 7) (n := 4) rfl rfl rfl (by decide) (by decide) rfl
    (by decide) 0
  exact ⟨τ, υ, h1, h2, by rw [h3]; decide⟩

end Wrench.Ops
