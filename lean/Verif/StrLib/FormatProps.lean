import Verif.StrLib.FormatSafe
import Verif.Std.Itoa

/-
`str::format`, `str::sprintf` and `str::printf`.
-/
namespace Wrench.StrLib

open Ops Std

variable {E : FEnv} {K : Nat} {A : ArgList} {args : List FArg}

/-- Arguments carried over to a memory with the same values and the same strings. -/
theorem FArgs.move {σ τ : St} {out out' : Out} {K ab : Nat} {as : List FArg}
    (h : FArgs σ out K ab as) (hc : ∀ a, a.real = true → τ.cell a = σ.cell a)
    (ho : ∀ o bs nc, σ.obj o = .chars bs nc → out ≠ .obj o → τ.obj o = .chars bs nc ∧ out' ≠ .obj o) :
    FArgs τ out' K ab as := by
  intro i a ha
  obtain ⟨v, h1, h2⟩ := h i a ha
  refine ⟨v, reads_cells h1 rfl hc, ?_⟩
  cases h2 with
  | int => exact .int
  | float => exact .float
  | str h3 h4 => exact .str (ho _ _ _ h3 h4).1 (ho _ _ _ h3 h4).2
  | obj => exact .obj

theorem deref_here {σ : St} {a : Addr} (h : (σ.cell a).plain = true) (f : Nat) :
    deref (f + 1) σ a = .ok (σ, a) := by
  unfold deref
  split <;> simp_all [Val.plain]

theorem charsObj_here {σ : St} {a : Addr} {o : Nat} {bs : List Byte} {nc : Bool}
    (h : σ.cell a = .arr o) (ho : σ.obj o = .chars bs nc) (f : Nat) :
    charsObj (f + 1) σ a = .ok (σ, some (o, bs.length)) := by
  unfold charsObj
  rw [deref_here (by rw [h]; rfl)]
  simp [h, ho]

theorem charsObj_not {σ : St} {a : Addr} (hp : (σ.cell a).plain = true) (h : NotString σ (σ.cell a))
    (f : Nat) : charsObj (f + 1) σ a = .ok (σ, none) := by
  unfold charsObj
  rw [deref_here hp]
  simp only [res_bind]
  cases hv : σ.cell a with
  | arr o =>
    have := h o hv
    cases ho : σ.obj o with
    | chars bs nc => exact absurd ho (this bs nc)
    | vals n => simp [ho]
    | other => simp [ho]
  | _ => rfl

theorem fresh_length (E : FEnv) (n : Nat) : (E.fresh n).length = n := by simp [FEnv.fresh]

/-- The second run into a new object. -/
theorem rerun_ok {τ : St} {to : Addr} {fo : Nat} {fmt u : List Byte} {nc : Bool}
    (hto : to.real = true) (hf : τ.obj τ.next = .other) (hfmt : τ.obj fo = .chars fmt nc)
    (hA : ∀ x, FArgs (τ.set to x) .tmp K A.ab args) (hn : A.argn = args.length)
    (hu : render E.toLEnv fmt args = .ok u) (hl : u.length < 2 ^ 32) (d : Nat) :
    ∃ ω, rerun E (d + K + 1) fo fmt.length A to u.length τ = .ok ω ∧ NewStr τ ω to u := by
  obtain ⟨υ, hυ⟩ : ∃ υ : St, υ = ({ τ.setObj τ.next (.chars (E.fresh u.length) false) with
    next := τ.next + 1 } : St) := ⟨_, rfl⟩
  obtain ⟨x, hx⟩ : ∃ x, x = withVa E (υ.cell to) τ.next := ⟨_, rfl⟩
  have hob : ∀ o, o ≠ τ.next → υ.obj o = τ.obj o := by
    intro o ho
    rw [hυ]
    simp only [St.setObj, if_neg ho]
  have hnew : υ.obj τ.next = .chars (E.fresh u.length) false := by rw [hυ]; simp [St.setObj]
  have hcell : ∀ a, υ.cell a = τ.cell a := by intro a; rw [hυ]; rfl
  have hset : ∀ a, (υ.set to x).cell a = (τ.set to x).cell a := by
    intro a
    by_cases ha : a = to
    · rw [ha, St.set_same, St.set_same]
    · rw [St.set_ne _ _ ha, St.set_ne _ _ ha, hcell]
  have hne : ∀ o bs nc, τ.obj o = .chars bs nc → o ≠ τ.next := by
    intro o bs nc h e
    rw [e, hf] at h
    cases h
  have hA' : FArgs (υ.set to x) (.obj τ.next) K A.ab args := by
    refine (hA x).move (fun a _ => hset a) ?_
    intro o bs nc h _
    have h' : τ.obj o = .chars bs nc := h
    exact ⟨by rw [St.set_obj, hob o (hne o bs nc h')]; exact h', fun e => hne o bs nc h' (by cases e; rfl)⟩
  obtain ⟨s, h1, h2, h3, h4, h5, h6, h7⟩ := C22_buffer_partial (σ := υ.set to x) (out := .obj τ.next)
    (max := u.length) (old := E.fresh u.length) (tmp := []) (fo := fo) (fmt := fmt) (nc := nc) (E := E.toLEnv)
    (by rw [fresh_length]; exact Nat.le_refl _) hA' hn
    (by rw [St.set_obj, hob fo (hne fo _ _ hfmt)]; exact hfmt)
    (fun e => hne fo _ _ hfmt (by cases e; rfl))
    (by simp only [outBytes, St.set_obj, hnew]) hu hl d
  refine ⟨s.mem.set to (.arr τ.next), ?_, ?_, ?_, ?_, ?_, ?_, ?_⟩
  · unfold rerun
    have hx' : withVa E ((τ.setObj τ.next (Obj.chars (E.fresh u.length) false)).cell to) τ.next = x := by
      rw [hx, hυ]
    simp only [← hυ, hx']
    rw [h1]
    rfl
  · exact St.set_same _ _ _
  · obtain ⟨bs', hb⟩ := h5 τ.next _ _ (by rw [St.set_obj]; exact hnew)
    rw [St.set_obj, hb]
    simp only [outBytes, hb, Option.some.injEq] at h2
    rw [h2, List.take_of_length_le (Nat.le_refl _), Nat.min_self,
      List.drop_of_length_le (by rw [fresh_length]; exact Nat.le_refl _), List.append_nil]
  · intro a ha hne
    rw [St.set_ne _ _ hne, h3 a ha, St.set_ne _ _ hne, hcell]
  · intro o ho
    rw [St.set_obj, h4 o (fun e => ho (by cases e; rfl)), St.set_obj, hob o ho]
  · show s.mem.next = _
    rw [h6]
    show υ.next = _
    rw [hυ]
  · show s.mem.rawMem = _
    rw [h7]
    show υ.rawMem = _
    rw [hυ]
    rfl

theorem newStr_trans {σ τ ω : St} {t : Addr} {bs : List Byte} (h : SameReal σ τ) (hn : NewStr τ ω t bs) :
    NewStr σ ω t bs :=
  ⟨by rw [hn.here, h.next], by rw [← h.next]; exact hn.bytes,
    fun a ha hne => (hn.cell a ha hne).trans (h.cell a ha),
    fun o ho => by rw [hn.obj o (by rw [h.next]; exact ho), h.obj], by rw [hn.next, h.next],
    hn.raw.trans h.raw⟩

/-- Formatting into a location that does not hold a string. -/
theorem doSprintf_new {σ : St} {to l : Addr} {fo : Nat} {fmt u : List Byte} {nc : Bool}
    (hto : to.real = true) (hp : (σ.cell to).plain = true) (hns : NotString σ (σ.cell to))
    (hf : σ.obj σ.next = .other) (hl : σ.cell l = .arr fo) (hfmt : σ.obj fo = .chars fmt nc)
    (hA : ∀ x, FArgs (σ.set to x) .tmp K A.ab args) (hn : A.argn = args.length)
    (hu : render E.toLEnv fmt args = .ok u) (hlen : u.length < 2 ^ 32) (d : Nat) :
    ∃ τ, doSprintf E (d + K + 1) σ to l A = .ok (τ, u.length) ∧ NewStr σ τ to u := by
  have hA0 : FArgs σ .tmp K A.ab args := by
    refine (hA (σ.cell to)).move ?_ (fun o bs nc h _ => ⟨h, fun e => by cases e⟩)
    intro a _
    by_cases ha : a = to
    · rw [ha, St.set_same]
    · rw [St.set_ne _ _ ha]
  obtain ⟨s, h1, h2, h3, h4, -, h6, h7⟩ := C22_buffer_partial (σ := σ) (out := .tmp)
    (max := trySize) (old := E.fresh (trySize + 1)) (tmp := E.fresh (trySize + 1)) (fo := fo) (fmt := fmt)
    (nc := nc) (E := E.toLEnv) (by rw [fresh_length]; omega) hA0 hn hfmt (fun e => by cases e) rfl hu hlen d
  have hs : SameReal σ s.mem := ⟨h3, funext fun o => h4 o (fun e => by cases e), h6, h7⟩
  have run : ∀ {R : Type} (g : PS × Nat → Res R), (sprintfEx E.toLEnv (d + K + 1) .tmp trySize fo
      fmt.length A σ (E.fresh (trySize + 1)) >>= g) = g (s, u.length) := by
    intro R g; rw [h1]; rfl
  unfold doSprintf
  rw [charsObj_here hl hfmt]
  simp only [res_bind, charsObj_not hp hns, run]
  by_cases hsz : u.length > trySize
  · rw [if_pos hsz]
    obtain ⟨ω, g1, g2⟩ := rerun_ok (E := E) (K := K) (A := A) (args := args) (τ := s.mem) (u := u) hto
      (by rw [hs.obj, hs.next]; exact hf) (by rw [hs.obj]; exact hfmt)
      (fun x => by
        refine (hA x).move ?_ (fun o bs nc h _ => ⟨by
          rw [St.set_obj, hs.obj]; exact h, fun e => by cases e⟩)
        intro a ha
        by_cases e : a = to
        · rw [e, St.set_same, St.set_same]
        · rw [St.set_ne _ _ e, St.set_ne _ _ e, hs.cell a ha]) hn hu hlen d
    rw [g1]
    exact ⟨ω, rfl, newStr_trans hs g2⟩
  · rw [if_neg hsz]
    simp only [outBytes, Option.some.injEq] at h2
    have htake : s.tmp.take u.length = u := by
      rw [h2, List.take_of_length_le (l := u) (by omega), List.take_append_of_le_length (Nat.le_refl _),
        List.take_of_length_le (Nat.le_refl _)]
    rw [htake]
    obtain ⟨ω, g1, g2⟩ := newStr_one hs to u rfl hlen
    rw [g1]
    exact ⟨ω, rfl, g2⟩

/-- **C22, `str::format`.**  The result is a new string with exactly the text the format stands for,
of any length; nothing else changes.  `hslot`: the result slot was cleared, as `CallLibFunction`
does; `hA`: the arguments do not refer to the result slot.  Missing: formats without a text (`%s` of
something else than a string, undefined numbers, widths of 2^32 or more), texts of 2^32 bytes. -/
theorem C22_format_partial {σ : St} {b fo : Nat} {mb : Bool} {fmt u : List Byte} {nc : Bool}
    (hslot : σ.cell (.cell (b + (args.length + 1))) = .int 0#32) (hf : σ.obj σ.next = .other)
    (hr : Reads σ mb K (.cell b) (.arr fo)) (hfmt : σ.obj fo = .chars fmt nc)
    (hA : ∀ x, FArgs (σ.set (.cell (b + (args.length + 1))) x) .tmp K (b + 1) args)
    (hu : render E.toLEnv fmt args = .ok u) (hlen : u.length < 2 ^ 32) (d : Nat) :
    ∃ τ, format E (d + K + 1) σ b (args.length + 1) = .ok τ ∧
      NewStr σ τ (.cell (b + (args.length + 1))) u := by
  obtain ⟨τ, l, h1, h2, h3, -, -⟩ := deref_reads hr d
  have hc : τ.cell (top b (args.length + 1)) = .int 0#32 := by
    rw [top, h3.cell _ rfl]; exact hslot
  obtain ⟨ω, g1, g2⟩ := doSprintf_new (E := E) (K := K) (A := ⟨b + 1, args.length⟩) (args := args)
    (σ := τ) (to := top b (args.length + 1)) (l := l) (fo := fo) (fmt := fmt) (u := u) (nc := nc) rfl
    (by rw [hc]; rfl) (by rw [hc]; intro o e; cases e) (by rw [h3.obj, h3.next]; exact hf) h2
    (by rw [h3.obj]; exact hfmt)
    (fun x => by
      refine (hA x).move ?_ (fun o bs nc h _ => ⟨by rw [St.set_obj, h3.obj]; exact h,
        fun e => by cases e⟩)
      intro a ha
      unfold top
      by_cases e : a = .cell (b + (args.length + 1))
      · rw [e, St.set_same, St.set_same]
      · rw [St.set_ne _ _ e, St.set_ne _ _ e, h3.cell a ha]) rfl hu hlen d
  refine ⟨ω, ?_, newStr_trans h3 g2⟩
  unfold format
  rw [if_pos (by omega), h1]
  simp only [res_bind, Nat.add_sub_cancel, g1, res_pure]

/-- **C22, `str::printf`** with a file system configured: exactly the text is printed and its length
returned; nothing else changes.  Same limits as `C22_format_partial`. -/
theorem C22_printf_partial {σ : St} {b fo : Nat} {mb : Bool} {fmt u : List Byte} {nc : Bool}
    (hslot : σ.cell (.cell (b + (args.length + 1))) = .int 0#32) (hf : σ.obj σ.next = .other)
    (hr : Reads σ mb K (.cell b) (.arr fo)) (hfmt : σ.obj fo = .chars fmt nc)
    (hA : ∀ x, FArgs (σ.set (.cell (b + (args.length + 1))) x) .tmp K (b + 1) args)
    (hu : render E.toLEnv fmt args = .ok u) (hlen : u.length < 2 ^ 32) (d : Nat) :
    ∃ τ, printf E true (d + K + 1) σ b (args.length + 1) = .ok (τ, u) ∧
      τ.cell (.cell (b + (args.length + 1))) = .int (BitVec.ofNat 32 u.length) ∧
      (∀ a, a.real = true → a ≠ .cell (b + (args.length + 1)) → τ.cell a = σ.cell a) ∧
      (∀ o, o ≠ σ.next → τ.obj o = σ.obj o) := by
  obtain ⟨ω, h1, h2⟩ := C22_format_partial (E := E) hslot hf hr hfmt hA hu hlen d
  obtain ⟨υ, l, g1, -, -, -, -⟩ := deref_reads hr d
  unfold format at h1
  rw [if_pos (by omega), g1] at h1
  simp only [res_bind, Nat.add_sub_cancel] at h1
  obtain ⟨⟨ω', n⟩, h3, h4⟩ := bind_ok h1
  simp only [res_pure, Res.ok.injEq] at h4
  subst h4
  have hn : n = u.length := by
    obtain ⟨τ, l', k1, k2, k3, -, -⟩ := deref_reads hr d
    rw [g1] at k1
    cases k1
    have hc : υ.cell (top b (args.length + 1)) = .int 0#32 := by
      rw [top, k3.cell _ rfl]; exact hslot
    obtain ⟨_, m1, -⟩ := doSprintf_new (E := E) (K := K) (A := ⟨b + 1, args.length⟩) (args := args)
      (σ := υ) (to := top b (args.length + 1)) (l := l) (fo := fo) (fmt := fmt) (u := u) (nc := nc) rfl
      (by rw [hc]; rfl) (by rw [hc]; intro o e; cases e) (by rw [k3.obj, k3.next]; exact hf) k2
      (by rw [k3.obj]; exact hfmt)
      (fun x => by
        refine (hA x).move ?_ (fun o bs nc h _ => ⟨by rw [St.set_obj, k3.obj]; exact h,
          fun e => by cases e⟩)
        intro a ha
        unfold top
        by_cases e : a = .cell (b + (args.length + 1))
        · rw [e, St.set_same, St.set_same]
        · rw [St.set_ne _ _ e, St.set_ne _ _ e, k3.cell a ha]) rfl hu hlen d
    rw [h3] at m1
    simp only [Res.ok.injEq, Prod.mk.injEq] at m1
    exact m1.2
  subst hn
  refine ⟨ω'.set (top b (args.length + 1)) (.int (BitVec.ofNat 32 u.length)), ?_, St.set_same _ _ _, ?_, ?_⟩
  · unfold printf
    rw [if_pos (by omega), g1]
    simp only [res_bind, Nat.add_sub_cancel, h3]
    by_cases h0 : u.length = 0
    · rw [if_pos h0, List.eq_nil_of_length_eq_zero h0]
      rfl
    · have e : ω'.cell (top b (args.length + 1)) = .arr σ.next := h2.here
      rw [if_neg h0, e]
      simp only [h2.bytes, if_true, res_pure, res_bind]
  · intro a ha hne
    rw [top, St.set_ne _ _ hne]
    exact h2.cell a ha hne
  · intro o ho
    rw [St.set_obj]
    exact h2.obj o ho

theorem cString_no_zero : ∀ (bs : List Byte), 0#8 ∉ bs → cString bs = .ub := by
  intro bs
  induction bs with
  | nil => intro _; rfl
  | cons c bs ih =>
    intro h
    have h1 : c ≠ 0#8 := fun e => h (by simp [e])
    unfold cString
    rw [if_neg h1, ih fun e => h (by simp [e])]
    rfl

/-- In the default build (no file system) `str::printf` reads past the end of the text it is to
print, whenever the text is not empty and has no zero byte: the buffer is not terminated. -/
theorem C22_printf_overread {σ : St} {b fo : Nat} {mb : Bool} {fmt u : List Byte} {nc : Bool}
    (hslot : σ.cell (.cell (b + (args.length + 1))) = .int 0#32) (hf : σ.obj σ.next = .other)
    (hr : Reads σ mb K (.cell b) (.arr fo)) (hfmt : σ.obj fo = .chars fmt nc)
    (hA : ∀ x, FArgs (σ.set (.cell (b + (args.length + 1))) x) .tmp K (b + 1) args)
    (hu : render E.toLEnv fmt args = .ok u) (hlen : u.length < 2 ^ 32) (hne : u ≠ [])
    (hz : 0#8 ∉ u) (d : Nat) :
    printf E false (d + K + 1) σ b (args.length + 1) = .ub := by
  obtain ⟨υ, l, g1, k2, k3, -, -⟩ := deref_reads hr d
  have hc : υ.cell (top b (args.length + 1)) = .int 0#32 := by
    rw [top, k3.cell _ rfl]; exact hslot
  obtain ⟨ω, m1, m2⟩ := doSprintf_new (E := E) (K := K) (A := ⟨b + 1, args.length⟩) (args := args)
    (σ := υ) (to := top b (args.length + 1)) (l := l) (fo := fo) (fmt := fmt) (u := u) (nc := nc) rfl
    (by rw [hc]; rfl) (by rw [hc]; intro o e; cases e) (by rw [k3.obj, k3.next]; exact hf) k2
    (by rw [k3.obj]; exact hfmt)
    (fun x => by
      refine (hA x).move ?_ (fun o bs nc h _ => ⟨by rw [St.set_obj, k3.obj]; exact h,
        fun e => by cases e⟩)
      intro a ha
      unfold top
      by_cases e : a = .cell (b + (args.length + 1))
      · rw [e, St.set_same, St.set_same]
      · rw [St.set_ne _ _ e, St.set_ne _ _ e, k3.cell a ha]) rfl hu hlen d
  have h0 : ¬ u.length = 0 := fun e => hne (List.eq_nil_of_length_eq_zero e)
  unfold printf
  rw [if_pos (by omega), g1]
  simp only [res_bind, Nat.add_sub_cancel, m1]
  rw [if_neg h0, m2.here]
  simp only [m2.bytes, Bool.false_eq_true, if_false, cString_no_zero u hz]
  rfl

/-- **C22, `str::sprintf`** into a variable that does not hold a string: the variable gets a new
string with exactly the text, and the result is its length.  Same limits as `C22_format_partial`. -/
theorem C22_sprintf_new_partial {σ : St} {b fo : Nat} {mb : Bool} {to : Addr} {fmt u : List Byte}
    {nc : Bool} (ht : σ.cell (.cell b) = .ref to) (hto : to.real = true)
    (hp : (σ.cell to).plain = true) (hns : NotString σ (σ.cell to))
    (hne : to ≠ .cell (b + (args.length + 2))) (hf : σ.obj σ.next = .other)
    (hr : Reads σ mb K (.cell (b + 1)) (.arr fo)) (hfmt : σ.obj fo = .chars fmt nc)
    (hA : ∀ x, FArgs (σ.set to x) .tmp K (b + 2) args)
    (hu : render E.toLEnv fmt args = .ok u) (hlen : u.length < 2 ^ 32) (d : Nat) :
    ∃ τ, sprintf E (d + K + 2) σ b (args.length + 2) = .ok τ ∧
      τ.cell to = .arr σ.next ∧ τ.obj σ.next = .chars u false ∧
      τ.cell (.cell (b + (args.length + 2))) = .int (BitVec.ofNat 32 u.length) ∧
      (∀ a, a.real = true → a ≠ to → a ≠ .cell (b + (args.length + 2)) → τ.cell a = σ.cell a) ∧
      (∀ o, o ≠ σ.next → τ.obj o = σ.obj o) ∧ τ.rawMem = σ.rawMem := by
  have h0 : deref (d + K + 2) σ (.cell b) = .ok (σ, to) := by
    rw [deref]
    simp only [ht]
    exact deref_here hp (d + K)
  obtain ⟨υ, l, g1, k2, k3, -, -⟩ := deref_reads hr (d + 1)
  rw [show d + 1 + K + 1 = d + K + 2 by omega] at g1
  have hct : υ.cell to = σ.cell to := k3.cell to hto
  obtain ⟨ω, m1, m2⟩ := doSprintf_new (E := E) (K := K) (A := ⟨b + 2, args.length⟩) (args := args)
    (σ := υ) (to := to) (l := l) (fo := fo) (fmt := fmt) (u := u) (nc := nc) hto
    (by rw [hct]; exact hp) (by rw [hct]; intro o e bs nc; rw [k3.obj]; exact hns o e bs nc)
    (by rw [k3.obj, k3.next]; exact hf) k2 (by rw [k3.obj]; exact hfmt)
    (fun x => by
      refine (hA x).move ?_ (fun o bs nc h _ => ⟨by rw [St.set_obj, k3.obj]; exact h,
        fun e => by cases e⟩)
      intro a ha
      by_cases e : a = to
      · rw [e, St.set_same, St.set_same]
      · rw [St.set_ne _ _ e, St.set_ne _ _ e, k3.cell a ha]) rfl hu hlen (d + 1)
  rw [show d + 1 + K + 1 = d + K + 2 by omega] at m1
  have m3 := newStr_trans k3 m2
  refine ⟨ω.set (top b (args.length + 2)) (.int (BitVec.ofNat 32 u.length)), ?_, ?_, ?_,
    St.set_same _ _ _, ?_, ?_, ?_⟩
  · unfold sprintf
    rw [if_pos (by omega), h0]
    simp only [res_bind, g1, Nat.add_sub_cancel, m1, res_pure]
  · rw [top, St.set_ne _ _ hne]; exact m3.here
  · rw [St.set_obj]; exact m3.bytes
  · intro a ha h1 h2
    rw [top, St.set_ne _ _ h2]
    exact m3.cell a ha h1
  · intro o ho
    rw [St.set_obj]
    exact m3.obj o ho
  · exact m3.raw

/-- **C22, `str::sprintf`** into a variable that holds a string: afterwards the variable holds a
string with exactly the text (the same object when it fits, a new one otherwise), and the result is
its length.  Every other object is as before; the old string object is not (`o`), so other holders of
it see it change.  Missing: as `C22_format_partial`, and formats or arguments that are that string
(`hfo`, `hA`). -/
theorem C22_sprintf_reuse_partial {σ : St} {b fo o : Nat} {mb : Bool} {to : Addr}
    {fmt u old : List Byte} {nc nco : Bool} (ht : σ.cell (.cell b) = .ref to) (hto : to.real = true)
    (hv : σ.cell to = .arr o) (hold : σ.obj o = .chars old nco)
    (hne : to ≠ .cell (b + (args.length + 2))) (hf : σ.obj σ.next = .other)
    (hr : Reads σ mb K (.cell (b + 1)) (.arr fo)) (hfmt : σ.obj fo = .chars fmt nc) (hfo : fo ≠ o)
    (hA : ∀ x, FArgs (σ.set to x) (.obj o) K (b + 2) args)
    (hu : render E.toLEnv fmt args = .ok u) (hlen : u.length < 2 ^ 32) (d : Nat) :
    ∃ τ o' nc', sprintf E (d + K + 2) σ b (args.length + 2) = .ok τ ∧
      τ.cell to = .arr o' ∧ τ.obj o' = .chars u nc' ∧ (o' = o ∨ o' = σ.next) ∧
      τ.cell (.cell (b + (args.length + 2))) = .int (BitVec.ofNat 32 u.length) ∧
      (∀ a, a.real = true → a ≠ to → a ≠ .cell (b + (args.length + 2)) → τ.cell a = σ.cell a) ∧
      (∀ x, x ≠ σ.next → x ≠ o → τ.obj x = σ.obj x) ∧ τ.rawMem = σ.rawMem := by
  have hp : (σ.cell to).plain = true := by rw [hv]; rfl
  have h0 : deref (d + K + 2) σ (.cell b) = .ok (σ, to) := by
    rw [deref]
    simp only [ht]
    exact deref_here hp (d + K)
  have hon : o ≠ σ.next := by
    rintro rfl
    rw [hf] at hold
    cases hold
  obtain ⟨υ, l, g1, k2, k3, -, -⟩ := deref_reads hr (d + 1)
  rw [show d + 1 + K + 1 = d + K + 2 by omega] at g1
  have hct : υ.cell to = .arr o := by rw [k3.cell to hto]; exact hv
  have hAυ : ∀ x, FArgs (υ.set to x) (.obj o) K (b + 2) args := fun x => by
    refine (hA x).move ?_ (fun p bs nc h hp => ⟨by rw [St.set_obj, k3.obj]; exact h, hp⟩)
    intro a ha
    by_cases e : a = to
    · rw [e, St.set_same, St.set_same]
    · rw [St.set_ne _ _ e, St.set_ne _ _ e, k3.cell a ha]
  have hA0 : FArgs υ (.obj o) K (b + 2) args := by
    refine (hAυ (υ.cell to)).move ?_ (fun p bs nc h hp => ⟨h, hp⟩)
    intro a _
    by_cases ha : a = to
    · rw [ha, St.set_same]
    · rw [St.set_ne _ _ ha]
  have hoυ : υ.obj o = .chars old nco := by rw [k3.obj]; exact hold
  obtain ⟨s, n1, n2, n3, n4, n5, n6, n7⟩ := C22_buffer_partial (σ := υ) (out := .obj o)
    (A := ⟨b + 2, args.length⟩) (max := old.length) (old := old) (tmp := []) (fo := fo) (fmt := fmt)
    (nc := nc) (E := E.toLEnv)
    (Nat.le_refl _) hA0 rfl (by rw [k3.obj]; exact hfmt) (fun e => hfo (by cases e; rfl))
    (by simp only [outBytes, hoυ]) hu hlen (d + 1)
  rw [show d + 1 + K + 1 = d + K + 2 by omega] at n1
  obtain ⟨bs', hb'⟩ := n5 o _ _ hoυ
  simp only [outBytes, hb', Option.some.injEq] at n2
  have hs : ∀ x, x ≠ o → s.mem.obj x = σ.obj x := by
    intro x hx
    rw [n4 x (fun e => hx (by cases e; rfl)), k3.obj]
  -- the state before the result is stored
  have main : ∃ ω o' nc', doSprintf E (d + K + 2) υ to l ⟨b + 2, args.length⟩ = .ok (ω, u.length) ∧
      ω.cell to = .arr o' ∧ ω.obj o' = .chars u nc' ∧ (o' = o ∨ o' = σ.next) ∧
      (∀ a, a.real = true → a ≠ to → ω.cell a = σ.cell a) ∧
      (∀ x, x ≠ σ.next → x ≠ o → ω.obj x = σ.obj x) ∧ ω.rawMem = σ.rawMem := by
    unfold doSprintf
    rw [charsObj_here k2 (by rw [k3.obj]; exact hfmt)]
    simp only [res_bind]
    rw [charsObj_here hct hoυ]
    simp only [res_bind, n1]
    by_cases hc : u.length > old.length ∨
        (old.length > trySize ∧ u.length > 0 ∧ old.length ≥ (u.length * 4) % 2 ^ 32)
    · rw [if_pos hc]
      obtain ⟨ω, r1, r2⟩ := rerun_ok (E := E) (K := K) (A := ⟨b + 2, args.length⟩) (args := args)
        (τ := s.mem) (to := to) (fo := fo) (fmt := fmt) (u := u) (nc := nc) hto
        (by rw [n6, k3.next, hs _ (Ne.symm hon)]; exact hf) (by rw [hs fo hfo]; exact hfmt)
        (fun x => by
          refine (hA x).move ?_ (fun p bs nc h hp => ⟨by
            rw [St.set_obj, hs p (fun e => hp (by rw [e]))]; exact h, fun e => by cases e⟩)
          intro a ha
          by_cases e : a = to
          · rw [e, St.set_same, St.set_same]
          · rw [St.set_ne _ _ e, St.set_ne _ _ e, n3 a ha, k3.cell a ha]) rfl hu hlen (d + 1)
      rw [show d + 1 + K + 1 = d + K + 2 by omega] at r1
      rw [r1]
      refine ⟨ω, σ.next, false, rfl, ?_, ?_, .inr rfl, ?_, ?_, ?_⟩
      · rw [r2.here, n6, k3.next]
      · have := r2.bytes
        rw [n6, k3.next] at this
        exact this
      · intro a ha hne
        rw [r2.cell a ha hne, n3 a ha, k3.cell a ha]
      · intro x hx hxo
        rw [r2.obj x (by rw [n6, k3.next]; exact hx), hs x hxo]
      · rw [r2.raw, n7, k3.raw]
    · rw [if_neg hc]
      simp only [hb']
      have hle : u.length ≤ old.length := by omega
      have htake : bs'.take u.length = u := by
        rw [n2, List.take_of_length_le (l := u) hle, List.take_append_of_le_length (Nat.le_refl _),
          List.take_of_length_le (Nat.le_refl _)]
      rw [htake]
      refine ⟨_, o, nco, rfl, St.set_same _ _ _, ?_, .inl rfl, ?_, ?_, ?_⟩
      · rw [St.set_obj]; simp [St.setObj]
      · intro a ha hne
        rw [St.set_ne _ _ hne]
        exact (n3 a ha).trans (k3.cell a ha)
      · intro x hx hxo
        rw [St.set_obj]
        simp only [St.setObj, if_neg hxo]
        exact hs x hxo
      · exact n7.trans k3.raw
  obtain ⟨ω, o', nc', m1, m2, m3, m4, m5, m6, m7⟩ := main
  refine ⟨ω.set (top b (args.length + 2)) (.int (BitVec.ofNat 32 u.length)), o', nc', ?_, ?_, ?_, m4,
    St.set_same _ _ _, ?_, ?_, m7⟩
  · unfold sprintf
    rw [if_pos (by omega), h0]
    simp only [res_bind, g1, Nat.add_sub_cancel, m1, res_pure]
  · rw [top, St.set_ne _ _ hne]; exact m2
  · rw [St.set_obj]; exact m3
  · intro a ha h1 h2
    rw [top, St.set_ne _ _ h2]
    exact m5 a ha h1
  · intro x hx hxo
    rw [St.set_obj]
    exact m6 x hx hxo

/-! ### The texts of numbers -/

/-- A numeral in any base: the digits of the number, most significant first, without a superfluous
zero. -/
structure IsNumeral (lowercase : Bool) (base : Nat) (ds : List Nat) (n : Nat) (t : List Byte) : Prop where
  text : t = ds.map (digitText lowercase)
  digits : ∀ d ∈ ds, d < base
  nonempty : ds ≠ []
  noLeadingZero : ds.length > 1 → ds.head? ≠ some 0
  value : ds.foldl (fun n d => base * n + d) 0 = n

theorem numeral_isNumeral (lc : Bool) {base : Nat} (hb : 2 ≤ base) : ∀ n, ∃ ds,
    IsNumeral lc base ds n (numeral lc base n) ∧ (n ≠ 0 → ds.head? ≠ some 0) := by
  intro n
  induction n using Nat.strongRecOn with
  | _ n ih =>
    rw [numeral]
    by_cases h : n < base ∨ base < 2
    · rw [dif_pos h]
      refine ⟨[n], ⟨rfl, ?_, by simp, by simp, by simp⟩, by simp⟩
      intro d hd
      simp at hd
      omega
    · rw [dif_neg h]
      have hge : base ≤ n := by omega
      obtain ⟨ds, hd, hz⟩ := ih (n / base) (Nat.div_lt_self (by omega) (by omega))
      have hq : n / base ≠ 0 := by
        have := Nat.div_pos hge (by omega)
        omega
      have hhead : (ds ++ [n % base]).head? ≠ some 0 := by
        rw [List.head?_append, Option.or_of_isSome (by simpa using hd.nonempty)]
        exact hz hq
      refine ⟨ds ++ [n % base], ⟨?_, ?_, by simp, fun _ => hhead, ?_⟩, fun _ => hhead⟩
      · rw [hd.text]; simp
      · intro d hm
        rcases List.mem_append.1 hm with hm | hm
        · exact hd.digits d hm
        · simp at hm
          rw [hm]
          exact Nat.mod_lt _ (by omega)
      · rw [List.foldl_append, hd.value]
        exact Nat.div_add_mod n base

theorem digitText_dec : ∀ d : Fin 10, digitText false d.val = BitVec.ofNat 8 (d.val + 48) := by
  decide +kernel

/-- Base 10 gives the canonical decimal. -/
theorem numeral_dec (n : Nat) : IsDecimal (numeral false 10 n) n := by
  obtain ⟨ds, h, -⟩ := numeral_isNumeral false (base := 10) (by decide) n
  have hdig : ∀ d, d < 10 → digitText false d = BitVec.ofNat 8 (d + 48) :=
    fun d hd => digitText_dec ⟨d, hd⟩
  have hv : ∀ d, d < 10 → (digitText false d).toNat = d + 48 := by
    intro d hd
    rw [hdig d hd]
    simp
    omega
  refine ⟨?_, ?_, ?_, ?_⟩
  · intro c hc
    rw [h.text] at hc
    obtain ⟨d, hd, rfl⟩ := List.mem_map.1 hc
    have := h.digits d hd
    rw [hv d this]
    omega
  · rw [h.text]
    simpa using h.nonempty
  · rw [h.text]
    intro hlen
    have hn := h.noLeadingZero (by simpa using hlen)
    cases hds : ds with
    | nil => simp
    | cons d r =>
      rw [hds] at hn
      have hd := h.digits d (by rw [hds]; simp)
      simp only [List.map_cons, List.head?_cons, ne_eq, Option.some.injEq] at hn ⊢
      intro e
      have := hv d hd
      rw [e] at this
      simp at this
      omega
  · rw [h.text]
    have key : ∀ (l : List Nat) (a : Nat), (∀ d ∈ l, d < 10) →
        (l.map (digitText false)).foldl (fun n d => 10 * n + (d.toNat - 48)) a =
        l.foldl (fun n d => 10 * n + d) a := by
      intro l
      induction l with
      | nil => intro a _; rfl
      | cons d r ih =>
        intro a hm
        simp only [List.map_cons, List.foldl_cons]
        rw [hv d (hm d (by simp)), ih _ fun x hx => hm x (by simp [hx])]
        rw [Nat.add_sub_cancel]
    unfold decVal
    rw [key ds 0 h.digits, h.value]

/-- Text without `%` stands for itself. -/
theorem render_plain (E : LEnv) {t : List Byte} (h : 37#8 ∉ t) (as : List FArg) :
    render E t as = .ok t := by
  induction t with
  | nil => exact render_nil as
  | cons c t ih =>
    have hc : c ≠ 37#8 := fun e => h (by simp [e])
    rw [render_char hc, ih fun e => h (by simp [e])]
    rfl

/-- One conversion between two pieces of text. -/
theorem render_one (E : LEnv) {pre post t : List Byte} (h1 : 37#8 ∉ pre) (h2 : 37#8 ∉ post) {k : Byte}
    (hk : isMod k = false) (as : List FArg) (hd : directive E [] k as.head? = .ok t) :
    render E (pre ++ 37#8 :: k :: post) as = .ok (pre ++ t ++ post) := by
  induction pre with
  | nil =>
    have hdw : (k :: post).dropWhile isMod = k :: post := by simp [hk]
    have htw : (k :: post).takeWhile isMod = [] := by simp [hk]
    rw [List.nil_append, render_dir hdw, htw, hd]
    simp only [Except.bind, render_plain E h2, List.nil_append]
  | cons c pre ih =>
    have hc : c ≠ 37#8 := fun e => h1 (by simp [e])
    rw [List.cons_append, render_char hc, ih fun e => h1 (by simp [e])]
    simp [Except.bind]

theorem justify_none (z : Bool) (sg : List Byte) (t : List Byte) :
    justify [] z sg false t = .ok (sg ++ t) := by
  simp [justify, widthOf]

/-- **C55, `%d` and `%i`**: the canonical decimal of the integer, wherever it stands in the format. -/
theorem C55_decimal_partial (E : LEnv) {pre post : List Byte} (h1 : 37#8 ∉ pre) (h2 : 37#8 ∉ post)
    {w : Word32} (hw : w ≠ 0x80000000#32) {k : Byte} (hk : k = 100#8 ∨ k = 105#8) (as : List FArg) :
    ∃ t, IsIntText t w.toInt ∧ render E (pre ++ 37#8 :: k :: post) (.int w :: as) =
      .ok (pre ++ t ++ post) := by
  refine ⟨(if w.toInt < 0 then [45#8] else []) ++ numeral false 10 w.toInt.natAbs, ?_,
    render_one E h1 h2 (by rcases hk with h | h <;> subst h <;> rfl) _ ?_⟩
  · by_cases hn : w.toInt < 0
    · rw [if_pos hn]
      exact .inr ⟨hn, _, rfl, numeral_dec _⟩
    · rw [if_neg hn]
      exact .inl ⟨by omega, numeral_dec _⟩
  · have k1 : k ≠ 99#8 := by rcases hk with h | h <;> subst h <;> decide
    have k2 : k ≠ 37#8 := by rcases hk with h | h <;> subst h <;> decide
    have k3 : k ≠ 115#8 := by rcases hk with h | h <;> subst h <;> decide
    unfold directive
    rw [if_neg k1, if_neg k2, if_neg k3, if_pos hk]
    simp only [List.head?_cons, numberOf, FArg.number, ex_bind]
    rw [if_neg hw]
    exact justify_none _ _ _

/-- **C55, `%u`**: the canonical decimal of the unsigned value. -/
theorem C55_unsigned (E : LEnv) {pre post : List Byte} (h1 : 37#8 ∉ pre) (h2 : 37#8 ∉ post)
    (w : Word32) (as : List FArg) :
    ∃ t, IsDecimal t w.toNat ∧ render E (pre ++ 37#8 :: 117#8 :: post) (.int w :: as) =
      .ok (pre ++ t ++ post) := by
  refine ⟨numeral false 10 w.toNat, numeral_dec _, render_one E h1 h2 rfl _ ?_⟩
  exact justify_none true [] _

/-- **C55, `%x` and `%X`**: the canonical hexadecimal of the unsigned value. -/
theorem C55_hex (E : LEnv) {pre post : List Byte} (h1 : 37#8 ∉ pre) (h2 : 37#8 ∉ post)
    (w : Word32) (lc : Bool) (as : List FArg) :
    ∃ t ds, IsNumeral lc 16 ds w.toNat t ∧
      render E (pre ++ 37#8 :: (if lc then 120#8 else 88#8) :: post) (.int w :: as) =
        .ok (pre ++ t ++ post) := by
  obtain ⟨ds, h, -⟩ := numeral_isNumeral lc (base := 16) (by decide) w.toNat
  refine ⟨_, ds, h, render_one E h1 h2 (by cases lc <;> rfl) _ ?_⟩
  cases lc <;> exact justify_none _ _ _

/-- **C55, `%b` and `%o`**: the canonical binary or octal of a value below 2^16 or 2^15.  Missing:
larger values, whose upper digits are dropped. -/
theorem C55_binary_octal_partial (E : LEnv) {pre post : List Byte} (h1 : 37#8 ∉ pre)
    (h2 : 37#8 ∉ post) (w : Word32) (bin : Bool) (hw : w.toNat < if bin then 2 ^ 16 else 2 ^ 15)
    (as : List FArg) :
    ∃ t ds, IsNumeral false (if bin then 2 else 8) ds w.toNat t ∧
      render E (pre ++ 37#8 :: (if bin then 98#8 else 111#8) :: post) (.int w :: as) =
        .ok (pre ++ t ++ post) := by
  obtain ⟨ds, h, -⟩ := numeral_isNumeral false (base := if bin then 2 else 8)
    (by cases bin <;> decide) w.toNat
  refine ⟨_, ds, h, render_one E h1 h2 (by cases bin <;> rfl) _ ?_⟩
  cases bin with
  | true =>
    have : directive E [] 98#8 (some (.int w)) = justify [] true [] false (numeral false 2 (w.toNat % 2 ^ 16)) := rfl
    simp only [if_true] at hw ⊢
    rw [List.head?_cons, this, Nat.mod_eq_of_lt hw]
    exact justify_none _ _ _
  | false =>
    have : directive E [] 111#8 (some (.int w)) = justify [] true [] false (numeral false 8 (w.toNat % 8 ^ 5)) := rfl
    simp only [Bool.false_eq_true, if_false] at hw ⊢
    rw [List.head?_cons, this, Nat.mod_eq_of_lt (show w.toNat < 8 ^ 5 from hw)]
    exact justify_none _ _ _

/-- **C55, `%s`, `%c`, `%%`**. -/
theorem C55_text (E : LEnv) {pre post : List Byte} (h1 : 37#8 ∉ pre) (h2 : 37#8 ∉ post)
    (s : List Byte) (c : Byte) (as : List FArg) :
    render E (pre ++ 37#8 :: 115#8 :: post) (.str s :: as) = .ok (pre ++ s ++ post) ∧
    render E (pre ++ 37#8 :: 99#8 :: post) (.int (c.setWidth 32) :: as) = .ok (pre ++ [c] ++ post) ∧
    render E (pre ++ 37#8 :: 37#8 :: post) as = .ok (pre ++ [37#8] ++ post) := by
  refine ⟨render_one E h1 h2 rfl _ ?_, render_one E h1 h2 rfl _ ?_, render_one E h1 h2 rfl _ rfl⟩
  · exact justify_none _ _ _
  · show Except.ok [(c.setWidth 32).setWidth 8] = _
    congr 2
    simp

end Wrench.StrLib
