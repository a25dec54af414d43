import Verif.StrLib.Spec

/-
C23: the string library.
-/
namespace Wrench.StrLib

open Ops

@[simp] theorem res_pure {α : Type} (a : α) : (pure a : Res α) = .ok a := rfl
@[simp] theorem res_bind {α β : Type} (a : α) (g : α → Res β) : (Res.ok a >>= g) = g a := rfl
@[simp] theorem res_bind_ub {α β : Type} (g : α → Res β) : ((Res.ub : Res α) >>= g) = .ub := rfl

theorem isString_same {σ τ : St} {v : Val} {bs : List Byte} (h : SameReal σ τ) (hs : IsString σ v bs) :
    IsString τ v bs := by
  obtain ⟨h1, o, nc, h2, h3⟩ := hs
  exact ⟨h1, o, nc, h2, by rw [h.obj]; exact h3⟩

theorem IntOf.same {E : LEnv} {σ τ : St} {v : Val} {w : Word32} (h : IntOf E σ v w)
    (hs : SameReal σ τ) : IntOf E τ v w := by
  cases h with
  | int => exact .int
  | float h => exact .float h
  | obj h => rw [← hs.getHash]; exact .obj h

theorem Args.same {σ τ : St} {K b : Nat} {vs : List Val} (h : Args σ K b vs) (hs : SameReal σ τ) :
    Args τ K b vs := by
  intro i v hv
  obtain ⟨mb, hr⟩ := h i v hv
  exact ⟨mb, hr.same hs (hs.cell _ rfl)⟩

theorem chars_some {σ : St} {mb : Bool} {K : Nat} {a : Addr} {v : Val} {bs : List Byte}
    (h : Reads σ mb K a v) (hs : IsString σ v bs) (d : Nat) :
    ∃ τ, chars (d + K + 1) σ a = .ok (τ, some bs) ∧ SameReal σ τ := by
  obtain ⟨τ, l, h1, h2, h3, -, -⟩ := deref_reads h d
  obtain ⟨-, o, nc, rfl, ho⟩ := hs
  exact ⟨τ, by simp [chars, h1, h2, h3.obj, ho], h3⟩

theorem chars_none {σ : St} {mb : Bool} {K : Nat} {a : Addr} {v : Val}
    (h : Reads σ mb K a v) (hs : NotString σ v) (d : Nat) :
    ∃ τ, chars (d + K + 1) σ a = .ok (τ, none) ∧ SameReal σ τ := by
  obtain ⟨τ, l, h1, h2, h3, -, -⟩ := deref_reads h d
  refine ⟨τ, ?_, h3⟩
  simp only [chars, h1, res_bind, h2]
  cases v with
  | arr o =>
    have := hs o rfl
    simp only [h3.obj]
    cases ho : σ.obj o with
    | chars bs nc => exact absurd ho (this bs nc)
    | vals => rfl
    | other => rfl
  | _ => rfl

theorem asInt_reads (E : LEnv) {σ : St} {mb : Bool} {K : Nat} {a : Addr} {v : Val} {w : Word32}
    (h : Reads σ mb K a v) (hw : IntOf E σ v w) (d : Nat) :
    ∃ τ, asInt E (d + K + 1) σ a = .ok (τ, w) ∧ SameReal σ τ := by
  by_cases hn : (σ.cell a).isNum = true
  · have hv := reads_num h hn
    cases hw with
    | int => exact ⟨σ, by simp [asInt, ← hv], .refl σ⟩
    | float hx => exact ⟨σ, by simp [asInt, ← hv, floatToInt, hx], .refl σ⟩
    | obj hv' => rw [hv, hn] at hv'; cases hv'
  · obtain ⟨τ, l, h1, h2, h3, -, -⟩ := deref_reads h d
    have hs : ∀ u, (match τ.cell l with
        | .int w => .ok (τ.set .t1 (.int w))
        | .float w => .ok (τ.set .t1 (.float w))
        | v => .ok (τ.set .t1 (.int (getHash E.toEnv τ v))) : Res St) = .ok u →
        asInt E (d + K + 1) σ a = (match u.cell .t1 with
          | .int w => .ok (u, w)
          | .float w => (floatToInt E w >>= fun i => .ok (u, i))
          | _ => .ub) := by
      intro u hu
      have : single E.toEnv (d + K + 1) σ a = .ok u := by
        simp only [single, h1, res_bind, res_pure]
        exact hu
      unfold asInt
      generalize hc : σ.cell a = c at hn
      cases c with
      | int => simp [Val.isNum] at hn
      | float => simp [Val.isNum] at hn
      | _ =>
        simp only [this, res_bind, res_pure]
        cases u.cell .t1 <;> rfl
    have key : ∀ x : Val, SameReal σ (τ.set .t1 x) := fun x => h3.trans (sameReal_set τ x rfl)
    cases hw with
    | int => exact ⟨_, by rw [hs (τ.set .t1 (.int w)) (by rw [h2])]; simp, key (.int w)⟩
    | @float x _ hx =>
      exact ⟨_, by rw [hs (τ.set .t1 (.float x)) (by rw [h2])]; simp [floatToInt, hx], key (.float x)⟩
    | obj hv' =>
      refine ⟨_, ?_, key (.int (getHash E.toEnv τ v))⟩
      rw [hs (τ.set .t1 (.int (getHash E.toEnv τ v))) (by rw [h2]; cases v <;> simp_all [Val.isNum])]
      simp [h3.getHash]

theorem store_next (acc bs : List Byte) (n : Nat) :
    store (acc.map some ++ List.replicate (bs.length + n) none) acc.length bs =
      .ok ((acc ++ bs).map some ++ List.replicate n none) := by
  unfold store
  by_cases h : bs = []
  · subst h; simp
  · rw [if_neg h, if_pos (by simp)]
    congr 1
    rw [List.take_append_of_le_length (by simp), List.take_of_length_le (by simp),
      List.drop_append]
    simp

theorem filled_some (l : List Byte) : filled (l.map some) = .ok l := by
  induction l with
  | nil => rfl
  | cons b l ih => simp [filled, ih]

theorem newStr_of {σ τ : St} (h : SameReal σ τ) (t : Addr) (bs : List Byte) :
    NewStr σ (({ τ.setObj τ.next (.chars bs false) with next := τ.next + 1 } : St).set t
      (.arr τ.next)) t bs := by
  refine ⟨?_, ?_, ?_, ?_, ?_, ?_⟩
  · rw [St.set_same, h.next]
  · simp [St.setObj, h.next]
  · intro a ha hne
    rw [St.set_ne _ _ hne]
    exact h.cell a ha
  · intro o ho
    simp [St.setObj, h.next, ho, h.obj]
  · simp [h.next]
  · exact h.raw

/-- Filling a new string from parts that follow each other. -/
theorem newStr_parts {σ τ : St} (h : SameReal σ τ) (t : Addr) (x y z : List Byte)
    (hl : x.length + y.length + z.length < 2 ^ 32) :
    ∃ υ, newStr τ t (x.length + y.length + z.length)
        [(0, x), (x.length, y), (x.length + y.length, z)] = .ok υ ∧ NewStr σ υ t (x ++ y ++ z) := by
  have h1 := store_next [] x (y.length + (z.length + 0))
  have h2 := store_next x y (z.length + 0)
  have h3 := store_next (x ++ y) z 0
  simp only [List.length_nil, List.length_append, List.map_nil, List.nil_append] at h1 h3
  refine ⟨_, ?_, newStr_of h t (x ++ y ++ z)⟩
  unfold newStr
  rw [Nat.mod_eq_of_lt hl, show x.length + y.length + z.length = x.length + (y.length + (z.length + 0))
    by omega]
  simp only [List.foldlM_cons, List.foldlM_nil, h1, res_bind, h2, h3, res_pure]
  simp only [List.replicate_zero, List.append_nil, filled_some, res_bind]

theorem newStr_two {σ τ : St} (h : SameReal σ τ) (t : Addr) (x y : List Byte)
    (hl : x.length + y.length < 2 ^ 32) :
    ∃ υ, newStr τ t (x.length + y.length) [(0, x), (x.length, y)] = .ok υ ∧
      NewStr σ υ t (x ++ y) := by
  have h1 := store_next [] x (y.length + 0)
  have h2 := store_next x y 0
  simp only [List.length_nil, List.map_nil, List.nil_append] at h1
  refine ⟨_, ?_, newStr_of h t (x ++ y)⟩
  unfold newStr
  rw [Nat.mod_eq_of_lt hl, show x.length + y.length = x.length + (y.length + 0) by omega]
  simp only [List.foldlM_cons, List.foldlM_nil, h1, res_bind, h2, res_pure]
  simp only [List.replicate_zero, List.append_nil, filled_some, res_bind]

theorem newStr_one {σ τ : St} (h : SameReal σ τ) (t : Addr) (x : List Byte) {n : Nat}
    (hn : n = x.length) (hl : x.length < 2 ^ 32) :
    ∃ υ, newStr τ t n [(0, x)] = .ok υ ∧ NewStr σ υ t x := by
  subst hn
  have h1 := store_next [] x 0
  simp only [List.length_nil, List.map_nil, List.nil_append] at h1
  refine ⟨_, ?_, newStr_of h t x⟩
  unfold newStr
  rw [Nat.mod_eq_of_lt hl, ← Nat.add_zero x.length]
  simp only [List.foldlM_cons, List.foldlM_nil, h1, res_bind, res_pure]
  simp only [List.replicate_zero, List.append_nil, filled_some, res_bind]

theorem onlySet_top {σ τ : St} (h : SameReal σ τ) (b n : Nat) (x : Val) :
    OnlySet σ (τ.set (top b n) x) (.cell (b + n)) x :=
  ⟨by simp [top], fun a ha hne => by rw [top, St.set_ne _ _ hne]; exact h.cell a ha, h.obj, h.raw⟩

theorem load_ok {src : List Byte} {off n : Nat} (h : off + n ≤ src.length) :
    load src off n = .ok ((src.drop off).take n) := by
  unfold load
  by_cases hn : n = 0
  · simp [hn]
  · rw [if_neg hn, if_pos h]

/-! ### left, right, mid, concat, insert -/

variable (E : LEnv) {σ : St} {K b : Nat} {v u : Val} {vs : List Val} {s t : List Byte} {w n : Word32}

private theorem arg0 (ha : Args σ K b (v :: vs)) : ∃ mb, Reads σ mb K (.cell b) v := ha 0 v rfl

/-- Two arguments, a string and an integer. -/
private theorem str_int (ha : Args σ K b (v :: u :: vs)) (hs : IsString σ v s) (hn : IntOf E σ u n)
    (d : Nat) : ∃ τ υ, chars (d + K + 1) σ (.cell b) = .ok (τ, some s) ∧
      asInt E (d + K + 1) τ (.cell (b + 1)) = .ok (υ, n) ∧ SameReal σ υ := by
  obtain ⟨mb, hr⟩ := arg0 ha
  obtain ⟨τ, h1, h2⟩ := chars_some hr hs d
  obtain ⟨mb, hr⟩ := (ha.same h2) 1 u rfl
  obtain ⟨υ, h3, h4⟩ := asInt_reads E hr (hn.same h2) d
  exact ⟨τ, υ, h1, h3, h2.trans h4⟩

/-- C23: `str::left( s, n )` is the first `n` bytes, all of them when there are fewer; a negative
`n` counts as a huge one. -/
theorem C23_left (ha : Args σ K b (v :: u :: vs)) (hs : IsString σ v s) (hn : IntOf E σ u n) (d : Nat) :
    ∃ τ, left E (d + K + 1) σ b (v :: u :: vs).length = .ok τ ∧
      NewStr σ τ (.cell (b + (v :: u :: vs).length)) (s.take n.toNat) := by
  obtain ⟨τ, υ, h1, h3, h4⟩ := str_int E ha hs hn d
  have hlen := hs.1
  obtain ⟨ω, h5, h6⟩ := newStr_one h4 (top b (v :: u :: vs).length) (s.take n.toNat) rfl
    (by rw [List.length_take]; omega)
  refine ⟨ω, ?_, h6⟩
  unfold left
  rw [if_neg (by simp)]
  simp only [h1, res_bind, h3]
  rw [← h5]
  by_cases hgt : n.toNat > s.length
  · rw [if_pos hgt, load_ok (by omega)]
    simp [List.take_of_length_le, Nat.le_of_lt hgt]
  · rw [if_neg hgt, load_ok (by omega)]
    simp
    rw [Nat.min_eq_left (by omega)]

/-- C23: `str::right( s, n )` is the last `n` bytes, all of them when there are fewer; a negative
`n` counts as a huge one. -/
theorem C23_right (ha : Args σ K b (v :: u :: vs)) (hs : IsString σ v s) (hn : IntOf E σ u n) (d : Nat) :
    ∃ τ, right E (d + K + 1) σ b (v :: u :: vs).length = .ok τ ∧
      NewStr σ τ (.cell (b + (v :: u :: vs).length)) (s.drop (s.length - n.toNat)) := by
  obtain ⟨τ, υ, h1, h3, h4⟩ := str_int E ha hs hn d
  have hlen := hs.1
  obtain ⟨ω, h5, h6⟩ := newStr_one h4 (top b (v :: u :: vs).length) (s.drop (s.length - n.toNat)) rfl
    (by rw [List.length_drop]; omega)
  refine ⟨ω, ?_, h6⟩
  unfold right
  rw [if_neg (by simp)]
  simp only [h1, res_bind, h3]
  rw [← h5]
  by_cases hgt : n.toNat > s.length
  · rw [if_pos hgt, load_ok (by omega)]
    simp [show s.length - n.toNat = 0 by omega]
  · rw [if_neg hgt, load_ok (by omega)]
    simp only [res_bind]
    rw [List.take_of_length_le (by rw [List.length_drop]; omega), List.length_drop,
      show s.length - (s.length - n.toNat) = n.toNat by omega]

/-- C23: `str::mid( s, start )` of a string that is not empty is everything from `start` on; nothing
when `start` is past the end. -/
theorem C23_mid_rest_partial (ha : Args σ K b [v, u]) (hs : IsString σ v s) (hne : s ≠ [])
    (hn : IntOf E σ u n) (d : Nat) :
    ∃ τ, mid E (d + K + 1) σ b 2 = .ok τ ∧ NewStr σ τ (.cell (b + 2)) (s.drop n.toNat) := by
  obtain ⟨τ, υ, h1, h3, h4⟩ := str_int E ha hs hn d
  have hlen := hs.1
  obtain ⟨ω, h5, h6⟩ := newStr_one h4 (top b 2) (s.drop n.toNat) rfl
    (by rw [List.length_drop]; omega)
  refine ⟨ω, ?_, h6⟩
  unfold mid
  rw [if_neg (by simp)]
  simp only [h1, res_bind]
  rw [if_neg (by simpa using hne)]
  simp only [h3, res_bind]
  rw [← h5]
  by_cases hlt : n.toNat < s.length
  · rw [if_pos hlt]
    simp only [gt_iff_lt, Nat.lt_irrefl, if_false, res_pure, res_bind, hlt, true_and]
    by_cases hz : s.length - n.toNat < s.length
    · rw [if_pos hz, load_ok (by omega)]
      simp only [res_bind]
      rw [List.take_of_length_le (by simp), List.length_drop]
    · rw [if_neg hz, load_ok (by omega)]
      simp only [res_bind]
      have : n.toNat = 0 := by omega
      simp [this]
  · simp only [res_pure, res_bind, hlt, false_and, if_false]
    rw [load, if_pos rfl, List.drop_eq_nil_of_le (by omega)]
    simp

/-- C23: `str::mid( s, start, n )` (also `str::substr`) of a string that is not empty is the `n`
bytes from `start` on, fewer when the string ends before; a negative `start` is past the end, a
negative `n` is huge. -/
theorem C23_mid_partial {x : Val} (ha : Args σ K b (v :: u :: x :: vs)) (hs : IsString σ v s)
    (hne : s ≠ []) (hn : IntOf E σ u n) (hw : IntOf E σ x w) (d : Nat) :
    ∃ τ, mid E (d + K + 1) σ b (v :: u :: x :: vs).length = .ok τ ∧
      NewStr σ τ (.cell (b + (v :: u :: x :: vs).length)) ((s.drop n.toNat).take w.toNat) := by
  obtain ⟨τ, υ, h1, h3, h4⟩ := str_int E ha hs hn d
  have hlen := hs.1
  obtain ⟨mb, hr⟩ := (ha.same h4) 2 x rfl
  obtain ⟨φ, h5, h6⟩ := asInt_reads E hr (hw.same h4) d
  have hb : ((s.drop n.toNat).take w.toNat).length < 2 ^ 32 := by
    rw [List.length_take, List.length_drop]; omega
  unfold mid
  rw [if_neg (by simp)]
  simp only [h1, res_bind]
  rw [if_neg (by simpa using hne)]
  simp only [h3, res_bind]
  by_cases hlt : n.toNat < s.length
  · obtain ⟨ω, h7, h8⟩ := newStr_one (h4.trans h6) (top b (v :: u :: x :: vs).length)
      ((s.drop n.toNat).take w.toNat) rfl hb
    refine ⟨ω, ?_, h8⟩
    rw [if_pos hlt, if_pos (by simp)]
    simp only [h5, res_pure, res_bind, hlt, true_and]
    rw [← h7]
    by_cases hz : w.toNat > s.length - n.toNat
    · rw [if_pos hz, load_ok (by omega)]
      simp only [res_bind]
      rw [List.take_of_length_le (by simp), List.take_of_length_le (by rw [List.length_drop]; omega),
        List.length_drop]
    · rw [if_neg hz, load_ok (by omega)]
      simp only [res_bind]
      rw [List.length_take, List.length_drop, Nat.min_eq_left (by omega)]
  · obtain ⟨ω, h7, h8⟩ := newStr_one h4 (top b (v :: u :: x :: vs).length)
      ((s.drop n.toNat).take w.toNat) rfl hb
    refine ⟨ω, ?_, h8⟩
    rw [if_neg hlt]
    simp only [res_pure, res_bind, hlt, false_and, if_false]
    rw [← h7, load, if_pos rfl, List.drop_eq_nil_of_le (by omega)]
    simp

/-- Two strings. -/
private theorem str_str (ha : Args σ K b (v :: u :: vs)) (hs : IsString σ v s) (ht : IsString σ u t)
    (d : Nat) : ∃ τ υ, chars (d + K + 1) σ (.cell b) = .ok (τ, some s) ∧
      chars (d + K + 1) τ (.cell (b + 1)) = .ok (υ, some t) ∧ SameReal σ υ := by
  obtain ⟨mb, hr⟩ := arg0 ha
  obtain ⟨τ, h1, h2⟩ := chars_some hr hs d
  obtain ⟨mb, hr⟩ := (ha.same h2) 1 u rfl
  obtain ⟨υ, h3, h4⟩ := chars_some hr (isString_same h2 ht) d
  exact ⟨τ, υ, h1, h3, h2.trans h4⟩

/-- C23: `str::concat( s, t )`. -/
theorem C23_concat (ha : Args σ K b (v :: u :: vs)) (hs : IsString σ v s) (ht : IsString σ u t)
    (hl : s.length + t.length < 2 ^ 32) (d : Nat) :
    ∃ τ, concat (d + K + 1) σ b (v :: u :: vs).length = .ok τ ∧
      NewStr σ τ (.cell (b + (v :: u :: vs).length)) (s ++ t) := by
  obtain ⟨τ, υ, h1, h3, h4⟩ := str_str ha hs ht d
  obtain ⟨ω, h5, h6⟩ := newStr_two h4 (top b (v :: u :: vs).length) s t hl
  refine ⟨ω, ?_, h6⟩
  unfold concat
  rw [if_neg (by simp)]
  simp only [h1, res_bind, h3, h5]

/-- C23: `str::insert( s, t, pos )` puts `t` before position `pos` of `s`, at the end when `pos` is
past it or negative. -/
theorem C23_insert {x : Val} (ha : Args σ K b (v :: u :: x :: vs)) (hs : IsString σ v s)
    (ht : IsString σ u t) (hn : IntOf E σ x n) (hl : s.length + t.length < 2 ^ 32) (d : Nat) :
    ∃ τ, insert E (d + K + 1) σ b (v :: u :: x :: vs).length = .ok τ ∧
      NewStr σ τ (.cell (b + (v :: u :: x :: vs).length))
        (s.take n.toNat ++ t ++ s.drop n.toNat) := by
  obtain ⟨τ, υ, h1, h3, h4⟩ := str_str ha hs ht d
  obtain ⟨mb, hr⟩ := (ha.same h4) 2 x rfl
  obtain ⟨φ, h5, h6⟩ := asInt_reads E hr (hn.same h4) d
  have e : (s.take n.toNat).length + t.length + (s.drop n.toNat).length = s.length + t.length := by
    rw [List.length_take, List.length_drop]; omega
  obtain ⟨ω, h7, h8⟩ := newStr_parts (h4.trans h6) (top b (v :: u :: x :: vs).length)
    (s.take n.toNat) t (s.drop n.toNat) (by omega)
  refine ⟨ω, ?_, h8⟩
  unfold insert
  rw [if_neg (by simp)]
  simp only [h1, res_bind, h3, h5]
  rw [← h7, e]
  by_cases hge : n.toNat ≥ s.length
  · rw [if_pos hge, load_ok (by omega), load_ok (by omega)]
    simp [List.take_of_length_le hge, List.drop_eq_nil_of_le hge]
  · rw [if_neg hge, load_ok (by omega), load_ok (by omega)]
    simp only [res_bind, List.drop_zero, List.length_take]
    rw [Nat.min_eq_left (by omega), List.take_of_length_le (l := s.drop n.toNat) (by simp)]

/-! ### trim, trimleft, trimright -/

theorem isClass_space {c : Byte} (h : CtypeOk c) : isClass spaceCode c = .ok (isSpace c) := by
  have : ∀ n : Fin 256, n.val < 128 ∨ n.val = 255 →
      isClass spaceCode (BitVec.ofNat 8 n.val) = .ok (isSpace (BitVec.ofNat 8 n.val)) := by
    decide +kernel
  have h2 := this ⟨c.toNat, c.isLt⟩ (by
    rcases h with h | h
    · exact .inl h
    · right; rw [h]; rfl)
  simpa using h2

theorem skipOver_ok {s : List Byte} (h : ∀ c ∈ s, CtypeOk c) :
    ∃ m, skipOver s = .ok m ∧ s.drop m = trimLeft s ∧ m ≤ s.length := by
  induction s with
  | nil => exact ⟨0, rfl, rfl, Nat.le_refl _⟩
  | cons c s ih =>
    obtain ⟨m, h1, h2, h3⟩ := ih fun x hx => h x (by simp [hx])
    unfold skipOver
    rw [isClass_space (h c (by simp))]
    simp only [res_bind]
    cases hc : isSpace c with
    | true => exact ⟨m + 1, by simp [h1], by simpa [trimLeft, hc] using h2, by simpa using h3⟩
    | false => exact ⟨0, by simp, by simp [trimLeft, hc], Nat.zero_le _⟩

theorem backOver_ok {s : List Byte} (h : ∀ c ∈ s, CtypeOk c) (lo : Nat) : ∀ n, lo ≤ n → n ≤ s.length →
    ∃ m, backOver s lo n = .ok m ∧ lo ≤ m ∧ m ≤ n ∧
      (s.take m).drop lo = trimRight ((s.take n).drop lo) := by
  intro n
  induction n with
  | zero =>
    intro h0 _
    obtain rfl : lo = 0 := by omega
    exact ⟨0, rfl, Nat.le_refl _, Nat.le_refl _, by simp [trimRight]⟩
  | succ n ih =>
    intro hlo hn
    by_cases hl : lo ≤ n
    · have hg : s[n]? = some s[n] := List.getElem?_eq_getElem (by omega)
      have ht : s.take (n + 1) = s.take n ++ [s[n]] := by rw [List.take_succ, hg]; rfl
      have hd : (s.take (n + 1)).drop lo = (s.take n).drop lo ++ [s[n]] := by
        rw [ht, List.drop_append_of_le_length (by rw [List.length_take]; omega)]
      unfold backOver
      rw [if_pos hl]
      simp only [hg]
      rw [isClass_space (h _ (List.getElem_mem _))]
      simp only [res_bind]
      cases hc : isSpace s[n] with
      | true =>
        obtain ⟨m, h1, h2, h3, h4⟩ := ih hl (by omega)
        refine ⟨m, by simpa using h1, h2, by omega, ?_⟩
        rw [h4, hd]
        simp [trimRight, hc]
      | false =>
        refine ⟨n + 1, by simp, by omega, Nat.le_refl _, ?_⟩
        rw [hd]
        simp [trimRight, hc]
    · obtain rfl : lo = n + 1 := by omega
      refine ⟨n + 1, by unfold backOver; rw [if_neg hl], Nat.le_refl _, Nat.le_refl _, ?_⟩
      rw [List.drop_eq_nil_of_le (by rw [List.length_take]; omega)]
      simp [trimRight]

/-- C23: `str::trimleft( s )`.  Missing: strings with a byte from 0x80 to 0xFE
(`C23_trim_high_byte`). -/
theorem C23_trimleft_partial (ha : Args σ K b (v :: vs)) (hs : IsString σ v s)
    (hc : ∀ c ∈ s, CtypeOk c) (d : Nat) :
    ∃ τ, trimleft (d + K + 1) σ b (v :: vs).length = .ok τ ∧
      NewStr σ τ (.cell (b + (v :: vs).length)) (trimLeft s) := by
  obtain ⟨mb, hr⟩ := arg0 ha
  obtain ⟨τ, h1, h2⟩ := chars_some hr hs d
  obtain ⟨m, h3, h4, h5⟩ := skipOver_ok hc
  have hlen := hs.1
  obtain ⟨ω, h6, h7⟩ := newStr_one h2 (top b (v :: vs).length) (trimLeft s)
    (n := s.length - m) (by rw [← h4, List.length_drop]) (by rw [← h4, List.length_drop]; omega)
  refine ⟨ω, ?_, h7⟩
  unfold trimleft
  rw [if_neg (by simp)]
  simp only [h1, res_bind, h3]
  rw [load_ok (by omega), List.take_of_length_le (by simp), h4]
  exact h6

/-- C23: `str::trimright( s )`.  Missing: strings with a byte from 0x80 to 0xFE
(`C23_trim_high_byte`), strings of 2^31 bytes or more. -/
theorem C23_trimright_partial (ha : Args σ K b (v :: vs)) (hs : IsString σ v s)
    (hc : ∀ c ∈ s, CtypeOk c) (hl : s.length < 2 ^ 31) (d : Nat) :
    ∃ τ, trimright (d + K + 1) σ b (v :: vs).length = .ok τ ∧
      NewStr σ τ (.cell (b + (v :: vs).length)) (trimRight s) := by
  obtain ⟨mb, hr⟩ := arg0 ha
  obtain ⟨τ, h1, h2⟩ := chars_some hr hs d
  obtain ⟨m, h3, -, h4, h5⟩ := backOver_ok hc 0 s.length (Nat.zero_le _) (Nat.le_refl _)
  simp only [List.drop_zero, List.take_length] at h5
  obtain ⟨ω, h6, h7⟩ := newStr_one h2 (top b (v :: vs).length) (trimRight s)
    (n := m) (by rw [← h5, List.length_take]; omega) (by rw [← h5, List.length_take]; omega)
  refine ⟨ω, ?_, h7⟩
  unfold trimright
  rw [if_neg (by simp)]
  simp only [h1, res_bind, hl, if_true, h3]
  rw [load_ok (by omega), List.drop_zero, h5]
  exact h6

/-- C23: `str::trim( s )`.  Missing: strings with a byte from 0x80 to 0xFE
(`C23_trim_high_byte`), strings of 2^31 bytes or more. -/
theorem C23_trim_partial (ha : Args σ K b (v :: vs)) (hs : IsString σ v s)
    (hc : ∀ c ∈ s, CtypeOk c) (hl : s.length < 2 ^ 31) (d : Nat) :
    ∃ τ, trim (d + K + 1) σ b (v :: vs).length = .ok τ ∧
      NewStr σ τ (.cell (b + (v :: vs).length)) (trimRight (trimLeft s)) := by
  obtain ⟨mb, hr⟩ := arg0 ha
  obtain ⟨τ, h1, h2⟩ := chars_some hr hs d
  obtain ⟨m, h3, h4, h5⟩ := skipOver_ok hc
  obtain ⟨n, h6, h7, h8, h9⟩ := backOver_ok hc m s.length h5 (Nat.le_refl _)
  rw [List.take_length, h4] at h9
  have e : (s.drop m).take (n - m) = trimRight (trimLeft s) := by
    rw [← h9, List.drop_take]
  obtain ⟨ω, h10, h11⟩ := newStr_one h2 (top b (v :: vs).length) (trimRight (trimLeft s))
    (n := n - m) (by rw [← e, List.length_take, List.length_drop]; omega)
    (by rw [← e, List.length_take, List.length_drop]; omega)
  refine ⟨ω, ?_, h11⟩
  unfold trim
  rw [if_neg (by simp)]
  simp only [h1, res_bind, hl, if_true, h3, h6]
  rw [load_ok (by omega), e]
  exact h10

/-! ### Letters, searching, length -/

theorem lowerByte_ok {c : Byte} (h : CtypeOk c) : lowerByte c = .ok (lower c) := by
  have : ∀ n : Fin 256, n.val < 128 ∨ n.val = 255 →
      lowerByte (BitVec.ofNat 8 n.val) = .ok (lower (BitVec.ofNat 8 n.val)) := by decide +kernel
  simpa using this ⟨c.toNat, c.isLt⟩ (by
    rcases h with h | h
    · exact .inl h
    · right; rw [h]; rfl)

theorem upperByte_ok {c : Byte} (h : CtypeOk c) : upperByte c = .ok (upper c) := by
  have : ∀ n : Fin 256, n.val < 128 ∨ n.val = 255 →
      upperByte (BitVec.ofNat 8 n.val) = .ok (upper (BitVec.ofNat 8 n.val)) := by decide +kernel
  simpa using this ⟨c.toNat, c.isLt⟩ (by
    rcases h with h | h
    · exact .inl h
    · right; rw [h]; rfl)

theorem mapRes_ok {g : Byte → Res Byte} {g' : Byte → Byte} {s : List Byte}
    (h : ∀ c ∈ s, g c = .ok (g' c)) : mapRes g s = .ok (s.map g') := by
  induction s with
  | nil => rfl
  | cons c s ih =>
    simp [mapRes, h c (by simp), ih fun x hx => h x (by simp [hx])]

private theorem caseFn_str {g : Byte → Res Byte} {gi : Word32 → Res Word32} {g' : Byte → Byte}
    (ha : Args σ K b [v]) (hs : IsString σ v s) (hc : ∀ c ∈ s, g c = .ok (g' c)) (d : Nat) :
    ∃ τ, caseFn g gi E (d + K + 1) σ b 1 = .ok τ ∧ NewStr σ τ (.cell (b + 1)) (s.map g') := by
  obtain ⟨mb, hr⟩ := arg0 ha
  obtain ⟨τ, l, h1, h2, h3, -, -⟩ := deref_reads hr d
  obtain ⟨hlen, o, nc, rfl, ho⟩ := hs
  obtain ⟨ω, h6, h7⟩ := newStr_one h3 (top b 1) (s.map g') (n := s.length) (by simp)
    (by simpa using hlen)
  refine ⟨ω, ?_, h7⟩
  simp only [caseFn, if_true, h1, res_bind, h2, h3.obj, ho, mapRes_ok hc]
  exact h6

/-- C23: `str::tolower( s )`.  Missing: strings with a byte from 0x80 to 0xFE. -/
theorem C23_tolower_partial (ha : Args σ K b [v]) (hs : IsString σ v s)
    (hc : ∀ c ∈ s, CtypeOk c) (d : Nat) :
    ∃ τ, tolower E (d + K + 1) σ b 1 = .ok τ ∧ NewStr σ τ (.cell (b + 1)) (s.map lower) :=
  caseFn_str E ha hs (fun c h => lowerByte_ok (hc c h)) d

/-- C23: `str::toupper( s )`.  Missing: strings with a byte from 0x80 to 0xFE. -/
theorem C23_toupper_partial (ha : Args σ K b [v]) (hs : IsString σ v s)
    (hc : ∀ c ∈ s, CtypeOk c) (d : Nat) :
    ∃ τ, toupper E (d + K + 1) σ b 1 = .ok τ ∧ NewStr σ τ (.cell (b + 1)) (s.map upper) :=
  caseFn_str E ha hs (fun c h => upperByte_ok (hc c h)) d

private theorem caseFn_int {g : Byte → Res Byte} {gi : Word32 → Res Word32} {r : Word32}
    (ha : Args σ K b [.int n]) (hc : gi n = .ok r) (d : Nat) :
    ∃ τ, caseFn g gi E (d + K + 1) σ b 1 = .ok τ ∧ OnlySet σ τ (.cell (b + 1)) (.int r) := by
  obtain ⟨mb, hr⟩ := arg0 ha
  obtain ⟨τ, l, h1, h2, h3, h4, -⟩ := deref_reads hr d
  obtain ⟨υ, h5, h6⟩ := asInt_reads E (hr.same h3 (h3.cell _ rfl)) (.int : IntOf E τ (.int n) n) d
  refine ⟨υ.set (top b 1) (.int r), ?_, ?_⟩
  · simp only [caseFn, if_true, h1, res_bind, h2, h5, hc, res_pure]
  · exact onlySet_top (h3.trans h6) _ _ _

/-- C23: `str::tolower` and `str::toupper` of an integer that is a character code up to 127 give the
code of the other letter. -/
theorem C23_case_of_code_partial (ha : Args σ K b [.int n]) (hn : n.toNat < 128) (d : Nat) :
    (∃ τ, tolower E (d + K + 1) σ b 1 = .ok τ ∧
      OnlySet σ τ (.cell (b + 1)) (.int ((lower (n.setWidth 8)).setWidth 32))) ∧
    (∃ τ, toupper E (d + K + 1) σ b 1 = .ok τ ∧
      OnlySet σ τ (.cell (b + 1)) (.int ((upper (n.setWidth 8)).setWidth 32))) := by
  have h : ∀ m : Fin 128, caseInt upperCode 32#32 (BitVec.ofNat 32 m.val) =
        .ok ((lower ((BitVec.ofNat 32 m.val).setWidth 8)).setWidth 32) ∧
      caseInt lowerCode (-32#32) (BitVec.ofNat 32 m.val) =
        .ok ((upper ((BitVec.ofNat 32 m.val).setWidth 8)).setWidth 32) := by decide +kernel
  have := h ⟨n.toNat, hn⟩
  simp only [BitVec.ofNat_toNat, BitVec.setWidth_eq] at this
  exact ⟨caseFn_int E ha this.1 d, caseFn_int E ha this.2 d⟩

theorem findFrom_eq (c : Byte) (s : List Byte) : ∀ i,
    findFrom c i s = (s.idxOf? c).map (i + ·) := by
  induction s with
  | nil => intro i; rfl
  | cons x s ih =>
    intro i
    unfold findFrom
    rw [List.idxOf?_cons]
    by_cases h : x = c
    · simp [h]
    · rw [if_neg h, ih]
      simp [h]
      cases s.idxOf? c <;> simp
      omega

/-- C23: `str::chr( s, c )` is the position of the first byte equal to the low byte of `c`, -1 when
there is none. -/
theorem C23_chr (ha : Args σ K b (v :: u :: vs)) (hs : IsString σ v s) (hn : IntOf E σ u n) (d : Nat) :
    ∃ τ r, strchr E (d + K + 1) σ b (v :: u :: vs).length = .ok τ ∧
      OnlySet σ τ (.cell (b + (v :: u :: vs).length)) (.int r) ∧
      r = (match s.idxOf? (n.setWidth 8) with
        | some i => BitVec.ofNat 32 i
        | none => BitVec.ofInt 32 (-1)) := by
  obtain ⟨τ, υ, h1, h3, h4⟩ := str_int E ha hs hn d
  refine ⟨_, _, ?_, onlySet_top h4 _ _ _, rfl⟩
  unfold strchr
  rw [if_neg (by simp)]
  simp only [h1, res_bind, h3, findFrom_eq, res_pure]
  cases s.idxOf? (n.setWidth 8) <;> simp

theorem strlenEx_reads {s : List Byte} : ∀ {k : Nat} {a : Addr} {v : Val}, Reads σ false k a v →
    IsString σ v s → ∀ d, strlenEx (d + k + 1) σ a = .ok (BitVec.ofNat 32 s.length) := by
  intro k a v h
  generalize hm : false = mb at h
  induction h with
  | here hp =>
    rintro ⟨-, o, nc, hv, ho⟩ d
    simp [strlenEx, hv, ho]
  | ref h1 h2 _ ih =>
    intro hs d
    rw [strlenEx, h1]
    exact ih hs d
  | velem h0 => rw [← hm] at h0; cases h0
  | celem h0 => rw [← hm] at h0; cases h0
  | relem h0 => rw [← hm] at h0; cases h0
  | helem h0 => rw [← hm] at h0; cases h0

/-- C23: `str::strlen( s )`, for a string that is not an element of a container (the compiler
fetches the elements it passes, cc.cpp 1458-1473). -/
theorem C23_strlen_partial (h : Reads σ false K (.cell b) v) (hs : IsString σ v s) (d : Nat) :
    ∃ τ, strlen (d + K + 1) σ b 1 = .ok τ ∧
      OnlySet σ τ (.cell (b + 1)) (.int (BitVec.ofNat 32 s.length)) := by
  refine ⟨σ.set (top b 1) (.int (BitVec.ofNat 32 s.length)), ?_, ?_⟩
  · simp [strlen, strlenEx_reads h hs d]
  · exact onlySet_top (.refl σ) _ _ _

/-- C23: a string function given something that is not a string leaves its result as it was (zero,
in a call whose result is used). -/
theorem C23_not_a_string (ha : Args σ K b (v :: u :: vs)) (hs : NotString σ v) (d : Nat) :
    (∃ τ, left E (d + K + 1) σ b (v :: u :: vs).length = .ok τ ∧ SameReal σ τ) ∧
    (∃ τ, right E (d + K + 1) σ b (v :: u :: vs).length = .ok τ ∧ SameReal σ τ) ∧
    (∃ τ, mid E (d + K + 1) σ b (v :: u :: vs).length = .ok τ ∧ SameReal σ τ) ∧
    (∃ τ, trimleft (d + K + 1) σ b (v :: u :: vs).length = .ok τ ∧ SameReal σ τ) ∧
    (∃ τ, trimright (d + K + 1) σ b (v :: u :: vs).length = .ok τ ∧ SameReal σ τ) ∧
    (∃ τ, trim (d + K + 1) σ b (v :: u :: vs).length = .ok τ ∧ SameReal σ τ) := by
  obtain ⟨mb, hr⟩ := arg0 ha
  obtain ⟨τ, h1, h2⟩ := chars_none hr hs d
  refine ⟨⟨τ, ?_, h2⟩, ⟨τ, ?_, h2⟩, ⟨τ, ?_, h2⟩, ⟨τ, ?_, h2⟩, ⟨τ, ?_, h2⟩, ⟨τ, ?_, h2⟩⟩
  · simp only [left, h1, res_bind, res_pure]
    rw [if_neg (by simp)]
  · simp only [right, h1, res_bind, res_pure]
    rw [if_neg (by simp)]
  · simp only [mid, h1, res_bind, res_pure]
    rw [if_neg (by simp)]
  · simp [trimleft, h1]
  · simp [trimright, h1]
  · simp [trim, h1]

end Wrench.StrLib
