import Verif.Link.Layout
import Mathlib.Tactic.ByContra

namespace Wrench.Link

open Wrench.Util

/-! ### The header -/

theorem record_length (u : CUnit) : (record u).length = 11 := by
  simp [record, pack32_length]

theorem records_length : ∀ us : List CUnit, (us.flatMap record).length = 11 * us.length
  | [] => rfl
  | u :: us => by
    simp only [List.flatMap_cons, List.length_append, record_length, records_length us, List.length_cons]
    omega

theorem records_at : ∀ (us : List CUnit) (l : List Byte) (p : Nat), At l p (us.flatMap record) →
    ∀ j u, us[j]? = some u → At l (p + 11 * j) (record u)
  | [], _, _, _, j, u, h => by simp at h
  | v :: us, l, p, h, j, u, hj => by
    rw [List.flatMap_cons] at h
    cases j with
    | zero =>
      simp only [List.getElem?_cons_zero, Option.some.injEq] at hj
      subst hj
      exact h.left
    | succ j =>
      rw [List.getElem?_cons_succ] at hj
      have := records_at us l _ h.right j u hj
      rw [record_length] at this
      rwa [show p + 11 * (j + 1) = p + 11 + 11 * j by omega]

/-- What follows the function table. -/
private def globalsBlock (P : Program) : List Byte :=
  if includeGlobals P.flags then P.main.locals.flatMap pack32 else []
private def debugBlock (P : Program) : List Byte :=
  if embedDebug P.flags || embedSource P.flags then
    pack32 (wrHash P.source) ++ pack16 (BitVec.ofNat 16 P.symbols.length) ++ P.symbols else []
private def sourceBlock (P : Program) : List Byte :=
  if embedSource P.flags then pack32 (BitVec.ofNat 32 P.source.length) ++ P.source else []

private structure HeaderOk (P : Program) (h : List Byte) : Prop where
  globals : P.main.locals.length ≤ 255
  fns : P.fns.length ≤ 255
  symbols : (embedDebug P.flags || embedSource P.flags) = true → P.symbols.length ≤ 0xFFFF
  eq : h = [byte P.main.locals.length, byte P.fns.length, P.flags] ++ (P.fns.flatMap record ++
    (globalsBlock P ++ (debugBlock P ++ sourceBlock P)))

private theorem header_ok {P : Program} {h : List Byte} (e : header P = .ok h) : HeaderOk P h := by
  unfold header at e
  split at e
  · cases e
  rename_i h1
  split at e
  · cases e
  rename_i h2
  split at e
  · cases e
  split at e
  · cases e
  rename_i h4
  injection e with e
  refine ⟨by omega, by omega, ?_, ?_⟩
  · intro hf
    rw [hf] at h4
    simp at h4
    exact h4
  · rw [← e]
    simp only [globalsBlock, debugBlock, sourceBlock, List.append_assoc]

/-! ### Reading the function table -/

theorem readRecs_of (img : List Byte) : ∀ (rs : List FnRec) (pos : Nat),
    (∀ j r, rs[j]? = some r → readRec img (pos + 11 * j) = some r) → readRecs img rs.length pos = some rs
  | [], _, _ => rfl
  | r :: rs, pos, h => by
    have h0 := h 0 r rfl
    have ih := readRecs_of img rs (pos + 11) (fun j r' hr => by
      have := h (j + 1) r' hr
      rwa [show pos + 11 * (j + 1) = pos + 11 + 11 * j by omega] at this)
    rw [Nat.mul_zero, Nat.add_zero] at h0
    simp only [List.length_cons, readRecs, h0, ih]
    rfl

theorem list_of_exists {α : Type} {Q : Nat → α → Prop} : ∀ n : Nat, (∀ j, j < n → ∃ a, Q j a) →
    ∃ l : List α, l.length = n ∧ ∀ j a, l[j]? = some a → Q j a
  | 0, _ => ⟨[], rfl, fun j a h => by simp at h⟩
  | n + 1, h => by
    obtain ⟨l, hl, hq⟩ := list_of_exists n (fun j hj => h j (by omega))
    obtain ⟨a, ha⟩ := h n (by omega)
    refine ⟨l ++ [a], by simp [hl], ?_⟩
    intro j b hj
    by_cases hjn : j < l.length
    · rw [List.getElem?_append_left hjn] at hj
      exact hq j b hj
    · rw [List.getElem?_append_right (by omega)] at hj
      have : j - l.length = 0 := by
        by_contra hne
        rw [List.getElem?_eq_none (by simp; omega)] at hj
        cases hj
      rw [this] at hj
      simp only [List.getElem?_cons_zero, Option.some.injEq] at hj
      subst hj
      rw [show j = n by omega]; exact ha

/-- The record of a unit as loaded. -/
def loaded (u : CUnit) (ns fo : Nat) : FnRec :=
  ⟨BitVec.ofNat 16 ns, BitVec.ofNat 16 fo, u.hash, byte u.arguments, byte (u.locals.length - u.arguments),
    1#8 + byte u.arguments + byte (u.locals.length - u.arguments)⟩

theorem readRec_at {img : List Byte} {p : Nat} {u : CUnit} {ns fo : Nat}
    (h1 : At img p (pack16 (BitVec.ofNat 16 ns) ++ pack16 (BitVec.ofNat 16 fo)))
    (h2 : At img (p + 4) ((record u).drop 4)) : readRec img p = some (loaded u ns fo) := by
  have e : (record u).drop 4 = pack32 u.hash ++ [byte u.arguments, byte (u.locals.length - u.arguments),
     1#8 + byte u.arguments + byte (u.locals.length - u.arguments)] := rfl
  rw [e] at h2
  have a1 := h1.left.read16
  have a2 := h1.right.read16
  have a3 := h2.left.read32
  have b := h2.right
  have a4 : img[p + 8]? = _ := b 0 (by simp)
  have a5 : img[p + 9]? = _ := b 1 (by simp)
  have a6 : img[p + 10]? = _ := b 2 (by simp)
  simp only [pack16_length] at a2
  simp only [List.getElem?_cons_zero, List.getElem?_cons_succ] at a4 a5 a6
  unfold readRec read8
  rw [a1, a2, a3, a4, a5, a6]
  rfl

theorem pack32s_length : ∀ hs : List Word32, (hs.flatMap pack32).length = 4 * hs.length
  | [] => rfl
  | h :: hs => by
    simp only [List.flatMap_cons, List.length_append, pack32_length, pack32s_length hs, List.length_cons]
    omega

theorem byte_toNat_of {n : Nat} (h : n ≤ 255) : (byte n).toNat = n := by
  unfold byte
  rw [BitVec.toNat_ofNat]
  exact Nat.mod_eq_of_lt (by omega)

theorem ofNat16_toNat {n : Nat} (h : n < 65536) : (BitVec.ofNat 16 n).toNat = n := by
  rw [BitVec.toNat_ofNat]
  exact Nat.mod_eq_of_lt (by omega)

/-- The loader's check accepts what the linker's last step produced. -/
private theorem load_check {code : List Byte} (h4 : 4 ≤ code.length) (hlen : code.length < 2 ^ 31) :
    ¬(appendTrailer code).length < 8 ∧
    read32 (appendTrailer code) ((appendTrailer code).length - 4) = some (wrHash code + versionMajor) ∧
    hashRead8 (appendTrailer code) (BitVec.ofNat 32 ((appendTrailer code).length - 4)) = wrHash code := by
  have hL : (appendTrailer code).length = code.length + 4 := by simp [appendTrailer, pack32_length]
  have hr := read32_pack32 code [] (wrHash code + versionMajor)
  rw [List.append_nil] at hr
  refine ⟨by omega, ?_, ?_⟩
  · rw [hL, Nat.add_sub_cancel]; exact hr
  · rw [hL, Nat.add_sub_cancel]
    unfold hashRead8
    rw [toInt_toNat_of_lt _ hlen]
    unfold appendTrailer
    rw [List.take_left']
    · rfl
    · rfl

private theorem load_of {P : Program} {hdr code : List Byte} (hh : HeaderOk P hdr)
    (hl : hdr.length ≤ code.length) (hc : code.length < 65536)
    (head : ∀ i, i < hdr.length → (∀ j, j < P.fns.length → i < 3 + 11 * j ∨ 3 + 11 * j + 4 ≤ i) →
      code[i]? = hdr[i]?)
    {rs : List FnRec} (hn : rs.length = P.fns.length)
    (hrs : ∀ j r, rs[j]? = some r → readRec (appendTrailer code) (3 + 11 * j) = some r)
    (h4 : 4 ≤ code.length) :
    load (appendTrailer code) = .ok ⟨P.main.locals.length, rs, hdr.length⟩ := by
  obtain ⟨c1, c2, c3⟩ := load_check h4 (by omega)
  have hlen : hdr.length = 3 + (11 * P.fns.length + ((globalsBlock P).length +
      ((debugBlock P).length + (sourceBlock P).length))) := by
    rw [hh.eq]; simp only [List.length_append, records_length, List.length_cons, List.length_nil]
  have im : ∀ i, i < code.length → (appendTrailer code)[i]? = code[i]? := by
    intro i hi; unfold appendTrailer; exact List.getElem?_append_left hi
  have low : ∀ i, i < 3 → (appendTrailer code)[i]? =
      [byte P.main.locals.length, byte P.fns.length, P.flags][i]? := by
    intro i hi
    rw [im i (by omega), head i (by omega) (fun j _ => by omega), hh.eq,
      List.getElem?_append_left (by simpa using hi)]
  have tail : At (appendTrailer code) (3 + 11 * P.fns.length)
      (globalsBlock P ++ (debugBlock P ++ sourceBlock P)) := by
    have a : At hdr (3 + 11 * P.fns.length) (globalsBlock P ++ (debugBlock P ++ sourceBlock P)) := by
      have := at_end ([byte P.main.locals.length, byte P.fns.length, P.flags] ++ P.fns.flatMap record)
        (globalsBlock P ++ (debugBlock P ++ sourceBlock P))
      rw [List.append_assoc, ← hh.eq] at this
      simpa only [List.length_append, records_length, List.length_cons, List.length_nil] using this
    refine a.congr (fun i h1 h2 => ?_)
    simp only [List.length_append] at h2
    rw [im i (by omega), head i (by omega) (fun j hj => by omega)]
  have tG := tail.left
  have tD := tail.right.left
  have tS := tail.right.right
  have r0 : read8 (appendTrailer code) 0 = some (byte P.main.locals.length) := low 0 (by omega)
  have r1 : read8 (appendTrailer code) 1 = some (byte P.fns.length) := low 1 (by omega)
  have r2 : read8 (appendTrailer code) 2 = some P.flags := low 2 (by omega)
  have hrr := readRecs_of (appendTrailer code) rs 3 hrs
  rw [hn] at hrr
  unfold load
  rw [if_neg c1, c2]
  simp only [Res.ofOption, Res.bind]
  rw [c3, if_neg (by simp), r0]
  dsimp only
  rw [r1]
  dsimp only
  rw [byte_toNat_of hh.fns, byte_toNat_of hh.globals, if_neg (by
    simp only [appendTrailer, List.length_append, pack32_length]; omega), r2, hrr]
  dsimp only
  have eG : skipGlobals P.flags P.main.locals.length (3 + P.fns.length * 11) =
      3 + 11 * P.fns.length + (globalsBlock P).length := by
    unfold globalsBlock skipGlobals
    split
    · rw [pack32s_length]; omega
    · simp; omega
  have eD : skipSymbols (appendTrailer code) P.flags (3 + 11 * P.fns.length + (globalsBlock P).length) =
      .ok (3 + 11 * P.fns.length + (globalsBlock P).length + (debugBlock P).length) := by
    unfold skipSymbols
    by_cases hd : (embedDebug P.flags || embedSource P.flags) = true
    · have e : debugBlock P = pack32 (wrHash P.source) ++ pack16 (BitVec.ofNat 16 P.symbols.length) ++
          P.symbols := if_pos hd
      rw [e] at tD
      have := tD.left.right.read16
      rw [pack32_length] at this
      have hs := hh.symbols hd
      rw [if_pos hd, this, e]
      simp only [Res.ofOption, Res.bind, List.length_append, pack32_length, pack16_length]
      rw [ofNat16_toNat (by omega)]
      congr 1; omega
    · have e : debugBlock P = [] := if_neg hd
      rw [if_neg hd, e]; rfl
  have eS : skipSource (appendTrailer code) P.flags
      (3 + 11 * P.fns.length + (globalsBlock P).length + (debugBlock P).length) = .ok hdr.length := by
    unfold skipSource
    by_cases hd : embedSource P.flags = true
    · have e : sourceBlock P = pack32 (BitVec.ofNat 32 P.source.length) ++ P.source := if_pos hd
      rw [e] at tS hlen
      simp only [List.length_append, pack32_length] at hlen
      have := tS.left.read32
      rw [if_pos hd, this]
      simp only [Res.ofOption, Res.bind]
      rw [BitVec.toNat_ofNat, Nat.mod_eq_of_lt (by omega)]
      congr 1; omega
    · have e : sourceBlock P = [] := if_neg hd
      rw [e, List.length_nil] at hlen
      rw [if_neg hd]
      congr 1; omega
  rw [eG, eD]
  dsimp only
  rw [eS]

/-! ### The linked image -/

theorem firstFn_none {fns : List CUnit} {h : Word32} (hn : ∀ u ∈ fns, u.hash ≠ h) :
    firstFn fns h = none := by
  unfold firstFn
  rw [List.findIdx?_eq_none_iff]
  intro u hu
  simpa using hn u hu

theorem firstFn_some {fns : List CUnit} {h : Word32} {k : Nat} (e : firstFn fns h = some k) :
    ∃ u, fns[k]? = some u ∧ u.hash = h ∧ ∀ j v, j < k → fns[j]? = some v → v.hash ≠ h := by
  unfold firstFn at e
  rw [List.findIdx?_eq_some_iff_getElem] at e
  obtain ⟨hk, h1, h2⟩ := e
  refine ⟨fns[k], List.getElem?_eq_getElem hk, by simpa using h1, ?_⟩
  intro j v hj hv
  have := h2 j hj
  obtain ⟨hlt, hv⟩ := List.getElem?_eq_some_iff.mp hv
  rw [hv] at this
  simpa using this

theorem instanced_of {P : Program} {k : Nat} {u : CUnit} (h : exported P k u = true) :
    Instanced P k u := by
  unfold exported at h
  rw [Bool.or_eq_true] at h
  refine h.imp id (fun h => ?_)
  obtain ⟨v, hv, h⟩ := List.any_eq_true.mp h
  obtain ⟨N, hN, h⟩ := List.any_eq_true.mp h
  simp only [Bool.and_eq_true, Bool.not_eq_true', beq_iff_eq] at h
  cases hR : N.refs with
  | nil => rw [hR] at h; simp at h
  | cons a as =>
    exact ⟨v, hv, (N.hash, a), List.mem_flatMap.mpr ⟨N, hN, List.mem_map.mpr ⟨a, by simp [hR], rfl⟩⟩, h.2⟩

theorem exported_of {P : Program} {k : Nat} {u : CUnit} (h : Instanced P k u) : exported P k u = true := by
  rcases h with h | ⟨v, hv, n, hn, hk⟩
  · unfold exported; rw [h]; rfl
  obtain ⟨N, hN, hr⟩ := List.mem_flatMap.mp hn
  obtain ⟨r, hr, rfl⟩ := List.mem_map.mp hr
  unfold exported
  rw [Bool.or_eq_true]
  refine Or.inr (List.any_eq_true.mpr ⟨v, hv, List.any_eq_true.mpr ⟨N, hN, ?_⟩⟩)
  dsimp only at hk
  rw [hk]
  cases hR : N.refs with
  | nil => rw [hR] at hr; cases hr
  | cons a as => simp

/-- What the linker produced, before the trailer. -/
private theorem link_inv {P : Program} (ok : ProgramOk P) {img : List Byte} (h : link P = .ok img)
    (hsize : img.length ≤ 65536) :
    ∃ (hdr code : List Byte) (pd : List (Nat × Nat)) (maps : List Nat), HeaderOk P hdr ∧ img = appendTrailer code ∧ code.length < 65536 ∧
      hdr.length ≤ code.length ∧
      (∀ i, i < hdr.length → (∀ j, j < P.fns.length → i < 3 + 11 * j ∨ 3 + 11 * j + 4 ≤ i) →
        code[i]? = hdr[i]?) ∧
      UnitAt P.fns hdr.length code pd hdr.length P.main ∧
      (∀ j u, P.fns[j]? = some u → ∃ ns fo, maps[j]? = some ns ∧ FnAt P hdr.length code pd j u ns fo) ∧
      ∀ p ∈ pd, At code p.1 (pack16 (BitVec.ofNat 16 ((maps[p.2]?).getD 0))) := by
  obtain ⟨hdr, e1, h⟩ := bind_ok h
  obtain ⟨s1, e2, h⟩ := bind_ok h
  obtain ⟨s2, e3, h⟩ := bind_ok h
  obtain ⟨code, e4, h⟩ := bind_ok h
  injection h with h; subst h
  have hh := header_ok e1
  have hL : (appendTrailer code).length = code.length + 4 := by simp [appendTrailer, pack32_length]
  have hy := firstFn_none ok.yield
  have l1 : s1.code.length = hdr.length + P.main.code.length := addUnit_length e2
  have l2 := addFns_length P.fns 0 s1 s2 e3
  have l3 := plugNews_length _ _ _ e4
  have hh3 : 3 + 11 * P.fns.length ≤ hdr.length := by
    rw [hh.eq]; simp only [List.length_append, records_length, List.length_cons, List.length_nil]; omega
  obtain ⟨a1, a2, a3, a4, a5⟩ := addUnit_ok (H := hdr.length) hh.fns hy ok.main
    (st := { code := hdr, maps := [], pending := [] }) (Nat.le_refl _) (by show hdr.length < _; omega)
    (fun p hp => by cases hp) e2
  dsimp only at a1 a2 a3 a4 a5
  have p1 : PendOk hdr.length s1.code s1.pending := by
    rw [a4]
    exact PendOk.add (code := hdr) ⟨List.Pairwise.nil, fun p hp => by cases hp⟩ ok.main (Nat.le_refl _)
      (Nat.le_refl _) a2
  have i0 : Inv P hdr 0 s1 := ⟨by omega, fun i hi _ => a3 i hi, a5, by rw [a1]; rfl,
    fun j u hj => by omega, p1⟩
  have i1 := addFns_ok hh.fns hy ok.main (fun u hu => (ok.fns u hu).1) hh3 P.fns 0 s1 s2 rfl (by omega) i0 e3
    (by omega)
  obtain ⟨b1, b2, b3⟩ := plugNews_ok _ _ _ e4 i1.pend.apart
  have keepU : ∀ fo u, UnitOk u → UnitAt P.fns hdr.length s2.code s2.pending fo u →
      UnitAt P.fns hdr.length code s2.pending fo u := by
    intro fo u hu h
    refine ⟨h.low, by have := h.high; omega, h.body.congr hu ?_, h.clear, h.news⟩
    intro i hi hn
    refine b2 _ (fun p hp => ?_)
    rcases h.clear p hp with ⟨n, hn', e⟩ | ha
    · have := hn n hn'
      omega
    · unfold Apart at ha
      omega
  refine ⟨hdr, code, s2.pending, s2.maps, hh, rfl, by omega, by have := i1.len; omega, ?_,
    keepU _ _ ok.main i1.main, ?_, b3⟩
  · intro i hi hj
    rw [b2 i (fun p hp => by have := i1.pend.range p hp; omega)]
    exact i1.head i hi hj
  · intro j u hu
    have hj : j < P.fns.length := by
      obtain ⟨hlt, _⟩ := List.getElem?_eq_some_iff.mp hu
      exact hlt
    obtain ⟨ns, fo, e, f⟩ := i1.fns j u hj hu
    refine ⟨ns, fo, e, f.nsLt, f.foLt, ?_, ?_, keepU _ _ (ok.fns u (List.mem_of_getElem? hu)).1 f.unit⟩
    · refine f.entry.congr (fun i h1 h2 => b2 i (fun p hp => ?_))
      simp only [List.length_append, pack16_length] at h2
      have := i1.pend.range p hp
      omega
    · rcases f.map with h | ⟨m, h1, h2, h | ⟨h3, h4, h5, h6, h7⟩⟩
      · exact Or.inl h
      · exact Or.inr ⟨m, h1, h2, Or.inl h⟩
      · refine Or.inr ⟨m, h1, h2, Or.inr ⟨h3, h4, h5, ?_, h7⟩⟩
        refine h6.congr (fun i g1 g2 => b2 i (fun p hp => ?_))
        have := h7 p hp
        unfold Apart at this
        omega

private theorem adjust_toNat {a n : Nat} (h1 : a ≤ n) (h2 : n ≤ 254) :
    (1#8 + byte a + byte (n - a)).toNat = 1 + n := by
  rw [BitVec.toNat_add, BitVec.toNat_add, byte_toNat_of (by omega), byte_toNat_of (by omega)]
  simp only [BitVec.toNat_ofNat]
  omega

/-- C29: loading the linked image gives the functions of the program in order, with their hashes,
argument counts, frame sizes and code, and the code of the main unit. -/
theorem C29_link_load_partial {P : Program} (ok : ProgramOk P) {img : List Byte} (h : link P = .ok img)
    (hsize : img.length ≤ 65536) :
    ∃ c, load img = .ok c ∧ c.globals = P.main.locals.length ∧ c.functions.length = P.fns.length ∧
      UnitIn P img c c.codeStart P.main ∧
      ∀ k u, P.fns[k]? = some u → ∃ r, c.functions[k]? = some r ∧ FnIn P img c k u r := by
  obtain ⟨hdr, code, pd, maps, hh, rfl, hc, hl, head, hmain, hfns, hpd⟩ := link_inv ok h hsize
  have hlen : hdr.length = 3 + (11 * P.fns.length + ((globalsBlock P).length +
      ((debugBlock P).length + (sourceBlock P).length))) := by
    rw [hh.eq]; simp only [List.length_append, records_length, List.length_cons, List.length_nil]
  have hL : (appendTrailer code).length = code.length + 4 := by simp [appendTrailer, pack32_length]
  have im : ∀ i, i < code.length → (appendTrailer code)[i]? = code[i]? := by
    intro i hi; unfold appendTrailer; exact List.getElem?_append_left hi
  have recs : ∀ j u, P.fns[j]? = some u → At (appendTrailer code) (3 + 11 * j + 4) ((record u).drop 4) := by
    intro j u hu
    have hj : j < P.fns.length := (List.getElem?_eq_some_iff.mp hu).1
    have a : At hdr 3 (P.fns.flatMap record) := by
      rw [hh.eq]
      intro i hi
      rw [List.getElem?_append_right (by simp), List.getElem?_append_left (by simpa using hi)]
      congr 1; simp
    have b := records_at _ _ _ a j u hu
    have b' : At hdr (3 + 11 * j + 4) ((record u).drop 4) := by
      intro i hi
      rw [List.length_drop, record_length] at hi
      have := b (4 + i) (by rw [record_length]; omega)
      rw [List.getElem?_drop, ← this]
      congr 1; omega
    refine b'.congr (fun i h1 h2 => ?_)
    rw [List.length_drop, record_length] at h2
    rw [im i (by omega), head i (by omega) (fun j' hj' => by omega)]
  obtain ⟨rs, hn, hrs⟩ := list_of_exists (Q := fun j r => ∃ u ns fo, P.fns[j]? = some u ∧
      maps[j]? = some ns ∧ FnAt P hdr.length code pd j u ns fo ∧ r = loaded u ns fo) P.fns.length
    (fun j hj => by
      obtain ⟨ns, fo, e, f⟩ := hfns j P.fns[j] (List.getElem?_eq_getElem hj)
      exact ⟨_, _, ns, fo, List.getElem?_eq_getElem hj, e, f, rfl⟩)
  have hrd : ∀ j r, rs[j]? = some r → readRec (appendTrailer code) (3 + 11 * j) = some r := by
    intro j r hr
    obtain ⟨u, ns, fo, hu, _, f, rfl⟩ := hrs j r hr
    refine readRec_at ?_ (recs j u hu)
    have hj : j < P.fns.length := (List.getElem?_eq_some_iff.mp hu).1
    exact f.entry.append (by simp only [List.length_append, pack16_length]; omega) _
  have h4 : 4 ≤ code.length := by
    have := List.length_pos_iff.mpr ok.nonempty
    have := hmain.high
    omega
  have hload := load_of hh hl hc head hn hrd h4
  have unitIn : ∀ fo u, UnitOk u → UnitAt P.fns hdr.length code pd fo u →
      UnitIn P (appendTrailer code) ⟨P.main.locals.length, rs, hdr.length⟩ fo u := by
    intro fo u hu f
    have := f.high
    refine ⟨by omega, f.body.congr hu (fun i hi _ => im _ (by omega)), ?_⟩
    intro n hn' t ht
    obtain ⟨v, hv, _⟩ := firstFn_some ht
    have htl : t < rs.length := by rw [hn]; exact (List.getElem?_eq_some_iff.mp hv).1
    obtain ⟨w, ns, fo', _, e, _, er⟩ := hrs t rs[t] (List.getElem?_eq_getElem htl)
    refine ⟨rs[t], List.getElem?_eq_getElem htl, ?_⟩
    have hp := hpd _ (f.news n hn' t ht)
    rw [e] at hp
    have hr := hu.newRange n hn'
    have := (hp.append (by simp only [pack16_length]; omega) (pack32 (wrHash code + versionMajor))).read16
    rw [er]; exact this
  refine ⟨_, hload, rfl, hn, unitIn _ _ ok.main hmain, ?_⟩
  intro k u hu
  have hk : k < rs.length := by rw [hn]; exact (List.getElem?_eq_some_iff.mp hu).1
  refine ⟨rs[k], List.getElem?_eq_getElem hk, ?_⟩
  obtain ⟨u', ns, fo, hu', _, f, er⟩ := hrs k rs[k] (List.getElem?_eq_getElem hk)
  rw [hu] at hu'; injection hu' with hu'; subst hu'
  obtain ⟨uo, fit⟩ := ok.fns u (List.mem_of_getElem? hu)
  have := fit.args
  have := fit.locals
  have foN : (loaded u ns fo).functionOffset.toNat = fo := ofNat16_toNat f.foLt
  have nsN : (loaded u ns fo).namespaceOffset.toNat = ns := ofNat16_toNat f.nsLt
  rw [er]
  refine ⟨rfl, byte_toNat_of (by omega), byte_toNat_of (by omega), adjust_toNat fit.args fit.locals, ?_, ?_, ?_⟩
  · rw [foN]; exact unitIn _ _ uo f.unit
  · intro hex
    have hx := exported_of (u := u) hex
    rcases f.map with ⟨h1, _⟩ | ⟨m, _, h2, ⟨h3, h4⟩ | ⟨h3, h4, h5, h6, _⟩⟩
    · rw [hx] at h1; cases h1
    · refine ⟨m, h2, Or.inl ⟨h3, ?_⟩⟩
      subst h4; rfl
    · refine ⟨m, h2, Or.inr ⟨h3, by rw [nsN]; omega, ?_⟩⟩
      rw [nsN]
      have := f.unit.high
      exact h6.append (by omega) _
  · intro hex
    rcases f.map with ⟨_, h⟩ | ⟨m, h, _⟩
    · subst h; rfl
    · exact absurd (instanced_of h) hex

/-- C53: in the linked image every call in every unit is to the first function of that name, if the
program has one; otherwise it is looked up by that name at run time; and `new` uses the member map
of the function it names. -/
theorem C53_calls_bound_partial {P : Program} (ok : ProgramOk P) {img : List Byte} (h : link P = .ok img)
    (hsize : img.length ≤ 65536) {c : Ctx} (hc : load img = .ok c) {fo : Nat} {u : CUnit}
    (hu : (u = P.main ∧ fo = c.codeStart) ∨
      ∃ (k : Nat) (r : FnRec), P.fns[k]? = some u ∧ c.functions[k]? = some r ∧
        fo = r.functionOffset.toNat) :
    (∀ s ∈ sites u.calls, s.1 ≠ yieldHash → ∀ args, u.code[s.2 + 1]? = some args →
      (∃ (k : Nat) (v : CUnit) (r : FnRec) (next : Nat), P.fns[k]? = some v ∧ v.hash = s.1 ∧
        (∀ (j : Nat) (w : CUnit), j < k → P.fns[j]? = some w → w.hash ≠ s.1) ∧
        c.functions[k]? = some r ∧ r.hash = s.1 ∧ Body P.fns img r.functionOffset.toNat v ∧
        decodeCall img (fo + s.2) = some (.fn k args.toNat next) ∧
        ((dropped u s = true ∧ next = fo + s.2 + 6) ∨ (dropped u s = false ∧ next = fo + s.2 + 5 ∧
          img[next]? = some Vm.Op.PushIndexFunctionReturnValue.code))) ∨
      ((∀ v ∈ P.fns, v.hash ≠ s.1) ∧ ∃ pop,
        decodeCall img (fo + s.2) = some (.extern s.1 pop args.toNat (fo + s.2 + 6)))) ∧
    (∀ n ∈ sites u.news, ∀ (k : Nat) (v : CUnit), P.fns[k]? = some v → v.hash = n.1 →
      (∀ (j : Nat) (w : CUnit), j < k → P.fns[j]? = some w → w.hash ≠ n.1) →
      ∃ off m, read16 img (fo + n.2) = some off ∧ localMap v = .ok m ∧
        ((m = [] ∧ off = 0#16) ∨ (m ≠ [] ∧ 3 ≤ off.toNat ∧ At img off.toNat m))) := by
  obtain ⟨c', hc', _, hlen, hmain, hfns⟩ := C29_link_load_partial ok h hsize
  rw [hc] at hc'; injection hc' with hc'; subst hc'
  have hin : UnitIn P img c fo u ∧ u ∈ P.main :: P.fns := by
    rcases hu with ⟨rfl, rfl⟩ | ⟨k, r, h1, h2, rfl⟩
    · exact ⟨hmain, by simp⟩
    · obtain ⟨r', h3, f⟩ := hfns k u h1
      rw [h2] at h3; injection h3 with h3; subst h3
      exact ⟨f.code, List.mem_cons_of_mem _ (List.mem_of_getElem? h1)⟩
  obtain ⟨hin, hmem⟩ := hin
  constructor
  · intro s hs hny args ha
    obtain ⟨t, h1, h2⟩ := hin.body.calls s hs
    unfold meant at h1
    rw [ha, Option.map_some, if_neg hny] at h1
    cases hf : firstFn P.fns s.1 with
    | some k =>
      rw [hf] at h1
      obtain ⟨v, hv, hvh, hmin⟩ := firstFn_some hf
      obtain ⟨r, hr, f⟩ := hfns k v hv
      refine Or.inl ⟨k, v, r, _, hv, hvh, hmin, hr, by rw [f.hash, hvh], f.code.body,
        by rw [h2, ← h1], ?_⟩
      cases hd : dropped u s with
      | true => exact Or.inl ⟨rfl, rfl⟩
      | false => exact Or.inr ⟨rfl, rfl, hin.body.pushes s hs hny (by rw [hf]; exact fun e => by cases e) hd⟩
    | none =>
      rw [hf] at h1
      refine Or.inr ⟨?_, _, by rw [h2, ← h1]⟩
      intro v hv
      unfold firstFn at hf
      rw [List.findIdx?_eq_none_iff] at hf
      simpa using hf v hv
  · intro n hn k v hv hvh hmin
    have hf : firstFn P.fns n.1 = some k := by
      unfold firstFn
      rw [List.findIdx?_eq_some_iff_getElem]
      obtain ⟨hlt, e⟩ := List.getElem?_eq_some_iff.mp hv
      refine ⟨hlt, by rw [e]; simpa using hvh, ?_⟩
      intro j hj
      simpa using hmin j _ hj (List.getElem?_eq_getElem (by omega))
    obtain ⟨r, hr, f⟩ := hfns k v hv
    obtain ⟨r', hr', e⟩ := hin.news n hn k hf
    rw [hr] at hr'; injection hr' with hr'; subst hr'
    obtain ⟨m, h1, h2⟩ := f.map (.inr ⟨u, hmem, n, hn, hf⟩)
    exact ⟨_, m, e, h1, h2⟩

/-! ### Globals -/

private theorem pack32s_at : ∀ (hs : List Word32) (l : List Byte) (p : Nat), At l p (hs.flatMap pack32) →
    ∀ j h, hs[j]? = some h → read32 l (p + 4 * j) = some h
  | [], _, _, _, j, h, e => by simp at e
  | v :: hs, l, p, a, j, h, e => by
    rw [List.flatMap_cons] at a
    cases j with
    | zero =>
      simp only [List.getElem?_cons_zero, Option.some.injEq] at e
      subst e
      exact a.left.read32
    | succ j =>
      rw [List.getElem?_cons_succ] at e
      have := pack32s_at hs l _ a.right j h e
      rw [pack32_length] at this
      rwa [show p + 4 * (j + 1) = p + 4 + 4 * j by omega]

private theorem findGlobal_of {img : List Byte} {pos : Nat} {h : Word32} (hs : List Word32)
    (hr : ∀ j w, hs[j]? = some w → read32 img (pos + 4 * j) = some w) : ∀ (n i : Nat), i + n = hs.length →
    (∀ j w, j < i → hs[j]? = some w → w ≠ h) →
    findGlobal img pos h n i = .ok (hs.findIdx? (fun w => decide (w = h)))
  | 0, i, e, hn => by
    have : hs.findIdx? (fun w => decide (w = h)) = none := by
      rw [List.findIdx?_eq_none_iff]
      intro w hw
      obtain ⟨j, hj⟩ := List.mem_iff_getElem?.mp hw
      have : j < hs.length := (List.getElem?_eq_some_iff.mp hj).1
      simpa using hn j w (by omega) hj
    rw [this]; rfl
  | n + 1, i, e, hn => by
    have hi : hs[i]? = some (hs[i]'(by omega)) := List.getElem?_eq_getElem (by omega)
    unfold findGlobal
    rw [hr i _ hi]
    simp only [Res.ofOption, Res.bind]
    split
    · rename_i heq
      congr 1
      symm
      rw [List.findIdx?_eq_some_iff_getElem]
      refine ⟨by omega, by simpa using heq, ?_⟩
      intro j hj
      simpa using hn j _ hj (List.getElem?_eq_getElem (by omega))
    · rename_i hne
      refine findGlobal_of hs hr n (i + 1) (by omega) ?_
      intro j w hj hw
      by_cases hji : j = i
      · subst hji
        rw [hi] at hw; injection hw with hw; subst hw
        exact hne
      · exact hn j w (by omega) hw

/-- The globals as loaded. -/
private theorem globals_in {P : Program} (ok : ProgramOk P) {img : List Byte} (h : link P = .ok img)
    (hsize : img.length ≤ 65536) (hg : includeGlobals P.flags = true) :
    read8 img 2 = some P.flags ∧ ∀ j w, P.main.locals[j]? = some w →
      read32 img (3 + P.fns.length * 11 + 4 * j) = some w := by
  obtain ⟨hdr, code, pd, maps, hh, rfl, hc, hl, head, _, _, _⟩ := link_inv ok h hsize
  have hlen : hdr.length = 3 + (11 * P.fns.length + ((globalsBlock P).length +
      ((debugBlock P).length + (sourceBlock P).length))) := by
    rw [hh.eq]; simp only [List.length_append, records_length, List.length_cons, List.length_nil]
  have im : ∀ i, i < code.length → (appendTrailer code)[i]? = code[i]? := by
    intro i hi; unfold appendTrailer; exact List.getElem?_append_left hi
  constructor
  · show (appendTrailer code)[2]? = _
    rw [im 2 (by omega), head 2 (by omega) (fun j _ => by omega), hh.eq]
    rfl
  · have e : globalsBlock P = P.main.locals.flatMap pack32 := if_pos hg
    refine pack32s_at _ _ _ ?_
    have a : At hdr (3 + 11 * P.fns.length) (globalsBlock P ++ (debugBlock P ++ sourceBlock P)) := by
      have := at_end ([byte P.main.locals.length, byte P.fns.length, P.flags] ++ P.fns.flatMap record)
        (globalsBlock P ++ (debugBlock P ++ sourceBlock P))
      rw [List.append_assoc, ← hh.eq] at this
      simpa only [List.length_append, records_length, List.length_cons, List.length_nil] using this
    rw [← e, Nat.mul_comm P.fns.length 11]
    refine a.left.congr (fun i h1 h2 => ?_)
    rw [im i (by omega), head i (by omega) (fun j hj => by omega)]

/-- C29: a global is found by its name, of at most 61 characters, with or without the leading `::`;
a name no global has is not found. -/
theorem C29_global_by_name_partial {P : Program} (ok : ProgramOk P) {img : List Byte} (h : link P = .ok img)
    (hsize : img.length ≤ 65536) (hg : includeGlobals P.flags = true) {c : Ctx} (hc : load img = .ok c)
    (name : List Byte) (hn : name.length ≤ 61) (hp : name.take 2 ≠ [58#8, 58#8]) (label : List Byte)
    (hl : label = name ∨ label = [58#8, 58#8] ++ name) :
    (∀ i, P.main.locals[i]? = some (hashStr ([58#8, 58#8] ++ name)) →
      (∀ j w, j < i → P.main.locals[j]? = some w → w ≠ hashStr ([58#8, 58#8] ++ name)) →
      getGlobalRef img c label = .ok (some i)) ∧
    ((∀ w ∈ P.main.locals, w ≠ hashStr ([58#8, 58#8] ++ name)) → getGlobalRef img c label = .ok none) := by
  obtain ⟨c', hc', hgl, hlen, _, _⟩ := C29_link_load_partial ok h hsize
  rw [hc] at hc'; injection hc' with hc'; subst hc'
  obtain ⟨r2, rg⟩ := globals_in ok h hsize hg
  have hname : globalName label = [58#8, 58#8] ++ name := by
    unfold globalName
    rcases hl with rfl | rfl
    · rw [if_neg hp, List.take_of_length_le hn]
    · rw [if_pos (by rfl)]
  have key : getGlobalRef img c label =
      .ok (P.main.locals.findIdx? fun w => decide (w = hashStr ([58#8, 58#8] ++ name))) := by
    unfold getGlobalRef
    rw [r2]
    simp only [Res.ofOption, Res.bind]
    rw [if_pos hg, hname, hlen, hgl]
    exact findGlobal_of _ rg _ 0 (by omega) (fun j w hj => by omega)
  constructor
  · intro i hi hmin
    rw [key]
    congr 1
    obtain ⟨hlt, e⟩ := List.getElem?_eq_some_iff.mp hi
    rw [List.findIdx?_eq_some_iff_getElem]
    refine ⟨hlt, by simpa using e, ?_⟩
    intro j hj
    simpa using hmin j _ hj (List.getElem?_eq_getElem (by omega))
  · intro hno
    rw [key]
    congr 1
    rw [List.findIdx?_eq_none_iff]
    intro w hw
    simpa using hno w hw

/-- Where the function table and the globals end. -/
def globalsEnd (P : Program) : Nat :=
  if includeGlobals P.flags then 3 + P.fns.length * 11 + P.main.locals.length * 4
  else 3 + P.fns.length * 11

/-- The symbols and the source in the image. -/
theorem blocks_in {P : Program} (ok : ProgramOk P) {img : List Byte} (h : link P = .ok img)
    (hsize : img.length ≤ 65536) :
    read8 img 2 = some P.flags ∧
    ((embedDebug P.flags || embedSource P.flags) = true →
      read32 img (globalsEnd P) = some (wrHash P.source) ∧
      read16 img (globalsEnd P + 4) = some (BitVec.ofNat 16 P.symbols.length) ∧
      At img (globalsEnd P + 6) P.symbols ∧ P.symbols.length ≤ 0xFFFF) ∧
    (embedSource P.flags = true →
      read32 img (globalsEnd P + 6 + P.symbols.length) = some (BitVec.ofNat 32 P.source.length) ∧
      At img (globalsEnd P + 6 + P.symbols.length + 4) P.source ∧ P.source.length < 2 ^ 32) := by
  obtain ⟨hdr, code, pd, maps, hh, rfl, hc, hl, head, _, _, _⟩ := link_inv ok h hsize
  have hlen : hdr.length = 3 + (11 * P.fns.length + ((globalsBlock P).length +
      ((debugBlock P).length + (sourceBlock P).length))) := by
    rw [hh.eq]; simp only [List.length_append, records_length, List.length_cons, List.length_nil]
  have im : ∀ i, i < code.length → (appendTrailer code)[i]? = code[i]? := by
    intro i hi; unfold appendTrailer; exact List.getElem?_append_left hi
  have tail : At (appendTrailer code) (3 + 11 * P.fns.length)
      (globalsBlock P ++ (debugBlock P ++ sourceBlock P)) := by
    have a : At hdr (3 + 11 * P.fns.length) (globalsBlock P ++ (debugBlock P ++ sourceBlock P)) := by
      have := at_end ([byte P.main.locals.length, byte P.fns.length, P.flags] ++ P.fns.flatMap record)
        (globalsBlock P ++ (debugBlock P ++ sourceBlock P))
      rw [List.append_assoc, ← hh.eq] at this
      simpa only [List.length_append, records_length, List.length_cons, List.length_nil] using this
    refine a.congr (fun i h1 h2 => ?_)
    simp only [List.length_append] at h2
    rw [im i (by omega), head i (by omega) (fun j hj => by omega)]
  have eG : 3 + 11 * P.fns.length + (globalsBlock P).length = globalsEnd P := by
    unfold globalsBlock globalsEnd
    split
    · rw [pack32s_length]; omega
    · simp; omega
  have tD := tail.right.left
  have tS := tail.right.right
  rw [eG] at tD tS
  refine ⟨?_, ?_, ?_⟩
  · show (appendTrailer code)[2]? = _
    rw [im 2 (by omega), head 2 (by omega) (fun j _ => by omega), hh.eq]
    rfl
  · intro hd
    have e : debugBlock P = pack32 (wrHash P.source) ++ pack16 (BitVec.ofNat 16 P.symbols.length) ++
        P.symbols := if_pos hd
    rw [e] at tD
    have h1 := tD.left.left.read32
    have h2 := tD.left.right.read16
    have h3 := tD.right
    simp only [List.length_append, pack32_length, pack16_length] at h2 h3
    exact ⟨h1, h2, h3, hh.symbols hd⟩
  · intro hd
    have hd' : (embedDebug P.flags || embedSource P.flags) = true := by simp [hd]
    have e1 : debugBlock P = pack32 (wrHash P.source) ++ pack16 (BitVec.ofNat 16 P.symbols.length) ++
        P.symbols := if_pos hd'
    have e : sourceBlock P = pack32 (BitVec.ofNat 32 P.source.length) ++ P.source := if_pos hd
    have el : (debugBlock P).length = 6 + P.symbols.length := by
      rw [e1]; simp only [List.length_append, pack32_length, pack16_length]
    rw [e] at tS hlen
    rw [el] at tS hlen
    simp only [List.length_append, pack32_length] at hlen
    rw [← Nat.add_assoc] at tS
    have h1 := tS.left.read32
    have h2 := tS.right
    rw [pack32_length] at h2
    exact ⟨h1, h2, by omega⟩

end Wrench.Link
