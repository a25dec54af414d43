import Verif.Link.Props

/-
When linking succeeds: the limits of the format, and that nothing else stops the linker.
-/
namespace Wrench.Link

/-- The counts the format has room for, link.cpp 84-160. -/
structure Limits (P : Program) : Prop where
  globals : P.main.locals.length ≤ 255
  functions : P.fns.length ≤ 255
  frames : ∀ u ∈ P.fns, u.arguments ≤ u.locals.length ∧ u.locals.length ≤ u.arguments + 255
  symbols : P.flags.getLsbD 1 = true ∨ P.flags.getLsbD 2 = true → P.symbols.length < 65536

/-- The bytes in front of the code. -/
def headerSize (P : Program) : Nat :=
  3 + 11 * P.fns.length + (if P.flags.getLsbD 0 then 4 * P.main.locals.length else 0) +
    (if P.flags.getLsbD 1 || P.flags.getLsbD 2 then 6 + P.symbols.length else 0) +
    (if P.flags.getLsbD 2 then 4 + P.source.length else 0)

/-- The bytes of a function: its code and, if there is one, its member map. -/
def fnSize (u : CUnit) : Nat := u.code.length + match localMap u with | .ok m => m.length | _ => 0

/-- The bytes of the functions. -/
def fnsSize : List CUnit → Nat
  | [] => 0
  | u :: us => fnSize u + fnsSize us

/-- C29: the linker reports an error exactly when a count does not fit, and otherwise writes a
header of the expected size. -/
theorem C29_limits (P : Program) :
    (Limits P → ∃ h, header P = .ok h ∧ h.length = headerSize P) ∧ (¬ Limits P → header P = .err) := by
  unfold header
  by_cases h1 : 255 < P.main.locals.length
  · rw [if_pos h1]
    exact ⟨fun l => absurd l.globals (by omega), fun _ => rfl⟩
  rw [if_neg h1]
  by_cases h2 : 255 < P.fns.length
  · rw [if_pos h2]
    exact ⟨fun l => absurd l.functions (by omega), fun _ => rfl⟩
  rw [if_neg h2]
  by_cases h3 : P.fns.any (fun u => decide (u.locals.length < u.arguments ∨
      255 < u.locals.length - u.arguments)) = true
  · rw [if_pos h3]
    obtain ⟨u, hu, hd⟩ := List.any_eq_true.mp h3
    have hd := of_decide_eq_true hd
    refine ⟨fun l => ?_, fun _ => rfl⟩
    have := l.frames u hu
    omega
  rw [if_neg h3]
  by_cases h4 : ((embedDebug P.flags || embedSource P.flags) && decide (0xFFFF < P.symbols.length)) = true
  · rw [if_pos h4]
    rw [Bool.and_eq_true, Bool.or_eq_true, decide_eq_true_eq] at h4
    refine ⟨fun l => ?_, fun _ => rfl⟩
    have := l.symbols h4.1
    omega
  rw [if_neg h4]
  constructor
  · intro _
    refine ⟨_, rfl, ?_⟩
    have e0 : (if includeGlobals P.flags then P.main.locals.flatMap pack32 else []).length =
        if P.flags.getLsbD 0 then 4 * P.main.locals.length else 0 := by
      by_cases g : includeGlobals P.flags = true
      · rw [if_pos g, if_pos (show P.flags.getLsbD 0 = true from g), pack32s_length]
      · rw [if_neg g, if_neg (show ¬ P.flags.getLsbD 0 = true from g)]; rfl
    have e1 : (if embedDebug P.flags || embedSource P.flags then
        pack32 (wrHash P.source) ++ pack16 (BitVec.ofNat 16 P.symbols.length) ++ P.symbols else []).length =
        if P.flags.getLsbD 1 || P.flags.getLsbD 2 then 6 + P.symbols.length else 0 := by
      by_cases g : (embedDebug P.flags || embedSource P.flags) = true
      · rw [if_pos g, if_pos (show (P.flags.getLsbD 1 || P.flags.getLsbD 2) = true from g)]
        simp [pack32, pack16]; omega
      · rw [if_neg g, if_neg (show ¬ (P.flags.getLsbD 1 || P.flags.getLsbD 2) = true from g)]; rfl
    have e2 : (if embedSource P.flags then pack32 (BitVec.ofNat 32 P.source.length) ++ P.source
        else []).length = if P.flags.getLsbD 2 then 4 + P.source.length else 0 := by
      by_cases g : embedSource P.flags = true
      · rw [if_pos g, if_pos (show P.flags.getLsbD 2 = true from g)]; simp [pack32]; omega
      · rw [if_neg g, if_neg (show ¬ P.flags.getLsbD 2 = true from g)]; rfl
    rw [List.length_append, List.length_append, List.length_append, List.length_append, e0, e1, e2,
      records_length]
    rfl
  · intro hn
    refine absurd ⟨by omega, by omega, ?_, ?_⟩ hn
    · intro u hu
      by_cases hd : u.locals.length < u.arguments ∨ 255 < u.locals.length - u.arguments
      · exact absurd (List.any_eq_true.mpr ⟨u, hu, decide_eq_true hd⟩) h3
      · omega
    · intro g
      by_cases hs : 0xFFFF < P.symbols.length
      · exact absurd (by rw [Bool.and_eq_true, Bool.or_eq_true, decide_eq_true_eq]; exact ⟨g, hs⟩) h4
      · omega

theorem readAt_total {l : List Byte} {p : Nat} (h : p < l.length) : ∃ b, readAt l p = .ok b := by
  refine ⟨l[p], ?_⟩
  unfold readAt
  rw [List.getElem?_eq_getElem h]
  rfl

/-- A reference with its bytes, and one more, in the buffer is fixed. -/
theorem fixCall_total {fns : List CUnit} (hy : firstFn fns yieldHash = none) {base : Nat} {code : List Byte}
    {s : Word32 × Nat} (h : base + s.2 + width s < code.length) : ∃ c, fixCall fns base code s = .ok c := by
  unfold fixCall
  dsimp only
  by_cases e : s.1 = yieldHash
  · rw [e, hy]
    dsimp only
    rw [if_pos rfl]
    exact writeAt_total (by simp; omega)
  have hw : width s = 6 := if_neg e
  rw [hw] at h
  generalize firstFn fns s.1 = f
  cases f with
  | none =>
    dsimp only
    rw [if_neg e]
    obtain ⟨b, hb⟩ := readAt_total (l := code) (p := base + s.2 + 5) (by omega)
    rw [hb]
    dsimp only [Res.bind]
    generalize (if b = Vm.Op.PopOne.code then Vm.Op.CallFunctionByHashAndPop.code
      else Vm.Op.CallFunctionByHash.code) = o
    obtain ⟨c1, e1⟩ := writeAt_total (l := code) (p := base + s.2) (bs := [o]) (by simp; omega)
    have l1 := (writeAt_ok e1).2.1
    rw [e1]
    dsimp only
    exact writeAt_total (by simp [pack32]; omega)
  | some k =>
    dsimp only
    obtain ⟨c1, e1⟩ : ∃ c, writeAt code (base + s.2) [Vm.Op.CallFunctionByIndex.code] = .ok c :=
      writeAt_total (by simp; omega)
    have l1 := (writeAt_ok e1).2.1
    rw [e1]
    dsimp only [Res.bind]
    obtain ⟨c2, e2⟩ : ∃ c, writeAt c1 (base + s.2 + 2) [byte k] = .ok c :=
      writeAt_total (by simp; omega)
    have l2 := (writeAt_ok e2).2.1
    rw [e2]
    dsimp only
    obtain ⟨b5, e5⟩ := readAt_total (l := c2) (p := base + s.2 + 5) (by omega)
    obtain ⟨b6, e6⟩ := readAt_total (l := c2) (p := base + s.2 + 6) (by omega)
    rw [e5, e6]
    dsimp only
    have fin : ∀ skip : Bool, ∃ c, (if skip = true then writeAt c2 (base + s.2 + 3) [3#8]
        else (writeAt c2 (base + s.2 + 3) [2#8]).bind fun code =>
          writeAt code (base + s.2 + 5) [Vm.Op.PushIndexFunctionReturnValue.code]) = .ok c := by
      intro skip
      cases skip with
      | true => rw [if_pos rfl]; exact writeAt_total (by simp; omega)
      | false =>
        rw [if_neg (by decide)]
        obtain ⟨c3, e3⟩ : ∃ c, writeAt c2 (base + s.2 + 3) [2#8] = .ok c :=
          writeAt_total (by simp; omega)
        have l3 := (writeAt_ok e3).2.1
        rw [e3]
        exact writeAt_total (by simp; omega)
    by_cases g : b5 = Vm.Op.PopOne.code
    · rw [if_pos g]; exact fin true
    · rw [if_neg g]; exact fin _

theorem fixCalls_total {fns : List CUnit} (hy : firstFn fns yieldHash = none) {base : Nat} :
    ∀ (ss : List (Word32 × Nat)) (code : List Byte), (∀ s ∈ ss, base + s.2 + width s < code.length) →
    ∃ c, fixCalls fns base ss code = .ok c
  | [], code, _ => ⟨code, rfl⟩
  | s :: ss, code, h => by
    obtain ⟨c, hc⟩ := fixCall_total hy (h s (List.mem_cons_self ..))
    have l := fixCall_length hc
    obtain ⟨c', hc'⟩ := fixCalls_total hy ss c
      (fun s' hs' => by rw [l]; exact h s' (List.mem_cons_of_mem _ hs'))
    refine ⟨c', ?_⟩
    show (fixCall fns base code s).bind _ = _
    rw [hc]
    exact hc'

/-- No call is the last instruction of a unit: the compiler ends each unit with a return,
or with a stop,
cc.cpp 149 and 1934-1939. -/
def NotLast (u : CUnit) : Prop := ∀ c ∈ sites u.calls, c.2 + width c < u.code.length

theorem addUnit_total {fns : List CUnit} (hy : firstFn fns yieldHash = none) {u : CUnit} (hu : NotLast u)
    {st : St} (hl : st.code.length < 65536) : ∃ st', addUnit fns u st = .ok st' := by
  unfold addUnit
  have hb : base16 st.code = st.code.length := Nat.mod_eq_of_lt hl
  obtain ⟨c, hc⟩ := fixCalls_total hy (base := base16 st.code) (sites u.calls) (st.code ++ u.code) (by
    intro s hs
    have := hu s hs
    rw [hb, List.length_append]
    omega)
  dsimp only
  rw [hc]
  exact ⟨_, rfl⟩

/-- One function is placed if it has a member map when one is asked for. -/
theorem addFn_total {P : Program} (hy : firstFn P.fns yieldHash = none) {k : Nat} {u : CUnit}
    (hu : NotLast u) (hm : exported P k u = true → ∃ m, localMap u = .ok m) {st : St}
    (hk : 3 + 11 * k + 4 ≤ st.code.length) (hl : st.code.length + fnSize u < 65536) :
    ∃ st', addFn P k u st = .ok st' ∧ st'.code.length ≤ st.code.length + fnSize u := by
  have key : ∀ s1 : St, st.code.length ≤ s1.code.length → s1.code.length + u.code.length ≤ st.code.length + fnSize u →
      ∃ st', ((writeAt s1.code (3 + 11 * k + 2) (pack16 (BitVec.ofNat 16 (base16 s1.code)))).bind fun code =>
        addUnit P.fns u { s1 with code := code }) = .ok st' ∧
        st'.code.length ≤ st.code.length + fnSize u := by
    intro s1 h1 h2
    obtain ⟨c, hc⟩ : ∃ c, writeAt s1.code (3 + 11 * k + 2)
        (pack16 (BitVec.ofNat 16 (base16 s1.code))) = .ok c :=
      writeAt_total (by rw [pack16_length]; omega)
    have lc := (writeAt_ok hc).2.1
    rw [hc]
    obtain ⟨st', h'⟩ := addUnit_total hy hu (st := { s1 with code := c }) (by show c.length < _; omega)
    refine ⟨st', h', ?_⟩
    have : st'.code.length = c.length + u.code.length := addUnit_length h'
    omega
  unfold addFn
  by_cases he : exported P k u = true
  · rw [if_pos he]
    obtain ⟨m, hm⟩ := hm he
    have hs : fnSize u = u.code.length + m.length := by unfold fnSize; rw [hm]
    rw [hm]
    dsimp only [Res.bind]
    generalize (if m = [] then 0 else base16 st.code) = b
    obtain ⟨c, hc⟩ : ∃ c, writeAt st.code (3 + 11 * k) (pack16 (BitVec.ofNat 16 b)) = .ok c :=
      writeAt_total (by rw [pack16_length]; omega)
    have lc := (writeAt_ok hc).2.1
    rw [hc]
    refine key { st with code := c ++ m, maps := st.maps ++ [b] } ?_ ?_
    · show _ ≤ (c ++ m).length
      rw [List.length_append]; omega
    · show (c ++ m).length + _ ≤ _
      rw [List.length_append]; omega
  · rw [if_neg he]
    obtain ⟨c, hc⟩ : ∃ c, writeAt st.code (3 + 11 * k) (pack16 0#16) = .ok c :=
      writeAt_total (by rw [pack16_length]; omega)
    have lc := (writeAt_ok hc).2.1
    rw [hc]
    have hs : u.code.length ≤ fnSize u := Nat.le_add_right ..
    refine key { st with code := c, maps := st.maps ++ [0] } ?_ ?_
    · show _ ≤ c.length
      omega
    · show c.length + _ ≤ _
      omega

theorem addFns_total {P : Program} (hy : firstFn P.fns yieldHash = none) : ∀ (us : List CUnit) (k : Nat)
    (st : St), (∀ u ∈ us, NotLast u) →
    (∀ j u, us[j]? = some u → exported P (k + j) u = true → ∃ m, localMap u = .ok m) →
    3 + 11 * (k + us.length) ≤ st.code.length → st.code.length + fnsSize us < 65536 →
    ∃ st', addFns P k us st = .ok st' ∧ st'.code.length ≤ st.code.length + fnsSize us
  | [], _, st, _, _, _, _ => ⟨st, rfl, Nat.le_refl _⟩
  | u :: us, k, st, hn, hm, hk, hl => by
    have hk' : 3 + 11 * (k + (us.length + 1)) ≤ st.code.length := hk
    have hl' : st.code.length + (fnSize u + fnsSize us) < 65536 := hl
    obtain ⟨s1, h1, l1⟩ := addFn_total hy (k := k) (st := st) (hn u (List.mem_cons_self ..))
      (fun he => hm 0 u rfl (by simpa using he)) (by omega) (by omega)
    have l2 := addFn_length h1
    obtain ⟨s2, h2, l3⟩ := addFns_total hy us (k + 1) s1 (fun v hv => hn v (List.mem_cons_of_mem _ hv))
      (fun j v hj he => hm (j + 1) v (by simpa using hj) (by rw [show k + (j + 1) = k + 1 + j by omega]; exact he))
      (by omega) (by omega)
    refine ⟨s2, ?_, by show _ ≤ _ + (fnSize u + fnsSize us); omega⟩
    show (addFn P k u st).bind _ = _
    rw [h1]
    exact h2

/-- A function whose member map is asked for and cannot be built stops the linker. -/
theorem addFns_maps {P : Program} : ∀ (us : List CUnit) (k : Nat) (st st' : St),
    addFns P k us st = .ok st' → ∀ j u, us[j]? = some u → exported P (k + j) u = true →
    ∃ m, localMap u = .ok m
  | [], _, _, _, _, j, u, hj, _ => by simp at hj
  | v :: us, k, st, st', h, j, u, hj, he => by
    obtain ⟨s1, h1, h2⟩ := bind_ok h
    cases j with
    | zero =>
      injection hj with hj
      subst hj
      unfold addFn at h1
      rw [if_pos (by simpa using he)] at h1
      obtain ⟨s2, h3, _⟩ := bind_ok h1
      obtain ⟨m, hm, _⟩ := bind_ok h3
      exact ⟨m, hm⟩
    | succ j =>
      exact addFns_maps us (k + 1) s1 st' h2 j u (by simpa using hj)
        (by rw [show k + 1 + j = k + (j + 1) by omega]; exact he)

theorem plugNews_total {maps : List Nat} : ∀ (ps : List (Nat × Nat)) (code : List Byte),
    (∀ p ∈ ps, p.1 + 2 ≤ code.length) → ∃ c, plugNews maps ps code = .ok c
  | [], code, _ => ⟨code, rfl⟩
  | (loc, k) :: ps, code, h => by
    obtain ⟨c, hc⟩ : ∃ c, writeAt code loc (pack16 (BitVec.ofNat 16 ((maps[k]?).getD 0))) = .ok c :=
      writeAt_total (by rw [pack16_length]; exact h _ (List.mem_cons_self ..))
    have lc := (writeAt_ok hc).2.1
    obtain ⟨c', h'⟩ := plugNews_total ps c (fun p hp => by rw [lc]; exact h p (List.mem_cons_of_mem _ hp))
    refine ⟨c', ?_⟩
    show (writeAt code loc _).bind _ = _
    rw [hc]
    exact h'

/-- C29: a program whose parts fit in 65535 bytes is linked exactly when every count fits and every
function that is exported or named by a `new` has a member map. -/
theorem C29_links {P : Program} (ok : ProgramOk P) (hn : ∀ u ∈ P.main :: P.fns, NotLast u)
    (hsize : headerSize P + P.main.code.length + fnsSize P.fns < 65536) :
    (∃ img, link P = .ok img) ↔
      Limits P ∧ ∀ k u, P.fns[k]? = some u → Instanced P k u → ∃ m, localMap u = .ok m := by
  have hy := firstFn_none ok.yield
  constructor
  · rintro ⟨img, h⟩
    obtain ⟨hdr, e1, h⟩ := bind_ok h
    obtain ⟨s1, e2, h⟩ := bind_ok h
    obtain ⟨s2, e3, h⟩ := bind_ok h
    refine ⟨Classical.byContradiction fun g => ?_, fun k u hk hi => ?_⟩
    · rw [(C29_limits P).2 g] at e1
      cases e1
    · exact addFns_maps P.fns 0 s1 s2 e3 k u hk (by rw [Nat.zero_add]; exact exported_of hi)
  · rintro ⟨lim, maps⟩
    obtain ⟨hdr, e1, l1⟩ := (C29_limits P).1 lim
    obtain ⟨s1, e2⟩ := addUnit_total hy (hn P.main (List.mem_cons_self ..))
      (st := { code := hdr, maps := [], pending := [] }) (by show hdr.length < _; omega)
    have l2 : s1.code.length = hdr.length + P.main.code.length := addUnit_length e2
    have hh3 : 3 + 11 * P.fns.length ≤ hdr.length := by
      rw [l1]; unfold headerSize; omega
    obtain ⟨s2, e3, l3⟩ := addFns_total hy P.fns 0 s1 (fun u hu => hn u (List.mem_cons_of_mem _ hu))
      (fun j u hj he => maps j u hj (instanced_of (by rwa [Nat.zero_add] at he))) (by omega) (by omega)
    obtain ⟨a1, a2, a3, a4, a5⟩ := addUnit_ok (H := hdr.length) lim.functions hy ok.main
      (st := { code := hdr, maps := [], pending := [] }) (Nat.le_refl _) (by show hdr.length < _; omega)
      (fun p hp => by cases hp) e2
    dsimp only at a1 a2 a3 a4 a5
    have p1 : PendOk hdr.length s1.code s1.pending := by
      rw [a4]
      exact PendOk.add (code := hdr) ⟨List.Pairwise.nil, fun p hp => by cases hp⟩ ok.main (Nat.le_refl _)
        (Nat.le_refl _) a2
    have i0 : Inv P hdr 0 s1 := ⟨by omega, fun i hi _ => a3 i hi, a5, by rw [a1]; rfl,
      fun j u hj => by omega, p1⟩
    have i1 := addFns_ok lim.functions hy ok.main (fun u hu => (ok.fns u hu).1) hh3 P.fns 0 s1 s2 rfl (by omega) i0 e3
      (by omega)
    obtain ⟨code, e4⟩ := plugNews_total (maps := s2.maps) s2.pending s2.code
      (fun p hp => (i1.pend.range p hp).2)
    refine ⟨appendTrailer code, ?_⟩
    unfold link
    rw [e1]
    dsimp only [Res.bind]
    rw [e2]
    dsimp only
    rw [e3]
    dsimp only
    rw [e4]

/-- C53: the call that the linker turns into a Yield is the one spelled `yield`. -/
theorem C53_yield_name : yieldHash = hashStr ("yield".toList.map fun c => BitVec.ofNat 8 c.toNat) := by
  decide

end Wrench.Link
