/-
Where the debugger stops the program, and the call stack it reports.
-/
import Verif.Debug.Server

namespace Wrench.Server

open Wrench.Packet (Entry)

/-- What a debug instruction says: the program comes to a line, calls one of its functions,
returns from one, or something that does not matter here. -/
inductive Kind where
  | line (n : Int)
  | call (u : Byte)
  | ret
  | other
  deriving DecidableEq, Repr

/-- The code words read as `WrenchDebugInfoType` in discrete_src/debug/debug.h 32-43 describes
them: two bits of type, fourteen of payload. -/
def kind (ev : Ev) : Kind :=
  if ev.cw.toNat / 2 ^ 14 = 1 then .line (ev.cw.toNat % 2 ^ 14)
  else if ev.cw.toNat / 2 ^ 14 = 2 then .ret
  else if ev.cw.toNat / 2 ^ 14 = 0 ∧ ev.cw.toNat ≠ 0xF00 ∧ ev.cw.toNat ≠ 0xE00 then
    .call (BitVec.ofNat 8 ev.cw.toNat)
  else .other

theorem and_typeMask (w : Word16) : (w &&& typeMask).toNat = w.toNat / 2 ^ 14 * 2 ^ 14 := by
  have h : w &&& typeMask = (w >>> 14) <<< 14 := by
    apply BitVec.eq_of_getLsbD_eq
    intro i hi
    have m : ∀ i, i < 16 → typeMask.getLsbD i = decide (14 ≤ i) := by decide
    simp only [BitVec.getLsbD_and, m i hi, BitVec.getLsbD_shiftLeft, BitVec.getLsbD_ushiftRight,
      hi, decide_true, Bool.true_and]
    by_cases h : 14 ≤ i
    · have h2 : 14 + (i - 14) = i := by omega
      simp [h, h2, Nat.not_lt.2 h]
    · simp [h, Nat.lt_of_not_le h]
  rw [h, BitVec.toNat_shiftLeft, BitVec.toNat_ushiftRight, Nat.shiftRight_eq_div_pow,
    Nat.shiftLeft_eq]
  have := w.isLt
  omega

theorem and_payloadMask (w : Word16) : (w &&& payloadMask).toNat = w.toNat % 2 ^ 14 := by
  have : payloadMask.toNat = 2 ^ 14 - 1 := by decide
  rw [BitVec.toNat_and, this, Nat.and_two_pow_sub_one_eq_mod]

theorem type_line (ev : Ev) : ev.cw &&& typeMask = lineNumber ↔ ev.cw.toNat / 2 ^ 14 = 1 := by
  rw [← BitVec.toNat_inj, and_typeMask]
  have : lineNumber.toNat = 2 ^ 14 := by decide
  rw [this]; omega

theorem type_call (ev : Ev) : ev.cw &&& typeMask = functionCall ↔ ev.cw.toNat / 2 ^ 14 = 0 := by
  rw [← BitVec.toNat_inj, and_typeMask]
  have : functionCall.toNat = 0 := by decide
  rw [this]; omega

theorem type_ret (ev : Ev) : ev.cw &&& typeMask = return_ ↔ ev.cw.toNat / 2 ^ 14 = 2 := by
  rw [← BitVec.toNat_inj, and_typeMask]
  have : return_.toNat = 2 * 2 ^ 14 := by decide
  rw [this]; omega

theorem pay_is (ev : Ev) (w : Word16) (h0 : ev.cw.toNat / 2 ^ 14 = 0) :
    ev.cw &&& payloadMask = w ↔ ev.cw.toNat = w.toNat := by
  rw [← BitVec.toNat_inj, and_payloadMask]
  have : ev.cw.toNat % 2 ^ 14 = ev.cw.toNat := by omega
  rw [this]

theorem line_toInt (ev : Ev) :
    ((ev.cw &&& payloadMask).setWidth 32).toInt = (ev.cw.toNat % 2 ^ 14 : Nat) := by
  have h : ((ev.cw &&& payloadMask).setWidth 32).toNat = ev.cw.toNat % 2 ^ 14 := by
    rw [BitVec.toNat_setWidth, and_payloadMask]; omega
  rw [BitVec.toInt_eq_toNat_cond, h, if_pos (by omega)]

/-! ### One code word -/

/-- What happens to the call stack. -/
def stackStep (funcs : List (Byte × Word16)) (cs : List Entry) (ev : Ev) : Option (List Entry) :=
  match kind ev with
  | .line n => setLine cs (BitVec.ofInt 32 n)
  | .call u =>
    match cs.getLast?, funcs[u.toNat - 1]? with
    | some fr, some f =>
      some (cs ++
        [{ onLine := -1, fromUnit := fr.thisUnit, thisUnit := u,
           stackOffset := ev.off, arguments := f.1, locals := f.2 }])
    | _, _ => none
  | .ret => some (cs.drop 1)
  | .other => some cs

/-- Coming to a line. -/
theorem encountered_line (funcs : List (Byte × Word16)) (s : Sv) (ev : Ev) (n : Int)
    (hk : kind ev = .line n) (cs : List Entry) (hc : stackStep funcs s.callStack ev = some cs) :
    encountered funcs s ev =
      if n ∈ s.lineBreaks then some (true, { s with callStack := cs })
      else if s.stepOverDepth ≤ 0 ∧ s.lineSteps = 1 then
        some (true, { s with
          callStack := cs, lineSteps := 0, stopOnLine := 0, stepOverDepth := -1 })
      else if s.stepOverDepth ≤ 0 ∧ s.lineSteps ≠ 0 then
        (if n = s.stopOnLine then
          some (true, { s with callStack := cs, lineSteps := s.lineSteps - 1, stopOnLine := 0 })
         else some (false, { s with callStack := cs, lineSteps := s.lineSteps - 1 }))
      else if n = s.stopOnLine then some (true, { s with callStack := cs, stopOnLine := 0 })
      else some (false, { s with callStack := cs }) := by
  have h1 : ev.cw.toNat / 2 ^ 14 = 1 := by
    simp only [kind] at hk
    by_cases h : ev.cw.toNat / 2 ^ 14 = 1
    · exact h
    · rw [if_neg h] at hk
      by_cases h2 : ev.cw.toNat / 2 ^ 14 = 2
      · simp [h2] at hk
      · rw [if_neg h2] at hk
        split at hk <;> simp at hk
  have hn : n = (ev.cw.toNat % 2 ^ 14 : Nat) := by
    simp only [kind, h1, if_true, Kind.line.injEq] at hk
    rw [← hk]; simp
  have hl : ((ev.cw &&& payloadMask).setWidth 32).toInt = n := by rw [line_toInt, hn]
  have hb : (ev.cw &&& payloadMask).setWidth 32 = BitVec.ofInt 32 n := by
    rw [← hl, BitVec.ofInt_toInt]
  have hl' : (BitVec.ofInt 32 n).toInt = n := by rw [← hb, hl]
  simp only [stackStep, hk] at hc
  simp only [encountered, (type_line ev).2 h1, if_true, hb, hl', hc]
  by_cases hin : n ∈ s.lineBreaks
  · have : s.lineBreaks.any (fun L => L == n) = true := by simp [hin]
    simp [this, hin]
  · have : s.lineBreaks.any (fun L => L == n) = false := by
      simp only [List.any_eq_false, beq_iff_eq]
      intro x hx e; exact hin (e ▸ hx)
    simp only [this, hin, if_false, Bool.false_eq_true]
    by_cases hs : s.stepOverDepth ≤ 0 ∧ s.lineSteps = 1
    · have : s.stepOverDepth ≤ 0 ∧ s.lineSteps ≠ 0 ∧ s.lineSteps - 1 = 0 := ⟨hs.1, by omega, by omega⟩
      rw [if_pos this, if_pos hs]
    · have : ¬ (s.stepOverDepth ≤ 0 ∧ s.lineSteps ≠ 0 ∧ s.lineSteps - 1 = 0) := by omega
      rw [if_neg this, if_neg hs]
      by_cases h3 : s.stepOverDepth ≤ 0 ∧ s.lineSteps ≠ 0
      · rw [if_pos h3, if_pos h3]
      · rw [if_neg h3, if_neg h3]

/-- Anything else does not stop. -/
theorem encountered_other (funcs : List (Byte × Word16)) (s : Sv) (ev : Ev)
    (hk : ∀ n, kind ev ≠ .line n) (cs : List Entry)
    (hc : stackStep funcs s.callStack ev = some cs) :
    ∃ s', encountered funcs s ev = some (false, s') ∧ s'.callStack = cs ∧
      s'.lineBreaks = s.lineBreaks ∧ s'.lineSteps = s.lineSteps ∧
      s'.stopOnLine = s.stopOnLine ∧
      s'.stepOverDepth = (if s.stepOverDepth < 0 then s.stepOverDepth else
        match kind ev with
        | .call _ => s.stepOverDepth + 1
        | .ret => s.stepOverDepth - 1
        | _ => s.stepOverDepth) := by
  have h1 : ¬ ev.cw.toNat / 2 ^ 14 = 1 := by
    intro h; exact hk (ev.cw.toNat % 2 ^ 14) (by simp only [kind, h, if_true])
  have t1 : ¬ (ev.cw &&& typeMask = lineNumber) := fun h => h1 ((type_line ev).1 h)
  by_cases h0 : ev.cw.toNat / 2 ^ 14 = 0
  · have t2 := (type_call ev).2 h0
    by_cases hg : ev.cw.toNat = 0xF00
    · have hp : ev.cw &&& payloadMask = globalStop := (pay_is ev _ h0).2 (by rw [hg]; rfl)
      have hkk : kind ev = .other := by simp [kind, hg]
      refine ⟨{ s with halted := true }, ?_, ?_, rfl, rfl, rfl, ?_⟩
      · simp only [encountered, t2, hp]
        rw [if_neg (by decide), if_pos (by decide), if_pos (by decide)]
      · simpa [stackStep, hkk] using hc
      · simp [hkk]
    · by_cases hx : ev.cw.toNat = 0xE00
      · have hp : ev.cw &&& payloadMask = externalFunction := (pay_is ev _ h0).2 (by rw [hx]; rfl)
        have hkk : kind ev = .other := by simp [kind, hx]
        refine ⟨s, ?_, ?_, rfl, rfl, rfl, ?_⟩
        · simp only [encountered, t2, hp]
          rw [if_neg (by decide), if_pos (by decide), if_neg (by decide), if_pos (by decide)]
        · simpa [stackStep, hkk] using hc
        · simp [hkk]
      · have hp1 : ¬ ev.cw &&& payloadMask = globalStop := fun h => hg (by
          have := (pay_is ev _ h0).1 h; rw [this]; rfl)
        have hp2 : ¬ ev.cw &&& payloadMask = externalFunction := fun h => hx (by
          have := (pay_is ev _ h0).1 h; rw [this]; rfl)
        have hkk : kind ev = .call (BitVec.ofNat 8 ev.cw.toNat) := by
          simp only [kind, h1, if_false]
          rw [if_neg (by omega), if_pos ⟨h0, hg, hx⟩]
        have hu : (ev.cw &&& payloadMask).setWidth 8 = BitVec.ofNat 8 ev.cw.toNat := by
          rw [← BitVec.toNat_inj, BitVec.toNat_setWidth, and_payloadMask, BitVec.toNat_ofNat]
          omega
        simp only [stackStep, hkk] at hc
        have hne : ¬ functionCall = lineNumber := by decide
        simp only [encountered, t2, hne, if_false, if_true, hp1, hp2, hu]
        cases hf : s.callStack.getLast? with
        | none => rw [hf] at hc; simp at hc
        | some fr =>
          cases hf2 : funcs[(BitVec.ofNat 8 ev.cw.toNat).toNat - 1]? with
          | none => rw [hf, hf2] at hc; simp at hc
          | some f =>
            rw [hf] at hc
            simp only [hf2, Option.some.injEq] at hc
            by_cases hd : s.stepOverDepth ≥ 0
            · have hd' : ¬ s.stepOverDepth < 0 := by omega
              simp only [hd, if_true, hf, hc, hkk, hd', if_false]
              exact ⟨_, rfl, rfl, rfl, rfl, rfl, rfl⟩
            · have hd' : s.stepOverDepth < 0 := by omega
              simp only [hd, if_false, hf, hc, hkk, hd', if_true]
              exact ⟨_, rfl, rfl, rfl, rfl, rfl, rfl⟩
  · have t2 : ¬ (ev.cw &&& typeMask = functionCall) := fun h => h0 ((type_call ev).1 h)
    by_cases h2 : ev.cw.toNat / 2 ^ 14 = 2
    · have t3 := (type_ret ev).2 h2
      have hkk : kind ev = .ret := by simp [kind, h2]
      simp only [stackStep, hkk, Option.some.injEq] at hc
      have hne : ¬ return_ = lineNumber := by decide
      have hne2 : ¬ return_ = functionCall := by decide
      simp only [encountered, t3, hne, hne2, if_false, if_true, hc]
      by_cases hd : s.stepOverDepth ≥ 0
      · have hd' : ¬ s.stepOverDepth < 0 := by omega
        simp only [hd, if_true, hkk, hd', if_false]
        exact ⟨_, rfl, rfl, rfl, rfl, rfl, rfl⟩
      · have hd' : s.stepOverDepth < 0 := by omega
        simp only [hd, if_false, hkk, hd', if_true]
        exact ⟨_, rfl, rfl, rfl, rfl, rfl, rfl⟩
    · have t3 : ¬ (ev.cw &&& typeMask = return_) := fun h => h2 ((type_ret ev).1 h)
      have hkk : kind ev = .other := by simp [kind, h1, h2, h0]
      refine ⟨s, by simp [encountered, t1, t2, t3], ?_, rfl, rfl, rfl, ?_⟩
      · simpa [stackStep, hkk] using hc
      · simp [hkk]

/-! ### Whole programs -/

/-- The program's debug instructions make sense, with `n` functions being executed: it is in
some function whenever it comes to a line or calls, and the functions it calls exist. -/
def Fine (funcs : List (Byte × Word16)) : Nat → List Ev → Prop
  | _, [] => True
  | n, ev :: evs =>
    match kind ev with
    | .line _ => 1 ≤ n ∧ Fine funcs n evs
    | .call u => 1 ≤ n ∧ funcs[u.toNat - 1]? ≠ none ∧ Fine funcs (n + 1) evs
    | .ret => Fine funcs (n - 1) evs
    | .other => Fine funcs n evs

/-- The number of functions being executed afterwards. -/
def depthAfter (n : Nat) (ev : Ev) : Nat :=
  match kind ev with
  | .call _ => n + 1
  | .ret => n - 1
  | _ => n

theorem setLine_some {cs : List Entry} (h : 1 ≤ cs.length) (w : Word32) :
    ∃ cs', setLine cs w = some cs' ∧ cs'.length = cs.length ∧
      cs'.getLast?.map Entry.onLine = some w := by
  simp only [setLine]
  cases hr : cs.reverse with
  | nil =>
    have : cs = [] := by simpa using hr
    subst this; simp at h
  | cons x xs =>
    refine ⟨_, rfl, ?_, ?_⟩
    · have := congrArg List.length hr
      simpa using this.symm
    · simp

theorem stackStep_fine {funcs : List (Byte × Word16)} {cs : List Entry} {ev : Ev}
    {evs : List Ev} (h : Fine funcs cs.length (ev :: evs)) :
    ∃ cs', stackStep funcs cs ev = some cs' ∧ cs'.length = depthAfter cs.length ev ∧
      Fine funcs cs'.length evs := by
  simp only [Fine] at h
  simp only [stackStep, depthAfter]
  cases hk : kind ev with
  | line n =>
    rw [hk] at h
    obtain ⟨cs', e, hl, _⟩ := setLine_some h.1 (BitVec.ofInt 32 n)
    exact ⟨cs', e, hl, by rw [hl]; exact h.2⟩
  | call u =>
    rw [hk] at h
    obtain ⟨h1, h2, h3⟩ := h
    cases hf : cs.getLast? with
    | none =>
      have : cs = [] := by simpa using hf
      subst this; simp at h1
    | some fr =>
      cases hf2 : funcs[u.toNat - 1]? with
      | none => exact absurd hf2 h2
      | some f =>
        refine ⟨cs ++ [_], by simp only [hf2]; rfl, by simp, by simpa using h3⟩
  | ret =>
    rw [hk] at h
    exact ⟨_, rfl, by simp, by simpa using h⟩
  | other =>
    rw [hk] at h
    exact ⟨cs, rfl, rfl, h⟩

/-- The program comes to a line the user asked to stop on. -/
def Wanted (breaks : List Int) (toLine : Int) (ev : Ev) : Prop :=
  ∃ n, kind ev = .line n ∧ (n ∈ breaks ∨ n = toLine)

/-- Running with no step under way. -/
theorem go_run (funcs : List (Byte × Word16)) : ∀ (evs : List Ev) (s : Sv),
    Fine funcs s.callStack.length evs → s.lineSteps = 0 →
    ∃ s' rest b, go funcs s evs = some (s', rest, b) ∧ s'.lineBreaks = s.lineBreaks ∧
      s'.lineSteps = 0 ∧
      (b = true → ∃ pre ev n, evs = pre ++ ev :: rest ∧ Wanted s.lineBreaks s.stopOnLine ev ∧
        (∀ x ∈ pre, ¬ Wanted s.lineBreaks s.stopOnLine x) ∧ kind ev = .line n ∧
        s'.callStack.getLast?.map Entry.onLine = some (BitVec.ofInt 32 n) ∧
        Fine funcs s'.callStack.length rest) ∧
      (b = false → rest = [] ∧ ∀ x ∈ evs, ¬ Wanted s.lineBreaks s.stopOnLine x)
  | [], s, _, h0 => ⟨s, [], false, rfl, rfl, h0, by simp, by simp⟩
  | ev :: evs, s, hf, h0 => by
    obtain ⟨cs, hc, _, hfin⟩ := stackStep_fine hf
    have hns1 : ¬ (s.stepOverDepth ≤ 0 ∧ s.lineSteps = 1) := by omega
    have hns2 : ¬ (s.stepOverDepth ≤ 0 ∧ s.lineSteps ≠ 0) := by omega
    -- going on behind an unwanted code word
    have cont : ∀ s1 : Sv, encountered funcs s ev = some (false, s1) → s1.callStack = cs →
        s1.lineBreaks = s.lineBreaks → s1.lineSteps = 0 → s1.stopOnLine = s.stopOnLine →
        ¬ Wanted s.lineBreaks s.stopOnLine ev →
        ∃ s' rest b, go funcs s (ev :: evs) = some (s', rest, b) ∧
          s'.lineBreaks = s.lineBreaks ∧ s'.lineSteps = 0 ∧
          (b = true → ∃ pre ev' n, ev :: evs = pre ++ ev' :: rest ∧
            Wanted s.lineBreaks s.stopOnLine ev' ∧
            (∀ x ∈ pre, ¬ Wanted s.lineBreaks s.stopOnLine x) ∧ kind ev' = .line n ∧
            s'.callStack.getLast?.map Entry.onLine = some (BitVec.ofInt 32 n) ∧
            Fine funcs s'.callStack.length rest) ∧
          (b = false → rest = [] ∧ ∀ x ∈ ev :: evs, ¬ Wanted s.lineBreaks s.stopOnLine x) := by
      intro s1 he h1 h2 h3 h4 hw
      obtain ⟨s', rest, b, hg, hb1, hb2, ht, hff⟩ := go_run funcs evs s1 (by rw [h1]; exact hfin) h3
      rw [h2, h4] at ht hff
      refine ⟨s', rest, b, by rw [go, he]; exact hg, by rw [hb1, h2], hb2, ?_, ?_⟩
      · intro hb
        obtain ⟨pre, ev', n, e, hw', hp, hk, hl⟩ := ht hb
        refine ⟨ev :: pre, ev', n, by rw [e]; rfl, hw', ?_, hk, hl⟩
        intro x hx
        rcases List.mem_cons.1 hx with rfl | hx
        · exact hw
        · exact hp x hx
      · intro hb
        refine ⟨(hff hb).1, ?_⟩
        intro x hx
        rcases List.mem_cons.1 hx with rfl | hx
        · exact hw
        · exact (hff hb).2 x hx
    cases hk : kind ev with
    | line n =>
      have he := encountered_line funcs s ev n hk cs hc
      have hlast : cs.getLast?.map Entry.onLine = some (BitVec.ofInt 32 n) := by
        simp only [stackStep, hk] at hc
        simp only [Fine, hk] at hf
        obtain ⟨cs', e, _, hl⟩ := setLine_some hf.1 (BitVec.ofInt 32 n)
        rw [hc] at e
        cases e
        exact hl
      by_cases hin : n ∈ s.lineBreaks
      · rw [if_pos hin] at he
        refine ⟨{ s with callStack := cs }, evs, true, by rw [go, he], rfl, h0, ?_, by simp⟩
        intro _
        exact ⟨[], ev, n, rfl, ⟨n, hk, Or.inl hin⟩, by simp, hk, hlast, hfin⟩
      · rw [if_neg hin, if_neg hns1, if_neg hns2] at he
        by_cases hst : n = s.stopOnLine
        · rw [if_pos hst] at he
          refine ⟨{ s with callStack := cs, stopOnLine := 0 }, evs, true, by rw [go, he], rfl,
            h0, ?_, by simp⟩
          intro _
          exact ⟨[], ev, n, rfl, ⟨n, hk, Or.inr hst⟩, by simp, hk, hlast, hfin⟩
        · rw [if_neg hst] at he
          refine cont _ he rfl rfl h0 rfl ?_
          rintro ⟨m, hm, h'⟩
          rw [hk, Kind.line.injEq] at hm
          subst hm
          exact h'.elim hin hst
    | call u =>
      obtain ⟨s1, he, h1, h2, h3, h4, _⟩ := encountered_other funcs s ev (by simp [hk]) cs hc
      exact cont s1 he h1 h2 (by rw [h3, h0]) h4 (by rintro ⟨m, hm, _⟩; rw [hk] at hm; simp at hm)
    | ret =>
      obtain ⟨s1, he, h1, h2, h3, h4, _⟩ := encountered_other funcs s ev (by simp [hk]) cs hc
      exact cont s1 he h1 h2 (by rw [h3, h0]) h4 (by rintro ⟨m, hm, _⟩; rw [hk] at hm; simp at hm)
    | other =>
      obtain ⟨s1, he, h1, h2, h3, h4, _⟩ := encountered_other funcs s ev (by simp [hk]) cs hc
      exact cont s1 he h1 h2 (by rw [h3, h0]) h4 (by rintro ⟨m, hm, _⟩; rw [hk] at hm; simp at hm)

/-- C87: when no step is under way, `run` stops at the first line on which there is a
breakpoint or that it was given, and on no other; if the program comes to none it runs to its
end.  The line reported is the line stopped on. -/
theorem C87_run_partial (funcs : List (Byte × Word16)) (s : Sv) (evs : List Ev) (toLine : Int)
    (hf : Fine funcs s.callStack.length evs) (h0 : s.lineSteps = 0) (hh : s.halted = false) :
    ∃ s' rest b, request funcs s evs (.run toLine) = some (s', rest, b) ∧
      s'.lineBreaks = s.lineBreaks ∧ s'.lineSteps = 0 ∧
      (b = true → ∃ pre ev n, evs = pre ++ ev :: rest ∧ Wanted s.lineBreaks toLine ev ∧
        (∀ x ∈ pre, ¬ Wanted s.lineBreaks toLine x) ∧ kind ev = .line n ∧
        s'.callStack.getLast?.map Entry.onLine = some (BitVec.ofInt 32 n) ∧
        Fine funcs s'.callStack.length rest) ∧
      (b = false → rest = [] ∧ ∀ x ∈ evs, ¬ Wanted s.lineBreaks toLine x) := by
  have := go_run funcs evs { s with stopOnLine := toLine } hf h0
  simpa only [request, hh, Bool.false_eq_true, if_false] using this

/-- C87: `stepInto` stops at the very next line the program comes to, in whatever function. -/
theorem go_into (funcs : List (Byte × Word16)) : ∀ (pre : List Ev) (ev : Ev) (rest : List Ev)
    (s : Sv) (n : Int), Fine funcs s.callStack.length (pre ++ ev :: rest) → s.lineSteps = 1 →
    s.stepOverDepth = -1 → (∀ x ∈ pre, ∀ m, kind x ≠ .line m) → kind ev = .line n →
    ∃ s', go funcs s (pre ++ ev :: rest) = some (s', rest, true) ∧
      s'.callStack.getLast?.map Entry.onLine = some (BitVec.ofInt 32 n)
  | [], ev, rest, s, n, hf, h1, hd, _, hk => by
    obtain ⟨cs, hc, _, _⟩ := stackStep_fine hf
    have he := encountered_line funcs s ev n hk cs hc
    have hlast : cs.getLast?.map Entry.onLine = some (BitVec.ofInt 32 n) := by
      simp only [stackStep, hk] at hc
      simp only [List.nil_append, Fine, hk] at hf
      obtain ⟨cs', e, _, hl⟩ := setLine_some hf.1 (BitVec.ofInt 32 n)
      rw [hc] at e
      cases e
      exact hl
    by_cases hin : n ∈ s.lineBreaks
    · rw [if_pos hin] at he
      exact ⟨_, by rw [List.nil_append, go, he], hlast⟩
    · rw [if_neg hin, if_pos (by omega)] at he
      exact ⟨_, by rw [List.nil_append, go, he], hlast⟩
  | x :: pre, ev, rest, s, n, hf, h1, hd, hp, hk => by
    obtain ⟨cs, hc, _, hfin⟩ := stackStep_fine hf
    obtain ⟨s1, he, e1, e2, e3, e4, e5⟩ :=
      encountered_other funcs s x (fun m => hp x (by simp) m) cs hc
    rw [if_pos (by omega)] at e5
    obtain ⟨s', hg, hl⟩ := go_into funcs pre ev rest s1 n (by rw [e1]; exact hfin)
      (by rw [e3, h1]) (by rw [e5, hd]) (fun y hy => hp y (by simp [hy])) hk
    exact ⟨s', by rw [List.cons_append, go, he]; exact hg, hl⟩

theorem C87_step_into (funcs : List (Byte × Word16)) (pre : List Ev) (ev : Ev) (rest : List Ev)
    (s : Sv) (n : Int) (hf : Fine funcs s.callStack.length (pre ++ ev :: rest))
    (hh : s.halted = false) (hp : ∀ x ∈ pre, ∀ m, kind x ≠ .line m) (hk : kind ev = .line n) :
    ∃ s', request funcs s (pre ++ ev :: rest) .stepInto = some (s', rest, true) ∧
      s'.callStack.getLast?.map Entry.onLine = some (BitVec.ofInt 32 n) := by
  have := go_into funcs pre ev rest
    { s with lineSteps := 1, stepOverDepth := -1, stopOnLine := 0 } n hf rfl rfl hp hk
  simpa only [request, hh, Bool.false_eq_true, if_false] using this

/-- Calls less returns. -/
def bal : List Ev → Int
  | [] => 0
  | ev :: evs =>
    (match kind ev with
     | .call _ => 1
     | .ret => -1
     | _ => 0) + bal evs

/-- Code words run over inside functions that are called and returned from, `d` calls deep at
the start: the program is never less than 0 deep, it comes to lines only inside those functions,
and there is no breakpoint on any of those lines. -/
def Inside (breaks : List Int) : Int → List Ev → Prop
  | _, [] => True
  | d, ev :: evs =>
    match kind ev with
    | .line n => 1 ≤ d ∧ n ∉ breaks ∧ n ≠ 0 ∧ Inside breaks d evs
    | .call _ => Inside breaks (d + 1) evs
    | .ret => 0 ≤ d - 1 ∧ Inside breaks (d - 1) evs
    | .other => Inside breaks d evs

theorem go_over (funcs : List (Byte × Word16)) : ∀ (pre : List Ev) (ev : Ev) (rest : List Ev)
    (s : Sv) (n : Int), Fine funcs s.callStack.length (pre ++ ev :: rest) → s.lineSteps = 1 →
    0 ≤ s.stepOverDepth → s.stopOnLine = 0 → Inside s.lineBreaks s.stepOverDepth pre →
    kind ev = .line n → (n ∈ s.lineBreaks ∨ s.stepOverDepth + bal pre = 0) →
    ∃ s', go funcs s (pre ++ ev :: rest) = some (s', rest, true) ∧
      s'.callStack.getLast?.map Entry.onLine = some (BitVec.ofInt 32 n)
  | [], ev, rest, s, n, hf, h1, hd, _, _, hk, hb => by
    obtain ⟨cs, hc, _, _⟩ := stackStep_fine hf
    have he := encountered_line funcs s ev n hk cs hc
    have hlast : cs.getLast?.map Entry.onLine = some (BitVec.ofInt 32 n) := by
      simp only [stackStep, hk] at hc
      simp only [List.nil_append, Fine, hk] at hf
      obtain ⟨cs', e, _, hl⟩ := setLine_some hf.1 (BitVec.ofInt 32 n)
      rw [hc] at e
      cases e
      exact hl
    by_cases hin : n ∈ s.lineBreaks
    · rw [if_pos hin] at he
      exact ⟨_, by rw [List.nil_append, go, he], hlast⟩
    · have hz := hb.resolve_left hin
      simp only [bal] at hz
      rw [if_neg hin, if_pos (by omega)] at he
      exact ⟨_, by rw [List.nil_append, go, he], hlast⟩
  | x :: pre, ev, rest, s, n, hf, h1, hd, h0, hi, hk, hb => by
    obtain ⟨cs, hc, _, hfin⟩ := stackStep_fine hf
    have cont : ∀ s1 : Sv, encountered funcs s x = some (false, s1) → s1.callStack = cs →
        s1.lineBreaks = s.lineBreaks → s1.lineSteps = 1 → s1.stopOnLine = 0 →
        0 ≤ s1.stepOverDepth → Inside s.lineBreaks s1.stepOverDepth pre →
        s1.stepOverDepth + bal pre = s.stepOverDepth + bal (x :: pre) →
        ∃ s', go funcs s (x :: pre ++ ev :: rest) = some (s', rest, true) ∧
          s'.callStack.getLast?.map Entry.onLine = some (BitVec.ofInt 32 n) := by
      intro s1 he e1 e2 e3 e4 e5 e6 e7
      obtain ⟨s', hg, hl⟩ := go_over funcs pre ev rest s1 n (by rw [e1]; exact hfin) e3 e5 e4
        (by rw [e2]; exact e6) hk (by rw [e2, e7]; exact hb)
      exact ⟨s', by rw [List.cons_append, go, he]; exact hg, hl⟩
    have hd' : ¬ s.stepOverDepth < 0 := by omega
    simp only [Inside] at hi
    cases hkx : kind x with
    | line m =>
      rw [hkx] at hi
      have he := encountered_line funcs s x m hkx cs hc
      rw [if_neg hi.2.1, if_neg (by omega), if_neg (by omega), if_neg (by rw [h0]; exact hi.2.2.1)]
        at he
      exact cont _ he rfl rfl h1 h0 hd hi.2.2.2 (by simp [bal, hkx])
    | call u =>
      rw [hkx] at hi
      obtain ⟨s1, he, e1, e2, e3, e4, e5⟩ := encountered_other funcs s x (by simp [hkx]) cs hc
      rw [if_neg hd', hkx] at e5
      simp only at e5
      exact cont s1 he e1 e2 (by rw [e3, h1]) (by rw [e4, h0]) (by omega) (by rw [e5]; exact hi)
        (by simp only [bal, hkx]; omega)
    | ret =>
      rw [hkx] at hi
      obtain ⟨s1, he, e1, e2, e3, e4, e5⟩ := encountered_other funcs s x (by simp [hkx]) cs hc
      rw [if_neg hd', hkx] at e5
      simp only at e5
      exact cont s1 he e1 e2 (by rw [e3, h1]) (by rw [e4, h0]) (by omega) (by rw [e5]; exact hi.2)
        (by simp only [bal, hkx]; omega)
    | other =>
      rw [hkx] at hi
      obtain ⟨s1, he, e1, e2, e3, e4, e5⟩ := encountered_other funcs s x (by simp [hkx]) cs hc
      rw [if_neg hd', hkx] at e5
      simp only at e5
      exact cont s1 he e1 e2 (by rw [e3, h1]) (by rw [e4, h0]) (by omega) (by rw [e5]; exact hi)
        (by simp only [bal, hkx]; omega)

/-- C87: `stepOver` does not stop on the lines of functions that are called and returned from,
however deeply they call on, unless there is a breakpoint; it stops on the next line of the
function it was asked in. -/
theorem C87_step_over (funcs : List (Byte × Word16)) (pre : List Ev) (ev : Ev) (rest : List Ev)
    (s : Sv) (n : Int) (hf : Fine funcs s.callStack.length (pre ++ ev :: rest))
    (hh : s.halted = false) (hi : Inside s.lineBreaks 0 pre) (hk : kind ev = .line n)
    (hb : n ∈ s.lineBreaks ∨ bal pre = 0) :
    ∃ s', request funcs s (pre ++ ev :: rest) .stepOver = some (s', rest, true) ∧
      s'.callStack.getLast?.map Entry.onLine = some (BitVec.ofInt 32 n) := by
  have := go_over funcs pre ev rest
    { s with lineSteps := 1, stepOverDepth := 0, stopOnLine := 0 } n hf rfl (Int.le_refl 0) rfl
    hi hk (by simpa using hb)
  simpa only [request, hh, Bool.false_eq_true, if_false] using this

/-! ### Breakpoints -/

/-- Whether line `n` has a breakpoint after the requests: the last one about it was to set it. -/
def lastSet (n : Int) : Bool → List Req → Bool
  | b, [] => b
  | b, .setBreakpoint m :: rs => lastSet n (if m = n then true else b) rs
  | b, .clearBreakpoint m :: rs => lastSet n (if m = n then false else b) rs
  | b, _ :: rs => lastSet n b rs

/-- The breakpoints kept after a sequence of requests to set and clear them. -/
def breaksAfter : List Int → List Req → List Int
  | bs, [] => bs
  | bs, .setBreakpoint m :: rs => breaksAfter (clearBreakpoint bs m ++ [m]) rs
  | bs, .clearBreakpoint m :: rs => breaksAfter (clearBreakpoint bs m) rs
  | bs, _ :: rs => breaksAfter bs rs

theorem mem_erase_nodup {bs : List Int} (h : bs.Nodup) (m n : Int) :
    n ∈ bs.erase m ↔ n ≠ m ∧ n ∈ bs := h.mem_erase_iff

theorem breaksAfter_spec : ∀ (rs : List Req) (bs : List Int) (n : Int), bs.Nodup →
    ((breaksAfter bs rs).Nodup ∧ (n ∈ breaksAfter bs rs ↔ lastSet n (decide (n ∈ bs)) rs = true))
  | [], bs, n, h => ⟨h, by simp [breaksAfter, lastSet]⟩
  | .setBreakpoint m :: rs, bs, n, h => by
    have hn : (clearBreakpoint bs m ++ [m]).Nodup := by
      rw [List.nodup_append]
      refine ⟨h.erase m, by simp, ?_⟩
      intro a ha b hb
      simp only [List.mem_singleton] at hb
      subst hb
      exact ((mem_erase_nodup h _ a).1 ha).1
    have := breaksAfter_spec rs _ n hn
    refine ⟨this.1, ?_⟩
    rw [breaksAfter, this.2, lastSet]
    have e : decide (n ∈ clearBreakpoint bs m ++ [m]) = (if m = n then true else decide (n ∈ bs)) := by
      by_cases hm : m = n
      · simp [hm]
      · have hm' : ¬ n = m := fun e => hm e.symm
        simp [hm, hm', clearBreakpoint, mem_erase_nodup h]
    rw [e]
  | .clearBreakpoint m :: rs, bs, n, h => by
    have := breaksAfter_spec rs (clearBreakpoint bs m) n (h.erase m)
    refine ⟨this.1, ?_⟩
    rw [breaksAfter, this.2, lastSet]
    have e : decide (n ∈ clearBreakpoint bs m) = (if m = n then false else decide (n ∈ bs)) := by
      by_cases hm : m = n
      · simp [hm, clearBreakpoint, mem_erase_nodup h]
      · have hm' : ¬ n = m := fun e => hm e.symm
        simp [hm, hm', clearBreakpoint, mem_erase_nodup h]
    rw [e]
  | .run l :: rs, bs, n, h => by
    have := breaksAfter_spec rs bs n h
    exact ⟨this.1, this.2⟩
  | .stepOver :: rs, bs, n, h => by
    have := breaksAfter_spec rs bs n h
    exact ⟨this.1, this.2⟩
  | .stepInto :: rs, bs, n, h => by
    have := breaksAfter_spec rs bs n h
    exact ⟨this.1, this.2⟩

theorem encountered_breaks {funcs : List (Byte × Word16)} {s s' : Sv} {ev : Ev} {b : Bool}
    (h : encountered funcs s ev = some (b, s')) : s'.lineBreaks = s.lineBreaks := by
  cases hc : stackStep funcs s.callStack ev with
  | some cs =>
    cases hk : kind ev with
    | line n =>
      rw [encountered_line funcs s ev n hk cs hc] at h
      split at h
      · cases h; rfl
      · split at h
        · cases h; rfl
        · split at h
          · split at h <;> (cases h; rfl)
          · split at h <;> (cases h; rfl)
    | call u =>
      obtain ⟨s1, he, _, h2, _⟩ := encountered_other funcs s ev (by simp [hk]) cs hc
      rw [he] at h; cases h; exact h2
    | ret =>
      obtain ⟨s1, he, _, h2, _⟩ := encountered_other funcs s ev (by simp [hk]) cs hc
      rw [he] at h; cases h; exact h2
    | other =>
      obtain ⟨s1, he, _, h2, _⟩ := encountered_other funcs s ev (by simp [hk]) cs hc
      rw [he] at h; cases h; exact h2
  | none =>
    -- the code word faults
    exfalso
    cases hk : kind ev with
    | ret => simp [stackStep, hk] at hc
    | other => simp [stackStep, hk] at hc
    | line n =>
      have h1 : ev.cw.toNat / 2 ^ 14 = 1 := by
        simp only [kind] at hk
        by_cases h : ev.cw.toNat / 2 ^ 14 = 1
        · exact h
        · rw [if_neg h] at hk
          by_cases h2 : ev.cw.toNat / 2 ^ 14 = 2
          · simp [h2] at hk
          · rw [if_neg h2] at hk
            split at hk <;> simp at hk
      have hn : n = (ev.cw.toNat % 2 ^ 14 : Nat) := by
        simp only [kind, h1, if_true, Kind.line.injEq] at hk
        rw [← hk]; simp
      have hb : (ev.cw &&& payloadMask).setWidth 32 = BitVec.ofInt 32 n := by
        have : ((ev.cw &&& payloadMask).setWidth 32).toInt = n := by rw [line_toInt, hn]
        rw [← this, BitVec.ofInt_toInt]
      simp only [stackStep, hk] at hc
      simp only [encountered, (type_line ev).2 h1, if_true, hb, hc] at h
      simp at h
    | call u =>
      have hkk := hk
      simp only [kind] at hk
      by_cases h1 : ev.cw.toNat / 2 ^ 14 = 1
      · simp [h1] at hk
      rw [if_neg h1] at hk
      by_cases h2 : ev.cw.toNat / 2 ^ 14 = 2
      · simp [h2] at hk
      rw [if_neg h2] at hk
      by_cases h3 : ev.cw.toNat / 2 ^ 14 = 0 ∧ ev.cw.toNat ≠ 0xF00 ∧ ev.cw.toNat ≠ 0xE00
      · rw [if_pos h3, Kind.call.injEq] at hk
        have hp1 : ¬ ev.cw &&& payloadMask = globalStop := fun h => h3.2.1 (by
          have := (pay_is ev _ h3.1).1 h; rw [this]; rfl)
        have hp2 : ¬ ev.cw &&& payloadMask = externalFunction := fun h => h3.2.2 (by
          have := (pay_is ev _ h3.1).1 h; rw [this]; rfl)
        have hu : (ev.cw &&& payloadMask).setWidth 8 = u := by
          rw [← hk, ← BitVec.toNat_inj, BitVec.toNat_setWidth, and_payloadMask, BitVec.toNat_ofNat]
          omega
        have hne : ¬ functionCall = lineNumber := by decide
        simp only [stackStep, hkk] at hc
        simp only [encountered, (type_call ev).2 h3.1, hne, if_false, if_true, hp1, hp2, hu] at h
        have hcs : ∀ d : Prop, ∀ [Decidable d], (if d then { s with
            stepOverDepth := s.stepOverDepth + 1 } else s).callStack = s.callStack := by
          intro d _; split <;> rfl
        rw [hcs] at h
        cases hf : s.callStack.getLast? with
        | none => rw [hf] at h; simp at h
        | some fr =>
          cases hf2 : funcs[u.toNat - 1]? with
          | none => rw [hf, hf2] at h; simp at h
          | some f => rw [hf, hf2] at hc; simp at hc
      · rw [if_neg h3] at hk; simp at hk

theorem go_breaks (funcs : List (Byte × Word16)) : ∀ (evs : List Ev) (s s' : Sv) (rest : List Ev)
    (b : Bool), go funcs s evs = some (s', rest, b) → s'.lineBreaks = s.lineBreaks
  | [], s, s', rest, b, h => by
    simp only [go, Option.some.injEq, Prod.mk.injEq] at h
    rw [h.1]
  | ev :: evs, s, s', rest, b, h => by
    rw [go] at h
    cases he : encountered funcs s ev with
    | none => rw [he] at h; simp at h
    | some v =>
      obtain ⟨c, s1⟩ := v
      rw [he] at h
      have h1 := encountered_breaks he
      cases c with
      | true =>
        simp only [Option.some.injEq, Prod.mk.injEq] at h
        rw [← h.1, h1]
      | false => rw [go_breaks funcs evs s1 s' rest b h, h1]

theorem request_breaks {funcs : List (Byte × Word16)} {s s' : Sv} {evs rest : List Ev} {r : Req}
    {b : Bool} (h : request funcs s evs r = some (s', rest, b)) :
    s'.lineBreaks = breaksAfter s.lineBreaks [r] := by
  cases r with
  | setBreakpoint m =>
    simp only [request, Option.some.injEq, Prod.mk.injEq] at h
    rw [← h.1]; rfl
  | clearBreakpoint m =>
    simp only [request, Option.some.injEq, Prod.mk.injEq] at h
    rw [← h.1]; rfl
  | run l =>
    simp only [request] at h
    split at h
    · simp only [Option.some.injEq, Prod.mk.injEq] at h
      rw [← h.1]; rfl
    · have := go_breaks funcs _ _ _ _ _ h
      rw [this]; rfl
  | stepOver =>
    simp only [request] at h
    split at h
    · simp only [Option.some.injEq, Prod.mk.injEq] at h
      rw [← h.1]; rfl
    · have := go_breaks funcs _ _ _ _ _ h
      rw [this]; rfl
  | stepInto =>
    simp only [request] at h
    split at h
    · simp only [Option.some.injEq, Prod.mk.injEq] at h
      rw [← h.1]; rfl
    · have := go_breaks funcs _ _ _ _ _ h
      rw [this]; rfl

theorem breaksAfter_cons (bs : List Int) (r : Req) (rs : List Req) :
    breaksAfter bs (r :: rs) = breaksAfter (breaksAfter bs [r]) rs := by
  cases r <;> rfl

theorem requests_breaks (funcs : List (Byte × Word16)) : ∀ (rs : List Req) (s s' : Sv)
    (evs rest : List Ev) (b : Bool), requests funcs s evs rs = some (s', rest, b) →
    s'.lineBreaks = breaksAfter s.lineBreaks rs
  | [], s, s', evs, rest, b, h => by
    simp only [requests, Option.some.injEq, Prod.mk.injEq] at h
    rw [← h.1]; rfl
  | [r], s, s', evs, rest, b, h => request_breaks h
  | r :: r2 :: rs, s, s', evs, rest, b, h => by
    rw [requests] at h
    · cases he : request funcs s evs r with
      | none => rw [he] at h; simp at h
      | some v =>
        obtain ⟨s1, evs1, b1⟩ := v
        rw [he] at h
        rw [requests_breaks funcs (r2 :: rs) s1 s' evs1 rest b h, request_breaks he,
          ← breaksAfter_cons]
    · simp

/-- C87: through any session of running, stepping, setting and clearing, there is a breakpoint
on a line exactly if the last request about that line was to set one, and it is kept once. -/
theorem C87_breakpoints (funcs : List (Byte × Word16)) (rs : List Req) (g : Word16) (s' : Sv)
    (evs rest : List Ev) (b : Bool) (n : Int)
    (h : requests funcs (loaded g) evs rs = some (s', rest, b)) :
    s'.lineBreaks.Nodup ∧ (n ∈ s'.lineBreaks ↔ lastSet n false rs = true) := by
  rw [requests_breaks funcs rs _ _ _ _ _ h]
  have := breaksAfter_spec rs [] n List.nodup_nil
  simpa [loaded] using this

/-! ### Line numbers in code words -/

/-- C87: the code word for a line below 16384 is read as that line. -/
theorem C87_line_number (p : Word32) (off : Word16) (h : p.toNat < 2 ^ 14) :
    kind { cw := codewordOf lineNumber p, off := off } = .line p.toNat := by
  have hp : (p.setWidth 16 &&& payloadMask).toNat = p.toNat := by
    rw [and_payloadMask, BitVec.toNat_setWidth]; omega
  have hor : (codewordOf lineNumber p).toNat = 2 ^ 14 + p.toNat := by
    rw [codewordOf, BitVec.toNat_or, hp]
    have e : lineNumber.toNat = 2 ^ 14 * 1 := by decide
    rw [e, ← Nat.two_pow_add_eq_or_of_lt h]
  have h1 : (codewordOf lineNumber p).toNat / 2 ^ 14 = 1 := by rw [hor]; omega
  have h2 : (codewordOf lineNumber p).toNat % 2 ^ 14 = p.toNat := by rw [hor]; omega
  simp only [kind, h1, if_true, Kind.line.injEq]
  exact congrArg Int.ofNat h2

/-- C87: beyond that the numbers start again from 0. -/
theorem C87_line_wraps (p : Word32) : codewordOf lineNumber (p + 0x4000#32) = codewordOf lineNumber p := by
  have : (p + 0x4000#32).setWidth 16 &&& payloadMask = p.setWidth 16 &&& payloadMask := by
    rw [← BitVec.toNat_inj, and_payloadMask, and_payloadMask, BitVec.toNat_setWidth,
      BitVec.toNat_setWidth, BitVec.toNat_add]
    have : (0x4000#32).toNat = 2 ^ 14 := by decide
    rw [this]
    have := p.isLt
    omega
  rw [codewordOf, this, codewordOf]

/-! ### The call stack -/

/-- The call stack after a stretch of program, as the server keeps it. -/
def stackAfter (funcs : List (Byte × Word16)) : List Entry → List Ev → Option (List Entry)
  | cs, [] => some cs
  | cs, ev :: evs =>
    match stackStep funcs cs ev with
    | none => none
    | some cs => stackAfter funcs cs evs

/-- The units being executed, innermost last: what the user expects to be told. -/
def unitsAfter : List Byte → List Ev → List Byte
  | us, [] => us
  | us, ev :: evs =>
    unitsAfter (match kind ev with
      | .call u => us ++ [u]
      | .ret => us.dropLast
      | _ => us) evs

/-- The stack kept is the one `stackAfter` describes, however the program is run. -/
theorem go_stack (funcs : List (Byte × Word16)) : ∀ (evs : List Ev) (s s' : Sv) (rest : List Ev)
    (b : Bool), Fine funcs s.callStack.length evs → go funcs s evs = some (s', rest, b) →
    ∃ done, evs = done ++ rest ∧ stackAfter funcs s.callStack done = some s'.callStack
  | [], s, s', rest, b, _, h => by
    simp only [go, Option.some.injEq, Prod.mk.injEq] at h
    obtain ⟨rfl, rfl, _⟩ := h
    exact ⟨[], rfl, rfl⟩
  | ev :: evs, s, s', rest, b, hf, h => by
    obtain ⟨cs, hc, _, hfin⟩ := stackStep_fine hf
    have hstep : ∀ c s1, encountered funcs s ev = some (c, s1) → s1.callStack = cs := by
      intro c s1 he
      cases hk : kind ev with
      | line n =>
        rw [encountered_line funcs s ev n hk cs hc] at he
        split at he
        · cases he; rfl
        · split at he
          · cases he; rfl
          · split at he
            · split at he <;> (cases he; rfl)
            · split at he <;> (cases he; rfl)
      | call u =>
        obtain ⟨s2, he2, h2, _⟩ := encountered_other funcs s ev (by simp [hk]) cs hc
        rw [he2] at he; cases he; exact h2
      | ret =>
        obtain ⟨s2, he2, h2, _⟩ := encountered_other funcs s ev (by simp [hk]) cs hc
        rw [he2] at he; cases he; exact h2
      | other =>
        obtain ⟨s2, he2, h2, _⟩ := encountered_other funcs s ev (by simp [hk]) cs hc
        rw [he2] at he; cases he; exact h2
    rw [go] at h
    cases he : encountered funcs s ev with
    | none => rw [he] at h; simp at h
    | some v =>
      obtain ⟨c, s1⟩ := v
      rw [he] at h
      have h1 := hstep c s1 he
      cases c with
      | true =>
        simp only [Option.some.injEq, Prod.mk.injEq] at h
        obtain ⟨rfl, rfl, _⟩ := h
        exact ⟨[ev], rfl, by simp [stackAfter, hc, h1]⟩
      | false =>
        obtain ⟨done, e, hs⟩ := go_stack funcs evs s1 s' rest b (by rw [h1]; exact hfin) h
        refine ⟨ev :: done, by rw [e]; rfl, ?_⟩
        rw [stackAfter, hc]
        rw [h1] at hs
        exact hs

theorem setLine_units {cs cs' : List Entry} {w : Word32} (h : setLine cs w = some cs') :
    cs'.map Entry.thisUnit = cs.map Entry.thisUnit := by
  simp only [setLine] at h
  cases hr : cs.reverse with
  | nil => rw [hr] at h; simp at h
  | cons x xs =>
    rw [hr] at h
    simp only [Option.some.injEq] at h
    have hcs : cs = (x :: xs).reverse := by
      have := congrArg List.reverse hr
      simpa using this
    rw [← h, hcs]; simp

/-- C87: the call stack always has as many entries as there are functions being executed. -/
theorem C87_stack_depth (funcs : List (Byte × Word16)) : ∀ (evs : List Ev) (cs cs' : List Entry)
    (us : List Byte), cs.length = us.length → stackAfter funcs cs evs = some cs' →
    cs'.length = (unitsAfter us evs).length
  | [], cs, cs', us, hl, h => by
    simp only [stackAfter, Option.some.injEq] at h
    rw [← h]; exact hl
  | ev :: evs, cs, cs', us, hl, h => by
    rw [stackAfter] at h
    cases hc : stackStep funcs cs ev with
    | none => rw [hc] at h; simp at h
    | some cs1 =>
      rw [hc] at h
      refine C87_stack_depth funcs evs cs1 cs' _ ?_ h
      simp only [stackStep] at hc
      cases hk : kind ev with
      | line n =>
        rw [hk] at hc
        have := congrArg List.length (setLine_units hc)
        simpa [hl] using this
      | call u =>
        rw [hk] at hc
        cases hf : cs.getLast? with
        | none => rw [hf] at hc; simp at hc
        | some fr =>
          cases hf2 : funcs[u.toNat - 1]? with
          | none => rw [hf] at hc; simp [hf2] at hc
          | some f =>
            rw [hf] at hc
            simp only [hf2, Option.some.injEq] at hc
            rw [← hc]; simp [hl]
      | ret =>
        rw [hk] at hc
        simp only [Option.some.injEq] at hc
        rw [← hc]; simp [hl]
      | other =>
        rw [hk] at hc
        simp only [Option.some.injEq] at hc
        rw [← hc]; simp [hl]

/-- C87: as long as no function has returned, the entries are the functions being executed,
innermost last.  (Partial: a return takes out the outermost entry instead of the innermost, see
`C87_return_drops_the_caller`.) -/
theorem C87_stack_partial (funcs : List (Byte × Word16)) : ∀ (evs : List Ev)
    (cs cs' : List Entry), (∀ ev ∈ evs, kind ev ≠ .ret) → stackAfter funcs cs evs = some cs' →
    cs'.map Entry.thisUnit = unitsAfter (cs.map Entry.thisUnit) evs
  | [], cs, cs', _, h => by
    simp only [stackAfter, Option.some.injEq] at h
    rw [← h]; rfl
  | ev :: evs, cs, cs', hn, h => by
    rw [stackAfter] at h
    cases hc : stackStep funcs cs ev with
    | none => rw [hc] at h; simp at h
    | some cs1 =>
      rw [hc] at h
      rw [C87_stack_partial funcs evs cs1 cs' (fun e he => hn e (by simp [he])) h, unitsAfter]
      congr 1
      simp only [stackStep] at hc
      cases hk : kind ev with
      | line n => rw [hk] at hc; exact setLine_units hc
      | call u =>
        rw [hk] at hc
        cases hf : cs.getLast? with
        | none => rw [hf] at hc; simp at hc
        | some fr =>
          cases hf2 : funcs[u.toNat - 1]? with
          | none => rw [hf] at hc; simp [hf2] at hc
          | some f =>
            rw [hf] at hc
            simp only [hf2, Option.some.injEq] at hc
            rw [← hc]; simp
      | ret => exact absurd hk (hn ev (by simp))
      | other =>
        rw [hk] at hc
        simp only [Option.some.injEq] at hc
        rw [← hc]

/-- C87: a function that returns is still shown, and the outermost entry is gone instead. -/
theorem C87_return_drops_the_caller (funcs : List (Byte × Word16)) (x y : Entry)
    (ev : Ev) (hk : kind ev = .ret) :
    stackAfter funcs [x, y] [ev] = some [y] ∧
      unitsAfter [x.thisUnit, y.thisUnit] [ev] = [x.thisUnit] := by
  simp [stackAfter, stackStep, unitsAfter, hk]

end Wrench.Server
