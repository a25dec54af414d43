import Verif.Debug.Session

namespace Wrench.Session

/-! ### What the user expects -/

/-- The session as the user thinks of it: the program being debugged is asked directly. -/
structure Direct (σ δ : Type) where
  srv : σ
  source : Option δ
  syms : Option δ
  stack : Option δ
  printed : List (List Nat)

/-- Asking directly. -/
def Direct.ask {σ δ : Type} (serve : Server σ δ) (d : Direct σ δ) (r : Req) : Direct σ δ × Rep δ :=
  ({ d with srv := (serve d.srv r).1, printed := d.printed ++ (serve d.srv r).2.1 },
    (serve d.srv r).2.2)

/-- The reply's data, if it is of the right type. -/
def Rep.get {δ : Type} (k : Kind) (r : Rep δ) : Option δ := if r.kind = k then some r.data else none

/-- Something asked once and remembered. -/
def remembered {σ δ : Type} (serve : Server σ δ) (d : Direct σ δ) (have' : Option δ) (r : Req)
    (k : Kind) : Direct σ δ × Option δ :=
  match have' with
  | some x => (d, some x)
  | none => ((d.ask serve r).1, (d.ask serve r).2.get k)

/-- What each call is to do and to return. -/
def Direct.exec {σ δ : Type} (serve : Server σ δ) (d : Direct σ δ) : Op → Direct σ δ × Option δ
  | .load code =>
    let d := ({ d with source := none, syms := none, stack := none }.ask serve (.load code)).1
    let r := remembered serve d none .symbols .symbols
    ({ r.1 with syms := r.2 }, none)
  | .run l => (({ d with stack := none }.ask serve (.run l)).1, none)
  | .stepOver => (({ d with stack := none }.ask serve .stepOver).1, none)
  | .stepInto => (({ d with stack := none }.ask serve .stepInto).1, none)
  | .getSourceCode =>
    let r := remembered serve d d.source .source .source
    ({ r.1 with source := r.2 }, r.2)
  | .getSourceCodeHash => ((d.ask serve .hash).1, (d.ask serve .hash).2.get .hash)
  | .getFunctions =>
    let r := remembered serve d d.syms .symbols .symbols
    ({ r.1 with syms := r.2 }, r.2)
  | .getValue i k => ((d.ask serve (.value i k)).1, (d.ask serve (.value i k)).2.get .value)
  | .getCallstack =>
    let r := remembered serve d d.stack .callstack .callstack
    ({ r.1 with stack := r.2 }, r.2)
  | .getStackDump => ((d.ask serve .stackDump).1, (d.ask serve .stackDump).2.get .stackDump)
  | .setBreakpoint l => ((d.ask serve (.setBreakpoint l)).1, none)
  | .clearBreakpoint l => ((d.ask serve (.clearBreakpoint l)).1, none)

def Direct.session {σ δ : Type} (serve : Server σ δ) : Direct σ δ → List Op → Direct σ δ × List (Option δ)
  | d, [] => (d, [])
  | d, o :: os =>
    ((Direct.session serve (d.exec serve o).1 os).1,
      (d.exec serve o).2 :: (Direct.session serve (d.exec serve o).1 os).2)

/-! ### Queues -/

theorem takeReply_texts {δ : Type} : ∀ (ts : List (List Nat)) (w : List (Pkt δ)) (acc : List (List Nat)),
    takeReply (ts.map .text ++ w) acc = takeReply w (acc ++ ts)
  | [], w, acc => by simp
  | t :: ts, w, acc => by
    rw [List.map_cons, List.cons_append, takeReply, takeReply_texts ts w]
    simp

/-- The two sessions are at the same point, nothing being under way. -/
def InStep {σ δ : Type} (st : St σ δ) (d : Direct σ δ) : Prop :=
  st.srv = d.srv ∧ st.inbox = [] ∧ st.wire = [] ∧ st.source = d.source ∧ st.syms = d.syms ∧
    st.stack = d.stack ∧ st.shown = d.printed

theorem ask_inStep {σ δ : Type} (serve : Server σ δ) {st : St σ δ} {d : Direct σ δ}
    (h : InStep st d) (r : Req) :
    InStep (ask serve true st r).1 (d.ask serve r).1 ∧
      (ask serve true st r).2 = some (d.ask serve r).2 := by
  obtain ⟨h1, h2, h3, h4, h5, h6, h7⟩ := h
  have e : takeReply ((tick serve (send st r)).wire) (tick serve (send st r)).shown =
      (some (serve d.srv r).2.2, [], d.printed ++ (serve d.srv r).2.1) := by
    simp only [tick, send, h1, h2, h3, h7, List.nil_append, serveAll, takeReply_texts, takeReply]
  refine ⟨⟨?_, ?_, ?_, ?_, ?_, ?_, ?_⟩, ?_⟩
  · simp [ask, getPacket, tick, send, serveAll, h1, h2, Direct.ask]
  · simp [ask, getPacket, tick]
  · simp only [ask, if_true, getPacket, e]
  · simpa [ask, getPacket, tick, send, Direct.ask] using h4
  · simpa [ask, getPacket, tick, send, Direct.ask] using h5
  · simpa [ask, getPacket, tick, send, Direct.ask] using h6
  · simp only [ask, if_true, getPacket, e, Direct.ask]
  · simp only [ask, if_true, getPacket, e, Direct.ask]

/-- The server prints nothing while it answers with the symbols (the program is not run). -/
def Quiet {σ δ : Type} (serve : Server σ δ) : Prop := ∀ s, (serve s .symbols).2.1 = []

theorem ofKind_some {δ : Type} (k : Kind) (r : Rep δ) : ofKind k (some r) = r.get k := rfl

theorem populate_inStep {σ δ : Type} (serve : Server σ δ) (hq : Quiet serve) {st : St σ δ}
    {d : Direct σ δ} (h : InStep st d) :
    InStep (populateSymbols serve true st)
      { (remembered serve d d.syms .symbols .symbols).1 with
        syms := (remembered serve d d.syms .symbols .symbols).2 } := by
  obtain ⟨h1, h2, h3, h4, h5, h6, h7⟩ := h
  unfold populateSymbols remembered
  cases hs : d.syms with
  | some x =>
    rw [if_pos (by rw [h5, hs]; rfl)]
    exact ⟨h1, h2, h3, h4, by rw [h5, hs], h6, h7⟩
  | none =>
    rw [if_neg (by rw [h5, hs]; simp)]
    have hw : (tick serve (send st .symbols)).wire = [.rep (serve d.srv .symbols).2.2] := by
      simp [tick, send, serveAll, h1, h2, h3, hq d.srv]
    simp only [if_true, receive, hw]
    by_cases hk : (serve d.srv .symbols).2.2.kind = .symbols
    · rw [if_pos hk]
      refine ⟨?_, rfl, rfl, ?_, ?_, ?_, ?_⟩
      · simp [tick, send, serveAll, h1, h2, Direct.ask]
      · simpa [tick, send, Direct.ask] using h4
      · simp [Direct.ask, Rep.get, hk]
      · simpa [tick, send, Direct.ask] using h6
      · simp [tick, send, Direct.ask, h7, hq d.srv]
    · rw [if_neg hk]
      refine ⟨?_, rfl, rfl, ?_, ?_, ?_, ?_⟩
      · simp [tick, send, serveAll, h1, h2, Direct.ask]
      · simpa [tick, send, Direct.ask] using h4
      · simp [tick, send, Direct.ask, Rep.get, hk, h5, hs]
      · simpa [tick, send, Direct.ask] using h6
      · simp [tick, send, Direct.ask, h7, hq d.srv]

theorem InStep.setSource {σ δ : Type} {st : St σ δ} {d : Direct σ δ} (h : InStep st d) (x : Option δ) :
    InStep { st with source := x } { d with source := x } :=
  ⟨h.1, h.2.1, h.2.2.1, rfl, h.2.2.2.2.1, h.2.2.2.2.2.1, h.2.2.2.2.2.2⟩

theorem InStep.setStack {σ δ : Type} {st : St σ δ} {d : Direct σ δ} (h : InStep st d) (x : Option δ) :
    InStep { st with stack := x } { d with stack := x } :=
  ⟨h.1, h.2.1, h.2.2.1, h.2.2.2.1, h.2.2.2.2.1, rfl, h.2.2.2.2.2.2⟩

theorem exec_inStep {σ δ : Type} (serve : Server σ δ) (hq : Quiet serve) {st : St σ δ}
    {d : Direct σ δ} (h : InStep st d) (o : Op) (ho : ∀ code, o ≠ .load code) :
    InStep (exec serve true st o).1 (d.exec serve o).1 ∧
      (exec serve true st o).2 = (d.exec serve o).2 := by
  cases o with
  | load code => exact absurd rfl (ho code)
  | run l => exact ⟨(ask_inStep serve (h.setStack none) _).1, rfl⟩
  | stepOver => exact ⟨(ask_inStep serve (h.setStack none) _).1, rfl⟩
  | stepInto => exact ⟨(ask_inStep serve (h.setStack none) _).1, rfl⟩
  | setBreakpoint l => exact ⟨(ask_inStep serve h _).1, rfl⟩
  | clearBreakpoint l => exact ⟨(ask_inStep serve h _).1, rfl⟩
  | getSourceCodeHash =>
    obtain ⟨h1, h2⟩ := ask_inStep serve h .hash
    exact ⟨h1, by simp only [exec, h2]; rfl⟩
  | getValue i k =>
    obtain ⟨h1, h2⟩ := ask_inStep serve h (.value i k)
    exact ⟨h1, by simp only [exec, h2]; rfl⟩
  | getStackDump =>
    obtain ⟨h1, h2⟩ := ask_inStep serve h .stackDump
    exact ⟨h1, by simp only [exec, h2]; rfl⟩
  | getFunctions =>
    have h1 := populate_inStep serve hq h
    exact ⟨h1, h1.2.2.2.2.1⟩
  | getSourceCode =>
    obtain ⟨h1, h2⟩ := ask_inStep serve h .source
    cases hs : d.source with
    | some x =>
      have : st.source = some x := by rw [h.2.2.2.1, hs]
      simp only [exec, this, Option.isSome_some, if_true, Direct.exec, remembered, hs]
      exact ⟨⟨h.1, h.2.1, h.2.2.1, this, h.2.2.2.2⟩, trivial⟩
    | none =>
      have : st.source = none := by rw [h.2.2.2.1, hs]
      simp only [exec, this, Option.isSome_none, Bool.false_eq_true, if_false, Direct.exec,
        remembered, hs, h2, ofKind_some]
      exact ⟨h1.setSource _, trivial⟩
  | getCallstack =>
    obtain ⟨h1, h2⟩ := ask_inStep serve h .callstack
    cases hs : d.stack with
    | some x =>
      have : st.stack = some x := by rw [h.2.2.2.2.2.1, hs]
      simp only [exec, this, Option.isSome_some, if_true, Direct.exec, remembered, hs]
      exact ⟨⟨h.1, h.2.1, h.2.2.1, h.2.2.2.1, h.2.2.2.2.1, this, h.2.2.2.2.2.2⟩, trivial⟩
    | none =>
      have : st.stack = none := by rw [h.2.2.2.2.2.1, hs]
      simp only [exec, this, Option.isSome_none, Bool.false_eq_true, if_false, Direct.exec,
        remembered, hs, h2, ofKind_some]
      exact ⟨h1.setStack _, trivial⟩

theorem session_inStep {σ δ : Type} (serve : Server σ δ) (hq : Quiet serve) : ∀ (os : List Op)
    (ps : List Bool) (st : St σ δ) (d : Direct σ δ), InStep st d → (∀ p ∈ ps, p = true) →
    (∀ o ∈ os, ∀ code, o ≠ .load code) →
    InStep (session serve ps st os).1 (Direct.session serve d os).1 ∧
      (session serve ps st os).2 = (Direct.session serve d os).2
  | [], _, st, d, h, _, _ => ⟨h, rfl⟩
  | o :: os, ps, st, d, h, hp, hl => by
    have hh : ps.headD true = true := by
      cases ps with
      | nil => rfl
      | cons p ps => exact hp p (by simp)
    obtain ⟨h1, h2⟩ := exec_inStep serve hq h o (fun code => hl o (by simp) code)
    obtain ⟨h3, h4⟩ := session_inStep serve hq os ps.tail _ _ h1
      (fun p hp' => hp p (List.mem_of_mem_tail hp')) (fun x hx => hl x (by simp [hx]))
    simp only [session, hh, Direct.session]
    exact ⟨h3, by rw [h2, h4]⟩

/-- C89: as long as replies are there when they are looked for and no program is loaded through
the debugger, every call returns what the program being debugged answers to that very request,
and the text the program prints is handed on complete and in order. -/
theorem C89_session_partial {σ δ : Type} (serve : Server σ δ) (hq : Quiet serve) (s : σ)
    (os : List Op) (ps : List Bool) (hp : ∀ p ∈ ps, p = true)
    (hl : ∀ o ∈ os, ∀ code, o ≠ .load code) :
    (session serve ps (start s) os).2 = (Direct.session serve ⟨s, none, none, none, []⟩ os).2 ∧
    (session serve ps (start s) os).1.srv = (Direct.session serve ⟨s, none, none, none, []⟩ os).1.srv ∧
    (session serve ps (start s) os).1.shown =
      (Direct.session serve ⟨s, none, none, none, []⟩ os).1.printed := by
  obtain ⟨h1, h2⟩ := session_inStep serve hq os ps (start s) ⟨s, none, none, none, []⟩
    ⟨rfl, rfl, rfl, rfl, rfl, rfl, rfl⟩ hp hl
  exact ⟨h2, h1.1, h1.2.2.2.2.2.2⟩

/-! ### Out of step -/

/-- Replies nobody has taken: every request is then answered with the oldest of them, its own
answer goes to the end of the queue, and there are as many as before.  (The server prints nothing
in between.) -/
theorem C89_lag {σ δ : Type} (serve : Server σ δ) (st : St σ δ) (r : Req) (old : Rep δ)
    (olds : List (Rep δ)) (hi : st.inbox = []) (hw : st.wire = (old :: olds).map .rep)
    (hq : (serve st.srv r).2.1 = []) :
    (ask serve true st r).2 = some old ∧
      (ask serve true st r).1.wire = (olds ++ [(serve st.srv r).2.2]).map .rep ∧
      (ask serve true st r).1.inbox = [] := by
  have e : (tick serve (send st r)).wire =
      .rep old :: ((olds ++ [(serve st.srv r).2.2]).map .rep) := by
    simp [tick, send, serveAll, hi, hw, hq]
  refine ⟨?_, ?_, ?_⟩
  · simp [ask, getPacket, e, takeReply]
  · simp [ask, getPacket, e, takeReply]
  · simp [ask, getPacket, tick]

/-- C89: after `load` there is one: its own reply was taken for the symbols, so that the symbols
are not there and the next request will be answered with them. -/
theorem C89_load_lags {σ δ : Type} (serve : Server σ δ) (s : σ) (code : List Nat)
    (hok : (serve s (.load code)).2.2.kind = .ok) (hq1 : (serve s (.load code)).2.1 = [])
    (hq : Quiet serve) :
    let st := (exec serve true (start s) (.load code)).1
    st.syms = none ∧ st.inbox = [] ∧
      st.wire = [.rep (serve (serve s (.load code)).1 .symbols).2.2] := by
  simp [exec, populateSymbols, send, start, tick, serveAll, hq1, receive, hok, hq _]

/-- C89: a reply that is not there yet when it is looked for stays behind in the same way. -/
theorem C89_late_lags {σ δ : Type} (serve : Server σ δ) (st : St σ δ) (r : Req)
    (hi : st.inbox = []) (hw : st.wire = []) (hq : (serve st.srv r).2.1 = []) :
    (ask serve false st r).2 = none ∧
      (tick serve (ask serve false st r).1).wire = [.rep (serve st.srv r).2.2] := by
  simp [ask, getPacket, send, hi, hw, takeReply, tick, serveAll, hq]

/-- C89: the text comes without a terminator: the callback, given it as a string, reads past the
end of the packet, whatever was printed. -/
theorem C89_text_unterminated : ∀ (text append : List Nat), (∀ c ∈ text, c ≠ 0) →
    cString (debugOut text append) = none
  | [], _, _ => rfl
  | c :: cs, a, h => by
    have := C89_text_unterminated cs a (fun d hd => h d (by simp [hd]))
    simp only [debugOut] at this ⊢
    rw [cString, if_neg (h c (by simp)), this]
    rfl

/-- C89: `println` prints no end of line. -/
theorem C89_println (text : List Nat) : debugOut text [13, 10] = debugOut text [] := rfl

end Wrench.Session
