import Verif.Frames.Props

/-
Calls of functions of imported contexts: CallFunctionByHash, discrete_src/vm/vm.cpp 862-961,
for a name that is no registered host function and that an imported context knows.

The imported context runs on the stack of the caller, from the caller's stack top on
(`stackOffset`, vm.cpp 886), with its own code and functions (`Q`); which context and function
that is, is property C54.  Cells outside the stack (`Mem.heap`) are those of both contexts.
Not modelled: host functions called by name, the collector (C15), `err` kept from before.
-/
namespace Wrench.Frames

/-- The instructions of an imported function until it ends, at most `fuel` of them. -/
def exec (Q : Prog) (base : Nat) : Nat → M → Out
  | 0, m => .run m
  | k + 1, m =>
    match step Q base m with
    | .run m1 => exec Q base k m1
    | o => o

/-- `busy`: not back after that many instructions. -/
inductive IOut where
  | back (m : M)
  | busy
  | err
  | ub

/-- Taking the result, vm.cpp 943-958: in place of the first argument, or on top. -/
def takeResult (P : Prog) (n : Nat) (m : M) (mem : Mem) : IOut :=
  if n = 0 then
    if P.limit ≤ m.top + 1 then .err
    else .back { m with mem := mem, top := m.top + 1, pc := m.pc + 1, r0 := none }
  else
    let top := m.top - (n - 1)
    let mem := mem.put (.s (top - 1)) (mem.stk m.top)
    if P.limit ≤ top then .err
    else .back { m with mem := mem, top := top, pc := m.pc + 1, r0 := none }

/-- The imported function, vm.cpp 867-897: called as the host would, with the caller's stack top
as stack base and the arguments copied from where they are. -/
def importRun (Q : Prog) (stop : Nat) (F : Fn) (n fuel : Nat) (m : M) : Out :=
  match hostCall Q none m.top stop (m.mem.put (.s m.top) (.int 0)) F (slots m.mem (m.top - n) n) with
  | .run m0 => exec Q m.top fuel m0
  | o => o

/-- CallFunctionByHash of function `F` of the imported program `Q` with `n` arguments.  A yield
inside is an error. -/
def importCall (P Q : Prog) (stop : Nat) (F : Fn) (n fuel : Nat) (m : M) : IOut :=
  if m.top < n then .ub
  else match importRun Q stop F n fuel m with
    | .run _ => .busy
    | .done _ mem => takeResult P n m mem
    | .yielded _ => .err
    | .err => .err
    | .ub => .ub

/-- The stack limit of an imported context, vm.cpp 679-681: counted from its stack base, though
the stack of `size` slots begins `base` slots earlier. -/
def Prog.onStack (Q : Prog) (size base : Nat) : Prog := { Q with limit := base + (size - 2) }

/-! ### What comes back -/

theorem exec_within {Q : Prog} {base b : Nat} {as : List Val} {m m2 : M}
    (h : Within Q base b as m m2) (k : Nat) :
    exec Q base (as.length + k) m = exec Q base k m2 ∨ ∃ c, exec Q base (as.length + k) m = .yielded c := by
  induction h with
  | nil _ => left; simp
  | @cons v as m m1 m2 _ e _ ih =>
    rw [List.length_cons, show as.length + 1 + k = as.length + k + 1 by omega]
    simp only [exec]
    cases hs : step Q base m with
    | run m' =>
      rw [stepH, hs] at e
      simp only [answer, Out.run.injEq] at e
      subst e
      exact ih
    | yielded c => exact .inr ⟨c, rfl⟩
    | done _ _ => rw [stepH, hs] at e; cases e
    | err => rw [stepH, hs] at e; cases e
    | ub => rw [stepH, hs] at e; cases e

/-- What the caller sees when an imported function with `n` arguments has come back: the frame, the
operands and the variables outside `R` are as they were, the arguments are replaced by `x`. -/
structure Resumed (R : Nat → Prop) (n : Nat) (m m' : M) (x : Val) : Prop where
  top : m'.top = m.top - n + 1
  fb : m'.fb = m.fb
  pc : m'.pc = m.pc + 1
  value : m'.mem.stk (m.top - n) = x
  below : ∀ i, i < m.top - n → ¬ R i → m'.mem.stk i = m.mem.stk i
  closed : Closed R m'.mem

/-- The function started on its arguments, `m1` is the state at the instruction with which it
returned, and `x` the value it returned. -/
structure Ran (Q : Prog) (F : Fn) (n : Nat) (m m1 : M) (x : Val) : Prop where
  run : ∃ m0 as, Within Q m.top (m.top + 1) as m0 m1 ∧ m0.fb = m.top + 1 ∧ m0.pc = F.entry ∧
    ∀ i, i < F.arguments → m0.mem.stk (m0.fb + i) = if i < n then m.mem.stk (m.top - n + i) else .int 0
  ret : (Q.code m1.pc = some .ret ∧ x = m1.mem.stk (m1.top - 1)) ∨
    (Q.code m1.pc = some .retZero ∧ x = .int 0)
  fb : m1.fb = m.top + 1

theorem import_run {Q : Prog} {dep : Depths} (hQ : Q.Ok) (hW : WF Q dep)
    {stop g n fuel : Nat} {F : Fn} {m : M} {R : Nat → Prop} (hF : Q.fns g = some F)
    (hs : Q.code stop = some .stop) (hn : n ≤ m.top)
    (hR : ∀ i, R i → i < m.top - n) (hc : Closed R m.mem) (ho : Operands R m.mem (m.top - n) m.top) :
    (∃ m', importRun Q stop F n fuel m = .run m') ∨ (∃ c, importRun Q stop F n fuel m = .yielded c) ∨
    importRun Q stop F n fuel m = .err ∨
    ∃ y mem m1 x, importRun Q stop F n fuel m = .done y mem ∧ Ran Q F n m m1 x ∧ mem.stk m.top = x ∧
      (∀ i, i < m.top → ¬ R i → mem.stk i = m.mem.stk i) ∧ Closed R mem ∧
      (∀ a, x.ptr = some a → Good (fun i => R i ∨
        (m.top + 1 ≤ i ∧ i < m.top + 1 + (F.arguments + F.frameSpaceNeeded))) a) ∧
      ∀ i, i < F.arguments + F.frameSpaceNeeded → mem.stk (m.top + 1 + i) = m1.mem.stk (m1.fb + i) := by
  generalize hm : hostState m.top stop (m.mem.put (.s m.top) (.int 0)) (slots m.mem (m.top - n) n) = h0
  have hlen : (slots m.mem (m.top - n) n).length = n := by simp [slots]
  have hc0 : hostCall Q none m.top stop (m.mem.put (.s m.top) (.int 0)) F (slots m.mem (m.top - n) n) =
      callFn Q F n h0 stop := by
    have : hostCall Q none m.top stop (m.mem.put (.s m.top) (.int 0)) F (slots m.mem (m.top - n) n) =
        callFn Q F (slots m.mem (m.top - n) n).length h0 stop := by rw [← hm]; rfl
    rwa [hlen] at this
  have ht : h0.top = m.top + 1 + n := by rw [← hm]; simp only [hostState, hlen]
  have hb : h0.top - n = m.top + 1 := by omega
  have hstk : ∀ i, i < n → h0.mem.stk (m.top + 1 + i) = m.mem.stk (m.top - n + i) := by
    intro i hi
    rw [← hm]
    simp [hostState, slots, hi]
  have hlow : ∀ i, i < m.top → h0.mem.stk i = m.mem.stk i := by
    intro i hi
    rw [← hm]
    dsimp only [hostState]
    rw [if_neg (by omega), put_stk_ne _ _ (by omega), put_stk_ne _ _ (by omega)]
  have hheap : h0.mem.heap = m.mem.heap := by rw [← hm]; rfl
  unfold importRun
  rw [hc0]
  rcases callFn_entered (P := Q) (m := h0) (n := n) (ret := stop) (hW.fns g F hF).2 (by omega) with
    e | ⟨m0, e, E⟩
  · rw [e]; exact .inr (.inr (.inl rfl))
  rw [e]
  dsimp only
  have hcl : Closed R h0.mem := by
    refine ⟨fun i => by rw [hheap]; exact hc.heap i, fun i hi a ha => ?_⟩
    rw [hlow i (by have := hR i hi; omega)] at ha
    exact hc.vars i hi a ha
  have hop : Operands R h0.mem (h0.top - n) h0.top := by
    intro i h1 h2 a ha
    obtain ⟨j, rfl⟩ : ∃ j, i = m.top + 1 + j := ⟨i - (m.top + 1), by omega⟩
    rw [hstk j (by omega)] at ha
    exact ho _ (by omega) (by omega) a ha
  have hI := callee_inv (dep := dep) hW hF (by omega) (fun i hi => by have := hR i hi; omega) hcl hop E
  have hvec : m0.mem.stk (h0.top - n + F.arguments + F.frameSpaceNeeded + 1 - 1) = .frame h0.fb stop := by
    have := E.vector
    rw [E.fb] at this
    exact this
  have o := frame_run (base := m.top) hQ hW fuel (List.replicate fuel (.int 0)) (by simp)
    (fun v hv => by rw [List.eq_of_mem_replicate hv]; rfl) _ _ _ _ _ _ _ _ hI hvec
  rw [E.fb, hb] at o
  rcases o with ⟨m2, w⟩ | ⟨a1, u, a2, m1, ha, w, e2⟩ | ⟨a1, u, a2, m1, m2, ha, w, e2, r⟩
  · have h2 := exec_within w 0
    rw [List.length_replicate, Nat.add_zero] at h2
    rcases h2 with h2 | ⟨c, h2⟩
    · exact .inl ⟨m2, h2⟩
    · exact .inr (.inl ⟨c, h2⟩)
  · have hl := congrArg List.length ha
    simp only [List.length_replicate, List.length_append, List.length_cons] at hl
    have h2 := exec_within w (a2.length + 1)
    rw [← hl] at h2
    rcases h2 with h2 | ⟨c, h2⟩
    · refine .inr (.inr (.inl ?_))
      rw [h2]
      simp only [exec]
      cases hst : step Q m.top m1 <;> rw [stepH, hst] at e2 <;> first | cases e2 | rfl
      done
    · exact .inr (.inl ⟨c, h2⟩)
  · have hl := congrArg List.length ha
    simp only [List.length_replicate, List.length_append, List.length_cons] at hl
    have h2 := exec_within w (a2.length + 1)
    rw [← hl] at h2
    rcases h2 with h2 | ⟨c, h2⟩
    · obtain ⟨q, h3, h4, h5⟩ := r.value
      have hst : step Q m.top m1 = .run m2 := by
        cases hst : step Q m.top m1 with
        | run m' => rw [stepH, hst] at e2; exact e2
        | yielded c =>
          rcases h4 with ⟨h4, -⟩ | ⟨h4, -⟩
          · simp only [step, h4, doRet] at hst
            split at hst
            · cases hst
            · split at hst <;> cases hst
          · simp only [step, h4, doRet] at hst
            split at hst
            · cases hst
            · split at hst
              · cases hst
              · split at hst <;> cases hst
        | done _ _ => rw [stepH, hst] at e2; cases e2
        | err => rw [stepH, hst] at e2; cases e2
        | ub => rw [stepH, hst] at e2; cases e2
      simp only [exec, hst] at h2
      cases hk : a2.length with
      | zero =>
        rw [hk] at h2
        exact .inl ⟨m2, h2⟩
      | succ k =>
        have hns : ¬ (R m.top ∨ (m.top + 1 ≤ m.top ∧ m.top < m.top + 1 +
            (F.arguments + F.frameSpaceNeeded))) := by
          rintro (h | h)
          · have := hR _ h; omega
          · omega
        have hall := r.all
        obtain ⟨y, hy, -⟩ := deref_ok hQ (hall.put_out (i := m.top) hns (m2.mem.stk (q + 1))) h5
        have hstop : step Q m.top m2 = .done y (m2.mem.put (.s m.top) (m2.mem.stk (q + 1))) := by
          simp only [step, r.pc, hs, h3, put_stk_same, hy]
        rw [hk] at h2
        simp only [exec, hstop] at h2
        refine .inr (.inr (.inr ⟨y, _, m1, m2.mem.stk (q + 1), h2, ⟨⟨m0, a1, w, ?_, E.pc, ?_⟩, h4, r.own⟩,
          put_stk_same .., ?_, ?_, h5, ?_⟩))
        · rw [E.fb, hb]
        · intro i hi
          rw [E.args i hi, hb]
          split
          · next h => rw [hstk i h]
          · rfl
        · intro i hi hRi
          rw [put_stk_ne _ _ (by omega), r.below i (by omega) (by rintro (h | h); exact hRi h; omega),
            E.below i (by omega), hlow i hi]
        · refine Closed.put_out ⟨r.closed.heap, fun i hi a ha => ?_⟩ (fun h => hns (.inl h)) _
          have := hR i hi
          refine (r.closed.vars i ⟨.inl hi, by omega⟩ a ha).mono (fun j hj => ⟨?_, hj.2⟩)
          rcases hj.1.1 with h | h
          · exact h
          · omega
        · intro i hi
          rw [put_stk_ne _ _ (by omega), r.own]
          exact r.vars _ (.inr ⟨by omega, by omega⟩)
    · exact .inr (.inl ⟨c, h2⟩)

/-- **C105, partial.**  Calling an imported function with any number of arguments, by value or by
reference (`R` is any set of variables closed under references that contains what the arguments refer
to): it is still running, or there is a run-time error, or the caller goes on behind the call with its
frame, its operands and its variables outside `R` untouched and the value the function returned in place
of the arguments.  Missing is that this value is not a reference to a variable of the function
(`C105_fails_variable`); it is right when the function returns a plain value. -/
theorem C105_import_call_partial {P Q : Prog} {dep : Depths} (hQ : Q.Ok) (hW : WF Q dep)
    {stop g n fuel : Nat} {F : Fn} {m : M} {R : Nat → Prop} (hF : Q.fns g = some F)
    (hs : Q.code stop = some .stop) (hn : n ≤ m.top)
    (hR : ∀ i, R i → i < m.top - n) (hc : Closed R m.mem) (ho : Operands R m.mem (m.top - n) m.top) :
    importCall P Q stop F n fuel m = .busy ∨ importCall P Q stop F n fuel m = .err ∨
    ∃ m' m1 x, importCall P Q stop F n fuel m = .back m' ∧ Ran Q F n m m1 x ∧ Resumed R n m m' x ∧
      ∀ a, x.ptr = some a → Good (fun i => R i ∨
        (m.top + 1 ≤ i ∧ i < m.top + 1 + (F.arguments + F.frameSpaceNeeded))) a := by
  unfold importCall
  rw [if_neg (by omega)]
  rcases import_run (fuel := fuel) hQ hW hF hs hn hR hc ho with
    ⟨m', e⟩ | ⟨c, e⟩ | e | ⟨y, mem, m1, x, e, hran, hx, hlow, hcl, hg, -⟩
  · rw [e]; exact .inl rfl
  · rw [e]; exact .inr (.inl rfl)
  · rw [e]; exact .inr (.inl rfl)
  · rw [e]
    dsimp only
    unfold takeResult
    by_cases h0 : n = 0
    · subst h0
      rw [if_pos rfl]
      by_cases hl : P.limit ≤ m.top + 1
      · rw [if_pos hl]; exact .inr (.inl rfl)
      · rw [if_neg hl]
        refine .inr (.inr ⟨_, m1, x, rfl, hran, ⟨by simp, rfl, rfl, ?_, ?_, hcl⟩, hg⟩)
        · simpa using hx
        · intro i hi hRi
          exact hlow i (by omega) hRi
    · rw [if_neg h0]
      dsimp only
      by_cases hl : P.limit ≤ m.top - (n - 1)
      · rw [if_pos hl]; exact .inr (.inl rfl)
      · rw [if_neg hl]
        have ht : m.top - (n - 1) - 1 = m.top - n := by omega
        refine .inr (.inr ⟨_, m1, x, rfl, hran, ⟨by show m.top - (n - 1) = _; omega, rfl, rfl, ?_, ?_, ?_⟩, hg⟩)
        · dsimp only; rw [ht, put_stk_same, hx]
        · intro i hi hRi
          dsimp only
          rw [ht, put_stk_ne _ _ (by omega)]
          exact hlow i (by omega) hRi
        · dsimp only
          rw [ht]
          exact hcl.put_out (fun h => by have := hR _ h; omega) _

/-- C105: nothing undefined happens, whatever the number of instructions. -/
theorem C105_defined {P Q : Prog} {dep : Depths} (hQ : Q.Ok) (hW : WF Q dep)
    {stop g n fuel : Nat} {F : Fn} {m : M} {R : Nat → Prop} (hF : Q.fns g = some F)
    (hs : Q.code stop = some .stop) (hn : n ≤ m.top)
    (hR : ∀ i, R i → i < m.top - n) (hc : Closed R m.mem) (ho : Operands R m.mem (m.top - n) m.top) :
    importCall P Q stop F n fuel m ≠ .ub := by
  rcases C105_import_call_partial (P := P) (fuel := fuel) hQ hW hF hs hn hR hc ho with e | e | ⟨_, _, _, e, _⟩ <;>
    rw [e] <;> simp

/-- C105: a function that yields is stopped with an error, whatever it did before. -/
theorem C105_yield_is_error {P Q : Prog} {stop n fuel : Nat} {F : Fn} {m : M} {c : Ctx} (hn : n ≤ m.top)
    (h : importRun Q stop F n fuel m = .yielded c) : importCall P Q stop F n fuel m = .err := by
  unfold importCall
  rw [if_neg (by omega), h]

/-- C105 fails: the result is not dereferenced.  When the function returns one of its variables, the caller
gets a reference to a slot above its stack top, which the operands pushed next overwrite. -/
theorem C105_fails_variable {R : Nat → Prop} {n j : Nat} {m m' : M} {x : Val}
    (h : Resumed R n m m' x) (hx : x = .ref (.s (m.top + 1 + j))) (hn : n ≤ m.top) :
    m'.mem.stk (m'.top - 1) = .ref (.s (m'.top + (n + j))) := by
  rw [h.top, Nat.add_sub_cancel, h.value, hx, show m.top - n + 1 + (n + j) = m.top + 1 + j by omega]

end Wrench.Frames
