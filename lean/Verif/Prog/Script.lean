import Verif.Prog.Props

/-
C113: what the host gets from a script of integers, and from a function of integers it calls: the end of the
top-level code and of functions.

Simplification: one unit is compiled, and jumps keep their positions when the units are put together (C24).
-/
namespace Wrench.Prog
open Wrench.Vm Wrench.Vm.Jump Wrench.Peep Wrench.Whole Wrench.Ops

/-- The end of `compile`, cc.cpp 141-149. -/
def BU.close (neg : Word32 → Word32) (u : BU) : Option BU :=
  (if u.code.rops.head? = some .GlobalStop then some u.code
    else (pushOpcode neg u.code .LiteralZero).bind fun c => pushOpcode neg c .GlobalStop).bind fun c =>
  (pushOpcode neg c .Stop).map fun c => { u with code := c }

/-- The top-level code. -/
def compileScript (neg : Word32 → Word32) (s : IS) : Option BU := (compileUnit neg s true).bind (BU.close neg)

/-- What the host gets: the value, and `stopLocation`. -/
structure Got where
  val : Val
  stop : Nat
  m : M

/-- `wr_executeContext`: `pc` at the start of the code (vm.cpp 735), `n` instructions, then `GlobalStop` (vm.cpp
1287-1306): what the cell at the bottom of the stack refers to; `stopLocation` is the byte behind.  The stack is
empty at first (vm.cpp 711), so that `m.top` is its bottom. -/
def runScript (E : Env) (all : List Byte) (n : Nat) (m : M) : Option Got :=
  (bsteps E all n (0, m)).bind fun p =>
    if opAt all p.1 = some .GlobalStop then
      match deref 2 p.2.σ (.cell m.top) with
      | .ok (σ, l) => some ⟨σ.cell l, p.1 + 1, p.2⟩
      | _ => none
    else none

/-- The end of `parseUnit`, cc.cpp 1934-1939. -/
def BU.fclose (neg : Word32 → Word32) (u : BU) : Option BU :=
  if u.code.rops.head? = some .Return ∨ u.code.rops.head? = some .ReturnZero then some u
  else (pushOpcode neg u.code .ReturnZero).map fun c => { u with code := c }

/-- The code of a function. -/
def compileFn (neg : Word32 → Word32) (s : IS) : Option BU := (compileUnit neg s).bind (BU.fclose neg)

/-- The call of a function with `a` parameters and `l` further variables by the host, vm.cpp 719-733 and 1019-1066:
above `stackBase` a cell for the result, the arguments - as many as there are parameters, missing ones zero -, the
further variables, the return vector.  The payload of the first of the further variables is whatever was there
(C99).  `frameBaseAdjustment` is a byte (link.cpp 131-132).  How the code gets there step by step is C33. -/
def enterFn (σ : St) (base gb ng a l : Nat) (argv : List Word32) (junk : Word32) : M where
  σ := { σ with cell := fun
    | .cell j =>
      if j < base then σ.cell (.cell j)
      else if j = base then .int 0
      else if j < base + 1 + a then .int (argv.getD (j - base - 1) 0)
      else if j < base + 1 + a + l then .int (if j = base + 1 + a then junk else 0)
      else if j = base + 1 + a + l then .other
      else match argv[j - base - 1]? with
        | some w => .int w
        | none => σ.cell (.cell j)
    | x => σ.cell x }
  top := base + 1 + a + l + 1
  fb := base + 1 + a + l + 1 - (1 + a + l) % 256
  gb := gb
  nl := a + l
  ng := ng
  r0 := .cell (base + 1 + a + l)
  r1 := .cell base

/-- `Return` with the stack of `m2` and `Stop`, vm.cpp 1252-1306: the return vector must be below the top; the value
goes to the bottom of the stack, and the host gets what it refers to. -/
def leave (base : Nat) (m m2 : M) : Option (Val × St) :=
  if m2.top = m.top + 1 ∧ m2.σ.cell (.cell (m2.top - 2)) = m.σ.cell (.cell (m.top - 1)) then
    match deref 2 (m2.σ.set (.cell base) (m2.σ.cell (.cell (m2.top - 1)))) (.cell base) with
    | .ok (σ, x) => some (σ.cell x, σ)
    | _ => none
  else none

/-- `n` instructions of a function, then `Return` or `ReturnZero` (vm.cpp 1247-1251). -/
def runFn (E : Env) (all : List Byte) (base n : Nat) (m : M) : Option (Val × St) :=
  (bsteps E all n (0, m)).bind fun p =>
    match opAt all p.1 with
    | some .Return => leave base m p.2
    | some .ReturnZero => leave base m { p.2 with σ := p.2.σ.set (.cell p.2.top) (.int 0), top := p.2.top + 1 }
    | _ => none

/-- The variables of a function when it starts. -/
def fnVars (g : Byte → Option Word32) (a l : Nat) (argv : List Word32) (junk : Word32) : Vars
  | .G, i => g i
  | .L, i =>
    if i.toNat < a then some (argv.getD i.toNat 0)
    else if i.toNat < a + l then some (if i.toNat = a then junk else 0)
    else none

/-- The globals are in place. -/
def Globals (g : Byte → Option Word32) (gb ng : Nat) (σ : St) : Prop :=
  ∀ i w, g i = some w → i.toNat < ng ∧ σ.cell (.cell (gb + i.toNat)) = .int w

/-! ### More code behind -/

theorem bstep_append {E : Env} {all more : List Byte} {p q : Nat × M} (h : bstep E all p = some q) :
    bstep E (all ++ more) p = some q := by
  unfold bstep at h ⊢
  cases ho : opAt all p.1 with
  | none => rw [ho] at h; cases h
  | some o =>
    rw [opAt_append ho]
    rw [ho] at h
    dsimp only at h ⊢
    by_cases hj : testOf o = .RelativeJump
    · rw [if_pos hj] at h ⊢
      cases hb : branch all p.1 true with
      | none => rw [hb] at h; cases h
      | some z => rw [branch_append hb]; rw [hb] at h; exact h
    · rw [if_neg hj] at h ⊢
      cases ha : act (testOf o) with
      | none => rw [ha] at h; cases h
      | some a =>
        rw [ha] at h
        dsimp only at h ⊢
        by_cases hl : all.length < p.1 + 1 + dlen a
        · rw [if_pos hl] at h; cases h
        · rw [if_neg hl] at h
          rw [if_neg (by rw [List.length_append]; omega)]
          have hd : ((all ++ more).drop (p.1 + 1)).take (dlen a) = (all.drop (p.1 + 1)).take (dlen a) := by
            rw [List.drop_append_of_le_length (by omega), List.take_append_of_le_length (by
              rw [List.length_drop]; omega)]
          rw [hd]
          generalize Peep.exec E 2 a ((all.drop (p.1 + 1)).take (dlen a)) p.2 = r at h ⊢
          match r with
          | .ok (.next m) => exact h
          | .ok (.jump m) =>
            dsimp only at h ⊢
            cases hb : branch all p.1 true with
            | none => rw [hb] at h; cases h
            | some z => rw [branch_append hb]; rw [hb] at h; exact h
          | .ub => cases h
          | .oof => cases h

theorem bsteps_append {E : Env} {all more : List Byte} {n : Nat} {p q : Nat × M} (h : bsteps E all n p = some q) :
    bsteps E (all ++ more) n p = some q := by
  induction n generalizing p with
  | zero => exact h
  | succ n ih =>
    simp only [bsteps, Option.bind_eq_some_iff] at h ⊢
    obtain ⟨x, h1, h2⟩ := h
    exact ⟨x, bstep_append h1, ih h2⟩

/-! ### Returns -/

theorem top_run {F : List (Flow.Instr (Option Vars) (Option Word32))} {T : List Nat} {n : Nat} {c : Flow.Cfg (Option Vars)}
    {v : Option Word32} {st : Option Vars} {stop : Nat} (h : Flow.topRun F T n c = some (.value v st stop)) :
    ∃ stk, Flow.run F T n c = some (.ret v st stk) := by
  induction n generalizing c with
  | zero => cases h
  | succ n ih =>
    unfold Flow.topRun at h
    unfold Flow.run
    cases hs : Flow.step F T c with
    | go c' => rw [hs] at h; exact ih h
    | fin _ _ => rw [hs] at h; cases h
    | fault => rw [hs] at h; cases h
    | ret r st' stk => rw [hs] at h; cases h; exact ⟨stk, rfl⟩

theorem run_top {F : List (Flow.Instr (Option Vars) (Option Word32))} {T : List Nat} {n : Nat} {c : Flow.Cfg (Option Vars)}
    {v : Option Word32} {st : Option Vars} {stk : List Word32} (h : Flow.run F T n c = some (.ret v st stk)) :
    ∃ stop, Flow.topRun F T n c = some (.value v st stop) := by
  induction n generalizing c with
  | zero => cases h
  | succ n ih =>
    unfold Flow.run at h
    unfold Flow.topRun
    cases hs : Flow.step F T c with
    | go c' => rw [hs] at h; exact ih h
    | fin _ _ => rw [hs] at h; cases h
    | fault => rw [hs] at h; cases h
    | ret r st' stk' => rw [hs] at h; cases h; exact ⟨_, rfl⟩

/-- A run of `Flow` to a `return` is a run of the interpreter to the last opcode of one. -/
theorem Done.returns {glob : Bool} {E : Env} {u : BU} {k : Flow.CS (Option Vars) (Option Word32)} {L : List Chunk}
    (h : Done glob u k L) {n : Nat} {i stop : Nat} {ρ ρ' : Vars} {w : Word32} {m : M}
    (hr : Flow.topRun k.code k.tg n ⟨i, some ρ, []⟩ = some (.value (some w) (some ρ') stop)) (hm : Ready ρ m) :
    ∃ (N p : Nat) (op : Op) (m1 m2 : M), bsteps E u.all N (off L i, m) = some (p, m2) ∧ opAt u.all p = some op ∧
      Ready ρ' m1 ∧ Frame m m1 ∧ Leaves glob op m1 m2 ρ' w ∧ p + 1 = off L stop := by
  induction n generalizing i ρ m with
  | zero => cases hr
  | succ n ih =>
    unfold Flow.topRun at hr
    cases hs : Flow.step k.code k.tg ⟨i, some ρ, []⟩ with
    | go c' =>
      rw [hs] at hr
      dsimp only at hr
      obtain ⟨i', st', stk1⟩ := c'
      cases st' with
      | none =>
        obtain ⟨stk, hr⟩ := top_run hr
        exact absurd hr ((h.undef n i' stk1 ρ' stk).2 _)
      | some ρ1 =>
        obtain ⟨h1, N, m1, h2, h3, h4⟩ := h.step (E := E) hs rfl hm
        dsimp only at h1 h2
        subst h1
        obtain ⟨N', p, op, m2, m3, h5, h6, h7, h8, h9⟩ := ih hr h3
        exact ⟨_, p, op, m2, m3, bsteps_add h2 h5, h6, h7, h4.trans h8, h9⟩
    | fin st stk1 => rw [hs] at hr; cases hr
    | fault => rw [hs] at hr; cases hr
    | ret r st stk1 =>
      rw [hs] at hr
      dsimp only at hr
      cases hr
      unfold Flow.step at hs
      dsimp only at hs
      cases hx : k.code[i]? with
      | none =>
        rw [hx] at hs
        dsimp only at hs
        split at hs <;> cases hs
      | some x =>
        rw [hx] at hs
        have hi := (List.getElem?_eq_some_iff.mp hx).1
        rw [← h.rep.len] at hi
        have hc : L[i]? = some L[i] := List.getElem?_eq_getElem hi
        have hf := h.rep.fits i x _ hx hc
        have hh := h.rep.holds i _ hc
        generalize L[i] = c at hc hf hh
        cases x with
        | ret r =>
          obtain ⟨val, ⟨pre, op, h1, h2⟩, h3, -, h4⟩ := hf
          dsimp only at hs
          rw [h3] at hs
          simp only [Flow.Res.ret.injEq, Option.some.injEq] at hs
          obtain ⟨hw, rfl, -⟩ := hs
          obtain ⟨is, m2, h5, h6, h7⟩ := h2 E ρ m w hw hm
          have hpre := hh.pre
          rw [h1] at hpre
          obtain ⟨g1, g2⟩ := hpre.tail
          have hrun := orun_steps h6 (by rw [← h5]; exact g1)
          rw [← h5] at hrun
          refine ⟨_, _, op, m, m2, hrun, ?_, hm, Frame.refl m, h7, ?_⟩
          · have := g2 0 (by simp)
            rw [Nat.add_zero, List.getElem?_cons_zero] at this
            simp [opAt, this, Op.decode_code]
          · rw [off_succ hc]
            simp [Chunk.size, h1, h4]
            omega
        | act f => cases hs
        | bz t id => cases hs
        | jmp id => cases hs
        | push s => cases hs
        | pop => cases hs
        | sw a b => cases hs

/-- The closed code of a function. -/
theorem fn_done {neg : Word32 → Word32} {s : IS} {U : BU} (hg : s.good neg) (hc : compileFn neg s = some U) :
    ∃ k L, Flow.unit (some 0) s.means = some k ∧ Done false U k L := by
  unfold compileFn at hc
  rw [Option.bind_eq_some_iff] at hc
  obtain ⟨u, hu, hc⟩ := hc
  obtain ⟨k, L, h1, h2, h3⟩ := unit_done hg hu
  have hfin : (u.code.rops.head? = some .Return ∨ u.code.rops.head? = some .ReturnZero) ↔ k.endsRet = true := by
    rw [h3]
    cases u.code.rops.head? with
    | none => simp
    | some o => cases o <;> simp [final]
  unfold Flow.unit
  rw [h1, Option.map_some]
  unfold Flow.CS.finish
  unfold BU.fclose at hc
  by_cases he : k.endsRet = true
  · rw [if_pos (hfin.mpr he)] at hc
    cases hc
    exact ⟨k, L, by rw [if_pos he], h2⟩
  · rw [if_neg (mt hfin.mp he), push_zero, Option.map_some] at hc
    cases hc
    refine ⟨_, _, by rw [if_neg he], h2.rep.plain (pre := [Op.ReturnZero.code]) (x := .ret fun st => (some 0, st)) ⟨_, ret_zero, fun _ => rfl, rfl, rfl⟩ rfl rfl rfl
      rfl (quiet_final (g := false) rfl _), ?_⟩
    exact h2.res.append (more := [Op.ReturnZero.code]) (by simp [BU.all, Code.push]) rfl

/-- The closed top-level code, without the `Stop` behind it. -/
theorem script_done {neg : Word32 → Word32} {s : IS} {U : BU} (hg : s.good neg) (hc : compileScript neg s = some U) :
    ∃ k L V, Flow.unit (some 0) s.means = some k ∧ Done true V k L ∧ U.all = V.all ++ [Op.Stop.code] := by
  unfold compileScript at hc
  rw [Option.bind_eq_some_iff] at hc
  obtain ⟨u, hu, hc⟩ := hc
  obtain ⟨k, L, h1, h2, h3⟩ := unit_done hg hu
  have hfin : u.code.rops.head? = some .GlobalStop ↔ k.endsRet = true := by
    rw [h3]
    cases u.code.rops.head? with
    | none => simp
    | some o => cases o <;> simp [final]
  unfold Flow.unit
  rw [h1, Option.map_some]
  unfold Flow.CS.finish
  unfold BU.close at hc
  by_cases he : k.endsRet = true
  · rw [if_pos (hfin.mpr he), Option.bind_some, push_end (.inr (.inr rfl)), Option.map_some] at hc
    cases hc
    exact ⟨k, L, u, by rw [if_pos he], h2, by simp [BU.all, Code.push]⟩
  · rw [if_neg (mt hfin.mp he), push_end (.inl rfl), Option.bind_some, push_end (.inr (.inl rfl)), Option.bind_some,
      push_end (.inr (.inr rfl)), Option.map_some] at hc
    cases hc
    refine ⟨_, _, { u with code := (u.code.push .LiteralZero).push .GlobalStop }, by rw [if_neg he],
      ⟨h2.rep.plain (pre := [Op.LiteralZero.code, Op.GlobalStop.code])
      (x := .ret fun st => (some 0, st)) ⟨_, ret_null, fun _ => rfl, rfl, rfl⟩ rfl rfl rfl
      rfl (quiet_final (g := true) rfl _), ?_⟩, by simp [BU.all, Code.push]⟩
    exact h2.res.append (more := [Op.LiteralZero.code, Op.GlobalStop.code]) (by simp [BU.all, Code.push]) rfl

/-- The code returns what the source says; straight code returns at its end. -/
theorem unit_returns {s : IS} {k : Flow.CS (Option Vars) (Option Word32)} (hu : Flow.unit (some 0) s.means = some k)
    {n : Nat} {ρ ρ' : Vars} {o : Flow.Out (Option Word32)} {w : Word32}
    (hx : Flow.exec n s.means (some ρ) = some (o, some ρ')) (hw : Flow.valueOf (some 0) o = some (some w))
    (hl : Flow.lastRet s.means = true → o ≠ .nrm) :
    ∃ n' stop, Flow.topRun k.code k.tg n' ⟨0, some ρ, []⟩ = some (.value (some w) (some ρ') stop) ∧
      (Flow.Straight s.means → stop = k.code.length) := by
  by_cases hs : Flow.Straight s.means
  · obtain ⟨n', h⟩ := Flow.C67_execute_partial hu (means_ok s) hs hx hw
    simp only [Flow.execute, Option.map_eq_some_iff] at h
    obtain ⟨e, h1, h2⟩ := h
    refine ⟨n', k.code.length, ?_, fun _ => rfl⟩
    rw [h1]
    cases e with
    | value r st p =>
      simp only [Flow.toReply, if_true, Prod.mk.injEq, Flow.Reply.value.injEq, Flow.Context.mk.injEq, Option.some.injEq] at h2
      obtain ⟨rfl, rfl, rfl⟩ := h2
      rfl
    | stale st p => simp [Flow.toReply] at h2
    | fault => simp [Flow.toReply] at h2
  · have h := Flow.unit_sim hu (means_ok s) n (some ρ)
    rw [hx] at h
    have key : ∃ n', Flow.run k.code k.tg n' ⟨0, some ρ, []⟩ = some (.ret (some w) (some ρ') []) := by
      cases o with
      | nrm =>
        cases hw
        obtain ⟨n', h⟩ := h
        rw [if_neg (fun h => hl h rfl)] at h
        exact ⟨n', h⟩
      | ret v => cases hw; exact h
      | brk => cases hw
      | cont => cases hw
    obtain ⟨n', h⟩ := key
    obtain ⟨stop, h⟩ := run_top h
    exact ⟨n', stop, h, fun h' => absurd h' hs⟩

theorem sim_vars {ρ : Vars} {m0 m : M} {s : AS} (h0 : Ready ρ m0) (h : Sim m0 s m) : Ready ρ m := by
  have ht := h.top
  refine ⟨⟨?_, ?_, ?_⟩, ?_⟩
  · have := h0.start.locals
    rw [h.fb, h.nl, ht]; omega
  · have := h0.start.globals
    rw [h.gb, h.ng, ht]; omega
  · intro v i w hw
    obtain ⟨k, h1, h2⟩ := h0.start.vars v i w hw
    refine ⟨k, by rw [h.var]; exact h1, ?_⟩
    rw [h.below _ (by rintro j hj; cases hj; exact h0.start.below h1)]
    exact h2
  · rw [h.fb, h.gb, h.nl, h.ng]; exact h0.sep

/-- **C113**, scripts (partial).  The host runs a script of integer statements with `return` anywhere or nowhere: it gets
the value the source says - zero without a `return` -, and the variables hold what the source says.  If no `return`
stands before the end, `stopLocation` is the `Stop` at the end, so that functions can be called; otherwise see C67.
`hl` excludes scripts that end without `return` although their code ends in one (C67_stale_result). -/
theorem C113_script_partial {neg : Word32 → Word32} {s : IS} {U : BU} (hg : s.good neg)
    (hc : compileScript neg s = some U) {ρ ρ' : Vars} {n : Nat} {o : Flow.Out (Option Word32)}
    (hx : Flow.exec n s.means (some ρ) = some (o, some ρ')) {w : Word32} (hw : Flow.valueOf (some 0) o = some (some w))
    (hl : Flow.lastRet s.means = true → o ≠ .nrm) (E : Env) {m : M} (hm : Ready ρ m) :
    ∃ N stop m', runScript E U.all N m = some ⟨.int w, stop, m'⟩ ∧ Ready ρ' m' ∧ Globals (ρ' .G) m.gb m.ng m'.σ ∧
      (Flow.Straight s.means → stop + 1 = U.all.length ∧ opAt U.all stop = some .Stop) := by
  obtain ⟨k, L, V, hu, hd, hall⟩ := script_done hg hc
  obtain ⟨n', stop, h1, h2⟩ := unit_returns hu hx hw hl
  obtain ⟨N, p, op, m1, m', h3, h4, h5, h6, h7, h8⟩ := hd.returns (E := E) h1 hm
  rw [off_zero] at h3
  obtain ⟨rfl, x, r, h9, h10⟩ : op = .GlobalStop ∧ ∃ x r, Sim m1 ⟨[x], r⟩ m' ∧ x.val ρ' = some w := by
    rcases h7 with h7 | ⟨h7, -⟩
    · exact h7
    · cases h7
  have hcell := h9.stack 0 x rfl
  have htop : m'.top = m.top + 1 := by rw [h9.top, h6.top]; rfl
  rw [show m'.top - 1 - 0 = m.top by omega] at hcell
  have hval : ∃ σ l, deref 2 m'.σ (.cell m.top) = .ok (σ, l) ∧ σ.cell l = .int w := by
    cases x with
    | int v =>
      simp only [Slot.val, Option.some.injEq] at h10
      have hcell : m'.σ.cell (.cell m.top) = .int v := hcell
      subst h10
      exact ⟨_, _, by simp only [deref, hcell], hcell⟩
    | ref v i =>
      obtain ⟨a, ha, hcell⟩ := hcell
      obtain ⟨j, g1, g2⟩ := h5.start.vars v i w h10
      rw [ha] at g1
      cases g1
      have g3 : m'.σ.cell (.cell j) = .int w := by
        rw [h9.below _ (by rintro q hq; cases hq; exact h5.start.below ha)]
        exact g2
      exact ⟨_, _, by simp only [deref, hcell, g3], g3⟩
  obtain ⟨σ, l, g1, g2⟩ := hval
  refine ⟨N, p + 1, m', ?_, sim_vars h5 h9, ?_, ?_⟩
  · unfold runScript
    rw [hall]
    simp only [bsteps_append h3, Option.bind_some, opAt_append h4, if_true, g1, g2]
  · intro i v hv
    obtain ⟨j, e1, e2⟩ := (sim_vars h5 h9).start.vars .G i v hv
    unfold M.var at e1
    dsimp only at e1
    rw [h9.gb, h9.ng, h6.gb, h6.ng] at e1
    by_cases hi : i.toNat < m.ng
    · rw [if_pos hi] at e1
      cases e1
      exact ⟨hi, e2⟩
    · rw [if_neg hi] at e1
      cases e1
  · intro hs
    have hp : p + 1 = V.all.length := by rw [h8, h2 hs, ← hd.rep.len, hd.rep.size]
    rw [hp, hall]
    refine ⟨by simp, ?_⟩
    unfold opAt
    rw [List.getElem?_append_right (by simp)]
    simp [Op.decode_code]

/-! ### Functions called by the host -/

theorem enter_ready {σ : St} {base gb ng a l : Nat} {argv : List Word32} {junk : Word32} {g : Byte → Option Word32}
    (hl : 1 + a + l < 256) (hb : gb + ng ≤ base) (hg : Globals g gb ng σ) :
    Ready (fnVars g a l argv junk) (enterFn σ base gb ng a l argv junk) := by
  have hfb : (enterFn σ base gb ng a l argv junk).fb = base + 1 := by
    show base + 1 + a + l + 1 - (1 + a + l) % 256 = base + 1
    rw [Nat.mod_eq_of_lt hl]
    omega
  refine ⟨⟨?_, ?_, ?_⟩, ?_⟩
  · rw [hfb]
    show base + 1 + (a + l) ≤ base + 1 + a + l + 1
    omega
  · show gb + ng ≤ base + 1 + a + l + 1
    omega
  · intro v i w hw
    cases v with
    | G =>
      obtain ⟨h1, h2⟩ := hg i w hw
      refine ⟨gb + i.toNat, ?_, ?_⟩
      · show (if i.toNat < ng then _ else _) = _
        rw [if_pos h1]
        rfl
      · show (if gb + i.toNat < base then _ else _) = _
        rw [if_pos (by omega)]
        exact h2
    | L =>
      simp only [fnVars] at hw
      have hi : i.toNat < a + l := by
        by_cases h1 : i.toNat < a
        · omega
        · rw [if_neg h1] at hw
          by_cases h2 : i.toNat < a + l
          · exact h2
          · rw [if_neg h2] at hw; cases hw
      refine ⟨base + 1 + i.toNat, ?_, ?_⟩
      · show (if i.toNat < a + l then Res.ok (Addr.cell ((enterFn σ base gb ng a l argv junk).fb + i.toNat)) else _) = _
        rw [if_pos hi, hfb]
      · show (if base + 1 + i.toNat < base then _ else if base + 1 + i.toNat = base then _ else
          if base + 1 + i.toNat < base + 1 + a then Val.int (argv.getD (base + 1 + i.toNat - base - 1) 0) else
          if base + 1 + i.toNat < base + 1 + a + l then Val.int (if base + 1 + i.toNat = base + 1 + a then junk else 0) else
          _) = _
        rw [if_neg (by omega), if_neg (by omega)]
        by_cases h1 : i.toNat < a
        · rw [if_pos h1] at hw
          cases hw
          rw [if_pos (by omega), show base + 1 + i.toNat - base - 1 = i.toNat by omega]
        · rw [if_neg h1, if_pos hi] at hw
          cases hw
          rw [if_neg (by omega), if_pos (by omega)]
          by_cases h2 : i.toNat = a
          · rw [if_pos h2, if_pos (by omega)]
          · rw [if_neg h2, if_neg (by omega)]
  · left
    rw [hfb]
    show gb + ng ≤ base + 1
    omega

theorem leave_value {ρ : Vars} {base : Nat} {m m2 : M} {x : Slot} {w : Word32} (hm : Ready ρ m2)
    (hb : ∀ v i k, m2.var v i = .ok (.cell k) → k ≠ base) (ht : m2.top = m.top + 1)
    (hv : m2.σ.cell (.cell (m2.top - 2)) = m.σ.cell (.cell (m.top - 1))) (hc : x.holds m2 (m2.σ.cell (.cell m.top)))
    (hx : x.val ρ = some w) :
    ∃ σ, leave base m m2 = some (.int w, σ) ∧ ∀ j, j ≠ base → σ.cell (.cell j) = m2.σ.cell (.cell j) := by
  unfold leave
  rw [if_pos ⟨ht, hv⟩, show m2.top - 1 = m.top by omega]
  have hset : ∀ y j, j ≠ base → (m2.σ.set (.cell base) y).cell (.cell j) = m2.σ.cell (.cell j) := by
    intro y j hj
    show (if Addr.cell j = Addr.cell base then _ else _) = _
    rw [if_neg (by simpa using hj)]
  have hat : ∀ y, (m2.σ.set (.cell base) y).cell (.cell base) = y := by
    intro y
    show (if Addr.cell base = Addr.cell base then _ else _) = _
    rw [if_pos rfl]
  cases x with
  | int v =>
    have hc : m2.σ.cell (.cell m.top) = .int v := hc
    simp only [Slot.val, Option.some.injEq] at hx
    subst hx
    rw [hc]
    refine ⟨m2.σ.set (.cell base) (.int v), ?_, hset _⟩
    simp only [deref, hat]
  | ref v i =>
    obtain ⟨a, h1, h2⟩ := hc
    obtain ⟨k, h3, h4⟩ := hm.start.vars v i w hx
    rw [h1] at h3
    cases h3
    rw [h2]
    refine ⟨m2.σ.set (.cell base) (.ref (.cell k)), ?_, hset _⟩
    have := hset (.ref (.cell k)) k (hb v i k h1)
    rw [h4] at this
    simp only [deref, hat, this]

/-- **C113**, functions (partial).  The host calls a function of integers, with `return` anywhere or nowhere, with any
number of integers: parameters beyond the arguments are zero, arguments beyond the parameters are dropped.  It gets
the value the source says, zero without a `return`; the globals hold what the source says; nothing else below the
frame changes.  `junk` is the value the first further variable happens to have.  `hl` excludes functions that end
without `return` although their code ends in one (C66_runs_past_the_end). -/
theorem C113_function_partial {neg : Word32 → Word32} {s : IS} {U : BU} (hg : s.good neg)
    (hc : compileFn neg s = some U) {σ : St} {base gb ng a l : Nat} {argv : List Word32}
    {junk : Word32} {g : Byte → Option Word32} (hl : 1 + a + l < 256) (hb : gb + ng ≤ base) (hG : Globals g gb ng σ)
    {ρ' : Vars} {n : Nat} {o : Flow.Out (Option Word32)}
    (hx : Flow.exec n s.means (some (fnVars g a l argv junk)) = some (o, some ρ'))
    {w : Word32} (hw : Flow.valueOf (some 0) o = some (some w)) (hlast : Flow.lastRet s.means = true → o ≠ .nrm) (E : Env) :
    ∃ N σ', runFn E U.all base N (enterFn σ base gb ng a l argv junk) = some (.int w, σ') ∧ Globals (ρ' .G) gb ng σ' ∧
      ∀ j, j < base → ¬ (gb ≤ j ∧ j < gb + ng) → σ'.cell (.cell j) = σ.cell (.cell j) := by
  have hm := enter_ready (argv := argv) (junk := junk) hl hb hG
  generalize hM : enterFn σ base gb ng a l argv junk = m at hm
  have hfb : m.fb = base + 1 := by
    rw [← hM]
    show base + 1 + a + l + 1 - (1 + a + l) % 256 = base + 1
    rw [Nat.mod_eq_of_lt hl]
    omega
  have hgb : m.gb = gb := by rw [← hM]; rfl
  have hng : m.ng = ng := by rw [← hM]; rfl
  have hnl : m.nl = a + l := by rw [← hM]; rfl
  have htop : m.top = base + 1 + a + l + 1 := by rw [← hM]; rfl
  have hlow : ∀ j, j < base → m.σ.cell (.cell j) = σ.cell (.cell j) := by
    intro j hj
    rw [← hM]
    show (if j < base then _ else _) = _
    rw [if_pos hj]
  obtain ⟨k, L, hu, hd⟩ := fn_done hg hc
  obtain ⟨n', stop, h1, -⟩ := unit_returns hu hx hw hlast
  obtain ⟨N, p, op, m1, m2, hrun, hop, h2, h3, h8, -⟩ := hd.returns (E := E) h1 hm
  rw [off_zero] at hrun
  -- variables
  have hvar1 : ∀ v i, m1.var v i = m.var v i := h3.var
  have hcells : ∀ v i x, m.var v i = .ok x → ∃ k, x = .cell k ∧ k ≠ base ∧ (v = .L → base + 1 ≤ k ∧ k < base + 1 + a + l) ∧
      (v = .G → gb ≤ k ∧ k < gb + ng) := by
    intro v i x hv
    cases v with
    | L =>
      simp only [M.var, hfb, hnl] at hv
      by_cases hi : i.toNat < a + l
      · rw [if_pos hi] at hv
        cases hv
        exact ⟨_, rfl, by omega, fun _ => by omega, fun h => by cases h⟩
      · rw [if_neg hi] at hv; cases hv
    | G =>
      simp only [M.var, hgb, hng] at hv
      by_cases hi : i.toNat < ng
      · rw [if_pos hi] at hv
        cases hv
        exact ⟨_, rfl, by omega, (fun h => by cases h), fun _ => by omega⟩
      · rw [if_neg hi] at hv; cases hv
  have hvec : m1.σ.cell (.cell (m.top - 1)) = m.σ.cell (.cell (m.top - 1)) := by
    refine h3.below _ rfl (by rintro j hj; cases hj; omega) ?_
    intro v i hv
    obtain ⟨k, hk, -, h9, h10⟩ := hcells v i _ hv
    cases hk
    cases v with
    | L => have := h9 rfl; omega
    | G => have := h10 rfl; omega
  have hlow1 : ∀ j, j < base → ¬ (gb ≤ j ∧ j < gb + ng) → m1.σ.cell (.cell j) = σ.cell (.cell j) := by
    intro j hj hn
    rw [← hlow j hj]
    refine h3.below _ rfl (by rintro i hi; cases hi; omega) ?_
    intro v i hv
    obtain ⟨k, hk, -, h9, h10⟩ := hcells v i _ hv
    cases hk
    cases v with
    | L => have := h9 rfl; omega
    | G => exact hn (h10 rfl)
  -- the machine that returns
  have hret : ∃ (m3 : M) (x : Slot), (∀ σ', leave base m m3 = some (.int w, σ') → runFn E U.all base N m = some (.int w, σ')) ∧
      Ready ρ' m3 ∧ (∀ v i, m3.var v i = m.var v i) ∧ m3.top = m.top + 1 ∧
      (∀ j, j < m.top → m3.σ.cell (.cell j) = m1.σ.cell (.cell j)) ∧ x.holds m3 (m3.σ.cell (.cell m.top)) ∧
      x.val ρ' = some w := by
    have hholds : ∀ {m3 : M} {x : Slot} {v : Val}, (∀ v i, m3.var v i = m1.var v i) → x.holds m1 v → x.holds m3 v := by
      intro m3 x v hv hx
      cases x with
      | int z => exact hx
      | ref y i =>
        obtain ⟨z, g1, g2⟩ := hx
        exact ⟨z, by rw [hv]; exact g1, g2⟩
    rcases h8 with ⟨rfl, x, r, h8, h9⟩ | ⟨-, rfl, ⟨r, h8⟩, rfl⟩
    · have ht : m2.top = m.top + 1 := by rw [h8.top, h3.top]; rfl
      have hst := h8.stack 0 x rfl
      rw [show m2.top - 1 - 0 = m.top by omega] at hst
      refine ⟨m2, x, ?_, sim_vars h2 h8, fun v i => (h8.var v i).trans (hvar1 v i), ht, ?_, hholds h8.var hst, h9⟩
      · intro σ' hσ
        unfold runFn
        rw [hrun, Option.bind_some]
        simp only [hop, retOp]
        exact hσ
      · intro j hj
        exact h8.below _ (by rintro i hi; cases hi; rw [h3.top]; exact hj)
    · have ht : m2.top = m.top := by rw [h8.top, h3.top]; rfl
      have h2' := sim_vars h2 h8
      refine ⟨{ m2 with σ := m2.σ.set (.cell m2.top) (.int 0), top := m2.top + 1 }, .int 0, ?_, ?_, ?_, ?_, ?_, ?_, rfl⟩
      · intro σ' hσ
        unfold runFn
        rw [hrun, Option.bind_some]
        simp only [hop]
        exact hσ
      · refine ⟨⟨?_, ?_, ?_⟩, h2'.sep⟩
        · have := h2'.start.locals
          show m2.fb + m2.nl ≤ m2.top + 1
          omega
        · have := h2'.start.globals
          show m2.gb + m2.ng ≤ m2.top + 1
          omega
        · intro v i z hz
          obtain ⟨k, g1, g2⟩ := h2'.start.vars v i z hz
          refine ⟨k, by cases v <;> exact g1, ?_⟩
          have := h2'.start.below g1
          show (if Addr.cell k = Addr.cell m2.top then _ else _) = _
          rw [if_neg (by simp; omega)]
          exact g2
      · intro v i
        rw [← hvar1, ← h8.var]
        cases v <;> rfl
      · show m2.top + 1 = _
        rw [ht]
      · intro j hj
        show (if Addr.cell j = Addr.cell m2.top then _ else _) = _
        rw [if_neg (by simp; omega)]
        exact h8.below _ (by rintro i hi; cases hi; rw [h3.top]; exact hj)
      · show (if Addr.cell m.top = Addr.cell m2.top then _ else _) = _
        rw [if_pos (by rw [ht])]
  obtain ⟨m3, x, g1, g2, g3, g4, g5, g6, g7⟩ := hret
  obtain ⟨σ', g8, g9⟩ := leave_value (base := base) (m := m) g2 (fun v i k hv => by
    rw [g3] at hv
    obtain ⟨k', hk, h9, -⟩ := hcells v i _ hv
    cases hk
    exact h9) g4 (by rw [show m3.top - 2 = m.top - 1 by omega, g5 _ (by omega)]; exact hvec) g6 g7
  refine ⟨_, σ', g1 σ' g8, ?_, ?_⟩
  · intro i z hz
    obtain ⟨k, g10, g11⟩ := g2.start.vars .G i z hz
    rw [g3] at g10
    have hi : i.toNat < ng ∧ k = gb + i.toNat := by
      simp only [M.var, hgb, hng] at g10
      by_cases hi : i.toNat < ng
      · rw [if_pos hi] at g10
        cases g10
        exact ⟨hi, rfl⟩
      · rw [if_neg hi] at g10; cases g10
    obtain ⟨hi, rfl⟩ := hi
    exact ⟨hi, by rw [g9 _ (by omega)]; exact g11⟩
  · intro j hj hn
    rw [g9 _ (by omega), g5 _ (by omega), hlow1 j hj hn]

end Wrench.Prog
