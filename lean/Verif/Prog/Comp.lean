import Verif.Prog.Rep
import Verif.Flow.EntryProps

/-
The compiler of bytes follows the compiler of `Flow`: every statement leaves a unit that holds the chunks
of the instructions of `Flow`.
-/
namespace Wrench.Prog
open Wrench.Vm Wrench.Vm.Jump Wrench.Peep Wrench.Whole Wrench.Ops

theorem popped_final {o : Op} (h : popped o = true) (g : Bool) : final g o = false :=
  Op.all_of (p := fun o => popped o = true → ∀ g, final g o = false) (by decide +kernel) o h g

theorem branch_final {o : Op} (h : vmBranch o ≠ none) (g : Bool) : final g o = false :=
  Op.all_of (p := fun o => vmBranch o ≠ none → ∀ g, final g o = false) (by decide +kernel) o h g

/-- A condition and its branch. -/
theorem cond_stmt {neg : Word32 → Word32} {u u' : BU} {e : IE} {id : Nat} (hg : Good neg e) (hq : quiet u.code.rops)
    (h : u.cond neg e id = some u') : ∃ pre op d, CondOk e pre op d ∧
      u'.all = u.all ++ (pre ++ op.code :: d ++ [9#8, 9#8]) ∧ u'.ts = addRef u.ts id (u.all.length + pre.length + 1) ∧
      u'.cs = u.cs ∧ u'.bs = u.bs ∧ quiet u'.code.rops ∧ ∀ g, u'.code.rops.head?.any (final g) = false := by
  obtain ⟨c, h1, h2⟩ := hg.code
  obtain ⟨ris, h3, -⟩ := h2.code fun _ _ => none
  unfold BU.cond BU.source at h
  rw [h1, Option.bind_some, appendCode_plain h3 h2.small, Option.bind_some] at h
  simp only [Option.bind_eq_some_iff, Option.map_eq_some_iff] at h
  obtain ⟨b, h4, last, h5, rfl⟩ := h
  obtain ⟨pre, op, d, g1, g2, g3⟩ := cond_shape h2 hq h4
  rw [g2] at h5
  cases h5
  refine ⟨pre, last, d, g3, ?_, ?_, rfl, rfl, ?_, ?_⟩
  · simp [BU.all, addSource, g1]
  · simp only [addSource, back_eq g3.branch g3.source, g1]
    congr 1
    simp [BU.all]
    omega
  · intro o ho
    dsimp only at ho
    rw [g2] at ho
    cases ho
    left
    rw [g3.branch]
    simp
  · intro g
    dsimp only
    rw [g2]
    exact branch_final (by rw [g3.branch]; simp) g

theorem pushOpcode_jump (neg : Word32 → Word32) (b : Code) : pushOpcode neg b .RelativeJump = some (b.push .RelativeJump) := by
  unfold pushOpcode
  cases b.rops with
  | nil => rfl
  | cons last rest => rfl

/-- A jump. -/
theorem jump_stmt {neg : Word32 → Word32} {u u' : BU} {id : Nat} (h : u.source neg .RelativeJump id = some u') :
    u'.all = u.all ++ ([] ++ Op.RelativeJump.code :: [] ++ [9#8, 9#8]) ∧
      u'.ts = addRef u.ts id (u.all.length + ([] : List Byte).length + 1) ∧ u'.cs = u.cs ∧ u'.bs = u.bs ∧
      quiet u'.code.rops ∧ ∀ g, u'.code.rops.head?.any (final g) = false := by
  unfold BU.source at h
  rw [pushOpcode_jump, Option.bind_some] at h
  simp only [Code.push, List.head?_cons, Option.map_some, Option.some.injEq] at h
  subst h
  refine ⟨?_, ?_, rfl, rfl, ?_, fun g => by cases g <;> rfl⟩
  · simp [BU.all, addSource]
  · simp only [addSource, show back .RelativeJump = 0 from rfl]
    congr 1
    simp [BU.all]
  · intro o ho
    cases ho
    exact .inl (by decide)

/-- The end of the cache says whether the last instruction is a return. -/
def Ends (glob : Bool) (u : BU) (k : Flow.CS (Option Vars) (Option Word32)) : Prop := k.endsRet = u.code.rops.head?.any (final glob)

theorem Ends.emit {glob : Bool} {u : BU} {k : Flow.CS (Option Vars) (Option Word32)} {x : Flow.Instr (Option Vars) (Option Word32)}
    (h : x.isRet = u.code.rops.head?.any (final glob)) : Ends glob u (k.emit x) := by
  unfold Ends
  rw [Flow.endsRet_append _ k.code _ rfl, h]

theorem Rep.cond {glob : Bool} {neg : Word32 → Word32} {u u' : BU} {k : Flow.CS (Option Vars) (Option Word32)} {L : List Chunk} (h : Rep glob u k L)
    {e : IE} {id : Nat} (hg : Good neg e) (hid : id < u.ts.length) (hc : u.cond neg e id = some u') :
    (∃ L', Rep glob u' (k.emit (.bz (test e) id)) L') ∧ u'.cs = u.cs ∧ u'.bs = u.bs ∧ u'.ts.length = u.ts.length ∧
      Ends glob u' (k.emit (.bz (test e) id)) := by
  obtain ⟨pre, op, d, g1, g2, g3, g4, g5, g6, g7⟩ := cond_stmt hg h.quiet hc
  exact ⟨⟨_, h.branch g1.branch g1.test ⟨e, op, d, rfl, g1, rfl⟩ g2 g3 hid g4 g5 g6⟩, g4, g5, by rw [g3, addRef, List.length_modify],
    .emit (g7 glob).symm⟩

theorem Rep.jump {glob : Bool} {neg : Word32 → Word32} {u u' : BU} {k : Flow.CS (Option Vars) (Option Word32)} {L : List Chunk} (h : Rep glob u k L)
    {id : Nat} (hid : id < u.ts.length) (hc : u.source neg .RelativeJump id = some u') :
    (∃ L', Rep glob u' (k.emit (.jmp id)) L') ∧ u'.cs = u.cs ∧ u'.bs = u.bs ∧ u'.ts.length = u.ts.length ∧
      Ends glob u' (k.emit (.jmp id)) := by
  obtain ⟨g2, g3, g4, g5, g6, g7⟩ := jump_stmt hc
  exact ⟨⟨_, h.branch (op := .RelativeJump) (d := []) (by rfl) (by rfl) ⟨rfl, rfl⟩ g2 g3 hid g4 g5 g6⟩, g4, g5,
    by rw [g3, addRef, List.length_modify], .emit (g7 glob).symm⟩

theorem emits_cons (k : Flow.CS (Option Vars) (Option Word32)) (x : Flow.Instr (Option Vars) (Option Word32)) (l : List (Flow.Instr (Option Vars) (Option Word32))) :
    k.emits (x :: l) = (k.emit x).emits l := by
  simp [Flow.CS.emits, Flow.CS.emit]

theorem Rep.setups {glob : Bool} {neg : Word32 → Word32} {l : List Eff} {u u' : BU} {k : Flow.CS (Option Vars) (Option Word32)} {L : List Chunk}
    (h : Rep glob u k L) (hg : ∀ a ∈ l, a.good neg) (hc : u.setups neg l = some u') :
    (∃ L', Rep glob u' (k.emits ((l.map Eff.means).map .act)) L') ∧ u'.cs = u.cs ∧ u'.bs = u.bs ∧ u'.ts = u.ts := by
  induction l generalizing u k L with
  | nil =>
    cases hc
    exact ⟨⟨L, by simpa [Flow.CS.emits] using h⟩, rfl, rfl, rfl⟩
  | cons a l ih =>
    unfold BU.setups at hc
    rw [Option.bind_eq_some_iff] at hc
    obtain ⟨v, h1, h2⟩ := hc
    obtain ⟨pre, g1, g2, g6, g3, g4, g5⟩ := eff_setup (hg a List.mem_cons_self) h.quiet h1
    obtain ⟨⟨L', i1⟩, i2, i3, i4⟩ := ih (h.act g1 g2 g3 g4 g5 g6)
      (fun b hb => hg b (List.mem_cons_of_mem _ hb)) h2
    refine ⟨⟨L', ?_⟩, i2.trans g4, i3.trans g5, i4.trans g3⟩
    rw [List.map_cons, List.map_cons, emits_cons]
    exact i1

theorem Rep.acts {glob : Bool} {l : List Eff} {ps : List (List Byte)} {u : BU} {k : Flow.CS (Option Vars) (Option Word32)} {L : List Chunk}
    (h : Rep glob u k L) (ha : AllOk l ps) :
    ∃ L', Rep glob { u with code := ⟨ps.flatten.reverse ++ u.code.rall, u.code.rops⟩ } (k.emits ((l.map Eff.means).map .act)) L' := by
  induction ha generalizing u k L with
  | nil => exact ⟨L, by simpa [Flow.CS.emits] using h⟩
  | @cons a l pre ps h1 h2 ih =>
    obtain ⟨L', i⟩ := ih (h.act (u' := { u with code := ⟨pre.reverse ++ u.code.rall, u.code.rops⟩ }) h1 rfl rfl rfl rfl h.quiet)
    refine ⟨L', ?_⟩
    rw [List.map_cons, List.map_cons, emits_cons]
    simpa using i

theorem Rep.post {glob : Bool} {neg : Word32 → Word32} {l : List Eff} {u u' : BU} {k : Flow.CS (Option Vars) (Option Word32)} {L : List Chunk}
    (h : Rep glob u k L) (hg : ∀ a ∈ l, a.good neg) (hc : u.post neg l = some u') :
    (∃ L', Rep glob u' (k.emits ((l.map Eff.means).map .act)) L') ∧ u'.cs = u.cs ∧ u'.bs = u.bs ∧ u'.ts = u.ts := by
  obtain ⟨ps, g1, g2, g6, g3, g4, g5⟩ := eff_post hg h.quiet hc
  obtain ⟨L', i⟩ := h.acts g1
  refine ⟨⟨L', ?_⟩, g4, g5, g3⟩
  obtain ⟨⟨all, ops⟩, ts, cs, bs⟩ := u'
  dsimp only at g2 g3 g4 g5 g6
  subst g2 g3 g4 g5
  exact ⟨i.len, i.fits, i.size, i.holds, i.refs, i.sites, i.layout, i.tlen, i.offs, i.inside, i.cs, i.bs, i.ctx, g6⟩

/-- The targets of `continue` and `break` are set. -/
theorem Rep.within {glob : Bool} {u : BU} {k : Flow.CS (Option Vars) (Option Word32)} {L : List Chunk} (h : Rep glob u k L) (cs bs : List Nat)
    (hx : ∀ x, x ∈ cs ∨ x ∈ bs → x < u.ts.length) : Rep glob { u with cs := cs, bs := bs } { k with cs := cs, bs := bs } L :=
  ⟨h.len, h.fits, h.size, h.holds, h.refs, h.sites, h.layout, h.tlen, h.offs, h.inside, rfl, rfl, hx, h.quiet⟩

/-- All expressions of a statement are `Good`. -/
def IS.good (neg : Word32 → Word32) : IS → Prop
  | .skip => True
  | .asg a => a.good neg
  | .seq s t => s.good neg ∧ t.good neg
  | .ifThen e s => Good neg e ∧ s.good neg
  | .ifElse e s t => Good neg e ∧ s.good neg ∧ t.good neg
  | .loop e s => Good neg e ∧ s.good neg
  | .doLoop s e => s.good neg ∧ Good neg e
  | .forLoop init e post s =>
    (∀ a ∈ init, a.good neg) ∧ (∀ x ∈ e, Good neg x) ∧ (∀ a ∈ post, a.good neg) ∧ s.good neg
  | .brk => True
  | .cont => True
  | .ret e => ∀ x ∈ e, Good neg x

/-- The unit, compiled further. -/
structure More (u u' : BU) : Prop where
  cs : u'.cs = u.cs
  bs : u'.bs = u.bs
  ts : u.ts.length ≤ u'.ts.length

theorem branch_append {all more : List Byte} {p : Nat} {v : Int} (h : branch all p true = some v) :
    branch (all ++ more) p true = some v := by
  have h8 : ∀ q b, read8 all q = some b → read8 (all ++ more) q = some b := by
    intro q b hb
    unfold read8 at hb ⊢
    cases hx : all[q]? with
    | none => rw [hx] at hb; cases hb
    | some x => rw [List.getElem?_append_left (List.getElem?_eq_some_iff.mp hx).1, hx, ← hx]; exact hb
  have h16 : ∀ q b, read16 all q = some b → read16 (all ++ more) q = some b := by
    intro q b hb
    unfold read16 at hb ⊢
    cases hx : all[q]? with
    | none => rw [hx] at hb; cases hb
    | some x =>
      cases hy : all[q + 1]? with
      | none => rw [hx, hy] at hb; cases hb
      | some y =>
        rw [List.getElem?_append_left (List.getElem?_eq_some_iff.mp hx).1,
          List.getElem?_append_left (List.getElem?_eq_some_iff.mp hy).1]
        exact hb
  unfold branch at h ⊢
  cases hx : all[p]? with
  | none => rw [hx] at h; cases h
  | some x =>
    rw [List.getElem?_append_left (List.getElem?_eq_some_iff.mp hx).1, hx]
    rw [hx] at h
    rw [Option.bind_some] at h ⊢
    cases ho : Op.decode x with
    | none => rw [ho] at h; cases h
    | some o =>
      rw [ho] at h
      dsimp only at h ⊢
      cases hv : vmBranch o with
      | none => rw [hv] at h; cases h
      | some q =>
        obtain ⟨k, w⟩ := q
        rw [hv] at h
        simp only [if_true] at h ⊢
        cases w with
        | w8 =>
          simp only [Option.map_eq_some_iff] at h ⊢
          obtain ⟨b, h1, h2⟩ := h
          exact ⟨b, h8 _ _ h1, h2⟩
        | w16 =>
          simp only [Option.map_eq_some_iff] at h ⊢
          obtain ⟨b, h1, h2⟩ := h
          exact ⟨b, h16 _ _ h1, h2⟩

theorem Resolved.append {u u' : BU} (h : Resolved u) {more : List Byte} (ha : u'.all = u.all ++ more) (ht : u'.ts = u.ts) :
    Resolved u' := by
  intro t h1 r h2
  rw [ht] at h1
  rw [ha]
  exact branch_append (h t h1 r h2)

theorem compile_rep {neg : Word32 → Word32} {glob : Bool} (s : IS) : ∀ {u u' : BU} {k : Flow.CS (Option Vars) (Option Word32)} {L : List Chunk},
    s.good neg → Rep glob u k L → compile neg glob s u = some u' →
    ∃ k' L', Flow.compile s.means k = some k' ∧ Rep glob u' k' L' ∧ More u u' ∧
      (u.cs = [] → u.bs = [] → Resolved u → Resolved u') ∧ (Ends glob u k → Ends glob u' k') := by
  induction s with
  | skip =>
    intro u u' k L _ hr hc
    cases hc
    exact ⟨k, L, rfl, hr, ⟨rfl, rfl, Nat.le_refl _⟩, fun _ _ h => h, fun h => h⟩
  | asg a =>
    intro u u' k L hg hr hc
    obtain ⟨pre, g1, g2, g6, g3, g4, g5⟩ := eff_stmt hg hr.quiet hc
    refine ⟨_, _, rfl, hr.act g1 g2 g3 g4 g5 g6.quiet, ⟨g4, g5, by rw [g3]⟩, fun _ _ h => h.append (more := pre) ?_ g3,
      fun _ => .emit ?_⟩
    · simp [BU.all, g2]
    · cases hx : u'.code.rops.head? with
      | none => rfl
      | some o => exact (popped_final (g6 o hx) glob).symm
  | seq s t ihs iht =>
    intro u u' k L hg hr hc
    unfold compile at hc
    rw [Option.bind_eq_some_iff] at hc
    obtain ⟨v, h1, h2⟩ := hc
    obtain ⟨k1, L1, a1, a2, a3, a4, a5⟩ := ihs hg.1 hr h1
    obtain ⟨k2, L2, b1, b2, b3, b4, b5⟩ := iht hg.2 a2 h2
    refine ⟨k2, L2, ?_, b2, ⟨b3.cs.trans a3.cs, b3.bs.trans a3.bs, Nat.le_trans a3.ts b3.ts⟩,
      fun h1 h2 h3 => b4 (a3.cs.trans h1) (a3.bs.trans h2) (a4 h1 h2 h3), fun h => b5 (a5 h)⟩
    simp only [IS.means, Flow.compile, a1, Option.bind_some, b1]
  | ifThen e s ih =>
    intro u u' k L hg hr hc
    unfold compile at hc
    simp only [Option.bind_eq_some_iff] at hc
    obtain ⟨v, h1, w, h2, h3⟩ := hc
    have hl : u.new.ts.length = u.ts.length + 1 := by simp [BU.new]
    obtain ⟨⟨L1, a1⟩, a2, a3, a4, a5⟩ := hr.new.cond hg.1 (by omega) h1
    obtain ⟨k2, L2, b1, b2, b3, -, b5⟩ := ih hg.2 a1 h2
    obtain ⟨c1, cr, c2, c3, c4, c5⟩ := (b2.place u.ts.length).resolve h3
    have hpl : (w.place u.ts.length).ts.length = w.ts.length := by simp [BU.place]
    refine ⟨_, L2, ?_, c1, ⟨?_, ?_, ?_⟩, fun _ _ _ => cr, fun _ => ?_⟩
    · rw [hr.tlen] at b1 ⊢
      simp only [IS.means, Flow.compile, b1, Option.map_some]
    · exact c3.trans (b3.cs.trans a2)
    · exact c4.trans (b3.bs.trans a3)
    · rw [c2]
      have := b3.ts
      omega
    · have := b5 a5
      unfold Ends at this ⊢
      rw [c5]
      exact this
  | ifElse e s t ihs iht =>
    intro u u' k L hg hr hc
    unfold compile at hc
    simp only [Option.bind_eq_some_iff] at hc
    obtain ⟨v, h1, w, h2, x, h3, y, h4, h5⟩ := hc
    have hl : u.new.ts.length = u.ts.length + 1 := by simp [BU.new]
    have hl2 : w.new.ts.length = w.ts.length + 1 := by simp [BU.new]
    obtain ⟨⟨L1, a1⟩, a2, a3, a4, -⟩ := hr.new.cond hg.1 (by omega) h1
    obtain ⟨k2, L2, b1, b2, b3, -, -⟩ := ihs hg.2.1 a1 h2
    obtain ⟨⟨L3, c1⟩, c2, c3, c4, c5⟩ := b2.new.jump (by omega) h3
    obtain ⟨k4, L4, d1, d2, d3, -, d5⟩ := iht hg.2.2 (c1.place u.ts.length) h4
    obtain ⟨e1, er, e2, e3, e4, e5⟩ := (d2.place w.ts.length).resolve h5
    have hpl : (y.place w.ts.length).ts.length = y.ts.length := by simp [BU.place]
    have hpx : (x.place u.ts.length).ts.length = x.ts.length := by simp [BU.place]
    refine ⟨_, L4, ?_, e1, ⟨?_, ?_, ?_⟩, fun _ _ _ => er, fun _ => ?_⟩
    · rw [hr.tlen, b2.tlen] at d1
      rw [hr.tlen] at b1
      rw [b2.tlen]
      simp only [IS.means, Flow.compile, b1, Option.bind_some, d1, Option.map_some]
    · exact e3.trans (d3.cs.trans (c2.trans (b3.cs.trans a2)))
    · exact e4.trans (d3.bs.trans (c3.trans (b3.bs.trans a3)))
    · rw [e2]
      have := b3.ts
      have := d3.ts
      omega
    · have := d5 c5
      unfold Ends at this ⊢
      rw [e5]
      exact this
  | loop e s ih =>
    intro u u' k L hg hr hc
    unfold compile at hc
    simp only [Option.bind_eq_some_iff] at hc
    obtain ⟨v, h1, w, h2, x, h3, h4⟩ := hc
    have hl : (u.new.place u.ts.length).new.ts.length = u.ts.length + 2 := by simp [BU.new, BU.place]
    obtain ⟨⟨L1, a1⟩, a2, a3, a4, -⟩ := ((hr.new.place u.ts.length).new).cond hg.1 (by omega) h1
    have hctx : ∀ z, z ∈ u.ts.length :: u.cs ∨ z ∈ (u.ts.length + 1) :: u.bs → z < v.ts.length := by
      intro z hz
      have := hr.ctx z
      simp only [List.mem_cons] at hz
      rcases hz with (h | h) | (h | h)
      · omega
      · have := this (.inl h); omega
      · omega
      · have := this (.inr h); omega
    obtain ⟨k2, L2, b1, b2, b3, -, -⟩ := ih hg.2 (a1.within _ _ hctx) h2
    have hvw := b3.ts
    dsimp only at hvw
    obtain ⟨⟨L3, c1⟩, c2, c3, c4, c5⟩ := b2.jump (by omega) h3
    have hpl : (x.place (u.ts.length + 1)).ts.length = x.ts.length := by simp [BU.place]
    obtain ⟨e1, er, e2, e3, e4, e5⟩ := ((c1.place (u.ts.length + 1)).within u.cs u.bs (by
      intro z hz
      have := hr.ctx z hz
      omega)).resolve h4
    refine ⟨_, L3, ?_, e1, ⟨e3, e4, ?_⟩, fun _ _ _ => er, fun _ => ?_⟩
    · rw [hr.tlen] at b1 ⊢
      rw [hr.cs, hr.bs] at b1 ⊢
      simp only [IS.means, Flow.compile, b1, Option.map_some]
    · rw [e2]
      dsimp only
      omega
    · unfold Ends at c5 ⊢
      rw [e5]
      exact c5
  | doLoop s e ih =>
    intro u u' k L hg hr hc
    unfold compile at hc
    simp only [Option.bind_eq_some_iff] at hc
    obtain ⟨w, h2, v, h1, x, h3, h4⟩ := hc
    have hl : (u.new.new.new.place (u.ts.length + 2)).ts.length = u.ts.length + 3 := by simp [BU.new, BU.place]
    have hctx : ∀ z, z ∈ u.ts.length :: u.cs ∨ z ∈ (u.ts.length + 1) :: u.bs →
        z < (u.new.new.new.place (u.ts.length + 2)).ts.length := by
      intro z hz
      have := hr.ctx z
      simp only [List.mem_cons] at hz
      rcases hz with (h | h) | (h | h)
      · omega
      · have := this (.inl h); omega
      · omega
      · have := this (.inr h); omega
    obtain ⟨k2, L2, b1, b2, b3, -, -⟩ := ih hg.1 ((hr.new.new.new.place (u.ts.length + 2)).within _ _ hctx) h2
    have hvw := b3.ts
    dsimp only at hvw
    have hpw : (w.place u.ts.length).ts.length = w.ts.length := by simp [BU.place]
    obtain ⟨⟨L1, a1⟩, a2, a3, a4, -⟩ := (b2.place u.ts.length).cond hg.2 (by omega) h1
    obtain ⟨⟨L3, c1⟩, c2, c3, c4, c5⟩ := a1.jump (by omega) h3
    have hpl : (x.place (u.ts.length + 1)).ts.length = x.ts.length := by simp [BU.place]
    obtain ⟨e1, er, e2, e3, e4, e5⟩ := ((c1.place (u.ts.length + 1)).within u.cs u.bs (by
      intro z hz
      have := hr.ctx z hz
      omega)).resolve h4
    refine ⟨_, L3, ?_, e1, ⟨e3, e4, ?_⟩, fun _ _ _ => er, fun _ => ?_⟩
    · rw [hr.tlen] at b1 ⊢
      rw [hr.cs, hr.bs] at b1 ⊢
      simp only [IS.means, Flow.compile, b1, Option.map_some]
    · rw [e2]
      dsimp only
      omega
    · unfold Ends at c5 ⊢
      rw [e5]
      exact c5
  | forLoop init c post s ih =>
    intro u u' k L hg hr hc
    obtain ⟨hg1, hg2, hg3, hg4⟩ := hg
    unfold compile at hc
    simp only [Option.bind_eq_some_iff] at hc
    obtain ⟨p, h0, v, h1, w, h2, q, h5, x, h3, h4⟩ := hc
    have hl : u.new.new.ts.length = u.ts.length + 2 := by simp [BU.new]
    obtain ⟨⟨L0, p1⟩, p2, p3, p4⟩ := hr.new.new.setups hg1 h0
    have hlp : (p.new.place (u.ts.length + 2)).ts.length = u.ts.length + 3 := by
      simp [BU.new, BU.place, p4]
    have hp := p1.new.place (u.ts.length + 2)
    have hv : (∃ L1, Rep glob v (match c.map test with
        | none => ((k.new.new.emits ((init.map Eff.means).map .act)).new).place (u.ts.length + 2)
        | some t => (((k.new.new.emits ((init.map Eff.means).map .act)).new).place (u.ts.length + 2)).emit
            (.bz t (u.ts.length + 1))) L1) ∧ v.ts.length = u.ts.length + 3 := by
      cases c with
      | none =>
        cases h1
        exact ⟨⟨L0, hp⟩, hlp⟩
      | some e =>
        obtain ⟨a1, a2, a3, a4, -⟩ := hp.cond (hg2 e rfl) (by omega) h1
        exact ⟨a1, a4.trans hlp⟩
    obtain ⟨⟨L1, a1⟩, a4⟩ := hv
    have hctx : ∀ z, z ∈ u.ts.length :: u.cs ∨ z ∈ (u.ts.length + 1) :: u.bs → z < v.ts.length := by
      intro z hz
      have := hr.ctx z
      simp only [List.mem_cons] at hz
      rcases hz with (h | h) | (h | h)
      · omega
      · have := this (.inl h); omega
      · omega
      · have := this (.inr h); omega
    obtain ⟨k2, L2, b1, b2, b3, -, -⟩ := ih hg4 (a1.within _ _ hctx) h2
    have hvw := b3.ts
    dsimp only at hvw
    have hpw : (w.place u.ts.length).ts.length = w.ts.length := by simp [BU.place]
    obtain ⟨⟨L5, q1⟩, q2, q3, q4⟩ := (b2.place u.ts.length).post hg3 h5
    have hql : q.ts.length = w.ts.length := by rw [q4, hpw]
    obtain ⟨⟨L3, c1⟩, c2, c3, c4, c5⟩ := q1.jump (by omega) h3
    have hpl : (x.place (u.ts.length + 1)).ts.length = x.ts.length := by simp [BU.place]
    obtain ⟨e1, er, e2, e3, e4, e5⟩ := ((c1.place (u.ts.length + 1)).within u.cs u.bs (by
      intro z hz
      have := hr.ctx z hz
      omega)).resolve h4
    refine ⟨_, L3, ?_, e1, ⟨e3, e4, ?_⟩, fun _ _ _ => er, fun _ => ?_⟩
    · rw [hr.tlen] at b1 ⊢
      rw [hr.cs, hr.bs] at b1 ⊢
      simp only [IS.means, Flow.compile]
      cases c with
      | none =>
        simp only [Option.map_none] at b1 ⊢
        rw [b1]
        rfl
      | some e =>
        simp only [Option.map_some] at b1 ⊢
        rw [b1]
        rfl
    · rw [e2]
      dsimp only
      omega
    · unfold Ends at c5 ⊢
      rw [e5]
      exact c5
  | brk =>
    intro u u' k L _ hr hc
    unfold compile at hc
    rw [Option.bind_eq_some_iff] at hc
    obtain ⟨b, h1, h2⟩ := hc
    obtain ⟨⟨L1, a1⟩, a2, a3, a4, a5⟩ := hr.jump (hr.ctx b (.inr (List.mem_of_mem_head? h1))) h2
    refine ⟨_, L1, ?_, a1, ⟨a2, a3, Nat.le_of_eq a4.symm⟩, (fun _ h _ => by rw [h] at h1; cases h1), fun _ => a5⟩
    rw [hr.bs] at h1
    simp only [IS.means, Flow.compile, h1, Option.map_some]
  | cont =>
    intro u u' k L _ hr hc
    unfold compile at hc
    rw [Option.bind_eq_some_iff] at hc
    obtain ⟨b, h1, h2⟩ := hc
    obtain ⟨⟨L1, a1⟩, a2, a3, a4, a5⟩ := hr.jump (hr.ctx b (.inl (List.mem_of_mem_head? h1))) h2
    refine ⟨_, L1, ?_, a1, ⟨a2, a3, Nat.le_of_eq a4.symm⟩, (fun h _ _ => by rw [h] at h1; cases h1), fun _ => a5⟩
    rw [hr.cs] at h1
    simp only [IS.means, Flow.compile, h1, Option.map_some]
  | ret e =>
    intro u u' k L hg hr hc
    obtain ⟨pre, g1, g2, g3, g4, g5, g6, g7⟩ := ret_stmt hg hr.quiet hc
    refine ⟨_, _, rfl, hr.plain ⟨_, g1, fun _ => rfl, rfl, rfl⟩ g2 g5 g6 g7 g3, ⟨g6, g7, by rw [g5]⟩,
      fun _ _ h => h.append (more := pre) ?_ g5, fun _ => .emit g4.symm⟩
    simp [BU.all, g2]

end Wrench.Prog
