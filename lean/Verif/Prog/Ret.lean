import Verif.Prog.Assign

/-
`return`, in functions and at the top level.
-/
namespace Wrench.Prog
open Wrench.Vm Wrench.Vm.Jump Wrench.Peep Wrench.Whole Wrench.Ops

theorem push_end {neg : Word32 → Word32} {op : Op} (h : op = .LiteralZero ∨ op = .GlobalStop ∨ op = .Stop) (b : Code) :
    pushOpcode neg b op = some (b.push op) := by
  unfold pushOpcode
  rcases h with rfl | rfl | rfl <;> cases b.rops <;> rfl

theorem push_return {neg : Word32 → Word32} (b : Code) : pushOpcode neg b .Return =
    match b.rops with
    | .LiteralZero :: rest => (put b.rall 0 Op.ReturnZero.code).map fun l => ⟨l, .ReturnZero :: rest⟩
    | _ => some (b.push .Return) := by
  unfold pushOpcode
  cases b.rops with
  | nil => rfl
  | cons last rest =>
    by_cases h : last = .LiteralZero
    · subst h
      show (put b.rall 0 Op.ReturnZero.code).bind _ = _
      cases put b.rall 0 Op.ReturnZero.code <;> rfl
    · cases last <;> first
        | exact absurd rfl h
        | rfl

theorem push_zero (neg : Word32 → Word32) (b : Code) : pushOpcode neg b .ReturnZero = some (b.push .ReturnZero) := by
  unfold pushOpcode
  cases b.rops <;> rfl

theorem quiet_zero {r : List Op} (h : quiet r) : r.head? ≠ some .LiteralZero := by
  intro hr
  rcases h _ hr with h | h | ⟨g, h⟩
  · exact h rfl
  · cases h
  · cases g <;> cases h

/-- What the code of a `return` leaves for its last opcode: the value on the stack, or nothing if the opcode is the
one that returns zero. -/
def Leaves (glob : Bool) (op : Op) (m m' : M) (ρ : Vars) (w : Word32) : Prop :=
  op = retOp glob ∧ (∃ x r, Sim m ⟨[x], r⟩ m' ∧ x.val ρ = some w) ∨
    glob = false ∧ op = .ReturnZero ∧ (∃ r, Sim m ⟨[], r⟩ m') ∧ w = 0

/-- These bytes return `val`. -/
def RetOk (glob : Bool) (val : Vars → Option Word32) (bytes : List Byte) : Prop :=
  ∃ pre op, bytes = pre ++ [Op.code op] ∧
    ∀ (E : Env) (ρ : Vars) (m : M) (w : Word32), val ρ = some w → Ready ρ m →
      ∃ is m', pre = encF is ∧ ORun E is m m' ∧ Leaves glob op m m' ρ w

/-- The return added to a function. -/
theorem ret_zero : RetOk false (fun _ => some 0) [Op.ReturnZero.code] := by
  refine ⟨[], .ReturnZero, rfl, ?_⟩
  intro E ρ m w hw hm
  cases hw
  exact ⟨[], m, rfl, rfl, .inr ⟨rfl, rfl, ⟨none, Sim.init m⟩, rfl⟩⟩

theorem ret_null : RetOk true (fun _ => some 0) [Op.LiteralZero.code, Op.GlobalStop.code] := by
  refine ⟨[Op.LiteralZero.code], .GlobalStop, rfl, ?_⟩
  intro E ρ m w hw hm
  cases hw
  obtain ⟨m', h1, h2⟩ := orun_fwd (E := E) (ris := [(.LiteralZero, [])]) (t := ⟨[.int 0], none⟩) hm.start (Sim.init m)
    (by intro p hp; cases List.mem_singleton.mp hp; exact ⟨⟨_, rfl, rfl⟩, by decide, by decide, by decide, by decide⟩) rfl
  exact ⟨_, m', rfl, h1, .inl ⟨rfl, _, _, h2, rfl⟩⟩

theorem quiet_final {o : Op} {g : Bool} (h : final g o = true) (r : List Op) : quiet (o :: r) := by
  rintro o' ho
  cases ho
  exact .inr (.inr ⟨g, h⟩)

/-- A `return`. -/
theorem ret_stmt {neg : Word32 → Word32} {glob : Bool} {u u' : BU} {e : Option IE} (hg : ∀ x ∈ e, Good neg x)
    (hq : quiet u.code.rops) (h : u.ret neg glob e = some u') : ∃ pre, RetOk glob (retVal e) pre ∧
      u'.code.rall = pre.reverse ++ u.code.rall ∧ quiet u'.code.rops ∧ u'.code.rops.head?.any (final glob) = true ∧
      u'.ts = u.ts ∧ u'.cs = u.cs ∧ u'.bs = u.bs := by
  unfold BU.ret at h
  cases e with
  | none =>
    simp only [push_end (.inl rfl), Option.bind_some] at h
    cases glob with
    | true =>
      simp only [retOp, if_true, push_end (.inr (.inl rfl)), Option.map_some, Option.some.injEq] at h
      subst h
      exact ⟨_, ret_null, rfl, quiet_final (g := true) rfl _, rfl, rfl, rfl, rfl⟩
    | false =>
      have hp : pushOpcode neg (u.code.push .LiteralZero) .Return = some ⟨Op.ReturnZero.code :: u.code.rall, .ReturnZero :: u.code.rops⟩ := by
        rw [push_return]
        rfl
      simp only [retOp, Bool.false_eq_true, if_false, hp, Option.map_some, Option.some.injEq] at h
      subst h
      exact ⟨_, ret_zero, rfl, quiet_final (g := false) rfl _, rfl, rfl, rfl, rfl⟩
  | some e =>
    obtain ⟨c, h1, h2⟩ := (hg e rfl).code
    obtain ⟨ris0, h3, -⟩ := h2.code fun _ _ => none
    simp only [h1, Option.bind_some, appendCode_plain h3 h2.small] at h
    have hplain : ∀ op, op = retOp glob → RetOk glob (retVal (some e)) (c.rall.reverse ++ [op.code]) := by
      intro op hop
      refine ⟨c.rall.reverse, op, rfl, ?_⟩
      intro E ρ m w hw hm
      obtain ⟨ris, h4, h5⟩ := h2.code ρ
      obtain ⟨x, r, h6, h7⟩ := h5 w hw
      obtain ⟨m', h8, h9⟩ := orun_fwd (E := E) hm.start (Sim.init m) h4.ok h6
      exact ⟨ris.reverse, m', by rw [h4.enc, enc_reverse], h8, .inl ⟨hop, x, r, h9, h7⟩⟩
    cases glob with
    | true =>
      simp only [retOp, if_true, push_end (.inr (.inl rfl)), Option.map_some, Option.some.injEq] at h
      subst h
      exact ⟨_, hplain .GlobalStop rfl, by simp [Code.push], quiet_final (g := true) rfl _, rfl, rfl, rfl, rfl⟩
    | false =>
      simp only [retOp, Bool.false_eq_true, if_false, push_return] at h
      have hother : some (⟨⟨Op.Return.code :: (c.rall ++ u.code.rall), .Return :: (c.rops ++ u.code.rops)⟩, u.ts, u.cs, u.bs⟩ : BU) =
          some u' → ∃ pre, RetOk false (retVal (some e)) pre ∧ u'.code.rall = pre.reverse ++ u.code.rall ∧ quiet u'.code.rops ∧
            u'.code.rops.head?.any (final false) = true ∧ u'.ts = u.ts ∧ u'.cs = u.cs ∧ u'.bs = u.bs := by
        intro hU
        cases hU
        exact ⟨_, hplain .Return rfl, by simp, quiet_final (g := false) rfl _, rfl, rfl, rfl, rfl⟩
      cases hro : c.rops with
      | nil =>
        rw [hro] at h hother
        have hz := quiet_zero hq
        have hm : (match ([] : List Op) ++ u.code.rops with
            | .LiteralZero :: rest => (put (c.rall ++ u.code.rall) 0 Op.ReturnZero.code).map fun l => (⟨l, .ReturnZero :: rest⟩ : Code)
            | _ => some ((⟨c.rall ++ u.code.rall, [] ++ u.code.rops⟩ : Code).push .Return)) =
            some ((⟨c.rall ++ u.code.rall, [] ++ u.code.rops⟩ : Code).push .Return) := by
          cases hx : u.code.rops with
          | nil => rfl
          | cons o rest =>
            rw [hx] at hz
            cases o <;> first
              | exact absurd rfl hz
              | rfl
        rw [hm] at h
        refine hother ?_
        rw [← h]
        rfl
      | cons last rest =>
        rw [hro] at h hother
        by_cases hz : last = .LiteralZero
        · subst hz
          obtain ⟨d0, ris0', rfl, hok0, hall0⟩ := split_last h3 hro
          have hd0 : d0 = [] := len0 (hok0.length (a := .lit .zero) rfl)
          subst hd0
          simp only [List.reverse_nil, List.nil_append] at hall0
          have hp := put_at (l := []) (r := enc ris0' ++ u.code.rall) (x := Op.LiteralZero.code) (y := Op.ReturnZero.code)
          simp only [List.nil_append, List.length_nil] at hp
          simp only [List.cons_append, hall0, hp, Option.map_some, Option.some.injEq] at h
          subst h
          refine ⟨(enc ris0').reverse ++ [Op.ReturnZero.code], ⟨_, _, rfl, ?_⟩, by simp, quiet_final (g := false) rfl _, rfl, rfl, rfl, rfl⟩
          intro E ρ m w hw hm
          obtain ⟨ris, h4, h5⟩ := h2.code ρ
          obtain ⟨x, r, h6, h7⟩ := h5 w hw
          obtain ⟨d', ris', rfl, hok', hall'⟩ := split_last h4 hro
          have hd' : d' = [] := len0 (hok'.length (a := .lit .zero) rfl)
          subst hd'
          rw [hall0] at hall'
          simp only [List.reverse_nil, List.nil_append, List.cons.injEq, true_and] at hall'
          simp only [orun, Option.bind_eq_some_iff] at h6
          obtain ⟨⟨stk, r1⟩, h8, h9⟩ := h6
          have hst : stk = [] ∧ x = .int 0 := by
            have h9 : some (⟨.int 0 :: stk, r1⟩ : AS) = some ⟨[x], r⟩ := h9
            simp only [Option.some.injEq, AS.mk.injEq, List.cons.injEq] at h9
            exact ⟨h9.1.2, h9.1.1.symm⟩
          obtain ⟨rfl, rfl⟩ := hst
          cases h7
          obtain ⟨m', h10, h11⟩ := orun_fwd (E := E) hm.start (Sim.init m) (fun p hp => h4.ok p (by simp [hp])) h8
          exact ⟨ris'.reverse, m', by rw [hall', enc_reverse], h10, .inr ⟨rfl, rfl, ⟨r1, h11⟩, rfl⟩⟩
        · refine hother ?_
          rw [← h]
          cases last <;> first
            | exact absurd rfl hz
            | rfl

end Wrench.Prog
