import Verif.Flow.Main

/-
C40: conditionals, loops and switches do what their source says.
-/
namespace Wrench.Flow

open Wrench

variable {σ ρ : Type}

/-- Compile a whole unit. -/
def compileUnit (s : Stmt σ ρ) : Option (CS σ ρ) := compile s ⟨[], [], [], []⟩

theorem run_of_steps (F : List (Instr σ ρ)) (T : List Nat) (n : Nat) : ∀ (m : Nat) (c c' : Cfg σ), steps F T m c = some c' →
    run F T (m + n) c = run F T n c'
  | 0, c, c', h => by simp only [steps, Option.some.injEq] at h; subst h; simp
  | m + 1, c, c', h => by
    rw [show m + 1 + n = (m + n) + 1 by omega]
    simp only [steps] at h
    simp only [run]
    split at h
    · exact run_of_steps F T n m _ _ h
    · exact absurd h (by simp)

theorem run_none (F : List (Instr σ ρ)) (T : List Nat) : ∀ (n m : Nat) (c c' : Cfg σ), n ≤ m → steps F T m c = some c' →
    run F T n c = none
  | 0, _, _, _, _, _ => rfl
  | n + 1, 0, _, _, h, _ => by omega
  | n + 1, m + 1, c, c', hn, h => by
    simp only [steps] at h
    simp only [run]
    split at h
    · exact run_none F T n m _ _ (by omega) h
    · exact absurd h (by simp)

theorem run_succ (F : List (Instr σ ρ)) (T : List Nat) : ∀ (n : Nat) (c : Cfg σ) (r : Res σ ρ), run F T n c = some r →
    run F T (n + 1) c = some r
  | 0, _, _, h => by simp [run] at h
  | n + 1, c, r, h => by
    rw [run] at h ⊢
    split at h
    · rename_i hs
      exact run_succ F T n _ _ h
    · exact h

theorem run_add (F : List (Instr σ ρ)) (T : List Nat) (n : Nat) (c : Cfg σ) (r : Res σ ρ) (h : run F T n c = some r) :
    ∀ d, run F T (n + d) c = some r
  | 0 => h
  | d + 1 => run_succ F T _ c r (run_add F T n c r h d)

/-- The machine has at most one result. -/
theorem run_unique (F : List (Instr σ ρ)) (T : List Nat) {n m : Nat} {c : Cfg σ} {r r' : Res σ ρ} (h : run F T n c = some r)
    (h' : run F T m c = some r') : r = r' := by
  have a := run_add F T n c r h m
  have b := run_add F T m c r' h' n
  rw [Nat.add_comm] at b
  rw [a] at b
  exact Option.some.inj b

/-- What the machine should deliver for a result of the source. -/
def expected : Out ρ × σ → Option (Res σ ρ)
  | (.nrm, y) => some (.fin y [])
  | (.ret r, y) => some (.ret r y [])
  | _ => none

theorem unit_run {s : Stmt σ ρ} {k : CS σ ρ} (hc : compileUnit s = some k) (ok : Ok s) (n : Nat) (x : σ) :
    match exec n s x with
    | none => run k.code k.tg n ⟨0, x, []⟩ = none
    | some r => ∃ m v, expected r = some v ∧ run k.code k.tg m ⟨0, x, []⟩ = some v := by
  have h := sim k.code k.tg n s _ k hc ok ⟨List.prefix_refl _, fun _ _ _ => rfl⟩ x []
  cases hr : exec n s x with
  | none =>
    rw [hr] at h
    obtain ⟨c', m, hm, h⟩ := h
    exact run_none _ _ _ _ _ _ hm h
  | some r =>
    obtain ⟨o, y⟩ := r
    rw [hr] at h
    cases o with
    | nrm =>
      obtain ⟨m, -, h⟩ := h
      refine ⟨m + 1, _, rfl, ?_⟩
      have e := run_of_steps _ _ 1 _ _ _ h
      simp only [List.length_nil] at e
      rw [e]
      simp [run, step]
    | brk => obtain ⟨b, hb, -⟩ := h; simp at hb
    | cont => obtain ⟨b, hb, -⟩ := h; simp at hb
    | ret v =>
      obtain ⟨c', ⟨m, -, h⟩, hs⟩ := h
      refine ⟨m + 1, _, rfl, ?_⟩
      have e := run_of_steps _ _ 1 _ _ _ h
      simp only [List.length_nil] at e
      rw [e]
      simp [run, hs]

/-- A result of the source is the result of the code, and conversely; the operand stack is back to
what it was. -/
theorem C40_normal_partial {s : Stmt σ ρ} {k : CS σ ρ} (hc : compileUnit s = some k) (ok : Ok s) (x y : σ) :
    (∃ n, exec n s x = some (.nrm, y)) ↔ ∃ n, run k.code k.tg n ⟨0, x, []⟩ = some (.fin y []) := by
  constructor
  · rintro ⟨n, h⟩
    have u := unit_run hc ok n x
    rw [h] at u
    obtain ⟨m, v, hv, u⟩ := u
    cases hv
    exact ⟨m, u⟩
  · rintro ⟨n, h⟩
    have u := unit_run hc ok n x
    cases hr : exec n s x with
    | none => rw [hr] at u; rw [h] at u; exact absurd u (by simp)
    | some r =>
      rw [hr] at u
      obtain ⟨m, v, hv, u⟩ := u
      have := run_unique _ _ u h
      subst this
      obtain ⟨o, z⟩ := r
      cases o <;> simp [expected] at hv
      subst hv
      exact ⟨n, hr⟩

/-- The same for a unit that ends with `return`. -/
theorem C40_return_partial {s : Stmt σ ρ} {k : CS σ ρ} (hc : compileUnit s = some k) (ok : Ok s) (x y : σ) (v : ρ) :
    (∃ n, exec n s x = some (.ret v, y)) ↔ ∃ n, run k.code k.tg n ⟨0, x, []⟩ = some (.ret v y []) := by
  constructor
  · rintro ⟨n, h⟩
    have u := unit_run hc ok n x
    rw [h] at u
    obtain ⟨m, v, hv, u⟩ := u
    cases hv
    exact ⟨m, u⟩
  · rintro ⟨n, h⟩
    have u := unit_run hc ok n x
    cases hr : exec n s x with
    | none => rw [hr] at u; rw [h] at u; exact absurd u (by simp)
    | some r =>
      rw [hr] at u
      obtain ⟨m, v', hv, u⟩ := u
      have := run_unique _ _ u h
      subst this
      obtain ⟨o, z⟩ := r
      cases o <;> simp [expected] at hv
      obtain ⟨rfl, rfl⟩ := hv
      exact ⟨n, hr⟩

/-- The code never takes a value off an empty stack and never leaves the unit. -/
theorem C40_no_fault_partial {s : Stmt σ ρ} {k : CS σ ρ} (hc : compileUnit s = some k) (ok : Ok s) (x : σ) (n : Nat) :
    run k.code k.tg n ⟨0, x, []⟩ ≠ some .fault := by
  intro h
  have u := unit_run hc ok n x
  cases hr : exec n s x with
  | none => rw [hr] at u; rw [h] at u; exact absurd u (by simp)
  | some r =>
    rw [hr] at u
    obtain ⟨m, v', hv, u⟩ := u
    have := run_unique _ _ u h
    subst this
    obtain ⟨o, z⟩ := r
    cases o <;> simp [expected] at hv

/-- A unit whose source does not terminate does not terminate. -/
theorem C40_diverges_partial {s : Stmt σ ρ} {k : CS σ ρ} (hc : compileUnit s = some k) (ok : Ok s) (x : σ)
    (h : ∀ n, exec n s x = none) (n : Nat) : run k.code k.tg n ⟨0, x, []⟩ = none := by
  have u := unit_run hc ok n x
  rw [h n] at u
  exact u

mutual
/-- `break` occurs only in a loop or switch, `continue` only in a loop; switch bodies start with a
label and repeat none. -/
def Placed (inBrk inCont : Bool) : Stmt σ ρ → Prop
  | .skip => True
  | .act _ => True
  | .ret _ => True
  | .seq s t => Placed inBrk inCont s ∧ Placed inBrk inCont t
  | .ifThen _ s => Placed inBrk inCont s
  | .ifElse _ s t => Placed inBrk inCont s ∧ Placed inBrk inCont t
  | .loop _ s => Placed true true s
  | .doLoop s _ => Placed true true s
  | .forLoop _ _ _ s => Placed true true s
  | .each _ _ s => Placed true true s
  | .brk => inBrk = true
  | .cont => inCont = true
  | .switch _ b => PlacedBody inCont [] false b
def PlacedBody (inCont : Bool) (seen : List Word32) (d : Bool) : Body σ ρ → Prop
  | .nil => True
  | .case h b => h ∉ seen ∧ PlacedBody inCont (seen ++ [h]) d b
  | .dflt b => d = false ∧ PlacedBody inCont seen true b
  | .stmt s b => (seen ≠ [] ∨ d = true) ∧ Placed true inCont s ∧ PlacedBody inCont seen d b
end

mutual
theorem compiles (s : Stmt σ ρ) : ∀ (k : CS σ ρ), (compile s k).isSome = true ↔
    Placed (!k.bs.isEmpty) (!k.cs.isEmpty) s := by
  cases s with
  | skip => intro k; simp [compile, Placed]
  | act f => intro k; simp [compile, Placed]
  | ret f => intro k; simp [compile, Placed]
  | brk => intro k; cases hb : k.bs <;> simp [compile, Placed, hb]
  | cont => intro k; cases hb : k.cs <;> simp [compile, Placed, hb]
  | seq s t =>
    intro k
    have hs := compiles s k
    simp only [compile, Placed]
    cases h : compile s k with
    | none => rw [h] at hs; simp at hs; simp [hs]
    | some m =>
      rw [h] at hs
      have e := compile_ext s _ _ h
      have ht := compiles t m
      rw [e.cs, e.bs] at ht
      simp only [Option.isSome_some, true_iff] at hs
      simp only [Option.bind_some, ht, hs, true_and]
  | ifThen c s =>
    intro k
    have hs := compiles s (k.new.emit (.bz c k.tg.length))
    simp only [emit_bs, emit_cs, new_bs, new_cs] at hs
    simp [compile, Placed, ← hs]
  | ifElse c s t =>
    intro k
    have hs := compiles s (k.new.emit (.bz c k.tg.length))
    simp only [emit_bs, emit_cs, new_bs, new_cs] at hs
    simp only [compile, Placed]
    cases h : compile s (k.new.emit (.bz c k.tg.length)) with
    | none => rw [h] at hs; simp at hs; simp [hs]
    | some m =>
      rw [h] at hs
      have e := compile_ext s _ _ h
      have ht := compiles t ((m.new.emit (.jmp m.tg.length)).place k.tg.length)
      simp only [place_bs, place_cs, emit_bs, emit_cs, new_bs, new_cs, e.cs, e.bs] at ht
      simp only [Option.isSome_some, true_iff] at hs
      simp only [Option.bind_some, Option.isSome_map, ht, hs, true_and]
  | loop c s =>
    intro k
    simp only [compile, Placed, Option.isSome_map, compiles s]
    simp
  | doLoop s c =>
    intro k
    simp only [compile, Placed, Option.isSome_map, compiles s]
    simp
  | forLoop i c p s =>
    intro k
    simp only [compile, Placed, Option.isSome_map, compiles s]
    simp
  | each st nx s =>
    intro k
    simp only [compile, Placed, Option.isSome_map, compiles s]
    simp
  | switch sel b =>
    intro k
    simp only [compile, Placed, Option.isSome_map]
    rw [compilesBody b _ _ (by simp)]
    simp
theorem compilesBody (b : Body σ ρ) : ∀ (dt : Nat) (w : SwS σ ρ), w.k.bs ≠ [] → ((compileBody dt b w).isSome = true ↔
    PlacedBody (!w.k.cs.isEmpty) (w.cases.map (·.1)) w.d.isSome b) := by
  cases b with
  | nil => intro dt w _; simp [compileBody, PlacedBody]
  | case h b =>
    intro dt w hw
    simp only [compileBody, PlacedBody]
    by_cases hh : (w.cases.any fun c => c.1 == h) = true
    · rw [if_pos hh]
      simp only [List.any_eq_true, beq_iff_eq] at hh
      obtain ⟨c, hc, rfl⟩ := hh
      simp only [Option.isSome_none, Bool.false_eq_true, false_iff]
      exact fun h => h.1 (List.mem_map_of_mem hc)
    · rw [if_neg hh]
      have ih := compilesBody b dt { w with cases := w.cases ++ [(h, w.k.code.length)] } hw
      rw [ih]
      have hn : h ∉ w.cases.map (·.1) := by
        intro hm
        apply hh
        simp only [List.mem_map] at hm
        obtain ⟨c, hc, rfl⟩ := hm
        simp only [List.any_eq_true, beq_iff_eq]
        exact ⟨c, hc, rfl⟩
      simp [hn]
  | dflt b =>
    intro dt w hw
    simp only [compileBody, PlacedBody]
    cases hd : w.d with
    | some o => simp
    | none =>
      simp only [Option.isSome_none, Bool.false_eq_true, if_false, true_and]
      have ih := compilesBody b dt { k := w.k.place dt, cases := w.cases, d := some w.k.code.length } hw
      rw [ih]
      simp
  | stmt s b =>
    intro dt w hw
    simp only [compileBody, PlacedBody]
    by_cases hg : (w.cases.isEmpty && w.d.isNone) = true
    · rw [if_pos hg]
      simp only [Bool.and_eq_true, List.isEmpty_iff, Option.isNone_iff_eq_none] at hg
      simp [hg.1, hg.2]
    · rw [if_neg hg]
      have hg' : (w.cases.map (·.1) ≠ [] ∨ w.d.isSome = true) := by
        cases hc : w.cases with
        | cons a l => left; simp
        | nil =>
          cases hd : w.d with
          | some o => right; rfl
          | none => rw [hc, hd] at hg; exact absurd rfl hg
      have hs := compiles s w.k
      have hbe : (!w.k.bs.isEmpty) = true := by
        cases hb : w.k.bs with
        | nil => exact absurd hb hw
        | cons a l => rfl
      rw [hbe] at hs
      cases h : compile s w.k with
      | none => rw [h] at hs; simp at hs; simp [hs]
      | some m =>
        rw [h] at hs
        have e := compile_ext s _ _ h
        simp only [Option.isSome_some, true_iff] at hs
        have hb := compilesBody b dt { w with k := m } (by simpa [e.bs] using hw)
        simp only [e.cs] at hb
        simp only [Option.bind_some]
        rw [hb]
        exact ⟨fun h => ⟨hg', hs, h⟩, fun h => h.2.2⟩
end

/-- A unit compiles exactly when every `break` and `continue` has a loop (or switch) to refer to and
the labels of each switch are in order. -/
theorem C40_compiles (s : Stmt σ ρ) : (compileUnit s).isSome = true ↔ Placed false false s := by
  simpa [compileUnit] using compiles s ⟨[], [], [], []⟩

/-! ### Non-triviality -/

/-- `for (i = 0; i < 10; ++i) { if (i == 3) { continue; } if (i == 6) { break; } switch (i) { case 1: s += 10;
break; default: s += 1; } }` with the state `(i, s)`. -/
def sample : Stmt (Nat × Nat) Nat :=
  .forLoop [fun x => (0, x.2)] (some fun x => (decide (x.1 < 10), x)) [fun x => (x.1 + 1, x.2)]
    (.seq (.ifThen (fun x => (x.1 == 3, x)) .cont)
      (.seq (.ifThen (fun x => (x.1 == 6, x)) .brk)
        (.switch (fun x => (BitVec.ofNat 32 x.1, x))
          (.case 1 (.stmt (.act fun x => (x.1, x.2 + 10)) (.stmt .brk (.dflt (.stmt (.act fun x => (x.1, x.2 + 1)) .nil))))))))

example : Ok sample := by simp [sample, Ok, OkBody, tailBody, tail]
example : Placed false false sample := by simp [sample, Placed, PlacedBody]
example : exec 20 sample (7, 0) = some (.nrm, (6, 14)) := by rfl
example : ((compileUnit sample).bind fun k => run k.code k.tg 200 ⟨0, (7, 0), []⟩) = some (.fin (6, 14) []) := by rfl
/-- A loop that does not end. -/
example : Ok (.loop (fun x => (true, x)) .skip : Stmt Nat Nat) := by simp [Ok]

/-! ### What the code gets wrong -/

/-- `switch (1) { case 1: while (x < 2) ++x; }` -/
def lastLoop : Stmt Nat Nat :=
  .switch (fun x => (1, x)) (.case 1 (.stmt (.loop (fun x => (decide (x < 2), x)) (.act (· + 1))) .nil))

/-- A loop at the end of a switch ends in a jump, so the jump over the dispatch is left out: the
dispatch is executed again without a selector. -/
theorem C40_switch_ends_in_loop : exec 10 lastLoop 0 = some (.nrm, 2) ∧
    ((compileUnit lastLoop).bind fun k => run k.code k.tg 100 ⟨0, 0, []⟩) = some .fault := ⟨rfl, rfl⟩

/-- `switch (1) { case 1: if (x > 2) break; }` -/
def lastIf : Stmt Nat Nat :=
  .switch (fun x => (1, x)) (.case 1 (.stmt (.ifThen (fun x => (decide (2 < x), x)) .brk) .nil))

theorem C40_switch_ends_in_if : exec 10 lastIf 0 = some (.nrm, 0) ∧
    ((compileUnit lastIf).bind fun k => run k.code k.tg 100 ⟨0, 0, []⟩) = some .fault := ⟨rfl, rfl⟩

/-- `switch (2) { case 1: ++x; break; default: }` -/
def lastLabel : Stmt Nat Nat :=
  .switch (fun x => (2, x)) (.case 1 (.stmt (.act (· + 1)) (.stmt .brk (.dflt .nil))))

/-- A label after the last `break` is placed on the dispatch itself. -/
theorem C40_switch_ends_in_label : exec 10 lastLabel 0 = some (.nrm, 0) ∧
    ((compileUnit lastLabel).bind fun k => run k.code k.tg 100 ⟨0, 0, []⟩) = some .fault := ⟨rfl, rfl⟩

/-- `x += 100; for (v : a) continue;` -/
def eachCont : Stmt Nat Nat :=
  .seq (.act (· + 100)) (.each id (fun x => (decide (x % 10 < 2), x + 1)) .cont)

/-- `continue` in a for-each loop jumps to the start of the unit. -/
theorem C40_foreach_continue : exec 10 eachCont 0 = some (.nrm, 103) ∧
    ((compileUnit eachCont).bind fun k => run k.code k.tg 100 ⟨0, 0, []⟩) = some (.fin 303 []) := ⟨rfl, rfl⟩

end Wrench.Flow
