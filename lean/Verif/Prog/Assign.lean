import Verif.Prog.Emit

/-
What the emitter makes of assignments.
-/
namespace Wrench.Prog
open Wrench.Vm Wrench.Vm.Jump Wrench.Peep Wrench.Whole Wrench.Ops

/-- The code of an assignment as a statement. -/
structure AsgOk (a : Asg) (pre : List Byte) : Prop where
  long : 2 ≤ pre.length
  runs : ∀ (E : Env) (ρ : Vars) (m : M) (w w0 : Word32), a.e.eval ρ = some w → ρ a.v a.i = some w0 → Ready ρ m →
    ∃ is m', pre = encF is ∧ is ≠ [] ∧ ORun E is m m' ∧ Ready (upd ρ a.v a.i w) m' ∧ Frame m m'

/-- The emitted bytes: instructions of the expression, then one that stores. -/
theorem asg_ends {a : Asg} {pre0 : List Byte} {op : Op} {d : List Byte} {b : Act} (hb : act op = some b)
    (hn : isBr b = false) (hd : d.length = dlen b) (hl : 1 ≤ d.length)
    (h : ∀ (E : Env) (ρ : Vars) (m : M) (w w0 : Word32), a.e.eval ρ = some w → ρ a.v a.i = some w0 → Ready ρ m →
      ∃ is mid, pre0 = encF is ∧ ORun E is m mid ∧ Stores ρ E m b d a.v a.i w mid) :
    AsgOk a (pre0 ++ op.code :: d) := by
  refine ⟨by simp only [List.length_append, List.length_cons]; omega, ?_⟩
  intro E ρ m w w0 h1 h2 h3
  obtain ⟨is, mid, h4, h5, m', h6, h7, h8⟩ := h E ρ m w w0 h1 h2 h3
  refine ⟨is ++ [(op, d)], m', ?_, by simp, h5.append (.one (branch_act hb hn) hb hd h6), h7, h8⟩
  rw [encF_append, ← h4]
  simp [encF]

theorem asg_plain {a : Asg} {c : Code} (hc : CodeOk c a.e) {op : Op} {p : Bool} (hb : act op = some (.assign (.one a.v) p)) :
    AsgOk a (c.rall.reverse ++ [op.code, a.i]) := by
  refine asg_ends hb rfl rfl (by simp) ?_
  intro E ρ m w w0 hw hv hm
  obtain ⟨ris, hi, hrun⟩ := hc.code ρ
  obtain ⟨z, r, h1, h2⟩ := hrun w hw
  obtain ⟨mid, h5, h6⟩ := orun_fwd (E := E) hm.start (Sim.init m) hi.ok h1
  exact ⟨ris.reverse, mid, by rw [hi.enc, enc_reverse], h5, assign_stores hm h6 h2 hv p⟩

/-- The expression ends in a literal. -/
theorem asg_lit {a : Asg} {c : Code} (hc : CodeOk c a.e) {last op : Op} {rest : List Op} {k k' : Lit}
    (hr : c.rops = last :: rest) (ha : act last = some (.lit k)) (hb : act op = some (.litTo k' a.v))
    (f : List Byte → List Byte) (hf : ∀ d w, d.length = dlen (.lit k) → litInt k d = some w → litInt k' (f d) = some w)
    (hfl : ∀ d : List Byte, d.length = dlen (.lit k) → (f d).length + 1 = dlen (.litTo k' a.v)) :
    ∃ pre d, d.length = dlen (.lit k) ∧ c.rall = d.reverse ++ last.code :: pre.reverse ∧
      AsgOk a (pre ++ op.code :: a.i :: f d) := by
  obtain ⟨ris0, hi0, -⟩ := hc.code fun _ _ => none
  obtain ⟨d, ris0', rfl, hok, hall⟩ := split_last hi0 hr
  have hd := hok.length ha
  refine ⟨(enc ris0').reverse, d, hd, by simpa using hall, asg_ends hb rfl (hfl d hd) (by simp) ?_⟩
  intro E ρ m w w0 hw hv hm
  obtain ⟨ris, hi, hrun⟩ := hc.code ρ
  obtain ⟨z, r, h1, h2⟩ := hrun w hw
  obtain ⟨d', ris', rfl, hok', hall'⟩ := split_last hi hr
  have hd' := hok'.length ha
  rw [hall] at hall'
  obtain ⟨rfl, he⟩ := split_unique hall' (by omega)
  simp only [orun, Option.bind_eq_some_iff] at h1
  obtain ⟨s1, h3, h4⟩ := h1
  simp only [ostep, ha, Option.bind_some] at h4
  obtain ⟨q, hq, hst⟩ := pushO_inv h4
  rw [Option.map_eq_some_iff] at hq
  obtain ⟨w', hw', rfl⟩ := hq
  have hs := congrArg AS.stk hst
  simp only [List.cons.injEq] at hs
  obtain ⟨rfl, hs⟩ := hs
  obtain rfl : w' = w := by simpa [Slot.val] using h2
  obtain ⟨st, rg⟩ := s1
  dsimp only at hs
  subst hs
  obtain ⟨mid, h5, h6⟩ := orun_fwd (E := E) hm.start (Sim.init m) (fun p hp => hi.ok p (by simp [hp])) h3
  exact ⟨ris'.reverse, mid, by rw [he, enc_reverse], h5, lit_stores hm h6 (hf d w' hd hw') hv⟩

/-- The expression ends in an operator that takes its operands from the stack. -/
theorem asg_bin {a : Asg} {c : Code} (hc : CodeOk c a.e) {last op : Op} {rest : List Op} {k : BinOp}
    (hr : c.rops = last :: rest) (ha : act last = some (.bin k .stack)) (hb : act op = some (.binStore k a.v)) :
    ∃ pre, c.rall = last.code :: pre.reverse ∧ AsgOk a (pre ++ [op.code, a.i]) := by
  obtain ⟨ris0, hi0, -⟩ := hc.code fun _ _ => none
  obtain ⟨d, ris0', rfl, hok, hall⟩ := split_last hi0 hr
  obtain rfl := len0 (hok.length ha)
  refine ⟨(enc ris0').reverse, by simpa using hall, asg_ends hb rfl rfl (by simp) ?_⟩
  intro E ρ m w w0 hw hv hm
  obtain ⟨ris, hi, hrun⟩ := hc.code ρ
  obtain ⟨z, r, h1, h2⟩ := hrun w hw
  obtain ⟨d', ris', rfl, hok', hall'⟩ := split_last hi hr
  obtain rfl := len0 (hok'.length ha)
  rw [hall] at hall'
  obtain ⟨-, he⟩ := split_unique hall' rfl
  simp only [orun, Option.bind_eq_some_iff] at h1
  obtain ⟨s1, h3, h4⟩ := h1
  simp only [ostep, ha, Option.bind_some] at h4
  obtain ⟨x, y, st, q, hst, hq, hs'⟩ := pop2_inv h4
  obtain ⟨p1, p2, w', g1, g2, g3, rfl⟩ := slotBin_inv hq
  have hs := congrArg AS.stk hs'
  simp only [List.cons.injEq] at hs
  obtain ⟨rfl, rfl⟩ := hs
  obtain rfl : w' = w := by simpa [Slot.val] using h2
  obtain ⟨st, rg⟩ := s1
  dsimp only at hst
  subst hst
  obtain ⟨mid, h5, h6⟩ := orun_fwd (E := E) hm.start (Sim.init m) (fun p hp => hi.ok p (by simp [hp])) h3
  exact ⟨ris'.reverse, mid, by rw [he, enc_reverse], h5, bin_stores hm h6 hq hv⟩

/-! ### `PopOne` after an assignment -/

/-- Instructions `assignPop` combines the store with. -/
def special : Op → Bool
  | .LiteralInt8 | .LiteralInt16 | .LiteralInt32 | .LiteralFloat | .LiteralZero | .BinaryDivision | .BinaryAddition
  | .BinaryMultiplication | .BinarySubtraction | .FUNCTION_CALL_PLACEHOLDER => true
  | _ => false

theorem quiet_special {o : Op} (h : still o) : special o = false :=
  Op.all_of (p := fun o => still o → special o = false) (by decide +kernel) o h

/-- The unit's cache does not take part. -/
theorem special_own {c u : Code} {o : Op} (hq : quiet u.rops) (h : (c.rops ++ u.rops).head? = some o)
    (hs : special o = true) : ∃ rest, c.rops = o :: rest := by
  cases hr : c.rops with
  | nil =>
    rw [hr, List.nil_append] at h
    rw [quiet_special (hq o h)] at hs
    cases hs
  | cons a rest =>
    rw [hr, List.cons_append, List.head?_cons, Option.some.injEq] at h
    exact ⟨rest, by rw [h]⟩

theorem pushOpcode_pop {neg : Word32 → Word32} {l : List Byte} {v : Sp} {rest : List Op} :
    pushOpcode neg ⟨l, .Assign :: loadOp v :: rest⟩ .PopOne = assignPop (loadOp v) rest.head? ⟨l, .Assign :: loadOp v :: rest⟩ := by
  cases v <;> rfl

/-- The emitter's `PopOne` after the code of an assignment, appended to a unit. -/
theorem asg_shape {neg : Word32 → Word32} {c u b : Code} {a : Asg} (hc : CodeOk c a.e) (hq : quiet u.rops)
    (h : pushOpcode neg ⟨Op.Assign.code :: a.i :: (loadOp a.v).code :: (c.rall ++ u.rall),
      .Assign :: loadOp a.v :: (c.rops ++ u.rops)⟩ .PopOne = some b) :
    ∃ pre, b.rall = pre.reverse ++ u.rall ∧ b.rops = [] ∧ AsgOk a pre := by
  rw [pushOpcode_pop] at h
  have lit : ∀ (k : Lit) (last : Op), (c.rops ++ u.rops).head? = some last → special last = true →
      act last = some (.lit k) → ∀ op, act op = some (.litTo k a.v) →
      ∃ pre d, d.length = dlen (.lit k) ∧ c.rall = d.reverse ++ last.code :: pre.reverse ∧
        AsgOk a (pre ++ op.code :: a.i :: d) := by
    intro k last h1 h2 h3 op h4
    obtain ⟨rest, hr⟩ := special_own hq h1 h2
    refine asg_lit hc hr h3 h4 id (fun _ _ _ h => h) ?_
    intro d hd
    cases k <;> simp only [dlen] at hd ⊢ <;> simp [hd]
  have bin : ∀ (k : BinOp) (last : Op), (c.rops ++ u.rops).head? = some last → special last = true →
      act last = some (.bin k .stack) → ∀ op, act op = some (.binStore k a.v) →
      ∃ pre, c.rall = last.code :: pre.reverse ∧ AsgOk a (pre ++ [op.code, a.i]) := by
    intro k last h1 h2 h3 op h4
    obtain ⟨rest, hr⟩ := special_own hq h1 h2
    exact asg_bin hc hr h3 h4
  have plain : ∀ (op : Op), act op = some (.assign (.one a.v) true) →
      (do let l ← put (Op.Assign.code :: a.i :: (loadOp a.v).code :: (c.rall ++ u.rall)) 2 op.code
          return (⟨l.drop 1, []⟩ : Code)) = some b →
      ∃ pre, b.rall = pre.reverse ++ u.rall ∧ b.rops = [] ∧ AsgOk a pre := by
    intro op h4 h
    simp [put] at h
    subst h
    exact ⟨_, by simp, rfl, asg_plain hc h4⟩
  have bins : ∀ (k : BinOp) (last : Op), (c.rops ++ u.rops).head? = some last → special last = true →
      act last = some (.bin k .stack) → ∀ op, act op = some (.binStore k a.v) →
      (do let l ← put (Op.Assign.code :: a.i :: (loadOp a.v).code :: (c.rall ++ u.rall)) 3 op.code
          let l ← mov l 2 1
          return (⟨l.drop 2, []⟩ : Code)) = some b →
      ∃ pre, b.rall = pre.reverse ++ u.rall ∧ b.rops = [] ∧ AsgOk a pre := by
    intro k last h1 h2 h3 op h4 h
    obtain ⟨pre, h5, h6⟩ := bin k last h1 h2 h3 op h4
    rw [h5] at h
    simp [put, mov] at h
    subst h
    exact ⟨_, by simp, rfl, h6⟩
  have lit1 : (c.rops ++ u.rops).head? = some .LiteralInt8 → ∀ op, act op = some (.litTo .i8 a.v) →
      (do let l ← put (Op.Assign.code :: a.i :: (loadOp a.v).code :: (c.rall ++ u.rall)) 4 op.code
          let l ← mov l 2 3
          let l ← mov l 3 1
          return (⟨l.drop 2, []⟩ : Code)) = some b →
      ∃ pre, b.rall = pre.reverse ++ u.rall ∧ b.rops = [] ∧ AsgOk a pre := by
    intro he op h4 h
    obtain ⟨pre, d, h1, h2, h3⟩ := lit .i8 _ he rfl rfl op h4
    obtain ⟨x, rfl⟩ := len1 h1
    rw [h2] at h
    simp [put, mov] at h
    subst h
    exact ⟨_, by simp, rfl, h3⟩
  have lit2 : (c.rops ++ u.rops).head? = some .LiteralInt16 → ∀ op, act op = some (.litTo .i16 a.v) →
      (do let l ← put (Op.Assign.code :: a.i :: (loadOp a.v).code :: (c.rall ++ u.rall)) 5 op.code
          let l ← mov l 2 3
          let l ← mov l 3 4
          let l ← mov l 4 1
          return (⟨l.drop 2, []⟩ : Code)) = some b →
      ∃ pre, b.rall = pre.reverse ++ u.rall ∧ b.rops = [] ∧ AsgOk a pre := by
    intro he op h4 h
    obtain ⟨pre, d, h1, h2, h3⟩ := lit .i16 _ he rfl rfl op h4
    obtain ⟨x, y, rfl⟩ : ∃ x y, d = [x, y] := by
      match d, h1 with
      | [x, y], _ => exact ⟨x, y, rfl⟩
    rw [h2] at h
    simp [put, mov] at h
    subst h
    exact ⟨_, by simp, rfl, h3⟩
  have lit4 : (c.rops ++ u.rops).head? = some .LiteralInt32 → ∀ op, act op = some (.litTo .i32 a.v) →
      (do let l ← put (Op.Assign.code :: a.i :: (loadOp a.v).code :: (c.rall ++ u.rall)) 7 op.code
          let l ← mov l 2 3
          let l ← mov l 3 4
          let l ← mov l 4 5
          let l ← mov l 5 6
          let l ← mov l 6 1
          return (⟨l.drop 2, []⟩ : Code)) = some b →
      ∃ pre, b.rall = pre.reverse ++ u.rall ∧ b.rops = [] ∧ AsgOk a pre := by
    intro he op h4 h
    obtain ⟨pre, d, h1, h2, h3⟩ := lit .i32 _ he rfl rfl op h4
    obtain ⟨x, y, z, t, rfl⟩ : ∃ x y z t, d = [x, y, z, t] := by
      match d, h1 with
      | [x, y, z, t], _ => exact ⟨x, y, z, t, rfl⟩
    rw [h2] at h
    simp [put, mov] at h
    subst h
    exact ⟨_, by simp, rfl, h3⟩
  have lit0 : (c.rops ++ u.rops).head? = some .LiteralZero → ∀ op, act op = some (.litTo .i8 a.v) →
      (do let l ← put (Op.Assign.code :: a.i :: (loadOp a.v).code :: (c.rall ++ u.rall)) 3 op.code
          let l ← mov l 2 1
          let l ← put l 1 0
          return (⟨l.drop 1, []⟩ : Code)) = some b →
      ∃ pre, b.rall = pre.reverse ++ u.rall ∧ b.rops = [] ∧ AsgOk a pre := by
    intro he op h4 h
    obtain ⟨rest, hr⟩ := special_own hq he rfl
    obtain ⟨pre, d, h1, h2, h3⟩ := asg_lit hc hr (k := .zero) rfl h4 (fun _ => [0]) (by
      intro d w hd hw
      obtain rfl := len0 hd
      exact hw) (fun _ _ => rfl)
    obtain rfl := len0 h1
    rw [h2] at h
    simp [put, mov] at h
    subst h
    exact ⟨_, by simp, rfl, h3⟩
  have noFloat : (c.rops ++ u.rops).head? ≠ some .LiteralFloat := by
    intro he
    obtain ⟨rest, hr⟩ := special_own hq he rfl
    obtain ⟨ris, hi, -⟩ := hc.code fun _ _ => none
    obtain ⟨d, ris', -, hok, -⟩ := split_last hi hr
    exact hok.float rfl
  have noCall : (c.rops ++ u.rops).head? ≠ some .FUNCTION_CALL_PLACEHOLDER := by
    intro he
    obtain ⟨rest, hr⟩ := special_own hq he rfl
    obtain ⟨ris, hi, -⟩ := hc.code fun _ _ => none
    obtain ⟨d, ris', -, hok, -⟩ := split_last hi hr
    obtain ⟨x, hx, -⟩ := hok.len
    cases hx
  clear lit bin
  cases hv : a.v
  · rw [hv] at h lit1 lit2 lit4 lit0 bins plain
    unfold assignPop at h
    simp only [loadOp, if_true, if_false, reduceCtorEq] at h
    split at h
    · next he => exact lit1 he .LiteralInt8ToLocal rfl h
    · next he => exact lit2 he .LiteralInt16ToLocal rfl h
    · next he => exact lit4 he .LiteralInt32ToLocal rfl h
    · next he => exact absurd he noFloat
    · next he => exact lit0 he .LiteralInt8ToLocal rfl h
    · next he => exact bins .div _ he rfl rfl .BinaryDivisionAndStoreLocal rfl h
    · next he => exact bins .add _ he rfl rfl .BinaryAdditionAndStoreLocal rfl h
    · next he => exact bins .mul _ he rfl rfl .BinaryMultiplicationAndStoreLocal rfl h
    · next he => exact bins .sub _ he rfl rfl .BinarySubtractionAndStoreLocal rfl h
    · next he => exact absurd he noCall
    · exact plain .AssignToLocalAndPop rfl h
  · rw [hv] at h lit1 lit2 lit4 lit0 bins plain
    unfold assignPop at h
    simp only [loadOp, if_true, if_false, reduceCtorEq] at h
    split at h
    · next he => exact lit1 he .LiteralInt8ToGlobal rfl h
    · next he => exact lit2 he .LiteralInt16ToGlobal rfl h
    · next he => exact lit4 he .LiteralInt32ToGlobal rfl h
    · next he => exact absurd he noFloat
    · next he => exact lit0 he .LiteralInt8ToGlobal rfl h
    · next he => exact bins .div _ he rfl rfl .BinaryDivisionAndStoreGlobal rfl h
    · next he => exact bins .add _ he rfl rfl .BinaryAdditionAndStoreGlobal rfl h
    · next he => exact bins .mul _ he rfl rfl .BinaryMultiplicationAndStoreGlobal rfl h
    · next he => exact bins .sub _ he rfl rfl .BinarySubtractionAndStoreGlobal rfl h
    · next he => exact absurd he noCall
    · exact plain .AssignToGlobalAndPop rfl h

/-! ### The code before `PopOne` -/

theorem emit_load {neg : Word32 → Word32} {c : Code} {v : Sp} {d : List Byte} :
    emit neg c (loadOp v) d = some ⟨d.reverse ++ (loadOp v).code :: c.rall, loadOp v :: c.rops⟩ := by
  unfold emit pushOpcode
  obtain ⟨l, r⟩ := c
  cases r <;> cases v <;> rfl

/-- Code that does not begin with index instructions is appended as it is. -/
theorem append_plain {neg : Word32 → Word32} {b c : Code} (hl : c.rall.length ≠ 1)
    (hh : ∀ o, c.rops.head? = some o → o ≠ .Index ∧ o ≠ .IndexLiteral8 ∧ o ≠ .IndexLiteral16) :
    appendCode neg b c = some ⟨c.rall ++ b.rall, c.rops ++ b.rops⟩ := by
  unfold appendCode
  dsimp only
  split
  · next h1 _ => exact absurd rfl (hh .IndexLiteral16 (by rw [h1]; rfl)).2.2
  · next h1 _ => exact absurd rfl (hh .IndexLiteral16 (by rw [h1]; rfl)).2.2
  · next h1 _ => exact absurd rfl (hh .IndexLiteral8 (by rw [h1]; rfl)).2.1
  · next h1 _ => exact absurd rfl (hh .IndexLiteral8 (by rw [h1]; rfl)).2.1
  · next h1 _ => exact absurd rfl (hh .Index (by rw [h1]; rfl)).1
  · rw [if_neg hl]

theorem emit_op {neg : Word32 → Word32} {c : Code} {o : Op} (h : (∃ op, o = compOp op) ∨ o = .Assign ∨ ∃ d p, o = bumpOp d p) :
    emit neg c o [] = some ⟨o.code :: c.rall, o :: c.rops⟩ := by
  unfold emit pushOpcode
  obtain ⟨l, r⟩ := c
  rcases h with ⟨op, rfl⟩ | rfl | ⟨d, p, rfl⟩
  · cases r <;> cases op <;> rfl
  · cases r <;> rfl
  · cases r <;> cases d <;> cases p <;> rfl

theorem asg_code {neg : Word32 → Word32} {a : Asg} {o : Op} (ho : (∃ op, o = compOp op) ∨ o = .Assign) (hg : Good neg a.e) :
    ∃ c, CodeOk c a.e ∧
      a.code neg o = some ⟨o.code :: a.i :: (loadOp a.v).code :: c.rall, o :: loadOp a.v :: c.rops⟩ := by
  obtain ⟨c, h1, h2⟩ := hg.code
  refine ⟨c, h2, ?_⟩
  unfold Asg.code
  rw [h1, Option.bind_some, emit_load, Option.bind_some, emit_op (by rcases ho with h | h; exact .inl h; exact .inr (.inl h))]
  rfl

/-! ### Compound assignments and increments -/

/-- The code of a statement that changes a variable. -/
structure EffOk (x : Eff) (pre : List Byte) : Prop where
  long : 2 ≤ pre.length
  runs : ∀ (E : Env) (ρ ρ' : Vars) (m : M), x.means (some ρ) = some ρ' → Ready ρ m →
    ∃ is m', pre = encF is ∧ is ≠ [] ∧ ORun E is m m' ∧ Ready ρ' m' ∧ Frame m m'

theorem AsgOk.eff {a : Asg} {pre : List Byte} (h : AsgOk a pre) : EffOk (.set a) pre := by
  refine ⟨h.long, ?_⟩
  intro E ρ ρ' m hx hm
  simp only [Eff.means, Asg.means, Option.bind_some, Option.bind_eq_some_iff, Option.map_eq_some_iff] at hx
  obtain ⟨w0, h3, w, h4, rfl⟩ := hx
  exact h.runs E ρ m w w0 h4 h3 hm

theorem compOp_pop (op : BinOp) : ∃ o, andPop (compOp op) = some o ∧ act o = some (.compound op true) ∧ popped o = true ∧
    ∀ l, bumpVar (compOp op) l = none := by
  cases op <;> exact ⟨_, rfl, rfl, rfl, fun _ => rfl⟩

theorem comp_ok {a : Asg} {c : Code} {op : BinOp} {o : Op} (hc : CodeOk c a.e) (ho : act o = some (.compound op true)) :
    EffOk (.comp op a) (c.rall.reverse ++ [(loadOp a.v).code, a.i, o.code]) := by
  refine ⟨by simp, ?_⟩
  intro E ρ ρ' m hx hm
  simp only [Eff.means, Option.bind_some, Option.bind_eq_some_iff, Option.map_eq_some_iff] at hx
  obtain ⟨w0, hv, w, hw, w1, h1, rfl⟩ := hx
  obtain ⟨ris, hi, hrun⟩ := hc.code ρ
  obtain ⟨z, r, h2, h3⟩ := hrun w hw
  have hl : act (loadOp a.v) = some (.load a.v) := by cases a.v <;> rfl
  have hr : orun ρ ((loadOp a.v, [a.i]) :: ris) ⟨[], none⟩ = some ⟨[.ref a.v a.i, z], r⟩ := by
    simp [orun, h2, ostep, hl, astep, var1, pushO, Whole.look, hv]
  have hok : ∀ p ∈ (loadOp a.v, [a.i]) :: ris, OkIns p := by
    intro p hp
    rcases List.mem_cons.mp hp with rfl | hp
    · refine ⟨⟨_, hl, rfl⟩, ?_, ?_, ?_, ?_, ?_, ?_⟩ <;> cases a.v <;> simp [loadOp]
    · exact hi.ok p hp
  obtain ⟨mid, h5, h6⟩ := orun_fwd (E := E) hm.start (Sim.init m) hok hr
  obtain ⟨m', h7, h8, h9⟩ := comp_stores (E := E) hm h6 h3 hv h1
  refine ⟨((loadOp a.v, [a.i]) :: ris).reverse ++ [(o, [])], m', ?_, by simp, h5.append (.one (branch_act ho rfl) ho rfl h7), h8, h9⟩
  rw [encF_append, List.reverse_cons, encF_append, ← enc_reverse, ← hi.enc]
  simp [encF]

/-- What `PopOne` makes of `load; ++`. -/
theorem bumpOp_pop (dec post : Bool) (v : Sp) : ∃ o, bumpVar (bumpOp dec post) (loadOp v) = some o ∧
    act o = some (.bumpVar (if dec then 0xFFFFFFFF#32 else 1) v) := by
  cases dec <;> cases post <;> cases v <;> exact ⟨_, rfl, rfl⟩

theorem bump_ok {dec post : Bool} {v : Sp} {i : Byte} {o : Op}
    (ho : act o = some (.bumpVar (if dec then 0xFFFFFFFF#32 else 1) v)) : EffOk (.bump dec post v i) [o.code, i] := by
  refine ⟨by simp, ?_⟩
  intro E ρ ρ' m hx hm
  simp only [Eff.means, Option.bind_some, Option.bind_eq_some_iff, Option.map_eq_some_iff] at hx
  obtain ⟨w0, hv, w, hw, rfl⟩ := hx
  obtain ⟨m', h7, h8, h9⟩ := bump_stores (E := E) hm hv hw
  exact ⟨[(o, [i])], m', by simp [encF], by simp, .one (branch_act ho rfl) ho rfl h7, h8, h9⟩

/-! ### The whole statement -/

/-- The expression of the statement is `Good`. -/
def Eff.good (neg : Word32 → Word32) : Eff → Prop
  | .set a => Good neg a.e
  | .comp _ a => Good neg a.e
  | .bump .. => True

theorem pushOpcode_pop1 {neg : Word32 → Word32} {l : List Byte} {last : Op} {rest : List Op} (h : last ≠ .Assign) :
    pushOpcode neg ⟨l, last :: rest⟩ .PopOne = pushPop ⟨l, last :: rest⟩ last rest := by
  cases rest <;> rfl

/-- The cache of a unit behind an assignment. -/
def hush (rops : List Op) : Prop := ∀ o, rops.head? = some o → popped o = true

theorem hush.quiet {r : List Op} (h : hush r) : quiet r := fun o ho => .inr (.inl (h o ho))

theorem hush_nil : hush [] := by rintro o ho; cases ho

/-- Statements that change a variable, before and after `PopOne`. -/
theorem eff_shape {neg : Word32 → Word32} {x : Eff} (hg : x.good neg) {c : Code} (hc : x.code neg = some c) :
    c.rall.length ≠ 1 ∧ (∀ o, c.rops.head? = some o → o ≠ .Index ∧ o ≠ .IndexLiteral8 ∧ o ≠ .IndexLiteral16) ∧
    ∀ {u b : Code}, quiet u.rops → pushOpcode neg ⟨c.rall ++ u.rall, c.rops ++ u.rops⟩ .PopOne = some b →
      ∃ pre, b.rall = pre.reverse ++ u.rall ∧ hush b.rops ∧ EffOk x pre := by
  cases x with
  | set a =>
    obtain ⟨c', h1, h2⟩ := asg_code (.inr rfl) hg
    rw [Eff.code, h2] at hc
    cases hc
    refine ⟨by simp, by rintro o ho; cases ho; decide, ?_⟩
    intro u b hq h
    obtain ⟨pre, h4, h5, h6⟩ := asg_shape h1 hq h
    exact ⟨pre, h4, by rw [h5]; exact hush_nil, h6.eff⟩
  | comp op a =>
    obtain ⟨c', h1, h2⟩ := asg_code (.inl ⟨op, rfl⟩) hg
    rw [Eff.code, h2] at hc
    cases hc
    obtain ⟨o, g1, g2, g3, g4⟩ := compOp_pop op
    refine ⟨by simp, by rintro o ho; cases ho; cases op <;> decide, ?_⟩
    intro u b hq h
    have h' : pushPop ⟨(compOp op).code :: a.i :: (loadOp a.v).code :: (c'.rall ++ u.rall),
        compOp op :: loadOp a.v :: (c'.rops ++ u.rops)⟩ (compOp op) (loadOp a.v :: (c'.rops ++ u.rops)) =
          some ⟨o.code :: a.i :: (loadOp a.v).code :: (c'.rall ++ u.rall), o :: loadOp a.v :: (c'.rops ++ u.rops)⟩ := by
      unfold pushPop
      simp only [List.head?_cons, Option.bind_some, g4, g1]
      cases op <;> rfl
    cases (((pushOpcode_pop1 (by cases op <;> decide)).trans h').symm.trans h)
    refine ⟨_, by simp, ?_, comp_ok h1 g2⟩
    rintro o' ho
    cases ho
    exact g3
  | bump dec post v i =>
    rw [Eff.code, emit_load, Option.bind_some, emit_op (.inr (.inr ⟨_, _, rfl⟩))] at hc
    cases hc
    obtain ⟨o, g1, g2⟩ := bumpOp_pop dec post v
    refine ⟨by simp, by rintro o ho; cases ho; cases dec <;> cases post <;> decide, ?_⟩
    intro u b hq h
    have h' : pushPop ⟨(bumpOp dec post).code :: i :: (loadOp v).code :: u.rall, bumpOp dec post :: loadOp v :: u.rops⟩
        (bumpOp dec post) (loadOp v :: u.rops) = some ⟨i :: o.code :: u.rall, []⟩ := by
      unfold pushPop
      simp only [List.head?_cons, Option.bind_some, g1]
      cases dec <;> cases post <;> rfl
    cases (((pushOpcode_pop1 (by cases dec <;> cases post <;> decide)).trans h').symm.trans h)
    exact ⟨[o.code, i], by simp, hush_nil, bump_ok g2⟩

/-- A change of a variable as a statement. -/
theorem eff_stmt {neg : Word32 → Word32} {u u' : BU} {a : Eff} (hg : a.good neg) (hq : quiet u.code.rops)
    (h : u.asg neg a = some u') : ∃ pre, EffOk a pre ∧ u'.code.rall = pre.reverse ++ u.code.rall ∧ hush u'.code.rops ∧
      u'.ts = u.ts ∧ u'.cs = u.cs ∧ u'.bs = u.bs := by
  unfold BU.asg at h
  rw [Option.bind_eq_some_iff] at h
  obtain ⟨c, h1, h⟩ := h
  obtain ⟨g1, g2, g3⟩ := eff_shape hg h1
  rw [append_plain g1 g2, Option.bind_some, Option.map_eq_some_iff] at h
  obtain ⟨b, h3, rfl⟩ := h
  obtain ⟨pre, h4, h5, h6⟩ := g3 hq h3
  exact ⟨pre, h6, h4, h5, rfl, rfl, rfl⟩

/-- Popped in code of its own. -/
theorem eff_alone {neg : Word32 → Word32} {a : Eff} {c b : Code} (hg : a.good neg) (h : a.code neg = some c)
    (hp : pushOpcode neg c .PopOne = some b) : ∃ pre, EffOk a pre ∧ b.rall = pre.reverse ∧ quiet b.rops := by
  obtain ⟨pre, h4, h5, h6⟩ := (eff_shape hg h).2.2 (u := ⟨[], []⟩) quiet_nil (by simpa using hp)
  exact ⟨pre, h6, by simpa using h4, h5.quiet⟩

theorem eff_setup {neg : Word32 → Word32} {u u' : BU} {a : Eff} (hg : a.good neg) (hq : quiet u.code.rops)
    (h : u.setup neg a = some u') : ∃ pre, EffOk a pre ∧ u'.code.rall = pre.reverse ++ u.code.rall ∧ quiet u'.code.rops ∧
      u'.ts = u.ts ∧ u'.cs = u.cs ∧ u'.bs = u.bs := by
  unfold BU.setup at h
  simp only [Option.bind_eq_some_iff, Option.map_eq_some_iff] at h
  obtain ⟨c, h1, b, h2, d, h3, rfl⟩ := h
  obtain ⟨pre, h4, h5, h6⟩ := eff_alone hg h1 h2
  rw [append_plain (by have := h4.long; rw [h5, List.length_reverse]; omega) (quiet_index h6)] at h3
  cases h3
  exact ⟨pre, h4, by simp [h5], quiet_append h6 hq, rfl, rfl, rfl⟩

/-- The post code of a `for` is the concatenation of its statements. -/
inductive AllOk : List Eff → List (List Byte) → Prop where
  | nil : AllOk [] []
  | cons {a : Eff} {l : List Eff} {pre : List Byte} {ps : List (List Byte)} : EffOk a pre → AllOk l ps →
      AllOk (a :: l) (pre :: ps)

theorem post_code {neg : Word32 → Word32} {l : List Eff} {p p' : Code} (hg : ∀ a ∈ l, a.good neg)
    (hp : quiet p.rops) (h : postCode neg p l = some p') :
    ∃ ps, AllOk l ps ∧ p'.rall = ps.flatten.reverse ++ p.rall ∧ quiet p'.rops := by
  induction l generalizing p with
  | nil =>
    cases h
    exact ⟨[], .nil, by simp, hp⟩
  | cons a l ih =>
    unfold postCode at h
    simp only [Option.bind_eq_some_iff] at h
    obtain ⟨c, h1, b, h2, d, h3, h5⟩ := h
    obtain ⟨pre, h4, h7, h8⟩ := eff_alone (hg a (by simp)) h1 h2
    rw [append_plain (by have := h4.long; rw [h7, List.length_reverse]; omega) (quiet_index h8)] at h3
    cases h3
    obtain ⟨ps, h6, h9, h10⟩ := ih (fun b hb => hg b (by simp [hb])) (quiet_append h8 hp) h5
    exact ⟨pre :: ps, .cons h4 h6, by rw [h9, h7]; simp, h10⟩

theorem AllOk.length_ne {l : List Eff} {ps : List (List Byte)} (h : AllOk l ps) : ps.flatten.length ≠ 1 := by
  cases h with
  | nil => simp
  | cons h1 h2 =>
    have := h1.long
    simp only [List.flatten_cons, List.length_append]
    omega

theorem eff_post {neg : Word32 → Word32} {u u' : BU} {l : List Eff} (hg : ∀ a ∈ l, a.good neg) (hq : quiet u.code.rops)
    (h : u.post neg l = some u') : ∃ ps, AllOk l ps ∧ u'.code.rall = ps.flatten.reverse ++ u.code.rall ∧
      quiet u'.code.rops ∧ u'.ts = u.ts ∧ u'.cs = u.cs ∧ u'.bs = u.bs := by
  unfold BU.post at h
  simp only [Option.bind_eq_some_iff, Option.map_eq_some_iff] at h
  obtain ⟨p, h1, c, h2, rfl⟩ := h
  obtain ⟨ps, h3, h4, h5⟩ := post_code hg quiet_nil h1
  rw [List.append_nil] at h4
  rw [append_plain (by have := h3.length_ne; rw [h4, List.length_reverse]; exact this) (quiet_index h5)] at h2
  cases h2
  exact ⟨ps, h3, by simp [h4], quiet_append h5 hq, rfl, rfl, rfl⟩

end Wrench.Prog
