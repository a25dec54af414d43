import Verif.Whole.Props

/-
Which parenthesised parts leave an entry that hides the emitter's cache, in terms of the text: all but
sums, differences and quotients of two variables.
-/
namespace Wrench.Whole
open Wrench.Vm Wrench.Peep Wrench.Ops

/-- A variable, possibly in parentheses. -/
def IE.isVar : IE → Bool
  | .var _ _ => true
  | .paren e => e.isVar
  | _ => false

/-- `x + y`, `x - y` or `x / y` for variables: the emitter fuses them and empties its cache. -/
def IE.sumOfTwo : IE → Bool
  | .bin .add l r | .bin .sub l r | .bin .div l r => l.isVar && r.isVar
  | _ => false

/-- No parenthesised part is a sum, difference or quotient of two variables. -/
def IE.tight : IE → Bool
  | .paren e => !e.sumOfTwo && e.tight
  | .pre _ e => e.tight
  | .bin _ l r => l.tight && r.tight
  | _ => true

def isLoad (o : Op) : Bool := o = .LoadFromLocal ∨ o = .LoadFromGlobal

/-! ### What one instruction leaves at the head of the cache -/

theorem pushOpcode_ll {neg : Word32 → Word32} {b : Code} {op : Op} (h : isLL op = true) :
    pushOpcode neg b op = some (b.push op) := by
  unfold isLL at h
  unfold pushOpcode
  cases hb : b.rops with
  | nil => rfl
  | cons last rest => split at h <;> first | rfl | cases h

theorem emitS_ll {neg : Word32 → Word32} {tame : Bool} {b b' : Code} {op : Op} {d : List Byte} (hl : isLL op = true)
    (h : emitS neg tame b op d = some b') : b' = ⟨d.reverse ++ op.code :: b.rall, op :: b.rops⟩ := by
  unfold emitS at h
  split at h
  · cases h; rfl
  · unfold emit at h
    rw [pushOpcode_ll hl] at h
    cases h; rfl

theorem pushNeg_head {neg : Word32 → Word32} {b b' : Code} {last : Op} {rest : List Op} (hb : b.rops = last :: rest)
    (h : pushNeg neg b last rest = some b') :
    (∃ o r, b'.rops = o :: r ∧ isLL o = false) ∨
      (b'.rops = b.rops ∧ isLoad last = false ∧ b'.rall.length = b.rall.length) := by
  unfold pushNeg at h
  split at h
  · split at h
    · next hr => cases h; right; exact ⟨hb.symm, rfl, by simp [hr]⟩
    · cases h
  · split at h
    · split at h
      · next hr => cases h; right; exact ⟨hb.symm, rfl, by simp [hr]⟩
      · cases h
    · cases h; left; exact ⟨_, _, rfl, rfl⟩
  · split at h
    · next hr => cases h; right; exact ⟨hb.symm, rfl, by simp [hr]⟩
    · cases h
  · split at h
    · cases h; left; exact ⟨_, _, rfl, rfl⟩
    · cases h
  · cases h; left; exact ⟨_, _, rfl, rfl⟩

theorem pushCmp_head {b b' : Code} {op last : Op} {rest : List Op} (ho : isLL op = false) (hc : isCmp op = true)
    (h : pushCmp b op last rest = some b') : ∃ o r, b'.rops = o :: r ∧ isLL o = false := by
  unfold pushCmp at h
  split at h
  · cases h; exact ⟨_, _, rfl, ho⟩
  · next prev more =>
    split at h
    · next ll gg LS GS ILS IGS h1 h2 h3 =>
      have hll : isLL ll = false ∧ isLL gg = false ∧ isLL LS = false ∧ isLL GS = false ∧ isLL ILS = false ∧ isLL IGS = false := by
        revert h1 h2 h3
        cases op <;> first | (simp [isCmp, llCmp] at hc; done) |
          (simp only [llCmp, ggCmp, lsgs, Option.some.injEq, Prod.mk.injEq]
           rintro rfl rfl ⟨rfl, rfl, rfl, rfl⟩; decide)
      split at h
      · simp only [Option.bind_eq_bind, Option.bind_eq_some_iff] at h
        obtain ⟨l, -, h⟩ := h
        cases h; exact ⟨_, _, rfl, hll.1⟩
      · split at h
        · simp only [Option.bind_eq_bind, Option.bind_eq_some_iff] at h
          obtain ⟨l, -, h⟩ := h
          cases h; exact ⟨_, _, rfl, hll.2.1⟩
        · simp only [Option.bind_eq_bind, Option.bind_eq_some_iff] at h
          obtain ⟨r, hr, h⟩ := h
          cases r with
          | none => cases h; exact ⟨_, _, rfl, ho⟩
          | some b1 =>
            cases h
            unfold compareReplace at hr
            split at hr
            · split at hr
              · simp only [Option.bind_eq_bind, Option.bind_eq_some_iff] at hr
                obtain ⟨l, -, h⟩ := hr
                cases h; exact ⟨_, _, rfl, hll.2.2.2.1⟩
              · simp only [Option.bind_eq_bind, Option.bind_eq_some_iff] at hr
                obtain ⟨l, -, h⟩ := hr
                cases h; exact ⟨_, _, rfl, hll.2.2.1⟩
              · cases hr
            · split at hr
              · split at hr
                · simp only [Option.bind_eq_bind, Option.bind_eq_some_iff] at hr
                  obtain ⟨l, -, h⟩ := hr
                  cases h; exact ⟨_, _, rfl, hll.2.2.2.2.2⟩
                · simp only [Option.bind_eq_bind, Option.bind_eq_some_iff] at hr
                  obtain ⟨l, -, h⟩ := hr
                  cases h; exact ⟨_, _, rfl, hll.2.2.2.2.1⟩
                · cases hr
              · cases hr
    · cases h; exact ⟨_, _, rfl, ho⟩

theorem fusedArith_load {op prev last : Op} {r : Op × Bool} (h : fusedArith op prev last = some r) :
    isLoad prev = true ∧ isLoad last = true := by
  unfold fusedArith at h
  split at h <;> first | exact ⟨rfl, rfl⟩ | cases h

theorem pushArith_head {b b' : Code} {op last : Op} {rest : List Op} (ho : isLL op = false)
    (h : pushArith b op last rest = some b') :
    (∃ o r, b'.rops = o :: r ∧ isLL o = false) ∨
      (b'.rops = [] ∧ ∃ prev more, rest = prev :: more ∧ isLoad last = true ∧ isLoad prev = true ∧
        (op = .BinaryMultiplication → more ≠ [])) := by
  have key : ∀ prev more, rest = prev :: more → (op = .BinaryMultiplication → more ≠ []) →
      (match fusedArith op prev last with
        | some (fused, false) => do
          let l ← fuse2 fused b.rall
          return ⟨l, []⟩
        | some (fused, true) => do
          let l ← fuse2x fused b.rall
          return ⟨l, []⟩
        | none => some (b.push op) : Option Code) = some b' →
      (∃ o r, b'.rops = o :: r ∧ isLL o = false) ∨
      (b'.rops = [] ∧ ∃ prev more, rest = prev :: more ∧ isLoad last = true ∧ isLoad prev = true ∧
        (op = .BinaryMultiplication → more ≠ [])) := by
    intro prev more hr hm h
    cases hf : fusedArith op prev last with
    | none => rw [hf] at h; cases h; exact .inl ⟨_, _, rfl, ho⟩
    | some r =>
      rw [hf] at h
      obtain ⟨h1, h2⟩ := fusedArith_load hf
      obtain ⟨fused, x⟩ := r
      right
      cases x
      all_goals
        simp only [Option.bind_eq_bind, Option.bind_eq_some_iff] at h
        obtain ⟨l, -, h⟩ := h
        cases h
        exact ⟨rfl, prev, more, hr, h2, h1, hm⟩
  unfold pushArith at h
  dsimp only at h
  split at h
  · split at h
    · split at h
      · cases h; exact .inl ⟨_, _, rfl, ho⟩
      · cases h
    · split at h
      · cases h; exact .inl ⟨_, _, rfl, ho⟩
      · next hm => exact key _ _ rfl (fun hx => absurd hx hm) h
    · exact key _ _ rfl (fun _ => by simp) h
  · cases h; exact .inl ⟨_, _, rfl, ho⟩

theorem skipLoad_ll {op sk : Op} (h : skipLoad op = some sk) : isLL sk = false := by
  revert h
  cases op <;> simp only [skipLoad] <;> first | (intro h; cases h; rfl) | (intro h; cases h)

/-- The head after an operator: the operator in some form, a negated literal, or nothing. -/
theorem emitS_head {neg : Word32 → Word32} {tame : Bool} {b b' : Code} {op : Op} {d : List Byte}
    (he : isExpr op = true) (hl : isLL op = false) (h : emitS neg tame b op d = some b') :
    (∃ o r, b'.rops = o :: r ∧ isLL o = false) ∨
    (op = .Negate ∧ b'.rops = b.rops ∧ b'.rall.length = d.length + b.rall.length ∧
      ∃ l r, b.rops = l :: r ∧ isLoad l = false) ∨
    (isArith op = true ∧ b'.rops = [] ∧ ∃ l p more, b.rops = l :: p :: more ∧ isLoad l = true ∧ isLoad p = true ∧
      (op = .BinaryMultiplication → more ≠ [])) := by
  unfold emitS at h
  split at h
  · cases h; exact .inl ⟨_, _, rfl, hl⟩
  · simp only [emit, Option.bind_eq_bind, Option.bind_eq_some_iff] at h
    obtain ⟨b1, h1, h2⟩ := h
    cases h2
    dsimp only
    unfold pushOpcode at h1
    split at h1
    · cases h1; exact .inl ⟨_, _, rfl, hl⟩
    · next last rest hb =>
      split at h1
      · next hop =>
        rcases pushNeg_head hb h1 with h | ⟨h3, h4, h5⟩
        · exact .inl h
        · exact .inr (.inl ⟨hop, h3, by simp [h5], last, rest, hb, h4⟩)
      · split at h1
        · next hr => obtain ⟨rfl, -⟩ := hr; cases he
        · split at h1
          · next hc => exact .inl (pushCmp_head hl hc h1)
          · simp only [Option.bind_eq_bind, Option.bind_eq_some_iff] at h1
            obtain ⟨r, h3, h4⟩ := h1
            cases r with
            | some b2 =>
              cases h4
              unfold fastLoad at h3
              split at h3
              · next hsk =>
                split at h3
                · split at h3
                  · simp only [Option.bind_eq_bind, Option.bind_eq_some_iff] at h3
                    obtain ⟨l1, -, l2, -, l3, -, h3⟩ := h3
                    cases h3
                    exact .inl ⟨_, _, rfl, skipLoad_ll hsk⟩
                  · cases h3
                · cases h3
              · cases h3
            | none =>
              dsimp only at h4
              split at h4
              · next ha =>
                rcases pushArith_head hl h4 with h | ⟨h5, p, more, h6, h7, h8, h9⟩
                · exact .inl h
                · exact .inr (.inr ⟨ha, h5, last, p, more, by rw [hb, h6], h7, h8, h9⟩)
              · split at h4
                · next hx => subst hx; cases he
                · split at h4
                  · next hx => subst hx; cases he
                  · split at h4
                    · next hx => subst hx; cases he
                    · cases h4; exact .inl ⟨_, _, rfl, hl⟩

/-! ### Code and trees -/

/-- Either a single load or literal, or the last instruction in the cache is neither. -/
def Sealed (c : Code) : Prop :=
  (∃ o, c.rops = [o] ∧ isLL o = true ∧ c.rall.length = llLen o + 1) ∨ ∃ o r, c.rops = o :: r ∧ isLL o = false

theorem Sealed.settled {c : Code} (h : Sealed c) : settled c = true := by
  unfold Whole.settled
  rcases h with ⟨o, h1, -, h3⟩ | ⟨o, r, h1, h2⟩
  · rw [h1]; simp [h3]
  · rw [h1]; simp [h2]

/-- The operand is loaded as a variable. -/
def varish : Opnd → Bool
  | .var _ _ => true
  | .paren c _ => c.rops.head?.any isLoad
  | _ => false

/-- What is known of parenthesised parts. -/
def Tidy : Opnd → Prop
  | .paren c e => Sealed c ∧ (c.rops.head?.any isLoad = true → e.isVar = true)
  | _ => True

theorem isLoad_ll {o : Op} (h : isLoad o = true) : isLL o = true := by
  unfold isLoad at h
  rcases of_decide_eq_true h with rfl | rfl <;> rfl

theorem pushInt_ll (w : Word32) : isLL (Cc.pushInt w).1 = true ∧ isLoad (Cc.pushInt w).1 = false ∧
    (Cc.pushInt w).2.length = llLen (Cc.pushInt w).1 := by
  unfold Cc.pushInt
  split
  · decide
  · split
    · exact ⟨rfl, rfl, rfl⟩
    · split
      · exact ⟨rfl, rfl, rfl⟩
      · exact ⟨rfl, rfl, rfl⟩

theorem plainIns_app {i : Expr.Instr Opnd} {p : Op × List Byte} (h : plainIns i = some p)
    (hi : ∀ v, i ≠ .load v) : isLL p.1 = false := by
  cases i with
  | load v => exact absurd rfl (hi v)
  | stackSwap n => cases h; rfl
  | swapTwoToTop a b => cases h; rfl
  | app o =>
    cases o with
    | pre u => cases u <;> first | (cases h; rfl) | (simp [plainIns, opOf] at h; done)
    | post q => simp [plainIns, opOf] at h
    | bin o => cases h; cases o <;> rfl

theorem item_load {neg : Word32 → Word32} {tame : Bool} {b b' : Code} {v : Opnd} (hx : Tidy v)
    (h : itemRef neg tame b (.load v) = some b') :
    (∃ c e, v = .paren c e ∧ Sealed c ∧ b' = ⟨c.rall ++ b.rall, c.rops ++ b.rops⟩) ∨
    (∃ op d, plainIns (.load v) = some (op, d) ∧ isLL op = true ∧ isLoad op = varish v ∧ d.length = llLen op ∧
      b' = ⟨d.reverse ++ op.code :: b.rall, op :: b.rops⟩) := by
  rcases itemRef_plain h with ⟨c, e, hv, rfl⟩ | ⟨p, h1, h2⟩
  · cases hv
    obtain ⟨hs, -⟩ := hx
    exact .inl ⟨c, e, rfl, hs, by rw [if_pos hs.settled]⟩
  · right
    cases v with
    | var v i =>
      cases h1
      refine ⟨_, _, rfl, ?_, ?_, ?_, emitS_ll ?_ h2⟩ <;> cases v <;> rfl
    | lit w =>
      cases h1
      obtain ⟨h3, h4, h5⟩ := pushInt_ll w
      exact ⟨_, _, rfl, h3, h4, h5, emitS_ll h3 h2⟩
    | paren c e => cases h1
    | res w => cases h1

/-- A load at the head of the cache was left by the last step. -/
theorem item_head {neg : Word32 → Word32} {tame : Bool} {ρ : Vars} {b b' : Code} {i : Expr.Instr Opnd}
    (hf : i.fits (OpOk ρ)) (hx : i.fits Tidy) (h : itemRef neg tame b i = some b') {l : Op} {r : List Op}
    (hb : b'.rops = l :: r) (hl : isLoad l = true) : ∃ v, i = .load v ∧ varish v = true ∧ r = b.rops := by
  by_cases hi : ∃ v, i = .load v
  · obtain ⟨v, rfl⟩ := hi
    refine ⟨v, rfl, ?_⟩
    rcases item_load hx h with ⟨c, e, rfl, hs, rfl⟩ | ⟨op, d, -, -, h2, -, rfl⟩
    · rcases hs with ⟨o, h1, -, -⟩ | ⟨o, r', h1, h2⟩
      · simp only [h1, List.singleton_append, List.cons.injEq] at hb
        obtain ⟨rfl, rfl⟩ := hb
        exact ⟨by simp [varish, h1, hl], rfl⟩
      · simp only [h1, List.cons_append, List.cons.injEq] at hb
        obtain ⟨rfl, -⟩ := hb
        rw [isLoad_ll hl] at h2; cases h2
    · cases hb
      exact ⟨by rw [← h2]; exact hl, rfl⟩
  · exfalso
    have hi' : ∀ v, i ≠ .load v := fun v hv => hi ⟨v, hv⟩
    rcases itemRef_plain h with ⟨c, e, rfl, -⟩ | ⟨p, h1, h2⟩
    · exact hi' _ rfl
    · rcases emitS_head (plainIns_expr hf h1).1 (plainIns_app h1 hi') h2 with ⟨o, r', h3, h4⟩ | ⟨-, h3, -, o, r', h4, h5⟩ | ⟨-, h3, -⟩
      · rw [h3] at hb; cases hb
        rw [isLoad_ll hl] at h4; cases h4
      · rw [h3, h4] at hb; cases hb
        rw [hl] at h5; cases h5
      · rw [h3] at hb; cases hb

theorem emitAll_snoc {f : Code → Expr.Instr Opnd → Option Code} {code : List (Expr.Instr Opnd)} {i : Expr.Instr Opnd}
    {b b' : Code} (h : emitAll f b (code ++ [i]) = some b') : ∃ b1, emitAll f b code = some b1 ∧ f b1 i = some b' := by
  induction code generalizing b with
  | nil =>
    simp only [List.nil_append, emitAll, Option.bind_eq_some_iff] at h
    obtain ⟨b1, h1, h2⟩ := h
    cases h2
    exact ⟨b, rfl, h1⟩
  | cons j js ih =>
    simp only [List.cons_append, emitAll, Option.bind_eq_some_iff] at h ⊢
    obtain ⟨b1, h1, h2⟩ := h
    obtain ⟨b2, h3, h4⟩ := ih h2
    exact ⟨b2, ⟨b1, h1, h3⟩, h4⟩

theorem snoc_cases {α : Type} (l : List α) : l = [] ∨ ∃ l' a, l = l' ++ [a] := by
  rcases List.eq_nil_or_concat l with h | ⟨l', a, h⟩
  · exact .inl h
  · exact .inr ⟨l', a, by simpa using h⟩

theorem head_load {neg : Word32 → Word32} {tame : Bool} {ρ : Vars} {code : List (Expr.Instr Opnd)} {b : Code}
    (hf : ∀ i ∈ code, i.fits (OpOk ρ)) (hx : ∀ i ∈ code, i.fits Tidy)
    (h : emitAll (itemRef neg tame) ⟨[], []⟩ code = some b) {l : Op} {r : List Op} (hb : b.rops = l :: r)
    (hl : isLoad l = true) : ∃ code' v b', code = code' ++ [.load v] ∧ varish v = true ∧ b'.rops = r ∧
      emitAll (itemRef neg tame) ⟨[], []⟩ code' = some b' := by
  rcases snoc_cases code with rfl | ⟨code', i, rfl⟩
  · cases h; cases hb
  · obtain ⟨b1, h1, h2⟩ := emitAll_snoc h
    obtain ⟨v, rfl, h3, h4⟩ := item_head (hf i (by simp)) (hx i (by simp)) h2 hb hl
    exact ⟨code', v, b1, rfl, h3, h4.symm, h1⟩

theorem head_two {neg : Word32 → Word32} {tame : Bool} {ρ : Vars} {code : List (Expr.Instr Opnd)} {b : Code}
    (hf : ∀ i ∈ code, i.fits (OpOk ρ)) (hx : ∀ i ∈ code, i.fits Tidy)
    (h : emitAll (itemRef neg tame) ⟨[], []⟩ code = some b) {l p : Op} {r : List Op} (hb : b.rops = l :: p :: r)
    (hl : isLoad l = true) (hp : isLoad p = true) : ∃ code' x y, code = code' ++ [.load x, .load y] ∧
      varish x = true ∧ varish y = true ∧ (code' = [] → r = []) := by
  obtain ⟨c1, y, b1, rfl, h1, h2, h3⟩ := head_load hf hx h hb hl
  obtain ⟨c2, x, b2, rfl, h4, h5, h6⟩ := head_load (fun i hi => hf i (by simp [hi])) (fun i hi => hx i (by simp [hi])) h3 h2 hp
  refine ⟨c2, x, y, by simp, h4, h1, ?_⟩
  rintro rfl
  cases h6
  exact h5.symm

/-! ### The last operator is the root -/

def isRes : Opnd → Bool
  | .res _ => true
  | _ => false

/-- An interpretation that tells which operator was applied last and whether its operands are plain. -/
def marks : Expr.Interp Opnd where
  pre _ _ := .res (some 2)
  post _ _ := .res (some 3)
  bin _ x y := .res (some (if isRes x || isRes y then 0 else 1))

theorem marks_lawful : marks.Lawful :=
  ⟨fun _ _ x y => by simp only [marks, Bool.or_comm], fun _ _ _ x y => by simp only [marks, Bool.or_comm]⟩

theorem marks_leaf {T : Expr.Tree Opnd} (h : isRes (T.eval marks) = false) : ∃ v, T = .leaf v := by
  cases T with
  | leaf v => exact ⟨v, rfl⟩
  | pre u t => cases h
  | post q t => cases h
  | bin b l r => cases h

theorem marks_pair {T : Expr.Tree Opnd} (ha : T.all fun v => isRes v = false) (h : T.eval marks = .res (some 1)) :
    ∃ b l r, T = .bin b (.leaf l) (.leaf r) := by
  cases T with
  | leaf v => rw [show v = .res (some 1) from h] at ha; cases ha
  | pre u t => simp [Expr.Tree.eval, marks] at h
  | post q t => simp [Expr.Tree.eval, marks] at h
  | bin b l r =>
    have h' : (if isRes (l.eval marks) || isRes (r.eval marks) then 0 else 1 : Word32) = 1 := by
      injection h with h; injection h
    cases hl : isRes (l.eval marks) with
    | true => rw [hl] at h'; simp at h'
    | false =>
      cases hr : isRes (r.eval marks) with
      | true => rw [hl, hr] at h'; simp at h'
      | false =>
        obtain ⟨x, rfl⟩ := marks_leaf hl
        obtain ⟨y, rfl⟩ := marks_leaf hr
        exact ⟨b, x, y, rfl⟩

theorem marks_pre {T : Expr.Tree Opnd} (ha : T.all fun v => isRes v = false) (h : T.eval marks = .res (some 2)) :
    ∃ u t, T = .pre u t := by
  cases T with
  | leaf v => rw [show v = .res (some 2) from h] at ha; cases ha
  | pre u t => exact ⟨u, t, rfl⟩
  | post q t => simp [Expr.Tree.eval, marks] at h
  | bin b l r =>
    simp only [Expr.Tree.eval, marks, Opnd.res.injEq, Option.some.injEq] at h
    split at h <;> simp at h

theorem compile_leaf (v : Opnd) : Expr.compile (Expr.Tree.leaf v).tokens = some [.load v] := rfl

theorem compile_pair (b : Expr.Bin) (l r : Opnd) :
    Expr.compile (Expr.Tree.bin b (.leaf l) (.leaf r)).tokens = some [.load r, .load l, .app (.bin b)] ∨
    Expr.compile (Expr.Tree.bin b (.leaf l) (.leaf r)).tokens = some [.load l, .load r, .app (.bin b)] := by
  cases b <;> first | (left; cbv; done) | (right; cbv; done)

theorem compile_one (u : Expr.Pre) (v : Opnd) :
    Expr.compile (Expr.Tree.pre u (.leaf v)).tokens = some [.load v, .app (.pre u)] := by
  cases u <;> cbv

theorem run_snoc {I : Expr.Interp Opnd} {code : List (Expr.Instr Opnd)} {i : Expr.Instr Opnd} {st st' : List Opnd}
    (h : Expr.run I (code ++ [i]) st = some st') : ∃ st1, Expr.run I code st = some st1 ∧ Expr.exec I i st1 = some st' := by
  induction code generalizing st with
  | nil =>
    simp only [List.nil_append, Expr.run, Option.bind_eq_some_iff] at h
    obtain ⟨b1, h1, h2⟩ := h
    cases h2
    exact ⟨st, rfl, h1⟩
  | cons j js ih =>
    simp only [List.cons_append, Expr.run, Option.bind_eq_some_iff] at h ⊢
    obtain ⟨b1, h1, h2⟩ := h
    obtain ⟨b2, h3, h4⟩ := ih h2
    exact ⟨b2, ⟨b1, h1, h3⟩, h4⟩

theorem varish_res {v : Opnd} (h : varish v = true) : isRes v = false := by
  cases v <;> first | rfl | cases h

theorem Expr_all_imp {P Q : Opnd → Prop} (h : ∀ v, P v → Q v) {T : Expr.Tree Opnd} (ha : T.all P) : T.all Q := by
  induction T with
  | leaf v => exact h v ha
  | pre u t ih => exact ih ha
  | post q t ih => exact ih ha
  | bin b l r ihl ihr => exact ⟨ihl ha.1, ihr ha.2⟩

/-- The last instruction left in the cache. -/
theorem finish_sealed {neg : Word32 → Word32} {tame : Bool} {ρ : Vars} {T : Expr.Tree Opnd} {c : Code}
    {f : Code → Expr.Instr Opnd → Option Code} (hg : Fine ρ neg tame f) (hok : T.ok) (hl : lucid T)
    (ha : T.all (OpOk ρ)) (hx : T.all Tidy) (hp : ∀ u t, T = .pre u t → ∃ v, t = .leaf v) (h : finish f T = some c)
    (hn : ∀ b l r, T = .bin b (.leaf l) (.leaf r) → b = .add ∨ b = .sub ∨ b = .div → ¬(varish l = true ∧ varish r = true)) :
    Sealed c ∧ (c.rops.head?.any isLoad = true → ∃ v, T = .leaf v ∧ varish v = true) := by
  obtain ⟨code, h1, h2⟩ := Expr.compile_tree marks_lawful hok (by
      rcases hl with hl | hl
      · omega
      · exact hl.1) (by
      rcases hl with hl | hl
      · exact .inr hl
      · exact .inl hl.2) []
  unfold finish at h
  rw [h1, Option.bind_some] at h
  have hfits := Expr.compile_fits ha h1
  have htidy := Expr.compile_fits hx h1
  have hres : T.all fun v => isRes v = false := Expr_all_imp (fun v hv => by cases v <;> first | rfl | cases hv) ha
  replace h := hg.emitAll hfits h
  have good : ∀ {c : Code}, (∃ o r, c.rops = o :: r ∧ isLL o = false) →
      Sealed c ∧ (c.rops.head?.any isLoad = true → ∃ v, T = .leaf v ∧ varish v = true) := by
    rintro c ⟨o, r, h3, h4⟩
    refine ⟨.inr ⟨o, r, h3, h4⟩, fun h5 => ?_⟩
    rw [h3] at h5
    rw [isLoad_ll (by simpa using h5)] at h4; cases h4
  -- the code of one load on nothing
  have one : ∀ {v b}, Tidy v → itemRef neg tame ⟨[], []⟩ (.load v) = some b →
      Sealed b ∧ (b.rops.head?.any isLoad = true → varish v = true) := by
    intro v b hv h3
    rcases item_load hv h3 with ⟨c, e, rfl, hs, rfl⟩ | ⟨op, d, -, h4, h5, h6, rfl⟩
    · simp only [List.append_nil]
      exact ⟨hs, fun h => h⟩
    · refine ⟨.inl ⟨op, rfl, h4, by simp [h6]⟩, fun h => ?_⟩
      rw [← h5]; simpa using h
  rcases snoc_cases code with rfl | ⟨init, i, rfl⟩
  · cases h2
  · obtain ⟨b1, h3, h4⟩ := emitAll_snoc h
    obtain ⟨st, h5, h6⟩ := run_snoc h2
    by_cases hi : ∃ v, i = .load v
    · obtain ⟨v, rfl⟩ := hi
      have hv : OpOk ρ v := hfits (.load v) (by simp)
      simp only [Expr.exec, Option.some.injEq, List.cons.injEq] at h6
      obtain ⟨w, rfl⟩ := marks_leaf (T := T) (by rw [← h6.1]; cases v <;> first | rfl | cases hv)
      rw [compile_leaf] at h1
      have hnil : init = [] ∧ w = v := by
        cases init with
        | nil => simp at h1; exact ⟨rfl, h1⟩
        | cons j js => cases js <;> simp at h1
      obtain ⟨rfl, rfl⟩ := hnil
      cases h3
      obtain ⟨h7, h8⟩ := one hx h4
      exact ⟨h7, fun h => ⟨w, rfl, h8 h⟩⟩
    · have hi' : ∀ v, i ≠ .load v := fun v hv => hi ⟨v, hv⟩
      rcases itemRef_plain h4 with ⟨c, e, rfl, -⟩ | ⟨p, h7, h8⟩
      · exact absurd rfl (hi' _)
      · rcases emitS_head (plainIns_expr (hfits i (by simp)) h7).1 (plainIns_app h7 hi') h8 with h9 | ⟨h9, h10, h11, o, r, h12, h13⟩ | ⟨h9, h10, l, q, more, h11, h12, h13, h14⟩
        · exact good h9
        · -- a negated literal
          have hi2 : ∃ u, i = .app (.pre u) := by
            cases i with
            | load v => exact absurd rfl (hi' v)
            | stackSwap n => cases h7; cases h9
            | swapTwoToTop a b => cases h7; cases h9
            | app o =>
              cases o with
              | pre u => exact ⟨u, rfl⟩
              | post q => simp [plainIns, opOf] at h7
              | bin o => cases h7; cases o <;> cases h9
          obtain ⟨u, rfl⟩ := hi2
          have hpre : ∃ u t, T = .pre u t := by
            refine marks_pre hres ?_
            cases st with
            | nil => cases h6
            | cons x st =>
              simp only [Expr.exec, Option.some.injEq, List.cons.injEq] at h6
              exact h6.1.symm
          obtain ⟨u', t, rfl⟩ := hpre
          obtain ⟨v, rfl⟩ := hp _ _ rfl
          rw [compile_one] at h1
          have hnil : init = [.load v] := by
            match init, h1 with
            | [], h1 => simp at h1
            | [a], h1 => simp at h1; rw [h1.1]
            | a :: b :: js, h1 => simp at h1
          subst hnil
          simp only [emitAll, Option.bind_eq_some_iff] at h3
          obtain ⟨b2, h15, h16⟩ := h3
          cases h16
          have hd : p.2 = [] := by
            cases u <;> first | (cases h7; rfl) | (simp [plainIns, opOf] at h7; done)
          obtain ⟨h17, -⟩ := one hx h15
          refine ⟨?_, fun h => ?_⟩
          · rcases h17 with ⟨o', h18, h19, h20⟩ | ⟨o', r', h18, h19⟩
            · exact .inl ⟨o', by rw [h10, h18], h19, by rw [h11, hd, h20]; simp⟩
            · exact .inr ⟨o', r', by rw [h10, h18], h19⟩
          · rw [h10, h12] at h
            simp [h13] at h
        · -- two variables
          exfalso
          obtain ⟨init', x, y, rfl, h15, h16, h17⟩ := head_two (fun i hi => hfits i (by simp [hi]))
            (fun i hi => htidy i (by simp [hi])) h3 h11 h12 h13
          have hi2 : ∃ b, i = .app (.bin b) := by
            cases i with
            | load v => exact absurd rfl (hi' v)
            | stackSwap n => cases h7; cases h9
            | swapTwoToTop a b => cases h7; cases h9
            | app o =>
              cases o with
              | pre u => cases u <;> first | (cases h7; cases h9; done) | (simp [plainIns, opOf] at h7; done)
              | post q => simp [plainIns, opOf] at h7
              | bin o => exact ⟨o, rfl⟩
          obtain ⟨b, rfl⟩ := hi2
          have hpair : ∃ b l r, T = .bin b (.leaf l) (.leaf r) := by
            refine marks_pair hres ?_
            have h5' : Expr.run marks ((init' ++ [.load x]) ++ [.load y]) [] = some st := by simpa using h5
            obtain ⟨s1, h18, h19⟩ := run_snoc h5'
            obtain ⟨s2, h20, h21⟩ := run_snoc h18
            cases h21
            cases h19
            simp only [Expr.exec, Option.some.injEq, List.cons.injEq] at h6
            rw [← h6.1]
            simp [marks, varish_res h15, varish_res h16]
          obtain ⟨b', l', r', rfl⟩ := hpair
          have hnil : init' = [] ∧ b' = b ∧ varish l' = true ∧ varish r' = true := by
            have key : ∀ u v, Expr.compile (Expr.Tree.bin b' (.leaf l') (.leaf r')).tokens = some [.load u, .load v, .app (.bin b')] →
                init' = [] ∧ u = x ∧ v = y ∧ b' = b := by
              intro u v h2
              rw [h2] at h1
              match init', h1 with
              | [], h1 => simp at h1; exact ⟨rfl, h1⟩
              | a :: js, h1 =>
                exfalso
                have := congrArg (Option.map List.length) h1
                simp at this
            rcases compile_pair b' l' r' with h2 | h2
            · obtain ⟨h18, rfl, rfl, h19⟩ := key _ _ h2
              exact ⟨h18, h19, h16, h15⟩
            · obtain ⟨h18, rfl, rfl, h19⟩ := key _ _ h2
              exact ⟨h18, h19, h15, h16⟩
          obtain ⟨rfl, rfl, hv⟩ := hnil
          have hbm : binOp b' ≠ .BinaryMultiplication := fun hm => h14 (by cases h7; exact hm) (h17 rfl)
          refine hn _ _ _ rfl ?_ hv
          cases h7
          revert h9 hbm
          cases b' <;> simp [binOp, isArith]

/-! ### Expressions -/

theorem leaf_isVar {f : Code → Expr.Instr Opnd → Option Code} {e : IE} {v : Opnd} (h : prep f e = some (.leaf v))
    (hx : Tidy v) (hv : varish v = true) : e.isVar = true := by
  cases e with
  | var v i => rfl
  | lit w => cases h; cases hv
  | paren e =>
    simp only [prep, Option.map_eq_some_iff] at h
    obtain ⟨c, -, h⟩ := h
    cases h
    exact hx.2 hv
  | pre u e =>
    simp only [prep, Option.map_eq_some_iff] at h
    obtain ⟨c, -, h⟩ := h
    cases h
  | bin b l r =>
    simp only [prep, Option.bind_eq_some_iff, Option.map_eq_some_iff] at h
    obtain ⟨L, -, R, -, h⟩ := h
    cases h

theorem prep_pre {f : Code → Expr.Instr Opnd → Option Code} {e : IE} (ho : e.ok) {u : Expr.Pre} {t : Expr.Tree Opnd}
    (h : prep f e = some (.pre u t)) : ∃ v, t = .leaf v := by
  cases e with
  | var v i => cases h
  | lit w => cases h
  | paren e =>
    simp only [prep, Option.map_eq_some_iff] at h
    obtain ⟨c, -, h⟩ := h
    cases h
  | pre u e =>
    simp only [prep, Option.map_eq_some_iff] at h
    obtain ⟨T, h1, h⟩ := h
    cases h
    have hl := ho.2
    cases e with
    | var v i => cases h1; exact ⟨_, rfl⟩
    | lit w => cases h1; exact ⟨_, rfl⟩
    | paren e =>
      simp only [prep, Option.map_eq_some_iff] at h1
      obtain ⟨c, -, h1⟩ := h1
      cases h1; exact ⟨_, rfl⟩
    | pre u e => simp [IE.level] at hl
    | bin b l r => cases b <;> simp [IE.level, Expr.Bin.prec] at hl
  | bin b l r =>
    simp only [prep, Option.bind_eq_some_iff, Option.map_eq_some_iff] at h
    obtain ⟨L, -, R, -, h⟩ := h
    cases h

/-- The code of an expression that is not a sum, difference or quotient of two variables is sealed. -/
theorem compile_sealed {neg : Word32 → Word32} {tame : Bool} {ρ : Vars} {e : IE} {T : Expr.Tree Opnd} {c : Code}
    {f : Code → Expr.Instr Opnd → Option Code} (hg : Fine ρ neg tame f) (ho : e.ok) (hl : lucid T)
    (hc : e.clearIn f) (hs : e.sumOfTwo = false) (h : prep f e = some T) (hx : T.all Tidy)
    (hf : finish f T = some c) : Sealed c ∧ (c.rops.head?.any isLoad = true → e.isVar = true) := by
  obtain ⟨h1, h2⟩ := finish_sealed hg ((prep_shape h).2.2.2 ho) hl (prep_good hg ho hc h).1 hx
    (fun u t ht => prep_pre ho (by rw [h, ht])) hf (by
      rintro b l r rfl hb ⟨hvl, hvr⟩
      cases e with
      | var v i => cases h
      | lit w => cases h
      | paren e =>
        simp only [prep, Option.map_eq_some_iff] at h
        obtain ⟨c, -, h⟩ := h
        cases h
      | pre u e =>
        simp only [prep, Option.map_eq_some_iff] at h
        obtain ⟨T, -, h⟩ := h
        cases h
      | bin b' l' r' =>
        simp only [prep, Option.bind_eq_some_iff, Option.map_eq_some_iff] at h
        obtain ⟨L, h1, R, h2, h⟩ := h
        cases h
        have h3 := leaf_isVar h1 hx.1 hvl
        have h4 := leaf_isVar h2 hx.2 hvr
        rcases hb with rfl | rfl | rfl <;> simp [IE.sumOfTwo, h3, h4] at hs)
  refine ⟨h1, fun h3 => ?_⟩
  obtain ⟨v, rfl, hv⟩ := h2 h3
  exact leaf_isVar h hx hv

theorem tight_parts {neg : Word32 → Word32} {tame : Bool} {ρ : Vars} {e : IE}
    {f : Code → Expr.Instr Opnd → Option Code} (hg : Fine ρ neg tame f) (ho : e.ok) (hc : e.clearIn f)
    (ht : e.tight = true) :
    (∀ T, prep f e = some T → T.all Tidy) ∧ e.parts f fun c => settled c = true := by
  induction e with
  | var v i => exact ⟨fun T h => by cases h; trivial, trivial⟩
  | lit w => exact ⟨fun T h => by cases h; trivial, trivial⟩
  | paren e ih =>
    simp only [IE.tight, Bool.and_eq_true, Bool.not_eq_true'] at ht
    obtain ⟨h1, h2⟩ := ih ho hc.2 ht.2
    have key : ∀ T c, prep f e = some T → finish f T = some c →
        Sealed c ∧ (c.rops.head?.any isLoad = true → e.isVar = true) :=
      fun T c h3 h4 => compile_sealed hg ho (hc.1 T h3) hc.2 ht.1 h3 (h1 T h3) h4
    refine ⟨fun T h => ?_, fun c h => ?_, h2⟩
    · simp only [prep, Option.map_eq_some_iff, Option.bind_eq_some_iff] at h
      obtain ⟨c, ⟨T, h3, h4⟩, rfl⟩ := h
      exact key T c h3 h4
    · simp only [compileWith, Option.bind_eq_some_iff] at h
      obtain ⟨T, h3, h4⟩ := h
      exact (key T c h3 h4).1.settled
  | pre u e ih =>
    obtain ⟨h1, h2⟩ := ih ho.1 hc ht
    refine ⟨fun T h => ?_, h2⟩
    simp only [prep, Option.map_eq_some_iff] at h
    obtain ⟨T, h3, rfl⟩ := h
    exact h1 T h3
  | bin b l r ihl ihr =>
    simp only [IE.tight, Bool.and_eq_true] at ht
    obtain ⟨h1, h2⟩ := ihl ho.1 hc.1 ht.1
    obtain ⟨h3, h4⟩ := ihr ho.2.1 hc.2 ht.2
    refine ⟨fun T h => ?_, h2, h4⟩
    simp only [prep, Option.bind_eq_some_iff, Option.map_eq_some_iff] at h
    obtain ⟨L, h5, R, h6, rfl⟩ := h
    exact ⟨h1 L h5, h3 R h6⟩

/-- **C111** (partial), in terms of the text alone: every expression with at most two operators on plain operands
outside parentheses and inside every pair of them, none of whose parenthesised parts is a sum, difference or
quotient of two variables, compiles, and its bytes push its value. -/
theorem C111_text_partial {neg : Word32 → Word32} {ρ : Vars} {e : IE} {w : Word32} (ho : e.ok) (hf : e.few)
    (ht : e.tight = true) (hw : e.eval ρ = some w) (E : Env) {m : M} (hm : Start ρ m) :
    ∃ c, compile neg true e = some c ∧ ∃ m', Runs E c.rall.reverse m (.next m') ∧ Pushed m w m' :=
  C111_settled_partial ho hf (tight_parts (fine_calm ρ neg true) ho (IE.few_clear hf).2 ht).2 hw E hm

/-- Expressions whose parentheses hold no such sum are compiled by the emitter whose cache never goes stale. -/
theorem calm_text {neg : Word32 → Word32} {ρ : Vars} {e : IE} {w : Word32} (ho : e.ok) (hf : e.few)
    (ht : e.tight = true) (hw : e.eval ρ = some w) : (compileCalm neg true e).isSome = true := by
  obtain ⟨c, h⟩ := compile_total (fine_calm ρ neg true) (live_calm ρ neg) ho (IE.few_clear hf)
    (tight_parts (fine_calm ρ neg true) ho (IE.few_clear hf).2 ht).2 hw
  have h' : compileCalm neg true e = some c := h
  rw [h']; rfl

end Wrench.Whole
