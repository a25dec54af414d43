import Verif.Whole.Comp

/-
The expression compiler has an outcome for every expression with a value.
-/
namespace Wrench.Whole
open Wrench.Vm Wrench.Peep

theorem put_some {l : List Byte} {k : Nat} {x : Byte} (h : k < l.length) :
    ∃ l', put l k x = some l' ∧ l'.length = l.length := by
  unfold put
  rw [if_pos h]
  exact ⟨_, rfl, by simp⟩

theorem mov_some {l : List Byte} {i j : Nat} (hi : i < l.length) (hj : j < l.length) :
    ∃ l', mov l i j = some l' ∧ l'.length = l.length := by
  unfold mov
  rw [List.getElem?_eq_getElem hj]
  exact put_some hi

/-- The last two entries are a literal over a load. -/
theorem swapLit_some {lit iv : Op} {l : List Byte} (hl : isLit lit = true) (hf : lit ≠ .LiteralFloat)
    (h : llLen lit + 3 ≤ l.length) : ∃ l', swapLit lit iv l = some l' := by
  have key : ∀ n : Nat, ∀ l : List Byte, n ≤ l.length → ∃ t : List Byte, ∃ r, l = t ++ r ∧ t.length = n :=
    fun n l hn => ⟨l.take n, l.drop n, (List.take_append_drop n l).symm, by simp [hn]⟩
  obtain ⟨t, r, rfl, ht⟩ := key _ l h
  unfold isLit at hl
  split at hl
  · obtain ⟨a, b, c, d, e, f, g, rfl⟩ : ∃ a b c d e f g, t = [a, b, c, d, e, f, g] := by
      match t, ht with
      | [a, b, c, d, e, f, g], _ => exact ⟨a, b, c, d, e, f, g, rfl⟩
    simp [swapLit, put, mov]
  · obtain ⟨a, b, c, rfl⟩ : ∃ a b c, t = [a, b, c] := by
      match t, ht with
      | [a, b, c], _ => exact ⟨a, b, c, rfl⟩
    simp [swapLit, put, mov]
  · exact absurd rfl hf
  · obtain ⟨a, b, c, d, rfl⟩ : ∃ a b c d, t = [a, b, c, d] := by
      match t, ht with
      | [a, b, c, d], _ => exact ⟨a, b, c, d, rfl⟩
    simp [swapLit, put, mov]
  · obtain ⟨a, b, c, d, e, rfl⟩ : ∃ a b c d e, t = [a, b, c, d, e] := by
      match t, ht with
      | [a, b, c, d, e], _ => exact ⟨a, b, c, d, e, rfl⟩
    simp [swapLit, put, mov]
  · simp at hl

theorem Inv.top_len {b : Code} {ris : List (Op × List Byte)} {op : Op} {ops : List Op} (h : Inv b ris)
    (hb : b.rops = op :: ops) (hl : isLL op = true) : ∃ d r', ris = (op, d) :: r' ∧ d.length = llLen op ∧
      b.rall = d.reverse ++ op.code :: Whole.enc r' ∧ Desc ops r' := by
  obtain ⟨d, r1, rfl, h1, h2, h3⟩ := h.last hb
  obtain ⟨a, h4, h5⟩ := llLen_act hl
  refine ⟨d, r1, rfl, by rw [h1.length h4, h5], by rw [h.enc]; rfl, h3 hl⟩

theorem Inv.two_len {b : Code} {ris : List (Op × List Byte)} {o2 o1 : Op} {ops : List Op} (h : Inv b ris)
    (hb : b.rops = o2 :: o1 :: ops) (hl : isLL o2 = true) (hl1 : isLL o1 = true) :
    llLen o2 + 1 + (llLen o1 + 1) ≤ b.rall.length := by
  obtain ⟨d, r1, rfl, h1, h2, h3⟩ := h.top_len hb hl
  obtain ⟨d', r2, rfl, -⟩ := h3
  obtain ⟨a, h4, h5⟩ := llLen_act hl1
  have h6 := (h.ok (o1, d') (by simp)).length h4
  rw [h2]
  simp only [List.length_append, List.length_reverse, List.length_cons, Whole.enc]
  omega

theorem pushNeg_total {neg : Word32 → Word32} {b : Code} {ris : List (Op × List Byte)} {last : Op} {rest : List Op}
    (hi : Inv b ris) (hb : b.rops = last :: rest) : ∃ b', pushNeg neg b last rest = some b' := by
  have hlen : isLL last = true → llLen last + 1 ≤ b.rall.length := by
    intro hl
    obtain ⟨d, r1, rfl, h1, h2, -⟩ := hi.top_len hb hl
    rw [h2]
    simp only [List.length_append, List.length_reverse, List.length_cons]
    omega
  unfold pushNeg
  split
  · have := hlen rfl
    split
    · exact ⟨_, rfl⟩
    · next hne => cases hr : b.rall with
      | nil => simp [hr, llLen] at this
      | cons x l => exact absurd hr (hne x l)
  · split
    · split
      · exact ⟨_, rfl⟩
      · next hlt _ hne =>
        revert hlt hne
        generalize b.rall = l
        intro hlt hne
        match l with
        | [] => simp at hlt
        | [x] => simp at hlt
        | x :: y :: l => exact absurd rfl (hne x y l)
    · exact ⟨_, rfl⟩
  · have := hlen rfl
    split
    · exact ⟨_, rfl⟩
    · next hne =>
      match hr : b.rall with
      | [] => simp [hr, llLen] at this
      | [_] => simp [hr, llLen] at this
      | [_, _] => simp [hr, llLen] at this
      | [_, _, _] => simp [hr, llLen] at this
      | x :: y :: z :: u :: l => exact absurd hr (hne x y z u l)
  · exfalso
    obtain ⟨d, r1, rfl, h1, -, -⟩ := hi.last hb
    exact h1.float rfl
  · exact ⟨_, rfl⟩

theorem fuse2_total {op : Op} {l : List Byte} (h : 3 < l.length) : ∃ l', fuse2 op l = some l' := by
  unfold fuse2
  obtain ⟨l1, h1, h2⟩ := put_some (x := op.code) h
  obtain ⟨l2, h3, -⟩ := mov_some (l := l1) (i := 1) (j := 0) (by omega) (by omega)
  exact ⟨_, by rw [h1]; simp only [Option.bind_eq_bind, Option.bind_some, h3]; rfl⟩

theorem fuse2x_total {op : Op} {l : List Byte} (h : 3 < l.length) : ∃ l', fuse2x op l = some l' := by
  unfold fuse2x
  obtain ⟨l1, h1, h2⟩ := put_some (x := op.code) h
  obtain ⟨l2, h3, h4⟩ := mov_some (l := l1) (i := 1) (j := 2) (by omega) (by omega)
  obtain ⟨l3, h5, -⟩ := mov_some (l := l2) (i := 2) (j := 0) (by omega) (by omega)
  exact ⟨_, by rw [h1]; simp only [Option.bind_eq_bind, Option.bind_some, h3, h5]; rfl⟩

theorem compareReplace_total {LS GS ILS IGS : Op} {b : Code} {ris : List (Op × List Byte)} {last prev : Op}
    {more : List Op} (hi : Inv b ris) (hb : b.rops = last :: prev :: more) :
    ∃ r, compareReplace LS GS ILS IGS b last prev more = some r := by
  have hload : last = .LoadFromGlobal ∨ last = .LoadFromLocal → 1 < b.rall.length := by
    intro h
    have hl : isLL last = true := by rcases h with rfl | rfl <;> rfl
    obtain ⟨d, r1, rfl, h1, h2, -⟩ := hi.top_len hb hl
    rw [h2]
    have : llLen last = 1 := by rcases h with rfl | rfl <;> rfl
    simp only [List.length_append, List.length_reverse, List.length_cons]
    omega
  unfold compareReplace
  split
  · split
    · obtain ⟨l, h1, -⟩ := put_some (x := GS.code) (hload (.inl rfl))
      exact ⟨_, by rw [h1]; rfl⟩
    · obtain ⟨l, h1, -⟩ := put_some (x := LS.code) (hload (.inr rfl))
      exact ⟨_, by rw [h1]; rfl⟩
    · exact ⟨_, rfl⟩
  · split
    · next hlit =>
      obtain ⟨d, r1, -, h1, -, -⟩ := hi.last hb
      have hf := h1.float
      have hl : isLL last = true := isLL_lit hlit hf
      split
      · have := hi.two_len hb hl rfl
        obtain ⟨l, h2⟩ := swapLit_some (iv := IGS) hlit hf (l := b.rall) (by simp [llLen] at this ⊢; omega)
        exact ⟨_, by rw [h2]; rfl⟩
      · have := hi.two_len hb hl rfl
        obtain ⟨l, h2⟩ := swapLit_some (iv := ILS) hlit hf (l := b.rall) (by simp [llLen] at this ⊢; omega)
        exact ⟨_, by rw [h2]; rfl⟩
      · exact ⟨_, rfl⟩
    · exact ⟨_, rfl⟩

theorem pushCmp_total {b : Code} {ris : List (Op × List Byte)} {op last : Op} {rest : List Op} (hi : Inv b ris)
    (hb : b.rops = last :: rest) : ∃ b', pushCmp b op last rest = some b' := by
  unfold pushCmp
  split
  · exact ⟨_, rfl⟩
  · next prev more =>
    split
    · next ll gg LS GS ILS IGS _ _ _ =>
      split
      · next h =>
        obtain ⟨rfl, rfl⟩ := h
        obtain ⟨l, h2⟩ := fuse2_total (op := ll) (l := b.rall) (hi.two_len hb rfl rfl)
        exact ⟨_, by rw [h2]; rfl⟩
      · split
        · next h =>
          obtain ⟨rfl, rfl⟩ := h
          obtain ⟨l, h2⟩ := fuse2_total (op := gg) (l := b.rall) (hi.two_len hb rfl rfl)
          exact ⟨_, by rw [h2]; rfl⟩
        · obtain ⟨r, h2⟩ := compareReplace_total (LS := LS) (GS := GS) (ILS := ILS) (IGS := IGS) hi hb
          rw [h2]
          cases r <;> exact ⟨_, rfl⟩
    · exact ⟨_, rfl⟩

theorem fastLoad_total {b : Code} {op last : Op} {rest : List Op} : ∃ r, fastLoad b op last rest = some r := by
  unfold fastLoad
  split
  · split
    · next hl =>
      split
      · next sk _ _ _ _ xy _ =>
        obtain ⟨l1, h1, h2⟩ := put_some (x := xy.code) hl
        obtain ⟨l2, h3, h4⟩ := mov_some (l := l1) (i := 1) (j := 0) (by omega) (by omega)
        obtain ⟨l3, h5, -⟩ := put_some (l := l2) (k := 0) (x := sk.code) (by omega)
        exact ⟨_, by rw [h1]; simp only [Option.bind_eq_bind, Option.bind_some, h3, h5]; rfl⟩
      · exact ⟨_, rfl⟩
    · exact ⟨_, rfl⟩
  · exact ⟨_, rfl⟩

theorem pushArith_total {b : Code} {op last : Op} {rest : List Op} (ho : isArith op = true) (hb : b.rops = last :: rest)
    (hs : short b op = false) : ∃ b', pushArith b op last rest = some b' := by
  have hfuse : 3 < b.rall.length → ∀ prev, ∃ b', (match fusedArith op prev last with
      | some (fused, false) => (do let l ← fuse2 fused b.rall; return (⟨l, []⟩ : Code))
      | some (fused, true) => (do let l ← fuse2x fused b.rall; return ⟨l, []⟩)
      | none => some (b.push op)) = some b' := by
    intro hl prev
    split
    · next fused _ =>
      obtain ⟨l, h2⟩ := fuse2_total (op := fused) hl
      exact ⟨_, by rw [h2]; rfl⟩
    · next fused _ =>
      obtain ⟨l, h2⟩ := fuse2x_total (op := fused) hl
      exact ⟨_, by rw [h2]; rfl⟩
    · exact ⟨_, rfl⟩
  unfold pushArith
  dsimp only
  by_cases hl : 3 < b.rall.length
  · rw [if_pos hl]
    split
    · split
      · exact ⟨_, rfl⟩
      · next hno =>
        exfalso
        have h1 : op ≠ .BinaryMultiplication := fun h => hno (.inl h)
        have h2 : last = .LoadFromGlobal ∨ last = .LoadFromLocal := Classical.not_not.mp fun h => hno (.inr h)
        have h3 : op = .BinaryAddition ∨ op = .BinarySubtraction ∨ op = .BinaryDivision := by
          cases op <;> first | (simp [isArith] at ho; done) | (simp at h1; done) | simp
        unfold short at hs
        rw [decide_eq_false_iff_not] at hs
        refine hs ⟨h3, hl, ?_⟩
        rcases h2 with rfl | rfl
        · exact .inr hb
        · exact .inl hb
    · split
      · exact ⟨_, rfl⟩
      · exact hfuse hl _
    · exact hfuse hl _
  · rw [if_neg hl]
    exact ⟨_, rfl⟩

/-- Every instruction of an expression is emitted. -/
theorem emit_total {neg : Word32 → Word32} {b : Code} {ris : List (Op × List Byte)} {op : Op} {d : List Byte}
    (hi : Inv b ris) (he : isExpr op = true) : ∃ b', emitS neg true b op d = some b' := by
  unfold emitS
  by_cases hs : short b op = true
  · rw [if_pos ⟨rfl, hs⟩]; exact ⟨_, rfl⟩
  · rw [if_neg fun h => hs h.2]
    suffices ∃ b1, pushOpcode neg b op = some b1 by
      obtain ⟨b1, h⟩ := this
      exact ⟨_, by unfold emit; rw [h]; rfl⟩
    unfold pushOpcode
    cases hb : b.rops with
    | nil => exact ⟨_, rfl⟩
    | cons last rest =>
      dsimp only
      by_cases g1 : op = .Negate
      · rw [if_pos g1]; exact pushNeg_total hi hb
      · rw [if_neg g1, if_neg (by rintro ⟨rfl, -⟩; simp [isExpr, isCmp, llCmp, isArith, skipLoad] at he)]
        by_cases g2 : isCmp op = true
        · rw [if_pos g2]; exact pushCmp_total hi hb
        · rw [if_neg g2]
          obtain ⟨r, hr⟩ := fastLoad_total (b := b) (op := op) (last := last) (rest := rest)
          rw [hr]
          simp only [Option.bind_eq_bind, Option.bind_some]
          cases r with
          | some b2 => exact ⟨_, rfl⟩
          | none =>
            dsimp only
            by_cases g3 : isArith op = true
            · rw [if_pos g3]
              exact pushArith_total g3 hb (by simpa using hs)
            · rw [if_neg g3, if_neg (by rintro rfl; simp [isExpr, isCmp, llCmp, isArith] at he),
                if_neg (by rintro rfl; simp [isExpr, isCmp, llCmp, isArith, skipLoad] at he),
                if_neg (by rintro rfl; simp [isExpr, isCmp, llCmp, isArith, skipLoad] at he)]
              exact ⟨_, rfl⟩

/-- A step that leaves values has an instruction, unless it loads parenthesised code. -/
theorem plainIns_some {ρ : Vars} {i : Expr.Instr Opnd} {st st' : List Opnd} (hf : i.fits (OpOk ρ))
    (hx : Expr.exec (interp ρ) i st = some st') (hv : Vals ρ st') :
    (∃ c e, i = .load (.paren c e)) ∨ ∃ p, plainIns i = some p := by
  cases i with
  | load o =>
    cases o with
    | var v i => exact .inr ⟨_, rfl⟩
    | lit w => exact .inr ⟨_, rfl⟩
    | paren c e => exact .inl ⟨c, e, rfl⟩
    | res w => exact hf.elim
  | stackSwap n => exact .inr ⟨_, rfl⟩
  | swapTwoToTop a b => exact .inr ⟨_, rfl⟩
  | app o =>
    right
    cases o with
    | bin o => exact ⟨_, rfl⟩
    | pre u =>
      cases st with
      | nil => simp [Expr.exec] at hx
      | cons x st =>
        simp only [Expr.exec, Option.some.injEq] at hx
        subst hx
        have := hv _ (List.mem_cons_self ..)
        cases u with
        | neg => exact ⟨_, rfl⟩
        | lnot => exact ⟨_, rfl⟩
        | bnot => exact ⟨_, rfl⟩
        | toInt => exact absurd (show (none : Option Word32).isSome = true from this) (by simp)
        | toFloat => exact absurd (show (none : Option Word32).isSome = true from this) (by simp)
    | post q =>
      cases st with
      | nil => simp [Expr.exec] at hx
      | cons x st =>
        simp only [Expr.exec, Option.some.injEq] at hx
        subst hx
        have := hv _ (List.mem_cons_self ..)
        exact absurd (show (none : Option Word32).isSome = true from this) (by simp)

/-- `f` has an outcome where the code of parentheses satisfies `K`. -/
def Live (ρ : Vars) (neg : Word32 → Word32) (K : Code → Prop) (f : Code → Expr.Instr Opnd → Option Code) : Prop :=
  (∀ b c e, OpOk ρ (.paren c e) → K c → ∃ b', f b (.load (.paren c e)) = some b') ∧
    ∀ b i p, plainIns i = some p → f b i = emitS neg true b p.1 p.2

/-- Operands whose code, if any, satisfies `K`. -/
def Keep (K : Code → Prop) : Opnd → Prop
  | .paren c _ => K c
  | _ => True

theorem emitAll_total {neg : Word32 → Word32} {ρ : Vars} {K : Code → Prop}
    {f : Code → Expr.Instr Opnd → Option Code} (hg : Fine ρ neg true f) (hl : Live ρ neg K f)
    {code : List (Expr.Instr Opnd)} {b : Code} {ris : List (Op × List Byte)} (hi : Inv b ris)
    (hf : ∀ i ∈ code, i.fits (OpOk ρ)) (hk : ∀ i ∈ code, i.fits (Keep K)) {st st' : List Opnd}
    (hx : Expr.run (interp ρ) code st = some st') (hv : Vals ρ st') : ∃ b', emitAll f b code = some b' := by
  induction code generalizing b ris st with
  | nil => exact ⟨b, rfl⟩
  | cons i is ih =>
    simp only [Expr.run, Option.bind_eq_some_iff] at hx
    obtain ⟨st1, h1, h2⟩ := hx
    have hfi := hf i (by simp)
    obtain ⟨b1, h3⟩ : ∃ b1, f b i = some b1 := by
      rcases plainIns_some hfi h1 (run_vals h2 hv) with ⟨c, e, rfl⟩ | ⟨p, hp⟩
      · exact hl.1 b c e hfi (hk (.load (.paren c e)) (by simp))
      · rw [hl.2 b i p hp]
        exact emit_total hi (plainIns_expr hfi hp).1
    obtain ⟨r1, h5, -⟩ := item_good hi hfi (hg b i b1 hfi h3)
    obtain ⟨b2, h6⟩ := ih h5 (fun j hj => hf j (by simp [hj])) (fun j hj => hk j (by simp [hj])) h2
    exact ⟨b2, by rw [emitAll, h3]; exact h6⟩

theorem finish_total {neg : Word32 → Word32} {ρ : Vars} {K : Code → Prop} {T : Expr.Tree Opnd} {w : Word32}
    {f : Code → Expr.Instr Opnd → Option Code} (hg : Fine ρ neg true f) (hlv : Live ρ neg K f) (hok : T.ok)
    (hl : lucid T) (ha : T.all (OpOk ρ)) (hk : T.all (Keep K)) (hw : (T.eval (interp ρ)).val ρ = some w) :
    ∃ c, finish f T = some c := by
  obtain ⟨code, h1, h2⟩ := Expr.compile_tree (interp_lawful ρ) hok (by
      rcases hl with hl | hl
      · omega
      · exact hl.1) (by
      rcases hl with hl | hl
      · exact .inr hl
      · exact .inl hl.2) []
  obtain ⟨c, h3⟩ := emitAll_total hg hlv (b := ⟨[], []⟩) (ris := []) ⟨rfl, by simp, trivial⟩ (Expr.compile_fits ha h1)
    (Expr.compile_fits hk h1) h2 (by
      intro y hy
      rw [List.mem_singleton] at hy
      rw [hy, hw]; rfl)
  exact ⟨c, by unfold finish; rw [h1]; exact h3⟩

/-- The code of every parenthesised part satisfies `K`. -/
def IE.parts (f : Code → Expr.Instr Opnd → Option Code) (K : Code → Prop) : IE → Prop
  | .paren e => (∀ c, compileWith f e = some c → K c) ∧ e.parts f K
  | .pre _ e => e.parts f K
  | .bin _ l r => l.parts f K ∧ r.parts f K
  | _ => True

theorem prep_total {neg : Word32 → Word32} {ρ : Vars} {K : Code → Prop} {e : IE} {w : Word32}
    {f : Code → Expr.Instr Opnd → Option Code} (hg : Fine ρ neg true f) (hlv : Live ρ neg K f) (ho : e.ok)
    (hc : e.clearIn f) (hp : e.parts f K) (hw : e.eval ρ = some w) : ∃ T, prep f e = some T ∧ T.all (Keep K) := by
  induction e generalizing w with
  | var v i => exact ⟨_, rfl, trivial⟩
  | lit w => exact ⟨_, rfl, trivial⟩
  | paren e ih =>
    obtain ⟨T, h1, h2⟩ := ih ho hc.2 hp.2 hw
    obtain ⟨h3, h4⟩ := prep_good (e := e) hg ho hc.2 h1
    obtain ⟨c, h5⟩ := finish_total hg hlv ((prep_shape h1).2.2.2 ho) (hc.1 T h1) h3 h2 (by rw [h4]; exact hw)
    refine ⟨.leaf (.paren c e), by rw [prep, h1, Option.bind_some, h5]; rfl, hp.1 c ?_⟩
    unfold compileWith
    rw [h1]
    exact h5
  | pre u e ih =>
    simp only [IE.eval, Option.map_eq_some_iff] at hw
    obtain ⟨x, hx, -⟩ := hw
    obtain ⟨T, h1, h2⟩ := ih ho.1 hc hp hx
    exact ⟨.pre u.op T, by rw [prep, h1]; rfl, h2⟩
  | bin b l r ihl ihr =>
    simp only [IE.eval, Option.bind_eq_some_iff] at hw
    obtain ⟨x, hx, y, hy, -⟩ := hw
    obtain ⟨L, h1, h2⟩ := ihl ho.1 hc.1 hp.1 hx
    obtain ⟨R, h3, h4⟩ := ihr ho.2.1 hc.2 hp.2 hy
    exact ⟨.bin b L R, by rw [prep, h1, h3]; rfl, h2, h4⟩

theorem compile_total {neg : Word32 → Word32} {ρ : Vars} {K : Code → Prop} {e : IE} {w : Word32}
    {f : Code → Expr.Instr Opnd → Option Code} (hg : Fine ρ neg true f) (hlv : Live ρ neg K f) (ho : e.ok)
    (hc : e.clear f) (hp : e.parts f K) (hw : e.eval ρ = some w) : ∃ c, compileWith f e = some c := by
  obtain ⟨T, h1, h2⟩ := prep_total hg hlv ho hc.2 hp hw
  obtain ⟨h3, h4⟩ := prep_good hg ho hc.2 h1
  obtain ⟨c, h5⟩ := finish_total hg hlv ((prep_shape h1).2.2.2 ho) (hc.1 T h1) h3 h2 (by rw [h4]; exact hw)
  exact ⟨c, by unfold compileWith; rw [h1]; exact h5⟩

theorem live_ref (ρ : Vars) (neg : Word32 → Word32) : Live ρ neg (fun _ => True) (itemRef neg true) := by
  refine ⟨fun b c e _ _ => ⟨_, rfl⟩, fun b i p hp => ?_⟩
  unfold itemRef
  split
  · cases hp
  · rw [hp]; rfl

theorem live_calm (ρ : Vars) (neg : Word32 → Word32) : Live ρ neg (fun c => settled c = true) (itemCalm neg true) := by
  refine ⟨fun b c e ho hk => ?_, fun b i p hp => ?_⟩
  · obtain ⟨hs, rc, hc, -⟩ := ho
    refine ⟨⟨c.rall ++ b.rall, c.rops ++ b.rops⟩, ?_⟩
    simp only [itemCalm, hk, Bool.true_or, if_true]
    exact appendCode_plain hc hs
  · unfold itemCalm
    split
    · cases hp
    · rw [hp]; rfl

/-! ### More outcomes, same code -/

theorem emitAll_mono {f g : Code → Expr.Instr Opnd → Option Code} (h : ∀ b i b', f b i = some b' → g b i = some b')
    {code : List (Expr.Instr Opnd)} {b b' : Code} (he : emitAll f b code = some b') : emitAll g b code = some b' := by
  induction code generalizing b with
  | nil => exact he
  | cons i is ih =>
    simp only [emitAll, Option.bind_eq_some_iff] at he ⊢
    obtain ⟨b1, h3, h4⟩ := he
    exact ⟨b1, h b i b1 h3, ih h4⟩

theorem finish_mono {f g : Code → Expr.Instr Opnd → Option Code} (h : ∀ b i b', f b i = some b' → g b i = some b')
    {T : Expr.Tree Opnd} {c : Code} (he : finish f T = some c) : finish g T = some c := by
  unfold finish at he ⊢
  rw [Option.bind_eq_some_iff] at he ⊢
  obtain ⟨code, h1, h2⟩ := he
  exact ⟨code, h1, emitAll_mono h h2⟩

theorem prep_mono {f g : Code → Expr.Instr Opnd → Option Code} (h : ∀ b i b', f b i = some b' → g b i = some b')
    {e : IE} {T : Expr.Tree Opnd} (he : prep f e = some T) : prep g e = some T := by
  induction e generalizing T with
  | var v i => exact he
  | lit w => exact he
  | paren e ih =>
    simp only [prep, Option.map_eq_some_iff, Option.bind_eq_some_iff] at he ⊢
    obtain ⟨c, ⟨T, h1, h2⟩, rfl⟩ := he
    exact ⟨c, ⟨T, ih h1, finish_mono h h2⟩, rfl⟩
  | pre u e ih =>
    simp only [prep, Option.map_eq_some_iff] at he ⊢
    obtain ⟨T, h1, rfl⟩ := he
    exact ⟨T, ih h1, rfl⟩
  | bin b l r ihl ihr =>
    simp only [prep, Option.bind_eq_some_iff, Option.map_eq_some_iff] at he ⊢
    obtain ⟨L, h1, R, h2, rfl⟩ := he
    exact ⟨L, ihl h1, R, ihr h2, rfl⟩

theorem compile_mono {f g : Code → Expr.Instr Opnd → Option Code} (h : ∀ b i b', f b i = some b' → g b i = some b')
    {e : IE} {c : Code} (he : compileWith f e = some c) : compileWith g e = some c := by
  unfold compileWith at he ⊢
  rw [Option.bind_eq_some_iff] at he ⊢
  obtain ⟨T, h1, h2⟩ := he
  exact ⟨T, prep_mono h h1, finish_mono h h2⟩

theorem calm_item {neg : Word32 → Word32} {tame : Bool} (b : Code) (i : Expr.Instr Opnd) (b' : Code)
    (h : itemCalm neg tame b i = some b') : item neg tame b i = some b' := by
  unfold itemCalm at h
  split at h
  · split at h
    · exact h
    · simp at h
  · next hne =>
    unfold item
    split
    · next c e => exact absurd rfl (hne c e)
    · exact h

end Wrench.Whole
