import Verif.Whole.Abs
import Verif.Peep.Track

/-
The emitter on integer expressions: the code is a list of instructions, the cache describes its end, and
every step keeps what the code computes.
-/
namespace Wrench.Whole
open Wrench.Vm Wrench.Peep Wrench.Ops

/-- Bytes of instructions, both last first. -/
def enc : List (Op × List Byte) → List Byte
  | [] => []
  | p :: ris => p.2.reverse ++ p.1.code :: enc ris

def ostep (ρ : Vars) (p : Op × List Byte) (s : AS) : Option AS := (act p.1).bind fun a => astep ρ a p.2 s

/-- Executing instructions given last first. -/
def orun (ρ : Vars) : List (Op × List Byte) → AS → Option AS
  | [], s => some s
  | p :: ris, s => (orun ρ ris s).bind (ostep ρ p)

theorem enc_append (l ris : List (Op × List Byte)) : enc (l ++ ris) = enc l ++ enc ris := by
  induction l with
  | nil => rfl
  | cons p l ih => simp [enc, ih]

theorem orun_append (ρ : Vars) (l ris : List (Op × List Byte)) (s : AS) :
    orun ρ (l ++ ris) s = (orun ρ ris s).bind (orun ρ l) := by
  induction l with
  | nil => simp only [List.nil_append]; cases orun ρ ris s <;> rfl
  | cons p l ih =>
    simp only [List.cons_append, orun, ih]
    cases orun ρ ris s <;> rfl

/-- An instruction with operand bytes of the right number; small literals are not the minimum of
their width. -/
structure OkIns (p : Op × List Byte) : Prop where
  len : ∃ a, act p.1 = some a ∧ p.2.length = dlen a
  i8 : p.1 = .LiteralInt8 → p.2 ≠ [0x80#8]
  i16 : p.1 = .LiteralInt16 → p.2 ≠ [0#8, 0x80#8]
  float : p.1 ≠ .LiteralFloat
  index : p.1 ≠ .Index ∧ p.1 ≠ .IndexLiteral8 ∧ p.1 ≠ .IndexLiteral16

/-- The cache describes the last instructions, through loads and literals. -/
def Desc : List Op → List (Op × List Byte) → Prop
  | [], _ => True
  | op :: ops, ris => ∃ d ris', ris = (op, d) :: ris' ∧ (isLL op = true → Desc ops ris')

structure Inv (b : Code) (ris : List (Op × List Byte)) : Prop where
  enc : b.rall = enc ris
  ok : ∀ p ∈ ris, OkIns p
  desc : Desc b.rops ris

/-- After `op d` is emitted the code computes what it should. -/
def Step (ρ : Vars) (ris : List (Op × List Byte)) (op : Op) (d : List Byte) (b1 : Code) : Prop :=
  ∃ ris', Inv (b1.data d) ris' ∧
    (∀ s t, orun ρ ((op, d) :: ris) s = some t → ∃ r, orun ρ ris' s = some { t with regs := r }) ∧
    (2 ≤ (enc ris).length → 2 ≤ (enc ris').length)

theorem step_push {ρ : Vars} {b : Code} {ris : List (Op × List Byte)} {op : Op} {d : List Byte} (h : Inv b ris)
    (hok : OkIns (op, d)) : Step ρ ris op d (b.push op) := by
  refine ⟨(op, d) :: ris, ⟨?_, ?_, ?_⟩, fun s t ht => ⟨t.regs, ht⟩, fun h => ?_⟩
  · simp [Code.data, Code.push, Whole.enc, h.enc]
  · intro p hp
    rcases List.mem_cons.mp hp with rfl | hp
    · exact hok
    · exact h.ok p hp
  · exact ⟨d, ris, rfl, fun _ => h.desc⟩
  · simp only [Whole.enc, List.length_append, List.length_cons]
    omega

/-- The last instructions are replaced. -/
theorem step_fuse {ρ : Vars} {ris ris0 old new : List (Op × List Byte)} {op : Op} {d : List Byte} {b1 : Code}
    (hr : ris = old ++ ris0) (ok0 : ∀ p ∈ ris0, OkIns p) (he : (b1.data d).rall = enc new ++ enc ris0)
    (hl : 2 ≤ (enc new).length)
    (hok : ∀ p ∈ new, OkIns p) (hd : Desc b1.rops (new ++ ris0))
    (hs : ∀ s t, orun ρ ((op, d) :: old) s = some t → ∃ r, orun ρ new s = some { t with regs := r }) :
    Step ρ ris op d b1 := by
  refine ⟨new ++ ris0, ⟨by rw [enc_append]; exact he, ?_, hd⟩, ?_, fun _ => by
    rw [enc_append, List.length_append]; omega⟩
  · intro p hp
    rcases List.mem_append.mp hp with hp | hp
    · exact hok p hp
    · exact ok0 p hp
  · intro s t ht
    rw [hr, ← List.cons_append, orun_append] at ht
    rw [orun_append]
    cases hq : orun ρ ris0 s with
    | none => rw [hq] at ht; simp at ht
    | some s0 => rw [hq] at ht; exact hs s0 t ht

/-! ### What the cache tells -/

theorem Inv.last {b : Code} {ris : List (Op × List Byte)} {op : Op} {ops : List Op} (h : Inv b ris)
    (hb : b.rops = op :: ops) : ∃ d ris', ris = (op, d) :: ris' ∧ OkIns (op, d) ∧ (∀ p ∈ ris', OkIns p) ∧
      (isLL op = true → Desc ops ris') := by
  have hd := h.desc
  rw [hb] at hd
  obtain ⟨d, ris', rfl, h1⟩ := hd
  exact ⟨d, ris', rfl, h.ok _ (by simp), fun p hp => h.ok p (by simp [hp]), h1⟩

theorem isLL_lit {op : Op} (h : isLit op = true) (hf : op ≠ .LiteralFloat) : isLL op = true := by
  unfold isLit at h
  split at h <;> first | rfl | exact absurd rfl hf | simp at h

theorem isLL_load {op : Op} {v : Sp} (h : spOf op = some v) : isLL op = true := by
  unfold spOf at h
  split at h <;> first | rfl | simp at h

theorem Desc.last {op : Op} {ops : List Op} {ris : List (Op × List Byte)} (h : Desc (op :: ops) ris)
    (hok : ∀ p ∈ ris, OkIns p) : ∃ d ris', ris = (op, d) :: ris' ∧ OkIns (op, d) ∧ (∀ p ∈ ris', OkIns p) ∧
      (isLL op = true → Desc ops ris') := by
  obtain ⟨d, ris', rfl, h1⟩ := h
  exact ⟨d, ris', rfl, hok _ (by simp), fun p hp => hok p (by simp [hp]), h1⟩

theorem OkIns.length {op : Op} {d : List Byte} {a : Act} (h : OkIns (op, d)) (ha : act op = some a) :
    d.length = dlen a := by
  obtain ⟨a', h1, h2⟩ := h.len
  dsimp only at h1 h2
  rw [ha] at h1
  cases h1
  exact h2

/-- Two loads at the end. -/
theorem Inv.loads {b : Code} {ris : List (Op × List Byte)} {o1 o2 : Op} {ops : List Op} {v w : Sp} (h : Inv b ris)
    (hb : b.rops = o2 :: o1 :: ops) (hv : spOf o1 = some v) (hw : spOf o2 = some w) :
    ∃ i j ris', ris = [(o2, [j]), (o1, [i])] ++ ris' ∧ b.rall = j :: o2.code :: i :: o1.code :: Whole.enc ris' ∧
      (∀ p ∈ ris', OkIns p) ∧ Desc ops ris' := by
  obtain ⟨d, r1, rfl, h1, h2, h3⟩ := h.last hb
  obtain ⟨d', r2, rfl, h4, h5, h6⟩ := (h3 (isLL_load hw)).last h2
  obtain ⟨j, rfl⟩ := len1 (h1.length (load_act hw).1)
  obtain ⟨i, rfl⟩ := len1 (h4.length (load_act hv).1)
  refine ⟨i, j, r2, rfl, ?_, h5, h6 (isLL_load hv)⟩
  rw [h.enc]
  rfl

theorem okIns_plain {op : Op} {d : List Byte} {a : Act} (ha : act op = some a) (hd : d.length = dlen a)
    (hn : ∀ k, a ≠ .lit k) (hx : ∀ x, a ≠ .index x := by simp) (hy : ∀ x y, a ≠ .indexLit x y := by simp) :
    OkIns (op, d) := by
  refine ⟨⟨a, ha, hd⟩, ?_, ?_, ?_, ?_, ?_, ?_⟩
  · rintro rfl
    exact absurd (Option.some.inj ha).symm (hn .i8)
  · rintro rfl
    exact absurd (Option.some.inj ha).symm (hn .i16)
  · rintro rfl
    exact absurd (Option.some.inj ha).symm (hn .f32)
  · rintro rfl
    exact absurd (Option.some.inj ha).symm (hx .stack)
  · rintro rfl
    exact absurd (Option.some.inj ha).symm (hy _ _)
  · rintro rfl
    exact absurd (Option.some.inj ha).symm (hy _ _)

/-! ### The cases -/

theorem skipLoad_index {op sk : Op} (h : skipLoad op = some sk) (ha : act op = some (.index .stack)) : op = .Index := by
  unfold skipLoad at h
  split at h
  · rfl
  all_goals first | (cases ha; done) | (simp at h)


theorem step_fastLoad {ρ : Vars} {b b1 : Code} {ris : List (Op × List Byte)} {op last : Op} {rest : List Op}
    (hi : Inv b ris) (hb : b.rops = last :: rest) (ho : op ≠ .Index)
    (h : fastLoad b op last rest = some (some b1)) : Step ρ ris op [] b1 := by
  unfold fastLoad at h
  cases hs : skipLoad op with
  | none => rw [hs] at h; simp at h
  | some sk =>
    rw [hs] at h
    cases rest with
    | nil => simp at h
    | cons prev more =>
      dsimp only at h
      split at h
      · cases hx : xyValues prev last with
        | none => rw [hx] at h; simp at h
        | some xy =>
          rw [hx] at h
          obtain ⟨v, w, hv, hw, hxy⟩ := xyValues_act hx
          obtain ⟨i, j, r0, rfl, hl, hok, hd⟩ := hi.loads hb hv hw
          rw [hl] at h
          simp [put, mov] at h
          subst h
          rcases (skipLoad_act hs).2 with ⟨o, h1, h2⟩ | ⟨h1, -⟩
          · refine step_fuse (old := [(last, [j]), (prev, [i])]) (new := [(sk, []), (xy, [i, j])]) rfl hok rfl (by simp [enc]) ?_
              ⟨[], _, rfl, ?_⟩ ?_
            · intro p hp
              simp only [List.mem_cons, List.not_mem_nil, or_false] at hp
              rcases hp with rfl | rfl
              · exact okIns_plain h2 rfl (by simp)
              · exact okIns_plain hxy rfl (by simp)
            · intro hll
              exfalso
              unfold skipLoad at hs
              split at hs <;> simp at hs <;> subst hs <;> simp [isLL] at hll
            · intro s t ht
              cases hvi : ρ v i with
              | none => simp [orun, ostep, h1, h2, hxy, (load_act hv).1, (load_act hw).1, Option.bind_some, astep, var1, var2, pushO, look, hvi] at ht
              | some x =>
                cases hwj : ρ w j with
                | none => simp [orun, ostep, h1, h2, hxy, (load_act hv).1, (load_act hw).1, Option.bind_some, astep, var1, var2, pushO, look, hvi, hwj] at ht
                | some y =>
                  simp only [orun, ostep, h1, h2, hxy, (load_act hv).1, (load_act hw).1, Option.bind_some, astep, var1, var2, pushO, look, hvi, hwj, Option.map_some, Option.bind_some, pop2] at ht ⊢
                  rw [Option.map_eq_some_iff] at ht
                  obtain ⟨z, hz, rfl⟩ := ht
                  exact ⟨some (.ref v i, .ref w j), by rw [hz]; rfl⟩
          · exfalso
            exact ho (skipLoad_index hs h1)
      · simp at h

theorem slotBin_comm {ρ : Vars} {k : BinOp} (hk : k = .add ∨ k = .mul) (x y : Slot) :
    slotBin ρ k x y = slotBin ρ k y x := by
  unfold slotBin
  cases x.val ρ with
  | none => cases y.val ρ <;> rfl
  | some a =>
    cases y.val ρ with
    | none => rfl
    | some b =>
      rcases hk with rfl | rfl
      · simp [iop, tot, BitVec.add_comm]
      · simp [iop, tot, BitVec.mul_comm]

theorem step_arith {ρ : Vars} {b b1 : Code} {ris : List (Op × List Byte)} {op last : Op} {rest : List Op}
    (hi : Inv b ris) (hb : b.rops = last :: rest) (ho : isArith op = true)
    (h : pushArith b op last rest = some b1) : Step ρ ris op [] b1 := by
  have hlen : OkIns (op, []) := by
    unfold isArith at ho
    split at ho <;> first | (simp at ho; done) | exact okIns_plain rfl rfl (by simp)
  have hpush : some (b.push op) = some b1 → Step ρ ris op [] b1 := by
    intro h
    cases h
    exact step_push hi hlen
  have hfuse : ∀ prev more, rest = prev :: more → (match fusedArith op prev last with
      | some (fused, false) => (do let l ← fuse2 fused b.rall; return (⟨l, []⟩ : Code))
      | some (fused, true) => (do let l ← fuse2x fused b.rall; return ⟨l, []⟩)
      | none => some (b.push op)) = some b1 → Step ρ ris op [] b1 := by
    intro prev more hr h
    cases hf : fusedArith op prev last with
    | none => rw [hf] at h; exact hpush h
    | some r =>
      obtain ⟨fused, sw⟩ := r
      rw [hf] at h
      obtain ⟨k, v, w, hv, hw, h1, h2, h3⟩ := fusedArith_act hf
      obtain ⟨i, j, r0, rfl, hl, hok, hd⟩ := hi.loads (hr ▸ hb) hv hw
      cases sw with
      | false =>
        dsimp only at h
        rw [hl] at h
        simp [fuse2, put, mov] at h
        subst h
        refine step_fuse (old := [(last, [j]), (prev, [i])]) (new := [(fused, [i, j])]) rfl hok rfl (by simp [enc]) ?_ trivial ?_
        · intro p hp
          simp only [List.mem_singleton] at hp
          subst hp
          exact okIns_plain h2 rfl (by simp)
        · intro s t ht
          simp only [Bool.false_eq_true, if_false] at h2
          cases hvi : ρ v i with
          | none => simp [orun, ostep, h1, h2, (load_act hv).1, (load_act hw).1, Option.bind_some, astep, var1, var2, pushO, look, hvi] at ht
          | some x =>
            cases hwj : ρ w j with
            | none => simp [orun, ostep, h1, h2, (load_act hv).1, (load_act hw).1, Option.bind_some, astep, var1, var2, pushO, look, hvi, hwj] at ht
            | some y =>
              simp only [orun, ostep, h1, h2, (load_act hv).1, (load_act hw).1, Option.bind_some, astep, var1, var2, pushO, look, hvi, hwj, Option.map_some, Option.bind_some, pop2] at ht ⊢
              rw [Option.map_eq_some_iff] at ht
              obtain ⟨z, hz, rfl⟩ := ht
              exact ⟨s.regs, by rw [hz]; rfl⟩
      | true =>
        dsimp only at h
        rw [hl] at h
        simp [fuse2x, put, mov] at h
        subst h
        refine step_fuse (old := [(last, [j]), (prev, [i])]) (new := [(fused, [j, i])]) rfl hok rfl (by simp [enc]) ?_ trivial ?_
        · intro p hp
          simp only [List.mem_singleton] at hp
          subst hp
          exact okIns_plain h2 rfl (by simp)
        · intro s t ht
          simp only [if_true] at h2
          cases hvi : ρ v i with
          | none => simp [orun, ostep, h1, h2, (load_act hv).1, (load_act hw).1, Option.bind_some, astep, var1, var2, pushO, look, hvi] at ht
          | some x =>
            cases hwj : ρ w j with
            | none => simp [orun, ostep, h1, h2, (load_act hv).1, (load_act hw).1, Option.bind_some, astep, var1, var2, pushO, look, hvi, hwj] at ht
            | some y =>
              simp only [orun, ostep, h1, h2, (load_act hv).1, (load_act hw).1, Option.bind_some, astep, var1, var2, pushO, look, hvi, hwj, Option.map_some, Option.bind_some, pop2] at ht ⊢
              rw [Option.map_eq_some_iff] at ht
              obtain ⟨z, hz, rfl⟩ := ht
              rw [slotBin_comm (h3 rfl)] at hz
              exact ⟨s.regs, by rw [hz]; rfl⟩
  unfold pushArith at h
  dsimp only at h
  split at h
  · cases rest with
    | nil =>
      dsimp only at h
      split at h
      · exact hpush h
      · simp at h
    | cons prev more =>
      cases more with
      | nil =>
        dsimp only at h
        split at h
        · exact hpush h
        · exact hfuse _ _ rfl h
      | cons p2 more => exact hfuse _ _ rfl h
  · exact hpush h

/-! ### Comparisons -/

theorem slotCmp_flip {ρ : Vars} {k : CmpOp} {inv : Bool} (hk : k = .gt ∨ k = .lt ∨ k = .eq) (x y : Slot) :
    slotCmp ρ k inv x y = slotCmp ρ (CmpOp.flip k) inv y x := by
  unfold slotCmp
  cases x.val ρ with
  | none => cases y.val ρ <;> rfl
  | some a =>
    cases y.val ρ with
    | none => rfl
    | some b =>
      rcases hk with rfl | rfl | rfl
      · simp only [icmp, CmpOp.flip, Option.bind_some, Option.map_some]
      · simp only [icmp, CmpOp.flip, Option.bind_some, Option.map_some]
      · simp only [icmp, CmpOp.flip, Option.bind_some, Option.map_some]
        rw [show (a == b) = (b == a) from Bool.beq_comm]

theorem step_cmpReplace {ρ : Vars} {b b1 : Code} {ris : List (Op × List Byte)} {op LS GS ILS IGS last prev : Op}
    {more : List Op} {k : CmpOp} {inv : Bool} (hi : Inv b ris) (hb : b.rops = last :: prev :: more)
    (hk : k = .gt ∨ k = .lt ∨ k = .eq) (hop : act op = some (.cmp k inv .stack false))
    (hLS : act LS = some (.cmp k inv (.one .L) false)) (hGS : act GS = some (.cmp k inv (.one .G) false))
    (hILS : act ILS = some (.cmp (CmpOp.flip k) inv (.one .L) false))
    (hIGS : act IGS = some (.cmp (CmpOp.flip k) inv (.one .G) false))
    (h : compareReplace LS GS ILS IGS b last prev more = some (some b1)) : Step ρ ris op [] b1 := by
  have hLL : ∀ (V : Op) k inv v, act V = some (.cmp k inv (.one v) false) → isLL V = true → False := by
    intro V k inv v hV hl
    unfold isLL at hl
    split at hl <;> first | (cases hV; done) | (simp at hl)
  have hLV : ∀ (v : Sp) (V : Op), spOf last = some v → isLit prev = true →
      act V = some (.cmp k inv (.one v) false) →
      (do let l ← put b.rall 1 V.code; return some (⟨l, V :: prev :: more⟩ : Code)) = some (some b1) →
      Step ρ ris op [] b1 := by
    intro v V hv hp hV h
    obtain ⟨hla, -⟩ := load_act hv
    obtain ⟨d, r1, rfl, h1, h2, h3⟩ := hi.last hb
    obtain ⟨i, rfl⟩ := len1 (h1.length hla)
    have hl : b.rall = i :: last.code :: Whole.enc r1 := hi.enc
    rw [hl] at h
    simp [put] at h
    subst h
    refine step_fuse (old := [(last, [i])]) (new := [(V, [i])]) rfl h2 rfl (by simp [enc]) ?_ ⟨_, _, rfl, fun hl => (hLL _ _ _ _ hV hl).elim⟩ ?_
    · intro p hp
      simp only [List.mem_singleton] at hp
      subst hp
      exact okIns_plain hV rfl (by simp)
    · intro s t ht
      cases hvi : ρ v i with
      | none => simp [orun, ostep, hop, hV, hla, Option.bind_some, astep, var1, pushO, look, hvi] at ht
      | some x =>
        simp only [orun, ostep, hop, hV, hla, Option.bind_some, astep, var1, pushO, look, hvi, Option.map_some, Option.bind_some, pop2, pop1] at ht ⊢
        cases hst : s.stk with
        | nil => simp [hst] at ht
        | cons y st =>
          simp only [hst] at ht ⊢
          exact ⟨t.regs, ht⟩
  have hVL : ∀ (v : Sp) (V : Op), spOf prev = some v → isLit last = true →
      act V = some (.cmp (CmpOp.flip k) inv (.one v) false) →
      (do let l ← swapLit last V b.rall; return some (⟨l, V :: prev :: more⟩ : Code)) = some (some b1) →
      Step ρ ris op [] b1 := by
    intro v V hv hl hV h
    obtain ⟨hpa, -⟩ := load_act hv
    obtain ⟨kk, hla, hln⟩ := isLit_act hl
    obtain ⟨d, r1, rfl, h1, h2, h3⟩ := hi.last hb
    obtain ⟨d', r2, rfl, h4, h5, h6⟩ := (h3 (isLL_lit hl h1.float)).last h2
    obtain ⟨i, rfl⟩ := len1 (h4.length hpa)
    have hbl : b.rall = d.reverse ++ last.code :: i :: prev.code :: Whole.enc r2 := hi.enc
    rw [hbl] at h
    cases hs : swapLit last V (d.reverse ++ last.code :: i :: prev.code :: Whole.enc r2) with
    | none => rw [hs] at h; simp at h
    | some l1 =>
      rw [hs] at h
      have h7 := swapLit_eq hla hl (h1.length hla) hs
      subst h7
      simp at h
      subst h
      refine step_fuse (old := [(last, d), (prev, [i])]) (new := [(V, [i]), (last, d)]) rfl h5
        (by simp [Code.data, Whole.enc]) (by simp [enc]) ?_ ⟨_, _, rfl, fun hl => (hLL _ _ _ _ hV hl).elim⟩ ?_
      · intro p hp
        simp only [List.mem_cons, List.not_mem_nil, or_false] at hp
        rcases hp with rfl | rfl
        · exact okIns_plain hV rfl (by simp)
        · exact h1
      · intro s t ht
        cases hvi : ρ v i with
        | none => simp [orun, ostep, hop, hV, hla, hpa, Option.bind_some, astep, var1, pushO, look, hvi] at ht
        | some x =>
          cases hlt : litInt kk d with
          | none => simp [orun, ostep, hop, hV, hla, hpa, Option.bind_some, astep, var1, pushO, look, hvi, hlt] at ht
          | some y =>
            simp only [orun, ostep, hop, hV, hla, hpa, Option.bind_some, astep, var1, pushO, look, hvi, hlt, Option.map_some, Option.bind_some, pop2, pop1] at ht ⊢
            rw [slotCmp_flip hk] at ht
            exact ⟨t.regs, ht⟩
  unfold compareReplace at h
  split at h
  · rename_i hp
    split at h
    · exact hLV .G GS rfl hp hGS h
    · exact hLV .L LS rfl hp hLS h
    · simp at h
  · split at h
    · rename_i hl
      split at h
      · exact hVL .G IGS rfl hl hIGS h
      · exact hVL .L ILS rfl hl hILS h
      · simp at h
    · simp at h

theorem step_cmp {ρ : Vars} {b b1 : Code} {ris : List (Op × List Byte)} {op last : Op} {rest : List Op}
    (hi : Inv b ris) (hb : b.rops = last :: rest) (ho : isCmp op = true)
    (h : pushCmp b op last rest = some b1) : Step ρ ris op [] b1 := by
  have hlen : OkIns (op, []) := by
    unfold isCmp llCmp at ho
    split at ho <;> first | (simp at ho; done) | exact okIns_plain rfl rfl (by simp)
  have hpush : some (b.push op) = some b1 → Step ρ ris op [] b1 := by
    intro h
    cases h
    exact step_push hi hlen
  unfold pushCmp at h
  cases rest with
  | nil => exact hpush h
  | cons prev more =>
    dsimp only at h
    split at h
    · rename_i ll gg LS GS ILS IGS h1 h2 h3
      obtain ⟨k, inv, hk, hop, hll, hgg, hLS, hGS, hILS, hIGS⟩ := cmp_act h1 h2 h3
      have hvv : ∀ (v : Sp) (V : Op), spOf last = some v → spOf prev = some v →
          act V = some (.cmp k inv (.two v v) false) →
          (do let l ← fuse2 V b.rall; return (⟨l, [V]⟩ : Code)) = some b1 → Step ρ ris op [] b1 := by
        intro v V hv hw hV h
        obtain ⟨i, j, r0, rfl, hl, hok, hd⟩ := hi.loads hb hw hv
        rw [hl] at h
        simp [fuse2, put, mov] at h
        subst h
        refine step_fuse (old := [(last, [j]), (prev, [i])]) (new := [(V, [i, j])]) rfl hok rfl (by simp [enc]) ?_
          ⟨_, _, rfl, fun _ => trivial⟩ ?_
        · intro p hp
          simp only [List.mem_singleton] at hp
          subst hp
          exact okIns_plain hV rfl (by simp)
        · intro s t ht
          cases hvi : ρ v i with
          | none => simp [orun, ostep, hop, hV, (load_act hv).1, (load_act hw).1, Option.bind_some, astep, var1, var2, pushO, look, hvi] at ht
          | some x =>
            cases hwj : ρ v j with
            | none => simp [orun, ostep, hop, hV, (load_act hv).1, (load_act hw).1, Option.bind_some, astep, var1, var2, pushO, look, hvi, hwj] at ht
            | some y =>
              simp only [orun, ostep, hop, hV, (load_act hv).1, (load_act hw).1, Option.bind_some, astep, var1, var2, pushO, look, hvi, hwj, Option.map_some, Option.bind_some, pop2] at ht ⊢
              exact ⟨t.regs, ht⟩
      split at h
      · rename_i hL
        obtain ⟨rfl, rfl⟩ := hL
        exact hvv .L ll rfl rfl hll h
      · split at h
        · rename_i hG
          obtain ⟨rfl, rfl⟩ := hG
          exact hvv .G gg rfl rfl hgg h
        · cases hc : compareReplace LS GS ILS IGS b last prev more with
          | none => rw [hc] at h; simp at h
          | some r =>
            rw [hc] at h
            cases r with
            | none => exact hpush h
            | some b' =>
              simp at h
              subst h
              exact step_cmpReplace hi hb hk hop hLS hGS hILS hIGS hc
    · exact hpush h

/-! ### Negated literals -/

theorem step_neg {neg : Word32 → Word32} {ρ : Vars} {b b1 : Code} {ris : List (Op × List Byte)} {last : Op}
    {rest : List Op} (hi : Inv b ris) (hb : b.rops = last :: rest) (h : pushNeg neg b last rest = some b1) :
    Step ρ ris .Negate [] b1 := by
  have hpush : some (b.push .Negate) = some b1 → Step ρ ris .Negate [] b1 := by
    intro h
    cases h
    exact step_push hi (okIns_plain rfl rfl (by simp))
  have key : ∀ (op : Op) (k : Lit) (d d' : List Byte) (r0 : List (Op × List Byte)) (w : Word32),
      ris = (op, d) :: r0 → act op = some (.lit k) → OkIns (op, d') → 1 ≤ d'.length → (∀ p ∈ r0, OkIns p) → Desc rest r0 →
      b1 = ⟨d'.reverse ++ op.code :: enc r0, op :: rest⟩ → litInt k d = some w → litInt k d' = some (0 - w) →
      Step ρ ris .Negate [] b1 := by
    intro op k d d' r0 w hr ha hok hn h0 hd hb1 hw hw'
    subst hr hb1
    refine step_fuse (old := [(op, d)]) (new := [(op, d')]) rfl h0 (by simp [Code.data, Whole.enc])
      (by simp only [enc, List.length_append, List.length_reverse, List.length_cons]; omega) ?_ ⟨_, _, rfl, fun _ => hd⟩ ?_
    · intro p hp
      simp only [List.mem_singleton] at hp
      subst hp
      exact hok
    · intro s t ht
      simp only [orun, ostep, ha, show act .Negate = some .neg from rfl, Option.bind_some, astep, pushO, hw, hw', Option.map_some, pop1, Slot.val] at ht ⊢
      exact ⟨t.regs, ht⟩
  unfold pushNeg at h
  split at h
  · obtain ⟨d, r0, rfl, h1, h2, h3⟩ := hi.last hb
    obtain ⟨x, rfl⟩ := len1 (h1.length (a := .lit .i8) rfl)
    have hl : b.rall = x :: Op.LiteralInt8.code :: Whole.enc r0 := hi.enc
    rw [hl] at h
    simp only [Option.some.injEq] at h
    have hx : x ≠ 0x80#8 := fun he => h1.i8 rfl (by rw [he])
    refine key .LiteralInt8 .i8 [x] [-x] r0 (x.signExtend 32) rfl rfl ⟨⟨_, rfl, rfl⟩, fun _ he => hx ?_, by simp, by simp, by simp⟩ (by simp)
      h2 (h3 rfl) h.symm rfl ?_
    · simp only [List.cons.injEq, and_true] at he
      have : x = -0x80#8 := by rw [← he, BitVec.neg_neg]
      rw [this]; rfl
    · simp only [litInt, litVal]
      rw [signExtend_neg x (by omega) (by omega) hx]
  · split at h
    · obtain ⟨d, r0, rfl, h1, h2, h3⟩ := hi.last hb
      obtain ⟨x0, x1, rfl⟩ := len2 (h1.length (a := .lit .i16) rfl)
      have hl : b.rall = x1 :: x0 :: Op.LiteralInt16.code :: Whole.enc r0 := hi.enc
      rw [hl] at h
      simp only [Option.some.injEq] at h
      have hx : (x0.setWidth 16 ||| (x1.setWidth 16) <<< 8 : Word16) ≠ 0x8000#16 := by
        intro hx
        have h0 : x0 = (x0.setWidth 16 ||| (x1.setWidth 16) <<< 8 : Word16).setWidth 8 := by
          apply BitVec.eq_of_getLsbD_eq
          intro i hi
          simp [hi]
        have h4 : x1 = ((x0.setWidth 16 ||| (x1.setWidth 16) <<< 8 : Word16) >>> 8).setWidth 8 := by
          apply BitVec.eq_of_getLsbD_eq
          intro i hi
          have : 8 + i < 16 := by omega
          simp [hi, this]
        rw [hx] at h0 h4
        exact h1.i16 rfl (by rw [h0, h4]; rfl)
      have hj := join16 (-(x0.setWidth 16 ||| (x1.setWidth 16) <<< 8 : Word16))
      refine key .LiteralInt16 .i16 [x0, x1] [_, _] r0
        ((x0.setWidth 16 ||| (x1.setWidth 16) <<< 8 : Word16).signExtend 32) rfl rfl ⟨⟨_, rfl, rfl⟩, by simp, fun _ he => hx ?_, by simp, by simp⟩ (by simp)
        h2 (h3 rfl) h.symm rfl ?_
      · simp only [List.cons.injEq, and_true] at he
        rw [he.1, he.2] at hj
        rw [← BitVec.neg_neg (x := (x0.setWidth 16 ||| (x1.setWidth 16) <<< 8 : Word16)), ← hj]
        rfl
      · simp only [litInt, litVal, hj]
        rw [signExtend_neg _ (by omega) (by omega) hx]
    · exact hpush h
  · obtain ⟨d, r0, rfl, h1, h2, h3⟩ := hi.last hb
    obtain ⟨x0, x1, x2, x3, rfl⟩ := len4 (h1.length (a := .lit .i32) rfl)
    have hl : b.rall = x3 :: x2 :: x1 :: x0 :: Op.LiteralInt32.code :: Whole.enc r0 := hi.enc
    rw [hl] at h
    simp only [Option.some.injEq] at h
    refine key .LiteralInt32 .i32 [x0, x1, x2, x3] [_, _, _, _] r0 _ rfl rfl ⟨⟨_, rfl, rfl⟩, by simp, by simp, by simp, by simp⟩ (by simp)
      h2 (h3 rfl) h.symm rfl ?_
    simp only [litInt, litVal]
    rw [ushift_setWidth _ 8 (by omega), ushift_setWidth _ 16 (by omega), ushift_setWidth _ 24 (by omega),
      join32]
    exact congrArg some (BitVec.zero_sub _).symm
  · obtain ⟨d, r0, rfl, h1, h2, h3⟩ := hi.last hb
    exact absurd rfl h1.float
  · exact hpush h

/-! ### One instruction -/

/-- The instructions the compiler of expressions emits. -/
def isExpr : Op → Bool
  | .LoadFromLocal | .LoadFromGlobal | .LiteralZero | .LiteralInt8 | .LiteralInt16 | .LiteralInt32
  | .StackSwap | .SwapTwoToTop | .LogicalAnd | .LogicalOr | .LogicalNot | .BitwiseNOT | .Negate => true
  | op => isCmp op || isArith op || ((skipLoad op).isSome && op != .Index)

theorem emit_good {neg : Word32 → Word32} {tame : Bool} {ρ : Vars} {b b' : Code} {ris : List (Op × List Byte)}
    {op : Op} {d : List Byte} (hi : Inv b ris) (he : isExpr op = true) (hok : OkIns (op, d))
    (h : emitS neg tame b op d = some b') :
    ∃ ris', Inv b' ris' ∧ (∀ s t, orun ρ ((op, d) :: ris) s = some t → ∃ r, orun ρ ris' s = some { t with regs := r }) ∧
      (2 ≤ (enc ris).length → 2 ≤ (enc ris').length) := by
  unfold emitS at h
  split at h
  · cases h
    exact step_push hi hok
  · unfold emit at h
    cases hp : pushOpcode neg b op with
    | none => rw [hp] at h; simp at h
    | some b1 =>
      rw [hp] at h
      simp only [Option.bind_eq_bind, Option.bind_some, Option.pure_def, Option.some.injEq] at h
      subst h
      suffices Step ρ ris op d b1 from this
      have hpush : some (b.push op) = some b1 → Step ρ ris op d b1 := by
        intro h
        cases h
        exact step_push hi hok
      unfold pushOpcode at hp
      cases hb : b.rops with
      | nil => rw [hb] at hp; exact hpush hp
      | cons last rest =>
        rw [hb] at hp
        dsimp only at hp
        by_cases g1 : op = .Negate
        · rw [if_pos g1] at hp
          subst g1
          obtain rfl : d = [] := len0 (hok.length (a := .neg) rfl)
          exact step_neg hi hb hp
        · rw [if_neg g1, if_neg (by rintro ⟨rfl, -⟩; simp [isExpr, isCmp, llCmp, isArith, skipLoad] at he)] at hp
          by_cases g2 : isCmp op = true
          · rw [if_pos g2] at hp
            obtain rfl : d = [] := by
              unfold isCmp llCmp at g2
              split at g2 <;> first | (simp at g2; done) | exact len0 (hok.length rfl)
            exact step_cmp hi hb g2 hp
          · rw [if_neg g2] at hp
            cases hf : fastLoad b op last rest with
            | none => rw [hf] at hp; simp at hp
            | some r =>
              rw [hf] at hp
              simp only [Option.bind_eq_bind, Option.bind_some] at hp
              cases r with
              | some b2 =>
                simp only [Option.pure_def, Option.some.injEq] at hp
                subst hp
                have hne : op ≠ .Index := by
                  rintro rfl
                  simp [isExpr, isCmp, llCmp, isArith] at he
                obtain rfl : d = [] := by
                  unfold fastLoad at hf
                  cases hs : skipLoad op with
                  | none => rw [hs] at hf; simp at hf
                  | some sk =>
                    rcases (skipLoad_act hs).2 with ⟨o, h1, -⟩ | ⟨h1, -⟩ <;> exact len0 (hok.length h1)
                exact step_fastLoad hi hb hne hf
              | none =>
                dsimp only at hp
                by_cases g3 : isArith op = true
                · rw [if_pos g3] at hp
                  obtain rfl : d = [] := by
                    unfold isArith at g3
                    split at g3 <;> first | (simp at g3; done) | exact len0 (hok.length rfl)
                  exact step_arith hi hb g3 hp
                · rw [if_neg g3, if_neg (by rintro rfl; simp [isExpr, isCmp, llCmp, isArith] at he),
                    if_neg (by rintro rfl; simp [isExpr, isCmp, llCmp, isArith, skipLoad] at he),
                    if_neg (by rintro rfl; simp [isExpr, isCmp, llCmp, isArith, skipLoad] at he)] at hp
                  exact hpush hp

end Wrench.Whole
