import Verif.Prog.Comp

/-
The interpreter of bytes follows the machine of `Flow`.
-/
namespace Wrench.Prog
open Wrench.Vm Wrench.Vm.Jump Wrench.Peep Wrench.Whole Wrench.Ops

theorem plain_test {o : Op} (h : vmBranch o = none) : testOf o = o ∧ o ≠ .RelativeJump :=
  Op.all_of (p := fun o => vmBranch o = none → testOf o = o ∧ o ≠ .RelativeJump) (by decide +kernel) o h

theorem bsteps_add {E : Env} {all : List Byte} {n n' : Nat} {p q r : Nat × M} (h : bsteps E all n p = some q)
    (h' : bsteps E all n' q = some r) : bsteps E all (n + n') p = some r := by
  induction n generalizing p with
  | zero => cases h; simpa using h'
  | succ n ih =>
    simp only [bsteps, Option.bind_eq_some_iff] at h
    obtain ⟨x, h1, h2⟩ := h
    rw [Nat.add_right_comm]
    simp only [bsteps, h1, Option.bind_some, ih h2]

theorem bsteps_one {E : Env} {all : List Byte} {p q : Nat × M} (h : bstep E all p = some q) : bsteps E all 1 p = some q := by
  simp [bsteps, h]

theorem Here.tail {all l l' : List Byte} {p : Nat} (h : Here all p (l ++ l')) : Here all p l ∧ Here all (p + l.length) l' := by
  constructor
  · intro j hj
    have := h j (by rw [List.length_append]; omega)
    rwa [List.getElem?_append_left hj] at this
  · intro j hj
    have := h (l.length + j) (by rw [List.length_append]; omega)
    rw [List.getElem?_append_right (by omega), show l.length + j - l.length = j by omega, ← Nat.add_assoc] at this
    exact this

theorem Here.take {all l : List Byte} {p : Nat} (h : Here all p l) : (all.drop p).take l.length = l := by
  apply List.ext_getElem?
  intro j
  rw [List.getElem?_take]
  by_cases hj : j < l.length
  · rw [if_pos hj, List.getElem?_drop, h j hj]
  · rw [if_neg hj, List.getElem?_eq_none (by omega)]

theorem Here.length {all l : List Byte} {p : Nat} (h : Here all p l) (hl : l ≠ []) : p + l.length ≤ all.length := by
  have h0 : 0 < l.length := List.length_pos_iff.mpr hl
  have := h (l.length - 1) (by omega)
  rw [List.getElem?_eq_getElem (by omega : l.length - 1 < l.length)] at this
  have := (List.getElem?_eq_some_iff.mp this).1
  omega

/-- Instructions that do not branch are executed one after the other. -/
theorem orun_steps {E : Env} {all : List Byte} {is : List (Op × List Byte)} {p : Nat} {m m' : M} (h : ORun E is m m')
    (hh : Here all p (encF is)) : bsteps E all is.length (p, m) = some (p + (encF is).length, m') := by
  induction is generalizing p m with
  | nil => cases h; rfl
  | cons q is ih =>
    obtain ⟨op, d⟩ := q
    obtain ⟨a, m1, h1, h2, h3, h4, h5⟩ := h
    have he : encF ((op, d) :: is) = (op.code :: d) ++ encF is := rfl
    rw [he] at hh ⊢
    obtain ⟨g1, g2⟩ := hh.tail
    have hlen := g1.length (by simp)
    rw [List.length_cons] at hlen
    have hop : opAt all p = some op := by
      have := g1 0 (by simp)
      rw [Nat.add_zero, List.getElem?_cons_zero] at this
      simp [opAt, this, Op.decode_code]
    have hd : (all.drop (p + 1)).take (dlen a) = d := by
      have : Here all (p + 1) d := (Here.tail (l := [op.code]) g1).2
      rw [← h3]
      exact this.take
    dsimp only at h1 h2 h3 h4
    obtain ⟨t1, t2⟩ := plain_test h1
    have hs : bstep E all (p, m) = some (p + 1 + dlen a, m1) := by
      unfold bstep
      simp only [hop, t1, if_neg t2, h2, hd, h4]
      rw [if_neg (by omega)]
    have := ih h5 g2
    rw [List.length_cons] at this ⊢
    rw [Nat.add_comm is.length 1]
    refine bsteps_add (bsteps_one hs) ?_
    rw [show p + 1 + dlen a = p + (d.length + 1) by omega, this]
    simp
    omega

/-- The unit is compiled and its jumps are resolved. -/
structure Done (glob : Bool) (u : BU) (k : Flow.CS (Option Vars) (Option Word32)) (L : List Chunk) : Prop where
  rep : Rep glob u k L
  res : Resolved u

theorem Done.target {glob : Bool} {u : BU} {k : Flow.CS (Option Vars) (Option Word32)} {L : List Chunk} (h : Done glob u k L) {i : Nat} {c : Chunk} {op : Op}
    {d : List Byte} {id : Nat} (hc : L[i]? = some c) (hb : c.br = some (op, d, id)) :
    branch u.all (off L i + c.pre.length) true = some (.ofNat (off L (k.tg.getD id 0))) := by
  obtain ⟨t, h1, h2⟩ := h.rep.refs i c op d id hc hb
  have := h.res t (List.mem_of_getElem? h1) _ h2
  rw [Nat.add_sub_cancel, h.rep.offs id t h1] at this
  exact this

theorem two {l : List Byte} (h : l.length = 2) : ∃ x y, l = [x, y] := by
  match l, h with
  | [x, y], _ => exact ⟨x, y, rfl⟩

/-- One instruction of `Flow` is one or more instructions of the interpreter. -/
theorem Done.step {glob : Bool} {E : Env} {u : BU} {k : Flow.CS (Option Vars) (Option Word32)} {L : List Chunk} (h : Done glob u k L) {i : Nat} {ρ ρ' : Vars}
    {c' : Flow.Cfg (Option Vars)} {m : M} (hs : Flow.step k.code k.tg ⟨i, some ρ, []⟩ = .go c') (hst : c'.st = some ρ')
    (hm : Ready ρ m) : c'.stk = [] ∧ ∃ n m', bsteps E u.all (n + 1) (off L i, m) = some (off L c'.pc, m') ∧ Ready ρ' m' ∧
      Frame m m' := by
  unfold Flow.step at hs
  dsimp only at hs
  cases hx : k.code[i]? with
  | none => rw [hx] at hs; dsimp only at hs; split at hs <;> cases hs
  | some x =>
    rw [hx] at hs
    have hi := (List.getElem?_eq_some_iff.mp hx).1
    rw [← h.rep.len] at hi
    obtain ⟨c, hc⟩ : ∃ c, L[i]? = some c := ⟨_, List.getElem?_eq_getElem hi⟩
    have hf := h.rep.fits i x c hx hc
    have hh := h.rep.holds i c hc
    have hsucc := off_succ hc
    have hend : off L i + c.size ≤ u.all.length := by
      rw [h.rep.size]
      exact off_lt hc hi
    cases x with
    | act f =>
      obtain ⟨a, rfl, h1, h2⟩ := hf
      dsimp only at hs
      cases hs
      refine ⟨rfl, ?_⟩
      dsimp only at hst ⊢
      obtain ⟨is, m', g1, g2, g3, g4, g5⟩ := h1.runs E ρ ρ' m hst hm
      have hl : 0 < is.length := List.length_pos_iff.mpr g2
      refine ⟨is.length - 1, m', ?_, g4, g5⟩
      rw [Nat.sub_add_cancel hl, hsucc]
      have := orun_steps g3 (by rw [← g1]; exact hh.pre)
      rw [this, ← g1]
      simp [Chunk.size, h2]
    | bz t id =>
      obtain ⟨e, op, d, rfl, h1, h2⟩ := hf
      dsimp only at hs
      cases hs
      refine ⟨rfl, ?_⟩
      dsimp only at hst ⊢
      cases he : e.eval ρ with
      | none => simp [test, he] at hst
      | some w =>
        have ht : test e (some ρ) = (w != 0, some ρ) := by simp [test, he]
        rw [ht] at hst ⊢
        dsimp only at hst ⊢
        cases hst
        have hsz : c.size = c.pre.length + (1 + d.length + 2) := by simp [Chunk.size, h2]
        obtain ⟨o1, o2⟩ := hh.br op d id h2
        rw [Option.map_eq_some_iff] at o1
        obtain ⟨o, o3, o4⟩ := o1
        obtain ⟨x, y, hxy⟩ := two (l := (u.all.drop (off L i + c.pre.length + 1 + d.length)).take 2) (by
          rw [List.length_take, List.length_drop]; omega)
        obtain ⟨is, mid, m', a, g1, g2, g3, g4, g5, g6, g7⟩ := h1.runs E ρ m w x y he hm
        have hmid := orun_steps g2 (by rw [← g1]; exact hh.pre)
        rw [← g1] at hmid
        have hd : (u.all.drop (off L i + c.pre.length + 1)).take (dlen a) = d ++ [x, y] := by
          rw [g4, List.take_add, o2.take, List.drop_drop, hxy]
        refine ⟨is.length, m', ?_, g6, g7⟩
        refine bsteps_add hmid (bsteps_one ?_)
        unfold bstep
        simp only [o3, o4, if_neg h1.cond, g3, hd, g5]
        rw [if_neg (by omega)]
        by_cases hw : (w != 0) = true
        · rw [if_pos hw, if_pos hw, hsucc]
          dsimp only
          congr 2
          omega
        · rw [if_neg hw, if_neg hw]
          dsimp only
          rw [h.target hc h2]
    | jmp id =>
      obtain ⟨h1, h2⟩ := hf
      dsimp only at hs
      cases hs
      refine ⟨rfl, ?_⟩
      dsimp only at hst ⊢
      cases hst
      refine ⟨0, m, ?_, hm, Frame.refl m⟩
      obtain ⟨o1, -⟩ := hh.br _ _ _ h2
      rw [Option.map_eq_some_iff] at o1
      obtain ⟨o, o3, o4⟩ := o1
      have ht := h.target hc h2
      rw [h1, List.length_nil, Nat.add_zero] at o3 ht
      refine bsteps_one ?_
      unfold bstep
      simp only [o3, o4, if_true, ht]
    | ret r => cases hs
    | push s => exact hf.elim
    | pop => exact hf.elim
    | sw a b => exact hf.elim

/-- What is undefined stays undefined. -/
theorem Done.undef {glob : Bool} {u : BU} {k : Flow.CS (Option Vars) (Option Word32)} {L : List Chunk} (h : Done glob u k L)
    (n : Nat) (i : Nat) (stk : List Word32) (ρ : Vars) (stk' : List Word32) :
    Flow.run k.code k.tg n ⟨i, none, stk⟩ ≠ some (.fin (some ρ) stk') ∧
      ∀ v, Flow.run k.code k.tg n ⟨i, none, stk⟩ ≠ some (.ret v (some ρ) stk') := by
  induction n generalizing i stk with
  | zero => exact ⟨(fun h => by cases h), (fun v h => by cases h)⟩
  | succ n ih =>
    have hstep : (∃ c', Flow.step k.code k.tg ⟨i, none, stk⟩ = .go c' ∧ c'.st = none) ∨
        Flow.step k.code k.tg ⟨i, none, stk⟩ = .fin none stk ∨ Flow.step k.code k.tg ⟨i, none, stk⟩ = .fault ∨
        ∃ v, Flow.step k.code k.tg ⟨i, none, stk⟩ = .ret v none stk := by
      unfold Flow.step
      dsimp only
      cases hx : k.code[i]? with
      | none => dsimp only; split <;> simp
      | some x =>
        have hi := (List.getElem?_eq_some_iff.mp hx).1
        rw [← h.rep.len] at hi
        have hf := h.rep.fits i x _ hx (List.getElem?_eq_getElem hi)
        cases x with
        | act f =>
          obtain ⟨a, rfl, -⟩ := hf
          exact .inl ⟨_, rfl, by cases a <;> rfl⟩
        | bz t id =>
          obtain ⟨e, op, d, rfl, -⟩ := hf
          exact .inl ⟨_, rfl, rfl⟩
        | jmp id => exact .inl ⟨_, rfl, rfl⟩
        | ret r =>
          obtain ⟨val, -, -, h1, -⟩ := hf
          exact .inr (.inr (.inr ⟨_, by dsimp only; rw [h1]⟩))
        | push s => exact hf.elim
        | pop => exact hf.elim
        | sw a b => exact hf.elim
    unfold Flow.run
    rcases hstep with ⟨⟨i', st', stk1⟩, h1, h2⟩ | h1 | h1 | ⟨v, h1⟩
    · rw [h1]
      dsimp only at h2
      subst h2
      exact ih _ _
    · rw [h1]
      exact ⟨(fun h => by cases h), (fun v h => by cases h)⟩
    · rw [h1]
      exact ⟨(fun h => by cases h), (fun v h => by cases h)⟩
    · rw [h1]
      exact ⟨(fun h => by cases h), (fun v h => by cases h)⟩

/-- A run of `Flow` to the end of the code is a run of the interpreter to the end of the unit. -/
theorem Done.run {glob : Bool} {E : Env} {u : BU} {k : Flow.CS (Option Vars) (Option Word32)} {L : List Chunk} (h : Done glob u k L) {n : Nat} {i : Nat}
    {ρ ρ' : Vars} {stk : List Word32} {m : M} (hr : Flow.run k.code k.tg n ⟨i, some ρ, []⟩ = some (.fin (some ρ') stk))
    (hm : Ready ρ m) : ∃ N m', bsteps E u.all N (off L i, m) = some (u.all.length, m') ∧ Ready ρ' m' ∧ Frame m m' := by
  induction n generalizing i ρ m with
  | zero => cases hr
  | succ n ih =>
    unfold Flow.run at hr
    cases hs : Flow.step k.code k.tg ⟨i, some ρ, []⟩ with
    | go c' =>
      rw [hs] at hr
      dsimp only at hr
      obtain ⟨i', st', stk1⟩ := c'
      cases st' with
      | none => exact absurd hr (h.undef n i' stk1 ρ' stk).1
      | some ρ1 =>
        obtain ⟨h1, N, m1, h2, h3, h4⟩ := h.step (E := E) hs rfl hm
        dsimp only at h1 h2
        subst h1
        obtain ⟨N', m', h5, h6, h7⟩ := ih hr h3
        exact ⟨_, m', bsteps_add h2 h5, h6, h4.trans h7⟩
    | fin st stk1 =>
      rw [hs] at hr
      dsimp only at hr
      cases hr
      unfold Flow.step at hs
      dsimp only at hs
      cases hx : k.code[i]? with
      | none =>
        rw [hx] at hs
        dsimp only at hs
        by_cases hi : i = k.code.length
        · rw [if_pos hi] at hs
          cases hs
          refine ⟨0, m, ?_, hm, Frame.refl m⟩
          rw [h.rep.size, h.rep.len, hi]
          rfl
        · rw [if_neg hi] at hs
          cases hs
      | some x =>
        rw [hx] at hs
        cases x <;> simp at hs
    | ret r st stk1 => rw [hs] at hr; cases hr
    | fault => rw [hs] at hr; cases hr

end Wrench.Prog
