import Verif.Prog.Ret

/-
The bytes of a unit as a list of chunks, one for each instruction of `Flow`.
-/
namespace Wrench.Prog
open Wrench.Vm Wrench.Vm.Jump Wrench.Peep Wrench.Whole Wrench.Ops

/-- Instructions that do not branch, then possibly a branch: its opcode, its operands, its target. -/
structure Chunk where
  pre : List Byte
  br : Option (Op × List Byte × Nat)

def Chunk.size (c : Chunk) : Nat :=
  c.pre.length + match c.br with
    | none => 0
    | some (_, d, _) => 1 + d.length + 2

/-- Where the `i`th chunk begins. -/
def off (L : List Chunk) (i : Nat) : Nat := ((L.take i).map Chunk.size).sum

theorem off_zero (L : List Chunk) : off L 0 = 0 := by simp [off]

theorem off_append (L : List Chunk) (c : Chunk) {i : Nat} (h : i ≤ L.length) : off (L ++ [c]) i = off L i := by
  unfold off
  rw [List.take_append_of_le_length h]

theorem off_succ {L : List Chunk} {c : Chunk} {i : Nat} (h : L[i]? = some c) : off L (i + 1) = off L i + c.size := by
  unfold off
  rw [List.take_add_one, h]
  simp

theorem off_mono {L : List Chunk} {i j : Nat} (h : i ≤ j) : off L i ≤ off L j := by
  unfold off
  obtain ⟨k, rfl⟩ := Nat.exists_eq_add_of_le h
  rw [List.take_add]
  simp

theorem off_lt {L : List Chunk} {c : Chunk} {i j : Nat} (h : L[i]? = some c) (hj : i < j) :
    off L i + c.size ≤ off L j := by
  rw [← off_succ h]
  exact off_mono hj

theorem off_end (L : List Chunk) (c : Chunk) : off (L ++ [c]) (L.length + 1) = off L L.length + c.size := by
  rw [off_succ (c := c) (by simp), off_append _ _ (Nat.le_refl _)]

/-- `l` is in the code at `p`. -/
def Here (all : List Byte) (p : Nat) (l : List Byte) : Prop := ∀ j, j < l.length → all[p + j]? = l[j]?

theorem Here.append {all l : List Byte} {p : Nat} (h : Here all p l) (more : List Byte) : Here (all ++ more) p l := by
  intro j hj
  have := h j hj
  rw [List.getElem?_append_left]
  · exact this
  · rw [List.getElem?_eq_getElem hj] at this
    exact (List.getElem?_eq_some_iff.mp this).1

theorem Here.here (all l more : List Byte) : Here (all ++ (l ++ more)) all.length l := by
  intro j hj
  rw [List.getElem?_append_right (by omega), show all.length + j - all.length = j by omega,
    List.getElem?_append_left hj]

/-- The bytes of a chunk at `p`; the branch is in its 8-bit or 16-bit form. -/
structure Holds (all : List Byte) (p : Nat) (c : Chunk) : Prop where
  pre : Here all p c.pre
  br : ∀ op d id, c.br = some (op, d, id) → (opAt all (p + c.pre.length)).map testOf = some op ∧
    Here all (p + c.pre.length + 1) d

/-- A chunk does what an instruction says. -/
def FitsI (glob : Bool) (i : Flow.Instr (Option Vars) (Option Word32)) (c : Chunk) : Prop :=
  match i with
  | .act f => ∃ a, f = Eff.means a ∧ EffOk a c.pre ∧ c.br = none
  | .bz t id => ∃ e op d, t = test e ∧ CondOk e c.pre op d ∧ c.br = some (op, d, id)
  | .jmp id => c.pre = [] ∧ c.br = some (.RelativeJump, [], id)
  | .ret r => ∃ val, RetOk glob val c.pre ∧ (∀ ρ, r (some ρ) = (val ρ, some ρ)) ∧ (r none).2 = none ∧ c.br = none
  | _ => False

theorem FitsI.branch {glob : Bool} {i : Flow.Instr (Option Vars) (Option Word32)} {c : Chunk} (h : FitsI glob i c) {op : Op} {d : List Byte} {id : Nat}
    (hb : c.br = some (op, d, id)) : vmBranch op = some (d.length, .w16) := by
  cases i with
  | act f => obtain ⟨a, -, -, h⟩ := h; rw [h] at hb; cases hb
  | bz t id' =>
    obtain ⟨e, op', d', -, h1, h2⟩ := h
    rw [h2] at hb
    cases hb
    exact h1.branch
  | jmp id' =>
    obtain ⟨-, h⟩ := h
    rw [h] at hb
    cases hb
    rfl
  | ret r => obtain ⟨v, -, -, -, h⟩ := h; rw [h] at hb; cases hb
  | push s => exact h.elim
  | pop => exact h.elim
  | sw c d => exact h.elim

/-- The unit holds the chunks `L`, which do what the code of `Flow` says. -/
structure Rep (glob : Bool) (u : BU) (k : Flow.CS (Option Vars) (Option Word32)) (L : List Chunk) : Prop where
  len : L.length = k.code.length
  fits : ∀ (i : Nat) x c, k.code[i]? = some x → L[i]? = some c → FitsI glob x c
  size : u.all.length = off L L.length
  holds : ∀ (i : Nat) c, L[i]? = some c → Holds u.all (off L i) c
  refs : ∀ (i : Nat) c op d id, L[i]? = some c → c.br = some (op, d, id) →
    ∃ t, u.ts[id]? = some t ∧ off L i + c.pre.length + 1 ∈ t.refs
  sites : ∀ (id : Nat) t r, u.ts[id]? = some t → r ∈ t.refs →
    ∃ (i : Nat) (c : Chunk) (op : Op) (d : List Byte), L[i]? = some c ∧ c.br = some (op, d, id) ∧ r = off L i + c.pre.length + 1
  layout : Layout u.all u.ts
  tlen : u.ts.length = k.tg.length
  offs : ∀ (id : Nat) t, u.ts[id]? = some t → t.offset = off L (k.tg.getD id 0)
  inside : ∀ x ∈ k.tg, x ≤ k.code.length
  cs : u.cs = k.cs
  bs : u.bs = k.bs
  ctx : ∀ x, x ∈ u.cs ∨ x ∈ u.bs → x < u.ts.length
  quiet : quiet u.code.rops

theorem getD_le {l : List Nat} {n id : Nat} (h : ∀ x ∈ l, x ≤ n) : l.getD id 0 ≤ n := by
  rw [List.getD_eq_getElem?_getD]
  cases hx : l[id]? with
  | none => simp
  | some x => exact h x (List.mem_of_getElem? hx)

theorem Rep.start {glob : Bool} : Rep glob ⟨⟨[], []⟩, [], [], []⟩ ⟨[], [], [], []⟩ [] := by
  refine ⟨rfl, by simp, rfl, by simp, by simp, by simp, ⟨by simp [flat], by simp [flat]⟩, rfl, by simp, by simp, rfl, rfl,
    by simp, ?_⟩
  intro o ho
  cases ho

theorem opAt_append {all more : List Byte} {p : Nat} {o : Op} (h : opAt all p = some o) : opAt (all ++ more) p = some o := by
  unfold opAt at h ⊢
  cases hx : all[p]? with
  | none => rw [hx] at h; cases h
  | some x =>
    rw [List.getElem?_append_left (List.getElem?_eq_some_iff.mp hx).1, hx]
    rw [hx] at h
    exact h

theorem Holds.append {all more : List Byte} {p : Nat} {c : Chunk} (h : Holds all p c) : Holds (all ++ more) p c := by
  refine ⟨h.pre.append more, fun op d id hb => ?_⟩
  obtain ⟨h1, h2⟩ := h.br op d id hb
  refine ⟨?_, h2.append more⟩
  rw [Option.map_eq_some_iff] at h1 ⊢
  obtain ⟨o, h3, h4⟩ := h1
  exact ⟨o, opAt_append h3, h4⟩

/-- One more chunk. -/
theorem Rep.extend {glob : Bool} {u u' : BU} {k : Flow.CS (Option Vars) (Option Word32)} {L : List Chunk} (h : Rep glob u k L) {c : Chunk}
    {x : Flow.Instr (Option Vars) (Option Word32)} {more : List Byte} (ha : u'.all = u.all ++ more) (hl : more.length = c.size)
    (hh : Holds u'.all u.all.length c) (hf : FitsI glob x c) (hts : u'.ts.length = u.ts.length)
    (ht : ∀ (id : Nat) t, u'.ts[id]? = some t → ∃ t0, u.ts[id]? = some t0 ∧ t.offset = t0.offset ∧
      ∀ r, r ∈ t.refs ↔ r ∈ t0.refs ∨ (∃ op d, c.br = some (op, d, id)) ∧ r = u.all.length + c.pre.length + 1)
    (hid : ∀ op d id, c.br = some (op, d, id) → id < u.ts.length) (hlay : Layout u'.all u'.ts) (hcs : u'.cs = u.cs)
    (hbs : u'.bs = u.bs) (hq : Prog.quiet u'.code.rops) : Rep glob u' (k.emit x) (L ++ [c]) := by
  have hlen := h.len
  have hget : ∀ (i : Nat) c', (L ++ [c])[i]? = some c' → L[i]? = some c' ∧ i < L.length ∨ i = L.length ∧ c' = c := by
    intro i c' hi
    by_cases hlt : i < L.length
    · rw [List.getElem?_append_left hlt] at hi
      exact .inl ⟨hi, hlt⟩
    · rw [List.getElem?_append_right (by omega)] at hi
      obtain ⟨hz, -⟩ := List.getElem?_eq_some_iff.mp hi
      simp only [List.length_singleton] at hz
      obtain rfl : i = L.length := by omega
      simp only [Nat.sub_self, List.getElem?_cons_zero, Option.some.injEq] at hi
      exact .inr ⟨rfl, hi.symm⟩
  have hoL : off (L ++ [c]) L.length = u.all.length := by rw [off_append _ _ (Nat.le_refl _), h.size]
  refine ⟨?_, ?_, ?_, ?_, ?_, ?_, hlay, ?_, ?_, ?_, hcs.trans h.cs, hbs.trans h.bs, ?_, hq⟩
  · simp [Flow.CS.emit, hlen]
  · intro i y c' hi hc'
    rcases hget i c' hc' with ⟨h1, h2⟩ | ⟨rfl, rfl⟩
    · simp only [Flow.CS.emit] at hi
      rw [List.getElem?_append_left (by omega)] at hi
      exact h.fits i y c' hi h1
    · simp only [Flow.CS.emit, hlen, List.getElem?_concat_length, Option.some.injEq] at hi
      rw [← hi]
      exact hf
  · rw [List.length_append, List.length_singleton, off_end, ha, List.length_append, hl, h.size]
  · intro i c' hc'
    rcases hget i c' hc' with ⟨h1, h2⟩ | ⟨rfl, rfl⟩
    · rw [off_append _ _ (by omega), ha]
      exact (h.holds i c' h1).append
    · rw [hoL]
      exact hh
  · intro i c' op d id hc' hb
    have hex : ∀ id : Nat, id < u.ts.length → ∃ t, u'.ts[id]? = some t := by
      intro id hi
      exact ⟨_, List.getElem?_eq_getElem (by rw [hts]; exact hi)⟩
    rcases hget i c' hc' with ⟨h1, h2⟩ | ⟨rfl, rfl⟩
    · rw [off_append _ _ (by omega)]
      obtain ⟨t0, h3, h4⟩ := h.refs i c' op d id h1 hb
      obtain ⟨t, h5⟩ := hex id (List.getElem?_eq_some_iff.mp h3).1
      refine ⟨t, h5, ?_⟩
      obtain ⟨t1, h6, -, h7⟩ := ht id t h5
      rw [h3] at h6
      cases h6
      exact (h7 _).mpr (.inl h4)
    · rw [hoL]
      obtain ⟨t, h5⟩ := hex id (hid op d id hb)
      obtain ⟨t1, h6, -, h7⟩ := ht id t h5
      exact ⟨t, h5, (h7 _).mpr (.inr ⟨⟨op, d, hb⟩, rfl⟩)⟩
  · intro id t r h1 h2
    obtain ⟨t0, h3, -, h4⟩ := ht id t h1
    rcases (h4 r).mp h2 with h5 | ⟨⟨op, d, hb⟩, rfl⟩
    · obtain ⟨i, c', op, d, g1, g2, rfl⟩ := h.sites id t0 r h3 h5
      have hi := (List.getElem?_eq_some_iff.mp g1).1
      exact ⟨i, c', op, d, by rw [List.getElem?_append_left hi]; exact g1, g2, by rw [off_append _ _ (by omega)]⟩
    · exact ⟨L.length, c, op, d, by simp, hb, by rw [hoL]⟩
  · rw [hts]; exact h.tlen
  · intro id t h1
    obtain ⟨t0, h3, h4, -⟩ := ht id t h1
    rw [h4, h.offs id t0 h3]
    simp only [Flow.CS.emit]
    rw [off_append]
    rw [hlen]
    exact getD_le h.inside
  · intro y hy
    have := h.inside y hy
    simp only [Flow.CS.emit, List.length_append, List.length_singleton]
    omega
  · intro y hy
    rw [hts]
    rw [hcs, hbs] at hy
    exact h.ctx y hy

/-- Instructions that do not branch are emitted. -/
theorem Rep.plain {glob : Bool} {u u' : BU} {k : Flow.CS (Option Vars) (Option Word32)} {L : List Chunk} (h : Rep glob u k L)
    {x : Flow.Instr (Option Vars) (Option Word32)} {pre : List Byte} (hf : FitsI glob x ⟨pre, none⟩)
    (hr : u'.code.rall = pre.reverse ++ u.code.rall) (hts : u'.ts = u.ts) (hcs : u'.cs = u.cs)
    (hbs : u'.bs = u.bs) (hq : Prog.quiet u'.code.rops) : Rep glob u' (k.emit x) (L ++ [⟨pre, none⟩]) := by
  have hall : u'.all = u.all ++ pre := by simp [BU.all, hr]
  refine h.extend hall (by simp [Chunk.size]) ⟨?_, by simp⟩ hf (by rw [hts]) ?_ (by simp) ?_ hcs hbs hq
  · rw [hall]
    have := Here.here u.all pre []
    rwa [List.append_nil] at this
  · intro id t h1
    rw [hts] at h1
    exact ⟨t, h1, rfl, by simp⟩
  · rw [hall, hts]
    exact h.layout.append pre

/-- An assignment is emitted. -/
theorem Rep.act {glob : Bool} {u u' : BU} {k : Flow.CS (Option Vars) (Option Word32)} {L : List Chunk} (h : Rep glob u k L)
    {a : Eff} {pre : List Byte}
    (ha : EffOk a pre) (hr : u'.code.rall = pre.reverse ++ u.code.rall) (hts : u'.ts = u.ts) (hcs : u'.cs = u.cs)
    (hbs : u'.bs = u.bs) (hq : Prog.quiet u'.code.rops) : Rep glob u' (k.emit (.act a.means)) (L ++ [⟨pre, none⟩]) :=
  h.plain ⟨a, rfl, ha, rfl⟩ hr hts hcs hbs hq

theorem addRef_get {ts : List Target} {id j r : Nat} {t : Target} (h : (addRef ts id r)[j]? = some t) :
    ∃ t0, ts[j]? = some t0 ∧ t.offset = t0.offset ∧ ∀ x, x ∈ t.refs ↔ x ∈ t0.refs ∨ j = id ∧ x = r := by
  unfold addRef at h
  rw [List.getElem?_modify] at h
  cases ht : ts[j]? with
  | none => rw [ht] at h; cases h
  | some t0 =>
    rw [ht] at h
    replace h := Option.some.inj h
    dsimp only at h
    refine ⟨t0, rfl, ?_⟩
    by_cases hj : id = j
    · rw [if_pos hj] at h
      subst h
      refine ⟨rfl, fun x => ?_⟩
      simp [hj]
    · rw [if_neg hj] at h
      subst h
      refine ⟨rfl, fun x => ?_⟩
      constructor
      · exact .inl
      · rintro (h | ⟨h, -⟩)
        · exact h
        · exact absurd h.symm hj

/-- A branch is emitted. -/
theorem Rep.branch {glob : Bool} {u u' : BU} {k : Flow.CS (Option Vars) (Option Word32)} {L : List Chunk} (h : Rep glob u k L)
    {x : Flow.Instr (Option Vars) (Option Word32)} {pre d : List Byte} {op : Op} {id : Nat} (hv : vmBranch op = some (d.length, .w16))
    (hto : testOf op = op) (hf : FitsI glob x ⟨pre, some (op, d, id)⟩)
    (hall : u'.all = u.all ++ (pre ++ op.code :: d ++ [9#8, 9#8]))
    (hts : u'.ts = addRef u.ts id (u.all.length + pre.length + 1)) (hid : id < u.ts.length) (hcs : u'.cs = u.cs)
    (hbs : u'.bs = u.bs) (hq : Prog.quiet u'.code.rops) : Rep glob u' (k.emit x) (L ++ [⟨pre, some (op, d, id)⟩]) := by
  refine h.extend hall (by simp [Chunk.size]; omega) ⟨?_, ?_⟩ hf (by rw [hts, addRef, List.length_modify]) ?_ ?_ ?_ hcs hbs hq
  · rw [hall, List.append_assoc pre]
    exact Here.here u.all pre _
  · intro op' d' id' hb
    cases hb
    rw [hall]
    constructor
    · rw [Option.map_eq_some_iff]
      refine ⟨op, ?_, hto⟩
      unfold opAt
      rw [List.getElem?_append_right (by simp), show u.all.length + pre.length - u.all.length = pre.length by omega,
        List.append_assoc, List.getElem?_append_right (by simp)]
      simp [Op.decode_code]
    · have := Here.here (u.all ++ pre ++ [op.code]) d [9#8, 9#8]
      simpa [Nat.add_assoc] using this
  · intro j t h1
    rw [hts] at h1
    obtain ⟨t0, h2, h3, h4⟩ := addRef_get h1
    refine ⟨t0, h2, h3, fun r => ?_⟩
    rw [h4]
    constructor
    · rintro (h | ⟨rfl, rfl⟩)
      · exact .inl h
      · exact .inr ⟨⟨op, d, rfl⟩, rfl⟩
    · rintro (h | ⟨⟨_, _, hb⟩, rfl⟩)
      · exact .inl h
      · cases hb; exact .inr ⟨rfl, rfl⟩
  · intro _ _ _ hb
    cases hb
    exact hid
  · rw [hall, hts]
    have := (h.layout.append pre).addSite id hv d rfl 9#8 9#8
    simpa [List.append_assoc, Nat.add_assoc] using this

theorem layout_congr {all : List Byte} {ts ts' : List Target} (hf : (flat ts').map (·.2) = (flat ts).map (·.2))
    (h : Layout all ts) : Layout all ts' := by
  constructor
  · intro x hx
    have : x.2 ∈ (flat ts).map (·.2) := by rw [← hf]; exact List.mem_map_of_mem hx
    obtain ⟨y, hy, he⟩ := List.mem_map.mp this
    rw [← he]
    exact h.site y hy
  · have h2 := h.apart
    have key : ∀ l : List (Nat × Nat), l.Pairwise (fun x y => x.2 + kAt all x.2 + 2 < y.2 ∨ y.2 + kAt all y.2 + 2 < x.2) ↔
        (l.map (·.2)).Pairwise (fun x y => x + kAt all x + 2 < y ∨ y + kAt all y + 2 < x) := by
      intro l
      rw [List.pairwise_map]
    rw [key] at h2 ⊢
    rw [hf]
    exact h2

theorem flat_modify (ts : List Target) (id o : Nat) :
    (flat (ts.modify id fun t => { t with offset := o })).map (·.2) = (flat ts).map (·.2) := by
  induction ts generalizing id with
  | nil => simp
  | cons t ts ih =>
    cases id with
    | zero => simp [flat, Function.comp_def]
    | succ id =>
      have := ih id
      simp only [flat, List.map_flatMap, List.map_map] at this
      simp only [flat, List.modify_succ_cons, List.flatMap_cons, List.map_append, List.map_map, List.map_flatMap, this]

/-- A new target. -/
theorem Rep.new {glob : Bool} {u : BU} {k : Flow.CS (Option Vars) (Option Word32)} {L : List Chunk} (h : Rep glob u k L) : Rep glob u.new k.new L := by
  have hget : ∀ (id : Nat) t, (u.ts ++ [(⟨0, []⟩ : Target)])[id]? = some t → u.ts[id]? = some t ∧ id < u.ts.length ∨
      id = u.ts.length ∧ t = ⟨0, []⟩ := by
    intro i c' hi
    by_cases hlt : i < u.ts.length
    · rw [List.getElem?_append_left hlt] at hi
      exact .inl ⟨hi, hlt⟩
    · rw [List.getElem?_append_right (by omega)] at hi
      obtain ⟨hz, -⟩ := List.getElem?_eq_some_iff.mp hi
      simp only [List.length_singleton] at hz
      obtain rfl : i = u.ts.length := by omega
      simp only [Nat.sub_self, List.getElem?_cons_zero, Option.some.injEq] at hi
      exact .inr ⟨rfl, hi.symm⟩
  refine ⟨h.len, h.fits, h.size, h.holds, ?_, ?_, ?_, ?_, ?_, ?_, h.cs, h.bs, ?_, h.quiet⟩
  · intro i c op d id h1 h2
    obtain ⟨t, h3, h4⟩ := h.refs i c op d id h1 h2
    refine ⟨t, ?_, h4⟩
    show (u.ts ++ _)[id]? = _
    rw [List.getElem?_append_left (List.getElem?_eq_some_iff.mp h3).1]
    exact h3
  · intro id t r h1 h2
    rcases hget id t h1 with ⟨h3, -⟩ | ⟨-, rfl⟩
    · exact h.sites id t r h3 h2
    · cases h2
  · refine layout_congr ?_ h.layout
    simp [BU.new, flat]
  · simp [BU.new, Flow.CS.new, h.tlen]
  · intro id t h1
    have htl := h.tlen
    rcases hget id t h1 with ⟨h3, h4⟩ | ⟨rfl, rfl⟩
    · rw [h.offs id t h3]
      simp only [Flow.CS.new, List.getD_eq_getElem?_getD]
      rw [List.getElem?_append_left (by omega)]
    · simp only [Flow.CS.new, List.getD_eq_getElem?_getD]
      rw [h.tlen]
      simp [off_zero]
  · intro x hx
    simp only [Flow.CS.new, List.mem_append, List.mem_singleton] at hx
    rcases hx with hx | rfl
    · exact h.inside x hx
    · exact Nat.zero_le _
  · intro x hx
    have := h.ctx x hx
    simp only [BU.new, List.length_append, List.length_singleton]
    omega

/-- A target is placed. -/
theorem Rep.place {glob : Bool} {u : BU} {k : Flow.CS (Option Vars) (Option Word32)} {L : List Chunk} (h : Rep glob u k L) (id : Nat) :
    Rep glob (u.place id) (k.place id) L := by
  have hget : ∀ (j : Nat) t, (u.place id).ts[j]? = some t → ∃ t0, u.ts[j]? = some t0 ∧ t.refs = t0.refs ∧
      t.offset = if id = j then u.all.length else t0.offset := by
    intro j t ht
    simp only [BU.place, List.getElem?_modify] at ht
    cases hx : u.ts[j]? with
    | none => rw [hx] at ht; cases ht
    | some t0 =>
      rw [hx] at ht
      replace ht := Option.some.inj ht
      dsimp only at ht
      refine ⟨t0, rfl, ?_⟩
      by_cases hj : id = j
      · rw [if_pos hj] at ht ⊢
        subst ht
        exact ⟨rfl, by simp [BU.all]⟩
      · rw [if_neg hj] at ht ⊢
        subst ht
        exact ⟨rfl, rfl⟩
  refine ⟨h.len, h.fits, h.size, h.holds, ?_, ?_, layout_congr (flat_modify _ _ _) h.layout, ?_, ?_, ?_, h.cs, h.bs, ?_, h.quiet⟩
  · intro i c op d j h1 h2
    obtain ⟨t, h3, h4⟩ := h.refs i c op d j h1 h2
    have hj := (List.getElem?_eq_some_iff.mp h3).1
    obtain ⟨t', h5⟩ : ∃ t', (u.place id).ts[j]? = some t' :=
      ⟨_, List.getElem?_eq_getElem (by simpa [BU.place] using hj)⟩
    obtain ⟨t0, h6, h7, -⟩ := hget j t' h5
    rw [h3] at h6
    cases h6
    exact ⟨t', h5, by rw [h7]; exact h4⟩
  · intro j t r h1 h2
    obtain ⟨t0, h6, h7, -⟩ := hget j t h1
    rw [h7] at h2
    exact h.sites j t0 r h6 h2
  · simp [BU.place, Flow.CS.place, h.tlen]
  · intro j t h1
    obtain ⟨t0, h6, -, h8⟩ := hget j t h1
    rw [h8]
    have hj := (List.getElem?_eq_some_iff.mp h6).1
    rw [h.tlen] at hj
    simp only [Flow.CS.place, List.getD_eq_getElem?_getD, List.getElem?_set]
    by_cases he : id = j
    · rw [if_pos he, if_pos he, if_pos (by omega), Option.getD_some, ← h.len, h.size]
    · rw [if_neg he, if_neg he, h.offs j t0 h6, List.getD_eq_getElem?_getD]
  · intro x hx
    rcases List.mem_or_eq_of_mem_set hx with hx | rfl
    · exact h.inside x hx
    · exact Nat.le_refl _
  · intro x hx
    have := h.ctx x hx
    simpa [BU.place] using this

/-! ### Resolution -/

/-- Every branch emitted so far goes to its target. -/
def Resolved (u : BU) : Prop := ∀ t ∈ u.ts, ∀ r ∈ t.refs, branch u.all (r - 1) true = some (t.offset : Int)

theorem testOf_branch {o op : Op} {k : Nat} (h : testOf o = op) (hv : vmBranch op = some (k, .w16)) :
    ∃ w, vmBranch o = some (k, w) := by
  have := Op.all_of (p := fun o => (vmBranch (testOf o)).map (·.1) = (vmBranch o).map (·.1)) (by decide +kernel) o
  rw [h, hv] at this
  cases hx : vmBranch o with
  | none => rw [hx] at this; cases this
  | some q =>
    obtain ⟨k', w⟩ := q
    rw [hx] at this
    simp only [Option.map_some, Option.some.injEq] at this
    exact ⟨w, by rw [this]⟩

theorem Rep.instr {glob : Bool} {u : BU} {k : Flow.CS (Option Vars) (Option Word32)} {L : List Chunk} (h : Rep glob u k L) {i : Nat} {c : Chunk}
    (hc : L[i]? = some c) : ∃ x, k.code[i]? = some x ∧ FitsI glob x c := by
  have hi := (List.getElem?_eq_some_iff.mp hc).1
  rw [h.len] at hi
  exact ⟨_, List.getElem?_eq_getElem hi, h.fits i _ c (List.getElem?_eq_getElem hi) hc⟩

theorem Rep.kAt {glob : Bool} {u : BU} {k : Flow.CS (Option Vars) (Option Word32)} {L : List Chunk} (h : Rep glob u k L) {i : Nat} {c : Chunk} {op : Op}
    {d : List Byte} {id : Nat} (hc : L[i]? = some c) (hb : c.br = some (op, d, id)) :
    kAt u.all (off L i + c.pre.length + 1) = d.length := by
  obtain ⟨x, -, hx⟩ := h.instr hc
  have hv := hx.branch hb
  obtain ⟨h1, -⟩ := (h.holds i c hc).br op d id hb
  rw [Option.map_eq_some_iff] at h1
  obtain ⟨o, h2, h3⟩ := h1
  obtain ⟨w, h4⟩ := testOf_branch h3 hv
  exact kAt_eq (by simpa using h2) h4

/-- Jumps are resolved. -/
theorem Rep.resolve {glob : Bool} {u u' : BU} {k : Flow.CS (Option Vars) (Option Word32)} {L : List Chunk} (h : Rep glob u k L)
    (hr : u.resolve = some u') : Rep glob u' k L ∧ Resolved u' ∧ u'.ts = u.ts ∧ u'.cs = u.cs ∧ u'.bs = u.bs ∧
      u'.code.rops = u.code.rops := by
  have hfit : ∀ t ∈ u.ts, ∀ r ∈ t.refs, Fits u.all t.offset r := by
    intro t ht r hrr
    apply Classical.byContradiction
    intro hn
    have := (C24_misfit_reported u.all u.ts h.layout).mpr ⟨t, ht, r, hrr, hn⟩
    unfold BU.resolve at hr
    rw [this] at hr
    cases hr
  obtain ⟨all', g1, g2, g3, -, g5, g6⟩ := C24_jumps_land u.all u.ts h.layout hfit
  unfold BU.resolve at hr
  rw [g1] at hr
  cases hr
  have hall : BU.all { u with code := ⟨all'.reverse, u.code.rops⟩ } = all' := by simp [BU.all]
  -- bytes outside opcodes and displacements of branches
  have hsame : ∀ (i : Nat) c q, L[i]? = some c → q < c.size →
      (∀ op d id, c.br = some (op, d, id) → q ≠ c.pre.length ∧ q ≠ c.pre.length + 1 + d.length ∧
        q ≠ c.pre.length + 1 + d.length + 1) → all'[off L i + q]? = u.all[off L i + q]? := by
    intro i c q hc hq hn
    apply g6
    intro t ht r hrr
    obtain ⟨id, hid⟩ := List.getElem?_of_mem ht
    obtain ⟨j, c', op, d, h1, h2, rfl⟩ := h.sites id t r hid hrr
    rw [h.kAt h1 h2]
    rcases Nat.lt_trichotomy i j with hij | hij | hij
    · have := off_lt hc hij
      omega
    · subst hij
      rw [hc] at h1
      cases h1
      have := hn op d id h2
      omega
    · have := off_lt h1 hij
      have hs : c'.size = c'.pre.length + (1 + d.length + 2) := by simp [Chunk.size, h2]
      omega
  refine ⟨⟨h.len, h.fits, by rw [hall, g2]; exact h.size, ?_, h.refs, h.sites, by rw [hall]; exact g3, h.tlen, h.offs, h.inside,
    h.cs, h.bs, h.ctx, h.quiet⟩, ?_, rfl, rfl, rfl, rfl⟩
  · intro i c hc
    rw [hall]
    have hh := h.holds i c hc
    refine ⟨?_, ?_⟩
    · intro j hj
      rw [hsame i c j hc (by unfold Chunk.size; omega) (by intros; omega)]
      exact hh.pre j hj
    · intro op d id hb
      obtain ⟨h1, h2⟩ := hh.br op d id hb
      have hs : c.size = c.pre.length + (1 + d.length + 2) := by simp [Chunk.size, hb]
      constructor
      · obtain ⟨t, h3, h4⟩ := h.refs i c op d id hc hb
        have := (g5 t (List.mem_of_getElem? h3) _ h4).2.2
        rw [Nat.add_sub_cancel] at this
        rw [this]
        exact h1
      · intro j hj
        have := hsame i c (c.pre.length + 1 + j) hc (by omega) (by
          intro op' d' id' hb'
          rw [hb] at hb'
          cases hb'
          omega)
        rw [← Nat.add_assoc, ← Nat.add_assoc] at this
        rw [this]
        exact h2 j hj
  · intro t ht r hrr
    rw [hall]
    exact (g5 t ht r hrr).1

end Wrench.Prog
