import Verif.Ops.Lemmas
import Verif.Ops.Index

/-
The operators do not depend on cells nothing points to.  `Rel D u v σ τ`: the two memories agree
outside the dead set `D`, nothing outside `D` points into `D`, and inside `D` they hold `u` and
`v`.  Every operator run on live operands gives related memories and the same result; in
particular it leaves the dead cells alone.
-/
namespace Wrench.Peep
open Wrench.Ops

/-- The address a value points to. -/
def ptr : Val → Option Addr
  | .ref a => some a
  | .mem b _ => some b
  | .hmem e => some e
  | _ => none

structure Rel (D : Addr → Prop) (u v : Addr → Val) (σ τ : St) : Prop where
  off : ∀ a, ¬D a → τ.cell a = σ.cell a
  closed : ∀ a, ¬D a → ∀ p, ptr (σ.cell a) = some p → ¬D p
  inL : ∀ a, D a → σ.cell a = u a
  inR : ∀ a, D a → τ.cell a = v a
  obj : τ.obj = σ.obj
  next : τ.next = σ.next
  raw : τ.rawMem = σ.rawMem

/-- Array elements and the two static temporaries are never dead. -/
structure Dead (D : Addr → Prop) : Prop where
  elem : ∀ o i, ¬D (.elem o i)
  t1 : ¬D .t1
  t2 : ¬D .t2

/-- The hash and the text of a value depend only on what it can reach. -/
def EnvLocal (E : Env) : Prop :=
  ∀ (D : Addr → Prop) (u v : Addr → Val) (σ τ : St), Dead D → Rel D u v σ τ → ∀ w : Val,
    (∀ p, ptr w = some p → ¬D p) →
    E.hashObj τ.mem τ.obj w = E.hashObj σ.mem σ.obj w ∧ E.asStr τ.mem τ.obj w = E.asStr σ.mem σ.obj w

variable {D : Addr → Prop} {u v : Addr → Val} {σ τ : St}

theorem Rel.set (h : Rel D u v σ τ) {a : Addr} (ha : ¬D a) {w : Val}
    (hw : ∀ p, ptr w = some p → ¬D p) : Rel D u v (σ.set a w) (τ.set a w) := by
  refine ⟨?_, ?_, ?_, ?_, h.obj, h.next, h.raw⟩
  · intro b hb
    by_cases hba : b = a
    · subst hba; simp
    · rw [St.set_ne _ _ hba, St.set_ne _ _ hba, h.off b hb]
  · intro b hb p hp
    by_cases hba : b = a
    · subst hba; simp at hp; exact hw p hp
    · rw [St.set_ne _ _ hba] at hp; exact h.closed b hb p hp
  · intro b hb
    rw [St.set_ne _ _ (by rintro rfl; exact ha hb)]; exact h.inL b hb
  · intro b hb
    rw [St.set_ne _ _ (by rintro rfl; exact ha hb)]; exact h.inR b hb

theorem Rel.setObj (h : Rel D u v σ τ) (o : Nat) (x : Obj) :
    Rel D u v (σ.setObj o x) (τ.setObj o x) :=
  ⟨h.off, h.closed, h.inL, h.inR, by simp only [St.setObj, h.obj], h.next, h.raw⟩

theorem Rel.cellptr (h : Rel D u v σ τ) {a : Addr} (ha : ¬D a) :
    ∀ p, ptr (σ.cell a) = some p → ¬D p := h.closed a ha

theorem ptr_int (w : Word32) : ∀ p, ptr (.int w) = some p → ¬D p := by intro p h; simp [ptr] at h
theorem ptr_float (w : Word32) : ∀ p, ptr (.float w) = some p → ¬D p := by intro p h; simp [ptr] at h
theorem ptr_arr (o : Nat) : ∀ p, ptr (.arr o) = some p → ¬D p := by intro p h; simp [ptr] at h

theorem ptr_retypeInt {w : Val} (h : ∀ p, ptr w = some p → ¬D p) :
    ∀ p, ptr w.retypeInt = some p → ¬D p := by
  cases w <;> simp_all [Val.retypeInt, ptr]

theorem ptr_retypeFloat {w : Val} (h : ∀ p, ptr w = some p → ¬D p) :
    ∀ p, ptr w.retypeFloat = some p → ¬D p := by
  cases w <;> simp_all [Val.retypeFloat, ptr]

theorem Rel.getHash (h : Rel D u v σ τ) (hD : Dead D) {E : Env} (hE : EnvLocal E) {w : Val}
    (hw : ∀ p, ptr w = some p → ¬D p) : Ops.getHash E τ w = Ops.getHash E σ w := by
  have := (hE D u v σ τ hD h w hw).1
  cases w <;> simp_all [Ops.getHash, h.obj]

theorem Rel.deref (hD : Dead D) : ∀ (f : Nat) {σ τ σ' : St} {a l : Addr}, Rel D u v σ τ → ¬D a →
    Ops.deref f σ a = .ok (σ', l) →
    ∃ τ', Ops.deref f τ a = .ok (τ', l) ∧ Rel D u v σ' τ' ∧ ¬D l := by
  intro f
  induction f with
  | zero => intro σ τ σ' a l _ _ h; simp [Ops.deref] at h
  | succ f ih =>
    intro σ τ σ' a l hr ha h
    have hc := hr.closed a ha
    have h2 : Rel D u v (σ.set .t2 (σ.cell .t2).retypeInt) (τ.set .t2 (τ.cell .t2).retypeInt) := by
      rw [hr.off _ hD.t2]; exact hr.set hD.t2 (ptr_retypeInt (hr.closed _ hD.t2))
    unfold Ops.deref at h ⊢
    rw [hr.off a ha]
    generalize σ.cell a = va at h hc
    cases va with
    | ref r => exact ih hr (hc r rfl) h
    | hmem e => exact ih h2 (hc e rfl) h
    | mem b s =>
      have hb := hc b rfl
      dsimp only at h ⊢
      rw [h2.off b hb, show (τ.set .t2 (τ.cell .t2).retypeInt).obj
        = (σ.set .t2 (σ.cell .t2).retypeInt).obj from hr.obj,
        show (τ.set .t2 (τ.cell .t2).retypeInt).rawMem
        = (σ.set .t2 (σ.cell .t2).retypeInt).rawMem from hr.raw]
      generalize (σ.set .t2 (σ.cell .t2).retypeInt).cell b = vb at h
      cases vb with
      | raw p n =>
        simp only [Res.ok.injEq, Prod.mk.injEq] at h
        obtain ⟨rfl, rfl⟩ := h
        exact ⟨_, rfl, h2.set hD.t2 (ptr_int _), hD.t2⟩
      | arr o =>
        dsimp only at h ⊢
        generalize (σ.set .t2 (σ.cell .t2).retypeInt).obj o = ob at h
        cases ob with
        | vals n =>
          dsimp only at h ⊢
          split at h <;> rename_i hs <;> simp only [Res.ok.injEq, Prod.mk.injEq] at h <;>
            obtain ⟨rfl, rfl⟩ := h
          · rw [if_pos hs]; exact ⟨_, rfl, h2, hD.elem _ _⟩
          · rw [if_neg hs]; exact ⟨_, rfl, h2, hD.t2⟩
        | chars bs nc =>
          dsimp only at h ⊢
          generalize bs[s]? = ob at h
          cases ob with
          | some c =>
            simp only [Res.ok.injEq, Prod.mk.injEq] at h
            obtain ⟨rfl, rfl⟩ := h
            exact ⟨_, rfl, h2.set hD.t2 (ptr_int _), hD.t2⟩
          | none =>
            simp only [Res.ok.injEq, Prod.mk.injEq] at h
            obtain ⟨rfl, rfl⟩ := h
            exact ⟨_, rfl, h2, hD.t2⟩
        | other => simp at h
      | _ => simp at h
    | _ =>
      simp only [Res.ok.injEq, Prod.mk.injEq] at h
      obtain ⟨rfl, rfl⟩ := h
      exact ⟨_, rfl, hr, ha⟩

theorem bind_ok {α β : Type} {x : Res α} {g : α → Res β} {b : β} (h : (x >>= g) = .ok b) :
    ∃ a, x = .ok a ∧ g a = .ok b := by
  cases x with
  | ok a => exact ⟨a, rfl, h⟩
  | ub => simp at h
  | oof => simp at h

theorem Rel.single (hD : Dead D) {E : Env} (hE : EnvLocal E) (f : Nat) {σ' : St} {a : Addr}
    (hr : Rel D u v σ τ) (ha : ¬D a) (h : Ops.single E f σ a = .ok σ') :
    ∃ τ', Ops.single E f τ a = .ok τ' ∧ Rel D u v σ' τ' := by
  unfold Ops.single at h ⊢
  obtain ⟨⟨σ1, l⟩, h1, h⟩ := bind_ok h
  obtain ⟨τ1, h2, hr1, hl⟩ := Rel.deref hD f hr ha h1
  rw [h2]
  simp only [res_bind_ok] at h ⊢
  rw [hr1.off l hl]
  have hc := hr1.closed l hl
  have hh := fun w hw => (hr1.getHash hD hE (w := w) hw)
  generalize σ1.cell l = w at h hc
  have hw := hh w hc
  cases w <;> simp only [res_pure, Res.ok.injEq] at h <;> subst h <;>
    refine ⟨_, rfl, ?_⟩ <;> first
      | exact hr1.set hD.t1 (ptr_int _)
      | exact hr1.set hD.t1 (ptr_float _)
      | (rw [hw]; exact hr1.set hD.t1 (ptr_int _))

/-- A computing entry respects `Rel`. -/
def LeafOk (D : Addr → Prop) (u v : Addr → Val) {R : Type} (g : St → Addr → Addr → Res (St × R)) :
    Prop :=
  ∀ {σ τ σ' : St} {to from_ : Addr} {r : R}, Rel D u v σ τ → ¬D to → ¬D from_ →
    g σ to from_ = .ok (σ', r) → ∃ τ', g τ to from_ = .ok (τ', r) ∧ Rel D u v σ' τ'

/-- The string check respects `Rel`. -/
def CatOk (D : Addr → Prop) (u v : Addr → Val) {R : Type} (cat : St → Addr → Addr → Option (St × R)) :
    Prop :=
  ∀ {σ τ : St} {to from_ : Addr}, Rel D u v σ τ → ¬D to → ¬D from_ →
    match cat σ to from_ with
    | none => cat τ to from_ = none
    | some (σ', r) => ∃ τ', cat τ to from_ = some (τ', r) ∧ Rel D u v σ' τ'

theorem Rel.disp (hD : Dead D) (hloc : ∀ k, ¬D (.loc k)) {E : Env} (hE : EnvLocal E) {R : Type}
    {T : Ty → Ty → Entry R} {cat : St → Addr → Addr → Option (St × R)} {none_ : R}
    (hT : ∀ r c g, T r c = .leaf g → LeafOk D u v g) (hcat : CatOk D u v cat) :
    ∀ (f : Nat) {σ τ σ' : St} {to from_ : Addr} {r : R}, Rel D u v σ τ → ¬D to → ¬D from_ →
    Ops.disp E T cat none_ f σ to from_ = .ok (σ', r) →
    ∃ τ', Ops.disp E T cat none_ f τ to from_ = .ok (τ', r) ∧ Rel D u v σ' τ' := by
  intro f
  induction f with
  | zero => intro σ τ σ' to from_ r _ _ _ h; simp [Ops.disp] at h
  | succ f ih =>
    intro σ τ σ' to from_ r hr hto hfrom h
    have hct := hr.closed to hto
    have hcf := hr.closed from_ hfrom
    have hC := hcat hr hto hfrom
    unfold Ops.disp at h ⊢
    dsimp only at h ⊢
    rw [hr.off to hto, hr.off from_ hfrom]
    have hT' := hT (σ.cell to).ty (σ.cell from_).ty
    generalize T (σ.cell to).ty (σ.cell from_).ty = e at h hT'
    cases e with
    | leaf g => exact hT' g rfl hr hto hfrom h
    | refL =>
      generalize σ.cell to = w at h hct
      cases w <;> simp only [reduceCtorEq] at h ⊢
      exact ih hr (hct _ rfl) hfrom h
    | refR =>
      generalize σ.cell from_ = w at h hcf
      cases w <;> simp only [reduceCtorEq] at h ⊢
      exact ih hr hto (hcf _ rfl) h
    | refLR =>
      generalize σ.cell to = w at h hct
      generalize σ.cell from_ = z at h hcf
      cases w <;> cases z <;> simp only [reduceCtorEq] at h ⊢
      exact ih hr (hct _ rfl) (hcf _ rfl) h
    | exL =>
      obtain ⟨σ1, h1, h⟩ := bind_ok h
      obtain ⟨τ1, h2, hr1⟩ := hr.single hD hE f hto h1
      dsimp only; rw [h2]
      exact ih hr1 hD.t1 hfrom h
    | exR =>
      obtain ⟨σ1, h1, h⟩ := bind_ok h
      obtain ⟨τ1, h2, hr1⟩ := hr.single hD hE f hfrom h1
      dsimp only; rw [h2]
      exact ih hr1 hto hD.t1 h
    | exLR =>
      obtain ⟨σ1, h1, h⟩ := bind_ok h
      obtain ⟨σ2, h3, h⟩ := bind_ok h
      obtain ⟨τ1, h2, hr1⟩ := hr.single hD hE f hto h1
      dsimp only; rw [h2]
      simp only [res_bind_ok]
      rw [hr1.off _ hD.t1]
      obtain ⟨τ2, h4, hr2⟩ := (hr1.set (hloc f) (hr1.closed _ hD.t1)).single hD hE f hfrom h3
      rw [h4]
      exact ih hr2 (hloc f) hD.t1 h
    | catL =>
      dsimp only at h ⊢
      generalize cat σ to from_ = cs at h hC
      cases cs with
      | some p =>
        obtain ⟨σ1, r1⟩ := p
        obtain ⟨τ1, h2, hr1⟩ := hC
        simp only [Res.ok.injEq, Prod.mk.injEq] at h
        obtain ⟨rfl, rfl⟩ := h
        rw [h2]; exact ⟨_, rfl, hr1⟩
      | none =>
        dsimp only at h hC
        rw [hC]
        obtain ⟨σ1, h1, h⟩ := bind_ok h
        obtain ⟨τ1, h2, hr1⟩ := hr.single hD hE f hto h1
        dsimp only; rw [h2]
        exact ih hr1 hD.t1 hfrom h
    | catR =>
      dsimp only at h ⊢
      generalize cat σ to from_ = cs at h hC
      cases cs with
      | some p =>
        obtain ⟨σ1, r1⟩ := p
        obtain ⟨τ1, h2, hr1⟩ := hC
        simp only [Res.ok.injEq, Prod.mk.injEq] at h
        obtain ⟨rfl, rfl⟩ := h
        rw [h2]; exact ⟨_, rfl, hr1⟩
      | none =>
        dsimp only at h hC
        rw [hC]
        obtain ⟨σ1, h1, h⟩ := bind_ok h
        obtain ⟨τ1, h2, hr1⟩ := hr.single hD hE f hfrom h1
        dsimp only; rw [h2]
        exact ih hr1 hto hD.t1 h
    | catLR =>
      dsimp only at h ⊢
      split at h
      · next hm =>
        rw [if_pos hm]
        obtain ⟨⟨σ1, l⟩, h1, h⟩ := bind_ok h
        obtain ⟨⟨σ2, m⟩, h3, h⟩ := bind_ok h
        obtain ⟨τ1, h2, hr1, hl⟩ := Rel.deref hD f hr hto h1
        rw [h2]
        simp only [res_bind_ok]
        rw [hr1.off l hl]
        obtain ⟨τ2, h4, hr2, hm⟩ := Rel.deref hD f (hr1.set (hloc f) (hr1.closed l hl)) hfrom h3
        rw [h4]
        exact ih hr2 (hloc f) hm h
      · next hm =>
        rw [if_neg hm]
        generalize cat σ to from_ = cs at h hC
        cases cs with
        | some p =>
          obtain ⟨σ1, r1⟩ := p
          obtain ⟨τ1, h2, hr1⟩ := hC
          simp only [Res.ok.injEq, Prod.mk.injEq] at h
          obtain ⟨rfl, rfl⟩ := h
          rw [h2]; exact ⟨_, rfl, hr1⟩
        | none =>
          dsimp only at h hC
          rw [hC]
          simp only [Res.ok.injEq, Prod.mk.injEq] at h
          obtain ⟨rfl, rfl⟩ := h
          exact ⟨_, rfl, hr⟩
    | badER =>
      generalize σ.cell from_ = z at h hcf
      cases z <;> simp only [reduceCtorEq] at h ⊢
      have hIE := hT .I .E
      generalize T .I .E = e at h hIE
      cases e <;> simp only [reduceCtorEq] at h ⊢
      obtain ⟨σ1, h1, h⟩ := bind_ok h
      obtain ⟨τ1, h2, hr1⟩ := hr.single hD hE f (hcf _ rfl) h1
      rw [h2]
      simp only [res_bind_ok]
      rw [hr1.off _ hD.t1]
      have hIt := hT .I (σ1.cell .t1).ty
      generalize T .I (σ1.cell .t1).ty = e at h hIt
      cases e with
      | leaf g => exact hIt g rfl hr1 hto hD.t1 h
      | _ =>
        simp only [Res.ok.injEq, Prod.mk.injEq] at h
        obtain ⟨rfl, rfl⟩ := h
        exact ⟨_, rfl, hr1⟩
    | skip r1 =>
      simp only [Res.ok.injEq, Prod.mk.injEq] at h
      obtain ⟨rfl, rfl⟩ := h
      exact ⟨_, rfl, hr⟩

/-! ### Comparisons -/

theorem leafC_ok (op : Word32 → Word32 → Bool) : LeafOk D u v (leafC op) := by
  intro σ τ σ' to from_ r hr hto hfrom h
  unfold leafC at h ⊢
  rw [hr.off to hto, hr.off from_ hfrom]
  obtain ⟨a, h1, h⟩ := bind_ok h
  obtain ⟨b, h2, h⟩ := bind_ok h
  rw [h1, h2]
  simp only [res_pure, Res.ok.injEq, Prod.mk.injEq] at h
  obtain ⟨rfl, rfl⟩ := h
  exact ⟨_, rfl, hr⟩

theorem leafCIF_ok (op : Word32 → Word32 → Bool) : LeafOk D u v (leafCIF op) := by
  intro σ τ σ' to from_ r hr hto hfrom h
  unfold leafCIF at h ⊢
  rw [hr.off to hto, hr.off from_ hfrom]
  obtain ⟨a, h1, h⟩ := bind_ok h
  obtain ⟨b, h2, h⟩ := bind_ok h
  rw [h1, h2]
  simp only [res_pure, Res.ok.injEq, Prod.mk.injEq] at h
  obtain ⟨rfl, rfl⟩ := h
  exact ⟨_, rfl, hr.set hto (ptr_retypeFloat (hr.closed to hto))⟩

theorem std_leaf {R : Type} {P : (St → Addr → Addr → Res (St × R)) → Prop}
    {ii iF fI fF : St → Addr → Addr → Res (St × R)} (h1 : P ii) (h2 : P iF) (h3 : P fI)
    (h4 : P fF) : ∀ r c g, stdTable ii iF fI fF r c = .leaf g → P g := by
  intro r c g h
  cases r <;> cases c <;> simp only [stdTable, reduceCtorEq, Entry.leaf.injEq] at h <;> subst h <;>
    assumption

theorem add_leaf {R : Type} {P : (St → Addr → Addr → Res (St × R)) → Prop}
    {ii iF fI fF : St → Addr → Addr → Res (St × R)} (h1 : P ii) (h2 : P iF) (h3 : P fI)
    (h4 : P fF) : ∀ r c g, addTable ii iF fI fF r c = .leaf g → P g := by
  intro r c g h
  cases r <;> cases c <;> simp only [addTable, stdTable, reduceCtorEq, Entry.leaf.injEq] at h <;>
    subst h <;> assumption

theorem int_leaf {R : Type} {P : (St → Addr → Addr → Res (St × R)) → Prop} {b : R}
    {ii : St → Addr → Addr → Res (St × R)} (h1 : P ii) :
    ∀ r c g, intTable b ii r c = .leaf g → P g := by
  intro r c g h
  cases r <;> cases c <;> simp only [intTable, reduceCtorEq, Entry.leaf.injEq] at h <;>
    subst h <;> assumption

theorem Rel.compare (hD : Dead D) (hloc : ∀ k, ¬D (.loc k)) {E : Env} (hE : EnvLocal E)
    (op : CmpOp) (f : Nat) {σ' : St} {to from_ : Addr} {r : Bool} (hr : Rel D u v σ τ)
    (hto : ¬D to) (hfrom : ¬D from_) (h : Ops.compare E op f σ to from_ = .ok (σ', r)) :
    ∃ τ', Ops.compare E op f τ to from_ = .ok (τ', r) ∧ Rel D u v σ' τ' := by
  refine Rel.disp hD hloc hE ?_ ?_ f hr hto hfrom h
  · intro r c g hg
    cases op <;> refine std_leaf (P := fun g => LeafOk D u v g) ?_ ?_ ?_ ?_ r c g hg <;>
      first | exact leafC_ok _ | exact leafCIF_ok _
  · intro σ τ to from_ _ _ _; rfl

/-! ### Binary operators: the value, apart from where it is stored -/

/-- A computing entry that returns the value instead of storing it. -/
def leafV (k : Word32 → Val) (op : Word32 → Word32 → Res Word32) :
    St → Addr → Addr → Res (St × Option Val) := fun σ to from_ => do
  let a ← (σ.cell to).bits
  let b ← (σ.cell from_).bits
  let r ← op a b
  return (σ, some (k r))

/-- The bytes of a string object. -/
def strOfV (σ : St) (v : Val) : Option (List Byte × Bool) :=
  match v with
  | .arr o => match σ.obj o with
    | .chars bs nc => some (bs, nc)
    | _ => none
  | _ => none

/-- `catCheck` without the store. -/
def catV (E : Env) (σ : St) (to from_ : Addr) : Option (St × Option Val) :=
  let alloc (bs : List Byte) : Option (St × Option Val) :=
    some ({ σ.setObj σ.next (.chars bs false) with next := σ.next + 1 }, some (.arr σ.next))
  match strOfV σ (σ.cell to) with
  | some (bs, false) =>
    match strOfV σ (σ.cell from_) with
    | some (cs, _) => alloc (bs ++ cs)
    | none => alloc (bs ++ E.asStr σ.mem σ.obj (σ.cell from_))
  | _ =>
    match strOfV σ (σ.cell from_) with
    | some (cs, false) => alloc (E.asStr σ.mem σ.obj (σ.cell to) ++ cs)
    | _ => none

def binTableV (E : Env) : BinOp → Ty → Ty → Entry (Option Val)
  | .add => addTable (leafV .int (tot (· + ·)))
      (leafV .float (tot fun a b => E.fadd (E.ofInt a) b))
      (leafV .float (tot fun a b => E.fadd a (E.ofInt b))) (leafV .float (tot E.fadd))
  | .sub => stdTable (leafV .int (tot (· - ·)))
      (leafV .float (tot fun a b => E.fsub (E.ofInt a) b))
      (leafV .float (tot fun a b => E.fsub a (E.ofInt b))) (leafV .float (tot E.fsub))
  | .mul => stdTable (leafV .int (tot (· * ·)))
      (leafV .float (tot fun a b => E.fmul (E.ofInt a) b))
      (leafV .float (tot fun a b => E.fmul a (E.ofInt b))) (leafV .float (tot E.fmul))
  | .div => stdTable (leafV .int idiv)
      (leafV .float (tot fun a b => fdivOr0 E (E.ofInt a) b))
      (leafV .float (tot (fdivI E))) (leafV .float (tot (fdivOr0 E)))
  | .mod => intTable none (leafV .int imod)
  | .and => intTable none (leafV .int (tot (· &&& ·)))
  | .or => intTable none (leafV .int (tot (· ||| ·)))
  | .xor => intTable none (leafV .int (tot (· ^^^ ·)))
  | .shl => intTable none (leafV .int ishl)
  | .shr => intTable none (leafV .int ishr)

/-- The value of a binary operator; `none` when the operator does not produce one. -/
def binVal (E : Env) (op : BinOp) (f : Nat) (σ : St) (to from_ : Addr) : Res (St × Option Val) :=
  disp E (binTableV E op) (catV E) none f σ to from_

/-- Store the value, if there is one. -/
def put' (tgt : Addr) (p : St × Option Val) : St :=
  match p.2 with
  | some w => p.1.set tgt w
  | none => p.1

def Res.map' {α β : Type} (φ : α → β) : Res α → Res β
  | .ok a => .ok (φ a)
  | .ub => .ub
  | .oof => .oof

/-- Two entries that differ only in storing the value. -/
def EntryMap (tgt : Addr) (e : Entry (Option Val)) (e' : Entry Unit) : Prop :=
  match e, e' with
  | .leaf g, .leaf g' => ∀ σ a b, g' σ a b = Res.map' (fun p => (put' tgt p, ())) (g σ a b)
  | .refL, .refL | .refR, .refR | .refLR, .refLR | .exL, .exL | .exR, .exR | .exLR, .exLR
  | .catL, .catL | .catR, .catR | .catLR, .catLR | .badER, .badER => True
  | .skip r, .skip _ => r = none
  | _, _ => False

theorem leafT_map (tgt : Addr) (k : Word32 → Val) (op : Word32 → Word32 → Res Word32) (σ : St)
    (a b : Addr) :
    leafT tgt k op σ a b = Res.map' (fun p => (put' tgt p, ())) (leafV k op σ a b) := by
  unfold leafT leafV
  cases (σ.cell a).bits <;> simp [Res.map']
  cases (σ.cell b).bits <;> simp
  rename_i x y
  cases op x y <;> simp [put']

theorem binTable_map (E : Env) (tgt : Addr) (op : BinOp) (r c : Ty) :
    EntryMap tgt (binTableV E op r c) (binTable E tgt op r c) := by
  cases op <;> cases r <;> cases c <;>
    simp only [EntryMap, binTableV, binTable, addTable, stdTable, intTable] <;>
    intro σ a b <;> exact leafT_map ..

theorem catCheck_unfold (E : Env) (tgt : Addr) (σ : St) (to from_ : Addr) :
    catCheck E tgt σ to from_ =
      let alloc (bs : List Byte) : Option (St × Unit) :=
        some (({ σ.setObj σ.next (.chars bs false) with next := σ.next + 1 }).set tgt (.arr σ.next), ())
      match strOfV σ (σ.cell to) with
      | some (bs, false) =>
        match strOfV σ (σ.cell from_) with
        | some (cs, _) => alloc (bs ++ cs)
        | none => alloc (bs ++ E.asStr σ.mem σ.obj (σ.cell from_))
      | _ =>
        match strOfV σ (σ.cell from_) with
        | some (cs, false) => alloc (E.asStr σ.mem σ.obj (σ.cell to) ++ cs)
        | _ => none := rfl

theorem catCheck_map (E : Env) (tgt : Addr) (σ : St) (a b : Addr) :
    catCheck E tgt σ a b = (catV E σ a b).map fun p => (put' tgt p, ()) := by
  rw [catCheck_unfold]
  unfold catV
  dsimp only
  generalize strOfV σ (σ.cell a) = A
  generalize strOfV σ (σ.cell b) = B
  rcases A with _ | ⟨bs, _ | _⟩ <;> rcases B with _ | ⟨cs, _ | _⟩ <;> rfl

theorem disp_map (E : Env) (tgt : Addr) {T : Ty → Ty → Entry (Option Val)} {T' : Ty → Ty → Entry Unit}
    {cat : St → Addr → Addr → Option (St × Option Val)} {cat' : St → Addr → Addr → Option (St × Unit)}
    (hT : ∀ r c, EntryMap tgt (T r c) (T' r c))
    (hc : ∀ σ a b, cat' σ a b = (cat σ a b).map fun p => (put' tgt p, ())) :
    ∀ (f : Nat) (σ : St) (a b : Addr),
    disp E T' cat' () f σ a b = Res.map' (fun p => (put' tgt p, ())) (disp E T cat none f σ a b) := by
  intro f
  induction f with
  | zero => intro σ a b; simp [disp, Res.map']
  | succ f ih =>
    intro σ a b
    unfold disp
    dsimp only
    rw [hc]
    have h1 := hT (σ.cell a).ty (σ.cell b).ty
    generalize T (σ.cell a).ty (σ.cell b).ty = e at h1
    generalize T' (σ.cell a).ty (σ.cell b).ty = e' at h1
    cases e <;> cases e' <;> simp only [EntryMap] at h1
    · exact h1 _ _ _
    · cases σ.cell a <;> first | rfl | exact ih _ _ _
    · cases σ.cell b <;> first | rfl | exact ih _ _ _
    · cases σ.cell a <;> cases σ.cell b <;> first | rfl | exact ih _ _ _
    · cases single E f σ a <;> first | rfl | exact ih _ _ _
    · cases single E f σ b <;> first | rfl | exact ih _ _ _
    · cases single E f σ a with
      | ok σ1 =>
        simp only [res_bind_ok]
        cases single E f (σ1.set (.loc f) (σ1.cell .t1)) b <;> first | rfl | exact ih _ _ _
      | ub => rfl
      | oof => rfl
    · cases cat σ a b with
      | some p => rfl
      | none => cases single E f σ a <;> first | rfl | exact ih _ _ _
    · cases cat σ a b with
      | some p => rfl
      | none => cases single E f σ b <;> first | rfl | exact ih _ _ _
    · dsimp only
      split
      · cases Ops.deref f σ a with
        | ok p =>
          obtain ⟨σ1, l⟩ := p
          simp only [res_bind_ok]
          cases Ops.deref f (σ1.set (.loc f) (σ1.cell l)) b <;> first | rfl | exact ih _ _ _
        | ub => rfl
        | oof => rfl
      · cases cat σ a b <;> rfl
    · cases σ.cell b <;> try rfl
      rename_i r
      dsimp only
      have h2 := hT .I .E
      generalize T .I .E = e at h2
      generalize T' .I .E = e' at h2
      cases e <;> cases e' <;> simp only [EntryMap] at h2 <;> try rfl
      dsimp only
      cases single E f σ r <;> try rfl
      rename_i σ1
      simp only [res_bind_ok]
      have h3 := hT .I (σ1.cell .t1).ty
      generalize T .I (σ1.cell .t1).ty = e at h3
      generalize T' .I (σ1.cell .t1).ty = e' at h3
      cases e <;> cases e' <;> simp only [EntryMap] at h3 <;> first | rfl | exact h3 _ _ _
    · subst h1; rfl

/-- `binary` computes `binVal` and stores the value. -/
theorem binary_eq (E : Env) (op : BinOp) (f : Nat) (σ : St) (to from_ tgt : Addr) :
    binary E op f σ to from_ tgt = Res.map' (put' tgt) (binVal E op f σ to from_) := by
  unfold binary binVal
  rw [disp_map E tgt (binTable_map E tgt op) (catCheck_map E tgt)]
  cases disp E (binTableV E op) (catV E) none f σ to from_ <;> rfl

theorem leafV_ok (k : Word32 → Val) (op : Word32 → Word32 → Res Word32) :
    LeafOk D u v (leafV k op) := by
  intro σ τ σ' to from_ r hr hto hfrom h
  unfold leafV at h ⊢
  rw [hr.off to hto, hr.off from_ hfrom]
  obtain ⟨a, h1, h⟩ := bind_ok h
  obtain ⟨b, h2, h⟩ := bind_ok h
  obtain ⟨c, h3, h⟩ := bind_ok h
  rw [h1, h2]
  simp only [res_bind_ok]
  rw [h3]
  simp only [res_pure, Res.ok.injEq, Prod.mk.injEq] at h
  obtain ⟨rfl, rfl⟩ := h
  exact ⟨_, rfl, hr⟩

theorem Rel.alloc (h : Rel D u v σ τ) (x : Obj) :
    Rel D u v { σ.setObj σ.next x with next := σ.next + 1 }
      { τ.setObj τ.next x with next := τ.next + 1 } :=
  ⟨h.off, h.closed, h.inL, h.inR, by simp only [St.setObj, h.obj, h.next], by simp [h.next], h.raw⟩

theorem catV_ok (hD : Dead D) {E : Env} (hE : EnvLocal E) : CatOk D u v (catV E) := by
  intro σ τ to from_ hr hto hfrom
  have h1 := (hE D u v σ τ hD hr _ (hr.closed to hto)).2
  have h2 := (hE D u v σ τ hD hr _ (hr.closed from_ hfrom)).2
  unfold catV
  dsimp only
  rw [hr.off to hto, hr.off from_ hfrom, h1, h2]
  have ho : ∀ w, strOfV τ w = strOfV σ w := by intro w; simp only [strOfV, hr.obj]
  rw [ho, ho]
  generalize strOfV σ (σ.cell to) = A
  generalize strOfV σ (σ.cell from_) = B
  have key : ∀ bs : List Byte, ∃ τ', (some ({ τ.setObj τ.next (.chars bs false) with next := τ.next + 1 },
      some (Val.arr τ.next)) : Option (St × Option Val)) = some (τ', some (Val.arr σ.next)) ∧
      Rel D u v { σ.setObj σ.next (.chars bs false) with next := σ.next + 1 } τ' := by
    intro bs
    exact ⟨_, by rw [hr.next], hr.alloc _⟩
  rcases A with _ | ⟨bs, _ | _⟩ <;> rcases B with _ | ⟨cs, _ | _⟩ <;> dsimp only <;>
    first | rfl | exact key _

theorem Rel.binVal (hD : Dead D) (hloc : ∀ k, ¬D (.loc k)) {E : Env} (hE : EnvLocal E)
    (op : BinOp) (f : Nat) {σ' : St} {to from_ : Addr} {r : Option Val} (hr : Rel D u v σ τ)
    (hto : ¬D to) (hfrom : ¬D from_) (h : Peep.binVal E op f σ to from_ = .ok (σ', r)) :
    ∃ τ', Peep.binVal E op f τ to from_ = .ok (τ', r) ∧ Rel D u v σ' τ' := by
  refine Rel.disp hD hloc hE ?_ (catV_ok hD hE) f hr hto hfrom h
  intro r c g hg
  cases op <;> first
    | exact std_leaf (P := fun g => LeafOk D u v g) (leafV_ok _ _) (leafV_ok _ _) (leafV_ok _ _)
        (leafV_ok _ _) r c g hg
    | exact add_leaf (P := fun g => LeafOk D u v g) (leafV_ok _ _) (leafV_ok _ _) (leafV_ok _ _)
        (leafV_ok _ _) r c g hg
    | exact int_leaf (P := fun g => LeafOk D u v g) (leafV_ok _ _) r c g hg

/-! ### Assignment, increments, negation test -/

theorem Rel.storeByte (h : Rel D u v σ τ) (p s : Nat) (w : Word32) :
    Rel D u v (Ops.storeByte σ p s w) (Ops.storeByte τ p s w) :=
  ⟨h.off, h.closed, h.inL, h.inR, h.obj, h.next, by simp only [Ops.storeByte, h.raw]⟩

theorem Rel.viaDeref (hD : Dead D) (f : Nat) {σ τ σ' : St} {ex val : Addr} (hr : Rel D u v σ τ)
    (hex : ¬D ex) (hval : ¬D val)
    (h : (do
      let (σ, l) ← Ops.deref f σ ex
      let (σ, m) ← Ops.deref f σ val
      return σ.set l (σ.cell m)) = Res.ok σ') :
    ∃ τ', (do
      let (σ, l) ← Ops.deref f τ ex
      let (σ, m) ← Ops.deref f σ val
      return σ.set l (σ.cell m)) = Res.ok τ' ∧ Rel D u v σ' τ' := by
  obtain ⟨⟨σ1, l⟩, h1, h⟩ := bind_ok h
  obtain ⟨⟨σ2, m⟩, h2, h⟩ := bind_ok h
  obtain ⟨τ1, g1, hr1, hl⟩ := Rel.deref hD f hr hex h1
  obtain ⟨τ2, g2, hr2, hm⟩ := Rel.deref hD f hr1 hval h2
  rw [g1]; simp only [res_bind_ok]
  rw [g2]; simp only [res_bind_ok, res_pure, Res.ok.injEq] at h ⊢
  subst h
  rw [hr2.off m hm]
  exact ⟨_, rfl, hr2.set hl (hr2.closed m hm)⟩

theorem Rel.assign_valueToEx (hD : Dead D) (E : Env) : ∀ (f : Nat),
    (∀ {σ τ σ' : St} {ex val : Addr}, Rel D u v σ τ → ¬D ex → ¬D val →
      Ops.valueToEx E f σ ex val = .ok σ' →
      ∃ τ', Ops.valueToEx E f τ ex val = .ok τ' ∧ Rel D u v σ' τ') ∧
    (∀ {σ τ σ' : St} {to from_ : Addr}, Rel D u v σ τ → ¬D to → ¬D from_ →
      Ops.assign E f σ to from_ = .ok σ' →
      ∃ τ', Ops.assign E f τ to from_ = .ok τ' ∧ Rel D u v σ' τ') := by
  intro f
  induction f with
  | zero =>
    refine ⟨?_, ?_⟩
    · intro σ τ σ' ex val _ _ _ h; simp [valueToEx] at h
    · intro σ τ σ' ex val _ _ _ h; simp [Ops.assign] at h
  | succ f ih =>
    obtain ⟨ihv, iha⟩ := ih
    refine ⟨?_, ?_⟩
    · intro σ τ σ' ex val hr hex hval h
      have hc := hr.closed ex hex
      unfold valueToEx at h ⊢
      dsimp only at h ⊢
      rw [hr.off ex hex, hr.off val hval]
      generalize σ.cell ex = w at h hc
      cases w with
      | arr o =>
        dsimp only at h ⊢
        rw [hr.obj]
        generalize σ.obj o = ob at h
        cases ob with
        | chars bs nc =>
          obtain ⟨w, h1, h⟩ := bind_ok h
          dsimp only; rw [h1]
          simp only [res_bind_ok, res_pure, Res.ok.injEq] at h ⊢
          subst h
          exact ⟨_, rfl, hr.setObj _ _⟩
        | vals n =>
          dsimp only at h ⊢
          split at h
          · next hn => rw [if_pos hn]
                       exact iha ((hr.setObj _ _).set (hD.elem _ _) (ptr_int _)) (hD.elem _ _) hval h
          · next hn => rw [if_neg hn]; exact iha hr (hD.elem _ _) hval h
        | other => simp at h
      | mem b s =>
        dsimp only at h ⊢
        rw [hr.off b (hc b rfl)]
        generalize σ.cell b = w at h
        cases w with
        | raw p n =>
          obtain ⟨w, h1, h⟩ := bind_ok h
          dsimp only; rw [h1]
          simp only [res_bind_ok, res_pure, Res.ok.injEq] at h ⊢
          subst h
          exact ⟨_, rfl, hr.storeByte _ _ _⟩
        | _ => exact Rel.viaDeref hD f hr hex hval h
      | _ => exact Rel.viaDeref hD f hr hex hval h
    · intro σ τ σ' to from_ hr hto hfrom h
      have hct := hr.closed to hto
      have hcf := hr.closed from_ hfrom
      unfold Ops.assign at h ⊢
      rw [hr.off to hto, hr.off from_ hfrom]
      have hEX : ∀ {σ'}, (do
          let (σ, l) ← Ops.deref f σ from_
          if isMember (σ.cell to) then valueToEx E f σ to l
          else return σ.set to (σ.cell l)) = Res.ok σ' →
          ∃ τ', (do
          let (σ, l) ← Ops.deref f τ from_
          if isMember (σ.cell to) then valueToEx E f σ to l
          else return σ.set to (σ.cell l)) = Res.ok τ' ∧ Rel D u v σ' τ' := by
        intro σ' h
        obtain ⟨⟨σ1, l⟩, h1, h⟩ := bind_ok h
        obtain ⟨τ1, g1, hr1, hl⟩ := Rel.deref hD f hr hfrom h1
        rw [g1]
        simp only [res_bind_ok] at h ⊢
        rw [hr1.off to hto, hr1.off l hl]
        split at h
        · next hm => rw [if_pos hm]; exact ihv hr1 hto hl h
        · next hm =>
          rw [if_neg hm]
          simp only [res_pure, Res.ok.injEq] at h ⊢
          subst h
          exact ⟨_, rfl, hr1.set hto (hr1.closed l hl)⟩
      have hIE : ∀ {σ'}, (do
          let (σ, l) ← Ops.deref f σ from_
          return σ.set to (σ.cell l)) = Res.ok σ' →
          ∃ τ', (do
          let (σ, l) ← Ops.deref f τ from_
          return σ.set to (σ.cell l)) = Res.ok τ' ∧ Rel D u v σ' τ' := by
        intro σ' h
        obtain ⟨⟨σ1, l⟩, h1, h⟩ := bind_ok h
        obtain ⟨τ1, g1, hr1, hl⟩ := Rel.deref hD f hr hfrom h1
        rw [g1]
        simp only [res_bind_ok, res_pure, Res.ok.injEq] at h ⊢
        subst h
        rw [hr1.off l hl]
        exact ⟨_, rfl, hr1.set hto (hr1.closed l hl)⟩
      generalize σ.cell to = w at h hct
      generalize σ.cell from_ = z at h hcf
      cases w <;> cases z <;> simp only [Val.ty, reduceCtorEq] at h ⊢ <;> first
        | exact hEX h
        | exact hIE h
        | exact iha hr (hct _ rfl) (hcf _ rfl) h
        | exact iha hr hto (hcf _ rfl) h
        | exact iha hr (hct _ rfl) hfrom h
        | (simp only [Res.ok.injEq] at h; subst h
           exact ⟨_, rfl, hr.set hto hcf⟩)

theorem Rel.assign (hD : Dead D) (E : Env) (f : Nat) {σ' : St} {to from_ : Addr}
    (hr : Rel D u v σ τ) (hto : ¬D to) (hfrom : ¬D from_)
    (h : Ops.assign E f σ to from_ = .ok σ') :
    ∃ τ', Ops.assign E f τ to from_ = .ok τ' ∧ Rel D u v σ' τ' :=
  (Rel.assign_valueToEx hD E f).2 hr hto hfrom h

theorem Rel.valueToEx (hD : Dead D) (E : Env) (f : Nat) {σ' : St} {to from_ : Addr}
    (hr : Rel D u v σ τ) (hto : ¬D to) (hfrom : ¬D from_)
    (h : Ops.valueToEx E f σ to from_ = .ok σ') :
    ∃ τ', Ops.valueToEx E f τ to from_ = .ok τ' ∧ Rel D u v σ' τ' :=
  (Rel.assign_valueToEx hD E f).1 hr hto hfrom h

theorem Rel.logicalNot (hD : Dead D) {E : Env} (hE : EnvLocal E) : ∀ (f : Nat) {σ τ σ' : St} {a : Addr}
    {r : Bool}, Rel D u v σ τ → ¬D a → Ops.logicalNot E f σ a = .ok (σ', r) →
    ∃ τ', Ops.logicalNot E f τ a = .ok (τ', r) ∧ Rel D u v σ' τ' := by
  intro f
  induction f with
  | zero => intro σ τ σ' a r _ _ h; simp [Ops.logicalNot] at h
  | succ f ih =>
    intro σ τ σ' a r hr ha h
    have hc := hr.closed a ha
    unfold Ops.logicalNot at h ⊢
    rw [hr.off a ha]
    generalize σ.cell a = w at h hc
    cases w <;> dsimp only at h ⊢ <;> first
      | (simp only [Res.ok.injEq, Prod.mk.injEq] at h
         obtain ⟨rfl, rfl⟩ := h
         exact ⟨_, rfl, hr⟩)
      | exact ih hr (hc _ rfl) h
      | (obtain ⟨σ1, h1, h⟩ := bind_ok h
         obtain ⟨τ1, g1, hr1⟩ := hr.single hD hE f ha h1
         rw [g1]
         exact ih hr1 hD.t1 h)

theorem Rel.preBump (hD : Dead D) {E : Env} (hE : EnvLocal E) (d : Word32) : ∀ (f : Nat)
    {σ τ σ' : St} {a : Addr}, Rel D u v σ τ → ¬D a → Ops.preBump E d f σ a = .ok σ' →
    ∃ τ', Ops.preBump E d f τ a = .ok τ' ∧ Rel D u v σ' τ' := by
  intro f
  induction f with
  | zero => intro σ τ σ' a _ _ h; simp [Ops.preBump] at h
  | succ f ih =>
    intro σ τ σ' a hr ha h
    have hc := hr.closed a ha
    unfold Ops.preBump at h ⊢
    rw [hr.off a ha]
    generalize σ.cell a = w at h hc
    cases w <;> dsimp only at h ⊢ <;> first
      | (simp only [Res.ok.injEq] at h; subst h; exact ⟨_, rfl, hr.set ha (ptr_float _)⟩)
      | (obtain ⟨r, h1, h⟩ := bind_ok h
         rw [h1]
         simp only [res_bind_ok, res_pure, Res.ok.injEq] at h ⊢
         subst h
         exact ⟨_, rfl, hr.set ha (ptr_int _)⟩)
      | (obtain ⟨σ1, h1, h⟩ := bind_ok h
         obtain ⟨τ1, g1, hr1⟩ := hr.single hD hE f ha h1
         obtain ⟨σ2, h2, h⟩ := bind_ok h
         obtain ⟨τ2, g2, hr2⟩ := ih hr1 hD.t1 h2
         rw [g1]
         simp only [res_bind_ok]
         rw [g2]
         exact hr2.valueToEx hD E f ha hD.t1 h)
      | (obtain ⟨σ1, h1, h⟩ := bind_ok h
         obtain ⟨τ1, g1, hr1⟩ := ih hr (hc _ rfl) h1
         rw [g1]
         simp only [res_bind_ok]
         have hc1 := hr1.closed a ha
         rw [hr1.off a ha]
         generalize σ1.cell a = z at h hc1
         cases z <;> simp only [reduceCtorEq, res_pure, Res.ok.injEq] at h ⊢
         subst h
         rw [hr1.off _ (hc1 _ rfl)]
         exact ⟨_, rfl, hr1.set ha (hr1.closed _ (hc1 _ rfl))⟩)

/-! ### Indexing into a dead target -/

/-- The two memories are related ones with the same value stored in `tgt`. -/
def RelSet (D : Addr → Prop) (u v : Addr → Val) (tgt : Addr) (σ' τ' : St) : Prop :=
  ∃ (σ1 τ1 : St) (w : Val), Rel D u v σ1 τ1 ∧ σ' = σ1.set tgt w ∧ τ' = τ1.set tgt w

theorem Rel.newArr (h : Rel D u v σ τ) (hD : Dead D) (n : Nat) :
    Rel D u v (Ops.newArr σ n) (Ops.newArr τ n) := by
  refine ⟨?_, ?_, ?_, ?_, ?_, ?_, h.raw⟩
  · intro a ha
    have := h.off a ha
    cases a <;> simp_all [Ops.newArr, h.next]
  · intro a ha p hp
    have := h.closed a ha p
    cases a <;> simp only [Ops.newArr] at hp <;> first
      | exact this hp
      | (split at hp
         · simp [ptr] at hp
         · exact this hp)
  · intro a ha
    have := h.inL a ha
    cases a <;> first | exact this | exact absurd ha (hD.elem _ _)
  · intro a ha
    have := h.inR a ha
    cases a <;> first | exact this | exact absurd ha (hD.elem _ _)
  · simp [Ops.newArr, St.setObj, h.obj, h.next]
  · simp [Ops.newArr, h.next]

theorem Rel.growArr (h : Rel D u v σ τ) (hD : Dead D) (o n : Nat) :
    Rel D u v (Ops.growArr σ o n) (Ops.growArr τ o n) := by
  unfold Ops.growArr
  rw [h.obj]
  generalize σ.obj o = ob
  cases ob with
  | chars bs nc => exact h.setObj _ _
  | other => exact h
  | vals k =>
    dsimp only
    refine ⟨?_, ?_, ?_, ?_, ?_, h.next, h.raw⟩
    · intro a ha
      have := h.off a ha
      cases a <;> simp_all
    · intro a ha p hp
      have := h.closed a ha p
      cases a <;> simp only at hp <;> first
        | exact this hp
        | (split at hp
           · simp [ptr] at hp
           · exact this hp)
    · intro a ha
      have := h.inL a ha
      cases a <;> first | exact this | exact absurd ha (hD.elem _ _)
    · intro a ha
      have := h.inR a ha
      cases a <;> first | exact this | exact absurd ha (hD.elem _ _)
    · simp [St.setObj, h.obj]

theorem Rel.elemTo {σ' : St} {w : Word32} {tgt value : Addr} (hr : Rel D u v σ τ) (ht : D tgt)
    (hv : ¬D value) (h : Ops.elemTo σ w tgt value = .ok σ') :
    ∃ τ', Ops.elemTo τ w tgt value = .ok τ' ∧ RelSet D u v tgt σ' τ' := by
  have hne : tgt ≠ value := by rintro rfl; exact hv ht
  unfold Ops.elemTo at h ⊢
  rw [if_neg hne] at h ⊢
  simp only [Res.ok.injEq] at h
  subst h
  exact ⟨_, rfl, σ, τ, _, hr, rfl, rfl⟩

theorem Rel.indexIX (hD : Dead D) {σ' : St} {w : Word32} {tgt value : Addr} (hr : Rel D u v σ τ)
    (ht : D tgt) (hv : ¬D value) (h : Ops.indexIX σ w value tgt = .ok σ') :
    ∃ τ', Ops.indexIX τ w value tgt = .ok τ' ∧ RelSet D u v tgt σ' τ' := by
  unfold Ops.indexIX at h ⊢
  split at h
  · simp at h
  · next hn =>
    rw [if_neg hn, hr.next]
    exact Rel.elemTo ((hr.newArr hD _).set hv (ptr_arr _)) ht hv h

theorem Rel.indexIE (hD : Dead D) (f : Nat) {σ' : St} {idx value tgt : Addr} (hr : Rel D u v σ τ)
    (ht : D tgt) (hi : ¬D idx) (hv : ¬D value) (h : Ops.indexIE f σ idx value tgt = .ok σ') :
    ∃ τ', Ops.indexIE f τ idx value tgt = .ok τ' ∧ RelSet D u v tgt σ' τ' := by
  have rest : ∀ {σ'}, (do
      let (σ, l) ← Ops.deref f σ value
      match σ.cell l with
      | .tbl _ => .ub
      | .strct _ => .ub
      | .raw _ n => do
        let w ← (σ.cell idx).bits
        if w.toNat ≥ n then return σ.set tgt (.int 0) else Ops.elemTo σ w tgt l
      | .arr o => do
        let w ← (σ.cell idx).bits
        match σ.obj o with
        | .vals n =>
          if w.toNat < n then Ops.elemTo σ w tgt l
          else if w.toInt < 0 then .ub else Ops.elemTo (Ops.growArr σ o w.toNat) w tgt l
        | .chars bs nc =>
          if w.toNat < bs.length then Ops.elemTo σ w tgt l
          else if nc then return σ.set tgt (.int 0)
          else if w.toInt < 0 then .ub else Ops.elemTo (Ops.growArr σ o w.toNat) w tgt l
        | .other => .ub
      | _ => match σ.cell idx with
        | .int w => Ops.indexIX σ w l tgt
        | _ => .ub) = Res.ok σ' →
      ∃ τ', (do
      let (σ, l) ← Ops.deref f τ value
      match σ.cell l with
      | .tbl _ => .ub
      | .strct _ => .ub
      | .raw _ n => do
        let w ← (σ.cell idx).bits
        if w.toNat ≥ n then return σ.set tgt (.int 0) else Ops.elemTo σ w tgt l
      | .arr o => do
        let w ← (σ.cell idx).bits
        match σ.obj o with
        | .vals n =>
          if w.toNat < n then Ops.elemTo σ w tgt l
          else if w.toInt < 0 then .ub else Ops.elemTo (Ops.growArr σ o w.toNat) w tgt l
        | .chars bs nc =>
          if w.toNat < bs.length then Ops.elemTo σ w tgt l
          else if nc then return σ.set tgt (.int 0)
          else if w.toInt < 0 then .ub else Ops.elemTo (Ops.growArr σ o w.toNat) w tgt l
        | .other => .ub
      | _ => match σ.cell idx with
        | .int w => Ops.indexIX σ w l tgt
        | _ => .ub) = Res.ok τ' ∧ RelSet D u v tgt σ' τ' := by
    intro σ' h
    obtain ⟨⟨σ1, l⟩, h1, h⟩ := bind_ok h
    obtain ⟨τ1, g1, hr1, hl⟩ := Rel.deref hD f hr hv h1
    rw [g1]
    simp only [res_bind_ok]
    dsimp only at h
    rw [hr1.off l hl, hr1.off idx hi, hr1.obj]
    generalize σ1.cell l = vl at h
    generalize σ1.cell idx = vi at h
    cases vl with
    | tbl o => simp at h
    | strct o => simp at h
    | raw p n =>
      obtain ⟨w, h2, h⟩ := bind_ok h
      dsimp only
      rw [h2]
      simp only [res_bind_ok]
      split at h
      · next hn =>
        rw [if_pos hn]
        simp only [res_pure, Res.ok.injEq] at h ⊢
        subst h
        exact ⟨_, rfl, _, _, _, hr1, rfl, rfl⟩
      · next hn => rw [if_neg hn]; exact hr1.elemTo ht hl h
    | arr o =>
      obtain ⟨w, h2, h⟩ := bind_ok h
      dsimp only
      rw [h2]
      simp only [res_bind_ok]
      generalize σ1.obj o = ob at h
      cases ob with
      | vals n =>
        dsimp only at h ⊢
        split at h
        · next hn => rw [if_pos hn]; exact hr1.elemTo ht hl h
        · next hn =>
          rw [if_neg hn]
          split at h
          · simp at h
          · next hn => rw [if_neg hn]; exact (hr1.growArr hD _ _).elemTo ht hl h
      | chars bs nc =>
        dsimp only at h ⊢
        split at h
        · next hn => rw [if_pos hn]; exact hr1.elemTo ht hl h
        · next hn =>
          rw [if_neg hn]
          split at h
          · next hn =>
            rw [if_pos hn]
            simp only [res_pure, Res.ok.injEq] at h ⊢
            subst h
            exact ⟨_, rfl, _, _, _, hr1, rfl, rfl⟩
          · next hn =>
            rw [if_neg hn]
            split at h
            · simp at h
            · next hn => rw [if_neg hn]; exact (hr1.growArr hD _ _).elemTo ht hl h
      | other => simp at h
    | _ =>
      cases vi <;> simp only [reduceCtorEq] at h ⊢
      exact hr1.indexIX hD ht hl h
  have hc := hr.closed value hv
  unfold Ops.indexIE at h ⊢
  dsimp only at h ⊢
  rw [hr.off value hv]
  generalize σ.cell value = vv at h hc
  cases vv with
  | mem b s =>
    dsimp only at h ⊢
    rw [hr.off b (hc b rfl)]
    generalize σ.cell b = vb at h
    cases vb with
    | raw p n =>
      simp only [Res.ok.injEq] at h ⊢
      subst h
      exact ⟨_, rfl, _, _, _, hr, rfl, rfl⟩
    | _ => exact rest h
  | _ => exact rest h

/-- Following references from `a` ends at `b`. -/
inductive Ends (σ : St) : Addr → Addr → Prop where
  | here {a : Addr} : (σ.cell a).ty ≠ .R → Ends σ a a
  | ref {a b c : Addr} : σ.cell a = .ref b → Ends σ b c → Ends σ a c

/-- The operand is not a float, directly or by reference. -/
def NotFloat (σ : St) (a : Addr) : Prop := ∀ b, Ends σ a b → (σ.cell b).ty ≠ .F

theorem NotFloat.ref {a b : Addr} (h : NotFloat σ a) (hr : σ.cell a = .ref b) : NotFloat σ b :=
  fun c hc => h c (.ref hr hc)

theorem Rel.index (hD : Dead D) : ∀ (f : Nat) {σ τ σ' : St} {idx value tgt : Addr}, Rel D u v σ τ →
    D tgt → ¬D idx → ¬D value → NotFloat σ idx → Ops.index f σ idx value tgt = .ok σ' →
    ∃ τ', Ops.index f τ idx value tgt = .ok τ' ∧ RelSet D u v tgt σ' τ' := by
  intro f
  induction f with
  | zero => intro σ τ σ' idx value tgt _ _ _ _ _ h; simp [Ops.index] at h
  | succ f ih =>
    intro σ τ σ' idx value tgt hr ht hi hv hnf h
    have hci := hr.closed idx hi
    have hcv := hr.closed value hv
    have hEE : ∀ {σ'}, (do
        let (σ, i) ← Ops.deref f σ idx
        match σ.cell i with
        | .int _ => Ops.indexIE f σ i value tgt
        | .float _ => Ops.indexIE f σ i value tgt
        | _ => .ub) = Res.ok σ' → ∃ τ', (do
        let (σ, i) ← Ops.deref f τ idx
        match σ.cell i with
        | .int _ => Ops.indexIE f σ i value tgt
        | .float _ => Ops.indexIE f σ i value tgt
        | _ => .ub) = Res.ok τ' ∧ RelSet D u v tgt σ' τ' := by
      intro σ' h
      obtain ⟨⟨σ1, l⟩, h1, h⟩ := bind_ok h
      obtain ⟨τ1, g1, hr1, hl⟩ := Rel.deref hD f hr hi h1
      rw [g1]
      simp only [res_bind_ok]
      dsimp only at h
      rw [hr1.off l hl]
      generalize σ1.cell l = vl at h
      cases vl <;> simp only [reduceCtorEq] at h ⊢ <;> exact hr1.indexIE hD f ht hl hv h
    have hnf0 : ∀ w, σ.cell idx ≠ .float w := by
      intro w hw
      exact hnf idx (.here (by simp [hw, Val.ty])) (by simp [hw, Val.ty])
    unfold Ops.index at h ⊢
    rw [hr.off idx hi, hr.off value hv]
    have hnr := fun b (hb : σ.cell idx = .ref b) => hnf.ref hb
    generalize σ.cell idx = w at h hci hnf0 hnr
    generalize σ.cell value = z at h hcv
    cases w <;> cases z <;> simp only [Val.ty, reduceCtorEq] at h ⊢ <;> first
      | exact hEE h
      | exact hr.indexIE hD f ht hi hv h
      | exact hr.indexIX hD ht hv h
      | exact absurd rfl (hnf0 _)
      | exact ih hr ht (hci _ rfl) (hcv _ rfl) (hnr _ rfl) h
      | exact ih hr ht hi (hcv _ rfl) hnf h
      | exact ih hr ht (hci _ rfl) hv (hnr _ rfl) h

end Wrench.Peep
