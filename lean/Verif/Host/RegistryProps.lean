import Verif.Host.Registry

/-
C72: a name does what it was registered for.
-/
namespace Wrench.Registry

open Wrench Wrench.HashTable

/-! ### Specification -/

/-- What a name was registered as. -/
inductive Entry where
  | fn (a usr : BitVec 64)
  | lib (a : BitVec 64)
  | int (i : Word32)
  | float (f : Word32)

inductive Kind where
  | fn
  | lib
  | const
deriving DecidableEq, Repr

def Entry.kind : Entry → Kind
  | .fn _ _ => .fn
  | .lib _ => .lib
  | .int _ | .float _ => .const

/-- The last registration of every name; and the names that were looked up while they were not
registered. -/
structure Sp where
  reg : Word32 → Option Entry
  looked : Word32 → Bool

def Sp.set (s : Sp) (h : Word32) (e : Entry) : Sp := { s with reg := fun k => if k = h then some e else s.reg k }

def Sp.look (s : Sp) (h : Word32) : Sp :=
  { s with looked := fun k => if k = h then (s.looked h || (s.reg h).isNone) else s.looked k }

/-- The first of the contexts `ds` that defines `h`. -/
def firstDef (funs : Nat → Word32 → Option Nat) (h : Word32) : List Nat → Out
  | [] => .err
  | d :: ds =>
    match funs d h with
    | some f => .script d f
    | none => firstDef funs h ds

/-- What every operation should do.  `funs c h` is the function of context `c` with name `h`. -/
def spec (imps : Nat → List Nat) (funs : Nat → Word32 → Option Nat) (s : Sp) : Op → Sp × Out
  | .regFn h a u => (s.set h (.fn a u), .done)
  | .regLib h a => (s.set h (.lib a), .done)
  | .regInt h i => (s.set h (.int i), .done)
  | .regFloat h f => (s.set h (.float f), .done)
  | .call c h => (s.look h, match s.reg h with
      | some (.fn a u) => .native a u
      | _ => firstDef funs h (imps c))
  | .libCall h => (s.look h, match s.reg h with
      | some (.lib a) => .lib a
      | _ => .err)
  | .load h => (s.look h, match s.reg h with
      | some (.int i) => .value 0 i
      | some (.float f) => .value 1 f
      | _ => .err)
  | .host c h => match funs c h with
    | some f => (s, .script c f)
    | none => (s.look h, match s.reg h with
      | some (.lib a) => .lib a
      | _ => .err)
  | .getFunction c h => (s, .found (funs c h))
  | .isFunction c h => (s, .num (if (s.reg h).isSome then 1 else if (funs c h).isSome then 2 else 0))

def specRun (imps : Nat → List Nat) (funs : Nat → Word32 → Option Nat) (s : Sp) : List Op → List Out
  | [] => []
  | op :: ops => (spec imps funs s op).2 :: specRun imps funs (spec imps funs s op).1 ops

def Op.name : Op → Word32
  | .regFn h _ _ | .regLib h _ | .regInt h _ | .regFloat h _ | .call _ h | .libCall h | .load h | .host _ h
  | .getFunction _ h | .isFunction _ h => h

/-- Names are used for one purpose (`kind`); functions are not null; the host calls functions of the script and
library functions; `sys::isFunction` is not asked for a name that was looked up in vain. -/
def Proper (kind : Word32 → Kind) (funs : Nat → Word32 → Option Nat) (s : Sp) : Op → Prop
  | .regFn h a _ => kind h = .fn ∧ a ≠ 0
  | .regLib h a => kind h = .lib ∧ a ≠ 0
  | .regInt h _ | .regFloat h _ | .load h => kind h = .const
  | .call _ h => kind h = .fn
  | .libCall h => kind h = .lib
  | .host c h => h ≠ 0 ∧ ((funs c h).isSome ∨ kind h = .lib)
  | .getFunction _ _ => True
  | .isFunction _ h => s.looked h = false

def ProperRun (kind : Word32 → Kind) (imps : Nat → List Nat) (funs : Nat → Word32 → Option Nat) : Sp → List Op → Prop
  | _, [] => True
  | s, op :: ops => op.name ≠ nullHash ∧ Proper kind funs s op ∧ ProperRun kind imps funs (spec imps funs s op).1 ops

/-- The function of this name in a table of names: the last one, as `wr_newContext` has it. -/
def lastIndex (h : Word32) (hs : List Word32) : Option Nat :=
  (hs.zipIdx.filter fun x => x.1 = h).getLast?.map (·.2)

/-! ### Tables as maps -/

/-- The table holds the map `m`. -/
structure Sees {V : Type} (dv : V) (t : HT V Unit) (m : Word32 → Option V) : Prop where
  inv : Inv t.mod t.slots
  clean : Clean dv t
  rep : ∀ h, h ≠ nullHash → ∀ v, m h = some v ↔ ∃ i, i < t.mod ∧ t.slots i = h ∧ t.vals i = v

theorem Sees.present {V : Type} {dv : V} {t : HT V Unit} {m : Word32 → Option V} (S : Sees dv t m) {h : Word32}
    (hn : h ≠ nullHash) : m h = none ↔ ¬ Present t.mod t.slots h := by
  constructor
  · rintro hm ⟨i, hi, hs⟩
    have := (S.rep h hn (t.vals i)).mpr ⟨i, hi, hs, rfl⟩
    rw [hm] at this; cases this
  · intro hp
    cases hc : m h with
    | none => rfl
    | some v =>
      obtain ⟨i, hi, hs, -⟩ := (S.rep h hn v).mp hc
      exact absurd ⟨i, hi, hs⟩ hp

def setM {V : Type} (m : Word32 → Option V) (h : Word32) (v : V) : Word32 → Option V := fun k => if k = h then some v else m k

/-- Access by `getAsRawValueHashTable` and a store. -/
theorem Sees.get {V : Type} {dv : V} {t t1 : HT V Unit} {m : Word32 → Option V} (S : Sees dv t m) {h : Word32} {i : Nat}
    (hn : h ≠ nullHash) (hg : getAsRaw dv () t h = some (t1, i)) :
    t1.vals i = (m h).getD dv ∧ ∀ v, Sees dv { t1 with vals := upd t1.vals i v } (setM m h v) := by
  rw [getAsRaw_eq S.inv hn] at hg
  have E := getIndexOfHit_ext S.inv hn hg
  constructor
  · cases hm : m h with
    | none => exact E.fresh ((S.present hn).mp hm) S.clean
    | some v =>
      obtain ⟨j, hj, hs, hv⟩ := (S.rep h hn v).mp hm
      obtain ⟨j', hj', hs', hv', -⟩ := E.fwd j hj (by rw [hs]; exact hn)
      have : j' = i := E.inv.inj j' i hj' E.lt (by rw [hs', hs]; exact hn) (by rw [hs', hs, E.at_])
      rw [← this, hv', hv]; rfl
  · intro v
    refine ⟨E.inv, ?_, ?_⟩
    · intro j hj hs
      dsimp only at hj hs ⊢
      have hji : j ≠ i := by rintro rfl; rw [E.at_] at hs; exact hn hs
      rw [upd_ne _ _ hji]
      exact E.clean S.clean j hj hs
    · intro h' hn' w
      unfold setM
      by_cases hne : h' = h
      · subst hne
        simp only [if_true, Option.some.injEq]
        constructor
        · rintro rfl; exact ⟨i, E.lt, E.at_, upd_same _ _ _⟩
        · rintro ⟨j, hj, hs, hv⟩
          have : j = i := E.inv.inj j i hj E.lt (by rw [hs]; exact hn') (by rw [hs, E.at_])
          rw [this] at hv
          rw [← hv]
          exact (upd_same _ _ _).symm
      · rw [if_neg hne, S.rep h' hn' w]
        constructor
        · rintro ⟨j, hj, hs, hv⟩
          obtain ⟨j', hj', hs', hv', -⟩ := E.fwd j hj (by rw [hs]; exact hn')
          have hji : j' ≠ i := fun e => hne (by rw [← hs, ← hs', e, E.at_])
          refine ⟨j', hj', hs'.trans hs, ?_⟩
          dsimp only
          rw [upd_ne _ _ hji, hv', hv]
        · rintro ⟨j, hj, hs, hv⟩
          dsimp only at hj hs hv
          have hji : j ≠ i := fun e => hne (by rw [← hs, e, E.at_])
          rw [upd_ne _ _ hji] at hv
          obtain ⟨j0, hj0, hs0, hv0, -⟩ := E.back j hj (by rw [hs]; exact hn') (by rw [hs]; exact hne)
          exact ⟨j0, hj0, hs0.trans hs, by rw [hv0, hv]⟩

theorem upd_self {α : Type} (f : Nat → α) (i : Nat) : upd f i (f i) = f := by
  funext j
  by_cases h : j = i
  · subst h; rw [upd_same]
  · rw [upd_ne _ _ h]

/-- `exists` without removal. -/
theorem Sees.exists {V : Type} {dv : V} {t : HT V Unit} {m : Word32 → Option V} (S : Sees dv t m) {h : Word32}
    (hn : h ≠ nullHash) : (∃ i, exists_ t h false = (t, some i) ∧ m h = some (t.vals i)) ∨
      (exists_ t h false = (t, none) ∧ m h = none) := by
  unfold exists_
  rcases probe_false_cases S.inv hn with ⟨i, hi, hs, hp⟩ | ⟨habs, hp⟩
  · left
    exact ⟨i, by rw [hp]; rfl, (S.rep h hn _).mpr ⟨i, hi, hs, rfl⟩⟩
  · right
    exact ⟨by rw [hp], (S.present hn).mpr habs⟩

theorem sees_init {V : Type} {dv : V} {n : Nat} {t : HT V Unit} (h : init dv () n = some t) : Sees dv t fun _ => none := by
  obtain ⟨h1, h2, h3, -⟩ := init_spec h
  refine ⟨h1, h3, fun h' hn v => ⟨fun e => (by simp at e), ?_⟩⟩
  rintro ⟨i, hi, hs, -⟩
  rw [h2 i hi] at hs
  exact absurd hs.symm hn

/-! ### Simulation -/

def Holds : Entry → Option Cell → Prop
  | .fn a u, x => x = some ⟨a, u⟩ ∧ a ≠ 0
  | .lib a, x => (∃ u, x = some ⟨a, u⟩) ∧ a ≠ 0
  | .int i, x => ∃ p, x = some ⟨p, constMark⟩ ∧ p.setWidth 32 = i
  | .float f, x => ∃ p, x = some ⟨p, 0xFFFFFFFD⟩ ∧ p.setWidth 32 = f

structure Rel (kind : Word32 → Kind) (funs : Nat → Word32 → Option Nat) (sp : Sp) (s : St) (m : Word32 → Option Cell)
    (cm : Nat → Word32 → Option (Option Nat)) : Prop where
  g : Sees zero s.g m
  c : ∀ d, Sees none (s.c d) (cm d)
  kinds : ∀ h e, sp.reg h = some e → e.kind = kind h
  ent : ∀ h, h ≠ nullHash → ∀ e, sp.reg h = some e → Holds e (m h)
  non : ∀ h, h ≠ nullHash → sp.reg h = none → m h = none ∨ m h = some zero ∧ sp.looked h = true
  fns : ∀ d h f, h ≠ nullHash → funs d h = some f → cm d h = some (some f)
  nofn : ∀ d h, h ≠ nullHash → funs d h = none → cm d h = none ∨
    cm d h = some none ∧ kind h = .lib ∧ (sp.looked h = true ∨ (sp.reg h).isSome = true)

theorem low_low (p : BitVec 64) (i : Word32) : (low p i).setWidth 32 = i := by
  unfold low
  rw [BitVec.setWidth_or, BitVec.setWidth_and]
  have : (0xFFFFFFFF00000000 : BitVec 64).setWidth 32 = 0#32 := by decide
  rw [this]
  simp

theorem touch_sees {f : Cell → Cell} {s s' : St} {h : Word32} {x : Cell} {m : Word32 → Option Cell} (S : Sees zero s.g m)
    (hn : h ≠ nullHash) (ht : touch f s h = some (s', x)) :
    x = f ((m h).getD zero) ∧ Sees zero s'.g (setM m h x) ∧ s'.c = s.c := by
  unfold touch at ht
  cases hg : getAsRaw zero () s.g h with
  | none => rw [hg] at ht; cases ht
  | some r =>
    obtain ⟨t, i⟩ := r
    rw [hg] at ht
    simp only [Option.some.injEq, Prod.mk.injEq] at ht
    obtain ⟨rfl, rfl⟩ := ht
    obtain ⟨h1, h2⟩ := S.get hn hg
    exact ⟨by rw [h1], h2 _, rfl⟩

variable {kind : Word32 → Kind} {funs : Nat → Word32 → Option Nat} {imps : Nat → List Nat}

/-- A registration. -/
theorem Rel.set {sp : Sp} {s s' : St} {m : Word32 → Option Cell} {cm : Nat → Word32 → Option (Option Nat)}
    (R : Rel kind funs sp s m cm) {h : Word32} {e : Entry} {x : Cell} (hk : e.kind = kind h)
    (hx : Holds e (some x)) (hg : Sees zero s'.g (setM m h x)) (hc : s'.c = s.c) :
    Rel kind funs (sp.set h e) s' (setM m h x) cm := by
  refine ⟨hg, fun d => by rw [hc]; exact R.c d, ?_, ?_, ?_, R.fns, ?_⟩
  · intro k e' he
    simp only [Sp.set] at he
    split at he
    · rename_i ek; subst ek; cases he; exact hk
    · exact R.kinds k e' he
  · intro k hk e' he
    simp only [Sp.set] at he
    unfold setM
    by_cases ek : k = h
    · rw [if_pos ek] at he ⊢; cases he; exact hx
    · rw [if_neg ek] at he ⊢; exact R.ent k hk e' he
  · intro k hk he
    simp only [Sp.set] at he ⊢
    unfold setM
    by_cases ek : k = h
    · rw [if_pos ek] at he; cases he
    · rw [if_neg ek] at he ⊢; exact R.non k hk he
  · intro d k hk hf
    rcases R.nofn d k hk hf with h1 | ⟨h1, h2, h3⟩
    · exact .inl h1
    · refine .inr ⟨h1, h2, ?_⟩
      rcases h3 with h3 | h3
      · exact .inl h3
      · right
        simp only [Sp.set]
        split
        · rfl
        · exact h3

/-- A look-up in the global registry. -/
theorem Rel.look {sp : Sp} {s s' : St} {m : Word32 → Option Cell} {cm : Nat → Word32 → Option (Option Nat)}
    (R : Rel kind funs sp s m cm) {h : Word32} (hn : h ≠ nullHash)
    (hg : Sees zero s'.g (setM m h ((m h).getD zero))) (hc : s'.c = s.c) :
    Rel kind funs (sp.look h) s' (setM m h ((m h).getD zero)) cm := by
  refine ⟨hg, fun d => by rw [hc]; exact R.c d, R.kinds, ?_, ?_, R.fns, ?_⟩
  · intro k hk e he
    have he : sp.reg k = some e := he
    have h1 := R.ent k hk e he
    unfold setM
    by_cases ek : k = h
    · rw [if_pos ek]
      subst ek
      have : ∃ c, m k = some c := by
        cases e with
        | fn a u => exact ⟨_, h1.1⟩
        | lib a => exact ⟨_, h1.1.choose_spec⟩
        | int i => exact ⟨_, h1.choose_spec.1⟩
        | float i => exact ⟨_, h1.choose_spec.1⟩
      obtain ⟨c, hc⟩ := this
      rw [hc] at h1 ⊢
      exact h1
    · rw [if_neg ek]; exact h1
  · intro k hk he
    have he : sp.reg k = none := he
    have h1 := R.non k hk he
    unfold setM
    simp only [Sp.look]
    by_cases ek : k = h
    · rw [if_pos ek, if_pos ek]
      subst ek
      right
      rcases h1 with h1 | ⟨h1, h2⟩
      · have he : sp.reg k = none := he
        simp [h1, he]
      · simp [h1, h2]
    · rw [if_neg ek, if_neg ek]; exact h1
  · intro d k hk hf
    rcases R.nofn d k hk hf with h1 | ⟨h1, h2, h3⟩
    · exact .inl h1
    · refine .inr ⟨h1, h2, ?_⟩
      rcases h3 with h3 | h3
      · left
        simp only [Sp.look]
        split
        · rename_i ek; subst ek; simp [h3]
        · exact h3
      · exact .inr h3

/-- What a look-up finds. -/
theorem Rel.cell {sp : Sp} {s : St} {m : Word32 → Option Cell} {cm : Nat → Word32 → Option (Option Nat)}
    (R : Rel kind funs sp s m cm) {h : Word32} (hn : h ≠ nullHash) :
    (∃ e, sp.reg h = some e ∧ e.kind = kind h ∧ Holds e (some ((m h).getD zero))) ∨
      (sp.reg h = none ∧ (m h).getD zero = zero) := by
  cases hr : sp.reg h with
  | none =>
    right
    rcases R.non h hn hr with h1 | ⟨h1, -⟩ <;> simp [h1]
  | some e =>
    left
    refine ⟨e, rfl, R.kinds h e hr, ?_⟩
    have h1 := R.ent h hn e hr
    have : ∃ c, m h = some c := by
      cases e with
      | fn a u => exact ⟨_, h1.1⟩
      | lib a => exact ⟨_, h1.1.choose_spec⟩
      | int i => exact ⟨_, h1.choose_spec.1⟩
      | float i => exact ⟨_, h1.choose_spec.1⟩
    obtain ⟨c, hc⟩ := this
    rw [hc] at h1 ⊢
    exact h1

theorem updC_self (c : Nat → HT (Option Nat) Unit) (n : Nat) : updC c n (c n) = c := by
  funext k
  unfold updC
  split
  · next h => rw [h]
  · rfl

theorem search_eq {sp : Sp} {s : St} {m : Word32 → Option Cell} {cm : Nat → Word32 → Option (Option Nat)}
    (R : Rel kind funs sp s m cm) {h : Word32} (hn : h ≠ nullHash) (hk : kind h = .fn) :
    ∀ ds, search s h ds = (s, firstDef funs h ds) := by
  intro ds
  induction ds with
  | nil => rfl
  | cons d ds ih =>
    unfold search firstDef
    rcases (R.c d).exists hn with ⟨i, h1, h2⟩ | ⟨h1, h2⟩
    · rw [h1]
      simp only [updC_self]
      cases hf : funs d h with
      | some f =>
        rw [R.fns d h f hn hf] at h2
        simp only [Option.some.injEq] at h2
        rw [← h2]
      | none =>
        rcases R.nofn d h hn hf with e | ⟨-, e, -⟩
        · rw [e] at h2; cases h2
        · rw [hk] at e; cases e
    · rw [h1]
      simp only [updC_self]
      cases hf : funs d h with
      | some f => rw [R.fns d h f hn hf] at h2; cases h2
      | none => exact ih

theorem step_rel {sp : Sp} {s s' : St} {m : Word32 → Option Cell} {cm : Nat → Word32 → Option (Option Nat)} {op : Op} {o : Out}
    (R : Rel kind funs sp s m cm) (hn : op.name ≠ nullHash) (hp : Proper kind funs sp op) (hs : step imps s op = some (s', o)) :
    o = (spec imps funs sp op).2 ∧ ∃ m' cm', Rel kind funs (spec imps funs sp op).1 s' m' cm' := by
  cases op with
  | regFn h a u =>
    obtain ⟨hk, ha⟩ := hp
    simp only [step, Option.map_eq_some_iff, Prod.mk.injEq] at hs
    obtain ⟨⟨s1, x⟩, ht, rfl, rfl⟩ := hs
    obtain ⟨hx, hg, hc⟩ := touch_sees R.g hn ht
    exact ⟨rfl, _, _, R.set hk.symm (by rw [hx]; exact ⟨rfl, ha⟩) hg hc⟩
  | regLib h a =>
    obtain ⟨hk, ha⟩ := hp
    simp only [step, Option.map_eq_some_iff, Prod.mk.injEq] at hs
    obtain ⟨⟨s1, x⟩, ht, rfl, rfl⟩ := hs
    obtain ⟨hx, hg, hc⟩ := touch_sees R.g hn ht
    exact ⟨rfl, _, _, R.set hk.symm (by rw [hx]; exact ⟨⟨_, rfl⟩, ha⟩) hg hc⟩
  | regInt h i =>
    simp only [step, Option.map_eq_some_iff, Prod.mk.injEq] at hs
    obtain ⟨⟨s1, x⟩, ht, rfl, rfl⟩ := hs
    obtain ⟨hx, hg, hc⟩ := touch_sees R.g hn ht
    exact ⟨rfl, _, _, R.set (e := .int i) (Eq.symm hp) (by rw [hx]; exact ⟨_, rfl, low_low _ _⟩) hg hc⟩
  | regFloat h i =>
    simp only [step, Option.map_eq_some_iff, Prod.mk.injEq] at hs
    obtain ⟨⟨s1, x⟩, ht, rfl, rfl⟩ := hs
    obtain ⟨hx, hg, hc⟩ := touch_sees R.g hn ht
    exact ⟨rfl, _, _, R.set (e := .float i) (Eq.symm hp) (by rw [hx]; exact ⟨_, rfl, low_low _ _⟩) hg hc⟩
  | call c h =>
    have hn : h ≠ nullHash := hn
    have hk : kind h = .fn := hp
    simp only [step, Option.map_eq_some_iff] at hs
    obtain ⟨⟨s1, x⟩, ht, hs⟩ := hs
    obtain ⟨hx, hg, hc⟩ := touch_sees R.g hn ht
    simp only [id] at hx
    have R' := R.look hn (hx ▸ hg) hc
    have he : (s1, if x.p = 0 then firstDef funs h (imps c) else .native x.p x.p2) = (s', o) := by
      rw [← hs]
      simp only [search_eq R' hn hk]
      split <;> rfl
    simp only [Prod.mk.injEq] at he
    obtain ⟨rfl, rfl⟩ := he
    refine ⟨?_, _, _, R'⟩
    simp only [spec]
    rcases R.cell hn with ⟨e, hr, he, hh⟩ | ⟨hr, hz⟩
    · rw [hr]
      rw [hk] at he
      cases e with
      | fn a u =>
        obtain ⟨h1, h2⟩ := hh
        simp only [Option.some.injEq] at h1
        rw [hx, h1]
        exact if_neg h2
      | lib a => cases he
      | int a => cases he
      | float a => cases he
    · rw [hr, hx, hz]
      exact if_pos rfl
  | libCall h =>
    have hn : h ≠ nullHash := hn
    simp only [step, Option.map_eq_some_iff, Prod.mk.injEq] at hs
    obtain ⟨⟨s1, x⟩, ht, rfl, rfl⟩ := hs
    obtain ⟨hx, hg, hc⟩ := touch_sees R.g hn ht
    simp only [id] at hx
    have R' := R.look hn (hx ▸ hg) hc
    refine ⟨?_, _, _, R'⟩
    simp only [spec]
    have hk : kind h = .lib := hp
    rcases R.cell hn with ⟨e, hr, he, hh⟩ | ⟨hr, hz⟩
    · rw [hr]
      rw [hk] at he
      cases e with
      | fn a u => cases he
      | lib a =>
        obtain ⟨⟨u, h1⟩, h2⟩ := hh
        simp only [Option.some.injEq] at h1
        rw [hx, h1]
        exact if_neg h2
      | int a => cases he
      | float a => cases he
    · rw [hr, hx, hz]
      exact if_pos rfl
  | load h =>
    have hn : h ≠ nullHash := hn
    simp only [step, Option.map_eq_some_iff, Prod.mk.injEq] at hs
    obtain ⟨⟨s1, x⟩, ht, rfl, rfl⟩ := hs
    obtain ⟨hx, hg, hc⟩ := touch_sees R.g hn ht
    simp only [id] at hx
    have R' := R.look hn (hx ▸ hg) hc
    refine ⟨?_, _, _, R'⟩
    simp only [spec]
    have hk : kind h = .const := hp
    rcases R.cell hn with ⟨e, hr, he, hh⟩ | ⟨hr, hz⟩
    · rw [hr]
      rw [hk] at he
      cases e with
      | fn a u => cases he
      | lib a => cases he
      | int a =>
        obtain ⟨p, h1, rfl⟩ := hh
        simp only [Option.some.injEq] at h1
        rw [hx, h1]
        have e1 : (constMark : BitVec 64) &&& constMark = constMark := by decide
        have e2 : (constMark : BitVec 64) &&& 3 = 0 := by decide
        refine (if_pos e1).trans ?_
        show Out.value ((constMark : BitVec 64) &&& 3) _ = _
        rw [e2]
      | float a =>
        obtain ⟨p, h1, rfl⟩ := hh
        simp only [Option.some.injEq] at h1
        rw [hx, h1]
        have e1 : (0xFFFFFFFD : BitVec 64) &&& constMark = constMark := by decide
        have e2 : (0xFFFFFFFD : BitVec 64) &&& 3 = 1 := by decide
        refine (if_pos e1).trans ?_
        show Out.value ((0xFFFFFFFD : BitVec 64) &&& 3) _ = _
        rw [e2]
    · rw [hr, hx, hz]
      rfl
  | host c h =>
    have hn : h ≠ nullHash := hn
    obtain ⟨h0, hp⟩ := hp
    simp only [step] at hs
    rw [if_neg h0] at hs
    cases hg : getAsRaw none () (s.c c) h with
    | none => rw [hg] at hs; cases hs
    | some r =>
      obtain ⟨t, i⟩ := r
      rw [hg] at hs
      simp only at hs
      obtain ⟨hv, hset⟩ := (R.c c).get hn hg
      have hself := hset (t.vals i)
      rw [upd_self] at hself
      have ht : ({ t with vals := t.vals } : HT (Option Nat) Unit) = t := rfl
      rw [ht] at hself
      cases hf : funs c h with
      | some f =>
        rw [R.fns c h f hn hf] at hv
        simp only [Option.getD_some] at hv
        rw [hv] at hs hself
        simp only [Option.some.injEq, Prod.mk.injEq] at hs
        obtain ⟨rfl, rfl⟩ := hs
        simp only [spec, hf]
        refine ⟨trivial, m, fun d => if d = c then setM (cm c) h (some f) else cm d, ?_⟩
        refine ⟨R.g, ?_, R.kinds, R.ent, R.non, ?_, ?_⟩
        · intro d
          simp only [updC]
          by_cases hd : d = c
          · rw [if_pos hd, if_pos hd]; exact hself
          · rw [if_neg hd, if_neg hd]; exact R.c d
        · intro d k f' hk hfk
          by_cases hd : d = c
          · rw [if_pos hd]
            subst hd
            unfold setM
            by_cases ek : k = h
            · rw [if_pos ek]; subst ek; rw [hf] at hfk; exact congrArg some hfk
            · rw [if_neg ek]; exact R.fns d k f' hk hfk
          · rw [if_neg hd]; exact R.fns d k f' hk hfk
        · intro d k hk hfk
          by_cases hd : d = c
          · rw [if_pos hd]
            subst hd
            unfold setM
            by_cases ek : k = h
            · subst ek; rw [hf] at hfk; cases hfk
            · rw [if_neg ek]; exact R.nofn d k hk hfk
          · rw [if_neg hd]; exact R.nofn d k hk hfk
      | none =>
        have hk : kind h = .lib := by
          rcases hp with hp | hp
          · rw [hf] at hp; cases hp
          · exact hp
        have hv' : t.vals i = none := by
          rw [hv]
          rcases R.nofn c h hn hf with e | ⟨e, -⟩ <;> simp [e]
        rw [hv'] at hs hself
        simp only [Option.map_eq_some_iff, Prod.mk.injEq] at hs
        obtain ⟨⟨s1, x⟩, ht, rfl, rfl⟩ := hs
        obtain ⟨hx, hg, hc⟩ := touch_sees (s := { s with c := updC s.c c t }) R.g hn ht
        simp only [id] at hx
        simp only [spec, hf]
        refine ⟨?_, setM m h ((m h).getD zero), fun d => if d = c then setM (cm c) h none else cm d, ?_⟩
        · rcases R.cell hn with ⟨e, hr, he, hh⟩ | ⟨hr, hz⟩
          · rw [hr]
            rw [hk] at he
            cases e with
            | fn a u => cases he
            | lib a =>
              obtain ⟨⟨u, h1⟩, h2⟩ := hh
              simp only [Option.some.injEq] at h1
              rw [hx, h1]
              exact if_neg h2
            | int a => cases he
            | float a => cases he
          · rw [hr, hx, hz]
            exact if_pos rfl
        · have R0 : Rel kind funs sp { g := s.g, c := s.c } m cm := R
          have R1 := R0.look (s' := { g := s1.g, c := s.c }) hn (hx ▸ hg) rfl
          refine ⟨R1.g, ?_, R1.kinds, R1.ent, R1.non, ?_, ?_⟩
          · intro d
            rw [hc]
            simp only [updC]
            by_cases hd : d = c
            · rw [if_pos hd, if_pos hd]; exact hself
            · rw [if_neg hd, if_neg hd]; exact R.c d
          · intro d k f' hk hfk
            by_cases hd : d = c
            · rw [if_pos hd]
              subst hd
              unfold setM
              by_cases ek : k = h
              · subst ek; rw [hf] at hfk; cases hfk
              · rw [if_neg ek]; exact R.fns d k f' hk hfk
            · rw [if_neg hd]; exact R.fns d k f' hk hfk
          · intro d k hk' hfk
            by_cases hd : d = c
            · rw [if_pos hd]
              subst hd
              unfold setM
              by_cases ek : k = h
              · subst ek
                rw [if_pos rfl]
                refine .inr ⟨rfl, hk, ?_⟩
                simp only [Sp.look, if_true]
                cases hr : sp.reg k <;> simp
              · rw [if_neg ek]; exact R1.nofn d k hk' hfk
            · rw [if_neg hd]; exact R1.nofn d k hk' hfk
  | getFunction c h =>
    have hn : h ≠ nullHash := hn
    refine ⟨?_, m, cm, ?_⟩
    · simp only [step, spec] at hs ⊢
      rcases (R.c c).exists hn with ⟨i, h1, h2⟩ | ⟨h1, h2⟩
      · rw [h1] at hs
        simp only [Option.some.injEq, Prod.mk.injEq] at hs
        obtain ⟨-, rfl⟩ := hs
        cases hf : funs c h with
        | some f =>
          rw [R.fns c h f hn hf] at h2
          simp only [Option.some.injEq] at h2
          rw [← h2]
        | none =>
          rcases R.nofn c h hn hf with e | ⟨e, -⟩
          · rw [e] at h2; cases h2
          · rw [e] at h2
            simp only [Option.some.injEq] at h2
            rw [← h2]
      · rw [h1] at hs
        simp only [Option.some.injEq, Prod.mk.injEq] at hs
        obtain ⟨-, rfl⟩ := hs
        cases hf : funs c h with
        | some f => rw [R.fns c h f hn hf] at h2; cases h2
        | none => rfl
    · simp only [step] at hs
      rcases (R.c c).exists hn with ⟨i, h1, h2⟩ | ⟨h1, h2⟩ <;> rw [h1] at hs <;>
        simp only [Option.some.injEq, Prod.mk.injEq, updC_self] at hs <;> obtain ⟨rfl, -⟩ := hs <;> exact R
  | isFunction c h =>
    have hl : sp.looked h = false := hp
    have hn : h ≠ nullHash := hn
    simp only [step, spec] at hs ⊢
    have e1 : (exists_ s.g h false).2.isSome = (sp.reg h).isSome := by
      rcases R.g.exists hn with ⟨i, h1, h2⟩ | ⟨h1, h2⟩
      · rw [h1]
        cases hr : sp.reg h with
        | some e => rfl
        | none =>
          rcases R.non h hn hr with e | ⟨-, e⟩
          · rw [e] at h2; cases h2
          · rw [hl] at e; cases e
      · rw [h1]
        cases hr : sp.reg h with
        | none => rfl
        | some e =>
          have := R.ent h hn e hr
          rw [h2] at this
          cases e with
          | fn a u => cases this.1
          | lib a => cases this.1.choose_spec
          | int i => cases this.choose_spec.1
          | float i => cases this.choose_spec.1
    have k1 : (exists_ s.g h false).1 = s.g := by
      rcases R.g.exists hn with ⟨i, h1, -⟩ | ⟨h1, -⟩ <;> rw [h1]
    have k2 : (exists_ (s.c c) h false).1 = s.c c := by
      rcases (R.c c).exists hn with ⟨i, h1, -⟩ | ⟨h1, -⟩ <;> rw [h1]
    rw [e1, k1, k2, updC_self] at hs
    by_cases hr : (sp.reg h).isSome = true
    · rw [if_pos hr] at hs ⊢
      simp only [Option.some.injEq, Prod.mk.injEq] at hs
      obtain ⟨rfl, rfl⟩ := hs
      exact ⟨rfl, m, cm, R⟩
    · rw [if_neg hr] at hs ⊢
      have e2 : (exists_ (s.c c) h false).2.isSome = (funs c h).isSome := by
        rcases (R.c c).exists hn with ⟨i, h1, h2⟩ | ⟨h1, h2⟩
        · rw [h1]
          cases hf : funs c h with
          | some f => rfl
          | none =>
            rcases R.nofn c h hn hf with e | ⟨-, -, e⟩
            · rw [e] at h2; cases h2
            · rcases e with e | e
              · rw [hl] at e; cases e
              · exact absurd e hr
        · rw [h1]
          cases hf : funs c h with
          | none => rfl
          | some f => rw [R.fns c h f hn hf] at h2; cases h2
      rw [e2] at hs
      simp only [Option.some.injEq, Prod.mk.injEq] at hs
      obtain ⟨rfl, rfl⟩ := hs
      exact ⟨rfl, m, cm, R⟩

theorem run_rel : ∀ (ops : List Op) {sp : Sp} {s s' : St} {m : Word32 → Option Cell} {cm : Nat → Word32 → Option (Option Nat)}
    {os : List Out}, Rel kind funs sp s m cm → ProperRun kind imps funs sp ops → run imps s ops = some (s', os) →
    os = specRun imps funs sp ops
  | [], sp, s, s', m, cm, os, _, _, hr => by
    simp only [run, Option.some.injEq, Prod.mk.injEq] at hr
    rw [← hr.2]; rfl
  | op :: ops, sp, s, s', m, cm, os, R, hp, hr => by
    obtain ⟨h1, h2, h3⟩ := hp
    simp only [run] at hr
    cases hs : step imps s op with
    | none => rw [hs] at hr; cases hr
    | some r =>
      obtain ⟨s1, o⟩ := r
      rw [hs] at hr
      simp only at hr
      obtain ⟨ho, m', cm', R'⟩ := step_rel R h1 h2 hs
      cases hrr : run imps s1 ops with
      | none => rw [hrr] at hr; cases hr
      | some r =>
        obtain ⟨s2, os2⟩ := r
        rw [hrr] at hr
        simp only [Option.some.injEq, Prod.mk.injEq] at hr
        rw [← hr.2, ho, run_rel ops R' h3 hrr]
        rfl

/-! ### The tables at the start -/

theorem loadFns_sees : ∀ (hs : List Word32) (n : Nat) {t t' : HT (Option Nat) Unit} {m : Word32 → Option (Option Nat)},
    (∀ h ∈ hs, h ≠ nullHash) → Sees none t m → loadFns hs n t = some t' →
    Sees none t' fun h => match ((hs.zipIdx n).filter fun x => x.1 = h).getLast? with
      | some x => some (some x.2)
      | none => m h
  | [], n, t, t', m, _, S, hl => by
    simp only [loadFns, Option.some.injEq] at hl
    subst hl
    simpa using S
  | k :: hs, n, t, t', m, hn, S, hl => by
    simp only [loadFns] at hl
    cases hg : getAsRaw none () t k with
    | none => rw [hg] at hl; cases hl
    | some r =>
      obtain ⟨t1, i⟩ := r
      rw [hg] at hl
      simp only at hl
      have h1 := (S.get (hn k (by simp)) hg).2 (some n)
      have h2 := loadFns_sees hs (n + 1) (fun h hh => hn h (by simp [hh])) h1 hl
      refine cast (congrArg _ ?_) h2
      funext h
      rw [List.zipIdx_cons]
      by_cases e : k = h
      · rw [List.filter_cons_of_pos (by simpa using e), List.getLast?_cons]
        cases hl : (List.filter (fun x => decide (x.1 = h)) (hs.zipIdx (n + 1))).getLast? with
        | none => simp [setM, e]
        | some x => simp
      · rw [List.filter_cons_of_neg (by simpa using e)]
        cases hl : (List.filter (fun x => decide (x.1 = h)) (hs.zipIdx (n + 1))).getLast? with
        | none => simp [setM, Ne.symm e]
        | some x => simp

theorem newContext_sees {hs : List Word32} {t : HT (Option Nat) Unit} (hn : ∀ h ∈ hs, h ≠ nullHash)
    (hc : newContext hs = some t) : Sees none t fun h => (lastIndex h hs).map some := by
  unfold newContext at hc
  cases hi : init (none : Option Nat) () 0 with
  | none => rw [hi] at hc; cases hc
  | some t0 =>
    rw [hi] at hc
    simp only at hc
    refine cast (congrArg _ ?_) (loadFns_sees hs 0 hn (sees_init hi) hc)
    funext h
    unfold lastIndex
    cases (List.filter (fun x => decide (x.1 = h)) (hs.zipIdx 0)).getLast? <;> rfl

/-- Nothing registered, nothing looked up. -/
def Sp.start : Sp := ⟨fun _ => none, fun _ => false⟩

/-- **C72 (partial).**  Over any history of registrations, calls from scripts, calls from the host, loads of
constants and questions about functions, if every name is used for one purpose and `sys::isFunction` is
not asked for names that were looked up in vain, every operation does what the last registration of
its name, or the function table of the contexts, says. -/
theorem C72_history_partial {tabs : Nat → List Word32} {n : Nat} {s s' : St} {ops : List Op} {os : List Out}
    (hg : init zero () n = some s.g) (hc : ∀ d, newContext (tabs d) = some (s.c d)) (hh : ∀ d, ∀ h ∈ tabs d, h ≠ nullHash)
    (hp : ProperRun kind imps (fun d h => lastIndex h (tabs d)) .start ops) (hr : run imps s ops = some (s', os)) :
    os = specRun imps (fun d h => lastIndex h (tabs d)) .start ops := by
  refine run_rel ops (m := fun _ => none) (cm := fun d h => (lastIndex h (tabs d)).map some) ?_ hp hr
  refine ⟨sees_init hg, fun d => newContext_sees (hh d) (hc d), (fun h e he => by cases he), (fun h _ e he => by cases he),
    fun h _ _ => .inl rfl, ?_, ?_⟩
  · intro d h f _ hf
    show (lastIndex h (tabs d)).map some = _
    rw [show lastIndex h (tabs d) = some f from hf]; rfl
  · intro d h _ hf
    exact .inl (by rw [show lastIndex h (tabs d) = none from hf]; rfl)

/-! ### What the hypotheses exclude -/

/-- **C72 fails for constants that are called.**  `lib::CONSTANT()` in a script jumps to the value of the
constant, taken as an address. -/
theorem C72_constant_called {n : Nat} {s s' : St} {h i : Word32} {os : List Out} (hg : init zero () n = some s.g) (hn : h ≠ nullHash)
    (hi : i ≠ 0) (hr : run imps s [.regInt h i, .libCall h] = some (s', os)) : os = [.done, .lib (i.setWidth 64)] := by
  simp only [run, step] at hr
  cases h1 : touch (fun x => ⟨low x.p i, 0 ||| constMark⟩) s h with
  | none => rw [h1] at hr; cases hr
  | some r1 =>
    obtain ⟨s1, x1⟩ := r1
    rw [h1] at hr
    simp only [Option.map_some] at hr
    cases h2 : touch id s1 h with
    | none => rw [h2] at hr; cases hr
    | some r2 =>
      obtain ⟨s2, x2⟩ := r2
      rw [h2] at hr
      simp only [Option.map_some, Option.some.injEq, Prod.mk.injEq] at hr
      obtain ⟨e1, g1, -⟩ := touch_sees (sees_init hg) hn h1
      obtain ⟨e2, -, -⟩ := touch_sees g1 hn h2
      have hx : x2.p = i.setWidth 64 := by
        rw [e2, e1]
        simp [setM, low, zero]
      rw [← hr.2, hx, if_neg]
      intro e
      apply hi
      have := congrArg (BitVec.setWidth 32) e
      simpa using this

end Wrench.Registry
