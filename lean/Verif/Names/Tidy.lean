import Verif.Names.Sim

/-
A rule for scripts under which nothing is `hidden`: with `var` required, `var` is only written at the
top level of an expression, not inside parentheses, indices, arguments, initializers or the post
expressions of a `for`, and a name declared by an expression (the body of a `for`) is not used in its
sub-expressions (its post expressions).
-/
namespace Wrench.Names

namespace Spec

mutual
/-- No `var` anywhere, `var` required. -/
def plainE : Expr → Bool
  | .mk relax _ items _ => !relax && plainI items

def plainI : Items → Bool
  | .nil => true
  | .label l rest => !l.var && plainI rest
  | .code subs rest => plainS subs && plainI rest
  | .other rest => plainI rest

def plainS : Subs → Bool
  | .nil => true
  | .cons e rest => plainE e && plainS rest
end

/-- The sub-expressions are plain. -/
def subsPlain : Items → Bool
  | .nil => true
  | .label _ rest => subsPlain rest
  | .code subs rest => plainS subs && subsPlain rest
  | .other rest => subsPlain rest

/-- The names written after `var` at the top level. -/
def vars : Items → List Name
  | .nil => []
  | .label l rest => if l.var then l.name :: vars rest else vars rest
  | .code _ rest => vars rest
  | .other rest => vars rest

/-- The names in the sub-expressions. -/
def subNames : Items → List Name
  | .nil => []
  | .label _ rest => subNames rest
  | .code subs rest => namesS subs ++ subNames rest
  | .other rest => subNames rest

def tidyE : Expr → Prop
  | .mk relax _ items _ => relax = false ∧ subsPlain items = true ∧ ∀ x ∈ vars items, x ∉ subNames items

/-- The names declared by statements. -/
def declared : Stmts → List Name
  | .nil => []
  | .expr (.mk _ _ items _) rest => vars items ++ declared rest
  | .temp x rest => x :: declared rest
  | .loop _ body rest => declared body ++ declared rest

def tidy : Stmts → Prop
  | .nil => True
  | .expr e rest => tidyE e ∧ tidy rest
  | .temp _ rest => tidy rest
  | .loop post body rest =>
    plainS post = true ∧ tidy body ∧ tidy rest ∧ ∀ x ∈ declared body, x ∉ namesS post

/-- The rule for a source. -/
def tidyT : List Top → Prop
  | [] => True
  | .code s :: rest => tidy s ∧ tidyT rest
  | .unit u :: rest => tidy u.body ∧ tidyT rest

end Spec

open Spec

variable {c : Cfg}

/-- Two environments that agree on the names in `P`. -/
def Agree (P : Name → Prop) (e e' : Env) : Prop :=
  ∀ x, P x → (x ∈ e.locals ↔ x ∈ e'.locals) ∧ (x ∈ e.globals ↔ x ∈ e'.globals)

theorem Res.bind_hidden {α β : Type} {r : Res α} {f : α → Res β} (h1 : r ≠ .hidden)
    (h2 : ∀ a, r = .ok a → f a ≠ .hidden) : r.bind f ≠ .hidden := by
  cases r with
  | ok a => exact h2 a rfl
  | err => simp [Res.bind]
  | hidden => exact absurd rfl h1

theorem known_plain {allow : Bool} {e : Env} {l : Lab} (hv : l.var = false) :
    known c true allow e l ≠ .hidden := by
  unfold known resolve undeclared
  simp only [hv, Bool.not_false, Bool.and_self, if_true]
  repeat' split
  all_goals simp [Res.bind]

theorem known_agree {allow : Bool} {e e' : Env} {l : Lab} (hv : l.var = false) {P : Name → Prop}
    (h : Agree P e e') (hl : P l.name) : known c true allow e l = known c true allow e' l := by
  obtain ⟨h1, h2⟩ := h _ hl
  unfold known resolve undeclared
  simp only [hv, Bool.not_false, Bool.and_self, if_true, h1, h2]
  repeat' split
  all_goals simp [Res.bind]

/-- The labels among contexts are plain. -/
def PlainCs (P : Name → Prop) (cs : List Spec.Item) : Prop := ∀ l, .label l ∈ cs → l.var = false ∧ P l.name

theorem fold_plain {allow : Bool} {e : Env} {P : Name → Prop} {cs : List Spec.Item} (h : PlainCs P cs) (order : List Nat) :
    ∀ rs, fold (knownItem c true allow e cs) rs order ≠ .hidden := by
  induction order with
  | nil => intro rs; simp [fold]
  | cons i is ih =>
    intro rs
    simp only [fold]
    refine Res.bind_hidden ?_ fun rs' _ => ih rs'
    unfold knownItem
    split
    · rename_i l hl
      exact Res.bind_hidden (known_plain (h l (List.mem_of_getElem? hl)).1) (by simp)
    · simp
    · simp

theorem fold_agree {allow : Bool} {e e' : Env} {P : Name → Prop} (hA : Agree P e e') {cs : List Spec.Item}
    (h : PlainCs P cs) (order : List Nat) :
    ∀ rs, fold (knownItem c true allow e cs) rs order = fold (knownItem c true allow e' cs) rs order := by
  induction order with
  | nil => intro rs; rfl
  | cons i is ih =>
    intro rs
    simp only [fold]
    have : knownItem c true allow e cs rs i = knownItem c true allow e' cs rs i := by
      unfold knownItem
      split
      · rename_i l hl
        have hp := h l (List.mem_of_getElem? hl)
        rw [known_agree hp.1 hA hp.2]
      · rfl
      · rfl
    rw [this]
    congr 1
    funext rs'
    exact ih rs'

mutual
theorem plainE_sim {e e' : Env} {P : Name → Prop} (hA : Agree P e e') (x : Expr) (hp : plainE x = true)
    (hn : ∀ y ∈ namesE x, P y) : knownE c true e x ≠ .hidden ∧ knownE c true e x = knownE c true e' x := by
  cases x with
  | mk relax allow items order =>
    simp only [plainE, Bool.and_eq_true, Bool.not_eq_true'] at hp
    obtain ⟨rfl, hp⟩ := hp
    obtain ⟨h1, h2, h3⟩ := plainI_sim hA items hp (by simpa [namesE] using hn)
    simp only [knownE, Bool.not_false, Bool.and_self]
    constructor
    · exact Res.bind_hidden h1 fun cs hcs => fold_plain (h3 cs hcs) order []
    · rw [← h2]
      generalize hk : knownI c true e items = k at h3
      cases k with
      | ok cs => exact fold_agree hA (h3 cs rfl) order []
      | err => rfl
      | hidden => rfl

theorem plainI_sim {e e' : Env} {P : Name → Prop} (hA : Agree P e e') (x : Items) (hp : plainI x = true)
    (hn : ∀ y ∈ namesI x, P y) : knownI c true e x ≠ .hidden ∧ knownI c true e x = knownI c true e' x ∧
      ∀ cs, knownI c true e x = .ok cs → PlainCs P cs := by
  cases x with
  | nil =>
    refine ⟨by simp [knownI], by simp [knownI], fun cs h => ?_⟩
    simp only [knownI, Res.ok.injEq] at h
    subst h
    exact fun l hl => by simp at hl
  | label l rest =>
    simp only [plainI, Bool.and_eq_true, Bool.not_eq_true'] at hp
    obtain ⟨h1, h2, h3⟩ := plainI_sim hA rest hp.2 (fun y hy => hn y (by simp [namesI, hy]))
    simp only [knownI, ← h2]
    refine ⟨Res.bind_hidden h1 (by simp), trivial, fun cs h => ?_⟩
    obtain ⟨cs', k1, k2⟩ := Res.bind_ok h
    simp only [Res.ok.injEq] at k2
    subst k2
    intro l' hl'
    rcases List.mem_cons.mp hl' with h | h
    · cases h; exact ⟨hp.1, hn _ (by simp [namesI])⟩
    · exact h3 cs' k1 l' h
  | other rest =>
    simp only [plainI] at hp
    obtain ⟨h1, h2, h3⟩ := plainI_sim hA rest hp (fun y hy => hn y (by simp [namesI, hy]))
    simp only [knownI, ← h2]
    refine ⟨Res.bind_hidden h1 (by simp), trivial, fun cs h => ?_⟩
    obtain ⟨cs', k1, k2⟩ := Res.bind_ok h
    simp only [Res.ok.injEq] at k2
    subst k2
    intro l' hl'
    rcases List.mem_cons.mp hl' with h | h
    · cases h
    · exact h3 cs' k1 l' h
  | code subs rest =>
    simp only [plainI, Bool.and_eq_true] at hp
    obtain ⟨s1, s2⟩ := plainS_sim hA subs hp.1 (fun y hy => hn y (by simp [namesI, hy]))
    obtain ⟨h1, h2, h3⟩ := plainI_sim hA rest hp.2 (fun y hy => hn y (by simp [namesI, hy]))
    simp only [knownI, ← h2, ← s2]
    refine ⟨Res.bind_hidden s1 fun _ _ => Res.bind_hidden h1 (by simp), trivial, fun cs h => ?_⟩
    obtain ⟨rs, _, k⟩ := Res.bind_ok h
    obtain ⟨cs', k1, k2⟩ := Res.bind_ok k
    simp only [Res.ok.injEq] at k2
    subst k2
    intro l' hl'
    rcases List.mem_cons.mp hl' with h | h
    · cases h
    · exact h3 cs' k1 l' h

theorem plainS_sim {e e' : Env} {P : Name → Prop} (hA : Agree P e e') (x : Subs) (hp : plainS x = true)
    (hn : ∀ y ∈ namesS x, P y) : knownS c true e x ≠ .hidden ∧ knownS c true e x = knownS c true e' x := by
  cases x with
  | nil => simp [knownS]
  | cons x rest =>
    simp only [plainS, Bool.and_eq_true] at hp
    obtain ⟨s1, s2⟩ := plainE_sim hA x hp.1 (fun y hy => hn y (by simp [namesS, hy]))
    obtain ⟨h1, h2⟩ := plainS_sim hA rest hp.2 (fun y hy => hn y (by simp [namesS, hy]))
    simp only [knownS, ← h2, ← s2]
    exact ⟨Res.bind_hidden s1 fun _ _ => Res.bind_hidden h1 (by simp), trivial⟩
end

/-- The contexts of the expression of a statement. -/
def TidyCs (e : Env) (V : List Name) (cs : List Spec.Item) : Prop :=
  (∀ l, .label l ∈ cs → l.var = true → l.name ∈ V) ∧
  ∀ subs rs, .code subs rs ∈ cs → plainS subs = true ∧ knownS c true e subs = .ok rs ∧
    ∀ y ∈ namesS subs, y ∉ V

theorem items_tidy {e : Env} {V : List Name} (x : Items) (hp : subsPlain x = true)
    (hV : ∀ y ∈ vars x, y ∈ V) (hn : ∀ y ∈ subNames x, y ∉ V) : knownI c true e x ≠ .hidden ∧
      ∀ cs, knownI c true e x = .ok cs → TidyCs (c := c) e V cs := by
  cases x with
  | nil =>
    refine ⟨by simp [knownI], fun cs h => ?_⟩
    simp only [knownI, Res.ok.injEq] at h
    subst h
    exact ⟨fun l hl => by simp at hl, fun s rs hs => by simp at hs⟩
  | label l rest =>
    obtain ⟨h1, h2⟩ := items_tidy rest (by simpa [subsPlain] using hp)
      (fun y hy => hV y (by simp only [vars]; split <;> simp [hy])) (by simpa [subNames] using hn)
    simp only [knownI]
    refine ⟨Res.bind_hidden h1 (by simp), fun cs h => ?_⟩
    obtain ⟨cs', k1, k2⟩ := Res.bind_ok h
    simp only [Res.ok.injEq] at k2
    subst k2
    refine ⟨fun l' hl' hv => ?_, fun su rs hs => ?_⟩
    · rcases List.mem_cons.mp hl' with h | h
      · cases h; exact hV _ (by simp [vars, hv])
      · exact (h2 cs' k1).1 l' h hv
    · rcases List.mem_cons.mp hs with h | h
      · cases h
      · exact (h2 cs' k1).2 su rs h
  | other rest =>
    obtain ⟨h1, h2⟩ := items_tidy rest (by simpa [subsPlain] using hp)
      (by simpa [vars] using hV) (by simpa [subNames] using hn)
    simp only [knownI]
    refine ⟨Res.bind_hidden h1 (by simp), fun cs h => ?_⟩
    obtain ⟨cs', k1, k2⟩ := Res.bind_ok h
    simp only [Res.ok.injEq] at k2
    subst k2
    refine ⟨fun l' hl' hv => ?_, fun su rs hs => ?_⟩
    · rcases List.mem_cons.mp hl' with h | h
      · cases h
      · exact (h2 cs' k1).1 l' h hv
    · rcases List.mem_cons.mp hs with h | h
      · cases h
      · exact (h2 cs' k1).2 su rs h
  | code subs rest =>
    simp only [subsPlain, Bool.and_eq_true] at hp
    obtain ⟨s1, _⟩ := plainS_sim (c := c) (e := e) (e' := e) (P := fun _ => True)
      (fun _ _ => ⟨Iff.rfl, Iff.rfl⟩) subs hp.1 (fun _ _ => trivial)
    obtain ⟨h1, h2⟩ := items_tidy rest hp.2
      (by simpa [vars] using hV) (fun y hy => hn y (by simp [subNames, hy]))
    simp only [knownI]
    refine ⟨Res.bind_hidden s1 fun _ _ => Res.bind_hidden h1 (by simp), fun cs h => ?_⟩
    obtain ⟨rs0, k0, k⟩ := Res.bind_ok h
    obtain ⟨cs', k1, k2⟩ := Res.bind_ok k
    simp only [Res.ok.injEq] at k2
    subst k2
    refine ⟨fun l' hl' hv => ?_, fun su rs hs => ?_⟩
    · rcases List.mem_cons.mp hl' with h | h
      · cases h
      · exact (h2 cs' k1).1 l' h hv
    · rcases List.mem_cons.mp hs with h | h
      · cases h; exact ⟨hp.1, k0, fun y hy => hn y (by simp [subNames, hy])⟩
      · exact (h2 cs' k1).2 su rs h

theorem resolve_agree {allow : Bool} {e e' : Env} {l : Lab} {r : Ref} {V : List Name}
    (h : resolve c true allow e l = .ok (e', r)) (hl : l.var = true → l.name ∈ V) :
    Agree (· ∉ V) e e' := by
  have hV : ∀ x, x ∉ V → l.var = true → x ≠ l.name := by
    rintro x hx hv rfl; exact hx (hl hv)
  unfold resolve undeclared at h
  intro x hx
  cases hv : l.var
  · simp only [hv, Bool.not_false, Bool.and_self, if_true] at h
    repeat' split at h
    all_goals first
      | (cases h; exact ⟨Iff.rfl, Iff.rfl⟩)
      | cases h
  · have hne := hV x hx hv
    simp only [hv, Bool.not_true, Bool.and_false, Bool.false_and, Bool.false_eq_true, if_false] at h
    repeat' split at h
    all_goals cases h
    all_goals simp [hne]

theorem resolve_hidden {nv allow : Bool} {e : Env} {l : Lab} : resolve c nv allow e l ≠ .hidden := by
  unfold resolve undeclared
  repeat' split
  all_goals simp

theorem Agree.trans {P : Name → Prop} {a b d : Env} (h : Agree P a b) (k : Agree P b d) : Agree P a d :=
  fun x hx => ⟨(h x hx).1.trans (k x hx).1, (h x hx).2.trans (k x hx).2⟩

theorem Agree.mono {P Q : Name → Prop} {a b : Env} (h : Agree P a b) (hq : ∀ x, Q x → P x) : Agree Q a b :=
  fun x hx => h x (hq x hx)

theorem Agree.refl {P : Name → Prop} (a : Env) : Agree P a a := fun _ _ => ⟨Iff.rfl, Iff.rfl⟩

theorem again_agree {e e' : Env} {P : Name → Prop} (hA : Agree P e e') {subs : Subs} {rs : List Ref}
    (hp : plainS subs = true) (hn : ∀ y ∈ namesS subs, P y) (hk : knownS c true e subs = .ok rs) :
    again c true e' subs rs = .ok rs := by
  have := (plainS_sim (c := c) hA subs hp hn).2
  unfold again
  rw [← this, hk]
  simp

theorem fold_tidy {allow : Bool} {e0 : Env} {V : List Name} {cs : List Spec.Item}
    (h : TidyCs (c := c) e0 V cs) (order : List Nat) : ∀ e rs, Agree (· ∉ V) e0 e →
    fold (item c true allow cs) (e, rs) order ≠ .hidden ∧
    ∀ e' rs', fold (item c true allow cs) (e, rs) order = .ok (e', rs') → Agree (· ∉ V) e0 e' := by
  induction order with
  | nil =>
    intro e rs hA
    refine ⟨by simp [fold], fun e' rs' hk => ?_⟩
    simp only [fold, Res.ok.injEq, Prod.mk.injEq] at hk
    obtain ⟨rfl, _⟩ := hk
    exact hA
  | cons i is ih =>
    intro e rs hA
    simp only [fold]
    have key : item c true allow cs (e, rs) i ≠ .hidden ∧
        ∀ p, item c true allow cs (e, rs) i = .ok p → Agree (· ∉ V) e0 p.1 := by
      unfold item
      split
      · rename_i l hl
        refine ⟨Res.bind_hidden resolve_hidden (by simp), fun p hp => ?_⟩
        obtain ⟨⟨e', r⟩, k1, k2⟩ := Res.bind_ok hp
        simp only [Res.ok.injEq] at k2
        subst k2
        exact hA.trans (resolve_agree k1 (h.1 l (List.mem_of_getElem? hl)))
      · rename_i su rs' hl
        obtain ⟨h1, h2, h3⟩ := h.2 su rs' (List.mem_of_getElem? hl)
        rw [again_agree hA h1 h3 h2]
        refine ⟨by simp [Res.bind], fun p hp => ?_⟩
        simp only [Res.bind, Res.ok.injEq] at hp
        subst hp
        exact hA
      · refine ⟨by simp, fun p hp => ?_⟩
        simp only [Res.ok.injEq] at hp
        subst hp
        exact hA
    refine ⟨Res.bind_hidden key.1 fun p hp => (ih p.1 p.2 (key.2 p hp)).1, fun e' rs' hk => ?_⟩
    obtain ⟨p, k1, k2⟩ := Res.bind_ok hk
    exact (ih p.1 p.2 (key.2 p k1)).2 e' rs' k2

theorem stmts_tidy (x : Stmts) (h : tidy x) : ∀ e rs, Spec.stmts c true e rs x ≠ .hidden ∧
    ∀ e' rs', Spec.stmts c true e rs x = .ok (e', rs') → Agree (· ∉ declared x) e e' := by
  induction x with
  | nil =>
    intro e rs
    refine ⟨by simp [Spec.stmts], fun e' rs' hk => ?_⟩
    simp only [Spec.stmts, Res.ok.injEq, Prod.mk.injEq] at hk
    obtain ⟨rfl, _⟩ := hk
    exact .refl _
  | expr x rest ih =>
    intro e rs
    obtain ⟨h1, h2⟩ := h
    cases x with
    | mk relax allow items order =>
      obtain ⟨rfl, t1, t2⟩ := h1
      have I := items_tidy (c := c) (e := e) (V := vars items) items t1 (fun _ hy => hy)
        (fun y hy hv => t2 y hv hy)
      have E : Spec.expr c true e (.mk false allow items order) ≠ .hidden ∧
          ∀ e' rs', Spec.expr c true e (.mk false allow items order) = .ok (e', rs') →
            Agree (· ∉ vars items) e e' := by
        simp only [Spec.expr, Bool.not_false, Bool.and_self]
        refine ⟨Res.bind_hidden I.1 fun cs hcs => (fold_tidy (I.2 cs hcs) order e [] (.refl e)).1,
          fun e' rs' hk => ?_⟩
        obtain ⟨cs, k1, k2⟩ := Res.bind_ok hk
        exact (fold_tidy (I.2 cs k1) order e [] (.refl e)).2 e' rs' k2
      simp only [Spec.stmts, declared]
      refine ⟨Res.bind_hidden E.1 fun p _ => (ih h2 p.1 _).1, fun e' rs' hk => ?_⟩
      obtain ⟨p, k1, k2⟩ := Res.bind_ok hk
      exact ((E.2 p.1 p.2 k1).mono (by simp_all)).trans (((ih h2 p.1 _).2 e' rs' k2).mono (by simp_all))
  | temp x rest ih =>
    intro e rs
    simp only [Spec.stmts, declared]
    refine ⟨(ih h _ _).1, fun e' rs' hk => ?_⟩
    refine Agree.trans ?_ (((ih h _ _).2 e' rs' hk).mono (by simp_all))
    intro y hy
    have hne : y ≠ x := by rintro rfl; exact hy (by simp)
    split
    · exact ⟨Iff.rfl, Iff.rfl⟩
    · simp [hne]
  | loop post body rest ih1 ih2 =>
    intro e rs
    obtain ⟨h1, h2, h3, h4⟩ := h
    simp only [Spec.stmts, declared]
    obtain ⟨p1, _⟩ := plainS_sim (c := c) (e := e) (e' := e) (P := fun _ => True) (.refl e) post h1
      (fun _ _ => trivial)
    have B := ih1 h2 e rs
    refine ⟨Res.bind_hidden p1 fun refs hr => Res.bind_hidden B.1 fun q hq => Res.bind_hidden ?_
      fun rs'' _ => (ih2 h3 q.1 _).1, fun e' rs' hk => ?_⟩
    · rw [again_agree (B.2 q.1 q.2 hq) h1 (fun y hy hd => h4 y hd hy) hr]; simp
    · obtain ⟨refs, _, k⟩ := Res.bind_ok hk
      obtain ⟨q, k1, k⟩ := Res.bind_ok k
      obtain ⟨rs2, _, k⟩ := Res.bind_ok k
      exact ((B.2 q.1 q.2 k1).mono (by simp_all)).trans (((ih2 h3 q.1 _).2 e' rs' k).mono (by simp_all))

theorem tops_tidy {enum : Name → Bool} (src : List Top) (h : tidyT src) : ∀ m,
    Spec.tops enum true m src ≠ .hidden := by
  induction src with
  | nil => intro m; simp [Spec.tops]
  | cons t src ih =>
    intro m
    cases t with
    | code s =>
      obtain ⟨h1, h2⟩ := h
      simp only [Spec.tops]
      exact Res.bind_hidden (stmts_tidy s h1 _ _).1 fun p _ => ih h2 _
    | unit u =>
      obtain ⟨h1, h2⟩ := h
      simp only [Spec.tops]
      refine Res.bind_hidden ?_ fun p _ => ih h2 _
      unfold Spec.unit
      exact Res.bind_hidden (stmts_tidy u.body h1 _ _).1 (by simp)

end Wrench.Names
