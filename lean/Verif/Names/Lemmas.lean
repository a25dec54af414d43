import Verif.Names.Spec
import Mathlib.Data.List.Basic
import Mathlib.Data.List.Nodup

/-
Slots follow the list of declared names.
-/
namespace Wrench.Names

open Spec

/-- The hash of the global `x`. -/
def gh (x : Name) : Word32 := hashStr (colons ++ x)

theorem fold_ascii (t : Name) (h : ∀ b ∈ t, b ≠ 0#8 ∧ b.toNat < 128) (z : Word32) :
    t.foldl (fun h b => fnvRound h (b.setWidth 32)) z =
    (t.takeWhile (· != 0#8)).foldl (fun h b => fnvRound h (b.signExtend 32)) z := by
  induction t generalizing z with
  | nil => simp
  | cons b t ih =>
    have hb := h b (by simp)
    have : b.signExtend 32 = b.setWidth 32 := by
      apply BitVec.signExtend_eq_setWidth_of_msb_false
      have h2 := hb.2
      rw [BitVec.msb_eq_decide, decide_eq_false_iff_not]
      omega
    rw [List.takeWhile_cons, if_pos (by simpa using hb.1)]
    simp only [List.foldl_cons, this]
    exact ih (fun b hb => h b (by simp [hb])) _

theorem hashStr_ascii (t : Name) (h : ∀ b ∈ t, b ≠ 0#8 ∧ b.toNat < 128) : wrHash t = hashStr t :=
  fold_ascii t h _

theorem find_map {f : Name → Word32} {x : Name} {l : List Name}
    (hi : ∀ y ∈ l, f y = f x → y = x) : find (f x) (l.map f) = l.idxOf x := by
  induction l with
  | nil => rfl
  | cons y l ih =>
    have ih := ih (fun z hz => hi z (by simp [hz]))
    simp only [find, List.map_cons, List.findIdx_cons, List.idxOf_cons] at ih ⊢
    by_cases e : y = x
    · subst e; simp
    · have : ¬ f y = f x := fun e' => e (hi y (by simp) e')
      simp only [beq_eq_false_iff_ne.mpr this, beq_eq_false_iff_ne.mpr e, cond_false]
      rw [ih]

theorem put_mem {f : Name → Word32} {x : Name} {l : List Name}
    (hm : x ∈ l) : put (l.map f) (l.idxOf x) (f x) = l.map f := by
  have hl : l.idxOf x < l.length := List.idxOf_lt_length_iff.mpr hm
  unfold put
  rw [if_pos (by simpa using hl)]
  apply List.ext_getElem (by simp)
  intro i h1 h2
  rw [List.getElem_set]
  split
  · rename_i e; subst e; simp
  · rfl

theorem put_new {f : Name → Word32} {x : Name} {l : List Name}
    (hm : x ∉ l) : put (l.map f) (l.idxOf x) (f x) = (l ++ [x]).map f := by
  have hl : l.idxOf x = l.length := List.idxOf_eq_length_iff.mpr hm
  unfold put
  rw [if_neg (by simp [hl])]
  simp

theorem merge_sub (s a : List Word32) (h : ∀ x ∈ a, x ∈ s) :
    a.foldl (fun s h => if h ∈ s then s else s ++ [h]) s = s := by
  induction a with
  | nil => rfl
  | cons x a ih =>
    simp only [List.foldl_cons, if_pos (h x (by simp))]
    exact ih (fun y hy => h y (by simp [hy]))

theorem merge_new (s t : List Word32) (h : (s ++ t).Nodup) :
    t.foldl (fun s h => if h ∈ s then s else s ++ [h]) s = s ++ t := by
  induction t generalizing s with
  | nil => simp
  | cons x t ih =>
    have hx : x ∉ s := by
      intro hx
      exact (List.nodup_append.mp h).2.2 x hx x (by simp) rfl
    rw [List.foldl_cons, if_neg hx, ih (s ++ [x]) (by simpa using h)]
    simp

theorem append_eq (b a : BC) (h : ∀ x ∈ a.space, x ∈ b.space) :
    append b a = ⟨b.space, b.loads ++ a.loads⟩ := by
  unfold append; rw [merge_sub _ _ h]

theorem append_same (S : List Word32) (xs ys : List Load) :
    append ⟨S, xs⟩ ⟨S, ys⟩ = ⟨S, xs ++ ys⟩ := append_eq _ _ (fun _ hx => hx)

/-! ### Environments -/

/-- More has been declared. -/
def Ext (e e' : Env) : Prop := e.locals <+: e'.locals ∧ e.globals <+: e'.globals

theorem Ext.refl (e : Env) : Ext e e := ⟨List.prefix_rfl, List.prefix_rfl⟩

theorem Ext.trans {a b c : Env} (h : Ext a b) (k : Ext b c) : Ext a c :=
  ⟨h.1.trans k.1, h.2.trans k.2⟩

/-- The variable meant exists. -/
def Valid (e : Env) : Ref → Prop
  | .loc x => x ∈ e.locals
  | .glob x => x ∈ e.globals
  | .fn _ => True

/-- The instruction for a meaning. -/
def enc (e : Env) (r : Ref) : Load := r.load e.locals e.globals

theorem idxOf_prefix {l m : List Name} {x : Name} (h : l <+: m) (hx : x ∈ l) :
    m.idxOf x = l.idxOf x := by
  obtain ⟨t, rfl⟩ := h
  rw [List.idxOf_append_of_mem hx]

theorem Valid.ext {e e' : Env} {r : Ref} (h : Ext e e') (v : Valid e r) : Valid e' r := by
  cases r with
  | loc x => exact h.1.subset v
  | glob x => exact h.2.subset v
  | fn t => trivial

theorem enc_ext {e e' : Env} {r : Ref} (h : Ext e e') (v : Valid e r) : enc e' r = enc e r := by
  cases r with
  | loc x => simp only [enc, Ref.load, idxOf_prefix h.1 v]
  | glob x => simp only [enc, Ref.load, idxOf_prefix h.2 v]
  | fn t => rfl

theorem map_enc_ext {e e' : Env} {rs : List Ref} (h : Ext e e') (v : ∀ r ∈ rs, Valid e r) :
    rs.map (enc e') = rs.map (enc e) :=
  List.map_congr_left fun r hr => enc_ext h (v r hr)

/-- The tables of the compiler hold the declared names. -/
structure Rel (N : List Name) (c : Cfg) (e : Env) (G S : List Word32) : Prop where
  glob : G = e.globals.map gh
  loc : c.top = false → S = e.locals.map hashStr
  inl : ∀ x ∈ e.locals, x ∈ N
  ing : ∀ x ∈ e.globals, x ∈ N
  nd : e.locals.Nodup
  main : c.top = true → e.locals = []

variable {N : List Name} {c : Cfg}

theorem t2_glob (hN : HashOk N) {l : Lab} (hl : l.name ∈ N) :
    wrHash (if l.tok.take 2 = colons then l.tok else colons ++ l.tok) = gh l.name := by
  have ha : ∀ b ∈ colons ++ l.name, b ≠ 0#8 ∧ b.toNat < 128 := by
    intro b hb
    rcases List.mem_append.mp hb with hb | hb
    · have : b = 58#8 := by simpa [colons] using hb
      subst this; decide
    · exact (hN.shape _ hl).2 b hb
  have : (if l.tok.take 2 = colons then l.tok else colons ++ l.tok) = colons ++ l.name := by
    unfold Lab.tok
    cases l.glob
    · simp [(hN.shape _ hl).1]
    · simp [colons]
  rw [this, hashStr_ascii _ ha]; rfl

theorem ascii_find_glob (hN : HashOk N) {e : Env} {G S : List Word32} (R : Rel N c e G S) {x : Name}
    (hx : x ∈ N) : find (gh x) G = e.globals.idxOf x := by
  rw [R.glob]
  exact find_map fun y hy h => hN.glob y (R.ing y hy) x hx h

theorem addGlobal_sim (hN : HashOk N) {nv allow : Bool} {e : Env} {G S : List Word32} {b : BC}
    (R : Rel N c e G S) {l : Lab} (hl : l.name ∈ N) (hg : (c.top || l.glob) = true) :
    match resolve c nv allow e l with
    | .ok (e', r) => ∃ G' i, addGlobal c nv G b l.tok false l.var allow = some (G', b.push (enc e' r), i) ∧
        Rel N c e' G' S ∧ Ext e e' ∧ Valid e' r ∧ e'.locals = e.locals
    | .err => addGlobal c nv G b l.tok false l.var allow = none
    | .hidden => True := by
  have hf := ascii_find_glob hN R hl
  have hlen : G.length = e.globals.length := by rw [R.glob]; simp
  unfold resolve addGlobal
  simp only [t2_glob hN hl, hf, hlen, hg, if_true, Bool.not_false, Bool.true_and]
  by_cases hm : l.name ∈ e.globals
  · have hlt : e.globals.idxOf l.name < e.globals.length := List.idxOf_lt_length_iff.mpr hm
    rw [if_pos hm]
    rw [if_neg (by simp [hlt])]
    have hp : put G (e.globals.idxOf l.name) (gh l.name) = G := by rw [R.glob]; exact put_mem hm
    refine ⟨G, e.globals.idxOf l.name, ?_, R, Ext.refl e, hm, rfl⟩
    simp [hp, enc, Ref.load]
  · have he : e.globals.idxOf l.name = e.globals.length := List.idxOf_eq_length_iff.mpr hm
    rw [if_neg hm]
    unfold undeclared
    simp only [he, Nat.le_refl, decide_true, Bool.and_true]
    by_cases hv : (nv && !l.var) = true
    · simp only [hv, if_true]
      by_cases ha : (allow && !c.enumMember l.tok) = true
      · simp only [ha, if_true]
        exact ⟨G, 0, rfl, R, Ext.refl e, trivial, trivial⟩
      · simp only [ha, Bool.false_eq_true, if_false]
    · simp only [hv, Bool.false_eq_true, if_false]
      have hp : put G e.globals.length (gh l.name) = (e.globals ++ [l.name]).map gh := by
        rw [R.glob, ← he]; exact put_new hm
      refine ⟨_, e.globals.length, ?_, ⟨hp, R.loc, R.inl, ?_, R.nd, R.main⟩, ⟨List.prefix_rfl, List.prefix_append ..⟩, ?_, trivial⟩
      · simp [enc, Ref.load, List.idxOf_append_of_notMem hm]
      · intro x hx
        rcases List.mem_append.mp hx with hx | hx
        · exact R.ing x hx
        · rw [List.mem_singleton.mp hx]; exact hl
      · simp [Valid]

theorem addLocal_sim (hN : HashOk N) {nv allow : Bool} {e : Env} {G : List Word32} {b : BC}
    (R : Rel N c e G b.space) {l : Lab} (hl : l.name ∈ N) (hg : (c.top || l.glob) = false) :
    match resolve c nv allow e l with
    | .ok (e', r) => ∃ b' i, addLocal c nv G b l.tok false l.var allow = some (G, b', i) ∧
        b'.loads = b.loads ++ [enc e' r] ∧
        Rel N c e' G b'.space ∧ Ext e e' ∧ Valid e' r
    | .err => addLocal c nv G b l.tok false l.var allow = none
    | .hidden => True := by
  obtain ⟨ht, hgl⟩ := Bool.or_eq_false_iff.mp hg
  have htok : l.tok = l.name := by simp [Lab.tok, hgl]
  have hS := R.loc ht
  have hf : find (hashStr l.name) b.space = e.locals.idxOf l.name := by
    rw [hS]; exact find_map fun y hy h => hN.loc y (R.inl y hy) _ hl h
  have hlen : b.space.length = e.locals.length := by rw [hS]; simp
  have hlenG : G.length = e.globals.length := by rw [R.glob]; simp
  have h2 := (hN.shape _ hl).1
  unfold resolve addLocal
  simp only [htok, hf, hlen, hlenG, hgl, ht, Bool.not_false, Bool.true_and, Bool.or_self, Bool.false_eq_true, if_false]
  by_cases hm : l.name ∈ e.locals
  · have hlt : e.locals.idxOf l.name < e.locals.length := List.idxOf_lt_length_iff.mpr hm
    rw [if_pos hm, if_pos hlt]
    have hp : put b.space (e.locals.idxOf l.name) (hashStr l.name) = b.space := by
      rw [hS]; exact put_mem hm
    refine ⟨_, _, rfl, ?_, ?_, Ext.refl e, hm⟩
    · simp [enc, Ref.load]
    · simp only [hp]; exact R
  · have he : e.locals.idxOf l.name = e.locals.length := List.idxOf_eq_length_iff.mpr hm
    rw [if_neg hm]
    have hun : (undeclared c nv allow e l ({ e with locals := e.locals ++ [l.name] }, .loc l.name)) =
        undeclared c nv allow e l ({ e with locals := e.locals ++ [l.name] }, .loc l.name) := rfl
    -- the global looked for
    have hj : find (hashStr (if l.var || decide (l.name.take 2 = colons) then l.name
        else colons ++ l.name)) G = if l.var then e.globals.length else e.globals.idxOf l.name := by
      cases hv : l.var
      · simp only [Bool.false_or, h2, decide_false]
        exact ascii_find_glob hN R hl
      · simp only [Bool.true_or, if_true]
        rw [R.glob]
        unfold find
        rw [List.findIdx_eq_length_of_false]
        · simp
        · intro w hw
          obtain ⟨y, hy, rfl⟩ := List.mem_map.mp hw
          simp only [beq_eq_false_iff_ne]
          exact fun e' => hN.cross _ hl y (R.ing y hy) e'.symm
    rw [hj]
    have hlt' : (decide ((if l.var then e.globals.length else e.globals.idxOf l.name) < e.globals.length)) =
        (!l.var && decide (l.name ∈ e.globals)) := by
      cases l.var
      · simp [List.idxOf_lt_length_iff]
      · simp
    rw [hlt']
    simp only [he, Nat.lt_irrefl, if_false]
    have hc : ((!c.isStruct || l.var) && (!l.var && decide (l.name ∈ e.globals))) =
        (!l.var && !c.isStruct && decide (l.name ∈ e.globals)) := by
      cases l.var <;> cases c.isStruct <;> simp
    rw [hc]
    by_cases hgm : (!l.var && !c.isStruct && decide (l.name ∈ e.globals)) = true
    · simp only [hgm, if_true]
      have hv : l.var = false := by
        cases hv : l.var
        · rfl
        · simp [hv] at hgm
      have hmg : l.name ∈ e.globals := by
        have := (Bool.and_eq_true_iff.mp hgm).2
        simpa using this
      refine ⟨_, _, rfl, ?_, R, Ext.refl e, hmg⟩
      simp [hv, BC.push, enc, Ref.load]
    · simp only [hgm, Bool.false_eq_true, if_false]
      unfold undeclared
      simp only [htok]
      by_cases hv : (nv && !l.var) = true
      · simp only [hv, if_true]
        by_cases ha : (allow && !c.enumMember l.name) = true
        · simp only [ha, if_true]
          exact ⟨_, _, rfl, rfl, R, Ext.refl e, trivial⟩
        · simp only [ha, Bool.false_eq_true, if_false]
      · simp only [hv, Bool.false_eq_true, if_false]
        have hp : put b.space e.locals.length (hashStr l.name) = (e.locals ++ [l.name]).map hashStr := by
          rw [hS, ← he]; exact put_new hm
        refine ⟨_, _, rfl, ?_, ⟨R.glob, fun _ => hp, ?_, R.ing, ?_, fun h => (by simp [ht] at h)⟩, ⟨List.prefix_append .., List.prefix_rfl⟩, ?_⟩
        · simp [enc, Ref.load, List.idxOf_append_of_notMem hm]
        · intro x hx
          rcases List.mem_append.mp hx with hx | hx
          · exact R.inl x hx
          · rw [List.mem_singleton.mp hx]; exact hl
        · rw [List.nodup_append]
          exact ⟨R.nd, by simp, fun a ha b hb => by
            rw [List.mem_singleton.mp hb]; rintro rfl; exact hm ha⟩
        · simp [Valid]

/-- One label of an expression.  In the main program the local space of the expression stays as it is. -/
theorem label_sim (hN : HashOk N) {nv allow : Bool} {e : Env} {G : List Word32} {b : BC}
    (R : Rel N c e G b.space) {l : Lab} (hl : l.name ∈ N) {cs : List Ctx} {i : Nat}
    (hi : cs[i]? = some (.label l)) :
    match resolve c nv allow e l with
    | .ok (e', r) => ∃ G' b', load c nv allow cs (G, b) i = some (G', b') ∧
        b'.loads = b.loads ++ [enc e' r] ∧ Rel N c e' G' b'.space ∧ Ext e e' ∧ Valid e' r ∧
        (∀ h ∈ b.space, h ∈ b'.space) ∧ (c.top = true → b'.space = b.space)
    | .err => load c nv allow cs (G, b) i = none
    | .hidden => True := by
  have hload : load c nv allow cs (G, b) i =
      if (c.top || l.glob) = true then
        (addGlobal c nv G b l.tok false l.var allow).map fun r => (r.1, r.2.1)
      else (addLocal c nv G b l.tok false l.var allow).map fun r => (r.1, r.2.1) := by
    unfold load
    rw [hi]
    simp only
    cases hg : l.glob
    · cases ht : c.top
      · simp
      · simp [addLocal, ht]
    · simp
  rw [hload]
  cases hg : (c.top || l.glob)
  · have := addLocal_sim hN (nv := nv) (allow := allow) R hl hg
    revert this
    cases resolve c nv allow e l with
    | ok p =>
      obtain ⟨e', r⟩ := p
      rintro ⟨b', i, h1, h2, h3, h4, h5⟩
      refine ⟨G, b', by simp [h1], h2, h3, h4, h5, ?_, ?_⟩
      · have ht := (Bool.or_eq_false_iff.mp hg).1
        intro h hh
        rw [h3.loc ht]; rw [R.loc ht] at hh
        exact (h4.1.map hashStr).subset hh
      · intro ht; simp [ht] at hg
    | err => intro h; simp [h]
    | hidden => intro _; trivial
  · have := addGlobal_sim hN (nv := nv) (allow := allow) (b := b) R hl hg
    revert this
    cases resolve c nv allow e l with
    | ok p =>
      obtain ⟨e', r⟩ := p
      rintro ⟨G', i, h1, h2, h3, h4, h5⟩
      exact ⟨G', b.push (enc e' r), by simp [h1], rfl, h2, h3, h4, fun h hh => hh, fun _ => rfl⟩
    | err => intro h; simp [h]
    | hidden => intro _; trivial

end Wrench.Names
