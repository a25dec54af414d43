import Verif.Tables.Run

/-
C56: script hash tables are maps from keys to values, shared by everything that holds them, through any
script of indexings, names, initializers, `_exists`, `_remove` and assignments, whatever blocks the tables
move through.
-/
namespace Wrench.Tables

open HashTable

/-- The value a specification value is represented by (tables are numbered in order of creation). -/
def same : Val → Spec.V → Prop
  | .int w, .int w' => w = w'
  | .float w, .float w' => w = w'
  | .str bs, .str bs' => bs = bs'
  | .tbl o, .tbl o' => o = o'
  | _, _ => False

theorem same_toVal (a : Spec.V) : same (toVal a) a := by cases a <;> rfl

/-- Every script the specification speaks about ends with every variable holding the value specified,
unless a table had to grow beyond the largest size. -/
theorem C56_tables_partial (ss : List Stmt) (A : Spec.St) (h : Spec.run Spec.start ss = some A) :
    run start ss = .error .full ∨
    ∃ σ, run start ss = .ok σ ∧ ∀ n, same (σ.var n) (A.var n) := by
  have := run_sim ss start_sim h
  cases hr : run start ss with
  | error e => rw [hr] at this; left; rw [show e = Err.full from this]
  | ok σ =>
    rw [hr] at this
    have S : Sim σ A := this
    exact Or.inr ⟨σ, rfl, fun n => by rw [S.var n]; exact same_toVal _⟩

/-- Reference chains through superseded blocks never exceed what is followed, and no table dangles. -/
theorem C56_no_fault (ss : List Stmt) (A : Spec.St) (h : Spec.run Spec.start ss = some A) :
    ∀ e, run start ss = .error e → e = .full := by
  intro e he
  rcases C56_tables_partial ss A h with h1 | ⟨σ, h1, _⟩
  · rw [h1] at he; cases he; rfl
  · rw [h1] at he; cases he

theorem spec_run_append (ss ts : List Stmt) : ∀ A, Spec.run A (ss ++ ts) =
    (Spec.run A ss).bind fun B => Spec.run B ts := by
  induction ss with
  | nil => intro A; rfl
  | cons s ss ih =>
    intro A
    simp only [List.cons_append, Spec.run, Option.bind_eq_bind]
    cases Spec.exec A s with
    | none => rfl
    | some B => exact ih B

/-- Literals. -/
inductive Lit where
  | int (w : Word32)
  | str (bs : List Byte)

def Lit.ex : Lit → Ex
  | .int w => .int w
  | .str bs => .str bs

def Lit.hash : Lit → Word32
  | .int w => w
  | .str bs => wrHash bs

def Lit.v : Lit → Spec.V
  | .int w => .int w
  | .str bs => .str bs

theorem touch_here (A : Spec.St) (o : Nat) (h : Word32) : (A.touch o h).2 = .at_ (.el o h) := rfl

theorem touch_var (A : Spec.St) (o : Nat) (h : Word32) : (A.touch o h).1.var = A.var := by
  simp only [Spec.St.touch]
  cases (A.tab o).ent h <;> rfl

theorem spec_index_lit {A : Spec.St} {t o : Nat} (k : Lit) (ht : A.var t = .tbl o)
    (hk : k.hash ≠ 0xABABABAB#32) :
    Spec.eval A (.ix (.var t) k.ex) = some (A.touch o k.hash) := by
  have hu : Spec.usable k.hash = some k.hash := by unfold Spec.usable; rw [if_neg hk]
  cases k with
  | int w =>
    simp only [Lit.hash] at hu
    simp [Spec.eval, Lit.ex, Spec.index, Spec.Opd.read, Spec.direct, Spec.V.isFloat, Spec.St.read, ht,
      Spec.hash, hu, Lit.hash]
  | str bs =>
    simp only [Lit.hash] at hu
    simp [Spec.eval, Lit.ex, Spec.index, Spec.Opd.read, Spec.direct, Spec.V.isFloat, Spec.St.read, ht,
      Spec.hash, hu, Lit.hash]

/-- What is stored is what is found: after any script leaving a table in `t`, and with any other
variable `u` holding the same table, `t[k] = v; x = u[k];` leaves `v` in `x`. -/
theorem C56_store_load (ss : List Stmt) (A : Spec.St) (h : Spec.run Spec.start ss = some A)
    (t u x o : Nat) (ht : A.var t = .tbl o) (hu : A.var u = .tbl o) (k : Lit)
    (hk : k.hash ≠ 0xABABABAB#32) (w : Word32) :
    let s := ss ++ [.assign false (.ix (.var t) k.ex) (.int w), .assign false (.var x) (.ix (.var u) k.ex)]
    run start s = .error .full ∨ ∃ σ, run start s = .ok σ ∧ σ.var x = .int w := by
  intro s
  have hs : ∃ B, Spec.run Spec.start s = some B ∧ B.var x = .int w := by
    rw [spec_run_append, h]
    simp only [Option.bind_some, Spec.run, Spec.exec, Option.bind_eq_bind]
    rw [show Spec.eval A (.int w) = some (A, .val (.int w)) from rfl]
    simp only [Option.bind_some, spec_index_lit k ht hk, Spec.assign, Spec.Opd.read, touch_here,
      Option.bind_eq_bind, Option.pure_def]
    have hB : ((A.touch o k.hash).1.write (.int w) (.el o k.hash)).var u = .tbl o := by
      show (A.touch o k.hash).1.var u = _
      rw [touch_var, hu]
    have he : (((A.touch o k.hash).1.write (.int w) (.el o k.hash)).tab o).ent k.hash = .is (.int w) := by
      simp [Spec.St.write, Spec.St.setTab, Spec.Table.set]
    rw [spec_index_lit k hB hk]
    simp only [Option.bind_some, touch_here]
    rw [show ∀ C : Spec.St, Spec.eval C (.var x) = some (C, .at_ (.var x)) from fun _ => rfl]
    generalize ((A.touch o k.hash).1.write (.int w) (.el o k.hash)) = B at *
    have htouch : (B.touch o k.hash).1 = B := by simp only [Spec.St.touch, he]
    rw [htouch]
    simp only [Spec.St.read, he, Option.bind_some]
    exact ⟨_, rfl, by simp [Spec.St.write]⟩
  obtain ⟨B, hB, hx⟩ := hs
  rcases C56_tables_partial s B hB with h1 | ⟨σ, h1, h2⟩
  · exact Or.inl h1
  · refine Or.inr ⟨σ, h1, ?_⟩
    have := h2 x
    rw [hx] at this
    cases hv : σ.var x with
    | int w' => rw [hv] at this; rw [show w' = w from this]
    | float _ => rw [hv] at this; exact absurd this (by simp [same])
    | str _ => rw [hv] at this; exact absurd this (by simp [same])
    | tbl _ => rw [hv] at this; exact absurd this (by simp [same])
    | ref _ => rw [hv] at this; exact absurd this (by simp [same])
    | mem _ => rw [hv] at this; exact absurd this (by simp [same])

/-- … and a key whose hash is another keeps its value. -/
theorem C56_other_key (ss : List Stmt) (A : Spec.St) (h : Spec.run Spec.start ss = some A)
    (t u x o : Nat) (ht : A.var t = .tbl o) (hu : A.var u = .tbl o) (k k2 : Lit)
    (hk : k.hash ≠ 0xABABABAB#32) (hk2 : k2.hash ≠ 0xABABABAB#32) (hne : k2.hash ≠ k.hash) (w : Word32)
    (v : Spec.V) (hv : (A.tab o).ent k2.hash = .is v) :
    let s := ss ++ [.assign false (.ix (.var t) k.ex) (.int w), .assign false (.var x) (.ix (.var u) k2.ex)]
    run start s = .error .full ∨ ∃ σ, run start s = .ok σ ∧ same (σ.var x) v := by
  intro s
  have hs : ∃ B, Spec.run Spec.start s = some B ∧ B.var x = v := by
    rw [spec_run_append, h]
    simp only [Option.bind_some, Spec.run, Spec.exec, Option.bind_eq_bind]
    rw [show Spec.eval A (.int w) = some (A, .val (.int w)) from rfl]
    simp only [Option.bind_some, spec_index_lit k ht hk, Spec.assign, Spec.Opd.read, touch_here,
      Option.bind_eq_bind, Option.pure_def]
    have hB : ((A.touch o k.hash).1.write (.int w) (.el o k.hash)).var u = .tbl o := by
      show (A.touch o k.hash).1.var u = _
      rw [touch_var, hu]
    have he : (((A.touch o k.hash).1.write (.int w) (.el o k.hash)).tab o).ent k2.hash = .is v := by
      rw [touch_write]
      simp [Spec.St.write, Spec.St.setTab, Spec.Table.set, hne, hv]
    rw [spec_index_lit k2 hB hk2]
    simp only [Option.bind_some, touch_here]
    rw [show ∀ C : Spec.St, Spec.eval C (.var x) = some (C, .at_ (.var x)) from fun _ => rfl]
    generalize ((A.touch o k.hash).1.write (.int w) (.el o k.hash)) = B at *
    have htouch : (B.touch o k2.hash).1 = B := by simp only [Spec.St.touch, he]
    rw [htouch]
    simp only [Spec.St.read, he, Option.bind_some]
    exact ⟨_, rfl, by simp [Spec.St.write]⟩
  obtain ⟨B, hB, hx⟩ := hs
  rcases C56_tables_partial s B hB with h1 | ⟨σ, h1, h2⟩
  · exact Or.inl h1
  · exact Or.inr ⟨σ, h1, hx ▸ h2 x⟩

/-! ### Concrete scripts -/

def a_ : List Byte := [97#8]
def b_ : List Byte := [98#8]

/-- The value of a variable after a script. -/
def after (ss : List Stmt) (n : Nat) : Option Val :=
  match run start ss with
  | .ok σ => some (σ.var n)
  | .error _ => none

/-- … and in the specification. -/
def expected (ss : List Stmt) (n : Nat) : Option Spec.V := (Spec.run Spec.start ss).map fun A => A.var n

/-- How many blocks a table has left behind. -/
def blocks (ss : List Stmt) (o : Nat) : Option Nat :=
  match run start ss with
  | .ok σ => (σ.tab o).map fun t : HT Val Val => t.fwds.length
  | .error _ => none

/-- The keys kept (for iteration) in the slots of `h`. -/
def keysAt (ss : List Stmt) (o : Nat) (h : Word32) : Option (List Val) :=
  match run start ss with
  | .ok σ => (σ.tab o).map fun t : HT Val Val => (List.range t.mod).filterMap fun i =>
      if t.slots i = h then some (t.keys i) else none
  | .error _ => none

/-- `t = { "a" : 1, 2 : 3 }; t[7] = 70; t[5] = 50; u = t; u["b"] = 9; x = t["b"]; y = t._exists( 2 );
t._remove( 2 ); z = t._exists( 2 ); v.a.b = 4; w = v.a.b;` (`t` is variable 0). -/
def sample : List Stmt :=
  [.table (.var 0) [(.str a_, .int 1), (.int 2, .int 3)],
   .assign false (.ix (.var 0) (.int 7)) (.int 70),
   .assign false (.ix (.var 0) (.int 5)) (.int 50),
   .assign false (.var 1) (.var 0),
   .assign false (.ix (.var 1) (.str b_)) (.int 9),
   .assign false (.var 2) (.ix (.var 0) (.str b_)),
   .exists_ (.var 3) (.var 0) (.int 2),
   .remove (.var 0) (.int 2),
   .exists_ (.var 4) (.var 0) (.int 2),
   .assign false (.name (.name (.var 5) (wrHash a_)) (wrHash b_)) (.int 4),
   .assign false (.var 6) (.name (.name (.var 5) (wrHash a_)) (wrHash b_)),
   .assign false (.var 7) (.ix (.var 0) (.int 7))]

/-- The hypotheses of `C56_tables_partial` are met by `sample`, which makes tables grow. -/
example : expected sample 2 = some (.int 9) ∧ expected sample 3 = some (.int 1) ∧
    expected sample 4 = some (.int 0) ∧ expected sample 6 = some (.int 4) ∧
    expected sample 7 = some (.int 70) := by decide +kernel

example : after sample 2 = some (.int 9) ∧ after sample 3 = some (.int 1) ∧
    after sample 4 = some (.int 0) ∧ after sample 6 = some (.int 4) ∧ after sample 7 = some (.int 70) := by
  decide +kernel

/-- `t` has gone through more than one block. -/
example : blocks sample 0 = some 2 := by decide +kernel

/-- An operand evaluated before the growth still designates its element: `t[1] = t[k]` where `t[k]` makes
the table grow while the destination is already on the stack. -/
def growing : List Stmt :=
  [.assign false (.name (.var 0) 1) (.int 11),
   .assign false (.name (.var 0) 2) (.int 22),
   .assign true (.ix (.var 0) (.int 1)) (.ix (.var 0) (.int 3)),
   .assign true (.ix (.var 0) (.int 2)) (.ix (.var 0) (.int 6)),
   .assign false (.var 1) (.ix (.var 0) (.int 1)),
   .assign false (.var 2) (.ix (.var 0) (.int 2))]

example : expected growing 1 = some (.int 0) ∧ after growing 1 = some (.int 0) ∧
    expected growing 2 = some (.int 0) ∧ after growing 2 = some (.int 0) ∧
    blocks growing 0 = some 2 ∧ blocks (growing.take 2) 0 = some 1 := by decide +kernel

/-! ### Where the code is surprising -/

/-- `t["a"] = 5; u = { "b" : t["a"] }; t["a"] = 6; x = u["b"];`: the initializer stores a reference to the
element, and `u["b"]` follows `t["a"]`.  (`u["b"] = t["a"]` would have stored 5.) -/
theorem C56_initializer_aliases :
    after [.assign false (.ix (.var 0) (.str a_)) (.int 5),
      .table (.var 1) [(.str b_, .ix (.var 0) (.str a_))],
      .assign false (.ix (.var 0) (.str a_)) (.int 6),
      .assign false (.var 2) (.ix (.var 1) (.str b_))] 2 = some (.int 6) ∧
    after [.assign false (.ix (.var 0) (.str a_)) (.int 5),
      .assign false (.ix (.var 1) (.str b_)) (.ix (.var 0) (.str a_)),
      .assign false (.ix (.var 0) (.str a_)) (.int 6),
      .assign false (.var 2) (.ix (.var 1) (.str b_))] 2 = some (.int 5) := by decide +kernel

/-- `x["a"]["b"] = 5; y = x["a"]["b"];` loses the 5, `x.a.b = 5; y = x.a.b;` does not. -/
theorem C56_nested_index_lost :
    after [.assign false (.ix (.ix (.var 0) (.str a_)) (.str b_)) (.int 5),
      .assign false (.var 1) (.ix (.ix (.var 0) (.str a_)) (.str b_))] 1 = some (.int 0) ∧
    after [.assign false (.name (.name (.var 0) (wrHash a_)) (wrHash b_)) (.int 5),
      .assign false (.var 1) (.name (.name (.var 0) (wrHash a_)) (wrHash b_))] 1 = some (.int 5) := by
  decide +kernel

/-- `t[1.5] = 3;` on a table replaces the table. -/
theorem C56_float_key_replaces :
    after [.empty (.var 0), .assign false (.ix (.var 0) (.float 0x3FC00000)) (.int 3)] 0 =
      some (.int 3) := by decide +kernel

/-- `_exists` of a table that is itself on the stack (the result of a call) is always 0. -/
theorem C56_exists_of_temporary (σ : St) (o : Nat) (ix : Val) :
    exists' σ (.tbl o) ix = .ok (.int 0) := rfl

/-- A string and the number that is its hash are the same key: `t["a"] = 5; x = t[hash];`. -/
theorem C56_hash_is_key :
    after [.assign false (.ix (.var 0) (.str a_)) (.int 5),
      .assign false (.var 1) (.ix (.var 0) (.int (wrHash a_)))] 1 = some (.int 5) := by decide +kernel

/-- The keys kept for iteration: after `t = {1:3, 2:4}; t[t[1]] = 0;` where the table grows, the key of
the new entry is a reference, not 3. -/
theorem C56_key_reference :
    keysAt [.table (.var 0) [(.int 1, .int 3), (.int 2, .int 4)],
      .assign false (.ix (.var 0) (.ix (.var 0) (.int 1))) (.int 0)] 0 3 =
      some [.ref (.el 0 2 1)] := by decide +kernel

end Wrench.Tables
