/-!
# The compiler and registry hash table `WRHashTable<T>` (`utils/utils.h` 284-434)

A node is a pair (hash, value); an unused node carries the reserved hash
`WRENCH_NULL_HASH`.  Reading `c_primeTable` beyond its last entry is undefined and is the
outcome `none`.
-/

namespace Wrench.Util.NameTable

/-- `WRENCH_NULL_HASH` (wrench.h), the mark of a free node. -/
def NULL : UInt32 := 0xABABABAB

/-- `c_primeTable` (utils.h 36-55).  The C array has no terminating 0. -/
def primes : List Nat :=
  [2, 5, 11, 17, 23, 31, 53, 97, 193, 389, 769, 1543, 3079, 6151, 12289, 24593, 49157]

/-- `m_mod` and `m_list` (utils.h 432-433). -/
structure Tbl (α : Type) where
  mod : Nat
  nodes : List (UInt32 × α)
deriving DecidableEq

variable {α : Type}

/-- `newArray` (utils.h 308-320); `d` is the value made by `T()`. -/
def newNodes (d : α) (n : Nat) : List (UInt32 × α) := List.replicate n (NULL, d)

/-- The constructor (utils.h 287-298): the first table size above the hint.  With a hint of
49157 or more the search leaves the array. -/
def new (d : α) (sizeHint : Nat) : Option (Tbl α) :=
  (primes.find? (fun p => decide (sizeHint < p))).map (fun p => ⟨p, newNodes d p⟩)

/-- `clear` (utils.h 336-341). -/
def clear (d : α) : Tbl α := ⟨2, newNodes d 2⟩

/-- `get`, `getItem` (utils.h 344-355): only the home slot is looked at. -/
def lookupAt (p : Nat) (nodes : List (UInt32 × α)) (k : UInt32) : Option α :=
  match nodes[k.toNat % p]? with
  | some (h, v) => if h = k then some v else none
  | none => none

def get (t : Tbl α) (k : UInt32) : Option α := lookupAt t.mod t.nodes k

/-- The hash stored in a slot. -/
def hashAt (nodes : List (UInt32 × α)) (i : Nat) : UInt32 := (nodes[i]?.map Prod.fst).getD NULL

/-- `remove` (utils.h 358-365). -/
def remove (t : Tbl α) (k : UInt32) : Tbl α :=
  match t.nodes[k.toNat % t.mod]? with
  | some (h, v) => if h = k then { t with nodes := t.nodes.set (k.toNat % t.mod) (NULL, v) } else t
  | none => t

/-- The copy loop of the growing part of `set` (utils.h 400-414); `none` is the `break`. -/
def rehash (p : Nat) : List (UInt32 × α) → List (UInt32 × α) → Option (List (UInt32 × α))
  | [], acc => some acc
  | (h, v) :: ns, acc =>
    if h = NULL then rehash p ns acc
    else if hashAt acc (h.toNat % p) ≠ NULL then none
    else rehash p ns (acc.set (h.toNat % p) (h, v))

/-- The sizes after `m` in the table (utils.h 383-390). -/
def primesAfter (m : Nat) : List Nat := (primes.dropWhile (· ≠ m)).drop 1

/-- `set` (utils.h 368-426).  The first argument lists the sizes after the current one, in the
order the growing loop tries them; when it is empty the next read leaves `c_primeTable`.
When a size fails the C code goes on with the next size without testing the home slot again;
here it is tested again, which gives the same answer because the table is unchanged. -/
def setFrom (d : α) : List Nat → Tbl α → UInt32 → α → Option (Tbl α)
  | ps, t, k, v =>
    if hashAt t.nodes (k.toNat % t.mod) = NULL ∨ hashAt t.nodes (k.toNat % t.mod) = k then
      some { t with nodes := t.nodes.set (k.toNat % t.mod) (k, v) }
    else match ps with
      | [] => none
      | p :: ps =>
        match rehash p t.nodes (newNodes d p) with
        | some n => setFrom d ps ⟨p, n⟩ k v
        | none => setFrom d ps t k v

def set (d : α) (t : Tbl α) (k : UInt32) (v : α) : Option (Tbl α) :=
  setFrom d (primesAfter t.mod) t k v

/-! ### Specification: a finite map -/

inductive Op (α : Type) where
  | set (k : UInt32) (v : α)
  | remove (k : UInt32)
  | clear

/-- The map a history of operations describes. -/
def Op.spec : Op α → (UInt32 → Option α) → UInt32 → Option α
  | .set k v, m => fun k' => if k' = k then some v else m k'
  | .remove k, m => fun k' => if k' = k then none else m k'
  | .clear, _ => fun _ => none

def specRun (ops : List (Op α)) (m : UInt32 → Option α) : UInt32 → Option α :=
  ops.foldl (fun m o => o.spec m) m

/-- Running an operation on the table. -/
def Op.run (d : α) : Op α → Tbl α → Option (Tbl α)
  | .set k v, t => NameTable.set d t k v
  | .remove k, t => some (NameTable.remove t k)
  | .clear, _ => some (NameTable.clear d)

def run (d : α) : List (Op α) → Tbl α → Option (Tbl α)
  | [], t => some t
  | o :: os, t => (o.run d t).bind (run d os)

/-- The operation stores under a key other than the reserved one. -/
def Op.Proper : Op α → Prop
  | .set k _ => k ≠ NULL
  | _ => True

/-! ### Invariant -/

/-- Every stored node sits in its home slot. -/
def Placed (p : Nat) (nodes : List (UInt32 × α)) : Prop :=
  nodes.length = p ∧ ∀ (i : Nat) (h : UInt32) (v : α), nodes[i]? = some (h, v) → h ≠ NULL → h.toNat % p = i

structure WF (t : Tbl α) : Prop where
  mem : t.mod ∈ primes
  placed : Placed t.mod t.nodes

theorem pos_of_mem {p : Nat} (h : p ∈ primes) : 0 < p := by
  have : ∀ q ∈ primes, 0 < q := by decide
  exact this p h

theorem placed_new (d : α) (p : Nat) : Placed p (newNodes d p) := by
  refine ⟨by simp [newNodes], ?_⟩
  intro i h v hi hn
  have := List.mem_of_getElem? hi
  simp only [newNodes, List.mem_replicate, Prod.mk.injEq] at this
  exact absurd this.2.1 hn

theorem lookup_new (d : α) (p : Nat) {k : UInt32} (hk : k ≠ NULL) : lookupAt p (newNodes d p) k = none := by
  unfold lookupAt
  cases h : (newNodes d p)[k.toNat % p]? with
  | none => rfl
  | some x =>
    have := List.mem_of_getElem? h
    simp only [newNodes, List.mem_replicate] at this
    obtain ⟨-, rfl⟩ := this
    simp only
    rw [if_neg (fun h => hk h.symm)]

theorem lookup_iff {p : Nat} {n : List (UInt32 × α)} (hp : Placed p n) {k : UInt32} (hk : k ≠ NULL) {v : α} :
    lookupAt p n k = some v ↔ (k, v) ∈ n := by
  constructor
  · intro h
    unfold lookupAt at h
    cases hx : n[k.toNat % p]? with
    | none => rw [hx] at h; cases h
    | some x =>
      obtain ⟨h', v'⟩ := x
      rw [hx] at h
      simp only at h
      split at h
      · rename_i he; subst he
        injection h with h; subst h
        exact List.mem_of_getElem? hx
      · cases h
  · intro h
    obtain ⟨i, hi⟩ := List.mem_iff_getElem?.mp h
    have := hp.2 i k v hi hk
    unfold lookupAt
    rw [this, hi]
    simp

theorem lookup_set_free {p : Nat} (hp0 : 0 < p) {n : List (UInt32 × α)} (hl : n.length = p) {k : UInt32} {v : α}
    (hfree : hashAt n (k.toNat % p) = NULL ∨ hashAt n (k.toNat % p) = k) {k' : UInt32} (hk' : k' ≠ NULL) :
    lookupAt p (n.set (k.toNat % p) (k, v)) k' = if k' = k then some v else lookupAt p n k' := by
  have hlt : k.toNat % p < n.length := by rw [hl]; exact Nat.mod_lt _ hp0
  unfold lookupAt
  by_cases hm : k'.toNat % p = k.toNat % p
  · rw [hm, List.getElem?_set_self hlt]
    simp only
    by_cases he : k' = k
    · rw [if_pos he, if_pos he.symm]
    · rw [if_neg he, if_neg (fun h => he h.symm)]
      unfold hashAt at hfree
      rw [List.getElem?_eq_getElem hlt] at hfree ⊢
      simp only [Option.map_some, Option.getD_some] at hfree
      simp only
      rw [if_neg]
      rcases hfree with h | h
      · rw [h]; exact fun h => hk' h.symm
      · rw [h]; exact fun h => he h.symm
  · have he : k' ≠ k := fun h => hm (by rw [h])
    rw [if_neg he, List.getElem?_set_ne (fun h => hm h.symm)]

theorem placed_set {p : Nat} {n : List (UInt32 × α)} (hp : Placed p n) {k : UInt32} {v : α} :
    Placed p (n.set (k.toNat % p) (k, v)) := by
  refine ⟨by simp [hp.1], ?_⟩
  intro i h w hi hn
  by_cases hm : k.toNat % p = i
  · subst hm
    rw [List.getElem?_set] at hi
    simp only [if_true] at hi
    split at hi
    · injection hi with hi
      injection hi with h1 _
      rw [h1]
    · cases hi
  · rw [List.getElem?_set_ne hm] at hi
    exact hp.2 i h w hi hn

theorem rehash_spec {p : Nat} (hp0 : 0 < p) : ∀ (ns acc n : List (UInt32 × α)), Placed p acc →
    rehash p ns acc = some n → Placed p n ∧ ∀ (k : UInt32), k ≠ NULL → ∀ v : α,
      lookupAt p n k = some v ↔ (k, v) ∈ ns ∨ lookupAt p acc k = some v
  | [], acc, n, hp, h => by
    simp only [rehash, Option.some.injEq] at h
    subst h
    exact ⟨hp, fun k hk v => by simp⟩
  | (h, v) :: ns, acc, n, hp, hr => by
    unfold rehash at hr
    by_cases hn : h = NULL
    · rw [if_pos hn] at hr
      obtain ⟨h1, h2⟩ := rehash_spec hp0 ns acc n hp hr
      refine ⟨h1, fun k hk w => ?_⟩
      rw [h2 k hk w, List.mem_cons]
      constructor
      · rintro (h3 | h3)
        · exact Or.inl (Or.inr h3)
        · exact Or.inr h3
      · rintro ((h3 | h3) | h3)
        · injection h3 with h3; exact absurd (h3.trans hn) hk
        · exact Or.inl h3
        · exact Or.inr h3
    · rw [if_neg hn] at hr
      split at hr
      · cases hr
      · rename_i hf
        have hf : hashAt acc (h.toNat % p) = NULL := Classical.byContradiction hf
        obtain ⟨h1, h2⟩ := rehash_spec hp0 ns _ n (placed_set hp) hr
        refine ⟨h1, fun k hk w => ?_⟩
        rw [h2 k hk w, lookup_set_free hp0 hp.1 (Or.inl hf) hk, List.mem_cons]
        by_cases he : k = h
        · subst he
          rw [if_pos rfl]
          have hno : lookupAt p acc k = none := by
            unfold lookupAt
            unfold hashAt at hf
            cases hx : acc[k.toNat % p]? with
            | none => rfl
            | some x =>
              rw [hx] at hf
              simp only [Option.map_some, Option.getD_some] at hf
              simp only
              rw [if_neg]
              rw [hf]; exact fun h => hk h.symm
          rw [hno]
          simp only [Option.some.injEq, Prod.mk.injEq, true_and, reduceCtorEq, or_false]
          constructor
          · rintro (h3 | h3)
            · exact Or.inr h3
            · exact Or.inl h3.symm
          · rintro (h3 | h3)
            · exact Or.inr h3.symm
            · exact Or.inl h3
        · rw [if_neg he]
          simp only [Prod.mk.injEq, he, false_and, false_or]

theorem primesAfter_sub {m p : Nat} (h : p ∈ primesAfter m) : p ∈ primes :=
  (List.dropWhile_sublist _).subset ((List.drop_sublist _ _).subset h)

/-- What a successful `set` does. -/
theorem setFrom_spec (d : α) {k : UInt32} (_hk : k ≠ NULL) (v : α) : ∀ (ps : List Nat) (t t' : Tbl α),
    (∀ p ∈ ps, p ∈ primes) → WF t → setFrom d ps t k v = some t' →
    WF t' ∧ ∀ k' : UInt32, k' ≠ NULL → get t' k' = if k' = k then some v else get t k' := by
  intro ps
  induction ps with
  | nil =>
    intro t t' _ hw h
    unfold setFrom at h
    split at h
    · rename_i hf
      injection h with h; subst h
      exact ⟨⟨hw.mem, placed_set hw.placed⟩, fun k' hk' =>
        lookup_set_free (pos_of_mem hw.mem) hw.placed.1 hf hk'⟩
    · cases h
  | cons p ps ih =>
    intro t t' hps hw h
    unfold setFrom at h
    split at h
    · rename_i hf
      injection h with h; subst h
      exact ⟨⟨hw.mem, placed_set hw.placed⟩, fun k' hk' =>
        lookup_set_free (pos_of_mem hw.mem) hw.placed.1 hf hk'⟩
    · have hp := hps p (by simp)
      have hps' : ∀ q ∈ ps, q ∈ primes := fun q hq => hps q (by simp [hq])
      simp only at h
      cases hr : rehash p t.nodes (newNodes d p) with
      | none => rw [hr] at h; exact ih t t' hps' hw h
      | some n =>
        rw [hr] at h
        obtain ⟨h1, h2⟩ := rehash_spec (pos_of_mem hp) _ _ _ (placed_new d p) hr
        obtain ⟨h3, h4⟩ := ih ⟨p, n⟩ t' hps' ⟨hp, h1⟩ h
        refine ⟨h3, fun k' hk' => ?_⟩
        rw [h4 k' hk']
        congr 1
        apply Option.ext
        intro w
        show lookupAt p n k' = some w ↔ lookupAt t.mod t.nodes k' = some w
        rw [h2 k' hk' w, lookup_new d p hk', lookup_iff hw.placed hk']
        simp

theorem remove_spec {t : Tbl α} (hw : WF t) (k : UInt32) :
    WF (remove t k) ∧ ∀ k' : UInt32, k' ≠ NULL → get (remove t k) k' = if k' = k then none else get t k' := by
  have hlt : k.toNat % t.mod < t.nodes.length := by
    rw [hw.placed.1]; exact Nat.mod_lt _ (pos_of_mem hw.mem)
  have hx := List.getElem?_eq_getElem hlt
  generalize t.nodes[k.toNat % t.mod] = x at hx
  obtain ⟨h, v⟩ := x
  unfold remove
  rw [hx]
  simp only
  by_cases he : h = k
  · subst he
    rw [if_pos rfl]
    refine ⟨⟨hw.mem, ⟨by simp [hw.placed.1], ?_⟩⟩, ?_⟩
    · intro i h' w hi hn
      by_cases hm : h.toNat % t.mod = i
      · subst hm
        simp only [List.getElem?_set_self hlt, Option.some.injEq, Prod.mk.injEq] at hi
        exact absurd hi.1.symm hn
      · simp only [List.getElem?_set_ne hm] at hi
        exact hw.placed.2 i h' w hi hn
    · intro k' hk'
      unfold get lookupAt
      by_cases hm : k'.toNat % t.mod = h.toNat % t.mod
      · simp only [hm, List.getElem?_set_self hlt, hx]
        rw [if_neg (fun h => hk' h.symm)]
        split
        · rfl
        · rename_i hne
          rw [if_neg (fun h => hne h.symm)]
      · have he : k' ≠ h := fun h => hm (by rw [h])
        simp only [List.getElem?_set_ne (fun h => hm h.symm), if_neg he]
  · rw [if_neg he]
    refine ⟨hw, fun k' hk' => ?_⟩
    split
    · rename_i hkk; subst hkk
      simp [get, lookupAt, hx, he]
    · rfl

theorem clear_spec (d : α) : WF (clear d : Tbl α) ∧ ∀ k' : UInt32, k' ≠ NULL → get (clear d : Tbl α) k' = none :=
  ⟨⟨by simp [clear, primes], placed_new d 2⟩, fun _ hk => lookup_new d 2 hk⟩

theorem op_spec (d : α) {o : Op α} (ho : o.Proper) {t t' : Tbl α} (hw : WF t) (h : o.run d t = some t')
    {m : UInt32 → Option α} (hm : ∀ k, k ≠ NULL → get t k = m k) :
    WF t' ∧ ∀ k, k ≠ NULL → get t' k = o.spec m k := by
  cases o with
  | set k v =>
    obtain ⟨h1, h2⟩ := setFrom_spec d ho v _ t t' (fun p hp => primesAfter_sub hp) hw h
    refine ⟨h1, fun k' hk' => ?_⟩
    rw [h2 k' hk', hm k' hk']; rfl
  | remove k =>
    injection h with h; subst h
    obtain ⟨h1, h2⟩ := remove_spec hw k
    refine ⟨h1, fun k' hk' => ?_⟩
    rw [h2 k' hk', hm k' hk']; rfl
  | clear =>
    injection h with h; subst h
    exact clear_spec d

theorem run_spec (d : α) : ∀ (ops : List (Op α)) (t t' : Tbl α) (m : UInt32 → Option α),
    (∀ o ∈ ops, o.Proper) → WF t → (∀ k, k ≠ NULL → get t k = m k) → run d ops t = some t' →
    WF t' ∧ ∀ k, k ≠ NULL → get t' k = specRun ops m k
  | [], t, t', m, _, hw, hm, h => by
    injection h with h; subst h; exact ⟨hw, hm⟩
  | o :: os, t, t', m, ho, hw, hm, h => by
    simp only [run] at h
    cases h1 : o.run d t with
    | none => rw [h1] at h; cases h
    | some t1 =>
      rw [h1] at h
      obtain ⟨h2, h3⟩ := op_spec d (ho o (by simp)) hw h1 hm
      exact run_spec d os t1 t' (o.spec m) (fun o' h' => ho o' (by simp [h'])) h2 h3 h

theorem new_spec (d : α) {hint : Nat} {t : Tbl α} (h : new d hint = some t) :
    WF t ∧ ∀ k, k ≠ NULL → get t k = none := by
  unfold new at h
  cases hf : primes.find? (fun p => decide (hint < p)) with
  | none => rw [hf] at h; cases h
  | some p =>
    rw [hf] at h
    injection h with h; subst h
    exact ⟨⟨List.mem_of_find?_eq_some hf, placed_new d p⟩, fun k hk => lookup_new d p hk⟩

/-- **C42 (partial).**  After any history of `set`, `remove` and `clear` on a new table that
stays inside the prime table, looking up any key other than the reserved hash gives the last
value stored under it, or nothing if there is none.  Missing: histories that outgrow the prime
table (`C42_eighteen_keys_undefined`; exactly when is `set_defined_iff`), and the reserved
hash (`C42_reserved_key`). -/
theorem C42_table_is_map_partial (d : α) (hint : Nat) (t t' : Tbl α) (ops : List (Op α))
    (hnew : new d hint = some t) (hp : ∀ o ∈ ops, o.Proper) (hrun : run d ops t = some t') :
    ∀ k : UInt32, k ≠ NULL → get t' k = specRun ops (fun _ => none) k := by
  obtain ⟨hw, hm⟩ := new_spec d hnew
  exact (run_spec d ops t t' _ hp hw hm hrun).2

/-! ### When does `set` stay inside the prime table? -/

/-- The keys in use. -/
def Stored (t : Tbl α) (k : UInt32) : Prop := k ≠ NULL ∧ ∃ v, get t k = some v

/-- The stored keys and `k` have pairwise different remainders modulo `p`. -/
def Separates (t : Tbl α) (k : UInt32) (p : Nat) : Prop :=
  ∀ a b : UInt32, (Stored t a ∨ a = k) → (Stored t b ∨ b = k) → a.toNat % p = b.toNat % p → a = b

theorem rehash_some {p : Nat} : ∀ (ns acc : List (UInt32 × α)), acc.length = p → 0 < p →
    (∀ x ∈ ns, x.1 ≠ NULL → hashAt acc (x.1.toNat % p) = NULL) →
    ns.Pairwise (fun x y => x.1 ≠ NULL → y.1 ≠ NULL → x.1.toNat % p ≠ y.1.toNat % p) →
    ∃ n, rehash p ns acc = some n
  | [], acc, _, _, _, _ => ⟨acc, rfl⟩
  | (h, v) :: ns, acc, hl, hp0, hf, hpw => by
    unfold rehash
    by_cases hn : h = NULL
    · rw [if_pos hn]
      exact rehash_some ns acc hl hp0 (fun x hx => hf x (by simp [hx])) hpw.of_cons
    · rw [if_neg hn, if_neg (by simpa using hf (h, v) (by simp) hn)]
      refine rehash_some ns _ (by simp [hl]) hp0 ?_ hpw.of_cons
      intro x hx hxn
      have h1 := hf x (by simp [hx]) hxn
      have h2 := (List.pairwise_cons.mp hpw).1 x hx hn hxn
      unfold hashAt at h1 ⊢
      rw [List.getElem?_set_ne h2]
      exact h1

theorem nodes_pairwise {t : Tbl α} (hw : WF t) {p : Nat}
    (hs : ∀ a b : UInt32, Stored t a → Stored t b → a.toNat % p = b.toNat % p → a = b) :
    t.nodes.Pairwise (fun x y => x.1 ≠ NULL → y.1 ≠ NULL → x.1.toNat % p ≠ y.1.toNat % p) := by
  rw [List.pairwise_iff_getElem]
  intro i j hi hj hij hx hy heq
  have h1 := hw.placed.2 i _ _ (List.getElem?_eq_getElem hi) hx
  have h2 := hw.placed.2 j _ _ (List.getElem?_eq_getElem hj) hy
  have s1 : Stored t t.nodes[i].1 := ⟨hx, t.nodes[i].2, (lookup_iff hw.placed hx).mpr (List.getElem_mem _)⟩
  have s2 : Stored t t.nodes[j].1 := ⟨hy, t.nodes[j].2, (lookup_iff hw.placed hy).mpr (List.getElem_mem _)⟩
  have := hs _ _ s1 s2 heq
  have h3 := h1.symm.trans ((congrArg (fun x : UInt32 => x.toNat % t.mod) this).trans h2)
  omega

theorem free_of_separates {t : Tbl α} (hw : WF t) {k : UInt32} (hs : Separates t k t.mod) :
    hashAt t.nodes (k.toNat % t.mod) = NULL ∨ hashAt t.nodes (k.toNat % t.mod) = k := by
  have hlt : k.toNat % t.mod < t.nodes.length := by
    rw [hw.placed.1]; exact Nat.mod_lt _ (pos_of_mem hw.mem)
  unfold hashAt
  rw [List.getElem?_eq_getElem hlt]
  simp only [Option.map_some, Option.getD_some]
  by_cases hn : t.nodes[k.toNat % t.mod].1 = NULL
  · exact Or.inl hn
  · right
    have h1 := hw.placed.2 _ _ _ (List.getElem?_eq_getElem hlt) hn
    have s1 : Stored t t.nodes[k.toNat % t.mod].1 :=
      ⟨hn, _, (lookup_iff hw.placed hn).mpr (List.getElem_mem _)⟩
    exact hs _ _ (Or.inl s1) (Or.inr rfl) h1

theorem separates_of_wf {t : Tbl α} {a b : UInt32} (ha : Stored t a) (hb : Stored t b)
    (h : a.toNat % t.mod = b.toNat % t.mod) : a = b := by
  obtain ⟨-, v, hv⟩ := ha
  obtain ⟨-, w, hw'⟩ := hb
  unfold get lookupAt at hv hw'
  rw [h] at hv
  cases hx : t.nodes[b.toNat % t.mod]? with
  | none => rw [hx] at hv; cases hv
  | some x =>
    obtain ⟨c, z⟩ := x
    rw [hx] at hv hw'
    simp only at hv hw'
    split at hv
    · split at hw'
      · rename_i h1 h2; rw [← h1, ← h2]
      · cases hw'
    · cases hv

theorem setFrom_defined (d : α) {k : UInt32} (v : α) : ∀ (ps : List Nat) (t : Tbl α),
    (∀ p ∈ ps, p ∈ primes) → WF t → (∃ p ∈ t.mod :: ps, Separates t k p) →
    ∃ t', setFrom d ps t k v = some t' := by
  intro ps
  induction ps with
  | nil =>
    rintro t _ hw ⟨p, hp, hs⟩
    simp only [List.mem_singleton] at hp
    subst hp
    unfold setFrom
    rw [if_pos (free_of_separates hw hs)]
    exact ⟨_, rfl⟩
  | cons q ps ih =>
    rintro t hps hw ⟨p, hp, hs⟩
    have hq := hps q (by simp)
    have hps' : ∀ r ∈ ps, r ∈ primes := fun r hr => hps r (by simp [hr])
    unfold setFrom
    split
    · exact ⟨_, rfl⟩
    · rename_i hnf
      simp only
      have hp : p ∈ q :: ps := by
        rcases List.mem_cons.mp hp with h | h
        · subst h; exact absurd (free_of_separates hw hs) hnf
        · exact h
      cases hr : rehash q t.nodes (newNodes d q) with
      | none =>
        refine ih t hps' hw ?_
        rcases List.mem_cons.mp hp with h | h
        · subst h
          obtain ⟨n, hn⟩ := rehash_some t.nodes (newNodes d p) (by simp [newNodes]) (pos_of_mem hq)
            (by
              intro x _ _
              unfold hashAt
              have : x.1.toNat % p < (newNodes d p).length := by
                simp only [newNodes, List.length_replicate]; exact Nat.mod_lt _ (pos_of_mem hq)
              rw [List.getElem?_eq_getElem this]
              simp [newNodes])
            (nodes_pairwise hw (fun a b ha hb => hs a b (Or.inl ha) (Or.inl hb)))
          rw [hn] at hr; cases hr
        · exact ⟨p, by simp [h], hs⟩
      | some n =>
        obtain ⟨h1, h2⟩ := rehash_spec (pos_of_mem hq) _ _ _ (placed_new d q) hr
        refine ih ⟨q, n⟩ hps' ⟨hq, h1⟩ ⟨p, hp, ?_⟩
        have hst : ∀ a, Stored (⟨q, n⟩ : Tbl α) a → Stored t a := by
          rintro a ⟨ha, w, hw'⟩
          refine ⟨ha, w, ?_⟩
          have := (h2 a ha w).mp hw'
          rw [lookup_new d q ha] at this
          simp only [reduceCtorEq, or_false] at this
          exact (lookup_iff hw.placed ha).mpr this
        intro a b ha hb
        exact hs a b (ha.imp_left (hst a)) (hb.imp_left (hst b))

theorem setFrom_mod (d : α) {k : UInt32} {v : α} : ∀ (ps : List Nat) (t t' : Tbl α),
    setFrom d ps t k v = some t' → t'.mod ∈ t.mod :: ps := by
  intro ps
  induction ps with
  | nil =>
    intro t t' h
    unfold setFrom at h
    split at h
    · injection h with h; subst h; simp
    · cases h
  | cons p ps ih =>
    intro t t' h
    unfold setFrom at h
    split at h
    · injection h with h; subst h; simp
    · simp only at h
      cases hr : rehash p t.nodes (newNodes d p) with
      | none =>
        rw [hr] at h
        have := ih t t' h
        simp only [List.mem_cons] at this ⊢
        rcases this with h | h
        · exact Or.inl h
        · exact Or.inr (Or.inr h)
      | some n =>
        rw [hr] at h
        have := ih ⟨p, n⟩ t' h
        simp only [List.mem_cons] at this ⊢
        exact Or.inr this

/-- `set` stays inside the prime table exactly when the current size or a later one separates
the stored keys and the new one. -/
theorem set_defined_iff (d : α) {t : Tbl α} (hw : WF t) {k : UInt32} (hk : k ≠ NULL) (v : α) :
    (∃ t', set d t k v = some t') ↔ ∃ p ∈ t.mod :: primesAfter t.mod, Separates t k p := by
  constructor
  · rintro ⟨t', h⟩
    refine ⟨t'.mod, setFrom_mod d _ t t' h, ?_⟩
    obtain ⟨h1, h2⟩ := setFrom_spec d hk v _ t t' (fun p hp => primesAfter_sub hp) hw h
    have hst : ∀ a, (Stored t a ∨ a = k) → Stored t' a := by
      intro a ha
      by_cases he : a = k
      · subst he; exact ⟨hk, v, by rw [h2 a hk, if_pos rfl]⟩
      · rcases ha with ha | ha
        · exact ⟨ha.1, ha.2.imp fun w hw' => by rw [h2 a ha.1, if_neg he]; exact hw'⟩
        · exact absurd ha he
    intro a b ha hb hab
    exact separates_of_wf (hst a ha) (hst b hb) hab
  · exact setFrom_defined d v _ t (fun p hp => primesAfter_sub hp) hw

theorem mem_primesAfter : ∀ m ∈ primes, ∀ p, p ∈ primesAfter m ↔ p ∈ primes ∧ m < p := by
  have h1 : ∀ m ∈ primes, ∀ p ∈ primesAfter m, p ∈ primes ∧ m < p := by decide +kernel
  have h2 : ∀ m ∈ primes, ∀ p ∈ primes, m < p → p ∈ primesAfter m := by decide +kernel
  exact fun m hm p => ⟨h1 m hm p, fun h => h2 m hm p h.1 h.2⟩

/-- C42: storing a key works exactly when some size of the prime table, not smaller than the present one, separates
the stored keys and the new one. -/
theorem C42_grows_iff (d : α) {t : Tbl α} (hw : WF t) {k : UInt32} (hk : k ≠ NULL) (v : α) :
    (∃ t', set d t k v = some t') ↔ ∃ p ∈ primes, t.mod ≤ p ∧ Separates t k p := by
  rw [set_defined_iff d hw hk v]
  constructor
  · rintro ⟨p, hp, hs⟩
    rcases List.mem_cons.mp hp with rfl | hp
    · exact ⟨t.mod, hw.mem, Nat.le_refl _, hs⟩
    · obtain ⟨h1, h2⟩ := (mem_primesAfter _ hw.mem p).mp hp
      exact ⟨p, h1, Nat.le_of_lt h2, hs⟩
  · rintro ⟨p, hp, hle, hs⟩
    refine ⟨p, ?_, hs⟩
    rcases Nat.lt_or_eq_of_le hle with h | h
    · exact List.mem_cons_of_mem _ ((mem_primesAfter _ hw.mem p).mpr ⟨hp, h⟩)
    · rw [h]; exact List.mem_cons_self

/-- The history of the counterexample: keys 0, 2, 5, 11, …, 49157. -/
def badKeys : List (Op Unit) := (0 :: primes).map (fun n => .set (UInt32.ofNat n) ())

theorem spec_sets : ∀ (l : List Nat) (m : UInt32 → Option Unit) (k : UInt32),
    (m k = some () ∨ k ∈ l.map UInt32.ofNat) →
    specRun (l.map (fun n => Op.set (UInt32.ofNat n) ())) m k = some ()
  | [], m, k, h => by
    rcases h with h | h
    · exact h
    · cases h
  | n :: l, m, k, h => by
    simp only [List.map_cons, specRun, List.foldl_cons]
    refine spec_sets l _ k ?_
    by_cases hk : k = UInt32.ofNat n
    · left; simp [Op.spec, hk]
    · rcases h with h | h
      · left; simp [Op.spec, hk, h]
      · simp only [List.map_cons, List.mem_cons, hk, false_or] at h
        exact Or.inr h

/-- **C42 fails for eighteen names.**  Storing eighteen keys, with the hashes 0, 2, 5, 11, …,
49157, in a new table runs off the end of the prime table: the table grows only until no two
keys share a home slot, and 0 and p share one for every size p. -/
theorem C42_eighteen_keys_undefined (t : Tbl Unit) (hnew : new () 0 = some t) : run () badKeys t = none := by
  cases h : run () badKeys t with
  | none => rfl
  | some t' =>
    exfalso
    obtain ⟨hw, hm⟩ := new_spec () hnew
    have hproper : ∀ o ∈ badKeys, o.Proper := by
      intro o ho
      simp only [badKeys, List.mem_map] at ho
      obtain ⟨n, hn, rfl⟩ := ho
      have : ∀ n ∈ 0 :: primes, UInt32.ofNat n ≠ NULL := by decide
      exact this n hn
    obtain ⟨h1, h2⟩ := run_spec () badKeys t t' _ hproper hw hm h
    have hp := h1.mem
    have hst : ∀ n ∈ 0 :: primes, Stored t' (UInt32.ofNat n) := by
      intro n hn
      have hne : UInt32.ofNat n ≠ NULL := by
        have : ∀ n ∈ 0 :: primes, UInt32.ofNat n ≠ NULL := by decide
        exact this n hn
      refine ⟨hne, (), ?_⟩
      rw [h2 _ hne]
      exact spec_sets _ _ _ (Or.inr (List.mem_map_of_mem hn))
    have hmod : (UInt32.ofNat 0).toNat % t'.mod = (UInt32.ofNat t'.mod).toNat % t'.mod ∧
        UInt32.ofNat 0 ≠ UInt32.ofNat t'.mod := by
      have : ∀ p ∈ primes, (UInt32.ofNat 0).toNat % p = (UInt32.ofNat p).toNat % p ∧
        UInt32.ofNat 0 ≠ UInt32.ofNat p := by decide
      exact this _ hp
    exact hmod.2 (separates_of_wf (hst 0 (by simp)) (hst _ (List.mem_cons_of_mem _ hp)) hmod.1)

/-- **C42 fails for the reserved hash**: a key never stored is found, with a leftover value. -/
theorem C42_reserved_key : ∃ t t' : Tbl Nat, new 0 0 = some t ∧ run 0 [.set 1 7, .remove 1] t = some t' ∧
    get t' NULL = some 7 := by
  refine ⟨⟨2, [(NULL, 0), (NULL, 0)]⟩, ⟨2, [(NULL, 0), (NULL, 7)]⟩, ?_, ?_, ?_⟩ <;> decide

/-- A history meeting the hypotheses of `C42_table_is_map_partial` in which the table grows
twice, a key is overwritten and one removed. -/
example : ∃ t t' : Tbl Nat, new 0 0 = some t ∧
    run 0 [.set 0 10, .set 2 20, .set 5 30, .set 2 21, .remove 0] t = some t' ∧ t'.mod = 11 ∧
    get t' 2 = some 21 ∧ get t' 5 = some 30 ∧ get t' 0 = none := by
  refine ⟨⟨2, [(NULL, 0), (NULL, 0)]⟩, ((run 0 [.set 0 10, .set 2 20, .set 5 30, .set 2 21, .remove 0] ⟨2, [(NULL, 0), (NULL, 0)]⟩).getD ⟨0, []⟩), by decide, by decide +kernel, ?_⟩
  decide +kernel

end Wrench.Util.NameTable
