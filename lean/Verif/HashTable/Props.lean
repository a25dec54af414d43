import Verif.HashTable.Histories

/-!
Properties C05–C08 (script hash tables), C46 (element references survive growth) and
C47 (function/constant registry).

All statements quantify over an arbitrary initial size hint, an arbitrary history and
arbitrary key hashes different from the reserved empty marker `nullHash`; the only
other hypothesis is that the history runs to completion (`run … = some …`), i.e. the
prime table is not exhausted (see `C05_only_exhaustion_fails`).
-/
namespace Wrench.HashTable

variable {V K : Type}

/-- **C05** (refinement).  Every history of writes, reads, removals and existence
checks on a fresh table is a history of the finite-map specification with the same
observations, and the final table stores exactly the final map. -/
theorem C05_hash_table_refines_map (dv : V) (dk : K) (sizeHint : Nat) (ops : List (Op V K))
    (hn : ∀ op ∈ ops, op.hash ≠ nullHash) (t : HT V K) (os : List (Out V))
    (hr : history dv dk sizeHint ops = some (t, os)) :
    ∃ m, SpecRun (fun _ => none) ops os m ∧ Represents t m :=
  (history_refines hn hr).2

/-- **C05** (last write wins).  A read returns the value of the latest write to that
key that was not followed by a removal of that key, whatever else happened. -/
theorem C05_last_write_wins (dv : V) (dk : K) (sizeHint : Nat) (ops : List (Op V K))
    (h : Word32) (k : K) (v : V) (hn : ∀ op ∈ ops, op.hash ≠ nullHash) (hh : h ≠ nullHash)
    (hw : latest h ops none = some v) (t : HT V K) (os : List (Out V))
    (hr : history dv dk sizeHint (ops ++ [.read h k]) = some (t, os)) :
    os.getLast? = some (.value v) := by
  obtain ⟨_, m, S, _⟩ := history_refines (ops := ops ++ [.read h k]) (by
    intro op hop
    rcases List.mem_append.mp hop with h1 | h1
    · exact hn op h1
    · simp at h1; subst h1; exact hh) hr
  obtain ⟨os1, os2, m1, e, S1, S2⟩ := specRun_append S
  obtain ⟨k0, hk0⟩ := spec_latest S1 h none (by intro v h; cases h) v hw
  cases S2 with
  | cons s r =>
    cases r
    cases s with
    | readHit _ _ v' k1 hm =>
      rw [hk0] at hm
      simp only [Option.some.injEq, Prod.mk.injEq] at hm
      rw [e, hm.1]; simp
    | readMiss _ _ _ hm => rw [hk0] at hm; cases hm

/-- A history that grows the table (2 → 5 → 11 slots) meets the hypotheses. -/
example : (∃ t os, history (0 : Nat) (0 : Nat) 0
      [.write 1 1 10, .write 3 3 30, .write 5 5 50, .write 10 10 100, .write 15 15 150,
       .write 20 20 200, .write 3 3 31, .remove 5, .read 3 3] = some (t, os) ∧
      decide (t.mod = 11 ∧ os.getLast? = some (.value 31)) = true) ∧
      latest (3 : Word32) [Op.write 1 1 10, .write 3 3 30, .write 5 5 50, .write 10 10 100,
        .write 15 15 150, .write 20 20 200, .write 3 3 31, .remove 5] none = some 31 :=
  ⟨exists_of_check _ (by decide +kernel), by decide⟩

/-- An access fails only when no larger prime can place the keys. -/
theorem getIndexOfHit_fails {dv : V} {dk : K} {t : HT V K} (inv : Inv t.mod t.slots) {h : Word32}
    (hh : h ≠ nullHash) (hf : getIndexOfHit dv dk t h = none) :
    ∀ p ∈ primeTable, t.mod < p → propose t.mod t.slots h p = none := by
  unfold getIndexOfHit at hf
  rcases probe_false_cases inv hh with ⟨j, hj, hs, hp⟩ | ⟨habs, hp⟩
  · rw [hp] at hf; cases hf
  rw [hp] at hf
  simp only [hitInsert] at hf
  rcases probe_true_absent inv.modPos habs with ⟨k, hk, hp', hs⟩ | hp'
  · rw [hp'] at hf; cases hf
  rw [hp'] at hf
  simp only [growHash] at hf
  split at hf
  · rename_i hfm
    intro p hp hlt
    have hfind : ∀ ps : List Nat, findMod t.mod t.slots h ps = none → ∀ q ∈ ps,
        propose t.mod t.slots h q = none := by
      intro ps
      induction ps with
      | nil => intro _ q hq; cases hq
      | cons a ps ih =>
        intro hnone q hq
        unfold findMod at hnone
        cases hc : propose t.mod t.slots h a with
        | some s => rw [hc] at hnone; cases hnone
        | none =>
          rw [hc] at hnone
          rcases List.mem_cons.mp hq with e | hq
          · subst e; exact hc
          · exact ih hnone q hq
    apply hfind _ hfm
    have hdrop : ∀ (l : List Nat) (b : Nat), l.Pairwise (· < ·) → ∀ x ∈ l, b < x →
        x ∈ l.dropWhile (· ≤ b) := by
      intro l b
      induction l with
      | nil => intro _ x hx; cases hx
      | cons a l ih =>
        intro hpw x hx hbx
        rw [List.dropWhile_cons]
        by_cases hab : a ≤ b
        · simp only [hab, decide_true, if_true]
          rcases List.mem_cons.mp hx with e | hx
          · omega
          · exact ih (List.Pairwise.of_cons hpw) x hx hbx
        · simp only [hab, decide_false, if_false, Bool.false_eq_true]; exact hx
    have h0 : (if (0 : Nat) > t.mod then 0 else t.mod) = t.mod := by simp
    rw [h0]
    exact hdrop primeTable t.mod (by decide) p hp hlt
  · rename_i newMod prop hfm
    exfalso
    obtain ⟨h2, hpr⟩ := findMod_pos hfm
    have hm : 0 < newMod := by omega
    have P := propose_placed hm inv.inj (fun _ => habs) hpr
    have C0 : Copied dv dk t newMod prop 0
        (({ mod := newMod, slots := prop, vals := fun _ => dv, keys := fun _ => dk,
            size := t.size, fwds := t.fwds } : HT V K), fun _ => none) :=
      ⟨rfl, rfl, rfl, rfl, by intro v i hv; omega, fun _ _ _ => ⟨rfl, rfl⟩, fun _ _ => rfl⟩
    obtain ⟨st, hst, C⟩ := foldlM_range_some (copyStep t) (Copied dv dk t newMod prop) t.mod _ C0
      (fun m s hlt hI => copy_step hm P inv.inj hlt hI)
    rw [hst] at hf
    obtain ⟨t1, fw⟩ := st
    have hmod := C.mod
    have hslots := C.slots
    simp only at hf hmod hslots
    have hhome : prop (h.toNat % newMod) = h := P.home hh
    have hit : probe newMod prop h true = .hit (h.toNat % newMod) := by
      have := P.probe_hit hm (Nat.mod_lt _ hm) (by rw [hhome]; exact hh)
      rw [hhome] at this; exact this
    unfold probeInsert at hf
    simp only [hmod, hslots, hit] at hf
    cases hf

/-- **C05** (the only failure).  An access can fail to complete only when every
larger size in the prime table has been tried and found unable to place the keys; in
particular the copying pass of a rehash never triggers a nested rehash. -/
theorem C05_only_exhaustion_fails (dv : V) (dk : K) (sizeHint : Nat) (ops : List (Op V K))
    (hn : ∀ op ∈ ops, op.hash ≠ nullHash) (t : HT V K) (os : List (Out V))
    (hr : history dv dk sizeHint ops = some (t, os)) (h : Word32) (hh : h ≠ nullHash)
    (hf : getIndexOfHit dv dk t h = none) :
    ∀ p ∈ primeTable, t.mod < p → propose t.mod t.slots h p = none := by
  exact getIndexOfHit_fails (history_refines hn hr).1 hh hf

/-- **C05** (reserved key).  The exclusion of the reserved hash is necessary: the
integer key −1414812757 (`0xABABABAB`) is silently lost when another key arrives. -/
theorem C05_reserved_key_lost :
    ∃ t os, history (0 : Nat) (0 : Nat) 0
      [.write nullHash 7 70, .write 1 1 10, .read nullHash 7] = some (t, os) ∧
      os.getLast? ≠ some (.value 70) := by
  obtain ⟨t, os, h, hp⟩ := exists_of_check (x := history (0 : Nat) (0 : Nat) 0
      [.write nullHash 7 70, .write 1 1 10, .read nullHash 7])
      (fun _ os => decide (os.getLast? ≠ some (.value 70))) (by decide +kernel)
  exact ⟨t, os, h, by simpa using hp⟩

/-- **C06**.  An existence check answers exactly whether the key has been written or
touched since its last removal. -/
theorem C06_exists_exact (dv : V) (dk : K) (sizeHint : Nat) (ops : List (Op V K)) (h : Word32)
    (hn : ∀ op ∈ ops, op.hash ≠ nullHash) (hh : h ≠ nullHash) (t : HT V K) (os : List (Out V))
    (hr : history dv dk sizeHint (ops ++ [.check h]) = some (t, os)) :
    os.getLast? = some (.bool (touched h ops false)) := by
  obtain ⟨_, m, S, _⟩ := history_refines (ops := ops ++ [.check h]) (by
    intro op hop
    rcases List.mem_append.mp hop with h1 | h1
    · exact hn op h1
    · simp at h1; subst h1; exact hh) hr
  obtain ⟨os1, os2, m1, e, S1, S2⟩ := specRun_append S
  have := spec_touched S1 h
  cases S2 with
  | cons s r =>
    cases r
    cases s with
    | check => rw [e, this]; simp

example : ∃ t os, history (0 : Nat) (0 : Nat) 0
      ([.write 1 1 10, .write 3 3 30, .write 5 5 50, .remove 3, .read 7 7] ++ [.check 3]) = some (t, os) ∧
      (os.getLast? == some (.bool false)) = true :=
  exists_of_check _ (by decide +kernel)

/-- **C06** (removal).  After removing `h`, it is absent, and the answer for every
other key is what it was. -/
theorem C06_remove_exact (dv : V) (dk : K) (sizeHint : Nat) (ops : List (Op V K)) (h h' : Word32)
    (hn : ∀ op ∈ ops, op.hash ≠ nullHash) (hh : h ≠ nullHash) (hh' : h' ≠ nullHash) (t : HT V K)
    (os : List (Out V))
    (hr : history dv dk sizeHint (ops ++ [.remove h] ++ [.check h']) = some (t, os)) :
    os.getLast? = some (.bool (if h' = h then false else touched h' ops false)) := by
  have := C06_exists_exact dv dk sizeHint (ops ++ [.remove h]) h' (by
    intro op hop
    rcases List.mem_append.mp hop with h1 | h1
    · exact hn op h1
    · simp at h1; subst h1; exact hh) hh' t os hr
  rw [this]
  have happ : ∀ (l : List (Op V K)) b, touched h' (l ++ [.remove h]) b =
      if h' = h then false else touched h' l b := by
    intro l
    induction l with
    | nil =>
      intro b; simp only [List.nil_append, touched]
      by_cases e : h = h'
      · subst e; simp
      · rw [if_neg e, if_neg (fun x => e x.symm)]
    | cons op l ih => intro b; cases op <;> simp only [List.cons_append, touched] <;> exact ih _
  rw [happ]

example : ∃ t os, history (0 : Nat) (0 : Nat) 0
      ([.write 1 1 10, .write 3 3 30] ++ [.remove 3] ++ [.check 1]) = some (t, os) ∧
      (os.getLast? == some (.bool true)) = true := exists_of_check _ (by decide +kernel)

/-! ### C07 -/

/-- **C07**, partial.  After any history on a table created without size hint, the
reported count plus the number of rehashes the table went through equals the number
of distinct keys present (mod 2^32).  Hence the count is exact as long as the table
has not been rehashed; in general it is too small by one per rehash, which is why the
unrestricted property is false (`C07_count_wrong_after_growth`). -/
theorem C07_count_partial (dv : V) (dk : K) (ops : List (Op V K))
    (hn : ∀ op ∈ ops, op.hash ≠ nullHash) (t : HT V K) (os : List (Out V))
    (hr : history dv dk 0 ops = some (t, os)) :
    t.size + BitVec.ofNat 32 (t.fwds.length - 1) = BitVec.ofNat 32 (presentKeys ops).length := by
  obtain ⟨inv, m, S, R⟩ := history_refines hn hr
  unfold history at hr
  cases hi : init dv dk 0 with
  | none => rw [hi] at hr; cases hr
  | some t0 =>
    rw [hi] at hr
    obtain ⟨inv0, hall, _, hsz, hfw⟩ := init_spec hi
    have h0 : t0.size + BitVec.ofNat 32 t0.fwds.length = BitVec.ofNat 32 (live t0.mod t0.slots) + 1#32 := by
      rw [hsz, hfw, live_zero hall]
    have hfl : 1 ≤ t0.fwds.length := by omega
    have := run_induct (dv := dv) (dk := dk)
      (fun t => (t.size + BitVec.ofNat 32 t.fwds.length =
        BitVec.ofNat 32 (live t.mod t.slots) + 1#32) ∧ 1 ≤ t.fwds.length) (fun _ => True)
      (fun t op t' o h _ inv hno hst =>
        ⟨step_count inv hno h.1 hst, Nat.le_trans h.2 (step_fwds inv hno hst)⟩)
      hn (fun _ _ => trivial) ⟨h0, hfl⟩ inv0 hr
    obtain ⟨hc, hl⟩ := this
    rw [← live_eq_presentKeys inv S R hn]
    obtain ⟨n, hn'⟩ : ∃ n, t.fwds.length = n + 1 := ⟨t.fwds.length - 1, by omega⟩
    rw [hn', ofNat_succ32, ← BitVec.add_assoc] at hc
    rw [hn', Nat.add_sub_cancel]
    have := congrArg (· - 1#32) hc
    simpa [BitVec.add_sub_cancel] using this

/-- Six distinct keys, one rehash: hypotheses are met. -/
example : ∃ t os, history (0 : Nat) (0 : Nat) 0
      [.write 1 1 10, .write 3 3 30, .write 5 5 50, .write 3 3 31] = some (t, os) ∧
      decide (t.fwds.length = 2 ∧ t.size = 2#32) = true := exists_of_check (β := List (Out Nat)) (fun t _ => _) (by decide +kernel)

/-- The full C07 is false of the code: after writing three distinct keys into a fresh
table the count is 2. -/
theorem C07_count_wrong_after_growth :
    ∃ (ops : List (Op Nat Nat)) (t : HT Nat Nat) (os : List (Out Nat)),
      (∀ op ∈ ops, op.hash ≠ nullHash) ∧ history 0 0 0 ops = some (t, os) ∧
      t.size ≠ BitVec.ofNat 32 (presentKeys ops).length := by
  refine ⟨[.write 0 0 0, .write 1 1 10, .write 2 2 20], ?_⟩
  obtain ⟨t, os, h, hp⟩ := exists_of_check (x := history (0 : Nat) (0 : Nat) 0
      [.write 0 0 0, .write 1 1 10, .write 2 2 20])
      (fun t _ => decide (t.size ≠ BitVec.ofNat 32 (presentKeys (V := Nat) (K := Nat)
        [.write 0 0 0, .write 1 1 10, .write 2 2 20]).length)) (by decide +kernel)
  exact ⟨t, os, by decide, h, by simpa using hp⟩

/-- The count can even wrap below zero: fill (one rehash), then remove every key. -/
theorem C07_count_underflows :
    ∃ (ops : List (Op Nat Nat)) (t : HT Nat Nat) (os : List (Out Nat)),
      (∀ op ∈ ops, op.hash ≠ nullHash) ∧ history 0 0 0 ops = some (t, os) ∧
      presentKeys ops = [] ∧ t.size = 0xFFFFFFFF#32 := by
  refine ⟨[.write 0 0 0, .write 1 1 10, .write 2 2 20, .remove 0, .remove 1, .remove 2], ?_⟩
  obtain ⟨t, os, h, hp⟩ := exists_of_check (x := history (0 : Nat) (0 : Nat) 0
      [.write 0 0 0, .write 1 1 10, .write 2 2 20, .remove 0, .remove 1, .remove 2])
      (fun t _ => t.size == 0xFFFFFFFF#32) (by decide +kernel)
  exact ⟨t, os, by decide, h, by decide +kernel, by simpa using hp⟩

/-! ### C08 -/

/-- **C08**, partial.  In a history without removals, reading a key never touched
before yields the default value (also across rehashes).  Missing: histories with
removals, where it is false (`C08_stale_value_resurfaces`). -/
theorem C08_untouched_reads_default_partial (dv : V) (dk : K) (sizeHint : Nat)
    (ops : List (Op V K)) (h : Word32) (k : K) (hn : ∀ op ∈ ops, op.hash ≠ nullHash)
    (hh : h ≠ nullHash) (hrm : ∀ op ∈ ops, isRemove op = false)
    (hun : touched h ops false = false) (t : HT V K) (os : List (Out V))
    (hr : history dv dk sizeHint ops = some (t, os)) (t' : HT V K) (o : Out V)
    (hstep : step dv dk t (.read h k) = some (t', o)) : o = .value dv := by
  obtain ⟨inv, m, S, R⟩ := history_refines hn hr
  have hclean : Clean dv t := by
    unfold history at hr
    cases hi : init dv dk sizeHint with
    | none => rw [hi] at hr; cases hr
    | some t0 =>
      rw [hi] at hr
      obtain ⟨inv0, _, hc0, _⟩ := init_spec hi
      exact run_induct (dv := dv) (dk := dk) (Clean dv) (fun op => isRemove op = false)
        (fun t op t' o h hq inv hno hst => step_clean inv hno hq h hst) hn hrm hc0 inv0 hr
  have habs : ¬ Present t.mod t.slots h := by
    rw [← represents_none R hh]
    have := spec_touched S h
    simp only [Option.isSome_none] at this
    rw [hun] at this
    simpa using this
  simp only [step] at hstep
  cases hg : getIndexOfHit dv dk t h with
  | none => rw [hg] at hstep; cases hstep
  | some r =>
    rw [hg] at hstep
    simp only [Option.some.injEq, Prod.mk.injEq] at hstep
    rw [← hstep.2, (getIndexOfHit_ext inv hh hg).fresh habs hclean]

example : ∃ t os, history (0 : Nat) (0 : Nat) 0
      [.write 1 1 10, .write 3 3 30, .write 5 5 50] = some (t, os) ∧
      ((step 0 0 t (.read 7 7)).map (·.2) == some (.value 0)) = true :=
  exists_of_check (β := List (Out Nat)) (fun t _ => _) (by decide +kernel)

/-- The full C08 is false of the code: after `h[1]=5; h._remove(1)`, reading `h[1]`
yields 5 again, and reading another absent key that lands in the freed slot yields 5
as well. -/
theorem C08_stale_value_resurfaces :
    (∃ t os, history (0 : Nat) (0 : Nat) 0 [.write 1 1 5, .remove 1, .read 1 1] = some (t, os) ∧
      (os.getLast? == some (.value 5)) = true) ∧
    (∃ t os, history (0 : Nat) (0 : Nat) 0 [.write 1 1 5, .remove 1, .read 3 3] = some (t, os) ∧
      (os.getLast? == some (.value 5)) = true) :=
  ⟨exists_of_check _ (by decide +kernel), exists_of_check _ (by decide +kernel)⟩

/-! ### C46: element references survive growth -/

/-- **C46**.  A reference to the element of key `h`, obtained after any history, still
denotes the element of `h` after any further history that does not remove `h` –
whatever growth happens in between: dereferencing it gives the value the table has for
`h`. -/
theorem C46_element_reference_survives_growth (dv : V) (dk : K) (sizeHint : Nat)
    (ops ops' : List (Op V K)) (h : Word32) (hh : h ≠ nullHash)
    (hn : ∀ op ∈ ops, op.hash ≠ nullHash) (hn' : ∀ op ∈ ops', op.hash ≠ nullHash)
    (hnr : ∀ op ∈ ops', isRemove op = true → op.hash ≠ h)
    (t0 t1 t2 : HT V K) (os os' : List (Out V)) (i : Nat)
    (hr : history dv dk sizeHint ops = some (t0, os))
    (hget : getIndexOfHit dv dk t0 h = some (t1, i))
    (hr' : run dv dk t1 ops' = some (t2, os')) :
    ∃ j, derefHandle t2 t1.fwds.length i = some j ∧ j < t2.mod ∧ t2.slots j = h ∧
      getIndexOfHit dv dk t2 h = some (t2, j) := by
  obtain ⟨inv0, _⟩ := history_refines hn hr
  have E := getIndexOfHit_ext inv0 hh hget
  have D : Denotes t1 t1.fwds.length i h :=
    ⟨Nat.le_refl _, i, by simp [derefHandle, follow], E.lt, E.at_⟩
  obtain ⟨⟨_, j, hj, hlt, hs⟩, inv2⟩ := run_induct (dv := dv) (dk := dk)
    (fun t => Denotes t t1.fwds.length i h ∧ Inv t.mod t.slots)
    (fun op => isRemove op = true → op.hash ≠ h)
    (fun t op t' o hd hq inv hno hst =>
      ⟨step_denotes inv hno hh hq hd.1 hst, step_inv inv hno hst⟩)
    hn' hnr ⟨D, E.inv⟩ E.inv hr'
  refine ⟨j, hj, hlt, hs, ?_⟩
  unfold getIndexOfHit
  rw [probe_false_hit inv2 hh hlt hs]

/-- Reference taken in a 2-slot table, followed after two growths. -/
example : ∃ t2 os', (do
      let (t0, _) ← history (0 : Nat) (0 : Nat) 0 [.write 3 3 10]
      let (t1, _) ← getIndexOfHit 0 0 t0 (3 : Word32)
      run 0 0 t1 [.write 1 1 3, .write 5 5 5, .write 6 6 6, .write 11 11 11, .write 16 16 16,
        .write 21 21 21]) = some (t2, os') ∧
    decide (t2.fwds.length = 3 ∧ derefHandle t2 1 1 = some 3 ∧ t2.slots 3 = 3#32) = true :=
  exists_of_check (β := List (Out Nat)) (fun t _ => _) (by decide +kernel)

/-! ### C47: the registry -/

/-- **C47**.  Looking a name up in the registry yields what was last registered under
that name's hash, for every history of registrations and lookups through the fast
access path. -/
theorem C47_registry_last_registration_wins (dv : V) (dk : K) (sizeHint : Nat)
    (ops : List (Op V K)) (h : Word32) (k : K) (v : V) (hn : ∀ op ∈ ops, op.hash ≠ nullHash)
    (hh : h ≠ nullHash) (hw : latest h ops none = some v) (t0 t : HT V K) (os : List (Out V))
    (hi : init dv dk sizeHint = some t0)
    (hr : runRaw dv dk t0 (ops ++ [.read h k]) = some (t, os)) :
    os.getLast? = some (.value v) := by
  rw [runRaw_eq (init_spec hi).1 (by
    intro op hop
    rcases List.mem_append.mp hop with h1 | h1
    · exact hn op h1
    · simp at h1; subst h1; exact hh)] at hr
  refine C05_last_write_wins dv dk sizeHint ops h k v hn hh hw t os ?_
  unfold history
  rw [hi]; exact hr

example : ∃ t os, (do
      let t0 ← init (0 : Nat) (0 : Nat) 0
      runRaw 0 0 t0 ([.write 1 1 10, .write 3 3 30, .write 5 5 50, .read 9 9] ++ [.read 3 3]))
        = some (t, os) ∧ (os.getLast? == some (.value 30)) = true :=
  exists_of_check (α := HT Nat Nat) (fun _ _ => _) (by decide +kernel)

/-- **C47** (unregistered names).  In a history of registrations and lookups, a name
that was never registered is looked up as the default (null) entry, however often it
was looked up before. -/
theorem C47_unregistered_name_is_default (dv : V) (dk : K) (sizeHint : Nat)
    (ops : List (Op V K)) (h : Word32) (k : K) (hn : ∀ op ∈ ops, op.hash ≠ nullHash)
    (hh : h ≠ nullHash) (hrm : ∀ op ∈ ops, isRemove op = false)
    (hw : latest h ops none = none) (t0 t t' : HT V K) (os : List (Out V)) (o : Out V)
    (hi : init dv dk sizeHint = some t0) (hr : runRaw dv dk t0 ops = some (t, os))
    (hs : stepRaw dv dk t (.read h k) = some (t', o)) : o = .value dv := by
  obtain ⟨inv0, _, hc0, _⟩ := init_spec hi
  rw [runRaw_eq inv0 hn] at hr
  have hnw := no_write_of_latest_none hrm hw
  have hI0 : Unset dv h t0 := by
    refine ⟨hc0, fun i hi' hs => ?_⟩
    exact absurd ⟨i, hi', hs⟩ ((represents_none (init_represents hi) hh).mp rfl)
  have hfin := run_induct (dv := dv) (dk := dk)
    (fun t => Unset dv h t ∧ Inv t.mod t.slots)
    (fun op => isRemove op = false ∧ isWriteTo h op = false)
    (fun t op t' o hI hq inv hno hst =>
      ⟨step_unset inv hno hq.1 hq.2 hI.1 hst, step_inv inv hno hst⟩)
    hn (fun op hop => ⟨hrm op hop, hnw op hop⟩) ⟨hI0, inv0⟩ inv0 hr
  simp only [stepRaw] at hs
  rw [getAsRaw_eq hfin.2 hh] at hs
  cases hg : getIndexOfHit dv dk t h with
  | none => rw [hg] at hs; cases hs
  | some r =>
    rw [hg] at hs
    simp only [Option.some.injEq, Prod.mk.injEq] at hs
    have E := getIndexOfHit_ext hfin.2 hh hg
    have hs' : step dv dk t (.read h k) = some ({ r.1 with keys := upd r.1.keys r.2 k }, .value (r.1.vals r.2)) := by
      simp only [step, hg]
    have hu := step_unset (op := .read h k) hfin.2 hh rfl rfl hfin.1 hs'
    rw [← hs.2]
    exact congrArg _ (hu.2 r.2 E.lt E.at_)

example : ∃ t os, (do
      let t0 ← init (0 : Nat) (0 : Nat) 0
      let (t, _) ← runRaw 0 0 t0 [.write 1 1 10, .write 3 3 30, .read 9 9, .write 5 5 50]
      runRaw 0 0 t [.read 9 9])
        = some (t, os) ∧ (os.getLast? == some (.value 0)) = true :=
  exists_of_check (α := HT Nat Nat) (fun _ _ => _) (by decide +kernel)

end Wrench.HashTable
