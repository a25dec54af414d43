import Verif.HostCont.Sim

/-! **C61**: containers and iteration for the host program. -/
namespace Wrench.HostCont

open Wrench.HashTable

/-! ### Iteration -/

/-- The slot is in use. -/
def occ (s : St) (i : Nat) : Bool := s.t.slots i != nullHash

theorem scan_none {s : St} {n el : Nat} (h : scan s.t.slots n el = none) :
    (List.range' el n).filter (occ s) = [] := by
  induction n generalizing el with
  | zero => rfl
  | succ n ih =>
    unfold scan at h
    by_cases c : (s.t.slots el != nullHash) = true
    · rw [if_pos c] at h; cases h
    · rw [if_neg c] at h
      rw [List.range'_succ, List.filter_cons, if_neg (by exact c)]
      exact ih h

theorem scan_some {s : St} {n el i : Nat} (h : scan s.t.slots n el = some i) :
    el ≤ i ∧ i < el + n ∧
    (List.range' el n).filter (occ s) = i :: (List.range' (i + 1) (el + n - (i + 1))).filter (occ s) := by
  induction n generalizing el with
  | zero => cases h
  | succ n ih =>
    unfold scan at h
    by_cases c : (s.t.slots el != nullHash) = true
    · rw [if_pos c] at h
      have e : el = i := Option.some.inj h
      subst e
      refine ⟨Nat.le_refl _, by omega, ?_⟩
      rw [List.range'_succ, List.filter_cons, if_pos (by exact c)]
      have : el + (n + 1) - (el + 1) = n := by omega
      rw [this]
    · rw [if_neg c] at h
      obtain ⟨h1, h2, h3⟩ := ih h
      refine ⟨by omega, by omega, ?_⟩
      rw [List.range'_succ, List.filter_cons, if_neg (by exact c), h3]
      have : el + 1 + n - (i + 1) = el + (n + 1) - (i + 1) := by omega
      rw [this]

theorem iterate_eq (s : St) : ∀ (fuel el : Nat), s.t.mod - el < fuel →
    iterate s fuel el = some (((List.range' el (s.t.mod - el)).filter (occ s)).map (entryAt s)) := by
  intro fuel
  induction fuel with
  | zero => intro el h; omega
  | succ f ih =>
    intro el h
    unfold iterate
    cases hs : scan s.t.slots (s.t.mod - el) el with
    | none => simp only [scan_none hs, List.map_nil]
    | some i =>
      obtain ⟨h1, h2, h3⟩ := scan_some hs
      simp only
      rw [ih (i + 1) (by omega), h3]
      have : el + (s.t.mod - el) - (i + 1) = s.t.mod - (i + 1) := by omega
      rw [this, List.map_cons]

/-- The entry an iteration shows for the slot of an entry. -/
theorem view_entry {s : St} {a : Spec} {e : Ent} {i : Nat} (R : Rel s a) (he : e ∈ a.ents)
    (hv : (s.t.vals i).1 = e.val) (hk : KeyIs s (s.t.vals i).2 e.key) :
    view s (entryAt s i) = (e.key, a.value e.val) := by
  unfold view entryAt
  simp only [Prod.mk.injEq]
  constructor
  · cases hkey : e.key with
    | none => rw [hkey] at hk; rw [show (s.t.vals i).2 = zero from hk]; rfl
    | some n =>
      rw [hkey] at hk
      obtain ⟨id, h1, _, h3⟩ := hk
      rw [h1]
      simp [keyName, h3]
  · rcases R.good e he with ⟨n, hn⟩ | hp
    · rw [hv, hn, isRef_ref, if_pos rfl, value_ref, ← R.vars]; rfl
    · rw [hv, hp.1, value_plain a hp]
      exact hv

theorem view_perm {s : St} {a : Spec} (R : Rel s a) :
    (((List.range s.t.mod).filter (occ s)).map fun i => view s (entryAt s i)).Perm a.view := by
  classical
  let idx : Ent → Nat := fun e => if h : e ∈ a.ents then Classical.choose (R.ents e h) else 0
  have hidx : ∀ e ∈ a.ents, idx e < s.t.mod ∧ s.t.slots (idx e) = wrHash e.name ∧
      (s.t.vals (idx e)).1 = e.val ∧ KeyIs s (s.t.vals (idx e)).2 e.key := by
    intro e he
    have := Classical.choose_spec (R.ents e he)
    simp only [idx, dif_pos he]
    exact this
  have hnd : a.ents.Nodup := List.Nodup.of_map _ R.nd
  have p : ((List.range s.t.mod).filter (occ s)).Perm (a.ents.map idx) := by
    rw [List.perm_ext_iff_of_nodup (List.nodup_range.filter _)]
    · intro i
      simp only [List.mem_filter, List.mem_range, List.mem_map, occ, bne_iff_ne]
      constructor
      · rintro ⟨hi, h0⟩
        obtain ⟨e, he, hh⟩ := R.slots i hi h0
        obtain ⟨h1, h2, _⟩ := hidx e he
        exact ⟨e, he, R.inv.inj _ _ h1 hi (by rw [h2]; exact R.real e he) (by rw [h2, hh])⟩
      · rintro ⟨e, he, rfl⟩
        obtain ⟨h1, h2, _⟩ := hidx e he
        exact ⟨h1, by rw [h2]; exact R.real e he⟩
    · refine List.Nodup.map_on ?_ hnd
      intro x hx y hy hxy
      have hn : x.name = y.name := R.inj x hx y hy (by
        rw [← (hidx x hx).2.1, ← (hidx y hy).2.1, hxy])
      exact List.inj_on_of_nodup_map R.nd hx hy hn
  refine (p.map _).trans ?_
  rw [List.map_map]
  have : a.ents.map ((fun i => view s (entryAt s i)) ∘ idx) = a.view := by
    unfold Spec.view
    apply List.map_congr_left
    intro e he
    obtain ⟨_, _, h3, h4⟩ := hidx e he
    exact view_entry R he h3 h4
  rw [this]

/-- What the hypotheses of the theorems below give for a history. -/
theorem history_rel {hint : Word16} {mem : Nat → Cell} {cs : List Call} {s0 s : St} {os : List Seen}
    (hm : makeContainer hint mem = some s0) (hp : ∀ n, (mem n).plain) (hok : ∀ c ∈ cs, c.ok)
    (hd : Distinct cs) (hr : run s0 cs = some (s, os)) :
    Rel s (Spec.run ⟨[], mem⟩ cs).1 ∧ os = (Spec.run ⟨[], mem⟩ cs).2 := by
  obtain ⟨R, ho, _⟩ := run_rel (U := cs.map Call.name) (fun c h => List.mem_map_of_mem h)
    (by
      intro n hn
      obtain ⟨c, hc, rfl⟩ := List.mem_map.mp hn
      exact hd.1 c hc)
    (by
      intro n hn m hm h
      obtain ⟨c, hc, rfl⟩ := List.mem_map.mp hn
      obtain ⟨d, hd', rfl⟩ := List.mem_map.mp hm
      exact hd.2 c hc d hd' h) hok (make_rel hm hp) (fun e he => by cases he) hr
  exact ⟨R, ho⟩

/-- **C61** (contents).  After any sequence of container calls, every look-up sees the value last
stored under its name — by `wr_add…ToContainer`, through a pointer got earlier, or through the
variable the entry refers to — a missing name reads as null (`getHashTableValue`) or comes into
being as 0 (`wr_getValueFromContainer`, `addHashTableValue`).  Missing: names with equal hashes
and the reserved hash (`Distinct`), names with 8-bit characters in the `WrenchValue` functions
(`C61_high_bytes`), raw arrays of 2 MiB and more (`C61_large_array`). -/
theorem C61_contents_partial (hint : Word16) (mem : Nat → Cell) (cs : List Call) (s0 s : St)
    (os : List Seen) (hm : makeContainer hint mem = some s0) (hp : ∀ n, (mem n).plain)
    (hok : ∀ c ∈ cs, c.ok) (hd : Distinct cs) (hr : run s0 cs = some (s, os)) :
    os = (Spec.run ⟨[], mem⟩ cs).2 ∧ s.vars = (Spec.run ⟨[], mem⟩ cs).1.vars :=
  ⟨(history_rel hm hp hok hd hr).2, (history_rel hm hp hok hd hr).1.vars⟩

/-- **C61** (iteration).  `for( it = c.begin(); it != c.end(); ++it )` ends and shows every entry
exactly once, with its name and its value (that of the variable if it refers to one).  Missing: as
for the contents; and an entry that came into being by a look-up shows the integer 0 as its key. -/
theorem C61_iteration_partial (hint : Word16) (mem : Nat → Cell) (cs : List Call) (s0 s : St)
    (os : List Seen) (hm : makeContainer hint mem = some s0) (hp : ∀ n, (mem n).plain)
    (hok : ∀ c ∈ cs, c.ok) (hd : Distinct cs) (hr : run s0 cs = some (s, os)) (fuel : Nat)
    (hf : s.t.mod < fuel) :
    ∃ es, iterate s fuel 0 = some es ∧
      (es.map (view s)).Perm (Spec.run ⟨[], mem⟩ cs).1.view := by
  refine ⟨_, iterate_eq s fuel 0 (by omega), ?_⟩
  rw [List.map_map, Nat.sub_zero, ← List.range_eq_range']
  exact view_perm (history_rel hm hp hok hd hr).1

/-- Entries a host adds by name carry that name as their key. -/
theorem C61_keys (a : Spec) (cs : List Call) (hk : ∀ e ∈ a.ents, e.key = some e.name)
    (h : ∀ c ∈ cs, ∀ n st, c ≠ .get n st) : ∀ e ∈ (a.run cs).1.ents, e.key = some e.name := by
  induction cs generalizing a with
  | nil => exact hk
  | cons c cs ih =>
    refine ih _ ?_ (fun c h' => h c (List.mem_cons_of_mem _ h'))
    have put : ∀ {b : Spec} {e : Ent}, (∀ e ∈ b.ents, e.key = some e.name) → e.key = some e.name →
        ∀ x ∈ (b.put e).ents, x.key = some x.name := by
      intro b e hb he x hx
      rcases mem_put.mp hx with rfl | ⟨hx, _⟩
      · exact he
      · exact hb x hx
    have asg : ∀ {b : Spec} {e : Ent} {st : Option Cell}, (∀ e ∈ b.ents, e.key = some e.name) →
        e.key = some e.name → ∀ x ∈ (b.assign? e st).ents, x.key = some x.name := by
      intro b e st hb he x hx
      cases st with
      | none => exact hb x hx
      | some c =>
        simp only [Spec.assign?, Spec.assign] at hx
        split at hx
        · split at hx
          · exact hb x hx
          · exact put hb (e := { e with val := c }) he x hx
        · exact put hb (e := { e with val := c }) he x hx
    have hc := h c List.mem_cons_self
    cases c with
    | get n st => exact absurd rfl (hc n st)
    | addInt n i => exact put hk rfl
    | addFloat n i => exact put hk rfl
    | addValue n i => exact put hk rfl
    | addArray n p i => exact put hk rfl
    | hvAdd n st =>
      have : ((a.find n).getD ⟨n, zero, some n⟩).key = some ((a.find n).getD ⟨n, zero, some n⟩).name := by
        cases hf : a.find n with
        | none => rfl
        | some e => exact hk e (find_some hf).1
      exact asg (put hk this) this
    | hvGet n st =>
      simp only [Spec.step]
      cases hf : a.find n with
      | none => exact hk
      | some e => exact asg hk (hk e (find_some hf).1)

/-! ### Memory -/

theorem freeAll_perm (ids : List Nat) : ∀ {s : St} {rest : List Nat}, s.live.Perm (ids ++ rest) →
    ∃ s', freeAll ids s = some s' ∧ s'.live.Perm rest ∧ s'.hdr = s.hdr := by
  induction ids with
  | nil => intro s rest h; exact ⟨s, rfl, h, rfl⟩
  | cons id ids ih =>
    intro s rest h
    have hm : id ∈ s.live := h.symm.subset (by simp)
    have hf : free s id = some { s with live := s.live.erase id } := by simp [free, hm]
    have h' : (s.live.erase id).Perm (ids ++ rest) := by
      have := h.erase id
      rwa [List.cons_append, List.erase_cons_head] at this
    obtain ⟨s', h1, h2, h3⟩ := ih (s := { s with live := s.live.erase id }) h'
    exact ⟨s', by simp only [freeAll, hf]; exact h1, h2, h3⟩

theorem freeChain_perm (os : List Obj) : ∀ {s : St} {rest : List Nat},
    s.live.Perm (os.flatMap Obj.blocks ++ rest) →
    ∃ s', freeChain os s = some s' ∧ s'.live.Perm rest ∧ s'.hdr = s.hdr := by
  induction os with
  | nil => intro s rest h; exact ⟨s, rfl, h, rfl⟩
  | cons o os ih =>
    intro s rest h
    rw [List.flatMap_cons, List.append_assoc] at h
    obtain ⟨s1, h1, h2, h3⟩ := freeAll_perm o.blocks h
    obtain ⟨s2, h4, h5, h6⟩ := ih h2
    exact ⟨s2, by simp only [freeChain, h1]; exact h4, h5, by rw [h6, h3]⟩

/-- **C61** (memory).  After any sequence of calls whatever, `wr_destroyContainer` frees only blocks
that are live, each of them once, and of all the blocks allocated by these calls exactly the key
strings that belong to the context (`addHashTableValue`) remain. -/
theorem C61_destroy (hint : Word16) (mem : Nat → Cell) (cs : List Call) (s0 s : St) (os : List Seen)
    (hm : makeContainer hint mem = some s0) (hr : run s0 cs = some (s, os)) :
    ∃ s', destroy s = some s' ∧ s'.live.Perm (s.ctx.flatMap Obj.blocks) ∧ s.live.Nodup ∧
      ((∀ c ∈ cs, c.usesContext = false) → s'.live = []) := by
  obtain ⟨_, _, m0, c0⟩ := make_t hm
  obtain ⟨m, hc⟩ := run_mem m0 hr
  have hp : s.live.Perm (s.chain.flatMap Obj.blocks ++ (s.hdr :: s.ctx.flatMap Obj.blocks)) := by
    refine m.perm.trans ?_
    rw [List.flatMap_append]
    exact List.perm_middle.symm
  obtain ⟨s1, h1, h2, h3⟩ := freeChain_perm s.chain hp
  have hm1 : s.hdr ∈ s1.live := h2.symm.subset (by simp)
  have h4 : (s1.live.erase s.hdr).Perm (s.ctx.flatMap Obj.blocks) := by
    have := h2.erase s.hdr
    rwa [List.erase_cons_head] at this
  refine ⟨{ s1 with live := s1.live.erase s.hdr }, ?_, h4, m.nd, ?_⟩
  · simp only [destroy, h1, free]
    rw [if_pos hm1]
  · intro hx
    rw [hc hx, c0] at h4
    exact List.Perm.eq_nil h4

/-- **C61** (the only failure).  A container call fails to complete only when every larger prime has
been tried and cannot place the keys. -/
theorem C61_only_exhaustion_fails (hint : Word16) (mem : Nat → Cell) (cs : List Call) (s0 s : St)
    (os : List Seen) (hm : makeContainer hint mem = some s0) (hp : ∀ n, (mem n).plain)
    (c : Call) (hok : ∀ d ∈ cs ++ [c], d.ok) (hd : Distinct (cs ++ [c]))
    (hr : run s0 cs = some (s, os)) (hf : step s c = none) :
    ∀ p ∈ primeTable, s.t.mod < p → propose s.t.mod s.t.slots (wrHash c.name) p = none := by
  have hsub : ∀ d ∈ cs, d ∈ cs ++ [c] := fun d h => List.mem_append_left _ h
  have hcm : c ∈ cs ++ [c] := by simp
  have hd' : Distinct cs := ⟨fun d h => hd.1 d (hsub d h), fun d h e h' => hd.2 d (hsub d h) e (hsub e h')⟩
  obtain ⟨R, ho, hin⟩ := run_rel (U := cs.map Call.name) (fun c h => List.mem_map_of_mem h)
    (by
      intro n hn
      obtain ⟨c, hc, rfl⟩ := List.mem_map.mp hn
      exact hd'.1 c hc)
    (by
      intro n hn m hm h
      obtain ⟨c, hc, rfl⟩ := List.mem_map.mp hn
      obtain ⟨d, hd, rfl⟩ := List.mem_map.mp hm
      exact hd'.2 c hc d hd h) (fun d h => hok d (hsub d h)) (make_rel hm hp) (fun e he => by cases he) hr
  generalize (Spec.run ⟨[], mem⟩ cs).1 = a at R hin
  have F : Fits a c.name := by
    refine ⟨hd.1 c hcm, fun e he h => ?_⟩
    obtain ⟨d, hdm, hn⟩ := List.mem_map.mp (hin e he)
    rw [← hn] at h ⊢
    exact hd.2 d (hsub d hdm) c hcm h
  have hokc := hok c hcm
  have grow_none : ∀ {q : St} {h : Word32} {hint : Nat}, grow q h hint = none →
      growHash (zero, zero) () q.t h hint = none := by
    intro q h hint hg
    unfold grow at hg
    cases hh : growHash (zero, zero) () q.t h hint with
    | none => rfl
    | some p => rw [hh] at hg; simp only [tryBlocks_eq] at hg; cases hg
  have idx_none : ∀ {q : St} {h : Word32}, getIdx q h = none → getIndexOfHit (zero, zero) () q.t h = none := by
    intro q h hg
    unfold getIdx at hg
    unfold getIndexOfHit
    cases hp : probe q.t.mod q.t.slots h false with
    | hit j => rw [hp] at hg; cases hg
    | insert j => rw [hp] at hg; cases hg
    | miss =>
      rw [hp] at hg
      simp only at hg ⊢
      unfold getInsert at hg
      unfold hitInsert
      cases hq : probe q.t.mod q.t.slots h true with
      | hit j => rw [hq] at hg; cases hg
      | insert j => rw [hq] at hg; cases hg
      | miss => rw [hq] at hg; exact grow_none hg
  have done : getIndexOfHit (zero, zero) () s.t (wrHash c.name) = none →
      ∀ p ∈ primeTable, s.t.mod < p → propose s.t.mod s.t.slots (wrHash c.name) p = none :=
    getIndexOfHit_fails R.inv F.real
  have add_none : ∀ {n : List Byte}, 0#8 ∉ n → addEx s n = none →
      getIndexOfHit (zero, zero) () s.t (wrHash n) = none := by
    intro n h0 hg
    unfold addEx at hg
    simp only [cstr_eq h0, newStr_eq] at hg
    split at hg
    · rename_i h1; exact (idx_none h1 :)
    · cases hg
  apply done
  cases c with
  | addInt n i => simp only [step, Option.map_eq_none_iff] at hf; exact add_none hokc hf
  | addFloat n i => simp only [step, Option.map_eq_none_iff] at hf; exact add_none hokc hf
  | addValue n i => simp only [step, Option.map_eq_none_iff] at hf; exact add_none hokc hf
  | addArray n p i => simp only [step, Option.map_eq_none_iff] at hf; exact add_none hokc.1 hf
  | get n st =>
    simp only [step, Option.map_eq_none_iff, cstr_eq hokc.1] at hf
    exact idx_none hf
  | hvAdd n st =>
    simp only [step, Option.map_eq_none_iff] at hf
    unfold hvAdd at hf
    simp only [hashStr_eq hokc.1] at hf
    rcases R.exists F with ⟨hn, hx⟩ | ⟨e, i, hn, he, hnm, hx, h1, h2, h3, h4⟩
    · simp only [Call.name] at hx hn
      rw [hx] at hf
      simp only at hf
      cases hgi : getIdx s (wrHash n) with
      | none => exact idx_none hgi
      | some q =>
        exfalso
        obtain ⟨s2, j⟩ := q
        rw [hgi] at hf
        have G := R.get F hgi
        simp only [Call.name, hn, Option.getD_none] at G
        obtain ⟨_, _, _, _, hv, _⟩ := G
        simp only [Option.map_eq_none_iff] at hf
        have hz : ∀ (q : St) (j : Nat), (q.t.vals j).1 = zero → derefEntry q j = some (.slot j) := by
          intro q j h
          unfold derefEntry
          rw [h]
          have h1 : zero.isRef = false := by decide
          have h2 : zero.isMember = false := by decide
          rw [h1, h2]
          simp
        rw [hz _ j (by show (upd s2.t.vals j _ j).1 = _; rw [upd_same]; exact hv)] at hf
        cases hf
    · exfalso
      simp only [Call.name] at hx hn
      rw [hx] at hf
      simp only [Option.map_eq_none_iff] at hf
      obtain ⟨p', hp', _⟩ := R.deref he h1 h2 h3 h4 none (fun c h => by cases h)
      rw [hp'] at hf
      cases hf
  | hvGet n st =>
    exfalso
    simp only [step, Option.map_eq_none_iff] at hf
    unfold hvGet at hf
    simp only [hashStr_eq hokc.1] at hf
    rcases R.exists F with ⟨hn, hx⟩ | ⟨e, i, hn, he, hnm, hx, h1, h2, h3, h4⟩
    · simp only [Call.name] at hx
      rw [hx] at hf
      cases hf
    · simp only [Call.name] at hx
      rw [hx] at hf
      simp only [Option.map_eq_none_iff] at hf
      obtain ⟨p', hp', _⟩ := R.deref he h1 h2 h3 h4 none (fun c h => by cases h)
      rw [hp'] at hf
      cases hf

/-! ### Arrays -/

theorem iterateArray_from (size : Word32) : ∀ (n fuel : Nat) (el : Word32), el.toNat + n = size.toNat →
    n < fuel → ∃ is, iterateArray size fuel el = some is ∧ is.map BitVec.toNat = List.range' el.toNat n := by
  intro n
  induction n with
  | zero =>
    intro fuel el he hf
    cases fuel with
    | zero => omega
    | succ f =>
      refine ⟨[], ?_, rfl⟩
      unfold iterateArray
      rw [if_neg (by rw [BitVec.lt_def]; omega)]
  | succ n ih =>
    intro fuel el he hf
    cases fuel with
    | zero => omega
    | succ f =>
      have hlt : (el + 1).toNat = el.toNat + 1 := by
        rw [BitVec.toNat_add]
        have := size.isLt
        have h1 : (1 : Word32).toNat = 1 := rfl
        rw [h1]
        omega
      obtain ⟨is, h1, h2⟩ := ih f (el + 1) (by omega) (by omega)
      refine ⟨el :: is, ?_, ?_⟩
      · conv => lhs; unfold iterateArray
        rw [if_pos (by rw [BitVec.lt_def]; omega), h1]
      · rw [List.map_cons, h2, hlt, List.range'_succ]

/-- **C61** (arrays and strings).  The host iterator visits the elements `0 … size-1` in order, each
once, for every size an array can have. -/
theorem C61_arrays (size : Word32) (fuel : Nat) (hf : size.toNat < fuel) :
    ∃ is, iterateArray size fuel 0 = some is ∧ is.map BitVec.toNat = List.range size.toNat := by
  obtain ⟨is, h1, h2⟩ := iterateArray_from size size.toNat fuel 0 (by simp) hf
  exact ⟨is, h1, by rw [h2, List.range_eq_range']; rfl⟩

/-- **C61** (raw arrays).  Below 2 MiB `isRawArray` recognises what `wr_addArrayToContainer` stored
and reports its size. -/
theorem C61_raw_size (p : Nat) (size : Word32) (h : size.toNat < 2 ^ 21) :
    (Cell.mk (.raw p) (asRawArray ||| (size <<< 8))).isRaw = true ∧
    (Cell.mk (.raw p) (asRawArray ||| (size <<< 8))).rawSize = size := by
  have e0 : ∀ k, 21 ≤ k → size.getLsbD k = false := by
    intro k hk
    rw [BitVec.getLsbD]
    exact Nat.testBit_lt_two_pow (Nat.lt_of_lt_of_le h (Nat.pow_le_pow_right (by omega) hk))
  constructor
  · show (((asRawArray ||| (size <<< 8)) >>> 24) &&& 0xE0#32 == 0x20#32) = true
    rw [beq_iff_eq]
    apply BitVec.eq_of_getLsbD_eq
    intro k hk
    simp only [BitVec.getLsbD_and, BitVec.getLsbD_ushiftRight, BitVec.getLsbD_or, BitVec.getLsbD_shiftLeft,
      asRawArray]
    have hcases : k = 5 ∨ k = 6 ∨ k = 7 ∨ (0xE0#32).getLsbD k = false := by
      by_cases h8 : k < 8
      · have : k = 0 ∨ k = 1 ∨ k = 2 ∨ k = 3 ∨ k = 4 ∨ k = 5 ∨ k = 6 ∨ k = 7 := by omega
        rcases this with rfl | rfl | rfl | rfl | rfl | rfl | rfl | rfl <;> decide
      · right; right; right
        rw [BitVec.getLsbD]
        exact Nat.testBit_lt_two_pow (Nat.lt_of_lt_of_le (by decide : (0xE0#32).toNat < 2 ^ 8)
          (Nat.pow_le_pow_right (by omega) (by omega)))
    rcases hcases with rfl | rfl | rfl | h0
    · have : (0x20000003#32).getLsbD (24 + 5) = true := by decide
      rw [this, Bool.true_or]; decide
    · rw [e0 (24 + 6 - 8) (by omega)]; decide
    · rw [e0 (24 + 7 - 8) (by omega)]; decide
    · rw [h0, Bool.and_false]
      symm
      by_cases h5 : k = 5
      · subst h5; exact absurd h0 (by decide)
      · rw [BitVec.getLsbD]
        show Nat.testBit (2 ^ 5) k = false
        rw [Nat.testBit_two_pow]
        simp; omega
  · show ((asRawArray ||| (size <<< 8)) &&& 0x1FFFFF00#32) >>> 8 = size
    apply BitVec.eq_of_getLsbD_eq
    intro k hk
    simp only [BitVec.getLsbD_and, BitVec.getLsbD_ushiftRight, BitVec.getLsbD_or, BitVec.getLsbD_shiftLeft,
      asRawArray]
    by_cases h21 : k < 21
    · have hm : (0x1FFFFF00#32).getLsbD (8 + k) = true := by
        have : ∀ j : Fin 21, (0x1FFFFF00#32).getLsbD (8 + j.val) = true := by decide
        exact this ⟨k, h21⟩
      have hr : (0x20000003#32).getLsbD (8 + k) = false := by
        have : ∀ j : Fin 21, (0x20000003#32).getLsbD (8 + j.val) = false := by decide
        exact this ⟨k, h21⟩
      rw [hm, hr]
      simp
      omega
    · rw [e0 k (by omega)]
      have hm : (0x1FFFFF00#32).getLsbD (8 + k) = false := by
        rw [BitVec.getLsbD]
        exact Nat.testBit_lt_two_pow (Nat.lt_of_lt_of_le (by decide : (0x1FFFFF00#32).toNat < 2 ^ 29)
          (Nat.pow_le_pow_right (by omega) (by omega)))
      rw [hm, Bool.and_false]

/-! ### A case meeting the hypotheses -/

/-- A history that makes the table grow, overwrites, refers to a variable and looks a missing name
up. -/
def sample : List Call :=
  [.addInt [0x61#8] 1#32, .addValue [0x62#8] 7, .addInt [0x63#8] 3#32, .addInt [0x61#8] 4#32,
   .hvAdd [0x62#8] (some ⟨.word 9#32, asInt⟩), .addArray [0x64#8] 2 100#32, .get [0x65#8] none,
   .hvGet [0x66#8] none, .get [0x61#8] none]

def sampleMem : Nat → Cell := fun _ => zero

/-- What the host sees in the sample. -/
def seen (hint : Word16) (cs : List Call) : Option (List Seen) :=
  (makeContainer hint sampleMem).bind fun s => (run s cs).map (·.2)

/-- What an iteration shows. -/
def shown (hint : Word16) (cs : List Call) : Option (List (Option (List Byte) × Cell)) :=
  (makeContainer hint sampleMem).bind fun s =>
    (run s cs).bind fun r => (iterate r.1 100 0).map fun es => es.map (view r.1)

example : seen 0 sample = some [.unit, .unit, .unit, .unit, .cell zero, .unit, .cell zero, .null,
    .cell ⟨.word 4#32, asInt⟩] := by decide +kernel

example : (Spec.run ⟨[], sampleMem⟩ sample).1.view =
    [(some [0x61#8], ⟨.word 4#32, asInt⟩), (some [0x62#8], ⟨.word 9#32, asInt⟩),
     (some [0x63#8], ⟨.word 3#32, asInt⟩), (some [0x64#8], ⟨.raw 2, 0x20006403#32⟩), (none, zero)] := by
  decide +kernel

example : Distinct sample := by
  unfold Distinct
  decide +kernel

example : ∀ c ∈ sample, c.ok := by
  intro c hc
  have hz : (Cell.mk (.word 9#32) asInt).plain :=
    ⟨by simp only [Cell.isRef]; decide, by simp only [Cell.isMember]; decide⟩
  simp only [sample, List.mem_cons, List.not_mem_nil, or_false] at hc
  rcases hc with rfl | rfl | rfl | rfl | rfl | rfl | rfl | rfl | rfl
  · exact (by decide : 0#8 ∉ [0x61#8])
  · exact (by decide : 0#8 ∉ [0x62#8])
  · exact (by decide : 0#8 ∉ [0x63#8])
  · exact (by decide : 0#8 ∉ [0x61#8])
  · exact ⟨by decide, fun c h => by cases h; exact hz⟩
  · exact ⟨by decide, by decide⟩
  · exact ⟨by decide, fun c h => by cases h⟩
  · exact ⟨by decide, fun c h => by cases h⟩
  · exact ⟨by decide, fun c h => by cases h⟩

example : ∃ is, iterateArray 3#32 4 0 = some is ∧ is.map BitVec.toNat = [0, 1, 2] :=
  C61_arrays 3#32 4 (by decide)

example : (Cell.mk (.raw 0) (asRawArray ||| (0x1FFFFF#32 <<< 8))).rawSize = 0x1FFFFF#32 :=
  (C61_raw_size 0 _ (by decide)).2

/-! ### Where the code departs -/

/-- A name with an 8-bit character added by `wr_addIntToContainer` is not found by
`getHashTableValue`: the two hash its bytes differently. -/
theorem C61_high_bytes :
    seen 0 [.addInt [0xE9#8] 5#32, .hvGet [0xE9#8] none] = some [.unit, .null] := by decide +kernel

/-- A raw array of 2 MiB is stored as one of size 0; one of 4 MiB is no raw array at all. -/
theorem C61_large_array :
    (Cell.mk (.raw 0) (asRawArray ||| (0x200000#32 <<< 8))).rawSize = 0#32 ∧
    (Cell.mk (.raw 0) (asRawArray ||| (0x400000#32 <<< 8))).isRaw = false := by decide

/-- `wr_getValueFromContainer` of a name that is not there makes an entry, which an iteration shows
with the key 0. -/
theorem C61_lookup_creates :
    shown 0 [.get [0x61#8] none] = some [(none, zero)] := by decide +kernel

/-- Two names of one hash are one entry. -/
theorem C61_colliding_names :
    seen 0 [.addInt [0x63#8, 0x6f#8, 0x73#8, 0x74#8, 0x61#8, 0x72#8, 0x72#8, 0x69#8, 0x6e#8, 0x67#8] 1#32,
      .addInt [0x6c#8, 0x69#8, 0x71#8, 0x75#8, 0x69#8, 0x64#8] 2#32,
      .get [0x63#8, 0x6f#8, 0x73#8, 0x74#8, 0x61#8, 0x72#8, 0x72#8, 0x69#8, 0x6e#8, 0x67#8] none]
      = some [.unit, .unit, .cell ⟨.word 2#32, asInt⟩] := by decide +kernel

/-- `isHashTable(&members)` counts the size hint as members: an empty container made with a hint of
10 reports 10. -/
theorem C61_hint_counts :
    (makeContainer 10 sampleMem).map members = some 10#32 ∧ shown 10 [] = some [] := by decide +kernel

/-- A size hint of 49157 or more runs off the table of primes. -/
theorem C61_hint_too_large : (makeContainer 49157 sampleMem).isNone = true := by decide +kernel

end Wrench.HostCont
