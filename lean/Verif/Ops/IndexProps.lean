import Verif.Ops.Index
import Verif.Ops.Assign

/-
C44: `a[i]` reaches exactly element `i`.
-/
namespace Wrench.Ops

private theorem n2 {b : Addr} (hb : b.real = true) : b ≠ .t2 := by
  rintro rfl; simp [Addr.real] at hb

/-! ### What a container operand names -/

/-- `Names σ mb k a v`: the operand at `a` names the variable or element `v`, through at most
`k` references and (with `mb`) container members.  `a` itself is the trivial case. -/
inductive Names (σ : St) (mb : Bool) : Nat → Addr → Addr → Prop where
  | here {k v} : v.real = true → (σ.cell v).plain = true → Names σ mb k v v
  | ref {k a r v} : σ.cell a = .ref r → r.real = true → Names σ mb k r v → Names σ mb (k + 1) a v
  | velem {k a b s o n} : mb = true → σ.cell a = .mem b s → b.real = true → σ.cell b = .arr o →
      σ.obj o = .vals n → s < n → (σ.cell (.elem o s)).plain = true →
      Names σ mb (k + 1) a (.elem o s)
  | helem {k a e v} : mb = true → σ.cell a = .hmem e → e.real = true → Names σ mb k e v →
      Names σ mb (k + 1) a v

theorem Names.real {σ : St} {mb : Bool} {k : Nat} {a v : Addr} (h : Names σ mb k a v) :
    v.real = true := by
  induction h <;> first | assumption | rfl

theorem Names.same {σ τ : St} {mb : Bool} {k : Nat} {a v : Addr} (h : Names σ mb k a v)
    (hs : SameReal σ τ) (ha : τ.cell a = σ.cell a) : Names τ mb k a v := by
  induction h with
  | here h h' => exact .here h (by rw [ha]; exact h')
  | ref h1 h2 _ ih => exact .ref (by rw [ha, h1]) h2 (ih (hs.cell _ h2))
  | @velem k a b s o n h0 h1 h2 h3 h4 h5 h6 =>
    exact .velem h0 (by rw [ha, h1]) h2 (by rw [hs.cell _ h2, h3]) (by rw [hs.obj, h4]) h5
      (by rw [hs.cell (.elem o s) rfl]; exact h6)
  | helem h0 h1 h2 _ ih => exact .helem h0 (by rw [ha, h1]) h2 (ih (hs.cell _ h2))

theorem deref_names {mb : Bool} : ∀ {k : Nat} {σ : St} {a v : Addr}, Names σ mb k a v →
    ∀ n, ∃ τ, deref (n + k + 1) σ a = .ok (τ, v) ∧ SameReal σ τ ∧
      (∀ x, x ≠ .t2 → τ.cell x = σ.cell x) ∧ (∀ w, σ.cell .t2 = .int w → τ.cell .t2 = .int w) := by
  have dp : ∀ {σ : St} {a : Addr} (_ : (σ.cell a).plain = true) (f : Nat),
      deref (f + 1) σ a = .ok (σ, a) := by
    intro σ a h f
    unfold deref
    split <;> simp_all [Val.plain]
  intro k
  induction k with
  | zero =>
    intro σ a v h n
    cases h with
    | here h h' => exact ⟨σ, dp h' _, .refl σ, fun _ _ => rfl, fun _ h => h⟩
  | succ k ih =>
    intro σ a v h n
    show ∃ τ, deref (n + k + 1 + 1) σ a = .ok (τ, v) ∧ _
    cases h with
    | here h h' => exact ⟨σ, dp h' _, .refl σ, fun _ _ => rfl, fun _ h => h⟩
    | @ref _ _ r _ h1 h2 h3 =>
      obtain ⟨τ, e1, e2, e3, e4⟩ := ih h3 n
      exact ⟨τ, by rw [deref, h1]; exact e1, e2, e3, e4⟩
    | @velem _ _ b s o m h0 h1 h2 h3 h4 h5 h6 =>
      refine ⟨σ.set .t2 (σ.cell .t2).retypeInt, ?_, sameReal_set σ _ rfl,
        fun x hx => St.set_ne _ _ hx, fun w hw => by rw [St.set_same, hw]; rfl⟩
      rw [deref, h1]
      simp only [St.set_ne _ _ (n2 h2), h3, St.set_obj, h4, h5, if_true]
    | @helem _ _ e _ h0 h1 h2 h3 =>
      have hs : SameReal σ (σ.set .t2 (σ.cell .t2).retypeInt) := sameReal_set σ _ rfl
      obtain ⟨τ, e1, e2, e3, e4⟩ := ih (h3.same hs (St.set_ne _ _ (n2 h2))) n
      refine ⟨τ, by rw [deref, h1]; exact e1, hs.trans e2, ?_, ?_⟩
      · intro x hx
        rw [e3 x hx, St.set_ne _ _ hx]
      · intro w hw
        exact e4 w (by rw [St.set_same, hw]; rfl)

/-- What happens once the container cell `v` and the index `w` are known. -/
private def atArr (σ : St) (w : Word32) (o : Nat) (v tgt : Addr) : Res St :=
  match σ.obj o with
  | .vals n =>
    if w.toNat < n then elemTo σ w tgt v
    else if w.toInt < 0 then .ub else elemTo (growArr σ o w.toNat) w tgt v
  | .chars bs nc =>
    if w.toNat < bs.length then elemTo σ w tgt v
    else if nc then .ok (σ.set tgt (.int 0))
    else if w.toInt < 0 then .ub else elemTo (growArr σ o w.toNat) w tgt v
  | .other => .ub

private theorem indexIE_arr {mb : Bool} {k : Nat} {σ : St} {ix value v tgt : Addr} {o : Nat}
    {w : Word32} (h : Names σ mb k value v) (hv : σ.cell v = .arr o)
    (hx : σ.cell ix = .int w) (d : Nat) :
    ∃ τ, indexIE (d + k + 1) σ ix value tgt = atArr τ w o v tgt ∧ SameReal σ τ ∧
      (∀ x, x ≠ .t2 → τ.cell x = σ.cell x) := by
  obtain ⟨τ, e1, e2, e3, e4⟩ := deref_names h d
  have hvτ : τ.cell v = .arr o := by rw [e3 v (n2 h.real), hv]
  have hxτ : τ.cell ix = .int w := by
    by_cases hi : ix = .t2
    · subst hi; exact e4 w hx
    · rw [e3 ix hi, hx]
  refine ⟨τ, ?_, e2, e3⟩
  have hr : (do
      let (σ, l) ← deref (d + k + 1) σ value
      match σ.cell l with
      | .tbl _ => .ub
      | .strct _ => .ub
      | .raw _ n => do
        let w ← (σ.cell ix).bits
        if w.toNat ≥ n then return σ.set tgt (.int 0) else elemTo σ w tgt l
      | .arr o => do
        let w ← (σ.cell ix).bits
        match σ.obj o with
        | .vals n =>
          if w.toNat < n then elemTo σ w tgt l
          else if w.toInt < 0 then .ub else elemTo (growArr σ o w.toNat) w tgt l
        | .chars bs nc =>
          if w.toNat < bs.length then elemTo σ w tgt l
          else if nc then return σ.set tgt (.int 0)
          else if w.toInt < 0 then .ub else elemTo (growArr σ o w.toNat) w tgt l
        | .other => .ub
      | _ => match σ.cell ix with
        | .int w => indexIX σ w l tgt
        | _ => .ub) = atArr τ w o v tgt := by
    simp only [e1, res_bind_ok, hvτ, hxτ, Val.bits, res_pure]
    rfl
  rw [indexIE]
  split
  · next b s hb =>
    split
    · next p n hraw =>
      -- the named cell would be an element of a raw array
      cases h with
      | here _ hp => rw [hv] at hb; cases hb
      | ref h1 => rw [h1] at hb; cases hb
      | velem _ h1 _ h3 =>
        rw [h1] at hb; injection hb with e _; subst e
        rw [h3] at hraw; cases hraw
      | helem _ h1 => rw [h1] at hb; cases hb
    · exact hr
  · exact hr

private theorem index_arr {mi mb : Bool} : ∀ {N : Nat} {σ : St} {ki k : Nat}
    {idx value v tgt : Addr} {o : Nat} {w : Word32}, ki + k ≤ N → value.real = true →
    Reads σ mi ki idx (.int w) → Names σ mb k value v → σ.cell v = .arr o →
    ∀ d, ∃ τ, index (d + ki + k + 2) σ idx value tgt = atArr τ w o v tgt ∧
      SameReal σ τ ∧ (∀ x, x ≠ .t2 → τ.cell x = σ.cell x) := by
  intro N
  induction N using Nat.strongRecOn with
  | _ N ihN =>
    intro σ ki k idx value v tgt o w hN hre hi hn hv d
    have hval : (σ.cell value).ty = .E ∨ ∃ r k', σ.cell value = .ref r ∧ r.real = true ∧
        k = k' + 1 ∧ Names σ mb k' r v := by
      cases hn with
      | here _ _ => left; rw [hv]; rfl
      | ref h1 h2 h3 => exact .inr ⟨_, _, h1, h2, rfl, h3⟩
      | velem _ h1 => left; rw [h1]; rfl
      | helem _ h1 => left; rw [h1]; rfl
    have hidx : σ.cell idx = .int w ∨ (∃ r ki', σ.cell idx = .ref r ∧ ki = ki' + 1 ∧
        Reads σ mi ki' r (.int w)) ∨ (σ.cell idx).ty = .E := by
      generalize hq : (Val.int w) = q at hi
      cases hi with
      | here _ => left; rfl
      | ref h1 h2 h3 => exact .inr (.inl ⟨_, _, h1, rfl, hq ▸ h3⟩)
      | velem _ h1 => right; right; rw [h1]; rfl
      | celem _ h1 => right; right; rw [h1]; rfl
      | relem _ h1 => right; right; rw [h1]; rfl
      | helem _ h1 => right; right; rw [h1]; rfl
    have tI : (Val.int w).ty = .I := rfl
    have tR : ∀ r, (Val.ref r).ty = .R := fun _ => rfl
    rw [index]
    rcases hidx with hI | ⟨r, ki', hr, rfl, hi'⟩ | hE
    · rcases hval with hvE | ⟨b, k', hb, hbr, rfl, hn'⟩
      · simp only [hI, hvE, tI]
        rw [show d + ki + k + 1 = (d + ki) + k + 1 by omega]
        exact indexIE_arr hn hv hI _
      · simp only [hI, hb, tI, tR]
        rw [show d + ki + (k' + 1) + 1 = d + ki + k' + 2 by omega]
        exact ihN (ki + k') (by omega) (Nat.le_refl _) hbr hi hn' hv d
    · rcases hval with hvE | ⟨b, k', hb, hbr, rfl, hn'⟩
      · simp only [hr, hvE, tR]
        rw [show d + (ki' + 1) + k + 1 = d + ki' + k + 2 by omega]
        exact ihN (ki' + k) (by omega) (Nat.le_refl _) hre hi' hn hv d
      · simp only [hr, hb, tR]
        rw [show d + (ki' + 1) + (k' + 1) + 1 = (d + 1) + ki' + k' + 2 by omega]
        exact ihN (ki' + k') (by omega) (Nat.le_refl _) hbr hi' hn' hv (d + 1)
    · rcases hval with hvE | ⟨b, k', hb, hbr, rfl, hn'⟩
      · simp only [hE, hvE]
        obtain ⟨τ, l, e1, e2, e3, e4, -⟩ := deref_reads hi (d + k)
        have hN2 : Names τ mb k value v := hn.same e3 (e4 _ (n2 hre))
        obtain ⟨υ, g1, g2, g3⟩ := indexIE_arr (tgt := tgt) hN2
          (by rw [e3.cell _ hn.real, hv]) e2 (d + ki)
        refine ⟨υ, ?_, e3.trans g2, fun x hx => by rw [g3 x hx, e4 x hx]⟩
        rw [show d + ki + k + 1 = d + k + ki + 1 by omega, e1]
        simp only [res_bind_ok, e2]
        rw [show d + k + ki + 1 = d + ki + k + 1 by omega]
        exact g1
      · simp only [hE, hb, tR]
        rw [show d + ki + (k' + 1) + 1 = d + ki + k' + 2 by omega]
        exact ihN (ki + k') (by omega) (Nat.le_refl _) hbr hi hn' hv d

/-! ### C44: arrays -/

/-- The state after `a[w]` where `a` is the array `o` of `n` elements held by `v`: the target
designates element `w`; the array has at least `w + 1` elements, the added ones 0; everything
else is as before. -/
structure Indexed (σ τ : St) (v : Addr) (o n w : Nat) (tgt : Addr) : Prop where
  target : τ.cell tgt = .mem v w
  size : τ.obj o = .vals (max n (w + 1))
  objs : ∀ p, p ≠ o → τ.obj p = σ.obj p
  added : ∀ i, n ≤ i → i ≤ w → τ.cell (.elem o i) = .int 0
  rest : ∀ a, a.real = true → a ≠ tgt → (∀ i, n ≤ i → a ≠ .elem o i) → τ.cell a = σ.cell a
  raw : τ.rawMem = σ.rawMem

/-- C44: `a[i]` for `0 ≤ i < 2^21` (the limit of the member encoding): the result designates
element `i` of the array the operand names; an array too short is grown to `i + 1` elements,
the new ones 0; nothing else changes.  The index may be a literal, a variable, or an element
of another container (`Reads`); the array may be a variable, an argument passed by reference,
or itself an element (`Names`). -/
theorem C44_index_partial {mi mb : Bool} {ki k : Nat} {σ : St}
    {idx value v tgt : Addr} {o n : Nat} {w : Word32} (hre : value.real = true)
    (hi : Reads σ mi ki idx (.int w)) (hn : Names σ mb k value v) (hv : σ.cell v = .arr o)
    (ho : σ.obj o = .vals n) (h21 : w.toNat < 2 ^ 21) (ht : tgt ≠ v)
    (hte : ∀ i, tgt ≠ .elem o i) (d : Nat) :
    ∃ τ, index (d + ki + k + 2) σ idx value tgt = .ok τ ∧ Indexed σ τ v o n w.toNat tgt := by
  obtain ⟨τ, e1, e2, -⟩ := index_arr (tgt := tgt) (Nat.le_refl _) hre hi hn hv d
  by_cases hw : w.toNat < n
  · refine ⟨τ.set tgt (.mem v w.toNat), ?_, ?_⟩
    · rw [e1, atArr, e2.obj, ho]
      simp only [hw, if_true, elemTo, ht, if_false, encElem, Nat.mod_eq_of_lt h21]
    · refine ⟨St.set_same .., ?_, fun p _ => by rw [St.set_obj, e2.obj], ?_, ?_, ?_⟩
      · rw [St.set_obj, e2.obj, ho, show max n (w.toNat + 1) = n by omega]
      · intro i h1 h2; omega
      · intro a ha hne _
        rw [St.set_ne _ _ hne, e2.cell a ha]
      · rw [St.set_raw, e2.raw]
  · have hnn : ¬ w.toInt < 0 := by
      rw [BitVec.toInt_eq_toNat_bmod]; unfold Int.bmod; dsimp only; split <;> omega
    refine ⟨(growArr τ o w.toNat).set tgt (.mem v w.toNat), ?_, ?_⟩
    · rw [e1, atArr, e2.obj, ho]
      simp only [hw, hnn, elemTo, ht, if_false, encElem, Nat.mod_eq_of_lt h21]
    · have ho' : τ.obj o = .vals n := by rw [e2.obj, ho]
      refine ⟨St.set_same .., ?_, ?_, ?_, ?_, ?_⟩
      · rw [St.set_obj, growArr, ho', show max n (w.toNat + 1) = w.toNat + 1 by omega]
        simp [St.setObj]
      · intro p hp
        rw [St.set_obj, growArr, ho']
        simp [St.setObj, hp, e2.obj]
      · intro i h1 h2
        rw [St.set_ne _ _ (hte i).symm, growArr, ho']
        simp [h1]
      · intro a ha hne hel
        rw [St.set_ne _ _ hne, growArr, ho', ← e2.cell a ha]
        cases a with
        | elem p i =>
          have : ¬ (p = o ∧ n ≤ i) := by rintro ⟨rfl, h⟩; exact hel i h rfl
          simp [this]
        | _ => rfl
      · rw [St.set_raw, growArr, ho']
        exact e2.raw

/-- C44, reading: the operand left by `a[i]` reads as the element's value (0 for an element
that did not exist). -/
theorem C44_read {σ τ : St} {v tgt : Addr} {o n w : Nat} (h : Indexed σ τ v o n w tgt)
    (hv : σ.cell v = .arr o) (hr : v.real = true) (hve : ∀ i, v ≠ .elem o i) (ht : tgt ≠ v)
    (hte : ∀ i, tgt ≠ .elem o i)
    (hp : w < n → (σ.cell (.elem o w)).plain = true) :
    Reads τ true 1 tgt (if w < n then σ.cell (.elem o w) else .int 0) := by
  have hv' : τ.cell v = .arr o := by rw [h.rest v hr ht.symm (fun i _ => hve i), hv]
  have hx : τ.cell (.elem o w) = if w < n then σ.cell (.elem o w) else .int 0 := by
    split
    · next hw =>
      exact h.rest _ rfl (hte w).symm (fun i hi => by rintro ⟨⟩; omega)
    · next hw => exact h.added w (by omega) (Nat.le_refl _)
  rw [← hx]
  refine .velem rfl h.target hr hv' h.size (by omega) ?_
  rw [hx]
  split
  · next hw => exact hp hw
  · rfl

/-- C44, writing: `a[i] = e` for `0 ≤ i < 2^21`.  Afterwards the array has `max n (i + 1)`
elements; element `i` is the value of `e`, every other element below `n` is as before, the
other added ones are 0; no other variable or object has changed (`tgt` is the stack slot the
intermediate result of `a[i]` is left in). -/
theorem C44_store_partial (E : Env) {mi mb mc : Bool} {ki k m : Nat} {σ : St}
    {idx value v tgt from_ : Addr} {o n : Nat} {w : Word32} {x : Val} (hre : value.real = true)
    (hi : Reads σ mi ki idx (.int w)) (hn : Names σ mb k value v) (hv : σ.cell v = .arr o)
    (ho : σ.obj o = .vals n) (h21 : w.toNat < 2 ^ 21) (ht : tgt ≠ v)
    (hte : ∀ i, tgt ≠ .elem o i) (htr : tgt.real = true) (hve : ∀ i, v ≠ .elem o i)
    (hfr : from_.real = true)
    (hx : ∀ τ, Indexed σ τ v o n w.toNat tgt → Reads τ mc m from_ x) (d : Nat) :
    ∃ τ υ, index (d + ki + k + 2) σ idx value tgt = .ok τ ∧
      assign E (d + m + 4) τ tgt from_ = .ok υ ∧
      υ.obj o = .vals (max n (w.toNat + 1)) ∧ (∀ p, p ≠ o → υ.obj p = σ.obj p) ∧
      (∀ i, i < max n (w.toNat + 1) → υ.cell (.elem o i) =
        if i = w.toNat then x else if i < n then σ.cell (.elem o i) else .int 0) ∧
      (∀ a, a.real = true → a ≠ tgt → (∀ i, a ≠ .elem o i) → υ.cell a = σ.cell a) := by
  obtain ⟨τ, e1, e2⟩ := C44_index_partial hre hi hn hv ho h21 ht hte d
  have hv' : τ.cell v = .arr o := by rw [e2.rest v hn.real ht.symm (fun i _ => hve i), hv]
  have hp : Place τ tgt (.elem o w.toNat) :=
    .elem e2.target hn.real hv' e2.size (by omega)
  obtain ⟨υ, g1, g2⟩ := C48_assignment_to_element E htr hfr hp (hx τ e2) d
  refine ⟨τ, υ, e1, g1, by rw [g2.obj, e2.size], fun p hp => by rw [g2.obj, e2.objs p hp], ?_, ?_⟩
  · intro i hil
    by_cases hiw : i = w.toNat
    · rw [if_pos hiw, hiw, g2.here]
    · rw [if_neg hiw, g2.cell _ rfl (by intro h; cases h; exact hiw rfl)]
      split
      · next h => exact e2.rest _ rfl (hte i).symm (fun j hj => by rintro ⟨⟩; omega)
      · next h => exact e2.added i (by omega) (by omega)
  · intro a ha hne hel
    rw [g2.cell a ha (hel _), e2.rest a ha hne (fun i _ => hel i)]

/-- C44, all index forms alike: whichever way two index operands come by the same integer, the
results of `a[i]` and `a[j]` are the same operand in the same state of real memory. -/
theorem C44_index_forms_agree {mi mj mb : Bool} {ki kj k : Nat} {σ : St}
    {idx jdx value v tgt : Addr} {o n : Nat} {w : Word32} (hre : value.real = true)
    (hi : Reads σ mi ki idx (.int w)) (hj : Reads σ mj kj jdx (.int w))
    (hn : Names σ mb k value v) (hv : σ.cell v = .arr o) (ho : σ.obj o = .vals n)
    (hw : w.toNat < n ∨ 0 ≤ w.toInt) (ht : tgt ≠ v) (d : Nat) :
    ∃ τ τ', index (d + ki + k + 2) σ idx value tgt = .ok τ ∧
      index (d + kj + k + 2) σ jdx value tgt = .ok τ' ∧ SameReal τ τ' ∧
      τ'.cell tgt = τ.cell tgt := by
  obtain ⟨τ, e1, e2, -⟩ := index_arr (tgt := tgt) (Nat.le_refl _) hre hi hn hv d
  obtain ⟨υ, g1, g2, -⟩ := index_arr (tgt := tgt) (Nat.le_refl _) hre hj hn hv d
  have hs : ∀ {α β : St}, SameReal α β → SameReal (α.set tgt (.mem v (encElem w)))
      (β.set tgt (.mem v (encElem w))) := by
    intro α β h
    refine ⟨?_, h.obj, h.next, h.raw⟩
    intro a ha
    by_cases hat : a = tgt
    · subst hat; rw [St.set_same, St.set_same]
    · rw [St.set_ne _ _ hat, St.set_ne _ _ hat, h.cell a ha]
  have hτυ : SameReal τ υ :=
    ⟨fun a ha => by rw [g2.cell a ha, e2.cell a ha], by rw [g2.obj, e2.obj],
      by rw [g2.next, e2.next], by rw [g2.raw, e2.raw]⟩
  by_cases hlt : w.toNat < n
  · refine ⟨_, _, ?_, ?_, hs hτυ, by rw [St.set_same, St.set_same]⟩
    · rw [e1, atArr, e2.obj, ho]
      simp only [hlt, if_true, elemTo, ht, if_false]
    · rw [g1, atArr, g2.obj, ho]
      simp only [hlt, if_true, elemTo, ht, if_false]
  · have hnn : ¬ w.toInt < 0 := by omega
    have hgr : SameReal (growArr τ o w.toNat) (growArr υ o w.toNat) := by
      rw [growArr, growArr, e2.obj, g2.obj, ho]
      refine ⟨?_, ?_, hτυ.next, hτυ.raw⟩
      · intro a ha
        cases a with
        | elem p i => simp [hτυ.cell (.elem p i) rfl]
        | cell c => exact hτυ.cell _ rfl
        | _ => simp [Addr.real] at ha
      · simp [St.setObj, e2.obj, g2.obj]
    refine ⟨_, _, ?_, ?_, hs hgr, by rw [St.set_same, St.set_same]⟩
    · rw [e1, atArr, e2.obj, ho]
      simp only [hlt, hnn, elemTo, ht, if_false]
    · rw [g1, atArr, g2.obj, ho]
      simp only [hlt, hnn, elemTo, ht, if_false]

/-- C44: indexing a returned array in place (`f()[i]`): the slot holding the array receives
element `i` itself. -/
theorem C44_index_returned_array {mi : Bool} {ki : Nat} {σ : St} {idx value : Addr} {o n : Nat}
    {w : Word32} (hre : value.real = true) (hi : Reads σ mi ki idx (.int w))
    (hv : σ.cell value = .arr o) (ho : σ.obj o = .vals n) (hw : w.toNat < n) (d : Nat) :
    ∃ τ, index (d + ki + 2) σ idx value value = .ok τ ∧
      OnlySet σ τ value (σ.cell (.elem o w.toNat)) := by
  obtain ⟨τ, e1, e2, -⟩ := index_arr (mb := false) (k := 0) (tgt := value) (Nat.le_refl _) hre hi
    (.here hre (by rw [hv]; rfl)) hv d
  refine ⟨τ.set value (τ.cell (.elem o w.toNat)), ?_, ?_⟩
  · have e1' : index (d + ki + 2) σ idx value value = atArr τ w o value value := e1
    have hv' : τ.cell value = .arr o := by rw [e2.cell _ hre, hv]
    rw [e1', atArr, e2.obj, ho]
    simp only [hw, if_true, elemTo, hv', e2.obj, ho]
  · rw [← e2.cell (.elem o w.toNat) rfl]
    exact e2.onlySet (onlySet_set ..)

/-! ### C44: strings -/

/-- C44: `s[i]` in range designates character `i` of the string, and nothing changes. -/
theorem C44_string_index_partial {mi mb : Bool} {ki k : Nat} {σ : St}
    {idx value v tgt : Addr} {o : Nat} {bs : List Byte} {nc : Bool} {w : Word32}
    (hre : value.real = true)
    (hi : Reads σ mi ki idx (.int w)) (hn : Names σ mb k value v) (hv : σ.cell v = .arr o)
    (ho : σ.obj o = .chars bs nc) (hw : w.toNat < bs.length) (h21 : w.toNat < 2 ^ 21)
    (ht : tgt ≠ v) (d : Nat) :
    ∃ τ, index (d + ki + k + 2) σ idx value tgt = .ok τ ∧
      OnlySet σ τ tgt (.mem v w.toNat) ∧
      Reads τ true 1 tgt (.int (bs[w.toNat].setWidth 32)) := by
  obtain ⟨τ, e1, e2, -⟩ := index_arr (tgt := tgt) (Nat.le_refl _) hre hi hn hv d
  have hos := e2.onlySet (onlySet_set τ tgt (.mem v w.toNat))
  refine ⟨τ.set tgt (.mem v w.toNat), ?_, hos, ?_⟩
  · rw [e1, atArr, e2.obj, ho]
    simp only [hw, if_true, elemTo, ht, if_false, encElem, Nat.mod_eq_of_lt h21]
  · exact .celem rfl hos.here hn.real (by rw [hos.cell v hn.real ht.symm, hv])
      (by rw [hos.obj, ho]) (by simp [hw])

/-- C44: `s[i]` past the end of a constant string of the program image is 0, and nothing
changes. -/
theorem C44_constant_string_past_end {mi mb : Bool} {ki k : Nat} {σ : St}
    {idx value v tgt : Addr} {o : Nat} {bs : List Byte} {w : Word32} (hre : value.real = true)
    (hi : Reads σ mi ki idx (.int w)) (hn : Names σ mb k value v) (hv : σ.cell v = .arr o)
    (ho : σ.obj o = .chars bs true) (hw : bs.length ≤ w.toNat) (d : Nat) :
    ∃ τ, index (d + ki + k + 2) σ idx value tgt = .ok τ ∧ OnlySet σ τ tgt (.int 0) := by
  obtain ⟨τ, e1, e2, -⟩ := index_arr (tgt := tgt) (Nat.le_refl _) hre hi hn hv d
  refine ⟨τ.set tgt (.int 0), ?_, e2.onlySet (onlySet_set ..)⟩
  rw [e1, atArr, e2.obj, ho]
  simp only [show ¬ w.toNat < bs.length by omega, if_false, if_true]

/-- C44: `s[i]` past the end of any other string extends it with zero bytes up to and including character `i`, which
is what the result designates; nothing else changes. -/
theorem C44_string_grows_partial {mi mb : Bool} {ki k : Nat} {σ : St}
    {idx value v tgt : Addr} {o : Nat} {bs : List Byte} {w : Word32} (hre : value.real = true)
    (hi : Reads σ mi ki idx (.int w)) (hn : Names σ mb k value v) (hv : σ.cell v = .arr o)
    (ho : σ.obj o = .chars bs false) (hw : bs.length ≤ w.toNat) (h21 : w.toNat < 2 ^ 21) (ht : tgt ≠ v) (d : Nat) :
    ∃ τ cs, index (d + ki + k + 2) σ idx value tgt = .ok τ ∧ τ.cell tgt = .mem v w.toNat ∧
      τ.obj o = .chars cs false ∧ cs.length = w.toNat + 1 ∧ cs.take bs.length = bs ∧
      (∀ i x, bs.length ≤ i → cs[i]? = some x → x = 0) ∧ (∀ p, p ≠ o → τ.obj p = σ.obj p) ∧
      ∀ a, a.real = true → a ≠ tgt → τ.cell a = σ.cell a := by
  obtain ⟨τ, e1, e2, -⟩ := index_arr (tgt := tgt) (Nat.le_refl _) hre hi hn hv d
  have hnn : ¬ w.toInt < 0 := by
    rw [BitVec.toInt_eq_toNat_bmod]; unfold Int.bmod; dsimp only; split <;> omega
  have ho' : τ.obj o = .chars bs false := by rw [e2.obj, ho]
  refine ⟨(growArr τ o w.toNat).set tgt (.mem v w.toNat), bs ++ List.replicate (w.toNat + 1 - bs.length) 0, ?_,
    St.set_same .., ?_, by simp; omega, by simp, ?_, ?_, ?_⟩
  · rw [e1, atArr, e2.obj, ho]
    simp only [show ¬ w.toNat < bs.length by omega, hnn, elemTo, ht, if_false, encElem, Nat.mod_eq_of_lt h21]
    rfl
  · rw [St.set_obj, growArr, ho']
    simp [St.setObj]
  · intro i x h1 h2
    rw [List.getElem?_append_right h1] at h2
    exact (List.eq_of_mem_replicate (List.mem_of_getElem? h2))
  · intro p hp
    rw [St.set_obj, growArr, ho']
    simp [St.setObj, hp, e2.obj]
  · intro a ha hne
    rw [St.set_ne _ _ hne, growArr, ho', ← e2.cell a ha]
    rfl

/-! ### C44: a variable that is not an array yet -/

private theorem index_num : ∀ {N : Nat} {σ : St} {ki k : Nat} {idx value v tgt : Addr}
    {w : Word32}, ki + k ≤ N →
    Reads σ false ki idx (.int w) → Names σ false k value v → (σ.cell v).isNum = true →
    ∀ d, index (d + ki + k + 1) σ idx value tgt = indexIX σ w v tgt := by
  intro N
  induction N using Nat.strongRecOn with
  | _ N ihN =>
    intro σ ki k idx value v tgt w hN hi hn hv d
    have tI : (Val.int w).ty = .I := rfl
    have tR : ∀ r, (Val.ref r).ty = .R := fun _ => rfl
    have hval : (value = v ∧ ((σ.cell value).ty = .I ∨ (σ.cell value).ty = .F)) ∨
        ∃ r k', σ.cell value = .ref r ∧ k = k' + 1 ∧ Names σ false k' r v := by
      cases hn with
      | here _ _ =>
        left; refine ⟨rfl, ?_⟩
        generalize σ.cell value = x at hv
        cases x <;> simp_all [Val.isNum, Val.ty]
      | ref h1 h2 h3 => exact .inr ⟨_, _, h1, rfl, h3⟩
      | velem h0 => cases h0
      | helem h0 => cases h0
    have hidx : σ.cell idx = .int w ∨ (∃ r ki', σ.cell idx = .ref r ∧ ki = ki' + 1 ∧
        Reads σ false ki' r (.int w)) := by
      generalize hq : (Val.int w) = q at hi
      cases hi with
      | here _ => left; rfl
      | ref h1 h2 h3 => exact .inr ⟨_, _, h1, rfl, hq ▸ h3⟩
      | velem h0 => cases h0
      | celem h0 => cases h0
      | relem h0 => cases h0
      | helem h0 => cases h0
    rw [index]
    rcases hidx with hI | ⟨r, ki', hr, rfl, hi'⟩
    · rcases hval with ⟨rfl, hvE | hvE⟩ | ⟨b, k', hb, rfl, hn'⟩
      · simp only [hI, hvE, tI]
      · simp only [hI, hvE, tI]
      · simp only [hI, hb, tI, tR]
        exact ihN (ki + k') (by omega) (Nat.le_refl _) hi hn' hv d
    · rcases hval with ⟨rfl, hvE | hvE⟩ | ⟨b, k', hb, rfl, hn'⟩
      · simp only [hr, hvE, tR]
        rw [show d + (ki' + 1) + k = d + ki' + k + 1 by omega]
        exact ihN (ki' + k) (by omega) (Nat.le_refl _) hi' hn hv d
      · simp only [hr, hvE, tR]
        rw [show d + (ki' + 1) + k = d + ki' + k + 1 by omega]
        exact ihN (ki' + k) (by omega) (Nat.le_refl _) hi' hn hv d
      · simp only [hr, hb, tR]
        rw [show d + (ki' + 1) + (k' + 1) = (d + 1) + ki' + k' + 1 by omega]
        exact ihN (ki' + k') (by omega) (Nat.le_refl _) hi' hn' hv (d + 1)

/-- C44: indexing a variable that holds a number makes it a new array of `i + 1` zeros, and
the result designates its last element; nothing else changes. -/
theorem C44_index_number_partial {ki k : Nat} {σ : St} {idx value v tgt : Addr} {w : Word32}
    (hi : Reads σ false ki idx (.int w)) (hn : Names σ false k value v)
    (hv : (σ.cell v).isNum = true) (h21 : w.toNat < 2 ^ 21) (ht : tgt ≠ v)
    (hte : ∀ i, tgt ≠ .elem σ.next i) (hve : ∀ i, v ≠ .elem σ.next i) (d : Nat) :
    ∃ τ, index (d + ki + k + 1) σ idx value tgt = .ok τ ∧
      τ.cell v = .arr σ.next ∧ τ.obj σ.next = .vals (w.toNat + 1) ∧
      (∀ i, i ≤ w.toNat → τ.cell (.elem σ.next i) = .int 0) ∧
      τ.cell tgt = .mem v w.toNat ∧ (∀ p, p ≠ σ.next → τ.obj p = σ.obj p) ∧
      (∀ a, a.real = true → a ≠ tgt → a ≠ v → (∀ i, a ≠ .elem σ.next i) →
        τ.cell a = σ.cell a) ∧ σ.next < τ.next := by
  have hw1 : (w + 1).toNat = w.toNat + 1 := by
    rw [BitVec.toNat_add]; simp; omega
  have hnn : ¬ (w + 1).toInt < 0 := by
    rw [BitVec.toInt_eq_toNat_bmod, hw1]; unfold Int.bmod; dsimp only; split <;> omega
  refine ⟨((newArr σ (w.toNat + 1)).set v (.arr σ.next)).set tgt (.mem v w.toNat), ?_, ?_, ?_, ?_,
    St.set_same .., ?_, ?_, Nat.lt_succ_self _⟩
  · rw [index_num (Nat.le_refl _) hi hn hv d, indexIX]
    simp only [hnn, elemTo, ht, if_false, hw1, encElem, Nat.mod_eq_of_lt h21]
  · rw [St.set_ne _ _ ht.symm, St.set_same]
  · simp [newArr, St.setObj]
  · intro i _
    rw [St.set_ne _ _ (hte i).symm, St.set_ne _ _ (hve i).symm]
    simp [newArr]
  · intro p hp
    simp [newArr, St.setObj, hp]
  · intro a ha hat hav hae
    rw [St.set_ne _ _ hat, St.set_ne _ _ hav]
    cases a with
    | elem p i =>
      have : p ≠ σ.next := by rintro rfl; exact hae i rfl
      simp [newArr, this]
    | _ => rfl

/-! ### Where the code departs from C44 -/

/-- C44 fails from element 2^21 on: the member designates element `i mod 2^21`.  For every
array long enough and every such index: `a[i]` reads and writes another element. -/
theorem C44_fails_past_2_21 {mi mb : Bool} {ki k : Nat} {σ : St}
    {idx value v tgt : Addr} {o n : Nat} {w : Word32} (hre : value.real = true)
    (hi : Reads σ mi ki idx (.int w)) (hn : Names σ mb k value v) (hv : σ.cell v = .arr o)
    (ho : σ.obj o = .vals n) (hw : w.toNat < n) (h21 : 2 ^ 21 ≤ w.toNat) (ht : tgt ≠ v) (d : Nat) :
    ∃ τ j, index (d + ki + k + 2) σ idx value tgt = .ok τ ∧
      OnlySet σ τ tgt (.mem v j) ∧ j ≠ w.toNat := by
  obtain ⟨τ, e1, e2, -⟩ := index_arr (tgt := tgt) (Nat.le_refl _) hre hi hn hv d
  refine ⟨τ.set tgt (.mem v (encElem w)), _, ?_, e2.onlySet (onlySet_set ..), ?_⟩
  · rw [e1, atArr, e2.obj, ho]
    simp only [hw, if_true, elemTo, ht, if_false]
  · unfold encElem; omega

/-- C44 fails: with a float index, `a[f]` does nothing and leaves the operand as it was, for
every container. -/
theorem C44_fails_float_index (σ : St) {idx value tgt : Addr} {x : Word32}
    (h : σ.cell idx = .float x) (f : Nat) : index (f + 1) σ idx value tgt = .ok σ := by
  rw [index]; simp [h, Val.ty]

/-- C44 fails: a negative index is converted to a huge size and the array is indexed past its
end. -/
theorem C44_fails_negative_index {mi mb : Bool} {ki k : Nat} {σ : St}
    {idx value v tgt : Addr} {o n : Nat} {w : Word32} (hre : value.real = true)
    (hi : Reads σ mi ki idx (.int w)) (hn : Names σ mb k value v) (hv : σ.cell v = .arr o)
    (ho : σ.obj o = .vals n) (hsz : n < 2 ^ 31) (hw : w.toInt < 0) (d : Nat) :
    index (d + ki + k + 2) σ idx value tgt = .ub := by
  obtain ⟨τ, e1, e2, -⟩ := index_arr (tgt := tgt) (Nat.le_refl _) hre hi hn hv d
  have : ¬ w.toNat < n := by
    rw [BitVec.toInt_eq_toNat_bmod] at hw; unfold Int.bmod at hw; dsimp only at hw
    split at hw <;> omega
  rw [e1, atArr, e2.obj, ho]
  simp only [this, hw, if_false, if_true]

/-- C44 fails: indexing an element of a raw host array is 0 whatever the operands. -/
theorem C44_fails_raw_member {σ : St} {idx value tgt b : Addr} {w : Word32} {s p n : Nat}
    (hi : σ.cell idx = .int w) (h1 : σ.cell value = .mem b s) (h2 : σ.cell b = .raw p n) (f : Nat) :
    index (f + 1) σ idx value tgt = .ok (σ.set tgt (.int 0)) := by
  rw [index]
  simp [hi, h1, Val.ty, indexIE, h2]

/-! ### Concrete cases -/

/-- `a[2]` with a literal, `a[x]` with a variable and `a[b[1]]`, on the array of `demoArr`. -/
def demoIx : St := demo
  (fun | .cell 0 => .int 2 | .cell 1 => .ref (.cell 11) | .cell 2 => .ref (.cell 10)
       | .cell 3 => .mem (.cell 12) 1 | .cell 10 => .int 2 | .cell 11 => .arr 0
       | .cell 12 => .arr 1 | .cell 13 => .int 7 | .cell 4 => .ref (.cell 13)
       | .elem 0 0 => .int 5 | .elem 0 1 => .int 6 | .elem 0 2 => .int 9
       | .elem 1 0 => .int 0 | .elem 1 1 => .int 2
       | _ => .other)
  (fun | 0 => .vals 3 | 1 => .vals 2 | _ => .other)

theorem demoIx_names : Names demoIx false 1 (.cell 1) (.cell 11) :=
  .ref (r := .cell 11) rfl rfl (.here rfl rfl)

theorem demoIx_elem : Reads demoIx true 1 (.cell 3) (.int 2) :=
  .velem (s := 1) (o := 1) (n := 2) rfl rfl (b := .cell 12) rfl rfl rfl (by decide) rfl

/-- `a[b[1]]` with `b[1] = 2` designates element 2 and reads 9. -/
example : ∃ τ, index 4 demoIx (.cell 3) (.cell 1) (.cell 1) = .ok τ ∧
    Reads τ true 1 (.cell 1) (.int 9) := by
  obtain ⟨τ, h1, h2⟩ := C44_index_partial (σ := demoIx) (tgt := .cell 1) (o := 0) (n := 3) rfl
    demoIx_elem demoIx_names rfl rfl (by decide) (by decide) (by intro i h; cases h) 0
  exact ⟨τ, h1, C44_read h2 rfl rfl (by intro i h; cases h) (by decide)
    (by intro i h; cases h) (fun _ => rfl)⟩

/-- The literal 2 and `b[1]` give the same operand. -/
example : ∃ τ τ', index 3 demoIx (.cell 0) (.cell 1) (.cell 1) = .ok τ ∧
    index 4 demoIx (.cell 3) (.cell 1) (.cell 1) = .ok τ' ∧ SameReal τ τ' ∧
    τ'.cell (.cell 1) = τ.cell (.cell 1) :=
  C44_index_forms_agree (mi := false) (σ := demoIx) (o := 0) (n := 3) rfl
    (.here (k := 0) (a := .cell 0) rfl) demoIx_elem demoIx_names rfl rfl (.inl (by decide))
    (by decide) 0

/-- The same state with index 7: `a[7] = 2` grows the array from 3 to 8 elements. -/
example : ∃ τ υ, index 4 demoIx (.cell 4) (.cell 1) (.cell 1) = .ok τ ∧
    assign demoEnv 4 τ (.cell 1) (.cell 0) = .ok υ ∧ υ.obj 0 = .vals 8 ∧
    υ.cell (.elem 0 7) = .int 2 ∧ υ.cell (.elem 0 5) = .int 0 ∧ υ.cell (.elem 0 2) = .int 9 ∧
    υ.cell (.elem 1 1) = .int 2 := by
  obtain ⟨τ, υ, h1, h2, h3, -, h5, h6⟩ := C44_store_partial demoEnv (σ := demoIx) (mi := false)
    (ki := 1) (m := 0) (mc := false) (idx := .cell 4) (tgt := .cell 1) (from_ := .cell 0) (o := 0)
    (n := 3) (w := 7#32) (x := .int 2) rfl
    (.ref (r := .cell 13) rfl rfl (.here (a := .cell 13) rfl)) demoIx_names rfl rfl (by decide)
    (by decide) (by intro i h; cases h) rfl (by intro i h; cases h) rfl
    (by
      intro τ h
      have : τ.cell (.cell 0) = .int 2 := h.rest _ rfl (by decide) (by intro i _ h; cases h)
      rw [← this]
      exact .here (by rw [this]; rfl)) 0
  refine ⟨τ, υ, h1, h2, h3, h5 7 (by decide), h5 5 (by decide), h5 2 (by decide), ?_⟩
  exact h6 (.elem 1 1) rfl (by decide) (by intro i h; cases h)

/-- `x[2]` with `x = 7` a number: `x` becomes `[0,0,0]`. -/
example : ∃ τ, index 2 demoIx (.cell 0) (.cell 4) (.cell 4) = .ok τ ∧
    τ.cell (.cell 13) = .arr 100 ∧ τ.obj 100 = .vals 3 ∧ τ.cell (.cell 4) = .mem (.cell 13) 2 := by
  obtain ⟨τ, h1, h2, h3, -, h5, -⟩ := C44_index_number_partial (σ := demoIx) (k := 1) (ki := 0)
    (idx := .cell 0) (value := .cell 4) (v := .cell 13) (tgt := .cell 4)
    (.here (a := .cell 0) rfl) (.ref (r := .cell 13) rfl rfl (.here rfl rfl)) rfl (by decide)
    (by decide) (by intro i h; cases h) (by intro i h; cases h) 0
  exact ⟨τ, h1, h2, h3, h5⟩

def demoFloat : St := demo
  (fun | .cell 0 => .mem (.cell 12) 0 | .cell 1 => .ref (.cell 11) | .cell 11 => .arr 0
       | .cell 12 => .arr 1 | .elem 0 0 => .int 5 | .elem 1 0 => .float 0x3F800000#32
       | _ => .other)
  (fun | 0 => .vals 1 | 1 => .vals 1 | _ => .other)

/-- C44 fails: `a[b[0]]` where `b[0]` is the float 1.0 indexes with its bit pattern
(1065353216), although a float variable or literal as index does nothing. -/
theorem C44_fails_float_element : ∃ τ, index 5 demoFloat (.cell 0) (.cell 1) (.cell 1) = .ok τ ∧
    τ.obj 0 = .vals 1065353217 := ⟨_, rfl, by decide⟩

def demoIxStr : St := demo
  (fun | .cell 0 => .int 1 | .cell 1 => .ref (.cell 11) | .cell 11 => .arr 0 | .cell 2 => .int 4
       | _ => .other)
  (fun _ => .chars [0x61, 0x62, 0x63] true)

/-- `"abc"[1]` is `'b'`. -/
example : ∃ τ, index 3 demoIxStr (.cell 0) (.cell 1) (.cell 1) = .ok τ ∧
    Reads τ true 1 (.cell 1) (.int 0x62) := by
  obtain ⟨τ, h1, -, h3⟩ := C44_string_index_partial (mi := false) (mb := false) (ki := 0) (k := 1)
    (σ := demoIxStr) (idx := .cell 0) (value := .cell 1) (v := .cell 11) (tgt := .cell 1) (o := 0)
    (bs := [0x61, 0x62, 0x63]) (nc := true)
    rfl (.here (a := .cell 0) rfl) (.ref (r := .cell 11) rfl rfl (.here rfl rfl)) rfl rfl
    (by decide) (by decide) (by decide) 0
  exact ⟨τ, h1, h3⟩

/-- `"abc"[4]` is 0. -/
example : ∃ τ, index 3 demoIxStr (.cell 2) (.cell 1) (.cell 1) = .ok τ ∧
    OnlySet demoIxStr τ (.cell 1) (.int 0) :=
  C44_constant_string_past_end (mi := false) (mb := false) (ki := 0) (k := 1)
    (bs := [0x61, 0x62, 0x63]) (o := 0)
    rfl (.here (a := .cell 2) rfl) (.ref (r := .cell 11) rfl rfl (.here rfl rfl)) rfl rfl
    (by decide) 0

/-- `s[4]` for the string "abc" made at run time: it becomes "abc\0\0". -/
example : ∃ τ cs, index 3 { demoIxStr with obj := fun _ => .chars [0x61, 0x62, 0x63] false } (.cell 2) (.cell 1)
    (.cell 1) = .ok τ ∧ τ.obj 0 = .chars cs false ∧ cs.length = 5 ∧ cs.take 3 = [0x61, 0x62, 0x63] := by
  obtain ⟨τ, cs, h1, -, h3, h4, h5, -⟩ := C44_string_grows_partial (mi := false) (mb := false) (ki := 0) (k := 1)
    (σ := { demoIxStr with obj := fun _ => .chars [0x61, 0x62, 0x63] false }) (idx := .cell 2) (value := .cell 1)
    (v := .cell 11) (tgt := .cell 1) (bs := [0x61, 0x62, 0x63]) (o := 0)
    rfl (.here (a := .cell 2) rfl) (.ref (r := .cell 11) rfl rfl (.here rfl rfl)) rfl rfl
    (by decide) (by decide) (by decide) 0
  exact ⟨τ, cs, h1, h3, h4, h5⟩

def demoBig : St := demo
  (fun | .cell 0 => .int 2097153#32 | .cell 1 => .ref (.cell 11) | .cell 11 => .arr 0
       | _ => .int 0) (fun _ => .vals 3000000)

/-- An index past 2^21 in a large enough array. -/
example : ∃ τ j, index 3 demoBig (.cell 0) (.cell 1) (.cell 1) = .ok τ ∧
    τ.cell (.cell 1) = .mem (.cell 11) j ∧ j ≠ 2097153 := by
  obtain ⟨τ, j, h1, h2, h3⟩ := C44_fails_past_2_21 (mi := false) (mb := false) (ki := 0) (k := 1)
    (σ := demoBig)
    (idx := .cell 0) (value := .cell 1) (v := .cell 11) (tgt := .cell 1) (o := 0) (n := 3000000)
    rfl (.here (a := .cell 0) rfl) (.ref (r := .cell 11) rfl rfl (.here rfl rfl)) rfl rfl
    (by decide) (by decide) (by decide) 0
  exact ⟨τ, j, h1, h2.here, h3⟩

end Wrench.Ops
