import Verif.HashTable.Refine

/-! Lemmas about histories. -/
namespace Wrench.HashTable

variable {V K : Type}

theorem specRun_append {ops ops' : List (Op V K)} {m m'' : Map V K} {os : List (Out V)}
    (h : SpecRun m (ops ++ ops') os m'') :
    ∃ os1 os2 m', os = os1 ++ os2 ∧ SpecRun m ops os1 m' ∧ SpecRun m' ops' os2 m'' := by
  induction ops generalizing m os with
  | nil => exact ⟨[], os, m, rfl, .nil m, h⟩
  | cons op ops ih =>
    cases h with
    | cons s r =>
      obtain ⟨os1, os2, m', e, a, b⟩ := ih r
      exact ⟨_ :: os1, os2, m', by rw [e]; rfl, .cons s a, b⟩

theorem spec_latest {ops : List (Op V K)} {m m' : Map V K} {os : List (Out V)}
    (S : SpecRun m ops os m') (h : Word32) (r : Option V)
    (h0 : ∀ v, r = some v → ∃ k, m h = some (v, k)) :
    ∀ v, latest h ops r = some v → ∃ k, m' h = some (v, k) := by
  induction S generalizing r with
  | nil m => simpa [latest] using h0
  | cons s _ ih =>
    cases s with
    | write h' k v =>
      simp only [latest]
      apply ih
      intro v' hv'
      unfold Map.set
      by_cases e : h' = h
      · subst e; simp at hv' ⊢; exact hv'
      · rw [if_neg e] at hv'; rw [if_neg (fun h => e h.symm)]; exact h0 v' hv'
    | readHit h' k v k0 hm =>
      simp only [latest]
      apply ih
      intro v' hv'
      unfold Map.set
      by_cases e : h' = h
      · subst e
        obtain ⟨k1, h1⟩ := h0 v' hv'
        rw [hm] at h1
        simp only [Option.some.injEq, Prod.mk.injEq] at h1
        simp [h1.1]
      · rw [if_neg (fun h => e h.symm)]; exact h0 v' hv'
    | readMiss h' k v hm =>
      simp only [latest]
      apply ih
      intro v' hv'
      unfold Map.set
      by_cases e : h' = h
      · subst e
        obtain ⟨k1, h1⟩ := h0 v' hv'
        rw [hm] at h1; cases h1
      · rw [if_neg (fun h => e h.symm)]; exact h0 v' hv'
    | remove h' =>
      simp only [latest]
      apply ih
      intro v' hv'
      unfold Map.set
      by_cases e : h' = h
      · subst e; simp at hv'
      · rw [if_neg e] at hv'; rw [if_neg (fun h => e h.symm)]; exact h0 v' hv'
    | check h' => simp only [latest]; exact ih r h0

theorem spec_touched {ops : List (Op V K)} {m m' : Map V K} {os : List (Out V)}
    (S : SpecRun m ops os m') (h : Word32) :
    (m' h).isSome = touched h ops (m h).isSome := by
  induction S with
  | nil m => rfl
  | cons s _ ih =>
    rw [ih]
    cases s with
    | write h' k v =>
      simp only [touched, Map.set]
      by_cases e : h' = h
      · subst e; simp
      · rw [if_neg e, if_neg (fun h => e h.symm)]
    | readHit h' k v k0 hm =>
      simp only [touched, Map.set]
      by_cases e : h' = h
      · subst e; simp
      · rw [if_neg e, if_neg (fun h => e h.symm)]
    | readMiss h' k v hm =>
      simp only [touched, Map.set]
      by_cases e : h' = h
      · subst e; simp
      · rw [if_neg e, if_neg (fun h => e h.symm)]
    | remove h' =>
      simp only [touched, Map.set]
      by_cases e : h' = h
      · subst e; simp
      · rw [if_neg e, if_neg (fun h => e h.symm)]
    | check h' => rfl

theorem history_refines {dv : V} {dk : K} {n : Nat} {ops : List (Op V K)} {t : HT V K}
    {os : List (Out V)} (hn : ∀ op ∈ ops, op.hash ≠ nullHash)
    (hr : history dv dk n ops = some (t, os)) :
    Inv t.mod t.slots ∧ ∃ m, SpecRun (fun _ => none) ops os m ∧ Represents t m := by
  unfold history at hr
  cases hi : init dv dk n with
  | none => rw [hi] at hr; cases hr
  | some t0 =>
    rw [hi] at hr
    exact run_refines (init_spec hi).1 (init_represents hi) hn hr

theorem countP_map_filter (n : Nat) (slots : Nat → Word32) :
    live n slots = (((List.range n).map slots).filter (· != nullHash)).length := by
  rw [live, List.countP_eq_length_filter, List.filter_map, List.length_map]
  rfl

theorem touched_not_mem {h : Word32} {ops : List (Op V K)} {b : Bool}
    (hm : h ∉ ops.map Op.hash) : touched h ops b = b := by
  induction ops generalizing b with
  | nil => rfl
  | cons op ops ih =>
    simp only [List.map_cons, List.mem_cons, not_or] at hm
    cases op <;> simp only [touched, Op.hash] at hm ⊢ <;>
      first
      | (rw [if_neg (fun e => hm.1 e.symm)]; exact ih hm.2)
      | exact ih hm.2

theorem nodup_eraseDups' (l : List Word32) : l.eraseDups.Nodup := by
  generalize hn : l.length = n
  induction n using Nat.strongRecOn generalizing l with
  | _ n ih =>
    cases l with
    | nil => simp
    | cons a l =>
      rw [List.eraseDups_cons, List.nodup_cons]
      refine ⟨by simp, ih _ ?_ _ rfl⟩
      have := List.length_filter_le (fun b => !b == a) l
      simp only [List.length_cons] at hn
      omega

theorem occupied_perm_presentKeys {t : HT V K} {ops : List (Op V K)} {os : List (Out V)} {m : Map V K}
    (inv : Inv t.mod t.slots) (S : SpecRun (fun _ => none) ops os m) (R : Represents t m)
    (hn : ∀ op ∈ ops, op.hash ≠ nullHash) :
    (((List.range t.mod).map t.slots).filter (· != nullHash)).Perm (presentKeys ops) := by
  rw [List.perm_ext_iff_of_nodup]
  · intro h
    have ht := spec_touched S h
    simp only [Option.isSome_none] at ht
    simp only [presentKeys, List.mem_filter, List.mem_map, List.mem_range, bne_iff_ne,
      List.mem_eraseDups]
    constructor
    · rintro ⟨⟨i, hi, hs⟩, hnh⟩
      have hsome : m h = some (t.vals i, t.keys i) := (R h hnh _ _).mpr ⟨i, hi, hs, rfl, rfl⟩
      rw [hsome] at ht
      simp only [Option.isSome_some] at ht
      refine ⟨?_, ht.symm⟩
      by_cases hmem : h ∈ ops.map Op.hash
      · simpa using hmem
      · rw [touched_not_mem hmem] at ht; cases ht
    · rintro ⟨hmem, htt⟩
      rw [htt] at ht
      obtain ⟨op, hop, e⟩ := hmem
      have hnh : h ≠ nullHash := by rw [← e]; exact hn op hop
      obtain ⟨⟨v, k⟩, hvk⟩ := Option.isSome_iff_exists.mp ht
      obtain ⟨i, hi, hs, _⟩ := (R h hnh v k).mp hvk
      exact ⟨⟨i, hi, hs⟩, hnh⟩
  · rw [List.Nodup, List.pairwise_filter, List.pairwise_map]
    rw [List.pairwise_iff_getElem]
    intro i j hi hj hij a b e
    simp only [List.getElem_range, bne_iff_ne] at a b e
    rw [List.length_range] at hi hj
    have := inv.inj i j hi hj a e
    omega
  · exact List.Pairwise.filter _ (nodup_eraseDups' _)

theorem live_eq_presentKeys {t : HT V K} {ops : List (Op V K)} {os : List (Out V)} {m : Map V K}
    (inv : Inv t.mod t.slots) (S : SpecRun (fun _ => none) ops os m) (R : Represents t m)
    (hn : ∀ op ∈ ops, op.hash ≠ nullHash) :
    live t.mod t.slots = (presentKeys ops).length := by
  rw [countP_map_filter]
  exact (occupied_perm_presentKeys inv S R hn).length_eq

theorem ofNat_succ32 (n : Nat) : (BitVec.ofNat 32 (n + 1)) = BitVec.ofNat 32 n + 1#32 := by
  apply BitVec.eq_of_toNat_eq; simp

theorem add_right_comm32 (a b c : Word32) : a + b + c = a + c + b := by
  rw [BitVec.add_assoc, BitVec.add_comm b, ← BitVec.add_assoc]

/-- The three shapes of a script operation. -/
theorem step_cases {dv : V} {dk : K} {t t' : HT V K} {op : Op V K} {o : Out V}
    (hs : step dv dk t op = some (t', o)) :
    (isRemove op = false ∧ ∃ t1 i, getIndexOfHit dv dk t op.hash = some (t1, i) ∧
      t'.mod = t1.mod ∧ t'.slots = t1.slots ∧ t'.size = t1.size ∧ t'.fwds = t1.fwds ∧
      ∀ j, j ≠ i → t'.vals j = t1.vals j) ∨
    (isRemove op = true ∧ t' = (exists_ t op.hash true).1) ∨ (isRemove op = false ∧ t' = t) := by
  cases op with
  | write h k v =>
    left
    simp only [step] at hs
    cases hg : getIndexOfHit dv dk t h with
    | none => rw [hg] at hs; cases hs
    | some r =>
      obtain ⟨t1, i⟩ := r
      rw [hg] at hs
      simp only [Option.some.injEq, Prod.mk.injEq] at hs
      obtain ⟨e1, _⟩ := hs
      subst e1
      exact ⟨rfl, t1, i, hg, rfl, rfl, rfl, rfl, fun j hj => upd_ne _ _ hj⟩
  | read h k =>
    left
    simp only [step] at hs
    cases hg : getIndexOfHit dv dk t h with
    | none => rw [hg] at hs; cases hs
    | some r =>
      obtain ⟨t1, i⟩ := r
      rw [hg] at hs
      simp only [Option.some.injEq, Prod.mk.injEq] at hs
      obtain ⟨e1, _⟩ := hs
      subst e1
      exact ⟨rfl, t1, i, hg, rfl, rfl, rfl, rfl, fun j hj => rfl⟩
  | remove h =>
    right; left
    simp only [step, Option.some.injEq, Prod.mk.injEq] at hs
    exact ⟨rfl, hs.1.symm⟩
  | check h =>
    right; right
    simp only [step, Option.some.injEq, Prod.mk.injEq] at hs
    refine ⟨rfl, ?_⟩
    rw [← hs.1]
    unfold exists_
    cases probe t.mod t.slots h false <;> rfl

theorem remove_cases {t : HT V K} {h : Word32} (inv : Inv t.mod t.slots) (hn : h ≠ nullHash) :
    (∃ i, i < t.mod ∧ t.slots i = h ∧
      (exists_ t h true).1 = { t with size := t.size - 1, slots := upd t.slots i nullHash }) ∨
    (exists_ t h true).1 = t := by
  unfold exists_
  rcases probe_false_cases inv hn with ⟨i, hi, hsi, hp⟩ | ⟨_, hp⟩
  · left; exact ⟨i, hi, hsi, by rw [hp]; rfl⟩
  · right; rw [hp]

theorem step_count {dv : V} {dk : K} {t t' : HT V K} {op : Op V K} {o : Out V} {c : Word32}
    (inv : Inv t.mod t.slots) (hn : op.hash ≠ nullHash)
    (hc : t.size + BitVec.ofNat 32 t.fwds.length = BitVec.ofNat 32 (live t.mod t.slots) + c)
    (hs : step dv dk t op = some (t', o)) :
    t'.size + BitVec.ofNat 32 t'.fwds.length = BitVec.ofNat 32 (live t'.mod t'.slots) + c := by
  rcases step_cases hs with ⟨_, t1, i, hg, e1, e2, e3, e4, _⟩ | ⟨_, e⟩ | ⟨_, e⟩
  · rw [e1, e2, e3, e4]
    rcases (getIndexOfHit_ext inv hn hg).kind with e | ⟨_, hm, hsl, _, hsz, hfw, hl⟩ | ⟨_, hsz, hl, _, f, hfw, _⟩
    · rw [e]; exact hc
    · rw [hl, hsz, hfw, ofNat_succ32 (live _ _), add_right_comm32, hc, add_right_comm32]; rfl
    · rw [hl, hsz, hfw, List.length_cons, ofNat_succ32 (live _ _), ofNat_succ32 t.fwds.length,
        ← BitVec.add_assoc, hc, add_right_comm32]
  · rw [e]
    rcases remove_cases inv hn with ⟨i, hi, hsi, hr⟩ | hr
    · rw [hr]
      have hl := live_upd_null (slots := t.slots) hi (by rw [hsi]; exact hn)
      simp only
      rw [← hl, ofNat_succ32] at hc
      have : t.size - 1 + BitVec.ofNat 32 t.fwds.length =
          (t.size + BitVec.ofNat 32 t.fwds.length) - 1#32 := by
        rw [BitVec.sub_eq_add_neg, BitVec.sub_eq_add_neg, add_right_comm32]; rfl
      rw [this, hc, add_right_comm32, BitVec.add_sub_cancel]
    · rw [hr]; exact hc
  · rw [e]; exact hc

theorem step_fwds {dv : V} {dk : K} {t t' : HT V K} {op : Op V K} {o : Out V}
    (inv : Inv t.mod t.slots) (hn : op.hash ≠ nullHash) (hs : step dv dk t op = some (t', o)) :
    t.fwds.length ≤ t'.fwds.length := by
  rcases step_cases hs with ⟨_, t1, i, hg, e1, e2, e3, e4, _⟩ | ⟨_, e⟩ | ⟨_, e⟩
  · rw [e4]
    rcases (getIndexOfHit_ext inv hn hg).kind with e | ⟨_, hm, hsl, _, hsz, hfw, hl⟩ | ⟨_, hsz, hl, _, f, hfw, _⟩
    · rw [e]; exact Nat.le_refl _
    · rw [hfw]; exact Nat.le_refl _
    · rw [hfw]; simp
  · rw [e]
    rcases remove_cases inv hn with ⟨i, hi, hsi, hr⟩ | hr <;> rw [hr] <;> exact Nat.le_refl _
  · rw [e]; exact Nat.le_refl _

theorem step_inv {dv : V} {dk : K} {t t' : HT V K} {op : Op V K} {o : Out V}
    (inv : Inv t.mod t.slots) (hn : op.hash ≠ nullHash) (hs : step dv dk t op = some (t', o)) :
    Inv t'.mod t'.slots := by
  rcases step_cases hs with ⟨_, t1, i, hg, e1, e2, e3, e4, _⟩ | ⟨_, e⟩ | ⟨_, e⟩
  · rw [e1, e2]; exact (getIndexOfHit_ext inv hn hg).inv
  · rw [e]
    rcases remove_cases inv hn with ⟨i, hi, hsi, hr⟩ | hr <;> rw [hr]
    · exact inv_remove inv i
    · exact inv
  · rw [e]; exact inv

/-- Induction over a completed history, for operations satisfying `Q`. -/
theorem run_induct {dv : V} {dk : K} (I : HT V K → Prop) (Q : Op V K → Prop)
    (hI : ∀ t op t' o, I t → Q op → Inv t.mod t.slots → op.hash ≠ nullHash →
      step dv dk t op = some (t', o) → I t')
    {ops : List (Op V K)} (hn : ∀ op ∈ ops, op.hash ≠ nullHash) (hq : ∀ op ∈ ops, Q op)
    {t t' : HT V K} {os : List (Out V)}
    (h0 : I t) (inv : Inv t.mod t.slots) (hr : run dv dk t ops = some (t', os)) : I t' := by
  induction ops generalizing t os with
  | nil =>
    simp only [run, Option.some.injEq, Prod.mk.injEq] at hr
    rw [← hr.1]; exact h0
  | cons op ops ih =>
    simp only [run] at hr
    cases h1 : step dv dk t op with
    | none => rw [h1] at hr; cases hr
    | some r =>
      obtain ⟨t1, o⟩ := r
      rw [h1] at hr
      simp only at hr
      cases h2 : run dv dk t1 ops with
      | none => rw [h2] at hr; cases hr
      | some r2 =>
        obtain ⟨t2, os2⟩ := r2
        rw [h2] at hr
        simp only [Option.some.injEq, Prod.mk.injEq] at hr
        obtain ⟨e, _⟩ := hr
        subst e
        exact ih (fun o ho => hn o (by simp [ho])) (fun o ho => hq o (by simp [ho]))
          (hI t op t1 o h0 (hq op (by simp)) inv (hn op (by simp)) h1)
          (step_inv inv (hn op (by simp)) h1) h2

theorem step_clean {dv : V} {dk : K} {t t' : HT V K} {op : Op V K} {o : Out V}
    (inv : Inv t.mod t.slots) (hn : op.hash ≠ nullHash) (hrm : isRemove op = false)
    (hc : Clean dv t) (hs : step dv dk t op = some (t', o)) : Clean dv t' := by
  rcases step_cases hs with ⟨_, t1, i, hg, e1, e2, e3, e4, hv⟩ | ⟨e, _⟩ | ⟨_, e⟩
  · have E := getIndexOfHit_ext inv hn hg
    intro j hj hsj
    rw [e1] at hj
    rw [e2] at hsj
    have hne : j ≠ i := by
      intro e; subst e; rw [E.at_] at hsj; exact hn hsj
    rw [hv j hne]; exact E.clean hc j hj hsj
  · rw [hrm] at e; cases e
  · rw [e]; exact hc

theorem follow_append (a b : List (Nat → Option Nat)) (i : Nat) :
    follow (a ++ b) i = (follow a i).bind (follow b) := by
  induction a generalizing i with
  | nil => rfl
  | cons f fs ih =>
    simp only [List.cons_append, follow]
    cases f i with
    | none => rfl
    | some j => exact ih j

/-- A reference taken at generation `g`, slot `i` currently denotes the slot of `h`. -/
def Denotes (t : HT V K) (g i : Nat) (h : Word32) : Prop :=
  g ≤ t.fwds.length ∧ ∃ j, derefHandle t g i = some j ∧ j < t.mod ∧ t.slots j = h

theorem ext_denotes {dv : V} {t t' : HT V K} {h h' : Word32} {i' g i : Nat} (E : Ext dv t t' h' i')
    (hn : h ≠ nullHash) (D : Denotes t g i h) : Denotes t' g i h := by
  obtain ⟨hg, j, hj, hlt, hs⟩ := D
  rcases E.kind with e | ⟨_, hm, hsl, hnull, _, hfw, _⟩ | ⟨_, _, _, _, f, hfw, hfor⟩
  · rw [e]; exact ⟨hg, j, hj, hlt, hs⟩
  · refine ⟨by rw [hfw]; exact hg, j, ?_, by rw [hm]; exact hlt, ?_⟩
    · unfold derefHandle; rw [hfw]; exact hj
    · have hne : j ≠ i' := by
        intro e; subst e; rw [hnull] at hs; exact hn hs.symm
      rw [hsl, upd_ne _ _ hne]; exact hs
  · obtain ⟨j', hf, hlt', hs'⟩ := hfor j hlt (by rw [hs]; exact hn)
    refine ⟨by rw [hfw]; simp; omega, j', ?_, hlt', by rw [hs', hs]⟩
    unfold derefHandle at hj ⊢
    rw [hfw]
    have e : (f :: t.fwds).length - g = (t.fwds.length - g) + 1 := by simp; omega
    rw [e, List.take_succ_cons, List.reverse_cons, follow_append, hj]
    simp [follow, hf]

theorem step_denotes {dv : V} {dk : K} {t t' : HT V K} {op : Op V K} {o : Out V} {g i : Nat}
    {h : Word32} (inv : Inv t.mod t.slots) (hn : op.hash ≠ nullHash) (hh : h ≠ nullHash)
    (hnr : isRemove op = true → op.hash ≠ h) (D : Denotes t g i h)
    (hs : step dv dk t op = some (t', o)) : Denotes t' g i h := by
  rcases step_cases hs with ⟨_, t1, x, hg, e1, e2, e3, e4, hv⟩ | ⟨hr, e⟩ | ⟨_, e⟩
  · have D1 := ext_denotes (getIndexOfHit_ext inv hn hg) hh D
    unfold Denotes derefHandle at D1 ⊢
    rw [e1, e2, e4]; exact D1
  · rw [e]
    rcases remove_cases inv hn with ⟨x, hx, hsx, hrm⟩ | hrm <;> rw [hrm]
    · obtain ⟨hg, j, hj, hlt, hsj⟩ := D
      refine ⟨hg, j, hj, hlt, ?_⟩
      have hjx : j ≠ x := by
        intro e; subst e; rw [hsj] at hsx; exact hnr hr hsx.symm
      exact (upd_ne _ _ hjx).trans hsj
    · exact D
  · rw [e]; exact D

theorem runRaw_eq {dv : V} {dk : K} {ops : List (Op V K)} {t : HT V K} (inv : Inv t.mod t.slots)
    (hn : ∀ op ∈ ops, op.hash ≠ nullHash) : runRaw dv dk t ops = run dv dk t ops := by
  induction ops generalizing t with
  | nil => rfl
  | cons op ops ih =>
    have hs : stepRaw dv dk t op = step dv dk t op := by
      have hno := hn op (by simp)
      cases op <;> simp only [stepRaw, step]
      · rw [Op.hash] at hno; rw [getAsRaw_eq inv hno]
      · rw [Op.hash] at hno; rw [getAsRaw_eq inv hno]
    simp only [runRaw, run, hs]
    cases h1 : step dv dk t op with
    | none => rfl
    | some r =>
      obtain ⟨t1, o⟩ := r
      simp only
      rw [ih (step_inv inv (hn op (by simp)) h1) (fun o ho => hn o (by simp [ho]))]

/-- Turn a computed check into an existence statement (for the examples). -/
theorem exists_of_check {α β : Type} {x : Option (α × β)} (P : α → β → Bool)
    (h : (match x with | some (a, b) => P a b | none => false) = true) :
    ∃ a b, x = some (a, b) ∧ P a b = true := by
  match x, h with
  | some (a, b), h => exact ⟨a, b, rfl, h⟩

/-- Does this operation write the key `h`? -/
def isWriteTo (h : Word32) : Op V K → Bool
  | .write h' _ _ => h' == h
  | _ => false

/-- `latest` never goes from some to none without a removal, and a write is never lost. -/
theorem latest_some_of_some {h : Word32} {ops : List (Op V K)} (hrm : ∀ op ∈ ops, isRemove op = false)
    {r : Option V} (hr : r ≠ none) : latest h ops r ≠ none := by
  induction ops generalizing r with
  | nil => exact hr
  | cons op ops ih =>
    have ht : ∀ op ∈ ops, isRemove op = false := fun o ho => hrm o (by simp [ho])
    have h0 := hrm op (by simp)
    cases op with
    | write h' k v =>
      simp only [latest]; apply ih ht; split
      · simp
      · exact hr
    | read h' k => exact ih ht hr
    | remove h' => simp [isRemove] at h0
    | check h' => exact ih ht hr

theorem no_write_of_latest_none {h : Word32} {ops : List (Op V K)}
    (hrm : ∀ op ∈ ops, isRemove op = false) (hw : latest h ops none = none) :
    ∀ op ∈ ops, isWriteTo h op = false := by
  induction ops with
  | nil => simp
  | cons op ops ih =>
    have ht : ∀ op ∈ ops, isRemove op = false := fun o ho => hrm o (by simp [ho])
    have h0 := hrm op (by simp)
    intro o ho
    cases op with
    | write h' k v =>
      simp only [latest] at hw
      by_cases e : h' = h
      · rw [if_pos e] at hw
        exact absurd hw (latest_some_of_some ht (by simp))
      · rw [if_neg e] at hw
        rcases List.mem_cons.mp ho with rfl | ho
        · simpa [isWriteTo] using e
        · exact ih ht hw o ho
    | read h' k =>
      rcases List.mem_cons.mp ho with rfl | ho
      · rfl
      · exact ih ht hw o ho
    | remove h' => simp [isRemove] at h0
    | check h' =>
      rcases List.mem_cons.mp ho with rfl | ho
      · rfl
      · exact ih ht hw o ho

/-- The key `h` was never written: wherever it is stored its value is the default. -/
def Unset (dv : V) (h : Word32) (t : HT V K) : Prop :=
  Clean dv t ∧ ∀ i, i < t.mod → t.slots i = h → t.vals i = dv

theorem ext_unset {dv : V} {t t1 : HT V K} {h h' : Word32} {i : Nat} (hh : h ≠ nullHash)
    (E : Ext dv t t1 h' i) (hu : Unset dv h t) :
    ∀ j, j < t1.mod → t1.slots j = h → t1.vals j = dv := by
  intro j hj hs
  by_cases e : h = h'
  · subst e
    by_cases hp : Present t.mod t.slots h
    · obtain ⟨j0, hj0, hs0⟩ := hp
      obtain ⟨j', hj', hs', hv', _⟩ := E.fwd j0 hj0 (by rw [hs0]; exact hh)
      have : j = j' := E.inv.inj j j' hj hj' (by rw [hs]; exact hh) (by rw [hs, hs', hs0])
      subst this
      rw [hv']; exact hu.2 j0 hj0 hs0
    · have hji : j = i := E.inv.inj j i hj E.lt (by rw [hs]; exact hh) (by rw [hs, E.at_])
      subst hji
      exact E.fresh hp hu.1
  · obtain ⟨j0, hj0, hs0, hv0, _⟩ := E.back j hj (by rw [hs]; exact hh) (by rw [hs]; exact e)
    rw [← hv0]; exact hu.2 j0 hj0 (by rw [hs0, hs])

theorem step_unset {dv : V} {dk : K} {t t' : HT V K} {op : Op V K} {o : Out V} {h : Word32}
    (inv : Inv t.mod t.slots) (hn : op.hash ≠ nullHash) (hrm : isRemove op = false)
    (hw : isWriteTo h op = false) (hu : Unset dv h t)
    (hs : step dv dk t op = some (t', o)) : Unset dv h t' := by
  refine ⟨step_clean inv hn hrm hu.1 hs, ?_⟩
  by_cases hh : h = nullHash
  · subst hh
    exact fun i hi hsi => step_clean inv hn hrm hu.1 hs i hi hsi
  cases op with
  | write h' k v =>
    simp only [step] at hs
    cases hg : getIndexOfHit dv dk t h' with
    | none => rw [hg] at hs; cases hs
    | some r =>
      rw [hg] at hs
      simp only [Option.some.injEq, Prod.mk.injEq] at hs
      obtain ⟨rfl, _⟩ := hs
      have E := getIndexOfHit_ext inv hn hg
      intro j hj hsj
      have hne : j ≠ r.2 := by
        intro e; subst e
        rw [E.at_] at hsj
        simp [isWriteTo, Op.hash] at hw hsj
        exact hw hsj
      simp only [upd, if_neg hne]
      exact ext_unset hh E hu j hj hsj
  | read h' k =>
    simp only [step] at hs
    cases hg : getIndexOfHit dv dk t h' with
    | none => rw [hg] at hs; cases hs
    | some r =>
      rw [hg] at hs
      simp only [Option.some.injEq, Prod.mk.injEq] at hs
      obtain ⟨rfl, _⟩ := hs
      exact fun j hj hsj => ext_unset hh (getIndexOfHit_ext inv hn hg) hu j hj hsj
  | remove h' => simp [isRemove] at hrm
  | check h' =>
    have e : t' = t := by
      simp only [step, Option.some.injEq, Prod.mk.injEq] at hs
      rw [← hs.1]
      unfold exists_
      split <;> rfl
    rw [e]; exact hu.2

end Wrench.HashTable
