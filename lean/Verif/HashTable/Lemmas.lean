import Verif.HashTable.Model

namespace Wrench.HashTable

@[simp] theorem upd_same {α : Type} (f : Nat → α) (i : Nat) (x : α) : upd f i x i = x := by simp [upd]
theorem upd_ne {α : Type} (f : Nat → α) {i j : Nat} (x : α) (h : j ≠ i) : upd f i x j = f j := by
  simp [upd, h]

/-- `k`-th probe position of a hash. -/
def pos (mod : Nat) (h : Word32) (k : Nat) : Nat := (h.toNat % mod + k) % mod

theorem pos_lt {mod : Nat} (hm : 0 < mod) (h : Word32) (k : Nat) : pos mod h k < mod :=
  Nat.mod_lt _ hm

theorem pos_zero {mod : Nat} (h : Word32) : pos mod h 0 = h.toNat % mod := by
  simp [pos]

/-- What the probe loop returns, in terms of offsets from the starting index. -/
theorem hitLoop_spec (mod : Nat) (slots : Nat → Word32) (hash : Word32) (ins : Bool) (n idx : Nat)
    (hidx : idx < mod) :
    match hitLoop mod slots hash ins n idx with
    | .hit j => ∃ k, 1 ≤ k ∧ k ≤ n + 1 ∧ j = (idx + k) % mod ∧ slots j = hash ∧
        (ins = true → ∀ k', k' < k → slots ((idx + k') % mod) ≠ nullHash)
    | .insert j => ins = true ∧ ∃ k, k ≤ n ∧ j = (idx + k) % mod ∧ slots j = nullHash ∧
        (∀ k', 1 ≤ k' → k' ≤ k → slots ((idx + k') % mod) ≠ hash)
    | .miss => (∀ k, 1 ≤ k → k ≤ n + 1 → slots ((idx + k) % mod) ≠ hash) ∧
        (ins = true → ∀ k, k ≤ n → slots ((idx + k) % mod) ≠ nullHash) := by
  induction n generalizing idx with
  | zero =>
    unfold hitLoop
    by_cases h1 : (ins && slots idx == nullHash) = true
    · simp only [h1, if_true]
      simp only [Bool.and_eq_true, beq_iff_eq] at h1
      refine ⟨h1.1, 0, Nat.le_refl _, by simp [Nat.mod_eq_of_lt hidx], h1.2, ?_⟩
      intro k' a b; omega
    · have h1' : ins = true → slots idx ≠ nullHash := by
        intro hi hs; apply h1; simp [hi, hs]
      rw [if_neg h1]
      by_cases h2 : slots ((idx + 1) % mod) = hash
      · simp only [h2, BEq.rfl, if_true]
        refine ⟨1, by omega, by omega, rfl, trivial, ?_⟩
        intro hi k' hk'
        have : k' = 0 := by omega
        subst this; simpa [Nat.mod_eq_of_lt hidx] using h1' hi
      · have h2' : (slots ((idx + 1) % mod) == hash) = false := by simpa using h2
        simp only [h2', if_false, Bool.false_eq_true]
        refine ⟨?_, ?_⟩
        · intro k a b
          have : k = 1 := by omega
          subst this; exact h2
        · intro hi k hk
          have : k = 0 := by omega
          subst this; simpa [Nat.mod_eq_of_lt hidx] using h1' hi
  | succ n ih =>
    unfold hitLoop
    by_cases h1 : (ins && slots idx == nullHash) = true
    · simp only [h1, if_true]
      simp only [Bool.and_eq_true, beq_iff_eq] at h1
      refine ⟨h1.1, 0, by omega, by simp [Nat.mod_eq_of_lt hidx], h1.2, ?_⟩
      intro k' a b; omega
    · have h1' : ins = true → slots idx ≠ nullHash := by
        intro hi hs; apply h1; simp [hi, hs]
      rw [if_neg h1]
      by_cases h2 : slots ((idx + 1) % mod) = hash
      · simp only [h2, BEq.rfl, if_true]
        refine ⟨1, by omega, by omega, rfl, trivial, ?_⟩
        intro hi k' hk'
        have : k' = 0 := by omega
        subst this; simpa [Nat.mod_eq_of_lt hidx] using h1' hi
      · have h2' : (slots ((idx + 1) % mod) == hash) = false := by simpa using h2
        simp only [h2', if_false, Bool.false_eq_true]
        have hlt : (idx + 1) % mod < mod := Nat.mod_lt _ (by omega)
        have hshift : ∀ k, ((idx + 1) % mod + k) % mod = (idx + (k + 1)) % mod := by
          intro k; rw [Nat.mod_add_mod]; congr 1; omega
        have ih' := ih ((idx + 1) % mod) hlt
        cases hc : hitLoop mod slots hash ins n ((idx + 1) % mod) with
        | hit j =>
          rw [hc] at ih'
          obtain ⟨k, a, b, c, d, e⟩ := ih'
          refine ⟨k + 1, by omega, by omega, by rw [c, hshift], d, ?_⟩
          intro hi k' hk'
          cases k' with
          | zero => simpa [Nat.mod_eq_of_lt hidx] using h1' hi
          | succ k' => rw [← hshift]; exact e hi k' (by omega)
        | insert j =>
          rw [hc] at ih'
          obtain ⟨a, k, b, c, d, e⟩ := ih'
          refine ⟨a, k + 1, by omega, by rw [c, hshift], d, ?_⟩
          intro k' ha hb
          cases k' with
          | zero => omega
          | succ k' =>
            cases k' with
            | zero => exact h2
            | succ k'' => rw [← hshift]; exact e (k'' + 1) (by omega) (by omega)
        | miss =>
          rw [hc] at ih'
          obtain ⟨a, b⟩ := ih'
          refine ⟨?_, ?_⟩
          · intro k ha hb
            cases k with
            | zero => omega
            | succ k =>
              cases k with
              | zero => exact h2
              | succ k' => rw [← hshift]; exact a (k' + 1) (by omega) (by omega)
          · intro hi k hk
            cases k with
            | zero => simpa [Nat.mod_eq_of_lt hidx] using h1' hi
            | succ k => rw [← hshift]; exact b hi k (by omega)

/-- What `probe` returns. -/
theorem probe_spec (mod : Nat) (slots : Nat → Word32) (hash : Word32) (ins : Bool) (hm : 0 < mod) :
    match probe mod slots hash ins with
    | .hit j => ∃ k, k ≤ 4 ∧ j = pos mod hash k ∧ slots j = hash
    | .insert j => ins = true ∧ ∃ k, k ≤ 3 ∧ j = pos mod hash k ∧ slots j = nullHash ∧
        (∀ k', k' ≤ k → slots (pos mod hash k') ≠ hash)
    | .miss => (∀ k, k ≤ 4 → slots (pos mod hash k) ≠ hash) ∧
        (ins = true → ∀ k, k ≤ 3 → slots (pos mod hash k) ≠ nullHash) := by
  unfold probe
  by_cases h0 : slots (hash.toNat % mod) = hash
  · simp only [h0, BEq.rfl, if_true]
    exact ⟨0, by omega, by simp [pos], trivial⟩
  · have h0' : (slots (hash.toNat % mod) == hash) = false := by simpa using h0
    simp only [h0', if_false, Bool.false_eq_true]
    have h0p : slots (pos mod hash 0) ≠ hash := by rw [pos_zero]; exact h0
    have hs := hitLoop_spec mod slots hash ins 3 (hash.toNat % mod) (Nat.mod_lt _ hm)
    cases hc : hitLoop mod slots hash ins 3 (hash.toNat % mod) with
    | hit j =>
      rw [hc] at hs
      obtain ⟨k, a, b, c, d, e⟩ := hs
      exact ⟨k, b, c, d⟩
    | insert j =>
      rw [hc] at hs
      obtain ⟨a, k, b, c, d, e⟩ := hs
      refine ⟨a, k, b, c, d, ?_⟩
      intro k' hk'
      cases k' with
      | zero => exact h0p
      | succ k' => exact e (k' + 1) (by omega) hk'
    | miss =>
      rw [hc] at hs
      obtain ⟨a, b⟩ := hs
      refine ⟨?_, b⟩
      intro k hk
      cases k with
      | zero => exact h0p
      | succ k => exact a (k + 1) (by omega) hk

/-- `hash` occupies some slot. -/
def Present (mod : Nat) (slots : Nat → Word32) (hash : Word32) : Prop := ∃ i, i < mod ∧ slots i = hash

/-- Representation invariant: positive size, every stored hash within four probes of
its home slot, no hash stored twice. -/
structure Inv (mod : Nat) (slots : Nat → Word32) : Prop where
  modPos : 0 < mod
  window : ∀ i, i < mod → slots i ≠ nullHash → ∃ k, k < 4 ∧ i = pos mod (slots i) k
  inj : ∀ i j, i < mod → j < mod → slots i ≠ nullHash → slots i = slots j → i = j

theorem probe_false_hit {mod : Nat} {slots : Nat → Word32} {hash : Word32} (inv : Inv mod slots)
    (hn : hash ≠ nullHash) {i : Nat} (hi : i < mod) (hs : slots i = hash) :
    probe mod slots hash false = .hit i := by
  have sp := probe_spec mod slots hash false inv.modPos
  cases hc : probe mod slots hash false with
  | hit j =>
    rw [hc] at sp
    obtain ⟨k, _, hj, hsj⟩ := sp
    have hjm : j < mod := by rw [hj]; exact pos_lt inv.modPos _ _
    rw [inv.inj j i hjm hi (by rw [hsj]; exact hn) (by rw [hsj, hs])]
  | insert j => rw [hc] at sp; exact absurd sp.1 (by simp)
  | miss =>
    rw [hc] at sp
    obtain ⟨k, hk, hik⟩ := inv.window i hi (by rw [hs]; exact hn)
    rw [hs] at hik
    exact absurd (hik ▸ hs) (sp.1 k (by omega))

theorem probe_false_cases {mod : Nat} {slots : Nat → Word32} {hash : Word32} (inv : Inv mod slots)
    (hn : hash ≠ nullHash) :
    (∃ i, i < mod ∧ slots i = hash ∧ probe mod slots hash false = .hit i) ∨
    (¬ Present mod slots hash ∧ probe mod slots hash false = .miss) := by
  by_cases h : Present mod slots hash
  · obtain ⟨i, hi, hs⟩ := h
    exact Or.inl ⟨i, hi, hs, probe_false_hit inv hn hi hs⟩
  · refine Or.inr ⟨h, ?_⟩
    have sp := probe_spec mod slots hash false inv.modPos
    cases hc : probe mod slots hash false with
    | hit j =>
      rw [hc] at sp
      obtain ⟨k, _, hj, hsj⟩ := sp
      exact absurd ⟨j, by rw [hj]; exact pos_lt inv.modPos _ _, hsj⟩ h
    | insert j => rw [hc] at sp; exact absurd sp.1 (by simp)
    | miss => rfl

theorem probe_true_absent {mod : Nat} {slots : Nat → Word32} {hash : Word32} (hm : 0 < mod)
    (h : ¬ Present mod slots hash) :
    (∃ k, k ≤ 3 ∧ probe mod slots hash true = .insert (pos mod hash k) ∧
        slots (pos mod hash k) = nullHash) ∨
    probe mod slots hash true = .miss := by
  have sp := probe_spec mod slots hash true hm
  cases hc : probe mod slots hash true with
  | hit j =>
    rw [hc] at sp
    obtain ⟨k, _, hj, hsj⟩ := sp
    exact absurd ⟨j, by rw [hj]; exact pos_lt hm _ _, hsj⟩ h
  | insert j =>
    rw [hc] at sp
    obtain ⟨_, k, hk, hj, hs, _⟩ := sp
    left; exact ⟨k, hk, by rw [hj], by rw [← hj]; exact hs⟩
  | miss => right; rfl

/-- Inserting probe finds a present hash when no empty slot precedes it. -/
theorem probe_true_noGap {mod : Nat} {slots : Nat → Word32} {hash : Word32} (hm : 0 < mod)
    (hn : hash ≠ nullHash)
    (inj : ∀ i j, i < mod → j < mod → slots i ≠ nullHash → slots i = slots j → i = j)
    {k : Nat} (hk : k < 4) (hs : slots (pos mod hash k) = hash)
    (gap : ∀ k', k' < k → slots (pos mod hash k') ≠ nullHash) :
    probe mod slots hash true = .hit (pos mod hash k) := by
  have sp := probe_spec mod slots hash true hm
  cases hc : probe mod slots hash true with
  | hit j =>
    rw [hc] at sp
    obtain ⟨k', _, hj, hsj⟩ := sp
    have hjm : j < mod := by rw [hj]; exact pos_lt hm _ _
    rw [inj j (pos mod hash k) hjm (pos_lt hm _ _) (by rw [hsj]; exact hn) (by rw [hsj, hs])]
  | insert j =>
    rw [hc] at sp
    obtain ⟨_, k0, _, hj, hsj, hno⟩ := sp
    by_cases hlt : k0 < k
    · exact absurd (hj ▸ hsj) (gap k0 hlt)
    · exact absurd hs (hno k (by omega))
  | miss =>
    rw [hc] at sp
    exact absurd hs (sp.1 k (by omega))

/-! ### Placement -/

theorem placeLoop_spec (newMod : Nat) (prop : Nat → Word32) (n e : Nat) (he : e < newMod) :
    match placeLoop newMod prop n e with
    | some j => ∃ k, k ≤ n ∧ j = (e + k) % newMod ∧ prop j = nullHash ∧
        ∀ k', k' < k → prop ((e + k') % newMod) ≠ nullHash
    | none => ∀ k, k ≤ n → prop ((e + k) % newMod) ≠ nullHash := by
  induction n generalizing e with
  | zero =>
    unfold placeLoop
    by_cases h : prop e = nullHash
    · simp only [h, BEq.rfl, if_true]
      exact ⟨0, by omega, by simp [Nat.mod_eq_of_lt he], trivial, by intro k' hk'; omega⟩
    · have h' : (prop e == nullHash) = false := by simpa using h
      simp only [h', if_false, Bool.false_eq_true]
      intro k hk
      have : k = 0 := by omega
      subst this; simpa [Nat.mod_eq_of_lt he] using h
  | succ n ih =>
    unfold placeLoop
    by_cases h : prop e = nullHash
    · simp only [h, BEq.rfl, if_true]
      exact ⟨0, by omega, by simp [Nat.mod_eq_of_lt he], trivial, by intro k' hk'; omega⟩
    · have h' : (prop e == nullHash) = false := by simpa using h
      simp only [h', if_false, Bool.false_eq_true]
      have hlt : (e + 1) % newMod < newMod := Nat.mod_lt _ (by omega)
      have hshift : ∀ k, ((e + 1) % newMod + k) % newMod = (e + (k + 1)) % newMod := by
        intro k; rw [Nat.mod_add_mod]; congr 1; omega
      have ih' := ih ((e + 1) % newMod) hlt
      cases hc : placeLoop newMod prop n ((e + 1) % newMod) with
      | some j =>
        rw [hc] at ih'
        obtain ⟨k, a, b, c, d⟩ := ih'
        refine ⟨k + 1, by omega, by rw [b, hshift], c, ?_⟩
        intro k' hk'
        cases k' with
        | zero => simpa [Nat.mod_eq_of_lt he] using h
        | succ k' => rw [← hshift]; exact d k' (by omega)
      | none =>
        rw [hc] at ih'
        intro k hk
        cases k with
        | zero => simpa [Nat.mod_eq_of_lt he] using h
        | succ k => rw [← hshift]; exact ih' k (by omega)

/-- Number of occupied slots. -/
def live (mod : Nat) (slots : Nat → Word32) : Nat :=
  (List.range mod).countP (fun i => slots i != nullHash)

theorem countP_upd {α : Type} (p : α → Bool) (f : Nat → α) (x : α) (m i : Nat) (hi : i < m) :
    (List.range m).countP (fun j => p (upd f i x j)) + (if p (f i) then 1 else 0) =
    (List.range m).countP (fun j => p (f j)) + (if p x then 1 else 0) := by
  induction m with
  | zero => omega
  | succ m ih =>
    simp only [List.range_succ, List.countP_append, List.countP_singleton]
    by_cases him : i = m
    · subst him
      have : (List.range i).countP (fun j => p (upd f i x j)) =
          (List.range i).countP (fun j => p (f j)) := by
        apply List.countP_congr
        intro j hj
        rw [upd_ne f x (by have := List.mem_range.mp hj; omega)]
      rw [this, upd_same]; omega
    · have := ih (by omega)
      rw [upd_ne f x (fun h => him h.symm)]
      omega

theorem live_upd_some {mod : Nat} {slots : Nat → Word32} {i : Nat} {h : Word32} (hi : i < mod)
    (hs : slots i = nullHash) (hn : h ≠ nullHash) :
    live mod (upd slots i h) = live mod slots + 1 := by
  have := countP_upd (fun w => w != nullHash) slots h mod i hi
  simp only [hs] at this
  have h1 : (h != nullHash) = true := by simpa using hn
  simp only [h1, bne_self_eq_false, if_true, Bool.false_eq_true, if_false, Nat.add_zero] at this
  exact this

theorem live_upd_null {mod : Nat} {slots : Nat → Word32} {i : Nat} (hi : i < mod)
    (hs : slots i ≠ nullHash) :
    live mod (upd slots i nullHash) + 1 = live mod slots := by
  have := countP_upd (fun w => w != nullHash) slots nullHash mod i hi
  have h1 : (slots i != nullHash) = true := by simpa using hs
  simp only [h1, bne_self_eq_false, if_true, Bool.false_eq_true, if_false, Nat.add_zero] at this
  exact this

/-- State of the placement pass after the first `m` old slots. -/
structure Placed (mod : Nat) (slots : Nat → Word32) (hash : Word32) (newMod : Nat) (m : Nat)
    (prop : Nat → Word32) : Prop where
  src : ∀ i, i < newMod → prop i ≠ nullHash → prop i = hash ∨ ∃ v, v < m ∧ slots v = prop i
  done : ∀ v, v < m → slots v ≠ nullHash → ∃ i, i < newMod ∧ prop i = slots v
  home : hash ≠ nullHash → prop (hash.toNat % newMod) = hash
  window : ∀ i, i < newMod → prop i ≠ nullHash → ∃ k, k < 4 ∧ i = pos newMod (prop i) k ∧
    ∀ k', k' < k → prop (pos newMod (prop i) k') ≠ nullHash
  inj : ∀ i j, i < newMod → j < newMod → prop i ≠ nullHash → prop i = prop j → i = j
  cnt : live newMod prop = (List.range m).countP (fun i => slots i != nullHash) +
    (if hash = nullHash then 0 else 1)

theorem placed_init (mod : Nat) (slots : Nat → Word32) (hash : Word32) (newMod : Nat)
    (hm : 0 < newMod) :
    Placed mod slots hash newMod 0 (upd (fun _ => nullHash) (hash.toNat % newMod) hash) := by
  have hlt : hash.toNat % newMod < newMod := Nat.mod_lt _ hm
  have only : ∀ i, upd (fun _ => nullHash) (hash.toNat % newMod) hash i ≠ nullHash →
      i = hash.toNat % newMod := by
    intro i hi
    by_cases h : i = hash.toNat % newMod
    · exact h
    · rw [upd_ne _ _ h] at hi; exact absurd rfl hi
  refine ⟨?_, ?_, fun _ => upd_same _ _ _, ?_, ?_, ?_⟩
  · intro i _ hi
    have := only i hi; subst this; left; exact upd_same _ _ _
  · intro v hv; omega
  · intro i _ hi
    have := only i hi
    refine ⟨0, by omega, ?_, by intro k' hk'; omega⟩
    conv => lhs; rw [this]
    rw [this, upd_same, pos_zero]
  · intro i j _ _ hi hij
    have h1 := only i hi
    have h2 := only j (hij ▸ hi)
    omega
  · have := countP_upd (fun w => w != nullHash) (fun _ => nullHash) hash newMod _ hlt
    simp only [bne_self_eq_false, Bool.false_eq_true, if_false, Nat.add_zero] at this
    unfold live
    rw [this]
    have h0 : (List.range newMod).countP (fun _ => false) = 0 := by simp
    rw [h0]
    simp

theorem placed_step {mod : Nat} {slots : Nat → Word32} {hash : Word32} {newMod m : Nat}
    {prop : Nat → Word32} (hm : 0 < newMod)
    (sinj : ∀ i j, i < mod → j < mod → slots i ≠ nullHash → slots i = slots j → i = j)
    (habs : hash ≠ nullHash → ¬ Present mod slots hash) (hmm : m < mod)
    (P : Placed mod slots hash newMod m prop) {e : Nat}
    (he : placeLoop newMod prop 3 ((slots m).toNat % newMod) = some e) :
    Placed mod slots hash newMod (m + 1) (upd prop e (slots m)) := by
  have sp := placeLoop_spec newMod prop 3 ((slots m).toNat % newMod) (Nat.mod_lt _ hm)
  rw [he] at sp
  obtain ⟨k, hk, hej, hnull, hgap⟩ := sp
  have hej' : e = pos newMod (slots m) k := hej
  have helt : e < newMod := by rw [hej]; exact Nat.mod_lt _ hm
  by_cases hsm : slots m = nullHash
  · -- placing an empty slot changes nothing
    have hsame : upd prop e (slots m) = prop := by
      funext j
      by_cases hj : j = e
      · subst hj; rw [upd_same, hsm, hnull]
      · rw [upd_ne _ _ hj]
    rw [hsame]
    refine ⟨?_, ?_, P.home, P.window, P.inj, ?_⟩
    · intro i hi hp
      rcases P.src i hi hp with h | ⟨v, hv, h⟩
      · exact Or.inl h
      · exact Or.inr ⟨v, by omega, h⟩
    · intro v hv hn
      by_cases hvm : v = m
      · subst hvm; exact absurd hsm hn
      · exact P.done v (by omega) hn
    · rw [P.cnt, List.range_succ, List.countP_append, List.countP_singleton]
      simp [hsm]
  · -- a real hash
    have hfresh : ∀ i, i < newMod → prop i ≠ slots m := by
      intro i hi h
      rcases P.src i hi (by rw [h]; exact hsm) with h' | ⟨v, hv, h'⟩
      · exact habs (by rw [← h', h]; exact hsm) ⟨m, hmm, by rw [← h', h]⟩
      · have := sinj v m (by omega) hmm (by rw [h', h]; exact hsm) (by rw [h', h])
        omega
    have hne : ∀ i, prop i ≠ nullHash → i ≠ e := by
      intro i hi h; subst h; exact hi hnull
    refine ⟨?_, ?_, ?_, ?_, ?_, ?_⟩
    · intro i hi hp
      by_cases hie : i = e
      · subst hie; right; exact ⟨m, by omega, (upd_same _ _ _).symm⟩
      · rw [upd_ne _ _ hie] at hp ⊢
        rcases P.src i hi hp with h | ⟨v, hv, h⟩
        · exact Or.inl h
        · exact Or.inr ⟨v, by omega, h⟩
    · intro v hv hn
      by_cases hvm : v = m
      · subst hvm; exact ⟨e, helt, upd_same _ _ _⟩
      · obtain ⟨i, hi, h⟩ := P.done v (by omega) hn
        refine ⟨i, hi, ?_⟩
        rw [upd_ne _ _ (hne i (by rw [h]; exact hn)), h]
    · intro hh
      rw [upd_ne _ _ (hne _ (by rw [P.home hh]; exact hh))]; exact P.home hh
    · intro i hi hp
      by_cases hie : i = e
      · subst hie
        rw [upd_same]
        refine ⟨k, by omega, hej', ?_⟩
        intro k' hk'
        have hg : prop (pos newMod (slots m) k') ≠ nullHash := hgap k' hk'
        rw [upd_ne _ _ (hne _ hg)]; exact hg
      · rw [upd_ne _ _ hie] at hp ⊢
        obtain ⟨k1, hk1, hi1, hg1⟩ := P.window i hi hp
        refine ⟨k1, hk1, hi1, ?_⟩
        intro k' hk'
        have hg := hg1 k' hk'
        rw [upd_ne _ _ (hne _ hg)]; exact hg
    · intro i j hi hj hp hij
      by_cases hie : i = e
      · by_cases hje : j = e
        · omega
        · subst hie
          rw [upd_same, upd_ne _ _ hje] at hij
          exact absurd hij.symm (hfresh j hj)
      · by_cases hje : j = e
        · subst hje
          rw [upd_same, upd_ne _ _ hie] at hij
          exact absurd hij (hfresh i hi)
        · rw [upd_ne _ _ hie] at hp hij
          rw [upd_ne _ _ hje] at hij
          exact P.inj i j hi hj hp hij
    · rw [live_upd_some helt hnull hsm, P.cnt, List.range_succ, List.countP_append,
        List.countP_singleton]
      have h1 : (slots m != nullHash) = true := by simpa using hsm
      simp only [h1, if_true]; omega

/-- A left-to-right fold over `0..n-1` preserves an indexed invariant. -/
theorem foldlM_range_inv {σ : Type} (f : σ → Nat → Option σ) (I : Nat → σ → Prop) (n : Nat)
    (s0 : σ) (h0 : I 0 s0)
    (hstep : ∀ m s s', m < n → I m s → f s m = some s' → I (m + 1) s')
    (s : σ) (h : (List.range n).foldlM f s0 = some s) : I n s := by
  induction n generalizing s with
  | zero => simp at h; subst h; exact h0
  | succ n ih =>
    rw [List.range_succ, List.foldlM_append] at h
    cases hc : (List.range n).foldlM f s0 with
    | none => rw [hc] at h; simp at h
    | some s1 =>
      rw [hc] at h
      simp at h
      exact hstep n s1 s (by omega)
        (ih (fun m s s' hm => hstep m s s' (by omega)) s1 hc) h

/-- A fold whose step never fails under the invariant does not fail. -/
theorem foldlM_range_some {σ : Type} (f : σ → Nat → Option σ) (I : Nat → σ → Prop) (n : Nat)
    (s0 : σ) (h0 : I 0 s0)
    (hstep : ∀ m s, m < n → I m s → ∃ s', f s m = some s' ∧ I (m + 1) s') :
    ∃ s, (List.range n).foldlM f s0 = some s ∧ I n s := by
  induction n with
  | zero => exact ⟨s0, by simp, h0⟩
  | succ n ih =>
    obtain ⟨s1, hs1, hi1⟩ := ih (fun m s hm => hstep m s (by omega))
    obtain ⟨s2, hs2, hi2⟩ := hstep n s1 (by omega) hi1
    refine ⟨s2, ?_, hi2⟩
    rw [List.range_succ, List.foldlM_append, hs1]
    simpa using hs2

theorem propose_placed {mod : Nat} {slots : Nat → Word32} {hash : Word32} {newMod : Nat}
    (hm : 0 < newMod)
    (sinj : ∀ i j, i < mod → j < mod → slots i ≠ nullHash → slots i = slots j → i = j)
    (habs : hash ≠ nullHash → ¬ Present mod slots hash) {prop : Nat → Word32}
    (h : propose mod slots hash newMod = some prop) : Placed mod slots hash newMod mod prop := by
  unfold propose at h
  refine foldlM_range_inv _ (fun m s => Placed mod slots hash newMod m s) mod _
    (placed_init mod slots hash newMod hm) ?_ prop h
  intro m s s' hlt hI hf
  cases hp : placeLoop newMod s 3 ((slots m).toNat % newMod) with
  | none => rw [hp] at hf; simp at hf
  | some e =>
    rw [hp] at hf
    simp at hf
    subst hf
    exact placed_step hm sinj habs hlt hI hp

theorem findMod_mem {mod : Nat} {slots : Nat → Word32} {hash : Word32} {ps : List Nat} {p : Nat}
    {s : Nat → Word32} (h : findMod mod slots hash ps = some (p, s)) :
    p ∈ ps ∧ propose mod slots hash p = some s := by
  induction ps with
  | nil => simp [findMod] at h
  | cons q qs ih =>
    unfold findMod at h
    cases hc : propose mod slots hash q with
    | none =>
      rw [hc] at h
      obtain ⟨a, b⟩ := ih h
      exact ⟨by simp [a], b⟩
    | some s' =>
      rw [hc] at h
      simp at h
      obtain ⟨rfl, rfl⟩ := h
      exact ⟨by simp, hc⟩

theorem primeTable_pos {p : Nat} (h : p ∈ primeTable) : 2 ≤ p := by
  have : ∀ q ∈ primeTable, 2 ≤ q := by decide
  exact this p h

theorem findMod_pos {mod : Nat} {slots : Nat → Word32} {hash : Word32} {f : Nat → Bool} {p : Nat}
    {s : Nat → Word32} (h : findMod mod slots hash (primeTable.dropWhile f) = some (p, s)) :
    2 ≤ p ∧ propose mod slots hash p = some s := by
  obtain ⟨a, b⟩ := findMod_mem h
  exact ⟨primeTable_pos (List.dropWhile_subset _ a), b⟩

/-! ### The copy loop -/

variable {V K : Type}

/-- Invariant of an accepted placement, as needed afterwards. -/
theorem Placed.toInv {mod : Nat} {slots : Nat → Word32} {hash : Word32} {newMod m : Nat}
    {prop : Nat → Word32} (hm : 0 < newMod) (P : Placed mod slots hash newMod m prop) :
    Inv newMod prop :=
  ⟨hm, fun i hi hp => by
    obtain ⟨k, a, b, _⟩ := P.window i hi hp
    exact ⟨k, a, b⟩, P.inj⟩

theorem Placed.probe_hit {mod : Nat} {slots : Nat → Word32} {hash : Word32} {newMod m : Nat}
    {prop : Nat → Word32} (hm : 0 < newMod) (P : Placed mod slots hash newMod m prop) {i : Nat}
    (hi : i < newMod) (hp : prop i ≠ nullHash) : probe newMod prop (prop i) true = .hit i := by
  obtain ⟨k, a, b, c⟩ := P.window i hi hp
  have := probe_true_noGap hm hp P.inj a (by rw [← b]) c
  rw [this, ← b]

/-- State of the copy loop after the first `m` old slots. -/
structure Copied (dv : V) (dk : K) (old : HT V K) (newMod : Nat) (prop : Nat → Word32) (m : Nat)
    (st : HT V K × (Nat → Option Nat)) : Prop where
  mod : st.1.mod = newMod
  slots : st.1.slots = prop
  size : st.1.size = old.size
  fwds : st.1.fwds = old.fwds
  moved : ∀ v i, v < m → i < newMod → old.slots v ≠ nullHash → prop i = old.slots v →
    st.1.vals i = old.vals v ∧ st.1.keys i = old.keys v ∧ st.2 v = some i
  other : ∀ i, i < newMod → (∀ v, v < m → old.slots v ≠ nullHash → prop i ≠ old.slots v) →
    st.1.vals i = dv ∧ st.1.keys i = dk
  fnull : ∀ v, m ≤ v ∨ old.slots v = nullHash → st.2 v = none

theorem copy_step {dv : V} {dk : K} {old : HT V K} {hash : Word32} {newMod m : Nat}
    {prop : Nat → Word32} (hm : 0 < newMod)
    (P : Placed old.mod old.slots hash newMod old.mod prop)
    (sinj : ∀ i j, i < old.mod → j < old.mod → old.slots i ≠ nullHash → old.slots i = old.slots j → i = j)
    (hlt : m < old.mod) {st : HT V K × (Nat → Option Nat)} (C : Copied dv dk old newMod prop m st) :
    ∃ st', copyStep old st m = some st' ∧ Copied dv dk old newMod prop (m + 1) st' := by
  unfold copyStep
  by_cases hs : old.slots m = nullHash
  · simp only [hs, BEq.rfl, if_true]
    refine ⟨st, rfl, C.mod, C.slots, C.size, C.fwds, ?_, ?_, ?_⟩
    · intro v i hv hi hn hp
      by_cases hvm : v = m
      · subst hvm; exact absurd hs hn
      · exact C.moved v i (by omega) hi hn hp
    · intro i hi h
      exact C.other i hi (fun v hv => h v (by omega))
    · intro v hv
      rcases hv with hv | hv
      · exact C.fnull v (Or.inl (by omega))
      · exact C.fnull v (Or.inr hv)
  · have hs' : (old.slots m == nullHash) = false := by simpa using hs
    simp only [hs', if_false, Bool.false_eq_true]
    obtain ⟨i0, hi0, hp0⟩ := P.done m hlt hs
    have hit : probe newMod prop (old.slots m) true = .hit i0 := by
      rw [← hp0]; exact P.probe_hit hm hi0 (by rw [hp0]; exact hs)
    have hpi : probeInsert st.1 (old.slots m) = some (st.1, i0) := by
      unfold probeInsert; rw [C.mod, C.slots, hit]
    rw [hpi]
    refine ⟨_, rfl, C.mod, C.slots, C.size, C.fwds, ?_, ?_, ?_⟩
    · intro v i hv hi hn hp
      by_cases hvm : v = m
      · subst hvm
        have : i = i0 := P.inj i i0 hi hi0 (by rw [hp]; exact hn) (by rw [hp, hp0])
        subst this
        exact ⟨upd_same _ _ _, upd_same _ _ _, upd_same _ _ _⟩
      · have hne : i ≠ i0 := by
          intro h; subst h
          exact hvm (sinj v m (by omega) hlt hn (by rw [← hp, hp0]))
        obtain ⟨a, b, c⟩ := C.moved v i (by omega) hi hn hp
        refine ⟨?_, ?_, ?_⟩
        · exact (upd_ne _ _ hne).trans a
        · exact (upd_ne _ _ hne).trans b
        · exact (upd_ne _ _ hvm).trans c
    · intro i hi h
      have hne : i ≠ i0 := by
        intro h'; subst h'
        exact h m (by omega) hs hp0
      obtain ⟨a, b⟩ := C.other i hi (fun v hv => h v (by omega))
      exact ⟨(upd_ne _ _ hne).trans a, (upd_ne _ _ hne).trans b⟩
    · intro v hv
      have hne : v ≠ m := by
        intro h; subst h
        rcases hv with hv | hv
        · omega
        · exact hs hv
      refine (upd_ne _ _ hne).trans (C.fnull v ?_)
      rcases hv with hv | hv
      · left; omega
      · right; exact hv

end Wrench.HashTable
