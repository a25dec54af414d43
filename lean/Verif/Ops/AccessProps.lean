import Verif.Ops.Access
import Verif.Ops.IndexProps

/-
C74, C75: what a host program is told about a value, and what it does to it.
-/
namespace Wrench.Ops

/-! ### Asking -/

/-- The answers to every question a host can ask about the plain value `v`, in state `σ`. -/
structure Told (σ : St) (v : Val) (str wa ra : Option Nat) (ht st : Bool) : Prop where
  str : str = match v with
    | .arr o => match σ.obj o with | .chars bs _ => some bs.length | _ => none
    | _ => none
  wa : wa = match v with
    | .arr o => match σ.obj o with | .vals n => some n | _ => none
    | _ => none
  ra : ra = match v with | .raw _ n => some n | _ => none
  ht : ht = match v with | .tbl _ => true | _ => false
  st : st = match v with | .strct _ => true | _ => false

/-- **C74** (kinds): for a value reached through any references and container members, every kind
test answers for the value designated, with its length, and nothing is changed. -/
theorem C74_kinds {mb : Bool} {k : Nat} {σ : St} {a : Addr} {v : Val} (h : Reads σ mb k a v)
    (d : Nat) : ∃ τ str wa ra ht st, SameReal σ τ ∧ (∀ x, x ≠ .t2 → τ.cell x = σ.cell x) ∧
      isString (d + k + 1) σ a = .ok (τ, str) ∧ isWrenchArray (d + k + 1) σ a = .ok (τ, wa) ∧
      isRawArray (d + k + 1) σ a = .ok (τ, ra) ∧ isHashTable (d + k + 1) σ a = .ok (τ, ht) ∧
      isStruct (d + k + 1) σ a = .ok (τ, st) ∧ Told σ v str wa ra ht st := by
  obtain ⟨τ, l, e1, e2, e3, e4, -⟩ := deref_reads h d
  simp only [isString, isWrenchArray, isRawArray, isHashTable, isStruct, e1, res_bind_ok, e2]
  cases v with
  | arr o =>
    simp only [e3.obj]
    cases ho : σ.obj o <;>
      exact ⟨τ, _, _, _, _, _, e3, e4, rfl, rfl, rfl, rfl, rfl, by simp [ho], by simp [ho], rfl, rfl, rfl⟩
  | _ => exact ⟨τ, _, _, _, _, _, e3, e4, rfl, rfl, rfl, rfl, rfl, rfl, rfl, rfl, rfl, rfl⟩

/-- At most one kind test succeeds, and none of them on a number. -/
theorem C74_one_kind {σ : St} {v : Val} {str wa ra : Option Nat} {ht st : Bool}
    (h : Told σ v str wa ra ht st) :
    ([str.isSome, wa.isSome, ra.isSome, ht, st].filter id).length ≤ 1 ∧
    (v.isNum = true → [str.isSome, wa.isSome, ra.isSome, ht, st] = List.replicate 5 false) := by
  obtain ⟨h1, h2, h3, h4, h5⟩ := h
  subst h1 h2 h3 h4 h5
  cases v with
  | arr o => simp only; cases σ.obj o <;> simp [Val.isNum]
  | _ => simp [Val.isNum]

/-- **C75** (`isInt`, `isFloat`), for a value held directly or by a reference to its variable.
Missing: elements of containers and references to references, where the answer is always no
(`C75_element_not_int`, `C75_two_references_not_int`). -/
theorem C75_number_kind_partial {k : Nat} {σ : St} {a : Addr} {v : Val} (hk : k ≤ 1)
    (h : Reads σ false k a v) :
    (isInt σ a = true ↔ ∃ w, v = .int w) ∧ (isFloat σ a = true ↔ ∃ x, v = .float x) := by
  have base : ∀ {b : Addr}, (σ.cell b).plain = true →
      (isInt σ b = true ↔ ∃ w, σ.cell b = .int w) ∧ (isFloat σ b = true ↔ ∃ x, σ.cell b = .float x) := by
    intro b hb
    unfold isInt isFloat
    cases hc : σ.cell b <;> simp_all [Val.plain]
  cases h with
  | here h => exact base h
  | @ref k' _ r _ h1 h2 h3 =>
    have : k' = 0 := by omega
    subst this
    cases h3 with
    | here h =>
      unfold isInt isFloat
      simp only [h1]
      cases hc : σ.cell r <;> simp
  | velem h0 => cases h0
  | celem h0 => cases h0
  | relem h0 => cases h0
  | helem h0 => cases h0

/-- **C74** (`asInt`): the int itself, the float converted, the hash of anything else; nothing is
changed.  Undefined exactly when the float does not fit an int. -/
theorem C74_asInt (E : Env) (toI : Word32 → Option Word32) {mb : Bool} {k : Nat} {σ : St} {a : Addr}
    {v : Val} (h : Reads σ mb k a v) (d : Nat) :
    match v.num E σ with
    | .float x => match toI x with
      | some w => ∃ τ, asInt E toI (d + k + 1) σ a = .ok (τ, w) ∧ SameReal σ τ
      | none => asInt E toI (d + k + 1) σ a = .ub
    | .int w => ∃ τ, asInt E toI (d + k + 1) σ a = .ok (τ, w) ∧ SameReal σ τ
    | _ => False := by
  obtain ⟨τ, e1, e2, e3, -⟩ := single_reads E h d
  by_cases hn : (σ.cell a).isNum = true
  · have hv : v = σ.cell a := reads_num h hn
    subst hv
    rw [num_of_isNum E σ hn]
    unfold asInt
    cases hc : σ.cell a with
    | int w => exact ⟨σ, rfl, .refl σ⟩
    | float x =>
      simp only [castI]
      cases toI x with
      | some w => exact ⟨σ, rfl, .refl σ⟩
      | none => rfl
    | _ => simp [hc, Val.isNum] at hn
  · have key : asInt E toI (d + k + 1) σ a = (do
        let σ ← single E (d + k + 1) σ a
        match σ.cell .t1 with
        | .int w => return (σ, w)
        | .float x => castI toI σ x
        | _ => .oof) := by
      unfold asInt
      split
      · next w hw => rw [hw] at hn; exact absurd rfl hn
      · next w hw => rw [hw] at hn; exact absurd rfl hn
      · rfl
    rw [key, e1]
    simp only [res_bind_ok, e2]
    have := num_isNum E σ v
    cases hv : v.num E σ with
    | int w => exact ⟨τ, rfl, e3⟩
    | float x =>
      simp only [castI]
      cases toI x with
      | some w => exact ⟨τ, rfl, e3⟩
      | none => rfl
    | _ => simp [hv, Val.isNum] at this

/-- The float a plain value stands for. -/
def floatOf (E : Env) (σ : St) : Val → Word32
  | .float y => y
  | .int w => E.ofInt w
  | v => E.ofInt (getHash E σ v)

/-- **C74** (`asFloat`): the float itself, the int converted, the hash of anything else
converted; nothing is changed. -/
theorem C74_asFloat (E : Env) {mb : Bool} {k : Nat} {σ : St} {a : Addr}
    {v : Val} (h : Reads σ mb k a v) (d : Nat) : ∃ τ,
    asFloat E (d + k + 1) σ a = .ok (τ, floatOf E σ v) ∧ SameReal σ τ := by
  obtain ⟨τ, e1, e2, e3, -⟩ := single_reads E h d
  by_cases hn : (σ.cell a).isNum = true
  · have hv : v = σ.cell a := reads_num h hn
    subst hv
    unfold asFloat
    cases hc : σ.cell a with
    | int w => exact ⟨σ, rfl, .refl σ⟩
    | float x => exact ⟨σ, rfl, .refl σ⟩
    | _ => simp [hc, Val.isNum] at hn
  · have key : asFloat E (d + k + 1) σ a = (do
        let σ ← single E (d + k + 1) σ a
        match σ.cell .t1 with
        | .float x => return (σ, x)
        | .int w => return (σ, E.ofInt w)
        | _ => .oof) := by
      unfold asFloat
      split
      · next w hw => rw [hw] at hn; exact absurd rfl hn
      · next w hw => rw [hw] at hn; exact absurd rfl hn
      · rfl
    rw [key, e1]
    simp only [res_bind_ok, e2]
    cases v <;> exact ⟨τ, rfl, e3⟩

/-- **C74** (data): the host is handed exactly the characters of a string, or exactly the elements
of an array, and their number; for any other kind the null pointer and -1. -/
theorem C74_data {mb : Bool} {k : Nat} {σ : St} {a : Addr} {v : Val} (h : Reads σ mb k a v)
    (d : Nat) : ∃ τ, SameReal σ τ ∧
    (∀ o bs nc, v = .arr o → σ.obj o = .chars bs nc →
      array (d + k + 1) σ a true = .ok (τ, some (.bytes bs)) ∧
      array (d + k + 1) σ a false = .ok (τ, none) ∧
      arraySize (d + k + 1) σ a = .ok (τ, some bs.length)) ∧
    (∀ o n, v = .arr o → σ.obj o = .vals n →
      array (d + k + 1) σ a true = .ok (τ, none) ∧
      array (d + k + 1) σ a false = .ok (τ, some (.elems o n)) ∧
      arraySize (d + k + 1) σ a = .ok (τ, some n)) ∧
    ((∀ o, v ≠ .arr o) →
      (∀ ch, array (d + k + 1) σ a ch = .ok (τ, none)) ∧
      arraySize (d + k + 1) σ a = .ok (τ, none)) := by
  obtain ⟨τ, l, e1, e2, e3, e4, -⟩ := deref_reads h d
  refine ⟨τ, e3, ?_, ?_, ?_⟩
  · rintro o bs nc rfl ho
    simp only [array, arraySize, e1, res_bind_ok, e2, e3.obj, ho]
    exact ⟨rfl, rfl, rfl⟩
  · rintro o n rfl ho
    simp only [array, arraySize, e1, res_bind_ok, e2, e3.obj, ho]
    exact ⟨rfl, rfl, rfl⟩
  · intro hv
    simp only [array, arraySize, e1, res_bind_ok, e2]
    cases v with
    | arr o => exact absurd rfl (hv o)
    | _ => exact ⟨fun _ => rfl, rfl⟩

/-- **C74** (`_count`): the number of elements, characters or bytes; 0 for a number. -/
theorem C74_count {mb : Bool} {k : Nat} {σ : St} {a tgt : Addr} {v : Val} (h : Reads σ mb k a v)
    (d : Nat) {n : Nat}
    (hv : (∃ o bs nc, v = .arr o ∧ σ.obj o = .chars bs nc ∧ n = bs.length) ∨
      (∃ o, v = .arr o ∧ σ.obj o = .vals n) ∨ (∃ p, v = .raw p n) ∨ (v.isNum = true ∧ n = 0)) :
    ∃ τ, countOf (d + k + 1) σ a tgt = .ok τ ∧ OnlySet σ τ tgt (.int (BitVec.ofNat 32 n)) := by
  obtain ⟨τ, l, e1, e2, e3, e4, -⟩ := deref_reads h d
  refine ⟨τ.set tgt (.int (BitVec.ofNat 32 n)), ?_, e3.onlySet (onlySet_set _ _ _)⟩
  simp only [countOf, e1, res_bind_ok, e2, e3.obj]
  rcases hv with ⟨o, bs, nc, rfl, ho, rfl⟩ | ⟨o, rfl, ho⟩ | ⟨p, rfl⟩ | ⟨hn, rfl⟩
  · simp only [ho]; rfl
  · simp only [ho]; rfl
  · rfl
  · cases v <;> first | rfl | simp [Val.isNum] at hn

/-- What the text of a plain value shows: numbers and strings themselves, otherwise the hash. -/
def shown (E : Env) (σ : St) (v : Val) : Val :=
  match v with
  | .arr o => match σ.obj o with
    | .chars _ _ => v
    | _ => v.num E σ
  | _ => v.num E σ

theorem SameReal.shown {σ τ : St} (h : SameReal σ τ) (E : Env) (v : Val) :
    shown E τ v = shown E σ v := by
  unfold Ops.shown
  rw [h.obj]
  cases v <;> simp only [h.num]

/-- **C74** (text): `asString` formats the number or string itself, however it is reached; for
anything else its hash. -/
theorem C74_text (E : Env) {mb : Bool} {v : Val} : ∀ {k : Nat} {σ : St} {a : Addr},
    Reads σ mb k a v → ∀ d, ∃ τ, SameReal σ τ ∧ textOf E (d + k + 2) σ a = .ok (τ,
      shown E σ v) := by
  -- a value in place
  have base : ∀ {σ : St} {a : Addr}, (σ.cell a).plain = true → ∀ f, ∃ τ, SameReal σ τ ∧
      textOf E (f + 1) σ a = .ok (τ, shown E σ (σ.cell a)) := by
    intro σ a hp f
    obtain ⟨τ, e1, e2, e3, -⟩ := single_reads E (Reads.here (mb := mb) (k := 0) hp) f
    have e1 : single E (f + 1) σ a = .ok τ := e1
    rw [textOf]
    simp only [e1, res_bind_ok, e2]
    cases hc : σ.cell a with
    | int w => exact ⟨σ, .refl σ, rfl⟩
    | float w => exact ⟨σ, .refl σ, rfl⟩
    | ref r => simp [hc, Val.plain] at hp
    | mem b s => simp [hc, Val.plain] at hp
    | hmem b => simp [hc, Val.plain] at hp
    | arr o =>
      cases ho : σ.obj o with
      | chars bs nc => exact ⟨σ, .refl σ, by simp only [shown, ho]⟩
      | _ => exact ⟨τ, e3, by simp only [shown, ho]; rfl⟩
    | _ => exact ⟨τ, e3, rfl⟩
  intro k
  induction k with
  | zero =>
    intro σ a h d
    cases h with
    | here h => exact base h (d + 1)
  | succ k ih =>
    intro σ a h d
    show ∃ τ, SameReal σ τ ∧ textOf E (d + k + 2 + 1) σ a = _
    have mem : (∀ r, σ.cell a ≠ .ref r) → (σ.cell a).plain = false → ∃ τ, SameReal σ τ ∧
        textOf E (d + k + 2 + 1) σ a = .ok (τ, shown E σ v) := by
      intro hr hp
      obtain ⟨τ, l, e1, e2, e3, e4, e5⟩ := deref_reads h (d + 1)
      have e1 : deref (d + k + 2 + 1) σ a = .ok (τ, l) := by
        rw [show d + k + 2 + 1 = d + 1 + (k + 1) + 1 by omega]; exact e1
      have hpl : (τ.cell l).plain = true := by rw [e2]; exact h.plain
      obtain ⟨υ, g1, g2⟩ := base hpl (d + k + 1)
      refine ⟨υ, e3.trans g1, ?_⟩
      rw [e2, e3.shown] at g2
      rw [← g2, textOf]
      simp only [e1, res_bind_ok]
      cases hc : σ.cell a with
      | mem b s => rfl
      | hmem b => rfl
      | ref r => exact absurd hc (hr r)
      | _ => simp [hc, Val.plain] at hp
    have h' := h
    cases h' with
    | here hp => exact base hp (d + k + 2)
    | @ref _ _ r _ h1 h2 h3 =>
      obtain ⟨τ, g1, g2⟩ := ih h3 d
      refine ⟨τ, g1, ?_⟩
      rw [← g2, textOf]
      simp only [h1]
    | velem h0 h1 => exact mem (by simp [h1]) (by simp [h1, Val.plain])
    | celem h0 h1 => exact mem (by simp [h1]) (by simp [h1, Val.plain])
    | relem h0 h1 => exact mem (by simp [h1]) (by simp [h1, Val.plain])
    | helem h0 h1 => exact mem (by simp [h1]) (by simp [h1, Val.plain])

/-- **C75** (allocated text), for a value reached by references only.  Missing: elements of
containers (`C75_malloc_element_hash`). -/
theorem C75_malloc_text_partial (E : Env) {v : Val} : ∀ {k : Nat} {σ : St} {a : Addr},
    Reads σ false k a v → ∀ d, ∃ τ, SameReal σ τ ∧ mallocTextOf E (d + k + 1) σ a = .ok (τ,
      shown E σ v) := by
  have base : ∀ {σ : St} {a : Addr}, (σ.cell a).plain = true → ∀ f, ∃ τ, SameReal σ τ ∧
      mallocTextOf E (f + 1) σ a = .ok (τ, shown E σ (σ.cell a)) := by
    intro σ a hp f
    obtain ⟨τ, e1, e2, e3, -⟩ := single_reads E (Reads.here (mb := false) (k := 0) hp) f
    have e1 : single E (f + 1) σ a = .ok τ := e1
    rw [mallocTextOf]
    simp only [e1, res_bind_ok, e2]
    cases hc : σ.cell a with
    | int w => exact ⟨σ, .refl σ, rfl⟩
    | float w => exact ⟨σ, .refl σ, rfl⟩
    | ref r => simp [hc, Val.plain] at hp
    | mem b s => simp [hc, Val.plain] at hp
    | hmem b => simp [hc, Val.plain] at hp
    | arr o =>
      cases ho : σ.obj o with
      | chars bs nc => exact ⟨σ, .refl σ, by simp only [shown, ho]⟩
      | _ => exact ⟨τ, e3, by simp only [shown, ho]; rfl⟩
    | _ => exact ⟨τ, e3, rfl⟩
  intro k
  induction k with
  | zero =>
    intro σ a h d
    cases h with
    | here h => exact base h d
  | succ k ih =>
    intro σ a h d
    show ∃ τ, SameReal σ τ ∧ mallocTextOf E (d + k + 1 + 1) σ a = _
    cases h with
    | here hp => exact base hp (d + k + 1)
    | @ref _ _ r _ h1 h2 h3 =>
      obtain ⟨τ, g1, g2⟩ := ih h3 d
      refine ⟨τ, g1, ?_⟩
      rw [← g2, mallocTextOf]
      simp only [h1]
    | velem h0 => cases h0
    | celem h0 => cases h0
    | relem h0 => cases h0
    | helem h0 => cases h0

/-! ### Indexing -/

/-- The place of element `i` of a plain value. -/
def placeOf (σ : St) (v : Val) (i : Nat) : Option Addr :=
  match v with
  | .arr o => match σ.obj o with
    | .vals n => if i < n then some (.elem o i) else none
    | _ => none
  | _ => none

/-- **C74** (`indexArray` without creating): the place of the element when the value is an array
and has it, otherwise the null pointer; nothing is changed. -/
theorem C74_index_read {mb : Bool} {k : Nat} {σ : St} {a : Addr} {v : Val} (h : Reads σ mb k a v)
    (w : Word32) (d : Nat) : ∃ τ, indexArray (d + k + 1) σ a w false = .ok (τ, placeOf σ v w.toNat) ∧
    SameReal σ τ := by
  obtain ⟨τ, l, e1, e2, e3, e4, -⟩ := deref_reads h d
  simp only [indexArray, e1, res_bind_ok, e2, e3.obj]
  cases v with
  | arr o =>
    cases ho : σ.obj o with
    | vals n =>
      by_cases hw : w.toNat < n
      · refine ⟨τ, ?_, e3⟩
        simp only [ho, placeOf, indexElem, if_neg (Nat.not_le.2 hw), if_pos hw]
      · refine ⟨τ, ?_, e3⟩
        simp only [ho, placeOf, indexElem, if_pos (Nat.not_lt.1 hw), if_neg hw]
        rfl
    | _ => exact ⟨τ, by simp [ho, placeOf], e3⟩
  | _ => exact ⟨τ, rfl, e3⟩

/-- After the host made sure that the value in place `l` is an array with an element `w`: `o` is
the array object there, of `n` elements, the first `m` of them kept and the others 0; every
other object, variable and element is as before. -/
structure HasElem (σ τ : St) (l : Addr) (o m n : Nat) : Prop where
  here : τ.cell l = .arr o
  size : τ.obj o = .vals n
  added : ∀ i, m ≤ i → i < n → τ.cell (.elem o i) = .int 0
  objs : ∀ p, p ≠ o → τ.obj p = σ.obj p
  rest : ∀ a, a.real = true → a ≠ l → (∀ i, m ≤ i → a ≠ .elem o i) → τ.cell a = σ.cell a
  raw : τ.rawMem = σ.rawMem

/-- The place is not inside an object that does not exist yet. -/
def Old (σ : St) (l : Addr) : Prop := ∀ i, l ≠ .elem σ.next i

theorem newArr_hasElem {σ τ : St} {l : Addr} (hs : SameReal σ τ) (hl : l.real = true)
    (ho : Old σ l) (n : Nat) : HasElem σ ((newArr τ n).set l (.arr τ.next)) l σ.next 0 n where
  here := by rw [hs.next]; exact St.set_same ..
  size := by
    rw [← hs.next, St.set_obj]
    simp [newArr, St.setObj]
  added := fun i _ _ => by
    rw [St.set_ne _ _ (fun e => ho i e.symm), ← hs.next]
    simp [newArr]
  objs := fun p hp => by
    rw [St.set_obj]
    rw [← hs.next] at hp
    simp [newArr, St.setObj, hp, hs.obj]
  rest := fun a ha h1 h2 => by
    rw [St.set_ne _ _ h1]
    cases a with
    | elem p i =>
      have : p ≠ τ.next := by
        rintro rfl
        exact h2 i (Nat.zero_le _) (by rw [hs.next])
      simp only [newArr, this, if_false]
      exact hs.cell _ rfl
    | cell n => exact hs.cell (.cell n) rfl
    | _ => simp [Addr.real] at ha
  raw := by
    show τ.rawMem = σ.rawMem
    exact hs.raw

theorem growArr_hasElem {σ τ : St} {l : Addr} {o n : Nat} (hs : SameReal σ τ) (hl : l.real = true)
    (hc : σ.cell l = .arr o) (ho : σ.obj o = .vals n) (hin : ∀ i, n ≤ i → l ≠ .elem o i)
    (w : Nat) : HasElem σ (growArr τ o w) l o n (w + 1) := by
  have hoτ : τ.obj o = .vals n := by rw [hs.obj, ho]
  have cells : ∀ a, a.real = true → (∀ i, n ≤ i → a ≠ .elem o i) →
      (growArr τ o w).cell a = σ.cell a := by
    intro a ha h
    unfold growArr
    simp only [hoτ]
    cases a with
    | elem p i =>
      by_cases hp : p = o ∧ n ≤ i
      · exact absurd (by rw [hp.1]) (h i hp.2)
      · show (if p = o ∧ n ≤ i then Val.int 0 else τ.cell (.elem p i)) = _
        rw [if_neg hp]; exact hs.cell _ rfl
    | cell n => exact hs.cell (.cell n) rfl
    | _ => simp [Addr.real] at ha
  refine ⟨by rw [cells l hl hin, hc], ?_, ?_, ?_, fun a ha _ h2 => cells a ha h2, ?_⟩
  · unfold growArr; simp only [hoτ]; simp [St.setObj]
  · intro i h1 _
    unfold growArr; simp only [hoτ]; simp [h1]
  · intro p hp
    unfold growArr; simp only [hoτ]; simp [St.setObj, hp, hs.obj]
  · unfold growArr; simp only [hoτ]; exact hs.raw

/-- An array's place is not one of the elements it does not have. -/
def InBounds (σ : St) (l : Addr) : Prop := ∀ o n i, σ.cell l = .arr o → σ.obj o = .vals n → n ≤ i → l ≠ .elem o i

/-- What was in place `l` before: the elements kept and the object. -/
def before (σ : St) (l : Addr) : Nat × Nat :=
  match σ.cell l with
  | .arr o => match σ.obj o with
    | .vals n => (o, n)
    | _ => (σ.next, 0)
  | _ => (σ.next, 0)

/-- **C75** (`indexArray` creating): for an index below 2^31 - 1 the value becomes an array if it
was none, its elements are kept, missing ones up to the index are 0, nothing else changes, and
the place of that element is returned.  Missing: larger indexes (`C75_index_wraps`), and elements
of strings and raw arrays, which have no place (`C75_string_element_lost`). -/
theorem C75_index_create_partial {mb : Bool} {k : Nat} {σ : St} {a l : Addr} (h : Names σ mb k a l)
    (ho : Old σ l) (hb : InBounds σ l) {w : Word32} (hw : w.toNat + 1 < 2 ^ 31) (d : Nat) :
    ∃ τ, indexArray (d + k + 1) σ a w true = .ok (τ, some (.elem (before σ l).1 w.toNat)) ∧
      HasElem σ τ l (before σ l).1 (before σ l).2 (max (before σ l).2 (w.toNat + 1)) := by
  obtain ⟨τ, e1, e2, e3, -⟩ := deref_names h d
  have hl := h.real
  have hc : τ.cell l = σ.cell l := e2.cell l hl
  have hw1 : (w + 1).toNat = w.toNat + 1 := by
    rw [BitVec.toNat_add]; simp; omega
  have hs1 : ¬ (w + 1).toInt < 0 := by
    rw [BitVec.toInt_eq_toNat_cond, hw1]; split <;> omega
  have hs0 : ¬ w.toInt < 0 := by
    rw [BitVec.toInt_eq_toNat_cond]; split <;> omega
  have fresh : (do
      let υ ← makeArr τ l w
      indexElem υ τ.next (w + 1).toNat w true) =
      .ok ((newArr τ (w.toNat + 1)).set l (.arr τ.next), some (.elem σ.next w.toNat)) := by
    simp only [makeArr, if_neg hs1, res_bind_ok, hw1, indexElem]
    rw [if_neg (by omega), e2.next]
  have freshE : HasElem σ ((newArr τ (w.toNat + 1)).set l (.arr τ.next)) l σ.next 0
      (max 0 (w.toNat + 1)) := by
    rw [Nat.max_eq_right (Nat.zero_le _)]
    exact newArr_hasElem e2 hl ho _
  simp only [indexArray, e1, res_bind_ok, hc, e2.obj, if_true]
  cases hv : σ.cell l with
  | arr o =>
    cases hob : σ.obj o with
    | vals n =>
      simp only [before, hv, hob]
      by_cases hn : n ≤ w.toNat
      · refine ⟨growArr τ o w.toNat, ?_, ?_⟩
        · simp only [indexElem, if_pos hn, if_neg hs0, if_true]
        · rw [Nat.max_eq_right (by omega)]
          exact growArr_hasElem e2 hl hv hob (fun i hi => hb o n i hv hob hi) _
      · refine ⟨τ, by simp only [indexElem, if_neg hn], ?_⟩
        rw [Nat.max_eq_left (by omega)]
        exact ⟨by rw [hc, hv], by rw [e2.obj, hob], fun i h1 h2 => by omega,
          fun p _ => by rw [e2.obj], fun a ha _ _ => e2.cell a ha, e2.raw⟩
    | _ =>
      simp only [before, hv, hob]
      exact ⟨_, fresh, freshE⟩
  | _ =>
    simp only [before, hv]
    exact ⟨_, fresh, freshE⟩

/-- **C75** (`WrenchValue` indexing): as `indexArray` creating, for a non-negative index on a value
that is not a string.  Missing: strings (`C75_string_member_confused`) and negative indexes
(`C75_negative_is_last`, `C75_negative_on_empty`). -/
theorem C75_member_partial {mb : Bool} {k : Nat} {σ : St} {a l : Addr} (h : Names σ mb k a l)
    (ho : Old σ l) (hb : InBounds σ l) (hstr : ∀ o, σ.cell l = .arr o → ∃ n, σ.obj o = .vals n)
    {w : Word32} (hw : w.toNat + 1 < 2 ^ 31) (d : Nat) :
    ∃ τ υ, wrap (d + k + 1) σ a = .ok (τ, l) ∧
      asArrayMember τ l w = .ok (υ, .elem (before σ l).1 w.toNat) ∧
      HasElem σ υ l (before σ l).1 (before σ l).2 (max (before σ l).2 (w.toNat + 1)) := by
  obtain ⟨τ, e1, e2, e3, -⟩ := deref_names h d
  have hl := h.real
  have hc : τ.cell l = σ.cell l := e2.cell l hl
  have hw1 : (w + 1).toNat = w.toNat + 1 := by
    rw [BitVec.toNat_add]; simp; omega
  have hs1 : ¬ (w + 1).toInt < 0 := by
    rw [BitVec.toInt_eq_toNat_cond, hw1]; split <;> omega
  have hs0 : w.toInt = (w.toNat : Int) := by
    rw [BitVec.toInt_eq_toNat_cond]; split <;> omega
  have fresh : (do
      let υ ← makeArr τ l w
      let e ← getElem τ.next (w + 1).toNat w
      return (υ, e) : Res (St × Addr)) =
      .ok ((newArr τ (w.toNat + 1)).set l (.arr τ.next), .elem σ.next w.toNat) := by
    simp only [makeArr, if_neg hs1, res_bind_ok, hw1, getElem]
    rw [if_pos (by omega), e2.next]
    rfl
  have freshE : HasElem σ ((newArr τ (w.toNat + 1)).set l (.arr τ.next)) l σ.next 0
      (max 0 (w.toNat + 1)) := by
    rw [Nat.max_eq_right (Nat.zero_le _)]
    exact newArr_hasElem e2 hl ho _
  refine ⟨τ, ?_⟩
  simp only [wrap, e1, asArrayMember, hc, e2.obj]
  cases hv : σ.cell l with
  | arr o =>
    obtain ⟨n, hob⟩ := hstr o hv
    simp only [before, hv, hob]
    by_cases hn : n ≤ w.toNat
    · refine ⟨growArr τ o w.toNat, trivial, ?_, ?_⟩
      · rw [if_pos (by omega)]
        simp only [getElem, if_pos (Nat.lt_succ_self _), res_bind_ok]
        rfl
      · rw [Nat.max_eq_right (by omega)]
        exact growArr_hasElem e2 hl hv hob (fun i hi => hb o n i hv hob hi) _
    · refine ⟨τ, trivial, ?_, ?_⟩
      · rw [if_neg (by omega)]
        simp only [getElem, if_pos (Nat.lt_of_not_le hn), res_bind_ok]
        rfl
      · rw [Nat.max_eq_left (by omega)]
        exact ⟨by rw [hc, hv], by rw [e2.obj, hob], fun i h1 h2 => by omega,
          fun p _ => by rw [e2.obj], fun a ha _ _ => e2.cell a ha, e2.raw⟩
  | _ =>
    simp only [before, hv]
    exact ⟨_, trivial, fresh, freshE⟩

/-! ### Storing -/

theorem deref_here {σ : St} {a : Addr} (h : (σ.cell a).plain = true) (f : Nat) :
    deref (f + 1) σ a = .ok (σ, a) := by
  unfold deref
  split <;> simp_all [Val.plain]

/-- **C74** (`setInt`, `setFloat`): the value is what was stored, nothing else changes. -/
theorem C74_set_number {mb : Bool} {k : Nat} (σ : St) (a : Addr) (w : Word32) :
    (OnlySet σ (setInt σ a w) a (.int w) ∧ Reads (setInt σ a w) mb k a (.int w)) ∧
    (OnlySet σ (setFloat σ a w) a (.float w) ∧ Reads (setFloat σ a w) mb k a (.float w)) := by
  refine ⟨⟨onlySet_set _ _ _, ?_⟩, ⟨onlySet_set _ _ _, ?_⟩⟩
  · have : (setInt σ a w).cell a = .int w := St.set_same ..
    rw [← this]
    exact .here (by rw [this]; rfl)
  · have : (setFloat σ a w).cell a = .float w := St.set_same ..
    rw [← this]
    exact .here (by rw [this]; rfl)

/-- **C75** (`setString`): a string of the given text, read back by `array` and `isString`; every
other value and object is as before.  With a length the text is that many bytes, without one it
ends before the first 0.  Missing: an empty text given by its length (`C75_empty_slice`). -/
theorem C75_set_string_partial (σ : St) (a : Addr) (text tail : List Byte) (len : Nat)
    (hlen : (len = text.length ∧ len ≠ 0) ∨ (len = 0 ∧ 0#8 ∉ text ∧ tail.head? = some 0#8))
    (d k : Nat) :
    ∃ τ, setString σ a (text ++ tail) len = .ok τ ∧
      array (d + k + 1) τ a true = .ok (τ, some (.bytes text)) ∧
      isString (d + k + 1) τ a = .ok (τ, some text.length) ∧
      (∀ x, x ≠ a → τ.cell x = σ.cell x) ∧ (∀ o, o ≠ σ.next → τ.obj o = σ.obj o) ∧
      τ.rawMem = σ.rawMem := by
  refine ⟨{ σ.setObj σ.next (.chars text false) with next := σ.next + 1 }.set a (.arr σ.next),
    ?_, ?_, ?_, ?_, ?_, rfl⟩
  · have hs : (if len ≠ 0 then some len
        else if ((text ++ tail).takeWhile (· ≠ 0)).length < (text ++ tail).length then
          some ((text ++ tail).takeWhile (· ≠ 0)).length else none) = some text.length := by
      rcases hlen with ⟨h1, h2⟩ | ⟨h1, h2, h3⟩
      · rw [if_pos h2, h1]
      · have ht : (text ++ tail).takeWhile (· ≠ 0) = text := by
          rw [List.takeWhile_append_of_pos (fun x hx => by
            simp only [decide_not, Bool.not_eq_eq_eq_not, Bool.not_true, decide_eq_false_iff_not]
            rintro rfl; exact h2 hx)]
          cases tail with
          | nil => simp at h3
          | cons c t =>
            simp only [List.head?_cons, Option.some.injEq] at h3
            subst h3
            simp
        rw [if_neg (by simp [h1]), ht, if_pos]
        cases tail with
        | nil => simp at h3
        | cons c t => simp
    simp only [setString, hs]
    rw [if_pos (by simp), List.take_left']
    rfl
  · simp only [array]
    rw [deref_here (by rw [St.set_same]; rfl)]
    simp only [res_bind_ok, St.set_same, St.set_obj]
    simp [St.setObj]
  · simp only [isString]
    rw [deref_here (by rw [St.set_same]; rfl)]
    simp only [res_bind_ok, St.set_same, St.set_obj]
    simp [St.setObj]
  · intro x hx
    rw [St.set_ne _ _ hx]
    rfl
  · intro o ho
    simp [St.setObj, ho]

/-- **C74** (`WrenchValue::Int`, `Float`): the place named is turned into the number it had (the hash of an
object), converted; nothing else changes.  For `Int` on a float the number must fit. -/
theorem C74_convert (E : Env) (toI : Word32 → Option Word32) {mb : Bool} {k : Nat} {σ : St}
    {a l : Addr} (h : Names σ mb k a l) (d : Nat) :
    ∃ τ, wrap (d + k + 1) σ a = .ok (τ, l) ∧
      (∀ w, (match (σ.cell l).num E σ with
          | .int v => some v
          | .float x => toI x
          | _ => none) = some w →
        ∃ υ, wvInt E toI (d + 1) τ l = .ok (υ, w) ∧ OnlySet σ υ l (.int w)) ∧
      (∀ x, (match (σ.cell l).num E σ with
          | .float y => some y
          | .int v => some (E.ofInt v)
          | _ => none) = some x →
        ∃ υ, wvFloat E (d + 1) τ l = .ok (υ, x) ∧ OnlySet σ υ l (.float x)) := by
  obtain ⟨τ, e1, e2, e3, -⟩ := deref_names h d
  have hl := h.real
  have hc : τ.cell l = σ.cell l := e2.cell l hl
  have hpl : (σ.cell l).plain = true := by
    clear e1 e2 e3 hc hl
    induction h with
    | here _ h => exact h
    | ref _ _ _ ih => exact ih
    | velem _ _ _ _ _ _ h => exact h
    | helem _ _ _ _ ih => exact ih
  have hr : Reads τ false 0 l (σ.cell l) := by rw [← hc]; exact .here (by rw [hc]; exact hpl)
  have keep : ∀ {υ : St} {v : Val}, SameReal τ υ → OnlySet σ (υ.set l v) l v :=
    fun hs => (e2.trans hs).onlySet (onlySet_set _ _ _)
  refine ⟨τ, e1, ?_, ?_⟩
  · intro w hw
    have hA := C74_asInt E toI hr d
    rw [e2.num] at hA
    cases hn : (σ.cell l).num E σ with
    | int v =>
      rw [hn] at hw hA
      simp only [Option.some.injEq] at hw
      subst hw
      obtain ⟨υ, g1, g2⟩ := hA
      by_cases hi : ∃ u, σ.cell l = .int u
      · obtain ⟨u, hu⟩ := hi
        rw [hu] at hn
        injection hn with hn
        subst hn
        refine ⟨τ, by simp only [wvInt, hc, hu], by rw [hc, hu], fun x hx _ => e2.cell x hx, e2.obj, e2.raw⟩
      · refine ⟨υ.set l (.int v), ?_, keep g2⟩
        unfold wvInt
        split
        · next u hu => exact absurd ⟨u, by rw [← hc, hu]⟩ hi
        · rw [show asInt E toI (d + 1) τ l = .ok (υ, v) from g1]; rfl
    | float x =>
      rw [hn] at hw hA
      simp only at hw hA
      rw [hw] at hA
      obtain ⟨υ, g1, g2⟩ := hA
      refine ⟨υ.set l (.int w), ?_, keep g2⟩
      unfold wvInt
      split
      · next u hu => rw [hc] at hu; rw [hu] at hn; cases hn
      · rw [show asInt E toI (d + 1) τ l = .ok (υ, w) from g1]; rfl
    | _ => rw [hn] at hw; cases hw
  · intro x hx
    obtain ⟨υ, g1, g2⟩ := C74_asFloat E hr d
    have hxy : floatOf E τ (σ.cell l) = x := by
      revert hx
      cases hv : σ.cell l <;> simp [Val.num, floatOf, e2.getHash E]
    rw [hxy] at g1
    by_cases hf : ∃ u, σ.cell l = .float u
    · obtain ⟨u, hu⟩ := hf
      rw [hu] at hxy
      have hxy : u = x := hxy
      subst hxy
      exact ⟨τ, by simp only [wvFloat, hc, hu], by rw [hc, hu], fun x hx _ => e2.cell x hx, e2.obj, e2.raw⟩
    · refine ⟨υ.set l (.float x), ?_, keep g2⟩
      unfold wvFloat
      split
      · next u hu => exact absurd ⟨u, by rw [← hc, hu]⟩ hf
      · rw [show asFloat E (d + 1) τ l = .ok (υ, x) from g1]; rfl

/-! ### Where the answers are wrong -/

/-- An element of a container is never an int nor a float for the host. -/
theorem C75_element_not_int {σ : St} {a : Addr} (h : isMember (σ.cell a) = true) :
    isInt σ a = false ∧ isFloat σ a = false := by
  unfold isInt isFloat
  cases hc : σ.cell a <;> simp_all [isMember]

/-- Nor is a reference to a reference. -/
theorem C75_two_references_not_int {σ : St} {a r q : Addr} (h : σ.cell a = .ref r)
    (h' : σ.cell r = .ref q) : isInt σ a = false ∧ isFloat σ a = false := by
  simp [isInt, isFloat, h, h']

/-- The allocated text of a string that is an element of a container is the number of its hash. -/
theorem C75_malloc_element_hash (E : Env) {mb : Bool} {k : Nat} {σ : St} {a : Addr} {o : Nat}
    {bs : List Byte} {nc : Bool} (h : Reads σ mb k a (.arr o)) (hm : isMember (σ.cell a) = true)
    (ho : σ.obj o = .chars bs nc) (d : Nat) :
    ∃ τ, mallocTextOf E (d + k + 1) σ a = .ok (τ, .int (wrHash bs)) := by
  obtain ⟨τ, e1, e2, -, -⟩ := single_reads E h d
  refine ⟨τ, ?_⟩
  rw [mallocTextOf]
  rw [e1]
  simp only [res_bind_ok, e2]
  have hq : (Val.arr o).num E σ = .int (wrHash bs) := by simp only [Val.num, getHash, ho]
  rw [hq]
  cases hc : σ.cell a <;> simp_all [isMember] <;> rfl

/-- Index 0xFFFFFFFF creates an array without elements and hands out a pointer past any memory. -/
theorem C75_index_wraps {mb : Bool} {k : Nat} {σ : St} {a l : Addr} {v : Word32}
    (h : Names σ mb k a l) (hv : σ.cell l = .int v) (d : Nat) :
    indexArray (d + k + 1) σ a 0xFFFFFFFF#32 true = .ub := by
  obtain ⟨τ, e1, e2, e3, -⟩ := deref_names h d
  simp only [indexArray, e1, res_bind_ok, e2.cell l h.real, hv, if_true]
  rfl

/-- `WrenchValue` indexing of a string is a pointer to a character taken for a value. -/
theorem C75_string_member_confused {σ : St} {l : Addr} {o : Nat} {bs : List Byte} {nc : Bool}
    (hc : σ.cell l = .arr o) (ho : σ.obj o = .chars bs nc) (w : Word32) :
    asArrayMember σ l w = .ub := by
  simp only [asArrayMember, hc, ho]

/-- A negative index is the last element. -/
theorem C75_negative_is_last {σ : St} {l : Addr} {o n : Nat} (hc : σ.cell l = .arr o)
    (ho : σ.obj o = .vals n) (hn : 0 < n) (hn' : n < 2 ^ 31) {w : Word32} (hw : w.toInt < 0) :
    asArrayMember σ l w = .ok (σ, .elem o (n - 1)) := by
  have hw' : ¬ w.toNat < n := by
    rw [BitVec.toInt_eq_toNat_cond] at hw; split at hw <;> omega
  simp only [asArrayMember, hc, ho]
  rw [if_neg (by omega)]
  simp only [getElem, if_neg hw', if_neg (Nat.ne_of_gt hn), res_bind_ok]
  rfl

/-- And on an empty array it is a place before the array. -/
theorem C75_negative_on_empty {σ : St} {l : Addr} {o : Nat} (hc : σ.cell l = .arr o)
    (ho : σ.obj o = .vals 0) {w : Word32} (hw : w.toInt < 0) : asArrayMember σ l w = .ub := by
  simp only [asArrayMember, hc, ho]
  rw [if_neg (by omega)]
  rfl

/-- What the host stores through a `WrenchValue` made from an element of a string goes to a
static temporary: the string keeps its characters. -/
theorem C75_string_element_lost {σ : St} {a b : Addr} {s o : Nat} {bs : List Byte} {nc : Bool}
    {c : Byte} (h1 : σ.cell a = .mem b s) (h2 : b.real = true) (h3 : σ.cell b = .arr o)
    (h4 : σ.obj o = .chars bs nc) (h5 : bs[s]? = some c) (w : Word32) (d : Nat) :
    ∃ τ l, wrap (d + 1) σ a = .ok (τ, l) ∧ SameReal σ (setInt τ l w) := by
  have hb : b ≠ .t2 := by rintro rfl; simp [Addr.real] at h2
  refine ⟨(σ.set .t2 (σ.cell .t2).retypeInt).set .t2 (.int (c.setWidth 32)), .t2, ?_, ?_⟩
  · rw [wrap, deref, h1]
    simp only [St.set_ne _ _ hb, h3, St.set_obj, h4, h5]
  · exact ((sameReal_set σ _ rfl).trans (sameReal_set _ _ rfl)).trans (sameReal_set _ _ rfl)

/-- An empty piece of a larger text becomes the text up to its end. -/
theorem C75_empty_slice (σ : St) (a : Addr) (text : List Byte) (h : 0#8 ∉ text) :
    ∃ τ, setString σ a (text ++ [0#8]) 0 = .ok τ ∧
      isString 1 τ a = .ok (τ, some text.length) := by
  obtain ⟨τ, h1, -, h2, -⟩ := C75_set_string_partial σ a text [0#8] 0 (.inr ⟨rfl, h, rfl⟩) 0 0
  exact ⟨τ, h1, h2⟩

end Wrench.Ops
