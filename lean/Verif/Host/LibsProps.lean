import Verif.Host.Libs

/-
C107: after a library was loaded, each of its names stands for its own function or constant.
-/
namespace Wrench.Libs

open Wrench Wrench.Registry Wrench.HashTable

/-- All names of all libraries. -/
def allNames : List (String × Thing) := allLibs.flatMap names

theorem mem_allNames {l : Lib} {e : String × Thing} (h : e ∈ names l) : e ∈ allNames :=
  List.mem_flatMap.mpr ⟨l, by cases l <;> decide, h⟩

/-- C107: no two library names have the same hash. -/
theorem C107_distinct : (allNames.map fun e => (nameHash e.1).toNat).Nodup := by decide +kernel

theorem hashes_proper : ∀ n ∈ allNames.map (fun e => (nameHash e.1).toNat), n ≠ nullHash.toNat ∧ n ≠ 0 := by
  decide +kernel

theorem nodup_inj {α β : Type} (f : α → β) : ∀ {l : List α}, (l.map f).Nodup → ∀ {a b : α}, a ∈ l → b ∈ l →
    f a = f b → a = b
  | [], _, _, _, ha, _, _ => by cases ha
  | x :: xs, h, a, b, ha, hb, e => by
    rw [List.map_cons, List.nodup_cons] at h
    rcases List.mem_cons.mp ha with ha | ha'
    · rcases List.mem_cons.mp hb with hb | hb'
      · rw [ha, hb]
      · exact absurd (by rw [← ha, e]; exact List.mem_map_of_mem hb') h.1
    · rcases List.mem_cons.mp hb with hb | hb'
      · exact absurd (by rw [← hb, ← e]; exact List.mem_map_of_mem ha') h.1
      · exact nodup_inj f h.2 ha' hb' e

theorem same_name {a b : String × Thing} (ha : a ∈ allNames) (hb : b ∈ allNames)
    (h : nameHash a.1 = nameHash b.1) : a = b :=
  nodup_inj (fun e : String × Thing => (nameHash e.1).toNat) C107_distinct ha hb (congrArg BitVec.toNat h)

theorem ne_null {a : String × Thing} (ha : a ∈ allNames) : nameHash a.1 ≠ nullHash := fun e =>
  (hashes_proper _ (List.mem_map_of_mem ha)).1 (congrArg BitVec.toNat e)

/-- What a name is registered as. -/
def entry (addr : String → BitVec 64) (val : String → Word32) : Thing → Entry
  | .fn c => .lib (addr c)
  | .const c => .int (val c)

/-- What a hash is used for: library names for what the library says, others as `K` says. -/
def purpose (K : Word32 → Kind) (h : Word32) : Kind :=
  match allNames.find? fun e => decide (nameHash e.1 = h) with
  | some (_, .fn _) => .lib
  | some (_, .const _) => .const
  | none => K h

/-- `h` is the hash of no library name. -/
def Free (h : Word32) : Prop := ∀ e ∈ allNames, nameHash e.1 ≠ h

/-- The host registers its own names under hashes that no library uses, none is null, and each is used for one
purpose. -/
def Ok (K : Word32 → Kind) : Ev → Prop
  | .load _ => True
  | .own h a _ => Free h ∧ h ≠ nullHash ∧ K h = .fn ∧ a ≠ 0
  | .ownLib h a => Free h ∧ h ≠ nullHash ∧ K h = .lib ∧ a ≠ 0
  | .ownConst h _ => Free h ∧ h ≠ nullHash ∧ K h = .const
  | .call _ h => Free h ∧ h ≠ nullHash ∧ K h = .fn
  | .libCall h => h ≠ nullHash ∧ purpose K h = .lib
  | .read h => h ≠ nullHash ∧ purpose K h = .const

theorem purpose_free {K : Word32 → Kind} {h : Word32} (hf : Free h) : purpose K h = K h := by
  unfold purpose
  have : allNames.find? (fun e => decide (nameHash e.1 = h)) = none := by
    rw [List.find?_eq_none]
    intro e he hd
    exact hf e he (of_decide_eq_true hd)
  rw [this]

theorem purpose_lib {K : Word32 → Kind} {e : String × Thing} (he : e ∈ allNames) :
    purpose K (nameHash e.1) = match e.2 with | .fn _ => .lib | .const _ => .const := by
  unfold purpose
  have : allNames.find? (fun x => decide (nameHash x.1 = nameHash e.1)) = some e := by
    cases hf : allNames.find? (fun x => decide (nameHash x.1 = nameHash e.1)) with
    | none =>
      rw [List.find?_eq_none] at hf
      exact absurd (decide_eq_true rfl) (hf e he)
    | some x =>
      have hx := List.find?_some hf
      rw [same_name (List.mem_of_find?_eq_some hf) he (of_decide_eq_true hx)]
  rw [this]
  obtain ⟨n, t⟩ := e
  cases t <;> rfl

variable {addr : String → BitVec 64} {val : String → Word32} {imps : Nat → List Nat}
  {funs : Nat → Word32 → Option Nat} {K : Word32 → Kind}

/-- The state of the specification after some operations. -/
def after (imps : Nat → List Nat) (funs : Nat → Word32 → Option Nat) (s : Sp) (ops : List Op) : Sp :=
  ops.foldl (fun s o => (spec imps funs s o).1) s

theorem specRun_append (s : Sp) (xs ys : List Op) :
    specRun imps funs s (xs ++ ys) = specRun imps funs s xs ++ specRun imps funs (after imps funs s xs) ys := by
  induction xs generalizing s with
  | nil => rfl
  | cons x xs ih => exact congrArg _ (ih _)

theorem properRun_append (s : Sp) (xs ys : List Op) (h1 : ProperRun K imps funs s xs)
    (h2 : ProperRun K imps funs (after imps funs s xs) ys) : ProperRun K imps funs s (xs ++ ys) := by
  induction xs generalizing s with
  | nil => exact h2
  | cons x xs ih => exact ⟨h1.1, h1.2.1, ih _ h1.2.2 h2⟩

/-- `loaded` are exactly the library names that have an entry, and it is their own. -/
def Holds (addr : String → BitVec 64) (val : String → Word32) (s : Sp) (loaded : String × Thing → Prop) : Prop :=
  ∀ e ∈ allNames, (loaded e → s.reg (nameHash e.1) = some (entry addr val e.2)) ∧
    (¬ loaded e → s.reg (nameHash e.1) = none)

theorem spec_reg (s : Sp) {e : String × Thing} :
    (spec imps funs s (regOp addr val e)).1 = s.set (nameHash e.1) (entry addr val e.2) := by
  obtain ⟨n, t⟩ := e
  cases t <;> rfl

theorem regs_proper (ha : ∀ c, addr c ≠ 0) : ∀ (es : List (String × Thing)) (s : Sp), (∀ e ∈ es, e ∈ allNames) →
    ProperRun (purpose K) imps funs s (es.map (regOp addr val))
  | [], _, _ => trivial
  | e :: es, s, hm => by
    have he := hm e (List.mem_cons_self ..)
    refine ⟨?_, ?_, regs_proper ha es _ (fun x hx => hm x (List.mem_cons_of_mem _ hx))⟩
    · have := ne_null he
      obtain ⟨n, t⟩ := e
      cases t <;> exact this
    · have := purpose_lib (K := K) he
      obtain ⟨n, t⟩ := e
      cases t with
      | fn c => exact ⟨this, ha c⟩
      | const c => exact this

theorem regs_holds : ∀ (es : List (String × Thing)) (s : Sp) (loaded : String × Thing → Prop),
    (∀ e ∈ es, e ∈ allNames) → Holds addr val s loaded →
    Holds addr val (after imps funs s (es.map (regOp addr val))) (fun e => loaded e ∨ e ∈ es)
  | [], s, loaded, _, h => fun e he => ⟨fun hl => (h e he).1 (by simpa using hl), fun hl => (h e he).2 (by simpa using hl)⟩
  | x :: es, s, loaded, hm, h => by
    have hx := hm x (List.mem_cons_self ..)
    have step : Holds addr val (spec imps funs s (regOp addr val x)).1 (fun e => loaded e ∨ e = x) := by
      rw [spec_reg]
      intro e he
      by_cases hh : nameHash e.1 = nameHash x.1
      · have := same_name he hx hh
        subst this
        refine ⟨fun _ => ?_, fun hl => absurd (Or.inr rfl) hl⟩
        show (if nameHash e.1 = nameHash e.1 then _ else _) = _
        rw [if_pos rfl]
      · have hne : e ≠ x := fun e' => hh (by rw [e'])
        have hs : (s.set (nameHash x.1) (entry addr val x.2)).reg (nameHash e.1) = s.reg (nameHash e.1) := if_neg hh
        rw [hs]
        exact ⟨fun hl => (h e he).1 (hl.resolve_right hne), fun hl => (h e he).2 (fun l => hl (Or.inl l))⟩
    have := regs_holds es _ _ (fun e he => hm e (List.mem_cons_of_mem _ he)) step
    intro e he
    refine ⟨fun hl => (this e he).1 ?_, fun hl => (this e he).2 fun h' => hl ?_⟩
    · rcases hl with hl | hl
      · exact Or.inl (Or.inl hl)
      · rcases List.mem_cons.mp hl with hl | hl
        · exact Or.inl (Or.inr hl)
        · exact Or.inr hl
    · rcases h' with (h' | h') | h'
      · exact Or.inl h'
      · exact Or.inr (h' ▸ List.mem_cons_self ..)
      · exact Or.inr (List.mem_cons_of_mem _ h')

theorem holds_set_free {s : Sp} {loaded : String × Thing → Prop} {h : Word32} (hf : Free h) (en : Entry)
    (hs : Holds addr val s loaded) : Holds addr val (s.set h en) loaded := by
  intro e he
  have : (s.set h en).reg (nameHash e.1) = s.reg (nameHash e.1) := if_neg (hf e he)
  rw [this]
  exact hs e he

/-- One event: it meets the conditions of C72, and the loaded names are those of the libraries loaded. -/
theorem event (ha : ∀ c, addr c ≠ 0) {s : Sp} {libs : List Lib} {ev : Ev} (hok : Ok K ev)
    (hs : Holds addr val s (fun e => ∃ l ∈ libs, e ∈ names l)) :
    ProperRun (purpose K) imps funs s (ev.ops addr val) ∧
    Holds addr val (after imps funs s (ev.ops addr val))
      (fun e => ∃ l ∈ (match ev with | .load l => l :: libs | _ => libs), e ∈ names l) := by
  cases ev with
  | load l =>
    refine ⟨regs_proper ha _ _ (fun e he => mem_allNames he), ?_⟩
    have := regs_holds (imps := imps) (funs := funs) (names l) s _ (fun e he => mem_allNames he) hs
    intro e he
    refine ⟨fun hl => (this e he).1 ?_, fun hl => (this e he).2 fun h' => hl ?_⟩
    · obtain ⟨l', hl', hn⟩ := hl
      rcases List.mem_cons.mp hl' with rfl | hl'
      · exact Or.inr hn
      · exact Or.inl ⟨l', hl', hn⟩
    · rcases h' with ⟨l', hl', hn⟩ | h'
      · exact ⟨l', List.mem_cons_of_mem _ hl', hn⟩
      · exact ⟨l, List.mem_cons_self .., h'⟩
  | own h a u =>
    obtain ⟨h1, h2, h3, h4⟩ := hok
    exact ⟨⟨h2, ⟨by rw [purpose_free h1]; exact h3, h4⟩, trivial⟩, holds_set_free h1 _ hs⟩
  | ownLib h a =>
    obtain ⟨h1, h2, h3, h4⟩ := hok
    exact ⟨⟨h2, ⟨by rw [purpose_free h1]; exact h3, h4⟩, trivial⟩, holds_set_free h1 _ hs⟩
  | ownConst h i =>
    obtain ⟨h1, h2, h3⟩ := hok
    exact ⟨⟨h2, by show purpose K h = _; rw [purpose_free h1]; exact h3, trivial⟩, holds_set_free h1 _ hs⟩
  | call c h =>
    obtain ⟨h1, h2, h3⟩ := hok
    exact ⟨⟨h2, by show purpose K h = _; rw [purpose_free h1]; exact h3, trivial⟩, hs⟩
  | libCall h => exact ⟨⟨hok.1, hok.2, trivial⟩, hs⟩
  | read h => exact ⟨⟨hok.1, hok.2, trivial⟩, hs⟩

/-- The libraries loaded by some events. -/
def libsOf : List Ev → List Lib
  | [] => []
  | .load l :: evs => l :: libsOf evs
  | _ :: evs => libsOf evs

theorem mem_libsOf {l : Lib} : ∀ {evs : List Ev}, l ∈ libsOf evs ↔ .load l ∈ evs
  | [] => by simp [libsOf]
  | ev :: evs => by
    have ih := mem_libsOf (l := l) (evs := evs)
    cases ev <;> simp [libsOf, ih]

theorem events (ha : ∀ c, addr c ≠ 0) : ∀ (evs : List Ev) {s : Sp} {libs : List Lib},
    (∀ ev ∈ evs, Ok K ev) → Holds addr val s (fun e => ∃ l ∈ libs, e ∈ names l) →
    ProperRun (purpose K) imps funs s (evs.flatMap (Ev.ops addr val)) ∧
    Holds addr val (after imps funs s (evs.flatMap (Ev.ops addr val)))
      (fun e => ∃ l, (l ∈ libs ∨ .load l ∈ evs) ∧ e ∈ names l)
  | [], s, libs, _, hs => ⟨trivial, fun e he =>
      ⟨fun hl => (hs e he).1 (by simpa using hl), fun hl => (hs e he).2 (by simpa using hl)⟩⟩
  | ev :: evs, s, libs, hok, hs => by
    obtain ⟨p1, h1⟩ := event (K := K) (imps := imps) (funs := funs) ha (hok ev (List.mem_cons_self ..)) hs
    obtain ⟨p2, h2⟩ := events ha evs (fun x hx => hok x (List.mem_cons_of_mem _ hx)) h1
    rw [List.flatMap_cons]
    refine ⟨properRun_append _ _ _ p1 p2, ?_⟩
    have hf : after imps funs s (ev.ops addr val ++ evs.flatMap (Ev.ops addr val)) =
        after imps funs (after imps funs s (ev.ops addr val)) (evs.flatMap (Ev.ops addr val)) :=
      List.foldl_append ..
    rw [hf]
    have key : ∀ l, (l ∈ (match ev with | .load l => l :: libs | _ => libs) ∨ .load l ∈ evs) ↔
        (l ∈ libs ∨ Ev.load l ∈ ev :: evs) := by
      intro l
      cases ev <;> simp [or_assoc, or_left_comm]
    intro e he
    refine ⟨fun ⟨l, hl, hn⟩ => (h2 e he).1 ⟨l, (key l).2 hl, hn⟩, fun hl => (h2 e he).2 ?_⟩
    rintro ⟨l, h', hn⟩
    exact hl ⟨l, (key l).1 h', hn⟩

/-- A name belongs to one library. -/
theorem one_lib : ∀ l l' : Lib, ∀ e ∈ names l, e ∈ names l' → l = l' := by
  intro l l'
  cases l <;> cases l' <;> first | (intros; rfl) | (intro e he he'; exfalso; revert e; decide)

variable {tabs : Nat → List Word32} {n : Nat} {s s' : St} {os : List Out}

private theorem last_out (hg : init zero () n = some s.g) (hc : ∀ d, newContext (tabs d) = some (s.c d))
    (hh : ∀ d, ∀ h ∈ tabs d, h ≠ nullHash) (ha : ∀ c, addr c ≠ 0) {evs : List Ev} (hok : ∀ ev ∈ evs, Ok K ev)
    {o : Registry.Op} (hn : o.name ≠ nullHash)
    (ho : ∀ sp, Proper (purpose K) (fun d h => lastIndex h (tabs d)) sp o)
    (hr : Registry.run imps s (evs.flatMap (Ev.ops addr val) ++ [o]) = some (s', os)) :
    ∃ sp, Holds addr val sp (fun e => ∃ l, .load l ∈ evs ∧ e ∈ names l) ∧
      os.getLast? = some (spec imps (fun d h => lastIndex h (tabs d)) sp o).2 := by
  have h0 : Holds addr val Sp.start (fun e => ∃ l ∈ ([] : List Lib), e ∈ names l) := by
    intro e _
    exact ⟨fun ⟨l, hl, _⟩ => (by cases hl), fun _ => rfl⟩
  obtain ⟨p, h⟩ := events (K := K) (imps := imps) (funs := fun d h => lastIndex h (tabs d)) ha evs hok h0
  have hp := properRun_append _ _ [o] p ⟨hn, ho _, trivial⟩
  have := C72_history_partial hg hc hh hp hr
  rw [specRun_append] at this
  refine ⟨after imps (fun d h => lastIndex h (tabs d)) .start (evs.flatMap (Ev.ops addr val)), ?_, ?_⟩
  · intro e he
    refine ⟨fun ⟨l, hl, hn⟩ => (h e he).1 ⟨l, Or.inr hl, hn⟩, fun hl => (h e he).2 ?_⟩
    rintro ⟨l, h', hn⟩
    exact hl ⟨l, h'.resolve_left (by simp), hn⟩
  · rw [this]
    simp [specRun]

/-- C107: over any history of loading libraries (in any order, any number of times), registering other names and
calling, a call of a library function runs the function of that name if its library has been loaded, and is
an error if not. -/
theorem C107_call (hg : init zero () n = some s.g) (hc : ∀ d, newContext (tabs d) = some (s.c d))
    (hh : ∀ d, ∀ h ∈ tabs d, h ≠ nullHash) (ha : ∀ c, addr c ≠ 0) {evs : List Ev} (hok : ∀ ev ∈ evs, Ok K ev)
    {l : Lib} {name c : String} (hm : (name, Thing.fn c) ∈ names l)
    (hr : Registry.run imps s (evs.flatMap (Ev.ops addr val) ++ [Registry.Op.libCall (nameHash name)]) = some (s', os)) :
    os.getLast? = some (if .load l ∈ evs then .lib (addr c) else .err) := by
  have he := mem_allNames hm
  obtain ⟨sp, h1, h2⟩ := last_out (K := K) (o := .libCall (nameHash name)) hg hc hh ha hok (ne_null he)
    (fun _ => purpose_lib he) hr
  rw [h2]
  by_cases hl : Ev.load l ∈ evs
  · rw [if_pos hl]
    show some (match sp.reg (nameHash name) with | some (.lib a) => Out.lib a | _ => .err) = _
    rw [(h1 _ he).1 ⟨l, hl, hm⟩]
    rfl
  · rw [if_neg hl]
    show some (match sp.reg (nameHash name) with | some (.lib a) => Out.lib a | _ => .err) = _
    rw [(h1 _ he).2 (fun ⟨l', h', hn⟩ => hl (one_lib l' l _ hn hm ▸ h'))]

/-- C107: and a library constant has its value if its library has been loaded, and is an error if not. -/
theorem C107_constant (hg : init zero () n = some s.g) (hc : ∀ d, newContext (tabs d) = some (s.c d))
    (hh : ∀ d, ∀ h ∈ tabs d, h ≠ nullHash) (ha : ∀ c, addr c ≠ 0) {evs : List Ev} (hok : ∀ ev ∈ evs, Ok K ev)
    {l : Lib} {name c : String} (hm : (name, Thing.const c) ∈ names l)
    (hr : Registry.run imps s (evs.flatMap (Ev.ops addr val) ++ [Registry.Op.load (nameHash name)]) = some (s', os)) :
    os.getLast? = some (if .load l ∈ evs then .value 0 (val c) else .err) := by
  have he := mem_allNames hm
  obtain ⟨sp, h1, h2⟩ := last_out (K := K) (o := .load (nameHash name)) hg hc hh ha hok (ne_null he)
    (fun _ => purpose_lib he) hr
  rw [h2]
  by_cases hl : Ev.load l ∈ evs
  · rw [if_pos hl]
    show some (match sp.reg (nameHash name) with
      | some (.int i) => Out.value 0 i | some (.float f) => .value 1 f | _ => .err) = _
    rw [(h1 _ he).1 ⟨l, hl, hm⟩]
    rfl
  · rw [if_neg hl]
    show some (match sp.reg (nameHash name) with
      | some (.int i) => Out.value 0 i | some (.float f) => .value 1 f | _ => .err) = _
    rw [(h1 _ he).2 (fun ⟨l', h', hn⟩ => hl (one_lib l' l _ hn hm ▸ h'))]

end Wrench.Libs
