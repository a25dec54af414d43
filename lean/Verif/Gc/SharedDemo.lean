import Verif.Gc.Shared

/-
Concrete cases for Verif/Gc/Shared: a script (context 0, one global) and an import (context 1, one global).
-/
namespace Wrench.Gc

def arr (cs : List Cell) : Obj := ⟨.values cs, false⟩

/-- Two contexts without objects; the limit is the default one, 4000. -/
def two : Sys :=
  { h := ⟨[], fun _ => none, [], [.plain, .plain]⟩
    ctx := fun c => if c = 0 then ⟨[], 0, 1, 0, 0#32⟩ else if c = 1 then ⟨[], 1, 1, 0, 0#32⟩ else ⟨[], 0, 0, 0, 0#32⟩
    limit := 4000#32
    flags := fun _ => false }

/-- The globals are assigned. -/
def Sys.setGlobals (s : Sys) (gs : List Cell) : Sys := { s with h := { s.h with globals := gs } }

def SOut.freed : SOut → Option (List Nat)
  | .done _ l => some l
  | _ => none

def SOut.flagged (r : SOut) (o : Nat) : Option Bool :=
  match r with
  | .done s _ => some (s.flags o)
  | _ => none

/-- `C109_when_collected`: three objects of 1000 bytes do not lead to a collection, with a fourth the one that the
global does not hold goes. -/
example : ((two.allocs 0 [(5, arr [], 1000), (6, arr [], 1000), (7, arr [], 1000)]).gc 9 0 0).freed = some [] ∧
    (((two.allocs 0 [(5, arr [], 1000), (6, arr [.obj 5], 1000), (7, arr [], 1000), (8, arr [], 1000)]).setGlobals
      [.obj 6, .plain]).gc 9 0 0).freed = some [8, 7] := by decide +kernel

example : (two.allocs 0 [(5, arr [], 10), (6, arr [], 10)]).limit.toNat ≤ 65535 ∧
    ((two.allocs 0 [(5, arr [], 10), (6, arr [], 10)]).destroy 0).freed = some [6, 5] ∧
    (({ two with limit := 100000#32 } : Sys).allocs 0 [(5, arr [], 10), (6, arr [], 10)]).destroy 0 =
      .done (({ two with limit := 100000#32 } : Sys).allocs 0 [(5, arr [], 10), (6, arr [], 10)]) [] := by
  refine ⟨by decide +kernel, by decide +kernel, ?_⟩
  exact C109_destroy_leaks _ 0 (by decide +kernel)

/-- The import made array 7 and returned it, the script keeps it in its global. -/
def kept : Sys := (two.allocs 1 [(7, arr [], 5000)]).setGlobals [.obj 7, .plain]

/-- **C110 fails when an import's function returns an array**: the script's global holds it, and the import's next
collection frees it. -/
theorem C110_returned_array_freed : ReachFrom kept 0 0 7 ∧ (kept.gc 9 1 0).freed = some [7] := by
  constructor
  · exact .global (i := 0) (v := .obj 7) (by decide +kernel) rfl (.obj 7)
  · decide +kernel

/-- The import keeps its array 7 as well; the script's collector has run and flagged it; then the import puts a new
array 8 into it. -/
def stale : Sys :=
  { two with
    h := ⟨[], fun o => if o = 7 then some (arr [.obj 8]) else if o = 8 then some (arr []) else none, [],
      [.obj 7, .obj 7]⟩
    ctx := fun c => if c = 0 then ⟨[], 0, 1, 0, 0#32⟩ else ⟨[8, 7], 1, 1, 0, 5000#32⟩
    flags := fun o => o == 7 }

/-- A collection of the script leaves the flag of the import's array set. -/
theorem C110_flag_left : (((({ two with limit := 0#32 } : Sys).allocs 1 [(7, arr [], 100)]).setGlobals
    [.obj 7, .obj 7]).gc 9 0 0).flagged 7 = some true := by decide +kernel

/-- **C110 fails after that**: the import's own collection takes the flag for its own mark, does not look into the
array, and frees array 8, which its own global reaches. -/
theorem C110_stale_flag_frees : ReachFrom stale 1 0 8 ∧ (stale.gc 9 1 0).freed = some [8] := by
  constructor
  · refine .elem (o := 7) (v := .obj 8) (.global (i := 0) (v := .obj 7) (by decide +kernel) rfl (.obj 7)) ?_ (.obj 8)
    exact .elem (i := 0) (x := arr [.obj 8]) (cs := [.obj 8]) rfl rfl rfl
  · decide +kernel

/-- A system meeting the hypotheses of `C110_isolated_partial`: each context has its own array. -/
def apart : Sys :=
  { two with
    h := ⟨[], fun o => if o = 7 then some (arr [.plain]) else if o = 8 then some (arr [.plain]) else none, [],
      [.obj 8, .obj 7]⟩
    ctx := fun c => if c = 0 then ⟨[8], 0, 1, 0, 0#32⟩ else if c = 1 then ⟨[7], 1, 1, 0, 5000#32⟩ else ⟨[], 0, 0, 0, 0#32⟩ }

theorem apart_reach {c : Nat} {o : Nat} (h : ReachFrom apart c 0 o) : (c = 0 ∧ o = 8) ∨ (c = 1 ∧ o = 7) := by
  have hcell : ∀ o v, Contains apart.h o v → v = .plain := by
    intro o v hv
    have hv := mem_cellsOf.mpr hv
    simp only [cellsOf, apart] at hv
    by_cases h7 : o = 7
    · subst h7; simpa [arr] using hv
    · by_cases h8 : o = 8
      · subst h8; simpa [arr] using hv
      · simp [h7, h8] at hv
  induction h with
  | stack _ h2 _ _ => omega
  | @global i v o h1 h2 hh =>
    have hv := mem_globalsOf.mpr ⟨i, h1, h2⟩
    by_cases h0 : c = 0
    · subst h0
      have : v = .obj 8 := by simpa [Sys.globalsOf, apart] using hv
      subst this; cases hh; exact Or.inl ⟨rfl, rfl⟩
    · by_cases h1 : c = 1
      · subst h1
        have : v = .obj 7 := by simpa [Sys.globalsOf, apart] using hv
        subst this; cases hh; exact Or.inr ⟨rfl, rfl⟩
      · simp [Sys.globalsOf, apart, h0, h1] at hv
  | @perm o x _ hx hp =>
    exfalso
    simp only [apart] at hx
    by_cases h7 : o = 7
    · subst h7; simp [arr] at hx; subst hx; cases hp
    · by_cases h8 : o = 8
      · subst h8; simp [arr] at hx; subst hx; cases hp
      · simp [h7, h8] at hx
  | elem _ hc hh => rw [hcell _ _ hc] at hh; cases hh
  | @block o b _ hb =>
    exfalso
    obtain ⟨used, hb⟩ := hb
    simp only [apart] at hb
    by_cases h7 : o = 7
    · subst h7; simp [arr] at hb
    · by_cases h8 : o = 8
      · subst h8; simp [arr] at hb
      · simp [h7, h8] at hb

example : (∀ o, apart.flags o = false) ∧ (apart.gc 9 1 0).freed = some [] ∧
    (∀ o, ReachFrom apart 1 0 o → o ∈ (apart.ctx 1).order) ∧
    ∀ c', c' ≠ 1 → ∀ o ∈ (apart.ctx 1).order, ¬ ReachFrom apart c' 0 o := by
  refine ⟨fun _ => rfl, by decide +kernel, ?_, ?_⟩
  · intro o ho
    rcases apart_reach ho with ⟨h, _⟩ | ⟨_, rfl⟩
    · cases h
    · decide +kernel
  · intro c' hc o ho hr
    rcases apart_reach hr with ⟨_, rfl⟩ | ⟨h, _⟩
    · simp [apart] at ho
    · exact hc h

end Wrench.Gc
