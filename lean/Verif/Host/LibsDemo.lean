import Verif.Host.LibsProps

/-
A history that meets the hypotheses of C107: all libraries loaded into a new state, and one of them again.
-/
namespace Wrench.Libs

open Wrench Wrench.Registry Wrench.HashTable

def demoAddr (c : String) : BitVec 64 := if c = "wr_math_sin" then 0x1000#64 else 0x2000#64

def demoVal (_ : String) : Word32 := 7#32

/-- `wr_loadAllLibs`, a function and a constant of the host, the string library again. -/
def demoEvs : List Ev :=
  allLibs.map .load ++ [.own 5#32 0x3000#64 1#64, .ownConst 6#32 9#32, .call 0 5#32, .read 6#32, .load .str]

def demoKind (h : Word32) : Kind := if h = 6#32 then .const else .fn

theorem free_of {h : Word32} (hd : ∀ n ∈ allNames.map (fun e => (nameHash e.1).toNat), n ≠ h.toNat) : Free h :=
  fun e he e' => hd _ (List.mem_map_of_mem he) (congrArg BitVec.toNat e')

theorem demo_ok : ∀ ev ∈ demoEvs, Ok demoKind ev := by
  have f5 : Free 5#32 := free_of (by decide +kernel)
  have f6 : Free 6#32 := free_of (by decide +kernel)
  intro ev hev
  rcases List.mem_append.mp hev with hev | hev
  · obtain ⟨l, _, rfl⟩ := List.mem_map.mp hev
    trivial
  · simp only [List.mem_cons, List.not_mem_nil, or_false] at hev
    rcases hev with rfl | rfl | rfl | rfl | rfl
    · exact ⟨f5, by decide, by decide, by decide⟩
    · exact ⟨f6, by decide, by decide⟩
    · exact ⟨f5, by decide, by decide⟩
    · exact ⟨by decide, by rw [purpose_free f6]; decide⟩
    · trivial

def demoSt (g : HT Cell Unit) (c : HT (Option Nat) Unit) : St := ⟨g, fun _ => c⟩

/-- The history runs: the registry can take all the libraries. -/
theorem demo_runs : ((init zero () 0).bind fun g => (newContext []).bind fun c =>
    (Registry.run (fun _ => []) (demoSt g c)
      (demoEvs.flatMap (Ev.ops demoAddr demoVal) ++ [.libCall (nameHash "math::sin")])).map
      fun r => r.2.getLast?) = some (some (.lib 0x1000#64)) := by decide +kernel

end Wrench.Libs
