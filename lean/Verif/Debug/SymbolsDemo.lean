/-
The symbols of a concrete program, and what the debugger shows wrongly.
-/
import Verif.Debug.SymbolsProps
import Verif.Link.Demo

namespace Wrench.Symbols

open Wrench.Link

/-- `x = f(1); s = new S();` with `function f(a)` and `struct S { p; q; }`. -/
def demoUnits : List SymUnit :=
  [ ⟨[58, 58, 103, 108, 111, 98, 97, 108], 0, [[58, 58, 120], [58, 58, 115]]⟩,
    ⟨[102], 1, [[97]]⟩,
    ⟨[83], 0, [[112], [113]]⟩ ]

/-- The hypotheses of `C88_symbols` are met. -/
theorem demo_fits : ∀ u ∈ demoUnits, Fits u := by
  intro u hu
  simp only [demoUnits, List.mem_cons, List.not_mem_nil, or_false] at hu
  rcases hu with rfl | rfl | rfl <;>
    exact ⟨by decide, by decide, ⟨by decide, by decide⟩, by unfold Plain; decide⟩

/-- The program linked with its source, `x;`. -/
def demoSymP : Program :=
  { demoP with flags := 5#8, source := [120, 59], symbols := symbolBlock demoUnits }

theorem demoSymP_ok : ProgramOk demoSymP :=
  ⟨demoP_ok.nonempty, demoP_ok.main, demoP_ok.fns, demoP_ok.yield⟩

def demoSymImg : List Byte := match link demoSymP with
  | .ok i => i
  | _ => []

theorem demo_sym_linked : link demoSymP = .ok demoSymImg := by decide +kernel

/-- The hypotheses of `C88_told` are met. -/
theorem demo_told : ∃ c b, load demoSymImg = .ok c ∧
    findBlocks noBlocks demoSymImg c = some b ∧ b.hash = wrHash [120, 59] ∧
    sourceReply b demoSymImg = some (.data [120, 59, 0]) ∧
    symbolReply b demoSymImg = some (.data (symbolBlock demoUnits)) ∧
    readSymbols (symbolBlock demoUnits) = some (demoUnits.map shown) := by
  obtain ⟨c, hc, _⟩ := C29_link_load_partial demoSymP_ok demo_sym_linked (by decide +kernel)
  obtain ⟨b, h1, h2, h3, h4, h5⟩ := C88_told demoSymP_ok demo_sym_linked (by decide +kernel)
    hc noBlocks demoUnits rfl (by decide) (by decide) (by decide) demo_fits
  exact ⟨c, b, hc, h1, h2, h3, h4, h5⟩

/-- Loading the same program linked without symbols into the memory of the first: what the
server now sends as the symbols is the second program's code. -/
theorem C88_shows_code_as_symbols :
    ∃ c b img c', load demoSymImg = .ok c ∧ findBlocks noBlocks demoSymImg c = some b ∧
      link demoP = .ok img ∧ load img = .ok c' ∧ img.length ≤ demoSymImg.length ∧
      findBlocks b (img ++ demoSymImg.drop img.length) c' = some b ∧
      symbolReply b (img ++ demoSymImg.drop img.length) ≠ symbolReply b demoSymImg := by
  obtain ⟨c, hc, _⟩ := C29_link_load_partial demoSymP_ok demo_sym_linked (by decide +kernel)
  obtain ⟨c', hc', _⟩ := C29_link_load_partial demoP_ok demo_linked (by decide +kernel)
  obtain ⟨b, h1, h2, h3, h4, h5⟩ := C88_told demoSymP_ok demo_sym_linked (by decide +kernel)
    hc noBlocks demoUnits rfl (by decide) (by decide) (by decide) demo_fits
  refine ⟨c, b, demoImg, c', hc, h1, demo_linked, hc', by decide +kernel,
    C88_stale b _ c' 1#8 (by decide +kernel) (by decide) (by decide), ?_⟩
  have hlen : c.functions.length = 2 := by
    have : (match load demoSymImg with | .ok x => x.functions.length | _ => 0) = 2 := by
      decide +kernel
    rw [hc] at this; exact this
  have hgl : c.globals = 2 := by
    have : (match load demoSymImg with | .ok x => x.globals | _ => 0) = 2 := by decide +kernel
    rw [hc] at this; exact this
  have hb : findBlocks noBlocks demoSymImg ⟨2, List.replicate 2 ⟨0, 0, 0, 0, 0, 0⟩, 0⟩ = some b := by
    rw [← h1]
    simp only [findBlocks, hlen, hgl, List.length_replicate]
  rw [h4]
  have key : ∀ b', findBlocks noBlocks demoSymImg ⟨2, List.replicate 2 ⟨0, 0, 0, 0, 0, 0⟩, 0⟩ = some b' →
      (findBlocks noBlocks demoSymImg ⟨2, List.replicate 2 ⟨0, 0, 0, 0, 0, 0⟩, 0⟩).bind
        (fun b => symbolReply b (demoImg ++ demoSymImg.drop demoImg.length)) =
      symbolReply b' (demoImg ++ demoSymImg.drop demoImg.length) := by
    intro b' e; rw [e]; rfl
  rw [← key b hb]
  decide +kernel

/-- A function of 256 variables is shown without any, and its first variable is taken for the
next function. -/
theorem C88_many_variables :
    (readSymbols (symbolBlock [⟨[102], 0, List.replicate 256 [97, 98, 99]⟩, ⟨[103], 0, []⟩])).map
      (fun fs => fs.map (fun f => (f.name, f.arguments, f.vars.length))) =
      some [(some [102], 0, 0), (some [99], 98, 97)] := by
  decide +kernel

end Wrench.Symbols
