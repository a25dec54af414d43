import Verif.Prog.Calls
import Verif.Prog.Entry

/-
C114 with the entry of functions step by step, and nothing assumed about what variables hold before they are set.
-/
namespace Wrench.Prog
open Wrench.Vm Wrench.Vm.Jump Wrench.Peep Wrench.Whole Wrench.Ops

/-- The calls one after the other: function and arguments; `ns` are the numbers of instructions. -/
def Image.hostCalls (R : Raw) (E : Env) (img : Image) (stop base gb ng : Nat) :
    St → List (Nat × List Word32) → List Nat → Option (List Val × St)
  | σ, [], _ => some ([], σ)
  | _, _ :: _, [] => none
  | σ, c :: cs, n :: ns =>
    (img.fns[c.1]?).bind fun s =>
    (img.call E stop base n s.start (enterHost R σ base gb ng s.a s.l c.2)).bind fun r =>
    (img.hostCalls R E stop base gb ng r.2 cs ns).map fun q => (r.1 :: q.1, q.2)

/-- `wr_run` and then the calls. -/
def Image.host (R : Raw) (E : Env) (img : Image) (n : Nat) (ns : List Nat) (m : M) (cs : List (Nat × List Word32)) :
    Option (List Val × St) :=
  (img.run E n m).bind fun g =>
  (img.hostCalls R E g.stop m.top m.gb m.ng g.m.σ cs ns).map fun r => (g.val :: r.1, r.2)

/-- The source says that the calls have these values and leave these globals, whatever variables hold before they
are set. -/
inductive Says (fs : List Fn) : (Byte → Option Word32) → List (Nat × List Word32) → List Word32 →
    (Byte → Option Word32) → Prop where
  | nil {g : Byte → Option Word32} : Says fs g [] [] g
  | cons {g g1 g2 : Byte → Option Word32} {i : Nat} {argv : List Word32} {f : Fn} {w : Word32}
      {cs : List (Nat × List Word32)} {ws : List Word32} :
      fs[i]? = some f →
      (∀ junk, ∃ n ρ', f.body.result n (fnVars g f.a f.l argv junk) = some (w, ρ') ∧ ρ' .G = g1) →
      Says fs g1 cs ws g2 → Says fs g ((i, argv) :: cs) (w :: ws) g2

theorem host_calls_run {neg : Word32 → Word32} {fs : List Fn} {img : Image} {code : List Byte}
    (hc : addFns neg code fs = some (img.code, img.fns)) (hsize : img.code.length < 65536)
    (hg : ∀ f ∈ fs, f.body.good neg ∧ 1 + f.a + f.l < 256) (R : Raw) {E : Env} {stop base gb ng : Nat}
    (hs : opAt img.code stop = some .Stop) (hb : gb + ng ≤ base) {cs : List (Nat × List Word32)} {σ : St}
    {g g' : Byte → Option Word32} {ws : List Word32} (hG : Globals g gb ng σ) (hr : Says fs g cs ws g') :
    ∃ ns σ', img.hostCalls R E stop base gb ng σ cs ns = some (ws.map .int, σ') ∧ Globals g' gb ng σ' ∧
      ∀ j, j < base → ¬ (gb ≤ j ∧ j < gb + ng) → σ'.cell (.cell j) = σ.cell (.cell j) := by
  induction hr generalizing σ with
  | nil => exact ⟨[], σ, rfl, hG, fun _ _ _ => rfl⟩
  | @cons g g1 g2 i argv f w cs ws hf hj _ ih =>
    obtain ⟨n, ρ', h1, rfl⟩ := hj (junkOf R σ base f.a argv)
    obtain ⟨o, h3, h4, h5⟩ := IS.result_exec h1
    obtain ⟨U, pre, post, h6, h7, h8⟩ := (addFns_spec hc).2 i f hf
    obtain ⟨g2, g3⟩ := hg f (List.mem_of_getElem? hf)
    obtain ⟨N, σ1, e1, e2, e3⟩ := C113_call_partial g2 h6 R (base := base) (by omega) hb hG h3 h4 h5 E
    have hpre : pre.length % 65536 = pre.length := by
      rw [h7, List.length_append] at hsize
      exact Nat.mod_eq_of_lt (by omega)
    rw [hpre] at h8
    obtain ⟨ns, σ', e4, e5, e6⟩ := ih e2
    refine ⟨N :: ns, σ', ?_, e5, fun j hj hn => by rw [e6 j hj hn, e3 j hj hn]⟩
    unfold Image.hostCalls
    dsimp only
    rw [h8, Option.bind_some]
    dsimp only
    rw [call_of_runFn h7 hs e1, Option.bind_some, e4]
    rfl

/-- **C114**, with the entry of functions step by step (partial); see `C114_session_partial`. -/
theorem C114_host_partial {neg : Word32 → Word32} {header : List Byte} {s : IS} {fs : List Fn} {img : Image}
    (hg : s.good neg) (hgf : ∀ f ∈ fs, f.body.good neg ∧ 1 + f.a + f.l < 256) (hs : Flow.Straight s.means)
    (hc : linkAll neg header s fs = some img) (hsize : img.code.length < 65536) {n : Nat} {ρ ρ' : Vars} {w : Word32}
    (hr : s.result n ρ = some (w, ρ')) {cs : List (Nat × List Word32)} {ws : List Word32} {g : Byte → Option Word32}
    (hrs : Says fs (ρ' .G) cs ws g) (R : Raw) (E : Env) {m : M} (hm : Ready ρ m) :
    ∃ n0 ns σ', img.host R E n0 ns m cs = some (.int w :: ws.map .int, σ') ∧ Globals g m.gb m.ng σ' := by
  obtain ⟨N, stop, m', code, sigs, hrun, rfl, ⟨c, h1⟩, hstop, h7⟩ := image_run hg hs hc hr E hm
  obtain ⟨ns, σ', e1, e2, -⟩ := host_calls_run (img := ⟨code, header.length, sigs⟩) h1 hsize hgf R hstop
    hm.start.globals h7 hrs (E := E)
  refine ⟨N, ns, σ', ?_, e2⟩
  unfold Image.host
  rw [hrun, Option.bind_some]
  dsimp only
  rw [e1]
  rfl

end Wrench.Prog
