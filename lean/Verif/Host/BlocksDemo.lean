import Verif.Host.BlocksClaims

/-
Concrete cases for Verif/Host/BlocksClaims: a host with two contexts sharing one block, one of which imports a block
that is handed over, and a script that imports two copies.
-/
namespace Wrench.Blocks

open Wrench.Host

instance (L : Ledger) (b : Nat) : Decidable (Unused L b) := by unfold Unused; infer_instance

instance (l : Live) (e : Ev) : Decidable (Allowed l e) := by
  cases e <;> unfold Allowed
  · infer_instance
  · infer_instance
  · cases l.floating with
    | nil => exact isTrue trivial
    | cons p fs => obtain ⟨c, i, own⟩ := p; dsimp only; infer_instance
  · infer_instance

instance (L : Ledger) (e : BEv) : Decidable (May L e) := by cases e <;> unfold May <;> infer_instance

def decMayRun : (L : Ledger) → (es : List BEv) → Decidable (MayRun L es)
  | _, [] => isTrue trivial
  | L, e :: es => by
    have := decMayRun (L.step e) es
    unfold MayRun
    infer_instance

instance (L : Ledger) (es : List BEv) : Decidable (MayRun L es) := decMayRun L es

/-- Two contexts on block 0, which stays the host's; block 1 is handed over to an import of the first. -/
def shared : List BEv :=
  [.alloc, .alloc, .new 0 true false, .call 0, .new 0 true false, .importBegin 0 1 true true, .importEnd true, .call 2,
   .scriptImport 1 true, .importEnd true, .scriptImport 1 false]

example : MayRun noBlocks shared := by decide +kernel
/-- Destroying both: what is left is the host's block and the copy that was refused. -/
example : MayRun noBlocks (shared ++ [.destroy 0, .destroy 1]) ∧
    (brun bstart (shared ++ [.destroy 0, .destroy 1])).bind (fun s => .ok s.mem) = .ok [true, false, false, true] := by
  decide +kernel
example : brun bstart shared ≠ .ub ∧ HandsOver ⟨start, [], [true, true]⟩ 1 (.importBegin 0 1 true true) := by
  constructor
  · decide +kernel
  · exact ⟨rfl, rfl, rfl⟩
/-- Outside the rules: one block handed over twice is freed twice; a block freed under a context is read. -/
example : brun bstart [.alloc, .new 0 true true, .new 0 true true, .destroy 0, .destroy 1] = .ub ∧
    brun bstart [.alloc, .new 0 true false, .hostFree 0, .call 0] = .ub := by decide +kernel
/-- wr_run. -/
example : (wrRun ⟨start, [], [true]⟩ 0 false true true false).bind (fun r => .ok (r.1.mem, r.2)) = .ok ([true], none) ∧
    (wrRun ⟨start, [], [true]⟩ 0 true true false false).bind (fun r => .ok (r.1.mem, r.2)) = .ok ([false], none) ∧
    (wrRun ⟨start, [], [true]⟩ 0 true true true false).bind (fun r => .ok (r.1.mem, r.2)) = .ok ([true], some 0) := by
  decide +kernel

end Wrench.Blocks
