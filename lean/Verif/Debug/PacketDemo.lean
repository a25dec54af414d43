/-
Concrete packets, and what happens to the stream when reading is interrupted.
-/
import Verif.Debug.PacketProps

namespace Wrench.Packet

/-- A reply with a payload, and one without. -/
def demoPkts : List Pkt :=
  [ { alloc 17 [1, 2, 3, 4, 5] with param1 := 0x01020304, param2 := 7 },
    { alloc 1 [] with param1 := 9 } ]

/-- The hypotheses of `C85_in_step` are met, with a transport that moves three bytes a call. -/
theorem demo_hypotheses :
    (∀ p ∈ demoPkts, Sized p) ∧ Good (List.replicate 40 (.took 3)) ∧
    (∀ p ∈ demoPkts, 16 + p.payload.length ≤ (List.replicate 40 (Ans.took 3)).length) ∧
    ((demoPkts.map wireForm).flatten).length ≤ (List.replicate 40 (Ans.took 3)).length := by
  refine ⟨?_, ?_, by decide, by decide⟩
  · intro p hp
    simp only [demoPkts, List.mem_cons, List.not_mem_nil, or_false] at hp
    rcases hp with rfl | rfl <;> exact ⟨by decide, by decide⟩
  · intro a ha
    exact ⟨2, List.eq_of_mem_replicate ha⟩

/-- From a big-endian machine to a little-endian one. -/
theorem demo_crossing :
    ∃ wire, sendAll .big (List.replicate 40 (.took 3)) demoPkts [] = .ok wire ∧
      receiveAll .little (List.replicate 40 (.took 3)) 2 wire = .ok (demoPkts.map some, []) := by
  obtain ⟨h1, h2, h3, h4⟩ := demo_hypotheses
  exact C85_in_step .big .little demoPkts _ _ h1 h2 h2 h3 h4

/-- The words are swapped on the way: the type lies in memory differently on the two
machines. -/
theorem demo_swapped : memOf .big (alloc 17 []) ≠ memOf .little (alloc 17 []) ∧
    memOf .big (xlate .big (alloc 17 [])).1 = memOf .little (xlate .little (alloc 17 [])).1 := by
  decide +kernel

/-- An error while the payload is read costs the header that had been read already: the packet
is lost and its payload stays, to be taken for the header of the next one.  Here the payload is
sixteen bytes that read as a packet of type 14, and that packet is received although nobody
sent it. -/
theorem C85_out_of_step :
    receive .little 100 [.took 16, .fail]
        (wireForm (alloc 20 [16, 0, 0, 0, 14, 0, 0, 0, 5, 0, 0, 0, 0, 0, 0, 0]))
      = .ok (none, [16, 0, 0, 0, 14, 0, 0, 0, 5, 0, 0, 0, 0, 0, 0, 0], []) ∧
    receive .little 100 [.took 16] [16, 0, 0, 0, 14, 0, 0, 0, 5, 0, 0, 0, 0, 0, 0, 0]
      = .ok (some { alloc 14 [] with param1 := 5 }, [], []) := by
  decide +kernel

/-- A call stack of two entries, sent from a big-endian machine. -/
theorem demo_callstack :
    callstackRead .little 2 (callstackPayload .big
      [ { onLine := 12, stackOffset := 0, fromUnit := 0, thisUnit := 0, locals := 300,
          arguments := 0 },
        { onLine := 70000, stackOffset := 517, fromUnit := 0, thisUnit := 3, locals := 2,
          arguments := 1 } ]) =
      [ { onLine := 12, stackOffset := 0, fromUnit := 0, thisUnit := 0, locals := 300,
          arguments := 0 },
        { onLine := 70000, stackOffset := 517, fromUnit := 0, thisUnit := 3, locals := 2,
          arguments := 1 } ] := by
  decide +kernel

end Wrench.Packet
