import Verif.Host.Cleanup

namespace Wrench.Cleanup

theorem destroy_quiet (adds : List Entry → Entry → List Entry) (h : ∀ calls e, adds calls e = []) :
    ∀ (list : List Entry) (fuel : Nat) (calls : List Entry), list.length ≤ fuel →
      destroy adds fuel calls list = some (calls ++ list) := by
  intro list
  induction list with
  | nil => intro fuel calls _; simp [destroy]
  | cons e rest ih =>
    intro fuel calls hl
    cases fuel with
    | zero => simp at hl
    | succ fuel =>
      simp only [destroy, h, List.foldl_nil, List.drop_one, List.tail_cons]
      rw [ih fuel _ (by simpa using hl)]
      simp

theorem foldl_add (es list : List Entry) : es.foldl add list = es.reverse ++ list := by
  induction es generalizing list with
  | nil => rfl
  | cons e es ih => simp [List.foldl_cons, ih, add]

/-- C92: when a state is destroyed, every cleanup function registered is called, with its
parameter, once for every time it was registered, the last one first; and destroying comes to an
end.  (Partial: functions that register others while they are called, see `C92_added_is_lost`.) -/
theorem C92_each_once_partial (adds : List Entry → Entry → List Entry)
    (h : ∀ calls e, adds calls e = []) (registered : List Entry) :
    ∃ calls, destroy adds registered.length [] (registered.foldl add []) = some calls ∧
      calls = registered.reverse ∧ ∀ e, calls.count e = registered.count e := by
  refine ⟨registered.reverse, ?_, rfl, fun e => by simp⟩
  rw [foldl_add, List.append_nil, destroy_quiet adds h _ _ _ (by simp), List.nil_append]

/-- C92: a function registered by a cleanup function is thrown away without being called, and the
one that registered it is called again. -/
theorem C92_added_is_lost (adds : List Entry → Entry → List Entry) (f g : Entry) (rest : List Entry)
    (h1 : adds [] f = [g]) (h2 : ∀ calls e, calls ≠ [] → adds calls e = []) :
    destroy adds (rest.length + 2) [] (f :: rest) = some (f :: f :: rest) := by
  have key : ∀ (list : List Entry) (fuel : Nat) (calls : List Entry), calls ≠ [] →
      list.length ≤ fuel → destroy adds fuel calls list = some (calls ++ list) := by
    intro list
    induction list with
    | nil => intro fuel calls _ _; simp [destroy]
    | cons e rest ih =>
      intro fuel calls hc hl
      cases fuel with
      | zero => simp at hl
      | succ fuel =>
        simp only [destroy, h2 calls e hc, List.foldl_nil, List.drop_one, List.tail_cons]
        rw [ih fuel _ (by simp) (by simpa using hl)]
        simp
  have := key (f :: rest) (rest.length + 1) [f] (by simp) (by simp)
  rw [show rest.length + 2 = (rest.length + 1) + 1 from rfl, destroy, h1]
  exact this

/-- C92: one that always registers another is called for ever. -/
theorem C92_endless (adds : List Entry → Entry → List Entry) (f g : Entry) (rest : List Entry)
    (h : ∀ calls, adds calls f = [g]) : ∀ (fuel : Nat) (calls : List Entry),
      destroy adds fuel calls (f :: rest) = none := by
  intro fuel
  induction fuel with
  | zero => intro calls; rfl
  | succ fuel ih =>
    intro calls
    simp only [destroy, h, List.foldl_cons, List.foldl_nil, add, List.drop_one, List.tail_cons]
    exact ih _

/-- Three registrations, one function twice with different parameters. -/
example : destroy (fun _ _ => []) 3 [] ([(1, 10), (2, 20), (1, 11)].foldl add []) =
    some [(1, 11), (2, 20), (1, 10)] := by decide

/-- 1 registers 3 when it is called first: 3 is not called. -/
example : destroy (fun calls e => if calls = [] ∧ e = (1, 0) then [(3, 0)] else []) 9 []
    ([(2, 0), (1, 0)].foldl add []) = some [(1, 0), (1, 0), (2, 0)] := by decide

end Wrench.Cleanup
