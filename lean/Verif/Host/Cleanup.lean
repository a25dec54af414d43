/-
The functions libraries leave to be called when a state is destroyed: `wr_addLibraryCleanupFunction`
(discrete_src/vm/operations.cpp 287-303) and the first loop of `wr_destroyState`
(discrete_src/utils/utils.cpp 218-224).
-/
import Verif.Bytes.Model

namespace Wrench.Cleanup

/-- A function with its parameter. -/
abbrev Entry := Nat × Nat

/-- `wr_addLibraryCleanupFunction`, discrete_src/vm/operations.cpp 287-303: the list, first entry
first.  (`malloc` does not fail.) -/
def add (list : List Entry) (e : Entry) : List Entry := e :: list

/-- The loop, discrete_src/utils/utils.cpp 218-224, with at most `fuel` rounds: the calls made, in
order; `none` if it has not come to an end.  `adds` are the functions a call leaves itself, after
the calls made before.  The entry taken off the list is the one that is first after the call. -/
def destroy (adds : List Entry → Entry → List Entry) :
    Nat → List Entry → List Entry → Option (List Entry)
  | _, calls, [] => some calls
  | 0, _, _ :: _ => none
  | fuel + 1, calls, e :: rest =>
    destroy adds fuel (calls ++ [e]) (((adds calls e).foldl add (e :: rest)).drop 1)

end Wrench.Cleanup
