import Verif.Expr.FullProps

/-!
C73: where the property fails, and examples.
-/
namespace Wrench.Full

/-- An expression that is a single operator (`=;`, `x = (*);`) is accepted; its code is empty and leaves no
value. -/
theorem C73_lone_operator (s : Sym) : compile (.sym s .nil) = some [] ∧ height [] 0 = some 0 := by
  refine ⟨?_, rfl⟩
  cases s <;> decide +kernel

/-- `a + *` is accepted; the code is one multiplication, of values that are not there. -/
theorem C73_dangling_operator :
    compile (.opd (.var 0) (.sym .plus (.sym .star .nil))) = some [.bin .mul false] ∧
    height [.bin .mul false] 1 = none := by
  decide +kernel

/-- `a._remove` without its key is accepted; `a` is taken for the key. -/
theorem C73_key_missing :
    compile (.opd (.var 0) (.sym .remove .nil)) = some [.var 0, .post .remove] ∧
    height [.var 0, .post .remove] 0 = none := by
  decide +kernel

/-- `f(,)` is accepted; the call takes an argument that nothing pushed. -/
theorem C73_empty_argument :
    compile (.opd (.call 0 (.cons .nil .nil)) .nil) = some [.call 0 1] ∧ height [.call 0 1] 0 = none := by
  decide +kernel

/-- `a.f(x)` is the same as `a.x`: the call is not made. -/
theorem C73_member_call_dropped :
    compile (.opd (.var 0) (.sym .dot (.opd (.call 1 (.cons (.opd (.var 2) .nil) .nil)) .nil))) =
      compile (.opd (.var 0) (.sym .dot (.opd (.var 2) .nil))) ∧
    compile (.opd (.var 0) (.sym .dot (.opd (.var 2) .nil))) =
      some [.name (.name 2), .var 0, .bin .dot false] := by
  decide +kernel

/-- `f(x).y` is refused: the value of a call has no members, though `f(x)[0].y` would do. -/
theorem C73_call_member_refused :
    compile (.opd (.call 0 (.cons (.opd (.var 1) .nil) .nil)) (.sym .dot (.opd (.var 2) .nil))) = none ∧
    (compile (.opd (.call 0 (.cons (.opd (.var 1) .nil) .nil))
      (.key .index (.opd (.lit 0) .nil) (.sym .dot (.opd (.var 2) .nil))))).isSome = true := by
  decide +kernel

/-- `!!a` and `-(int)a` are refused. -/
theorem C73_two_prefixes_refused :
    compile (.sym .bang (.sym .bang (.opd (.var 0) .nil))) = none ∧
    compile (.sym .minus (.sym .castInt (.opd (.var 0) .nil))) = none := by
  decide +kernel

/-- The limits of `C73_one_value_partial` can be met: `a = -b.c[ f( d[1], 2 ) ]++ * ( e + g ) - h._remove( i )`. -/
def sample : Exp :=
  .bin (.mk none (.var 0) .nil) .assign
    (.bin (.mk (some .neg) (.var 1)
        (.member 2 (.keyed .index (.one (.mk none (.call 9
          (.cons (.one (.mk none (.var 3) (.keyed .index (.one (.mk none (.lit 1) .nil)) .nil)))
            (.cons (.one (.mk none (.lit 2) .nil)) .nil))) .nil)) (.simple .inc .nil)))) .mul
      (.bin (.mk none (.paren (.bin (.mk none (.var 4) .nil) .add (.one (.mk none (.var 5) .nil)))) .nil) .sub
        (.one (.mk none (.var 6) (.keyed .remove (.one (.mk none (.var 7) .nil)) .nil)))))

example : sample.Fine := by
  simp [sample, Exp.Fine, Term.Fine, Prim.Fine, Sufs.Fine, Argl.Fine, Sufs.isMember, Prim.isVar, Exp.size, Term.size,
    Sufs.size, Argl.len]

example : (compile sample.text).isSome = true := by decide +kernel

example : (compile sample.text).bind (height · 5) = some 6 := by decide +kernel

end Wrench.Full
