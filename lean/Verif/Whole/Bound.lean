import Verif.Expr.Compile

/-
What the expression compiler can emit: it loads only operands of the expression, and the operands of its
stack instructions are bytes.
-/
namespace Wrench.Expr

variable {V : Type} {P : V → Prop}

/-- Operands satisfy `P`, positions are bytes. -/
def Instr.fits (P : V → Prop) : Instr V → Prop
  | .load v => P v
  | .stackSwap n => n < 256
  | .swapTwoToTop a b => a < 256 ∧ b < 256
  | .app _ => True

def Fits (P : V → Prop) (cs : List (Ctx V)) : Prop := ∀ c ∈ cs, ∀ v, c.kind = .operand v → P v

structure Ex.Fits (P : V → Prop) (e : Ex V) : Prop where
  ctx : Expr.Fits P e.ctx
  code : ∀ i ∈ e.code, i.fits P

theorem Fits.map {cs : List (Ctx V)} (h : Fits P cs) (f : Ctx V → Ctx V) (hf : ∀ c, (f c).kind = c.kind) :
    Fits P (cs.map f) := by
  intro c hc v hv
  obtain ⟨c', h1, rfl⟩ := List.mem_map.mp hc
  rw [hf] at hv
  exact h c' h1 v hv

theorem Fits.compact {f h g : Nat} {cs : List (Ctx V)} (hc : Fits P cs) : Fits P (compact f h g cs) := by
  induction f generalizing h g cs with
  | zero => exact hc
  | succ f ih =>
    unfold Expr.compact
    split
    · split
      · exact ih hc
      · exact ih (hc.map _ fun c => rfl)
    · exact hc

theorem Fits.push {k : Nat} {cs : List (Ctx V)} (h : Fits P cs) : Fits P (pushToStack k cs) := by
  unfold pushToStack
  apply Fits.compact
  intro c hc v hv
  rw [List.mem_mapIdx] at hc
  obtain ⟨i, hi, rfl⟩ := hc
  refine h cs[i] (List.getElem_mem hi) v ?_
  split at hv <;> exact hv

theorem Fits.erase {k : Nat} {cs : List (Ctx V)} (h : Fits P cs) : Fits P (cs.eraseIdx k) :=
  fun c hc => h c (List.mem_of_mem_eraseIdx hc)

theorem Fits.relabel {p : Nat} {cs : List (Ctx V)} (h : Fits P cs) : Fits P (relabel p cs) := by
  refine h.map _ fun c => ?_
  split
  · rfl
  · split <;> rfl

variable {e : Ex V}

theorem Ex.Fits.emit (h : e.Fits P) {i : Instr V} (hi : i.fits P) : (emit i e).Fits P := by
  refine ⟨h.ctx, fun j hj => ?_⟩
  rcases List.mem_append.mp hj with hj | hj
  · exact h.code j hj
  · rw [List.mem_singleton] at hj
    subst hj
    exact hi

theorem Ex.Fits.swapWithTop (h : e.Fits P) (p : Nat) (b : Bool) : (swapWithTop p b e).Fits P := by
  unfold Expr.swapWithTop
  split
  · exact h
  · refine ⟨h.ctx.relabel, ?_⟩
    dsimp only
    split
    · exact (h.emit (i := .stackSwap ((p + 1) % 256)) (Nat.mod_lt _ (by omega))).code
    · exact h.code

theorem Ex.Fits.swapCtx (h : e.Fits P) (i : Nat) (b : Bool) : (swapCtx i b e).Fits P := by
  unfold Expr.swapCtx
  split
  · exact h.swapWithTop _ _
  · exact h

theorem Fits.modify {cs : List (Ctx V)} (h : Fits P cs) (k : Nat) :
    Fits P (cs.modify k fun c => { c with kind := .resolved }) := by
  intro c hc v hv
  rw [List.mem_iff_getElem?] at hc
  obtain ⟨i, hi⟩ := hc
  rw [List.getElem?_modify] at hi
  cases hg : cs[i]? with
  | none => rw [hg] at hi; simp at hi
  | some c0 =>
    rw [hg] at hi
    simp only [Option.map_eq_map, Option.map_some, Option.some.injEq] at hi
    split at hi
    · rw [← hi] at hv
      simp at hv
    · rw [← hi] at hv
      exact h c0 (List.mem_of_getElem? hg) v hv

theorem Ex.Fits.load (h : e.Fits P) (k : Nat) : (load k e).Fits P := by
  unfold Expr.load
  refine ⟨h.ctx.push.modify k, ?_⟩
  dsimp only
  cases hg : e.ctx[k]? with
  | none => exact h.code
  | some c =>
    rw [Option.map_some]
    cases hk : c.kind with
    | operand v => exact (h.emit (i := .load v) (h.ctx c (List.mem_of_getElem? hg) v hk)).code
    | oper o => exact h.code
    | resolved => exact h.code

theorem posByte_lt (e : Ex V) (i : Nat) : posByte e i < 256 := Nat.mod_lt _ (by omega)

theorem Ex.Fits.swapBoth (h : e.Fits P) (i j : Nat) : (swapBoth i j e).Fits P :=
  (((h.emit (i := .swapTwoToTop _ _) ⟨posByte_lt e i, posByte_lt e j⟩).swapCtx _ _).swapWithTop _ _).swapCtx _ _

theorem Ex.Fits.placeCommute (h : e.Fits P) (i j : Nat) : (placeCommute i j e).Fits P := by
  unfold Expr.placeCommute
  split
  · exact (h.load _).load _
  · exact (h.swapWithTop _ _).load _
  · exact (h.swapWithTop _ _).load _
  · split
    · exact h.swapWithTop _ _
    · split
      · exact h.swapWithTop _ _
      · exact h.swapBoth _ _

theorem Ex.Fits.placeBinary (h : e.Fits P) (b : Bin) (i j : Nat) : (placeBinary b i j e).1.Fits P := by
  unfold Expr.placeBinary
  split
  · exact (h.load _).load _
  · dsimp only
    split
    · exact ((h.swapWithTop _ true).load j).swapWithTop 1 true
    · exact (h.swapWithTop _ _).load _
  · exact (h.swapWithTop _ _).load _
  · split
    · dsimp only
      split
      · exact h.swapWithTop _ _
      · exact h
    · split
      · split
        · exact h.swapWithTop 1 true
        · exact ((h.emit (i := .swapTwoToTop _ _) ⟨posByte_lt e i, by omega⟩).swapWithTop _ _).swapCtx _ _
      · exact h.swapBoth _ _

theorem Ex.Fits.resolveEx {e' : Ex V} {o n : Nat} (h : e.Fits P) (he : resolveEx e o = some (e', n)) : e'.Fits P := by
  unfold Expr.resolveEx at he
  split at he
  · rename_i u _
    split at he
    · dsimp only at he
      cases he
      have h1 : (match posOf e (o + 1) with | none => Expr.load (o + 1) e | some p => Expr.swapWithTop p true e).Fits P := by
        split
        · exact h.load _
        · exact h.swapWithTop _ _
      exact ⟨(h1.emit (i := .app (.pre u)) trivial).ctx.erase.push, (h1.emit (i := .app (.pre u)) trivial).code⟩
    · simp at he
  · rename_i b _
    split at he
    · simp at he
    · split at he
      · dsimp only at he
        cases he
        generalize hp : (if b.commute then (Expr.placeCommute (o - 1) (o + 1) e, false)
          else Expr.placeBinary b (o - 1) (o + 1) e) = q
        have h1 : q.1.Fits P := by
          rw [← hp]
          split
          · exact h.placeCommute _ _
          · exact h.placeBinary _ _ _
        exact ⟨(h1.emit (i := .app (.bin (if q.2 then b.alt.getD b else b))) trivial).ctx.erase.erase.push,
          (h1.emit (i := .app (.bin (if q.2 then b.alt.getD b else b))) trivial).code⟩
      · simp at he
  · rename_i u _
    split at he
    · simp at he
    · dsimp only at he
      cases he
      have h1 : (match posOf e (o - 1) with | none => Expr.load (o - 1) e | some p => Expr.swapWithTop p true e).Fits P := by
        split
        · exact h.load _
        · exact h.swapWithTop _ _
      exact ⟨(h1.emit (i := .app (.post u)) trivial).ctx.erase.push, (h1.emit (i := .app (.post u)) trivial).code⟩
  · simp at he

theorem pass_fits {p : Nat} {l : Bool} {f : Nat} {s s' : Ex V × Nat} (h : s.1.Fits P) (hs : pass p l f s = some s') :
    s'.1.Fits P := by
  induction f generalizing s with
  | zero => simp only [pass, Option.some.injEq] at hs; subst hs; exact h
  | succ f ih =>
    obtain ⟨e, n⟩ := s
    unfold pass at hs
    split at hs
    · cases hs; exact h
    · split at hs
      · simp at hs
      · rename_i he
        exact ih (Ex.Fits.resolveEx h he) hs

theorem levels_fits {ps : List Nat} {s s' : Ex V × Nat} (h : s.1.Fits P) (hs : levels ps s = some s') :
    s'.1.Fits P := by
  induction ps generalizing s with
  | nil => simp only [levels, Option.some.injEq] at hs; subst hs; exact h
  | cons p ps ih =>
    obtain ⟨e, n⟩ := s
    unfold levels at hs
    split at hs
    · split at hs
      · simp at hs
      · rename_i h1
        split at hs
        · simp at hs
        · rename_i h2
          exact ih (pass_fits (pass_fits h h1) h2) hs
    · cases hs; exact h

theorem resolve_fits {cs : List (Ctx V)} {code : List (Instr V)} (h : Fits P cs)
    (hs : resolveExpression cs = some code) : ∀ i ∈ code, i.fits P := by
  have h0 : (⟨cs, []⟩ : Ex V).Fits P := ⟨h, by simp⟩
  unfold resolveExpression at hs
  split at hs
  · cases hs
    exact (h0.load 0).code
  · split at hs
    · simp at hs
    · rename_i e n hl
      split at hs
      · simp at hs
      · cases hs
        exact (levels_fits h0 hl).code

theorem toContexts_fits {prev : Option (Ctx V)} {ts : List (Tok V)} {cs : List (Ctx V)}
    (h : ∀ v, Tok.val v ∈ ts → P v) (hs : toContexts prev ts = some cs) : Fits P cs := by
  induction ts generalizing prev cs with
  | nil => simp only [toContexts, Option.some.injEq] at hs; subst hs; intro c hc; simp at hc
  | cons t ts ih =>
    have key : ∀ (q : Option (Ctx V)) (k : Ctx V) (hk : ∀ v, k.kind = .operand v → P v),
        (toContexts q ts).map (k :: ·) = some cs → Fits P cs := by
      intro q k hk hq
      rw [Option.map_eq_some_iff] at hq
      obtain ⟨cs', h1, rfl⟩ := hq
      intro c hc v hv
      rcases List.mem_cons.mp hc with rfl | hc
      · exact hk v hv
      · exact ih (fun v hv => h v (by simp [hv])) h1 c hc v hv
    cases t with
    | val v =>
      unfold toContexts at hs
      split at hs
      · simp at hs
      · exact key _ _ (fun v' hv => by cases hv; exact h v (by simp)) hs
    | sym s =>
      unfold toContexts at hs
      split at hs
      · simp at hs
      · exact key _ _ (fun v hv => by cases hv) hs

/-- Every operand satisfies `P`. -/
def Tree.all (P : V → Prop) : Tree V → Prop
  | .leaf v => P v
  | .pre _ t => t.all P
  | .post _ t => t.all P
  | .bin _ l r => l.all P ∧ r.all P

theorem Tree.tokens_all {T : Tree V} (h : T.all P) : ∀ v, Tok.val v ∈ T.tokens → P v := by
  induction T with
  | leaf w => intro v hv; simp [Tree.tokens] at hv; subst hv; exact h
  | pre u t ih => intro v hv; simp [Tree.tokens] at hv; exact ih h v hv
  | post u t ih => intro v hv; simp [Tree.tokens] at hv; exact ih h v hv
  | bin b l r ihl ihr =>
    intro v hv
    simp [Tree.tokens] at hv
    rcases hv with hv | hv
    · exact ihl h.1 v hv
    · exact ihr h.2 v hv

theorem compile_fits {T : Tree V} {code : List (Instr V)} (h : T.all P) (hs : compile T.tokens = some code) :
    ∀ i ∈ code, i.fits P := by
  unfold compile at hs
  cases hc : toContexts none T.tokens with
  | none => rw [hc] at hs; simp at hs
  | some cs =>
    rw [hc] at hs
    exact resolve_fits (toContexts_fits (Tree.tokens_all h) hc) hs

end Wrench.Expr
