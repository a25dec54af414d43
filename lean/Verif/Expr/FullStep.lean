import Verif.Expr.FullStack

/-!
One step of the resolution: heights and what has been emitted.
-/
namespace Wrench.Full

theorem height_append (a b : List I) (d : Nat) : height (a ++ b) d = (height a d).bind (height b) := by
  induction a generalizing d with
  | nil => rfl
  | cons i a ih =>
    show (i.eff d).bind (height (a ++ b)) = ((i.eff d).bind (height a)).bind (height b)
    cases i.eff d with
    | none => rfl
    | some d' => exact ih d'

/-- Code that leaves exactly one value more. -/
def Bal (c : List I) : Prop := ∀ d, height c d = some (d + 1)

/-- What an instruction evaluates or applies; moving values about is nothing. -/
def I.work : I → Option I
  | .swap _ | .swap2 _ _ | .deref => none
  | .bin b _ => some (.bin b false)
  | i => some i

def work (c : List I) : List I := c.filterMap I.work

theorem work_append (a b : List I) : work (a ++ b) = work a ++ work b := by simp [work]

def Kind.isRes : Kind → Bool
  | .resolved => true
  | _ => false

def kinds (cs : List Ctx) : List Kind := cs.map fun c => c.kind

def cnt (ks : List Kind) : Nat := ks.countP Kind.isRes

theorem cnt_append (a b : List Kind) : cnt (a ++ b) = cnt a + cnt b := by simp [cnt]

theorem cnt_cons_res (b : List Kind) : cnt (.resolved :: b) = cnt b + 1 :=
  List.countP_cons_of_pos rfl

theorem cnt_cons_not {k : Kind} (b : List Kind) (h : k.isRes = false) : cnt (k :: b) = cnt b := by
  simp [cnt, h]

/-- The state of the resolution: the kinds, the resolved ones are on the stack at distinct positions without gaps,
the code built so far leaves that many values, and it does the work `w`. -/
structure Ok (ks : List Kind) (w : List I) (e : Ex) : Prop where
  kind : kinds e.ctx = ks
  res : e.ctx.map (fun c => c.pos.isSome) = ks.map Kind.isRes
  perm : (poss e.ctx).Perm (List.range (cnt ks))
  ht : ∀ d, height e.code d = some (d + cnt ks)
  wk : (work e.code).Perm w

theorem poss_length (cs : List Ctx) : (poss cs).length = (cs.map fun c => c.pos.isSome).countP id := by
  induction cs with
  | nil => rfl
  | cons c cs ih =>
    cases h : c.pos with
    | none => rw [poss_cons_none h]; simp [h, ih]
    | some p => rw [poss_cons_some h]; simp [h, ih]

theorem cnt_eq (ks : List Kind) : (ks.map Kind.isRes).countP id = cnt ks := by
  rw [cnt, List.countP_map]; rfl

theorem cnt_le (ks : List Kind) : cnt ks ≤ ks.length := List.countP_le_length

theorem Ok.length {ks w e} (h : Ok ks w e) : e.ctx.length = ks.length := by
  rw [← h.kind, kinds, List.length_map]

theorem Ok.nodup {ks w e} (h : Ok ks w e) : (poss e.ctx).Nodup := h.perm.nodup_iff.mpr List.nodup_range

theorem Ok.work {ks w w' e} (h : Ok ks w e) (p : w.Perm w') : Ok ks w' e :=
  { h with wk := h.wk.trans p }

theorem Ok.pos_lt {ks w e} (h : Ok ks w e) {i p : Nat} (g : posOf e i = some p) : p < cnt ks := by
  unfold posOf at g
  cases hc : e.ctx[i]? with
  | none => simp [hc] at g
  | some c =>
    simp [hc] at g
    have := h.perm.mem_iff.mp (mem_poss.mpr ⟨c, List.mem_of_getElem? hc, g⟩)
    rwa [List.mem_range] at this

theorem Ok.isSome {ks w e} (h : Ok ks w e) {i : Nat} {k : Kind} (g : ks[i]? = some k) :
    (posOf e i).isSome = k.isRes := by
  have r := congrArg (fun l => l[i]?) h.res
  simp only [List.getElem?_map, g, Option.map_some] at r
  unfold posOf
  cases hc : e.ctx[i]? with
  | none => simp [hc] at r
  | some c => simpa [hc] using r

theorem Ok.kindAt {ks w e} (h : Ok ks w e) {i : Nat} {k : Kind} (g : ks[i]? = some k) : kindAt e.ctx i = k := by
  rw [← h.kind, kinds, List.getElem?_map] at g
  rw [Full.kindAt, g]
  rfl

theorem Ok.pos_none {ks w e} (h : Ok ks w e) {i : Nat} {k : Kind} (g : ks[i]? = some k) (r : k.isRes = false) :
    posOf e i = none := by
  have := h.isSome g
  rw [r] at this
  simpa using this

theorem Ok.pos_some {ks w e} (h : Ok ks w e) {i : Nat} (g : ks[i]? = some .resolved) :
    ∃ p, posOf e i = some p ∧ p < cnt ks := by
  have := h.isSome g
  rw [show Kind.isRes .resolved = true from rfl, Option.isSome_iff_exists] at this
  obtain ⟨p, hp⟩ := this
  exact ⟨p, hp, h.pos_lt hp⟩

theorem swap_ok {ks w e} (h : Ok ks w e) {p : Nat} (hp : p < cnt ks) (hn : ks.length ≤ 255) (em : Bool) :
    Ok ks w (swapWithTop p em e) := by
  unfold swapWithTop
  by_cases z : p = 0
  · rw [if_pos z]; exact h
  · rw [if_neg z]
    have s := relabel_same p e.ctx
    have hc := cnt_le ks
    refine ⟨s.1.trans h.kind, s.2.trans h.res, relabel_perm p _ _ hp h.perm, fun d => ?_, ?_⟩
    · cases em with
      | false => exact h.ht d
      | true =>
        simp only [if_true]
        rw [height_append, h.ht d]
        have : (p + 1) % 256 = p + 1 := Nat.mod_eq_of_lt (by omega)
        simp only [Option.bind_some, height, I.eff, this]
        rw [if_pos (by omega)]
        rfl
    · cases em with
      | false => exact h.wk
      | true =>
        simp only [if_true]
        rw [work_append, show Full.work [I.swap ((p + 1) % 256)] = [] from rfl, List.append_nil]
        exact h.wk

theorem swapCtx_ok {ks w e} (h : Ok ks w e) (i : Nat) (hn : ks.length ≤ 255) (em : Bool) :
    Ok ks w (swapCtx i em e) := by
  unfold swapCtx
  cases g : posOf e i with
  | none => exact h
  | some p => exact swap_ok h (h.pos_lt g) hn em

/-- Putting a context on the stack. -/
theorem push_ok {ds : List Ctx} {A B : List Kind} {code w : List I}
    (kd : kinds ds = A ++ .resolved :: B)
    (rs : (ds.map fun c => c.pos.isSome).set A.length true = (A ++ Kind.resolved :: B).map Kind.isRes)
    (nd : (poss ds).Nodup)
    (ht : ∀ d, height code d = some (d + cnt (A ++ .resolved :: B))) (wk : (work code).Perm w) :
    Ok (A ++ .resolved :: B) w ⟨pushToStack A.length ds, code⟩ := by
  have hl : A.length < ds.length := by
    have := congrArg List.length kd
    simp only [kinds, List.length_map, List.length_append, List.length_cons] at this
    omega
  obtain ⟨a, b, n, r⟩ := pushToStack_spec A.length ds hl nd
  refine ⟨a.trans kd, b.trans rs, ?_, ht, wk⟩
  have : n = cnt (A ++ .resolved :: B) := by
    have l := r.length_eq
    rw [List.length_range, poss_length, b, rs, cnt_eq] at l
    exact l.symm
  rw [← this]
  exact r

theorem map_modify_kind (i : Nat) (cs : List Ctx) :
    kinds (cs.modify i fun c => { c with kind := .resolved }) = (kinds cs).set i .resolved := by
  apply List.ext_getElem?
  intro j
  simp only [kinds, List.getElem?_map, List.getElem?_modify, List.getElem?_set]
  by_cases e : i = j
  · subst e
    cases h : cs[i]? with
    | none =>
      have := List.getElem?_eq_none_iff.mp h
      simp; omega
    | some c =>
      have := (List.getElem?_eq_some_iff.mp h).1
      simp [this]
  · simp [e]

theorem map_modify_pos {β : Type} (f : Option Nat → β) (i : Nat) (cs : List Ctx) :
    (cs.modify i fun c => { c with kind := .resolved }).map (fun c => f c.pos) = cs.map (fun c => f c.pos) := by
  apply List.ext_getElem?
  intro j
  simp only [List.getElem?_map, List.getElem?_modify]
  by_cases e : i = j
  · subst e; cases cs[i]? <;> simp
  · simp [e]

theorem poss_eq (cs : List Ctx) : poss cs = (cs.map fun c => c.pos).filterMap id := by
  rw [List.filterMap_map]; rfl

theorem poss_modify (i : Nat) (cs : List Ctx) :
    poss (cs.modify i fun c => { c with kind := .resolved }) = poss cs := by
  rw [poss_eq, poss_eq cs]
  exact congrArg _ (map_modify_pos id i cs)

theorem load_ok {A B : List Kind} {k : Kind} {w : List I} {e : Ex} (dot : Bool)
    (h : Ok (A ++ k :: B) w e) (hk : k.isRes = false) (bal : dot = false → Bal k.code) :
    Ok (A ++ .resolved :: B) (w ++ if dot then [.name k.tok] else work k.code) (load A.length dot e) := by
  have hl : A.length < e.ctx.length := by rw [h.length]; simp
  have g : (A ++ k :: B)[A.length]? = some k := by simp
  obtain ⟨a, b, n, r⟩ := pushToStack_spec A.length e.ctx hl h.nodup
  have hc : cnt (A ++ .resolved :: B) = cnt (A ++ k :: B) + 1 := by
    rw [cnt_append, cnt_append, cnt_cons_res, cnt_cons_not B hk]; omega
  have rs : (pushToStack A.length e.ctx).map (fun c => c.pos.isSome) = (A ++ Kind.resolved :: B).map Kind.isRes := by
    rw [b, h.res]
    simp [Kind.isRes]
  refine ⟨?_, ?_, ?_, fun d => ?_, ?_⟩
  · show kinds ((pushToStack A.length e.ctx).modify A.length _) = _
    rw [map_modify_kind, show kinds (pushToStack A.length e.ctx) = A ++ k :: B from a.trans h.kind]
    simp
  · exact (map_modify_pos Option.isSome _ _).trans rs
  · show (poss ((pushToStack A.length e.ctx).modify A.length _)).Perm _
    rw [poss_modify]
    have l := r.length_eq
    rw [List.length_range, poss_length, rs, cnt_eq] at l
    rw [l]
    exact r
  · show height (e.code ++ _) d = _
    rw [height_append, h.ht d, Option.bind_some, h.kindAt g, hc]
    cases dot with
    | true => rfl
    | false =>
      have := bal rfl (d + cnt (A ++ k :: B))
      rw [if_neg (by simp), this, Nat.add_assoc]
  · show (work (e.code ++ _)).Perm _
    rw [work_append, h.kindAt g]
    refine h.wk.append ?_
    cases dot with
    | true => exact List.Perm.refl _
    | false => exact List.Perm.refl _

/-- An operand that leaves one value, or a value already there. -/
def IsVal (k : Kind) : Prop := (∃ o, k = .operand o ∧ Bal o.code) ∨ k = .resolved

def cost (k : Kind) : List I := work k.code

theorem cost_res : cost .resolved = [] := rfl

theorem emit_ctx (is : List I) (e : Ex) : (emit is e).ctx = e.ctx := rfl
theorem emit_code (is : List I) (e : Ex) : (emit is e).code = e.code ++ is := rfl

theorem posOf_emit (is : List I) (e : Ex) (i : Nat) : posOf (emit is e) i = posOf e i := rfl

theorem swap2_ok {ks w e} (h : Ok ks w e) {a b : Nat} (ha : a < cnt ks) (hb : b < cnt ks) (h2 : 2 ≤ cnt ks)
    (hn : ks.length ≤ 255) : Ok ks w (emit [.swap2 ((a + 1) % 256) ((b + 1) % 256)] e) := by
  have hc := cnt_le ks
  refine ⟨h.kind, h.res, h.perm, fun d => ?_, ?_⟩
  · rw [emit_code, height_append, h.ht d, Nat.mod_eq_of_lt (by omega), Nat.mod_eq_of_lt (by omega)]
    simp only [Option.bind_some, height, I.eff]
    rw [if_pos (by omega)]
    rfl
  · rw [emit_code, work_append, show Full.work [I.swap2 ((a + 1) % 256) ((b + 1) % 256)] = [] from rfl,
      List.append_nil]
    exact h.wk

theorem swapBoth_ok {ks w e} (h : Ok ks w e) {i j : Nat} (hi : ks[i]? = some .resolved) (hj : ks[j]? = some .resolved)
    (h2 : 2 ≤ cnt ks) (hn : ks.length ≤ 255) : Ok ks w (swapBoth i j e) := by
  obtain ⟨a, ea, ha⟩ := h.pos_some hi
  obtain ⟨b, eb, hb⟩ := h.pos_some hj
  unfold swapBoth posByte
  rw [ea, eb]
  exact swapCtx_ok (swap_ok (swapCtx_ok (swap2_ok h ha hb h2 hn) j hn false) (by omega) hn false) i hn false

section place

variable {A B : List Kind} {x y k : Kind} {w : List I} {e : Ex}

theorem at_first : (A ++ x :: k :: y :: B)[A.length]? = some x := by simp

theorem at_second : (A ++ x :: k :: y :: B)[A.length + 2]? = some y := by
  rw [List.getElem?_append_right (by omega)]; simp

theorem load_first (dot : Bool) (h : Ok (A ++ x :: k :: y :: B) w e) (hx : x.isRes = false)
    (bal : dot = false → Bal x.code) :
    Ok (A ++ .resolved :: k :: y :: B) (w ++ if dot then [.name x.tok] else work x.code) (load A.length dot e) :=
  load_ok dot h hx bal

theorem load_second (dot : Bool) (h : Ok (A ++ x :: k :: y :: B) w e) (hy : y.isRes = false)
    (bal : dot = false → Bal y.code) :
    Ok (A ++ x :: k :: .resolved :: B) (w ++ if dot then [.name y.tok] else work y.code) (load (A.length + 2) dot e) := by
  have := load_ok (A := A ++ [x, k]) (B := B) (k := y) dot (by simpa using h) hy bal
  simpa using this

theorem two_le (A B : List Kind) (k : Kind) : 2 ≤ cnt (A ++ .resolved :: k :: .resolved :: B) := by
  rw [cnt_append, cnt_cons_res]
  have : 1 ≤ cnt (k :: .resolved :: B) := by
    cases hk : k.isRes with
    | false => rw [cnt_cons_not _ hk, cnt_cons_res]; omega
    | true => simp [cnt, hk, Kind.isRes]
  omega

theorem placeCommute_ok (h : Ok (A ++ x :: k :: y :: B) w e) (hx : IsVal x) (hy : IsVal y)
    (hn : (A ++ x :: k :: y :: B).length ≤ 255) :
    Ok (A ++ .resolved :: k :: .resolved :: B) (w ++ (cost x ++ cost y)) (placeCommute A.length (A.length + 2) e) := by
  have hn' : ∀ x' y' : Kind, (A ++ x' :: k :: y' :: B).length ≤ 255 := by
    intro x' y'; simpa using hn
  unfold placeCommute
  rcases hx with ⟨o, rfl, bx⟩ | rfl <;> rcases hy with ⟨q, rfl, byy⟩ | rfl
  · rw [h.pos_none at_first rfl, h.pos_none at_second rfl]
    have h1 := load_first false h rfl fun _ => bx
    have h2 := load_second false h1 rfl fun _ => byy
    simpa [cost, List.append_assoc] using h2
  · obtain ⟨s, es, hs⟩ := h.pos_some at_second
    rw [h.pos_none at_first rfl, es]
    have h1 := load_first false (swap_ok h hs hn true) rfl fun _ => bx
    simpa [cost, Kind.code, Full.work] using h1
  · obtain ⟨f, ef, hf⟩ := h.pos_some at_first
    rw [h.pos_none at_second rfl, ef]
    have h1 := load_second false (swap_ok h hf hn true) rfl fun _ => byy
    simpa [cost, Kind.code, Full.work] using h1
  · obtain ⟨f, ef, hf⟩ := h.pos_some at_first
    obtain ⟨s, es, hs⟩ := h.pos_some at_second
    rw [ef, es]
    simp only [cost_res, List.append_nil]
    by_cases s1 : s = 1
    · rw [if_pos s1]; exact swap_ok h hf hn true
    · rw [if_neg s1]
      by_cases f1 : f = 1
      · rw [if_pos f1]; exact swap_ok h hs hn true
      · rw [if_neg f1]
        exact swapBoth_ok h at_first at_second (two_le A B k) hn

theorem placeBinary_ok (b : Bin) (h : Ok (A ++ x :: k :: y :: B) w e) (hx : IsVal x) (hy : IsVal y)
    (hd : b = .dot → y.isRes = false)
    (hn : (A ++ x :: k :: y :: B).length ≤ 255) :
    Ok (A ++ .resolved :: k :: .resolved :: B) (w ++ (cost x ++ if b == .dot then [.name y.tok] else cost y))
      (placeBinary b A.length (A.length + 2) e).1 := by
  unfold placeBinary
  rcases hx with ⟨o, rfl, bx⟩ | rfl <;> rcases hy with ⟨q, rfl, byy⟩ | rfl
  · rw [h.pos_none at_first rfl, h.pos_none at_second rfl]
    have h1 := load_second (b == .dot) h rfl fun _ => byy
    have h2 := load_first false h1 rfl fun _ => bx
    refine Ok.work h2 ?_
    rw [List.append_assoc]
    refine List.Perm.append_left w ?_
    exact List.perm_append_comm
  · obtain ⟨s, es, hs⟩ := h.pos_some at_second
    have nd : (b == .dot) = false := by
      by_cases g : b = .dot
      · exact absurd (hd g) (by simp [Kind.isRes])
      · simpa using g
    rw [h.pos_none at_first rfl, es, nd]
    have h1 := load_first false (swap_ok h hs hn true) rfl fun _ => bx
    simpa [cost, Kind.code, Full.work] using h1
  · obtain ⟨f, ef, hf⟩ := h.pos_some at_first
    rw [h.pos_none at_second rfl, ef]
    have h1 := load_second (b == .dot) (swap_ok h hf hn true) rfl fun _ => byy
    have h1 : Ok (A ++ .resolved :: k :: .resolved :: B)
        (w ++ (cost .resolved ++ if b == .dot then [.name (Kind.operand q).tok] else cost (.operand q))) _ := h1
    simp only
    by_cases g : b.hasAlt = true
    · rw [if_pos g]; exact h1
    · rw [if_neg g]
      have := two_le A B k
      exact swap_ok h1 (p := 1) (by omega) (by simpa using hn) true
  · obtain ⟨f, ef, hf⟩ := h.pos_some at_first
    obtain ⟨s, es, hs⟩ := h.pos_some at_second
    have nd : (b == .dot) = false := by
      by_cases g : b = .dot
      · exact absurd (hd g) (by simp [Kind.isRes])
      · simpa using g
    have h2 := two_le A B k
    rw [ef, es, nd]
    simp only [cost_res, List.append_nil, Bool.false_eq_true, if_false]
    by_cases s1 : s = 1
    · rw [if_pos s1]
      by_cases f0 : f ≠ 0
      · simp only [if_pos f0]; exact swap_ok h hf hn true
      · simp only [if_neg f0]; exact h
    · rw [if_neg s1]
      by_cases s0 : s = 0
      · rw [if_pos s0]
        by_cases f1 : f = 1
        · rw [if_pos f1]; exact swap_ok h (p := 1) (by omega) hn true
        · rw [if_neg f1]
          have h3 := swap2_ok h hf (b := 1) (by omega) h2 hn
          have : posByte e A.length = (f + 1) % 256 := by rw [posByte, ef]; rfl
          simp only [this]
          exact swapCtx_ok (swap_ok h3 (by omega) hn false) A.length hn false
      · rw [if_neg s0]
        exact swapBoth_ok h at_first at_second h2 hn

/-- With `.`, what has been emitted last is what `appendBytecode` asks for. -/
theorem placeDot_ok (h : Ok (A ++ x :: k :: y :: B) w e) (hx : (∃ o n, x = .operand o ∧ o.code = [.var n]) ∨ x = .resolved)
    (hy : y.isRes = false) :
    dotOk (placeBinary .dot A.length (A.length + 2) e).1.code = true := by
  unfold placeBinary
  rw [h.pos_none at_second hy]
  rcases hx with ⟨o, n, rfl, ho⟩ | rfl
  · rw [h.pos_none at_first rfl]
    have h1 := load_second true h hy (by simp)
    have : kindAt (load (A.length + 2) true e).ctx A.length = .operand o := h1.kindAt at_first
    show dotOk ((load (A.length + 2) true e).code ++ (kindAt (load (A.length + 2) true e).ctx A.length).code) = true
    rw [this]
    show dotOk ((e.code ++ [.name _]) ++ o.code) = true
    rw [ho]
    simp [dotOk]
  · obtain ⟨f, ef, hf⟩ := h.pos_some at_first
    rw [ef]
    show dotOk (((swapWithTop f true e).code ++ [.name _]) ++ [.swap _]) = true
    simp [dotOk]

end place

theorem map_eraseIdx {α β : Type} (f : α → β) : ∀ (l : List α) (i : Nat), (l.eraseIdx i).map f = (l.map f).eraseIdx i
  | [], _ => rfl
  | _ :: _, 0 => rfl
  | a :: l, i + 1 => by
    show f a :: (l.eraseIdx i).map f = f a :: (l.map f).eraseIdx i
    rw [map_eraseIdx f l i]

theorem kinds_eraseIdx (cs : List Ctx) (i : Nat) : kinds (cs.eraseIdx i) = (kinds cs).eraseIdx i :=
  map_eraseIdx _ cs i

theorem some_eraseIdx (cs : List Ctx) (i : Nat) :
    (cs.eraseIdx i).map (fun c => c.pos.isSome) = (cs.map fun c => c.pos.isSome).eraseIdx i :=
  map_eraseIdx _ cs i

theorem poss_eraseIdx {cs : List Ctx} (i : Nat) (nd : (poss cs).Nodup) : (poss (cs.eraseIdx i)).Nodup :=
  nd.sublist ((List.eraseIdx_sublist cs i).filterMap Ctx.pos)

theorem grow_eq {cs : List Ctx} {i : Nat} (h : i < cs.length) : grow i cs = cs := by
  unfold grow
  rw [show i + 1 - cs.length = 0 from by omega]
  simp

/-- A prefix operator. -/
theorem resolve_pre {A B : List Kind} {x : Kind} {w : List I} {e : Ex} (u : Pre) (key : List I)
    (h : Ok (A ++ .oper (.pre u) key :: x :: B) w e) (hx : IsVal x)
    (hn : (A ++ Kind.oper (.pre u) key :: x :: B).length ≤ 255) :
    ∃ e', resolveEx e A.length = some (e', 1) ∧ Ok (A ++ .resolved :: B) (w ++ (.un u :: cost x)) e' := by
  have g : (A ++ Kind.oper (.pre u) key :: x :: B)[A.length]? = some (.oper (.pre u) key) := by simp
  have g1 : (A ++ Kind.oper (.pre u) key :: x :: B)[A.length + 1]? = some x := by
    rw [List.getElem?_append_right (by omega)]; simp
  have hl : A.length + 1 < e.ctx.length := by rw [h.length]; simp
  unfold resolveEx
  rw [h.kindAt g]
  simp only [grow_eq hl]
  obtain ⟨e1, he1, h1⟩ : ∃ e1, bringUp (A.length + 1) e = e1 ∧
      Ok (A ++ .oper (.pre u) key :: .resolved :: B) (w ++ cost x) e1 := by
    unfold bringUp
    rcases hx with ⟨o, rfl, bx⟩ | rfl
    · rw [h.pos_none g1 rfl]
      refine ⟨_, rfl, ?_⟩
      have := load_ok (A := A ++ [.oper (.pre u) key]) (B := B) (k := .operand o) false (by simpa using h) rfl fun _ => bx
      simpa [cost] using this
    · obtain ⟨p, ep, hp⟩ := h.pos_some g1
      rw [ep]
      exact ⟨_, rfl, by simpa [cost_res] using swap_ok h hp hn true⟩
  refine ⟨_, rfl, ?_⟩
  rw [show ({ ctx := e.ctx, code := e.code } : Ex) = e from rfl, he1]
  have hc : cnt (A ++ .oper (.pre u) key :: .resolved :: B) = cnt (A ++ .resolved :: B) := by
    rw [cnt_append, cnt_append, cnt_cons_not _ rfl]
  refine push_ok ?_ ?_ (poss_eraseIdx _ h1.nodup) (fun d => ?_) ?_
  · rw [emit_ctx, kinds_eraseIdx, h1.kind, List.eraseIdx_append_of_length_le (Nat.le_refl _)]; simp
  · rw [emit_ctx, some_eraseIdx, h1.res, List.map_append, List.eraseIdx_append_of_length_le (by simp)]
    simp [Kind.isRes]
  · rw [emit_code, height_append, h1.ht d, hc]
    have : 1 ≤ cnt (A ++ .resolved :: B) := by rw [cnt_append, cnt_cons_res]; omega
    simp only [Option.bind_some, height, I.eff]
    rw [if_pos (by omega)]
    rfl
  · rw [emit_code, work_append]
    refine (h1.wk.append_right _).trans ?_
    rw [List.append_assoc]
    refine List.Perm.append_left w ?_
    exact List.perm_append_comm

/-- The code of a key fits its operator. -/
def KeyOk (q : Post) (key : List I) : Prop := if q.keyed then Bal key else key = []

theorem post_height {q : Post} {key : List I} (h : KeyOk q key) {d : Nat} (hd : 1 ≤ d) :
    height (key ++ [.post q]) d = some d := by
  unfold KeyOk at h
  cases hq : q.keyed with
  | true =>
    rw [hq, if_pos rfl] at h
    rw [height_append, h d]
    simp only [Option.bind_some, height, I.eff, hq, if_true]
    rw [if_pos (by omega)]
    rfl
  | false =>
    rw [hq, if_neg (by simp)] at h
    subst h
    simp only [List.nil_append, height, I.eff, hq]
    rw [if_neg (by simp), if_pos hd]
    rfl

/-- A postfix operator. -/
theorem resolve_post {A B : List Kind} {x : Kind} {w : List I} {e : Ex} (q : Post) (key : List I)
    (h : Ok (A ++ x :: .oper (.post q) key :: B) w e) (hx : IsVal x) (hk : KeyOk q key)
    (hn : (A ++ x :: Kind.oper (.post q) key :: B).length ≤ 255) :
    ∃ e', resolveEx e (A.length + 1) = some (e', 1) ∧
      Ok (A ++ .resolved :: B) (w ++ (cost x ++ (work key ++ [.post q]))) e' := by
  have g : (A ++ x :: Kind.oper (.post q) key :: B)[A.length + 1]? = some (.oper (.post q) key) := by
    rw [List.getElem?_append_right (by omega)]; simp
  have g1 : (A ++ x :: Kind.oper (.post q) key :: B)[A.length]? = some x := by simp
  unfold resolveEx
  rw [h.kindAt g]
  simp only [Nat.add_sub_cancel]
  rw [if_neg (by omega)]
  obtain ⟨e1, he1, h1⟩ : ∃ e1, bringUp A.length e = e1 ∧
      Ok (A ++ .resolved :: .oper (.post q) key :: B) (w ++ cost x) e1 := by
    unfold bringUp
    rcases hx with ⟨o, rfl, bx⟩ | rfl
    · rw [h.pos_none g1 rfl]
      exact ⟨_, rfl, by simpa [cost] using load_ok false h rfl fun _ => bx⟩
    · obtain ⟨p, ep, hp⟩ := h.pos_some g1
      rw [ep]
      exact ⟨_, rfl, by simpa [cost_res] using swap_ok h hp hn true⟩
  refine ⟨_, rfl, ?_⟩
  rw [he1]
  have hc : cnt (A ++ .resolved :: .oper (.post q) key :: B) = cnt (A ++ .resolved :: B) := by
    rw [cnt_append, cnt_append, cnt_cons_res, cnt_cons_res, cnt_cons_not _ rfl]
  refine push_ok ?_ ?_ (poss_eraseIdx _ h1.nodup) (fun d => ?_) ?_
  · rw [emit_ctx, kinds_eraseIdx, h1.kind, List.eraseIdx_append_of_length_le (by omega)]; simp
  · rw [emit_ctx, some_eraseIdx, h1.res, List.map_append, List.eraseIdx_append_of_length_le (by simp)]
    simp [Kind.isRes]
  · rw [emit_code, height_append, h1.ht d, hc]
    have : 1 ≤ cnt (A ++ .resolved :: B) := by rw [cnt_append, cnt_cons_res]; omega
    rw [Option.bind_some, post_height hk (by omega)]
  · rw [emit_code, work_append, work_append]
    refine (h1.wk.append_right _).trans ?_
    rw [List.append_assoc]
    exact List.Perm.refl _

/-- What an operator with two operands does, with what it evaluates on the right. -/
def right (b : Bin) (y : Kind) : List I := if b == .dot then [.name y.tok] else cost y

/-- A binary operator. -/
theorem resolve_bin {A B : List Kind} {x y : Kind} {w : List I} {e : Ex} (b : Bin) (key : List I)
    (h : Ok (A ++ x :: .oper (.bin b) key :: y :: B) w e) (hx : IsVal x) (hy : IsVal y)
    (hd : b = .dot → y.isRes = false ∧ ((∃ o n, x = .operand o ∧ o.code = [.var n]) ∨ x = .resolved))
    (hn : (A ++ x :: Kind.oper (.bin b) key :: y :: B).length ≤ 255) :
    ∃ e', resolveEx e (A.length + 1) = some (e', 2) ∧
      Ok (A ++ .resolved :: B) (w ++ (cost x ++ (.bin b false :: right b y))) e' := by
  have g : (A ++ x :: Kind.oper (.bin b) key :: y :: B)[A.length + 1]? = some (.oper (.bin b) key) := by
    rw [List.getElem?_append_right (by omega)]; simp
  have hl : A.length + 1 + 1 < e.ctx.length := by rw [h.length]; simp; omega
  unfold resolveEx
  rw [h.kindAt g]
  simp only [Nat.add_sub_cancel, grow_eq hl]
  rw [if_neg (by omega)]
  obtain ⟨x1, hx1, h1⟩ : ∃ x1, (if b.commute = true then (placeCommute A.length (A.length + 1 + 1) e, false)
      else placeBinary b A.length (A.length + 1 + 1) e) = x1 ∧
      Ok (A ++ .resolved :: .oper (.bin b) key :: .resolved :: B) (w ++ (cost x ++ right b y)) x1.1 := by
    refine ⟨_, rfl, ?_⟩
    by_cases c : b.commute = true
    · rw [if_pos c]
      have : (b == .dot) = false := by cases b <;> simp_all [Bin.commute]
      rw [right, this]
      exact placeCommute_ok h hx hy hn
    · rw [if_neg c]
      exact placeBinary_ok b h hx hy (fun g => (hd g).1) hn
  have hdot : ¬ (b = .dot ∧ dotOk x1.1.code = false) := by
    rintro ⟨rfl, f⟩
    rw [← hx1] at f
    rw [if_neg (by simp [Bin.commute])] at f
    have := placeDot_ok h (hd rfl).2 (hd rfl).1
    rw [this] at f
    cases f
  rw [show ({ ctx := e.ctx, code := e.code } : Ex) = e from rfl, hx1, if_neg hdot]
  refine ⟨_, rfl, ?_⟩
  have hc : cnt (A ++ .resolved :: .oper (.bin b) key :: .resolved :: B) = cnt (A ++ .resolved :: B) + 1 := by
    rw [cnt_append, cnt_append, cnt_cons_res, cnt_cons_res, cnt_cons_not _ rfl, cnt_cons_res]; omega
  refine push_ok ?_ ?_ (poss_eraseIdx _ (poss_eraseIdx _ h1.nodup)) (fun d => ?_) ?_
  · rw [emit_ctx, kinds_eraseIdx, kinds_eraseIdx, h1.kind, List.eraseIdx_append_of_length_le (Nat.le_refl _),
      List.eraseIdx_append_of_length_le (Nat.le_refl _)]
    simp
  · rw [emit_ctx, some_eraseIdx, some_eraseIdx, h1.res, List.map_append,
      List.eraseIdx_append_of_length_le (by simp), List.eraseIdx_append_of_length_le (by simp)]
    simp [Kind.isRes]
  · rw [emit_code, height_append, h1.ht d, hc]
    have : 1 ≤ cnt (A ++ .resolved :: B) := by rw [cnt_append, cnt_cons_res]; omega
    simp only [Option.bind_some, height, I.eff]
    rw [if_pos (by omega)]
    simp only [Option.bind_some]
    congr 1
  · rw [emit_code, work_append]
    refine (h1.wk.append_right _).trans ?_
    rw [List.append_assoc, List.append_assoc]
    refine List.Perm.append_left w (List.Perm.append_left _ ?_)
    exact List.perm_append_comm

end Wrench.Full
