import Verif.Expr.FullStep

/-!
The whole resolution: if the kinds of the contexts are in an order an expression may have, it succeeds, the code
leaves one value, and does everything once.
-/
namespace Wrench.Full

/-- Where one is in an expression: at its start or after a binary operator; after a prefix operator; after a value
(which may or may not stand before a `.`); after a `.`. -/
inductive St where
  | s0 | s1 | s2 (v : Bool) | s3
deriving DecidableEq, Repr

def isVarCode : List I → Bool
  | [.var _] => true
  | _ => false

def next : St → Kind → Option St
  | .s0, .oper (.pre _) _ => some .s1
  | .s0, .operand o => some (.s2 (isVarCode o.code))
  | .s0, .resolved => some (.s2 true)
  | .s1, .operand o => some (.s2 (isVarCode o.code))
  | .s1, .resolved => some (.s2 true)
  | .s2 v, .oper (.bin b) _ => if b = .dot then (if v then some .s3 else none) else some .s0
  | .s2 _, .oper (.post _) _ => some (.s2 true)
  | .s3, .operand _ => some (.s2 true)
  | _, _ => none

def go : St → List Kind → Option St
  | s, [] => some s
  | s, k :: ks => (next s k).bind fun s' => go s' ks

def Acc (s : St) (ks : List Kind) : Prop := ∃ v, go s ks = some (.s2 v)

theorem go_append (s : St) (a b : List Kind) : go s (a ++ b) = (go s a).bind fun t => go t b := by
  induction a generalizing s with
  | nil => rfl
  | cons k a ih =>
    show (next s k).bind (fun s' => go s' (a ++ b)) = ((next s k).bind fun s' => go s' a).bind fun t => go t b
    cases next s k with
    | none => rfl
    | some s' => exact ih s'

theorem acc_append {s : St} {a b : List Kind} : Acc s (a ++ b) ↔ ∃ t, go s a = some t ∧ Acc t b := by
  unfold Acc
  rw [go_append]
  cases go s a with
  | none => simp
  | some t => simp

theorem acc_cons {s : St} {k : Kind} {b : List Kind} : Acc s (k :: b) ↔ ∃ t, next s k = some t ∧ Acc t b := by
  unfold Acc
  show (∃ v, (next s k).bind (fun s' => go s' b) = _) ↔ _
  cases next s k with
  | none => simp
  | some t => simp

theorem acc_nil {s : St} : Acc s [] ↔ ∃ v, s = .s2 v := by
  simp [Acc, go]

/-- A value that may stand before a `.` may stand wherever another may. -/
theorem acc_mono {v : Bool} {ks : List Kind} (h : Acc (.s2 v) ks) : Acc (.s2 true) ks := by
  cases v with
  | true => exact h
  | false =>
    cases ks with
    | nil => exact acc_nil.mpr ⟨true, rfl⟩
    | cons k ks =>
      obtain ⟨t, ht, ha⟩ := acc_cons.mp h
      refine acc_cons.mpr ⟨t, ?_, ha⟩
      cases k with
      | empty => simp [next] at ht
      | operand o => simp [next] at ht
      | resolved => simp [next] at ht
      | oper r key =>
        cases r with
        | pre u => simp [next] at ht
        | post q => simpa [next] using ht
        | bin b =>
          by_cases g : b = .dot
          · simp [next, g] at ht
          · simpa [next, g] using ht

def Kind.isDot : Kind → Bool
  | .oper (.bin .dot) _ => true
  | _ => false

theorem next_s3 {s t : St} {k : Kind} (h : next s k = some t) : k.isDot = (t == .s3) := by
  cases s <;> cases k with
  | empty => simp [next] at h
  | operand o => simp [next] at h <;> subst h <;> simp [Kind.isDot]
  | resolved => simp [next] at h <;> subst h <;> simp [Kind.isDot]
  | oper r key =>
    cases r with
    | pre u => simp [next] at h <;> subst h <;> simp [Kind.isDot]
    | post q => simp [next] at h <;> subst h <;> simp [Kind.isDot]
    | bin b =>
      by_cases g : b = .dot
      · subst g
        simp [next] at h
        try
          obtain ⟨_, h⟩ := h
          subst h
          simp [Kind.isDot]
      · simp [next, g] at h
        try
          subst h
          cases b <;> simp_all [Kind.isDot]

/-- What remains to be done; the name after a `.` is not evaluated. -/
def todo (d : Bool) : Kind → List I
  | .operand o => if d then [.name o.tok] else work o.code
  | .oper (.pre u) _ => [.un u]
  | .oper (.bin b) _ => [.bin b false]
  | .oper (.post q) key => work key ++ [.post q]
  | _ => []

def pend : Bool → List Kind → List I
  | _, [] => []
  | d, k :: ks => todo d k ++ pend k.isDot ks

def endDot : Bool → List Kind → Bool
  | d, [] => d
  | _, k :: ks => endDot k.isDot ks

theorem pend_append (d : Bool) (a b : List Kind) : pend d (a ++ b) = pend d a ++ pend (endDot d a) b := by
  induction a generalizing d with
  | nil => rfl
  | cons k a ih =>
    show todo d k ++ pend k.isDot (a ++ b) = (todo d k ++ pend k.isDot a) ++ pend (endDot k.isDot a) b
    rw [ih, List.append_assoc]

theorem endDot_go {s t : St} {ks : List Kind} (h : go s ks = some t) : endDot (s == .s3) ks = (t == .s3) := by
  induction ks generalizing s with
  | nil =>
    have : s = t := by simpa [go] using h
    rw [this]; rfl
  | cons k ks ih =>
    unfold go at h
    cases hn : next s k with
    | none => simp [hn] at h
    | some u =>
      rw [hn] at h
      show endDot k.isDot ks = _
      rw [next_s3 hn]
      exact ih h

/-- After a `.`, there was a `.`. -/
theorem dot_mem {ks : List Kind} {s : St} (hs : s ≠ .s3) (h : go s ks = some .s3) :
    ∃ key, Kind.oper (.bin .dot) key ∈ ks := by
  induction ks generalizing s with
  | nil =>
    have : s = .s3 := by simpa [go] using h
    exact absurd this hs
  | cons k ks ih =>
    unfold go at h
    cases hn : next s k with
    | none => simp [hn] at h
    | some u =>
      rw [hn] at h
      by_cases g : u = .s3
      · have := next_s3 hn
        rw [g] at this
        have hd : k.isDot = true := by simpa using this
        clear this
        unfold Kind.isDot at hd
        split at hd
        · rename_i key
          exact ⟨key, List.mem_cons_self⟩
        · cases hd
      · obtain ⟨key, hm⟩ := ih g h
        exact ⟨key, List.mem_cons_of_mem _ hm⟩

/-- The code in the contexts fits its place. -/
def Fit : Kind → Prop
  | .operand o => Bal o.code
  | .oper (.post q) key => KeyOk q key
  | _ => True

/-- The invariant of the resolution at level `p`. -/
structure J (p : Nat) (T : List I) (ks : List Kind) (w : List I) : Prop where
  acc : Acc .s0 ks
  fit : ∀ k ∈ ks, Fit k
  len : ks.length ≤ 255
  eff : (w ++ pend false ks).Perm T
  lev : ∀ r key, Kind.oper r key ∈ ks → p ≤ r.prec

def takesK (p : Nat) (l2r : Bool) : Kind → Bool
  | .oper r _ => r.prec ≤ p && r.l2r == l2r
  | _ => false

theorem not_taken {p : Nat} {l2r : Bool} {r : Row} {key : List I} (h : takesK p l2r (.oper r key) = false)
    (hp : r.prec ≤ p) (hl : r.l2r = l2r) : False := by
  simp [takesK, hp, hl] at h

theorem takes_eq (p : Nat) (l2r : Bool) (c : Ctx) : takes p l2r c = takesK p l2r c.kind := by
  unfold takes takesK
  rfl

theorem findLast_some {t : Ctx → Bool} {cs : List Ctx} {i : Nat} (h : findLast? t cs = some i) :
    ∃ c, cs[i]? = some c ∧ t c = true := by
  unfold findLast? at h
  cases hf : cs.reverse.findIdx? t with
  | none => simp [hf] at h
  | some j =>
    rw [hf] at h
    simp only [Option.some.injEq] at h
    obtain ⟨hj, ht, _⟩ := List.findIdx?_eq_some_iff_getElem.mp hf
    have hj' : j < cs.length := by simpa using hj
    refine ⟨cs.reverse[j], ?_, ht⟩
    rw [← h, List.getElem_reverse, List.getElem?_eq_getElem (by omega)]

theorem pick_some {p : Nat} {l2r : Bool} {cs : List Ctx} {o : Nat} (h : pick p l2r cs = some o) :
    ∃ A r key B, kinds cs = A ++ Kind.oper r key :: B ∧ A.length = o ∧ r.prec ≤ p ∧ r.l2r = l2r ∧
      (l2r = true → ∀ k ∈ A, takesK p true k = false) := by
  have hx : ∃ c, cs[o]? = some c ∧ takes p l2r c = true ∧
      (l2r = true → ∀ j, j < o → ∀ d, cs[j]? = some d → takes p true d = false) := by
    unfold pick at h
    cases l2r with
    | false =>
      obtain ⟨c, h1, h2⟩ := findLast_some h
      exact ⟨c, h1, h2, by simp⟩
    | true =>
      rw [if_pos rfl] at h
      obtain ⟨hj, ht, hb⟩ := List.findIdx?_eq_some_iff_getElem.mp h
      refine ⟨cs[o], List.getElem?_eq_getElem hj, ht, fun _ j hj' d hd => ?_⟩
      have := hb j hj'
      rw [List.getElem?_eq_getElem (by omega)] at hd
      injection hd with hd
      rw [← hd]
      simpa using this
  obtain ⟨c, hc, ht, hl⟩ := hx
  rw [takes_eq] at ht
  cases hk : c.kind with
  | empty => simp [hk, takesK] at ht
  | operand o => simp [hk, takesK] at ht
  | resolved => simp [hk, takesK] at ht
  | oper r key =>
    rw [hk] at ht
    simp only [takesK, Bool.and_eq_true, decide_eq_true_eq, beq_iff_eq] at ht
    obtain ⟨ho, hc'⟩ := List.getElem?_eq_some_iff.mp hc
    refine ⟨kinds (cs.take o), r, key, kinds (cs.drop (o + 1)), ?_, ?_, ht.1, ht.2, ?_⟩
    · have : cs = cs.take o ++ c :: cs.drop (o + 1) := by
        rw [← hc', List.getElem_cons_drop, List.take_append_drop]
      conv => lhs; rw [this]
      simp [kinds, hk]
    · simp [kinds]; omega
    · intro g k hm
      simp only [kinds, List.mem_map] at hm
      obtain ⟨d, hd, rfl⟩ := hm
      obtain ⟨j, hj⟩ := List.mem_iff_getElem?.mp hd
      rw [← takes_eq]
      rw [List.getElem?_take] at hj
      by_cases jo : j < o
      · rw [if_pos jo] at hj
        exact hl g j jo d hj
      · rw [if_neg jo] at hj; cases hj

theorem pick_none {p : Nat} {l2r : Bool} {cs : List Ctx} (h : pick p l2r cs = none) :
    ∀ k ∈ kinds cs, takesK p l2r k = false := by
  intro k hk
  simp only [kinds, List.mem_map] at hk
  obtain ⟨c, hc, rfl⟩ := hk
  rw [← takes_eq]
  unfold pick at h
  cases l2r with
  | true =>
    rw [if_pos rfl] at h
    have := List.findIdx?_eq_none_iff.mp h c hc
    simpa using this
  | false =>
    rw [if_neg (by simp)] at h
    unfold findLast? at h
    cases hf : cs.reverse.findIdx? (takes p false) with
    | some j => simp [hf] at h
    | none =>
      have := List.findIdx?_eq_none_iff.mp hf c (by simpa using hc)
      simpa using this

/-- The step from `ks` to `ks'` that takes `A`, a value, an operator … to `A`, the result. -/
structure Stepped (p : Nat) (T : List I) (ks : List Kind) (n : Nat) (ks' : List Kind) (w' : List I) : Prop where
  j : J p T ks' w'
  len : ks'.length + n = ks.length
  pos : 1 ≤ n
  res : Kind.resolved ∈ ks'
  sub : ∀ r key, Kind.oper r key ∈ ks' → Kind.oper r key ∈ ks

/-- From a context before which the automaton is in state `t`, a value leads on. -/
theorem val_of_next {t : St} {x : Kind} {v : Bool} (h : next t x = some (.s2 v)) (hp : ∀ q key, x ≠ .oper (.post q) key)
    (hf : Fit x) : IsVal x ∧ (t = .s0 ∨ t = .s1 ∨ t = .s3) := by
  cases x with
  | empty => cases t <;> simp [next] at h
  | operand o =>
    refine ⟨.inl ⟨o, rfl, hf⟩, ?_⟩
    cases t <;> simp [next] at h <;> simp
  | resolved =>
    refine ⟨.inr rfl, ?_⟩
    cases t <;> simp [next] at h <;> simp
  | oper r key =>
    cases r with
    | pre u => cases t <;> simp [next] at h
    | post q => exact absurd rfl (hp q key)
    | bin b =>
      cases t with
      | s2 v' =>
        by_cases g : b = .dot
        · subst g; simp [next] at h
        · simp [next, g] at h
      | _ => simp [next] at h

theorem next_res {t : St} (h : t = .s0 ∨ t = .s1) : next t .resolved = some (.s2 true) := by
  rcases h with rfl | rfl <;> rfl

theorem eq_append_last {A : List Kind} {v : Bool} (h : go .s0 A = some (.s2 v)) :
    ∃ A' x t, A = A' ++ [x] ∧ go .s0 A' = some t ∧ next t x = some (.s2 v) := by
  rcases List.eq_nil_or_concat A with rfl | ⟨A', x, rfl⟩
  · simp [go] at h
  · rw [List.concat_eq_append] at h ⊢
    rw [go_append] at h
    cases hg : go .s0 A' with
    | none => simp [hg] at h
    | some t =>
      rw [hg] at h
      refine ⟨A', x, t, rfl, hg, ?_⟩
      simp only [Option.bind_some, go] at h
      cases hn : next t x with
      | none => simp [hn] at h
      | some u => simpa [hn] using h

theorem todo_val {x : Kind} (h : IsVal x) : todo false x = cost x := by
  rcases h with ⟨o, rfl, _⟩ | rfl <;> rfl

theorem val_not_dot {x : Kind} (h : IsVal x) : x.isDot = false := by
  rcases h with ⟨o, rfl, _⟩ | rfl <;> rfl

/-- The left operand of an operator that is taken. -/
theorem left_operand {p : Nat} {T : List I} {A B : List Kind} {op : Kind} {v : Bool} {wk : List I}
    (hj : J p T (A ++ op :: B) wk) (hs : go .s0 A = some (.s2 v))
    (hpost : ∀ q key, Kind.oper (.post q) key ∉ A) (hdot : ∀ key, Kind.oper (.bin .dot) key ∉ A) :
    ∃ A' x t, A = A' ++ [x] ∧ go .s0 A' = some t ∧ IsVal x ∧ (t = .s0 ∨ t = .s1) ∧ next t x = some (.s2 v) ∧
      endDot false A' = false := by
  obtain ⟨A', x, t, rfl, hg, hn⟩ := eq_append_last hs
  have hx := hj.fit x (by simp)
  obtain ⟨hv, ht⟩ := val_of_next hn (fun q key e => hpost q key (by simp [e])) hx
  have h3 : t ≠ .s3 := by
    rintro rfl
    obtain ⟨key, hm⟩ := dot_mem (by simp) hg
    exact hdot key (by simp [hm])
  refine ⟨A', x, t, rfl, hg, hv, by rcases ht with h | h | h <;> simp_all, hn, ?_⟩
  have := endDot_go hg
  rw [show ((St.s0 == St.s3) = false) from rfl] at this
  rw [this]
  simpa using h3

theorem step_ok {p : Nat} {l2r : Bool} {T : List I} {ks : List Kind} {w : List I} {e : Ex} {o : Nat}
    (h : Ok ks w e) (hj : J p T ks w) (hp : pick p l2r e.ctx = some o) :
    ∃ e' n ks' w', resolveEx e o = some (e', n) ∧ Ok ks' w' e' ∧ Stepped p T ks n ks' w' := by
  obtain ⟨A, r, key, B, hk, ho, hpr, hl, hlm⟩ := pick_some hp
  rw [h.kind] at hk
  subst hk
  subst ho
  obtain ⟨s, hs, ha⟩ := acc_append.mp hj.acc
  obtain ⟨s', hs', hb⟩ := acc_cons.mp ha
  cases r with
  | pre u =>
    have e0 : s = .s0 := by cases s <;> simp [next] at hs' <;> rfl
    subst e0
    have e1 : s' = .s1 := by simpa [next] using hs'.symm
    subst e1
    cases B with
    | nil => obtain ⟨v, hv⟩ := acc_nil.mp hb; cases hv
    | cons x B =>
      obtain ⟨s2, h2, hb2⟩ := acc_cons.mp hb
      have hxf := hj.fit x (by simp)
      have hv : IsVal x ∧ ∃ v, s2 = .s2 v := by
        cases x with
        | empty => simp [next] at h2
        | oper r' key' => cases r' <;> simp [next] at h2
        | operand o => exact ⟨.inl ⟨o, rfl, hxf⟩, _, (by simpa [next] using h2.symm)⟩
        | resolved => exact ⟨.inr rfl, _, (by simpa [next] using h2.symm)⟩
      obtain ⟨hx, v, rfl⟩ := hv
      obtain ⟨e', he, hok⟩ := resolve_pre u key h hx hj.len
      refine ⟨e', 1, _, _, he, hok, ⟨?_, ?_, ?_, ?_, ?_⟩, by simp; omega, Nat.le_refl 1, by simp, ?_⟩
      · exact acc_append.mpr ⟨.s0, hs, acc_cons.mpr ⟨.s2 true, rfl, acc_mono hb2⟩⟩
      · intro k hm
        simp only [List.mem_append, List.mem_cons] at hm
        rcases hm with hm | rfl | hm
        · exact hj.fit k (by simp [hm])
        · trivial
        · exact hj.fit k (by simp [hm])
      · have := hj.len; simp at this ⊢; omega
      · refine List.Perm.trans ?_ hj.eff
        rw [pend_append, pend_append]
        show ((w ++ (I.un u :: cost x)) ++ (pend false A ++ ([] ++ pend false B))).Perm
          (w ++ (pend false A ++ ([I.un u] ++ (todo false x ++ pend x.isDot B))))
        rw [todo_val hx, val_not_dot hx, List.append_assoc]
        refine List.Perm.append_left w ?_
        simp only [List.nil_append, ← List.append_assoc]
        refine List.Perm.append_right _ ?_
        rw [List.append_assoc]
        exact List.perm_append_comm
      · intro r' key' hm
        simp only [List.mem_append, List.mem_cons] at hm
        refine hj.lev r' key' ?_
        rcases hm with hm | hm | hm
        · simp [hm]
        · cases hm
        · simp [hm]
      · intro r' key' hm
        simp only [List.mem_append, List.mem_cons] at hm
        rcases hm with hm | hm | hm
        · simp [hm]
        · cases hm
        · simp [hm]
  | post q =>
    have hl' : l2r = true := hl.symm
    subst hl'
    have hp2 : 2 ≤ p := hpr
    have e0 : ∃ v, s = .s2 v := by cases s <;> simp [next] at hs' <;> simp
    obtain ⟨v, rfl⟩ := e0
    have e1 : s' = .s2 true := by simpa [next] using hs'.symm
    subst e1
    obtain ⟨A', x, t, rfl, hg, hx, ht, hn, hed⟩ := left_operand hj hs
      (fun q' key' hm => not_taken (hlm rfl _ hm) hp2 rfl) (fun key' hm => not_taken (hlm rfl _ hm) hp2 rfl)
    rw [List.append_assoc] at h hj
    obtain ⟨e', he, hok⟩ := resolve_post q key h hx (hj.fit (.oper (.post q) key) (by simp)) hj.len
    refine ⟨e', 1, _, _, by simpa using he, hok, ⟨?_, ?_, ?_, ?_, ?_⟩, by simp; omega, Nat.le_refl 1, by simp, ?_⟩
    · exact acc_append.mpr ⟨t, hg, acc_cons.mpr ⟨.s2 true, next_res ht, hb⟩⟩
    · intro k hm
      simp only [List.mem_append, List.mem_cons] at hm
      rcases hm with hm | rfl | hm
      · exact hj.fit k (by simp [hm])
      · trivial
      · exact hj.fit k (by simp [hm])
    · have := hj.len; simp at this ⊢; omega
    · refine List.Perm.trans ?_ hj.eff
      rw [pend_append, pend_append, hed]
      show ((w ++ (cost x ++ (work key ++ [I.post q]))) ++ (pend false A' ++ ([] ++ pend false B))).Perm
        (w ++ (pend false A' ++ (todo false x ++ ((work key ++ [I.post q]) ++ pend false B))))
      rw [todo_val hx, List.append_assoc]
      refine List.Perm.append_left w ?_
      simp only [List.nil_append, ← List.append_assoc]
      refine List.Perm.append_right _ ?_
      simp only [List.append_assoc]
      rw [← List.append_assoc, ← List.append_assoc]
      refine List.perm_append_comm.trans ?_
      simp only [List.append_assoc]
      exact List.Perm.refl _
    · intro r' key' hm
      simp only [List.mem_append, List.mem_cons] at hm
      refine hj.lev r' key' ?_
      rcases hm with hm | hm | hm
      · simp [hm]
      · cases hm
      · simp [hm]
    · intro r' key' hm
      simp only [List.mem_append, List.mem_cons] at hm
      rcases hm with hm | hm | hm
      · simp [hm]
      · cases hm
      · simp [hm]
  | bin b =>
    have e0 : ∃ v, s = .s2 v := by cases s <;> simp [next] at hs' <;> simp
    obtain ⟨v, rfl⟩ := e0
    -- everything that stands in the way is gone
    have hA : (∀ q key, Kind.oper (.post q) key ∉ A) ∧ (∀ key, Kind.oper (.bin .dot) key ∉ A) := by
      by_cases g : b = .dot
      · subst g
        have hl' : l2r = true := hl.symm
        subst hl'
        have hp2 : 2 ≤ p := hpr
        refine ⟨fun q key' hm => ?_, fun key' hm => ?_⟩
        · exact not_taken (hlm rfl _ hm) hp2 rfl
        · exact not_taken (hlm rfl _ hm) hp2 rfl
      · have h5 : 5 ≤ b.prec := by revert g; cases b <;> simp [Bin.prec]
        have hp5 : 5 ≤ p := Nat.le_trans h5 hpr
        refine ⟨fun q key' hm => ?_, fun key' hm => ?_⟩
        · have := hj.lev _ _ (List.mem_append_left _ hm); simp [Row.prec] at this; omega
        · have := hj.lev _ _ (List.mem_append_left _ hm); simp [Row.prec, Bin.prec] at this; omega
    obtain ⟨A', x, t, rfl, hg, hx, ht, hn, hed⟩ := left_operand hj hs hA.1 hA.2
    rw [List.append_assoc] at h hj
    -- the right operand
    obtain ⟨y, B', rfl, hy, hb2, hd⟩ : ∃ y B', B = y :: B' ∧ IsVal y ∧ Acc (.s2 true) B' ∧
        (b = .dot → y.isRes = false ∧ ((∃ o n, x = .operand o ∧ o.code = [.var n]) ∨ x = .resolved)) := by
      cases B with
      | nil =>
        obtain ⟨v', hv'⟩ := acc_nil.mp hb
        subst hv'
        by_cases g : b = .dot
        · cases v <;> simp [next, g] at hs'
        · simp [next, g] at hs'
      | cons y B' =>
        obtain ⟨s2, h2, hb2⟩ := acc_cons.mp hb
        have hyf := hj.fit y (by simp)
        by_cases g : b = .dot
        · have hv : v = true := by
            cases v with
            | true => rfl
            | false => simp [next, g] at hs'
          subst hv
          have : s' = .s3 := by simpa [next, g] using hs'.symm
          subst this
          cases y with
          | empty => simp [next] at h2
          | oper r' key' => simp [next] at h2
          | resolved => simp [next] at h2
          | operand o =>
            have : s2 = .s2 true := by simpa [next] using h2.symm
            subst this
            refine ⟨_, _, rfl, .inl ⟨o, rfl, hyf⟩, hb2, fun _ => ⟨rfl, ?_⟩⟩
            rcases hx with ⟨ox, rfl, bx⟩ | rfl
            · left
              have : isVarCode ox.code = true := by
                rcases ht with rfl | rfl <;> simpa [next] using hn
              refine ⟨ox, ?_⟩
              unfold isVarCode at this
              split at this
              · rename_i n hc
                exact ⟨n, rfl, hc⟩
              · cases this
            · exact .inr rfl
        · have : s' = .s0 := by simpa [next, g] using hs'.symm
          subst this
          have h5 : 5 ≤ b.prec := by revert g; cases b <;> simp [Bin.prec]
          have hp5 : 5 ≤ p := Nat.le_trans h5 hpr
          cases y with
          | empty => simp [next] at h2
          | oper r' key' =>
            cases r' with
            | pre u =>
              have := hj.lev (.pre u) key' (by simp)
              simp [Row.prec] at this; omega
            | bin b' => simp [next] at h2
            | post q => simp [next] at h2
          | resolved =>
            have : s2 = .s2 true := by simpa [next] using h2.symm
            subst this
            exact ⟨_, _, rfl, .inr rfl, hb2, fun e => absurd e g⟩
          | operand o =>
            have : s2 = .s2 (isVarCode o.code) := by simpa [next] using h2.symm
            subst this
            exact ⟨_, _, rfl, .inl ⟨o, rfl, hyf⟩, acc_mono hb2, fun e => absurd e g⟩
    obtain ⟨e', he, hok⟩ := resolve_bin b key h hx hy hd hj.len
    refine ⟨e', 2, _, _, by simpa using he, hok, ⟨?_, ?_, ?_, ?_, ?_⟩, by simp; omega, by omega, by simp, ?_⟩
    · exact acc_append.mpr ⟨t, hg, acc_cons.mpr ⟨.s2 true, next_res ht, hb2⟩⟩
    · intro k hm
      simp only [List.mem_append, List.mem_cons] at hm
      rcases hm with hm | rfl | hm
      · exact hj.fit k (by simp [hm])
      · trivial
      · exact hj.fit k (by simp [hm])
    · have := hj.len; simp at this ⊢; omega
    · refine List.Perm.trans ?_ hj.eff
      rw [pend_append, pend_append, hed]
      have hr : todo (Kind.oper (.bin b) key).isDot y = right b y := by
        by_cases g : b = .dot
        · subst g
          have := (hd rfl).1
          rcases hy with ⟨o, rfl, _⟩ | rfl
          · rfl
          · simp [Kind.isRes] at this
        · have h1 : (Kind.oper (.bin b) key).isDot = false := by revert g; cases b <;> simp [Kind.isDot]
          have h2 : (b == .dot) = false := by simpa using g
          rw [h1, todo_val hy, right, h2]
          rfl
      show ((w ++ (cost x ++ (I.bin b false :: right b y))) ++ (pend false A' ++ ([] ++ pend false B'))).Perm
        (w ++ (pend false A' ++ (todo false x ++ ([I.bin b false] ++
          (todo (Kind.oper (.bin b) key).isDot y ++ pend y.isDot B')))))
      rw [hr, todo_val hx, val_not_dot hy, List.append_assoc]
      refine List.Perm.append_left w ?_
      rw [show cost x ++ (I.bin b false :: right b y) = cost x ++ ([I.bin b false] ++ right b y) from rfl]
      simp only [List.nil_append, ← List.append_assoc]
      refine List.Perm.append_right _ ?_
      simp only [List.append_assoc]
      rw [← List.append_assoc, ← List.append_assoc]
      refine List.perm_append_comm.trans ?_
      simp only [List.append_assoc]
      exact List.Perm.refl _
    · intro r' key' hm
      simp only [List.mem_append, List.mem_cons] at hm
      refine hj.lev r' key' ?_
      rcases hm with hm | hm | hm
      · simp [hm]
      · cases hm
      · simp [hm]
    · intro r' key' hm
      simp only [List.mem_append, List.mem_cons] at hm
      rcases hm with hm | hm | hm
      · simp [hm]
      · cases hm
      · simp [hm]

/-- What a number of steps does. -/
structure Ran (p : Nat) (T : List I) (ks : List Kind) (n : Nat) (ks' : List Kind) (w' : List I) (n' : Nat) : Prop where
  j : J p T ks' w'
  len : ks'.length + n' = ks.length + n
  res : (n' = n ∧ ks' = ks) ∨ Kind.resolved ∈ ks'
  sub : ∀ r key, Kind.oper r key ∈ ks' → Kind.oper r key ∈ ks

theorem pass_ok {p : Nat} {l2r : Bool} {T : List I} : ∀ (f : Nat) {ks : List Kind} {w : List I} {e : Ex} (n : Nat),
    ks.length ≤ f → Ok ks w e → J p T ks w →
    ∃ e' n' ks' w', pass p l2r f (e, n) = some (e', n') ∧ Ok ks' w' e' ∧ Ran p T ks n ks' w' n' ∧
      ∀ k ∈ ks', takesK p l2r k = false := by
  intro f
  induction f with
  | zero =>
    intro ks w e n hf h hj
    have : ks = [] := List.length_eq_zero_iff.mp (by omega)
    subst this
    obtain ⟨v, hv⟩ := acc_nil.mp hj.acc
    cases hv
  | succ f ih =>
    intro ks w e n hf h hj
    unfold pass
    cases hp : pick p l2r e.ctx with
    | none =>
      refine ⟨e, n, ks, w, rfl, h, ⟨hj, rfl, .inl ⟨rfl, rfl⟩, fun _ _ hm => hm⟩, ?_⟩
      rw [← h.kind]
      exact pick_none hp
    | some o =>
      obtain ⟨e1, m, ks1, w1, he, h1, st⟩ := step_ok h hj hp
      have l := st.len
      have l1 := st.pos
      obtain ⟨e2, n2, ks2, w2, hr, h2, rn, nt⟩ := ih (n + m) (by omega) h1 st.j
      simp only [he]
      refine ⟨e2, n2, ks2, w2, hr, h2, ⟨rn.j, ?_, ?_, fun r key hm => st.sub r key (rn.sub r key hm)⟩, nt⟩
      · have := rn.len; omega
      · right
        rcases rn.res with ⟨_, hq⟩ | hq
        · rw [hq]; exact st.res
        · exact hq

/-- At the end of a level nothing of it is left. -/
theorem lev_succ {p : Nat} {T : List I} {ks : List Kind} {w : List I} (hj : J p T ks w)
    (h1 : ∀ k ∈ ks, takesK p true k = false) (h2 : ∀ k ∈ ks, takesK p false k = false) : J (p + 1) T ks w := by
  refine { hj with lev := fun r key hm => ?_ }
  cases Nat.lt_or_ge p r.prec with
  | inl h => exact h
  | inr h =>
    cases hl : r.l2r with
    | true => exact absurd (not_taken (h1 _ hm) h hl) id
    | false => exact absurd (not_taken (h2 _ hm) h hl) id

theorem prec_lt (r : Row) : r.prec < 17 := by
  cases r with
  | pre u => simp [Row.prec]
  | post q => simp [Row.prec]
  | bin b => cases b <;> simp [Row.prec, Bin.prec]

/-- Without operators, there is one value. -/
theorem single {ks : List Kind} (h : Acc .s0 ks) (no : ∀ r key, Kind.oper r key ∉ ks) : ks.length = 1 := by
  cases ks with
  | nil => obtain ⟨v, hv⟩ := acc_nil.mp h; cases hv
  | cons k ks =>
    obtain ⟨t, ht, ha⟩ := acc_cons.mp h
    have : ∃ v, t = .s2 v := by
      cases k with
      | empty => simp [next] at ht
      | operand o => exact ⟨_, (by simpa [next] using ht.symm)⟩
      | resolved => exact ⟨_, (by simpa [next] using ht.symm)⟩
      | oper r key => exact absurd List.mem_cons_self (no r key)
    obtain ⟨v, rfl⟩ := this
    cases ks with
    | nil => rfl
    | cons k' ks =>
      obtain ⟨t', ht', _⟩ := acc_cons.mp ha
      cases k' with
      | empty => simp [next] at ht'
      | operand o => simp [next] at ht'
      | resolved => simp [next] at ht'
      | oper r key => exact absurd (List.mem_cons_of_mem _ List.mem_cons_self) (no r key)

theorem levels_ok {T : List I} : ∀ (m p : Nat) {ks : List Kind} {w : List I} {e : Ex} (n : Nat), p + m = 17 →
    Ok ks w e → J p T ks w →
    ∃ e' n' ks' w' p', levels (List.range' p m) (e, n) = some (e', n') ∧ Ok ks' w' e' ∧ J p' T ks' w' ∧
      ks'.length + n' = ks.length + n ∧ ((n' = n ∧ ks' = ks) ∨ Kind.resolved ∈ ks') ∧ ks'.length = 1 := by
  intro m
  induction m with
  | zero =>
    intro p ks w e n hp h hj
    refine ⟨e, n, ks, w, p, rfl, h, hj, rfl, .inl ⟨rfl, rfl⟩, single hj.acc fun r key hm => ?_⟩
    have := hj.lev r key hm
    have := prec_lt r
    omega
  | succ m ih =>
    intro p ks w e n hp h hj
    rw [List.range'_succ]
    unfold levels
    by_cases g : e.ctx.length > 1
    · rw [if_pos g]
      obtain ⟨e1, n1, ks1, w1, hr1, h1, rn1, nt1⟩ := pass_ok (l2r := true) e.ctx.length n (Nat.le_of_eq h.length.symm) h hj
      obtain ⟨e2, n2, ks2, w2, hr2, h2, rn2, nt2⟩ :=
        pass_ok (l2r := false) e1.ctx.length n1 (Nat.le_of_eq h1.length.symm) h1 rn1.j
      have j2 : J (p + 1) T ks2 w2 := by
        refine lev_succ rn2.j (fun k hm => ?_) nt2
        cases k with
        | oper r key => exact nt1 _ (rn2.sub r key hm)
        | _ => rfl
      obtain ⟨e3, n3, ks3, w3, p3, hr3, h3, j3, l3, rs3, one⟩ := ih (p + 1) n2 (by omega) h2 j2
      simp only [hr1, hr2]
      refine ⟨e3, n3, ks3, w3, p3, hr3, h3, j3, ?_, ?_, one⟩
      · have := rn1.len; have := rn2.len; omega
      · rcases rs3 with ⟨a, b⟩ | hq
        · subst a b
          rcases rn2.res with ⟨a, b⟩ | hq
          · subst a b
            exact rn1.res
          · exact .inr hq
        · exact .inr hq
    · rw [if_neg g]
      refine ⟨e, n, ks, w, p, rfl, h, hj, rfl, .inl ⟨rfl, rfl⟩, ?_⟩
      have := h.length
      have : ks.length ≠ 0 := by
        intro z
        have := List.length_eq_zero_iff.mp z
        subst this
        obtain ⟨v, hv⟩ := acc_nil.mp hj.acc
        cases hv
      omega

/-- Contexts as they come from the parser. -/
def Fresh (cs : List Ctx) : Prop := ∀ c ∈ cs, c.pos = none ∧ c.kind.isRes = false

theorem fresh_ok {cs : List Ctx} (h : Fresh cs) : Ok (kinds cs) [] ⟨cs, []⟩ := by
  have hp : poss cs = [] := by
    apply List.filterMap_eq_nil_iff.mpr
    intro c hc
    exact (h c hc).1
  have hc : cnt (kinds cs) = 0 := by
    rw [cnt, List.countP_eq_zero]
    intro k hk
    simp only [kinds, List.mem_map] at hk
    obtain ⟨c, hc, rfl⟩ := hk
    simp [(h c hc).2]
  refine ⟨rfl, ?_, ?_, fun d => ?_, List.Perm.refl _⟩
  · rw [kinds, List.map_map]
    refine List.map_congr_left fun c hc => ?_
    simp [(h c hc).1, (h c hc).2]
  · rw [hc]; show (poss cs).Perm []; rw [hp]
  · rw [hc]; rfl

theorem resolve_ok {cs : List Ctx} (fr : Fresh cs) (acc : Acc .s0 (kinds cs)) (fit : ∀ k ∈ kinds cs, Fit k)
    (len : cs.length ≤ 255) :
    ∃ code, resolveExpression cs = some code ∧ Bal code ∧ (work code).Perm (pend false (kinds cs)) := by
  have h0 := fresh_ok fr
  have hlen : (kinds cs).length = cs.length := by simp [kinds]
  have j0 : J 0 (pend false (kinds cs)) (kinds cs) [] :=
    ⟨acc, fit, by omega, List.Perm.refl _, fun _ _ _ => Nat.zero_le _⟩
  by_cases one : cs.length = 1
  · obtain ⟨c, rfl⟩ := List.length_eq_one_iff.mp one
    obtain ⟨t, ht, ha⟩ := acc_cons.mp acc
    obtain ⟨v, rfl⟩ := acc_nil.mp ha
    obtain ⟨hp, hr⟩ := fr c (by simp)
    have ht : next .s0 c.kind = some (.s2 v) := ht
    have hk : ∃ o, c.kind = .operand o := by
      cases h : c.kind with
      | empty => simp [h, next] at ht
      | operand o => exact ⟨o, rfl⟩
      | resolved => simp [h, Kind.isRes] at hr
      | oper r key => rw [h] at ht; cases r <;> simp [next] at ht
    obtain ⟨o, ho⟩ := hk
    have bal : Bal c.kind.code := by
      have := fit c.kind (by simp [kinds])
      rw [ho] at this ⊢
      exact this
    have h1 := load_ok (A := []) (B := []) (k := c.kind) false h0 hr fun _ => bal
    refine ⟨_, rfl, h1.ht, h1.wk.trans ?_⟩
    show (work c.kind.code).Perm (todo false c.kind ++ [])
    rw [ho]
    simp [todo, Kind.code]
  · obtain ⟨e, n, ks, w, p, hr, hok, hj, hl, hres, hone⟩ := levels_ok 17 0 1 rfl h0 j0
    have hres' : Kind.resolved ∈ ks := by
      rcases hres with ⟨_, hk⟩ | hk
      · rw [hk, hlen] at hone; exact absurd hone one
      · exact hk
    obtain ⟨k, rfl⟩ := List.length_eq_one_iff.mp hone
    have hk : k = .resolved := (List.mem_singleton.mp hres').symm
    subst hk
    refine ⟨e.code, ?_, hok.ht, ?_⟩
    · unfold resolveExpression
      split
      · exact absurd rfl one
      · rw [List.range_eq_range', hr]
        simp only
        rw [if_neg]
        intro ⟨_, hne⟩
        simp only [List.length_cons, List.length_nil] at hl
        omega
    · refine hok.wk.trans ?_
      have := hj.eff
      simpa [pend, todo] using this

end Wrench.Full
