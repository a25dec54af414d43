/-
`SimpleLL` is a sequence: every operation does to the nodes in memory what its
name says to the sequence of items, frees exactly the nodes it takes out, and
touches no freed node.
-/
import Verif.Debug.Ll
import Mathlib.Tactic.Tauto

namespace Wrench.Ll

variable {α : Type}

/-- The address of the first node of `l`, or `e` if there is none. -/
def nx (l : List (Nat × α)) (e : Nat) : Nat :=
  match l with
  | [] => e
  | p :: _ => p.1

/-- The nodes of `l`, each pointing at the following one and the last at `e`. -/
def Chain (mem : Nat → Option (Node α)) (e : Nat) : List (Nat × α) → Prop
  | [] => True
  | (a, v) :: r => a ≠ 0 ∧ mem a = some { item := v, next := nx r e } ∧ Chain mem e r

/-- The list in memory is `l`: addresses with items, in order. -/
structure Rep (s : LL α) (l : List (Nat × α)) : Prop where
  chain : Chain s.mem 0 l
  head : s.head = nx l 0
  tail : s.tail = nx l.reverse 0
  nodup : (l.map Prod.fst).Nodup
  old : ∀ p ∈ l, p.1 < s.fresh
  pos : 0 < s.fresh
  live : s.live = l.length
  only : ∀ a, s.mem a ≠ none → a ∈ l.map Prod.fst
  cur : s.iter = 0 ∨ s.iter ∈ l.map Prod.fst

theorem chain_congr {mem mem' : Nat → Option (Node α)} {e : Nat} :
    ∀ {l : List (Nat × α)}, (∀ a ∈ l.map Prod.fst, mem' a = mem a) → Chain mem e l →
      Chain mem' e l
  | [], _, _ => trivial
  | (a, v) :: r, h, hc => by
    obtain ⟨h0, h1, h2⟩ := hc
    exact ⟨h0, by rw [h a (by simp), h1], chain_congr (fun b hb => h b (by simp_all)) h2⟩

theorem nx_append (xs ys : List (Nat × α)) (e : Nat) : nx (xs ++ ys) e = nx xs (nx ys e) := by
  cases xs <;> rfl

theorem chain_append {mem : Nat → Option (Node α)} {e : Nat} {ys : List (Nat × α)} :
    ∀ {xs : List (Nat × α)}, Chain mem e (xs ++ ys) ↔ Chain mem (nx ys e) xs ∧ Chain mem e ys
  | [] => by simp [Chain]
  | (a, v) :: r => by
    simp only [List.cons_append, Chain, nx_append, chain_append (xs := r)]
    constructor
    · rintro ⟨h0, h1, h2, h3⟩; exact ⟨⟨h0, h1, h2⟩, h3⟩
    · rintro ⟨⟨h0, h1, h2⟩, h3⟩; exact ⟨h0, h1, h2, h3⟩

theorem chain_ne {mem : Nat → Option (Node α)} {e : Nat} {l : List (Nat × α)}
    (h : Chain mem e l) : ∀ p ∈ l, p.1 ≠ 0 ∧ mem p.1 ≠ none := by
  induction l with
  | nil => simp
  | cons p r ih =>
    obtain ⟨h0, h1, h2⟩ := h
    intro q hq
    rcases List.mem_cons.1 hq with rfl | hq
    · exact ⟨h0, by simp [h1]⟩
    · exact ih h2 q hq

theorem rep_empty : Rep (empty α) [] :=
  { chain := trivial, head := rfl, tail := rfl, nodup := List.nodup_nil, old := by simp,
    pos := Nat.zero_lt_one, live := rfl, only := by simp [empty], cur := Or.inl rfl }

theorem Rep.nil_iff {s : LL α} {l : List (Nat × α)} (h : Rep s l) : s.head = 0 ↔ l = [] := by
  rw [h.head]
  cases l with
  | nil => simp [nx]
  | cons p r => simp [nx]; exact h.chain.1

theorem Rep.tail_iff {s : LL α} {l : List (Nat × α)} (h : Rep s l) : s.tail = 0 ↔ l = [] := by
  rw [h.tail]
  constructor
  · intro h0
    cases hr : l.reverse with
    | nil => simpa using hr
    | cons p r =>
      rw [hr] at h0
      exact absurd h0 (chain_ne h.chain p (by
        have : p ∈ l.reverse := by rw [hr]; simp
        simpa using this)).1
  · rintro rfl; rfl

theorem nx_reverse_snoc (l : List (Nat × α)) (p : Nat × α) (e : Nat) :
    nx (l ++ [p]).reverse e = p.1 := by simp [nx]

/-! ### `addHead` and `addTail` -/

theorem addHead_rep {s : LL α} {l : List (Nat × α)} (h : Rep s l) (v : α) :
    Rep (addHead s v).1 ((s.fresh, v) :: l) ∧ (addHead s v).2 = s.fresh := by
  have hfr : ∀ a ∈ l.map Prod.fst, a ≠ s.fresh := by
    intro a ha e
    obtain ⟨p, hp, rfl⟩ := List.mem_map.1 ha
    exact absurd (h.old p hp) (by omega)
  have hcongr : ∀ a ∈ l.map Prod.fst,
      (if a = s.fresh then some (Node.mk v s.head) else s.mem a) = s.mem a := by
    intro a ha; rw [if_neg (hfr a ha)]
  have hp := h.pos
  have hnd : (((s.fresh, v) :: l).map Prod.fst).Nodup := by
    simp only [List.map_cons, List.nodup_cons]
    exact ⟨fun hm => hfr _ hm rfl, h.nodup⟩
  have hcur : s.iter = 0 ∨ s.iter ∈ ((s.fresh, v) :: l).map Prod.fst := by
    rcases h.cur with h' | h'
    · exact Or.inl h'
    · exact Or.inr (by simp only [List.map_cons]; exact List.mem_cons_of_mem _ h')
  have hold : ∀ p ∈ (s.fresh, v) :: l, p.1 < s.fresh + 1 := by
    intro p hp'
    rcases List.mem_cons.1 hp' with rfl | hp'
    · exact Nat.lt_succ_self _
    · exact Nat.lt_succ_of_lt (h.old p hp')
  have honly : ∀ n : Node α, ∀ a, (if a = s.fresh then some n else s.mem a) ≠ none →
      a ∈ ((s.fresh, v) :: l).map Prod.fst := by
    intro n a ha
    by_cases he : a = s.fresh
    · simp [he]
    · rw [if_neg he] at ha
      simp only [List.map_cons]; exact List.mem_cons_of_mem _ (h.only a ha)
  by_cases h0 : s.head = 0
  · have hl := h.nil_iff.1 h0
    subst hl
    refine ⟨?_, by simp [addHead, h0, malloc]⟩
    simp only [addHead, h0, if_true, malloc]
    exact { chain := ⟨by omega, by simp [nx], trivial⟩, head := rfl, tail := rfl, nodup := hnd,
            old := hold, pos := by simp, live := by simp [h.live], only := honly _,
            cur := hcur }
  · refine ⟨?_, by simp [addHead, h0, malloc]⟩
    simp only [addHead, h0, if_false, malloc]
    exact { chain := ⟨by omega, by simp [h.head], chain_congr hcongr h.chain⟩, head := rfl,
            tail := by
              have hl : l ≠ [] := fun e => h0 (h.nil_iff.2 e)
              show s.tail = _
              rw [h.tail]
              rw [List.reverse_cons, nx_append]
              cases hr : l.reverse with
              | nil => exact absurd (by simpa using hr) hl
              | cons p r => rfl
            nodup := hnd, old := hold, pos := by simp, live := by simp [h.live],
            only := honly _, cur := hcur }

theorem addTail_rep {s : LL α} {l : List (Nat × α)} (h : Rep s l) (v : α) :
    ∃ s', addTail s v = some (s', s.fresh) ∧ Rep s' (l ++ [(s.fresh, v)]) := by
  by_cases h0 : s.tail = 0
  · have hl := h.tail_iff.1 h0
    subst hl
    obtain ⟨h1, h2⟩ := addHead_rep h v
    exact ⟨(addHead s v).1, by simp only [addTail, h0, if_true]; rw [← h2], h1⟩
  · have hl : l ≠ [] := fun e => h0 (h.tail_iff.2 e)
    obtain ⟨xs, ⟨t, tv⟩, rfl⟩ : ∃ xs p, l = xs ++ [p] :=
      ⟨l.dropLast, l.getLast hl, (List.dropLast_concat_getLast hl).symm⟩
    have ht : s.tail = t := by rw [h.tail, nx_reverse_snoc]
    have hfr : ∀ a ∈ (xs ++ [(t, tv)]).map Prod.fst, a ≠ s.fresh := by
      intro a ha e
      obtain ⟨p, hp, rfl⟩ := List.mem_map.1 ha
      exact absurd (h.old p hp) (by omega)
    obtain ⟨hcx, hct⟩ := chain_append.1 h.chain
    have hmt : s.mem t = some { item := tv, next := 0 } := hct.2.1
    have htf : t ≠ s.fresh := hfr t (by simp)
    have hnd := h.nodup
    simp only [List.map_append, List.map_cons, List.map_nil, List.nodup_append,
      List.mem_singleton] at hnd
    have htx : ∀ a ∈ xs.map Prod.fst, a ≠ t := fun a ha => hnd.2.2 a ha t rfl
    refine ⟨{ s with mem := fun b => if b = t then some { item := tv, next := s.fresh }
                        else if b = s.fresh then some { item := v, next := 0 } else s.mem b,
                     fresh := s.fresh + 1, live := s.live + 1, tail := s.fresh }, ?_, ?_⟩
    · simp only [addTail, h0, if_false, malloc, setNext]
      simp only [ht, htf, if_false, hmt]
    · have hp := h.pos
      have hx : ∀ a ∈ xs.map Prod.fst, a ≠ s.fresh := fun a ha => hfr a (by simp_all)
      refine { chain := ?_, head := ?_, tail := ?_, nodup := ?_, old := ?_, pos := by simp,
               live := ?_, only := ?_, cur := ?_ }
      · rw [List.append_assoc]
        refine chain_append.2 ⟨chain_congr (fun a ha => ?_) hcx, hct.1, ?_, by omega, ?_, trivial⟩
        · simp only [htx a ha, hx a ha, if_false]
        · simp [nx]
        · simp [htf.symm, nx]
      · show s.head = _
        rw [h.head]; cases xs <;> rfl
      · rw [nx_reverse_snoc]
      · rw [List.map_append, List.nodup_append]
        exact ⟨h.nodup, by simp, by
          intro a ha b hb
          simp only [List.map_cons, List.map_nil, List.mem_singleton] at hb
          subst hb; exact hfr a ha⟩
      · intro p hp'
        rcases List.mem_append.1 hp' with hp' | hp'
        · exact Nat.lt_succ_of_lt (h.old p hp')
        · simp only [List.mem_singleton] at hp'; subst hp'; exact Nat.lt_succ_self _
      · simp [h.live]
      · intro a ha
        by_cases h1 : a = t
        · simp [h1]
        · by_cases h2 : a = s.fresh
          · simp [h2]
          · have := h.only a (by simpa [h1, h2] using ha)
            simp_all
      · rcases h.cur with h' | h'
        · exact Or.inl h'
        · exact Or.inr (by simp_all)

/-! ### Removing -/

theorem popHead_nil {s : LL α} (h : Rep s []) : popHead s = some (s, none) := by
  have := h.nil_iff.2 rfl
  simp [popHead, this]

theorem popHead_rep {s : LL α} {a : Nat} {v : α} {r : List (Nat × α)}
    (h : Rep s ((a, v) :: r)) : ∃ s', popHead s = some (s', some v) ∧ Rep s' r := by
  have hh : s.head = a := h.head
  obtain ⟨h0, hm, hc⟩ := h.chain
  have hnd := h.nodup
  simp only [List.map_cons, List.nodup_cons] at hnd
  have hne : ∀ b ∈ r.map Prod.fst, b ≠ a := fun b hb e => hnd.1 (e ▸ hb)
  have hlive : s.live - 1 = r.length := by rw [h.live]; simp
  have hct : ∀ b, (if b = a then none else s.mem b) ≠ none → b ∈ r.map Prod.fst := by
    intro b hb
    by_cases he : b = a
    · simp [he] at hb
    · rw [if_neg he] at hb
      have := h.only b hb
      simp only [List.map_cons, List.mem_cons] at this
      exact this.resolve_left he
  have hchain : Chain (fun b => if b = a then none else s.mem b) 0 r :=
    chain_congr (fun b hb => by rw [if_neg (hne b hb)]) hc
  have hcur : (if s.iter = a then nx r 0 else s.iter) = 0 ∨
      (if s.iter = a then nx r 0 else s.iter) ∈ r.map Prod.fst := by
    by_cases hi : s.iter = a
    · rw [if_pos hi]
      cases r with
      | nil => exact Or.inl rfl
      | cons q _ => exact Or.inr (by simp [nx])
    · rw [if_neg hi]
      rcases h.cur with h' | h'
      · exact Or.inl h'
      · refine Or.inr ?_
        simp only [List.map_cons, List.mem_cons] at h'
        exact h'.resolve_left hi
  have hold : ∀ p ∈ r, p.1 < s.fresh := fun p hp => h.old p (List.mem_cons_of_mem _ hp)
  have htl : (s.tail = a ↔ r = []) := by
    rw [h.tail, List.reverse_cons, nx_append]
    constructor
    · intro e
      cases hr : r.reverse with
      | nil => simpa using hr
      | cons q r' =>
        rw [hr] at e
        have : q ∈ r := by
          have : q ∈ r.reverse := by rw [hr]; simp
          simpa using this
        exact absurd e (hne q.1 (List.mem_map.2 ⟨q, this, rfl⟩))
    · rintro rfl; rfl
  have hh0 : ¬ s.head = 0 := by rw [hh]; exact h0
  by_cases ht : s.tail = a
  · have hr := htl.1 ht
    subst hr
    refine ⟨{ s with mem := fun b => if b = a then none else s.mem b, live := s.live - 1,
                     iter := if s.iter = a then 0 else s.iter, head := 0, tail := 0 }, ?_, ?_⟩
    · simp only [popHead, hh, h0, if_false, hm]
      by_cases hi : s.iter = a <;> simp [hi, ht, free, hm, nx]
    · exact { chain := trivial, head := rfl, tail := rfl, nodup := List.nodup_nil,
              old := by simp, pos := h.pos, live := hlive, only := hct, cur := hcur }
  · refine ⟨{ s with mem := fun b => if b = a then none else s.mem b, live := s.live - 1,
                     iter := if s.iter = a then nx r 0 else s.iter, head := nx r 0 }, ?_, ?_⟩
    · simp only [popHead, hh, h0, if_false, hm]
      by_cases hi : s.iter = a <;> simp [hi, ht, free, hm]
    · exact { chain := hchain, head := rfl,
              tail := by
                show s.tail = _
                rw [h.tail, List.reverse_cons, nx_append]
                cases hr : r.reverse with
                | nil => exact absurd (htl.2 (by simpa using hr)) ht
                | cons q r' => rfl
              nodup := hnd.2, old := hold, pos := h.pos, live := hlive, only := hct, cur := hcur }

/-- Taking the node `a` out of the middle, its predecessor being `p`. -/
theorem unlink_rep {s : LL α} {xs ys : List (Nat × α)} {p a : Nat} {pv v : α}
    (h : Rep s (xs ++ (p, pv) :: (a, v) :: ys)) (hne : ys ≠ []) :
    s.mem a = some { item := v, next := nx ys 0 } ∧
    ∃ s', unlink s p a { item := v, next := nx ys 0 } = some (s', some v) ∧
      Rep s' (xs ++ (p, pv) :: ys) := by
  obtain ⟨hcx, hp0, hmp, ha0, hma, hcy⟩ := chain_append.1 h.chain
  have hnd := h.nodup
  simp only [List.map_append, List.map_cons, List.nodup_append, List.nodup_cons,
    List.mem_cons, not_or] at hnd
  obtain ⟨hndx, ⟨⟨hpa, hpy⟩, hay, hndy⟩, hxy⟩ := hnd
  have hxp : ∀ b ∈ xs.map Prod.fst, b ≠ p := fun b hb => hxy b hb p (Or.inl rfl)
  have hxa : ∀ b ∈ xs.map Prod.fst, b ≠ a := fun b hb => hxy b hb a (Or.inr (Or.inl rfl))
  have hyp : ∀ b ∈ ys.map Prod.fst, b ≠ p := fun b hb e => hpy (e ▸ hb)
  have hya : ∀ b ∈ ys.map Prod.fst, b ≠ a := fun b hb e => hay (e ▸ hb)
  refine ⟨hma, { s with
      mem := fun b => if b = a then none
        else if b = p then some { item := pv, next := nx ys 0 } else s.mem b,
      live := s.live - 1, iter := if s.iter = a then nx ys 0 else s.iter }, ?_, ?_⟩
  · simp only [unlink, setNext, hmp]
    by_cases hi : s.iter = a
    · simp [hi, free, hma, Ne.symm hpa]
    · simp [hi, free, hma, Ne.symm hpa]
  · refine { chain := ?_, head := ?_, tail := ?_, nodup := ?_, old := ?_, pos := h.pos,
             live := ?_, only := ?_, cur := ?_ }
    · refine chain_append.2 ⟨?_, hp0, ?_, ?_⟩
      · exact chain_congr (fun b hb => by simp [hxp b hb, hxa b hb]) hcx
      · simp [hpa]
      · exact chain_congr (fun b hb => by simp [hyp b hb, hya b hb]) hcy
    · show s.head = _
      rw [h.head]; cases xs <;> rfl
    · show s.tail = _
      rw [h.tail]
      simp only [List.reverse_append, List.reverse_cons, List.append_assoc, nx_append]
      cases hr : ys.reverse with
      | nil => exact absurd (by simpa using hr) hne
      | cons q r => rfl
    · simp only [List.map_append, List.map_cons, List.nodup_append, List.nodup_cons,
        List.mem_cons]
      exact ⟨hndx, ⟨hpy, hndy⟩, fun b hb c hc => hxy b hb c (by tauto)⟩
    · intro q hq
      refine h.old q ?_
      simp only [List.mem_append, List.mem_cons] at hq ⊢
      tauto
    · have := h.live
      simp only [List.length_append, List.length_cons] at this ⊢
      omega
    · intro b hb
      by_cases h1 : b = a
      · simp [h1] at hb
      · have : b ∈ (xs ++ (p, pv) :: (a, v) :: ys).map Prod.fst := by
          by_cases h2 : b = p
          · simp [h2]
          · exact h.only b (by simpa [h1, h2] using hb)
        simp only [List.map_append, List.map_cons, List.mem_append, List.mem_cons] at this ⊢
        tauto
    · show (if s.iter = a then nx ys 0 else s.iter) = 0 ∨ _ ∈ _
      by_cases hi : s.iter = a
      · rw [if_pos hi]
        cases ys with
        | nil => exact absurd rfl hne
        | cons q r => exact Or.inr (by simp [nx])
      · rw [if_neg hi]
        rcases h.cur with h' | h'
        · exact Or.inl h'
        · refine Or.inr ?_
          simp only [List.map_append, List.map_cons, List.mem_append, List.mem_cons] at h' ⊢
          tauto

theorem popTailLoop_rep {s : LL α} {t : Nat} {tv : α} :
    ∀ (ys : List (Nat × α)) (xs : List (Nat × α)) (p : Nat) (pv : α) (fuel : Nat),
      Rep s (xs ++ ys ++ [(p, pv), (t, tv)]) → s.iter ≠ t → ys.length < fuel →
      ∃ s', popTailLoop fuel s (nx (ys ++ [(p, pv)]) 0) = some (s', some tv) ∧
        Rep s' (xs ++ ys ++ [(p, pv)])
  | [], xs, p, pv, fuel + 1, h, hi, _ => by
    rw [List.append_nil] at h ⊢
    obtain ⟨hcx, hp0, hmp, ht0, hmt, _⟩ := chain_append.1 h.chain
    have htl : s.tail = t := by
      rw [h.tail]; simp [nx]
    have hnd := h.nodup
    simp only [List.map_append, List.map_cons, List.map_nil, List.nodup_append, List.nodup_cons,
      List.mem_cons, List.not_mem_nil, or_false] at hnd
    obtain ⟨hndx, ⟨hpt, _⟩, hx⟩ := hnd
    have hxp : ∀ b ∈ xs.map Prod.fst, b ≠ p := fun b hb => hx b hb p (Or.inl rfl)
    have hxt : ∀ b ∈ xs.map Prod.fst, b ≠ t := fun b hb => hx b hb t (Or.inr rfl)
    refine ⟨{ s with
      mem := fun b => if b = p then some { item := pv, next := 0 }
        else if b = t then none else s.mem b,
      live := s.live - 1, tail := p }, ?_, ?_⟩
    · simp only [nx, List.nil_append, popTailLoop, hp0, if_false, hmp, htl, if_true, hmt, free,
        setNext, hpt]
      rfl
    · refine { chain := ?_, head := ?_, tail := ?_, nodup := ?_, old := ?_, pos := h.pos,
               live := ?_, only := ?_, cur := ?_ }
      · refine chain_append.2 ⟨?_, hp0, ?_, trivial⟩
        · exact chain_congr (fun b hb => by simp [hxp b hb, hxt b hb]) hcx
        · simp [nx]
      · show s.head = _
        rw [h.head]; cases xs <;> rfl
      · simp [nx]
      · simp only [List.map_append, List.map_cons, List.map_nil, List.nodup_append,
          List.nodup_cons, List.mem_cons, List.not_mem_nil, or_false, not_false_eq_true,
          List.nodup_nil, and_true, true_and]
        exact ⟨hndx, fun b hb c hc => by subst hc; exact hxp b hb⟩
      · intro q hq
        refine h.old q ?_
        simp only [List.mem_append, List.mem_cons] at hq ⊢
        tauto
      · have := h.live
        simp only [List.length_append, List.length_cons, List.length_nil] at this ⊢
        omega
      · intro b hb
        by_cases h1 : b = p
        · simp [h1]
        · by_cases h2 : b = t
          · simp [h2, Ne.symm hpt] at hb
          · have := h.only b (by simpa [h1, h2] using hb)
            simp only [List.map_append, List.map_cons, List.map_nil, List.mem_append,
              List.mem_cons, List.not_mem_nil, or_false] at this ⊢
            tauto
      · show s.iter = 0 ∨ _
        rcases h.cur with h' | h'
        · exact Or.inl h'
        · refine Or.inr ?_
          simp only [List.map_append, List.map_cons, List.map_nil, List.mem_append,
            List.mem_cons, List.not_mem_nil, or_false] at h' ⊢
          tauto
  | (q, qv) :: ys, xs, p, pv, fuel + 1, h, hi, hf => by
    have h' : Rep s ((xs ++ [(q, qv)]) ++ ys ++ [(p, pv), (t, tv)]) := by
      simpa [List.append_assoc] using h
    have hf' : ys.length < fuel := by simp only [List.length_cons] at hf; omega
    obtain ⟨s', h1, h2⟩ := popTailLoop_rep ys (xs ++ [(q, qv)]) p pv fuel h' hi hf'
    refine ⟨s', ?_, by simpa [List.append_assoc] using h2⟩
    have hc := h.chain
    rw [List.append_assoc] at hc
    obtain ⟨_, hq0, hmq, hcr⟩ := chain_append.1 hc
    have htl : s.tail = t := by
      rw [h.tail]; simp [nx]
    have hnx : nx (ys ++ [(p, pv), (t, tv)]) 0 = nx (ys ++ [(p, pv)]) 0 := by cases ys <;> rfl
    have hnt : nx (ys ++ [(p, pv)]) 0 ≠ t := by
      have hnd := h.nodup
      have hmem : nx (ys ++ [(p, pv)]) 0 ∈ (ys ++ [(p, pv)]).map Prod.fst := by
        cases ys <;> simp [nx]
      have e : xs ++ (q, qv) :: ys ++ [(p, pv), (t, tv)]
          = (xs ++ [(q, qv)]) ++ ((ys ++ [(p, pv)]) ++ [(t, tv)]) := by simp
      rw [e, List.map_append, List.nodup_append] at hnd
      have hnd := hnd.2.1
      rw [List.map_append, List.nodup_append] at hnd
      exact hnd.2.2 _ hmem t (by simp)
    have hmq' : s.mem q = some { item := qv, next := nx (ys ++ [(p, pv), (t, tv)]) 0 } := hmq
    rw [hnx] at hmq'
    show popTailLoop (fuel + 1) s q = _
    simp only [popTailLoop, hq0, if_false, hmq']
    rw [htl, if_neg hnt]
    exact h1

theorem popTail_nil {s : LL α} (h : Rep s []) :
    ∃ s', popTail s = some (s', none) ∧ Rep s' [] := by
  have h0 := h.nil_iff.2 rfl
  have h1 := h.tail_iff.2 rfl
  refine ⟨if s.iter = s.tail then { s with iter := 0 } else s, ?_, ?_⟩
  · by_cases hi : s.iter = s.tail <;> simp [popTail, hi, h0, h1, popHead] <;> simp_all
  · by_cases hi : s.iter = s.tail
    · rw [if_pos hi]
      exact { chain := h.chain, head := h.head, tail := h.tail, nodup := h.nodup, old := h.old,
              pos := h.pos, live := h.live, only := h.only, cur := Or.inl rfl }
    · rw [if_neg hi]; exact h

theorem popTail_rep {s : LL α} {t : Nat} {tv : α} {xs : List (Nat × α)}
    (h : Rep s (xs ++ [(t, tv)])) : ∃ s', popTail s = some (s', some tv) ∧ Rep s' xs := by
  have htl : s.tail = t := by rw [h.tail]; simp [nx]
  have ht0 : t ≠ 0 := (chain_ne h.chain (t, tv) (by simp)).1
  -- the iterator moved away from the tail
  have key : ∀ s2 : LL α, s2 = (if s.iter = s.tail then { s with iter := 0 } else s) →
      Rep s2 (xs ++ [(t, tv)]) ∧ s2.iter ≠ t := by
    rintro s2 rfl
    by_cases hi : s.iter = s.tail
    · rw [if_pos hi]
      exact ⟨{ chain := h.chain, head := h.head, tail := h.tail, nodup := h.nodup, old := h.old,
               pos := h.pos, live := h.live, only := h.only, cur := Or.inl rfl }, Ne.symm ht0⟩
    · rw [if_neg hi]; exact ⟨h, fun e => hi (by rw [e, htl])⟩
  obtain ⟨h2, hi⟩ := key _ rfl
  simp only [popTail]
  generalize (if s.iter = s.tail then { s with iter := 0 } else s) = s2 at h2 hi
  cases hx : xs.reverse with
  | nil =>
    have : xs = [] := by simpa using hx
    subst this
    have e : s2.head = s2.tail := by rw [h2.head, h2.tail]; rfl
    rw [if_pos e]
    exact popHead_rep h2
  | cons p r =>
    have hxs : xs = r.reverse ++ [p] := by
      have := congrArg List.reverse hx
      simpa using this
    obtain ⟨p, pv⟩ := p
    subst hxs
    have h3 : Rep s2 ([] ++ r.reverse ++ [(p, pv), (t, tv)]) := by
      simpa [List.append_assoc] using h2
    have hlen : r.reverse.length < s2.live + 1 := by
      rw [h2.live]; simp; omega
    obtain ⟨s', h4, h5⟩ := popTailLoop_rep r.reverse [] p pv (s2.live + 1) h3 hi hlen
    have hhd : s2.head = nx (r.reverse ++ [(p, pv)]) 0 := by
      rw [h2.head]; cases r.reverse <;> rfl
    have hne : ¬ s2.head = s2.tail := by
      rw [h2.tail, nx_reverse_snoc, hhd]
      have hnd := h2.nodup
      rw [List.map_append, List.nodup_append] at hnd
      have hmem : nx (r.reverse ++ [(p, pv)]) 0 ∈ (r.reverse ++ [(p, pv)]).map Prod.fst := by
        cases r.reverse <;> simp [nx]
      exact hnd.2.2 _ hmem t (by simp)
    rw [if_neg hne, hhd]
    exact ⟨s', h4, by simpa using h5⟩

theorem popAtLoop_rep {s : LL α} (index : Int) :
    ∀ (ys : List (Nat × α)) (xs : List (Nat × α)) (prev : Nat × α) (fuel : Nat),
      Rep s (xs ++ prev :: ys) → ys.length < fuel →
      ∃ s', popAtLoop fuel s prev.1 (nx ys 0) (xs.length + 1) index
          = some (s', if (xs.length + 1 : Int) ≤ index
              then (ys[(index - (xs.length + 1)).toNat]?).map Prod.snd else none) ∧
        Rep s' (if (xs.length + 1 : Int) ≤ index
          then xs ++ prev :: ys.eraseIdx (index - (xs.length + 1)).toNat else xs ++ prev :: ys)
  | [], xs, prev, fuel + 1, h, _ => by
    refine ⟨s, ?_, ?_⟩
    · simp [popAtLoop, nx]
    · simpa using h
  | (a, v) :: ys, xs, prev, fuel + 1, h, hf => by
    obtain ⟨hcx, _, _, ha0, hma, _⟩ := chain_append.1 h.chain
    by_cases hc : (xs.length + 1 : Int) = index
    · have e0 : (index - (xs.length + 1)).toNat = 0 := by omega
      have hle : (xs.length + 1 : Int) ≤ index := by omega
      simp only [if_pos hle, e0, List.getElem?_cons_zero, Option.map_some,
        List.eraseIdx_cons_zero]
      show ∃ s', popAtLoop (fuel + 1) s prev.1 a _ index = _ ∧ _
      simp only [popAtLoop, ha0, if_false, hma, hc, if_true]
      cases hys : ys with
      | nil =>
        subst hys
        have h' : Rep s ((xs ++ [prev]) ++ [(a, v)]) := by simpa [List.append_assoc] using h
        have htl : s.tail = a := by rw [h'.tail, nx_reverse_snoc]
        rw [if_pos htl.symm]
        exact popTail_rep h'
      | cons q r =>
        rw [← hys]
        have hne : ys ≠ [] := by rw [hys]; simp
        have htl : a ≠ s.tail := by
          rw [h.tail]
          have hnd := h.nodup
          simp only [List.map_append, List.map_cons, List.nodup_append, List.nodup_cons] at hnd
          have hay := hnd.2.1.2.1
          have e : nx (xs ++ prev :: (a, v) :: ys).reverse 0 = nx ys.reverse 0 := by
            simp only [List.reverse_append, List.reverse_cons, List.append_assoc, nx_append]
            cases hr : ys.reverse with
            | nil => exact absurd (by simpa using hr) hne
            | cons q r => rfl
          rw [e]
          cases hr : ys.reverse with
          | nil => exact absurd (by simpa using hr) hne
          | cons q r =>
            intro ea
            refine hay ?_
            have : q ∈ ys := by
              have : q ∈ ys.reverse := by rw [hr]; simp
              simpa using this
            exact List.mem_map.2 ⟨q, this, ea.symm⟩
        rw [if_neg htl]
        exact (unlink_rep (p := prev.1) (pv := prev.2) h hne).2
    · have h' : Rep s ((xs ++ [prev]) ++ (a, v) :: ys) := by
        simpa [List.append_assoc] using h
      have hf' : ys.length < fuel := by simp only [List.length_cons] at hf; omega
      obtain ⟨s', h1, h2⟩ := popAtLoop_rep index ys (xs ++ [prev]) (a, v) fuel h' hf'
      refine ⟨s', ?_, ?_⟩
      · show popAtLoop (fuel + 1) s prev.1 a _ index = _
        simp only [popAtLoop, ha0, if_false, hma, hc]
        have e : ((xs ++ [prev]).length + 1 : Int) = xs.length + 1 + 1 := by simp
        rw [e] at h1
        rw [h1]
        by_cases hle : (xs.length + 1 + 1 : Int) ≤ index
        · rw [if_pos hle, if_pos (by omega)]
          have : (index - (xs.length + 1)).toNat = (index - (xs.length + 1 + 1)).toNat + 1 := by
            omega
          rw [this, List.getElem?_cons_succ]
        · rw [if_neg hle, if_neg (by omega)]
      · have e : ((xs ++ [prev]).length + 1 : Int) = xs.length + 1 + 1 := by simp
        rw [e] at h2
        by_cases hle : (xs.length + 1 + 1 : Int) ≤ index
        · rw [if_pos hle] at h2
          rw [if_pos (by omega)]
          have : (index - (xs.length + 1)).toNat = (index - (xs.length + 1 + 1)).toNat + 1 := by
            omega
          rw [this, List.eraseIdx_cons_succ]
          simpa [List.append_assoc] using h2
        · rw [if_neg hle] at h2
          rw [if_neg (by omega)]
          simpa [List.append_assoc] using h2

theorem popAt_rep {s : LL α} {l : List (Nat × α)} (h : Rep s l) (index : Int) :
    ∃ s', popAt s index = some (s', if 0 ≤ index then (l[index.toNat]?).map Prod.snd else none) ∧
      Rep s' (if 0 ≤ index then l.eraseIdx index.toNat else l) := by
  by_cases h0 : index = 0
  · subst h0
    simp only [popAt, if_true, Int.le_refl, Int.toNat_zero]
    cases l with
    | nil => exact ⟨s, by simp [popHead_nil h], by simpa using h⟩
    | cons p r =>
      obtain ⟨a, v⟩ := p
      obtain ⟨s', h1, h2⟩ := popHead_rep h
      exact ⟨s', by simp [h1], by simpa using h2⟩
  · simp only [popAt, h0, if_false]
    cases l with
    | nil =>
      refine ⟨s, ?_, by simpa using h⟩
      rw [h.head]
      simp [popAtLoop, nx]
    | cons p r =>
      obtain ⟨a, v⟩ := p
      have hc := h.chain
      have hlen : r.length < s.live := by rw [h.live]; simp
      obtain ⟨s', h1, h2⟩ := popAtLoop_rep index r [] (a, v) s.live h hlen
      simp only [List.length_nil, Int.natCast_zero, Int.zero_add, List.nil_append] at h1 h2
      refine ⟨s', ?_, ?_⟩
      · rw [h.head]
        show popAtLoop (s.live + 1) s 0 a 0 index = _
        have hne : (0 : Int) ≠ index := fun e => h0 e.symm
        simp only [popAtLoop, hc.1, if_false, hc.2.1, hne, Int.zero_add]
        rw [h1]
        by_cases hle : 1 ≤ index
        · rw [if_pos hle, if_pos (by omega)]
          have : index.toNat = (index - 1).toNat + 1 := by omega
          rw [this, List.getElem?_cons_succ]
        · rw [if_neg hle, if_neg (by omega)]
      · by_cases hle : 1 ≤ index
        · rw [if_pos hle] at h2
          rw [if_pos (by omega)]
          have : index.toNat = (index - 1).toNat + 1 := by omega
          rw [this, List.eraseIdx_cons_succ]
          exact h2
        · rw [if_neg hle] at h2
          rw [if_neg (by omega)]
          exact h2

/-- The nodes of the sequence other than the one at `item`. -/
def without (l : List (Nat × α)) (item : Nat) : List (Nat × α) := l.filter (fun p => p.1 != item)

theorem without_self {l : List (Nat × α)} {item : Nat} (h : item ∉ l.map Prod.fst) :
    without l item = l := by
  rw [without, List.filter_eq_self]
  intro p hp
  have : p.1 ≠ item := fun e => h (e ▸ List.mem_map.2 ⟨p, hp, rfl⟩)
  simpa using this

theorem popItemLoop_absent {s : LL α} {item : Nat} :
    ∀ (ys xs : List (Nat × α)) (prev fuel : Nat), Rep s (xs ++ ys) → ys.length < fuel →
      item ∉ ys.map Prod.fst → popItemLoop fuel s prev (nx ys 0) item = some s
  | [], _, _, fuel + 1, _, _, _ => by simp [popItemLoop, nx]
  | (a, v) :: ys, xs, prev, fuel + 1, h, hf, hn => by
    obtain ⟨_, ha0, hma, _⟩ := chain_append.1 h.chain
    have h' : Rep s ((xs ++ [(a, v)]) ++ ys) := by simpa [List.append_assoc] using h
    simp only [List.map_cons, List.mem_cons, not_or] at hn
    have hf' : ys.length < fuel := by simp only [List.length_cons] at hf; omega
    show popItemLoop (fuel + 1) s prev a item = _
    simp only [popItemLoop, ha0, if_false, hma, Ne.symm hn.1]
    exact popItemLoop_absent ys (xs ++ [(a, v)]) a fuel h' hf' hn.2

theorem popItemLoop_mid {s : LL α} {item : Nat} {v : α} {zs : List (Nat × α)} (hz : zs ≠ []) :
    ∀ (ys xs : List (Nat × α)) (prev : Nat × α) (fuel : Nat),
      Rep s (xs ++ prev :: ys ++ (item, v) :: zs) → ys.length < fuel →
      ∃ s', popItemLoop fuel s prev.1 (nx (ys ++ (item, v) :: zs) 0) item = some s' ∧
        Rep s' (xs ++ prev :: ys ++ zs)
  | [], xs, prev, fuel + 1, h, _ => by
    have h' : Rep s (xs ++ (prev.1, prev.2) :: (item, v) :: zs) := by
      simpa [List.append_assoc] using h
    obtain ⟨hma, s', h1, h2⟩ := unlink_rep h' hz
    have hi0 : item ≠ 0 := (chain_ne h.chain (item, v) (by simp)).1
    refine ⟨s', ?_, by simpa [List.append_assoc] using h2⟩
    show popItemLoop (fuel + 1) s prev.1 item item = _
    simp only [popItemLoop, hi0, if_false, hma, if_true, h1]
  | (a, w) :: ys, xs, prev, fuel + 1, h, hf => by
    have h' : Rep s ((xs ++ [prev]) ++ (a, w) :: ys ++ (item, v) :: zs) := by
      simpa [List.append_assoc] using h
    have hc := h'.chain
    rw [List.append_assoc] at hc
    obtain ⟨_, ha0, hma, _⟩ := chain_append.1 hc
    have hma' : s.mem a = some { item := w, next := nx (ys ++ (item, v) :: zs) 0 } := hma
    have hne : a ≠ item := by
      have hnd := h'.nodup
      rw [List.map_append, List.nodup_append] at hnd
      exact hnd.2.2 a (by simp) item (by simp)
    have hf' : ys.length < fuel := by simp only [List.length_cons] at hf; omega
    obtain ⟨s', h1, h2⟩ := popItemLoop_mid hz ys (xs ++ [prev]) (a, w) fuel h' hf'
    refine ⟨s', ?_, by simpa [List.append_assoc] using h2⟩
    show popItemLoop (fuel + 1) s prev.1 a item = _
    simp only [popItemLoop, ha0, if_false, hma', hne]
    exact h1

/-- `popItem` takes out the node it is given the address of, and nothing else. -/
theorem popItem_rep {s : LL α} {l : List (Nat × α)} (h : Rep s l) (item : Nat) :
    ∃ s', popItem s item = some s' ∧ Rep s' (without l item) := by
  cases l with
  | nil =>
    refine ⟨s, by simp [popItem, h.nil_iff.2 rfl], by simpa [without] using h⟩
  | cons p r =>
    obtain ⟨a, v⟩ := p
    have hnd := h.nodup
    simp only [List.map_cons, List.nodup_cons] at hnd
    have hh : s.head = a := h.head
    have ha0 := h.chain.1
    simp only [popItem, hh, ha0, if_false]
    by_cases h1 : a = item
    · subst h1
      obtain ⟨s', e, hr⟩ := popHead_rep h
      simp only [if_true, e, Option.map_some]
      have hw : without ((a, v) :: r) a = r := by
        have := without_self hnd.1
        simpa [without] using this
      rw [hw, hr.head]
      refine ⟨s', ?_, hr⟩
      exact popItemLoop_absent r [] 0 _ hr (by rw [hr.live]; omega) hnd.1
    · simp only [h1, if_false]
      by_cases h2 : s.tail = item
      · obtain ⟨xs, ⟨t, tv⟩, hl⟩ : ∃ xs p, (a, v) :: r = xs ++ [p] :=
          ⟨_, _, (List.dropLast_concat_getLast (l := (a, v) :: r) (by simp)).symm⟩
        rw [hl] at h ⊢
        have ht : t = item := by rw [← h2, h.tail, nx_reverse_snoc]
        subst ht
        obtain ⟨s', e, hr⟩ := popTail_rep h
        have hnd' := h.nodup
        rw [List.map_append, List.nodup_append] at hnd'
        have hnot : t ∉ xs.map Prod.fst := fun hm => hnd'.2.2 t hm t (by simp) rfl
        simp only [h2, if_true, e, Option.map_some]
        have hw : without (xs ++ [(t, tv)]) t = xs := by
          have := without_self hnot
          simpa [without] using this
        rw [hw, hr.head]
        exact ⟨s', popItemLoop_absent xs [] 0 _ hr (by rw [hr.live]; omega) hnot, hr⟩
      · simp only [h2, if_false]
        by_cases hm : item ∈ ((a, v) :: r).map Prod.fst
        · simp only [List.map_cons, List.mem_cons] at hm
          have hm := hm.resolve_left (fun e => h1 e.symm)
          obtain ⟨⟨i', w⟩, hq, hi⟩ := List.mem_map.1 hm
          simp only at hi
          subst hi
          obtain ⟨ys, zs, rfl⟩ := List.append_of_mem hq
          have hz : zs ≠ [] := by
            rintro rfl
            refine h2 ?_
            rw [h.tail]; simp [nx]
          have h' : Rep s ([] ++ (a, v) :: ys ++ (i', w) :: zs) := by simpa using h
          have hlen : ys.length < s.live := by
            rw [h.live]; simp only [List.length_cons, List.length_append]; omega
          obtain ⟨s', e, hr⟩ := popItemLoop_mid hz ys [] (a, v) s.live h' hlen
          have hw : without ((a, v) :: (ys ++ (i', w) :: zs)) i' = (a, v) :: ys ++ zs := by
            have hnd' := h'.nodup
            simp only [List.nil_append, List.map_append, List.map_cons, List.nodup_append,
              List.nodup_cons] at hnd'
            obtain ⟨⟨_, _⟩, ⟨hz1, _⟩, hyz⟩ := hnd'
            have hy1 : i' ∉ ((a, v) :: ys).map Prod.fst := fun hm' =>
              hyz i' (by simpa using hm') i' (by simp) rfl
            have e1 := without_self hy1
            have e2 := without_self hz1
            have : (a, v) :: (ys ++ (i', w) :: zs) = ((a, v) :: ys) ++ (i', w) :: zs := rfl
            rw [this, without, List.filter_append]
            rw [without] at e1 e2
            rw [e1, List.filter_cons]
            simp [e2]
          rw [hw]
          refine ⟨s', ?_, by simpa using hr⟩
          rw [hh]
          simp only [popItemLoop, ha0, if_false, h.chain.2.1, h1]
          exact e
        · rw [without_self hm]
          refine ⟨s, ?_, h⟩
          have := popItemLoop_absent ((a, v) :: r) [] 0 (s.live + 1) h (by rw [h.live]; omega) hm
          rw [hh]
          exact this

theorem clearLoop_rep : ∀ (l : List (Nat × α)) (s : LL α) (fuel : Nat), Rep s l →
    l.length < fuel → ∃ s', clearLoop fuel s = some s' ∧ Rep s' []
  | [], s, fuel + 1, h, _ => ⟨s, by simp [clearLoop, h.nil_iff.2 rfl], h⟩
  | (a, v) :: r, s, fuel + 1, h, hf => by
    obtain ⟨s1, e, h1⟩ := popHead_rep h
    have hf' : r.length < fuel := by simp only [List.length_cons] at hf; omega
    obtain ⟨s', e', h'⟩ := clearLoop_rep r s1 fuel h1 hf'
    refine ⟨s', ?_, h'⟩
    have h0 : ¬ s.head = 0 := by rw [h.head]; exact h.chain.1
    simp only [clearLoop, h0, if_false, e, e']

theorem clear_rep {s : LL α} {l : List (Nat × α)} (h : Rep s l) :
    ∃ s', clear s = some s' ∧ Rep s' [] :=
  clearLoop_rep l s _ h (by rw [h.live]; omega)

/-! ### Looking -/

/-- The same list with the iterator elsewhere. -/
theorem Rep.move {s : LL α} {l : List (Nat × α)} (h : Rep s l) {i : Nat}
    (hi : i = 0 ∨ i ∈ l.map Prod.fst) : Rep { s with iter := i } l :=
  { chain := h.chain, head := h.head, tail := h.tail, nodup := h.nodup, old := h.old,
    pos := h.pos, live := h.live, only := h.only, cur := hi }

theorem first_rep {s : LL α} {l : List (Nat × α)} (h : Rep s l) :
    (first s).2 = nx l 0 ∧ Rep (first s).1 l ∧ (l ≠ [] → (first s).1.iter = nx l 0) := by
  by_cases h0 : s.head = 0
  · have hl := h.nil_iff.1 h0
    subst hl
    simp only [first, h0, if_true]
    exact ⟨rfl, h, fun e => absurd rfl e⟩
  · simp only [first, h0, if_false]
    refine ⟨h.head, h.move (Or.inr ?_), fun _ => h.head⟩
    rw [h.head]
    cases l with
    | nil => exact absurd (h.nil_iff.2 rfl) h0
    | cons p r => simp [nx]

theorem next_rep {s : LL α} {xs ys : List (Nat × α)} {p : Nat × α}
    (h : Rep s (xs ++ p :: ys)) (hi : s.iter = p.1) :
    ∃ s', next s = some (s', nx ys 0) ∧ Rep s' (xs ++ p :: ys) ∧ s'.iter = nx ys 0 ∧
      s'.live = s.live := by
  obtain ⟨_, hp0, hmp, _⟩ := chain_append.1 h.chain
  have h0 : ¬ s.iter = 0 := by rw [hi]; exact hp0
  rw [← hi] at hmp
  refine ⟨{ s with iter := nx ys 0 }, ?_, h.move ?_, rfl, rfl⟩
  · simp only [next, h0, if_false, hmp]
  · cases ys with
    | nil => exact Or.inl rfl
    | cons q r => exact Or.inr (by simp [nx])

theorem countLoop_rep : ∀ (ys xs : List (Nat × α)) (s : LL α) (fuel c : Nat),
    Rep s (xs ++ ys) → (ys ≠ [] → s.iter = nx ys 0) → ys.length < fuel →
    ∃ s', countLoop fuel s (nx ys 0) c = some (s', c + ys.length) ∧ Rep s' (xs ++ ys)
  | [], xs, s, fuel + 1, c, h, _, _ => ⟨s, by simp [countLoop, nx], h⟩
  | p :: ys, xs, s, fuel + 1, c, h, hi, hf => by
    obtain ⟨s1, e, h1, hi1, _⟩ := next_rep h (hi (by simp))
    have hp0 : p.1 ≠ 0 := (chain_ne h.chain p (by simp)).1
    have h1' : Rep s1 ((xs ++ [p]) ++ ys) := by simpa [List.append_assoc] using h1
    have hf' : ys.length < fuel := by simp only [List.length_cons] at hf; omega
    obtain ⟨s', e', h'⟩ := countLoop_rep ys (xs ++ [p]) s1 fuel (c + 1) h1' (fun _ => hi1) hf'
    refine ⟨s', ?_, by simpa [List.append_assoc] using h'⟩
    show countLoop (fuel + 1) s p.1 c = _
    simp only [countLoop, hp0, if_false, e, e', List.length_cons]
    congr 2
    omega

theorem count_rep {s : LL α} {l : List (Nat × α)} (h : Rep s l) :
    ∃ s', count s = some (s', l.length) ∧ Rep s' l := by
  obtain ⟨e, h1, hi⟩ := first_rep h
  obtain ⟨s', e', h'⟩ := countLoop_rep l [] (first s).1 (s.live + 1) 0 h1 hi
    (by rw [h.live]; omega)
  refine ⟨s', ?_, h'⟩
  rw [count, e, e', Nat.zero_add]

theorem atLoop_rep {s : LL α} (i : Int) : ∀ (ys xs : List (Nat × α)) (fuel : Nat),
    Rep s (xs ++ ys) → ys.length < fuel →
    atLoop fuel s (nx ys 0) xs.length i
      = some (nx (ys.drop (i - xs.length).toNat) 0)
  | [], xs, fuel + 1, h, _ => by simp [atLoop, nx]
  | p :: ys, xs, fuel + 1, h, hf => by
    obtain ⟨_, hp0, hmp, _⟩ := chain_append.1 h.chain
    have h1' : Rep s ((xs ++ [p]) ++ ys) := by simpa [List.append_assoc] using h
    have hf' : ys.length < fuel := by simp only [List.length_cons] at hf; omega
    show atLoop (fuel + 1) s p.1 xs.length i = _
    simp only [atLoop, hp0, if_false]
    by_cases hc : (xs.length : Int) ≥ i
    · rw [if_pos hc]
      have : (i - xs.length).toNat = 0 := by omega
      rw [this]; rfl
    · rw [if_neg hc, hmp]
      have := atLoop_rep i ys (xs ++ [p]) fuel h1' hf'
      have e : ((xs ++ [p]).length : Int) = xs.length + 1 := by simp
      rw [e] at this
      simp only [this]
      have : (i - xs.length).toNat = (i - (xs.length + 1)).toNat + 1 := by omega
      rw [this, List.drop_succ_cons]

theorem at_rep {s : LL α} {l : List (Nat × α)} (h : Rep s l) (i : Int) :
    at' s i = some (nx (l.drop i.toNat) 0) := by
  have := atLoop_rep i l [] (s.live + 1) h (by rw [h.live]; omega)
  rw [at', h.head]
  simpa using this

/-! ### The list as its users see it -/

/-- What a user of the list can do with it.  `walk` is the loop
`for( L* x = first(); x; x = next() )` reading each item, `popFound i` is `popItem` given
the pointer that `operator[]` returned. -/
inductive Op (α : Type) where
  | addHead (v : α)
  | addTail (v : α)
  | popHead
  | popTail
  | popAt (i : Int)
  | popFound (i : Int)
  | clear
  | count
  | get (i : Int)
  | last
  | walk
  deriving Repr

/-- What the operations answer. -/
inductive Out (α : Type) where
  | none
  | item (v : Option α)
  | num (n : Nat)
  | items (vs : List α)

/-- The item behind a pointer; no item behind the null pointer. -/
def load (s : LL α) (a : Nat) : Option (Option α) :=
  if a = 0 then some none
  else match s.mem a with
    | none => none
    | some n => some (some n.item)

/-- `for( L* x = first(); x; x = next() )`, as in
discrete_src/debug/server_interface_private.cpp 152 and 437. -/
def walkLoop : Nat → LL α → Nat → List α → Option (LL α × List α)
  | 0, _, _, _ => none
  | fuel + 1, s, x, acc =>
    if x = 0 then some (s, acc)
    else match s.mem x with
      | none => none
      | some n =>
        match next s with
        | none => none
        | some (s', x') => walkLoop fuel s' x' (acc ++ [n.item])

/-- One operation of the code. -/
def step (s : LL α) : Op α → Option (LL α × Out α)
  | .addHead v => some ((Ll.addHead s v).1, .none)
  | .addTail v => (Ll.addTail s v).map (fun r => (r.1, .none))
  | .popHead => (Ll.popHead s).map (fun r => (r.1, .item r.2))
  | .popTail => (Ll.popTail s).map (fun r => (r.1, .item r.2))
  | .popAt i => (Ll.popAt s i).map (fun r => (r.1, .item r.2))
  | .popFound i =>
    match at' s i with
    | none => none
    | some a => (popItem s a).map (fun s' => (s', .none))
  | .clear => (Ll.clear s).map (fun s' => (s', .none))
  | .count => (Ll.count s).map (fun r => (r.1, .num r.2))
  | .get i =>
    match at' s i with
    | none => none
    | some a => (load s a).map (fun v => (s, .item v))
  | .last => (load s (tailItem s)).map (fun v => (s, .item v))
  | .walk => (walkLoop (s.live + 1) (first s).1 (first s).2 []).map (fun r => (r.1, .items r.2))

/-- The same operation on a plain sequence. -/
def spec (l : List α) : Op α → List α × Out α
  | .addHead v => (v :: l, .none)
  | .addTail v => (l ++ [v], .none)
  | .popHead => (l.drop 1, .item l.head?)
  | .popTail => (l.dropLast, .item l.getLast?)
  | .popAt i => if 0 ≤ i then (l.eraseIdx i.toNat, .item l[i.toNat]?) else (l, .item none)
  | .popFound i => (l.eraseIdx i.toNat, .none)
  | .clear => ([], .none)
  | .count => (l, .num l.length)
  | .get i => (l, .item l[i.toNat]?)
  | .last => (l, .item l.getLast?)
  | .walk => (l, .items l)

/-- A run of operations of the code. -/
def run (s : LL α) : List (Op α) → Option (LL α × List (Out α))
  | [] => some (s, [])
  | o :: os =>
    match step s o with
    | none => none
    | some (s', r) => (run s' os).map (fun x => (x.1, r :: x.2))

/-- The same run on a plain sequence. -/
def specRun (l : List α) : List (Op α) → List α × List (Out α)
  | [] => (l, [])
  | o :: os => ((specRun (spec l o).1 os).1, (spec l o).2 :: (specRun (spec l o).1 os).2)

theorem load_nx {s : LL α} {xs ys : List (Nat × α)} (h : Rep s (xs ++ ys)) :
    load s (nx ys 0) = some (ys.head?.map Prod.snd) := by
  cases ys with
  | nil => simp [load, nx]
  | cons p r =>
    obtain ⟨_, hp0, hmp, _⟩ := chain_append.1 h.chain
    simp [load, nx, hp0, hmp]

theorem walkLoop_rep : ∀ (ys xs : List (Nat × α)) (s : LL α) (fuel : Nat) (acc : List α),
    Rep s (xs ++ ys) → (ys ≠ [] → s.iter = nx ys 0) → ys.length < fuel →
    ∃ s', walkLoop fuel s (nx ys 0) acc = some (s', acc ++ ys.map Prod.snd) ∧ Rep s' (xs ++ ys)
  | [], xs, s, fuel + 1, acc, h, _, _ => ⟨s, by simp [walkLoop, nx], h⟩
  | p :: ys, xs, s, fuel + 1, acc, h, hi, hf => by
    obtain ⟨s1, e, h1, hi1, _⟩ := next_rep h (hi (by simp))
    obtain ⟨_, hp0, hmp, _⟩ := chain_append.1 h.chain
    have h1' : Rep s1 ((xs ++ [p]) ++ ys) := by simpa [List.append_assoc] using h1
    have hf' : ys.length < fuel := by simp only [List.length_cons] at hf; omega
    obtain ⟨s', e', h'⟩ := walkLoop_rep ys (xs ++ [p]) s1 fuel (acc ++ [p.2]) h1'
      (fun _ => hi1) hf'
    refine ⟨s', ?_, by simpa [List.append_assoc] using h'⟩
    show walkLoop (fuel + 1) s p.1 acc = _
    simp only [walkLoop, hp0, if_false, hmp, e, e', List.map_cons, List.append_assoc,
      List.singleton_append]

theorem map_eraseIdx {β γ : Type} (f : β → γ) : ∀ (l : List β) (i : Nat),
    (l.eraseIdx i).map f = (l.map f).eraseIdx i
  | [], _ => rfl
  | _ :: _, 0 => rfl
  | x :: l, i + 1 => by simp [List.eraseIdx_cons_succ, map_eraseIdx f l i]

theorem without_drop : ∀ (l : List (Nat × α)) (i : Nat), (l.map Prod.fst).Nodup →
    (∀ p ∈ l, p.1 ≠ 0) → without l (nx (l.drop i) 0) = l.eraseIdx i
  | [], i, _, _ => by simp [without]
  | p :: l, 0, hn, _ => by
    simp only [List.map_cons, List.nodup_cons] at hn
    have := without_self hn.1
    simpa [without, nx] using this
  | p :: l, i + 1, hn, h0 => by
    have hn' := hn
    simp only [List.map_cons, List.nodup_cons] at hn'
    have hne : p.1 ≠ nx (l.drop i) 0 := by
      cases hd : l.drop i with
      | nil => exact h0 p (by simp)
      | cons q r =>
        intro e
        refine hn'.1 (List.mem_map.2 ⟨q, ?_, e.symm⟩)
        exact List.mem_of_mem_drop (i := i) (by rw [hd]; simp)
    have ih := without_drop l i hn'.2 (fun q hq => h0 q (List.mem_cons_of_mem _ hq))
    rw [without] at ih
    simp only [List.drop_succ_cons, List.eraseIdx_cons_succ, without, List.filter_cons]
    have : (p.1 != nx (l.drop i) 0) = true := by simpa using hne
    rw [this, if_pos rfl, ih]

theorem head?_drop' {β : Type} : ∀ (l : List β) (i : Nat), (l.drop i).head? = l[i]?
  | [], i => by simp
  | _ :: _, 0 => rfl
  | _ :: l, i + 1 => by simp

theorem step_rep {s : LL α} {l : List (Nat × α)} (h : Rep s l) (o : Op α) :
    ∃ s' l', step s o = some (s', (spec (l.map Prod.snd) o).2) ∧ Rep s' l' ∧
      l'.map Prod.snd = (spec (l.map Prod.snd) o).1 := by
  cases o with
  | addHead v => exact ⟨_, _, rfl, (addHead_rep h v).1, rfl⟩
  | addTail v =>
    obtain ⟨s', e, h'⟩ := addTail_rep h v
    exact ⟨s', _, by simp [step, e, spec], h', by simp [spec]⟩
  | popHead =>
    cases l with
    | nil => exact ⟨s, [], by simp [step, popHead_nil h, spec], h, rfl⟩
    | cons p r =>
      obtain ⟨s', e, h'⟩ := popHead_rep h
      exact ⟨s', r, by simp [step, e, spec], h', by simp [spec]⟩
  | popTail =>
    cases hl : l.reverse with
    | nil =>
      have : l = [] := by simpa using hl
      subst this
      obtain ⟨s', e, h'⟩ := popTail_nil h
      exact ⟨s', [], by simp [step, e, spec], h', rfl⟩
    | cons p r =>
      have hxs : l = r.reverse ++ [p] := by
        have := congrArg List.reverse hl
        simpa using this
      subst hxs
      obtain ⟨s', e, h'⟩ := popTail_rep h
      exact ⟨s', _, by simp [step, e, spec], h', by simp [spec]⟩
  | popAt i =>
    obtain ⟨s', e, h'⟩ := popAt_rep h i
    by_cases hi : 0 ≤ i
    · rw [if_pos hi] at e h'
      exact ⟨s', _, by simp [step, e, spec, hi], h', by simp [spec, hi, map_eraseIdx]⟩
    · rw [if_neg hi] at e h'
      exact ⟨s', _, by simp [step, e, spec, hi], h', by simp [spec, hi]⟩
  | popFound i =>
    obtain ⟨s', e, h'⟩ := popItem_rep h (nx (l.drop i.toNat) 0)
    rw [without_drop l _ h.nodup (fun p hp => (chain_ne h.chain p hp).1)] at h'
    exact ⟨s', _, by simp [step, at_rep h, e, spec], h', by simp [spec, map_eraseIdx]⟩
  | clear =>
    obtain ⟨s', e, h'⟩ := clear_rep h
    exact ⟨s', [], by simp [step, e, spec], h', rfl⟩
  | count =>
    obtain ⟨s', e, h'⟩ := count_rep h
    exact ⟨s', l, by simp [step, e, spec], h', rfl⟩
  | get i =>
    have h2 : Rep s (l.take i.toNat ++ l.drop i.toNat) := by rw [List.take_append_drop]; exact h
    refine ⟨s, l, ?_, h, rfl⟩
    simp [step, at_rep h, load_nx h2, spec, head?_drop']
  | last =>
    refine ⟨s, l, ?_, h, rfl⟩
    have e : load s s.tail = some (l.getLast?.map Prod.snd) := by
      rw [h.tail]
      cases hl : l.reverse with
      | nil =>
        have : l = [] := by simpa using hl
        subst this; simp [load, nx]
      | cons p r =>
        have hxs : l = r.reverse ++ [p] := by
          have := congrArg List.reverse hl
          simpa using this
        subst hxs
        simpa [nx] using load_nx (xs := r.reverse) (ys := [p]) h
    simp [step, tailItem, e, spec]
  | walk =>
    obtain ⟨e, h1, hi⟩ := first_rep h
    obtain ⟨s', e', h'⟩ := walkLoop_rep l [] (first s).1 (s.live + 1) [] h1 hi
      (by rw [h.live]; omega)
    refine ⟨s', l, ?_, h', rfl⟩
    simp only [step, e, e', Option.map_some, spec, List.nil_append]

theorem run_rep : ∀ (os : List (Op α)) (s : LL α) (l : List (Nat × α)), Rep s l →
    ∃ s' l', run s os = some (s', (specRun (l.map Prod.snd) os).2) ∧ Rep s' l' ∧
      l'.map Prod.snd = (specRun (l.map Prod.snd) os).1
  | [], s, l, h => ⟨s, l, rfl, h, rfl⟩
  | o :: os, s, l, h => by
    obtain ⟨s1, l1, e1, h1, m1⟩ := step_rep h o
    obtain ⟨s', l', e', h', m'⟩ := run_rep os s1 l1 h1
    rw [m1] at e' m'
    exact ⟨s', l', by simp [run, e1, e', specRun], h', by simp [specRun, m']⟩

/-- C86: whatever is done with a list, in whatever order, every answer is the answer a plain
sequence gives; no node is used after it was freed, freed twice, or lost (the number of nodes
allocated is the length of the sequence). -/
theorem C86_as_a_sequence (os : List (Op α)) :
    ∃ s, run (empty α) os = some (s, (specRun [] os).2) ∧
      s.live = (specRun [] os).1.length ∧
      ((specRun [] os).1 = [] → ∀ a, s.mem a = none) := by
  obtain ⟨s, l, e, h, m⟩ := run_rep os (empty α) [] rep_empty
  refine ⟨s, e, ?_, ?_⟩
  · rw [h.live]
    have := congrArg List.length m
    simpa using this
  · intro hn a
    have hl : l = [] := by
      have : l.map Prod.snd = [] := m.trans hn
      simpa using this
    subst hl
    cases hm : s.mem a with
    | none => rfl
    | some n => exact absurd (h.only a (by rw [hm]; simp)) (by simp)

end Wrench.Ll
