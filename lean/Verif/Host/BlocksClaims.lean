import Verif.Host.BlocksProps

namespace Wrench.Blocks

open Wrench.Host

/-! ### What later operations do to a block -/

/-- A block that is not the host's changes hands only by the end of its context. -/
theorem owner_step {s : BSt} {L : Ledger} (r : Inv s L) {e : BEv} (ha : May L e) {b : Nat} (hb : b < L.blocks)
    (hh : L.owner b ≠ .host) : (L.step e).owner b = settle (L.step e).live L.owner b := by
  have same : ∀ l : Live, (∀ i ∈ L.live.all, i ∈ l.all) → L.owner b = settle l L.owner b :=
    fun l h => (congrFun (settle_grow r h) b).symm
  have created : ∀ (ev : Ev) (x : Nat) (good own : Bool),
      (∀ i, i ∈ (L.live.step ev).all ↔ i = L.live.count ∨ i ∈ L.live.all) → L.owner x = .host →
      (L.created ev x good own).owner b = settle (L.created ev x good own).live L.owner b := by
    intro ev x good own hall hx
    have hne : b ≠ x := by rintro rfl; exact hh hx
    cases good with
    | false => exact same L.live (fun _ h => h)
    | true =>
      show (if own then setOwner L.owner x (.context L.live.count) else L.owner) b = settle (L.live.step ev) L.owner b
      rw [← same (L.live.step ev) fun i hi => (hall i).mpr (Or.inr hi)]
      cases own with
      | false => rfl
      | true => simp [setOwner, hne]
  cases e with
  | alloc =>
    show setOwner L.owner L.blocks .host b = settle L.live L.owner b
    rw [setOwner, if_neg (by omega)]
    exact same L.live (fun _ h => h)
  | hostFree x =>
    show setOwner L.owner x .freed b = settle L.live L.owner b
    rw [setOwner, if_neg (by rintro rfl; exact hh ha.1)]
    exact same L.live (fun _ h => h)
  | new x good own => exact created .new x good own (all_new _) ha.1
  | importBegin c x good own => exact created (.importBegin c) x good own (all_import _ c) ha.1
  | importEnd g => rfl
  | destroy c => rfl
  | call c => exact same L.live (fun _ h => h)
  | scriptImport c good =>
    cases good with
    | false =>
      show setOwner L.owner L.blocks .lost b = settle L.live L.owner b
      rw [setOwner, if_neg (by omega)]
      exact same L.live (fun _ h => h)
    | true =>
      show setOwner L.owner L.blocks _ b = settle (L.live.step (.importBegin c)) L.owner b
      rw [setOwner, if_neg (by omega)]
      exact same _ fun i hi => (all_import _ c i).mpr (Or.inr hi)

theorem blocks_step (L : Ledger) (e : BEv) : L.blocks ≤ (L.step e).blocks := by
  have hc : ∀ ev x g o, (L.created ev x g o).blocks = L.blocks := by
    intro ev x g o; cases g <;> rfl
  cases e with
  | alloc => exact Nat.le_succ _
  | new b g o => exact Nat.le_of_eq (hc _ _ _ _).symm
  | importBegin c b g o => exact Nat.le_of_eq (hc _ _ _ _).symm
  | scriptImport c g => cases g <;> exact Nat.le_succ _
  | _ => exact Nat.le_refl _

/-- A context that is gone does not come back. -/
theorem gone_step {L : Ledger} (e : BEv) {i : Nat} (h : i ∉ L.live.all) (hc : i < L.live.count) :
    i ∉ (L.step e).live.all ∧ i < (L.step e).live.count := by
  have grow : ∀ ev : Ev, (∀ j, j ∈ (L.live.step ev).all ↔ j = L.live.count ∨ j ∈ L.live.all) →
      (L.live.step ev).count = L.live.count + 1 → i ∉ (L.live.step ev).all ∧ i < (L.live.step ev).count := by
    intro ev h1 h2
    refine ⟨?_, by omega⟩
    rw [h1]
    rintro (h' | h')
    · omega
    · exact h h'
  cases e with
  | new b g o =>
    cases g with
    | false => exact ⟨h, hc⟩
    | true => exact grow .new (all_new _) rfl
  | importBegin c b g o =>
    cases g with
    | false => exact ⟨h, hc⟩
    | true => exact grow (.importBegin c) (all_import _ c) rfl
  | importEnd g => exact ⟨fun h' => h (all_end _ g i h'), by show i < (L.live.step _).count; rw [count_end]; exact hc⟩
  | destroy c => exact ⟨fun h' => h (all_destroy _ c i h'), hc⟩
  | scriptImport c g =>
    cases g with
    | false => exact ⟨h, hc⟩
    | true => exact grow (.importBegin c) (all_import _ c) rfl
  | _ => exact ⟨h, hc⟩

/-- A block handed to context `i`. -/
def Handed (L : Ledger) (b i : Nat) : Prop :=
  b < L.blocks ∧ i < L.live.count ∧
    ((L.owner b = .context i ∧ i ∈ L.live.all) ∨ (L.owner b = .freed ∧ i ∉ L.live.all))

theorem count_step (L : Ledger) (e : BEv) : L.live.count ≤ (L.step e).live.count := by
  cases e with
  | new b g o => cases g <;> simp [Ledger.step, Ledger.created, Live.step]
  | importBegin c b g o => cases g <;> simp [Ledger.step, Ledger.created, Live.step]
  | importEnd g => exact Nat.le_of_eq (count_end _ g).symm
  | scriptImport c g => cases g <;> simp [Ledger.step, Live.step]
  | _ => exact Nat.le_refl _

theorem handed_step {s : BSt} {L : Ledger} (r : Inv s L) {e : BEv} (ha : May L e) {b i : Nat} (h : Handed L b i) :
    Handed (L.step e) b i := by
  obtain ⟨hb, hi, ⟨ho, hl⟩ | ⟨ho, hl⟩⟩ := h
  · refine ⟨Nat.lt_of_lt_of_le hb (blocks_step L e), Nat.lt_of_lt_of_le hi (count_step L e), ?_⟩
    have hs := owner_step r ha hb (by rw [ho]; simp)
    by_cases hm : i ∈ (L.step e).live.all
    · exact Or.inl ⟨by rw [hs]; simp [settle, ho, hm], hm⟩
    · exact Or.inr ⟨by rw [hs]; simp [settle, ho, hm], hm⟩
  · obtain ⟨h1, h2⟩ := gone_step e hl hi
    refine ⟨Nat.lt_of_lt_of_le hb (blocks_step L e), h2, Or.inr ⟨?_, h1⟩⟩
    rw [owner_step r ha hb (by rw [ho]; simp)]
    simp [settle, ho]

theorem handed_run : ∀ (es : List BEv) {s : BSt} {L : Ledger}, Inv s L → MayRun L es → ∀ {b i : Nat}, Handed L b i →
    Handed (L.run es) b i
  | [], _, _, _, _, _, _, h => h
  | _ :: es, _, _, r, ha, _, _, h => by
    obtain ⟨_, _, r1⟩ := inv_step r ha.1
    exact handed_run es r1 ha.2 (handed_step r ha.1 h)

theorem lost_run : ∀ (es : List BEv) {s : BSt} {L : Ledger}, Inv s L → MayRun L es → ∀ {b : Nat}, b < L.blocks →
    L.owner b = .lost → (L.run es).owner b = .lost
  | [], _, _, _, _, _, _, h => h
  | e :: es, _, L, r, ha, b, hb, h => by
    obtain ⟨_, _, r1⟩ := inv_step r ha.1
    refine lost_run es r1 ha.2 (Nat.lt_of_lt_of_le hb (blocks_step _ e)) ?_
    rw [owner_step r ha.1 hb (by rw [h]; simp)]
    simp [settle, h]

/-- The host frees block `b` or hands it over. -/
def Parts (b : Nat) : BEv → Prop
  | .hostFree x => x = b
  | .new x good own => x = b ∧ good = true ∧ own = true
  | .importBegin _ x good own => x = b ∧ good = true ∧ own = true
  | _ => False

theorem host_step {s : BSt} {L : Ledger} (r : Inv s L) {e : BEv} {b : Nat} (hb : b < L.blocks)
    (hh : L.owner b = .host) (hp : ¬ Parts b e) : (L.step e).owner b = .host := by
  have created : ∀ (ev : Ev) (x : Nat) (good own : Bool), ¬ (x = b ∧ good = true ∧ own = true) →
      (L.created ev x good own).owner b = .host := by
    intro ev x good own h
    cases good with
    | false => exact hh
    | true =>
      show (if own then setOwner L.owner x (.context L.live.count) else L.owner) b = _
      cases own with
      | false => exact hh
      | true =>
        have : b ≠ x := by rintro rfl; exact h ⟨rfl, rfl, rfl⟩
        simp [setOwner, this, hh]
  cases e with
  | alloc => show setOwner _ _ _ b = _; rw [setOwner, if_neg (by omega)]; exact hh
  | hostFree x => show setOwner _ _ _ b = _; rw [setOwner, if_neg (fun h => hp h.symm)]; exact hh
  | new x good own => exact created _ x good own hp
  | importBegin c x good own => exact created _ x good own hp
  | importEnd g => show settle _ _ b = _; simp [settle, hh]
  | destroy c => show settle _ _ b = _; simp [settle, hh]
  | call c => exact hh
  | scriptImport c good =>
    cases good <;>
    · show setOwner _ _ _ b = _
      rw [setOwner, if_neg (by omega)]
      exact hh

theorem host_run : ∀ (es : List BEv) {s : BSt} {L : Ledger}, Inv s L → MayRun L es → ∀ {b : Nat}, b < L.blocks →
    L.owner b = .host → (∀ e ∈ es, ¬ Parts b e) → (L.run es).owner b = .host
  | [], _, _, _, _, _, _, h, _ => h
  | e :: es, _, L, r, ha, b, hb, h, hp => by
    obtain ⟨_, _, r1⟩ := inv_step r ha.1
    exact host_run es r1 ha.2 (Nat.lt_of_lt_of_le hb (blocks_step _ e)) (host_step r hb h (hp e (by simp)))
      fun e' he' => hp e' (List.mem_cons_of_mem _ he')

/-! ### C108 -/

theorem mayRun_append : ∀ (es fs : List BEv) (L : Ledger), MayRun L (es ++ fs) ↔ MayRun L es ∧ MayRun (L.run es) fs
  | [], fs, L => by simp [MayRun, Ledger.run]
  | e :: es, fs, L => by
    simp only [List.cons_append, MayRun, Ledger.run, mayRun_append es fs (L.step e), and_assoc]

theorem brun_append : ∀ (es fs : List BEv) (s : BSt), brun s (es ++ fs) = (brun s es).bind fun s => brun s fs
  | [], fs, s => rfl
  | e :: es, fs, s => by
    simp only [List.cons_append, brun]
    cases bstep s e with
    | ok s1 => exact brun_append es fs s1
    | ub => rfl

theorem run_append : ∀ (es fs : List BEv) (L : Ledger), L.run (es ++ fs) = (L.run es).run fs
  | [], _, _ => rfl
  | e :: es, fs, L => run_append es fs (L.step e)

/-- A host that keeps the rules: no block is read or freed after it was freed. -/
theorem C108_safe (es : List BEv) (ha : MayRun noBlocks es) : ∃ s, brun bstart es = .ok s := by
  obtain ⟨s, e, _⟩ := inv_run es inv_start ha
  exact ⟨s, e⟩

/-- The operation hands block `b` over to the context that it creates. -/
def HandsOver (s : BSt) (b : Nat) : BEv → Prop
  | .new x good own => x = b ∧ good = true ∧ own = true
  | .importBegin _ x good own => x = b ∧ good = true ∧ own = true
  | .scriptImport _ good => b = s.mem.length ∧ good = true
  | _ => False

/-- A block that was handed over is allocated exactly as long as the context that took it over is: freed with it and
not before, whatever else is done. -/
theorem C108_handed_over (es fs : List BEv) (e : BEv) {s : BSt} {b : Nat} (h0 : brun bstart es = .ok s)
    (hh : HandsOver s b e) (ha : MayRun noBlocks (es ++ e :: fs)) :
    ∃ s', brun bstart (es ++ e :: fs) = .ok s' ∧ (s'.mem[b]? = some true ↔ node s'.st.heap s.st.heap.length ≠ none) := by
  obtain ⟨ha1, ha2, ha3⟩ := (mayRun_append es (e :: fs) noBlocks).mp ha
  obtain ⟨s0, e0, r0⟩ := inv_run es inv_start ha1
  rw [h0] at e0
  cases e0
  obtain ⟨s1, e1, r1⟩ := inv_step r0 ha2
  obtain ⟨s2, e2, r2⟩ := inv_run fs r1 ha3
  have hin : ∀ x, ((noBlocks.run es).owner x).held = true → x < (noBlocks.run es).blocks := by
    intro x hx
    have := (r0.mem x).mpr hx
    rcases Nat.lt_or_ge x s.mem.length with h | h
    · rw [← r0.mlen]; exact h
    · rw [List.getElem?_eq_none h] at this; cases this
  have hH : Handed ((noBlocks.run es).step e) b (noBlocks.run es).live.count := by
    cases e with
    | new x good own =>
      obtain ⟨rfl, rfl, rfl⟩ := hh
      refine ⟨hin x (by rw [ha2.1]; rfl), Nat.lt_succ_self _, Or.inl ⟨?_, (all_new _ _).mpr (Or.inl rfl)⟩⟩
      simp [Ledger.step, Ledger.created, setOwner]
    | importBegin c x good own =>
      obtain ⟨rfl, rfl, rfl⟩ := hh
      refine ⟨hin x (by rw [ha2.1]; rfl), Nat.lt_succ_self _, Or.inl ⟨?_, (all_import _ c _).mpr (Or.inl rfl)⟩⟩
      simp [Ledger.step, Ledger.created, setOwner]
    | scriptImport c good =>
      obtain ⟨rfl, rfl⟩ := hh
      rw [r0.mlen]
      refine ⟨Nat.lt_succ_self _, Nat.lt_succ_self _, Or.inl ⟨?_, (all_import _ c _).mpr (Or.inl rfl)⟩⟩
      simp [Ledger.step, setOwner]
    | _ => exact hh.elim
  have hF := handed_run fs r1 ha3 hH
  refine ⟨s2, ?_, ?_⟩
  · rw [brun_append, h0]
    show brun s (e :: fs) = _
    rw [brun, e1]
    exact e2
  · rw [r2.mem b, r2.rep.live, r0.rep.count]
    obtain ⟨_, _, ⟨h1, h2⟩ | ⟨h1, h2⟩⟩ := hF
    · simp [h1, h2, Owner.held]
    · simp [h1, h2, Owner.held]

/-- A block that the host allocated and did not hand over to a context that accepted it stays allocated until the
host frees it. -/
theorem C108_host_keeps (es fs : List BEv) {s : BSt} (h0 : brun bstart es = .ok s)
    (ha : MayRun noBlocks (es ++ .alloc :: fs)) (hp : ∀ e ∈ fs, ¬ Parts s.mem.length e) :
    ∃ s', brun bstart (es ++ .alloc :: fs) = .ok s' ∧ s'.mem[s.mem.length]? = some true := by
  obtain ⟨ha1, ha2, ha3⟩ := (mayRun_append es (.alloc :: fs) noBlocks).mp ha
  obtain ⟨s0, e0, r0⟩ := inv_run es inv_start ha1
  rw [h0] at e0
  cases e0
  obtain ⟨s1, e1, r1⟩ := inv_step r0 ha2
  obtain ⟨s2, e2, r2⟩ := inv_run fs r1 ha3
  refine ⟨s2, ?_, ?_⟩
  · rw [brun_append, h0]
    show brun s (BEv.alloc :: fs) = _
    rw [brun, e1]
    exact e2
  · rw [r2.mem, r0.mlen, host_run fs r1 ha3 (b := (noBlocks.run es).blocks) (Nat.lt_succ_self _)
      (by simp [Ledger.step, setOwner]) (by rw [← r0.mlen]; exact hp)]
    rfl

/-- When all contexts are gone (`wr_destroyState`, `destroyState_frees_all`), what is still allocated is the host's
blocks and the copies of refused imports. -/
theorem C108_all_gone (es : List BEv) (ha : MayRun noBlocks es) :
    ∃ s, brun bstart es = .ok s ∧ ((∀ i, node s.st.heap i = none) → ∀ b, s.mem[b]? = some true →
      (noBlocks.run es).owner b = .host ∨ (noBlocks.run es).owner b = .lost) := by
  obtain ⟨s, e, r⟩ := inv_run es inv_start ha
  refine ⟨s, e, ?_⟩
  intro hn b hb
  have h := (r.mem b).mp hb
  cases ho : (noBlocks.run es).owner b with
  | host => exact Or.inl rfl
  | lost => exact Or.inr rfl
  | context i => exact absurd (hn i) ((r.rep.live i).mpr (r.own b i ho).1)
  | nobody => rw [ho] at h; cases h
  | freed => rw [ho] at h; cases h

/-- A refused block stays the caller's: wr_newContext and wr_import leave everything as it was. -/
theorem C108_refused (s : BSt) {b : Nat} (c : Nat) (own : Bool) (hb : s.mem[b]? = some true) :
    bstep s (.new b false own) = .ok s ∧ bstep s (.importBegin c b false own) = .ok s := by
  constructor <;>
  · show create s _ b false own = _
    rw [create, read, if_pos hb]; rfl

/-- sys::importByteCode of bytes that are refused: the copy is never freed, whatever is done after. -/
theorem C108_import_leaks (es fs : List BEv) (c : Nat) {s : BSt} (h0 : brun bstart es = .ok s)
    (ha : MayRun noBlocks (es ++ .scriptImport c false :: fs)) :
    ∃ s', brun bstart (es ++ .scriptImport c false :: fs) = .ok s' ∧ s'.mem[s.mem.length]? = some true := by
  obtain ⟨ha1, ha2, ha3⟩ := (mayRun_append es (.scriptImport c false :: fs) noBlocks).mp ha
  obtain ⟨s0, e0, r0⟩ := inv_run es inv_start ha1
  rw [h0] at e0
  cases e0
  obtain ⟨s1, e1, r1⟩ := inv_step r0 ha2
  obtain ⟨s2, e2, r2⟩ := inv_run fs r1 ha3
  refine ⟨s2, ?_, ?_⟩
  · rw [brun_append, h0]
    show brun s (BEv.scriptImport c false :: fs) = _
    rw [brun, e1]
    exact e2
  · rw [r2.mem, r0.mlen, lost_run fs r1 ha3 (b := (noBlocks.run es).blocks) (Nat.lt_succ_self _)
      (by simp [Ledger.step, setOwner])]
    rfl

theorem all_destroyed {s : St} {l : Live} (r : Rep s l) : l.count ∉ ((l.step .new).step (.destroy l.count)).all := by
  have h : ((l.step .new).step (.destroy l.count)).list = l.list.filter fun p => p.1 ≠ l.count := by
    simp [Live.step]
  intro hm
  obtain ⟨q, hq, hx⟩ := List.mem_flatMap.mp hm
  have hq' : q ∈ l.roots := by
    unfold Live.roots at hq ⊢
    rw [h] at hq
    rcases List.mem_append.mp hq with hq | hq
    · exact List.mem_append.mpr (Or.inl (List.mem_filter.mp hq).1)
    · exact List.mem_append.mpr (Or.inr hq)
  exact fresh_all r (List.mem_flatMap.mpr ⟨q, hq', hx⟩)

/-- wr_run with takeOwnership answers null in two cases the caller cannot tell apart: the block was refused, and is
still the caller's to free; the script failed, and the block is freed already. -/
theorem C108_run_ambiguous (es : List BEv) {b : Nat} (ha : MayRun noBlocks es)
    (hb : (noBlocks.run es).owner b = .host) (hu : Unused (noBlocks.run es) b) (ok d : Bool) :
    ∃ s, brun bstart es = .ok s ∧
      (∃ s1, wrRun s b false true ok d = .ok (s1, none) ∧ s1.mem[b]? = some true) ∧
      (∃ s2, wrRun s b true true false d = .ok (s2, none) ∧ s2.mem[b]? = some false) := by
  obtain ⟨s, e, r⟩ := inv_run es inv_start ha
  have hm : s.mem[b]? = some true := (r.mem b).mpr (by rw [hb]; rfl)
  refine ⟨s, e, ⟨s, ?_, hm⟩, ?_⟩
  · rw [wrRun, create, read, if_pos hm]; rfl
  · obtain ⟨s1, e1, r1⟩ := inv_step r (e := .new b true true) ⟨hb, fun _ _ => hu⟩
    have hc : s.st.heap.length ∈ ((noBlocks.run es).step (.new b true true)).live.all := by
      rw [r.rep.count]; exact (all_new _ _).mpr (Or.inl rfl)
    obtain ⟨s2, e2, r2⟩ := inv_step r1 (e := .destroy s.st.heap.length) hc
    refine ⟨s2, ?_, ?_⟩
    · change create s .new b true true = .ok s1 at e1
      change onContexts s1 (.destroy s.st.heap.length) = .ok s2 at e2
      rw [wrRun, e1]
      show (touch s1 s.st.heap.length).bind _ = _
      rw [touch_ok r1 hc]
      show (onContexts s1 (.destroy s.st.heap.length)).bind _ = _
      rw [e2]; rfl
    · have hlen : b < s2.mem.length := by
        rw [r2.mlen]
        show b < (noBlocks.run es).blocks
        rw [← r.mlen]
        rcases Nat.lt_or_ge b s.mem.length with h | h
        · exact h
        · rw [List.getElem?_eq_none h] at hm; cases hm
      have hne : ¬ s2.mem[b]? = some true := by
        rw [r2.mem b]
        have : (((noBlocks.run es).step (.new b true true)).step (.destroy s.st.heap.length)).owner b = .freed := by
          show settle _ (setOwner _ b (.context (noBlocks.run es).live.count)) b = _
          rw [r.rep.count]
          have hx := all_destroyed r.rep
          simp only [settle, setOwner, if_true]
          exact if_neg hx
        rw [this]; simp [Owner.held]
      rw [List.getElem?_eq_getElem hlen] at hne ⊢
      cases hv : s2.mem[b] with
      | false => rfl
      | true => rw [hv] at hne; exact absurd rfl hne

end Wrench.Blocks
