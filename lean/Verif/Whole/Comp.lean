import Verif.Whole.Value

/-
The code emitted for the steps of the expression compiler leaves the values of its stack.
-/
namespace Wrench.Whole
open Wrench.Vm Wrench.Peep Wrench.Ops

/-- Operand and slot stand for the same integer. -/
def Same (ρ : Vars) (x : Opnd) (s : Slot) : Prop := ∃ w, x.val ρ = some w ∧ s.val ρ = some w

inductive Match (ρ : Vars) : List Opnd → List Slot → Prop where
  | nil : Match ρ [] []
  | cons {x : Opnd} {s : Slot} {xs : List Opnd} {ss : List Slot} : Same ρ x s → Match ρ xs ss →
      Match ρ (x :: xs) (s :: ss)

theorem Match.length {ρ : Vars} {xs : List Opnd} {ss : List Slot} (h : Match ρ xs ss) : xs.length = ss.length := by
  induction h with
  | nil => rfl
  | cons _ _ ih => simp [ih]

theorem Match.get {ρ : Vars} {xs : List Opnd} {ss : List Slot} (h : Match ρ xs ss) {i : Nat} {x : Opnd}
    (hx : xs[i]? = some x) : ∃ s, ss[i]? = some s ∧ Same ρ x s := by
  induction h generalizing i with
  | nil => simp at hx
  | @cons x0 s0 xs ss h1 h2 ih =>
    cases i with
    | zero => simp at hx; subst hx; exact ⟨s0, rfl, h1⟩
    | succ i => simp at hx ⊢; exact ih hx

theorem Match.set {ρ : Vars} {xs : List Opnd} {ss : List Slot} (h : Match ρ xs ss) {i : Nat} {x : Opnd} {s : Slot}
    (hs : Same ρ x s) : Match ρ (xs.set i x) (ss.set i s) := by
  induction h generalizing i with
  | nil => exact .nil
  | @cons x0 s0 xs ss h1 h2 ih =>
    cases i with
    | zero => exact .cons hs h2
    | succ i => exact .cons h1 ih

/-- The same exchange on the slots, above anything. -/
theorem Match.swap {ρ : Vars} {xs xs' : List Opnd} {ss : List Slot} (h : Match ρ xs ss) {i j : Nat}
    (hx : Expr.swapAt i j xs = some xs') (base : List Slot) :
    ∃ ss', Expr.swapAt i j (ss ++ base) = some (ss' ++ base) ∧ Match ρ xs' ss' := by
  unfold Expr.swapAt at hx
  split at hx
  · next x y h1 h2 =>
    cases hx
    obtain ⟨s, g1, g2⟩ := h.get h1
    obtain ⟨t, g3, g4⟩ := h.get h2
    refine ⟨(ss.set i t).set j s, ?_, (h.set g4).set g2⟩
    have l1 := (List.getElem?_eq_some_iff.mp g1).1
    have l2 := (List.getElem?_eq_some_iff.mp g3).1
    unfold Expr.swapAt
    rw [List.getElem?_append_left l1, List.getElem?_append_left l2, g1, g3]
    simp only [Option.some.injEq]
    rw [List.set_append_left _ _ l1, List.set_append_left _ _ (by rw [List.length_set]; exact l2)]
  · simp at hx

/-- The code leaves values `st` on any stack. -/
def Comp (ρ : Vars) (ris : List (Op × List Byte)) (st : List Opnd) : Prop :=
  ∀ s : AS, ∃ ss r, orun ρ ris s = some ⟨ss ++ s.stk, r⟩ ∧ Match ρ st ss

/-- One byte only when it is the literal zero. -/
def Small (b : Code) : Prop := b = ⟨[Op.LiteralZero.code], [.LiteralZero]⟩ ∨ 2 ≤ b.rall.length

/-- What is known of an operand: small literals, code of parentheses that computes the value. -/
def OpOk (ρ : Vars) : Opnd → Prop
  | .var _ _ => True
  | .lit w => w.toNat < 2147483648
  | .paren c e => Small c ∧ ∃ ris, Inv c ris ∧ ((e.eval ρ).isSome = true → Comp ρ ris [.paren c e])
  | .res _ => False

theorem Desc.weaken {ops : List Op} {ris : List (Op × List Byte)} (h : Desc ops ris) (more : List (Op × List Byte)) :
    Desc ops (ris ++ more) := by
  induction ops generalizing ris with
  | nil => trivial
  | cons op ops ih =>
    obtain ⟨d, r', rfl, h1⟩ := h
    exact ⟨d, r' ++ more, rfl, fun hl => ih (h1 hl)⟩

theorem Desc.hide {ops : List Op} {ris : List (Op × List Byte)} (h : Desc ops ris)
    (ha : ops.any (fun op => !isLL op) = true) (ops' : List Op) (more : List (Op × List Byte)) :
    Desc (ops ++ ops') (ris ++ more) := by
  induction ops generalizing ris with
  | nil => simp at ha
  | cons op ops ih =>
    obtain ⟨d, r', rfl, h1⟩ := h
    refine ⟨d, r' ++ more, rfl, fun hl => ih (h1 hl) ?_⟩
    simpa [hl] using ha

theorem llLen_act {op : Op} (h : isLL op = true) : ∃ a, act op = some a ∧ dlen a = llLen op := by
  unfold isLL at h
  split at h <;> first | exact ⟨_, rfl, rfl⟩ | simp at h

theorem Inv.append {b c : Code} {ris rc : List (Op × List Byte)} (hb : Inv b ris) (hc : Inv c rc) :
    Inv ⟨c.rall ++ b.rall, if settled c then c.rops ++ b.rops else c.rops⟩ (rc ++ ris) := by
  refine ⟨by dsimp only; rw [enc_append, hb.enc, hc.enc], ?_, ?_⟩
  · intro p hp
    rcases List.mem_append.mp hp with hp | hp
    · exact hc.ok p hp
    · exact hb.ok p hp
  · dsimp only
    by_cases hs : settled c = true
    · rw [if_pos hs]
      unfold settled at hs
      rw [Bool.or_eq_true] at hs
      rcases hs with hs | hs
      · exact hc.desc.hide hs _ _
      · split at hs
        · next op hop =>
          have hd := hc.desc
          rw [hop] at hd ⊢
          obtain ⟨d, r', rfl, -⟩ := hd
          refine ⟨d, r' ++ ris, rfl, fun hl => ?_⟩
          obtain ⟨a, h1, h2⟩ := llLen_act hl
          have h3 := (hc.ok (op, d) (by simp)).length h1
          have h4 : c.rall.length = llLen op + 1 := of_decide_eq_true hs
          rw [hc.enc] at h4
          simp only [Whole.enc, List.length_append, List.length_reverse, List.length_cons] at h4
          cases r' with
          | nil => exact hb.desc
          | cons p r' =>
            simp only [Whole.enc, List.length_append, List.length_cons] at h4
            omega
        · simp at hs
    · rw [if_neg hs]
      exact hc.desc.weaken ris

theorem comp_emit {neg : Word32 → Word32} {tame : Bool} {ρ : Vars} {b b' : Code} {ris : List (Op × List Byte)}
    {op : Op} {d : List Byte} (hi : Inv b ris) (he : isExpr op = true) (hok : OkIns (op, d))
    (h : emitS neg tame b op d = some b') {Q : List Opnd → List Opnd → Prop}
    (hs : ∀ st st' ss base r, Q st st' → Match ρ st ss →
      ∃ ss', ostep ρ (op, d) ⟨ss ++ base, r⟩ = some ⟨ss' ++ base, r⟩ ∧ Match ρ st' ss') :
    ∃ ris', Inv b' ris' ∧ (2 ≤ (enc ris).length → 2 ≤ (enc ris').length) ∧
      ∀ st st', Q st st' → Comp ρ ris st → Comp ρ ris' st' := by
  obtain ⟨ris', h1, h2, h2'⟩ := emit_good (ρ := ρ) hi he hok h
  refine ⟨ris', h1, h2', fun st st' hq hc s => ?_⟩
  obtain ⟨ss, r, h3, h4⟩ := hc s
  obtain ⟨ss', h5, h6⟩ := hs st st' ss s.stk r hq h4
  obtain ⟨r', h7⟩ := h2 s ⟨ss' ++ s.stk, r⟩ (by rw [orun, h3]; exact h5)
  exact ⟨ss', r', h7, h6⟩

/-- All values are there. -/
def Vals (ρ : Vars) (st : List Opnd) : Prop := ∀ x ∈ st, (x.val ρ).isSome = true

theorem ofNat_byte {n : Nat} (h : n < 256) : (BitVec.ofNat 8 n).toNat = n := by
  rw [BitVec.toNat_ofNat]; omega

/-- One step of the expression compiler. -/
theorem item_good {neg : Word32 → Word32} {tame : Bool} {ρ : Vars} {b b' : Code} {ris : List (Op × List Byte)}
    {i : Expr.Instr Opnd} (hi : Inv b ris) (hf : i.fits (OpOk ρ)) (h : itemRef neg tame b i = some b') :
    ∃ ris', Inv b' ris' ∧ (2 ≤ (enc ris).length → 2 ≤ (enc ris').length) ∧
      ∀ st st', (Expr.exec (interp ρ) i st = some st' ∧ Vals ρ st') → Comp ρ ris st → Comp ρ ris' st' := by
  cases i with
  | load o =>
    cases o with
    | var v i =>
      refine comp_emit hi (op := loadOp v) (d := [i]) ?_ ?_ h ?_
      · cases v <;> rfl
      · cases v <;> exact okIns_plain rfl rfl (by simp)
      · rintro st st' ss base r ⟨hx, hv⟩ hm
        cases hx
        obtain ⟨w, hw⟩ := Option.isSome_iff_exists.mp (hv (.var v i) (by simp))
        refine ⟨.ref v i :: ss, ?_, .cons ⟨w, hw, hw⟩ hm⟩
        have : ρ v i = some w := hw
        have ha : act (loadOp v) = some (.load v) := by cases v <;> rfl
        simp [ostep, ha, astep, var1, pushO, look, this]
    | lit w =>
      obtain ⟨k, h1, h2, h3, h4⟩ := pushInt_ok hf
      refine comp_emit hi (op := (Cc.pushInt w).1) (d := (Cc.pushInt w).2) h4 h3 h ?_
      rintro st st' ss base r ⟨hx, hv⟩ hm
      cases hx
      refine ⟨.int w :: ss, ?_, .cons ⟨w, rfl, rfl⟩ hm⟩
      simp [ostep, h1, astep, pushO, h2]
    | paren c e =>
      obtain ⟨-, rc, h1, h2⟩ := hf
      simp only [itemRef, Option.some.injEq] at h
      subst h
      refine ⟨rc ++ ris, hi.append h1, ?_, ?_⟩
      · rw [enc_append, List.length_append]; omega
      rintro st st' ⟨hx, hv⟩ hc s
      cases hx
      obtain ⟨ss, r, h3, h4⟩ := hc s
      obtain ⟨ss2, r2, h5, h6⟩ := h2 (hv (.paren c e) (by simp)) ⟨ss ++ s.stk, r⟩
      refine ⟨ss2 ++ ss, r2, ?_, ?_⟩
      · rw [orun_append, h3, List.append_assoc]; exact h5
      · cases h6 with
        | cons h7 h8 => cases h8; exact .cons h7 h4
    | res w => exact hf.elim
  | stackSwap n =>
    have hn : n < 256 := hf
    refine comp_emit hi (op := .StackSwap) (d := [BitVec.ofNat 8 n]) rfl (okIns_plain rfl rfl (by simp)) h ?_
    rintro st st' ss base r ⟨hx, hv⟩ hm
    simp only [Expr.exec] at hx
    split at hx
    · simp at hx
    · next h0 =>
      obtain ⟨ss', h1, h2⟩ := hm.swap hx base
      refine ⟨ss', ?_, h2⟩
      simp only [ostep, show act .StackSwap = some .swap from rfl, Option.bind_some, astep, var1, ofNat_byte hn,
        if_neg h0, h1, Option.map_some]
  | swapTwoToTop p q =>
    have hn : p < 256 ∧ q < 256 := hf
    refine comp_emit hi (op := .SwapTwoToTop) (d := [BitVec.ofNat 8 p, BitVec.ofNat 8 q]) rfl
      (okIns_plain rfl rfl (by simp)) h ?_
    rintro st st' ss base r ⟨hx, hv⟩ hm
    simp only [Expr.exec] at hx
    split at hx
    · simp at hx
    · next h0 =>
      rw [Option.bind_eq_some_iff] at hx
      obtain ⟨st1, hx1, hx2⟩ := hx
      obtain ⟨ss1, h1, h2⟩ := hm.swap hx1 base
      obtain ⟨ss', h3, h4⟩ := h2.swap hx2 base
      refine ⟨ss', ?_, h4⟩
      simp only [ostep, show act .SwapTwoToTop = some .swap2 from rfl, Option.bind_some, astep, var2, ofNat_byte hn.1,
        ofNat_byte hn.2, if_neg h0, h1, h3, Option.map_some]
  | app o =>
    cases o with
    | pre u =>
      have key : ∀ (v : Un) (op : Op), u = v.op → opOf (.pre v.op) = some op → isExpr op = true → OkIns (op, []) →
          ∃ ris', Inv b' ris' ∧ (2 ≤ (enc ris).length → 2 ≤ (enc ris').length) ∧
            ∀ st st', (Expr.exec (interp ρ) (.app (.pre u)) st = some st' ∧ Vals ρ st') → Comp ρ ris st →
              Comp ρ ris' st' := by
        intro v op hu ho h1 h2
        subst hu
        refine comp_emit hi h1 h2 (by simpa [itemRef, plainIns, ho] using h) ?_
        rintro st st' ss base r ⟨hx, hv⟩ hm
        cases st with
        | nil => simp [Expr.exec] at hx
        | cons x st =>
          simp only [Expr.exec, Option.some.injEq] at hx
          subst hx
          cases hm with
          | @cons _ s _ ss h3 h4 =>
            obtain ⟨w, hw, hsw⟩ := h3
            refine ⟨.int (unSpec v w) :: ss, ostep_un ho hsw, .cons ⟨unSpec v w, ?_, rfl⟩ h4⟩
            have hin : ((interp ρ).pre v.op x).val ρ = (x.val ρ).map (unSpec v) := by cases v <;> rfl
            rw [hin, hw]
            rfl
      cases u with
      | neg => exact key .neg .Negate rfl rfl rfl (okIns_plain rfl rfl (by simp))
      | lnot => exact key .lnot .LogicalNot rfl rfl rfl (okIns_plain rfl rfl (by simp))
      | bnot => exact key .bnot .BitwiseNOT rfl rfl rfl (okIns_plain rfl rfl (by simp))
      | toInt => simp [itemRef, plainIns, opOf] at h
      | toFloat => simp [itemRef, plainIns, opOf] at h
    | post q => simp [itemRef, plainIns, opOf] at h
    | bin o =>
      refine comp_emit hi (op := binOp o) (d := []) (by cases o <;> rfl)
        (by cases o <;> exact okIns_plain rfl rfl (by simp)) (by simpa [itemRef, plainIns, opOf] using h) ?_
      rintro st st' ss base r ⟨hx, hv⟩ hm
      cases st with
      | nil => simp [Expr.exec] at hx
      | cons x st =>
        cases st with
        | nil => simp [Expr.exec] at hx
        | cons y st =>
          simp only [Expr.exec, Option.some.injEq] at hx
          subst hx
          cases hm with
          | @cons _ s _ ss h3 h4 =>
            cases h4 with
            | @cons _ t _ ss h5 h6 =>
              obtain ⟨a, ha, hsa⟩ := h3
              obtain ⟨c, hcv, hsc⟩ := h5
              obtain ⟨w, hw⟩ := Option.isSome_iff_exists.mp (hv _ (List.mem_cons_self ..))
              have hw' : ((x.val ρ).bind fun a => (y.val ρ).bind fun c => binSpec o a c) = some w := hw
              rw [ha, hcv] at hw'
              exact ⟨.int w :: ss, ostep_bin hsa hsc hw', .cons ⟨w, hw, rfl⟩ h6⟩

/-- A value that is missing stays missing. -/
theorem exec_vals {ρ : Vars} {i : Expr.Instr Opnd} {st st' : List Opnd}
    (hx : Expr.exec (interp ρ) i st = some st') (hv : Vals ρ st') : Vals ρ st := by
  have swap : ∀ {i j : Nat} {st st' : List Opnd}, Expr.swapAt i j st = some st' → Vals ρ st' → Vals ρ st := by
    intro i j st st' hs hv x hx
    unfold Expr.swapAt at hs
    split at hs
    · next a b h1 h2 =>
      cases hs
      obtain ⟨k, hk⟩ := List.mem_iff_getElem?.mp hx
      have l1 := (List.getElem?_eq_some_iff.mp h1).1
      have l2 := (List.getElem?_eq_some_iff.mp h2).1
      by_cases e1 : k = j
      · subst e1
        rw [h2] at hk
        cases hk
        by_cases e2 : i = k
        · subst e2
          rw [h1] at h2
          cases h2
          refine hv _ (List.mem_iff_getElem?.mpr ⟨i, ?_⟩)
          rw [List.getElem?_set_self (by simpa using l1)]
        · refine hv _ (List.mem_iff_getElem?.mpr ⟨i, ?_⟩)
          rw [List.getElem?_set_ne (fun e => e2 e.symm), List.getElem?_set_self l1]
      · by_cases e2 : k = i
        · subst e2
          rw [h1] at hk
          cases hk
          refine hv _ (List.mem_iff_getElem?.mpr ⟨j, ?_⟩)
          rw [List.getElem?_set_self (by simpa using l2)]
        · refine hv x (List.mem_iff_getElem?.mpr ⟨k, ?_⟩)
          rw [List.getElem?_set_ne (fun e => e1 e.symm), List.getElem?_set_ne (fun e => e2 e.symm)]
          exact hk
    · simp at hs
  cases i with
  | load v =>
    cases hx
    exact fun x hx => hv x (by simp [hx])
  | stackSwap n =>
    simp only [Expr.exec] at hx
    split at hx
    · simp at hx
    · exact swap hx hv
  | swapTwoToTop a b =>
    simp only [Expr.exec] at hx
    split at hx
    · simp at hx
    · rw [Option.bind_eq_some_iff] at hx
      obtain ⟨st1, h1, h2⟩ := hx
      exact swap h1 (swap h2 hv)
  | app o =>
    cases o with
    | pre u =>
      cases st with
      | nil => simp [Expr.exec] at hx
      | cons x st =>
        simp only [Expr.exec, Option.some.injEq] at hx
        subst hx
        intro y hy
        rcases List.mem_cons.mp hy with rfl | hy
        · have := hv _ (List.mem_cons_self ..)
          have key : ∀ v : Un, ((Opnd.val ρ y).map (unSpec v)).isSome = true → (Opnd.val ρ y).isSome = true := by
            intro v h
            rwa [Option.isSome_map] at h
          cases u with
          | neg => exact key .neg this
          | lnot => exact key .lnot this
          | bnot => exact key .bnot this
          | toInt => exact absurd (show (none : Option Word32).isSome = true from this) (by simp)
          | toFloat => exact absurd (show (none : Option Word32).isSome = true from this) (by simp)
        · exact hv y (by simp [hy])
    | post q =>
      cases st with
      | nil => simp [Expr.exec] at hx
      | cons x st =>
        simp only [Expr.exec, Option.some.injEq] at hx
        subst hx
        have := hv _ (List.mem_cons_self ..)
        simp [interp, Opnd.val] at this
    | bin b =>
      cases st with
      | nil => simp [Expr.exec] at hx
      | cons x st =>
        cases st with
        | nil => simp [Expr.exec] at hx
        | cons y st =>
          simp only [Expr.exec, Option.some.injEq] at hx
          subst hx
          have := hv _ (List.mem_cons_self ..)
          obtain ⟨w, hw⟩ := Option.isSome_iff_exists.mp this
          have hw' : ((x.val ρ).bind fun a => (y.val ρ).bind fun c => binSpec b a c) = some w := hw
          simp only [Option.bind_eq_some_iff] at hw'
          obtain ⟨a, ha, c, hc, -⟩ := hw'
          intro z hz
          rcases List.mem_cons.mp hz with rfl | hz
          · rw [ha]; rfl
          · rcases List.mem_cons.mp hz with rfl | hz
            · rw [hc]; rfl
            · exact hv z (by simp [hz])

theorem run_vals {ρ : Vars} {code : List (Expr.Instr Opnd)} {st st' : List Opnd}
    (hx : Expr.run (interp ρ) code st = some st') (hv : Vals ρ st') : Vals ρ st := by
  induction code generalizing st with
  | nil => cases hx; exact hv
  | cons i is ih =>
    simp only [Expr.run, Option.bind_eq_some_iff] at hx
    obtain ⟨st1, h1, h2⟩ := hx
    exact exec_vals h1 (ih h2)

theorem pushOpcode_zero {neg : Word32 → Word32} {op : Op} (he : isExpr op = true) :
    pushOpcode neg ⟨[Op.LiteralZero.code], [.LiteralZero]⟩ op =
      some ((⟨[Op.LiteralZero.code], [.LiteralZero]⟩ : Code).push op) := by
  cases op <;> first | rfl | (simp [isExpr, isCmp, llCmp, isArith, skipLoad] at he; done)

theorem plainIns_expr {ρ : Vars} {i : Expr.Instr Opnd} (hf : i.fits (OpOk ρ)) {p : Op × List Byte}
    (h : plainIns i = some p) : isExpr p.1 = true ∧ OkIns p := by
  cases i with
  | load o =>
    cases o with
    | var v i =>
      cases h
      cases v
      · exact ⟨rfl, okIns_plain rfl rfl (by simp)⟩
      · exact ⟨rfl, okIns_plain rfl rfl (by simp)⟩
    | lit w =>
      obtain ⟨k, h1, h2, h3, h4⟩ := pushInt_ok hf
      cases h
      exact ⟨h4, h3⟩
    | paren c e => cases h
    | res w => cases h
  | stackSwap n => cases h; exact ⟨rfl, okIns_plain rfl rfl (by simp)⟩
  | swapTwoToTop a b => cases h; exact ⟨rfl, okIns_plain rfl rfl (by simp)⟩
  | app o =>
    cases o with
    | pre u =>
      cases u <;> first
        | (cases h; exact ⟨rfl, okIns_plain rfl rfl (by simp)⟩)
        | (simp [plainIns, opOf] at h; done)
    | post q => simp [plainIns, opOf] at h
    | bin o => cases h; cases o <;> exact ⟨rfl, okIns_plain rfl rfl (by simp)⟩

theorem itemRef_plain {neg : Word32 → Word32} {tame : Bool} {b b' : Code} {i : Expr.Instr Opnd}
    (h : itemRef neg tame b i = some b') :
    (∃ c e, i = .load (.paren c e) ∧ b' = ⟨c.rall ++ b.rall, if settled c then c.rops ++ b.rops else c.rops⟩) ∨
      ∃ p, plainIns i = some p ∧ emitS neg tame b p.1 p.2 = some b' := by
  unfold itemRef at h
  split at h
  · cases h; exact .inl ⟨_, _, rfl, rfl⟩
  · rw [Option.bind_eq_some_iff] at h; exact .inr h

theorem emitS_push_len {neg : Word32 → Word32} {tame : Bool} {b b' : Code} {op : Op} {d : List Byte}
    (h : emitS neg tame b op d = some b') (hp : pushOpcode neg b op = some (b.push op)) :
    b'.rall.length = d.length + b.rall.length + 1 := by
  unfold emitS at h
  split at h
  · cases h; simp [Code.push]; omega
  · simp only [emit, hp, Option.bind_eq_bind, Option.bind_some, Option.pure_def, Option.some.injEq] at h
    subst h
    simp [Code.push]; omega

theorem item_small {neg : Word32 → Word32} {tame : Bool} {ρ : Vars} {b b' : Code} {ris : List (Op × List Byte)}
    {i : Expr.Instr Opnd} (hi : Inv b ris) (hf : i.fits (OpOk ρ)) (hs : Small b) (h : itemRef neg tame b i = some b') :
    Small b' := by
  obtain ⟨ris', h1, h2, -⟩ := item_good hi hf h
  rcases hs with rfl | hs
  · right
    rcases itemRef_plain h with ⟨c, e, rfl, rfl⟩ | ⟨p, h3, h4⟩
    · have hc : Small c := hf.1
      rcases hc with rfl | hc <;> simp <;> omega
    · obtain ⟨he, hok⟩ := plainIns_expr hf h3
      rw [emitS_push_len h4 (pushOpcode_zero he)]
      simp
  · right
    rw [h1.enc]
    rw [hi.enc] at hs
    exact h2 hs

theorem load_small {neg : Word32 → Word32} {tame : Bool} {ρ : Vars} {b' : Code} {v : Opnd} (hf : OpOk ρ v)
    (h : itemRef neg tame ⟨[], []⟩ (.load v) = some b') : Small b' := by
  rcases itemRef_plain h with ⟨c, e, hv, rfl⟩ | ⟨p, h3, h4⟩
  · cases hv
    have hc : Small c := hf.1
    simpa using hc
  · cases v with
    | var v i =>
      cases h3
      right
      rw [emitS_push_len h4 rfl]
      simp
    | lit w =>
      cases h3
      by_cases hw : w = 0
      · subst hw
        left
        cases tame <;> (cases h4; rfl)
      · right
        rw [emitS_push_len h4 rfl]
        have : 1 ≤ (Cc.pushInt w).2.length := by
          unfold Cc.pushInt
          rw [if_neg hw]
          split
          · simp
          · split <;> simp [pack16, pack32]
        simp; omega
    | paren c e => cases h3
    | res w => cases h3

theorem emitAll_small {neg : Word32 → Word32} {tame : Bool} {ρ : Vars} {code : List (Expr.Instr Opnd)} {b b' : Code}
    {ris : List (Op × List Byte)} (hi : Inv b ris) (hf : ∀ i ∈ code, i.fits (OpOk ρ)) (hs : Small b)
    (h : emitAll (itemRef neg tame) b code = some b') : Small b' := by
  induction code generalizing b ris with
  | nil => cases h; exact hs
  | cons i is ih =>
    simp only [emitAll, Option.bind_eq_some_iff] at h
    obtain ⟨b1, h3, h4⟩ := h
    obtain ⟨r1, h5, -, -⟩ := item_good hi (hf i (by simp)) h3
    exact ih h5 (fun j hj => hf j (by simp [hj])) (item_small hi (hf i (by simp)) hs h3) h4

theorem run_first {ρ : Vars} {code : List (Expr.Instr Opnd)} {x : Opnd} (h : Expr.run (interp ρ) code [] = some [x]) :
    ∃ v is, code = .load v :: is := by
  cases code with
  | nil => cases h
  | cons i is =>
    simp only [Expr.run, Option.bind_eq_some_iff] at h
    obtain ⟨st, h1, -⟩ := h
    cases i with
    | load v => exact ⟨v, is, rfl⟩
    | stackSwap n =>
      exfalso
      simp only [Expr.exec] at h1
      split at h1
      · simp at h1
      · simp [Expr.swapAt] at h1
    | swapTwoToTop a b =>
      exfalso
      simp only [Expr.exec] at h1
      split at h1
      · simp at h1
      · simp [Expr.swapAt] at h1
    | app o => cases o <;> simp [Expr.exec] at h1

/-- `f` does what the reference does, where it does something. -/
def Fine (ρ : Vars) (neg : Word32 → Word32) (tame : Bool) (f : Code → Expr.Instr Opnd → Option Code) : Prop :=
  ∀ b i b', i.fits (OpOk ρ) → f b i = some b' → itemRef neg tame b i = some b'

theorem Fine.emitAll {ρ : Vars} {neg : Word32 → Word32} {tame : Bool} {f : Code → Expr.Instr Opnd → Option Code}
    (hg : Fine ρ neg tame f) {code : List (Expr.Instr Opnd)} {b b' : Code} (hf : ∀ i ∈ code, i.fits (OpOk ρ))
    (h : emitAll f b code = some b') : emitAll (itemRef neg tame) b code = some b' := by
  induction code generalizing b with
  | nil => exact h
  | cons i is ih =>
    simp only [Whole.emitAll, Option.bind_eq_some_iff] at h ⊢
    obtain ⟨b1, h3, h4⟩ := h
    exact ⟨b1, hg b i b1 (hf i (by simp)) h3, ih (fun j hj => hf j (by simp [hj])) h4⟩

theorem fine_ref (ρ : Vars) (neg : Word32 → Word32) (tame : Bool) : Fine ρ neg tame (itemRef neg tame) :=
  fun _ _ _ _ h => h

theorem getLast_zero {c : Code} {rc : List (Op × List Byte)} (hs : Small c) (h : c.rall.length = 1) :
    c = ⟨[Op.LiteralZero.code], [.LiteralZero]⟩ := by
  rcases hs with hs | hs
  · exact hs
  · omega

/-- Code without index instructions is appended as it is. -/
theorem appendCode_plain {neg : Word32 → Word32} {b c : Code} {rc : List (Op × List Byte)} (hc : Inv c rc)
    (hs : Small c) : appendCode neg b c = some ⟨c.rall ++ b.rall, c.rops ++ b.rops⟩ := by
  have hz : ∀ b : Code, pushOpcode neg b .LiteralZero = some (b.push .LiteralZero) := by
    intro b
    unfold pushOpcode
    cases b.rops with
    | nil => rfl
    | cons last rest => rfl
  have hsingle : (if c.rall.length = 1 then
      match c.rops.getLast? with
      | some op => pushOpcode neg b op
      | none => none
    else some (⟨c.rall ++ b.rall, c.rops ++ b.rops⟩ : Code)) = some ⟨c.rall ++ b.rall, c.rops ++ b.rops⟩ := by
    split
    · next h1 =>
      obtain rfl := getLast_zero (rc := rc) hs h1
      exact hz b
    · rfl
  have hx : ∀ op ops, c.rops = op :: ops → op ≠ .Index ∧ op ≠ .IndexLiteral8 ∧ op ≠ .IndexLiteral16 := by
    intro op ops ho
    have hd := hc.desc
    rw [ho] at hd
    obtain ⟨d, r', rfl, -⟩ := hd
    exact (hc.ok (op, d) (by simp)).index
  unfold appendCode
  dsimp only
  split
  · next h1 _ => exact absurd rfl (hx _ _ h1).2.2
  · next h1 _ => exact absurd rfl (hx _ _ h1).2.2
  · next h1 _ => exact absurd rfl (hx _ _ h1).2.1
  · next h1 _ => exact absurd rfl (hx _ _ h1).2.1
  · next h1 _ => exact absurd rfl (hx _ _ h1).1
  · exact hsingle

theorem fine_calm (ρ : Vars) (neg : Word32 → Word32) (tame : Bool) : Fine ρ neg tame (itemCalm neg tame) := by
  intro b i b' hf h
  unfold itemCalm at h
  split at h
  · next c e =>
    split at h
    · next hq =>
      obtain ⟨hs, rc, hc, -⟩ := hf
      rw [appendCode_plain hc hs] at h
      cases h
      simp only [itemRef, Option.some.injEq, Code.mk.injEq, true_and]
      rw [Bool.or_eq_true] at hq
      rcases hq with hq | hq
      · rw [if_pos hq]
      · rw [List.isEmpty_iff] at hq
        rw [hq, List.append_nil, ite_self]
    · simp at h
  · next hne =>
    unfold itemRef
    split
    · next c e => exact absurd rfl (hne c e)
    · exact h

theorem emitAll_good {neg : Word32 → Word32} {tame : Bool} {ρ : Vars} {code : List (Expr.Instr Opnd)} {b b' : Code}
    {ris : List (Op × List Byte)} (hi : Inv b ris) (hf : ∀ i ∈ code, i.fits (OpOk ρ))
    (h : emitAll (itemRef neg tame) b code = some b') :
    ∃ ris', Inv b' ris' ∧ ∀ st st', Expr.run (interp ρ) code st = some st' → Vals ρ st' → Comp ρ ris st →
      Comp ρ ris' st' := by
  induction code generalizing b ris with
  | nil => cases h; exact ⟨ris, hi, fun st st' hx _ hc => by cases hx; exact hc⟩
  | cons i is ih =>
    simp only [emitAll, Option.bind_eq_some_iff] at h
    obtain ⟨b1, h3, h4⟩ := h
    obtain ⟨r1, h5, -, h6⟩ := item_good hi (hf i (by simp)) h3
    obtain ⟨r2, h7, h8⟩ := ih h5 (fun j hj => hf j (by simp [hj])) h4
    refine ⟨r2, h7, fun st st' hx hv hc => ?_⟩
    simp only [Expr.run, Option.bind_eq_some_iff] at hx
    obtain ⟨st1, h1, h2⟩ := hx
    exact h8 st1 st' h2 hv (h6 st st1 ⟨h1, run_vals h2 hv⟩ hc)

/-! ### Expressions -/

/-- The placement of operands is one the compiler gets right (C28). -/
def lucid (T : Expr.Tree Opnd) : Prop :=
  T.births ≤ 2 ∨ T.births ≤ 253 ∧ Expr.cleanRun (Expr.initial T) = true

theorem finish_good {neg : Word32 → Word32} {tame : Bool} {ρ : Vars} {T : Expr.Tree Opnd} {c : Code}
    {f : Code → Expr.Instr Opnd → Option Code} (hg : Fine ρ neg tame f) (hok : T.ok)
    (hl : lucid T) (ha : T.all (OpOk ρ)) (h : finish f T = some c) :
    Small c ∧ ∃ ris, Inv c ris ∧ ∀ x w, (T.eval (interp ρ)).val ρ = some w → Opnd.val ρ x = some w → Comp ρ ris [x] := by
  obtain ⟨code, h1, h2⟩ := Expr.compile_tree (interp_lawful ρ) hok (by
      rcases hl with hl | hl
      · omega
      · exact hl.1) (by
      rcases hl with hl | hl
      · exact .inr hl
      · exact .inl hl.2) []
  unfold finish at h
  rw [h1, Option.bind_some] at h
  have hfits := Expr.compile_fits ha h1
  replace h := hg.emitAll hfits h
  obtain ⟨ris, h3, h4⟩ := emitAll_good (ρ := ρ) (b := ⟨[], []⟩) (ris := []) ⟨rfl, by simp, trivial⟩ hfits h
  have hsm : Small c := by
    obtain ⟨v, is, rfl⟩ := run_first h2
    simp only [emitAll, Option.bind_eq_some_iff] at h
    obtain ⟨b1, h5, h6⟩ := h
    have hv := hfits (.load v) (by simp)
    obtain ⟨r1, h7, -, -⟩ := item_good (ρ := ρ) (b := ⟨[], []⟩) (ris := []) ⟨rfl, by simp, trivial⟩ hv h5
    exact emitAll_small h7 (fun j hj => hfits j (by simp [hj])) (load_small hv h5) h6
  refine ⟨hsm, ?_⟩
  refine ⟨ris, h3, fun x w hw hx s => ?_⟩
  obtain ⟨ss, r, h5, h6⟩ := h4 [] _ h2 (by
    intro y hy
    rw [List.mem_singleton] at hy
    rw [hy, hw]; rfl) (fun s => ⟨[], s.regs, rfl, .nil⟩) s
  refine ⟨ss, r, h5, ?_⟩
  cases h6 with
  | cons h7 h8 =>
    cases h8
    obtain ⟨w', h9, h10⟩ := h7
    rw [hw] at h9
    cases h9
    exact .cons ⟨w, hx, h10⟩ .nil

/-- The placement is right outside parentheses and inside every pair of them. -/
def IE.clearIn (f : Code → Expr.Instr Opnd → Option Code) : IE → Prop
  | .paren e => (∀ T, prep f e = some T → lucid T) ∧ e.clearIn f
  | .pre _ e => e.clearIn f
  | .bin _ l r => l.clearIn f ∧ r.clearIn f
  | _ => True

def IE.clear (f : Code → Expr.Instr Opnd → Option Code) (e : IE) : Prop :=
  (∀ T, prep f e = some T → lucid T) ∧ e.clearIn f

theorem prep_shape {f : Code → Expr.Instr Opnd → Option Code} {e : IE} {T : Expr.Tree Opnd} (h : prep f e = some T) :
    T.level = e.level ∧ T.isLeaf = e.plain ∧ T.births = e.births ∧ (e.ok → T.ok) := by
  induction e generalizing T with
  | var v i => cases h; exact ⟨rfl, rfl, rfl, fun _ => trivial⟩
  | lit w => cases h; exact ⟨rfl, rfl, rfl, fun _ => trivial⟩
  | paren e ih =>
    simp only [prep, Option.map_eq_some_iff] at h
    obtain ⟨c, -, rfl⟩ := h
    exact ⟨rfl, rfl, rfl, fun _ => trivial⟩
  | pre u e ih =>
    simp only [prep, Option.map_eq_some_iff] at h
    obtain ⟨T, h1, rfl⟩ := h
    obtain ⟨i1, i2, i3, i4⟩ := ih h1
    refine ⟨rfl, rfl, ?_, fun ho => ⟨i4 ho.1, by rw [i1]; exact ho.2⟩⟩
    simp only [Expr.Tree.births, IE.births, i2, i3]
  | bin b l r ihl ihr =>
    simp only [prep, Option.bind_eq_some_iff, Option.map_eq_some_iff] at h
    obtain ⟨L, h1, R, h2, rfl⟩ := h
    obtain ⟨i1, i2, i3, i4⟩ := ihl h1
    obtain ⟨j1, j2, j3, j4⟩ := ihr h2
    refine ⟨rfl, rfl, ?_, fun ho => ⟨i4 ho.1, j4 ho.2.1, by rw [i1]; exact ho.2.2.1, by rw [j1]; exact ho.2.2.2⟩⟩
    simp only [Expr.Tree.births, IE.births, i2, i3, j2, j3]

theorem IE.inner_clear {f : Code → Expr.Instr Opnd → Option Code} {e : IE} (h : e.inner) : e.clearIn f := by
  induction e with
  | var v i => trivial
  | lit w => trivial
  | paren e ih => exact ⟨fun T hT => .inl (by rw [(prep_shape hT).2.2.1]; exact h.1), ih h.2⟩
  | pre u e ih => exact ih h
  | bin b l r ihl ihr => exact ⟨ihl h.1, ihr h.2⟩

theorem IE.few_clear {f : Code → Expr.Instr Opnd → Option Code} {e : IE} (h : e.few) : e.clear f :=
  ⟨fun T hT => .inl (by rw [(prep_shape hT).2.2.1]; exact h.1), IE.inner_clear h.2⟩

theorem prep_good {neg : Word32 → Word32} {tame : Bool} {ρ : Vars} {e : IE} {T : Expr.Tree Opnd}
    {f : Code → Expr.Instr Opnd → Option Code} (hg : Fine ρ neg tame f) (ho : e.ok)
    (hc : e.clearIn f) (h : prep f e = some T) :
    T.all (OpOk ρ) ∧ (T.eval (interp ρ)).val ρ = e.eval ρ := by
  induction e generalizing T with
  | var v i => cases h; exact ⟨trivial, rfl⟩
  | lit w => cases h; exact ⟨ho, rfl⟩
  | paren e ih =>
    simp only [prep, Option.map_eq_some_iff, Option.bind_eq_some_iff] at h
    obtain ⟨c, ⟨T, h1, h2⟩, rfl⟩ := h
    obtain ⟨h3, h4⟩ := ih ho hc.2 h1
    refine ⟨?_, rfl⟩
    obtain ⟨hsm, ris, h5, h6⟩ := finish_good hg ((prep_shape h1).2.2.2 ho) (hc.1 T h1) h3 h2
    refine ⟨hsm, ris, h5, fun hs => ?_⟩
    obtain ⟨w, hw⟩ := Option.isSome_iff_exists.mp hs
    exact h6 _ w (by rw [h4]; exact hw) hw
  | pre u e ih =>
    simp only [prep, Option.map_eq_some_iff] at h
    obtain ⟨T, h1, rfl⟩ := h
    obtain ⟨h3, h4⟩ := ih ho.1 hc h1
    refine ⟨h3, ?_⟩
    have : ((interp ρ).pre u.op (T.eval (interp ρ))).val ρ = ((T.eval (interp ρ)).val ρ).map (unSpec u) := by
      cases u <;> rfl
    simp only [Expr.Tree.eval, this, h4, IE.eval]
  | bin b l r ihl ihr =>
    simp only [prep, Option.bind_eq_some_iff, Option.map_eq_some_iff] at h
    obtain ⟨L, h1, R, h2, rfl⟩ := h
    obtain ⟨h3, h4⟩ := ihl ho.1 hc.1 h1
    obtain ⟨h5, h6⟩ := ihr ho.2.1 hc.2 h2
    refine ⟨⟨h3, h5⟩, ?_⟩
    show ((Opnd.val ρ (L.eval (interp ρ))).bind fun a => (Opnd.val ρ (R.eval (interp ρ))).bind fun c => binSpec b a c) = _
    rw [h4, h6]
    rfl

theorem decodes_enc {ρ : Vars} {ris : List (Op × List Byte)} (hok : ∀ p ∈ ris, OkIns p) {s t : AS}
    (h : orun ρ ris s = some t) : ∃ is, Decodes (enc ris).reverse is ∧ arun ρ is s = some t := by
  induction ris generalizing t with
  | nil => cases h; exact ⟨[], .nil, rfl⟩
  | cons p ris ih =>
    simp only [orun, Option.bind_eq_some_iff] at h
    obtain ⟨s1, h1, h2⟩ := h
    obtain ⟨is, h3, h4⟩ := ih (fun q hq => hok q (by simp [hq])) h1
    obtain ⟨a, ha, hd⟩ := (hok p (by simp)).len
    refine ⟨is ++ [(a, p.2)], ?_, ?_⟩
    · have := Decodes.one p.1 ha hd
      simp only [enc, List.reverse_append, List.reverse_cons, List.append_assoc, List.reverse_reverse]
      exact Decodes.append h3 this
    · rw [arun_append, h4]
      simp only [ostep, ha, Option.bind_some] at h2
      simp only [Option.bind_some, arun, h2]

/-- `m'` is `m` with the integer `w` pushed, as itself or as a reference to a variable that holds it. -/
structure Pushed (m : M) (w : Word32) (m' : M) : Prop where
  top : m'.top = m.top + 1
  value : Leads m'.σ (.cell m.top) w
  below : ∀ a, (∀ k, a = .cell k → k < m.top) → m'.σ.cell a = m.σ.cell a
  frame : m'.fb = m.fb ∧ m'.gb = m.gb ∧ m'.nl = m.nl ∧ m'.ng = m.ng
  heap : m'.σ.obj = m.σ.obj ∧ m'.σ.next = m.σ.next ∧ m'.σ.rawMem = m.σ.rawMem

theorem compile_runs {neg : Word32 → Word32} {tame : Bool} {ρ : Vars} {e : IE} {c : Code} {w : Word32}
    {f : Code → Expr.Instr Opnd → Option Code} (hg : Fine ρ neg tame f) (ho : e.ok)
    (hc : e.clear f) (hw : e.eval ρ = some w) (h : compileWith f e = some c) (E : Env) {m : M} (hm : Start ρ m) : ∃ m', Runs E c.rall.reverse m (.next m') ∧ Pushed m w m' := by
  unfold compileWith at h
  rw [Option.bind_eq_some_iff] at h
  obtain ⟨T, h1, h2⟩ := h
  obtain ⟨h3, h4⟩ := prep_good hg ho hc.2 h1
  obtain ⟨-, ris, h5, h6⟩ := finish_good hg ((prep_shape h1).2.2.2 ho) (hc.1 T h1) h3 h2
  obtain ⟨ss, r, h7, h8⟩ := h6 (.res (some w)) w (by rw [h4]; exact hw) rfl ⟨[], none⟩
  obtain ⟨is, h9, h10⟩ := decodes_enc h5.ok h7
  obtain ⟨m', h11, h12⟩ := arun_runs (E := E) hm (Sim.init m) h10
  refine ⟨m', ⟨is, by rw [h5.enc]; exact h9, h11⟩, ?_⟩
  cases h8 with
  | @cons x s _ ss h13 h14 =>
    cases h14
    obtain ⟨w', h15, h16⟩ := h13
    cases h15
    have htop : m'.top = m.top + 1 := h12.top
    have hl := h12.leads hm (k := 0) rfl h16
    refine ⟨htop, ?_, h12.below, ⟨h12.fb, h12.gb, h12.nl, h12.ng⟩, ⟨h12.obj, h12.next, h12.raw⟩⟩
    rwa [htop] at hl

end Wrench.Whole
