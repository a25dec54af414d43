/-
A packet that is sent is the packet that is received, whatever the byte order of
the two machines and however the transport cuts the bytes up.
-/
import Verif.Debug.Packet

namespace Wrench.Packet

theorem readLe32_pack32 (w : Word32) : readLe32 (pack32 w) = w := by
  have := read32_pack32 [] [] w
  simp only [List.nil_append, List.append_nil, List.length_nil] at this
  simp [readLe32, this]

theorem pack32_of_length {b : List Byte} (h : b.length = 4) : ∃ w, b = pack32 w := by
  obtain ⟨body, t, e, hl⟩ := exists_trailer b (by omega)
  have : body = [] := List.eq_nil_of_length_eq_zero (by omega)
  subst this
  exact ⟨t, by simpa using e⟩

theorem pack32_readLe32 {b : List Byte} (h : b.length = 4) : pack32 (readLe32 b) = b := by
  obtain ⟨w, rfl⟩ := pack32_of_length h
  rw [readLe32_pack32]

theorem store32_length (e : Endian) (w : Word32) : (store32 e w).length = 4 := by
  cases e <;> simp [store32, pack32_length]

/-- A converted word lies in memory the same on every machine. -/
theorem store32_x32 (e : Endian) (w : Word32) : store32 e (x32 e w) = pack32 w := by
  cases e with
  | little => rfl
  | big =>
    show (pack32 (readLe32 (pack32 w).reverse)).reverse = _
    rw [pack32_readLe32 (by simp [pack32_length]), List.reverse_reverse]

theorem x32_load32 (e : Endian) (w : Word32) : x32 e (load32 e (pack32 w)) = w := by
  cases e with
  | little => exact readLe32_pack32 w
  | big =>
    show readLe32 (pack32 (readLe32 (pack32 w).reverse)).reverse = w
    rw [pack32_readLe32 (by simp [pack32_length]), List.reverse_reverse, readLe32_pack32]

theorem x32_x32 (e : Endian) (w : Word32) : x32 e (x32 e w) = w := by
  cases e with
  | little => rfl
  | big =>
    show readLe32 (store32 .big (x32 .big w)) = w
    rw [store32_x32, readLe32_pack32]

theorem load32_store32 (e : Endian) (w : Word32) : load32 e (store32 e w) = w := by
  cases e with
  | little => exact readLe32_pack32 w
  | big =>
    show readLe32 (pack32 w).reverse.reverse = w
    rw [List.reverse_reverse, readLe32_pack32]

theorem readLe16_pack16 (w : Word16) : readLe16 (pack16 w) = w := by
  have := read16_pack16 [] [] w
  simp only [List.nil_append, List.append_nil, List.length_nil] at this
  simp [readLe16, this]

theorem pack16_surj (a b : Byte) : ∃ w, pack16 w = [a, b] := by
  obtain ⟨w, hw⟩ := pack32_of_length (b := [a, b, 0, 0]) rfl
  refine ⟨w.setWidth 16, ?_⟩
  simp only [pack32, List.cons.injEq, and_true] at hw
  obtain ⟨h1, h2, _⟩ := hw
  simp only [pack16, List.cons.injEq, and_true]
  constructor
  · rw [h1]
    apply BitVec.eq_of_getLsbD_eq
    intro i hi
    have h16 : i < 16 := by omega
    have h32 : i < 32 := by omega
    have m1 : (0xFF#16).getLsbD i = true := by
      have : i = 0 ∨ i = 1 ∨ i = 2 ∨ i = 3 ∨ i = 4 ∨ i = 5 ∨ i = 6 ∨ i = 7 := by omega
      rcases this with h | h | h | h | h | h | h | h <;> subst h <;> decide
    have m2 : (0xFF#32).getLsbD i = true := by
      have : i = 0 ∨ i = 1 ∨ i = 2 ∨ i = 3 ∨ i = 4 ∨ i = 5 ∨ i = 6 ∨ i = 7 := by omega
      rcases this with h | h | h | h | h | h | h | h <;> subst h <;> decide
    simp only [BitVec.getLsbD_setWidth, BitVec.getLsbD_and, m1, m2, hi, h16, decide_true,
      Bool.true_and, Bool.and_true]
  · rw [h2]
    apply BitVec.eq_of_getLsbD_eq
    intro i hi
    have h16 : i < 16 := by omega
    have h32 : i < 32 := by omega
    have m1 : (0xFF#16).getLsbD i = true := by
      have : i = 0 ∨ i = 1 ∨ i = 2 ∨ i = 3 ∨ i = 4 ∨ i = 5 ∨ i = 6 ∨ i = 7 := by omega
      rcases this with h | h | h | h | h | h | h | h <;> subst h <;> decide
    have m2 : (0xFF#32).getLsbD i = true := by
      have : i = 0 ∨ i = 1 ∨ i = 2 ∨ i = 3 ∨ i = 4 ∨ i = 5 ∨ i = 6 ∨ i = 7 := by omega
      rcases this with h | h | h | h | h | h | h | h <;> subst h <;> decide
    have a1 : ¬ 16 ≤ i := by omega
    have a2 : ¬ 32 ≤ i := by omega
    have a3 : 8 + i < 16 := by omega
    have a4 : 8 + i < 32 := by omega
    simp only [BitVec.getLsbD_setWidth, BitVec.getLsbD_and, m1, m2, hi, h16, decide_true,
      Bool.true_and, Bool.and_true, BitVec.getLsbD_sshiftRight, a1, a2, a3, a4, if_true,
      decide_false, Bool.not_false]

theorem pack16_readLe16 {b : List Byte} (h : b.length = 2) : pack16 (readLe16 b) = b := by
  match b, h with
  | [x, y], _ =>
    obtain ⟨w, hw⟩ := pack16_surj x y
    rw [← hw, readLe16_pack16]

theorem pack16_length (w : Word16) : (pack16 w).length = 2 := rfl

theorem store16_length (e : Endian) (w : Word16) : (store16 e w).length = 2 := by
  cases e <;> rfl

theorem store16_x16 (e : Endian) (w : Word16) : store16 e (x16 e w) = pack16 w := by
  cases e with
  | little => rfl
  | big =>
    show (pack16 (readLe16 (pack16 w).reverse)).reverse = _
    rw [pack16_readLe16 (by simp [pack16_length]), List.reverse_reverse]

theorem x16_load16 (e : Endian) (w : Word16) : x16 e (load16 e (pack16 w)) = w := by
  cases e with
  | little => exact readLe16_pack16 w
  | big =>
    show readLe16 (pack16 (readLe16 (pack16 w).reverse)).reverse = w
    rw [pack16_readLe16 (by simp [pack16_length]), List.reverse_reverse, readLe16_pack16]

/-! ### What is on the wire -/

/-- The bytes that stand for a packet between two machines. -/
def wireForm (p : Pkt) : List Byte :=
  pack32 p.size ++ pack32 p.t ++ pack32 p.param1 ++ pack32 p.param2 ++ p.payload

/-- A packet whose size says how many bytes it has, and small enough for an `int`. -/
def Sized (p : Pkt) : Prop := p.size.toNat = 16 + p.payload.length ∧ p.size.toNat < 2 ^ 31

theorem memOf_xlate (e : Endian) (p : Pkt) : memOf e (xlate e p).1 = wireForm p := by
  simp only [memOf, xlate, store32_x32, wireForm]

theorem xlate_xlate (e : Endian) (p : Pkt) : (xlate e (xlate e p).1).1 = p := by
  simp [xlate, x32_x32]

theorem wireForm_length (p : Pkt) : (wireForm p).length = 16 + p.payload.length := by
  simp only [wireForm, List.length_append, pack32_length]

theorem sendLoop_true : ∀ (as : List Ans) (rest wire w' : List Byte),
    sendLoop as rest wire = .ok (true, w') → w' = wire ++ rest
  | as, [], wire, w', h => by
    simp only [sendLoop, Res.ok.injEq, Prod.mk.injEq, true_and] at h
    simp [h]
  | [], _ :: _, _, _, h => by simp [sendLoop] at h
  | .fail :: _, _ :: _, _, _, h => by simp [sendLoop] at h
  | .took n :: as, b :: rest, wire, w', h => by
    rw [sendLoop] at h
    have := sendLoop_true as _ _ w' h
    rw [this, List.append_assoc, List.take_append_drop]

/-- The answers of a transport that always makes some progress. -/
def Good (as : List Ans) : Prop := ∀ a ∈ as, ∃ n, a = .took (n + 1)

theorem sendLoop_good : ∀ (as : List Ans) (rest wire : List Byte), Good as →
    rest.length ≤ as.length → sendLoop as rest wire = .ok (true, wire ++ rest)
  | as, [], wire, _, _ => by simp [sendLoop]
  | [], _ :: _, _, _, hl => by simp at hl
  | a :: as, b :: rest, wire, hg, hl => by
    obtain ⟨n, rfl⟩ := hg a (by simp)
    have hl' : ((b :: rest).drop (n + 1)).length ≤ as.length := by
      simp only [List.length_cons] at hl
      simp only [List.length_drop, List.length_cons]; omega
    rw [sendLoop, sendLoop_good as _ _ (fun x hx => hg x (by simp [hx])) hl',
      List.append_assoc, List.take_append_drop]

theorem toInt_of_small {w : Word32} (h : w.toNat < 2 ^ 31) : w.toInt = w.toNat := by
  rw [BitVec.toInt_eq_toNat_cond]
  rw [if_pos (by omega)]

/-- C85: when a packet has been sent, exactly its bytes are on the wire behind what was there,
the same ones whichever byte order the machine has, and the sender's packet is as it was. -/
theorem C85_sent (e : Endian) (p : Pkt) (as : List Ans) (wire w' : List Byte) (p' : Pkt)
    (hp : Sized p) (h : send e p as wire = .ok (true, w', p')) :
    w' = wire ++ wireForm p ∧ p' = p := by
  have hs : ¬ p.size.toInt ≤ 0 := by
    rw [toInt_of_small hp.2]; have := hp.1; omega
  have hlen : ¬ (wireForm p).length < p.size.toNat := by rw [wireForm_length, hp.1]; omega
  simp only [send, memOf_xlate, xlate_xlate] at h
  simp only [xlate, sendEx, hs, if_false, hlen] at h
  rw [List.take_of_length_le (by rw [wireForm_length, hp.1]; omega)] at h
  cases hl : sendLoop as (wireForm p) wire with
  | bad => rw [hl] at h; simp at h
  | waits => rw [hl] at h; simp at h
  | ok v =>
    obtain ⟨r, w⟩ := v
    rw [hl] at h
    simp only [Res.ok.injEq, Prod.mk.injEq] at h
    obtain ⟨rfl, rfl, rfl⟩ := h
    exact ⟨sendLoop_true _ _ _ _ hl, rfl⟩

/-- C85: a transport that keeps taking bytes gets the whole packet. -/
theorem C85_is_sent (e : Endian) (p : Pkt) (as : List Ans) (wire : List Byte)
    (hp : Sized p) (hg : Good as) (hl : 16 + p.payload.length ≤ as.length) :
    send e p as wire = .ok (true, wire ++ wireForm p, p) := by
  have hs : ¬ p.size.toInt ≤ 0 := by
    rw [toInt_of_small hp.2]; have := hp.1; omega
  have hlen : ¬ (wireForm p).length < p.size.toNat := by rw [wireForm_length, hp.1]; omega
  simp only [send, memOf_xlate, xlate_xlate]
  simp only [xlate, sendEx, hs, if_false, hlen]
  rw [List.take_of_length_le (by rw [wireForm_length, hp.1]; omega),
    sendLoop_good as _ _ hg (by rw [wireForm_length]; exact hl)]

theorem recvLoop_true : ∀ (as : List Ans) (need : Nat) (got wire g w : List Byte) (as' : List Ans),
    recvLoop as need got wire = .ok (true, g, w, as') →
    g = got ++ wire.take need ∧ w = wire.drop need ∧ need ≤ wire.length
  | as, 0, got, wire, g, w, as', h => by
    simp only [recvLoop, Res.ok.injEq, Prod.mk.injEq, true_and] at h
    simp [h]
  | [], _ + 1, _, _, _, _, _, h => by simp [recvLoop] at h
  | .fail :: _, _ + 1, _, _, _, _, _, h => by simp [recvLoop] at h
  | .took n :: as, need + 1, got, wire, g, w, as', h => by
    rw [recvLoop] at h
    obtain ⟨h1, h2, h3⟩ := recvLoop_true as _ _ _ g w as' h
    generalize hm : min n (min (need + 1) wire.length) = m at h1 h2 h3
    have hm1 : m ≤ need + 1 := by omega
    have hm2 : m ≤ wire.length := by omega
    rw [List.length_drop] at h3
    refine ⟨?_, ?_, by omega⟩
    · rw [h1, List.append_assoc]
      have : wire.take (need + 1) = wire.take m ++ (wire.drop m).take (need + 1 - m) := by
        have e : need + 1 = m + (need + 1 - m) := by omega
        rw [e, List.take_add]
        congr 2
        omega
      rw [this]
    · rw [h2, List.drop_drop]; congr 1; omega

theorem recvLoop_good : ∀ (as : List Ans) (need : Nat) (got wire : List Byte), Good as →
    need ≤ wire.length → need ≤ as.length →
    ∃ as', recvLoop as need got wire = .ok (true, got ++ wire.take need, wire.drop need, as') ∧
      Good as' ∧ as.length ≤ as'.length + need
  | as, 0, got, wire, hg, _, _ => ⟨as, by simp [recvLoop], hg, by omega⟩
  | [], _ + 1, _, _, _, _, h => by simp at h
  | a :: as, need + 1, got, wire, hg, hw, hl => by
    obtain ⟨n, rfl⟩ := hg a (by simp)
    rw [recvLoop]
    generalize hm : min (n + 1) (min (need + 1) wire.length) = m
    have hm1 : m ≤ need + 1 := by omega
    have hm2 : m ≤ wire.length := by omega
    have hm0 : 0 < m := by omega
    simp only [List.length_cons] at hl
    obtain ⟨as', e, hg', hl'⟩ := recvLoop_good as (need + 1 - m) (got ++ wire.take m) (wire.drop m)
      (fun x hx => hg x (by simp [hx])) (by rw [List.length_drop]; omega) (by omega)
    refine ⟨as', ?_, hg', by simp only [List.length_cons]; omega⟩
    rw [e]
    have h1 : wire.take (need + 1) = wire.take m ++ (wire.drop m).take (need + 1 - m) := by
      have e : need + 1 = m + (need + 1 - m) := by omega
      rw [e, List.take_add]
      congr 2
      omega
    have h2 : m + (need + 1 - m) = need + 1 := by omega
    rw [h1, List.append_assoc, List.drop_drop, h2]

theorem loadHeader_wire (e : Endian) (p : Pkt) (rest : List Byte) :
    (xlate e (loadHeader e ((wireForm p ++ rest).take 16))).1 = { p with payload := [] } := by
  have h : (wireForm p ++ rest).take 16
      = pack32 p.size ++ pack32 p.t ++ pack32 p.param1 ++ pack32 p.param2 := by
    have : wireForm p ++ rest = (pack32 p.size ++ pack32 p.t ++ pack32 p.param1 ++ pack32 p.param2)
        ++ (p.payload ++ rest) := by simp [wireForm, List.append_assoc]
    rw [this, List.take_left' (by simp [pack32_length])]
  rw [h]
  have t1 : (pack32 p.size ++ pack32 p.t ++ pack32 p.param1 ++ pack32 p.param2).take 4
      = pack32 p.size := rfl
  have t2 : ((pack32 p.size ++ pack32 p.t ++ pack32 p.param1 ++ pack32 p.param2).drop 4).take 4
      = pack32 p.t := rfl
  have t3 : ((pack32 p.size ++ pack32 p.t ++ pack32 p.param1 ++ pack32 p.param2).drop 8).take 4
      = pack32 p.param1 := rfl
  have t4 : ((pack32 p.size ++ pack32 p.t ++ pack32 p.param1 ++ pack32 p.param2).drop 12).take 4
      = pack32 p.param2 := rfl
  simp only [loadHeader, t1, t2, t3, t4, xlate, x32_load32]

theorem payloadSize_toNat {p : Pkt} (hp : Sized p) : (payloadSize p).toNat = p.payload.length := by
  have h1 := hp.1
  have h2 := hp.2
  simp only [payloadSize]
  by_cases h : p.size.toNat ≤ 16
  · rw [if_pos h]; simp; omega
  · rw [if_neg h, BitVec.toNat_sub]
    have : (16 : Word32).toNat = 16 := rfl
    rw [this]; omega

theorem drop_wire (p : Pkt) (rest : List Byte) :
    (wireForm p ++ rest).drop 16 = p.payload ++ rest := by
  have : wireForm p ++ rest = (pack32 p.size ++ pack32 p.t ++ pack32 p.param1 ++ pack32 p.param2)
      ++ (p.payload ++ rest) := by simp [wireForm, List.append_assoc]
  rw [this, List.drop_left' (by simp [pack32_length])]

theorem recvEx_16 (as : List Ans) (wire : List Byte) :
    recvEx 16 as wire = recvLoop as 16 [] wire := by
  rw [recvEx, if_neg (by decide)]; rfl

/-- C85: what is received is a packet that was sent, with its type, its parameters and its
payload, and the bytes behind it stay where they are - on a machine of either byte order and
however the bytes arrive.  (If an error interrupts the reading nothing is received.) -/
theorem C85_received (e : Endian) (p q : Pkt) (peek : Nat) (as as' : List Ans)
    (rest w' : List Byte) (hp : Sized p)
    (h : receive e peek as (wireForm p ++ rest) = .ok (some q, w', as')) :
    q = p ∧ w' = rest := by
  have hps := payloadSize_toNat hp
  by_cases hpk : peek < 16
  · simp [receive, hpk] at h
  simp only [receive, hpk, if_false, recvEx_16] at h
  cases h1 : recvLoop as 16 [] (wireForm p ++ rest) with
  | bad => rw [h1] at h; simp at h
  | waits => rw [h1] at h; simp at h
  | ok v =>
    obtain ⟨r, got, w, as1⟩ := v
    rw [h1] at h
    cases r with
    | false => simp at h
    | true =>
      obtain ⟨hg, hw, _⟩ := recvLoop_true _ _ _ _ _ _ _ h1
      rw [List.nil_append] at hg
      rw [drop_wire] at hw
      subst hg hw
      simp only [loadHeader_wire] at h
      have hps' : payloadSize { p with payload := [] } = payloadSize p := rfl
      rw [hps'] at h
      by_cases h0 : payloadSize p = 0
      · rw [if_pos h0] at h
        simp only [Res.ok.injEq, Prod.mk.injEq, Option.some.injEq] at h
        obtain ⟨rfl, rfl, _⟩ := h
        have hl : p.payload = [] := by
          rw [h0] at hps
          exact List.eq_nil_of_length_eq_zero hps.symm
        constructor
        · cases p; simp_all
        · simp [hl]
      · rw [if_neg h0] at h
        have hneg : ¬ (payloadSize p).toInt < 0 := by
          rw [toInt_of_small (by rw [hps]; have := hp.1; have := hp.2; omega)]; omega
        simp only [recvEx, hneg, if_false, hps] at h
        cases h2 : recvLoop as1 p.payload.length [] (p.payload ++ rest) with
        | bad => rw [h2] at h; simp at h
        | waits => rw [h2] at h; simp at h
        | ok v =>
          obtain ⟨r, got, w, as2⟩ := v
          rw [h2] at h
          cases r with
          | false => simp at h
          | true =>
            obtain ⟨hg, hw, _⟩ := recvLoop_true _ _ _ _ _ _ _ h2
            simp only [Res.ok.injEq, Prod.mk.injEq, Option.some.injEq] at h
            obtain ⟨rfl, rfl, _⟩ := h
            rw [List.nil_append, List.take_left' rfl] at hg
            rw [List.drop_left' rfl] at hw
            subst hg hw
            exact ⟨rfl, rfl⟩

/-- C85: and when the bytes are there and keep coming, it is received. -/
theorem C85_is_received (e : Endian) (p : Pkt) (peek : Nat) (as : List Ans) (rest : List Byte)
    (hp : Sized p) (hk : 16 ≤ peek) (hg : Good as) (hl : 16 + p.payload.length ≤ as.length) :
    ∃ as', receive e peek as (wireForm p ++ rest) = .ok (some p, rest, as') ∧ Good as' ∧
      as.length ≤ as'.length + (16 + p.payload.length) := by
  have hps := payloadSize_toNat hp
  have hpk : ¬ peek < 16 := by omega
  obtain ⟨as1, e1, g1, l1⟩ := recvLoop_good as 16 [] (wireForm p ++ rest) hg
    (by rw [List.length_append, wireForm_length]; omega) (by omega)
  rw [List.nil_append, drop_wire] at e1
  simp only [receive, hpk, if_false, recvEx_16, e1, loadHeader_wire]
  have hps' : payloadSize { p with payload := [] } = payloadSize p := rfl
  rw [hps']
  by_cases h0 : payloadSize p = 0
  · rw [if_pos h0]
    have hl' : p.payload = [] := by
      rw [h0] at hps
      exact List.eq_nil_of_length_eq_zero hps.symm
    refine ⟨as1, ?_, g1, by omega⟩
    have : ({ p with payload := [] } : Pkt) = p := by cases p; simp_all
    rw [this, hl', List.nil_append]
  · rw [if_neg h0]
    have hneg : ¬ (payloadSize p).toInt < 0 := by
      rw [toInt_of_small (by rw [hps]; have := hp.1; have := hp.2; omega)]; omega
    simp only [recvEx, hneg, if_false, hps]
    obtain ⟨as2, e2, g2, l2⟩ := recvLoop_good as1 p.payload.length [] (p.payload ++ rest) g1
      (by rw [List.length_append]; omega) (by omega)
    rw [List.nil_append, List.take_left' rfl, List.drop_left' rfl] at e2
    refine ⟨as2, ?_, g2, by omega⟩
    rw [e2]

/-! ### Many packets -/

/-- Sending packets one after the other over a transport that takes `n` bytes a call. -/
def sendAll (e : Endian) (as : List Ans) : List Pkt → List Byte → Res (List Byte)
  | [], wire => .ok wire
  | p :: ps, wire =>
    match send e p as wire with
    | .ok (true, wire, _) => sendAll e as ps wire
    | .ok (false, _, _) => .bad
    | .bad => .bad
    | .waits => .waits

/-- Receiving `n` packets one after the other. -/
def receiveAll (e : Endian) (as : List Ans) : Nat → List Byte → Res (List (Option Pkt) × List Byte)
  | 0, wire => .ok ([], wire)
  | n + 1, wire =>
    match receive e wire.length as wire with
    | .ok (r, wire, as) =>
      (match receiveAll e as n wire with
       | .ok (rs, w) => .ok (r :: rs, w)
       | .bad => .bad
       | .waits => .waits)
    | .bad => .bad
    | .waits => .waits

theorem sendAll_wire (e : Endian) (as : List Ans) (hg : Good as) : ∀ (ps : List Pkt)
    (wire : List Byte), (∀ p ∈ ps, Sized p ∧ 16 + p.payload.length ≤ as.length) →
    sendAll e as ps wire = .ok (wire ++ (ps.map wireForm).flatten)
  | [], wire, _ => by simp [sendAll]
  | p :: ps, wire, h => by
    have hp := h p (by simp)
    rw [sendAll, C85_is_sent e p as wire hp.1 hg hp.2]
    simp only
    rw [sendAll_wire e as hg ps _ (fun q hq => h q (by simp [hq]))]
    simp [List.append_assoc]

theorem receiveAll_wire (e : Endian) : ∀ (ps : List Pkt) (as : List Ans) (rest : List Byte),
    Good as → (∀ p ∈ ps, Sized p) → ((ps.map wireForm).flatten).length ≤ as.length →
    receiveAll e as ps.length ((ps.map wireForm).flatten ++ rest) = .ok (ps.map some, rest)
  | [], _, rest, _, _, _ => by simp [receiveAll]
  | p :: ps, as, rest, hg, hp, hl => by
    simp only [List.map_cons, List.flatten_cons, List.length_append, wireForm_length] at hl
    obtain ⟨as', e1, g1, l1⟩ := C85_is_received e p
      ((wireForm p ++ ((ps.map wireForm).flatten ++ rest)).length) as
      ((ps.map wireForm).flatten ++ rest) (hp p (by simp))
      (by rw [List.length_append, wireForm_length]; omega) hg (by omega)
    have ih := receiveAll_wire e ps as' rest g1 (fun q hq => hp q (by simp [hq])) (by omega)
    simp only [List.length_cons, List.map_cons, List.flatten_cons, List.append_assoc, receiveAll,
      e1, ih]

/-- C85: any number of packets, sent one after the other from one machine, are received one
after the other, as they were and in that order, by the other. -/
theorem C85_in_step (es er : Endian) (ps : List Pkt) (as ar : List Ans) (hs : ∀ p ∈ ps, Sized p)
    (hg : Good as) (hr : Good ar) (hl : ∀ p ∈ ps, 16 + p.payload.length ≤ as.length)
    (hn : ((ps.map wireForm).flatten).length ≤ ar.length) :
    ∃ wire, sendAll es as ps [] = .ok wire ∧
      receiveAll er ar ps.length wire = .ok (ps.map some, []) := by
  refine ⟨_, sendAll_wire es as hg ps [] (fun p hp => ⟨hs p hp, hl p hp⟩), ?_⟩
  have := receiveAll_wire er ps ar [] hr hs hn
  simpa using this

/-- C85: `alloc` makes packets that can be sent; setting the parameters does not change that. -/
theorem C85_alloc_is_sized (type p1 p2 : Word32) (payload : List Byte)
    (h : 16 + payload.length < 2 ^ 31) :
    Sized { alloc type payload with param1 := p1, param2 := p2 } := by
  have e : (16 + BitVec.ofNat 32 payload.length).toNat = 16 + payload.length := by
    rw [BitVec.toNat_add, BitVec.toNat_ofNat]
    have : (16 : Word32).toNat = 16 := rfl
    rw [this]; omega
  exact ⟨e, by show (16 + BitVec.ofNat 32 payload.length).toNat < _; rw [e]; exact h⟩

/-- C85: a packet made by the constructor instead has size 0: nothing at all is sent, whatever
its type and parameters, and the caller is told that all is well. -/
theorem C85_constructed_not_sent (e : Endian) (type p1 p2 : Word32) (as : List Ans)
    (wire : List Byte) :
    send e { construct type with param1 := p1, param2 := p2 } as wire
      = .ok (true, wire, { construct type with param1 := p1, param2 := p2 }) := by
  simp only [send, memOf_xlate, xlate_xlate]
  simp [xlate, sendEx, construct]

/-- C85: nor is anything sent of a packet of two gigabytes or more. -/
theorem C85_huge_not_sent (e : Endian) (p : Pkt) (as : List Ans) (wire : List Byte)
    (h : 2 ^ 31 ≤ p.size.toNat) : send e p as wire = .ok (true, wire, p) := by
  have hs : p.size.toInt ≤ 0 := by
    rw [BitVec.toInt_eq_toNat_cond, if_neg (by omega)]
    have := p.size.isLt
    omega
  simp only [send, xlate_xlate]
  simp [xlate, sendEx, hs]

/-- What `poll` answers is passed on, an error as zero. -/
theorem peekEx_max (ret : Int) : (peekEx ret : Int) = max ret 0 := by
  unfold peekEx
  split <;> omega

/-- C85: over TCP on Linux nothing is ever received: what `poll` answers is taken for the
number of bytes waiting. -/
theorem C85_linux_tcp_receives_nothing (e : Endian) (ret : Int) (hr : ret ∈ pollAnswers)
    (as : List Ans) (wire : List Byte) :
    receive e (peekEx ret) as wire = .ok (none, wire, as) := by
  have : peekEx ret < 16 := by
    simp only [pollAnswers, List.mem_cons, List.not_mem_nil, or_false] at hr
    rcases hr with rfl | rfl | rfl <;> decide
  simp [receive, this]

/-! ### The loopback -/

theorem specRun_append {α : Type} (l : List α) : ∀ (xs ys : List (Ll.Op α)),
    Ll.specRun l (xs ++ ys) = ((Ll.specRun (Ll.specRun l xs).1 ys).1,
      (Ll.specRun l xs).2 ++ (Ll.specRun (Ll.specRun l xs).1 ys).2)
  | [], ys => rfl
  | x :: xs, ys => by
    have := specRun_append (Ll.spec l x).1 xs ys
    simp only [List.cons_append, Ll.specRun, this]

theorem specRun_sends : ∀ (bs l : List (List Byte)),
    Ll.specRun l (loopSends bs) = (bs.reverse ++ l, bs.map (fun _ => .none))
  | [], l => rfl
  | b :: bs, l => by
    have := specRun_sends bs (b :: l)
    simp only [loopSends] at this
    simp only [loopSends, List.map_cons, Ll.specRun, Ll.spec, this, List.reverse_cons,
      List.append_assoc, List.singleton_append]

theorem specRun_receives : ∀ (bs : List (List Byte)),
    Ll.specRun bs.reverse (loopReceives bs.length) = ([], bs.map (fun b => .item (some b)))
  | [] => rfl
  | b :: bs => by
    have := specRun_receives bs
    simp only [loopReceives] at this
    simp [loopReceives, List.length_cons, List.replicate_succ, Ll.specRun, Ll.spec, this]

/-- C85: over the loopback, the copies come out in the order they went in, none is lost or
doubled, and no list node is left allocated. -/
theorem C85_loopback_order (bs : List (List Byte)) :
    ∃ s, Ll.run (Ll.empty (List Byte)) (loopSends bs ++ loopReceives bs.length)
        = some (s, bs.map (fun _ => .none) ++ bs.map (fun b => .item (some b))) ∧
      s.live = 0 := by
  obtain ⟨s, e, hl, _⟩ := Ll.C86_as_a_sequence (loopSends bs ++ loopReceives bs.length)
  have h : Ll.specRun [] (loopSends bs ++ loopReceives bs.length)
      = ([], bs.map (fun _ => Ll.Out.none) ++ bs.map (fun b => Ll.Out.item (some b))) := by
    rw [specRun_append, specRun_sends, List.append_nil, specRun_receives]
  rw [h] at e hl
  exact ⟨s, e, by simpa using hl⟩

theorem load_parts (e : Endian) (p : Pkt) :
    loadHeader e (memOf e p) = { p with payload := [] } := by
  have l1 := store32_length e p.size
  have l2 := store32_length e p.t
  have l3 := store32_length e p.param1
  have l4 := store32_length e p.param2
  have h : memOf e p = store32 e p.size ++ (store32 e p.t ++ (store32 e p.param1 ++
      (store32 e p.param2 ++ p.payload))) := by simp [memOf, List.append_assoc]
  have d1 : (memOf e p).take 4 = store32 e p.size := by rw [h, List.take_left' l1]
  have d2 : ((memOf e p).drop 4).take 4 = store32 e p.t := by
    rw [h, List.drop_left' l1, List.take_left' l2]
  have d3 : ((memOf e p).drop 8).take 4 = store32 e p.param1 := by
    have : (memOf e p).drop 8 = ((memOf e p).drop 4).drop 4 := by rw [List.drop_drop]
    rw [this, h, List.drop_left' l1, List.drop_left' l2, List.take_left' l3]
  have d4 : ((memOf e p).drop 12).take 4 = store32 e p.param2 := by
    have : (memOf e p).drop 12 = (((memOf e p).drop 4).drop 4).drop 4 := by
      rw [List.drop_drop, List.drop_drop]
    rw [this, h, List.drop_left' l1, List.drop_left' l2, List.drop_left' l3, List.take_left' l4]
  simp only [loadHeader, d1, d2, d3, d4, load32_store32]

/-- C85: the copy the loopback makes of a packet is that packet. -/
theorem C85_loopback_copy (e : Endian) (p : Pkt) (hp : Sized p) :
    ∃ b, allocCopy e p = some b ∧ view e b = some p := by
  have hlen : (memOf e p).length = 16 + p.payload.length := by
    simp only [memOf, List.length_append, store32_length]
  refine ⟨memOf e p, ?_, ?_⟩
  · rw [allocCopy, if_neg (by rw [hlen, hp.1]; omega), List.take_of_length_le]
    rw [hlen, hp.1]; omega
  · rw [view, if_neg (by rw [hlen]; omega), load_parts]
    have : (memOf e p).drop 16 = p.payload := by
      rw [memOf, List.drop_left' (by simp only [List.length_append, store32_length])]
    rw [this]

/-- C85: of a packet made by the constructor the loopback copies no byte, and whoever takes it
out reads beyond what was allocated. -/
theorem C85_loopback_constructed (e : Endian) (type p1 p2 : Word32) :
    allocCopy e { construct type with param1 := p1, param2 := p2 } = some [] ∧
      view e [] = none := by
  constructor
  · simp [allocCopy, construct]
  · rfl

/-! ### The call stack -/

theorem entry_round_trip (es er : Endian) (x : Entry) (rest : List Byte) :
    entryX er (entryLoad er ((entryMem es (entryX es x) ++ rest).take 12)) = x ∧
    (entryMem es (entryX es x) ++ rest).drop 12 = rest := by
  have h : entryMem es (entryX es x) = pack32 x.onLine ++ (pack16 x.stackOffset ++
      ([x.fromUnit, x.thisUnit] ++ (pack16 x.locals ++ [x.arguments, 0]))) := by
    simp only [entryMem, entryX, store32_x32, store16_x16, List.append_assoc]
  rw [h]
  constructor
  · have t : (pack32 x.onLine ++ (pack16 x.stackOffset ++
      ([x.fromUnit, x.thisUnit] ++ (pack16 x.locals ++ [x.arguments, 0]))) ++ rest).take 12
      = pack32 x.onLine ++ (pack16 x.stackOffset ++
      ([x.fromUnit, x.thisUnit] ++ (pack16 x.locals ++ [x.arguments, 0]))) :=
      List.take_left' rfl
    rw [t]
    have t1 : (pack32 x.onLine ++ (pack16 x.stackOffset ++
      ([x.fromUnit, x.thisUnit] ++ (pack16 x.locals ++ [x.arguments, 0])))).take 4
      = pack32 x.onLine := rfl
    have t2 : ((pack32 x.onLine ++ (pack16 x.stackOffset ++
      ([x.fromUnit, x.thisUnit] ++ (pack16 x.locals ++ [x.arguments, 0])))).drop 4).take 2
      = pack16 x.stackOffset := rfl
    have t3 : ((pack32 x.onLine ++ (pack16 x.stackOffset ++
      ([x.fromUnit, x.thisUnit] ++ (pack16 x.locals ++ [x.arguments, 0])))).drop 8).take 2
      = pack16 x.locals := rfl
    simp only [entryX, entryLoad, t1, t2, t3, x32_load32, x16_load16]
    rfl
  · exact List.drop_left' rfl

/-- C85: the call stack the debugger is sent is the one the other side has, entry for entry. -/
theorem C85_callstack (es er : Endian) : ∀ (xs : List Entry) (rest : List Byte),
    callstackRead er xs.length (callstackPayload es xs ++ rest) = xs
  | [], _ => rfl
  | x :: xs, rest => by
    have h := entry_round_trip es er x (callstackPayload es xs ++ rest)
    have ih := C85_callstack es er xs rest
    have e : callstackPayload es (x :: xs) ++ rest
        = entryMem es (entryX es x) ++ (callstackPayload es xs ++ rest) := by
      simp [callstackPayload, List.append_assoc]
    rw [e, List.length_cons, callstackRead, h.1, h.2, ih]

end Wrench.Packet
