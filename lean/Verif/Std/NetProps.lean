import Verif.Std.Net

namespace Wrench.Net

/-- The number some digits stand for. -/
def value (ds : List Byte) : Nat := ds.foldl (fun n d => 10 * n + (d.toNat - 48)) 0

/-- A number of an address: one to three digits, at most 255. -/
def IsOctet (ds : List Byte) (n : Nat) : Prop :=
  1 ≤ ds.length ∧ ds.length ≤ 3 ∧ (∀ d ∈ ds, 48 ≤ d.toNat ∧ d.toNat ≤ 57) ∧ value ds = n ∧ n ≤ 255

/-- The text is the address `a.b.c.d`. -/
def IsAddress (s : List Byte) (a b c d : Nat) : Prop :=
  ∃ da db dc dd, IsOctet da a ∧ IsOctet db b ∧ IsOctet dc c ∧ IsOctet dd d ∧
    s = da ++ 46#8 :: (db ++ 46#8 :: (dc ++ 46#8 :: dd))

theorem digit_iff (c : Byte) : digit c = true ↔ 48 ≤ c.toNat ∧ c.toNat ≤ 57 := by
  simp [digit]

theorem octet_of {ds : List Byte} {n : Nat} (h : IsOctet ds n) (rest : List Byte)
    (hr : ∀ c ∈ rest.head?, digit c = false) : octet (ds ++ rest) = some (n, rest) := by
  obtain ⟨h1, h2, h3, h4, h5⟩ := h
  match ds, h1, h2, h3, h4 with
  | [a], _, _, h3, h4 =>
    have ha := (digit_iff a).2 (h3 a (by simp))
    simp only [value, List.foldl_cons, List.foldl_nil] at h4
    cases rest with
    | nil => simp [octet, ha, ← h4]
    | cons c r =>
      have hc : digit c = false := hr c (by simp)
      simp [octet, ha, hc, ← h4]
  | [a, b], _, _, h3, h4 =>
    have ha := (digit_iff a).2 (h3 a (by simp))
    have hb := (digit_iff b).2 (h3 b (by simp))
    simp only [value, List.foldl_cons, List.foldl_nil] at h4
    cases rest with
    | nil => simp [octet, ha, hb, ← h4]; omega
    | cons c r =>
      have hc : digit c = false := hr c (by simp)
      simp [octet, ha, hb, hc, ← h4]; omega
  | [a, b, c], _, _, h3, h4 =>
    have ha := (digit_iff a).2 (h3 a (by simp))
    have hb := (digit_iff b).2 (h3 b (by simp))
    have hc := (digit_iff c).2 (h3 c (by simp))
    simp only [value, List.foldl_cons, List.foldl_nil] at h4
    simp [octet, ha, hb, hc, ← h4]; omega
  | _ :: _ :: _ :: _ :: _, _, h2, _, _ => simp at h2

theorem octet_inv {s rest : List Byte} {n : Nat} (h : octet s = some (n, rest)) (hn : n ≤ 255) :
    ∃ ds, IsOctet ds n ∧ s = ds ++ rest := by
  unfold octet at h
  match s with
  | [] => simp at h
  | a :: s =>
    simp only at h
    by_cases ha : digit a = true
    · rw [if_pos ha] at h
      have ha' := (digit_iff a).1 ha
      match s with
      | [] =>
        simp only [Option.some.injEq, Prod.mk.injEq] at h
        obtain ⟨rfl, rfl⟩ := h
        exact ⟨[a], ⟨by simp, by simp, by simpa using ha', by simp [value], hn⟩, by simp⟩
      | b :: s =>
        simp only at h
        by_cases hb : digit b = true
        · rw [if_pos hb] at h
          have hb' := (digit_iff b).1 hb
          match s with
          | [] =>
            simp only [Option.some.injEq, Prod.mk.injEq] at h
            obtain ⟨rfl, rfl⟩ := h
            exact ⟨[a, b], ⟨by simp, by simp, by simpa using ⟨ha', hb'⟩,
              by simp only [value, List.foldl_cons, List.foldl_nil]; omega, hn⟩, by simp⟩
          | c :: s =>
            simp only at h
            by_cases hc : digit c = true
            · rw [if_pos hc] at h
              have hc' := (digit_iff c).1 hc
              simp only [Option.some.injEq, Prod.mk.injEq] at h
              obtain ⟨rfl, rfl⟩ := h
              exact ⟨[a, b, c], ⟨by simp, by simp, by simpa using ⟨ha', hb', hc'⟩,
                by simp only [value, List.foldl_cons, List.foldl_nil]; omega, hn⟩, by simp⟩
            · rw [if_neg hc] at h
              simp only [Option.some.injEq, Prod.mk.injEq] at h
              obtain ⟨rfl, rfl⟩ := h
              exact ⟨[a, b], ⟨by simp, by simp, by simpa using ⟨ha', hb'⟩,
                by simp only [value, List.foldl_cons, List.foldl_nil]; omega, hn⟩, by simp⟩
        · rw [if_neg hb] at h
          simp only [Option.some.injEq, Prod.mk.injEq] at h
          obtain ⟨rfl, rfl⟩ := h
          exact ⟨[a], ⟨by simp, by simp, by simpa using ha', by simp [value], hn⟩, by simp⟩
    · rw [if_neg ha] at h; simp at h

theorem octetDot_of {ds : List Byte} {n : Nat} (h : IsOctet ds n) (rest : List Byte) :
    octetDot (ds ++ 46#8 :: rest) = some (n, rest) := by
  have h1 := octet_of h (46#8 :: rest) (by simp [digit])
  have h2 : ¬ (n > 255) := by have := h.2.2.2.2; omega
  simp [octetDot, h1, h2]

theorem octetDot_inv {s rest : List Byte} {n : Nat} (h : octetDot s = some (n, rest)) :
    ∃ ds, IsOctet ds n ∧ s = ds ++ 46#8 :: rest := by
  unfold octetDot at h
  cases ho : octet s with
  | none => rw [ho] at h; simp at h
  | some v =>
    obtain ⟨m, r⟩ := v
    rw [ho] at h
    simp only at h
    match r with
    | [] => simp at h
    | d :: r =>
      simp only at h
      by_cases hd : d ≠ 46#8 ∨ m > 255
      · rw [if_pos hd] at h; simp at h
      · rw [if_neg hd] at h
        simp only [Option.some.injEq, Prod.mk.injEq] at h
        obtain ⟨rfl, rfl⟩ := h
        have hd1 : d = 46#8 := by
          by_cases e : d = 46#8
          · exact e
          · exact absurd (Or.inl e) hd
        have hm : m ≤ 255 := by
          by_cases e : m > 255
          · exact absurd (Or.inr e) hd
          · omega
        obtain ⟨ds, h1, h2⟩ := octet_inv ho hm
        exact ⟨ds, h1, by rw [h2, hd1]⟩

theorem octetEnd_of {ds : List Byte} {n : Nat} (h : IsOctet ds n) : octetEnd ds = some n := by
  have h1 := octet_of h [] (by simp)
  rw [List.append_nil] at h1
  have h2 : ¬ (n > 255) := by have := h.2.2.2.2; omega
  simp [octetEnd, h1, h2]

theorem octetEnd_inv {s : List Byte} {n : Nat} (h : octetEnd s = some n) : IsOctet s n := by
  unfold octetEnd at h
  cases ho : octet s with
  | none => rw [ho] at h; simp at h
  | some v =>
    obtain ⟨m, r⟩ := v
    rw [ho] at h
    simp only at h
    by_cases hm : m > 255
    · rw [if_pos hm] at h; simp at h
    · rw [if_neg hm] at h
      by_cases hr : r = []
      · rw [if_pos hr] at h
        simp only [Option.some.injEq] at h
        subst h hr
        obtain ⟨ds, h1, h2⟩ := octet_inv ho (by omega)
        rw [List.append_nil] at h2
        rw [h2]; exact h1
      · rw [if_neg hr] at h; simp at h

/-- The bytes of an address, the first number first. -/
def bytesOf (w : Word32) : List Nat :=
  [w.toNat % 256, w.toNat / 256 % 256, w.toNat / 65536 % 256, w.toNat / 16777216 % 256]

theorem packed {a b c d : Nat} (ha : a ≤ 255) (hb : b ≤ 255) (hc : c ≤ 255) (hd : d ≤ 255) :
    bytesOf (BitVec.ofNat 32 a ||| (BitVec.ofNat 32 b <<< 8) ||| (BitVec.ofNat 32 c <<< 16) |||
      (BitVec.ofNat 32 d <<< 24)) = [a, b, c, d] := by
  have e : (BitVec.ofNat 32 a ||| (BitVec.ofNat 32 b <<< 8) ||| (BitVec.ofNat 32 c <<< 16) |||
      (BitVec.ofNat 32 d <<< 24)).toNat = a + 256 * b + 65536 * c + 16777216 * d := by
    have h1 : (BitVec.ofNat 32 b <<< 8).toNat = 2 ^ 8 * b := by
      rw [BitVec.toNat_shiftLeft, BitVec.toNat_ofNat, Nat.shiftLeft_eq,
        Nat.mod_eq_of_lt (show b < 2 ^ 32 by omega), Nat.mod_eq_of_lt (by omega), Nat.mul_comm]
    have h2 : (BitVec.ofNat 32 c <<< 16).toNat = 2 ^ 16 * c := by
      rw [BitVec.toNat_shiftLeft, BitVec.toNat_ofNat, Nat.shiftLeft_eq,
        Nat.mod_eq_of_lt (show c < 2 ^ 32 by omega), Nat.mod_eq_of_lt (by omega), Nat.mul_comm]
    have h3 : (BitVec.ofNat 32 d <<< 24).toNat = 2 ^ 24 * d := by
      rw [BitVec.toNat_shiftLeft, BitVec.toNat_ofNat, Nat.shiftLeft_eq,
        Nat.mod_eq_of_lt (show d < 2 ^ 32 by omega), Nat.mod_eq_of_lt (by omega), Nat.mul_comm]
    have h0 : (BitVec.ofNat 32 a).toNat = a := by
      rw [BitVec.toNat_ofNat, Nat.mod_eq_of_lt (by omega)]
    have e1 : (BitVec.ofNat 32 a ||| (BitVec.ofNat 32 b <<< 8)).toNat = 2 ^ 8 * b + a := by
      rw [BitVec.toNat_or, h0, h1, Nat.or_comm, ← Nat.two_pow_add_eq_or_of_lt (by omega)]
    have e2 : (BitVec.ofNat 32 a ||| (BitVec.ofNat 32 b <<< 8) ||| (BitVec.ofNat 32 c <<< 16)).toNat =
        2 ^ 16 * c + (2 ^ 8 * b + a) := by
      rw [BitVec.toNat_or, e1, h2, Nat.or_comm, ← Nat.two_pow_add_eq_or_of_lt (by omega)]
    rw [BitVec.toNat_or, e2, h3, Nat.or_comm, ← Nat.two_pow_add_eq_or_of_lt (by omega)]
    omega
  simp only [bytesOf, e]
  refine List.cons_eq_cons.2 ⟨by omega, List.cons_eq_cons.2 ⟨by omega, List.cons_eq_cons.2 ⟨by omega,
    List.cons_eq_cons.2 ⟨by omega, rfl⟩⟩⟩⟩

/-- C90: an address in numbers is read as that address. -/
theorem C90_address {s : List Byte} {a b c d : Nat} (h : IsAddress s a b c d) :
    bytesOf (isIp s) = [a, b, c, d] := by
  obtain ⟨da, db, dc, dd, ha, hb, hc, hd, rfl⟩ := h
  simp only [isIp, octetDot_of ha, octetDot_of hb, octetDot_of hc, octetEnd_of hd]
  exact packed ha.2.2.2.2 hb.2.2.2.2 hc.2.2.2.2 hd.2.2.2.2

/-- C90: and nothing else is read as an address. -/
theorem C90_no_address {s : List Byte} (h : isIp s ≠ 0) : ∃ a b c d, IsAddress s a b c d := by
  unfold isIp at h
  cases h1 : octetDot s with
  | none => rw [h1] at h; exact absurd rfl h
  | some v1 =>
    obtain ⟨a, s1⟩ := v1
    rw [h1] at h
    simp only at h
    cases h2 : octetDot s1 with
    | none => rw [h2] at h; exact absurd rfl h
    | some v2 =>
      obtain ⟨b, s2⟩ := v2
      rw [h2] at h
      simp only at h
      cases h3 : octetDot s2 with
      | none => rw [h3] at h; exact absurd rfl h
      | some v3 =>
        obtain ⟨c, s3⟩ := v3
        rw [h3] at h
        simp only at h
        cases h4 : octetEnd s3 with
        | none => rw [h4] at h; exact absurd rfl h
        | some d =>
          obtain ⟨da, o1, e1⟩ := octetDot_inv h1
          obtain ⟨db, o2, e2⟩ := octetDot_inv h2
          obtain ⟨dc, o3, e3⟩ := octetDot_inv h3
          exact ⟨a, b, c, d, da, db, dc, s3, o1, o2, o3, octetEnd_inv h4, by rw [e1, e2, e3]⟩

/-- C90: `tcp::connect` goes to the address written, or to the one the name stands for.
(Partial: a name that stands for nothing, see `C90_unknown_host`.) -/
theorem C90_connect_partial (lookup : List Byte → Option Word32) (host : List Byte) :
    (∀ a b c d, IsAddress host a b c d → isIp host ≠ 0 →
      bytesOf (connectsTo lookup host) = [a, b, c, d]) ∧
    (∀ w, (¬ ∃ a b c d, IsAddress host a b c d) → lookup host = some w →
      connectsTo lookup host = w) := by
  refine ⟨?_, ?_⟩
  · intro a b c d h h0
    rw [connectsTo, if_neg h0]
    exact C90_address h
  · intro w h hl
    have h0 : isIp host = 0 := by
      by_cases e : isIp host = 0
      · exact e
      · exact absurd (C90_no_address e) h
    rw [connectsTo, if_pos h0, hl]
    rfl

/-- C90: a name nobody knows is connected to address 0, which is this machine. -/
theorem C90_unknown_host (lookup : List Byte → Option Word32) (host : List Byte)
    (h : ¬ ∃ a b c d, IsAddress host a b c d) (hl : lookup host = none) :
    connectsTo lookup host = 0 := by
  have h0 : isIp host = 0 := by
    by_cases e : isIp host = 0
    · exact e
    · exact absurd (C90_no_address e) h
  rw [connectsTo, if_pos h0, hl]
  rfl

/-- C90: and `tcp::connect` asks for a connection to it, at the port given. -/
theorem C90_connect_port {V : Type} (asInt : V → Word32) (text : V → Option (List Byte))
    (lookup : List Byte → Option Word32) (host port : V) (name : List Byte)
    (ht : text host = some name) (hn : name ≠ []) (hp : (asInt port).toNat < 65536) :
    ∃ p, connectTCP asInt text lookup [host, port] = some (connectsTo lookup name, p) ∧
      p.toNat = (asInt port).toNat := by
  refine ⟨(asInt port).setWidth 16, by simp [connectTCP, ht, hn], ?_⟩
  rw [BitVec.toNat_setWidth]
  omega

/-- C90: `tcp::send` does not send its second argument: whatever that is, the number of the socket
is sent. -/
theorem C90_send_ignores_data {V : Type} (asInt : V → Word32) (text : V → Option (List Byte))
    (socket data : V) (digits : List Byte) (h : text socket = some digits) :
    sendTCP asInt text [socket, data] = some (asInt socket, digits) := by
  simp [sendTCP, h]

/-- C90: so of two different texts at least one is not sent. -/
theorem C90_send_fails : ¬ ∀ (V : Type) (asInt : V → Word32) (text : V → Option (List Byte))
    (socket data : V) (bytes : List Byte), text data = some bytes →
      sendTCP asInt text [socket, data] = some (asInt socket, bytes) := by
  intro h
  have := h Nat (fun n => BitVec.ofNat 32 n) (fun n => some [BitVec.ofNat 8 (48 + n)]) 5 6 [54#8] rfl
  revert this
  decide

/-- C90: `tcp::recv` returns what was read.  (Partial: an error is not looked at, see
`C90_receive_error`.) -/
theorem C90_receive_partial (fresh data : List Byte) (h : data ≠ [])
    (hn : data.length < 2 ^ 31) :
    (receiveTCP fresh data.length data).bind Received.chars = some data := by
  have h0 : data.length ≠ 0 := fun e => h (List.length_eq_zero_iff.1 e)
  have e : (BitVec.ofInt 32 (data.length : Int)).toNat = data.length := by
    rw [BitVec.toNat_ofInt]; omega
  simp only [receiveTCP]
  rw [if_neg (by omega)]
  simp only [Option.bind_some, Received.chars, e]
  simp

/-- C90: after an error the script gets a string of 4294967295 characters, which are not all
there. -/
theorem C90_receive_error (fresh : List Byte) (h : fresh.length < 2 ^ 31) :
    ∃ r, receiveTCP fresh (-1) [] = some r ∧ r.size = 4294967295 ∧ r.chars = none := by
  refine ⟨{ room := fresh, size := 4294967295 }, by simp [receiveTCP], rfl, ?_⟩
  simp [Received.chars]
  omega

/-- `192.168.0.12`; and texts that are no addresses: `1.2.3`, `1.2.3.4.5`, `256.0.0.1`,
`1.2.3.4 `. -/
example : IsAddress [49, 57, 50, 46, 49, 54, 56, 46, 48, 46, 49, 50] 192 168 0 12 :=
  ⟨[49, 57, 50], [49, 54, 56], [48], [49, 50], by unfold IsOctet; decide, by unfold IsOctet; decide,
    by unfold IsOctet; decide, by unfold IsOctet; decide, rfl⟩

example : bytesOf (isIp [49, 57, 50, 46, 49, 54, 56, 46, 48, 46, 49, 50]) = [192, 168, 0, 12] ∧
    isIp [49, 46, 50, 46, 51] = 0 ∧ isIp [49, 46, 50, 46, 51, 46, 52, 46, 53] = 0 ∧
    isIp [50, 53, 54, 46, 48, 46, 48, 46, 49] = 0 ∧ isIp [49, 46, 50, 46, 51, 46, 52, 32] = 0 := by
  decide +kernel

/-- A name that is no address, and one nobody knows. -/
example : ¬ ∃ a b c d, IsAddress [104#8, 111#8] a b c d := by
  rintro ⟨a, b, c, d, da, db, dc, dd, ⟨h1, _, h3, _⟩, _, _, _, e⟩
  match da, h1, h3, e with
  | x :: _, _, h3, e =>
    simp only [List.cons_append, List.cons.injEq] at e
    have := h3 x (by simp)
    rw [← e.1] at this
    revert this
    decide

end Wrench.Net
