import Verif.Diag.Header

/-!
# The hexadecimal dump `wr_asciiDump` (`cc/cc.h` 534-570)

Over the formatted printing of `Diag/Model.lean`, without `markByte`.  Simplified: `unsigned int i` is
a natural number, the array `dump` is the list of the characters stored in it (at most 16 of its 24).  `len` is below 2^32.
-/

namespace Wrench.Diag

/-- `isgraph` in the C locale, otherwise a dot; cc.h 545. -/
def shown (b : Byte) : Byte := if 33 ≤ b.toNat ∧ b.toNat ≤ 126 then b else 46#8

/-- The loop over a line, cc.h 543-557; the number counts `16 - j`, `rest` is the data from `i` on. -/
def dumpLine : Nat → List Byte → Text → Text → Option (Text × Text × List Byte × Nat)
  | 0, rest, s, d => some (s, d, rest, 0)
  | k + 1, [], s, d => some (s, d, [], k + 1)
  | k + 1, b :: rest, s, d =>
    (appendFormat s [.x2, .lit (ascii " ")] [.n b.toNat]).bind fun s => dumpLine k rest s (d ++ [shown b])

/-- The filling, cc.h 559-562. -/
def fill : Nat → Text → Option Text
  | 0, s => some s
  | k + 1, s => (appendFormat s [.lit (ascii "   ")] []).bind (fill k)

/-- The loop over the lines, cc.h 538-567; the first number bounds the lines. -/
def dumpGo : Nat → List Byte → Text → Nat → Option Text
  | _, [], s, _ => some s
  | 0, _ :: _, _, _ => none
  | n + 1, b :: rest, s, i =>
    (appendFormat s [.lit (ascii "0x"), .x8, .lit (ascii ": ")] [.n i]).bind fun s =>
    (dumpLine 16 (b :: rest) s []).bind fun (s, d, rest', k) =>
    (fill k s).bind fun s => dumpGo n rest' (s ++ ascii ": " ++ d ++ ascii "\n") (i + ((b :: rest).length - rest'.length))

/-- `wr_asciiDump`, cc.h 534-570. -/
def asciiDump (data : List Byte) : Option Text := dumpGo data.length data [] 0

/-! ### The text, line by line -/

/-- The part of a line with the offset. -/
def offs (i : Nat) : Text := ascii "0x" ++ (hex8 i ++ ascii ": ")

/-- The part of a line with the bytes. -/
def cells (ch : List Byte) : Text := ch.flatMap fun b => hex2 b.toNat ++ ascii " "

/-- A line. -/
def line (i : Nat) (ch : List Byte) : Text :=
  offs i ++ (cells ch ++ (List.replicate (3 * (16 - ch.length)) 32#8 ++ (ascii ": " ++ (ch.map shown ++ ascii "\n"))))

/-- All lines. -/
def dumpText : Nat → List Byte → Nat → Text
  | _, [], _ => []
  | 0, _ :: _, _ => []
  | n + 1, b :: rest, i =>
    line i ((b :: rest).take 16) ++ dumpText n ((b :: rest).drop 16) (i + ((b :: rest).take 16).length)

theorem dumpLine_spec : ∀ (k : Nat) (rest : List Byte) (s d : Text),
    dumpLine k rest s d = some (s ++ cells (rest.take k), d ++ (rest.take k).map shown, rest.drop k, k - rest.length)
  | 0, rest, s, d => by simp [dumpLine, cells]
  | k + 1, [], s, d => by simp [dumpLine, cells]
  | k + 1, b :: rest, s, d => by
    have e : appendFormat s [.x2, .lit (ascii " ")] [.n b.toNat] = some (s ++ (hex2 b.toNat ++ (ascii " " ++ []))) :=
      appendFormat_short (rest := []) (by simp only [render, Option.map_some]) (by simp [hex2, ascii])
    rw [dumpLine, e, Option.bind_some, dumpLine_spec k rest]
    simp [cells]

theorem fill_spec : ∀ (k : Nat) (s : Text), fill k s = some (s ++ List.replicate (3 * k) 32#8)
  | 0, s => by simp [fill]
  | k + 1, s => by
    have e : appendFormat s [.lit (ascii "   ")] [] = some (s ++ (ascii "   " ++ [])) :=
      appendFormat_short (rest := []) (by simp only [render, Option.map_some]) (by decide)
    rw [fill, e, Option.bind_some, fill_spec k, List.append_nil, List.append_assoc,
      show ascii "   " = List.replicate 3 32#8 by decide, List.replicate_append_replicate,
      show 3 + 3 * k = 3 * (k + 1) by omega]

theorem hex8_length (n : Nat) : (hex8 n).length = 8 := rfl

theorem offs_length (n : Nat) : (offs n).length = 12 := by
  unfold offs
  rw [List.length_append, List.length_append, hex8_length]
  rfl

theorem dumpGo_spec : ∀ (n : Nat) (rest : List Byte) (s : Text) (i : Nat), rest.length ≤ n →
    dumpGo n rest s i = some (s ++ dumpText n rest i)
  | n, [], s, i, _ => by rw [dumpGo, dumpText, List.append_nil]
  | 0, b :: rest, _, _, hl => by simp at hl
  | n + 1, b :: rest, s, i, hl => by
    have e : appendFormat s [.lit (ascii "0x"), .x8, .lit (ascii ": ")] [.n i] =
        some (s ++ (ascii "0x" ++ (hex8 i ++ (ascii ": " ++ [])))) :=
      appendFormat_short (rest := []) (by simp only [render, Option.map_some])
        (by rw [List.append_nil]; exact Nat.lt_of_le_of_lt (Nat.le_of_eq (offs_length i)) (by decide))
    have hlen : ((b :: rest).take 16).length + ((b :: rest).drop 16).length = (b :: rest).length := by
      rw [← List.length_append, List.take_append_drop]
    have hpos : 0 < ((b :: rest).take 16).length := by simp
    rw [dumpGo, e, Option.bind_some, dumpLine_spec, Option.bind_some]
    simp only []
    rw [fill_spec, Option.bind_some, dumpGo_spec n _ _ _ (by simp only [List.length_cons] at hl hlen ⊢; omega), dumpText,
      show (b :: rest).length - ((b :: rest).drop 16).length = ((b :: rest).take 16).length by omega,
      show 16 - (b :: rest).length = 16 - ((b :: rest).take 16).length by rw [List.length_take]; omega]
    simp only [line, offs, List.append_assoc, List.nil_append, List.append_nil]

/-! ### Where the bytes are -/

theorem cells_length (ch : List Byte) : (cells ch).length = 3 * ch.length := by
  induction ch with
  | nil => rfl
  | cons b ch ih =>
    rw [cells, List.flatMap_cons, List.length_append, ← cells, ih, List.length_cons]
    have : (hex2 b.toNat ++ ascii " ").length = 3 := by simp [hex2, ascii]
    omega

theorem cells_get : ∀ (ch : List Byte) (j : Nat) (b : Byte), ch[j]? = some b →
    (cells ch)[3 * j]? = some (hexDigit (b.toNat / 16)) ∧ (cells ch)[3 * j + 1]? = some (hexDigit (b.toNat % 16))
  | [], j, b, h => by simp at h
  | c :: ch, 0, b, h => by
    have e : c = b := by simpa using h
    subst e
    exact ⟨rfl, rfl⟩
  | c :: ch, j + 1, b, h => by
    have := cells_get ch j b (by simpa using h)
    have l : (hex2 c.toNat ++ ascii " ").length = 3 := by simp [hex2, ascii]
    rw [cells, List.flatMap_cons, ← cells, List.getElem?_append_right (by omega), List.getElem?_append_right (by omega),
      l, show 3 * (j + 1) - 3 = 3 * j by omega, show 3 * (j + 1) + 1 - 3 = 3 * j + 1 by omega]
    exact this

theorem line_length (i : Nat) (ch : List Byte) (h : ch.length ≤ 16) : (line i ch).length = 63 + ch.length := by
  unfold line
  simp only [List.length_append, offs_length, cells_length, List.length_replicate, List.length_map,
    show (ascii ": ").length = 2 by decide, show (ascii "\n").length = 1 by decide]
  omega

theorem line_get (i : Nat) (ch : List Byte) (hc : ch.length ≤ 16) (j : Nat) (b : Byte) (h : ch[j]? = some b) :
    (line i ch)[12 + 3 * j]? = some (hexDigit (b.toNat / 16)) ∧
    (line i ch)[13 + 3 * j]? = some (hexDigit (b.toNat % 16)) ∧
    (line i ch)[62 + j]? = some (shown b) ∧
    ∀ k, k < 8 → (line i ch)[2 + k]? = some (hexDigit (i / 16 ^ (7 - k) % 16)) := by
  have hj := (List.getElem?_eq_some_iff.mp h).1
  have lo := offs_length i
  have lc := cells_length ch
  obtain ⟨g1, g2⟩ := cells_get ch j b h
  refine ⟨?_, ?_, ?_, ?_⟩
  · rw [line, List.getElem?_append_right (by omega), List.getElem?_append_left (by omega), lo,
      show 12 + 3 * j - 12 = 3 * j by omega, g1]
  · rw [line, List.getElem?_append_right (by omega), List.getElem?_append_left (by omega), lo,
      show 13 + 3 * j - 12 = 3 * j + 1 by omega, g2]
  · rw [line, List.getElem?_append_right (by omega), List.getElem?_append_right (by omega),
      List.getElem?_append_right (by rw [List.length_replicate]; omega), lo, lc, List.length_replicate,
      List.getElem?_append_right (by rw [show (ascii ": ").length = 2 by decide]; omega),
      show (ascii ": ").length = 2 by decide, List.getElem?_append_left (by rw [List.length_map]; omega),
      List.getElem?_map, show 62 + j - 12 - 3 * ch.length - 3 * (16 - ch.length) - 2 = j by omega, h]
    rfl
  · intro k hk
    rw [line, List.getElem?_append_left (by omega), offs, List.getElem?_append_right (by
      rw [show (ascii "0x").length = 2 by decide]; omega), show (ascii "0x").length = 2 by decide,
      List.getElem?_append_left (by rw [hex8_length]; omega), show 2 + k - 2 = k by omega]
    match k, hk with
    | 0, _ => rfl
    | 1, _ => rfl
    | 2, _ => rfl
    | 3, _ => rfl
    | 4, _ => rfl
    | 5, _ => rfl
    | 6, _ => rfl
    | 7, _ => rfl

theorem dumpText_length : ∀ (n : Nat) (rest : List Byte) (i : Nat), rest.length ≤ n →
    (dumpText n rest i).length = 79 * (rest.length / 16) + (if rest.length % 16 = 0 then 0 else 63 + rest.length % 16)
  | n, [], i, _ => by rw [dumpText]; rfl
  | 0, b :: rest, _, hl => by simp at hl
  | n + 1, b :: rest, i, hl => by
    have ht : ((b :: rest).take 16).length = min 16 (b :: rest).length := List.length_take
    have hd : ((b :: rest).drop 16).length = (b :: rest).length - 16 := List.length_drop
    have hp : 0 < (b :: rest).length := by simp
    rw [dumpText, List.length_append, line_length _ _ (by omega), dumpText_length n _ _ (by omega), hd, ht]
    generalize (b :: rest).length = m at *
    by_cases h : m < 16
    · rw [show m - 16 = 0 by omega, Nat.min_eq_right (by omega), Nat.div_eq_of_lt h, Nat.mod_eq_of_lt h,
        if_neg (show ¬ m = 0 by omega)]
      simp
    · rw [Nat.min_eq_left (by omega), show (m - 16) % 16 = m % 16 by omega, show m / 16 = (m - 16) / 16 + 1 by omega]
      omega

theorem dumpText_get : ∀ (n : Nat) (rest : List Byte) (i : Nat), rest.length ≤ n → ∀ (m : Nat) (b : Byte),
    rest[m]? = some b →
    (dumpText n rest i)[79 * (m / 16) + 12 + 3 * (m % 16)]? = some (hexDigit (b.toNat / 16)) ∧
    (dumpText n rest i)[79 * (m / 16) + 13 + 3 * (m % 16)]? = some (hexDigit (b.toNat % 16)) ∧
    (dumpText n rest i)[79 * (m / 16) + 62 + m % 16]? = some (shown b) ∧
    ∀ k, k < 8 → (dumpText n rest i)[79 * (m / 16) + 2 + k]? =
      some (hexDigit ((i + 16 * (m / 16)) / 16 ^ (7 - k) % 16))
  | n, [], i, _, m, b, h => by simp at h
  | 0, c :: rest, _, hl, _, _, _ => by simp at hl
  | n + 1, c :: rest, i, hl, m, b, h => by
    have ht : ((c :: rest).take 16).length = min 16 (c :: rest).length := List.length_take
    have hd : ((c :: rest).drop 16).length = (c :: rest).length - 16 := List.length_drop
    have hm := (List.getElem?_eq_some_iff.mp h).1
    have ll := line_length i ((c :: rest).take 16) (by omega)
    rw [dumpText]
    by_cases hlt : m < 16
    · obtain ⟨g1, g2, g3, g4⟩ := line_get i ((c :: rest).take 16) (by omega) m b
        (by rw [List.getElem?_take_of_lt hlt]; exact h)
      rw [Nat.div_eq_of_lt hlt, Nat.mod_eq_of_lt hlt]
      refine ⟨?_, ?_, ?_, fun k hk => ?_⟩
      · rw [List.getElem?_append_left (by omega), ← g1]
      · rw [List.getElem?_append_left (by omega), ← g2]
      · rw [List.getElem?_append_left (by omega), ← g3]
      · rw [List.getElem?_append_left (by omega), show 79 * 0 + 2 + k = 2 + k by omega, g4 k hk,
          show i + 16 * 0 = i by omega]
    · have l16 : ((c :: rest).take 16).length = 16 := by omega
      obtain ⟨g1, g2, g3, g4⟩ := dumpText_get n ((c :: rest).drop 16) (i + ((c :: rest).take 16).length)
        (by simp only [List.length_cons] at hl hd ⊢; omega) (m - 16) b
        (by rw [List.getElem?_drop, show 16 + (m - 16) = m by omega]; exact h)
      rw [show (m - 16) % 16 = m % 16 by omega] at g1 g2 g3
      have hq : m / 16 = (m - 16) / 16 + 1 := by omega
      rw [hq]
      refine ⟨?_, ?_, ?_, fun k hk => ?_⟩
      · rw [List.getElem?_append_right (by omega), ← g1]; congr 1; omega
      · rw [List.getElem?_append_right (by omega), ← g2]; congr 1; omega
      · rw [List.getElem?_append_right (by omega), ← g3]; congr 1; omega
      · rw [List.getElem?_append_right (by omega), show i + 16 * ((m - 16) / 16 + 1) =
          i + ((c :: rest).take 16).length + 16 * ((m - 16) / 16) by omega, ← g4 k hk]
        congr 1; omega

/-- **C119.**  The dump of any data has a line of 79 characters for every 16 bytes, and a shorter one for
what is left.  Byte `n` is in line `n / 16`: its two hexadecimal digits in the columns 12 and 13 moved
by three for every byte in front of it in its line, and itself (a dot if it cannot be printed) in column
62 moved by one for every such byte.  The line begins with the offset of its first byte, in eight
hexadecimal digits. -/
theorem C119_dump (data : List Byte) :
    ∃ t, asciiDump data = some t ∧
      t.length = 79 * (data.length / 16) + (if data.length % 16 = 0 then 0 else 63 + data.length % 16) ∧
      ∀ (n : Nat) (b : Byte), data[n]? = some b →
        (∃ c d u v, t[79 * (n / 16) + 12 + 3 * (n % 16)]? = some c ∧ t[79 * (n / 16) + 13 + 3 * (n % 16)]? = some d ∧
          IsDigit c u ∧ IsDigit d v ∧ b.toNat = 16 * u + v) ∧
        (t[79 * (n / 16) + 62 + n % 16]? = some (if 32 < b.toNat ∧ b.toNat < 127 then b else 46#8)) ∧
        ∀ k, k < 8 → ∃ c, t[79 * (n / 16) + 2 + k]? = some c ∧ IsDigit c (16 * (n / 16) / 16 ^ (7 - k) % 16) := by
  refine ⟨dumpText data.length data 0, by rw [asciiDump, dumpGo_spec _ _ _ _ (Nat.le_refl _), List.nil_append],
    dumpText_length _ _ _ (Nat.le_refl _), fun n b h => ?_⟩
  obtain ⟨g1, g2, g3, g4⟩ := dumpText_get data.length data 0 (Nat.le_refl _) n b h
  have hb : b.toNat < 256 := b.isLt
  have hs : shown b = if 32 < b.toNat ∧ b.toNat < 127 then b else 46#8 := by
    unfold shown
    by_cases hc : 33 ≤ b.toNat ∧ b.toNat ≤ 126
    · rw [if_pos hc, if_pos (by omega)]
    · rw [if_neg hc, if_neg (by omega)]
  rw [hs] at g3
  refine ⟨⟨_, _, _, _, g1, g2, hexDigit_isDigit _ (by omega), hexDigit_isDigit _ (by omega), by omega⟩, g3,
    fun k hk => ⟨_, g4 k hk, ?_⟩⟩
  rw [Nat.zero_add]
  exact hexDigit_isDigit _ (Nat.mod_lt _ (by decide))

/-- A case: the bytes of `Hi`, and a zero. -/
example : asciiDump [72#8, 105#8, 0#8] =
    some (ascii "0x00000000: 48 69 00                                        : Hi.\n") := by
  decide

end Wrench.Diag
