/-!
# The string class `WRstr` (`wrench.h` 1353-1981)

The buffer `m_str` points at is a list of bytes; `none` is a byte never written.  `heap`
tells whether `m_str` is a `g_malloc`ed block or the built-in small buffer.  Any access
outside the buffer is undefined and is the outcome `none`.  The contents the small buffer has
while a heap block is in use are not tracked (they count as never written).  Arithmetic on
`unsigned int` that can wrap is written with `u32`.
-/

namespace Wrench.Util.Str

/-- Wrap-around of `unsigned int`. -/
def u32 (n : Nat) : Nat := n % 4294967296

structure Str where
  heap : Bool
  buf : List (Option UInt8)
  buflen : Nat
  len : Nat
deriving DecidableEq

/-- `c_sizeofBaseString` (wrench.h 1349). -/
def base : Nat := 15

/-- `memcpy`/`memmove`/`=` into a buffer. -/
def store (buf : List (Option UInt8)) (pos : Nat) (bytes : List (Option UInt8)) : Option (List (Option UInt8)) :=
  if pos + bytes.length ≤ buf.length then
    some (buf.take pos ++ bytes ++ buf.drop (pos + bytes.length)) else none

/-- Reading `n` bytes of a buffer. -/
def fetch (buf : List (Option UInt8)) (pos n : Nat) : Option (List (Option UInt8)) :=
  if pos + n ≤ buf.length then some ((buf.drop pos).take n) else none

/-- A block of fresh bytes. -/
def fresh (n : Nat) : List (Option UInt8) := List.replicate n none

/-- The default constructor (wrench.h 1356). -/
def new : Str := ⟨false, some 0 :: fresh base, base, 0⟩

/-- `clear` (wrench.h 1371). -/
def clear (s : Str) : Option Str :=
  (store s.buf 0 [some 0]).map (fun b => { s with buf := b, len := 0 })

/-- `alloc( characters, preserveContents )` (wrench.h 1737-1758). -/
def alloc (s : Str) (characters : Nat) (preserve : Bool) : Option Str :=
  if characters ≥ s.buflen then
    (if preserve then (fetch s.buf 0 s.buflen).bind (store (fresh (characters + 1)) 0)
      else some (fresh (characters + 1))).map (fun b => ⟨true, b, characters, s.len⟩)
  else some s

/-- `insert( buf, len, startPos )` (wrench.h 1950-1968); `text` is the content of `buf`,
which must not be the string's own buffer. -/
def insert (s : Str) (text : List UInt8) (startPos : Nat) : Option Str :=
  if text.length ≠ 0 then
    (alloc s (u32 (s.len + text.length + startPos)) true).bind fun s =>
    (if startPos < s.len then
      (fetch s.buf startPos s.len).bind (store s.buf (text.length + startPos))
     else some s.buf).bind fun b =>
    (store b startPos (text.map some)).bind fun b =>
    (store b (s.len + text.length) [some 0]).map fun b =>
      { s with buf := b, len := s.len + text.length }
  else some s

/-- `append( buf, len )` (wrench.h 1431) and the `+=` operators (1445-1446). -/
def append (s : Str) (text : List UInt8) : Option Str := insert s text s.len

/-- `s += s`: `append( m_str, m_len )` of the string's own buffer (wrench.h 1431, 1445).  When
`alloc` replaces a heap block the source pointer is freed memory. -/
def appendSelf (s : Str) : Option Str :=
  if s.len ≠ 0 ∧ u32 (3 * s.len) ≥ s.buflen ∧ s.heap = true then none
  else ((fetch s.buf 0 s.len).bind (fun l => l.mapM id)).bind (append s)

/-- `append( c )` (wrench.h 1971-1981). -/
def appendChar (s : Str) (c : UInt8) : Option Str :=
  (if s.len + 1 ≥ s.buflen then alloc s (u32 (u32 (s.len * 3) / 2 + 1)) true else some s).bind fun s =>
  (store s.buf s.len [some c]).bind fun b =>
  (store b (s.len + 1) [some 0]).map fun b => { s with buf := b, len := s.len + 1 }

/-- `set( buf, len )` (wrench.h 1412). -/
def set (s : Str) (text : List UInt8) : Option Str :=
  (store s.buf 0 [some 0]).bind (fun b => insert { s with buf := b, len := 0 } text 0)

/-- `set( c )` (wrench.h 1414). -/
def setChar (s : Str) (c : UInt8) : Option Str :=
  (clear s).bind fun s => (store s.buf 0 [some c]).bind fun b => (store b 1 [some 0]).map fun b =>
    { s with buf := b, len := 1 }

/-- `truncate( newLen )` (wrench.h 1761-1783). -/
def truncate (s : Str) (newLen : Nat) : Option Str :=
  if newLen ≥ s.len then some s
  else
    (if newLen < base ∧ s.heap = true then
      ((fetch s.buf 0 newLen).bind (store (fresh (base + 1)) 0)).map (fun b => (⟨false, b, base, s.len⟩ : Str))
     else some s).bind fun s =>
    (store s.buf newLen [some 0]).map fun b => { s with buf := b, len := newLen }

/-- `shave( e )` (wrench.h 1400). -/
def shave (s : Str) (e : Nat) : Option Str := if e > s.len then clear s else truncate s (s.len - e)

/-- `shift( from )` (wrench.h 1786-1797). -/
def shift (s : Str) (from' : Nat) : Option Str :=
  if from' ≥ s.len then clear s
  else ((fetch s.buf from' (s.len - from' + 1)).bind (store s.buf 0)).map
    fun b => { s with buf := b, len := s.len - from' }

/-- `isspace` of the C locale. -/
def isSpace (c : UInt8) : Bool := c = 32 || (9 ≤ c && c ≤ 13)

/-- The first loop of `trim` (wrench.h 1709). -/
def trimStart (s : Str) : Nat → Nat → Option Nat
  | 0, start => some start
  | fuel + 1, start =>
    if start < s.len then
      match s.buf[start]? with
      | some (some c) => if isSpace c then trimStart s fuel (start + 1) else some start
      | _ => none
    else some start

/-- The second loop of `trim` (wrench.h 1722-1728). -/
def trimCopy (len : Nat) : Nat → List (Option UInt8) → Nat → Nat → Nat → Option (List (Option UInt8) × Nat)
  | 0, buf, _, _, marker => some (buf, marker)
  | fuel + 1, buf, start, pos, marker =>
    if start < len then
      match buf[start]? with
      | some (some c) =>
        (store buf pos [some c]).bind fun b =>
          trimCopy len fuel b (start + 1) (pos + 1) (if isSpace c then marker else pos)
      | _ => none
    else some (buf, marker)

/-- `trim` (wrench.h 1704-1734). -/
def trim (s : Str) : Option Str :=
  (trimStart s s.len 0).bind fun start =>
  if start = s.len then clear s
  else (trimCopy s.len s.len s.buf start 0 start).bind fun (b, marker) =>
    (store b (marker + 1) [some 0]).map fun b => { s with buf := b, len := marker + 1 }

/-- `giveOwnership( buf, len )` (wrench.h 1671-1701) with a block holding `text` and `extra`
more bytes. -/
def giveOwnership (s : Str) (text : List UInt8) (extra : Nat) : Option Str :=
  if text.length = 0 then clear s
  else
    (if text.length < base then
      (store (if s.heap then fresh (base + 1) else s.buf) 0 (text.map some)).map (fun b => (false, b))
     else some (true, text.map some ++ fresh extra)).bind fun (h, b) =>
    (store b text.length [some 0]).map fun b => ⟨h, b, text.length, text.length⟩

/-- `setSize( size, preserveContents )` (wrench.h 1394). -/
def setSize (s : Str) (size : Nat) (preserve : Bool) : Option Str :=
  (alloc s size preserve).bind fun s => (store s.buf size [some 0]).map fun b => { s with buf := b, len := size }

/-- `substr( begin, len )` (wrench.h 1800-1809). -/
def substr (s : Str) (begin' len : Nat) : Option Str :=
  if begin' < s.len then
    ((fetch s.buf begin' (if u32 (begin' + len) > s.len then s.len - begin' else len)).bind (fun l => l.mapM id)).bind
      (set new)
  else some new

/-! ### Specification: byte strings -/

inductive Op where
  | set (text : List UInt8)
  | setChar (c : UInt8)
  | append (text : List UInt8)
  | appendChar (c : UInt8)
  | insert (text : List UInt8) (pos : Nat)
  | truncate (n : Nat)
  | shave (n : Nat)
  | shift (n : Nat)
  | trim
  | clear
  | giveOwnership (text : List UInt8) (extra : Nat)

/-- The text without the white space at its end. -/
def trimRight (t : List UInt8) : List UInt8 := (t.reverse.dropWhile isSpace).reverse

def Op.spec : Op → List UInt8 → List UInt8
  | .set u, _ => u
  | .setChar c, _ => [c]
  | .append u, t => t ++ u
  | .appendChar c, t => t ++ [c]
  | .insert u pos, t => t.take pos ++ u ++ t.drop pos
  | .truncate n, t => t.take n
  | .shave n, t => t.take (t.length - n)
  | .shift n, t => t.drop n
  | .trim, t => trimRight (t.dropWhile isSpace)
  | .clear, _ => []
  | .giveOwnership u _, _ => u

def Op.run : Op → Str → Option Str
  | .set u, s => Str.set s u
  | .setChar c, s => Str.setChar s c
  | .append u, s => Str.append s u
  | .appendChar c, s => Str.appendChar s c
  | .insert u pos, s => Str.insert s u pos
  | .truncate n, s => Str.truncate s n
  | .shave n, s => Str.shave s n
  | .shift n, s => Str.shift s n
  | .trim, s => Str.trim s
  | .clear, s => Str.clear s
  | .giveOwnership u extra, s => Str.giveOwnership s u extra

/-- The insertion point lies inside the text, the sizes fit 32 bits, and a block handed over
has room for the terminator. -/
def Op.Proper : Op → List UInt8 → Prop
  | .set u, _ => u.length < 4294967296
  | .append u, t => 2 * t.length + u.length < 4294967296
  | .appendChar _, t => t.length * 3 < 4294967296
  | .insert u pos, t => pos ≤ t.length ∧ t.length + u.length + pos < 4294967296
  | .giveOwnership _ extra, _ => 1 ≤ extra
  | _, _ => True

/-- `s` holds the text `t`: the length field is its length, the buffer starts with it and a
terminator follows. -/
structure Rep (s : Str) (t : List UInt8) : Prop where
  len : s.len = t.length
  text : ∀ i, i < t.length → s.buf[i]? = some t[i]?
  terminator : s.buf[t.length]? = some (some 0)
  fits : s.len ≤ s.buflen
  room : s.buflen + 1 ≤ s.buf.length
  pos : 1 ≤ s.buflen
  small : s.heap = false → s.buf.length = base + 1

/-! ### Buffer lemmas -/

theorem store_get {buf bytes b : List (Option UInt8)} {pos : Nat} (h : store buf pos bytes = some b) (i : Nat) :
    b[i]? = if i < pos then buf[i]? else if i < pos + bytes.length then bytes[i - pos]? else buf[i]? := by
  unfold store at h
  split at h
  · rename_i hl
    injection h with h; subst h
    have hp : (buf.take pos).length = pos := by rw [List.length_take]; omega
    by_cases h1 : i < pos
    · rw [if_pos h1, List.append_assoc, List.getElem?_append_left (by omega), List.getElem?_take_of_lt h1]
    · rw [if_neg h1]
      by_cases h2 : i < pos + bytes.length
      · rw [if_pos h2, List.getElem?_append_left (by rw [List.length_append]; omega),
          List.getElem?_append_right (by omega), hp]
      · rw [if_neg h2, List.getElem?_append_right (by rw [List.length_append]; omega), List.getElem?_drop,
          List.length_append, hp]
        congr 1; omega
  · cases h

theorem store_length {buf bytes b : List (Option UInt8)} {pos : Nat} (h : store buf pos bytes = some b) :
    b.length = buf.length := by
  unfold store at h
  split at h
  · injection h with h; subst h
    simp only [List.length_append, List.length_take, List.length_drop]; omega
  · cases h

theorem store_ok {buf bytes : List (Option UInt8)} {pos : Nat} (h : pos + bytes.length ≤ buf.length) :
    ∃ b, store buf pos bytes = some b := ⟨_, by unfold store; rw [if_pos h]⟩

theorem fetch_ok {buf : List (Option UInt8)} {pos n : Nat} (h : pos + n ≤ buf.length) :
    fetch buf pos n = some ((buf.drop pos).take n) := by unfold fetch; rw [if_pos h]

theorem getElem?_fetch {buf : List (Option UInt8)} {pos n i : Nat} (hi : i < n) :
    ((buf.drop pos).take n)[i]? = buf[pos + i]? := by
  rw [List.getElem?_take_of_lt hi, List.getElem?_drop]

theorem length_fetch {buf : List (Option UInt8)} {pos n : Nat} (h : pos + n ≤ buf.length) :
    ((buf.drop pos).take n).length = n := by
  rw [List.length_take, List.length_drop]; omega

/-- The last byte written by a terminator store, in one lemma: storing a 0 behind a text. -/
theorem terminate {buf : List (Option UInt8)} {n : Nat} (h : n < buf.length) :
    ∃ b, store buf n [some 0] = some b ∧ b.length = buf.length ∧ b[n]? = some (some 0) ∧
      ∀ i, i ≠ n → b[i]? = buf[i]? := by
  obtain ⟨b, hb⟩ := store_ok (buf := buf) (bytes := [some 0]) (pos := n) (by simp only [List.length_singleton]; omega)
  refine ⟨b, hb, store_length hb, ?_, ?_⟩
  · rw [store_get hb]; simp
  · intro i hi
    rw [store_get hb]
    simp only [List.length_singleton]
    split
    · rfl
    · rw [if_neg (by omega)]

theorem new_rep : Rep new [] where
  len := rfl
  text := by intro i hi; simp at hi
  terminator := rfl
  fits := by simp [new]
  room := by decide
  pos := by decide
  small := by intro _; decide

theorem clear_rep {s : Str} {t : List UInt8} (h : Rep s t) : ∃ s', clear s = some s' ∧ Rep s' [] ∧
    s'.heap = s.heap ∧ s'.buf.length = s.buf.length ∧ s'.buflen = s.buflen := by
  have hr := h.room
  obtain ⟨b, hb, hl, h0, -⟩ := terminate (buf := s.buf) (n := 0) (by omega)
  unfold clear
  rw [hb]
  refine ⟨{ s with buf := b, len := 0 }, rfl, ⟨rfl, ?_, h0, Nat.zero_le _, by simp only [hl]; exact hr, h.pos, ?_⟩, rfl, hl, rfl⟩
  · intro i hi; simp at hi
  · intro hh; simp only [hl]; exact h.small hh

theorem alloc_rep {s : Str} {t : List UInt8} (h : Rep s t) (n : Nat) :
    ∃ s', alloc s n true = some s' ∧ s'.len = s.len ∧ n ≤ s'.buflen ∧ s.buflen ≤ s'.buflen ∧
      s'.buflen + 1 ≤ s'.buf.length ∧ (s'.heap = false → s'.buf.length = base + 1) ∧
      ∀ i, i < t.length → s'.buf[i]? = some t[i]? := by
  have hr := h.room
  have hf := h.fits
  have hl := h.len
  unfold alloc
  by_cases hn : n ≥ s.buflen
  · rw [if_pos hn]
    simp only [if_true]
    rw [fetch_ok (by omega)]
    simp only [Option.bind_some, List.drop_zero]
    have hlen : (s.buf.take s.buflen).length = s.buflen := by rw [List.length_take]; omega
    obtain ⟨b, hb⟩ := store_ok (buf := fresh (n + 1)) (bytes := s.buf.take s.buflen) (pos := 0)
      (by simp only [fresh, List.length_replicate, hlen]; omega)
    rw [hb]
    refine ⟨_, rfl, rfl, Nat.le_refl _, hn, ?_, ?_, ?_⟩
    · simp only [store_length hb, fresh, List.length_replicate]; omega
    · intro hh; simp at hh
    · intro i hi
      show b[i]? = _
      rw [store_get hb, if_neg (by omega), if_pos (by omega), Nat.sub_zero, List.getElem?_take_of_lt (by omega)]
      exact h.text i hi
  · rw [if_neg hn]
    exact ⟨s, rfl, rfl, by omega, Nat.le_refl _, hr, h.small, h.text⟩

theorem insert_rep {s : Str} {t u : List UInt8} {pos : Nat} (h : Rep s t) (hp : pos ≤ t.length)
    (hs : t.length + u.length + pos < 4294967296) :
    ∃ s', insert s u pos = some s' ∧ Rep s' (t.take pos ++ u ++ t.drop pos) := by
  have hlen := h.len
  unfold insert
  by_cases hu : u.length ≠ 0
  · rw [if_pos hu]
    rw [show u32 (s.len + u.length + pos) = t.length + u.length + pos by
      unfold u32; rw [hlen]; exact Nat.mod_eq_of_lt hs]
    obtain ⟨s1, e1, l1, n1, n2, r1, sm1, t1⟩ := alloc_rep h (t.length + u.length + pos)
    rw [e1]
    simp only [Option.bind_some]
    have hl1 : s1.len = t.length := by rw [l1, hlen]
    -- the move
    have hmove : ∃ b, (if pos < s1.len then (fetch s1.buf pos s1.len).bind (store s1.buf (u.length + pos)) else some s1.buf) = some b ∧
        b.length = s1.buf.length ∧ (∀ i, i < pos → b[i]? = some t[i]?) ∧
        ∀ i, pos ≤ i → i < t.length → b[u.length + i]? = some t[i]? := by
      by_cases hpl : pos < s1.len
      · rw [if_pos hpl, fetch_ok (by omega)]
        simp only [Option.bind_some]
        have hfl := length_fetch (buf := s1.buf) (pos := pos) (n := s1.len) (by omega)
        obtain ⟨b, hb⟩ := store_ok (buf := s1.buf) (bytes := (s1.buf.drop pos).take s1.len) (pos := u.length + pos) (by omega)
        rw [hb]
        refine ⟨b, rfl, store_length hb, ?_, ?_⟩
        · intro i hi
          rw [store_get hb, if_pos (by omega)]
          exact t1 i (by omega)
        · intro i h1 h2
          rw [store_get hb, if_neg (by omega), if_pos (by omega), getElem?_fetch (by omega)]
          rw [show pos + (u.length + i - (u.length + pos)) = i by omega]
          exact t1 i h2
      · rw [if_neg hpl]
        exact ⟨s1.buf, rfl, rfl, fun i hi => t1 i (by omega), fun i h1 h2 => by omega⟩
    obtain ⟨b1, eb1, lb1, m1, m2⟩ := hmove
    rw [eb1]
    simp only [Option.bind_some]
    obtain ⟨b2, hb2⟩ := store_ok (buf := b1) (bytes := u.map some) (pos := pos) (by simp only [List.length_map]; omega)
    rw [hb2]
    simp only [Option.bind_some]
    have lb2 := store_length hb2
    obtain ⟨b3, hb3, lb3, h0, hne⟩ := terminate (buf := b2) (n := s1.len + u.length) (by omega)
    rw [hb3]
    have htl : (t.take pos ++ u ++ t.drop pos).length = t.length + u.length := by
      simp only [List.length_append, List.length_take, List.length_drop]; omega
    refine ⟨{ s1 with buf := b3, len := s1.len + u.length }, rfl, ⟨?_, ?_, ?_, ?_, ?_, ?_, ?_⟩⟩
    · simp only [htl, hl1]
    · intro i hi
      rw [htl] at hi
      show b3[i]? = _
      rw [hne i (by omega), store_get hb2]
      simp only [List.length_map]
      by_cases h1 : i < pos
      · rw [if_pos h1, m1 i h1, List.append_assoc, List.getElem?_append_left (by rw [List.length_take]; omega),
          List.getElem?_take_of_lt h1]
      · rw [if_neg h1]
        have htp : (t.take pos).length = pos := by rw [List.length_take]; omega
        by_cases h2 : i < pos + u.length
        · rw [if_pos h2, List.getElem?_append_left (by rw [List.length_append]; omega),
            List.getElem?_append_right (by omega), htp, List.getElem?_map, List.getElem?_eq_getElem (by omega)]
          rfl
        · rw [if_neg h2, List.getElem?_append_right (by rw [List.length_append]; omega), List.length_append, htp,
            List.getElem?_drop]
          have := m2 (i - u.length) (by omega) (by omega)
          rw [show u.length + (i - u.length) = i by omega] at this
          rw [this]
          congr 2; omega
    · show b3[_]? = _
      rw [htl, ← hl1]; exact h0
    · simp only; omega
    · simp only; omega
    · have := h.pos; simp only; omega
    · intro hh; simp only [lb3, lb2, lb1]; exact sm1 hh
  · rw [if_neg hu]
    have : u = [] := List.length_eq_zero_iff.mp (by omega)
    subst this
    exact ⟨s, rfl, by simpa using h⟩

theorem appendChar_rep {s : Str} {t : List UInt8} (c : UInt8) (h : Rep s t) (hs : t.length * 3 < 4294967296) :
    ∃ s', appendChar s c = some s' ∧ Rep s' (t ++ [c]) := by
  have hlen := h.len
  have hpos := h.pos
  have key : ∃ s1, (if s.len + 1 ≥ s.buflen then alloc s (u32 (u32 (s.len * 3) / 2 + 1)) true else some s) = some s1 ∧
      s1.len = s.len ∧ s.len + 1 ≤ s1.buflen ∧ s1.buflen + 1 ≤ s1.buf.length ∧
      (s1.heap = false → s1.buf.length = base + 1) ∧ ∀ i, i < t.length → s1.buf[i]? = some t[i]? := by
    by_cases hc : s.len + 1 ≥ s.buflen
    · rw [if_pos hc]
      obtain ⟨s1, e1, l1, n1, n2, r1, sm1, t1⟩ := alloc_rep h (u32 (u32 (s.len * 3) / 2 + 1))
      refine ⟨s1, e1, l1, ?_, r1, sm1, t1⟩
      have h3 : u32 (s.len * 3) = s.len * 3 := Nat.mod_eq_of_lt (by omega)
      have h4 : u32 (u32 (s.len * 3) / 2 + 1) = s.len * 3 / 2 + 1 := by
        rw [h3]; exact Nat.mod_eq_of_lt (by omega)
      omega
    · rw [if_neg hc]
      exact ⟨s, rfl, rfl, by omega, h.room, h.small, h.text⟩
  obtain ⟨s1, e1, l1, n1, r1, sm1, t1⟩ := key
  unfold appendChar
  rw [e1]
  simp only [Option.bind_some]
  obtain ⟨b1, hb1⟩ := store_ok (buf := s1.buf) (bytes := [some c]) (pos := s1.len) (by simp only [List.length_singleton]; omega)
  rw [hb1]
  simp only [Option.bind_some]
  have lb1 := store_length hb1
  obtain ⟨b2, hb2, lb2, h0, hne⟩ := terminate (buf := b1) (n := s1.len + 1) (by omega)
  rw [hb2]
  refine ⟨{ s1 with buf := b2, len := s1.len + 1 }, rfl, ⟨?_, ?_, ?_, ?_, ?_, ?_, ?_⟩⟩
  · simp only [List.length_append, List.length_singleton]; omega
  · intro i hi
    simp only [List.length_append, List.length_singleton] at hi
    show b2[i]? = _
    rw [hne i (by omega), store_get hb1]
    simp only [List.length_singleton]
    by_cases h1 : i < t.length
    · rw [if_pos (by omega), t1 i h1, List.getElem?_append_left h1]
    · have : i = t.length := by omega
      subst this
      rw [if_neg (by omega), if_pos (by omega), show t.length - s1.len = 0 by omega]
      simp
  · show b2[_]? = _
    simp only [List.length_append, List.length_singleton]
    rw [← hlen, ← l1]; exact h0
  · simp only; omega
  · simp only; omega
  · simp only; omega
  · intro hh; simp only [lb2, lb1]; exact sm1 hh

theorem set_rep {s : Str} {t u : List UInt8} (h : Rep s t) (hs : u.length < 4294967296) :
    ∃ s', set s u = some s' ∧ Rep s' u := by
  obtain ⟨s1, e1, r1, -⟩ := clear_rep h
  unfold clear at e1
  unfold set
  cases hb : store s.buf 0 [some 0] with
  | none => rw [hb] at e1; cases e1
  | some b =>
    rw [hb] at e1
    injection e1 with e1; subst e1
    simp only [Option.bind_some]
    have := insert_rep (u := u) (pos := 0) r1 (Nat.zero_le _) (by simpa using hs)
    simpa using this

theorem setChar_rep {s : Str} {t : List UInt8} (c : UInt8) (h : Rep s t) :
    ∃ s', setChar s c = some s' ∧ Rep s' [c] := by
  obtain ⟨s1, e1, r1, hh, hbl, hb⟩ := clear_rep h
  have hr := r1.room
  have hp := r1.pos
  unfold setChar
  rw [e1]
  simp only [Option.bind_some]
  obtain ⟨b1, hb1⟩ := store_ok (buf := s1.buf) (bytes := [some c]) (pos := 0) (by simp only [List.length_singleton]; omega)
  rw [hb1]
  simp only [Option.bind_some]
  have lb1 := store_length hb1
  obtain ⟨b2, hb2, lb2, h0, hne⟩ := terminate (buf := b1) (n := 1) (by omega)
  rw [hb2]
  refine ⟨{ s1 with buf := b2, len := 1 }, rfl, ⟨rfl, ?_, h0, hp, ?_, hp, ?_⟩⟩
  · intro i hi
    have : i = 0 := by simpa using hi
    subst this
    show b2[0]? = _
    rw [hne 0 (by omega), store_get hb1]
    simp
  · simp only; omega
  · intro hh; simp only [lb2, lb1]; exact r1.small hh

theorem truncate_rep {s : Str} {t : List UInt8} (h : Rep s t) (n : Nat) :
    ∃ s', truncate s n = some s' ∧ Rep s' (t.take n) := by
  have hlen := h.len
  have hr := h.room
  have hf := h.fits
  unfold truncate
  by_cases hn : n ≥ s.len
  · rw [if_pos hn, List.take_of_length_le (by omega)]
    exact ⟨s, rfl, h⟩
  · rw [if_neg hn]
    have key : ∃ s1, (if n < base ∧ s.heap = true then
        ((fetch s.buf 0 n).bind (store (fresh (base + 1)) 0)).map (fun b => (⟨false, b, base, s.len⟩ : Str))
        else some s) = some s1 ∧ n ≤ s1.buflen ∧ s1.buflen + 1 ≤ s1.buf.length ∧ 1 ≤ s1.buflen ∧
        (s1.heap = false → s1.buf.length = base + 1) ∧ ∀ i, i < n → s1.buf[i]? = some t[i]? := by
      by_cases hc : n < base ∧ s.heap = true
      · rw [if_pos hc, fetch_ok (by omega)]
        simp only [Option.bind_some, List.drop_zero]
        have hl : (s.buf.take n).length = n := by rw [List.length_take]; omega
        have hb15 : base = 15 := rfl
        obtain ⟨b, hb⟩ := store_ok (buf := fresh (base + 1)) (bytes := s.buf.take n) (pos := 0)
          (by simp only [fresh, List.length_replicate]; omega)
        rw [hb]
        have lb := store_length hb
        simp only [fresh, List.length_replicate] at lb
        refine ⟨_, rfl, ?_, ?_, ?_, ?_, ?_⟩
        · simp only; omega
        · simp only [lb]; omega
        · simp only; omega
        · intro _; exact lb
        · intro i hi
          show b[i]? = _
          rw [store_get hb, if_neg (by omega), if_pos (by omega), Nat.sub_zero, List.getElem?_take_of_lt hi]
          exact h.text i (by omega)
      · rw [if_neg hc]
        exact ⟨s, rfl, by omega, hr, h.pos, h.small, fun i hi => h.text i (by omega)⟩
    obtain ⟨s1, e1, f1, r1, p1, sm1, t1⟩ := key
    rw [e1]
    simp only [Option.bind_some]
    obtain ⟨b2, hb2, lb2, h0, hne⟩ := terminate (buf := s1.buf) (n := n) (by omega)
    rw [hb2]
    have htl : (t.take n).length = n := by rw [List.length_take]; omega
    refine ⟨{ s1 with buf := b2, len := n }, rfl, ⟨htl.symm, ?_, ?_, f1, ?_, p1, ?_⟩⟩
    · intro i hi
      rw [htl] at hi
      show b2[i]? = _
      rw [hne i (by omega), t1 i hi, List.getElem?_take_of_lt hi]
    · show b2[_]? = _
      rw [htl]; exact h0
    · simp only; omega
    · intro hh; simp only [lb2]; exact sm1 hh

theorem shift_rep {s : Str} {t : List UInt8} (h : Rep s t) (n : Nat) :
    ∃ s', shift s n = some s' ∧ Rep s' (t.drop n) := by
  have hlen := h.len
  have hr := h.room
  have hf := h.fits
  unfold shift
  by_cases hn : n ≥ s.len
  · rw [if_pos hn, List.drop_eq_nil_of_le (by omega)]
    obtain ⟨s1, e1, r1, -⟩ := clear_rep h
    exact ⟨s1, e1, r1⟩
  · rw [if_neg hn, fetch_ok (by omega)]
    simp only [Option.bind_some]
    have hl := length_fetch (buf := s.buf) (pos := n) (n := s.len - n + 1) (by omega)
    obtain ⟨b, hb⟩ := store_ok (buf := s.buf) (bytes := (s.buf.drop n).take (s.len - n + 1)) (pos := 0) (by omega)
    rw [hb]
    have lb := store_length hb
    have htl : (t.drop n).length = s.len - n := by rw [List.length_drop, hlen]
    have hget : ∀ i, i < s.len - n + 1 → b[i]? = s.buf[n + i]? := by
      intro i hi
      rw [store_get hb, if_neg (by omega), if_pos (by omega), Nat.sub_zero, getElem?_fetch (by omega)]
    refine ⟨{ s with buf := b, len := s.len - n }, rfl, ⟨htl.symm, ?_, ?_, ?_, ?_, h.pos, ?_⟩⟩
    · intro i hi
      rw [htl] at hi
      show b[i]? = _
      rw [hget i (by omega), List.getElem?_drop]
      exact h.text _ (by omega)
    · show b[_]? = _
      rw [htl, hget _ (by omega), show n + (s.len - n) = t.length by omega]
      exact h.terminator
    · simp only; omega
    · simp only; omega
    · intro hh; simp only [lb]; exact h.small hh

/-! ### `trim` -/

theorem trimRight_snoc (u : List UInt8) (c : UInt8) :
    trimRight (u ++ [c]) = if isSpace c then trimRight u else u ++ [c] := by
  unfold trimRight
  rw [List.reverse_append, List.reverse_singleton, List.singleton_append, List.dropWhile_cons]
  by_cases hc : isSpace c = true
  · simp [hc]
  · rw [if_neg hc, if_neg hc]
    simp

theorem trimRight_prefix (u : List UInt8) : ∃ v, u = trimRight u ++ v := by
  refine ⟨(u.reverse.takeWhile isSpace).reverse, ?_⟩
  unfold trimRight
  rw [← List.reverse_append, List.takeWhile_append_dropWhile, List.reverse_reverse]

theorem trimStart_spec {s : Str} {t : List UInt8} (h : Rep s t) : ∀ (fuel start : Nat), start + fuel = t.length →
    trimStart s fuel start = some (start + ((t.drop start).takeWhile isSpace).length)
  | 0, start, hf => by
    simp only [trimStart]
    rw [List.drop_eq_nil_of_le (by omega)]; rfl
  | fuel + 1, start, hf => by
    unfold trimStart
    have hlt : start < t.length := by omega
    rw [if_pos (by rw [h.len]; exact hlt), h.text start hlt, List.getElem?_eq_getElem hlt,
      List.drop_eq_getElem_cons hlt, List.takeWhile_cons]
    simp only
    by_cases hc : isSpace t[start] = true
    · rw [if_pos hc, if_pos hc, trimStart_spec h fuel (start + 1) (by omega), List.length_cons]
      congr 1; omega
    · rw [if_neg hc, if_neg hc]; rfl

theorem trimCopy_spec {t u : List UInt8} {len s0 : Nat} (hlen : len = t.length) (hu : u = t.drop s0)
    (hs0 : s0 ≤ t.length) {buf0 : List (Option UInt8)} (hroom : t.length < buf0.length) :
    ∀ (fuel pos marker : Nat) (buf : List (Option UInt8)), s0 + pos ≤ t.length → t.length ≤ s0 + pos + fuel →
    buf.length = buf0.length →
    (∀ i, i < pos → buf[i]? = some u[i]?) → (∀ i, s0 + pos ≤ i → i < t.length → buf[i]? = some t[i]?) →
    (∃ c, (u.take (pos + 1)).head? = some c ∧ isSpace c = false) →
    (0 < pos → marker + 1 = (trimRight (u.take pos)).length) →
    ∃ b m, trimCopy len fuel buf (s0 + pos) pos marker = some (b, m) ∧ b.length = buf0.length ∧
      (∀ i, i < u.length → b[i]? = some u[i]?) ∧ m + 1 = (trimRight u).length
  | fuel, pos, marker, buf, hp, hf, hl, h1, h2, hfirst, hm => by
    have hul : u.length = t.length - s0 := by rw [hu, List.length_drop]
    by_cases hdone : s0 + pos = t.length
    · have hpu : pos = u.length := by omega
      have hpos : 0 < pos := by
        obtain ⟨c, hc, -⟩ := hfirst
        cases hz : u with
        | nil => rw [hz] at hc; simp at hc
        | cons a l => rw [hpu, hz]; simp
      have e : trimCopy len fuel buf (s0 + pos) pos marker = some (buf, marker) := by
        cases fuel with
        | zero => rfl
        | succ f => unfold trimCopy; rw [if_neg (by omega)]
      refine ⟨buf, marker, e, hl, fun i hi => h1 i (by omega), ?_⟩
      rw [hm hpos, List.take_of_length_le (by omega)]
    · cases fuel with
      | zero => omega
      | succ f =>
        have hlt : s0 + pos < t.length := by omega
        unfold trimCopy
        rw [if_pos (by omega), h2 _ (Nat.le_refl _) hlt, List.getElem?_eq_getElem hlt]
        simp only
        obtain ⟨b1, hb1⟩ := store_ok (buf := buf) (bytes := [some t[s0 + pos]]) (pos := pos)
          (by simp only [List.length_singleton]; omega)
        rw [hb1]
        simp only [Option.bind_some]
        have hget : ∀ i, b1[i]? = if i = pos then some (some t[s0 + pos]) else buf[i]? := by
          intro i
          rw [store_get hb1]
          simp only [List.length_singleton]
          by_cases hi : i < pos
          · rw [if_pos hi, if_neg (by omega)]
          · rw [if_neg hi]
            by_cases hi2 : i = pos
            · subst hi2; simp
            · rw [if_neg (by omega), if_neg hi2]
        have hup : u[pos]? = some t[s0 + pos] := by
          rw [hu, List.getElem?_drop, List.getElem?_eq_getElem hlt]
        have htake : u.take (pos + 1) = u.take pos ++ [t[s0 + pos]] := by
          rw [List.take_add_one, hup]; rfl
        have := trimCopy_spec hlen hu hs0 hroom f (pos + 1) (if isSpace t[s0 + pos] then marker else pos) b1
          (by omega) (by omega) (by rw [store_length hb1, hl])
          (by
            intro i hi
            rw [hget]
            by_cases hi2 : i = pos
            · subst hi2; rw [if_pos rfl, hup]
            · rw [if_neg hi2]; exact h1 i (by omega))
          (by
            intro i hi hi'
            rw [hget, if_neg (by omega)]
            exact h2 i (by omega) hi')
          (by
            obtain ⟨c, hc, hc'⟩ := hfirst
            refine ⟨c, ?_, hc'⟩
            cases hz : u with
            | nil => rw [hz] at hc; simp at hc
            | cons a l => rw [hz] at hc; simpa using hc)
          (by
            intro _
            rw [htake, trimRight_snoc]
            by_cases hsp : isSpace t[s0 + pos] = true
            · rw [if_pos hsp, if_pos hsp]
              refine hm ?_
              rcases Nat.eq_zero_or_pos pos with h0 | h0
              · subst h0
                obtain ⟨c, hc, hc'⟩ := hfirst
                rw [htake] at hc
                simp only [List.take_zero, List.nil_append, List.head?_cons, Option.some.injEq] at hc
                rw [hc, hc'] at hsp; cases hsp
              · exact h0
            · rw [if_neg hsp, if_neg hsp, List.length_append, List.length_take, List.length_singleton]
              omega)
        exact this

theorem trim_rep {s : Str} {t : List UInt8} (h : Rep s t) :
    ∃ s', trim s = some s' ∧ Rep s' (trimRight (t.dropWhile isSpace)) := by
  have hlen := h.len
  have hr := h.room
  have hf := h.fits
  unfold trim
  rw [hlen, trimStart_spec h t.length 0 (by omega)]
  simp only [Option.bind_some, List.drop_zero, Nat.zero_add]
  generalize hs0 : (t.takeWhile isSpace).length = s0
  have hdw : t.dropWhile isSpace = t.drop s0 := by
    have := List.takeWhile_append_dropWhile (p := isSpace) (l := t)
    conv => rhs; rw [← this]
    rw [← hs0, List.drop_left]
  have hle : s0 ≤ t.length := by
    rw [← hs0]; exact (List.takeWhile_sublist _).length_le
  by_cases he : s0 = t.length
  · rw [if_pos he, hdw, List.drop_eq_nil_of_le (by omega)]
    obtain ⟨s1, e1, r1, -⟩ := clear_rep h
    exact ⟨s1, e1, r1⟩
  · rw [if_neg he]
    have hfirst : ∃ c, ((t.drop s0).take (0 + 1)).head? = some c ∧ isSpace c = false := by
      have hlt : s0 < t.length := by omega
      refine ⟨t[s0], ?_, ?_⟩
      · rw [List.drop_eq_getElem_cons hlt, Nat.zero_add, List.take_succ_cons, List.head?_cons]
      · have h1 := hdw
        rw [List.drop_eq_getElem_cons hlt] at h1
        have := List.head_dropWhile_not isSpace (l := t) (by rw [h1]; exact List.cons_ne_nil _ _)
        simp only [h1, List.head_cons] at this
        exact this
    obtain ⟨b, m, e, hbl, hbt, hm⟩ := trimCopy_spec (t := t) (u := t.drop s0) (len := t.length) (s0 := s0) rfl rfl hle
      (buf0 := s.buf) (by omega) t.length 0 s0 s.buf (by omega) (by omega) rfl (by intro i hi; omega)
      (fun i _ hi => h.text i hi) hfirst (by omega)
    simp only [Nat.add_zero] at e
    rw [e]
    simp only [Option.bind_some]
    have hul : (t.drop s0).length = t.length - s0 := List.length_drop
    obtain ⟨v, hv⟩ := trimRight_prefix (t.drop s0)
    have hvl := congrArg List.length hv
    rw [List.length_append] at hvl
    obtain ⟨b2, hb2, lb2, h0, hne⟩ := terminate (buf := b) (n := m + 1) (by omega)
    rw [hb2, hdw]
    refine ⟨{ s with buf := b2, len := m + 1 }, rfl, ⟨hm, ?_, ?_, ?_, ?_, h.pos, ?_⟩⟩
    · intro i hi
      show b2[i]? = _
      rw [hne i (by omega), hbt i (by omega)]
      conv => lhs; rw [hv]
      rw [List.getElem?_append_left hi]
    · show b2[_]? = _
      rw [← hm]; exact h0
    · simp only; omega
    · simp only; omega
    · intro hh; simp only [lb2, hbl]; exact h.small hh

theorem giveOwnership_rep {s : Str} {t u : List UInt8} (h : Rep s t) {extra : Nat} (he : 1 ≤ extra) :
    ∃ s', giveOwnership s u extra = some s' ∧ Rep s' u := by
  have hb15 : base = 15 := rfl
  unfold giveOwnership
  by_cases hu : u.length = 0
  · rw [if_pos hu]
    obtain ⟨s1, e1, r1, -⟩ := clear_rep h
    rw [List.length_eq_zero_iff.mp hu]
    exact ⟨s1, e1, r1⟩
  · rw [if_neg hu]
    have key : ∃ hp b, (if u.length < base then
        (store (if s.heap then fresh (base + 1) else s.buf) 0 (u.map some)).map (fun b => (false, b))
        else some (true, u.map some ++ fresh extra)) = some (hp, b) ∧ u.length + 1 ≤ b.length ∧
        (hp = false → b.length = base + 1) ∧ ∀ i, i < u.length → b[i]? = some u[i]? := by
      by_cases hs : u.length < base
      · rw [if_pos hs]
        have hl : (if s.heap then fresh (base + 1) else s.buf).length = base + 1 := by
          cases hh : s.heap with
          | true => simp [fresh]
          | false => simpa using h.small hh
        obtain ⟨b, hb⟩ := store_ok (buf := if s.heap then fresh (base + 1) else s.buf) (bytes := u.map some) (pos := 0)
          (by rw [hl, List.length_map]; omega)
        rw [hb]
        have lb := store_length hb
        refine ⟨false, b, rfl, by omega, fun _ => by omega, ?_⟩
        intro i hi
        rw [store_get hb, if_neg (by omega), if_pos (by rw [List.length_map]; omega), Nat.sub_zero, List.getElem?_map,
          List.getElem?_eq_getElem hi]
        rfl
      · rw [if_neg hs]
        refine ⟨true, _, rfl, ?_, fun h => by simp at h, ?_⟩
        · simp only [List.length_append, List.length_map, fresh, List.length_replicate]; omega
        · intro i hi
          rw [List.getElem?_append_left (by simpa using hi), List.getElem?_map, List.getElem?_eq_getElem hi]
          rfl
    obtain ⟨hp, b, e, hl, hsm, ht⟩ := key
    rw [e]
    simp only [Option.bind_some]
    obtain ⟨b2, hb2, lb2, h0, hne⟩ := terminate (buf := b) (n := u.length) (by omega)
    rw [hb2]
    refine ⟨⟨hp, b2, u.length, u.length⟩, rfl, ⟨rfl, ?_, h0, Nat.le_refl _, by simp only; omega, by simp only; omega, ?_⟩⟩
    · intro i hi
      show b2[i]? = _
      rw [hne i (by omega), ht i hi]
    · intro hh; simp only [lb2]; exact hsm hh

theorem op_rep {o : Op} {s : Str} {t : List UInt8} (h : Rep s t) (hp : o.Proper t) :
    ∃ s', o.run s = some s' ∧ Rep s' (o.spec t) := by
  cases o with
  | set u => exact set_rep h hp
  | setChar c => exact setChar_rep c h
  | append u =>
    have := insert_rep (u := u) (pos := t.length) h (Nat.le_refl _) (by simp only [Op.Proper] at hp; omega)
    simpa [Op.run, append, Op.spec, h.len] using this
  | appendChar c => exact appendChar_rep c h hp
  | insert u pos => exact insert_rep h hp.1 hp.2
  | truncate n => exact truncate_rep h n
  | shave n =>
    simp only [Op.run, shave, Op.spec]
    by_cases hn : n > s.len
    · rw [if_pos hn, show t.length - n = 0 by rw [← h.len]; omega, List.take_zero]
      obtain ⟨s1, e1, r1, -⟩ := clear_rep h
      exact ⟨s1, e1, r1⟩
    · rw [if_neg hn, h.len]
      exact truncate_rep h _
  | shift n => exact shift_rep h n
  | trim => exact trim_rep h
  | clear =>
    obtain ⟨s1, e1, r1, -⟩ := clear_rep h
    exact ⟨s1, e1, r1⟩
  | giveOwnership u extra => exact giveOwnership_rep h hp

def run : List Op → Str → Option Str
  | [], s => some s
  | o :: os, s => (o.run s).bind (run os)

def specRun (ops : List Op) (t : List UInt8) : List UInt8 := ops.foldl (fun t o => o.spec t) t

def ProperRun : List Op → List UInt8 → Prop
  | [], _ => True
  | o :: os, t => o.Proper t ∧ ProperRun os (o.spec t)

theorem run_rep : ∀ (ops : List Op) (s : Str) (t : List UInt8), Rep s t → ProperRun ops t →
    ∃ s', run ops s = some s' ∧ Rep s' (specRun ops t)
  | [], s, _, h, _ => ⟨s, rfl, h⟩
  | o :: os, s, t, h, hp => by
    obtain ⟨s1, e1, r1⟩ := op_rep h hp.1
    obtain ⟨s2, e2, r2⟩ := run_rep os s1 _ r1 hp.2
    refine ⟨s2, ?_, r2⟩
    simp only [run, e1]; exact e2

/-- **C35 (partial).**  Every sequence of string operations on a new `WRstr`, with insertion
points inside the text and sizes below 2^32, stays inside the buffer and leaves the text the
same operations on byte strings give, with the length field equal to its length and a
terminator behind it.  Missing: insertion behind the end (`C35_insert_beyond_end`), sources
that alias the string (`C35_append_self_freed`). -/
theorem C35_string_ops_partial (ops : List Op) (hp : ProperRun ops []) :
    ∃ s, run ops new = some s ∧ s.len = (specRun ops []).length ∧
      s.buf.take s.len = (specRun ops []).map some ∧ s.buf[s.len]? = some (some 0) := by
  obtain ⟨s, e, r⟩ := run_rep ops new [] new_rep hp
  refine ⟨s, e, r.len, ?_, ?_⟩
  · apply List.ext_getElem?
    intro i
    by_cases hi : i < s.len
    · rw [List.getElem?_take_of_lt hi, r.text i (by rw [← r.len]; exact hi), List.getElem?_map,
        List.getElem?_eq_getElem (by rw [← r.len]; exact hi)]
      rfl
    · rw [List.getElem?_eq_none (by rw [List.length_take]; omega),
        List.getElem?_eq_none (by rw [List.length_map, ← r.len]; omega)]
  · rw [r.len]; exact r.terminator

theorem mapM_some_aux : ∀ (u : List UInt8), (u.map some).mapM (m := Option) id = some u
  | [] => rfl
  | c :: u => by
    simp only [List.map_cons, List.mapM_cons, id_eq, mapM_some_aux u]
    rfl

theorem fetch_text {s : Str} {t : List UInt8} (h : Rep s t) {p n : Nat} (hp : p + n ≤ t.length) :
    (fetch s.buf p n).bind (fun l => l.mapM id) = some ((t.drop p).take n) := by
  have hr := h.room
  have hf := h.fits
  have hl := h.len
  rw [fetch_ok (by omega)]
  have : (s.buf.drop p).take n = ((t.drop p).take n).map some := by
    apply List.ext_getElem?
    intro i
    by_cases hi : i < n
    · rw [getElem?_fetch hi, h.text _ (by omega), List.getElem?_map, List.getElem?_take_of_lt hi, List.getElem?_drop,
        List.getElem?_eq_getElem (by omega)]
      rfl
    · rw [List.getElem?_eq_none (by rw [List.length_take]; omega),
        List.getElem?_eq_none (by rw [List.length_map, List.length_take]; omega)]
  simp only [Option.bind_some, this]
  exact mapM_some_aux _

/-- **C35, `substr`** returns the slice, as long as `begin + len` does not wrap. -/
theorem C35_substr_partial {s : Str} {t : List UInt8} (h : Rep s t) (ht : t.length < 4294967296) (b n : Nat)
    (hs : b + n < 4294967296) : ∃ s', substr s b n = some s' ∧ Rep s' ((t.drop b).take n) := by
  unfold substr
  have hl := h.len
  by_cases hb : b < s.len
  · rw [if_pos hb, show u32 (b + n) = b + n from Nat.mod_eq_of_lt hs]
    have hd : (t.drop b).length = t.length - b := List.length_drop
    by_cases hn : b + n > s.len
    · rw [if_pos hn, fetch_text h (by omega)]
      simp only [Option.bind_some]
      have := set_rep (u := (t.drop b).take (s.len - b)) new_rep (by rw [List.length_take]; omega)
      rw [List.take_of_length_le (i := n) (by omega)]
      rw [List.take_of_length_le (i := s.len - b) (by omega)] at this ⊢
      exact this
    · rw [if_neg hn, fetch_text h (by omega)]
      simp only [Option.bind_some]
      exact set_rep (u := (t.drop b).take n) new_rep (by rw [List.length_take]; omega)
  · rw [if_neg hb, List.drop_eq_nil_of_le (by omega), List.take_nil]
    exact ⟨new, rfl, new_rep⟩

/-- **C35, `setSize`** keeps the common part of the text. -/
theorem C35_setSize {s : Str} {t : List UInt8} (h : Rep s t) (n : Nat) :
    ∃ s', setSize s n true = some s' ∧ s'.len = n ∧ s'.buf[n]? = some (some 0) ∧
      ∀ i, i < min n t.length → s'.buf[i]? = some t[i]? := by
  obtain ⟨s1, e1, l1, n1, n2, r1, sm1, t1⟩ := alloc_rep h n
  unfold setSize
  rw [e1]
  simp only [Option.bind_some]
  obtain ⟨b2, hb2, lb2, h0, hne⟩ := terminate (buf := s1.buf) (n := n) (by omega)
  rw [hb2]
  refine ⟨{ s1 with buf := b2, len := n }, rfl, rfl, h0, ?_⟩
  intro i hi
  show b2[i]? = _
  rw [hne i (by omega), t1 i (by omega)]

/-- What `trim` takes away: tab, line feed, vertical tab, form feed, carriage return and blank. -/
theorem C35_white_space (c : UInt8) : isSpace c = true ↔ c ∈ [9, 10, 11, 12, 13, (32 : UInt8)] := by
  simp only [isSpace, List.mem_cons, List.not_mem_nil, or_false, Bool.or_eq_true, Bool.and_eq_true, decide_eq_true_eq,
    UInt8.le_iff_toNat_le, ← UInt8.toNat_inj]
  have e9 : UInt8.toNat 9 = 9 := rfl
  have e10 : UInt8.toNat 10 = 10 := rfl
  have e11 : UInt8.toNat 11 = 11 := rfl
  have e12 : UInt8.toNat 12 = 12 := rfl
  have e13 : UInt8.toNat 13 = 13 := rfl
  have e32 : UInt8.toNat 32 = 32 := rfl
  omega

theorem mapM_some : ∀ l : List UInt8, (l.map some).mapM id = some l
  | [] => rfl
  | x :: xs => by
    rw [List.map_cons, List.mapM_cons, mapM_some xs]; rfl

/-- C35: `s += s` doubles the text as long as it need not replace a block on the heap: while the text is in the
small buffer, or three times its length is less than the size of the block. -/
theorem C35_append_self_partial {s : Str} {t : List UInt8} (h : Rep s t) (hs : 3 * t.length < 4294967296)
    (hr : s.heap = false ∨ 3 * t.length < s.buflen) : ∃ s', appendSelf s = some s' ∧ Rep s' (t ++ t) := by
  have hlen := h.len
  have hn : ¬ (s.len ≠ 0 ∧ u32 (3 * s.len) ≥ s.buflen ∧ s.heap = true) := by
    rintro ⟨-, h2, h3⟩
    rcases hr with hr | hr
    · rw [hr] at h3; cases h3
    · rw [hlen, u32, Nat.mod_eq_of_lt hs] at h2; omega
  have hf : (fetch s.buf 0 s.len).bind (fun l => l.mapM id) = some t := by
    have hfit := h.fits
    have hroom := h.room
    rw [fetch, if_pos (by omega)]
    have : (s.buf.drop 0).take s.len = t.map some := by
      apply List.ext_getElem?
      intro i
      rw [List.drop_zero, List.getElem?_take, List.getElem?_map]
      by_cases hi : i < t.length
      · rw [if_pos (by omega), h.text i hi, List.getElem?_eq_getElem hi]; rfl
      · rw [if_neg (by omega), List.getElem?_eq_none (by omega)]; rfl
    rw [this]
    exact mapM_some t
  rw [appendSelf, if_neg hn, hf]
  have := insert_rep (u := t) (pos := t.length) h (Nat.le_refl _) (by omega)
  simpa [append, hlen] using this

/-! ### Concrete cases and counterexamples -/

/-- A history meeting the hypothesis of `C35_string_ops_partial`: text grows onto the heap, is
trimmed, cut back into the small buffer and extended again. -/
example : ProperRun [.set [32, 97, 98, 32], .append (List.replicate 20 99), .insert [100, 101] 2, .trim, .truncate 6,
      .appendChar 32, .giveOwnership [65] 1, .appendChar 66, .shift 1] [] ∧
    specRun [.set [32, 97, 98, 32], .append (List.replicate 20 99), .insert [100, 101] 2, .trim, .truncate 6,
      .appendChar 32] [] = [97, 100, 101, 98, 32, 99, 32] := by
  refine ⟨?_, by decide⟩
  simp [ProperRun, Op.Proper, Op.spec, trimRight, isSpace]

/-- **C35 fails for an insertion behind the end**: inserting `x` at position 3 of the empty
string makes a string of length 1 whose text is not `x` (its only byte is the terminator) -/
theorem C35_insert_beyond_end : ∃ s, run [.insert [120] 3] new = some s ∧ s.len = 1 ∧
    s.buf.take 4 = [some 0, some 0, none, some 120] := by
  refine ⟨_, rfl, ?_⟩
  decide

/-- **C35 fails for `s += s`** on a text of twenty characters: the source of the copy has been
freed. -/
theorem C35_append_self_freed : ∃ s, run [.set (List.replicate 20 97)] new = some s ∧ Rep s (List.replicate 20 97) ∧
    appendSelf s = none := by
  obtain ⟨s, e, r⟩ := run_rep [.set (List.replicate 20 97)] new [] new_rep ⟨by simp [Op.Proper], trivial⟩
  refine ⟨s, e, r, ?_⟩
  have e' : run [.set (List.replicate 20 97)] new =
    some ⟨true, (List.replicate 20 (some 97)) ++ [some 0], 20, 20⟩ := by decide +kernel
  rw [e'] at e
  injection e with e
  subst e
  decide

/-- **C35 fails for `substr` to the end with `npos`**: `begin + len` wraps and the length is
taken as given, which reads far outside the buffer. -/
theorem C35_substr_npos : ∃ s, run [.set [97, 98, 99]] new = some s ∧ Rep s [97, 98, 99] ∧
    substr s 1 4294967295 = none := by
  obtain ⟨s, e, r⟩ := run_rep [.set [97, 98, 99]] new [] new_rep ⟨by simp [Op.Proper], trivial⟩
  refine ⟨s, e, r, ?_⟩
  have e' : run [.set [97, 98, 99]] new =
    some ⟨false, [some 97, some 98, some 99, some 0] ++ fresh 12, 15, 3⟩ := by decide +kernel
  rw [e'] at e
  injection e with e
  subst e
  decide

end Wrench.Util.Str
