import Verif.Debug.Symbols

namespace Wrench.Symbols

open Wrench.Link

/-- A name as the scanner produces them: some characters, none of them white space. -/
def Plain (name : List Byte) : Prop := name ≠ [] ∧ ∀ c ∈ name, space c = false ∧ c ≠ 0#8

/-- What the format has room for. -/
structure Fits (u : SymUnit) : Prop where
  labels : u.labels.length ≤ 255
  arguments : u.arguments ≤ 255
  name : Plain u.name
  plain : ∀ l ∈ u.labels, Plain l

/-- A unit as the debugger should show it: names cut at 63 characters. -/
def shown (u : SymUnit) : Func :=
  { name := some (u.name.take 63), arguments := u.arguments,
    vars := u.labels.map (fun l => some (l.take 63)) }

theorem pastNull_append : ∀ (name rest : List Byte), (∀ c ∈ name, c ≠ 0#8) →
    pastNull (name ++ 0#8 :: rest) = some rest
  | [], rest, _ => by simp [pastNull]
  | c :: name, rest, h => by
    rw [List.cons_append, pastNull, if_neg (h c (by simp))]
    exact pastNull_append name rest (fun d hd => h d (by simp [hd]))

theorem takeWhile_name : ∀ (name rest : List Byte), (∀ c ∈ name, space c = false ∧ c ≠ 0#8) →
    (name ++ 0#8 :: rest).takeWhile (fun c => !space c && c != 0#8) = name
  | [], rest, _ => by simp
  | c :: name, rest, h => by
    have h1 := h c (by simp)
    rw [List.cons_append, List.takeWhile_cons, if_pos (by simp [h1.1, h1.2]),
      takeWhile_name name rest (fun d hd => h d (by simp [hd]))]

theorem scanName_append {name : List Byte} (h : Plain name) (rest : List Byte) :
    scanName (name ++ 0#8 :: rest) = some (name.take 63) := by
  obtain ⟨hne, hc⟩ := h
  have hd : (name ++ 0#8 :: rest).dropWhile space = name ++ 0#8 :: rest := by
    cases name with
    | nil => exact absurd rfl hne
    | cons c name => rw [List.cons_append, List.dropWhile_cons, if_neg (by simp [(hc c (by simp)).1])]
  simp only [scanName, hd, takeWhile_name name rest hc]
  rw [if_neg]
  intro e
  cases name with
  | nil => exact hne rfl
  | cons c name => simp at e

theorem readLabels_append : ∀ (ls : List (List Byte)) (rest : List Byte), (∀ l ∈ ls, Plain l) →
    readLabels ls.length (ls.flatMap (fun l => l ++ [0#8]) ++ rest) =
      some (ls.map (fun l => some (l.take 63)), rest)
  | [], rest, _ => by simp [readLabels]
  | l :: ls, rest, h => by
    have hl := h l (by simp)
    have e : (l :: ls).flatMap (fun l => l ++ [0#8]) ++ rest =
        l ++ 0#8 :: (ls.flatMap (fun l => l ++ [0#8]) ++ rest) := by simp
    rw [e, List.length_cons, readLabels, pastNull_append _ _ (fun c hc => (hl.2 c hc).2)]
    simp [readLabels_append ls rest (fun m hm => h m (by simp [hm])), scanName_append hl]

theorem readFunc_append {u : SymUnit} (h : Fits u) (rest : List Byte) :
    readFunc (unitBytes u ++ rest) = some (shown u, rest) := by
  have e : unitBytes u ++ rest = byte u.labels.length :: byte u.arguments ::
      (u.name ++ 0#8 :: (u.labels.flatMap (fun l => l ++ [0#8]) ++ rest)) := by
    simp [unitBytes]
  rw [e]
  simp only [readFunc, List.getElem?_cons_zero, List.getElem?_cons_succ, List.drop_succ_cons,
    List.drop_zero, Option.bind_eq_bind, Option.bind_some, pastNull_append _ _ (fun c hc => (h.name.2 c hc).2), byte_toNat_of h.labels,
    readLabels_append _ _ h.plain, scanName_append h.name, byte_toNat_of h.arguments, shown]
  rfl

theorem readFuncs_append : ∀ (us : List SymUnit) (rest : List Byte), (∀ u ∈ us, Fits u) →
    readFuncs us.length (us.flatMap unitBytes ++ rest) = some (us.map shown)
  | [], rest, _ => rfl
  | u :: us, rest, h => by
    have e : (u :: us).flatMap unitBytes ++ rest = unitBytes u ++ (us.flatMap unitBytes ++ rest) := by
      simp
    rw [e, List.length_cons, readFuncs, readFunc_append (h u (by simp))]
    have := readFuncs_append us rest (fun v hv => h v (by simp [hv]))
    simp [this]

/-- C88: the debugger lists the functions the linker wrote down, in order, with their arguments
and variables. -/
theorem C88_symbols (us : List SymUnit) (hn : us.length < 65536) (h : ∀ u ∈ us, Fits u) :
    readSymbols (symbolBlock us) = some (us.map shown) := by
  have h1 : read16 (symbolBlock us) 0 = some (BitVec.ofNat 16 us.length) := by
    have := read16_pack16 [] (us.flatMap unitBytes) (BitVec.ofNat 16 us.length)
    simpa [symbolBlock] using this
  have h2 : (symbolBlock us).drop 2 = us.flatMap unitBytes := by
    rw [symbolBlock, ← pack16_length (BitVec.ofNat 16 us.length), List.drop_left]
  have h3 := readFuncs_append us [] h
  rw [List.append_nil] at h3
  simp [readSymbols, h1, h2, ofNat16_toNat hn, h3]

theorem At.copyOut {img bs : List Byte} {p : Nat} (h : At img p bs) (hb : bs ≠ []) :
    Symbols.copyOut img p bs.length = some bs := by
  have hlen : p + bs.length ≤ img.length := by
    have h1 : bs.length - 1 < bs.length := by
      have : 0 < bs.length := List.length_pos_iff.2 hb
      omega
    have := h (bs.length - 1) h1
    rw [List.getElem?_eq_getElem h1] at this
    have := (List.getElem?_eq_some_iff.1 this).1
    omega
  rw [Symbols.copyOut, if_pos hlen]
  congr 1
  apply List.ext_getElem?
  intro j
  by_cases hj : j < bs.length
  · rw [List.getElem?_take_of_lt hj, List.getElem?_drop]
    exact h j hj
  · rw [List.getElem?_eq_none (by simp; omega), List.getElem?_eq_none (by omega)]

/-- C88: from the source text to the debugger's window.  A program linked with symbols and its
source, and loaded into a server: the server answers with the symbol block and the source it was
linked with, and the hash is that of the source. -/
theorem C88_told {P : Program} (ok : ProgramOk P) {img : List Byte} (h : link P = .ok img)
    (hsize : img.length ≤ 65536) {c : Ctx} (hc : load img = .ok c) (old : Blocks)
    (us : List SymUnit) (hs : P.symbols = symbolBlock us) (hf : embedSource P.flags = true)
    (hsrc : P.source ≠ []) (hn : us.length < 65536) (hu : ∀ u ∈ us, Fits u) :
    ∃ b, findBlocks old img c = some b ∧ b.hash = wrHash P.source ∧
      sourceReply b img = some (.data (P.source ++ [0#8])) ∧
      symbolReply b img = some (.data P.symbols) ∧
      readSymbols P.symbols = some (us.map shown) := by
  obtain ⟨r2, hD, hS⟩ := blocks_in ok h hsize
  obtain ⟨c', hc', hgl, hlen, _, _⟩ := C29_link_load_partial ok h hsize
  rw [hc] at hc'; injection hc' with hc'; subst hc'
  obtain ⟨d1, d2, d3, d4⟩ := hD (by simp [hf])
  obtain ⟨s1, s2, s3⟩ := hS hf
  have hsym : P.symbols ≠ [] := by
    rw [hs]; intro e
    have := congrArg List.length e
    simp [symbolBlock, pack16_length] at this
  refine ⟨⟨wrHash P.source, globalsEnd P + 6, P.symbols.length,
    globalsEnd P + 6 + P.symbols.length + 4, P.source.length⟩, ?_, rfl, ?_, ?_, ?_⟩
  · have hpos : (if includeGlobals P.flags = true then 3 + c.functions.length * 11 + c.globals * 4
        else 3 + c.functions.length * 11) = globalsEnd P := by
      rw [hlen, hgl, globalsEnd]
    simp [findBlocks, r2, hpos, findSymbols, findSource, hf, d1, d2, s1,
      ofNat16_toNat (show P.symbols.length < 65536 by omega), Nat.mod_eq_of_lt s3]
  · simp only [sourceReply]
    rw [if_neg (by simpa using hsrc), At.copyOut s2 hsrc]
    rfl
  · simp only [symbolReply]
    rw [if_neg (by simpa using hsym), At.copyOut d3 hsym]
    rfl
  · rw [hs]; exact C88_symbols us hn hu

/-- C88: the variable shown beside value `index` of function `depth` is the one the compiler gave
that place. -/
theorem C88_label (us : List SymUnit) (k i : Nat) (u : SymUnit) (l : List Byte)
    (hu : us[k]? = some u) (hl : u.labels[i]? = some l) :
    valueLabel (us.map shown) i k = some (l.take 63) := by
  simp [valueLabel, shown, hu, hl]

/-- C88: the source handed out reads, as a C string, as the source; the length handed out with it is
one more than the source has. -/
theorem C88_source_one_longer (source : List Byte) (h0 : 0#8 ∉ source) :
    (sourceCode (source ++ [0#8])).1 = source ++ [0#8, 0#8] ∧
    ((sourceCode (source ++ [0#8])).1.takeWhile (fun b => decide (b ≠ 0#8))) = source ∧
    (sourceCode (source ++ [0#8])).2 = source.length + 1 := by
  refine ⟨by simp [sourceCode], ?_, by simp [sourceCode]⟩
  simp only [sourceCode, List.append_assoc]
  rw [List.takeWhile_append_of_pos]
  · simp
  · intro b hb
    exact decide_eq_true (fun e => h0 (e ▸ hb))

/-- C88: loading a program without symbols leaves those of the program before in place. -/
theorem C88_stale (old : Blocks) (img : List Byte) (c : Ctx) (flags : Byte)
    (h : read8 img 2 = some flags) (h1 : embedDebug flags = false) (h2 : embedSource flags = false) :
    findBlocks old img c = some old := by
  simp [findBlocks, h, findSymbols, findSource, h1, h2]

end Wrench.Symbols
