import Verif.Serializer.Lemmas

/-!
Properties C09 (serialize/deserialize round trip) and C10 (deserializing arbitrary bytes).
`exHash` (hash of keys that are neither numbers nor strings) is arbitrary throughout.
-/
namespace Wrench.Serializer

variable {exHash : SVal → Word32}

/-! ### C09 -/

/-- **C09**, partial: serializing a supported value succeeds, and deserializing the
buffer (whatever follows it) yields the same value up to hash-table element counts, and
consumes exactly the buffer.  Missing: the element counts, which are wrong
(`C09_count_not_restored`), and values outside `Supported`
(`C09_long_string_truncated`, `C09_nested_failure_hidden`). -/
theorem C09_roundtrip_partial (v : SVal) (hv : Supported v) :
    ∃ buf, serialize v = some buf ∧
      ∀ rest, deserialize exHash (buf ++ rest) = .ok (recount v) rest := by
  refine ⟨(ser v).1, ?_, fun rest => ?_⟩
  · unfold serialize; rw [ser_ok v hv]; rfl
  · unfold deserialize
    exact des_ser v hv _ (by simp; omega) rest

/-- **C09** for values without hash tables: exact round trip. -/
theorem C09_roundtrip_without_tables (v : SVal) (hv : Supported v) (hn : NoHash v) :
    ∃ buf, serialize v = some buf ∧
      ∀ rest, deserialize exHash (buf ++ rest) = .ok v rest := by
  have := C09_roundtrip_partial (exHash := exHash) v hv
  rwa [recount_noHash v hn] at this

/-- A nested value with strings, an array and a table: `["ab", 7, {1:"x"}]`. -/
def sample : SVal :=
  .arr (.cons (.str [0x61#8, 0x62#8]) (.cons (.int 7)
    (.cons (.hash 1 (.empty (.full 1#32 (.str [0x78#8]) (.int 1) .nil))) .nil)))

example : Supported sample := by
  simp [sample, Supported, SupportedElems, SupportedSlots, SVals.length, Slots.length, hashOf,
    HashTable.primeTable]

example : Supported (.arr (.cons (.str [1#8]) (.cons (.float 5) .nil))) ∧
    NoHash (.arr (.cons (.str [1#8]) (.cons (.float 5) .nil))) := by
  simp [Supported, SupportedElems, SVals.length, NoHash, NoHashElems]

/-- Distinct table-free supported values have buffers neither of which is a prefix of
the other (so buffers can be concatenated and told apart). -/
theorem C09_buffers_prefix_free (v w : SVal) (hv : Supported v) (hw : Supported w)
    (nv : NoHash v) (nw : NoHash w) (bv bw : List Byte) (ev : serialize v = some bv)
    (ew : serialize w = some bw) (hp : bv <+: bw) : v = w := by
  obtain ⟨b1, e1, r1⟩ := C09_roundtrip_without_tables (exHash := fun _ => 0) v hv nv
  obtain ⟨b2, e2, r2⟩ := C09_roundtrip_without_tables (exHash := fun _ => 0) w hw nw
  rw [ev] at e1; rw [ew] at e2
  cases e1; cases e2
  obtain ⟨t, rfl⟩ := hp
  have h1 := r1 t
  have h2 := r2 []
  rw [List.append_nil] at h2
  rw [h2] at h1
  cases h1; rfl

/-- The full C09 is false of the code: the element count of a table is not restored.
Every supported table comes back with count `slot count - 1`, whatever it held; e.g. an
empty table comes back with count 1. -/
theorem C09_count_not_restored :
    (∀ (n : Word32) (ss : Slots), Supported (.hash n ss) →
      ∃ buf ss', serialize (.hash n ss) = some buf ∧
        deserialize exHash buf = .ok (.hash (BitVec.ofNat 32 (ss.length - 1)) ss') []) ∧
    (∃ buf ss', serialize (.hash 0 (.empty (.empty .nil))) = some buf ∧
      deserialize exHash buf = .ok (.hash 1 ss') [] ∧ ss'.occupied = 0) := by
  constructor
  · intro n ss hs
    obtain ⟨buf, e, r⟩ := C09_roundtrip_partial (exHash := exHash) _ hs
    refine ⟨buf, recountSlots ss, e, ?_⟩
    have := r []
    rw [List.append_nil] at this
    rw [this]; simp only [recount]
  · refine ⟨[3#8, 0xE0#8, 2#8, 0#8, 0#8, 0#8], .empty (.empty .nil), ?_, ?_, rfl⟩
    · rfl
    · rfl

/-- The full C09 is false of the code: of a string longer than 65535 bytes only the
first `length mod 65536` bytes come back. -/
theorem C09_long_string_truncated (bs : List Byte) (hl : 65536 ≤ bs.length) :
    ∃ buf rest, serialize (.str bs) = some buf ∧
      deserialize exHash buf = .ok (.str (bs.take (bs.length % 65536))) rest ∧
      bs.take (bs.length % 65536) ≠ bs := by
  refine ⟨_, bs.drop (bs.length % 65536), rfl, ?_, ?_⟩
  · unfold deserialize
    rw [des]
    simp only [bind_eq, pure_eq, ser, List.cons_append, List.nil_append]
    have e16 : BitVec.ofNat 16 bs.length = BitVec.ofNat 16 (bs.length % 65536) := by
      apply BitVec.eq_of_toNat_eq; simp
    rw [bind_of_ok (p := rd1) (a := 3#8) rfl, if_neg (by decide), if_neg (by decide), if_pos rfl,
      bind_of_ok (p := rd1) (a := 0xA0#8) rfl, if_pos rfl, bind_of_ok (p := rd1) (a := 5#8) rfl,
      e16, bind_of_ok (rd16_pack16 _ (by omega) _), if_pos rfl]
    have : rdN (bs.length % 65536) bs
        = .ok (bs.take (bs.length % 65536)) (bs.drop (bs.length % 65536)) := by
      unfold rdN
      rw [if_pos (Nat.mod_le _ _)]
    rw [bind_of_ok this]; rfl
  · intro h
    have := congrArg List.length h
    rw [List.length_take] at this
    omega

example : 65536 ≤ (List.replicate 70000 (0x61#8 : Byte)).length := by
  rw [List.length_replicate]; decide

/-- Failure reporting: an array with an element that fails to serialize fails, at any
depth of array nesting (apply repeatedly). -/
theorem C09_array_failure_reported (es : SVals) (h : ∃ v, es.Mem v ∧ serialize v = none) :
    serialize (.arr es) = none := by
  simp [serialize, ser, serElems_fail es h]

example : ∃ v, SVals.Mem v (.cons (.int 1) (.cons (.other 0xC0#8) .nil)) ∧ serialize v = none :=
  ⟨.other 0xC0#8, by simp [SVals.Mem], rfl⟩

/-- The full C09 is false of the code: a table holding an unsupported value (here a
struct under key 1) is reported as serialized, and the buffer cannot be read back. -/
theorem C09_nested_failure_hidden :
    ∃ buf, serialize (.hash 1 (.empty (.full 1#32 (.other 0xC0#8) (.int 1) .nil))) = some buf ∧
      deserialize exHash buf = .fail :=
  ⟨_, rfl, rfl⟩

/-- **C09** (output buffer).  However the serializer splits its output into writes, no
write runs past the buffer, and the buffer holds exactly the concatenation. -/
theorem C09_writer_never_overflows (ds : List (List Byte)) :
    ∃ w, ds.foldlM Writer.write Writer.init = some w ∧ w.data = ds.flatten ∧
      w.data.length ≤ w.cap := by
  obtain ⟨w, e, hd, hc⟩ := write_init ds Writer.init (by simp [Writer.init])
  exact ⟨w, e, by rw [hd]; simp [Writer.init], hc⟩

example : ([[1#8], [2#8, 3#8], [], List.replicate 40 7#8].foldlM Writer.write Writer.init).isSome :=
  rfl

/-! ### C10 -/

/-- **C10** (in bounds, exact consumption).  A successful deserialization uses exactly a
prefix of the buffer: the outcome does not depend on what follows it, and no shorter
prefix is accepted. -/
theorem C10_reads_exactly_its_prefix (buf rest : List Byte) (v : SVal)
    (h : deserialize exHash buf = .ok v rest) :
    ∃ used, buf = used ++ rest ∧ (∀ rest', deserialize exHash (used ++ rest') = .ok v rest') ∧
      ∀ p, p <+: used → p ≠ used → deserialize exHash p = .fail := by
  unfold deserialize at h
  obtain ⟨c, e, l, f⟩ := (exact_des_all _).1 _ _ _ h
  refine ⟨c, e, fun rest' => ?_, fun p hp hne => ?_⟩
  · have hl := l []
    rw [List.append_nil, des_fuel (by rw [e]; simp; omega)] at hl
    unfold deserialize at hl
    obtain ⟨c', e', l', _⟩ := (exact_des_all _).1 _ _ _ hl
    rw [List.append_nil] at e'
    subst e'
    have := l' rest'
    rw [← des_fuel (f := 2 * (c ++ rest').length + 1) (by simp)]
    have hmono : ∀ k f b, des exHash f b ≠ .oof → des exHash (f + k) b = des exHash f b := by
      intro k
      induction k with
      | zero => intros; rfl
      | succ k ih =>
        intro f b hb
        rw [← Nat.add_assoc, (le_all _).1 b (by rw [ih f b hb]; exact hb), ih f b hb]
    have h2 := hmono (2 * rest'.length) (2 * c.length + 1) (c ++ rest') (by rw [this]; simp)
    rw [this] at h2
    rw [← h2]
    congr 1
    simp; omega
  · have := f p hp hne
    rwa [des_fuel (by rw [e]; have := hp.length_le; simp; omega)] at this

/-- **C10** (truncation).  Every proper prefix of a serialized supported value is
rejected. -/
theorem C10_truncated_rejected (v : SVal) (hv : Supported v) (buf p : List Byte)
    (hs : serialize v = some buf) (hp : p <+: buf) (hne : p ≠ buf) :
    deserialize exHash p = .fail := by
  obtain ⟨b, e, r⟩ := C09_roundtrip_partial (exHash := exHash) v hv
  rw [hs] at e; cases e
  have h := r []
  rw [List.append_nil] at h
  obtain ⟨c, ec, _, f⟩ := C10_reads_exactly_its_prefix _ _ _ h
  rw [List.append_nil] at ec
  subst ec
  exact f p hp hne

example : ∃ buf, serialize sample = some buf ∧ buf.take 9 <+: buf ∧ buf.take 9 ≠ buf :=
  ⟨_, rfl, List.take_prefix _ _, by decide⟩

/-- **C10**, partial: on every byte buffer whatsoever deserialization terminates and
either yields a value, fails, or hits undefined behaviour; the last only when the buffer
contains a hash-table header announcing 0 or more than 49157 slots.  Missing: rejection
of such buffers (`C10_bad_slot_count_is_undefined`). -/
theorem C10_arbitrary_bytes_partial (buf : List Byte) (hb : ¬ BadHeader buf) :
    (∃ v rest, deserialize exHash buf = .ok v rest) ∨ deserialize exHash buf = .fail := by
  cases h : deserialize exHash buf with
  | ok v r => exact Or.inl ⟨v, r, rfl⟩
  | fail => exact Or.inr rfl
  | ub => exact absurd ((ubOnly_all _).1 buf h) hb
  | oof => exact absurd h ((noOof_all _).1 buf.length (by omega) buf (Nat.le_refl _))

example : ¬ BadHeader [3#8, 0xA0#8, 9#8, 0#8, 0#8] := by
  rintro ⟨pre, lo, hi, post, e, _⟩
  have := congrArg (fun l => l.count 0xE0#8) e
  simp at this

/-- The full C10 is false of the code: a four byte buffer makes the deserializer run past
the end of its prime table. -/
theorem C10_bad_slot_count_is_undefined :
    deserialize exHash [3#8, 0xE0#8, 0#8, 0#8] = .ub ∧
    deserialize exHash [3#8, 0xE0#8, 0xFF#8, 0xFF#8] = .ub := ⟨rfl, rfl⟩

end Wrench.Serializer
