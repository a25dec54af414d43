import Verif.Util.StrCmp

/-!
# Command line arguments: `SimpleArgs::get` (`utils/simple_args.h` 46-101)

`argv` is the list of the arguments, each the list of its bytes in front of the terminator.  The
returned pointer is the number of the argument it points to, `none` for null.  `param` is the
caller's buffer, a list of bytes (`none` = never written); writing outside of it is undefined, the
outcome `none`.  `argn` is the number of arguments, `maxParamLen` is not negative (a negative one
would be taken for a huge count).
-/

namespace Wrench.Util.Args

open Wrench.Util.Str (store cmpz cstr)

abbrev Bytes := List UInt8

/-- `strncpy( param, s, n )`: exactly `n` bytes are written, filled up with zeros. -/
def strncpy (param : List (Option UInt8)) (s : Bytes) (n : Nat) : Option (List (Option UInt8)) :=
  store param 0 ((s.map some ++ List.replicate (n - s.length) (some 0)).take n)

/-- The number of bytes copied, simple_args.h 64, 90. -/
def limit (maxParamLen : Nat) : Nat := if maxParamLen = 0 then 1024 else maxParamLen

/-- What a call gives: the returned argument, and the buffer afterwards if there is one. -/
abbrev Result := Option Nat × Option (List (Option UInt8))

/-- `get( argn, argv, index, param, maxParamLen )`, simple_args.h 54-67, from `a` on. -/
def getAt (argv : List Bytes) (a : Int) (param : Option (List (Option UInt8))) (maxParamLen : Nat) : Option Result :=
  if a < 0 ∨ a.toNat ≥ argv.length then some (none, param)
  else (argv[a.toNat]?).bind fun s =>
    match param with
    | none => some (some a.toNat, none)
    | some buf => (strncpy buf s (limit maxParamLen)).map fun b => (some a.toNat, some b)

/-- `get( argn, argv, index, param, maxParamLen )`, simple_args.h 46-68. -/
def getIndex (argv : List Bytes) (index : Int) (param : Option (List (Option UInt8))) (maxParamLen : Nat) :
    Option Result :=
  getAt argv (if index < 0 then (argv.length : Int) + index else index) param maxParamLen

/-- The loop of `get( argn, argv, opt, param, maxParamLen )`, simple_args.h 73-98, from argument `a`
on; `rest` are the arguments from there on. -/
def optGo (opt : Bytes) (param : Option (List (Option UInt8))) (maxParamLen : Nat) :
    Nat → List Bytes → Option Result
  | _, [] => some (none, param)
  | a, x :: rest =>
    match cmpz (fun a b => a = b) (some opt.length) (cstr x) (cstr opt) with
    | none => none
    | some same =>
      if !same || x.length != opt.length then optGo opt param maxParamLen (a + 1) rest
      else
        match param with
        | none => some (some a, none)
        | some buf =>
          (store buf 0 [some 0]).bind fun buf =>
          match rest with
          | [] => some (none, some buf)
          | y :: _ => (strncpy buf y (limit maxParamLen)).map fun b => (some (a + 1), some b)

/-- `get( argn, argv, opt, param, maxParamLen )`, simple_args.h 71-101. -/
def getOption (argv : List Bytes) (opt : Bytes) (param : Option (List (Option UInt8))) (maxParamLen : Nat) :
    Option Result := optGo opt param maxParamLen 0 argv

/-! ### By index -/

/-- **C118, by index.**  0, 1, 2... is the first, second, third argument, -1, -2... the last, second to
last; any other index gives null. -/
theorem C118_index (argv : List Bytes) (m : Nat) (k : Nat) :
    getIndex argv k none m = some (if k < argv.length then some k else none, none) ∧
    getIndex argv (-(k + 1 : Nat)) none m =
      some (if k < argv.length then some (argv.length - 1 - k) else none, none) := by
  constructor
  · rw [getIndex, if_neg (by omega), getAt]
    by_cases h : k < argv.length
    · rw [if_neg (by omega), if_pos h, Int.toNat_natCast, List.getElem?_eq_getElem h]
      rfl
    · rw [if_pos (by omega), if_neg h]
  · rw [getIndex, if_pos (by omega), getAt]
    by_cases h : k < argv.length
    · have e : ((argv.length : Int) + -((k + 1 : Nat) : Int)).toNat = argv.length - 1 - k := by omega
      rw [if_neg (by omega), if_pos h, e, List.getElem?_eq_getElem (by omega)]
      rfl
    · rw [if_pos (by omega), if_neg h]

/-! ### By option -/

theorem cmpz_total : ∀ (x o : Bytes) (lim : Option Nat), ∃ b, cmpz (fun a b => a = b) lim (cstr x) (cstr o) = some b
  | x, o, some 0 => ⟨true, by simp [cmpz]⟩
  | [], [], none => ⟨true, by simp [cmpz, cstr]⟩
  | [], [], some (n + 1) => ⟨true, by simp [cmpz, cstr]⟩
  | [], c :: o, none => by by_cases h : 0 = c <;> simp [cmpz, cstr, h]
  | [], c :: o, some (n + 1) => by by_cases h : 0 = c <;> simp [cmpz, cstr, h]
  | c :: x, [], none => by by_cases h : c = 0 <;> simp [cmpz, cstr, h]
  | c :: x, [], some (n + 1) => by by_cases h : c = 0 <;> simp [cmpz, cstr, h]
  | c :: x, d :: o, none => by
    obtain ⟨b, e⟩ := cmpz_total x o none
    simp only [cstr] at e
    by_cases h : c = d
    · by_cases h0 : c = 0
      · exact ⟨true, by simp [cmpz, cstr, ← h, h0]⟩
      · refine ⟨b, ?_⟩
        subst h
        simp [cmpz, cstr, h0, e]
    · exact ⟨false, by simp [cmpz, cstr, h]⟩
  | c :: x, d :: o, some (n + 1) => by
    obtain ⟨b, e⟩ := cmpz_total x o (some n)
    simp only [cstr] at e
    by_cases h : c = d
    · by_cases h0 : c = 0
      · exact ⟨true, by simp [cmpz, cstr, ← h, h0]⟩
      · refine ⟨b, ?_⟩
        subst h
        simp [cmpz, cstr, h0, e]
    · exact ⟨false, by simp [cmpz, cstr, h]⟩

/-- An argument is taken for the option exactly if it is the option. -/
theorem same_iff {x opt : Bytes} (hx : 0 ∉ x) (ho : 0 ∉ opt) {same : Bool}
    (e : cmpz (fun a b => a = b) (some opt.length) (cstr x) (cstr opt) = some same) :
    (!same || x.length != opt.length) = true ↔ x ≠ opt := by
  by_cases hl : x.length = opt.length
  · have := Str.strncmp_spec x opt [some 0] [some 0] hl
    rw [hl] at this
    unfold cstr at e
    rw [this, Str.front_self hx, Str.front_self ho] at e
    injection e with e
    subst e
    simp [hl]
  · have : x ≠ opt := fun h => hl (by rw [h])
    simp [hl, this]

theorem optGo_skip {opt : Bytes} (ho : 0 ∉ opt) (param : Option (List (Option UInt8))) (m : Nat) :
    ∀ (pre rest : List Bytes) (a : Nat), (∀ x ∈ pre, 0 ∉ x) → opt ∉ pre →
      optGo opt param m a (pre ++ rest) = optGo opt param m (a + pre.length) rest
  | [], _, _, _, _ => rfl
  | x :: pre, rest, a, hz, hn => by
    obtain ⟨same, e⟩ := cmpz_total x opt (some opt.length)
    have hne : x ≠ opt := fun h => hn (by rw [h]; exact List.mem_cons_self)
    rw [List.cons_append, optGo.eq_def]
    simp only [e]
    rw [if_pos ((same_iff (hz x List.mem_cons_self) ho e).mpr hne),
      optGo_skip ho param m pre rest (a + 1) (fun y h => hz y (List.mem_cons_of_mem _ h))
        (fun h => hn (List.mem_cons_of_mem _ h)), List.length_cons]
    congr 1
    omega

theorem optGo_hit {opt : Bytes} (ho : 0 ∉ opt) (param : Option (List (Option UInt8))) (m a : Nat) (rest : List Bytes) :
    optGo opt param m a (opt :: rest) =
      match param with
        | none => some (some a, none)
        | some buf =>
          (store buf 0 [some 0]).bind fun buf =>
          match rest with
          | [] => some (none, some buf)
          | y :: _ => (strncpy buf y (limit m)).map fun b => (some (a + 1), some b) := by
  obtain ⟨same, e⟩ := cmpz_total opt opt (some opt.length)
  rw [optGo.eq_def]
  simp only [e]
  rw [if_neg (fun h => (same_iff ho ho e).mp h rfl)]

/-- **C118, an option without parameter.**  The first argument that is the option is returned, null if
none is; an argument that only begins with the option, or that the option begins with, is not taken
for it. -/
theorem C118_option {opt : Bytes} (ho : 0 ∉ opt) (m : Nat) :
    (∀ argv : List Bytes, (∀ x ∈ argv, 0 ∉ x) → opt ∉ argv → getOption argv opt none m = some (none, none)) ∧
    ∀ pre post : List Bytes, (∀ x ∈ pre, 0 ∉ x) → opt ∉ pre →
      getOption (pre ++ opt :: post) opt none m = some (some pre.length, none) := by
  constructor
  · intro argv hz hn
    have := optGo_skip ho none m argv [] 0 hz hn
    rw [List.append_nil] at this
    rw [getOption, this, optGo]
  · intro pre post hz hn
    rw [getOption, optGo_skip ho none m pre _ 0 hz hn, optGo_hit ho, Nat.zero_add]

/-- The first bytes of the buffer after `strncpy`, when the limit fits into it. -/
theorem strncpy_fits {buf : List (Option UInt8)} {n : Nat} (hn : n ≤ buf.length) (s : Bytes) :
    ∃ b, strncpy buf s n = some b ∧ b.length = buf.length ∧
      (∀ i, i < n → b[i]? = some (some ((s[i]?).getD 0))) ∧ ∀ i, n ≤ i → b[i]? = buf[i]? := by
  have hlen : ((s.map some ++ List.replicate (n - s.length) (some (0 : UInt8))).take n).length = n := by
    rw [List.length_take, List.length_append, List.length_map, List.length_replicate]
    omega
  have e := Str.store_ok (buf := buf) (pos := 0)
    (bytes := (s.map some ++ List.replicate (n - s.length) (some (0 : UInt8))).take n) (by rw [hlen]; omega)
  obtain ⟨b, hb⟩ : ∃ b, strncpy buf s n = some b := e
  have hg := Str.store_get (show store buf 0 _ = some b from hb)
  refine ⟨b, hb, Str.store_length (show store buf 0 _ = some b from hb), fun i hi => ?_, fun i hi => ?_⟩
  · rw [hg, if_neg (by omega), hlen, if_pos (by omega), Nat.sub_zero, List.getElem?_take_of_lt hi]
    by_cases h : i < s.length
    · rw [List.getElem?_append_left (by rw [List.length_map]; exact h), List.getElem?_map,
        List.getElem?_eq_getElem h]
      rfl
    · rw [List.getElem?_append_right (by rw [List.length_map]; omega), List.length_map,
        List.getElem?_replicate, if_pos (by omega), List.getElem?_eq_none (by omega)]
      rfl
  · rw [hg, if_neg (by omega), hlen, if_neg (by omega)]

/-- **C118, an option with parameter (partial).**  If the buffer has room for the limit (1024 when none
is given) and the argument behind the option is shorter than that, it is returned and its bytes and a
terminator are in the buffer; nothing behind the limit is touched.  If the option is the last argument
the result is null and the buffer holds an empty string.  Missing: longer arguments, which get no
terminator (`C118_no_terminator`), and smaller buffers (`C118_overrun`). -/
theorem C118_parameter_partial {opt : Bytes} (ho : 0 ∉ opt) (m : Nat) {buf : List (Option UInt8)}
    (hb : limit m ≤ buf.length) (pre : List Bytes) (hz : ∀ x ∈ pre, 0 ∉ x) (hn : opt ∉ pre) :
    (∀ (y : Bytes) (post : List Bytes), y.length < limit m →
      ∃ b, getOption (pre ++ opt :: y :: post) opt (some buf) m = some (some (pre.length + 1), some b) ∧
        b.length = buf.length ∧ b.take (y.length + 1) = y.map some ++ [some 0] ∧
        ∀ i, limit m ≤ i → b[i]? = buf[i]?) ∧
    ∃ b, getOption (pre ++ [opt]) opt (some buf) m = some (none, some b) ∧ b[0]? = some (some 0) := by
  have hpos : 0 < limit m := by unfold limit; split <;> omega
  have e0 := Str.store_ok (buf := buf) (pos := 0) (bytes := [some 0]) (by simp only [List.length_singleton]; omega)
  obtain ⟨b0, h0⟩ : ∃ b0, store buf 0 [some 0] = some b0 := e0
  have l0 := Str.store_length h0
  have g0 := Str.store_get h0
  constructor
  · intro y post hy
    obtain ⟨b, e, hl, h1, h2⟩ := strncpy_fits (buf := b0) (n := limit m) (by omega) y
    refine ⟨b, ?_, by omega, ?_, fun i hi => ?_⟩
    · rw [getOption, optGo_skip ho _ m pre _ 0 hz hn, optGo_hit ho, Nat.zero_add]
      simp only [h0, Option.bind_some, e, Option.map_some]
    · apply List.ext_getElem?
      intro i
      by_cases hi : i < y.length + 1
      · rw [List.getElem?_take_of_lt hi, h1 i (by omega)]
        by_cases h : i < y.length
        · rw [List.getElem?_append_left (by rw [List.length_map]; exact h), List.getElem?_map,
            List.getElem?_eq_getElem h]
          rfl
        · rw [List.getElem?_append_right (by rw [List.length_map]; omega), List.length_map,
            List.getElem?_eq_none (by omega), show i - y.length = 0 by omega]
          rfl
      · rw [List.getElem?_eq_none (by rw [List.length_take]; omega),
          List.getElem?_eq_none (by rw [List.length_append, List.length_map, List.length_singleton]; omega)]
    · rw [h2 i hi, g0, if_neg (by omega), if_neg (by simp only [List.length_singleton]; omega)]
  · refine ⟨b0, ?_, ?_⟩
    · rw [getOption, optGo_skip ho _ m pre _ 0 hz hn, optGo_hit ho]
      simp only [h0, Option.bind_some]
    · rw [g0]; simp

/-- **C118, the parameter by index (partial).**  The same for an argument taken by its index. -/
theorem C118_index_parameter_partial (argv : List Bytes) (m k : Nat) {buf : List (Option UInt8)}
    (hb : limit m ≤ buf.length) {y : Bytes} (hk : argv[k]? = some y) :
    ∃ b, getIndex argv k (some buf) m = some (some k, some b) ∧
      (∀ i, i < limit m → b[i]? = some (some ((y[i]?).getD 0))) ∧ ∀ i, limit m ≤ i → b[i]? = buf[i]? := by
  obtain ⟨hlt, hy⟩ := List.getElem?_eq_some_iff.mp hk
  obtain ⟨b, e, _, h1, h2⟩ := strncpy_fits hb y
  refine ⟨b, ?_, h1, h2⟩
  rw [getIndex, if_neg (by omega), getAt, if_neg (by omega), Int.toNat_natCast, hk]
  simp only [Option.bind_some, e, Option.map_some]

/-- **C118 fails for long arguments**: an argument as long as the limit or longer leaves no terminator
among the bytes copied, for every buffer with room for the limit. -/
theorem C118_no_terminator (argv : List Bytes) (m k : Nat) {buf : List (Option UInt8)} (hb : limit m ≤ buf.length)
    {y : Bytes} (hk : argv[k]? = some y) (hz : 0 ∉ y) (hy : limit m ≤ y.length) :
    ∃ b, getIndex argv k (some buf) m = some (some k, some b) ∧ ∀ i, i < limit m → b[i]? ≠ some (some 0) := by
  obtain ⟨b, e, h1, _⟩ := C118_index_parameter_partial argv m k hb hk
  refine ⟨b, e, fun i hi h => ?_⟩
  rw [h1 i hi, List.getElem?_eq_getElem (by omega)] at h
  simp only [Option.getD_some, Option.some.injEq] at h
  exact hz (by rw [← h]; exact List.getElem_mem _)

/-- **C118 fails for small buffers**: without a limit 1024 bytes are written, however short the
argument is, so every smaller buffer is overrun. -/
theorem C118_overrun (argv : List Bytes) (k : Nat) (hk : k < argv.length) {buf : List (Option UInt8)}
    (hb : buf.length < 1024) : getIndex argv k (some buf) 0 = none := by
  rw [getIndex, if_neg (by omega), getAt, if_neg (by omega), Int.toNat_natCast, List.getElem?_eq_getElem hk]
  have : strncpy buf argv[k] (limit 0) = none := by
    unfold strncpy store
    rw [if_neg]
    rw [List.length_take, List.length_append, List.length_map, List.length_replicate, show limit 0 = 1024 from rfl]
    omega
  simp only [Option.bind_some, this, Option.map_none]

/-- A case: in `w -o out x` the option `-o` is argument 1 and its parameter `out`; `-` is no option, `x`
is argument -1. -/
example : getOption [[119], [45, 111], [111, 117, 116], [120]] [45, 111] none 0 = some (some 1, none) ∧
    getOption [[119], [45, 111], [111, 117, 116], [120]] [45, 111] (some (List.replicate 5 none)) 5 =
      some (some 2, some [some 111, some 117, some 116, some 0, some 0]) ∧
    getOption [[119], [45, 111], [111, 117, 116], [120]] [45] none 0 = some (none, none) ∧
    getIndex [[119], [45, 111], [111, 117, 116], [120]] (-1) none 0 = some (some 3, none) ∧
    getIndex [[119], [45, 111], [111, 117, 116], [120]] (-5) none 0 = some (none, none) ∧
    getIndex [[119], [45, 111], [111, 117, 116], [120]] 2 (some (List.replicate 2 none)) 2 =
      some (some 2, some [some 111, some 117]) :=
  ⟨by decide, by decide, by decide, by decide, by decide, by decide⟩

end Wrench.Util.Args
