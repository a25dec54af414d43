/-
`wr_randEx`, discrete_src/lib/std.cpp 177-183, on `int32_t` values given as integers.
-/
namespace Wrench.Std

/-- The values of `int32_t`. -/
def I32 (x : Int) : Prop := -2147483648 ≤ x ∧ x ≤ 2147483647

instance (x : Int) : Decidable (I32 x) := by unfold I32; infer_instance

/-- The result of a signed operation; `none` = overflow, undefined behaviour. -/
def chk (x : Int) : Option Int := if I32 x then some x else none

/-- The seed update, std.cpp 179-180, every signed operation checked:
`k = wr_Seed / 127773; wr_Seed = 16807 * (wr_Seed - k * 127773) - 2836 * k`. -/
def nextSeed (s : Int) : Option Int := do
  let k := s.tdiv 127773
  let a ← chk (k * 127773)
  let b ← chk (s - a)
  let c ← chk (16807 * b)
  let d ← chk (2836 * k)
  chk (c - d)

/-- Conversion of a `uint32_t` to `int32_t`. -/
def toI32 (n : Int) : Int := if n % 4294967296 < 2147483648 then n % 4294967296 else n % 4294967296 - 4294967296

/-- `wr_randEx( from, to )`, std.cpp 177-183: new seed and returned value.  The modulus and
the final addition are performed in `uint32_t`. -/
def randEx (s from_ to : Int) : Option (Int × Int) := do
  let s' ← nextSeed s
  if from_ ≥ to then return (s', from_)
  else
    let d ← chk (to - from_)
    let m ← chk (d + 1)
    return (s', toI32 ((s' % 4294967296) % (m % 4294967296) + from_ % 4294967296))

/-- `wr_std_rand` with one (`to`) or two (`from`, `to`) integer arguments, std.cpp 186-197. -/
def stdRand (s : Int) : List Int → Option (Int × Int)
  | [to] => randEx s 0 to
  | from_ :: to :: _ => randEx s from_ to
  | [] => some (s, 0)

/-- The update in closed form. -/
theorem nextSeed_eq (s : Int) (hs : I32 s) :
    nextSeed s = some (16807 * (s - s.tdiv 127773 * 127773) - 2836 * s.tdiv 127773) ∧
    I32 (16807 * (s - s.tdiv 127773 * 127773) - 2836 * s.tdiv 127773) := by
  obtain ⟨k, hk⟩ : ∃ k, k = s.tdiv 127773 := ⟨_, rfl⟩
  have hd : (0 ≤ s ∧ 0 ≤ k ∧ 0 ≤ s - 127773 * k ∧ s - 127773 * k < 127773) ∨
      (s ≤ 0 ∧ k ≤ 0 ∧ s - 127773 * k ≤ 0 ∧ -127773 < s - 127773 * k) := by
    rw [hk]
    by_cases h : 0 ≤ s
    · left
      rw [Int.tdiv_eq_ediv_of_nonneg h]
      omega
    · right
      have : s.tdiv 127773 = -((-s) / 127773) := by
        rw [← Int.tdiv_eq_ediv_of_nonneg (a := -s) (by omega), Int.neg_tdiv, Int.neg_neg]
      rw [this]
      omega
  rw [← hk]
  unfold I32 at hs
  have e1 : chk (k * 127773) = some (k * 127773) := by
    unfold chk; rw [if_pos]; unfold I32; omega
  have e2 : chk (s - k * 127773) = some (s - k * 127773) := by
    unfold chk; rw [if_pos]; unfold I32; omega
  have e3 : chk (16807 * (s - k * 127773)) = some (16807 * (s - k * 127773)) := by
    unfold chk; rw [if_pos]; unfold I32; omega
  have e4 : chk (2836 * k) = some (2836 * k) := by
    unfold chk; rw [if_pos]; unfold I32; omega
  have h5 : I32 (16807 * (s - k * 127773) - 2836 * k) := by
    unfold I32; omega
  have e5 : chk (16807 * (s - k * 127773) - 2836 * k) =
      some (16807 * (s - k * 127773) - 2836 * k) := by
    unfold chk; rw [if_pos h5]
  refine ⟨?_, h5⟩
  unfold nextSeed
  simp only [← hk, Option.bind_eq_bind, e1, Option.bind_some, e2, e3, e4, e5]

/-- **C34** (generator): the seed update never overflows, is multiplication by 16807 modulo
`2^31 - 1`, and reaches the fixed point 0 only from a multiple of that modulus. -/
theorem C34_seed_update (s : Int) (hs : I32 s) :
    ∃ s', nextSeed s = some s' ∧ I32 s' ∧ (s' - 16807 * s) % 2147483647 = 0 ∧
      (s' = 0 ↔ s % 2147483647 = 0) := by
  obtain ⟨h1, h2⟩ := nextSeed_eq s hs
  refine ⟨_, h1, h2, ?_, ?_⟩
  · have : 16807 * (s - s.tdiv 127773 * 127773) - 2836 * s.tdiv 127773 - 16807 * s =
        2147483647 * (-(s.tdiv 127773)) := by
      omega
    rw [this]; exact Int.mul_emod_right _ _
  · unfold I32 at hs h2
    constructor
    · intro h
      generalize s.tdiv 127773 = k at *
      have : 16807 * s = 2147483647 * k := by omega
      omega
    · intro h
      have hm : s = -2147483647 ∨ s = 0 ∨ s = 2147483647 := by omega
      rcases hm with rfl | rfl | rfl <;> decide

/-- `n` successive updates. -/
def seedAfter (s : Int) : Nat → Option Int
  | 0 => some s
  | n + 1 => (seedAfter s n).bind nextSeed

/-- **C34** (never stuck): from a seed that is not a multiple of the modulus no sequence of
updates ever reaches such a seed, in particular never 0. -/
theorem C34_never_stuck (s : Int) (hs : I32 s) (h0 : s % 2147483647 ≠ 0) (n : Nat) :
    ∃ s', seedAfter s n = some s' ∧ I32 s' ∧ s' % 2147483647 ≠ 0 := by
  induction n with
  | zero => exact ⟨s, rfl, hs, h0⟩
  | succ n ih =>
    obtain ⟨s', h1, h2, h3⟩ := ih
    obtain ⟨s'', h4, h5, h6, _⟩ := C34_seed_update s' h2
    refine ⟨s'', by simp [seedAfter, h1, h4], h5, ?_⟩
    intro h7
    apply h3
    obtain ⟨a, ha⟩ := Int.dvd_of_emod_eq_zero h6
    obtain ⟨b, hb⟩ := Int.dvd_of_emod_eq_zero h7
    exact Int.emod_eq_zero_of_dvd ⟨1407677000 * (b - a) - 11017 * s', by omega⟩

/-- **C34** (range): with `to - from ≤ 2^31 - 2` the call is free of undefined behaviour
and its result lies in the inclusive range; an empty or one-point range gives `from`.
Missing: wider ranges, see `C34_full_range_overflows`. -/
theorem C34_rand_in_range_partial (s from_ to : Int) (hs : I32 s) (hf : I32 from_) (ht : I32 to)
    (hw : to - from_ ≤ 2147483646) :
    ∃ s' r, randEx s from_ to = some (s', r) ∧ I32 s' ∧
      (from_ ≤ to → from_ ≤ r ∧ r ≤ to) ∧ (to ≤ from_ → r = from_) := by
  obtain ⟨s', h1, h2, _, _⟩ := C34_seed_update s hs
  by_cases hc : from_ ≥ to
  · exact ⟨s', from_, by simp [randEx, h1, hc], h2, by omega, by simp⟩
  · have e1 : chk (to - from_) = some (to - from_) := by
      unfold chk; rw [if_pos]; unfold I32 at *; omega
    have e2 : chk (to - from_ + 1) = some (to - from_ + 1) := by
      unfold chk; rw [if_pos]; unfold I32 at *; omega
    refine ⟨s', _, by simp only [randEx, h1, Option.bind_eq_bind, Option.bind_some, hc, if_false, e1, e2]; rfl,
      h2, ?_, by omega⟩
    intro _
    unfold I32 at hf ht
    have hm : (to - from_ + 1) % 4294967296 = to - from_ + 1 := by omega
    rw [hm]
    have hr1 := Int.emod_nonneg (s' % 4294967296) (show to - from_ + 1 ≠ 0 by omega)
    have hr2 := Int.emod_lt_of_pos (s' % 4294967296) (show 0 < to - from_ + 1 by omega)
    generalize (s' % 4294967296) % (to - from_ + 1) = r at *
    unfold toI32
    split <;> omega

/-- `rand(2147483647)`: `(to - from) + 1` overflows, undefined behaviour. -/
theorem C34_full_range_overflows : stdRand 679661 [2147483647] = none := by decide

/-- `srand(0)` makes the generator constant. -/
theorem C34_zero_seed_stuck (n : Nat) : seedAfter 0 n = some 0 := by
  induction n with
  | zero => rfl
  | succ n ih => rw [seedAfter, ih]; rfl

/-- Concrete case: the default seed 0xA5EED, `rand(10, 20)`. -/
example : I32 679661 ∧ (679661 : Int) % 2147483647 ≠ 0 ∧
    stdRand 679661 [10, 20] = some (685644192, 12) := by decide

end Wrench.Std
