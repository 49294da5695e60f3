import Verif.Timedelta

/-! # Property C17: timedelta -/

set_option autoImplicit false

namespace Verif.Props.Timedelta
open Verif Verif.Datetime Verif.Timedelta

theorem nearest_eq {b : Bool} {x : ℚ} {n : Int} (h : |x - n| < 1 / 2) : nearest b x = n := by
  have h' := abs_lt.1 h
  unfold nearest
  simp only
  have hf1 := Int.floor_le x
  have hf2 := Int.lt_floor_add_one x
  by_cases hx : (n : ℚ) ≤ x
  · have : ⌊x⌋ = n := by
      rw [Int.floor_eq_iff]; constructor <;> linarith
    rw [this, if_pos (by linarith)]
  · push Not at hx
    have : ⌊x⌋ = n - 1 := by
      rw [Int.floor_eq_iff]; push_cast; constructor <;> linarith
    rw [this]
    push_cast
    rw [if_neg (by linarith), if_neg (by intro h; linarith)]
    omega

theorem truncQ_near (x : ℚ) : |x - truncQ x| < 1 := by
  unfold truncQ
  split
  · have h1 := Int.floor_le x
    have h2 := Int.lt_floor_add_one x
    rw [abs_lt]; constructor <;> linarith
  · have h1 := Int.floor_le (-x)
    have h2 := Int.lt_floor_add_one (-x)
    push_cast
    rw [abs_lt]; constructor <;> linarith

/-- C17: every timedelta of at most 2^33 seconds (272 years) survives dump and
load, to the microsecond, under every rounding of floats that has the accuracy of
IEEE doubles. -/
theorem timedelta_roundtrip (R : Rounding) (us : Int) (h : |us| ≤ 2 ^ 33 * 1000000) :
    timedeltaDeserializer R (timedeltaSerializer R us) = us := by
  unfold timedeltaDeserializer timedeltaSerializer
  simp only
  generalize hx : R.fl ((us : ℚ) / 1000000) = x
  have e1 : |x - (us : ℚ) / 1000000| ≤ 2 ^ 33 / 2 ^ 54 := by
    rw [← hx]
    apply R.ulp
    rw [abs_div, div_le_iff₀ (by norm_num)]
    have : ((|us| : Int) : ℚ) ≤ ((2 ^ 33 * 1000000 : Int) : ℚ) := by exact_mod_cast h
    rw [Int.cast_abs] at this
    push_cast at this
    rw [abs_of_pos (by norm_num : (0 : ℚ) < 1000000)]
    linarith
  have hip := abs_lt.1 (truncQ_near x)
  generalize truncQ x = ip at *
  generalize hp : R.fl ((x - ip) * 1000000) = p
  have e2 : |p - (x - ip) * 1000000| ≤ 2 ^ 20 / 2 ^ 54 := by
    rw [← hp]
    apply R.ulp
    rw [abs_le]
    constructor <;> linarith
  generalize truncQ p = ipp
  have e1' := abs_le.1 e1
  have e2' := abs_le.1 e2
  have key : nearest (decide ((ip * 1000000 + ipp + ⌊p - ipp⌋) % 2 ≠ 0)) (p - ipp) =
      us - (ip * 1000000 + ipp) := by
    apply nearest_eq
    push_cast
    rw [abs_lt]
    constructor <;> linarith
  rw [key]
  omega

/-- 272 years less a microsecond, and minus one microsecond. -/
example (R : Rounding) :
    timedeltaDeserializer R (timedeltaSerializer R 8589934591999999) = 8589934591999999 ∧
    timedeltaDeserializer R (timedeltaSerializer R (-1)) = -1 :=
  ⟨timedelta_roundtrip R _ (by decide), timedelta_roundtrip R _ (by decide)⟩

/-- C17, addition: dumped timedeltas are ordered like the timedeltas. -/
theorem timedelta_order (R : Rounding) (a b : Int) (h : a ≤ b) :
    timedeltaSerializer R a ≤ timedeltaSerializer R b := by
  apply R.mono
  have : (a : ℚ) ≤ b := by exact_mod_cast h
  linarith

/-- C17, addition: a whole number of seconds is loaded exactly. -/
theorem timedelta_whole_seconds (R : Rounding) (n : Int) :
    timedeltaDeserializer R n = n * 1000000 := by
  have htr : truncQ (n : ℚ) = n := by
    unfold truncQ
    split
    · exact Int.floor_intCast n
    · rw [← Int.cast_neg, Int.floor_intCast]; omega
  have h0 : R.fl 0 = 0 := by
    have := R.int 0 (by norm_num)
    simpa using this
  have ht0 : truncQ 0 = 0 := by simp [truncQ]
  simp only [timedeltaDeserializer, htr, sub_self, zero_mul, h0, ht0, Int.cast_zero]
  have : ∀ b, nearest b 0 = 0 := fun b => by
    apply nearest_eq; simp
  rw [this]
  omega

example (R : Rounding) : timedeltaDeserializer R 90 = 90000000 := timedelta_whole_seconds R 90

end Verif.Props.Timedelta
