import Mathlib.Data.Rat.Floor
import Mathlib.Tactic.Linarith
import Mathlib.Tactic.Ring
import Mathlib.Tactic.Positivity
import Mathlib.Tactic.FieldSimp

/-!
# Floating point arithmetic

A Python `float` operation is the exact rational operation followed by a
rounding.  The rounding is a parameter with the four facts below, which IEEE
binary64 rounding to nearest has for results in the normal range (overflow,
subnormal numbers, infinities and NaN are not modelled).
-/

set_option autoImplicit false

namespace Verif

/-- Rounding of a real number to a Python `float`; used for the float
operations of `/repo/jsons/_multitasking.py` line 55 and
`/repo/jsons/serializers/default_timedelta.py` line 10,
`/repo/jsons/deserializers/default_timedelta.py` line 13. -/
structure Rounding where
  fl : ℚ → ℚ
  mono : ∀ x y, x ≤ y → fl x ≤ fl y
  int : ∀ n : ℤ, |n| ≤ 2 ^ 53 → fl n = n
  err : ∀ x, |fl x - x| ≤ |x| / 2 ^ 53
  /-- a number below `2^k` is off by at most half a unit in the last place -/
  ulp : ∀ (x : ℚ) (k : ℕ), |x| ≤ 2 ^ k → |fl x - x| ≤ 2 ^ k / 2 ^ 54

/-- Rounding that loses nothing; shows that the four facts are consistent. -/
def Rounding.exact : Rounding where
  fl x := x
  mono _ _ h := h
  int _ _ := rfl
  err x := by simp; positivity
  ulp x k _ := by simp; positivity

/-- `int(n / t)` for natural numbers is the integer quotient below `2^53`. -/
theorem Rounding.floor_div (R : Rounding) (n t : ℕ) (hn : n < 2 ^ 53) (ht : 0 < t) :
    ⌊R.fl ((n : ℚ) / t)⌋.toNat = n / t := by
  have htq : (0 : ℚ) < t := by exact_mod_cast ht
  have hdm : t * (n / t) + n % t = n := Nat.div_add_mod n t
  have hml : n % t < t := Nat.mod_lt _ ht
  have hq : (n / t : ℕ) ≤ n := Nat.div_le_self _ _
  have hlow : ((n / t : ℕ) : ℚ) ≤ (n : ℚ) / t := by
    rw [le_div_iff₀ htq]
    have : (n / t) * t ≤ n := Nat.div_mul_le_self n t
    exact_mod_cast this
  have h1 : ((n / t : ℕ) : ℚ) ≤ R.fl ((n : ℚ) / t) := by
    have hi : R.fl (((n / t : ℕ) : ℤ) : ℚ) = (((n / t : ℕ) : ℤ) : ℚ) := by
      apply R.int
      rw [abs_of_nonneg (by positivity)]
      have : (n / t : ℕ) < 2 ^ 53 := lt_of_le_of_lt hq hn
      exact_mod_cast this.le
    have := R.mono _ _ hlow
    simp only [Int.cast_natCast] at hi
    rwa [hi] at this
  have h2 : R.fl ((n : ℚ) / t) < ((n / t : ℕ) : ℚ) + 1 := by
    have he := R.err ((n : ℚ) / t)
    have hx : (0 : ℚ) ≤ (n : ℚ) / t := by positivity
    rw [abs_of_nonneg hx] at he
    have he' := (abs_le.1 he).2
    have hlt : (n : ℚ) / t + (n : ℚ) / t / 2 ^ 53 < ((n / t : ℕ) : ℚ) + 1 := by
      have e1 : (n : ℚ) / t + (n : ℚ) / t / 2 ^ 53 = ((n : ℚ) + n / 2 ^ 53) / t := by
        field_simp
      rw [e1, div_lt_iff₀ htq]
      have h3 : ((n : ℚ)) / 2 ^ 53 < 1 := by
        rw [div_lt_one (by positivity)]
        exact_mod_cast hn
      have h4 : (n : ℚ) + 1 ≤ (((n / t : ℕ) : ℚ) + 1) * t := by
        have : n + 1 ≤ (n / t + 1) * t := by nlinarith
        exact_mod_cast this
      linarith
    linarith
  have : ⌊R.fl ((n : ℚ) / t)⌋ = ((n / t : ℕ) : ℤ) := by
    rw [Int.floor_eq_iff]
    constructor
    · rw [Int.cast_natCast]; exact h1
    · rw [Int.cast_natCast]; exact h2
  rw [this, Int.toNat_natCast]

end Verif
