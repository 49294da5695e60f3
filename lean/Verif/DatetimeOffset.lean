import Verif.Datetime
import Mathlib.Tactic.NormNum
import Mathlib.Tactic.IntervalCases

/-! # Helper lemmas: the float arithmetic of the textual offset is exact -/

set_option autoImplicit false

namespace Verif.Datetime
open Verif

theorem Rounding.le_fl {R : Rounding} {k : ℤ} {x : ℚ} (hk : |k| ≤ 2 ^ 53) (h : (k : ℚ) ≤ x) :
    (k : ℚ) ≤ R.fl x := by
  have := R.mono _ _ h
  rwa [R.int k hk] at this

theorem Rounding.fl_le {R : Rounding} {k : ℤ} {x : ℚ} (hk : |k| ≤ 2 ^ 53) (h : x ≤ (k : ℚ)) :
    R.fl x ≤ (k : ℚ) := by
  have := R.mono _ _ h
  rwa [R.int k hk] at this

theorem Rounding.fl_le_add (R : Rounding) (x : ℚ) : R.fl x ≤ x + |x| / 2 ^ 53 := by
  have := (abs_le.1 (R.err x)).2
  linarith

theorem Rounding.sub_le_fl (R : Rounding) (x : ℚ) : x - |x| / 2 ^ 53 ≤ R.fl x := by
  have := (abs_le.1 (R.err x)).1
  linarith

/-- The two roundings of `total_seconds() / d` do not cross an integer. -/
theorem le_quot_iff (R : Rounding) (U : ℤ) (hU : |U| < 86400000000) (d : ℤ)
    (hd : d = 3600 ∨ d = 60) (k : ℤ) (hk : |k| ≤ 1440) (hkd : |k * d| ≤ 90000) :
    (k * d * 1000000 ≤ U → (k : ℚ) ≤ R.fl (R.fl ((U : ℚ) / 1000000) / d)) ∧
    (U < k * d * 1000000 → R.fl (R.fl ((U : ℚ) / 1000000) / d) ≤ (k : ℚ) - 1 / 10 ^ 10) ∧
    (k * d * 1000000 < U → (k : ℚ) + 1 / 10 ^ 10 ≤ R.fl (R.fl ((U : ℚ) / 1000000) / d)) ∧
    (U ≤ k * d * 1000000 → R.fl (R.fl ((U : ℚ) / 1000000) / d) ≤ (k : ℚ)) := by
  have hd0 : (0 : ℚ) < d := by rcases hd with rfl | rfl <;> norm_num
  have hd1 : (60 : ℚ) ≤ d := by rcases hd with rfl | rfl <;> norm_num
  have hd2 : (d : ℚ) ≤ 3600 := by rcases hd with rfl | rfl <;> norm_num
  have hUq : |(U : ℚ)| < 86400000000 := by exact_mod_cast hU
  have hkq : |(k : ℚ)| ≤ 1440 := by exact_mod_cast hk
  have hx : |(U : ℚ) / 1000000| ≤ 86400 := by
    rw [abs_div, abs_of_pos (by norm_num : (0 : ℚ) < 1000000), div_le_iff₀ (by norm_num)]
    linarith
  set x : ℚ := (U : ℚ) / 1000000 with hxdef
  have e1 : R.fl x ≤ x + 1 / 10 ^ 11 := by
    have h1 := Rounding.fl_le_add R x
    have : |x| / 2 ^ 53 ≤ 1 / 10 ^ 11 := by
      rw [div_le_iff₀ (by norm_num)]
      refine hx.trans ?_
      norm_num
    linarith
  have e2 : x - 1 / 10 ^ 11 ≤ R.fl x := by
    have h1 := Rounding.sub_le_fl R x
    have : |x| / 2 ^ 53 ≤ 1 / 10 ^ 11 := by
      rw [div_le_iff₀ (by norm_num)]
      refine hx.trans ?_
      norm_num
    linarith
  have habs : |R.fl x / d| ≤ 2000 := by
    rw [abs_div, abs_of_pos hd0, div_le_iff₀ hd0]
    have h1 := abs_le.1 hx
    have : |R.fl x| ≤ 86401 := by
      rw [abs_le]; constructor <;> linarith
    nlinarith
  have htiny : |R.fl x / d| / 2 ^ 53 ≤ 1 / 10 ^ 12 := by
    rw [div_le_iff₀ (by norm_num)]
    refine habs.trans ?_
    norm_num
  have f1 : R.fl (R.fl x / d) ≤ R.fl x / d + 1 / 10 ^ 12 := by
    have := Rounding.fl_le_add R (R.fl x / d)
    linarith
  have f2 : R.fl x / d - 1 / 10 ^ 12 ≤ R.fl (R.fl x / d) := by
    have := Rounding.sub_le_fl R (R.fl x / d)
    linarith
  have hk53 : |k| ≤ 2 ^ 53 := hk.trans (by norm_num)
  have hkd53 : |k * d| ≤ 2 ^ 53 := hkd.trans (by norm_num)
  have hcast : ((k * d : ℤ) : ℚ) = (k : ℚ) * d := by push_cast; ring
  refine ⟨?_, ?_, ?_, ?_⟩
  · intro h
    apply Rounding.le_fl hk53
    rw [le_div_iff₀ hd0, ← hcast]
    apply Rounding.le_fl hkd53
    rw [hxdef, le_div_iff₀ (by norm_num)]
    exact_mod_cast h
  · intro h
    have h' : U + 1 ≤ k * d * 1000000 := h
    have hq : (U : ℚ) + 1 ≤ k * d * 1000000 := by exact_mod_cast h'
    have hx2 : x ≤ k * d - 1 / 10 ^ 6 := by
      rw [hxdef, div_le_iff₀ (by norm_num)]
      linarith
    have h3 : R.fl x / d ≤ k - 2 / 10 ^ 10 := by
      rw [div_le_iff₀ hd0]
      have : (2 : ℚ) / 10 ^ 10 * d ≤ 1 / 10 ^ 6 - 1 / 10 ^ 11 := by nlinarith
      nlinarith
    have : (1 : ℚ) / 10 ^ 12 ≤ 1 / 10 ^ 10 := by norm_num
    linarith
  · intro h
    have h' : k * d * 1000000 + 1 ≤ U := h
    have hq : (k : ℚ) * d * 1000000 + 1 ≤ U := by exact_mod_cast h'
    have hx2 : k * d + 1 / 10 ^ 6 ≤ x := by
      rw [hxdef, le_div_iff₀ (by norm_num)]
      linarith
    have h3 : k + 2 / 10 ^ 10 ≤ R.fl x / d := by
      rw [le_div_iff₀ hd0]
      have : (2 : ℚ) / 10 ^ 10 * d ≤ 1 / 10 ^ 6 - 1 / 10 ^ 11 := by nlinarith
      nlinarith
    have : (1 : ℚ) / 10 ^ 12 ≤ 1 / 10 ^ 10 := by norm_num
    linarith
  · intro h
    apply Rounding.fl_le hk53
    rw [div_le_iff₀ hd0, ← hcast]
    apply Rounding.fl_le hkd53
    rw [hxdef, div_le_iff₀ (by norm_num)]
    exact_mod_cast h

/-- `offset_h`, line 89, is the exact truncated quotient. -/
theorem offset_h_eq (R : Rounding) (U : ℤ) (hU : |U| < 86400000000) :
    (truncQ (R.fl (R.fl ((U : ℚ) / 1000000) / 3600))).natAbs = U.natAbs / 3600000000 := by
  set x := R.fl (R.fl ((U : ℚ) / 1000000) / 3600) with hx
  have hb := abs_lt.1 hU
  have key := fun k hk hkd => le_quot_iff R U hU 3600 (.inl rfl) k hk hkd
  simp only [Int.cast_ofNat, ← hx] at key
  unfold truncQ
  rcases Int.lt_or_le U 0 with hneg | hpos
  · obtain ⟨n, hn⟩ : ∃ n : ℕ, U = -(n : ℤ) := ⟨U.natAbs, by omega⟩
    subst hn
    have hn : n < 86400000000 := by omega
    have hx0 : ¬ 0 ≤ x := by
      have := (key 0 (by norm_num) (by norm_num)).2.1 (by omega)
      intro h0
      simp only [Int.cast_zero] at this
      have : (1 : ℚ) / 10 ^ 10 ≤ 0 := by linarith
      norm_num at this
    rw [if_neg hx0]
    have hq : n / 3600000000 < 24 := by omega
    have hfl : ⌊-x⌋ = ((n / 3600000000 : ℕ) : ℤ) := by
      rw [Int.floor_eq_iff]
      constructor
      · have := (key (-((n / 3600000000 : ℕ) : ℤ)) (by rw [abs_le]; omega)
          (by rw [abs_le]; omega)).2.2.2 (by omega)
        rw [Int.cast_neg] at this
        linarith
      · have := (key (-(((n / 3600000000 : ℕ) : ℤ) + 1)) (by rw [abs_le]; omega)
          (by rw [abs_le]; omega)).2.2.1 (by omega)
        push_cast at this ⊢
        have h10 : (0 : ℚ) < 1 / 10 ^ 10 := by norm_num
        linarith
    rw [hfl]
    omega
  · obtain ⟨n, hn⟩ : ∃ n : ℕ, U = (n : ℤ) := ⟨U.natAbs, by omega⟩
    subst hn
    have hn : n < 86400000000 := by omega
    have hx0 : 0 ≤ x := by
      have := (key 0 (by norm_num) (by norm_num)).1 (by omega)
      simpa using this
    rw [if_pos hx0]
    have hq : n / 3600000000 < 24 := by omega
    have hfl : ⌊x⌋ = ((n / 3600000000 : ℕ) : ℤ) := by
      rw [Int.floor_eq_iff]
      constructor
      · exact (key ((n / 3600000000 : ℕ) : ℤ) (by rw [abs_le]; omega)
          (by rw [abs_le]; omega)).1 (by omega)
      · have := (key (((n / 3600000000 : ℕ) : ℤ) + 1) (by rw [abs_le]; omega)
          (by rw [abs_le]; omega)).2.1 (by omega)
        push_cast at this ⊢
        have h10 : (0 : ℚ) < 1 / 10 ^ 10 := by norm_num
        linarith
    rw [hfl]
    omega

/-- `offset_m`, line 90, is the exact floor of the minutes modulo 60. -/
theorem offset_m_eq (R : Rounding) (U : ℤ) (hU : |U| < 86400000000) :
    truncQ (mod60 R (R.fl (R.fl ((U : ℚ) / 1000000) / 60))) = U / 60000000 % 60 := by
  set x := R.fl (R.fl ((U : ℚ) / 1000000) / 60) with hx
  have hb := abs_lt.1 hU
  have key := fun k hk hkd => le_quot_iff R U hU 60 (.inr rfl) k hk hkd
  simp only [Int.cast_ofNat, ← hx] at key
  set F : ℤ := U / 60000000 with hF
  have hF1 : -1440 ≤ F := by omega
  have hF2 : F < 1440 := by omega
  have hlow : (F : ℚ) ≤ x := (key F (by rw [abs_le]; omega) (by rw [abs_le]; omega)).1 (by omega)
  have hhigh : x ≤ (F : ℚ) + 1 - 1 / 10 ^ 10 := by
    have := (key (F + 1) (by rw [abs_le]; omega) (by rw [abs_le]; omega)).2.1 (by omega)
    push_cast at this
    linarith
  have h10 : (0 : ℚ) < 1 / 10 ^ 10 := by norm_num
  have hfloor : ⌊x⌋ = F := by
    rw [Int.floor_eq_iff]; constructor <;> linarith
  have hdm := Int.mul_ediv_add_emod F 60
  have hm0 : 0 ≤ F % 60 := Int.emod_nonneg _ (by norm_num)
  have hm1 : F % 60 < 60 := Int.emod_lt_of_pos _ (by norm_num)
  have hdmq : (60 : ℚ) * ((F / 60 : ℤ) : ℚ) + ((F % 60 : ℤ) : ℚ) = F := by exact_mod_cast hdm
  have hm0q : (0 : ℚ) ≤ ((F % 60 : ℤ) : ℚ) := by exact_mod_cast hm0
  have hm1q : ((F % 60 : ℤ) : ℚ) ≤ 59 := by
    have : F % 60 ≤ 59 := by omega
    exact_mod_cast this
  unfold mod60
  split
  · -- a non-negative number of minutes
    have hq : ⌊x / 60⌋ = F / 60 := by
      rw [Int.floor_eq_iff]
      constructor
      · rw [le_div_iff₀ (by norm_num)]; linarith
      · rw [div_lt_iff₀ (by norm_num)]; linarith
    rw [hq]
    unfold truncQ
    rw [if_pos (by linarith)]
    rw [Int.floor_eq_iff]
    constructor <;> linarith
  · next hneg =>
    have hxneg : x < 0 := lt_of_not_ge hneg
    have hFneg : F ≤ -1 := by
      have : (F : ℚ) < 0 := by linarith
      have : F < 0 := by exact_mod_cast this
      omega
    simp only
    by_cases hm : F % 60 = 0 ∧ x = F
    · -- a multiple of 60
      obtain ⟨hm, hxF⟩ := hm
      rw [hm] at hdmq hdm
      have hq : ⌊-x / 60⌋ = -(F / 60) := by
        have : -x / 60 = ((-(F / 60) : ℤ) : ℚ) := by
          rw [hxF, ← hdmq]; push_cast; ring
        rw [this, Int.floor_intCast]
      rw [hq, if_pos (by rw [hxF]; push_cast at *; linarith)]
      rw [hm]
      simp [truncQ]
    · -- the sum with 60
      have hq : ⌊-x / 60⌋ = -(F / 60) - 1 := by
        rw [Int.floor_eq_iff]
        push_cast
        constructor
        · rw [le_div_iff₀ (by norm_num)]; linarith
        · rw [div_lt_iff₀ (by norm_num)]
          have : -x < -(60 * ((F / 60 : ℤ) : ℚ)) := by
            by_cases hm' : F % 60 = 0
            · have hne : x ≠ F := fun h => hm ⟨hm', h⟩
              have : (F : ℚ) < x := lt_of_le_of_ne hlow (Ne.symm hne)
              rw [hm'] at hdmq
              push_cast at hdmq
              linarith
            · have : 1 ≤ F % 60 := by omega
              have : (1 : ℚ) ≤ ((F % 60 : ℤ) : ℚ) := by exact_mod_cast this
              linarith
          linarith
      rw [hq]
      push_cast
      have hf : x + 60 * (-((F / 60 : ℤ) : ℚ) - 1) ≠ 0 := by
        intro h0
        have : x = 60 * ((F / 60 : ℤ) : ℚ) + 60 := by linarith
        linarith
      rw [if_neg hf]
      set y : ℚ := x + 60 * (-((F / 60 : ℤ) : ℚ) - 1) + 60 with hy
      have hy1 : ((F % 60 : ℤ) : ℚ) ≤ y := by linarith
      have hy2 : y ≤ ((F % 60 : ℤ) : ℚ) + 1 - 1 / 10 ^ 10 := by linarith
      have hyabs : |y| ≤ 60 := by rw [abs_le]; constructor <;> linarith
      have g1 : ((F % 60 : ℤ) : ℚ) ≤ R.fl y := Rounding.le_fl (by
        rw [abs_le]; omega) hy1
      have g2 : R.fl y < ((F % 60 : ℤ) : ℚ) + 1 := by
        have h1 := Rounding.fl_le_add R y
        have : |y| / 2 ^ 53 ≤ 1 / 10 ^ 12 := by
          rw [div_le_iff₀ (by norm_num)]
          refine hyabs.trans ?_
          norm_num
        have : (1 : ℚ) / 10 ^ 12 < 1 / 10 ^ 10 := by norm_num
        linarith
      unfold truncQ
      rw [if_pos (by linarith), Int.floor_eq_iff]
      exact ⟨g1, g2⟩

/-- `offset_s > 0`, line 92. -/
theorem offset_s_pos (R : Rounding) (U : ℤ) (hU : |U| < 86400000000) :
    0 < R.fl ((U : ℚ) / 1000000) ↔ 0 < U := by
  have hb := abs_lt.1 hU
  constructor
  · intro h
    apply Classical.byContradiction
    intro hn
    have : R.fl ((U : ℚ) / 1000000) ≤ ((0 : ℤ) : ℚ) := by
      apply Rounding.fl_le (by norm_num)
      rw [div_le_iff₀ (by norm_num)]
      have : U ≤ 0 := by omega
      have : (U : ℚ) ≤ 0 := by exact_mod_cast this
      simpa using this
    simp only [Int.cast_zero] at this
    linarith
  · intro h
    have hq : (0 : ℚ) < (U : ℚ) := by exact_mod_cast h
    have hx : (0 : ℚ) < (U : ℚ) / 1000000 := by positivity
    have := Rounding.sub_le_fl R ((U : ℚ) / 1000000)
    rw [abs_of_pos hx] at this
    have : (U : ℚ) / 1000000 / 2 ^ 53 < (U : ℚ) / 1000000 := by
      rw [div_lt_iff₀ (by norm_num)]
      nlinarith
    linarith

/-- The textual offset in integer arithmetic. -/
theorem timedeltaOffsetStr_eq (R : Rounding) (U : ℤ) (hU : |U| < 86400000000) :
    timedeltaOffsetStr R U = .ok ((if 0 < U then '+' else '-') ::
      pad2 (U.natAbs / 3600000000) ++ ':' :: pad2 (U / 60000000 % 60).toNat) := by
  have hb := abs_lt.1 hU
  unfold timedeltaOffsetStr
  simp only [offset_h_eq R U hU, offset_m_eq R U hU, offset_s_pos R U hU]
  have hm0 : 0 ≤ U / 60000000 % 60 := Int.emod_nonneg _ (by norm_num)
  have hm1 : U / 60000000 % 60 < 60 := Int.emod_lt_of_pos _ (by norm_num)
  have hm : (U / 60000000 % 60).natAbs = (U / 60000000 % 60).toNat := by omega
  rw [hm, if_pos (by omega)]

end Verif.Datetime
