/-!
# Lemmas about ASCII case mapping (helper lemmas, no model content)
-/

set_option autoImplicit false

namespace Verif

theorem mem_upper {c : Char} (h : c.isUpper = true) :
    c ∈ "ABCDEFGHIJKLMNOPQRSTUVWXYZ".toList := by
  have h1 : 65 ≤ c.toNat ∧ c.toNat ≤ 90 := by
    simp [Char.isUpper, UInt32.le_iff_toNat_le] at h
    exact h
  have h2 : c = Char.ofNat c.toNat := by simp
  rw [h2]
  generalize c.toNat = n at h1
  have : ∀ m : Fin 26, Char.ofNat (65 + m) ∈ "ABCDEFGHIJKLMNOPQRSTUVWXYZ".toList := by decide
  have h3 := this ⟨n - 65, by omega⟩
  simpa [show 65 + (n - 65) = n by omega] using h3

theorem mem_lower {c : Char} (h : c.isLower = true) :
    c ∈ "abcdefghijklmnopqrstuvwxyz".toList := by
  have h1 : 97 ≤ c.toNat ∧ c.toNat ≤ 122 := by
    simp [Char.isLower, UInt32.le_iff_toNat_le] at h
    exact h
  have h2 : c = Char.ofNat c.toNat := by simp
  rw [h2]
  generalize c.toNat = n at h1
  have : ∀ m : Fin 26, Char.ofNat (97 + m) ∈ "abcdefghijklmnopqrstuvwxyz".toList := by decide
  have h3 := this ⟨n - 97, by omega⟩
  simpa [show 97 + (n - 97) = n by omega] using h3

theorem mem_digit {c : Char} (h : c.isDigit = true) : c ∈ "0123456789".toList := by
  have h1 : 48 ≤ c.toNat ∧ c.toNat ≤ 57 := by
    simp [Char.isDigit, UInt32.le_iff_toNat_le] at h
    exact h
  have h2 : c = Char.ofNat c.toNat := by simp
  rw [h2]
  generalize c.toNat = n at h1
  have : ∀ m : Fin 10, Char.ofNat (48 + m) ∈ "0123456789".toList := by decide
  have h3 := this ⟨n - 48, by omega⟩
  simpa [show 48 + (n - 48) = n by omega] using h3

theorem toLower_of_not_upper {c : Char} (h : c.isUpper = false) : c.toLower = c := by
  simp [Char.isUpper] at h
  simp only [Char.toLower]
  split
  · next h1 =>
      have h2 := h h1.1
      exact absurd h1.2 (by simp at h2 ⊢; exact h2)
  · rfl

theorem toUpper_of_not_lower {c : Char} (h : c.isLower = false) : c.toUpper = c := by
  simp [Char.isLower] at h
  simp only [Char.toUpper]
  split
  · next h1 =>
      have h2 := h h1.1
      exact absurd h1.2 (by simp at h2 ⊢; exact h2)
  · rfl

/-- A property of all characters follows from the 26 upper-case letters and the
rest, when the rest is not an upper-case letter. -/
theorem upper_ind {P : Char → Prop}
    (hu : ∀ c ∈ "ABCDEFGHIJKLMNOPQRSTUVWXYZ".toList, P c)
    (hn : ∀ c, c.isUpper = false → P c) (c : Char) : P c := by
  cases h : c.isUpper
  · exact hn c h
  · exact hu c (mem_upper h)

theorem letter_ind {P : Char → Prop}
    (hu : ∀ c ∈ "ABCDEFGHIJKLMNOPQRSTUVWXYZ".toList, P c)
    (hl : ∀ c ∈ "abcdefghijklmnopqrstuvwxyz".toList, P c)
    (hn : ∀ c, c.isUpper = false → c.isLower = false → P c) (c : Char) : P c := by
  cases h : c.isUpper
  · cases h' : c.isLower
    · exact hn c h h'
    · exact hl c (mem_lower h')
  · exact hu c (mem_upper h)

@[simp] theorem isUpper_toLower (c : Char) : c.toLower.isUpper = false := by
  refine upper_ind (P := fun c => c.toLower.isUpper = false) (by decide) ?_ c
  intro c h; rw [toLower_of_not_upper h, h]

@[simp] theorem isLower_toUpper (c : Char) : c.toUpper.isLower = false := by
  refine letter_ind (P := fun c => c.toUpper.isLower = false) (by decide) (by decide) ?_ c
  intro c _ h; rw [toUpper_of_not_lower h, h]

@[simp] theorem toLower_toLower (c : Char) : c.toLower.toLower = c.toLower :=
  toLower_of_not_upper (isUpper_toLower c)

@[simp] theorem toUpper_toUpper (c : Char) : c.toUpper.toUpper = c.toUpper :=
  toUpper_of_not_lower (isLower_toUpper c)

@[simp] theorem toLower_toUpper (c : Char) : c.toUpper.toLower = c.toLower := by
  refine letter_ind (P := fun c => c.toUpper.toLower = c.toLower) (by decide) (by decide) ?_ c
  intro c _ h; rw [toUpper_of_not_lower h]

@[simp] theorem toUpper_toLower (c : Char) : c.toLower.toUpper = c.toUpper := by
  refine letter_ind (P := fun c => c.toLower.toUpper = c.toUpper) (by decide) (by decide) ?_ c
  intro c h _; rw [toLower_of_not_upper h]

@[simp] theorem toLower_eq_sep (c : Char) : c.toLower = '_' ↔ c = '_' := by
  refine upper_ind (P := fun c => c.toLower = '_' ↔ c = '_') (by decide) ?_ c
  intro c h; rw [toLower_of_not_upper h]

@[simp] theorem toUpper_eq_sep (c : Char) : c.toUpper = '_' ↔ c = '_' := by
  refine letter_ind (P := fun c => c.toUpper = '_' ↔ c = '_') (by decide) (by decide) ?_ c
  intro c _ h; rw [toUpper_of_not_lower h]

@[simp] theorem toLower_eq_dash (c : Char) : c.toLower = '-' ↔ c = '-' := by
  refine upper_ind (P := fun c => c.toLower = '-' ↔ c = '-') (by decide) ?_ c
  intro c h; rw [toLower_of_not_upper h]

@[simp] theorem toUpper_eq_dash (c : Char) : c.toUpper = '-' ↔ c = '-' := by
  refine letter_ind (P := fun c => c.toUpper = '-' ↔ c = '-') (by decide) (by decide) ?_ c
  intro c _ h; rw [toUpper_of_not_lower h]

theorem isUpper_false_of_isLower {c : Char} (h : c.isLower = true) : c.isUpper = false := by
  have := mem_lower h
  exact (by decide : ∀ c ∈ "abcdefghijklmnopqrstuvwxyz".toList, c.isUpper = false) c this

theorem isUpper_false_of_isDigit {c : Char} (h : c.isDigit = true) : c.isUpper = false := by
  have := mem_digit h
  exact (by decide : ∀ c ∈ "0123456789".toList, c.isUpper = false) c this

theorem isUpper_toUpper_of_isLower {c : Char} (h : c.isLower = true) : c.toUpper.isUpper = true := by
  have := mem_lower h
  exact (by decide : ∀ c ∈ "abcdefghijklmnopqrstuvwxyz".toList, c.toUpper.isUpper = true) c this

end Verif
