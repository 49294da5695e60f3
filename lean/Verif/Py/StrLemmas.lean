import Verif.Py.Str
import Verif.Py.CharLemmas

/-!
# Lemmas about Python string operations (helper lemmas, no model content)
-/

set_option autoImplicit false

namespace Verif.PyStr

theorem replace_eq_self {a b : Char} {s : PyStr} (h : ∀ c ∈ s, c ≠ a) :
    s.replace a b = s := by
  induction s with
  | nil => rfl
  | cons c cs ih =>
    simp only [replace, List.map_cons] at ih ⊢
    rw [if_neg (h c (by simp)), ih (fun x hx => h x (by simp [hx]))]

theorem not_mem_replace {a b : Char} (hab : b ≠ a) (s : PyStr) : a ∉ s.replace a b := by
  simp only [replace, List.mem_map, not_exists, not_and]
  intro c _
  split
  · exact hab
  · assumption

@[simp] theorem replace_nil (a b : Char) : ([] : PyStr).replace a b = [] := rfl

theorem split_ne_nil (sep : Char) (s : PyStr) : s.split sep ≠ [] := by
  induction s with
  | nil => simp [split]
  | cons c cs ih =>
    simp only [split]
    split
    · simp
    · split <;> simp

theorem split_of_not_mem {sep : Char} {s : PyStr} (h : sep ∉ s) : s.split sep = [s] := by
  induction s with
  | nil => rfl
  | cons c cs ih =>
    simp at h
    simp [split, ih h.2, Ne.symm h.1]

theorem split_append {sep : Char} {s t : PyStr} (h : sep ∉ s) :
    (s ++ sep :: t).split sep = s :: t.split sep := by
  induction s with
  | nil => simp [split]
  | cons c cs ih =>
    simp at h
    simp [split, ih h.2, Ne.symm h.1]

theorem not_mem_of_mem_split {sep : Char} {s w : PyStr} (h : w ∈ s.split sep) : sep ∉ w := by
  induction s generalizing w with
  | nil => simp [split] at h; simp [h]
  | cons c cs ih =>
    simp only [split] at h
    split at h
    · next hc =>
      rcases List.mem_cons.1 h with h | h
      · simp [h]
      · exact ih h
    · next hc =>
      split at h
      · next heq => exact absurd heq (split_ne_nil _ _)
      · next w' ws heq =>
        rcases List.mem_cons.1 h with h | h
        · subst h
          have := ih (w := w') (by rw [heq]; simp)
          simp; exact ⟨Ne.symm hc, this⟩
        · exact ih (by rw [heq]; simp [h])

theorem mem_of_mem_split {sep : Char} {s w : PyStr} (h : w ∈ s.split sep) {c : Char}
    (hc : c ∈ w) : c ∈ s := by
  induction s generalizing w with
  | nil => simp [split] at h; simp [h] at hc
  | cons d cs ih =>
    simp only [split] at h
    split at h
    · rcases List.mem_cons.1 h with h | h
      · simp [h] at hc
      · exact List.mem_cons_of_mem _ (ih h hc)
    · split at h
      · next heq => exact absurd heq (split_ne_nil _ _)
      · next w' ws heq =>
        rcases List.mem_cons.1 h with h | h
        · subst h
          rcases List.mem_cons.1 hc with hc | hc
          · simp [hc]
          · exact List.mem_cons_of_mem _ (ih (w := w') (by rw [heq]; simp) hc)
        · exact List.mem_cons_of_mem _ (ih (by rw [heq]; simp [h]) hc)

/-- Every character other than the separator survives in some word. -/
theorem exists_mem_split {sep : Char} {s : PyStr} {c : Char} (h : c ∈ s) (hc : c ≠ sep) :
    ∃ w ∈ s.split sep, c ∈ w := by
  induction s with
  | nil => simp at h
  | cons d cs ih =>
    simp only [split]
    split
    · next hd =>
      rcases List.mem_cons.1 h with h | h
      · exact absurd (h.trans hd) hc
      · obtain ⟨w, hw, hcw⟩ := ih h
        exact ⟨w, by simp [hw], hcw⟩
    · split
      · next heq => exact absurd heq (split_ne_nil _ _)
      · next w' ws heq =>
        rcases List.mem_cons.1 h with h | h
        · exact ⟨d :: w', by simp, by simp [h]⟩
        · obtain ⟨w, hw, hcw⟩ := ih h
          rw [heq] at hw
          rcases List.mem_cons.1 hw with hw | hw
          · exact ⟨d :: w', by simp, by simp [← hw, hcw]⟩
          · exact ⟨w, by simp [hw], hcw⟩

theorem length_split_gt_one {sep : Char} {s : PyStr} : 1 < (s.split sep).length ↔ sep ∈ s := by
  induction s with
  | nil => simp [split]
  | cons c cs ih =>
    simp only [split]
    split
    · next h =>
      have := split_ne_nil sep cs
      have h2 : 0 < (split sep cs).length := List.length_pos_iff.2 this
      simp [h, h2]
    · next h =>
      split
      · next heq => exact absurd heq (split_ne_nil _ _)
      · next w ws heq =>
        rw [heq] at ih
        simp at ih ⊢
        simp [ih, Ne.symm h]

@[simp] theorem titleAux_eq_nil {b : Bool} {s : PyStr} : titleAux b s = [] ↔ s = [] := by
  cases s <;> simp [titleAux]

@[simp] theorem title_eq_nil {s : PyStr} : title s = [] ↔ s = [] := titleAux_eq_nil

theorem sep_mem_titleAux {b : Bool} {s : PyStr} : '_' ∈ titleAux b s ↔ '_' ∈ s := by
  induction s generalizing b with
  | nil => simp [titleAux]
  | cons c cs ih =>
    simp only [titleAux, List.mem_cons, ih]
    have : ('_' = if b then c.toLower else c.toUpper) ↔ '_' = c := by
      constructor
      · intro h
        split at h
        · exact ((toLower_eq_sep c).1 h.symm).symm
        · exact ((toUpper_eq_sep c).1 h.symm).symm
      · intro h
        split
        · exact ((toLower_eq_sep c).2 h.symm).symm
        · exact ((toUpper_eq_sep c).2 h.symm).symm
    rw [this]

theorem dash_mem_titleAux {b : Bool} {s : PyStr} : '-' ∈ titleAux b s ↔ '-' ∈ s := by
  induction s generalizing b with
  | nil => simp [titleAux]
  | cons c cs ih =>
    simp only [titleAux, List.mem_cons, ih]
    have : ('-' = if b then c.toLower else c.toUpper) ↔ '-' = c := by
      constructor
      · intro h
        split at h
        · exact ((toLower_eq_dash c).1 h.symm).symm
        · exact ((toUpper_eq_dash c).1 h.symm).symm
      · intro h
        split
        · exact ((toLower_eq_dash c).2 h.symm).symm
        · exact ((toUpper_eq_dash c).2 h.symm).symm
    rw [this]

theorem lower_eq_self {s : PyStr} (h : ∀ c ∈ s, c.isUpper = false) : s.lower = s := by
  induction s with
  | nil => rfl
  | cons c cs ih =>
    simp only [lower, List.map_cons] at ih ⊢
    rw [toLower_of_not_upper (h c (by simp)), ih (fun x hx => h x (by simp [hx]))]

@[simp] theorem lower_lower (s : PyStr) : s.lower.lower = s.lower := by
  simp [lower]

theorem isUpper_of_mem_lower {s : PyStr} {c : Char} (h : c ∈ s.lower) : c.isUpper = false := by
  simp [lower] at h
  obtain ⟨d, _, rfl⟩ := h
  simp

theorem lower_titleAux {b : Bool} {s : PyStr} : (titleAux b s).lower = s.lower := by
  induction s generalizing b with
  | nil => rfl
  | cons c cs ih =>
    have := ih (b := c.isAlpha)
    simp only [lower] at this
    simp only [titleAux, lower, List.map_cons, this]
    split <;> simp

end Verif.PyStr
