import Verif.KeyTransformers
import Verif.Py.StrLemmas

/-!
# Helper lemmas for the key transformer theorems
-/

set_option autoImplicit false

namespace Verif.KeyTransformers
open Verif

/-- The string on which line 20 of `camelcase` works. -/
def camelBody (str : PyStr) : PyStr :=
  if ((str.replace '-' '_').split '_').length > 1
    then (((str.replace '-' '_').split '_').map PyStr.title).flatten
    else str.replace '-' '_'

theorem camelcase_eq (s : PyStr) : camelcase s =
    match camelBody s with
    | [] => .error .indexError
    | c :: cs => .ok (c.toLower :: cs) := rfl

theorem mem_replace_dash {s : PyStr} {c : Char} :
    c ∈ s.replace '-' '_' ↔ (c ∈ s ∧ c ≠ '-') ∨ (c = '_' ∧ '-' ∈ s) := by
  simp only [PyStr.replace, List.mem_map]
  constructor
  · rintro ⟨a, ha, h⟩
    split at h
    · next h1 => subst h1; exact .inr ⟨h.symm, ha⟩
    · next h1 => subst h; exact .inl ⟨ha, h1⟩
  · rintro (⟨h, h1⟩ | ⟨rfl, h⟩)
    · exact ⟨c, h, by simp [h1]⟩
    · exact ⟨'-', h, by simp⟩

theorem camelBody_eq_nil {s : PyStr} :
    camelBody s = [] ↔ ∀ c ∈ s, c = '-' ∨ c = '_' := by
  unfold camelBody
  split
  · simp only [List.flatten_eq_nil_iff, List.mem_map, forall_exists_index, and_imp,
      forall_apply_eq_imp_iff₂, PyStr.title_eq_nil]
    constructor
    · intro h c hc
      by_cases h1 : c = '-'
      · exact .inl h1
      · by_cases h2 : c = '_'
        · exact .inr h2
        · have : c ∈ s.replace '-' '_' := mem_replace_dash.2 (.inl ⟨hc, h1⟩)
          obtain ⟨w, hw, hcw⟩ := PyStr.exists_mem_split this h2
          rw [h w hw] at hcw
          simp at hcw
    · intro h w hw
      cases w with
      | nil => rfl
      | cons c cs =>
        have h1 := PyStr.mem_of_mem_split hw (c := c) (by simp)
        have h2 := PyStr.not_mem_of_mem_split hw
        rcases mem_replace_dash.1 h1 with ⟨h3, h4⟩ | ⟨h3, _⟩
        · rcases h c h3 with h5 | h5
          · exact absurd h5 h4
          · simp [h5] at h2
        · simp [h3] at h2
  · next hlen =>
    rw [gt_iff_lt, PyStr.length_split_gt_one] at hlen
    cases s with
    | nil => simp [PyStr.replace]
    | cons c cs =>
      simp only [PyStr.replace, List.map_cons] at hlen ⊢
      simp only [reduceCtorEq, false_iff]
      intro h
      have := h c (by simp)
      rcases this with h1 | h1 <;> simp [h1] at hlen

theorem camelBody_noSep (s : PyStr) : '_' ∉ camelBody s ∧ '-' ∉ camelBody s := by
  unfold camelBody
  split
  · simp only [List.mem_flatten, List.mem_map, not_exists, not_and]
    constructor
    · rintro x ⟨w, hw, rfl⟩ h
      exact PyStr.not_mem_of_mem_split hw (PyStr.sep_mem_titleAux.1 h)
    · rintro x ⟨w, hw, rfl⟩ h
      have := PyStr.dash_mem_titleAux.1 h
      have := PyStr.mem_of_mem_split hw this
      exact PyStr.not_mem_replace (by decide) s this
  · next hlen =>
    rw [gt_iff_lt, PyStr.length_split_gt_one] at hlen
    exact ⟨hlen, PyStr.not_mem_replace (by decide) s⟩

theorem camelBody_of_noSep {s : PyStr} (h1 : '_' ∉ s) (h2 : '-' ∉ s) : camelBody s = s := by
  have hr : s.replace '-' '_' = s :=
    PyStr.replace_eq_self (fun c hc h => h2 (h ▸ hc))
  unfold camelBody
  rw [hr, if_neg]
  rw [gt_iff_lt, PyStr.length_split_gt_one]; exact h1

theorem camelcase_ok {s r : PyStr} (h : camelcase s = .ok r) :
    ∃ c cs, camelBody s = c :: cs ∧ r = c.toLower :: cs := by
  rw [camelcase_eq] at h
  split at h
  · cases h
  · next c cs heq => exact ⟨c, cs, heq, by injection h with h; exact h.symm⟩

theorem camelcase_noSep {s r : PyStr} (h : camelcase s = .ok r) : '_' ∉ r ∧ '-' ∉ r := by
  obtain ⟨c, cs, h1, rfl⟩ := camelcase_ok h
  have h2 := camelBody_noSep s
  rw [h1] at h2
  simp only [List.mem_cons, not_or] at h2 ⊢
  exact ⟨⟨fun h => h2.1.1 ((toLower_eq_sep c).1 h.symm).symm, h2.1.2⟩,
    ⟨fun h => h2.2.1 ((toLower_eq_dash c).1 h.symm).symm, h2.2.2⟩⟩

theorem camelcase_cons_of_noSep {c : Char} {cs : PyStr} (h1 : '_' ∉ c :: cs)
    (h2 : '-' ∉ c :: cs) : camelcase (c :: cs) = .ok (c.toLower :: cs) := by
  rw [camelcase_eq, camelBody_of_noSep h1 h2]

theorem pascalcase_ok {s r : PyStr} (h : pascalcase s = .ok r) :
    ∃ c cs, camelBody s = c :: cs ∧ r = c.toUpper :: cs := by
  unfold pascalcase at h
  cases hc : camelcase s with
  | error e => rw [hc] at h; cases h
  | ok t =>
    obtain ⟨c, cs, h1, rfl⟩ := camelcase_ok hc
    rw [hc] at h
    injection h with h
    exact ⟨c, cs, h1, by rw [← h, toUpper_toLower]⟩

theorem pascalcase_of_body {s : PyStr} {c : Char} {cs : PyStr} (h : camelBody s = c :: cs) :
    pascalcase s = .ok (c.toUpper :: cs) := by
  unfold pascalcase
  rw [camelcase_eq, h]
  show Except.ok _ = _
  rw [toUpper_toLower]

theorem camelcase_of_body {s : PyStr} {c : Char} {cs : PyStr} (h : camelBody s = c :: cs) :
    camelcase s = .ok (c.toLower :: cs) := by
  rw [camelcase_eq, h]

theorem pascalcase_noSep {s r : PyStr} (h : pascalcase s = .ok r) : '_' ∉ r ∧ '-' ∉ r := by
  obtain ⟨c, cs, h1, rfl⟩ := pascalcase_ok h
  have h2 := camelBody_noSep s
  rw [h1] at h2
  simp only [List.mem_cons, not_or] at h2 ⊢
  exact ⟨⟨fun h => h2.1.1 ((toUpper_eq_sep c).1 h.symm).symm, h2.1.2⟩,
    ⟨fun h => h2.2.1 ((toUpper_eq_dash c).1 h.symm).symm, h2.2.2⟩⟩

/-! ## snakecase -/

/-- Characters of the result of the substitution. -/
theorem mem_insertUnderscores {s : PyStr} {c : Char} (h : c ∈ insertUnderscores s) :
    c ∈ s ∨ c = '_' := by
  induction s using insertUnderscores.induct with
  | case1 => simp [insertUnderscores] at h
  | case2 d => exact .inl h
  | case3 d e cs hde ih =>
    rw [insertUnderscores, if_pos hde] at h
    simp only [List.mem_cons] at h ⊢
    rcases h with h | h | h | h
    · simp [h]
    · simp [h]
    · simp [h]
    · rcases ih h with h | h <;> simp [h]
  | case4 d e cs hde ih =>
    rw [insertUnderscores, if_neg hde] at h
    simp only [List.mem_cons] at h ⊢
    rcases h with h | h
    · simp [h]
    · rcases ih h with h | h
      · rcases List.mem_cons.1 h with h | h <;> simp [h]
      · simp [h]

theorem insertUnderscores_noUpper {s : PyStr} (h : ∀ c ∈ s, c.isUpper = false) :
    insertUnderscores s = s := by
  induction s using insertUnderscores.induct with
  | case1 => rfl
  | case2 d => rfl
  | case3 d e cs hde ih =>
    simp at hde
    exact absurd (h e (by simp)) (by simp [hde.2])
  | case4 d e cs hde ih =>
    rw [insertUnderscores, if_neg hde, ih (fun c hc => h c (by simp [hc]))]

theorem insertUnderscores_cons_ne_nil (c : Char) (cs : PyStr) :
    insertUnderscores (c :: cs) ≠ [] := by
  cases cs with
  | nil => simp [insertUnderscores]
  | cons d ds => rw [insertUnderscores]; split <;> simp

theorem snakecase_ok {s r : PyStr} (h : snakecase s = .ok r) :
    ∃ c cs, s.replace '-' '_' = c :: cs ∧
      r = (insertUnderscores (c.toLower :: cs)).lower := by
  unfold snakecase at h
  split at h
  · cases h
  · next c cs heq => exact ⟨c, cs, heq, by injection h with h; exact h.symm⟩

theorem snakecase_of_replace {s : PyStr} {c : Char} {cs : PyStr}
    (h : s.replace '-' '_' = c :: cs) :
    snakecase s = .ok (insertUnderscores (c.toLower :: cs)).lower := by
  unfold snakecase; rw [h]

theorem snakecase_noUpper {s r : PyStr} (h : snakecase s = .ok r) :
    ∀ c ∈ r, c.isUpper = false := by
  obtain ⟨c, cs, _, rfl⟩ := snakecase_ok h
  exact fun d hd => PyStr.isUpper_of_mem_lower hd

theorem snakecase_noDash {s r : PyStr} (h : snakecase s = .ok r) : '-' ∉ r := by
  obtain ⟨c, cs, h1, rfl⟩ := snakecase_ok h
  have h2 : '-' ∉ c :: cs := h1 ▸ PyStr.not_mem_replace (by decide) s
  simp only [PyStr.lower, List.mem_map, not_exists, not_and]
  intro d hd hdash
  rw [toLower_eq_dash] at hdash
  subst hdash
  rcases mem_insertUnderscores hd with h | h
  · rcases List.mem_cons.1 h with h | h
    · exact h2 (by rw [(toLower_eq_dash c).1 h.symm]; simp)
    · exact h2 (List.mem_cons_of_mem _ h)
  · exact absurd h (by decide)

theorem snakecase_ne_nil {s r : PyStr} (h : snakecase s = .ok r) : r ≠ [] := by
  obtain ⟨c, cs, _, rfl⟩ := snakecase_ok h
  have := insertUnderscores_cons_ne_nil c.toLower cs
  simpa [PyStr.lower] using this

/-- `snakecase` is the identity on non-empty strings that are already in
snake case. -/
theorem snakecase_fix {r : PyStr} (h0 : r ≠ []) (h1 : '-' ∉ r)
    (h2 : ∀ c ∈ r, c.isUpper = false) : snakecase r = .ok r := by
  have hr : r.replace '-' '_' = r := PyStr.replace_eq_self (fun c hc h => h1 (h ▸ hc))
  cases r with
  | nil => exact absurd rfl h0
  | cons c cs =>
    rw [snakecase_of_replace hr, toLower_of_not_upper (h2 c (by simp)),
      insertUnderscores_noUpper h2, PyStr.lower_eq_self h2]

theorem lispcase_ok {s r : PyStr} (h : lispcase s = .ok r) :
    ∃ t, snakecase s = .ok t ∧ r = t.replace '_' '-' := by
  unfold lispcase at h
  cases hs : snakecase s with
  | error e => rw [hs] at h; cases h
  | ok t => rw [hs] at h; injection h with h; exact ⟨t, rfl, h.symm⟩

theorem lispcase_of_snake {s t : PyStr} (h : snakecase s = .ok t) :
    lispcase s = .ok (t.replace '_' '-') := by
  unfold lispcase; rw [h]; rfl

theorem snakecase_replace {t : PyStr} (h0 : t ≠ []) (h1 : '-' ∉ t)
    (h2 : ∀ c ∈ t, c.isUpper = false) : snakecase (t.replace '_' '-') = .ok t := by
  have hr : (t.replace '_' '-').replace '-' '_' = t := by
    simp only [PyStr.replace, List.map_map]
    conv => rhs; rw [← List.map_id t]
    apply List.map_congr_left
    intro c hc
    simp only [Function.comp, id]
    by_cases h : c = '_'
    · simp [h]
    · have : c ≠ '-' := fun h => h1 (h ▸ hc)
      simp [h, this]
  cases t with
  | nil => exact absurd rfl h0
  | cons c cs =>
    rw [snakecase_of_replace hr, toLower_of_not_upper (h2 c (by simp)),
      insertUnderscores_noUpper h2, PyStr.lower_eq_self h2]

/-! ## Words -/

/-- No lower-case letter is directly followed by an upper-case letter. -/
def NoHump : PyStr → Prop
  | c :: d :: cs => ¬ (c.isLower = true ∧ d.isUpper = true) ∧ NoHump (d :: cs)
  | _ => True

theorem insertUnderscores_of_noHump {s : PyStr} (h : NoHump s) : insertUnderscores s = s := by
  induction s using insertUnderscores.induct with
  | case1 => rfl
  | case2 d => rfl
  | case3 d e cs hde ih => simp at hde; exact absurd hde h.1
  | case4 d e cs hde ih => rw [insertUnderscores, if_neg hde, ih h.2]

theorem insertUnderscores_upper {d : Char} (hd : d.isUpper = true) (cs : PyStr) :
    insertUnderscores (d :: cs) = d :: insertUnderscores cs := by
  have hl : d.isLower = false := by
    cases h : d.isLower
    · rfl
    · rw [isUpper_false_of_isLower h] at hd; cases hd
  cases cs with
  | nil => rfl
  | cons e es => rw [insertUnderscores]; simp [hl]

/-- A hump-free part ending in a lower-case letter, followed by an upper-case
letter, is separated by an underscore. -/
theorem insertUnderscores_append {u : PyStr} {a d : Char} {t : PyStr}
    (h : NoHump (u ++ [a])) (ha : a.isLower = true) (hd : d.isUpper = true) :
    insertUnderscores (u ++ [a] ++ d :: t) = u ++ [a] ++ '_' :: insertUnderscores (d :: t) := by
  induction u with
  | nil =>
    simp only [List.nil_append, List.singleton_append]
    rw [insertUnderscores, if_pos (by simp [ha, hd]), insertUnderscores_upper hd]
  | cons c cs ih =>
    cases cs with
    | nil =>
      simp only [List.nil_append, List.cons_append] at ih h ⊢
      rw [insertUnderscores, if_neg (by simpa using h.1), ih h.2]
    | cons e es =>
      simp only [List.cons_append] at ih h ⊢
      rw [insertUnderscores, if_neg (by simpa using h.1), ih h.2]

theorem noHump_titleAux {b : Bool} {s : PyStr}
    (h : ∀ c ∈ s, c.isLower = true ∨ c.isDigit = true) : NoHump (PyStr.titleAux b s) := by
  induction s generalizing b with
  | nil => trivial
  | cons c cs ih =>
    cases cs with
    | nil => trivial
    | cons d ds =>
      have ih' := ih (b := c.isAlpha) (fun x hx => h x (by simp [hx]))
      simp only [PyStr.titleAux] at ih' ⊢
      refine ⟨?_, ih'⟩
      rintro ⟨h1, h2⟩
      cases hc : c.isAlpha
      · have hcl : c.isLower = false := by
          simp [Char.isAlpha] at hc; exact hc.2
        have hcu : c.isUpper = false := by
          simp [Char.isAlpha] at hc; exact hc.1
        rw [toUpper_of_not_lower hcl, toLower_of_not_upper hcu] at h1
        simp [hcl] at h1
      · simp [hc] at h2

theorem noHump_lower_head {c : Char} {cs : PyStr}
    (h : ∀ x ∈ c :: cs, x.isLower = true ∨ x.isDigit = true) :
    NoHump (c.toLower :: PyStr.titleAux c.isAlpha cs) := by
  have := noHump_titleAux (b := true) h
  simpa [PyStr.titleAux] using this

theorem titleAux_two (b : Bool) (u : PyStr) {x a : Char} (hx : x.isLower = true)
    (ha : a.isLower = true) :
    ∃ v, PyStr.titleAux b (u ++ [x, a]) = v ++ [a] := by
  have hxa : x.isAlpha = true := by simp [Char.isAlpha, hx]
  induction u generalizing b with
  | nil =>
    refine ⟨[if b then x.toLower else x.toUpper], ?_⟩
    simp [PyStr.titleAux, hxa, toLower_of_not_upper (isUpper_false_of_isLower ha)]
  | cons c cs ih =>
    obtain ⟨v, hv⟩ := ih c.isAlpha
    exact ⟨(if b then c.toLower else c.toUpper) :: v, by simp [PyStr.titleAux, hv]⟩

theorem lower_of_wordChars {w : PyStr} (h : ∀ c ∈ w, c.isLower = true ∨ c.isDigit = true) :
    w.lower = w :=
  PyStr.lower_eq_self (fun c hc => by
    rcases h c hc with h | h
    · exact isUpper_false_of_isLower h
    · exact isUpper_false_of_isDigit h)

end Verif.KeyTransformers
