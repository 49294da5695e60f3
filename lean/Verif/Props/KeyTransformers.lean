import Verif.KeyTransformersLemmas

/-!
# Properties C01–C05: key transformers

The statements speak about the four modelled functions and plain lists of
characters only.
-/

set_option autoImplicit false

namespace Verif.Props.KeyTransformers
open Verif Verif.KeyTransformers

/-! ## C01 – the inputs on which a transformer fails -/

/-- C01 (camelcase): `IndexError` exactly on names made of separators only. -/
theorem camelcase_fails_iff (s : PyStr) :
    camelcase s = .error .indexError ↔ ∀ c ∈ s, c = '-' ∨ c = '_' := by
  rw [← camelBody_eq_nil, camelcase_eq]
  cases camelBody s <;> simp

/-- C01 (camelcase): in all other cases a string is returned. -/
theorem camelcase_returns_iff (s : PyStr) :
    (∃ r, camelcase s = .ok r) ↔ ∃ c ∈ s, c ≠ '-' ∧ c ≠ '_' := by
  have h := @camelBody_eq_nil s
  rw [camelcase_eq]
  cases hb : camelBody s with
  | nil =>
    have h1 := h.1 hb
    constructor
    · rintro ⟨r, hr⟩; cases hr
    · rintro ⟨c, hc, h2, h3⟩; rcases h1 c hc with h | h <;> contradiction
  | cons c cs =>
    rw [hb] at h
    simp only [reduceCtorEq, false_iff] at h
    constructor
    · intro _
      apply Classical.byContradiction
      intro hne
      apply h
      intro d hd
      by_cases h1 : d = '-'
      · exact .inl h1
      · by_cases h2 : d = '_'
        · exact .inr h2
        · exact absurd ⟨d, hd, h1, h2⟩ hne
    · intro _; exact ⟨_, rfl⟩

/-- C01 (pascalcase): `IndexError` exactly on names made of separators only;
otherwise a string is returned. -/
theorem pascalcase_fails_iff (s : PyStr) :
    (pascalcase s = .error .indexError ↔ ∀ c ∈ s, c = '-' ∨ c = '_') ∧
    ((∃ r, pascalcase s = .ok r) ↔ ∃ c ∈ s, c ≠ '-' ∧ c ≠ '_') := by
  have hf := camelcase_fails_iff s
  have hr := camelcase_returns_iff s
  cases hb : camelBody s with
  | nil =>
    have h1 := camelBody_eq_nil.1 hb
    have hp : pascalcase s = .error .indexError := by
      unfold pascalcase; rw [camelcase_eq, hb]; rfl
    refine ⟨⟨fun _ => h1, fun _ => hp⟩, ?_⟩
    rw [← hr, hp, camelcase_eq, hb]
  | cons c cs =>
    have hp := pascalcase_of_body hb
    have hc := camelcase_of_body hb
    rw [← hf, ← hr, hp, hc]
    simp

/-- C01 (snakecase): `IndexError` exactly on the empty name. -/
theorem snakecase_fails_iff (s : PyStr) :
    (snakecase s = .error .indexError ↔ s = []) ∧
    ((∃ r, snakecase s = .ok r) ↔ s ≠ []) := by
  cases s with
  | nil => simp [snakecase, PyStr.replace]
  | cons c cs => simp [snakecase, PyStr.replace]

/-- C01 (lispcase): `IndexError` exactly on the empty name. -/
theorem lispcase_fails_iff (s : PyStr) :
    (lispcase s = .error .indexError ↔ s = []) ∧
    ((∃ r, lispcase s = .ok r) ↔ s ≠ []) := by
  cases s with
  | nil =>
    have : lispcase [] = .error .indexError := rfl
    simp [this]
  | cons c cs =>
    obtain ⟨t, ht⟩ := (snakecase_fails_iff (c :: cs)).2.2 (by simp)
    simp [lispcase_of_snake ht]

example : camelcase "_-_".toList = .error .indexError := by decide
example : camelcase "some_attr".toList = .ok "someAttr".toList := by decide
example : pascalcase "some_attr".toList = .ok "SomeAttr".toList := by decide
example : snakecase "SomeAttr".toList = .ok "some_attr".toList := by decide
example : lispcase "someAttr".toList = .ok "some-attr".toList := by decide

/-! ## C02 – idempotence -/

/-- C02 (camelcase). -/
theorem camelcase_idempotent {s r : PyStr} (h : camelcase s = .ok r) :
    camelcase r = .ok r := by
  have hn := camelcase_noSep h
  obtain ⟨c, cs, _, rfl⟩ := camelcase_ok h
  rw [camelcase_cons_of_noSep hn.1 hn.2, toLower_toLower]

/-- C02 (pascalcase). -/
theorem pascalcase_idempotent {s r : PyStr} (h : pascalcase s = .ok r) :
    pascalcase r = .ok r := by
  have hn := pascalcase_noSep h
  obtain ⟨c, cs, _, rfl⟩ := pascalcase_ok h
  rw [pascalcase_of_body (camelBody_of_noSep hn.1 hn.2), toUpper_toUpper]

/-- C02 (snakecase). -/
theorem snakecase_idempotent {s r : PyStr} (h : snakecase s = .ok r) :
    snakecase r = .ok r :=
  snakecase_fix (snakecase_ne_nil h) (snakecase_noDash h) (snakecase_noUpper h)

/-- C02 (lispcase). -/
theorem lispcase_idempotent {s r : PyStr} (h : lispcase s = .ok r) :
    lispcase r = .ok r := by
  obtain ⟨t, ht, rfl⟩ := lispcase_ok h
  exact lispcase_of_snake
    (snakecase_replace (snakecase_ne_nil ht) (snakecase_noDash ht) (snakecase_noUpper ht))

example : camelcase "my-long_name".toList = .ok "myLongName".toList := by decide
example : lispcase "myLongName".toList = .ok "my-long-name".toList := by decide

/-! ## C03 – the promised style -/

/-- C03 (snakecase): no upper-case letter, no dash. -/
theorem snakecase_style {s r : PyStr} (h : snakecase s = .ok r) :
    (∀ c ∈ r, ¬ ('A' ≤ c ∧ c ≤ 'Z')) ∧ '-' ∉ r := by
  refine ⟨fun c hc => ?_, snakecase_noDash h⟩
  have := snakecase_noUpper h c hc
  simp only [Char.isUpper, ge_iff_le, decide_eq_false_iff_not] at this
  exact this

/-- C03 (lispcase): no upper-case letter, no underscore. -/
theorem lispcase_style {s r : PyStr} (h : lispcase s = .ok r) :
    (∀ c ∈ r, ¬ ('A' ≤ c ∧ c ≤ 'Z')) ∧ '_' ∉ r := by
  obtain ⟨t, ht, rfl⟩ := lispcase_ok h
  refine ⟨fun c hc => ?_, PyStr.not_mem_replace (by decide) t⟩
  simp only [PyStr.replace, List.mem_map] at hc
  obtain ⟨d, hd, rfl⟩ := hc
  split
  · decide
  · exact (snakecase_style ht).1 d hd

/-- C03 (camelcase): no separator, and no upper-case letter in front. -/
theorem camelcase_style {s r : PyStr} (h : camelcase s = .ok r) :
    '_' ∉ r ∧ '-' ∉ r ∧ ∃ c cs, r = c :: cs ∧ ¬ ('A' ≤ c ∧ c ≤ 'Z') := by
  refine ⟨(camelcase_noSep h).1, (camelcase_noSep h).2, ?_⟩
  obtain ⟨c, cs, _, rfl⟩ := camelcase_ok h
  refine ⟨_, _, rfl, ?_⟩
  have := isUpper_toLower c
  simp only [Char.isUpper, ge_iff_le, decide_eq_false_iff_not] at this
  exact this

/-- C03 (pascalcase): no separator, and no lower-case letter in front. -/
theorem pascalcase_style {s r : PyStr} (h : pascalcase s = .ok r) :
    '_' ∉ r ∧ '-' ∉ r ∧ ∃ c cs, r = c :: cs ∧ ¬ ('a' ≤ c ∧ c ≤ 'z') := by
  refine ⟨(pascalcase_noSep h).1, (pascalcase_noSep h).2, ?_⟩
  obtain ⟨c, cs, _, rfl⟩ := pascalcase_ok h
  refine ⟨_, _, rfl, ?_⟩
  have := isLower_toUpper c
  rintro ⟨h1, h2⟩
  simp only [Char.isLower, ge_iff_le, Bool.and_eq_false_iff, decide_eq_false_iff_not] at this
  rcases this with h | h
  · exact h h1
  · exact h h2

/-- C03: the letters survive, only their case and the separators change: all
four results agree with the input after removing separators and case. -/
theorem letters_survive (s : PyStr) :
    let norm : PyStr → PyStr := fun t => (t.filter (fun c => c ≠ '_' ∧ c ≠ '-')).map Char.toLower
    (∀ r, camelcase s = .ok r → norm r = norm s) ∧
    (∀ r, pascalcase s = .ok r → norm r = norm s) ∧
    (∀ r, snakecase s = .ok r → norm r = norm s) ∧
    (∀ r, lispcase s = .ok r → norm r = norm s) := by
  intro norm
  have cons_norm : ∀ c c' : Char, ∀ cs : PyStr, c'.toLower = c.toLower →
      norm (c' :: cs) = norm (c :: cs) := by
    intro c c' cs h
    have e1 : (c' = '_') = (c = '_') := by rw [← toLower_eq_sep c', ← toLower_eq_sep c, h]
    have e2 : (c' = '-') = (c = '-') := by rw [← toLower_eq_dash c', ← toLower_eq_dash c, h]
    simp only [norm, List.filter_cons, ne_eq, e1, e2]
    split <;> simp [h]
  have cons_congr : ∀ c : Char, ∀ cs ds : PyStr, norm cs = norm ds →
      norm (c :: cs) = norm (c :: ds) := by
    intro c cs ds h
    simp only [norm, List.filter_cons] at h ⊢
    split
    · rw [List.map_cons, List.map_cons, h]
    · exact h
  have sep_norm : ∀ c : Char, ∀ cs : PyStr, (c = '_' ∨ c = '-') → norm (c :: cs) = norm cs := by
    rintro c cs (rfl | rfl) <;> simp [norm]
  have app_norm : ∀ a b : PyStr, norm (a ++ b) = norm a ++ norm b := by
    intro a b; simp [norm]
  have replace_norm : ∀ (t : PyStr) (a b : Char), (a = '_' ∨ a = '-') → (b = '_' ∨ b = '-') →
      norm (t.replace a b) = norm t := by
    intro t a b ha hb
    induction t with
    | nil => rfl
    | cons c cs ih =>
      simp only [PyStr.replace, List.map_cons] at ih ⊢
      split
      · next h => rw [sep_norm b _ hb, sep_norm c cs (h ▸ ha), ih]
      · exact cons_congr c _ _ ih
  have title_norm : ∀ (t : PyStr) (b : Bool), norm (PyStr.titleAux b t) = norm t := by
    intro t
    induction t with
    | nil => intro b; rfl
    | cons c cs ih =>
      intro b
      simp only [PyStr.titleAux]
      rw [cons_norm c _ _ (by split <;> simp), cons_congr c _ _ (ih _)]
  have split_norm : ∀ t : PyStr, norm ((t.split '_').map PyStr.title).flatten = norm t := by
    intro t
    induction t with
    | nil => rfl
    | cons c cs ih =>
      simp only [PyStr.split]
      split
      · next h =>
        rw [sep_norm c cs (.inl h), List.map_cons, List.flatten_cons, app_norm, ih]
        rfl
      · split
        · next heq => exact absurd heq (PyStr.split_ne_nil _ _)
        · next w ws heq =>
          rw [heq] at ih
          simp only [List.map_cons, List.flatten_cons, app_norm, PyStr.title] at ih ⊢
          rw [title_norm] at ih ⊢
          rw [← app_norm] at ih
          rw [← cons_congr c _ _ ih]
          simp only [norm, List.filter_cons]
          split <;> simp [List.filter_append]
  have body_norm : norm (camelBody s) = norm s := by
    unfold camelBody
    split
    · rw [split_norm, replace_norm _ _ _ (.inr rfl) (.inl rfl)]
    · rw [replace_norm _ _ _ (.inr rfl) (.inl rfl)]
  have ins_norm : ∀ t : PyStr, norm (insertUnderscores t) = norm t := by
    intro t
    induction t using insertUnderscores.induct with
    | case1 => rfl
    | case2 d => rfl
    | case3 d e cs hde ih =>
      rw [insertUnderscores, if_pos hde]
      refine cons_congr d _ _ ?_
      rw [sep_norm _ _ (.inl rfl)]
      exact cons_congr e _ _ ih
    | case4 d e cs hde ih =>
      rw [insertUnderscores, if_neg hde]
      exact cons_congr d _ _ ih
  have lower_norm : ∀ t : PyStr, norm t.lower = norm t := by
    intro t
    induction t with
    | nil => rfl
    | cons c cs ih =>
      show norm (c.toLower :: PyStr.lower cs) = _
      rw [cons_norm c _ _ (by simp), cons_congr c _ _ ih]
  have snake_norm : ∀ r, snakecase s = .ok r → norm r = norm s := by
    intro r h
    obtain ⟨c, cs, h1, rfl⟩ := snakecase_ok h
    rw [lower_norm, ins_norm, cons_norm c _ _ (by simp), ← h1,
      replace_norm _ _ _ (.inr rfl) (.inl rfl)]
  refine ⟨?_, ?_, snake_norm, ?_⟩
  · intro r h
    obtain ⟨c, cs, h1, rfl⟩ := camelcase_ok h
    rw [cons_norm c _ _ (by simp), ← h1, body_norm]
  · intro r h
    obtain ⟨c, cs, h1, rfl⟩ := pascalcase_ok h
    rw [cons_norm c _ _ (by simp), ← h1, body_norm]
  · intro r h
    obtain ⟨t, ht, rfl⟩ := lispcase_ok h
    rw [replace_norm _ _ _ (.inl rfl) (.inr rfl), snake_norm t ht]

/-! ## C04 – snake_case names survive a detour -/

/-- The words of which a name is made satisfy the conditions of C04. -/
structure GoodName (ws : List PyStr) : Prop where
  nonempty : ∃ w ∈ ws, w ≠ []
  chars : ∀ w ∈ ws, ∀ c ∈ w, c.isLower = true ∨ c.isDigit = true
  starts : ∀ w ∈ ws.tail, ∃ a u, w = a :: u ∧ a.isLower = true
  ends : ∀ w ∈ ws.tail.dropLast, ∃ u x a, w = u ++ [x, a] ∧ x.isLower = true ∧ a.isLower = true
  first : ∀ w v ws', ws = w :: v :: ws' →
    (∃ u x a, w = u ++ [x, a] ∧ x.isLower = true ∧ a.isLower = true) ∨
    (∃ a, w = [a] ∧ a.isLower = true)

/-- The name made of the given words: `'_'.join(ws)`. -/
def joined (ws : List PyStr) : PyStr := ['_'].intercalate ws

theorem joined_cons_cons (w v : PyStr) (ws : List PyStr) :
    joined (w :: v :: ws) = w ++ '_' :: joined (v :: ws) := by
  simp [joined, List.intercalate]

theorem not_mem_of_chars {w : PyStr} (h : ∀ c ∈ w, c.isLower = true ∨ c.isDigit = true) :
    '_' ∉ w ∧ '-' ∉ w := by
  constructor <;> intro hm <;> have := h _ hm <;> revert this <;> decide

theorem not_mem_joined {ws : List PyStr}
    (h : ∀ w ∈ ws, ∀ c ∈ w, c.isLower = true ∨ c.isDigit = true) : '-' ∉ joined ws := by
  induction ws with
  | nil => simp [joined, List.intercalate]
  | cons w ws ih =>
    cases ws with
    | nil =>
      have := (not_mem_of_chars (h w (by simp))).2
      simpa [joined, List.intercalate] using this
    | cons v ws' =>
      rw [joined_cons_cons]
      simp only [List.mem_append, List.mem_cons, not_or]
      exact ⟨(not_mem_of_chars (h w (by simp))).2, by decide,
        ih (fun x hx => h x (List.mem_cons_of_mem _ hx))⟩

theorem split_joined {w : PyStr} {ws : List PyStr}
    (h : ∀ x ∈ w :: ws, ∀ c ∈ x, c.isLower = true ∨ c.isDigit = true) :
    (joined (w :: ws)).split '_' = w :: ws := by
  induction ws generalizing w with
  | nil =>
    have := (not_mem_of_chars (h w (by simp))).1
    simpa [joined, List.intercalate] using PyStr.split_of_not_mem this
  | cons v ws ih =>
    rw [joined_cons_cons, PyStr.split_append (not_mem_of_chars (h w (by simp))).1,
      ih (fun x hx => h x (List.mem_cons_of_mem _ hx))]

theorem lower_title {w : PyStr} (h : ∀ c ∈ w, c.isLower = true ∨ c.isDigit = true) :
    (PyStr.title w).lower = w := by
  rw [PyStr.title, PyStr.lower_titleAux, lower_of_wordChars h]

theorem title_head_upper {w : PyStr} (h : ∃ a u, w = a :: u ∧ a.isLower = true) :
    ∃ d t, PyStr.title w = d :: t ∧ d.isUpper = true := by
  obtain ⟨a, u, rfl, ha⟩ := h
  exact ⟨a.toUpper, _, rfl, isUpper_toUpper_of_isLower ha⟩

/-- The words after the first one. -/
theorem snake_of_titles (w : PyStr) (ws : List PyStr)
    (hchars : ∀ x ∈ w :: ws, ∀ c ∈ x, c.isLower = true ∨ c.isDigit = true)
    (hstarts : ∀ x ∈ w :: ws, ∃ a u, x = a :: u ∧ a.isLower = true)
    (hends : ∀ x ∈ (w :: ws).dropLast,
      ∃ u x' a, x = u ++ [x', a] ∧ x'.isLower = true ∧ a.isLower = true) :
    (insertUnderscores (((w :: ws).map PyStr.title).flatten)).lower = joined (w :: ws) := by
  induction ws generalizing w with
  | nil =>
    simp only [List.map_cons, List.map_nil, List.flatten_cons, List.flatten_nil, List.append_nil]
    rw [PyStr.title, insertUnderscores_of_noHump (noHump_titleAux (hchars w (by simp))),
      ← PyStr.title, lower_title (hchars w (by simp))]
    simp [joined, List.intercalate]
  | cons v ws ih =>
    rw [joined_cons_cons]
    obtain ⟨u, x, a, hw, hx, ha⟩ := hends w (by simp)
    obtain ⟨t, ht⟩ := titleAux_two false u hx ha
    obtain ⟨d, t', hd, hdu⟩ := title_head_upper (hstarts v (by simp))
    have hT : PyStr.title w = t ++ [a] := by rw [hw]; exact ht
    have hNH : NoHump (t ++ [a]) := by
      rw [← hT]; exact noHump_titleAux (hchars w (by simp))
    have ih' := ih v (fun x hx => hchars x (List.mem_cons_of_mem _ hx))
      (fun x hx => hstarts x (List.mem_cons_of_mem _ hx))
      (fun x hx => hends x (by simp [List.dropLast_cons_of_ne_nil]; exact .inr hx))
    rw [List.map_cons, List.flatten_cons, hT]
    simp only [List.map_cons, List.flatten_cons, hd, List.cons_append] at ih' ⊢
    rw [insertUnderscores_append hNH ha hdu]
    have hl : ∀ a b : PyStr, PyStr.lower (a ++ b) = PyStr.lower a ++ PyStr.lower b := by
      intro a b; simp [PyStr.lower]
    rw [hl, ← hT, lower_title (hchars w (by simp))]
    have hc : ∀ (c : Char) (b : PyStr), PyStr.lower (c :: b) = c.toLower :: PyStr.lower b :=
      fun _ _ => rfl
    rw [hc, ih']
    rfl

/-- The body of camelcase on a good name. -/
theorem camelcase_joined {ws : List PyStr} (h : GoodName ws) :
    ∃ c cs, camelBody (joined ws) = c :: cs ∧
      (insertUnderscores (c.toLower :: cs)).lower = joined ws := by
  cases ws with
  | nil => obtain ⟨w, hw, _⟩ := h.nonempty; simp at hw
  | cons w ws =>
    have hr : (joined (w :: ws)).replace '-' '_' = joined (w :: ws) :=
      PyStr.replace_eq_self (fun c hc he => not_mem_joined h.chars (he ▸ hc))
    unfold camelBody
    rw [hr, split_joined h.chars]
    cases ws with
    | nil =>
      obtain ⟨w', hw', hne⟩ := h.nonempty
      simp only [List.mem_singleton] at hw'
      subst hw'
      have hj : joined [w'] = w' := by simp [joined, List.intercalate]
      have hch := h.chars w' (by simp)
      rw [hj]
      cases w' with
      | nil => exact absurd rfl hne
      | cons c cs =>
        have hnu : ∀ x ∈ c :: cs, x.isUpper = false := by
          intro x hx
          rcases hch x hx with h | h
          · exact isUpper_false_of_isLower h
          · exact isUpper_false_of_isDigit h
        refine ⟨c, cs, by simp, ?_⟩
        rw [toLower_of_not_upper (hnu c (by simp)), insertUnderscores_noUpper hnu,
          PyStr.lower_eq_self hnu]
    | cons v ws =>
      rw [if_pos (by simp)]
      have hch := h.chars w (by simp)
      have hrest := snake_of_titles v ws
        (fun x hx => h.chars x (List.mem_cons_of_mem _ hx)) h.starts h.ends
      obtain ⟨d, t', hd, hdu⟩ := title_head_upper (h.starts v (by simp))
      rw [joined_cons_cons, ← hrest]
      simp only [List.map_cons, List.flatten_cons, hd, List.cons_append]
      have hl : ∀ a b : PyStr, PyStr.lower (a ++ b) = PyStr.lower a ++ PyStr.lower b := by
        intro a b; simp [PyStr.lower]
      have hc : ∀ (c : Char) (b : PyStr), PyStr.lower (c :: b) = c.toLower :: PyStr.lower b :=
        fun _ _ => rfl
      -- the first word, with its first character in lower case
      have key : ∃ c cs t a, PyStr.title w = c :: cs ∧ c.toLower :: cs = t ++ [a] ∧
          a.isLower = true ∧ NoHump (t ++ [a]) ∧ PyStr.lower (t ++ [a]) = w := by
        have hfirst := h.first w v ws rfl
        cases w with
        | nil =>
          rcases hfirst with ⟨u, x, a, h1, _⟩ | ⟨a, h1, _⟩
          · cases u <;> simp at h1
          · simp at h1
        | cons c cs =>
          have hNH := noHump_lower_head hch
          have hlow : PyStr.lower (c.toLower :: PyStr.titleAux c.isAlpha cs) = c :: cs := by
            rw [hc, PyStr.lower_titleAux, toLower_toLower, ← hc, lower_of_wordChars hch]
          rcases hfirst with ⟨u, x, a, h1, hx, ha⟩ | ⟨a, h1, ha⟩
          · obtain ⟨t, ht⟩ := titleAux_two true u hx ha
            rw [← h1] at ht
            simp only [PyStr.titleAux, if_true] at ht
            refine ⟨c.toUpper, PyStr.titleAux c.isAlpha cs, t, a, by simp [PyStr.title, PyStr.titleAux],
              by rw [toLower_toUpper]; exact ht, ha, ht ▸ hNH, ht ▸ hlow⟩
          · injection h1 with h1 h2
            subst h1; subst h2
            refine ⟨c.toUpper, [], [], c, by simp [PyStr.title, PyStr.titleAux], ?_, ha, trivial, ?_⟩
            · simp [toLower_of_not_upper (isUpper_false_of_isLower ha)]
            · simp [PyStr.lower, toLower_of_not_upper (isUpper_false_of_isLower ha)]
      obtain ⟨c, cs, t, a, h1, h2, ha, hNH, hlow⟩ := key
      refine ⟨c, cs ++ d :: (t' ++ (List.map PyStr.title ws).flatten), by simp [h1], ?_⟩
      rw [← List.cons_append, h2, insertUnderscores_append hNH ha hdu, hl, hlow, hc]
      rfl

/-- C04: `snakecase(camelcase(name)) == name` on good names. -/
theorem snakecase_camelcase {ws : List PyStr} (h : GoodName ws) :
    ∃ r, camelcase (joined ws) = .ok r ∧ snakecase r = .ok (joined ws) := by
  obtain ⟨c, cs, h1, h2⟩ := camelcase_joined h
  have hc := camelcase_of_body h1
  refine ⟨_, hc, ?_⟩
  have hn := camelcase_noSep hc
  have hr : PyStr.replace '-' '_' (c.toLower :: cs) = c.toLower :: cs :=
    PyStr.replace_eq_self (fun x hx he => hn.2 (he ▸ hx))
  rw [snakecase_of_replace hr, toLower_toLower, h2]

/-- C04: `snakecase(pascalcase(name)) == name` on good names. -/
theorem snakecase_pascalcase {ws : List PyStr} (h : GoodName ws) :
    ∃ r, pascalcase (joined ws) = .ok r ∧ snakecase r = .ok (joined ws) := by
  obtain ⟨c, cs, h1, h2⟩ := camelcase_joined h
  have hc := pascalcase_of_body h1
  refine ⟨_, hc, ?_⟩
  have hn := pascalcase_noSep hc
  have hr : PyStr.replace '-' '_' (c.toUpper :: cs) = c.toUpper :: cs :=
    PyStr.replace_eq_self (fun x hx he => hn.2 (he ▸ hx))
  rw [snakecase_of_replace hr, toLower_toUpper, h2]

/-- C04: different good names stay different under `camelcase`. -/
theorem camelcase_injective {ws ws' : List PyStr} (h : GoodName ws) (h' : GoodName ws')
    (he : camelcase (joined ws) = camelcase (joined ws')) : joined ws = joined ws' := by
  obtain ⟨r, h1, h2⟩ := snakecase_camelcase h
  obtain ⟨r', h1', h2'⟩ := snakecase_camelcase h'
  rw [he, h1'] at h1
  injection h1 with h1
  subst h1
  rw [h2'] at h2
  injection h2 with h2
  exact h2.symm

/-- C04: different good names stay different under `pascalcase`. -/
theorem pascalcase_injective {ws ws' : List PyStr} (h : GoodName ws) (h' : GoodName ws')
    (he : pascalcase (joined ws) = pascalcase (joined ws')) : joined ws = joined ws' := by
  obtain ⟨r, h1, h2⟩ := snakecase_pascalcase h
  obtain ⟨r', h1', h2'⟩ := snakecase_pascalcase h'
  rw [he, h1'] at h1
  injection h1 with h1
  subst h1
  rw [h2'] at h2
  injection h2 with h2
  exact h2.symm

/-- The hypotheses are met by the words of `x_first_name2`. -/
example : GoodName ["x".toList, "first".toList, "name2".toList] where
  nonempty := ⟨"x".toList, by decide, by decide⟩
  chars := by decide
  starts := by
    intro w hw
    simp at hw
    rcases hw with rfl | rfl
    · exact ⟨'f', "irst".toList, by decide, by decide⟩
    · exact ⟨'n', "ame2".toList, by decide, by decide⟩
  ends := by
    intro w hw
    simp at hw
    subst hw
    exact ⟨"fir".toList, 's', 't', by decide, by decide, by decide⟩
  first := by
    intro w v ws h
    injection h with h1 h2
    subst h1
    exact .inr ⟨'x', by decide, by decide⟩

/-- Beyond the conditions the law fails: `a_b_c` comes back as `a_bc` … -/
example : camelcase "a_b_c".toList = .ok "aBC".toList ∧
    snakecase "aBC".toList = .ok "a_bc".toList := by decide

/-- … and `ab_1` as `ab1`. -/
example : camelcase "ab_1".toList = .ok "ab1".toList ∧
    snakecase "ab1".toList = .ok "ab1".toList := by decide

/-! ## C05 – the transformers agree with each other -/

/-- C05: `pascalcase(camelcase(s)) == pascalcase(s)`. -/
theorem pascalcase_camelcase {s r : PyStr} (h : camelcase s = .ok r) :
    pascalcase r = pascalcase s := by
  have hn := camelcase_noSep h
  obtain ⟨c, cs, hb, rfl⟩ := camelcase_ok h
  rw [pascalcase_of_body (camelBody_of_noSep hn.1 hn.2), pascalcase_of_body hb, toUpper_toLower]

/-- C05: `camelcase(pascalcase(s)) == camelcase(s)`. -/
theorem camelcase_pascalcase {s r : PyStr} (h : pascalcase s = .ok r) :
    camelcase r = camelcase s := by
  have hn := pascalcase_noSep h
  obtain ⟨c, cs, hb, rfl⟩ := pascalcase_ok h
  rw [camelcase_of_body (camelBody_of_noSep hn.1 hn.2), camelcase_of_body hb, toLower_toUpper]

/-- C05: `snakecase(lispcase(s)) == snakecase(s)`. -/
theorem snakecase_lispcase {s r : PyStr} (h : lispcase s = .ok r) :
    snakecase r = snakecase s := by
  obtain ⟨t, ht, rfl⟩ := lispcase_ok h
  rw [snakecase_replace (snakecase_ne_nil ht) (snakecase_noDash ht) (snakecase_noUpper ht), ht]

/-- C05: `lispcase(snakecase(s)) == lispcase(s)`. -/
theorem lispcase_snakecase {s r : PyStr} (h : snakecase s = .ok r) :
    lispcase r = lispcase s := by
  rw [lispcase_of_snake (snakecase_idempotent h), lispcase_of_snake h]

example : lispcase "SomeThing_else".toList = .ok "some-thing-else".toList := by decide
example : camelcase "some-thing".toList = .ok "someThing".toList ∧
    pascalcase "someThing".toList = .ok "SomeThing".toList := by decide

end Verif.Props.KeyTransformers
