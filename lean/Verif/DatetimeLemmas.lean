import Verif.DatetimeOffset
import Verif.Py.StrLemmas

/-! # Helper lemmas: parsing what was written -/

set_option autoImplicit false

namespace Verif.Datetime
open Verif

theorem head_bind {α β : Type} {p : P α} {k : α → P β} {s r : PyStr} {a : α} {x : β × PyStr}
    (h : (p s).head? = some (a, r)) (h2 : (k a r).head? = some x) :
    (P.bind p k s).head? = some x := by
  unfold P.bind
  cases hp : p s with
  | nil => rw [hp] at h; cases h
  | cons y ys =>
    rw [hp] at h
    simp only [List.head?_cons, Option.some.injEq] at h
    subst h
    simp only [List.flatMap_cons]
    cases hk : k a r with
    | nil => rw [hk] at h2; cases h2
    | cons z zs => rw [hk] at h2; simpa using h2

theorem fullMatch_of_head {α : Type} {p : P α} {s : PyStr} {a : α}
    (h : (p s).head? = some (a, [])) : fullMatch p s = .ok a := by
  unfold fullMatch
  cases hp : p s with
  | nil => rw [hp] at h; cases h
  | cons y ys =>
    rw [hp] at h
    simp only [List.head?_cons, Option.some.injEq] at h
    subst h
    rfl

theorem head_plit (c : Char) (r : PyStr) : (plit c (c :: r)).head? = some ((), r) := by
  simp [plit]

theorem head_pm {m : Nat} (h1 : 1 ≤ m) (h2 : m ≤ 12) (r : PyStr) :
    (pm (pad2 m ++ r)).head? = some (m, r) := by
  interval_cases m <;> rfl

theorem head_pd {d : Nat} (h1 : 1 ≤ d) (h2 : d ≤ 31) (r : PyStr) :
    (pd (pad2 d ++ r)).head? = some (d, r) := by
  interval_cases d <;> rfl

theorem head_pH {h : Nat} (h2 : h < 24) (r : PyStr) :
    (pH (pad2 h ++ r)).head? = some (h, r) := by
  interval_cases h <;> rfl

theorem head_pM {m : Nat} (h2 : m < 60) (r : PyStr) :
    (pM (pad2 m ++ r)).head? = some (m, r) := by
  interval_cases m <;> rfl

theorem head_pS {m : Nat} (h2 : m < 60) (r : PyStr) :
    (pS (pad2 m ++ r)).head? = some (m, r) := by
  interval_cases m <;> rfl

theorem digit_facts (n : Nat) : '0' ≤ digit n ∧ digit n ≤ '9' ∧ digitVal (digit n) = n % 10 := by
  have h : n % 10 < 10 := Nat.mod_lt _ (by decide)
  unfold digit
  generalize n % 10 = k at h
  interval_cases k <;> decide

theorem digit_range (n : Nat) : '0' ≤ digit n ∧ digit n ≤ '9' :=
  ⟨(digit_facts n).1, (digit_facts n).2.1⟩

theorem pdig_digit (n : Nat) (r : PyStr) : pdig '0' '9' (digit n :: r) = [(n % 10, r)] := by
  simp only [pdig, if_pos (digit_range n), (digit_facts n).2.2]

theorem pdig2_digits (a b : Nat) (r : PyStr) :
    pdig2 '0' '9' '0' '9' (digit a :: digit b :: r) = [(10 * (a % 10) + b % 10, r)] := by
  simp [pdig2, P.bind, pdig_digit]

theorem head_pY {y : Nat} (h : y ≤ 9999) (r : PyStr) :
    (pY (pad4 y ++ r)).head? = some (y, r) := by
  simp only [pY, pad4, P.bind, List.cons_append, List.nil_append, pdig2_digits,
    List.flatMap_cons, List.flatMap_nil, List.append_nil, List.head?_cons, Option.some.injEq,
    Prod.mk.injEq, and_true]
  omega

theorem head_pf {us : Nat} (h : us < 1000000) (r : PyStr) :
    (pf (pad6 us ++ r)).head? = some (us, r) := by
  have e : ∀ n, ('0' ≤ digit n ∧ digit n ≤ '9') = True := fun n => eq_true (digit_range n)
  simp only [pf, pad6, pfracGo, List.cons_append, List.nil_append, e, if_true, (digit_facts _).2.2,
    List.head?_cons, Option.some.injEq, Prod.mk.injEq, and_true, Nat.sub_self, Nat.reduceAdd,
    Nat.pow_zero]
  omega

theorem pfracGo_nil_of_not_digit {k n acc : Nat} {c : Char} {r : PyStr}
    (h : ¬ ('0' ≤ c ∧ c ≤ '9')) : pfracGo k n acc (c :: r) = [] := by
  cases k with
  | zero => rfl
  | succ k => simp only [pfracGo, if_neg h]

theorem head_pDate {pad : Bool} {y m d : Nat} (hy : pad = true ∨ 1000 ≤ y) (hy2 : y ≤ 9999)
    (hm1 : 1 ≤ m) (hm2 : m ≤ 12) (hd1 : 1 ≤ d) (hd2 : d ≤ 31) (r : PyStr) :
    (pDate (dateStr pad y m d ++ r)).head? = some ((y, m, d), r) := by
  have hys : yearStr pad y = pad4 y := by
    unfold yearStr
    rw [if_pos]
    rcases hy with h | h <;> simp [h]
  simp only [dateStr, hys, pDate, List.append_assoc, List.cons_append]
  refine head_bind (head_pY hy2 _) ?_
  refine head_bind (head_plit _ _) ?_
  refine head_bind (head_pm hm1 hm2 _) ?_
  refine head_bind (head_plit _ _) ?_
  exact head_bind (head_pd hd1 hd2 _) rfl

theorem head_pTime {h m s : Nat} (h1 : h < 24) (h2 : m < 60) (h3 : s < 60) (r : PyStr) :
    (pTime (timeStr h m s ++ r)).head? = some ((h, m, s), r) := by
  simp only [timeStr, pTime, List.append_assoc, List.cons_append]
  refine head_bind (head_pH h1 _) ?_
  refine head_bind (head_plit _ _) ?_
  refine head_bind (head_pM h2 _) ?_
  refine head_bind (head_plit _ _) ?_
  exact head_bind (head_pS h3 _) rfl

theorem daysInMonth_le (y m : Nat) : daysInMonth y m ≤ 31 := by
  unfold daysInMonth
  split <;> first | omega | (split <;> omega)

/-- Valid fields. -/
structure FieldsOk (dt : DT) : Prop where
  year1 : 1 ≤ dt.year
  year2 : dt.year ≤ 9999
  month1 : 1 ≤ dt.month
  month2 : dt.month ≤ 12
  day1 : 1 ≤ dt.day
  day2 : dt.day ≤ daysInMonth dt.year dt.month
  hour : dt.hour < 24
  minute : dt.minute < 60
  second : dt.second < 60
  micro : dt.micro < 1000000

theorem mkDatetime_ok {dt : DT} (h : FieldsOk dt) :
    mkDatetime dt.year dt.month dt.day dt.hour dt.minute dt.second dt.micro =
      .ok { dt with tz := none } := by
  unfold mkDatetime
  rw [if_pos ⟨h.year1, h.year2, h.month1, h.month2, h.day1, h.day2, h.hour, h.minute, h.second,
    h.micro⟩]

theorem mkDatetime_valid {y mo d h mi s us : Nat} {dt : DT}
    (hm : mkDatetime y mo d h mi s us = .ok dt) : FieldsOk dt ∧ dt.tz = none := by
  unfold mkDatetime at hm
  split at hm
  · next hc =>
    injection hm with hm
    subst hm
    obtain ⟨a, b, c, e, f, g, i, j, k, l⟩ := hc
    exact ⟨⟨a, b, c, e, f, g, i, j, k, l⟩, rfl⟩
  · cases hm

/-- The text of a datetime without its offset. -/
def bodyStr (pad : Bool) (dt : DT) : PyStr :=
  dateStr pad dt.year dt.month dt.day ++ 'T' :: timeStr dt.hour dt.minute dt.second

/-- The text of the microseconds. -/
def fracStr (strip : Bool) (us : Nat) : PyStr :=
  if !strip && us != 0 then '.' :: pad6 us else []

theorem strptime_body {pad : Bool} {dt : DT} (h : FieldsOk dt) (hy : pad = true ∨ 1000 ≤ dt.year) :
    strptime (bodyStr pad dt) (.datetime false) = .ok { dt with micro := 0, tz := none } := by
  have hm : fullMatch (pDatetime false) (bodyStr pad dt) =
      .ok ((dt.year, dt.month, dt.day), (dt.hour, dt.minute, dt.second), 0) := by
    apply fullMatch_of_head
    unfold pDatetime bodyStr
    refine head_bind (head_pDate hy h.year2 h.month1 h.month2 h.day1
      (h.day2.trans (daysInMonth_le _ _)) _) ?_
    refine head_bind (head_plit _ _) ?_
    have := head_pTime h.hour h.minute h.second []
    rw [List.append_nil] at this
    exact head_bind this rfl
  simp only [strptime, hm, bind, Except.bind]
  exact mkDatetime_ok (dt := { dt with micro := 0 })
    ⟨h.year1, h.year2, h.month1, h.month2, h.day1, h.day2, h.hour, h.minute, h.second, by simp⟩

theorem strptime_body_frac {pad : Bool} {dt : DT} (h : FieldsOk dt)
    (hy : pad = true ∨ 1000 ≤ dt.year) :
    strptime (bodyStr pad dt ++ '.' :: pad6 dt.micro) (.datetime true) =
      .ok { dt with tz := none } := by
  have hm : fullMatch (pDatetime true) (bodyStr pad dt ++ '.' :: pad6 dt.micro) =
      .ok ((dt.year, dt.month, dt.day), (dt.hour, dt.minute, dt.second), dt.micro) := by
    apply fullMatch_of_head
    unfold pDatetime bodyStr
    rw [List.append_assoc, List.cons_append]
    refine head_bind (head_pDate hy h.year2 h.month1 h.month2 h.day1
      (h.day2.trans (daysInMonth_le _ _)) _) ?_
    refine head_bind (head_plit _ _) ?_
    refine head_bind (head_pTime h.hour h.minute h.second _) ?_
    rw [if_pos rfl]
    refine head_bind (head_plit _ _) ?_
    have := head_pf h.micro []
    rw [List.append_nil] at this
    exact head_bind this rfl
  simp only [strptime, hm, bind, Except.bind]
  exact mkDatetime_ok h

/-- Digits or one of the separators inside a time or an offset. -/
def TimeChar (c : Char) : Prop := ('0' ≤ c ∧ c ≤ '9') ∨ c = ':' ∨ c = '.'

theorem timeChar_digit (n : Nat) : TimeChar (digit n) := .inl (digit_range n)

theorem timeChar_pad2 (n : Nat) : ∀ c ∈ pad2 n, TimeChar c := by
  simp [pad2, timeChar_digit]

theorem timeChar_pad6 (n : Nat) : ∀ c ∈ pad6 n, TimeChar c := by
  simp [pad6, timeChar_digit]

theorem timeChar_timeStr (h m s : Nat) : ∀ c ∈ timeStr h m s, TimeChar c := by
  intro c hc
  simp only [timeStr, List.mem_append, List.mem_cons] at hc
  rcases hc with (hc | rfl | hc) | rfl | hc
  · exact timeChar_pad2 _ c hc
  · exact .inr (.inl rfl)
  · exact timeChar_pad2 _ c hc
  · exact .inr (.inl rfl)
  · exact timeChar_pad2 _ c hc

theorem timeChar_frac (strip : Bool) (us : Nat) : ∀ c ∈ fracStr strip us, TimeChar c := by
  intro c hc
  unfold fracStr at hc
  split at hc
  · rcases List.mem_cons.1 hc with rfl | hc
    · exact .inr (.inr rfl)
    · exact timeChar_pad6 _ c hc
  · cases hc

theorem timeChar_ne {c : Char} (h : TimeChar c) : c ≠ 'T' ∧ c ≠ '+' ∧ c ≠ '-' ∧ c ≠ 'Z' := by
  rcases h with ⟨h1, h2⟩ | rfl | rfl
  · refine ⟨?_, ?_, ?_, ?_⟩ <;> rintro rfl <;> revert h1 h2 <;> decide
  · decide
  · decide

theorem dateStr_noT (pad : Bool) (y m d : Nat) : 'T' ∉ dateStr pad y m d ∧ '.' ∉ dateStr pad y m d := by
  have hdig : ∀ n, digit n ≠ 'T' ∧ digit n ≠ '.' := by
    intro n
    have := digit_range n
    constructor <;> intro h <;> rw [h] at this <;> revert this <;> decide
  have hy : ∀ c ∈ yearStr pad y, c ≠ 'T' ∧ c ≠ '.' := by
    intro c hc
    unfold yearStr at hc
    split at hc
    · simp only [pad4, List.mem_cons, List.not_mem_nil, or_false] at hc
      rcases hc with rfl | rfl | rfl | rfl <;> exact hdig _
    · split at hc
      · simp only [List.mem_cons, List.not_mem_nil, or_false] at hc
        rcases hc with rfl; exact hdig _
      · split at hc
        · simp only [pad2, List.mem_cons, List.not_mem_nil, or_false] at hc
          rcases hc with rfl | rfl <;> exact hdig _
        · simp only [List.mem_cons, List.not_mem_nil, or_false] at hc
          rcases hc with rfl | rfl | rfl <;> exact hdig _
  have h2 : ∀ n, ∀ c ∈ pad2 n, c ≠ 'T' ∧ c ≠ '.' := by
    intro n c hc
    simp only [pad2, List.mem_cons, List.not_mem_nil, or_false] at hc
    rcases hc with rfl | rfl <;> exact hdig _
  have : ∀ c ∈ dateStr pad y m d, c ≠ 'T' ∧ c ≠ '.' := by
    intro c hc
    simp only [dateStr, List.mem_append, List.mem_cons] at hc
    rcases hc with (hc | rfl | hc) | rfl | hc
    · exact hy c hc
    · decide
    · exact h2 _ c hc
    · decide
    · exact h2 _ c hc
  exact ⟨fun h => (this _ h).1 rfl, fun h => (this _ h).2 rfl⟩

theorem parseInt_pad2 {n : Nat} (h : n < 60) : parseInt (pad2 n) = .ok (n : Int) := by
  interval_cases n <;> rfl

theorem split2_append {sep : Char} {a b : PyStr} (ha : sep ∉ a) (hb : sep ∉ b) :
    split2 sep (a ++ sep :: b) = .ok (a, b) := by
  unfold split2
  rw [PyStr.split_append ha, PyStr.split_of_not_mem hb]

theorem mkTimezone_ok {t : Int} {h m : Int} (ht : h * 60 + m = t) (h1 : -1440 < t) (h2 : t < 1440) :
    mkTimezone h m = .ok (Tz.fixed (t * 60000000) none) := by
  unfold mkTimezone
  simp only [ht]
  rw [if_neg (by omega), if_pos ⟨h1, h2⟩]

theorem getLast?_append_cons {a : PyStr} {c : Char} : (a ++ [c]).getLast? = some c := by
  simp

/-- Reading a datetime text that ends in an offset. -/
theorem datetimeOffsetInst_eq {d t : PyStr} {sgn : Char} (hs : sgn = '+' ∨ sgn = '-')
    (hd : 'T' ∉ d) (ht : ∀ c ∈ t, TimeChar c) {h m : Nat} (hh : h < 24) (hm : m < 60)
    {pattern : Pattern} {dt : DT} (hp : strptime (d ++ 'T' :: t) pattern = .ok dt) :
    datetimeOffsetInst (d ++ 'T' :: (t ++ sgn :: (pad2 h ++ ':' :: pad2 m))) pattern =
      .ok { dt with tz := some (Tz.fixed
        ((if sgn = '+' then 1 else -1) * ((h : Int) * 60 + m) * 60000000) none) } := by
  have hno : ∀ x, (x = 'T' ∨ x = '+' ∨ x = '-') → x ∉ t := by
    intro x hx hmem
    have := timeChar_ne (ht x hmem)
    rcases hx with rfl | rfl | rfl
    · exact this.1 rfl
    · exact this.2.1 rfl
    · exact this.2.2.1 rfl
  have hoff : ∀ x, (x = 'T' ∨ x = '+' ∨ x = '-') → x ∉ pad2 h ++ ':' :: pad2 m := by
    intro x hx hmem
    have : TimeChar x := by
      simp only [List.mem_append, List.mem_cons] at hmem
      rcases hmem with hc | rfl | hc
      · exact timeChar_pad2 _ _ hc
      · exact .inr (.inl rfl)
      · exact timeChar_pad2 _ _ hc
    have := timeChar_ne this
    rcases hx with rfl | rfl | rfl
    · exact this.1 rfl
    · exact this.2.1 rfl
    · exact this.2.2.1 rfl
  have hcolon : ∀ n, ':' ∉ pad2 n := by
    intro n hmem
    simp only [pad2, List.mem_cons, List.not_mem_nil, or_false] at hmem
    have : ∀ k, ':' ≠ digit k := by
      intro k hk
      have := digit_range k
      rw [← hk] at this
      revert this; decide
    rcases hmem with h | h <;> exact this _ h
  have h1 : split2 'T' (d ++ 'T' :: (t ++ sgn :: (pad2 h ++ ':' :: pad2 m))) =
      .ok (d, t ++ sgn :: (pad2 h ++ ':' :: pad2 m)) := by
    apply split2_append hd
    simp only [List.mem_append, List.mem_cons, not_or] at *
    refine ⟨hno 'T' (.inl rfl), ?_, ?_⟩
    · rcases hs with rfl | rfl <;> decide
    · exact hoff 'T' (.inl rfl)
  have hsp : (if '+' ∈ t ++ sgn :: (pad2 h ++ ':' :: pad2 m) then ('+', (1 : Int)) else ('-', -1)) =
      (sgn, if sgn = '+' then 1 else -1) := by
    rcases hs with rfl | rfl
    · rw [if_pos (by simp)]; rfl
    · rw [if_neg]
      · rfl
      · simp only [List.mem_append, List.mem_cons, not_or]
        have := hoff '+' (.inr (.inl rfl))
        simp only [List.mem_append, List.mem_cons, not_or] at this
        exact ⟨hno '+' (.inr (.inl rfl)), by decide, this⟩
  have h2 : split2 sgn (t ++ sgn :: (pad2 h ++ ':' :: pad2 m)) = .ok (t, pad2 h ++ ':' :: pad2 m) := by
    apply split2_append
    · exact hno sgn (.inr hs)
    · exact hoff sgn (.inr hs)
  have h3 : split2 ':' (pad2 h ++ ':' :: pad2 m) = .ok (pad2 h, pad2 m) :=
    split2_append (hcolon _) (hcolon _)
  have h4 : mkTimezone ((h : Int) * (if sgn = '+' then 1 else -1))
      ((m : Int) * (if sgn = '+' then 1 else -1)) = .ok (Tz.fixed
        ((if sgn = '+' then 1 else -1) * ((h : Int) * 60 + m) * 60000000) none) := by
    apply mkTimezone_ok
    · split <;> omega
    · split <;> omega
    · split <;> omega
  unfold datetimeOffsetInst
  simp only [h1, bind, Except.bind, hsp, h2, hp, h3, parseInt_pad2 (show h < 60 by omega),
    parseInt_pad2 hm, h4]
  rfl

theorem searchFrac_append {a s : PyStr} (ha : '.' ∉ a) :
    searchFrac (a ++ s) = searchFrac s := by
  induction a with
  | nil => rfl
  | cons c a ih =>
    simp only [List.mem_cons, not_or] at ha
    simp only [List.cons_append, searchFrac]
    rw [if_neg (fun h => ha.1 h.1.symm)]
    exact ih ha.2

theorem isPrefixOf_dot_false {f s : PyStr} {c : Char} (hc : '.' ≠ c) :
    List.isPrefixOf ('.' :: f) (c :: s) = false := by
  simp [List.isPrefixOf, hc]

theorem replaceSub_append {f new a s : PyStr} (ha : '.' ∉ a) :
    replaceSub ('.' :: f) new (a ++ s) = a ++ replaceSub ('.' :: f) new s := by
  induction a with
  | nil => rfl
  | cons c a ih =>
    simp only [List.mem_cons, not_or] at ha
    simp only [List.cons_append]
    rw [replaceSub, isPrefixOf_dot_false ha.1, if_neg (by simp), ih ha.2]

theorem replaceSub_hit {f new s : PyStr} :
    replaceSub ('.' :: f) new ('.' :: f ++ s) = new ++ replaceSub ('.' :: f) new s := by
  rw [List.cons_append, replaceSub, if_pos]
  · congr 2
    simp
  · refine ⟨?_, by simp⟩
    rw [List.isPrefixOf_iff_prefix]
    exact ⟨s, by simp⟩

theorem replaceSub_none {f new s : PyStr} (hs : '.' ∉ s) :
    replaceSub ('.' :: f) new s = s := by
  have := replaceSub_append (f := f) (new := new) (s := []) hs
  simpa [replaceSub] using this

theorem takeWhile_digits {f s : PyStr} (hf : ∀ c ∈ f, c.isDigit = true)
    (hs : ∀ c, s.head? = some c → c.isDigit = false) : (f ++ s).takeWhile Char.isDigit = f := by
  induction f with
  | nil =>
    cases s with
    | nil => rfl
    | cons c s => simp [hs c rfl]
  | cons c f ih =>
    rw [List.cons_append, List.takeWhile_cons, if_pos (hf c (by simp)),
      ih (fun x hx => hf x (List.mem_cons_of_mem _ hx))]

/-- The datetime deserializer on a text with one fraction. -/
theorem datetimeDeserializer_frac {a f s : PyStr} (ha : '.' ∉ a) (hf : ∀ c ∈ f, c.isDigit = true)
    (hne : f ≠ []) (hs : '.' ∉ s) (hs2 : ∀ c, s.head? = some c → c.isDigit = false) :
    datetimeDeserializer (a ++ '.' :: (f ++ s)) =
      getDatetimeInst (a ++ '.' :: (f.take 6 ++ s)) (.datetime true) := by
  unfold datetimeDeserializer
  rw [if_pos (by simp), searchFrac_append ha]
  simp only [searchFrac, takeWhile_digits hf hs2]
  rw [if_pos ⟨trivial, hne⟩]
  simp only
  rw [replaceSub_append ha, ← List.cons_append, replaceSub_hit, replaceSub_none hs]
  simp

end Verif.Datetime
