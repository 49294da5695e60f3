import Verif.DatetimeLemmas

/-! # Properties C10–C16 and C73: datetime, date and time -/

set_option autoImplicit false

namespace Verif.Props.Datetime
open Verif Verif.Datetime

/-! ## Specification vocabulary -/

/-- The fields denote a moment of the Gregorian calendar. -/
structure Valid (dt : DT) : Prop where
  year : 1 ≤ dt.year ∧ dt.year ≤ 9999
  month : 1 ≤ dt.month ∧ dt.month ≤ 12
  day : 1 ≤ dt.day ∧ dt.day ≤ 31
  shortMonth : dt.month = 4 ∨ dt.month = 6 ∨ dt.month = 9 ∨ dt.month = 11 → dt.day ≤ 30
  february : dt.month = 2 → dt.day ≤ 29
  leap : dt.month = 2 → dt.day = 29 →
    dt.year % 4 = 0 ∧ (dt.year % 100 ≠ 0 ∨ dt.year % 400 = 0)
  clock : dt.hour < 24 ∧ dt.minute < 60 ∧ dt.second < 60 ∧ dt.micro < 1000000

theorem fieldsOk_iff (dt : DT) : FieldsOk dt ↔ Valid dt := by
  have hleap : ∀ y, isLeap y = true ↔ (y % 4 = 0 ∧ (y % 100 ≠ 0 ∨ y % 400 = 0)) := by
    intro y; simp [isLeap]
  constructor
  · intro h
    have h1 := h.month1
    have h2 := h.month2
    have h3 := h.day1
    have h4 := h.day2
    refine ⟨⟨h.year1, h.year2⟩, ⟨h1, h2⟩, ⟨h3, h4.trans (daysInMonth_le _ _)⟩, ?_, ?_, ?_,
      h.hour, h.minute, h.second, h.micro⟩
    · rintro (h | h | h | h) <;> rw [h] at h4 <;> exact h4
    · intro h; rw [h] at h4; simp only [daysInMonth] at h4; split at h4 <;> omega
    · intro h h'
      rw [h, h'] at h4
      simp only [daysInMonth] at h4
      split at h4
      · next hl => exact (hleap _).1 hl
      · omega
  · intro h
    obtain ⟨hy, ⟨h1, h2⟩, ⟨h3, h4⟩, hs, hf, hl, c1, c2, c3, c4⟩ := h
    refine ⟨hy.1, hy.2, h1, h2, h3, ?_, c1, c2, c3, c4⟩
    have hm : dt.month = 1 ∨ dt.month = 2 ∨ dt.month = 3 ∨ dt.month = 4 ∨ dt.month = 5 ∨
        dt.month = 6 ∨ dt.month = 7 ∨ dt.month = 8 ∨ dt.month = 9 ∨ dt.month = 10 ∨
        dt.month = 11 ∨ dt.month = 12 := by omega
    have hd : dt.day ≤ 30 ∨ (dt.month ≠ 4 ∧ dt.month ≠ 6 ∧ dt.month ≠ 9 ∧ dt.month ≠ 11) := by
      by_cases hc : dt.month = 4 ∨ dt.month = 6 ∨ dt.month = 9 ∨ dt.month = 11
      · exact .inl (hs hc)
      · omega
    by_cases h2' : dt.month = 2
    · rw [h2']
      simp only [daysInMonth]
      by_cases hd : dt.day = 29
      · rw [if_pos ((hleap _).2 (hl h2' hd))]; omega
      · have := hf h2'
        split <;> omega
    · clear hs hf hl
      rcases hm with h | h | h | h | h | h | h | h | h | h | h | h <;> rw [h] <;>
        simp only [daysInMonth] <;> omega

/-- The UTC offset of an aware datetime is `off` microseconds, and its zone says
so whichever way it is asked; only a zone of offset zero is called UTC.  (True of
`timezone` objects with an honest name, and of `ZoneInfo` objects.) -/
structure HasOffset (tz : Tz) (off : Int) : Prop where
  at_ : tz.offAt = some off
  none_ : tz.offNone = none ∨ tz.offNone = some off
  adjusted : tz.adjusted = none ∨ tz.adjusted = some off
  name : tz.name = some "UTC".toList ∨ tz.name = some "UTC+00:00".toList → off = 0

/-- Offsets that the code writes correctly: whole minutes, and not negative or
with minutes 00 or 30. -/
def WritableOffset (off : Int) : Prop :=
  off % 60000000 = 0 ∧
    (0 ≤ off ∨ off % 3600000000 = 0 ∨ off % 3600000000 = 1800000000)

/-- What an offset text says, in minutes. -/
def readOffset : PyStr → Option Int
  | ['Z'] => some 0
  | [sgn, a, b, ':', c, d] =>
    let n : Int := ((10 * (a.toNat - 48) + (b.toNat - 48)) * 60 +
      (10 * (c.toNat - 48) + (d.toNat - 48)) : Nat)
    if a.isDigit ∧ b.isDigit ∧ c.isDigit ∧ d.isDigit then
      if sgn = '+' then some n else if sgn = '-' then some (-n) else none
    else none
  | _ => none

/-- Whether a text fits a template, in which `d` stands for a digit and `s` for a
sign. -/
def fits : PyStr → PyStr → Bool
  | [], [] => true
  | 'd' :: t, c :: s => c.isDigit && fits t s
  | 's' :: t, c :: s => (c == '+' || c == '-') && fits t s
  | x :: t, c :: s => x == c && fits t s
  | _, _ => false

theorem chosenOffset_eq {tz : Tz} {off : Int} (h : HasOffset tz off) :
    chosenOffset tz = some off := by
  unfold chosenOffset
  have ha : tz.adjusted.or tz.offAt = some off := by
    rw [h.at_]
    rcases h.adjusted with h | h <;> rw [h] <;> rfl
  rcases h.none_ with h' | h' <;> rw [h']
  · exact ha
  · simp only
    split
    · exact ha
    · rfl

theorem digit_isDigit (n : Nat) : (digit n).isDigit = true := by
  have := digit_range n
  simp only [Char.isDigit, ge_iff_le, Bool.and_eq_true, decide_eq_true_eq]
  exact this

theorem digit_val (n : Nat) : (digit n).toNat - 48 = n % 10 := (digit_facts n).2.2

theorem readOffset_eq {sgn : Char} {h m : Nat} (hs : sgn = '+' ∨ sgn = '-')
    (hh : h < 24) (hm : m < 60) :
    readOffset (sgn :: pad2 h ++ ':' :: pad2 m) =
      some ((if sgn = '+' then 1 else -1) * ((h : Int) * 60 + m)) := by
  simp only [pad2, List.cons_append, List.nil_append, readOffset, digit_isDigit, digit_val,
    and_self, if_true]
  have e1 : (10 * (h / 10 % 10) + h % 10) = h := by omega
  have e2 : (10 * (m / 10 % 10) + m % 10) = m := by omega
  rw [e1, e2]
  rcases hs with rfl | rfl
  · simp
  · simp

/-- The offset that the written text says. -/
def writtenMinutes (off : Int) : Int :=
  (if 0 < off then 1 else -1) *
    (((off.natAbs / 3600000000 : Nat) : Int) * 60 + ((off / 60000000 % 60).toNat : Int))

theorem writtenMinutes_iff (off : Int) :
    writtenMinutes off * 60000000 = off ↔ WritableOffset off := by
  unfold writtenMinutes WritableOffset
  split <;> omega

/-! ## C11 – the textual offset -/

/-- C11, exactly when the offset suffix is right: the text always denotes some
number of minutes, and it is the offset iff the offset is writable. -/
theorem offset_text_right_iff (R : Rounding) (off : Int)
    (h : |off| < 86400000000) :
    ∃ text k, timedeltaOffsetStr R off = .ok text ∧ readOffset text = some k ∧
      (k * 60000000 = off ↔ WritableOffset off) := by
  have hb := abs_lt.1 h
  refine ⟨_, _, timedeltaOffsetStr_eq R off h, readOffset_eq ?_ ?_ ?_, ?_⟩
  · split <;> simp
  · omega
  · omega
  · rw [← writtenMinutes_iff]
    unfold writtenMinutes
    split <;> simp

/-- C11 is false: the offset -00:15 is written as -00:45. -/
theorem offset_text_wrong (R : Rounding) :
    timedeltaOffsetStr R (-15 * 60000000) = .ok "-00:45".toList ∧
    readOffset "-00:45".toList = some (-45) := by
  constructor
  · rw [timedeltaOffsetStr_eq R _ (by decide)]; rfl
  · rfl

/-- C11, what holds (missing: negative offsets with minutes other than 00 and 30,
offsets with seconds): the suffix denotes the offset. -/
theorem offset_text_right_partial (R : Rounding) (localTz tz : Tz) (off : Int)
    (ho : HasOffset tz off) (h : |off| < 86400000000) (hw : WritableOffset off) :
    ∃ text k, datetimeOffsetStr R localTz (some tz) = .ok text ∧ readOffset text = some k ∧
      k * 60000000 = off := by
  simp only [datetimeOffsetStr, datetimeOffsetStr.rest]
  split
  · next hn => exact ⟨_, 0, rfl, rfl, by rw [ho.name hn]; rfl⟩
  · simp only [chosenOffset_eq ho]
    obtain ⟨text, k, h1, h2, h3⟩ := offset_text_right_iff R off h
    exact ⟨text, k, h1, h2, h3.2 hw⟩

/-- +05:45 (Nepal) and -03:30 (Newfoundland) are writable, -00:15 is not. -/
example : WritableOffset (345 * 60000000) ∧ WritableOffset (-210 * 60000000) ∧
    ¬ WritableOffset (-15 * 60000000) := by
  unfold WritableOffset; decide

/-- Zones that meet the hypothesis: a `timezone` and a `ZoneInfo`. -/
example : HasOffset (Tz.fixed (345 * 60000000) none) (345 * 60000000) ∧
    HasOffset ⟨none, none, some (-210 * 60000000), none⟩ (-210 * 60000000) :=
  ⟨⟨rfl, .inr rfl, .inl rfl, by decide⟩, ⟨rfl, .inl rfl, .inl rfl, by decide⟩⟩

/-! ## C10 – round trip of datetimes -/

theorem body_noDot (pad : Bool) (dt : DT) : '.' ∉ bodyStr pad dt := by
  unfold bodyStr
  simp only [List.mem_append, List.mem_cons, not_or]
  refine ⟨(dateStr_noT _ _ _ _).2, by decide, ?_⟩
  intro hc
  simp only [timeStr, pad2, List.mem_append, List.mem_cons, List.not_mem_nil, or_false] at hc
  have hd : ∀ n, '.' ≠ digit n := by
    intro n hn
    have := digit_range n
    rw [← hn] at this
    revert this; decide
  rcases hc with ((h | h) | h | h | h) | h | h | h <;> first | exact hd _ h | exact absurd h (by decide)

theorem pad6_digits (n : Nat) : ∀ c ∈ pad6 n, c.isDigit = true := by
  intro c hc
  simp only [pad6, List.mem_cons, List.not_mem_nil, or_false] at hc
  rcases hc with rfl | rfl | rfl | rfl | rfl | rfl <;> exact digit_isDigit _

/-- Reading back a written datetime whose offset text is `suffix`. -/
theorem load_written {pad strip : Bool} {dt : DT} (h : FieldsOk dt)
    (hy : pad = true ∨ 1000 ≤ dt.year) {suffix : PyStr} (hs : '.' ∉ suffix)
    (hs2 : ∀ c, suffix.head? = some c → c.isDigit = false) {f : DT → DT}
    (hread : ∀ (pattern : Bool) (t : PyStr) (x : DT), (∀ c ∈ t, TimeChar c) →
      strptime (dateStr pad dt.year dt.month dt.day ++ 'T' :: t) (.datetime pattern) = .ok x →
      getDatetimeInst (dateStr pad dt.year dt.month dt.day ++ 'T' :: (t ++ suffix))
        (.datetime pattern) = .ok (f x)) :
    datetimeDeserializer (dateStr pad dt.year dt.month dt.day ++ 'T' ::
      timeStr dt.hour dt.minute dt.second ++ fracStr strip dt.micro ++ suffix) =
      .ok (f { dt with micro := if strip then 0 else dt.micro, tz := none }) := by
  have htc := timeChar_timeStr dt.hour dt.minute dt.second
  have hbody := body_noDot pad dt
  unfold bodyStr at hbody
  by_cases hfrac : fracStr strip dt.micro = []
  · have hz : (if strip then 0 else dt.micro) = 0 := by
      unfold fracStr at hfrac
      cases strip
      · simp at hfrac; simpa using hfrac
      · rfl
    rw [hfrac, List.append_nil, hz]
    unfold datetimeDeserializer
    rw [if_neg (by simp only [List.mem_append, not_or] at *; exact ⟨hbody, hs⟩)]
    have := hread false (timeStr dt.hour dt.minute dt.second) _ htc (strptime_body h hy)
    simpa using this
  · have hst : strip = false ∧ dt.micro ≠ 0 := by
      unfold fracStr at hfrac
      cases strip <;> simp at hfrac ⊢
      exact hfrac
    have hfs : fracStr strip dt.micro = '.' :: pad6 dt.micro := by
      unfold fracStr
      simp [hst.1, hst.2]
    rw [hfs, hst.1, List.append_assoc, List.cons_append]
    have h7 : (pad6 dt.micro).take 6 = pad6 dt.micro := by simp [pad6]
    rw [datetimeDeserializer_frac hbody (pad6_digits _) (by simp [pad6]) hs hs2, h7]
    have hp := strptime_body_frac h hy
    unfold bodyStr at hp
    have htc' : ∀ c ∈ timeStr dt.hour dt.minute dt.second ++ '.' :: pad6 dt.micro, TimeChar c := by
      intro c hc
      rcases List.mem_append.1 hc with hc | hc
      · exact htc c hc
      · rcases List.mem_cons.1 hc with rfl | hc
        · exact .inr (.inr rfl)
        · exact timeChar_pad6 _ c hc
    have := hread true (timeStr dt.hour dt.minute dt.second ++ '.' :: pad6 dt.micro) _ htc'
      (by simpa using hp)
    simpa using this

/-- Everything about the round trip: the text is written, it can be loaded, the
fields survive (the microseconds unless stripped), and the offset survives
exactly if it is writable. -/
theorem datetime_roundtrip_iff (R : Rounding) (localTz : Tz) (pad strip : Bool) (dt : DT) (tz : Tz)
    (off : Int) (hv : Valid dt) (hy : pad = true ∨ 1000 ≤ dt.year) (htz : dt.tz = some tz)
    (ho : HasOffset tz off) (hb : |off| < 86400000000) :
    ∃ text dt' tz' off', datetimeSerializer R localTz pad strip dt = .ok text ∧
      datetimeDeserializer text = .ok dt' ∧
      dt' = { dt with micro := if strip then 0 else dt.micro, tz := some tz' } ∧
      HasOffset tz' off' ∧ (off' = off ↔ WritableOffset off) := by
  have hf := (fieldsOk_iff dt).2 hv
  have hbb := abs_lt.1 hb
  unfold datetimeSerializer
  rw [htz]
  simp only [datetimeOffsetStr, datetimeOffsetStr.rest]
  split
  · -- UTC
    next hn =>
    have h0 := ho.name hn
    subst h0
    refine ⟨_, { dt with micro := if strip then 0 else dt.micro, tz := some Tz.utc }, Tz.utc, 0,
      rfl, ?_, rfl, ⟨rfl, .inr rfl, .inl rfl, fun _ => rfl⟩, ?_⟩
    · refine load_written (f := fun x => { x with tz := some Tz.utc }) hf hy (by decide)
        (by intro c hc; injection hc with hc; subst hc; rfl) ?_
      intro p t x _ hx
      unfold getDatetimeInst
      have hl : (dateStr pad dt.year dt.month dt.day ++ 'T' :: (t ++ "Z".toList)) =
          (dateStr pad dt.year dt.month dt.day ++ 'T' :: t) ++ ['Z'] := by simp
      rw [hl, getLast?_append_cons]
      simp only [datetimeUtcInst, List.dropLast_concat, hx]
      rfl
    · simp [WritableOffset]
  · simp only [chosenOffset_eq ho, timedeltaOffsetStr_eq R off hb]
    have hm : (off / 60000000 % 60).toNat < 60 := by omega
    have hh : off.natAbs / 3600000000 < 24 := by omega
    generalize hsg : (if 0 < off then '+' else '-') = sgn
    have hsgn : sgn = '+' ∨ sgn = '-' := by rw [← hsg]; split <;> simp
    have hcond : (if sgn = '+' then (1 : Int) else -1) = if 0 < off then 1 else -1 := by
      rw [← hsg]; split <;> simp
    refine ⟨_, { dt with micro := if strip then 0 else dt.micro, tz := some (Tz.fixed
        ((if sgn = '+' then 1 else -1) * (((off.natAbs / 3600000000 : Nat) : Int) * 60 +
          ((off / 60000000 % 60).toNat : Int)) * 60000000) none) }, _, _, rfl, ?_, rfl,
      ⟨rfl, .inr rfl, .inl rfl, ?_⟩, ?_⟩
    · refine load_written (f := fun x => { x with tz := some (Tz.fixed
        ((if sgn = '+' then 1 else -1) * (((off.natAbs / 3600000000 : Nat) : Int) * 60 +
          ((off / 60000000 % 60).toNat : Int)) * 60000000) none) }) hf hy ?_ ?_ ?_
      · intro hc
        have hd : ∀ n, '.' ≠ digit n := by
          intro n hn
          have := digit_range n
          rw [← hn] at this
          revert this; decide
        simp only [pad2, List.cons_append, List.nil_append, List.mem_cons, List.not_mem_nil,
          or_false] at hc
        rcases hc with h | h | h | h | h | h
        · rcases hsgn with h' | h' <;> rw [h'] at h <;> exact absurd h (by decide)
        · exact hd _ h
        · exact hd _ h
        · exact absurd h (by decide)
        · exact hd _ h
        · exact hd _ h
      · intro c hc
        simp only [List.cons_append, List.head?_cons, Option.some.injEq] at hc
        subst hc
        rcases hsgn with h | h <;> rw [h] <;> rfl
      · intro p t x ht hx
        unfold getDatetimeInst
        have hl : (dateStr pad dt.year dt.month dt.day ++ 'T' ::
            (t ++ (sgn :: pad2 (off.natAbs / 3600000000) ++
              ':' :: pad2 (off / 60000000 % 60).toNat))).getLast? =
            some (digit (off / 60000000 % 60).toNat) := by
          simp [pad2, List.getLast?_append, List.getLast?_cons]
        rw [hl]
        have hnz : digit (off / 60000000 % 60).toNat ≠ 'Z' := by
          intro he
          have := digit_range (off / 60000000 % 60).toNat
          rw [he] at this
          revert this; decide
        split
        · next h => cases h
        · next h => injection h with h; exact absurd h hnz
        · exact datetimeOffsetInst_eq hsgn (dateStr_noT _ _ _ _).1 ht hh hm hx
    · intro hname
      have hk : ∀ k : Int, -1440 < k → k < 1440 →
          (some (fixedName (k * 60000000)) = some "UTC".toList ∨
            some (fixedName (k * 60000000)) = some "UTC+00:00".toList) → k * 60000000 = 0 := by
        intro k h1 h2 hname
        simp only [Option.some.injEq] at hname
        apply Classical.byContradiction
        intro hk
        unfold fixedName at hname
        rw [if_neg hk] at hname
        have hz : (k * 60000000).natAbs = 60000000 * k.natAbs := by
          rw [Int.natAbs_mul, Nat.mul_comm]; rfl
        rw [hz] at hname
        have e1 : 60000000 * k.natAbs % 1000000 = 0 := by omega
        have e2 : 60000000 * k.natAbs / 1000000 % 60 = 0 := by omega
        have hd0 : ∀ n, digit n = '0' → n % 10 = 0 := by
          intro n hn
          have := (digit_facts n).2.2
          rw [hn] at this
          exact this.symm
        simp only [e1, e2, bne_self_eq_false, Bool.or_self, Bool.false_eq_true, if_false,
          List.append_nil, pad2] at hname
        rcases hname with h | h
        · have := congrArg List.length h
          simp at this
        · have h' : ['U', 'T', 'C', (if k * 60000000 < 0 then '-' else '+'),
              digit (60000000 * k.natAbs / 1000000 / 3600 / 10),
              digit (60000000 * k.natAbs / 1000000 / 3600), ':',
              digit (60000000 * k.natAbs / 1000000 / 60 % 60 / 10),
              digit (60000000 * k.natAbs / 1000000 / 60 % 60)] =
              ['U', 'T', 'C', '+', '0', '0', ':', '0', '0'] := h
          simp only [List.cons.injEq, true_and, and_true] at h'
          obtain ⟨_, d1, d2, d3, d4⟩ := h'
          have := hd0 _ d1
          have := hd0 _ d2
          have := hd0 _ d3
          have := hd0 _ d4
          omega
      refine hk _ ?_ ?_ hname
      · rw [hcond]; split <;> omega
      · rw [hcond]; split <;> omega
    · rw [hcond]
      exact writtenMinutes_iff off

/-- C10, what holds (missing: negative offsets with minutes other than 00 and 30,
offsets with seconds; and years below 1000 on platforms that do not pad them): the
text that is written for an aware datetime loads as the same datetime. -/
theorem datetime_roundtrip_partial (R : Rounding) (localTz : Tz) (pad : Bool) (dt : DT) (tz : Tz)
    (off : Int) (hv : Valid dt) (hy : pad = true ∨ 1000 ≤ dt.year) (htz : dt.tz = some tz)
    (ho : HasOffset tz off) (hb : |off| < 86400000000) (hw : WritableOffset off) :
    ∃ text tz', datetimeSerializer R localTz pad false dt = .ok text ∧
      datetimeDeserializer text = .ok { dt with tz := some tz' } ∧ HasOffset tz' off := by
  obtain ⟨text, dt', tz', off', h1, h2, h3, h4, h5⟩ :=
    datetime_roundtrip_iff R localTz pad false dt tz off hv hy htz ho hb
  have := h5.2 hw
  subst this
  rw [h3] at h2
  exact ⟨text, tz', h1, h2, h4⟩

/-- C10 with `strip_microseconds=True`: exactly the microseconds are lost. -/
theorem datetime_roundtrip_stripped_partial (R : Rounding) (localTz : Tz) (pad : Bool) (dt : DT)
    (tz : Tz) (off : Int) (hv : Valid dt) (hy : pad = true ∨ 1000 ≤ dt.year) (htz : dt.tz = some tz)
    (ho : HasOffset tz off) (hb : |off| < 86400000000) (hw : WritableOffset off) :
    ∃ text tz', datetimeSerializer R localTz pad true dt = .ok text ∧
      datetimeDeserializer text = .ok { dt with micro := 0, tz := some tz' } ∧
      HasOffset tz' off := by
  obtain ⟨text, dt', tz', off', h1, h2, h3, h4, h5⟩ :=
    datetime_roundtrip_iff R localTz pad true dt tz off hv hy htz ho hb
  have := h5.2 hw
  subst this
  rw [h3] at h2
  exact ⟨text, tz', h1, h2, h4⟩

/-- 2024-02-29T23:59:59.000001 in Nepal. -/
def leapDay : DT := ⟨2024, 2, 29, 23, 59, 59, 1, some (Tz.fixed (345 * 60000000) none)⟩

theorem leapDay_valid : Valid leapDay := by
  refine ⟨?_, ?_, ?_, ?_, ?_, ?_, ?_⟩ <;> decide

/-- The hypotheses of C10 are met by `leapDay`. -/
example (R : Rounding) (localTz : Tz) :
    ∃ text tz', datetimeSerializer R localTz false false leapDay = .ok text ∧
      datetimeDeserializer text = .ok { leapDay with tz := some tz' } ∧
      HasOffset tz' (345 * 60000000) :=
  datetime_roundtrip_partial R localTz false leapDay _ _ leapDay_valid (.inr (by decide)) rfl
    ⟨rfl, .inr rfl, .inl rfl, by decide⟩ (by decide) (by unfold WritableOffset; decide)

/-- C10 is false: noon at offset -00:15 comes back as noon at offset -00:45. -/
theorem datetime_roundtrip_false (R : Rounding) (localTz : Tz) :
    let dt : DT := ⟨2024, 2, 29, 12, 0, 0, 0, some (Tz.fixed (-15 * 60000000) none)⟩
    Valid dt ∧ datetimeSerializer R localTz false false dt = .ok "2024-02-29T12:00:00-00:45".toList ∧
    datetimeDeserializer "2024-02-29T12:00:00-00:45".toList =
      .ok { dt with tz := some (Tz.fixed (-45 * 60000000) none) } := by
  refine ⟨?_, ?_, by rfl⟩
  · refine ⟨?_, ?_, ?_, ?_, ?_, ?_, ?_⟩ <;> decide
  · have hn : ¬ ((Tz.fixed (-15 * 60000000) none).name = some "UTC".toList ∨
        (Tz.fixed (-15 * 60000000) none).name = some "UTC+00:00".toList) := by decide
    simp only [datetimeSerializer, datetimeOffsetStr, datetimeOffsetStr.rest, if_neg hn]
    have : chosenOffset (Tz.fixed (-15 * 60000000) none) = some (-15 * 60000000) := by decide
    simp only [this, (offset_text_wrong R).1]
    rfl

/-! ## C73 – naive datetimes -/

/-- C73 is false: a naive datetime is always written with offset zero, whatever
the local time zone is. -/
theorem naive_written_as_utc (R : Rounding) (localTz : Tz) (pad strip : Bool) (dt : DT)
    (htz : dt.tz = none) :
    ∃ body, datetimeSerializer R localTz pad strip dt = .ok (body ++ "+00:00".toList) ∧
      readOffset "+00:00".toList = some 0 := by
  unfold datetimeSerializer
  rw [htz]
  exact ⟨_, rfl, rfl⟩

/-- C73, what holds (missing: local time zones other than UTC): a naive datetime
is read back as the same fields with offset zero, which is right if the local time
zone is UTC. -/
theorem naive_roundtrip_partial (R : Rounding) (localTz : Tz) (pad strip : Bool) (dt : DT)
    (hv : Valid dt) (hy : pad = true ∨ 1000 ≤ dt.year) (htz : dt.tz = none)
    (hl : HasOffset localTz 0) :
    ∃ text tz', datetimeSerializer R localTz pad strip dt = .ok text ∧
      datetimeDeserializer text =
        .ok { dt with micro := if strip then 0 else dt.micro, tz := some tz' } ∧
      HasOffset tz' 0 ∧ tz'.offAt = localTz.offAt := by
  unfold datetimeSerializer
  rw [htz]
  simp only [datetimeOffsetStr, utcAttributeIsUtc, if_true]
  refine ⟨_, Tz.fixed 0 none, rfl, ?_, ⟨rfl, .inr rfl, .inl rfl, fun _ => rfl⟩, hl.at_.symm⟩
  refine load_written (f := fun x => { x with tz := some (Tz.fixed 0 none) })
    ((fieldsOk_iff dt).2 hv) hy (by decide)
    (by intro c hc; injection hc with hc; subst hc; rfl) ?_
  intro p t x ht hx
  unfold getDatetimeInst
  have hl : (dateStr pad dt.year dt.month dt.day ++ 'T' :: (t ++ "+00:00".toList)).getLast? =
      some '0' := by
    simp [List.getLast?_append, List.getLast?_cons]
  rw [hl]
  exact datetimeOffsetInst_eq (h := 0) (m := 0) (.inl rfl) (dateStr_noT _ _ _ _).1 ht
    (by decide) (by decide) hx

/-- A naive datetime, UTC as the local zone; and a local zone for which the text
is wrong. -/
example : Valid ⟨2024, 2, 29, 12, 0, 0, 0, none⟩ ∧ HasOffset Tz.utc 0 ∧
    HasOffset ⟨some "CET".toList, some 3600000000, some 3600000000, none⟩ 3600000000 := by
  refine ⟨?_, ⟨rfl, .inr rfl, .inl rfl, fun _ => rfl⟩, ⟨rfl, .inr rfl, .inl rfl, by decide⟩⟩
  refine ⟨?_, ?_, ?_, ?_, ?_, ?_, ?_⟩ <;> decide

/-! ## C12 – the shape of the text -/

theorem fits_append {t t' s s' : PyStr} (h : fits t s = true) (h' : fits t' s' = true) :
    fits (t ++ t') (s ++ s') = true := by
  induction t, s using fits.induct with
  | case1 => exact h'
  | case2 t c s ih =>
    simp only [fits, Bool.and_eq_true] at h
    simp only [List.cons_append, fits, Bool.and_eq_true]
    exact ⟨h.1, ih h.2⟩
  | case3 t c s ih =>
    simp only [fits, Bool.and_eq_true] at h
    simp only [List.cons_append, fits, Bool.and_eq_true]
    exact ⟨h.1, ih h.2⟩
  | case4 x t c s h1 h2 ih =>
    rw [fits] at h <;> try assumption
    simp only [Bool.and_eq_true] at h
    simp only [List.cons_append]
    rw [fits] <;> try assumption
    simp only [Bool.and_eq_true]
    exact ⟨h.1, ih h.2⟩
  | case5 t s h1 h2 h3 h4 =>
    rw [fits] at h <;> first | assumption | cases h

theorem fits_pad2 (n : Nat) : fits "dd".toList (pad2 n) = true := by
  show (_ && (_ && _)) = true
  simp [digit_isDigit, fits]

theorem fits_pad4 (n : Nat) : fits "dddd".toList (pad4 n) = true := by
  show (_ && (_ && (_ && (_ && _)))) = true
  simp [digit_isDigit, fits]

theorem fits_pad6 (n : Nat) : fits "dddddd".toList (pad6 n) = true := by
  show (_ && (_ && (_ && (_ && (_ && (_ && _)))))) = true
  simp [digit_isDigit, fits]

theorem fits_date {pad : Bool} {y : Nat} (hy : pad = true ∨ 1000 ≤ y) (m d : Nat) :
    fits "dddd-dd-dd".toList (dateStr pad y m d) = true := by
  have hys : yearStr pad y = pad4 y := by
    unfold yearStr
    rw [if_pos]
    rcases hy with h | h <;> simp [h]
  unfold dateStr
  rw [hys]
  exact fits_append (t := "dddd-dd".toList) (t' := "-dd".toList)
    (fits_append (t := "dddd".toList) (t' := "-dd".toList) (fits_pad4 y)
      (fits_append (t := ['-']) (s := ['-']) rfl (fits_pad2 m)))
    (fits_append (t := ['-']) (s := ['-']) rfl (fits_pad2 d))

theorem fits_time (h m s : Nat) : fits "dd:dd:dd".toList (timeStr h m s) = true := by
  unfold timeStr
  exact fits_append (t := "dd:dd".toList) (t' := ":dd".toList)
    (fits_append (t := "dd".toList) (t' := ":dd".toList) (fits_pad2 h)
      (fits_append (t := [':']) (s := [':']) rfl (fits_pad2 m)))
    (fits_append (t := [':']) (s := [':']) rfl (fits_pad2 s))

/-- The texts of RFC 3339 timestamps: four-digit year, optional six-digit
fraction, `Z` or a signed offset. -/
def rfc3339Shapes : List PyStr :=
  ["dddd-dd-ddTdd:dd:ddZ".toList, "dddd-dd-ddTdd:dd:ddsdd:dd".toList,
   "dddd-dd-ddTdd:dd:dd.ddddddZ".toList, "dddd-dd-ddTdd:dd:dd.ddddddsdd:dd".toList]

/-- The offset text has one of the two shapes. -/
theorem offset_shape (R : Rounding) (localTz : Tz) (tz : Option Tz)
    (h : ∀ z, tz = some z → ∃ off, HasOffset z off ∧ |off| < 86400000000) :
    ∃ text, datetimeOffsetStr R localTz tz = .ok text ∧
      (fits "Z".toList text = true ∨ fits "sdd:dd".toList text = true) := by
  cases tz with
  | none => exact ⟨_, rfl, .inr rfl⟩
  | some z =>
    obtain ⟨off, ho, hb⟩ := h z rfl
    simp only [datetimeOffsetStr, datetimeOffsetStr.rest]
    split
    · exact ⟨_, rfl, .inl rfl⟩
    · simp only [chosenOffset_eq ho, timedeltaOffsetStr_eq R off hb]
      refine ⟨_, rfl, .inr ?_⟩
      refine fits_append (t := "sdd".toList) (t' := ":dd".toList)
        (fits_append (t := ['s']) (t' := "dd".toList) (s := [_]) ?_ (fits_pad2 _))
        (fits_append (t := [':']) (s := [':']) rfl (fits_pad2 _))
      split <;> rfl

/-- C12: dumping a datetime gives text of RFC 3339 shape, and with
`strip_microseconds=True` text without a fraction. -/
theorem datetime_shape (R : Rounding) (localTz : Tz) (pad strip : Bool) (dt : DT)
    (hy : pad = true ∨ 1000 ≤ dt.year)
    (hz : ∀ z, dt.tz = some z → ∃ off, HasOffset z off ∧ |off| < 86400000000) :
    ∃ text, datetimeSerializer R localTz pad strip dt = .ok text ∧
      (∃ t ∈ rfc3339Shapes, fits t text = true) ∧ (strip = true → '.' ∉ text) ∧
      (strip = false → dt.micro ≠ 0 → '.' ∈ text) ∧ (dt.micro = 0 → '.' ∉ text) := by
  obtain ⟨o, ho, hshape⟩ := offset_shape R localTz dt.tz hz
  have hodot : '.' ∉ o := by
    have hd : ∀ c : Char, c.isDigit = true → '.' ≠ c := by rintro c hc rfl; revert hc; decide
    rcases hshape with h | h
    · match o, h with
      | [c], h => simp [fits] at h; subst h; decide
      | [], h => simp [fits] at h
      | _ :: _ :: _, h => simp [fits] at h
    · match o, h with
      | [c1, c2, c3, c4, c5, c6], h =>
        simp [fits] at h
        obtain ⟨h1, h2, h3, h4, h5, h6⟩ := h
        have h1' : '.' ≠ c1 := by rcases h1 with rfl | rfl <;> decide
        simp [hd _ h2, hd _ h3, hd _ h5, hd _ h6, h1', ← h4]
      | [], h => simp [fits] at h
      | [_], h => simp [fits] at h
      | [_, _], h => simp [fits] at h
      | [_, _, _], h => simp [fits] at h
      | [_, _, _, _], h => simp [fits] at h
      | [_, _, _, _, _], h => simp [fits] at h
      | _ :: _ :: _ :: _ :: _ :: _ :: _ :: _, h => simp [fits] at h
  have hplain : '.' ∉ dateStr pad dt.year dt.month dt.day ++ 'T' ::
      timeStr dt.hour dt.minute dt.second ++ o := by
    rw [List.mem_append, not_or]
    exact ⟨body_noDot pad dt, hodot⟩
  unfold datetimeSerializer
  simp only [ho]
  refine ⟨_, rfl, ?_, ?_, ?_, ?_⟩
  · have hb := fits_append (fits_date hy dt.month dt.day)
      (fits_append (t := ['T']) (s := ['T']) rfl (fits_time dt.hour dt.minute dt.second))
    split
    · have hfr := fits_append hb
        (fits_append (t := ['.']) (s := ['.']) rfl (fits_pad6 dt.micro))
      rcases hshape with h | h
      · exact ⟨_, by simp [rfc3339Shapes], fits_append hfr h⟩
      · exact ⟨_, by simp [rfc3339Shapes], fits_append hfr h⟩
    · have hfr := fits_append hb (t' := []) (s' := []) rfl
      rcases hshape with h | h
      · exact ⟨_, by simp [rfc3339Shapes], fits_append hfr h⟩
      · exact ⟨_, by simp [rfc3339Shapes], fits_append hfr h⟩
  · rintro rfl
    simpa using hplain
  · rintro rfl hm
    simp [hm]
  · intro hm
    simpa [hm] using hplain

example : ∃ t ∈ rfc3339Shapes, fits t "2024-02-29T23:59:59.000001+05:45".toList = true := by
  decide

/-- The hypotheses of C12 are met by `leapDay`. -/
example : (1000 ≤ leapDay.year) ∧
    ∀ z, leapDay.tz = some z → ∃ off, HasOffset z off ∧ |off| < 86400000000 := by
  refine ⟨by decide, ?_⟩
  rintro z hz
  injection hz with hz
  subst hz
  exact ⟨_, ⟨rfl, .inr rfl, .inl rfl, by decide⟩, by decide⟩

/-- The bound on the year in C12 is needed on platforms whose C library does not pad years: the year 999 is
written with three digits, and the text cannot be loaded. -/
theorem datetime_shape_small_year (R : Rounding) (localTz : Tz) :
    datetimeSerializer R localTz false false ⟨999, 1, 1, 0, 0, 0, 0, some Tz.utc⟩ =
      .ok "999-01-01T00:00:00Z".toList ∧
    (∀ t ∈ rfc3339Shapes, fits t "999-01-01T00:00:00Z".toList = false) ∧
    datetimeDeserializer "999-01-01T00:00:00Z".toList = .error .valueError := by
  refine ⟨by rfl, by decide, by rfl⟩

/-! ## C13 – fractions of a second -/

/-- C13: digits of the fraction after the sixth make no difference. -/
theorem fraction_truncated (a f s : PyStr) (ha : '.' ∉ a) (hf : ∀ c ∈ f, c.isDigit = true)
    (hs : '.' ∉ s) (hs2 : ∀ c, s.head? = some c → c.isDigit = false) :
    datetimeDeserializer (a ++ '.' :: (f ++ s)) =
      datetimeDeserializer (a ++ '.' :: (f.take 6 ++ s)) := by
  by_cases hne : f = []
  · subst hne; rfl
  · rw [datetimeDeserializer_frac ha hf hne hs hs2,
      datetimeDeserializer_frac (f := f.take 6) ha (fun c hc => hf c (List.mem_of_mem_take hc))
        (by cases f with
            | nil => exact absurd rfl hne
            | cons c f => simp) hs hs2, List.take_take, Nat.min_self]

/-- The number written by a list of digits. -/
def decimal (f : PyStr) : Nat := f.foldl (fun n c => 10 * n + (c.toNat - 48)) 0

theorem decimal_append (f : PyStr) (c : Char) : decimal (f ++ [c]) = 10 * decimal f + (c.toNat - 48) := by
  simp [decimal]

theorem isDigit_range {c : Char} (h : c.isDigit = true) : '0' ≤ c ∧ c ≤ '9' := by
  simp only [Char.isDigit, ge_iff_le, Bool.and_eq_true, decide_eq_true_eq] at h
  exact h

theorem head_pfracGo (f : PyStr) : ∀ (k : Nat) (pre : PyStr) , f.length ≤ k → f ≠ [] →
    (∀ c ∈ f, c.isDigit = true) →
    (pfracGo k pre.length (decimal pre) f).head? =
      some (decimal (pre ++ f) * 10 ^ (6 - (pre ++ f).length), []) := by
  induction f with
  | nil => intro k pre _ h; exact absurd rfl h
  | cons c f ih =>
    intro k pre hk _ hd
    obtain ⟨k, rfl⟩ : ∃ k', k = k' + 1 := ⟨k - 1, by simp at hk; omega⟩
    have hc := isDigit_range (hd c (by simp))
    simp only [pfracGo, if_pos hc]
    have hd' : 10 * decimal pre + digitVal c = decimal (pre ++ [c]) := (decimal_append _ _).symm
    rw [hd']
    by_cases hf : f = []
    · subst hf
      have : pfracGo k (pre.length + 1) (decimal (pre ++ [c])) [] = [] := by
        cases k <;> rfl
      rw [this]
      simp
    · have := ih k (pre ++ [c]) (by simp at hk; omega) hf
        (fun x hx => hd x (List.mem_cons_of_mem _ hx))
      simp only [List.length_append, List.length_cons, List.length_nil] at this
      rw [Nat.zero_add] at this
      rw [List.head?_append, this]
      simp [Nat.add_comm, Nat.add_left_comm]

/-- C13, the value: the fraction is read as microseconds, rounded down. -/
theorem fraction_value (pad : Bool) (dt : DT) (f : PyStr) (hv : Valid dt)
    (hy : pad = true ∨ 1000 ≤ dt.year) (hf : ∀ c ∈ f, c.isDigit = true) (hne : f ≠ []) :
    datetimeDeserializer (dateStr pad dt.year dt.month dt.day ++ 'T' ::
        timeStr dt.hour dt.minute dt.second ++ '.' :: (f ++ "Z".toList)) =
      .ok { dt with micro := decimal (f.take 6) * 10 ^ (6 - (f.take 6).length),
                    tz := some Tz.utc } := by
  have h := (fieldsOk_iff dt).2 hv
  have hbody := body_noDot pad dt
  unfold bodyStr at hbody
  rw [datetimeDeserializer_frac hbody hf hne (by decide)
    (by intro c hc; injection hc with hc; subst hc; rfl)]
  generalize hg : f.take 6 = g
  have hg6 : g.length ≤ 6 := by rw [← hg]; simp
  have hgd : ∀ c ∈ g, c.isDigit = true := by
    rw [← hg]; exact fun c hc => hf c (List.mem_of_mem_take hc)
  have hgne : g ≠ [] := by
    rw [← hg]
    cases f with
    | nil => exact absurd rfl hne
    | cons c f => simp
  have hmicro : decimal g * 10 ^ (6 - g.length) < 1000000 := by
    have hdec : ∀ l : PyStr, (∀ c ∈ l, c.isDigit = true) → decimal l < 10 ^ l.length := by
      intro l
      induction l using List.reverseRecOn with
      | nil => intro; decide
      | append_singleton l c ih =>
        intro hl
        have h1 := ih (fun x hx => hl x (by simp [hx]))
        have h2 := isDigit_range (hl c (by simp))
        have h3 : c.toNat ≤ 57 := h2.2
        rw [decimal_append, List.length_append, List.length_singleton, pow_succ]
        omega
    have h1 := hdec g hgd
    have h2 : 10 ^ g.length * 10 ^ (6 - g.length) = 1000000 := by
      rw [← pow_add, Nat.add_sub_cancel' hg6]; rfl
    calc _ < 10 ^ g.length * 10 ^ (6 - g.length) :=
          Nat.mul_lt_mul_of_pos_right h1 (by positivity)
      _ = _ := h2
  have hm : fullMatch (pDatetime true) (dateStr pad dt.year dt.month dt.day ++ 'T' ::
      timeStr dt.hour dt.minute dt.second ++ '.' :: g) =
      .ok ((dt.year, dt.month, dt.day), (dt.hour, dt.minute, dt.second),
        decimal g * 10 ^ (6 - g.length)) := by
    apply fullMatch_of_head
    unfold pDatetime
    rw [List.append_assoc, List.cons_append]
    refine head_bind (head_pDate hy h.year2 h.month1 h.month2 h.day1
      (h.day2.trans (daysInMonth_le _ _)) _) ?_
    refine head_bind (head_plit _ _) ?_
    refine head_bind (head_pTime h.hour h.minute h.second _) ?_
    rw [if_pos rfl]
    refine head_bind (head_plit _ _) ?_
    have := head_pfracGo g 6 [] hg6 hgne hgd
    exact head_bind this rfl
  have hl : (dateStr pad dt.year dt.month dt.day ++ 'T' ::
      timeStr dt.hour dt.minute dt.second ++ '.' :: (g ++ "Z".toList)) =
      (dateStr pad dt.year dt.month dt.day ++ 'T' ::
      timeStr dt.hour dt.minute dt.second ++ '.' :: g) ++ ['Z'] := by simp
  unfold getDatetimeInst
  rw [hl, getLast?_append_cons]
  simp only [datetimeUtcInst, List.dropLast_concat, strptime, hm, bind, Except.bind]
  have := mkDatetime_ok (dt := { dt with micro := decimal g * 10 ^ (6 - g.length) })
    ⟨h.year1, h.year2, h.month1, h.month2, h.day1, h.day2, h.hour, h.minute, h.second, hmicro⟩
  simp only at this
  rw [this]
  rfl

/-- Nanoseconds. -/
example : datetimeDeserializer "2024-02-29T23:59:59.123456789Z".toList =
    .ok ⟨2024, 2, 29, 23, 59, 59, 123456, some Tz.utc⟩ :=
  fraction_value true ⟨2024, 2, 29, 23, 59, 59, 0, none⟩ "123456789".toList
    (by refine ⟨?_, ?_, ?_, ?_, ?_, ?_, ?_⟩ <;> decide) (.inl rfl) (by decide) (by decide)

/-! ## C14 – round trip of dates -/

theorem pdig_none {c : Char} {r : PyStr} (h : ¬ ('0' ≤ c ∧ c ≤ '9')) :
    pdig '0' '9' (c :: r) = [] := by
  simp only [pdig, if_neg h]

/-- C14, exactly when the round trip works. -/
theorem date_roundtrip_iff (pad : Bool) (d : Date)
    (hv : Valid ⟨d.year, d.month, d.day, 0, 0, 0, 0, none⟩) :
    dateDeserializer (dateSerializer pad d) = .ok d ↔ (pad = true ∨ 1000 ≤ d.year) := by
  have h := (fieldsOk_iff _).2 hv
  have hlast : (dateStr pad d.year d.month d.day).getLast? = some (digit d.day) := by
    simp [dateStr, pad2, List.getLast?_append, List.getLast?_cons]
  have hnz : digit d.day ≠ 'Z' := by
    intro he
    have := digit_range d.day
    rw [he] at this
    revert this; decide
  have hget : getDatetimeInst (dateStr pad d.year d.month d.day) .date =
      strptime (dateStr pad d.year d.month d.day) .date := by
    unfold getDatetimeInst
    rw [hlast]
    split
    · next h => cases h
    · next h => injection h with h; exact absurd h hnz
    · rfl
  unfold dateDeserializer dateSerializer
  rw [hget]
  constructor
  · intro hr
    by_contra hc
    simp only [not_or, Bool.not_eq_true, not_le] at hc
    obtain ⟨rfl, hc⟩ := hc
    have hdash : ¬ ('0' ≤ '-' ∧ '-' ≤ '9') := by decide
    have hp : pDate (dateStr false d.year d.month d.day) = [] := by
      have hpy : pY (dateStr false d.year d.month d.day) = [] := by
        unfold dateStr yearStr
        rw [if_neg (by simp; omega)]
        split
        · simp [pY, P.bind, pdig2, pdig_digit, pdig_none hdash]
        · split
          · simp [pad2, pY, P.bind, pdig2, pdig_digit, pdig_none hdash]
          · simp [pY, P.bind, pdig2, pdig_digit, pdig_none hdash]
      simp [pDate, P.bind, hpy]
    simp only [strptime, fullMatch, hp] at hr
    cases hr
  · intro hy
    have hm : fullMatch pDate (dateStr pad d.year d.month d.day) = .ok (d.year, d.month, d.day) := by
      apply fullMatch_of_head
      have := head_pDate hy h.year2 h.month1 h.month2 h.day1
        (h.day2.trans (daysInMonth_le _ _)) []
      rwa [List.append_nil] at this
    simp only [strptime, hm, bind, Except.bind]
    have := mkDatetime_ok h
    simp only at this
    rw [this]
    rfl

/-- C14 (missing: years below 1000 on platforms that do not pad them, where the
round trip fails by `date_roundtrip_iff`). -/
theorem date_roundtrip_partial (pad : Bool) (d : Date)
    (hv : Valid ⟨d.year, d.month, d.day, 0, 0, 0, 0, none⟩) (hy : pad = true ∨ 1000 ≤ d.year) :
    dateDeserializer (dateSerializer pad d) = .ok d :=
  (date_roundtrip_iff pad d hv).2 hy

example : Valid ⟨2024, 2, 29, 0, 0, 0, 0, none⟩ ∧
    dateSerializer false ⟨2024, 2, 29⟩ = "2024-02-29".toList := by
  refine ⟨⟨?_, ?_, ?_, ?_, ?_, ?_, ?_⟩, ?_⟩ <;> decide

/-! ## C15 – round trip of times -/

/-- C15 is false in general; it is right exactly for times without microseconds
and without a time zone. -/
theorem time_roundtrip_iff (t : Time) (hh : t.hour < 24) (hm : t.minute < 60) (hs : t.second < 60)
    (hu : t.micro < 1000000) :
    timeDeserializer (timeSerializer t) = .ok t ↔ (t.micro = 0 ∧ t.tz = none) := by
  obtain ⟨hour, minute, second, micro, tz⟩ := t
  simp only at hh hm hs hu ⊢
  have hlast : (timeSerializer ⟨hour, minute, second, micro, tz⟩).getLast? =
      some (digit (if micro = 0 then second else micro)) := by
    unfold timeSerializer
    by_cases hz : micro = 0 <;>
      simp [hz, timeStr, pad2, pad6, List.getLast?_cons]
  have hget : getDatetimeInst (timeSerializer ⟨hour, minute, second, micro, tz⟩) .time =
      strptime (timeSerializer ⟨hour, minute, second, micro, tz⟩) .time := by
    unfold getDatetimeInst
    rw [hlast]
    split
    · next h => cases h
    · next h =>
      injection h with h
      have := digit_range (if micro = 0 then second else micro)
      rw [h] at this
      exact absurd this (by decide)
    · rfl
  unfold timeDeserializer
  rw [hget]
  by_cases hz : micro = 0
  · subst hz
    have hmatch : fullMatch pTime (timeStr hour minute second) = .ok (hour, minute, second) := by
      apply fullMatch_of_head
      have := head_pTime hh hm hs []
      rwa [List.append_nil] at this
    have hmk : mkDatetime 1900 1 1 hour minute second 0 =
        .ok ⟨1900, 1, 1, hour, minute, second, 0, none⟩ := by
      unfold mkDatetime
      rw [if_pos]
      refine ⟨?_, ?_, ?_, ?_, ?_, ?_, hh, hm, hs, ?_⟩ <;> decide
    simp only [timeSerializer, bne_self_eq_false, Bool.false_eq_true, if_false, List.append_nil,
      strptime, hmatch, bind, Except.bind, hmk, true_and]
    show (Except.ok _ = Except.ok _) ↔ _
    simp only [Except.ok.injEq, Time.mk.injEq, true_and]
    exact eq_comm
  · constructor
    · intro hr
      exfalso
      have hh := head_pTime hh hm hs ('.' :: pad6 micro)
      have hfm : fullMatch pTime (timeStr hour minute second ++ '.' :: pad6 micro) =
          .error .valueError := by
        unfold fullMatch
        split
        · rfl
        · next heq => rw [heq] at hh; simp at hh
        · rfl
      have htx : timeSerializer ⟨hour, minute, second, micro, tz⟩ =
          timeStr hour minute second ++ '.' :: pad6 micro := by
        unfold timeSerializer
        simp [hz]
      simp only [htx, strptime, hfm, bind, Except.bind] at hr
      cases hr
    · intro h; exact absurd h.1 hz

/-- C15, what holds (missing: times with microseconds, which cannot be loaded, and
times with a time zone, which lose it). -/
theorem time_roundtrip_partial (t : Time) (hh : t.hour < 24) (hm : t.minute < 60)
    (hs : t.second < 60) (hu : t.micro = 0) (htz : t.tz = none) :
    timeDeserializer (timeSerializer t) = .ok t :=
  (time_roundtrip_iff t hh hm hs (by omega)).2 ⟨hu, htz⟩

example : timeDeserializer (timeSerializer ⟨23, 59, 59, 0, none⟩) = .ok ⟨23, 59, 59, 0, none⟩ :=
  time_roundtrip_partial _ (by decide) (by decide) (by decide) rfl rfl

/-- C15 is false: a time with microseconds cannot be loaded, and one with a time
zone loses it. -/
theorem time_roundtrip_false :
    timeDeserializer (timeSerializer ⟨23, 59, 59, 500000, none⟩) = .error .valueError ∧
    timeDeserializer (timeSerializer ⟨23, 59, 59, 0, some 3600000000⟩) =
      .ok ⟨23, 59, 59, 0, none⟩ := by
  refine ⟨by rfl, by rfl⟩

/-! ## C16 – whatever loads is valid -/

theorem strptime_valid {s : PyStr} {p : Pattern} {dt : DT} (h : strptime s p = .ok dt) :
    FieldsOk dt ∧ dt.tz = none := by
  cases p <;> simp only [strptime, bind, Except.bind] at h <;> split at h
  all_goals first | cases h | exact mkDatetime_valid h

theorem mkTimezone_valid {a b : Int} {tz : Tz} (h : mkTimezone a b = .ok tz) :
    ∃ off, tz.offAt = some off ∧ |off| < 86400000000 ∧ off % 60000000 = 0 := by
  unfold mkTimezone at h
  simp only at h
  split at h
  · cases h
  · split at h
    · injection h with h
      subst h
      refine ⟨_, rfl, ?_, ?_⟩
      · rw [abs_lt]; omega
      · omega
    · cases h

theorem bind_ok {α β : Type} {x : Except ErrKind α} {k : α → Except ErrKind β} {b : β}
    (h : (x >>= k) = .ok b) : ∃ a, x = .ok a ∧ k a = .ok b := by
  cases x with
  | error e => cases h
  | ok a => exact ⟨a, rfl, h⟩

theorem getDatetimeInst_valid {s : PyStr} {p : Pattern} {dt : DT}
    (h : getDatetimeInst s p = .ok dt) :
    FieldsOk dt ∧ ∀ tz, dt.tz = some tz →
      ∃ off, tz.offAt = some off ∧ |off| < 86400000000 ∧ off % 60000000 = 0 := by
  have hfields : ∀ {d : DT} (t : Option Tz), FieldsOk d → FieldsOk { d with tz := t } :=
    fun t h => ⟨h.1, h.2, h.3, h.4, h.5, h.6, h.7, h.8, h.9, h.10⟩
  unfold getDatetimeInst at h
  split at h
  · cases h
  · unfold datetimeUtcInst at h
    obtain ⟨d, h1, h2⟩ := bind_ok h
    injection h2 with h2
    subst h2
    refine ⟨hfields _ (strptime_valid h1).1, ?_⟩
    intro tz htz
    injection htz with htz
    subst htz
    exact ⟨0, rfl, by decide, by decide⟩
  · split at h
    · unfold datetimeOffsetInst at h
      obtain ⟨⟨dat, tim⟩, _, h⟩ := bind_ok h
      simp only at h
      obtain ⟨⟨naive, offset⟩, _, h⟩ := bind_ok h
      obtain ⟨d, h1, h⟩ := bind_ok h
      obtain ⟨⟨hs, ms⟩, _, h⟩ := bind_ok h
      obtain ⟨hrs, _, h⟩ := bind_ok h
      obtain ⟨mins, _, h⟩ := bind_ok h
      obtain ⟨tz, h2, h⟩ := bind_ok h
      injection h with h
      subst h
      refine ⟨hfields _ (strptime_valid h1).1, ?_⟩
      intro tz' htz
      injection htz with htz
      subst htz
      exact mkTimezone_valid h2
    · have := strptime_valid h
      refine ⟨this.1, ?_⟩
      intro tz htz
      rw [this.2] at htz
      cases htz

theorem getDatetimeInst_aware {s : PyStr} {f : Bool} {dt : DT}
    (h : getDatetimeInst s (.datetime f) = .ok dt) : ∃ tz, dt.tz = some tz := by
  unfold getDatetimeInst at h
  split at h
  · cases h
  · unfold datetimeUtcInst at h
    obtain ⟨d, h1, h2⟩ := bind_ok h
    injection h2 with h2
    subst h2
    exact ⟨_, rfl⟩
  · unfold datetimeOffsetInst at h
    obtain ⟨⟨dat, tim⟩, _, h⟩ := bind_ok h
    simp only at h
    obtain ⟨⟨naive, offset⟩, _, h⟩ := bind_ok h
    obtain ⟨d, h1, h⟩ := bind_ok h
    obtain ⟨⟨hs, ms⟩, _, h⟩ := bind_ok h
    obtain ⟨hrs, _, h⟩ := bind_ok h
    obtain ⟨mins, _, h⟩ := bind_ok h
    obtain ⟨tz, h2, h⟩ := bind_ok h
    injection h with h
    subst h
    exact ⟨_, rfl⟩

/-- C16: every text that loads as a datetime gives a valid, aware datetime with an
offset of less than 24 hours in whole minutes. -/
theorem loaded_datetime_valid (s : PyStr) (dt : DT) (h : datetimeDeserializer s = .ok dt) :
    Valid dt ∧ ∃ tz off, dt.tz = some tz ∧ tz.offAt = some off ∧ |off| < 86400000000 ∧
      off % 60000000 = 0 := by
  have key : ∃ s' f, getDatetimeInst s' (.datetime f) = .ok dt := by
    unfold datetimeDeserializer at h
    split at h
    · split at h
      · cases h
      · exact ⟨_, _, h⟩
    · exact ⟨_, _, h⟩
  obtain ⟨s', f, hk⟩ := key
  have hv := getDatetimeInst_valid hk
  obtain ⟨tz, htz⟩ := getDatetimeInst_aware hk
  obtain ⟨off, h1, h2, h3⟩ := hv.2 tz htz
  exact ⟨(fieldsOk_iff _).1 hv.1, tz, off, htz, h1, h2, h3⟩

/-- C16 for dates. -/
theorem loaded_date_valid (s : PyStr) (d : Date) (h : dateDeserializer s = .ok d) :
    Valid ⟨d.year, d.month, d.day, 0, 0, 0, 0, none⟩ := by
  obtain ⟨dt, h1, h2⟩ := bind_ok h
  injection h2 with h2
  subst h2
  have := (getDatetimeInst_valid h1).1
  exact (fieldsOk_iff _).1 ⟨this.1, this.2, this.3, this.4, this.5, this.6, by simp, by simp,
    by simp, by simp⟩

/-- C16 for times. -/
theorem loaded_time_valid (s : PyStr) (t : Time) (h : timeDeserializer s = .ok t) :
    t.hour < 24 ∧ t.minute < 60 ∧ t.second < 60 ∧ t.micro < 1000000 ∧ t.tz = none := by
  obtain ⟨dt, h1, h2⟩ := bind_ok h
  injection h2 with h2
  subst h2
  have := (getDatetimeInst_valid h1).1
  exact ⟨this.hour, this.minute, this.second, this.micro, rfl⟩

/-- Texts that load, and texts of dates that do not exist. -/
example : datetimeDeserializer "2024-02-29T23:59:59-03:30".toList =
      .ok ⟨2024, 2, 29, 23, 59, 59, 0, some (Tz.fixed (-210 * 60000000) none)⟩ ∧
    dateDeserializer "2024-02-29".toList = .ok ⟨2024, 2, 29⟩ ∧
    timeDeserializer "1:2:3".toList = .ok ⟨1, 2, 3, 0, none⟩ ∧
    dateDeserializer "2023-02-29".toList = .error .valueError ∧
    datetimeDeserializer "2024-02-29T23:59:60Z".toList = .error .valueError := by
  refine ⟨by rfl, by rfl, by rfl, by rfl, by rfl⟩

end Verif.Props.Datetime
