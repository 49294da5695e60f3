import Verif.Props.RoundTrip

/-! # C10, C12, C14, C15, C16 and C73 for `dump` and `load`

`Verif.Props.Datetime` has the functions of `_datetime_impl.py`; here the same is said of
`dump` and `load` with the default serializers, whatever options are given, and of the
warnings. -/

set_option autoImplicit false

namespace Verif.Props.Times

open Verif Verif.Core Verif.Datetime Verif.Props.Datetime Verif.Props.LoadBasics
  Verif.Props.LoadCollections Verif.Props.RoundTrip

variable {E : LEnv}

/-- The warnings among what happens besides the result. -/
def warnings (l : List Event) : List Event :=
  l.filter fun e => match e with | .warn _ _ => true | _ => false

/-! ## Single calls -/

/-- The warning for datetimes without a time zone. -/
def naiveWarning : Event := .warn "datetime-without-tz".toList []

/-- All of what `to_str` does with a datetime. -/
theorem toStr_eq (E : Env) (dt : DT) (strip : Bool) (fork : Nat) :
    toStr E (.atom (.datetime dt)) strip fork .datetime =
      ⟨if dt.tz.isNone = true ∧ E.warns fork "datetime-without-tz".toList = true then [naiveWarning] else [],
        match datetimeSerializer E.R E.localTz E.pad strip dt with
        | .ok text => .ok (.str text)
        | .error k => .error { kind := k }⟩ := by
  obtain ⟨y, mo, d, h, mi, s, us, tz⟩ := dt
  simp only [toStr, datetimeSerializer]
  cases ho : datetimeOffsetStr E.R E.localTz tz with
  | error k => cases tz <;> cases hw : E.warns fork "datetime-without-tz".toList <;>
      simp only [Env.warn, hw] <;> rfl
  | ok o => cases tz <;> cases hw : E.warns fork "datetime-without-tz".toList <;>
      simp only [Env.warn, hw] <;> rfl

/-- All of what `dump` does with a known serializer. -/
theorem dump_all {E : Env} {n : Nat} {v : Val} {cls : Option Ty} {kw : DumpKw} {f : SerFn}
    (hs : DefaultSers E kw.fork) (hf : (cls.getD (.cls v.cls)).serFn E.info = some f) :
    dump E (n + 2) v cls kw =
      ⟨.announce (cls.getD (.cls v.cls)) kw.fork :: (callSer E (recOf E n) f v cls kw).log,
        match (callSer E (recOf E n) f v cls kw).val with
        | .ok r => .ok r
        | .error e => .error { kind := .serializationError, msg := e.msg }⟩ := by
  show dumpWith E (recOf E (n + 1)) v cls kw = _
  unfold dumpWith
  show (do let fn ← Res.liftK (E.getSer kw.fork (cls.getD (.cls v.cls)))
           Res.emit (.announce (cls.getD (.cls v.cls)) kw.fork)
           match ← (match fn with
             | some f => callSer E (recOf E n) f v cls kw
             | none => Res.raise { kind := .typeError }).attempt with
           | .ok r => pure r
           | .error e => Res.raise { kind := .serializationError, msg := e.msg }) = _
  rw [hs, hf, liftK_of_ok, pure_bind']
  show (do Res.emit (.announce (cls.getD (.cls v.cls)) kw.fork)
           match ← ((callSer E (recOf E n) f v cls kw).attempt) with
           | .ok r => pure r
           | .error e => Res.raise { kind := .serializationError, msg := e.msg }) = _
  obtain ⟨log, val⟩ := callSer E (recOf E n) f v cls kw
  cases val with
  | ok r =>
    show (⟨[_] ++ (log ++ []), _⟩ : Res Val) = _
    simp; rfl
  | error e =>
    show (⟨[_] ++ (log ++ []), _⟩ : Res Val) = _
    simp; rfl

/-- What `load` makes of a text for a class without validators. -/
theorem load_text {E : LEnv} {n : Nat} {s : PyStr} {c : Cls} {f : DesFn} {kw : LoadKw} {r : Val}
    (hd : DefaultDesers E kw.fork) (hv : NoValidators E kw.fork) (hc : c ≠ .str)
    (hf : (Ty.cls c).desFn E.info = some f) :
    (load E (n + 1) (.str s) (some (.cls c)) kw).val = .ok r ↔
      (callDes E (load E n) f (.str s) (.cls c) (kwOf kw none)).val = .ok r := by
  rw [(load_via (n := n) (v := .str s) (t := .cls c) (kw := kw) (f := f) (m := none)
    (by intro h; cases h)
    (by
      rintro (⟨_, h⟩ | h)
      · cases h; exact hc rfl
      · cases h)
    (by simp [Val.cls, Atom.cls, validTypes])
    (noMeta_get (noMeta_of_not_dict (by simp [Val.cls, Atom.cls])) _) (.inr rfl) hd hf (hv _)).1,
    wrapRes_ok]

theorem load_datetime {n : Nat} {s : PyStr} {kw : LoadKw} {r : Val}
    (hd : DefaultDesers E kw.fork) (hv : NoValidators E kw.fork) :
    (load E (n + 1) (.str s) (some (.cls .datetime)) kw).val = .ok r ↔
      ∃ dt, datetimeDeserializer s = .ok dt ∧ r = .atom (.datetime dt) := by
  rw [load_text hd hv (by decide) rfl]
  show (datetimeDes (.str s)).val = _ ↔ _
  unfold datetimeDes
  cases h : datetimeDeserializer s with
  | error k => simp [h, Except.map, Res.liftK]
  | ok x => simp [h, Except.map, Res.liftK, Res.ret, eq_comm]

theorem load_date {n : Nat} {s : PyStr} {kw : LoadKw} {r : Val}
    (hd : DefaultDesers E kw.fork) (hv : NoValidators E kw.fork) :
    (load E (n + 1) (.str s) (some (.cls .date)) kw).val = .ok r ↔
      ∃ d, dateDeserializer s = .ok d ∧ r = .atom (.date d) := by
  rw [load_text hd hv (by decide) rfl]
  show (dateDes (.str s)).val = _ ↔ _
  unfold dateDes
  cases h : dateDeserializer s with
  | error k => simp [h, Except.map, Res.liftK]
  | ok x => simp [h, Except.map, Res.liftK, Res.ret, eq_comm]

theorem load_time {n : Nat} {s : PyStr} {kw : LoadKw} {r : Val}
    (hd : DefaultDesers E kw.fork) (hv : NoValidators E kw.fork) :
    (load E (n + 1) (.str s) (some (.cls .time)) kw).val = .ok r ↔
      ∃ t, timeDeserializer s = .ok t ∧ r = .atom (.time t) := by
  rw [load_text hd hv (by decide) rfl]
  show (timeDes (.str s)).val = _ ↔ _
  unfold timeDes
  cases h : timeDeserializer s with
  | error k => simp [h, Except.map, Res.liftK]
  | ok x => simp [h, Except.map, Res.liftK, Res.ret, eq_comm]

/-- All of what `dump` does with a datetime. -/
theorem dump_datetime {E : Env} {n : Nat} {dt : DT} {cls : Option Ty} {kw : DumpKw}
    (hs : DefaultSers E kw.fork) (hc : cls = none ∨ cls = some (.cls .datetime)) :
    dump E (n + 2) (.atom (.datetime dt)) cls kw =
      ⟨.announce (.cls .datetime) kw.fork ::
        (if dt.tz.isNone = true ∧ E.warns kw.fork "datetime-without-tz".toList = true
          then [naiveWarning] else []),
        match datetimeSerializer E.R E.localTz E.pad kw.stripMicroseconds dt with
        | .ok text => .ok (.str text)
        | .error _ => .error { kind := .serializationError }⟩ := by
  rw [dump_all (f := .datetime) hs (by rcases hc with rfl | rfl <;> rfl)]
  have h1 : callSer E (recOf E n) .datetime (.atom (.datetime dt)) cls kw = _ :=
    toStr_eq E dt kw.stripMicroseconds kw.fork
  have h2 : cls.getD (.cls (Val.atom (.datetime dt)).cls) = .cls .datetime := by
    rcases hc with rfl | rfl <;> rfl
  rw [h1, h2]
  cases datetimeSerializer E.R E.localTz E.pad kw.stripMicroseconds dt <;> rfl

/-! ## C10 – datetimes -/

/-- C10 for `dump` and `load` (exact): a valid aware datetime is dumped to a text without
a warning, whatever the options; this is loaded as a datetime with the same fields,
except for the microseconds with `strip_microseconds`, and with the same offset exactly
if that is writable. -/
theorem datetime_dump_load_iff (E : LEnv) (n m : Nat) (dt : DT) (tz : Tz) (off : Int)
    (cls : Option Ty) (kw : DumpKw) (kw' : LoadKw) (hs : DefaultSers E.toEnv kw.fork)
    (hd : DefaultDesers E kw'.fork) (hv : NoValidators E kw'.fork)
    (hc : cls = none ∨ cls = some (.cls .datetime)) (hval : Valid dt)
    (hy : E.pad = true ∨ 1000 ≤ dt.year) (htz : dt.tz = some tz) (ho : HasOffset tz off)
    (hb : |off| < 86400000000) :
    ∃ j dt' tz' off', (dump E.toEnv (n + 2) (.atom (.datetime dt)) cls kw).val = .ok j ∧
      warnings (dump E.toEnv (n + 2) (.atom (.datetime dt)) cls kw).log = [] ∧
      (load E (m + 1) j (some (.cls .datetime)) kw').val = .ok (.atom (.datetime dt')) ∧
      dt' = { dt with micro := if kw.stripMicroseconds then 0 else dt.micro, tz := some tz' } ∧
      HasOffset tz' off' ∧ (off' = off ↔ WritableOffset off) := by
  obtain ⟨text, dt', tz', off', h1, h2, h3, h4, h5⟩ :=
    datetime_roundtrip_iff E.R E.localTz E.pad kw.stripMicroseconds dt tz off hval hy htz ho hb
  refine ⟨.str text, dt', tz', off', ?_, ?_, (load_datetime hd hv).2 ⟨_, h2, rfl⟩, h3, h4, h5⟩
  · rw [dump_datetime hs hc, h1]
  · rw [dump_datetime hs hc, htz]
    rfl

/-! ## C12 – the shape of the text -/

/-- C12 for `dump`: every datetime, naive ones too, is dumped to an RFC 3339 text, which
has a fraction exactly if there are microseconds and they are not stripped. -/
theorem datetime_dump_shape (E : Env) (n : Nat) (dt : DT) (cls : Option Ty) (kw : DumpKw)
    (hs : DefaultSers E kw.fork) (hc : cls = none ∨ cls = some (.cls .datetime))
    (hy : E.pad = true ∨ 1000 ≤ dt.year)
    (hz : ∀ z, dt.tz = some z → ∃ off, HasOffset z off ∧ |off| < 86400000000) :
    ∃ text, (dump E (n + 2) (.atom (.datetime dt)) cls kw).val = .ok (.str text) ∧
      (∃ t ∈ rfc3339Shapes, fits t text = true) ∧
      ('.' ∈ text ↔ kw.stripMicroseconds = false ∧ dt.micro ≠ 0) := by
  obtain ⟨text, h1, h2, h3, h4, h5⟩ :=
    datetime_shape E.R E.localTz E.pad kw.stripMicroseconds dt hy hz
  refine ⟨text, by rw [dump_datetime hs hc, h1], h2, ?_, fun h => h4 h.1 h.2⟩
  intro h
  refine ⟨?_, fun h0 => h5 h0 h⟩
  cases hk : kw.stripMicroseconds with
  | false => rfl
  | true => exact absurd h (h3 hk)

/-! ## C73 – naive datetimes -/

/-- C73 for `dump`: a datetime without time zone is dumped with the offset zero, whatever
the local time zone is, and with exactly one warning, if that is not suppressed. -/
theorem naive_dump (E : Env) (n : Nat) (dt : DT) (cls : Option Ty) (kw : DumpKw)
    (hs : DefaultSers E kw.fork) (hc : cls = none ∨ cls = some (.cls .datetime))
    (htz : dt.tz = none) :
    (∃ body, (dump E (n + 2) (.atom (.datetime dt)) cls kw).val
      = .ok (.str (body ++ "+00:00".toList))) ∧
    warnings (dump E (n + 2) (.atom (.datetime dt)) cls kw).log =
      if E.warns kw.fork "datetime-without-tz".toList = true then [naiveWarning] else [] := by
  obtain ⟨body, h1, -⟩ := naive_written_as_utc E.R E.localTz E.pad kw.stripMicroseconds dt htz
  rw [dump_datetime hs hc, htz, h1]
  refine ⟨⟨body, rfl⟩, ?_⟩
  cases E.warns kw.fork "datetime-without-tz".toList <;> rfl

/-- C73, `_partial` (the local time zone is UTC): a naive datetime is loaded as the same
local time. -/
theorem naive_dump_load_partial (E : LEnv) (n m : Nat) (dt : DT)
    (cls : Option Ty) (kw : DumpKw) (kw' : LoadKw) (hs : DefaultSers E.toEnv kw.fork)
    (hd : DefaultDesers E kw'.fork) (hv : NoValidators E kw'.fork)
    (hc : cls = none ∨ cls = some (.cls .datetime)) (hval : Valid dt)
    (hy : E.pad = true ∨ 1000 ≤ dt.year) (htz : dt.tz = none) (hl : HasOffset E.localTz 0) :
    ∃ j tz', (dump E.toEnv (n + 2) (.atom (.datetime dt)) cls kw).val = .ok j ∧
      (load E (m + 1) j (some (.cls .datetime)) kw').val = .ok (.atom (.datetime
        { dt with micro := if kw.stripMicroseconds then 0 else dt.micro, tz := some tz' })) ∧
      tz'.offAt = E.localTz.offAt := by
  obtain ⟨text, tz', h1, h2, _, h4⟩ :=
    naive_roundtrip_partial E.R E.localTz E.pad kw.stripMicroseconds dt hval hy htz hl
  exact ⟨.str text, tz', by rw [dump_datetime hs hc, h1], (load_datetime hd hv).2 ⟨_, h2, rfl⟩, h4⟩

/-! ## C14 and C15 – dates and times -/

/-- C14 for `dump` and `load`: exactly when a date comes back. -/
theorem date_dump_load_iff (E : LEnv) (n m : Nat) (d : Date) (cls : Option Ty) (kw : DumpKw)
    (kw' : LoadKw) (hs : DefaultSers E.toEnv kw.fork) (hd : DefaultDesers E kw'.fork)
    (hv : NoValidators E kw'.fork) (hc : cls = none ∨ cls = some (.cls .date))
    (hval : Valid ⟨d.year, d.month, d.day, 0, 0, 0, 0, none⟩) :
    ∃ j, (dump E.toEnv (n + 2) (.atom (.date d)) cls kw).val = .ok j ∧
      ((load E (m + 1) j (some (.cls .date)) kw').val = .ok (.atom (.date d)) ↔
        (E.pad = true ∨ 1000 ≤ d.year)) := by
  refine ⟨.str (dateSerializer E.pad d), ?_, ?_⟩
  · rw [dump_via (f := .date) hs (by rcases hc with rfl | rfl <;> rfl)]
    rfl
  · rw [load_date hd hv, ← date_roundtrip_iff E.pad d hval]
    simp

/-- C15 for `dump` and `load`: exactly when a time comes back; and that a time is dumped
with its microseconds, whatever the options. -/
theorem time_dump_load_iff (E : LEnv) (n m : Nat) (t : Time) (cls : Option Ty) (kw : DumpKw)
    (kw' : LoadKw) (hs : DefaultSers E.toEnv kw.fork) (hd : DefaultDesers E kw'.fork)
    (hv : NoValidators E kw'.fork) (hc : cls = none ∨ cls = some (.cls .time))
    (hh : t.hour < 24) (hm : t.minute < 60) (hsec : t.second < 60) (hu : t.micro < 1000000) :
    ∃ text, (dump E.toEnv (n + 2) (.atom (.time t)) cls kw).val = .ok (.str text) ∧
      (fits (if t.micro = 0 then "dd:dd:dd".toList else "dd:dd:dd.dddddd".toList) text = true) ∧
      ((load E (m + 1) (.str text) (some (.cls .time)) kw').val = .ok (.atom (.time t)) ↔
        (t.micro = 0 ∧ t.tz = none)) := by
  refine ⟨timeSerializer t, ?_, ?_, ?_⟩
  · rw [dump_via (f := .time) hs (by rcases hc with rfl | rfl <;> rfl)]
    show (Except.ok _ : Except Err Val) = _
    simp [strfBody, fracOf, timeSerializer]
  · unfold timeSerializer
    split
    · next h => simpa [h] using fits_time t.hour t.minute t.second
    · next h =>
      have := fits_append (fits_time t.hour t.minute t.second)
        (fits_append (t := ['.']) (s := ['.']) rfl (fits_pad6 t.micro))
      simpa [h] using this
  · rw [load_time hd hv, ← time_roundtrip_iff t hh hm hsec hu]
    simp

/-! ## C16 – what is loaded -/

/-- C16 for `load`: what a text is loaded as is a valid and aware datetime. -/
theorem load_datetime_valid (E : LEnv) (n : Nat) (s : PyStr) (kw : LoadKw) (r : Val)
    (hd : DefaultDesers E kw.fork) (hv : NoValidators E kw.fork)
    (h : (load E (n + 1) (.str s) (some (.cls .datetime)) kw).val = .ok r) :
    ∃ dt tz off, r = .atom (.datetime dt) ∧ Valid dt ∧ dt.tz = some tz ∧ tz.offAt = some off ∧
      |off| < 86400000000 ∧ off % 60000000 = 0 := by
  obtain ⟨dt, h1, rfl⟩ := (load_datetime hd hv).1 h
  obtain ⟨h2, tz, off, h3⟩ := loaded_datetime_valid s dt h1
  exact ⟨dt, tz, off, rfl, h2, h3⟩

theorem load_date_valid (E : LEnv) (n : Nat) (s : PyStr) (kw : LoadKw) (r : Val)
    (hd : DefaultDesers E kw.fork) (hv : NoValidators E kw.fork)
    (h : (load E (n + 1) (.str s) (some (.cls .date)) kw).val = .ok r) :
    ∃ d, r = .atom (.date d) ∧ Valid ⟨d.year, d.month, d.day, 0, 0, 0, 0, none⟩ := by
  obtain ⟨d, h1, rfl⟩ := (load_date hd hv).1 h
  exact ⟨d, rfl, loaded_date_valid s d h1⟩

theorem load_time_valid (E : LEnv) (n : Nat) (s : PyStr) (kw : LoadKw) (r : Val)
    (hd : DefaultDesers E kw.fork) (hv : NoValidators E kw.fork)
    (h : (load E (n + 1) (.str s) (some (.cls .time)) kw).val = .ok r) :
    ∃ t, r = .atom (.time t) ∧ t.hour < 24 ∧ t.minute < 60 ∧ t.second < 60 ∧ t.micro < 1000000 ∧
      t.tz = none := by
  obtain ⟨t, h1, rfl⟩ := (load_time hd hv).1 h
  exact ⟨t, rfl, loaded_time_valid s t h1⟩

/-! ## Examples -/

/-- The hypotheses of C10, C12 are met by `leapDay`. -/
example : ∃ j dt' tz' off',
    (dump (demoEnv demoInfo) 2 (.atom (.datetime leapDay)) none {}).val = .ok j ∧
      warnings (dump (demoEnv demoInfo) 2 (.atom (.datetime leapDay)) none {}).log = [] ∧
      (load (demoLEnv demoInfo) 1 j (some (.cls .datetime)) {}).val = .ok (.atom (.datetime dt')) ∧
      dt' = { leapDay with micro := 1, tz := some tz' } ∧
      HasOffset tz' off' ∧ (off' = 345 * 60000000 ↔ WritableOffset (345 * 60000000)) :=
  datetime_dump_load_iff (demoLEnv demoInfo) 0 0 leapDay _ _ none {} {} (demo_sers 0)
    (demo_desers 0) (demo_novals 0) (.inl rfl) leapDay_valid (.inr (by decide)) rfl
    ⟨rfl, .inr rfl, .inl rfl, by decide⟩ (by decide)

/-- Noon without a time zone. -/
example : (dump (demoEnv demoInfo) 2 (.atom (.datetime ⟨2024, 2, 29, 12, 0, 0, 0, none⟩)) none {}).val
      = .ok (.str "2024-02-29T12:00:00+00:00".toList) ∧
    warnings (dump (demoEnv demoInfo) 2 (.atom (.datetime ⟨2024, 2, 29, 12, 0, 0, 0, none⟩)) none {}).log
      = [naiveWarning] := by
  refine ⟨by rfl, by decide +kernel⟩

/-- C14 and C15: a leap day comes back, a time with microseconds does not. -/
example : (∃ j, (dump (demoEnv demoInfo) 2 (.atom (.date ⟨2024, 2, 29⟩)) none {}).val = .ok j ∧
      ((load (demoLEnv demoInfo) 1 j (some (.cls .date)) {}).val = .ok (.atom (.date ⟨2024, 2, 29⟩)) ↔
        ((demoLEnv demoInfo).pad = true ∨ 1000 ≤ 2024))) ∧
    ∃ text, (dump (demoEnv demoInfo) 2 (.atom (.time ⟨23, 59, 59, 5, none⟩)) none {}).val
        = .ok (.str text) ∧ fits "dd:dd:dd.dddddd".toList text = true ∧
      ((load (demoLEnv demoInfo) 1 (.str text) (some (.cls .time)) {}).val
          = .ok (.atom (.time ⟨23, 59, 59, 5, none⟩)) ↔ (5 = 0 ∧ (none : Option Int) = none)) :=
  ⟨date_dump_load_iff (demoLEnv demoInfo) 0 0 ⟨2024, 2, 29⟩ none {} {} (demo_sers 0) (demo_desers 0)
    (demo_novals 0) (.inl rfl) (by refine ⟨?_, ?_, ?_, ?_, ?_, ?_, ?_⟩ <;> decide),
   time_dump_load_iff (demoLEnv demoInfo) 0 0 ⟨23, 59, 59, 5, none⟩ none {} {} (demo_sers 0)
    (demo_desers 0) (demo_novals 0) (.inl rfl) (by decide) (by decide) (by decide) (by decide)⟩

/-- C16: a text that is loaded. -/
example : (load (demoLEnv demoInfo) 1 (.str "2024-02-29T12:00:00-03:30".toList) (some (.cls .datetime)) {}).val
    = .ok (.atom (.datetime ⟨2024, 2, 29, 12, 0, 0, 0, some (Tz.fixed (-210 * 60000000) none)⟩)) := by
  rfl

end Verif.Props.Times
