import Verif.Py.Err
import Verif.Py.Str
import Verif.Py.Float

/-!
# Model of `/repo/jsons/_datetime_impl.py` and of the (de)serializers of
`datetime`, `date` and `time`

`strftime` and `strptime` are modelled for the patterns used by the code
(`%Y-%m-%d`, `%H:%M:%S`, their combination with `T`, and the suffix `.%f`).
`strptime` follows CPython's `_strptime.py`: a regular expression with ordered
alternatives is matched against a prefix of the string, with backtracking, and
the rest of the string has to be empty.

Simplifications: only ASCII digits are digits; `datetime.now().astimezone()`
(the local zone) is a parameter.
-/

set_option autoImplicit false

namespace Verif.Datetime
open Verif

/-! ## Values -/

/-- A `tzinfo` object as far as `/repo/jsons/_datetime_impl.py` lines 65-78
looks at it: `tzname(None)`, `utcoffset(None)`, `utcoffset(obj)` and the
attribute `adjusted_offset`; offsets are in microseconds. -/
structure Tz where
  name : Option PyStr
  offNone : Option Int
  offAt : Option Int
  adjusted : Option Int
  deriving DecidableEq

/-- A `datetime` instance. -/
structure DT where
  year : Nat
  month : Nat
  day : Nat
  hour : Nat
  minute : Nat
  second : Nat
  micro : Nat
  tz : Option Tz
  deriving DecidableEq

/-- A `date` instance. -/
structure Date where
  year : Nat
  month : Nat
  day : Nat
  deriving DecidableEq

/-- A `time` instance; `tz` is its `utcoffset`, in microseconds. -/
structure Time where
  hour : Nat
  minute : Nat
  second : Nat
  micro : Nat
  tz : Option Int
  deriving DecidableEq

/-! ## Text -/

/-- The character of a digit. -/
def digit (n : Nat) : Char := Char.ofNat (48 + n % 10)

/-- `'%02d'`. -/
def pad2 (n : Nat) : PyStr := [digit (n / 10), digit n]

/-- `'%04d'`. -/
def pad4 (n : Nat) : PyStr := [digit (n / 1000), digit (n / 100), digit (n / 10), digit n]

/-- `'%06d'`. -/
def pad6 (n : Nat) : PyStr :=
  [digit (n / 100000), digit (n / 10000), digit (n / 1000), digit (n / 100), digit (n / 10),
    digit n]

/-- `strftime('%Y')`; on platforms whose C library does not pad (`pad = false`,
e.g. Linux with glibc) years below 1000 have fewer digits. -/
def yearStr (pad : Bool) (y : Nat) : PyStr :=
  if pad || 1000 ≤ y then pad4 y
  else if y < 10 then [digit y]
  else if y < 100 then pad2 y
  else [digit (y / 100), digit (y / 10), digit y]

/-- `strftime` with `RFC3339_DATE_PATTERN`, `/repo/jsons/_datetime_impl.py` line 9. -/
def dateStr (pad : Bool) (y m d : Nat) : PyStr :=
  yearStr pad y ++ '-' :: pad2 m ++ '-' :: pad2 d

/-- `strftime` with `RFC3339_TIME_PATTERN`, `/repo/jsons/_datetime_impl.py` line 10. -/
def timeStr (h m s : Nat) : PyStr :=
  pad2 h ++ ':' :: pad2 m ++ ':' :: pad2 s

/-! ## Dumping -/

/-- `int(x)` of a float: truncation towards zero. -/
def truncQ (x : ℚ) : ℤ := if 0 ≤ x then ⌊x⌋ else -⌊-x⌋

/-- `x % 60` of Python floats: the exact `fmod`, plus 60 (rounded) when it is
negative. -/
def mod60 (R : Rounding) (x : ℚ) : ℚ :=
  if 0 ≤ x then x - 60 * ⌊x / 60⌋
  else
    let f := x + 60 * ⌊-x / 60⌋
    if f = 0 then 0 else R.fl (f + 60)

/-- `_timedelta_offset_str`, `/repo/jsons/_datetime_impl.py` lines 82-94, for a
timedelta of `us` microseconds.  The error is that of `time(...)` (line 91). -/
def timedeltaOffsetStr (R : Rounding) (us : Int) : Except ErrKind PyStr :=
  let offset_s := R.fl ((us : ℚ) / 1000000)                    -- line 88
  let offset_h := truncQ (R.fl (offset_s / 3600))              -- line 89
  let offset_m := truncQ (mod60 R (R.fl (offset_s / 60)))      -- line 90
  if offset_h.natAbs < 24 ∧ offset_m.natAbs < 60 then          -- line 91
    let operator := if 0 < offset_s then '+' else '-'          -- line 92
    .ok (operator :: pad2 offset_h.natAbs ++ ':' :: pad2 offset_m.natAbs)  -- lines 93-94
  else .error .valueError

/-- `tzone.utcoffset(None) or getattr(tzone, 'adjusted_offset',
tzone.utcoffset(obj))`, `/repo/jsons/_datetime_impl.py` lines 76-77; the zero
timedelta is false. -/
def chosenOffset (tz : Tz) : Option Int :=
  match tz.offNone with
  | none => tz.adjusted.or tz.offAt
  | some o => if o = 0 then tz.adjusted.or tz.offAt else some o

/-- `tzone is timezone.utc or tzone.utc is timezone.utc`,
`/repo/jsons/_datetime_impl.py` line 72, for the local zone, which is an instance
of the class `timezone` (that is what `astimezone()` makes).  `tzone.utc` is the
class attribute `timezone.utc` of every such instance, so the second condition
holds whatever the zone is. -/
def utcAttributeIsUtc (_localTz : Tz) : Bool := true

/-- `_datetime_offset_str`, `/repo/jsons/_datetime_impl.py` lines 59-79.
`localTz` is `datetime.now(timezone.utc).astimezone().tzinfo` (line 71).  The
warning of line 68 is not modelled here.  The error is that of
`None.total_seconds()`. -/
def datetimeOffsetStr (R : Rounding) (localTz : Tz) (tz : Option Tz) : Except ErrKind PyStr :=
  match tz with                                                -- line 65
  | none =>                                                    -- line 66
    if utcAttributeIsUtc localTz then .ok "+00:00".toList      -- lines 72-73
    else rest localTz
  | some tzone => rest tzone
where
  /-- lines 74-79 -/
  rest (tzone : Tz) : Except ErrKind PyStr :=
    if tzone.name = some "UTC".toList ∨ tzone.name = some "UTC+00:00".toList then
      .ok "Z".toList                                           -- line 74
    else match chosenOffset tzone with                         -- lines 76-77
      | none => .error .attributeError
      | some us => timedeltaOffsetStr R us                     -- line 78

/-- `default_datetime_serializer`, `/repo/jsons/serializers/default_datetime.py`
lines 7-22, with `to_str`, `/repo/jsons/_datetime_impl.py` lines 15-23. -/
def datetimeSerializer (R : Rounding) (localTz : Tz) (pad strip : Bool) (dt : DT) :
    Except ErrKind PyStr := do
  let offset ← datetimeOffsetStr R localTz dt.tz                       -- line 20
  let frac := if !strip && dt.micro != 0 then '.' :: pad6 dt.micro else []  -- lines 21-22
  return dateStr pad dt.year dt.month dt.day ++ 'T' ::
    timeStr dt.hour dt.minute dt.second ++ frac ++ offset      -- line 23

/-- `default_date_serializer`, `/repo/jsons/serializers/default_date.py` lines
6-16: `get_offset_str` gives `''` (lines 35-40 of `_datetime_impl.py`), and there
are no microseconds. -/
def dateSerializer (pad : Bool) (d : Date) : PyStr :=
  dateStr pad d.year d.month d.day

/-- `default_time_serializer`, `/repo/jsons/serializers/default_time.py` lines
6-15: `get_offset_str` gives `''`, so the time zone is not written. -/
def timeSerializer (t : Time) : PyStr :=
  timeStr t.hour t.minute t.second ++ (if t.micro != 0 then '.' :: pad6 t.micro else [])

/-! ## Loading: `strptime` -/

/-- A part of a regular expression: all ways to match a prefix, the preferred one
first, with the number that was read. -/
abbrev P (α : Type) := PyStr → List (α × PyStr)

/-- Sequence, with backtracking. -/
def P.bind {α β : Type} (p : P α) (k : α → P β) : P β :=
  fun s => (p s).flatMap fun (a, r) => k a r

/-- Ordered alternatives. -/
def P.or {α : Type} (p q : P α) : P α := fun s => p s ++ q s

/-- The value of a digit character. -/
def digitVal (c : Char) : Nat := c.toNat - 48

/-- A character of the pattern; `_strptime` compiles with `IGNORECASE`. -/
def plit (c : Char) : P Unit
  | [] => []
  | d :: r => if d.toLower = c.toLower then [((), r)] else []

/-- One digit in a range, e.g. `[1-9]`. -/
def pdig (lo hi : Char) : P Nat
  | [] => []
  | c :: r => if lo ≤ c ∧ c ≤ hi then [(digitVal c, r)] else []

/-- Two digits in ranges, e.g. `[0-5]\d`. -/
def pdig2 (lo hi lo' hi' : Char) : P Nat :=
  (pdig lo hi).bind fun a => (pdig lo' hi').bind fun b => fun s => [(10 * a + b, s)]

/-- `%Y`: `\d\d\d\d`. -/
def pY : P Nat :=
  (pdig2 '0' '9' '0' '9').bind fun a => (pdig2 '0' '9' '0' '9').bind fun b =>
    fun s => [(100 * a + b, s)]

/-- `%m`: `1[0-2]|0[1-9]|[1-9]`. -/
def pm : P Nat := (pdig2 '1' '1' '0' '2').or ((pdig2 '0' '0' '1' '9').or (pdig '1' '9'))

/-- `%d`: `3[0-1]|[1-2]\d|0[1-9]|[1-9]| [1-9]`. -/
def pd : P Nat :=
  (pdig2 '3' '3' '0' '1').or ((pdig2 '1' '2' '0' '9').or ((pdig2 '0' '0' '1' '9').or
    ((pdig '1' '9').or ((plit ' ').bind fun _ => pdig '1' '9'))))

/-- `%H`: `2[0-3]|[0-1]\d|\d`. -/
def pH : P Nat := (pdig2 '2' '2' '0' '3').or ((pdig2 '0' '1' '0' '9').or (pdig '0' '9'))

/-- `%M`: `[0-5]\d|\d`. -/
def pM : P Nat := (pdig2 '0' '5' '0' '9').or (pdig '0' '9')

/-- `%S`: `6[0-1]|[0-5]\d|\d`. -/
def pS : P Nat := (pdig2 '6' '6' '0' '1').or ((pdig2 '0' '5' '0' '9').or (pdig '0' '9'))

/-- Greedy `[0-9]{1,k}` with the digits read so far as a number `acc` of `n`
digits; the value is scaled to six digits as `_strptime` does. -/
def pfracGo : (k n acc : Nat) → P Nat
  | 0, _, _ => fun _ => []
  | k + 1, n, acc => fun s => match s with
    | [] => []
    | c :: r =>
      if '0' ≤ c ∧ c ≤ '9' then
        let acc' := 10 * acc + digitVal c
        pfracGo k (n + 1) acc' r ++ [(acc' * 10 ^ (6 - (n + 1)), r)]
      else []

/-- `%f`: `[0-9]{1,6}`. -/
def pf : P Nat := pfracGo 6 0 0

/-- `%Y-%m-%d`. -/
def pDate : P (Nat × Nat × Nat) :=
  pY.bind fun y => (plit '-').bind fun _ => pm.bind fun m => (plit '-').bind fun _ =>
    pd.bind fun d => fun s => [((y, m, d), s)]

/-- `%H:%M:%S`. -/
def pTime : P (Nat × Nat × Nat) :=
  pH.bind fun h => (plit ':').bind fun _ => pM.bind fun m => (plit ':').bind fun _ =>
    pS.bind fun sec => fun s => [((h, m, sec), s)]

/-- `%Y-%m-%dT%H:%M:%S`, followed by `.%f` if `frac`. -/
def pDatetime (frac : Bool) : P ((Nat × Nat × Nat) × (Nat × Nat × Nat) × Nat) :=
  pDate.bind fun d => (plit 'T').bind fun _ => pTime.bind fun t =>
    if frac then (plit '.').bind fun _ => pf.bind fun f => fun s => [((d, t, f), s)]
    else fun s => [((d, t, 0), s)]

/-- Leap years of the proleptic Gregorian calendar (`datetime.py`). -/
def isLeap (y : Nat) : Bool := y % 4 == 0 && (y % 100 != 0 || y % 400 == 0)

/-- Days in a month (`datetime.py`). -/
def daysInMonth (y m : Nat) : Nat :=
  match m with
  | 1 => 31 | 2 => if isLeap y then 29 else 28 | 3 => 31 | 4 => 30 | 5 => 31 | 6 => 30
  | 7 => 31 | 8 => 31 | 9 => 30 | 10 => 31 | 11 => 30 | 12 => 31 | _ => 0

/-- The checks of the constructor `datetime(...)`. -/
def mkDatetime (y mo d h mi s us : Nat) : Except ErrKind DT :=
  if 1 ≤ y ∧ y ≤ 9999 ∧ 1 ≤ mo ∧ mo ≤ 12 ∧ 1 ≤ d ∧ d ≤ daysInMonth y mo ∧
      h < 24 ∧ mi < 60 ∧ s < 60 ∧ us < 1000000 then
    .ok ⟨y, mo, d, h, mi, s, us, none⟩
  else .error .valueError

/-- The patterns with which the code calls `strptime`. -/
inductive Pattern where
  /-- `RFC3339_DATE_PATTERN`, `/repo/jsons/_datetime_impl.py` line 9 -/
  | date
  /-- `RFC3339_TIME_PATTERN`, line 10 -/
  | time
  /-- `RFC3339_DATETIME_PATTERN`, line 11, possibly with `.%f`
  (`/repo/jsons/deserializers/default_datetime.py` line 19) -/
  | datetime (frac : Bool)

/-- The rest of the string after the match has to be empty (`unconverted data
remains`); no match at all is a `ValueError` too. -/
def fullMatch {α : Type} (p : P α) (s : PyStr) : Except ErrKind α :=
  match p s with
  | [] => .error .valueError
  | (a, []) :: _ => .ok a
  | (_, _ :: _) :: _ => .error .valueError

/-- `datetime.strptime(s, pattern)`; missing fields are those of 1900-01-01. -/
def strptime (s : PyStr) : Pattern → Except ErrKind DT
  | .date => do
    let (y, m, d) ← fullMatch pDate s
    mkDatetime y m d 0 0 0 0
  | .time => do
    let (h, m, sec) ← fullMatch pTime s
    mkDatetime 1900 1 1 h m sec 0
  | .datetime frac => do
    let ((y, m, d), (h, mi, sec), f) ← fullMatch (pDatetime frac) s
    mkDatetime y m d h mi sec f

/-! ## Loading: the functions of `_datetime_impl.py` -/

/-- White space that `int(str)` ignores at both ends. -/
def isSpace (c : Char) : Bool :=
  c == ' ' || ('\t' ≤ c && c ≤ '\r') || ('\x1c' ≤ c && c ≤ '\x1f')

/-- Digits with single underscores between them. -/
def parseDigits (acc : Nat) : PyStr → Option Nat
  | [] => none
  | [c] => if '0' ≤ c ∧ c ≤ '9' then some (10 * acc + digitVal c) else none
  | c :: '_' :: r =>
    if '0' ≤ c ∧ c ≤ '9' then parseDigits (10 * acc + digitVal c) r else none
  | c :: r => if '0' ≤ c ∧ c ≤ '9' then parseDigits (10 * acc + digitVal c) r else none

/-- `int(s)` in base 10, used in `/repo/jsons/_datetime_impl.py` lines 122-123. -/
def parseInt (s : PyStr) : Except ErrKind Int :=
  let s := (s.dropWhile isSpace).reverse.dropWhile isSpace |>.reverse
  let r : Option Int := match s with
    | '-' :: r => (parseDigits 0 r).map fun n => -(n : Int)
    | '+' :: r => (parseDigits 0 r).map fun n => (n : Int)
    | r => (parseDigits 0 r).map fun n => (n : Int)
  match r with
  | some n => .ok n
  | none => .error .valueError

/-- `timezone.utc`. -/
def Tz.utc : Tz := ⟨some "UTC".toList, some 0, some 0, none⟩

/-- The name of an unnamed `timezone`: `UTC` for the zero offset, otherwise
`UTC`, the sign and the offset. -/
def fixedName (us : Int) : PyStr :=
  if us = 0 then "UTC".toList
  else
    let a := us.natAbs
    let s := a / 1000000
    "UTC".toList ++ (if us < 0 then '-' else '+') :: pad2 (s / 3600) ++ ':' :: pad2 (s / 60 % 60)
      ++ (if s % 60 != 0 || a % 1000000 != 0 then ':' :: pad2 (s % 60) else [])
      ++ (if a % 1000000 != 0 then '.' :: pad6 (a % 1000000) else [])

/-- `timezone(timedelta(microseconds=us), name)`. -/
def Tz.fixed (us : Int) (name : Option PyStr) : Tz :=
  ⟨some (name.getD (fixedName us)), some us, some us, none⟩

/-- `timezone(offset=timedelta(hours=hrs, minutes=mins))`,
`/repo/jsons/_datetime_impl.py` line 124: an `OverflowError` if the timedelta has
more than 999999999 days, a `ValueError` if it is not strictly between -24 and
24 hours. -/
def mkTimezone (hrs mins : Int) : Except ErrKind Tz :=
  let total := hrs * 60 + mins
  let days := total / 1440
  if days < -999999999 ∨ 999999999 < days then .error .other
  else if -1440 < total ∧ total < 1440 then .ok (Tz.fixed (total * 60000000) none)
  else .error .valueError

/-- `a, b = s.split(sep)`: exactly two parts, or a `ValueError`. -/
def split2 (sep : Char) (s : PyStr) : Except ErrKind (PyStr × PyStr) :=
  match s.split sep with
  | [a, b] => .ok (a, b)
  | _ => .error .valueError

/-- `_datetime_utc_inst`, `/repo/jsons/_datetime_impl.py` lines 97-106. -/
def datetimeUtcInst (obj : PyStr) (pattern : Pattern) : Except ErrKind DT := do
  let dt ← strptime obj.dropLast pattern                       -- lines 104-105
  return { dt with tz := some Tz.utc }                         -- line 106

/-- `_datetime_offset_inst`, `/repo/jsons/_datetime_impl.py` lines 109-125. -/
def datetimeOffsetInst (obj : PyStr) (pattern : Pattern) : Except ErrKind DT := do
  let (dat, tim) ← split2 'T' obj                              -- line 116
  let (splitter, factor) := if '+' ∈ tim then ('+', (1 : Int)) else ('-', -1)  -- line 117
  let (naive, offset) ← split2 splitter tim                    -- line 118
  let dt ← strptime (dat ++ 'T' :: naive) pattern              -- lines 119-120
  let (hrsStr, minsStr) ← split2 ':' offset                    -- line 121
  let hrs ← parseInt hrsStr                                    -- line 122
  let mins ← parseInt minsStr                                  -- line 123
  let tz ← mkTimezone (hrs * factor) (mins * factor)           -- line 124
  return { dt with tz := some tz }                             -- line 125

/-- `get_datetime_inst`, `/repo/jsons/_datetime_impl.py` lines 43-56. -/
def getDatetimeInst (obj : PyStr) (pattern : Pattern) : Except ErrKind DT :=
  match obj.getLast? with
  | none => .error .indexError                                 -- line 50
  | some 'Z' => datetimeUtcInst obj pattern                    -- line 51
  | some _ => match pattern with
    | .datetime _ => datetimeOffsetInst obj pattern            -- line 53
    | _ => strptime obj pattern                                -- line 55

/-- `s.replace(old, new)` for a non-empty string `old`. -/
def replaceSub (old new : PyStr) : PyStr → PyStr
  | [] => []
  | c :: s =>
    if old.isPrefixOf (c :: s) ∧ old ≠ [] then
      new ++ replaceSub old new ((c :: s).drop old.length)
    else c :: replaceSub old new s
termination_by s => s.length
decreasing_by
  all_goals simp only [List.length_drop, List.length_cons]
  · rename_i h
    have : 0 < old.length := List.length_pos_iff.2 h.2
    omega
  · omega

/-- `re.compile(r'(\.[0-9]+)').search(s).group()`,
`/repo/jsons/deserializers/default_datetime.py` lines 21-22. -/
def searchFrac : PyStr → Option PyStr
  | [] => none
  | c :: s =>
    if c = '.' ∧ (s.takeWhile Char.isDigit) ≠ [] then some ('.' :: s.takeWhile Char.isDigit)
    else searchFrac s

/-- `default_datetime_deserializer`,
`/repo/jsons/deserializers/default_datetime.py` lines 7-24.  No match of the
regular expression is an `AttributeError` (`None.group()`). -/
def datetimeDeserializer (obj : PyStr) : Except ErrKind DT :=
  if '.' ∈ obj then                                            -- line 18
    match searchFrac obj with                                  -- line 22
    | none => .error .attributeError
    | some frac =>
      getDatetimeInst (replaceSub frac (frac.take 7) obj) (.datetime true)  -- lines 23-24
  else getDatetimeInst obj (.datetime false)

/-- `default_date_deserializer`, `/repo/jsons/deserializers/default_date.py`
lines 6-16. -/
def dateDeserializer (obj : PyStr) : Except ErrKind Date := do
  let dt ← getDatetimeInst obj .date
  return ⟨dt.year, dt.month, dt.day⟩

/-- `default_time_deserializer`, `/repo/jsons/deserializers/default_time.py`
lines 6-16: `.time()` has no time zone. -/
def timeDeserializer (obj : PyStr) : Except ErrKind Time := do
  let dt ← getDatetimeInst obj .time
  return ⟨dt.hour, dt.minute, dt.second, dt.micro, none⟩

end Verif.Datetime
