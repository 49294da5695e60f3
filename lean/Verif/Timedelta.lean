import Verif.Py.Float
import Verif.Datetime

/-!
# Model of the (de)serializers of `timedelta`

A `timedelta` is a number of microseconds.  Overflow of `timedelta` (more than
999999999 days), infinities and NaN are not modelled.
-/

set_option autoImplicit false

namespace Verif.Timedelta
open Verif Verif.Datetime

/-- `default_timedelta_serializer`, `/repo/jsons/serializers/default_timedelta.py`
lines 4-12: `total_seconds()` is the correctly rounded quotient of the number of
microseconds and 10^6. -/
def timedeltaSerializer (R : Rounding) (us : Int) : ℚ := R.fl ((us : ℚ) / 1000000)

/-- Rounding to the nearest integer; `odd` tells how to decide a tie
(CPython rounds so that the sum becomes even). -/
def nearest (tieUp : Bool) (x : ℚ) : Int :=
  let f := ⌊x⌋
  if x - f < 1 / 2 then f
  else if x - f = 1 / 2 then (if tieUp then f + 1 else f)
  else f + 1

/-- `default_timedelta_deserializer`,
`/repo/jsons/deserializers/default_timedelta.py` lines 4-14: `timedelta(seconds=x)`
of a float.  CPython splits `x` with `modf` (exact), multiplies the fractional part
with 10^6 (a float operation), splits again, and rounds the rest to the nearest
integer, a tie so that the whole becomes even. -/
def timedeltaDeserializer (R : Rounding) (x : ℚ) : Int :=
  let ip := truncQ x
  let p := R.fl ((x - ip) * 1000000)
  let ipp := truncQ p
  let whole := ip * 1000000 + ipp
  let f := p - ipp
  whole + nearest (decide ((whole + ⌊f⌋) % 2 ≠ 0)) f

end Verif.Timedelta
