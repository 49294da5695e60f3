import Verif.Core.Env

/-!
# Model of `/repo/jsons/classes/verbosity.py`

A `Verbosity` is the number that encodes it.
-/

set_option autoImplicit false

namespace Verif.Api
open Verif Verif.Core

namespace Flag

/-- The value of `WITH_NOTHING`, `/repo/jsons/classes/verbosity.py` line 12. -/
def withNothing : Nat := 0
/-- The value of `WITH_CLASS_INFO`, `/repo/jsons/classes/verbosity.py` line 13. -/
def withClassInfo : Nat := 10
/-- The value of `WITH_DUMP_TIME`, `/repo/jsons/classes/verbosity.py` line 14. -/
def withDumpTime : Nat := 20

/-- `a | b`: `__or__` of the standard `enum.Flag`, and of
`/repo/jsons/_compatibility_impl.py` lines 32-34.  Both make the instance for the
combined number. -/
def or (a b : Nat) : Nat := b ||| a

/-- `a & b` of the standard `enum.Flag`. -/
def and (a b : Nat) : Nat := a &&& b

/-- `item in flag`: `__contains__` of the standard `enum.Flag`, and of
`/repo/jsons/_compatibility_impl.py` lines 36-37. -/
def contains (flag item : Nat) : Bool := item == flag &&& item

/-- The value of `WITH_EVERYTHING`, `/repo/jsons/classes/verbosity.py` line 15. -/
def withEverything : Nat := or withClassInfo withDumpTime

end Flag

/-- What can be given as `verbose`: a `Verbosity` or any other value. -/
inductive VerboseArg where
  | flag (n : Nat)
  | val (v : Val)

/-- `Verbosity.from_value`, `/repo/jsons/classes/verbosity.py` lines 17-32. -/
def fromValue : VerboseArg → Nat
  | .flag n => n                                               -- lines 24-25
  | .val v =>
    if pyEq v (.bool false) || pyEq v .none then Flag.withNothing      -- lines 26-27
    else if v = .bool true then Flag.withEverything            -- lines 28-29
    else if !v.falsy then Flag.withEverything                  -- lines 30-31
    else Flag.withNothing                                      -- line 32

/-- What `default_object_serializer` asks a `Verbosity`: whether `WITH_CLASS_INFO` and
whether `WITH_DUMP_TIME` is in it, `/repo/jsons/serializers/default_object.py` lines 78,
274, 278 and 283. -/
def toVerbosity (n : Nat) : Core.Verbosity where
  classInfo := Flag.contains n Flag.withClassInfo
  dumpTime := Flag.contains n Flag.withDumpTime

end Verif.Api
