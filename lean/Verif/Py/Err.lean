/-!
# Exception classes

The classes of exceptions that the modelled code can raise.
-/

set_option autoImplicit false

namespace Verif

/-- Exception classes.  The first group models the hierarchy of
`/repo/jsons/exceptions.py` lines 8-196; the second group lists the built-in
exception classes that the modelled code raises or lets through.
Simplification: every exception class outside both groups is `other`. -/
inductive ErrKind where
  | jsonsError            -- exceptions.py 8-23 (the base class itself)
  | validationError       -- exceptions.py 26-29
  | deserializationError  -- exceptions.py 57-87
  | serializationError    -- exceptions.py 90-93
  | decodeError           -- exceptions.py 96-112
  | unfulfilledArgument   -- exceptions.py 115-134
  | signatureMismatch     -- exceptions.py 137-157
  | unknownClass          -- exceptions.py 160-183
  | invalidDecoration     -- exceptions.py 186-196
  | valueError
  | typeError
  | keyError
  | indexError
  | attributeError
  | zeroDivisionError
  | recursionError
  | other
  deriving DecidableEq, Repr

/-- `isinstance(err, JsonsError)`; models the class statements of
`/repo/jsons/exceptions.py` lines 8, 26, 57, 90, 96, 115, 137, 160, 186. -/
def ErrKind.isJsonsError : ErrKind → Bool
  | .jsonsError | .validationError | .deserializationError | .serializationError
  | .decodeError | .unfulfilledArgument | .signatureMismatch | .unknownClass
  | .invalidDecoration => true
  | _ => false

/-- `isinstance(err, DeserializationError)`; models the class statements of
`/repo/jsons/exceptions.py` lines 57, 96, 115, 137, 160. -/
def ErrKind.isDeserializationError : ErrKind → Bool
  | .deserializationError | .decodeError | .unfulfilledArgument
  | .signatureMismatch | .unknownClass => true
  | _ => false

/-- `isinstance(err, ValueError)`; `DecodeError` derives from `JSONDecodeError`
(a `ValueError`) and `UnfulfilledArgumentError`/`SignatureMismatchError` derive
from `ArgumentError(JsonsError, ValueError)`; models
`/repo/jsons/exceptions.py` lines 32, 96, 115, 137. -/
def ErrKind.isValueError : ErrKind → Bool
  | .valueError | .decodeError | .unfulfilledArgument | .signatureMismatch => true
  | _ => false

end Verif

/-! Results can be compared (used by the concrete cases only). -/
deriving instance DecidableEq for Except
