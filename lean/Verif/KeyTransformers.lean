import Verif.Py.Err
import Verif.Py.Str

/-!
# Model of `/repo/jsons/_key_transformers.py`
-/

set_option autoImplicit false

namespace Verif.KeyTransformers
open Verif

/-- Models `camelcase`, `/repo/jsons/_key_transformers.py` lines 10-20.  The
failure is the `IndexError` of `str_[0]` (line 20) on an empty string. -/
def camelcase (str : PyStr) : Except ErrKind PyStr :=
  let str₁ := str.replace '-' '_'                        -- line 16
  let splitted := str₁.split '_'                         -- line 17
  let str₂ := if splitted.length > 1                     -- line 18
    then (splitted.map PyStr.title).flatten              -- line 19
    else str₁
  match str₂ with                                        -- line 20
  | [] => .error .indexError
  | c :: cs => .ok (c.toLower :: cs)

/-- Models `re.sub(r'([a-z])([A-Z])', '\\1_\\2', str_)`,
`/repo/jsons/_key_transformers.py` line 31: a left-to-right scan; a match
consumes both characters. -/
def insertUnderscores : PyStr → PyStr
  | [] => []
  | [c] => [c]
  | c :: d :: cs =>
    if c.isLower && d.isUpper then c :: '_' :: d :: insertUnderscores cs
    else c :: insertUnderscores (d :: cs)

/-- Models `snakecase`, `/repo/jsons/_key_transformers.py` lines 23-31.  The
failure is the `IndexError` of `str_[0]` (line 30). -/
def snakecase (str : PyStr) : Except ErrKind PyStr :=
  match str.replace '-' '_' with                         -- line 29
  | [] => .error .indexError                             -- line 30
  | c :: cs => .ok (insertUnderscores (c.toLower :: cs)).lower  -- lines 30-31

/-- Models `pascalcase`, `/repo/jsons/_key_transformers.py` lines 34-41.  The
failures are the `IndexError`s of `camelcase` and of `camelcase_str[0]`. -/
def pascalcase (str : PyStr) : Except ErrKind PyStr := do
  match ← camelcase str with                             -- line 40
  | [] => .error .indexError                             -- line 41
  | c :: cs => return c.toUpper :: cs

/-- Models `lispcase`, `/repo/jsons/_key_transformers.py` lines 44-50. -/
def lispcase (str : PyStr) : Except ErrKind PyStr := do
  return (← snakecase str).replace '_' '-'               -- line 50

end Verif.KeyTransformers
