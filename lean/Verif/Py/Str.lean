/-!
# Python strings

`str` values are lists of characters.  Case mapping is ASCII only.
-/

set_option autoImplicit false

namespace Verif

/-- Python `str`. -/
abbrev PyStr := List Char

namespace PyStr

/-- `s.replace(a, b)` for one-character strings `a`, `b`; used in
`/repo/jsons/_key_transformers.py` lines 16, 29, 50. -/
def replace (a b : Char) (s : PyStr) : PyStr :=
  s.map (fun c => if c = a then b else c)

/-- `s.split(sep)` for a one-character separator; used in
`/repo/jsons/_key_transformers.py` line 17, `/repo/jsons/_datetime_impl.py`
lines 116, 118, 121 and `/repo/jsons/_common_impl.py` lines 84, 96, 100.
The result is never empty. -/
def split (sep : Char) : PyStr → List PyStr
  | [] => [[]]
  | c :: cs =>
    if c = sep then [] :: split sep cs
    else match split sep cs with
      | [] => [[c]]
      | w :: ws => (c :: w) :: ws

/-- Worker of `title`: `prevCased` says whether the previous character was a
letter. -/
def titleAux (prevCased : Bool) : PyStr → PyStr
  | [] => []
  | c :: cs => (if prevCased then c.toLower else c.toUpper) :: titleAux c.isAlpha cs

/-- `s.title()`; used in `/repo/jsons/_key_transformers.py` line 19.
Simplification: only ASCII letters are cased. -/
def title (s : PyStr) : PyStr := titleAux false s

/-- `s.lower()`; used in `/repo/jsons/_key_transformers.py` line 31 and
`/repo/jsons/_lizers_impl.py` lines 44, 80, 121, 138.
Simplification: ASCII only. -/
def lower (s : PyStr) : PyStr := s.map Char.toLower

end PyStr
end Verif
