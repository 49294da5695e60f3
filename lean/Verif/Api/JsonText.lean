import Verif.Core.Env

/-!
# The text of JSON

A model of what the functions `json.dumps` and `json.loads` of the standard library do
with default arguments, as `/repo/jsons/_dump_impl.py` lines 88 and 112 and
`/repo/jsons/_load_impl.py` line 150 call them.  A text is a list of Unicode characters.

Simplifications: texts do not contain lone surrogates, so an escape for a lone
surrogate counts as invalid; `NaN`, `Infinity` and `-Infinity` count as invalid;
there is no limit on the depth of nesting and on the number of digits; `jdkwargs` is
not given.
-/

set_option autoImplicit false

namespace Verif.Api
open Verif Verif.Core

/-- What Python's `float.__repr__` and `float(text)` do. -/
structure FloatText where
  repr : ℚ → PyStr
  parse : PyStr → ℚ

/-! ## `json.dumps` -/

/-- A digit of a hexadecimal number (for `'\\u{0:04x}'.format(n)`; a part of
`json.dumps`, `/repo/jsons/_dump_impl.py` line 88). -/
def hexDigit (n : Nat) : Char :=
  Char.ofNat (if n < 10 then 48 + n else 87 + n)

/-- `'\\u{0:04x}'.format(n)` (a part of `json.dumps`, `/repo/jsons/_dump_impl.py` line
88). -/
def uEscape (n : Nat) : PyStr :=
  ['\\', 'u', hexDigit (n / 4096 % 16), hexDigit (n / 256 % 16), hexDigit (n / 16 % 16),
    hexDigit (n % 16)]

/-- The text of a character inside a string, with `ensure_ascii` (a part of
`json.dumps`, `/repo/jsons/_dump_impl.py` line 88). -/
def escapeChar (c : Char) : PyStr :=
  if c = '"' then ['\\', '"']
  else if c = '\\' then ['\\', '\\']
  else if c = '\n' then ['\\', 'n']
  else if c = '\r' then ['\\', 'r']
  else if c = '\t' then ['\\', 't']
  else if c.toNat = 12 then ['\\', 'f']
  else if c.toNat = 8 then ['\\', 'b']
  else if 32 ≤ c.toNat ∧ c.toNat ≤ 126 then [c]
  else if c.toNat < 65536 then uEscape c.toNat
  else uEscape (55296 + (c.toNat - 65536) / 1024) ++ uEscape (56320 + (c.toNat - 65536) % 1024)

/-- The text of a string (a part of `json.dumps`, `/repo/jsons/_dump_impl.py` line
88). -/
def printStr (s : PyStr) : PyStr := '"' :: (s.flatMap escapeChar ++ ['"'])

/-- `int.__repr__` (a part of `json.dumps`, `/repo/jsons/_dump_impl.py` line 88). -/
def printInt : Int → PyStr
  | .ofNat n => Nat.toDigits 10 n
  | .negSucc n => '-' :: Nat.toDigits 10 (n + 1)

/-- The text that a key of a dict becomes: keys that are not strings, numbers, `bool`s
or `None` are a `TypeError` (a part of `json.dumps`, `/repo/jsons/_dump_impl.py` line
88).  A member of an `IntEnum` is an `int`. -/
def keyText (info : Nat → ClassInfo) (F : FloatText) : Val → Except ErrKind PyStr
  | .str s => .ok s
  | .float x => .ok (F.repr x)
  | .bool b => .ok (if b then "true".toList else "false".toList)
  | .none => .ok "null".toList
  | .int n => .ok (printInt n)
  | .enum c m => match assoc (info c).enumMembers m with
    | some (.int n) => if (info c).kind = .enum true then .ok (printInt n) else .error .typeError
    | _ => .error .typeError
  | _ => .error .typeError

mutual
/-- `json.dumps(obj)`, called in `/repo/jsons/_dump_impl.py` lines 88 and 112.  Lists and
all kinds of tuples become arrays, dicts become objects; other values are a
`TypeError`. -/
def printVal (info : Nat → ClassInfo) (F : FloatText) : Val → Except ErrKind PyStr
  | .atom .none => .ok "null".toList
  | .atom (.bool b) => .ok (if b then "true".toList else "false".toList)
  | .atom (.int n) => .ok (printInt n)
  | .atom (.float x) => .ok (F.repr x)
  | .atom (.str s) => .ok (printStr s)
  | .enum c m => match assoc (info c).enumMembers m with
    | some (.int n) => if (info c).kind = .enum true then .ok (printInt n) else .error .typeError
    | _ => .error .typeError
  | .seq .list xs => do
    let t ← printItems info F xs
    return '[' :: (t ++ [']'])
  | .seq .tuple xs => do
    let t ← printItems info F xs
    return '[' :: (t ++ [']'])
  | .ntuple _ xs => do
    let t ← printItems info F xs
    return '[' :: (t ++ [']'])
  | .dict es => do
    let t ← printEntries info F es
    return '{' :: (t ++ ['}'])
  | .ddict _ es => do
    let t ← printEntries info F es
    return '{' :: (t ++ ['}'])
  | _ => .error .typeError
/-- The elements of an array, with `', '` between them (a part of `json.dumps`,
`/repo/jsons/_dump_impl.py` line 88). -/
def printItems (info : Nat → ClassInfo) (F : FloatText) : List Val → Except ErrKind PyStr
  | [] => .ok []
  | x :: xs => do
    let t ← printVal info F x
    let ts ← printItems info F xs
    return if xs.isEmpty then t else t ++ ',' :: ' ' :: ts
/-- The members of an object, with `', '` between them and `': '` after the keys (a
part of `json.dumps`, `/repo/jsons/_dump_impl.py` line 88). -/
def printEntries (info : Nat → ClassInfo) (F : FloatText) :
    List (Val × Val) → Except ErrKind PyStr
  | [] => .ok []
  | (k, v) :: es => do
    let kt ← keyText info F k
    let t ← printVal info F v
    let ts ← printEntries info F es
    return printStr kt ++ ':' :: ' ' :: (if es.isEmpty then t else t ++ ',' :: ' ' :: ts)
end

/-! ## `json.loads` -/

/-- The white space of JSON (a part of `json.loads`, `/repo/jsons/_load_impl.py` line
150). -/
def isWs (c : Char) : Bool := c == ' ' || c == '\t' || c == '\n' || c == '\r'

/-- The rest after white space (a part of `json.loads`, `/repo/jsons/_load_impl.py` line
150). -/
def skipWs : PyStr → PyStr
  | [] => []
  | c :: s => if isWs c then skipWs s else c :: s

/-- The number of a hexadecimal digit (a part of `json.loads`,
`/repo/jsons/_load_impl.py` line 150). -/
def hexVal (c : Char) : Option Nat :=
  let n := c.toNat
  if 48 ≤ n ∧ n ≤ 57 then some (n - 48)
  else if 97 ≤ n ∧ n ≤ 102 then some (n - 87)
  else if 65 ≤ n ∧ n ≤ 70 then some (n - 55)
  else none

/-- The number of four hexadecimal digits, and the rest (a part of `json.loads`,
`/repo/jsons/_load_impl.py` line 150). -/
def hex4 : PyStr → Option (Nat × PyStr)
  | a :: b :: c :: d :: r => do
    let a ← hexVal a
    let b ← hexVal b
    let c ← hexVal c
    let d ← hexVal d
    return (((a * 16 + b) * 16 + c) * 16 + d, r)
  | _ => none

/-- What comes after `\u` in a string: a character, or two halves of one (a part of
`json.loads`, `/repo/jsons/_load_impl.py` line 150). -/
def scanU (s : PyStr) : Option (Char × PyStr) :=
  match hex4 s with
  | none => none
  | some (n, r) =>
    if 55296 ≤ n ∧ n < 56320 then match r with
      | '\\' :: 'u' :: r => match hex4 r with
        | none => none
        | some (m, r) =>
          if 56320 ≤ m ∧ m < 57344 then
            some (Char.ofNat (65536 + (n - 55296) * 1024 + (m - 56320)), r)
          else none
      | _ => none
    else if 56320 ≤ n ∧ n < 57344 then none
    else some (Char.ofNat n, r)

/-- What comes after a backslash in a string (a part of `json.loads`,
`/repo/jsons/_load_impl.py` line 150). -/
def scanEscape : PyStr → Option (Char × PyStr)
  | '"' :: r => some ('"', r)
  | '\\' :: r => some ('\\', r)
  | '/' :: r => some ('/', r)
  | 'b' :: r => some (Char.ofNat 8, r)
  | 'f' :: r => some (Char.ofNat 12, r)
  | 'n' :: r => some ('\n', r)
  | 'r' :: r => some ('\r', r)
  | 't' :: r => some ('\t', r)
  | 'u' :: r => scanU r
  | _ => none

/-- A string after its opening quotation mark, in at most `n` steps (a part of
`json.loads`, `/repo/jsons/_load_impl.py` line 150): the string and the rest. -/
def scanStr : Nat → PyStr → Option (PyStr × PyStr)
  | 0, _ => none
  | n + 1, s => match s with
    | [] => none
    | '"' :: r => some ([], r)
    | '\\' :: r => match scanEscape r with
      | none => none
      | some (c, r) => (scanStr n r).map fun p => (c :: p.1, p.2)
    | c :: r =>
      if c.toNat < 32 then none
      else (scanStr n r).map fun p => (c :: p.1, p.2)

/-- The digits at the beginning, and the rest (a part of `json.loads`,
`/repo/jsons/_load_impl.py` line 150). -/
def scanDigits : PyStr → PyStr × PyStr
  | [] => ([], [])
  | c :: s => if c.isDigit then ((c :: (scanDigits s).1), (scanDigits s).2) else ([], c :: s)

/-- The part `0|[1-9]\d*` of a number, and the rest (a part of `json.loads`,
`/repo/jsons/_load_impl.py` line 150). -/
def scanNat : PyStr → Option (PyStr × PyStr)
  | '0' :: r => some (['0'], r)
  | c :: r => if c.isDigit then some (c :: (scanDigits r).1, (scanDigits r).2) else none
  | [] => none

/-- The part `(\.\d+)?` of a number, and the rest (a part of `json.loads`,
`/repo/jsons/_load_impl.py` line 150). -/
def scanFrac : PyStr → PyStr × PyStr
  | '.' :: c :: r =>
    if c.isDigit then ('.' :: c :: (scanDigits r).1, (scanDigits r).2) else ([], '.' :: c :: r)
  | s => ([], s)

/-- The sign of an exponent, and the rest (a part of `json.loads`,
`/repo/jsons/_load_impl.py` line 150). -/
def scanSign : PyStr → PyStr × PyStr
  | '+' :: r => (['+'], r)
  | '-' :: r => (['-'], r)
  | s => ([], s)

/-- The part `([eE][-+]?\d+)?` of a number, and the rest (a part of `json.loads`,
`/repo/jsons/_load_impl.py` line 150). -/
def scanExp : PyStr → PyStr × PyStr
  | [] => ([], [])
  | e :: r =>
    if e = 'e' ∨ e = 'E' then
      match scanDigits (scanSign r).2 with
      | ([], _) => ([], e :: r)
      | (ds, rest) => (e :: ((scanSign r).1 ++ ds), rest)
    else ([], e :: r)

/-- `int(text)` for digits (a part of `json.loads`, `/repo/jsons/_load_impl.py` line
150). -/
def natOfDigits (ds : PyStr) : Nat := Nat.ofDigitChars 10 ds 0

/-- The sign of a number, and the rest (a part of `json.loads`,
`/repo/jsons/_load_impl.py` line 150). -/
def scanMinus : PyStr → PyStr × PyStr
  | '-' :: r => (['-'], r)
  | s => ([], s)

/-- A number (a part of `json.loads`, `/repo/jsons/_load_impl.py` line 150): an `int` if
it has neither fraction nor exponent. -/
def scanNumber (F : FloatText) (s : PyStr) : Option (Val × PyStr) :=
  let sign := scanMinus s
  match scanNat sign.2 with
  | none => none
  | some (ds, r) =>
    let frac := scanFrac r
    let exp := scanExp frac.2
    if frac.1 = [] ∧ exp.1 = [] then
      some (.int (if sign.1 = [] then natOfDigits ds else - natOfDigits ds), exp.2)
    else some (.float (F.parse (sign.1 ++ ds ++ frac.1 ++ exp.1)), exp.2)

/-- The dict of a list of pairs: the last one of equal keys counts (a part of
`json.loads`, `/repo/jsons/_load_impl.py` line 150). -/
def fromPairs (es : List (PyStr × Val)) : List (Val × Val) :=
  es.foldl (fun acc e => dictSet acc (.str e.1) e.2) []

mutual
/-- A value at the beginning of the text and the rest, in at most `n` nested calls (a
part of `json.loads`, `/repo/jsons/_load_impl.py` line 150). -/
def scanVal (F : FloatText) : Nat → PyStr → Option (Val × PyStr)
  | 0, _ => none
  | n + 1, s => match s with
    | '"' :: r => (scanStr (r.length + 1) r).map fun p => (.str p.1, p.2)
    | '[' :: r => match skipWs r with
      | ']' :: r => some (.list [], r)
      | r => (scanItems F n r).map fun p => (.list p.1, p.2)
    | '{' :: r => match skipWs r with
      | '}' :: r => some (.dict [], r)
      | r => (scanMembers F n r).map fun p => (.dict (fromPairs p.1), p.2)
    | 'n' :: 'u' :: 'l' :: 'l' :: r => some (.none, r)
    | 't' :: 'r' :: 'u' :: 'e' :: r => some (.bool true, r)
    | 'f' :: 'a' :: 'l' :: 's' :: 'e' :: r => some (.bool false, r)
    | s => scanNumber F s
/-- The elements of an array up to its closing bracket (a part of `json.loads`,
`/repo/jsons/_load_impl.py` line 150). -/
def scanItems (F : FloatText) : Nat → PyStr → Option (List Val × PyStr)
  | 0, _ => none
  | n + 1, s => match scanVal F n s with
    | none => none
    | some (v, r) => match skipWs r with
      | ']' :: r => some ([v], r)
      | ',' :: r => (scanItems F n (skipWs r)).map fun p => (v :: p.1, p.2)
      | _ => none
/-- The members of an object up to its closing brace (a part of `json.loads`,
`/repo/jsons/_load_impl.py` line 150). -/
def scanMembers (F : FloatText) : Nat → PyStr → Option (List (PyStr × Val) × PyStr)
  | 0, _ => none
  | n + 1, s => match s with
    | '"' :: r => match scanStr (r.length + 1) r with
      | none => none
      | some (k, r) => match skipWs r with
        | ':' :: r => match scanVal F n (skipWs r) with
          | none => none
          | some (v, r) => match skipWs r with
            | '}' :: r => some ([(k, v)], r)
            | ',' :: r => (scanMembers F n (skipWs r)).map fun p => ((k, v) :: p.1, p.2)
            | _ => none
        | _ => none
    | _ => none
end

/-- `json.loads(text)`, called in `/repo/jsons/_load_impl.py` line 150: `none` if it
raises a `JSONDecodeError`. -/
def jsonLoads (F : FloatText) (s : PyStr) : Option Val :=
  match scanVal F (2 * s.length + 2) (skipWs s) with
  | none => none
  | some (v, r) => if skipWs r = [] then some v else none

end Verif.Api
