import Verif.Api.JsonText
import Verif.Core.Load

/-!
# Model of `dumps`, `dumpb`, `loads`, `loadb` and `transform`

`/repo/jsons/_dump_impl.py` lines 69-113, `/repo/jsons/_load_impl.py` lines 128-185 and
`/repo/jsons/_transform_impl.py`.  `E` and `n` (the stack) are those of
`Verif.Core.dump` and `Verif.Core.load`.
-/

set_option autoImplicit false

namespace Verif.Api
open Verif Verif.Core

/-- What can be given to a function of jsons or be returned by it: a value, `bytes`, a
class, or something that can be awaited (with the events and the outcome of waiting
for it).  Simplification: there are no `bytes` inside of values. -/
inductive PyObj where
  | val (v : Val)
  | bytes (b : ByteArray)
  | cls (t : Ty)
  | awaitable (log : List Event) (r : Except Err PyObj)

/-- `dumps(obj, cls=cls, **kwargs)`, `/repo/jsons/_dump_impl.py` lines 69-88.
Simplification: `jdkwargs` is not given. -/
def dumps (E : Env) (F : FloatText) (n : Nat) (v : Val) (cls : Option Ty) (kw : DumpKw) :
    Res PyStr := do
  let dumped ← dump E n v cls kw                               -- line 87
  Res.liftK (printVal E.info F dumped)                         -- line 88

/-- `dumpb(obj, cls=cls, **kwargs)`, `/repo/jsons/_dump_impl.py` lines 91-113.
Simplifications: `jdkwargs` is not given, and `encoding` is `'utf-8'`. -/
def dumpb (E : Env) (F : FloatText) (n : Nat) (v : Val) (cls : Option Ty) (kw : DumpKw) :
    Res ByteArray := do
  let dumped ← dump E n v cls kw                               -- line 111
  let text ← Res.liftK (printVal E.info F dumped)              -- line 112
  pure (String.ofList text).toUTF8                             -- line 113

/-- `loads(str_, cls, **kwargs)` for a string, `/repo/jsons/_load_impl.py` lines
128-155.  Simplification: `jdkwargs` is not given. -/
def loads (E : LEnv) (F : FloatText) (n : Nat) (s : PyStr) (cls : Option Ty) (kw : LoadKw) :
    Res Val :=
  match jsonLoads F s with                                     -- line 150
  | none => Res.raise { kind := .decodeError, source := some (.str s), target := cls }  -- line 152
  | some obj => load E n obj cls kw                            -- line 155

/-- `loadb(bytes_, cls, **kwargs)`, `/repo/jsons/_load_impl.py` lines 158-185.  A
`UnicodeDecodeError` is a `ValueError`.  Simplifications: `jdkwargs` is not given, and
`encoding` is `'utf-8'`. -/
def loadb (E : LEnv) (F : FloatText) (n : Nat) (o : PyObj) (cls : Option Ty) (kw : LoadKw) :
    Res Val :=
  match o with
  | .bytes b => match b.utf8Decode? with                       -- line 184
    | none => Res.raise { kind := .valueError }
    | some s => loads E F n s.toList cls kw                    -- line 185
  | _ => Res.raise { kind := .deserializationError, target := cls }  -- lines 180-182

/-- `transform(obj, cls, mapper=..., dump_cls=..., dump_args=..., dump_kwargs=..., **kwargs)`,
`/repo/jsons/_transform_impl.py` lines 13-40.  `mapper` is `none` if it is not given or
falsy; `dumpArgs` says whether `dump_args` has elements, which is too many for `dump`
(`/repo/jsons/_dump_impl.py` lines 17-22) and a `TypeError`. -/
def transform (E : LEnv) (n : Nat) (v : Val) (cls : Option Ty) (mapper : Option (Val → Res Val))
    (dumpCls : Option Ty) (dumpArgs : Bool) (dumpKw : DumpKw) (kw : LoadKw) : Res Val := do
  let dumped ← if dumpArgs then Res.raise { kind := .typeError }
    else dump E.toEnv n v dumpCls dumpKw                       -- line 37
  let mapped ← match mapper with                               -- lines 38-39
    | none => pure dumped
    | some f => f dumped
  load E n mapped cls kw                                       -- line 40

end Verif.Api
