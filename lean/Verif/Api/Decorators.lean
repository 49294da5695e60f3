import Verif.Api.Functions

/-!
# Model of the decorators `@loaded` and `@dumped`

`/repo/jsons/decorators.py`.
-/

set_option autoImplicit false

namespace Verif.Api
open Verif Verif.Core

/-- The kinds of the parameters of a function (`inspect.Parameter.kind`): those that
positional arguments can be given for, `*args`, those that only keyword arguments can
be given for, `**kwargs`. -/
inductive FKind where
  | positional | varPositional | keywordOnly | varKeyword
  deriving DecidableEq

/-- A parameter of a function, as `inspect.signature` gives it; the annotation is `none`
if it is missing or `None`.  Simplification: annotations are types, not texts. -/
structure FParam where
  name : PyStr
  annotation : Option Ty := none
  kind : FKind := .positional

/-- A function: its name, its parameters in order, its return annotation (`none` if it is
missing or `None`), whether it is a coroutine function, and what it does when it is
called with positional and keyword arguments (including the exceptions if they do not
fit). -/
structure Func where
  name : PyStr
  params : List FParam
  returns : Option Ty := none
  coroutine : Bool := false
  call : List PyObj → List (PyStr × PyObj) → Res PyObj

/-- What can be decorated: a function, the result of `staticmethod(...)` or
`classmethod(...)`, a class. -/
inductive Decorated where
  | func (f : Func)
  | staticMethod (f : Func)
  | classMethod (f : Func)
  | cls (t : Ty)

/-- What can be given as `loader` or `dumper`. -/
inductive Mapper where
  | load | loads | loadb | dump | dumps | dumpb
  | other (id : Nat)
  deriving DecidableEq

/-- What the decorators depend on: the surroundings of `load` and `dump`, the texts of
`float`s, the stack, `hasattr(obj, name)`, and what the functions of jsons do with
objects that are not values. -/
structure DecEnv where
  E : LEnv
  F : FloatText
  n : Nat
  hasAttr : PyObj → PyStr → Bool
  mapOther : Mapper → PyObj → Option Ty → Res PyObj

/-- The arguments of a decorator (`/repo/jsons/decorators.py` lines 11-16, 50-55).  The
keyword arguments (and `fork_inst`) are those for `load` or for `dump`. -/
structure Decorator where
  parameters : Bool := true
  returnvalue : Bool := true
  mapper : Mapper
  loadKw : LoadKw := {}
  dumpKw : DumpKw := {}
  fork : Nat := 0

/-- A result that is a value. -/
def asVal (r : Res Val) : Res PyObj := do
  let v ← r
  pure (.val v)

/-- `mapper(arg, cls=cls, fork_inst=fork_inst, **mapper_kwargs)`,
`/repo/jsons/decorators.py` lines 156-157 and 166. -/
def callMapper (D : DecEnv) (d : Decorator) (o : PyObj) (cls : Option Ty) : Res PyObj :=
  match d.mapper, o with
  | .load, .val v => asVal (load D.E D.n v cls { d.loadKw with fork := d.fork })
  | .loads, .val (.str s) => asVal (loads D.E D.F D.n s cls { d.loadKw with fork := d.fork })
  | .loadb, o => asVal (loadb D.E D.F D.n o cls { d.loadKw with fork := d.fork })
  | .dump, .val v => asVal (dump D.E.toEnv D.n v cls { d.dumpKw with fork := d.fork })
  | .dumps, .val v => do
    let s ← dumps D.E.toEnv D.F D.n v cls { d.dumpKw with fork := d.fork }
    pure (.val (.str s))
  | .dumpb, .val v => do
    let b ← dumpb D.E.toEnv D.F D.n v cls { d.dumpKw with fork := d.fork }
    pure (.bytes b)
  | m, o => D.mapOther m o cls

/-- `_get_params_sig`, `/repo/jsons/decorators.py` lines 139-144: the arguments and the
parameters with the same positions; more arguments than parameters are an
`IndexError`. -/
def getParamsSig (args : List PyObj) (f : Func) : Res (List (PyObj × FParam)) :=
  if args.length ≤ f.params.length then pure (args.zip f.params)
  else Res.raise { kind := .indexError }

/-- The new argument, `/repo/jsons/decorators.py` lines 151-157. -/
def mapArg (D : DecEnv) (d : Decorator) (f : Func) (p : PyObj × FParam) : Res PyObj :=
  if (p.2.name = "self".toList ∨ p.2.name = "cls".toList) ∧ D.hasAttr p.1 f.name = true then
    pure p.1                                                   -- line 153
  else callMapper D d p.1 p.2.annotation                       -- lines 155-157

/-- `_map_args`, `/repo/jsons/decorators.py` lines 147-160. -/
def mapArgs (D : DecEnv) (d : Decorator) (f : Func) (args : List PyObj) : Res (List PyObj) := do
  let sig ← getParamsSig args f                                -- line 148
  mapRes (mapArg D d f) sig                                    -- lines 149-160

/-- `_map_returnvalue`, `/repo/jsons/decorators.py` lines 163-167. -/
def mapReturnvalue (D : DecEnv) (d : Decorator) (f : Func) (o : PyObj) : Res PyObj :=
  callMapper D d o f.returns

/-- `_run_decorated`, `/repo/jsons/decorators.py` lines 170-175. -/
def runDecorated (D : DecEnv) (d : Decorator) (f : Func) (args : List PyObj)
    (kwargs : List (PyStr × PyObj)) : Res PyObj := do
  let newArgs ← if d.parameters then mapArgs D d f args else pure args  -- lines 171-173
  f.call newArgs kwargs                                        -- line 174

/-- The return value, `/repo/jsons/decorators.py` lines 111-114 and 131-134. -/
def finish (D : DecEnv) (d : Decorator) (f : Func) (o : PyObj) : Res PyObj :=
  if d.returnvalue then mapReturnvalue D d f o else pure o

/-- `await result` if it can be awaited, `/repo/jsons/decorators.py` lines 129-130. -/
def awaitIf : PyObj → Res PyObj
  | .awaitable log r => ⟨log, r⟩
  | o => pure o

/-- What the decorated function returns when it is called (`/repo/jsons/decorators.py`
lines 101-116), or, if it is a coroutine function, when the result is awaited (lines
119-136). -/
def callDecorated (D : DecEnv) (d : Decorator) (f : Func) (args : List PyObj)
    (kwargs : List (PyStr × PyObj)) : Res PyObj := do
  let result ← runDecorated D d f args kwargs
  if f.coroutine then do
    let result ← awaitIf result
    finish D d f result
  else finish D d f result

/-- The text of the warning, `/repo/jsons/decorators.py` lines 180-184. -/
def decoratedStaticMsg : PyStr :=
  ("You cannot decorate a static- or classmethod. You can still obtain the desired behavior by " ++
    "decorating your method first and then place @staticmethod/@classmethod on top (switching the " ++
    "order).").toList

/-- `_validate_decoration`, `/repo/jsons/decorators.py` lines 178-188. -/
def validateDecoration (D : DecEnv) (d : Decorator) : Decorated → Res Unit
  | .staticMethod _ => do
    D.E.toEnv.warn d.fork "decorated-static".toList decoratedStaticMsg  -- lines 180-184
    Res.raise { kind := .invalidDecoration }                   -- lines 185-186
  | .cls _ => Res.raise { kind := .invalidDecoration }         -- line 188
  | _ => pure ()

/-- What is called afterwards: a function, or a `classmethod` object, which cannot be
called (a `TypeError`, from `signature` or from the call itself). -/
def calling (D : DecEnv) (d : Decorator) : Decorated → List PyObj → List (PyStr × PyObj) → Res PyObj
  | .func f => callDecorated D d f
  | _ => fun _ _ => Res.raise { kind := .typeError }

/-- `_get_decorator(...)(decorated)`, `/repo/jsons/decorators.py` lines 89-98: what takes
the place of the function. -/
def decorate (D : DecEnv) (d : Decorator) (x : Decorated) :
    Res (List PyObj → List (PyStr × PyObj) → Res PyObj) := do
  validateDecoration D d x                                     -- line 91
  pure (calling D d x)

/-- `loaded(...)(decorated)`, `/repo/jsons/decorators.py` lines 11-47. -/
def loaded (D : DecEnv) (d : Decorator) (x : Decorated) :
    Res (List PyObj → List (PyStr × PyObj) → Res PyObj) :=
  if d.mapper = .load ∨ d.mapper = .loads ∨ d.mapper = .loadb then decorate D d x
  else Res.raise { kind := .invalidDecoration }

/-- `dumped(...)(decorated)`, `/repo/jsons/decorators.py` lines 50-86. -/
def dumped (D : DecEnv) (d : Decorator) (x : Decorated) :
    Res (List PyObj → List (PyStr × PyObj) → Res PyObj) :=
  if d.mapper = .dump ∨ d.mapper = .dumps ∨ d.mapper = .dumpb then decorate D d x
  else Res.raise { kind := .invalidDecoration }

end Verif.Api
