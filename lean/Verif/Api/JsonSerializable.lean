import Verif.Api.Functions

/-!
# Model of `JsonSerializable`

`/repo/jsons/classes/json_serializable.py`.  The classes have the numbers that the state
holders have in `Verif.Registry` and that `fork` has in `DumpKw` and `LoadKw`: 0 is
`StateHolder`, 1 is `JsonSerializable`.  `set_serializer` and `set_deserializer` (lines
181-217) are the operations of `Verif.Registry`.
-/

set_option autoImplicit false

namespace Verif.Api
open Verif Verif.Core

/-! ## Keyword arguments -/

/-- A keyword argument that is given to `dump`, `dumps` or `dumpb`,
`/repo/jsons/_dump_impl.py` lines 16-21 and `DumpKw`.  Simplification: arguments that only
custom serializers know are left out. -/
inductive DumpArg where
  | cls (t : Option Ty)
  | strict (b : Bool)
  | forkInst (i : Nat)
  | keyTransformer (f : Option (PyStr → Except Err PyStr))
  | stripNulls (b : Bool)
  | stripPrivates (b : Bool)
  | stripProperties (b : Bool)
  | stripClassVariables (b : Bool)
  | stripAttr (s : StripAttr)
  | verbose (v : Core.Verbosity)
  | useEnumName (b : Bool)
  | stripMicroseconds (b : Bool)

/-- The names of the keyword arguments, `/repo/jsons/_dump_impl.py` lines 16-21, and the
parameters of the serializers. -/
def DumpArg.name : DumpArg → String
  | .cls _ => "cls"
  | .strict _ => "strict"
  | .forkInst _ => "fork_inst"
  | .keyTransformer _ => "key_transformer"
  | .stripNulls _ => "strip_nulls"
  | .stripPrivates _ => "strip_privates"
  | .stripProperties _ => "strip_properties"
  | .stripClassVariables _ => "strip_class_variables"
  | .stripAttr _ => "strip_attr"
  | .verbose _ => "verbose"
  | .useEnumName _ => "use_enum_name"
  | .stripMicroseconds _ => "strip_microseconds"

/-- `cls` and the other arguments of a call, with one more keyword argument
(`/repo/jsons/_dump_impl.py` lines 16-21). -/
def DumpArg.set (s : Option Ty × DumpKw) : DumpArg → Option Ty × DumpKw
  | .cls t => (t, s.2)
  | .strict b => (s.1, { s.2 with strict := b })
  | .forkInst i => (s.1, { s.2 with fork := i })
  | .keyTransformer f => (s.1, { s.2 with keyTransformer := f })
  | .stripNulls b => (s.1, { s.2 with stripNulls := b })
  | .stripPrivates b => (s.1, { s.2 with stripPrivates := b })
  | .stripProperties b => (s.1, { s.2 with stripProperties := b })
  | .stripClassVariables b => (s.1, { s.2 with stripClassVariables := b })
  | .stripAttr a => (s.1, { s.2 with stripAttr := a })
  | .verbose v => (s.1, { s.2 with verbose := v })
  | .useEnumName b => (s.1, { s.2 with useEnumName := b })
  | .stripMicroseconds b => (s.1, { s.2 with stripMicroseconds := b })

/-- A keyword argument that is given to `load`, `loads` or `loadb`,
`/repo/jsons/_load_impl.py` lines 26-33 and `LoadKw`.  Simplification: as for `DumpArg`. -/
inductive LoadArg where
  | cls (t : Option Ty)
  | strict (b : Bool)
  | forkInst (i : Nat)
  | attrGetters (gs : List (PyStr × Except Err Val))
  | keyTransformer (f : Option (Val → Except Err Val))
  | useEnumName (b : Option Bool)

/-- The names of the keyword arguments, `/repo/jsons/_load_impl.py` lines 26-33, and the
parameters of the deserializers. -/
def LoadArg.name : LoadArg → String
  | .cls _ => "cls"
  | .strict _ => "strict"
  | .forkInst _ => "fork_inst"
  | .attrGetters _ => "attr_getters"
  | .keyTransformer _ => "key_transformer"
  | .useEnumName _ => "use_enum_name"

/-- `cls` and the other arguments of a call, with one more keyword argument
(`/repo/jsons/_load_impl.py` lines 26-33). -/
def LoadArg.set (s : Option Ty × LoadKw) : LoadArg → Option Ty × LoadKw
  | .cls t => (t, s.2)
  | .strict b => (s.1, { s.2 with strict := b })
  | .forkInst i => (s.1, { s.2 with fork := i })
  | .attrGetters gs => (s.1, { s.2 with attrGetters := gs })
  | .keyTransformer f => (s.1, { s.2 with keyTransformer := f })
  | .useEnumName b => (s.1, { s.2 with useEnumName := b })

/-- `d[name] = x` for a dict of keyword arguments
(`/repo/jsons/classes/json_serializable.py` line 55). -/
def putArg {A : Type} (name : A → String) : List A → A → List A
  | [], x => [x]
  | y :: ys, x => if name y = name x then x :: ys else y :: putArg name ys x

/-- `{**a, **b}` for dicts of keyword arguments,
`/repo/jsons/classes/json_serializable.py` lines 55 and 88. -/
def mergeArgs {A : Type} (name : A → String) (a b : List A) : List A :=
  b.foldl (putArg name) a

/-- `f(..., given=..., **kwargs)`, `/repo/jsons/classes/json_serializable.py` lines 88,
128, 139, 148, 159, 168, 179: a `TypeError` if `kwargs` has an argument that is
given already. -/
def noneOf {A : Type} (name : A → String) (given : List String) (kwargs : List A) : Res Unit :=
  if kwargs.any fun x => given.contains (name x) then Res.raise { kind := .typeError }
  else pure ()

/-- The arguments of `dump` for some keyword arguments, with the defaults of
`/repo/jsons/_dump_impl.py` lines 16-21. -/
def dumpSettings (kwargs : List DumpArg) : Option Ty × DumpKw :=
  kwargs.foldl DumpArg.set (none, {})

/-- The arguments of `load` for some keyword arguments, with the defaults of
`/repo/jsons/_load_impl.py` lines 26-33. -/
def loadSettings (kwargs : List LoadArg) : Option Ty × LoadKw :=
  kwargs.foldl LoadArg.set (none, {})

/-! ## Classes -/

/-- A class: its base class, and its own attributes `dump` and `load`, if it has them:
`some none` is the method of `JsonSerializable`, `some (some kwargs)` the wrapper of
`with_dump` or `with_load` (`/repo/jsons/classes/json_serializable.py` lines 54-58,
86-91).  Simplifications: a class has one base class that matters here; programs do not
define methods `dump` and `load` of their own. -/
structure JsClass where
  parent : Option Nat
  dump : Option (Option (List DumpArg)) := none
  load : Option (Option (List LoadArg)) := none

/-- `StateHolder` (`/repo/jsons/_common_impl.py` line 23) and `JsonSerializable`
(`/repo/jsons/classes/json_serializable.py` line 10). -/
def jsInit : List JsClass := [⟨none, none, none⟩, ⟨some 0, some none, some none⟩]

/-- What a program can do to the classes; the number is the class. -/
inductive JsOp where
  | subclass (i : Nat)
  | fork (i : Nat)
  | withDump (i : Nat) (fork : Bool) (kwargs : List DumpArg)
  | withLoad (i : Nat) (fork : Bool) (kwargs : List LoadArg)

/-- `type_.dump = _wrapper`, `/repo/jsons/classes/json_serializable.py` line 58. -/
def setDump (S : List JsClass) (i : Nat) (kwargs : List DumpArg) : List JsClass :=
  S.modify i fun c => { c with dump := some (some kwargs) }

/-- `type_.load = _wrapper`, `/repo/jsons/classes/json_serializable.py` line 91. -/
def setLoad (S : List JsClass) (i : Nat) (kwargs : List LoadArg) : List JsClass :=
  S.modify i fun c => { c with load := some (some kwargs) }

/-- The class on which an operation works. -/
def JsOp.target : JsOp → Nat
  | .subclass i | .fork i | .withDump i _ _ | .withLoad i _ _ => i

/-- One operation: `class C(base)`; `fork`
(`/repo/jsons/classes/json_serializable.py` lines 20-28; the new class is derived from the
old one, `/repo/jsons/_fork_impl.py` line 30); `with_dump` (lines 30-59); `with_load`
(lines 61-92).  On a class that does not exist nothing happens. -/
def jsStep (S : List JsClass) (op : JsOp) : List JsClass :=
  if S.length ≤ op.target then S
  else match op with
    | .subclass i => S ++ [{ parent := some i }]
    | .fork i => S ++ [{ parent := some i }]
    | .withDump i fork kwargs =>
      if fork then setDump (S ++ [{ parent := some i }]) S.length kwargs  -- line 57
      else setDump S i kwargs
    | .withLoad i fork kwargs =>
      if fork then setLoad (S ++ [{ parent := some i }]) S.length kwargs  -- line 90
      else setLoad S i kwargs

/-- A history of operations. -/
def jsRun (S : List JsClass) (ops : List JsOp) : List JsClass := ops.foldl jsStep S

/-- Python's attribute lookup along the base classes; `get` gives the own attribute. -/
def lookup {A : Type} (get : JsClass → Option A) (S : List JsClass) : Nat → Nat → Option A
  | 0, _ => none
  | n + 1, i => match S[i]? with
    | none => none
    | some c => match get c with
      | some a => some a
      | none => match c.parent with
        | none => none
        | some p => lookup get S n p

/-! ## Methods -/

/-- The surroundings: those of `dump` and `load`, the classes, and the type that a class
is. -/
structure JsEnv where
  E : LEnv
  F : FloatText
  n : Nat
  S : List JsClass
  ty : Nat → Ty

variable (J : JsEnv)

/-- `self.dump(**kwargs)` for an instance of class `i`,
`/repo/jsons/classes/json_serializable.py` lines 121-128 and 54-55. -/
def jsDump (i : Nat) (v : Val) (kwargs : List DumpArg) : Res Val :=
  match lookup JsClass.dump J.S J.S.length i with
  | none => Res.raise { kind := .attributeError }
  | some none => do
    noneOf DumpArg.name ["fork_inst"] kwargs                   -- line 128
    let (cls, kw) := dumpSettings kwargs
    dump J.E.toEnv J.n v cls { kw with fork := i }
  | some (some given) =>                                       -- line 55
    let (cls, kw) := dumpSettings (mergeArgs DumpArg.name kwargs given)
    dump J.E.toEnv J.n v cls kw

/-- `self.json`, `/repo/jsons/classes/json_serializable.py` lines 94-100. -/
def jsJson (i : Nat) (v : Val) : Res Val := jsDump J i v []

/-- `cls.load(json_obj, **kwargs)`, `/repo/jsons/classes/json_serializable.py` lines
130-139 and 86-88. -/
def jsLoad (i : Nat) (v : Val) (kwargs : List LoadArg) : Res Val :=
  match lookup JsClass.load J.S J.S.length i with
  | none => Res.raise { kind := .attributeError }
  | some none => do
    noneOf LoadArg.name ["cls", "fork_inst"] kwargs            -- line 139
    load J.E J.n v (some (J.ty i)) { (loadSettings kwargs).2 with fork := i }
  | some (some given) => do                                    -- line 88
    noneOf LoadArg.name ["cls", "fork_inst"] (mergeArgs LoadArg.name kwargs given)
    load J.E J.n v (some (J.ty i))
      { (loadSettings (mergeArgs LoadArg.name kwargs given)).2 with fork := i }

/-- `cls.from_json(json_obj, **kwargs)`, `/repo/jsons/classes/json_serializable.py` lines
109-119; `cls` among the keyword arguments is a `TypeError`, as it is in `load`. -/
def jsFromJson (i : Nat) (v : Val) (kwargs : List LoadArg) : Res Val := do
  noneOf LoadArg.name ["cls"] kwargs
  jsLoad J i v kwargs                                          -- line 119

/-- `self.dumps(**kwargs)`, `/repo/jsons/classes/json_serializable.py` lines 141-148. -/
def jsDumps (i : Nat) (v : Val) (kwargs : List DumpArg) : Res PyStr := do
  noneOf DumpArg.name ["fork_inst"] kwargs
  let (cls, kw) := dumpSettings kwargs
  dumps J.E.toEnv J.F J.n v cls { kw with fork := i }          -- line 148

/-- `str(self)`, `/repo/jsons/classes/json_serializable.py` lines 102-107. -/
def jsStr (i : Nat) (v : Val) : Res PyStr := jsDumps J i v []

/-- `self.dumpb(**kwargs)`, `/repo/jsons/classes/json_serializable.py` lines 161-168. -/
def jsDumpb (i : Nat) (v : Val) (kwargs : List DumpArg) : Res ByteArray := do
  noneOf DumpArg.name ["fork_inst"] kwargs
  let (cls, kw) := dumpSettings kwargs
  dumpb J.E.toEnv J.F J.n v cls { kw with fork := i }          -- line 168

/-- `cls.loads(json_obj, **kwargs)`, `/repo/jsons/classes/json_serializable.py` lines
150-159. -/
def jsLoads (i : Nat) (s : PyStr) (kwargs : List LoadArg) : Res Val := do
  noneOf LoadArg.name ["cls", "fork_inst"] kwargs
  loads J.E J.F J.n s (some (J.ty i)) { (loadSettings kwargs).2 with fork := i }  -- line 159

/-- `cls.loadb(json_obj, **kwargs)`, `/repo/jsons/classes/json_serializable.py` lines
170-179. -/
def jsLoadb (i : Nat) (b : PyObj) (kwargs : List LoadArg) : Res Val := do
  noneOf LoadArg.name ["cls", "fork_inst"] kwargs
  loadb J.E J.F J.n b (some (J.ty i)) { (loadSettings kwargs).2 with fork := i }  -- line 179

end Verif.Api
