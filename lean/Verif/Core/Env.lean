import Verif.Core.Val
import Verif.Registry
import Verif.Timedelta

/-!
# Classes, keyword arguments and the surroundings of a call

What `dump` needs to know about the classes of the program, about the registered
functions and about the parts of Python that are not modelled.
-/

set_option autoImplicit false

namespace Verif.Core
open Verif Verif.Datetime

/-! ## The classes of the program -/

/-- What is found under a name in a class or one of its base classes
(`_get_complete_class_dict`, `/repo/jsons/serializers/default_object.py` lines
259-264): a property; a function, static method or class method; a class variable
with its value; the descriptor of a slot; a class that is defined inside the class;
or a class of which `inspect.getsource` finds no source, such as `int` (line 330
then raises a `TypeError`).  Simplification: other classes as class variables are
not modelled. -/
inductive Member where
  | prop
  | func
  | var (v : Val)
  | slot
  | inner
  | noSource
  deriving DecidableEq

/-- The kinds of classes of a program: ordinary classes, named tuples, enums
(`isInt` if it is an `IntEnum`).  Simplification: other subclasses of built-in
classes are not modelled. -/
inductive UKind where
  | plain
  | ntuple
  | enum (isInt : Bool)
  deriving DecidableEq

/-- A parameter of a constructor (`inspect.Parameter`). -/
structure Param where
  name : PyStr
  default : Option Val := none
  /-- `*args` or `**kwargs` -/
  variadic : Bool := false
  deriving DecidableEq

/-- A class of the program.  `attrs` are the attributes that its name depends on;
`supers` its proper base classes among the classes of the program; `slots` its
own `__slots__`; `hasAnnotations` tells whether it has `__annotations__` (every
class has from Python 3.10 on); `hints` is `get_type_hints(cls)` and `initHints`
is `get_type_hints(cls.__init__)` (`/repo/jsons/_compatibility_impl.py` lines
68-91); `members` is the complete class dict without the names that start with two
underscores; `isAttrs` tells whether it has `__attrs_attrs__`; `enumMembers` are the
members of an enum with their values; `params` are the parameters of `__init__`
except `self`; `fields` and `fieldDefaults` are those of a named tuple; `hashable`
tells whether its instances can be hashed. -/
structure ClassInfo where
  attrs : Registry.ClsAttrs
  kind : UKind := .plain
  supers : List Nat := []
  slots : Option (List PyStr) := none
  hasAnnotations : Bool := true
  hints : List (PyStr × Ty) := []
  initHints : List (PyStr × Ty) := []
  members : List (PyStr × Member) := []
  isAttrs : Bool := false
  enumMembers : List (PyStr × Val) := []
  params : List Param := []
  fields : List PyStr := []
  fieldDefaults : List (PyStr × Val) := []
  hashable : Bool := true

/-- The class `object`, as far as `default_object_serializer` looks at it. -/
def ClassInfo.object : ClassInfo where
  attrs := ⟨some "object".toList, some "object".toList, none, [], some "builtins".toList⟩

/-! ## Names and subclasses -/

/-- The attributes of a class of Python with the given module and name. -/
def pyAttrs (module name : String) : Registry.ClsAttrs :=
  ⟨some name.toList, some name.toList, none, [], some module.toList⟩

/-- The attributes of a class. -/
def Cls.attrs (info : Nat → ClassInfo) : Cls → Registry.ClsAttrs
  | .noneType => pyAttrs "builtins" "NoneType"
  | .bool => pyAttrs "builtins" "bool"
  | .int => pyAttrs "builtins" "int"
  | .float => pyAttrs "builtins" "float"
  | .str => pyAttrs "builtins" "str"
  | .list => pyAttrs "builtins" "list"
  | .tuple => pyAttrs "builtins" "tuple"
  | .set => pyAttrs "builtins" "set"
  | .frozenset => pyAttrs "builtins" "frozenset"
  | .deque => pyAttrs "collections" "deque"
  | .dict => pyAttrs "builtins" "dict"
  | .defaultdict => pyAttrs "collections" "defaultdict"
  | .datetime => pyAttrs "datetime" "datetime"
  | .date => pyAttrs "datetime" "date"
  | .time => pyAttrs "datetime" "time"
  | .timedelta => pyAttrs "datetime" "timedelta"
  | .timezone => pyAttrs "datetime" "timezone"
  | .uuid => pyAttrs "uuid" "UUID"
  | .decimal => pyAttrs "decimal" "Decimal"
  | .complex => pyAttrs "builtins" "complex"
  | .path => pyAttrs "pathlib" "PurePath"
  | .zoneinfo => pyAttrs "zoneinfo" "ZoneInfo"
  | .object => pyAttrs "builtins" "object"
  | .mapping => pyAttrs "collections.abc" "Mapping"
  | .iterable => pyAttrs "collections.abc" "Iterable"
  | .enum => pyAttrs "enum" "Enum"
  | .intEnum => pyAttrs "enum" "IntEnum"
  | .user c => (info c).attrs

/-- The name of a generic class of `typing`. -/
def Gen.name : Gen → String
  | .list => "List" | .tuple => "Tuple" | .tupleEll => "Tuple" | .set => "Set"
  | .frozenset => "FrozenSet" | .deque => "Deque" | .dict => "Dict"
  | .defaultdict => "DefaultDict" | .mapping => "Mapping" | .iterable => "Iterable"

/-- The class behind a generic class of `typing` (`get_naked_class`,
`/repo/jsons/_compatibility_impl.py` lines 59-65). -/
def Gen.naked : Gen → Cls
  | .list => .list | .tuple => .tuple | .tupleEll => .tuple | .set => .set
  | .frozenset => .frozenset | .deque => .deque | .dict => .dict
  | .defaultdict => .defaultdict | .mapping => .mapping | .iterable => .iterable

/-- The attributes of a type that its name depends on, as in Python 3.10: a
generic class has the name of its alias, a union of two members with `None` among
them is called `Optional`, a `NewType` is called as its author wishes. -/
def Ty.attrs (info : Nat → ClassInfo) : Ty → Registry.ClsAttrs
  | .cls c => c.attrs info
  | .any => pyAttrs "typing" "Any"
  | .gen g _ => pyAttrs "typing" g.name
  | .union [a, b] =>
    if a = .cls .noneType ∨ b = .cls .noneType then pyAttrs "typing" "Optional"
    else pyAttrs "typing" "Union"
  | .union _ => pyAttrs "typing" "Union"
  | .newtype n _ => ⟨some n, some n, none, [], some "__main__".toList⟩
  | .special true => pyAttrs "typing" "Optional"
  | .special false => pyAttrs "typing" "Union"

/-- `issubclass(a, b)` for classes.  Simplification: classes of the program that
implement the protocols of `Mapping` or `Iterable` are not modelled, except for
named tuples. -/
def Cls.sub (info : Nat → ClassInfo) (a b : Cls) : Bool :=
  a == b || b == .object || match a, b with
  | .bool, .int | .datetime, .date | .defaultdict, .dict => true
  | .dict, .mapping | .defaultdict, .mapping => true
  | .list, .iterable | .tuple, .iterable | .set, .iterable | .frozenset, .iterable
  | .deque, .iterable | .dict, .iterable | .defaultdict, .iterable | .mapping, .iterable
  | .str, .iterable => true
  | .intEnum, .enum | .intEnum, .int => true
  | .user c, .user d => (info c).supers.contains d
  | .user c, .enum => match (info c).kind with | .enum _ => true | _ => false
  | .user c, .intEnum | .user c, .int => (info c).kind == .enum true
  | .user c, .tuple | .user c, .iterable => (info c).kind == .ntuple
  | _, _ => false

/-- `get_naked_class` of a class or generic class
(`/repo/jsons/_compatibility_impl.py` lines 59-65); `none` for other types. -/
def Ty.naked? : Ty → Option Cls
  | .cls c => some c
  | .gen g _ => some g.naked
  | _ => none

/-- `issubclass(get_naked_class(a), b)`; `none` for the `TypeError` of what is not a
class. -/
def Ty.sub (info : Nat → ClassInfo) (a b : Ty) : Option Bool :=
  match a.naked?, b.naked? with
  | some a, some b => some (a.sub info b)
  | _, _ => none

/-- `__supertype__` of a `NewType`. -/
def Ty.supertype : Ty → Option Ty
  | .newtype _ t => some t
  | _ => none

/-- The types as seen by the registries. -/
def tyWorld (info : Nat → ClassInfo) : Registry.World Ty where
  attrs := Ty.attrs info
  sub := Ty.sub info
  supertype := Ty.supertype

/-- `get_args(cls)` of the library `typish`: `__args__` without type variables. -/
def Ty.getArgs : Ty → List Ty
  | .gen _ args => args
  | .union args => args
  | _ => []

/-- `get_union_params`, `/repo/jsons/_compatibility_impl.py` lines 52-56: `None` for
what has no `__args__`. -/
def Ty.unionParams : Ty → Option (List Ty)
  | .gen _ [] => none
  | .gen _ args => some args
  | .union args => some args
  | _ => none

/-! ## Keyword arguments of `dump` -/

/-- The values of the keyword argument `strip_attr`: not given, a name, a tuple of
names, a list of names, a set of names; `tupleOfSet` is the tuple with one set that
`_normalize_strip_attr` makes. -/
inductive StripAttr where
  | none
  | name (s : PyStr)
  | tuple (l : List PyStr)
  | list (l : List PyStr)
  | set (l : List PyStr)
  | tupleOfSet
  deriving DecidableEq

/-- A `Verbosity` (`/repo/jsons/classes/verbosity.py` lines 7-15): whether
`WITH_CLASS_INFO` and whether `WITH_DUMP_TIME` is in it. -/
structure Verbosity where
  classInfo : Bool := false
  dumpTime : Bool := false
  deriving DecidableEq

/-- The keyword arguments that the serializers of jsons look at.  An argument that
is not given has its default value.  `fork` is the number of `fork_inst`.
Simplifications: the key transformers get strings only (those of jsons fail on
anything else); `verbose` is what `Verbosity.from_value` makes of it; `tasks` and
`task_type` are the subject of `Verif.Multitask` and are not given here; other
keyword arguments, which only custom serializers see, are left out; `_initial` is
the subject of `Verif.Cache`. -/
structure DumpKw where
  strict : Bool := false
  fork : Nat := 0
  keyTransformer : Option (PyStr → Except Err PyStr) := none
  stripNulls : Bool := false
  stripPrivates : Bool := false
  stripProperties : Bool := false
  stripClassVariables : Bool := false
  stripAttr : StripAttr := .none
  verbose : Verbosity := {}
  storeCls : Bool := false
  useEnumName : Bool := true
  stripMicroseconds : Bool := false
  types : List (PyStr × Ty) := []

/-- The serializers that `/repo/jsons/__init__.py` lines 277-293, 319-321
registers, and others. -/
inductive SerFn where
  | tuple | complex | datetime | date | time | timezone | timedelta | primitive | enum | dict
  | list | iterable | object | uuid | decimal | union | path | zoneinfo
  | custom (id : Nat)
  deriving DecidableEq

/-- What the code can call recursively: `dump(obj, cls, **kwargs)` and
`serializer(obj, cls=cls, **kwargs)`. -/
structure Rec where
  dump : Val → Option Ty → DumpKw → Res Val
  call : SerFn → Val → Option Ty → DumpKw → Res Val

/-! ## The surroundings -/

/-- Everything that the serializers depend on:
the classes of the program; the registries of the forks; which warnings are not
suppressed (`Verif.Registry.warns`); rounding, the local time zone and the padding of
years as in `Verif.Datetime`; the text of the current time
(`/repo/jsons/serializers/default_object.py` line 284); the getters of properties;
`str(obj)`, `int(obj)` and `float(obj)` for values for which they are not defined
below; `hash`; `get_type` of `typish` for collections, and the text of a type
(`/repo/jsons/serializers/default_object.py` lines 318-322); attributes of values
that are not objects; the attributes that `default_object_serializer` selects for
values that are not objects, and in strict mode for classes that are not classes of
the program; the custom serializers. -/
structure Env where
  info : Nat → ClassInfo
  sers : Nat → Registry.Table SerFn Ty
  warns : Nat → PyStr → Bool
  R : Rounding
  localTz : Tz
  pad : Bool
  now : PyStr
  prop : Nat → PyStr → Val → Except Err Val
  strOther : Val → PyStr
  intOther : Val → Except ErrKind Int
  floatOther : Val → Except ErrKind ℚ
  hash : Val → Int
  getTypeOther : Val → Ty
  typeName : Val → PyStr
  attrOther : Val → PyStr → Except Err Val
  foreignAttrs : Val → Option Ty → DumpKw → Except Err (List (PyStr × Option Ty))
  customSer : Nat → Rec → Val → Option Ty → DumpKw → Res Val

namespace Env
variable (E : Env)

/-- `get_serializer(cls, fork_inst)`, `/repo/jsons/_lizers_impl.py` lines 85-97, with
the lookup of `Verif.Registry`. -/
def getSer (fork : Nat) (t : Ty) : Except ErrKind (Option SerFn) :=
  Registry.getLizer (tyWorld E.info) (E.sers fork) t

/-- `get_class_name(cls, fully_qualified=full)`. -/
def className (full : Bool) (t : Ty) : PyStr := Registry.getClassName (t.attrs E.info) id full

/-- `fork_inst._warn(msg, code)`, `/repo/jsons/_common_impl.py` lines 38-43. -/
def warn (fork : Nat) (code msg : PyStr) : Res Unit :=
  if E.warns fork code then Res.emit (.warn code msg) else pure ()

/-- `isinstance(obj, cls)`; subscripted generics, unions and the like are a
`TypeError`. -/
def isInstance (v : Val) : Ty → Except ErrKind Bool
  | .cls c => .ok (v.cls.sub E.info c)
  | .gen g [] => .ok (v.cls.sub E.info g.naked)
  | _ => .error .typeError

/-- `str(obj)`. -/
def strOf : Val → PyStr
  | .atom (.str s) | .atom (.uuid s) | .atom (.decimal s) => s
  | v => E.strOther v

/-- `int(obj)`. -/
def intOf : Val → Except ErrKind Int
  | .atom (.bool b) => .ok (if b then 1 else 0)
  | .atom (.int n) => .ok n
  | .atom (.float x) => .ok (truncQ x)
  | .atom (.str s) => parseInt s
  | .atom .none | .seq _ _ | .dict _ | .ddict _ _ | .ntuple _ _ => .error .typeError
  | v => E.intOther v

/-- `float(obj)`. -/
def floatOf : Val → Except ErrKind ℚ
  | .atom (.bool b) => .ok (if b then 1 else 0)
  | .atom (.int n) => .ok (E.R.fl n)
  | .atom (.float x) => .ok x
  | .atom .none | .seq _ _ | .dict _ | .ddict _ _ | .ntuple _ _ => .error .typeError
  | v => E.floatOther v

/-- `cls(obj)` for the primitive classes; `NoneType(obj)` is a `TypeError`.
Simplification: so are all others, which are not reached with the functions that
jsons registers. -/
def cast (v : Val) : Ty → Except ErrKind Val
  | .cls .str => .ok (.str (E.strOf v))
  | .cls .bool => .ok (.bool !v.falsy)
  | .cls .int => (E.intOf v).map .int
  | .cls .float => (E.floatOf v).map .float
  | _ => .error .typeError

/-- `get_type(obj)` of `typish`. -/
def getType : Val → Ty
  | .atom a => .cls a.cls
  | .obj c _ => .cls (.user c)
  | .enum c _ => .cls (.user c)
  | v => E.getTypeOther v

/-- The name that `_store_cls_info` stores,
`/repo/jsons/serializers/default_object.py` lines 318-323. -/
def clsNameOf : Val → PyStr
  | .obj c _ => E.className true (.cls (.user c))
  | v => E.typeName v

/-- `getattr(obj, name)`: a property or a slot comes before the instance's own
attributes, other members of the class come after them. -/
def getAttr (v : Val) (name : PyStr) : Except Err Val :=
  match v with
  | .obj c as =>
    match assoc (E.info c).members name with
    | some .prop => E.prop c name v
    | m => match assoc as name with
      | some a => .ok a
      | none => match m with
        | some (.var a) => .ok a
        | _ => .error { kind := .attributeError }
  | v => E.attrOther v name

end Env

/-- `list(obj)`: the elements of what can be iterated.  Simplification: objects are
not iterable. -/
def Val.iter : Val → Option (List Val)
  | .seq _ xs => some xs
  | .ntuple _ xs => some xs
  | .dict es => some (es.map (·.1))
  | .ddict _ es => some (es.map (·.1))
  | .atom (.str s) => some (s.map fun c => .str [c])
  | _ => Option.none

end Verif.Core
