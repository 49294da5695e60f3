import Verif.Core.Env
import Verif.RegistryLemmas

/-!
# Which serializer is found for which type

The registrations that jsons makes when it is imported, and what the lookup of
`Verif.Registry` finds with them.
-/

set_option autoImplicit false

namespace Verif.Core
open Verif Verif.Registry

/-- The calls of `set_serializer` of `/repo/jsons/__init__.py` lines 277-293 and 320,
in order: function, classes, `high_prio`. -/
def serRegistrations : List (SerFn × List (Option Ty) × Bool) :=
  [(.tuple, [some (.cls .tuple), some (.gen .tuple [])], true),
   (.complex, [some (.cls .complex)], true),
   (.datetime, [some (.cls .datetime)], true),
   (.date, [some (.cls .date)], true),
   (.time, [some (.cls .time)], true),
   (.timezone, [some (.cls .timezone)], true),
   (.timedelta, [some (.cls .timedelta)], true),
   (.primitive, [some (.cls .str), some (.cls .int), some (.cls .float), some (.cls .bool), none],
     true),
   (.enum, [some (.cls .enum), some (.cls .intEnum)], true),
   (.dict, [some (.cls .mapping)], false),
   (.list, [some (.cls .list), some (.gen .list [])], true),
   (.iterable, [some (.gen .iterable [])], false),
   (.object, [some (.cls .object)], false),
   (.uuid, [some (.cls .uuid)], true),
   (.decimal, [some (.cls .decimal)], true),
   (.union, [some (.special false), some (.special true)], true),
   (.path, [some (.cls .path)], true),
   (.zoneinfo, [some (.cls .zoneinfo)], true)]

/-- The registry of serializers after `import jsons`. -/
def initialSers (info : Nat → ClassInfo) : Table SerFn Ty :=
  serRegistrations.foldl (fun t r => setLizer (tyWorld info) r.1 r.2.1 r.2.2 t) Table.empty

/-! ## The specification -/

/-- The serializer that a class should have: its own, or that of the kind of things
it is. -/
def Cls.serFn (info : Nat → ClassInfo) : Cls → SerFn
  | .noneType | .bool | .int | .float | .str => .primitive
  | .list => .list
  | .tuple => .tuple
  | .set | .frozenset | .deque | .iterable => .iterable
  | .dict | .defaultdict | .mapping => .dict
  | .datetime => .datetime
  | .date => .date
  | .time => .time
  | .timedelta => .timedelta
  | .timezone => .timezone
  | .uuid => .uuid
  | .decimal => .decimal
  | .complex => .complex
  | .path => .path
  | .zoneinfo => .zoneinfo
  | .object => .object
  | .enum | .intEnum => .enum
  | .user c => match (info c).kind with
    | .plain => .object
    | .ntuple => .tuple
    | .enum _ => .enum

/-- The serializer that a type should have, if it has one: a `NewType` has that of
its supertype (if that is not a `NewType` itself); `Any` has none. -/
def Ty.serFn (info : Nat → ClassInfo) : Ty → Option SerFn
  | .cls c => some (c.serFn info)
  | .gen g _ => some (g.naked.serFn info)
  | .union _ | .special _ => some .union
  | .any => none
  | .newtype _ (.cls c) => some (c.serFn info)
  | .newtype _ (.gen g _) => some (g.naked.serFn info)
  | .newtype _ (.union _) | .newtype _ (.special _) => some .union
  | .newtype _ _ => none

/-- The names under which jsons registers serializers. -/
def serNames : List PyStr :=
  ["tuple", "typing.tuple", "complex", "datetime.datetime", "datetime.date", "datetime.time",
   "datetime.timezone", "datetime.timedelta", "str", "int", "float", "bool", "nonetype",
   "enum.enum", "enum.intenum", "collections.abc.mapping", "list", "typing.list",
   "typing.iterable", "object", "uuid.uuid", "decimal.decimal", "typing.union",
   "typing.optional", "pathlib.purepath", "zoneinfo.zoneinfo"].map String.toList

/-- The classes of the program have other names, even if upper and lower case are
not distinguished. -/
def NamesOk (info : Nat → ClassInfo) (names : List PyStr) : Prop :=
  ∀ c, (getClassName (info c).attrs id true).lower ∉ names

end Verif.Core
