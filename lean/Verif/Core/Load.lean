import Verif.Core.Dump

/-!
# Model of `load`

`/repo/jsons/_load_impl.py` lines 26-125 and 188-219, `/repo/jsons/_common_impl.py`
lines 104-137, `/repo/jsons/_validation.py` lines 52-75 and
`/repo/jsons/deserializers`.  As for `dump`, the recursion is cut off by a bound on
the depth of the calls: a call beyond the bound is a `RecursionError`.

What `load` does to its *input* is the subject of `Verif.Core.LoadInput`.
-/

set_option autoImplicit false

namespace Verif.Core
open Verif Verif.Datetime

/-! ## Keyword arguments and surroundings -/

/-- The keyword arguments that `load` and the deserializers of jsons look at.  An
argument that is not given has its default value.  `metaHints` and `inferred` are the
arguments `meta_hints` and `_inferred_cls` that the nested calls get.
Simplifications: calling a getter of `attr_getters` gives the same outcome every
time; `tasks` and `task_type` are the subject of `Verif.Multitask` and are not given
here; `_initial` is the subject of `Verif.Cache`; other keyword arguments, which only
custom deserializers see, are left out. -/
structure LoadKw where
  strict : Bool := false
  fork : Nat := 0
  attrGetters : List (PyStr × Except Err Val) := []
  keyTransformer : Option (Val → Except Err Val) := none
  metaHints : Option (List (Val × Val)) := none
  inferred : Bool := false
  warnOnFail : Bool := false
  useEnumName : Option Bool := none

/-- The deserializers that `/repo/jsons/__init__.py` lines 295-314 and 321
registers, and others. -/
inductive DesFn where
  | list | tuple | union | defaultdict | datetime | date | time | timezone | timedelta | string
  | noneType | primitive | enum | mapping | iterable | object | uuid | complex | decimal | path
  | zoneinfo
  | custom (id : Nat)
  deriving DecidableEq

/-- What the code can call recursively: `load(json_obj, cls, **kwargs)`. -/
abbrev LRec := Val → Option Ty → LoadKw → Res Val

/-- Everything that `load` depends on besides the surroundings of `dump`: the
registries of deserializers and of validators of the forks; the validators;
`get_cls_from_str` (modelled in `Verif.Registry.getClsFromStr`); the constructors of
the program's classes (`cls(**constructor_args)`, `/repo/jsons/deserializers/default_object.py`
line 43), which give the attributes of the new object; `setattr` (lines 167, 171); the
constructors `UUID(obj)`, `Decimal(obj)`, `PurePath(obj)`, `ZoneInfo(key)`; what
`default_object_deserializer` does for types that are not classes of the program; the
custom deserializers; the order in which a set of the given values is gone through. -/
structure LEnv extends Env where
  desers : Nat → Registry.Table DesFn Ty
  vals : Nat → Registry.Table Nat Ty
  validator : Nat → Val → Except Err Bool
  clsFromStr : Nat → PyStr → Except ErrKind Ty
  construct : Nat → List (PyStr × Val) → Except Err (List (PyStr × Val))
  setAttr : Nat → List (PyStr × Val) → PyStr → Val → Except Err (List (PyStr × Val))
  uuidOf : Val → Except ErrKind PyStr
  decimalOf : Val → Except ErrKind PyStr
  pathOf : Val → Except ErrKind PyStr
  zoneOf : Val → Except ErrKind PyStr
  foreignDes : LRec → Val → Ty → LoadKw → Res Val
  customDes : Nat → LRec → Val → Ty → LoadKw → Res Val
  setOrder : List Val → List Val := id
  setOrder_perm : ∀ xs, (setOrder xs).Perm xs := by exact fun _ => List.Perm.refl _

namespace LEnv
variable (E : LEnv)

/-- `get_deserializer(cls, fork_inst)`, `/repo/jsons/_lizers_impl.py` lines 100-112. -/
def getDes (fork : Nat) (t : Ty) : Except ErrKind (Option DesFn) :=
  Registry.getLizer (tyWorld E.info) (E.desers fork) t

/-- `get_validator(cls, fork_inst)`, `/repo/jsons/_validation.py` lines 38-49. -/
def getVal (fork : Nat) (t : Ty) : Except ErrKind (Option Nat) :=
  Registry.getLizer (tyWorld E.info) (E.vals fork) t

end LEnv

/-- `validate`, `/repo/jsons/_validation.py` lines 52-75. -/
def validate (E : LEnv) (v : Val) (t : Ty) (fork : Nat) : Res Unit := do
  match ← Res.liftK (E.getVal fork t) with                     -- line 64
  | none => pure ()
  | some f => match E.validator f v with                       -- line 69
    | .ok true => pure ()
    | .ok false => Res.raise { kind := .validationError, msg := "Validation failed.".toList }
    | .error e => Res.raise { kind := .validationError, msg := e.msg }  -- lines 70-75

/-- `t in s` for texts. -/
def PyStr.hasSub (s t : PyStr) : Bool := decide (t <:+: s)

/-- `can_match_with_none`, `/repo/jsons/_common_impl.py` lines 130-137;
`NoneType in None` is a `TypeError`. -/
def canMatchWithNone (E : LEnv) : Option Ty → Except ErrKind Bool
  | none | some .any | some (.cls .object) | some (.cls .noneType) => .ok true  -- line 132
  | some t =>
    let name := (E.className false t).lower                    -- line 134
    if PyStr.hasSub name "union".toList || PyStr.hasSub name "optional".toList then
      match t.unionParams with                                 -- line 136
      | some ts => .ok (decide (.cls .noneType ∈ ts))
      | none => .error .typeError
    else .ok false

/-- `VALID_TYPES`, `/repo/jsons/_common_impl.py` line 18. -/
def validTypes : List Cls := [.str, .int, .float, .bool, .list, .tuple, .set, .dict, .noneType]

/-- `obj[key]` for a text. -/
def subscript (v : Val) (key : PyStr) : Except ErrKind Val :=
  match v with
  | .dict es => match dictGet es (.str key) with
    | some w => .ok w
    | none => .error .keyError
  | _ => .error .typeError

/-- `get_cls_and_meta`, `/repo/jsons/_common_impl.py` lines 120-127, and
`/repo/jsons/_load_impl.py` line 203: the class and the dict of class hints.
`getattr(builtins, x)` with an `x` that is not a text is a `TypeError`. -/
def getClsAndMeta (E : LEnv) (v : Val) (fork : Nat) :
    Except ErrKind (Option (Ty × List (Val × Val))) :=
  match v with
  | .dict es => match dictGet es (.str metaKey) with
    | none => .ok none
    | some m => do
      let classes ← subscript m "classes".toList               -- line 124
      let name ← subscript classes "/".toList
      match name, classes with
      | .str s, .dict hints => do
        let t ← E.clsFromStr fork s                            -- line 125
        return some (t, hints)
      | _, _ => .error .typeError
  | _ => .ok none

/-- `determine_precedence`, `/repo/jsons/_common_impl.py` lines 104-117; classes are
truthy. -/
def determinePrecedence (cls clsFromMeta clsFromType : Option Ty) (inferred : Bool) : Option Ty :=
  let order := if inferred then [clsFromMeta, cls, clsFromType]
    else [cls, clsFromMeta, clsFromType]
  order.findSome? id

/-! ## Deserializers of values without parts -/

/-- `default_primitive_deserializer`,
`/repo/jsons/deserializers/default_primitive.py` lines 6-24. -/
def primitiveDes (E : LEnv) (v : Val) (t : Ty) : Res Val :=
  if v = .none then pure v                                     -- line 17
  else match E.isInstance v t with
    | .error k => Res.raise { kind := k }
    | .ok true => pure v
    | .ok false => match E.cast v t with                       -- line 19
      | .ok r => pure r
      | .error k =>
        if k.isValueError then                                 -- lines 20-23
          Res.raise { kind := .deserializationError, source := some v, target := some t }
        else Res.raise { kind := k }

/-- `default_string_deserializer`, `/repo/jsons/deserializers/default_string.py`
lines 9-27. -/
def stringDes (E : LEnv) (rec : LRec) (v : Val) (t : Ty) (kw : LoadKw) : Res Val :=
  if t = .cls .str ∧ kw.inferred = false then pure (.str (E.strOf v))   -- lines 20-22
  else do
    match ← (rec v (some (.cls .datetime)) kw).attempt with    -- line 24
    | .ok r => pure r
    | .error e =>
      if e.kind.isDeserializationError then primitiveDes E v (.cls .str)  -- lines 25-26
      else Res.raise e

/-- `default_nonetype_deserializer`,
`/repo/jsons/deserializers/default_nonetype.py` lines 6-19. -/
def noneTypeDes (v : Val) (t : Ty) : Res Val :=
  if v = .none then pure v
  else Res.raise { kind := .deserializationError, source := some v, target := some t }

/-- `cls[obj]`: the member of that name. -/
def enumByName (I : ClassInfo) (c : Nat) (v : Val) : Except ErrKind Val :=
  match v with
  | .str s => if (assoc I.enumMembers s).isSome then .ok (.enum c s) else .error .keyError
  | _ => .error .keyError

/-- `cls(obj)`: the first member with that value. -/
def enumByValue (I : ClassInfo) (c : Nat) (v : Val) : Except ErrKind Val :=
  match I.enumMembers.find? fun p => pyEq p.2 v with
  | some p => .ok (.enum c p.1)
  | none => .error .valueError

/-- `default_enum_deserializer`, `/repo/jsons/deserializers/default_enum.py` lines
5-32.  Simplifications: names that are aliases of other members are not modelled;
`cls[obj]` of a list or dict is a `KeyError` (a `TypeError` in Python, which is not
caught in line 30); `Enum` and `IntEnum` themselves have no members. -/
def enumDes (E : LEnv) (v : Val) (t : Ty) (kw : LoadKw) : Res Val :=
  match t with
  | .cls (.user c) =>
    let I := E.info c
    match kw.useEnumName with
    | some true => Res.liftK (enumByName I c v)                -- lines 23-24
    | some false => Res.liftK (enumByValue I c v)              -- lines 25-26
    | none => match enumByName I c v with                      -- lines 28-31
      | .ok r => pure r
      | .error _ => Res.liftK (enumByValue I c v)
  | _ => Res.raise { kind := .valueError }

/-- `default_datetime_deserializer`,
`/repo/jsons/deserializers/default_datetime.py` lines 7-24; what is not a text fails
with a `TypeError`. -/
def datetimeDes (v : Val) : Res Val :=
  match v with
  | .str s => Res.liftK ((datetimeDeserializer s).map fun d => .atom (.datetime d))
  | _ => Res.raise { kind := .typeError }

/-- `default_date_deserializer`, `/repo/jsons/deserializers/default_date.py` lines
6-16. -/
def dateDes (v : Val) : Res Val :=
  match v with
  | .str s => Res.liftK ((dateDeserializer s).map fun d => .atom (.date d))
  | _ => Res.raise { kind := .typeError }

/-- `default_time_deserializer`, `/repo/jsons/deserializers/default_time.py` lines
6-16. -/
def timeDes (v : Val) : Res Val :=
  match v with
  | .str s => Res.liftK ((timeDeserializer s).map fun d => .atom (.time d))
  | _ => Res.raise { kind := .typeError }

/-- `default_timedelta_deserializer`,
`/repo/jsons/deserializers/default_timedelta.py` lines 4-14.  Simplification: numbers
that are too big for a `timedelta` are not refused. -/
def timedeltaDes (E : LEnv) (v : Val) : Res Val :=
  match v with
  | .bool b => pure (.atom (.timedelta (if b then 1000000 else 0)))
  | .int n => pure (.atom (.timedelta (n * 1000000)))
  | .float x => pure (.atom (.timedelta (Timedelta.timedeltaDeserializer E.R x)))
  | _ => Res.raise { kind := .typeError }

/-- `default_timezone_deserializer`,
`/repo/jsons/deserializers/default_timezone.py` lines 6-16; `load` is called without
the keyword arguments. -/
def timezoneDes (rec : LRec) (v : Val) : Res Val := do
  let offset ← Res.liftK (subscript v "offset".toList)
  let td ← rec offset (some (.cls .timedelta)) {}
  let name ← Res.liftK (subscript v "name".toList)
  match td, name with
  | .atom (.timedelta us), .str s =>
    if -86400000000 < us ∧ us < 86400000000 then pure (.atom (.timezone us (some s)))
    else Res.raise { kind := .valueError }
  | _, _ => Res.raise { kind := .typeError }

/-- The type `Dict[str, float]`. -/
def dictStrFloat : Ty := .gen .dict [.cls .str, .cls .float]

/-- `default_complex_deserializer`,
`/repo/jsons/deserializers/default_complex.py` lines 7-28; `load` is called without
the keyword arguments. -/
def complexDes (rec : LRec) (v : Val) : Res Val := do
  let body : Res Val := do
    let re ← Res.liftK (subscript v "real".toList)
    let im ← Res.liftK (subscript v "imag".toList)
    let clean ← rec (.dict [(.str "real".toList, re), (.str "imag".toList, im)])
      (some dictStrFloat) {}                                   -- lines 18-19
    let re ← Res.liftK (subscript clean "real".toList)
    let im ← Res.liftK (subscript clean "imag".toList)
    match re, im with
    | .float x, .float y => pure (.atom (.complex x y))        -- line 20
    | _, _ => Res.raise { kind := .typeError }
  match ← body.attempt with
  | .ok r => pure r
  | .error e =>
    if e.kind = .keyError ∨ e.kind.isDeserializationError = true then
      Res.raise { kind := .attributeError }                    -- lines 21-28
    else Res.raise e

/-- `default_uuid_deserializer`, `/repo/jsons/deserializers/default_uuid.py` lines
5-16. -/
def uuidDes (E : LEnv) (v : Val) : Res Val := Res.liftK ((E.uuidOf v).map fun s => .atom (.uuid s))

/-- `default_decimal_deserializer`,
`/repo/jsons/deserializers/default_decimal.py` lines 5-16. -/
def decimalDes (E : LEnv) (v : Val) : Res Val :=
  Res.liftK ((E.decimalOf v).map fun s => .atom (.decimal s))

/-- `default_path_deserializer`, `/repo/jsons/deserializers/default_path.py` lines
4-12. -/
def pathDes (E : LEnv) (v : Val) : Res Val := Res.liftK ((E.pathOf v).map fun s => .atom (.path s))

/-- `default_zone_info_deserializer`,
`/repo/jsons/deserializers/default_zone_info.py` lines 5-11. -/
def zoneinfoDes (E : LEnv) (v : Val) : Res Val := do
  let k ← Res.liftK (subscript v "key".toList)
  Res.liftK ((E.zoneOf k).map fun s => .atom (.zoneinfo s))

/-! ## Collections -/

/-- The text of `/repo/jsons/deserializers/default_list.py` lines 61-62. -/
def elementMsg (i : Nat) (msg : PyStr) : PyStr :=
  "Could not deserialize element at index ".toList ++ Nat.toDigits 10 i ++ ". ".toList ++ msg

/-- The loop of `_do_load`, `/repo/jsons/deserializers/default_list.py` lines 56-69;
`i` is the index of the next element. -/
def listLoop (E : LEnv) (rec : LRec) (cls : Option Ty) (warn : Bool) (kw : LoadKw) :
    Nat → List Val → Res (List Val)
  | _, [] => pure []
  | i, x :: xs => do
    match ← (rec x cls kw).attempt with                        -- line 59
    | .ok y => do
      let ys ← listLoop E rec cls warn kw (i + 1) xs
      pure (y :: ys)
    | .error e =>
      if e.kind.isDeserializationError then                    -- line 60
        if warn then do                                        -- lines 63-64
          E.warn kw.fork "element-not-deserialized".toList (elementMsg i e.msg)
          listLoop E rec cls warn kw (i + 1) xs
        else Res.raise { kind := .deserializationError, msg := elementMsg i e.msg,
                         source := e.source, target := e.target }   -- lines 66-67
      else Res.raise e

/-- `default_list_deserializer`, `/repo/jsons/deserializers/default_list.py` lines
12-47, with one task; `args` is `get_args(cls)`.  `warn_on_fail` is not passed on. -/
def listDes (E : LEnv) (rec : LRec) (v : Val) (args : List Ty) (kw : LoadKw) : Res (List Val) :=
  match v.iter with
  | none => Res.raise { kind := .typeError }
  | some xs =>
    let kw' := { kw with warnOnFail := false, inferred := kw.inferred || !args.isEmpty }
    listLoop E rec args.head? kw.warnOnFail kw' 0 xs           -- lines 35-42

mutual
/-- Whether `hash(obj)` works; `hashable` of a class is a part of the surroundings. -/
def Val.hashable (info : Nat → ClassInfo) : Val → Bool
  | .atom _ => true
  | .seq .tuple xs => Val.allHashable info xs
  | .seq .frozenset _ => true
  | .seq _ _ => false
  | .dict _ => false
  | .ddict _ _ => false
  | .ntuple _ xs => Val.allHashable info xs
  | .enum _ _ => true
  | .obj c _ => (info c).hashable
/-- Whether all can be hashed. -/
def Val.allHashable (info : Nat → ClassInfo) : List Val → Bool
  | [] => true
  | x :: xs => Val.hashable info x && Val.allHashable info xs
end

/-- The elements of a set: the first of equal ones. -/
def dedup : List Val → List Val → List Val
  | acc, [] => acc.reverse
  | acc, x :: xs => if acc.any (fun y => pyEq y x) then dedup acc xs else dedup (x :: acc) xs

/-- `naked_cls(list_)`, `/repo/jsons/deserializers/default_iterable.py` lines 28-29, for
the classes that get to `default_iterable_deserializer`.  Simplification: the elements of
a set are in the order in which they were inserted. -/
def castSeq (info : Nat → ClassInfo) (c : Cls) (ys : List Val) : Except ErrKind Val :=
  match c with
  | .list | .iterable | .object => .ok (.list ys)
  | .tuple => .ok (.tuple ys)
  | .deque => .ok (.seq .deque ys)
  | .set => if Val.allHashable info ys then .ok (.set (dedup [] ys)) else .error .typeError
  | .frozenset =>
    if Val.allHashable info ys then .ok (.seq .frozenset (dedup [] ys)) else .error .typeError
  | _ => .error .typeError

/-- `default_iterable_deserializer`,
`/repo/jsons/deserializers/default_iterable.py` lines 8-30.  `isinstance` with a type
that is not a class is a `TypeError` (line 28). -/
def iterableDes (E : LEnv) (rec : LRec) (v : Val) (t : Ty) (kw : LoadKw) : Res Val := do
  let ys ← listDes E rec v t.getArgs kw                        -- lines 22-25
  match t.naked? with                                          -- line 27
  | some c => Res.liftK (castSeq E.info c ys)
  | none => Res.raise { kind := .typeError }

/-- `{key_tfr(k): v for k, v in obj.items()}`: the keys of a dict are transformed; of
equal results the last one wins.  Used in `/repo/jsons/deserializers/default_tuple.py`
line 57 and `/repo/jsons/deserializers/default_object.py` line 178. -/
def transformKeys (info : Nat → ClassInfo) (f : Val → Except Err Val) :
    List (Val × Val) → List (Val × Val) → Except Err (List (Val × Val))
  | acc, [] => .ok acc
  | acc, (k, v) :: es => do
    let k' ← f k
    if k'.hashable info then transformKeys info f (dictSet acc k' v) es
    else .error { kind := .typeError }

/-- `obj[index]`. -/
def index (v : Val) (i : Nat) : Except ErrKind Val :=
  match v with
  | .seq .list xs | .seq .tuple xs | .seq .deque xs | .ntuple _ xs => match xs[i]? with
    | some x => .ok x
    | none => .error .indexError
  | .str s => match s[i]? with
    | some c => .ok (.str [c])
    | none => .error .indexError
  | _ => .error .typeError

/-- The value for a field of a named tuple,
`/repo/jsons/deserializers/default_tuple.py` lines 61-67; `len` is `len(obj)`, `tfm` is
`tfm_obj` if `obj` is a dict. -/
def ntupleField (I : ClassInfo) (v : Val) (tfm : Option (List (Val × Val))) (len i : Nat)
    (name : PyStr) : Except ErrKind Val :=
  if i < len then match tfm with
    | some es => subscript (.dict es) name
    | none => index v i
  else .ok ((assoc I.fieldDefaults name).getD .none)

/-- The loop of `default_namedtuple_deserializer`,
`/repo/jsons/deserializers/default_tuple.py` lines 59-86. -/
def ntupleLoop (E : LEnv) (rec : LRec) (c : Nat) (v : Val) (tfm : Option (List (Val × Val)))
    (len : Nat) (kw : LoadKw) : Nat → List PyStr → Res (List Val)
  | _, [] => pure []
  | i, name :: names => do
    let I := E.info c
    let field ← Res.liftK (ntupleField I v tfm len i name)
    let hint := if I.hasAnnotations then assoc I.hints name else none     -- lines 70-75, 84
    if field = .none ∧ .cls .noneType ∉ (hint.bind Ty.unionParams).getD [] then
      Res.raise { kind := .unfulfilledArgument, source := some v, target := some (.cls (.user c)),
                  argument := some name }                      -- lines 77-83
    else do
      let y ← rec field hint kw                                -- line 85
      let ys ← ntupleLoop E rec c v tfm len kw (i + 1) names
      pure (y :: ys)

/-- `_transform_keys` of a dict, `/repo/jsons/deserializers/default_tuple.py` lines 53-57:
`none` if the input is not a dict. -/
def ntupleTfm (info : Nat → ClassInfo) (kt : Val → Except Err Val) (v : Val) :
    Except Err (Option (List (Val × Val))) :=
  match v with
  | .dict es => (transformKeys info kt [] es).map some
  | _ => .ok none

/-- `default_namedtuple_deserializer`,
`/repo/jsons/deserializers/default_tuple.py` lines 39-88. -/
def ntupleDes (E : LEnv) (rec : LRec) (v : Val) (c : Nat) (kw : LoadKw) : Res Val := do
  let tfm ← Res.lift (ntupleTfm E.info (kw.keyTransformer.getD .ok) v)    -- lines 53-57
  match v.iter with
  | none => Res.raise { kind := .typeError }                   -- `len(obj)`, line 61
  | some xs => do
    let ys ← ntupleLoop E rec c v tfm xs.length kw 0 (E.info c).fields
    pure (.ntuple c ys)                                        -- line 87

/-- The loop of lines 32-33 of `/repo/jsons/deserializers/default_tuple.py`:
`tuple_types[i]` is an `IndexError` if there are more elements than types. -/
def tupleLoop (rec : LRec) (kw : LoadKw) : List Ty → List Val → Res (List Val)
  | _, [] => pure []
  | [], _ :: _ => Res.raise { kind := .indexError }
  | t :: ts, x :: xs => do
    let y ← rec x (some t) kw
    let ys ← tupleLoop rec kw ts xs
    pure (y :: ys)

/-- `default_tuple_deserializer`, `/repo/jsons/deserializers/default_tuple.py` lines
12-36; `key_transformer` is not passed on. -/
def tupleDes (E : LEnv) (rec : LRec) (v : Val) (t : Ty) (kw : LoadKw) : Res Val :=
  let plain : Res Val :=
    let kw' := { kw with keyTransformer := none }
    match v.iter with
    | none => Res.raise { kind := .typeError }
    | some xs => do
      let ys ← match t, t.getArgs with
        | .gen .tupleEll _, a :: _ => tupleLoop rec kw' (List.replicate xs.length a) xs  -- 30-33
        | _, a :: as => tupleLoop rec kw' (a :: as) xs         -- lines 32-33
        | _, [] => mapRes (fun x => rec x none kw') xs         -- line 35
      pure (.tuple ys)
  match t with
  | .cls (.user c) => if (E.info c).kind = .ntuple then ntupleDes E rec v c kw else plain  -- 25-26
  | _ => plain

/-- One round of the loop of `_load_hashed_keys`,
`/repo/jsons/deserializers/default_dict.py` lines 51-59, for the dict `es` (`result`) and
the stored key `h`. -/
def unhashKey (E : LEnv) (rec : LRec) (keyTy : Ty) (kw : LoadKw) (es : List (Val × Val)) (h : Val) :
    Res (List (Val × Val)) := do
  let original ← Res.liftK (match dictGet es (.str keysKey) with          -- line 53
    | some (.dict ks) => match dictGet ks h with
      | some k => .ok k
      | none => .error .keyError
    | _ => .error .typeError)
  let loaded ← rec original (some keyTy) kw                    -- line 54
  match dictGet es h with                                      -- line 57
  | none => Res.raise { kind := .keyError }
  | some v =>
    if loaded.hashable E.info then
      let es := dictSet es loaded v
      match dictGet es (.str keysKey) with                     -- line 58
      | some (.dict ks) =>
        if (dictGet ks h).isSome then
          pure (dictDel (dictSet es (.str keysKey) (.dict (dictDel ks h))) h)
        else Res.raise { kind := .keyError }
      | _ => Res.raise { kind := .typeError }
    else Res.raise { kind := .typeError }

/-- The loop of `_load_hashed_keys`, `/repo/jsons/deserializers/default_dict.py` lines
51-59. -/
def unhashLoop (E : LEnv) (rec : LRec) (keyTy : Ty) (kw : LoadKw) :
    List Val → List (Val × Val) → Res (List (Val × Val))
  | [], es => pure es
  | h :: hs, es => do
    let es ← unhashKey E rec keyTy kw es h
    unhashLoop E rec keyTy kw hs es

/-- `cls_`, `/repo/jsons/deserializers/default_mapping.py` lines 18-21: the type that
`default_dict_deserializer` gets. -/
def mappingTy : List Ty → Ty
  | [] => .cls .mapping
  | args => .gen .mapping args

/-- `_load_hashed_keys`, `/repo/jsons/deserializers/default_dict.py` lines 32-62: the
entries, and whether there were hashed keys.  The stored keys are visited in the
order of a set of them, which is up to the surroundings (`setOrder`).  Simplification:
a list under `-keys` that is not empty is a `TypeError`. -/
def loadHashedKeys (E : LEnv) (rec : LRec) (v : Val) (args : List Ty) (kw : LoadKw) :
    Res (List (Val × Val) × Bool) :=
  match v with
  | .dict es =>
    match dictGet es (.str keysKey) with                       -- line 41
    | none => pure (es, false)
    | some stored => match stored.iter with
      | none => Res.raise { kind := .typeError }
      | some [] => pure (es, false)                            -- line 42
      | some hs => match args with
        | [keyTy, _] => do
          let es ← unhashLoop E rec keyTy kw (E.setOrder hs) es             -- lines 49-59
          pure (dictDel es (.str keysKey), true)               -- line 61
        | _ => Res.raise { kind := .deserializationError, source := some v,
                           target := some (mappingTy args) }   -- lines 44-48
  | _ => Res.raise { kind := .attributeError }

/-- The comprehension of `_deserialize`,
`/repo/jsons/deserializers/default_dict.py` lines 84-87, for a function on keys and one
on values. -/
def dictComp (info : Nat → ClassInfo) (keyFn valFn : Val → Res Val) :
    List (Val × Val) → List (Val × Val) → Res (List (Val × Val))
  | acc, [] => pure acc
  | acc, (k, v) :: es => do
    let k' ← keyFn k
    let v' ← valFn v
    if k'.hashable info then dictComp info keyFn valFn (dictSet acc k' v') es
    else Res.raise { kind := .typeError }

/-- `default_dict_deserializer`, `/repo/jsons/deserializers/default_dict.py` lines
9-29, with `_deserialize`, lines 65-87; `args` is `get_args(cls)`. -/
def dictDes (E : LEnv) (rec : LRec) (v : Val) (args : List Ty) (kw : LoadKw) :
    Res (List (Val × Val)) := do
  let (es, hashed) ← loadHashedKeys E rec v args kw            -- lines 26-27
  let kt := kw.keyTransformer.getD .ok                         -- line 71
  let kwV := { kw with keyTransformer := some kt }             -- line 73
  let kwK := { kw with keyTransformer := none }                -- line 82
  match args with
  | [k, t] =>
    let keyFn := if hashed then fun x => Res.lift (kt x)       -- line 72
      else fun x => do                                         -- line 83
        let y ← Res.lift (kt x)
        rec y (some k) kwK
    dictComp E.info keyFn (fun x => rec x (some t) kwV) [] es  -- lines 84-87
  | _ => dictComp E.info (fun x => Res.lift (kt x)) (fun x => rec x none kwV) [] es

/-- `default_mapping_deserializer`,
`/repo/jsons/deserializers/default_mapping.py` lines 9-27.  The result is an instance of
`dict` and of `Mapping`, so line 26 is not reached. -/
def mappingDes (E : LEnv) (rec : LRec) (v : Val) (t : Ty) (kw : LoadKw) : Res Val := do
  let es ← dictDes E rec v t.getArgs kw
  pure (.dict es)

/-- `default_defaultdict_deserializer`,
`/repo/jsons/deserializers/default_defaultdict.py` lines 9-32.  `defaultdict(f, x)` with
an `x` that is not a dict is taken to be a `TypeError`. -/
def defaultdictDes (rec : LRec) (v : Val) (t : Ty) (kw : LoadKw) : Res Val := do
  let (cls_, factory) ← (match t.getArgs with                  -- lines 24-30
    | [] => pure (.gen .dict [], none)
    | [k, w] => pure (.gen .dict [k, w], some w)
    | _ => Res.raise { kind := .valueError })
  let loaded ← rec v (some cls_) kw                            -- line 31
  match loaded with
  | .dict es => pure (.ddict factory es)
  | _ => Res.raise { kind := .typeError }

/-- The loop of `default_union_deserializer`,
`/repo/jsons/deserializers/default_union.py` lines 20-30. -/
def unionLoadLoop (rec : LRec) (v : Val) (t : Ty) (kw : LoadKw) : List Ty → Res Val
  | [] => Res.raise { kind := .deserializationError, source := some v, target := some t }  -- 26-30
  | a :: as => do
    match ← (rec v (some a) kw).attempt with                   -- line 22
    | .ok r => pure r
    | .error e =>
      if e.kind.isJsonsError then unionLoadLoop rec v t kw as  -- lines 23-24
      else Res.raise e

/-- `default_union_deserializer`, `/repo/jsons/deserializers/default_union.py` lines
9-30. -/
def unionDes (rec : LRec) (v : Val) (t : Ty) (kw : LoadKw) : Res Val :=
  match t.unionParams with
  | none => Res.raise { kind := .typeError }
  | some ts => unionLoadLoop rec v t kw ts

/-! ## Objects -/

/-- `_remove_prefix`, `/repo/jsons/deserializers/default_object.py` lines 116-119. -/
def removePrefix (pre s : PyStr) : PyStr :=
  if pre.isPrefixOf s then
    match s.drop pre.length with
    | [] => ['/']
    | r => r
  else s

/-- The hints with `cls_key` as the new root,
`/repo/jsons/deserializers/default_object.py` lines 134-137; a key that is not a text is
an `AttributeError`. -/
def rebase (pre : PyStr) : List (Val × Val) → List (Val × Val) → Except ErrKind (List (Val × Val))
  | acc, [] => .ok acc
  | acc, (k, v) :: es => match k with
    | .str s => rebase pre (dictSet acc (.str (removePrefix pre s)) v) es
    | _ => .error .attributeError

/-- The class from the hints for a parameter, and the hints for the value,
`/repo/jsons/deserializers/default_object.py` lines 126-137. -/
def metaFor (E : LEnv) (kw : LoadKw) (name : PyStr) :
    Except ErrKind (Option Ty × List (Val × Val)) :=
  let hints := kw.metaHints.getD []
  match dictGet hints (.str ('/' :: name)) with
  | none => .ok (none, hints)
  | some w =>
    if w.falsy then .ok (none, hints)                          -- line 130
    else match w with
      | .str s => do
        let t ← E.clsFromStr kw.fork s                         -- lines 131-132
        let hs ← rebase ('/' :: name) [] hints                 -- lines 134-137
        return (some t, hs)
      | _ => .error .typeError

/-- `_get_value_from_obj`, `/repo/jsons/deserializers/default_object.py` lines
122-141.  `attr_getters` is not passed on. -/
def valueFromObj (E : LEnv) (rec : LRec) (obj : Val) (name : PyStr) (hint : Option Ty)
    (kw : LoadKw) : Res Val := do
  let m ← Res.liftS obj (metaFor E kw name)                    -- lines 126-137
  let cls_ := determinePrecedence hint m.1 none true           -- lines 138-139
  let x ← Res.liftK (subscript obj name)
  rec x cls_ { kw with metaHints := some m.2, attrGetters := [] }         -- line 140

/-- `obj and sig_key in obj`, `/repo/jsons/deserializers/default_object.py` line 92. -/
def keyIn (obj : Val) (name : PyStr) : Except ErrKind Bool :=
  if obj.falsy then .ok false
  else match obj with
    | .dict es => .ok (dictGet es (.str name)).isSome
    | .str s => .ok (PyStr.hasSub s name)
    | .seq _ xs => .ok (xs.any fun x => pyEq x (.str name))
    | _ => .error .typeError

/-- `_get_value_for_attr`, `/repo/jsons/deserializers/default_object.py` lines 82-113:
the value for a parameter; `none` if it gets none (line 106). -/
def valueForAttr (E : LEnv) (rec : LRec) (obj : Val) (c : Nat) (kw : LoadKw) (p : Param) :
    Res (Option Val) := do
  let hint := assoc (E.info c).initHints p.name                -- line 69
  if ← Res.liftK (keyIn obj p.name) then do                    -- lines 92-95
    let v ← valueFromObj E rec obj p.name hint kw
    pure (some v)
  else match assoc kw.attrGetters p.name with                  -- lines 96-99
    | some g => do
      let v ← Res.lift g
      pure (some v)
    | none => match p.default with                             -- lines 100-102
      | some d => pure (some d)
      | none =>
        if p.variadic then pure none                           -- lines 103-106
        else do
          if ← Res.liftK (canMatchWithNone E hint) then pure (some .none)  -- lines 107-109
          else Res.raise { kind := .unfulfilledArgument, source := some obj,
                           target := some (.cls (.user c)), argument := some p.name }

/-- The loop of `_get_constructor_args`,
`/repo/jsons/deserializers/default_object.py` lines 61-74.  The names of the parameters
are distinct, so the dict is a list. -/
def ctorArgs (E : LEnv) (rec : LRec) (obj : Val) (c : Nat) (kw : LoadKw) :
    List Param → Res (List (PyStr × Val))
  | [] => pure []
  | p :: ps => do
    let v ← valueForAttr E rec obj c kw p
    let r ← ctorArgs E rec obj c kw ps
    match v with
    | some v => pure ((p.name, v) :: r)                        -- line 73
    | none => pure r

/-- `remaining_attrs` of `_get_remaining_args`,
`/repo/jsons/deserializers/default_object.py` lines 192-194.  Simplification: for what
is not a dict and not empty, `obj[attr_name]` is a `TypeError`. -/
def remainingAttrs (obj : Val) (args : List (PyStr × Val)) : Except ErrKind (List (Val × Val)) :=
  match obj with
  | .dict es => .ok (es.filter fun e => match e.1 with
    | .str s => (assoc args s).isNone && decide (s ≠ metaKey)
    | _ => true)
  | v => match v.iter with
    | some [] => .ok []
    | _ => .error .typeError

/-- The exception of `/repo/jsons/deserializers/default_object.py` lines 197-199;
`k` is the first remaining key. -/
def signatureMismatch (obj : Val) (c : Nat) (k : Val) : Err where
  kind := .signatureMismatch
  source := some obj
  target := some (.cls (.user c))
  argument := match k with
    | .str s => some s
    | _ => none

/-- `_get_remaining_args`, `/repo/jsons/deserializers/default_object.py` lines
186-200. -/
def getRemainingArgs (obj : Val) (c : Nat) (args : List (PyStr × Val)) (strict : Bool) :
    Res (List (Val × Val)) := do
  let rest ← Res.liftK (remainingAttrs obj args)
  match rest with
  | (k, _) :: _ =>
    if strict then
      Res.raise (signatureMismatch obj c k)                               -- lines 195-199
    else pure rest
  | [] => pure rest

/-- `'-keys' in value`, for a dict; `/repo/jsons/deserializers/default_object.py` lines
154-155. -/
def hasKeysEntry : Val → Bool
  | .dict es | .ddict _ es => (dictGet es (.str keysKey)).isSome
  | _ => false

/-- `annotations.get(attr_name)`, `/repo/jsons/deserializers/default_object.py` lines
151-152. -/
def annotation (I : ClassInfo) : Val → Option Ty
  | .str s => assoc I.hints s
  | _ => none

/-- The warning of `/repo/jsons/deserializers/default_object.py` lines 154-162. -/
def warnHashed (E : Env) (fork : Nat) (v : Val) (hint : Option Ty) : Res Unit :=
  if hasKeysEntry v && hint.isNone then E.warn fork "hashed-keys-without-hint".toList []
  else pure ()

/-- `/repo/jsons/deserializers/default_object.py` lines 166-169; `as` are the attributes
of the instance.  Setting an attribute of which the name is not a text is a
`TypeError`. -/
def setOne (E : LEnv) (c : Nat) (as : List (PyStr × Val)) (k y : Val) :
    Except Err (List (PyStr × Val)) :=
  match k with
  | .str s => match E.setAttr c as s y with                    -- line 167
    | .ok as => .ok as
    | .error e => if e.kind = .attributeError then .ok as else .error e   -- lines 168-169
  | _ => .error { kind := .typeError }

/-- The first loop of `_set_remaining_attrs`,
`/repo/jsons/deserializers/default_object.py` lines 150-169; `as` are the attributes of
the instance. -/
def setRemaining (E : LEnv) (rec : LRec) (c : Nat) (kw : LoadKw) :
    List (Val × Val) → List (PyStr × Val) → Res (List (PyStr × Val))
  | [], as => pure as
  | (k, v) :: es, as => do
    let hint := annotation (E.info c) k                        -- lines 151-152
    warnHashed E.toEnv kw.fork v hint                          -- lines 154-162
    let y ← rec v (some (hint.getD (.cls v.cls))) { kw with attrGetters := [] }  -- lines 163-165
    let as ← Res.lift (setOne E c as k y)                      -- lines 166-169
    setRemaining E rec c kw es as

/-- The second loop of `_set_remaining_attrs`,
`/repo/jsons/deserializers/default_object.py` lines 170-171. -/
def setGetters (E : LEnv) (c : Nat) :
    List (PyStr × Except Err Val) → List (PyStr × Val) → Except Err (List (PyStr × Val))
  | [], as => .ok as
  | (n, g) :: gs, as => do
    let v ← g
    let as ← E.setAttr c as n v
    setGetters E c gs as

/-- `_check_and_transform_keys`, `/repo/jsons/deserializers/default_object.py` lines
174-183.  Simplification: `obj[key]` for the elements of something that is not a dict is
a `TypeError`. -/
def transformObj (info : Nat → ClassInfo) (v : Val) (kt : Option (Val → Except Err Val)) :
    Except Err Val :=
  match kt with
  | none => .ok v
  | some f => match v with
    | .dict es => (transformKeys info f [] es).map .dict
    | v => match v.iter with
      | some [] => .ok (.dict [])
      | _ => .error { kind := .typeError }

/-- `default_object_deserializer`, `/repo/jsons/deserializers/default_object.py` lines
17-45. -/
def objectDes (E : LEnv) (rec : LRec) (v : Val) (t : Ty) (kw : LoadKw) : Res Val :=
  match t with
  | .cls (.user c) => do
    let obj ← Res.lift (transformObj E.info v kw.keyTransformer)          -- line 38
    let args ← ctorArgs E rec obj c kw (E.info c).params       -- line 40
    let rest ← getRemainingArgs obj c args kw.strict           -- lines 41-42
    let as ← Res.lift (E.construct c args)                     -- line 43
    let as ← setRemaining E rec c kw rest as                   -- line 44
    let as ← Res.lift (setGetters E c kw.attrGetters as)
    pure (.obj c as)
  | t => E.foreignDes rec v t kw

/-! ## `load` -/

/-- A call of a deserializer. -/
def callDes (E : LEnv) (rec : LRec) : DesFn → Val → Ty → LoadKw → Res Val
  | .list, v, t, kw => do
    let ys ← listDes E rec v t.getArgs kw
    pure (.list ys)
  | .tuple, v, t, kw => tupleDes E rec v t kw
  | .union, v, t, kw => unionDes rec v t kw
  | .defaultdict, v, t, kw => defaultdictDes rec v t kw
  | .datetime, v, _, _ => datetimeDes v
  | .date, v, _, _ => dateDes v
  | .time, v, _, _ => timeDes v
  | .timezone, v, _, _ => timezoneDes rec v
  | .timedelta, v, _, _ => timedeltaDes E v
  | .string, v, t, kw => stringDes E rec v t kw
  | .noneType, v, t, _ => noneTypeDes v t
  | .primitive, v, t, _ => primitiveDes E v t
  | .enum, v, t, kw => enumDes E v t kw
  | .mapping, v, t, kw => mappingDes E rec v t kw
  | .iterable, v, t, kw => iterableDes E rec v t kw
  | .object, v, t, kw => objectDes E rec v t kw
  | .uuid, v, _, _ => uuidDes E v
  | .complex, v, _, _ => complexDes rec v
  | .decimal, v, _, _ => decimalDes E v
  | .path, v, _, _ => pathDes E v
  | .zoneinfo, v, _, _ => zoneinfoDes E v
  | .custom id, v, t, kw => E.customDes id rec v t kw

/-- `_do_load`, `/repo/jsons/_load_impl.py` lines 104-125, without the clearing of the
caches, which is the subject of `Verif.Cache`. -/
def doLoad (E : LEnv) (rec : LRec) (fn : Option DesFn) (v : Val) (t : Ty) (kw : LoadKw) : Res Val :=
  match fn with
  | none => Res.raise { kind := .deserializationError, source := some v, target := some t }  -- 111
  | some f => do
    let body : Res Val := do
      let r ← callDes E rec f v t kw                           -- line 113
      validate E r t kw.fork                                   -- line 114
      pure r
    match ← body.attempt with
    | .ok r => pure r
    | .error e =>
      if e.kind.isJsonsError then Res.raise e                  -- lines 117-118
      else Res.raise { kind := .deserializationError, msg := e.msg, source := some v,
                       target := some t }                      -- lines 119-120

/-- `load` from line 82 on, with `_check_and_get_cls_and_meta_hints`,
`/repo/jsons/_load_impl.py` lines 82-101 and 188-205. -/
def loadFrom (E : LEnv) (rec : LRec) (v : Val) (cls : Option Ty) (kw : LoadKw) : Res Val :=
  if v.cls ∉ validTypes then                                   -- lines 194-200
    Res.raise { kind := .deserializationError, source := some v, target := cls }
  else do
    let m ← Res.liftS v (getClsAndMeta E v kw.fork)            -- lines 202-203
    let t := (determinePrecedence cls (m.map (·.1)) (some (.cls v.cls)) kw.inferred).getD
      (.cls v.cls)                                             -- lines 204-205
    let fn ← Res.liftK (E.getDes kw.fork t)                    -- line 86
    doLoad E rec fn v t { kw with                              -- lines 91-99
      metaHints := some (kw.metaHints.getD ((m.map (·.2)).getD []))
      inferred := decide (some t ≠ cls) }

/-- `_check_for_none`, `/repo/jsons/_load_impl.py` lines 212-219. -/
def checkForNone (E : LEnv) (v : Val) (cls : Option Ty) : Res Unit :=
  if v = .none then do
    if ← Res.liftK (canMatchWithNone E cls) then pure ()
    else Res.raise { kind := .deserializationError, source := some v, target := cls }
  else pure ()

/-- `load`, `/repo/jsons/_load_impl.py` lines 76-101, for a `cls` that is not a text. -/
def loadWith (E : LEnv) (rec : LRec) (v : Val) (cls : Option Ty) (kw : LoadKw) : Res Val := do
  checkForNone E v cls                                         -- line 76
  if (kw.strict = false ∧ cls = some (.cls v.cls)) ∨ cls = some .any then do  -- lines 77, 208-209
    validate E v (cls.getD .any) kw.fork                       -- line 78
    pure v
  else loadFrom E rec v cls kw

/-- The calls that are possible with a stack for `n` nested calls. -/
def loadRec (E : LEnv) : Nat → LRec
  | 0 => fun _ _ _ => Res.raise { kind := .recursionError }
  | n + 1 => loadWith E (loadRec E n)

/-- `load(json_obj, cls, **kwargs)` with a stack for `n` nested calls. -/
def load (E : LEnv) (n : Nat) (v : Val) (cls : Option Ty) (kw : LoadKw) : Res Val :=
  loadRec E n v cls kw

/-- `load(json_obj, cls, **kwargs)` if `cls` is a text, `/repo/jsons/_load_impl.py` lines
76-101.  `None` is refused (line 76; with a `TypeError` if the text contains `union` or
`optional`). -/
def loadByName (E : LEnv) (n : Nat) (v : Val) (name : PyStr) (kw : LoadKw) : Res Val :=
  if v = .none then
    if PyStr.hasSub name.lower "union".toList || PyStr.hasSub name.lower "optional".toList then
      Res.raise { kind := .typeError }
    else Res.raise { kind := .deserializationError, source := some v }
  else do
    let t ← Res.liftS v (E.clsFromStr kw.fork name)            -- line 81
    loadFrom E (loadRec E n) v (some t) kw

end Verif.Core
