import Verif.Core.Env

/-!
# Model of `dump`

`/repo/jsons/_dump_impl.py` lines 16-66 and `/repo/jsons/serializers`.  The
recursion is cut off by a bound on the depth of the calls, as Python's stack does
it: a call beyond the bound is a `RecursionError`.
-/

set_option autoImplicit false

namespace Verif.Core
open Verif Verif.Datetime

/-- The text `-meta`, `/repo/jsons/_common_impl.py` line 19. -/
def metaKey : PyStr := "-meta".toList
/-- The text `-cls`, `/repo/jsons/serializers/default_object.py` line 323. -/
def clsKey : PyStr := "-cls".toList
/-- The text `-keys`, `/repo/jsons/serializers/default_dict.py` line 78. -/
def keysKey : PyStr := "-keys".toList

/-- `try: x except Exception`: the outcome as a value. -/
def Res.attempt {α : Type} (x : Res α) : Res (Except Err α) := ⟨x.log, .ok x.val⟩

/-! ## Serializers of values without parts -/

/-- `default_primitive_serializer`,
`/repo/jsons/serializers/default_primitive.py` lines 6-27. -/
def primitiveSer (E : Env) (v : Val) (cls : Option Ty) : Res Val :=
  let cls_ := match cls with                                   -- lines 17-19
    | some (.newtype _ t) => some t
    | c => c
  match cls_ with
  | none => pure v
  | some t =>
    if v = .none then pure v                                   -- line 21
    else match E.isInstance v t with
      | .error k => Res.raise { kind := k }
      | .ok true => pure v
      | .ok false => match E.cast v t with                     -- line 23
        | .ok r => pure r
        | .error k =>
          if k.isValueError then Res.raise { kind := .serializationError }  -- lines 24-26
          else Res.raise { kind := k }

/-- `default_enum_serializer`, `/repo/jsons/serializers/default_enum.py` lines
4-18. -/
def enumSer (E : Env) (v : Val) (kw : DumpKw) : Res Val :=
  match v with
  | .enum c m =>
    if kw.useEnumName then pure (.str m)
    else match assoc (E.info c).enumMembers m with
      | some w => pure w
      | none => Res.raise { kind := .attributeError }
  | v => Res.lift (E.getAttr v (if kw.useEnumName then "name".toList else "value".toList))

/-- `default_complex_serializer`, `/repo/jsons/serializers/default_complex.py`
lines 1-8; the other numbers have `real` and `imag`, too. -/
def complexSer (E : Env) (v : Val) : Res Val :=
  let mk (re im : Val) : Val := .dict [(.str "real".toList, re), (.str "imag".toList, im)]
  match v with
  | .atom (.complex re im) => pure (mk (.float re) (.float im))
  | .atom (.float x) => pure (mk (.float x) (.float 0))
  | .atom (.int n) => pure (mk (.int n) (.int 0))
  | .atom (.bool b) => pure (mk (.int (if b then 1 else 0)) (.int 0))
  | v => do
    let re ← Res.lift (E.getAttr v "real".toList)
    let im ← Res.lift (E.getAttr v "imag".toList)
    pure (mk re im)

/-- The patterns of `/repo/jsons/_datetime_impl.py` lines 9-11 without fraction. -/
inductive StrfPattern where
  | date | time | datetime

/-- `dt.strftime(pattern)` without fraction and offset: a `date` has the time
00:00:00, a `time` has the date 1900-01-01. -/
def strfBody (pad : Bool) (y mo d h mi s : Nat) : StrfPattern → PyStr
  | .date => dateStr pad y mo d
  | .time => timeStr h mi s
  | .datetime => dateStr pad y mo d ++ 'T' :: timeStr h mi s

/-- `.%f` of `/repo/jsons/_datetime_impl.py` lines 21-22. -/
def fracOf (strip : Bool) (us : Nat) : PyStr :=
  if !strip && us != 0 then '.' :: pad6 us else []

/-- `to_str`, `/repo/jsons/_datetime_impl.py` lines 15-23, with the warning of lines
68-70; values without `strftime` are an `AttributeError`. -/
def toStr (E : Env) (v : Val) (strip : Bool) (fork : Nat) (p : StrfPattern) : Res Val :=
  match v with
  | .atom (.datetime dt) => do
    if dt.tz.isNone then                                       -- lines 66-70
      E.warn fork "datetime-without-tz".toList []
    let offset ← Res.liftK (datetimeOffsetStr E.R E.localTz dt.tz)
    pure (.str (strfBody E.pad dt.year dt.month dt.day dt.hour dt.minute dt.second p ++
      fracOf strip dt.micro ++ offset))
  | .atom (.date d) => pure (.str (strfBody E.pad d.year d.month d.day 0 0 0 p))
  | .atom (.time t) =>
    pure (.str (strfBody E.pad 1900 1 1 t.hour t.minute t.second p ++ fracOf strip t.micro))
  | _ => Res.raise { kind := .attributeError }

/-- `default_timedelta_serializer`,
`/repo/jsons/serializers/default_timedelta.py` lines 4-12. -/
def timedeltaSer (E : Env) (v : Val) : Res Val :=
  match v with
  | .atom (.timedelta us) => pure (.float (Timedelta.timedeltaSerializer E.R us))
  | _ => Res.raise { kind := .attributeError }

/-- `default_uuid_serializer` and `default_decimal_serializer`,
`/repo/jsons/serializers/default_uuid.py` lines 4-12 and
`/repo/jsons/serializers/default_decimal.py` lines 4-11. -/
def strSer (E : Env) (v : Val) : Res Val := pure (.str (E.strOf v))

/-- `default_path_serializer`, `/repo/jsons/serializers/default_path.py` lines
4-15. -/
def pathSer (v : Val) : Res Val :=
  match v with
  | .atom (.path s) => pure (.str s)
  | _ => Res.raise { kind := .attributeError }

/-- `default_zone_info_serializer`,
`/repo/jsons/serializers/default_zone_info.py` lines 7-12. -/
def zoneinfoSer (v : Val) : Res Val :=
  match v with
  | .atom (.zoneinfo k) => pure (.dict [(.str "key".toList, .str k)])
  | _ => Res.raise { kind := .attributeError }

/-- `default_timezone_serializer`, `/repo/jsons/serializers/default_timezone.py`
lines 6-19.  The keyword arguments that are passed on contain `cls` (line 15).
`tzname(None)` is the name that was given or the default name. -/
def timezoneSer (rec : Rec) (v : Val) (cls : Option Ty) (kw : DumpKw) : Res Val :=
  match v with
  | .atom (.timezone us name) => do
    let offset ← rec.dump (.atom (.timedelta us)) cls kw       -- line 15
    pure (.dict [(.str "name".toList, .str (name.getD (fixedName us))),
      (.str "offset".toList, offset)])
  | _ => Res.raise { kind := .attributeError }

/-! ## Collections -/

/-- `default_list_serializer`, `/repo/jsons/serializers/default_list.py` lines
10-48.  Line 45 raises for sets (`TypeError`) and for dicts (`KeyError`). -/
def listSer (E : Env) (rec : Rec) (v : Val) (cls : Option Ty) (kw : DumpKw) : Res Val :=
  if v.falsy then pure (.list [])                              -- lines 28-29
  else
    let kw' := { kw with storeCls := false }                   -- lines 31-35
    let args := (cls.map Ty.getArgs).getD []                   -- line 40
    match v.iter with
    | none => Res.raise { kind := .typeError }
    | some xs =>
      match args with
      | t :: _ => typed xs t kw'                               -- lines 41-43
      | [] =>
        if kw.strict then                                      -- lines 44-46
          match v, xs with
          | .seq .set _, _ | .seq .frozenset _, _ => Res.raise { kind := .typeError }
          | .dict _, _ | .ddict _ _, _ => Res.raise { kind := .keyError }
          | _, x :: _ => typed xs (.cls x.cls) kw'
          | _, [] => pure (.list [])
        else do
          let ys ← mapRes (fun x => rec.dump x none kw') xs    -- line 48
          pure (.list ys)
where
  /-- lines 43, 46 and 48 with a known element type -/
  typed (xs : List Val) (t : Ty) (kw' : DumpKw) : Res Val := do
    let fn ← Res.liftK (E.getSer kw.fork t)
    let ys ← mapRes (fun x => match fn with
      | some f => rec.call f x (some t) kw'
      | none => Res.raise { kind := .typeError }) xs
    pure (.list ys)

/-- `_determine_cls`, `/repo/jsons/serializers/default_iterable.py` lines 76-81:
lists, tuples and strings can be sliced; slicing a `deque` or a dict is a
`TypeError`; sets have no `__getitem__`. -/
def determineCls (E : Env) (v : Val) (cls : Option Ty) : Except ErrKind (Option Ty) :=
  match cls with
  | some t => .ok (some t)
  | none => match v with
    | .seq .list (x :: _) => .ok (some (.gen .list [E.getType x]))
    | .seq .tuple (x :: _) | .ntuple _ (x :: _) => .ok (some (.gen .tuple [E.getType x]))
    | .seq .deque (_ :: _) | .dict (_ :: _) | .ddict _ (_ :: _) => .error .typeError
    | .atom (.str (_ :: _)) => .ok (some (.cls .str))
    | _ => .ok none

/-- `_get_subclasses`, `/repo/jsons/serializers/default_iterable.py` lines 52-67. -/
def getSubclasses (n : Nat) (cls : Option Ty) : Except Err (List (Option Ty)) :=
  let subclasses : List (Option Ty) :=
    match (cls.map Ty.getArgs).getD [] with
    | [] => List.replicate n none                              -- line 53
    | [t] => List.replicate n (some t)                         -- line 58
    | ts => ts.map some                                        -- line 61
  if subclasses.length ≠ n then .error { kind := .serializationError }  -- lines 62-66
  else .ok subclasses

/-- The types of the elements, `/repo/jsons/serializers/default_iterable.py` lines
36-40. -/
def elementTypes (E : Env) (v : Val) (n : Nat) (cls : Option Ty) (strict : Bool) :
    Res (List (Option Ty)) :=
  if strict then do
    let cls_ ← Res.liftK (determineCls E v cls)
    Res.lift (getSubclasses n cls_)
  else Res.lift (getSubclasses n none)

/-- `default_iterable_serializer`,
`/repo/jsons/serializers/default_iterable.py` lines 12-49, with one task.  `len` of
what cannot be iterated is a `TypeError` (line 53). -/
def iterableSer (E : Env) (rec : Rec) (v : Val) (cls : Option Ty) (kw : DumpKw) : Res Val :=
  let kw' := { kw with storeCls := false }                     -- lines 34-35
  match v.iter with
  | none => Res.raise { kind := .typeError }
  | some xs => do
    let subclasses ← elementTypes E v xs.length cls kw.strict  -- lines 36-40
    let ys ← mapRes (fun p => rec.dump p.1 p.2 kw') (xs.zip subclasses)  -- lines 43-44
    pure (.list ys)

/-- `tuple_with_ellipsis`, `/repo/jsons/_compatibility_impl.py` lines 42-49; a type
without `__args__` is an `AttributeError`. -/
def tupleWithEllipsis : Ty → Except ErrKind Bool
  | .gen .tupleEll _ => .ok true
  | .gen _ (_ :: _) => .ok false
  | .union (_ :: _) => .ok false
  | _ => .error .attributeError

/-- `default_namedtuple_serializer`, `/repo/jsons/serializers/default_tuple.py`
lines 31-41. -/
def namedtupleSer (rec : Rec) (fields : List PyStr) (xs : List Val) (kw : DumpKw) : Res Val := do
  let ys ← mapRes (fun p => do
    let y ← rec.dump p.2 none kw
    pure (Val.str p.1, y)) (fields.zip xs)
  pure (.dict ys)

/-- The type with which the elements of a tuple are dumped,
`/repo/jsons/serializers/default_tuple.py` lines 24-26: `Tuple[T, ...]` is expanded to
as many `T` as there are elements. -/
def tupleCls (v : Val) : Option Ty → Res (Option Ty)
  | none => pure none
  | some t => match tupleWithEllipsis t with                   -- line 25
    | .error k => Res.raise { kind := k }
    | .ok false => pure (some t)
    | .ok true => match v.iter with
      | none => Res.raise { kind := .typeError }
      | some xs => pure (some (.gen .tuple (List.replicate xs.length (t.getArgs.headD .any))))

/-- `default_tuple_serializer`, `/repo/jsons/serializers/default_tuple.py` lines
10-28. -/
def tupleSer (E : Env) (rec : Rec) (v : Val) (cls : Option Ty) (kw : DumpKw) : Res Val :=
  match v with
  | .ntuple c xs => namedtupleSer rec (E.info c).fields xs kw  -- lines 21-22
  | v => do
    let cls_ ← tupleCls v cls
    iterableSer E rec v cls_ kw                                -- line 28

/-- `_is_valid_json_key`, `/repo/jsons/serializers/default_dict.py` lines 84-85,
with `JSON_KEYS` of `/repo/jsons/_common_impl.py` line 17. -/
def isValidJsonKey (E : Env) (k : Val) : Bool :=
  [Cls.str, .int, .float, .bool, .noneType].any fun c => k.cls.sub E.info c

/-- `_store_and_hash`, `/repo/jsons/serializers/default_dict.py` lines 62-81, together
with lines 46-47: the dict with the stored key, and the key to use.  A value under
`-keys` that is not a dict is a `TypeError`. -/
def storeAndHash (E : Env) (rec : Rec) (result : List (Val × Val)) (key : Val) (kw : DumpKw) :
    Res (List (Val × Val) × Val) :=
  if isValidJsonKey E key then pure (result, key)              -- line 70
  else do
    let dumped ← rec.dump key none kw                          -- line 72
    if isValidJsonKey E dumped then pure (result, dumped)      -- lines 73-74
    else
      let h : Val := .int (E.hash key)                         -- line 76
      match dictGet result (.str keysKey) with
      | none => pure (result ++ [(.str keysKey, .dict [(h, dumped)])], h)  -- lines 78-80
      | some (.dict ks) =>
        pure (dictSet result (.str keysKey) (.dict (dictSet ks h dumped)), h)
      | some _ => Res.raise { kind := .typeError }

/-- `key_transformer(key)`; the transformers of jsons fail on what is not a
string. -/
def transformKey (kt : Option (PyStr → Except Err PyStr)) (k : Val) : Except Err Val :=
  match kt with
  | none => .ok k
  | some f => match k with
    | .atom (.str s) => (f s).map .str
    | _ => .error { kind := .attributeError }

/-- Lines 55-58 of `/repo/jsons/serializers/default_dict.py`, and
`_add_dumped_elem`, `/repo/jsons/serializers/default_object.py` lines 150-159. -/
def addDumped (kw : DumpKw) (result : List (Val × Val)) (key dumped : Val) :
    Except Err (List (Val × Val)) :=
  if kw.stripNulls && dumped == .none then .ok result
  else (transformKey kw.keyTransformer key).map fun k => dictSet result k dumped

/-- The loop of `default_dict_serializer`,
`/repo/jsons/serializers/default_dict.py` lines 36-58. -/
def dictLoop (E : Env) (rec : Rec) (kw : DumpKw) :
    List (Val × Val) → List (Val × Val) → Res (List (Val × Val))
  | [], result => pure result
  | (key, v) :: es, result => do
    let cls_ := match key with                                 -- line 38
      | .atom (.str s) => assoc kw.types s
      | _ => none
    let (result, key) ← storeAndHash E rec result key kw       -- lines 42-47
    let dumped ← rec.dump v cls_ { kw with types := [] }       -- lines 49-54
    let result ← Res.lift (addDumped kw result key dumped)     -- lines 55-58
    dictLoop E rec kw es result

/-- `default_dict_serializer`, `/repo/jsons/serializers/default_dict.py` lines
7-59.  Simplification: `obj[key]` for the elements of something that is not a dict is
taken to be a `TypeError`. -/
def dictSer (E : Env) (rec : Rec) (v : Val) (kw : DumpKw) : Res Val :=
  match v with
  | .dict es | .ddict _ es => do
    let r ← dictLoop E rec kw es []
    pure (.dict r)
  | v => match v.iter with
    | some [] => pure (.dict [])
    | _ => Res.raise { kind := .typeError }

/-- The loop of `default_union_serializer`,
`/repo/jsons/serializers/default_union.py` lines 27-37. -/
def unionLoop (rec : Rec) (v : Val) (kw : DumpKw) : List Ty → Res Val
  | [] => Res.raise { kind := .serializationError }            -- lines 33-37
  | t :: ts => do
    match ← (rec.dump v (some t) kw).attempt with              -- line 29
    | .ok r => pure r
    | .error e => if e.kind.isJsonsError then unionLoop rec v kw ts else Res.raise e  -- line 30

/-- `default_union_serializer`, `/repo/jsons/serializers/default_union.py` lines
9-37; iterating over `None` (a type without parameters) is a `TypeError`. -/
def unionSer (rec : Rec) (v : Val) (cls : Option Ty) (kw : DumpKw) : Res Val :=
  match cls.bind Ty.unionParams with                           -- line 20
  | none => Res.raise { kind := .typeError }
  | some ts =>
    if v = .none ∧ .cls .noneType ∈ ts then pure v             -- lines 24-25
    else unionLoop rec v kw ts

/-! ## Objects -/

/-- Strings are ordered by their characters. -/
def strLe : PyStr → PyStr → Bool
  | [], _ => true
  | _ :: _, [] => false
  | c :: s, d :: t => if c = d then strLe s t else c.toNat < d.toNat

/-- Insertion into a sorted list without repetitions. -/
def insertName (n : PyStr) : List PyStr → List PyStr
  | [] => [n]
  | m :: l => if n = m then m :: l else if strLe n m then n :: m :: l else m :: insertName n l

/-- `dir(obj)`: the sorted names of the attributes of the object and of its class;
names that start with two underscores are left out, as they are filtered out later. -/
def dirNames (I : ClassInfo) (attrs : List (PyStr × Val)) : List PyStr :=
  (attrs.map (·.1) ++ I.members.map (·.1)).foldr insertName []

/-- `_normalize_strip_attr`, `/repo/jsons/serializers/default_object.py` lines
162-168: a set is neither a `MutableSequence` nor a tuple. -/
def normalizeStripAttr : StripAttr → StripAttr
  | .none | .name [] | .tuple [] | .list [] | .set [] => .tuple []
  | .name s => .tuple [s]
  | .tuple l => .tuple l
  | .list l => .list l
  | .set _ => .tupleOfSet
  | .tupleOfSet => .tupleOfSet

/-- `_get_attributes_and_types`, `/repo/jsons/serializers/default_object.py` lines
203-221, with `_get_class_props`, lines 249-256. -/
def attributesAndTypes (I : ClassInfo) (strict : Bool) : List (PyStr × Option Ty) :=
  let base : List (PyStr × Option Ty) :=
    match I.slots with
    | some l => l.map fun n => (n, none)                       -- lines 206-207
    | none =>
      if I.hasAnnotations then I.hints.map fun p => (p.1, some p.2)        -- lines 208-209
      else if strict then
        (I.initHints.filter fun p => p.1 ≠ "self".toList).map fun p => (p.1, some p.2)  -- 210-212
      else []
  let props := I.members.filter fun p => p.2 == .prop
  let others := I.members.filter fun p => p.2 != .prop
  (props ++ others).foldl (fun as p => assocSet as p.1 none) base          -- lines 217-219

/-- The names of `dir(JsonSerializable)` that do not start with two underscores
(`/repo/jsons/classes/json_serializable.py` lines 20-217 and
`/repo/jsons/_common_impl.py` lines 27-43). -/
def excludedElems : List PyStr :=
  ["_announced_classes", "_classes_deserializers", "_classes_serializers", "_classes_validators",
   "_deserializers", "_fork_counter", "_serializers", "_suppress_warnings", "_suppressed_warnings",
   "_validators", "_warn", "dump", "dumpb", "dumps", "fork", "from_json", "json", "load", "loadb",
   "loads", "set_deserializer", "set_serializer", "with_dump", "with_load"].map String.toList

/-- `_ABC_ATTRS`, `/repo/jsons/serializers/default_object.py` lines 333-334. -/
def abcAttrs : List PyStr :=
  ["_abc_registry", "_abc_cache", "_abc_negative_cache", "_abc_negative_cache_version",
   "_abc_impl"].map String.toList

/-- The condition of `_filter_attributes`,
`/repo/jsons/serializers/default_object.py` lines 236-246, for one name; the error is
that of line 330. -/
def keepAttr (I : ClassInfo) (kw : DumpKw) (strip : List PyStr) (attr : PyStr) :
    Except Err Bool :=
  let m := assoc I.members attr
  if "__".toList.isPrefixOf attr then .ok false                -- line 237
  else if kw.stripPrivates && "_".toList.isPrefixOf attr then .ok false
  else if kw.stripProperties && m == some .prop then .ok false
  else if kw.stripClassVariables && (m.isSome && m != some .prop) then .ok false
  else if strip.contains attr then .ok false
  else if attr = "json".toList then .ok false
  else if m = some .func then .ok false                        -- lines 243-244
  else if excludedElems.contains attr then .ok false
  else match m with                                            -- line 246
    | some .inner => .ok false
    | some .noSource => .error { kind := .typeError }
    | _ => .ok true

/-- `_filter_attributes`, `/repo/jsons/serializers/default_object.py` lines
224-246.  A list plus a tuple is a `TypeError` (line 232). -/
def filterAttributes (I : ClassInfo) (kw : DumpKw) (strip : StripAttr) :
    List (PyStr × Option Ty) → Except Err (List (PyStr × Option Ty)) :=
  match strip with
  | .tuple l => go (l ++ abcAttrs)
  | .tupleOfSet => go abcAttrs
  | _ => fun _ => .error { kind := .typeError }
where
  /-- lines 236-246 -/
  go (strip : List PyStr) : List (PyStr × Option Ty) → Except Err (List (PyStr × Option Ty))
    | [] => .ok []
    | p :: ps => do
      let b ← keepAttr I kw strip p.1
      let r ← go strip ps
      return if b then p :: r else r

/-- `_get_attributes_from_object`, `/repo/jsons/serializers/default_object.py` lines
186-200. -/
def attributesFromObject (I : ClassInfo) (attrs : List (PyStr × Val)) (kw : DumpKw)
    (strip : StripAttr) : Except Err (List (PyStr × Option Ty)) :=
  let known := attributesAndTypes I kw.strict
  filterAttributes I kw strip ((dirNames I attrs).map fun n => (n, (assoc known n).getD none))

/-- `_get_attributes_from_class`, `/repo/jsons/serializers/default_object.py` lines
171-183.  The function is cached, so a `strip_attr` that cannot be hashed (a list, or
a tuple with a set in it) is a `TypeError`. -/
def attributesFromClass (I : ClassInfo) (kw : DumpKw) (strip : StripAttr) :
    Except Err (List (PyStr × Option Ty)) :=
  match strip with
  | .tuple _ => filterAttributes I kw strip (attributesAndTypes I kw.strict)
  | _ => .error { kind := .typeError }

/-- `_store_cls_info`, `/repo/jsons/serializers/default_object.py` lines 316-323. -/
def storeClsInfo (E : Env) (storeCls : Bool) (dumped attr : Val) : Val :=
  match dumped with
  | .dict es =>
    if storeCls then .dict (dictSet es (.str clsKey) (.str (E.clsNameOf attr))) else dumped
  | _ => dumped

/-- The body of the `try` of `_do_serialize`,
`/repo/jsons/serializers/default_object.py` lines 121-131.  If there is no serializer
then `None` is called: a `TypeError`. -/
def dumpAttr (E : Env) (rec : Rec) (kw : DumpKw) (fn : Option SerFn) (attr : Val)
    (hint : Option Ty) : Res Val :=
  match fn with
  | none => Res.raise { kind := .typeError }
  | some f => do
    let d ← rec.call f attr hint kw
    pure (storeClsInfo E kw.storeCls d attr)

/-- `attr_name.lstrip('_')`. -/
def lstrip_ : PyStr → PyStr
  | '_' :: s => lstrip_ s
  | s => s

/-- The loop of `_do_serialize`, `/repo/jsons/serializers/default_object.py` lines
116-147.  `kw` are the keyword arguments that are passed on; `public` is
`make_attributes_public` (line 115).  An exception without arguments makes
`err.args[0]` an `IndexError` (lines 134, 139). -/
def attrLoop (E : Env) (rec : Rec) (kw : DumpKw) (isPublic : Bool) (v : Val) (clsName : PyStr) :
    List (PyStr × Option Ty) → List (Val × Val) → Res (List (Val × Val))
  | [], result => pure result
  | (name, hint) :: as, result => do
    let attr ← Res.lift (E.getAttr v name)                     -- line 117
    let attrType := hint.getD (.cls attr.cls)                  -- line 118
    Res.emit (.announce attrType kw.fork)                      -- line 119
    let fn ← Res.liftK (E.getSer kw.fork attrType)             -- line 120
    match ← (dumpAttr E rec kw fn attr hint).attempt with      -- lines 121-131
    | .error e =>
      if !e.hasArgs then Res.raise { kind := .indexError }
      else if kw.strict then Res.raise { kind := .serializationError, msg := e.msg }  -- line 134
      else do
        E.warn kw.fork "attribute-not-serialized".toList clsName            -- lines 136-140
        pure result                                            -- line 141
    | .ok d => do
      let name := if isPublic then lstrip_ name else name      -- lines 143-144
      let result ← Res.lift (addDumped kw result (.str name) d)             -- lines 145-146
      attrLoop E rec kw isPublic v clsName as result

mutual
/-- `_fill_collection_of_types`, `/repo/jsons/serializers/default_object.py` lines
289-304, for a nested dict: the dict without `-cls` markers, its class name
(`None` if it has no marker), and the collected types. -/
def fillVal : Val → PyStr → List (Val × Val) → Except ErrKind (Val × Val × List (Val × Val))
  | .dict es, pre, coll => do
    let (es', coll') ← fillEntries es pre coll
    .ok (.dict es', (dictGet es (.str clsKey)).getD .none, coll')
  | v, _, coll => .ok (v, .none, coll)
/-- Lines 297-303 for the entries of a dict; the `-cls` markers are dropped (lines
307-313).  Adding a key that is not a string to the prefix is a `TypeError`. -/
def fillEntries : List (Val × Val) → PyStr → List (Val × Val) →
    Except ErrKind (List (Val × Val) × List (Val × Val))
  | [], _, coll => .ok ([], coll)
  | (k, v) :: es, pre, coll =>
    if k = .str clsKey then fillEntries es pre coll
    else match v with
      | .dict ds =>
        if k = .str metaKey then do
          let (es', coll') ← fillEntries es pre coll
          .ok ((k, v) :: es', coll')
        else match k with
          | .atom (.str a) => do
            let (v', name, coll) ← fillVal (.dict ds) (pre ++ a ++ ['/']) coll  -- lines 299-302
            let coll := dictSet coll (.str (pre ++ a)) name                    -- line 303
            let (es', coll') ← fillEntries es pre coll
            .ok ((k, v') :: es', coll')
          | _ => .error .typeError
      | v => do
        let (es', coll') ← fillEntries es pre coll
        .ok ((k, v) :: es', coll')
end

/-- `_get_dict_with_meta`, `/repo/jsons/serializers/default_object.py` lines
267-286. -/
def dictWithMeta (E : Env) (obj : List (Val × Val)) (clsName : PyStr) (verbose : Verbosity) :
    Except ErrKind (List (Val × Val)) :=
  if verbose = {} then .ok obj                                 -- lines 274-275
  else do
    let obj := dictSet obj (.str metaKey) (.dict [])           -- line 277
    let (obj, meta1) ← if verbose.classInfo then do            -- lines 278-282
        let (obj, coll) ← fillEntries obj ['/'] []
        let coll := dictSet coll (.str ['/']) (.str clsName)
        .ok (obj, [(Val.str "classes".toList, Val.dict coll)])
      else .ok (obj, [])
    let meta2 := if verbose.dumpTime then                      -- lines 283-285
        [(Val.str "dump_time".toList, Val.str E.now)]
      else []
    return dictSet obj (.str metaKey) (.dict (meta1 ++ meta2))

/-- `default_object_serializer` from line 71 on, with the class and the attributes
that were determined; `/repo/jsons/serializers/default_object.py` lines 71-97. -/
def objectSerWith (E : Env) (rec : Rec) (v : Val) (kw : DumpKw) (strip : StripAttr) (t : Ty)
    (I : ClassInfo) (attributes : Except Err (List (PyStr × Option Ty))) : Res Val := do
  let attributes ← Res.lift attributes
  let kw' := { kw with stripAttr := strip, storeCls := kw.verbose.classInfo }   -- lines 72-79
  let result ← attrLoop E rec kw' (I.isAttrs && !kw.stripPrivates) v (E.className false t)
    attributes []
  if kw.storeCls then pure (.dict result)                      -- line 95
  else do
    let result ← Res.liftK (dictWithMeta E result (E.className true t) kw.verbose)
    pure (.dict result)

/-- `default_object_serializer`, `/repo/jsons/serializers/default_object.py` lines
18-97.  For values that are not objects, and in strict mode for types that are
neither classes of the program nor `object`, see `Env.foreignAttrs`. -/
def objectSer (E : Env) (rec : Rec) (v : Val) (cls : Option Ty) (kw : DumpKw) : Res Val :=
  let strip := normalizeStripAttr kw.stripAttr                 -- line 60
  let fromObject : Res Val := match v with                     -- lines 66-69
    | .obj c as => objectSerWith E rec v kw strip (.cls (.user c)) (E.info c)
        (attributesFromObject (E.info c) as kw strip)
    | v => objectSerWith E rec v kw strip (.cls v.cls) ClassInfo.object
        (E.foreignAttrs v none kw)
  match cls with
  | none => fromObject
  | some t =>
    if kw.strict then match t with                             -- lines 61-64
      | .cls (.user c) => objectSerWith E rec v kw strip t (E.info c)
          (attributesFromClass (E.info c) kw strip)
      | .cls .object => objectSerWith E rec v kw strip t ClassInfo.object
          (attributesFromClass ClassInfo.object kw strip)
      | t => objectSerWith E rec v kw strip t ClassInfo.object (E.foreignAttrs v (some t) kw)
    else fromObject

/-! ## `dump` -/

/-- A call of a serializer. -/
def callSer (E : Env) (rec : Rec) : SerFn → Val → Option Ty → DumpKw → Res Val
  | .tuple, v, cls, kw => tupleSer E rec v cls kw
  | .complex, v, _, _ => complexSer E v
  | .datetime, v, _, kw => toStr E v kw.stripMicroseconds kw.fork .datetime
  | .date, v, _, kw => toStr E v false kw.fork .date
  | .time, v, _, kw => toStr E v false kw.fork .time
  | .timezone, v, cls, kw => timezoneSer rec v cls kw
  | .timedelta, v, _, _ => timedeltaSer E v
  | .primitive, v, cls, _ => primitiveSer E v cls
  | .enum, v, _, kw => enumSer E v kw
  | .dict, v, _, kw => dictSer E rec v kw
  | .list, v, cls, kw => listSer E rec v cls kw
  | .iterable, v, cls, kw => iterableSer E rec v cls kw
  | .object, v, cls, kw => objectSer E rec v cls kw
  | .uuid, v, _, _ => strSer E v
  | .decimal, v, _, _ => strSer E v
  | .union, v, cls, kw => unionSer rec v cls kw
  | .path, v, _, _ => pathSer v
  | .zoneinfo, v, _, _ => zoneinfoSer v
  | .custom id, v, cls, kw => E.customSer id rec v cls kw

/-- `dump` and `_do_dump`, `/repo/jsons/_dump_impl.py` lines 16-66, with the calls
that it makes.  If there is no serializer then `None` is called (line 60): a
`TypeError`. -/
def dumpWith (E : Env) (rec : Rec) (v : Val) (cls : Option Ty) (kw : DumpKw) : Res Val := do
  let cls_ := cls.getD (.cls v.cls)                            -- line 42
  let fn ← Res.liftK (E.getSer kw.fork cls_)                   -- line 43
  Res.emit (.announce cls_ kw.fork)                            -- line 54
  match ← (match fn with
    | some f => rec.call f v cls kw                            -- line 60
    | none => Res.raise { kind := .typeError }).attempt with
  | .ok r => pure r
  | .error e => Res.raise { kind := .serializationError, msg := e.msg }  -- line 66

/-- The calls that are possible with a stack for `n` nested calls. -/
def recOf (E : Env) : Nat → Rec
  | 0 => ⟨fun _ _ _ => Res.raise { kind := .recursionError },
      fun _ _ _ _ => Res.raise { kind := .recursionError }⟩
  | n + 1 => ⟨dumpWith E (recOf E n), callSer E (recOf E n)⟩

/-- `dump(obj, cls, **kwargs)` with a stack for `n` nested calls. -/
def dump (E : Env) (n : Nat) (v : Val) (cls : Option Ty) (kw : DumpKw) : Res Val :=
  (recOf E n).dump v cls kw

end Verif.Core
