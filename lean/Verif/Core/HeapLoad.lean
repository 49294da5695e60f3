import Verif.Core.Load
import Verif.Core.Heap

/-!
# `load` on values with identities

As `Verif.Core.Heap` does for `dump`: containers and objects carry an identity, so that it can be told what
`load` returns of the document itself, of the default values of parameters and of what `attr_getters` give.
The functions are those of `Verif.Core.Load`, one by one.  What `load` writes to the document is the subject
of `Verif.Core.LoadInput`.
-/

set_option autoImplicit false

namespace Verif.Core
open Verif Verif.Datetime

/-- The keyword arguments of `load`, see `LoadKw`, with identities for what getters and key transformers
return. -/
structure HLoadKw where
  strict : Bool := false
  fork : Nat := 0
  attrGetters : List (PyStr × Except Err HVal) := []
  keyTransformer : Option (HVal → Except Err HVal) := none
  metaHints : Option (List (Val × Val)) := none
  inferred : Bool := false
  warnOnFail : Bool := false
  useEnumName : Option Bool := none

/-- What the code can call recursively, see `LRec`. -/
abbrev HLRec := HVal → Option Ty → HLoadKw → Res HVal

/-- The surroundings of `load` with identities: the default values of parameters and of fields of named
tuples, constructors, `setattr`, and the deserializers of the program; see `LEnv`. -/
structure HLEnv extends LEnv where
  paramDefault : Nat → PyStr → Option HVal
  fieldDefault : Nat → PyStr → Option HVal
  constructH : Nat → List (PyStr × HVal) → Except Err (List (PyStr × HVal))
  setAttrH : Nat → List (PyStr × HVal) → PyStr → HVal → Except Err (List (PyStr × HVal))
  foreignDesH : HLRec → HVal → Ty → HLoadKw → Res HVal
  customDesH : Nat → HLRec → HVal → Ty → HLoadKw → Res HVal

/-- A deserializer that builds its result anew: `/repo/jsons/deserializers/default_datetime.py`,
`default_date.py`, `default_time.py`, `default_timedelta.py`, `default_uuid.py`, `default_decimal.py`,
`default_path.py`, `default_zone_info.py` and `default_enum.py` (members of enums have no identity here, see
`HVal`). -/
def madeL (x : Res Val) : Res HVal := x >>= fun v => pure (HVal.fresh v)

/-- `obj[key]` for a text, see `subscript`: the value itself. -/
def subscriptH (v : HVal) (key : PyStr) : Except ErrKind HVal :=
  match v with
  | .dict _ es => match hget es (.str key) with
    | some w => .ok w
    | none => .error .keyError
  | _ => .error .typeError

/-- `default_primitive_deserializer`, `/repo/jsons/deserializers/default_primitive.py` lines 6-24: the object
itself, or a new one (line 19). -/
def primitiveDesH (H : HLEnv) (v : HVal) (t : Ty) : Res HVal :=
  if v.erase = .none then pure v                               -- line 17
  else match H.isInstance v.erase t with
    | .error k => Res.raise { kind := k }
    | .ok true => pure v
    | .ok false => match H.cast v.erase t with                 -- line 19
      | .ok r => pure (HVal.fresh r)
      | .error k =>
        if k.isValueError then                                 -- lines 20-23
          Res.raise { kind := .deserializationError, source := some v.erase, target := some t }
        else Res.raise { kind := k }

/-- `default_string_deserializer`, `/repo/jsons/deserializers/default_string.py` lines 9-27. -/
def stringDesH (H : HLEnv) (rec : HLRec) (v : HVal) (t : Ty) (kw : HLoadKw) : Res HVal :=
  if t = .cls .str ∧ kw.inferred = false then pure (.str (H.strOf v.erase))   -- lines 20-22
  else do
    match ← (rec v (some (.cls .datetime)) kw).attempt with    -- line 24
    | .ok r => pure r
    | .error e =>
      if e.kind.isDeserializationError then primitiveDesH H v (.cls .str)  -- lines 25-26
      else Res.raise e

/-- `timezone(offset, name)`, `/repo/jsons/deserializers/default_timezone.py` line 16, see `timezoneDes`. -/
def timezoneOf (td name : Val) : Res Val :=
  match td, name with
  | .atom (.timedelta us), .str s =>
    if -86400000000 < us ∧ us < 86400000000 then pure (.atom (.timezone us (some s)))
    else Res.raise { kind := .valueError }
  | _, _ => Res.raise { kind := .typeError }

/-- `default_timezone_deserializer`, `/repo/jsons/deserializers/default_timezone.py` lines 6-16. -/
def timezoneDesH (rec : HLRec) (v : HVal) : Res HVal := do
  let offset ← Res.liftK (subscriptH v "offset".toList)
  let td ← rec offset (some (.cls .timedelta)) {}
  let name ← Res.liftK (subscriptH v "name".toList)
  madeL (timezoneOf td.erase name.erase)

/-- `complex(real, imag)`, `/repo/jsons/deserializers/default_complex.py` line 20, see `complexDes`. -/
def complexOf (re im : Val) : Res Val :=
  match re, im with
  | .float x, .float y => pure (.atom (.complex x y))
  | _, _ => Res.raise { kind := .typeError }

/-- `default_complex_deserializer`, `/repo/jsons/deserializers/default_complex.py` lines 7-28. -/
def complexDesH (rec : HLRec) (v : HVal) : Res HVal := do
  let body : Res HVal := do
    let re ← Res.liftK (subscriptH v "real".toList)
    let im ← Res.liftK (subscriptH v "imag".toList)
    let clean ← rec (.dict none [(.str "real".toList, re), (.str "imag".toList, im)])
      (some dictStrFloat) {}                                   -- lines 18-19
    let re ← Res.liftK (subscriptH clean "real".toList)
    let im ← Res.liftK (subscriptH clean "imag".toList)
    madeL (complexOf re.erase im.erase)                        -- line 20
  match ← body.attempt with
  | .ok r => pure r
  | .error e =>
    if e.kind = .keyError ∨ e.kind.isDeserializationError = true then
      Res.raise { kind := .attributeError }                    -- lines 21-28
    else Res.raise e

/-! ## Collections -/

/-- The loop of `_do_load`, `/repo/jsons/deserializers/default_list.py` lines 56-69. -/
def listLoopH (H : HLEnv) (rec : HLRec) (cls : Option Ty) (warn : Bool) (kw : HLoadKw) :
    Nat → List HVal → Res (List HVal)
  | _, [] => pure []
  | i, x :: xs => do
    match ← (rec x cls kw).attempt with                        -- line 59
    | .ok y => do
      let ys ← listLoopH H rec cls warn kw (i + 1) xs
      pure (y :: ys)
    | .error e =>
      if e.kind.isDeserializationError then                    -- line 60
        if warn then do                                        -- lines 63-64
          H.warn kw.fork "element-not-deserialized".toList (elementMsg i e.msg)
          listLoopH H rec cls warn kw (i + 1) xs
        else Res.raise { kind := .deserializationError, msg := elementMsg i e.msg,
                         source := e.source, target := e.target }   -- lines 66-67
      else Res.raise e

/-- `default_list_deserializer`, `/repo/jsons/deserializers/default_list.py` lines 12-47. -/
def listDesH (H : HLEnv) (rec : HLRec) (v : HVal) (args : List Ty) (kw : HLoadKw) : Res (List HVal) :=
  match v.iter with
  | none => Res.raise { kind := .typeError }
  | some xs =>
    let kw' := { kw with warnOnFail := false, inferred := kw.inferred || !args.isEmpty }
    listLoopH H rec args.head? kw.warnOnFail kw' 0 xs          -- lines 35-42

/-- The elements of a set: the first of equal ones; see `dedup`. -/
def dedupH : List HVal → List HVal → List HVal
  | acc, [] => acc.reverse
  | acc, x :: xs => if acc.any (fun y => pyEq y.erase x.erase) then dedupH acc xs else dedupH (x :: acc) xs

/-- `naked_cls(list_)`, `/repo/jsons/deserializers/default_iterable.py` lines 28-29: a new container with the
elements themselves; see `castSeq`. -/
def castSeqH (info : Nat → ClassInfo) (c : Cls) (ys : List HVal) : Except ErrKind HVal :=
  match c with
  | .list | .iterable | .object => .ok (.seq none .list ys)
  | .tuple => .ok (.seq none .tuple ys)
  | .deque => .ok (.seq none .deque ys)
  | .set =>
    if Val.allHashable info (HVal.eraseList ys) then .ok (.seq none .set (dedupH [] ys)) else .error .typeError
  | .frozenset =>
    if Val.allHashable info (HVal.eraseList ys) then .ok (.seq none .frozenset (dedupH [] ys)) else .error .typeError
  | _ => .error .typeError

/-- `default_iterable_deserializer`, `/repo/jsons/deserializers/default_iterable.py` lines 8-30. -/
def iterableDesH (H : HLEnv) (rec : HLRec) (v : HVal) (t : Ty) (kw : HLoadKw) : Res HVal := do
  let ys ← listDesH H rec v t.getArgs kw                       -- lines 22-25
  match t.naked? with                                          -- line 27
  | some c => Res.liftK (castSeqH H.info c ys)
  | none => Res.raise { kind := .typeError }

/-- `{key_tfr(k): v for k, v in obj.items()}`, `/repo/jsons/deserializers/default_tuple.py` line 57 and
`/repo/jsons/deserializers/default_object.py` line 178: the values themselves. -/
def transformKeysH (info : Nat → ClassInfo) (f : HVal → Except Err HVal) :
    List (HVal × HVal) → List (HVal × HVal) → Except Err (List (HVal × HVal))
  | acc, [] => .ok acc
  | acc, (k, v) :: es => do
    let k' ← f k
    if k'.erase.hashable info then transformKeysH info f (hset acc k' v) es
    else .error { kind := .typeError }

/-- `obj[index]`: the element itself. -/
def indexH (v : HVal) (i : Nat) : Except ErrKind HVal :=
  match v with
  | .seq _ .list xs | .seq _ .tuple xs | .seq _ .deque xs | .ntuple _ _ xs => match xs[i]? with
    | some x => .ok x
    | none => .error .indexError
  | .atom (.str s) => match s[i]? with
    | some c => .ok (.str [c])
    | none => .error .indexError
  | _ => .error .typeError

/-- The value for a field of a named tuple, `/repo/jsons/deserializers/default_tuple.py` lines 61-67. -/
def ntupleFieldH (H : HLEnv) (c : Nat) (v : HVal) (tfm : Option (List (HVal × HVal))) (len i : Nat)
    (name : PyStr) : Except ErrKind HVal :=
  if i < len then match tfm with
    | some es => subscriptH (.dict none es) name
    | none => indexH v i
  else .ok ((H.fieldDefault c name).getD (.atom .none))

/-- The loop of `default_namedtuple_deserializer`, `/repo/jsons/deserializers/default_tuple.py` lines
59-86. -/
def ntupleLoopH (H : HLEnv) (rec : HLRec) (c : Nat) (v : HVal) (tfm : Option (List (HVal × HVal)))
    (len : Nat) (kw : HLoadKw) : Nat → List PyStr → Res (List HVal)
  | _, [] => pure []
  | i, name :: names => do
    let I := H.info c
    let field ← Res.liftK (ntupleFieldH H c v tfm len i name)
    let hint := if I.hasAnnotations then assoc I.hints name else none     -- lines 70-75, 84
    if field.erase = .none ∧ .cls .noneType ∉ (hint.bind Ty.unionParams).getD [] then
      Res.raise { kind := .unfulfilledArgument, source := some v.erase, target := some (.cls (.user c)),
                  argument := some name }                      -- lines 77-83
    else do
      let y ← rec field hint kw                                -- line 85
      let ys ← ntupleLoopH H rec c v tfm len kw (i + 1) names
      pure (y :: ys)

/-- `_transform_keys` of a dict, `/repo/jsons/deserializers/default_tuple.py` lines 53-57. -/
def ntupleTfmH (info : Nat → ClassInfo) (kt : HVal → Except Err HVal) (v : HVal) :
    Except Err (Option (List (HVal × HVal))) :=
  match v with
  | .dict _ es => (transformKeysH info kt [] es).map some
  | _ => .ok none

/-- `default_namedtuple_deserializer`, `/repo/jsons/deserializers/default_tuple.py` lines 39-88. -/
def ntupleDesH (H : HLEnv) (rec : HLRec) (v : HVal) (c : Nat) (kw : HLoadKw) : Res HVal := do
  let tfm ← Res.lift (ntupleTfmH H.info (kw.keyTransformer.getD .ok) v)   -- lines 53-57
  match v.iter with
  | none => Res.raise { kind := .typeError }                   -- `len(obj)`, line 61
  | some xs => do
    let ys ← ntupleLoopH H rec c v tfm xs.length kw 0 (H.info c).fields
    pure (.ntuple none c ys)                                   -- line 87

/-- The loop of lines 32-33 of `/repo/jsons/deserializers/default_tuple.py`. -/
def tupleLoopH (rec : HLRec) (kw : HLoadKw) : List Ty → List HVal → Res (List HVal)
  | _, [] => pure []
  | [], _ :: _ => Res.raise { kind := .indexError }
  | t :: ts, x :: xs => do
    let y ← rec x (some t) kw
    let ys ← tupleLoopH rec kw ts xs
    pure (y :: ys)

/-- The types of the elements of a tuple of the given length, if there are any,
`/repo/jsons/deserializers/default_tuple.py` lines 27-31; see `tupleDes`. -/
def tupleTypes (t : Ty) (n : Nat) : Option (List Ty) :=
  match t, t.getArgs with
  | .gen .tupleEll _, a :: _ => some (List.replicate n a)      -- lines 30-31
  | _, a :: as => some (a :: as)
  | _, [] => none

/-- The elements of a tuple, `/repo/jsons/deserializers/default_tuple.py` lines 27-35. -/
def tupleElemsH (rec : HLRec) (t : Ty) (kw : HLoadKw) (xs : List HVal) : Res (List HVal) :=
  match tupleTypes t xs.length with
  | some ts => tupleLoopH rec kw ts xs                         -- lines 32-33
  | none => mapRes (fun x => rec x none kw) xs                 -- line 35

/-- `default_tuple_deserializer`, `/repo/jsons/deserializers/default_tuple.py` lines 12-36, for what is not a
named tuple. -/
def plainTupleH (rec : HLRec) (v : HVal) (t : Ty) (kw : HLoadKw) : Res HVal :=
  match v.iter with
  | none => Res.raise { kind := .typeError }
  | some xs => do
    let ys ← tupleElemsH rec t { kw with keyTransformer := none } xs
    pure (.seq none .tuple ys)

/-- `default_tuple_deserializer`, `/repo/jsons/deserializers/default_tuple.py` lines 12-36. -/
def tupleDesH (H : HLEnv) (rec : HLRec) (v : HVal) (t : Ty) (kw : HLoadKw) : Res HVal :=
  match t with
  | .cls (.user c) => if (H.info c).kind = .ntuple then ntupleDesH H rec v c kw else plainTupleH rec v t kw  -- 25-26
  | _ => plainTupleH rec v t kw

/-- `del d[k]`, if there is such a key; see `dictDel`. -/
def hdel (es : List (HVal × HVal)) (k : Val) : List (HVal × HVal) :=
  match es with
  | [] => []
  | (k', v') :: es => if pyEq k'.erase k then es else (k', v') :: hdel es k

/-- `result['-keys'][key]`, `/repo/jsons/deserializers/default_dict.py` line 53. -/
def storedKeyH (es : List (HVal × HVal)) (h : Val) : Except ErrKind HVal :=
  match hget es (.str keysKey) with
  | some (.dict _ ks) => match hget ks h with
    | some k => .ok k
    | none => .error .keyError
  | _ => .error .typeError

/-- The rest of a round of the loop of `_load_hashed_keys`, `/repo/jsons/deserializers/default_dict.py` lines
57-59: the value itself is put under the loaded key.  `result['-keys']` is a dict of the document, it is
written to (see `Verif.Core.LoadInput`). -/
def putLoadedH (info : Nat → ClassInfo) (es : List (HVal × HVal)) (h : Val) (loaded : HVal) :
    Res (List (HVal × HVal)) :=
  match hget es h with                                         -- line 57
  | none => Res.raise { kind := .keyError }
  | some v =>
    if loaded.erase.hashable info then
      match hget (hset es loaded v) (.str keysKey) with        -- line 58
      | some (.dict l ks) =>
        if (hget ks h).isSome then
          pure (hdel (hset (hset es loaded v) (.str keysKey) (.dict l (hdel ks h))) h)
        else Res.raise { kind := .keyError }
      | _ => Res.raise { kind := .typeError }
    else Res.raise { kind := .typeError }

/-- One round of the loop of `_load_hashed_keys`, `/repo/jsons/deserializers/default_dict.py` lines 51-59. -/
def unhashKeyH (H : HLEnv) (rec : HLRec) (keyTy : Ty) (kw : HLoadKw) (es : List (HVal × HVal)) (h : Val) :
    Res (List (HVal × HVal)) := do
  let original ← Res.liftK (storedKeyH es h)                   -- line 53
  let loaded ← rec original (some keyTy) kw                    -- line 54
  putLoadedH H.info es h loaded

/-- The loop of `_load_hashed_keys`, `/repo/jsons/deserializers/default_dict.py` lines 51-59. -/
def unhashLoopH (H : HLEnv) (rec : HLRec) (keyTy : Ty) (kw : HLoadKw) :
    List Val → List (HVal × HVal) → Res (List (HVal × HVal))
  | [], es => pure es
  | h :: hs, es => do
    let es ← unhashKeyH H rec keyTy kw es h
    unhashLoopH H rec keyTy kw hs es

/-- `_load_hashed_keys`, `/repo/jsons/deserializers/default_dict.py` lines 32-62: the values themselves. -/
def loadHashedKeysH (H : HLEnv) (rec : HLRec) (v : HVal) (args : List Ty) (kw : HLoadKw) :
    Res (List (HVal × HVal) × Bool) :=
  match v with
  | .dict _ es =>
    match hget es (.str keysKey) with                          -- line 41
    | none => pure (es, false)
    | some stored => match stored.erase.iter with
      | none => Res.raise { kind := .typeError }
      | some [] => pure (es, false)                            -- line 42
      | some hs => match args with
        | [keyTy, _] => do
          let es ← unhashLoopH H rec keyTy kw (H.setOrder hs) es           -- lines 49-59
          pure (hdel es (.str keysKey), true)                  -- line 61
        | _ => Res.raise { kind := .deserializationError, source := some v.erase,
                           target := some (mappingTy args) }   -- lines 44-48
  | _ => Res.raise { kind := .attributeError }

/-- The comprehension of `_deserialize`, `/repo/jsons/deserializers/default_dict.py` lines 84-87: a new
dict. -/
def dictCompH (info : Nat → ClassInfo) (keyFn valFn : HVal → Res HVal) :
    List (HVal × HVal) → List (HVal × HVal) → Res (List (HVal × HVal))
  | acc, [] => pure acc
  | acc, (k, v) :: es => do
    let k' ← keyFn k
    let v' ← valFn v
    if k'.erase.hashable info then dictCompH info keyFn valFn (hset acc k' v') es
    else Res.raise { kind := .typeError }

/-- `key_func`, `/repo/jsons/deserializers/default_dict.py` lines 72 and 83. -/
def keyFnH (rec : HLRec) (kt : HVal → Except Err HVal) (hashed : Bool) (k : Ty) (kw : HLoadKw) (x : HVal) : Res HVal :=
  if hashed then Res.lift (kt x)
  else do
    let y ← Res.lift (kt x)
    rec y (some k) { kw with keyTransformer := none }

/-- `default_dict_deserializer`, `/repo/jsons/deserializers/default_dict.py` lines 9-29, with `_deserialize`,
lines 65-87. -/
def dictDesH (H : HLEnv) (rec : HLRec) (v : HVal) (args : List Ty) (kw : HLoadKw) :
    Res (List (HVal × HVal)) := do
  let (es, hashed) ← loadHashedKeysH H rec v args kw           -- lines 26-27
  let kt := kw.keyTransformer.getD .ok                         -- line 71
  let kwV := { kw with keyTransformer := some kt }             -- line 73
  match args with
  | [k, t] => dictCompH H.info (keyFnH rec kt hashed k kw) (fun x => rec x (some t) kwV) [] es  -- lines 84-87
  | _ => dictCompH H.info (fun x => Res.lift (kt x)) (fun x => rec x none kwV) [] es

/-- `default_mapping_deserializer`, `/repo/jsons/deserializers/default_mapping.py` lines 9-27. -/
def mappingDesH (H : HLEnv) (rec : HLRec) (v : HVal) (t : Ty) (kw : HLoadKw) : Res HVal := do
  let es ← dictDesH H rec v t.getArgs kw
  pure (.dict none es)

/-- The type and the factory, `/repo/jsons/deserializers/default_defaultdict.py` lines 24-30. -/
def defaultdictTy (args : List Ty) : Res (Ty × Option Ty) :=
  match args with
  | [] => pure (.gen .dict [], none)
  | [k, w] => pure (.gen .dict [k, w], some w)
  | _ => Res.raise { kind := .valueError }

/-- `default_defaultdict_deserializer`, `/repo/jsons/deserializers/default_defaultdict.py` lines 9-32: a new
`defaultdict` with the keys and values that were loaded. -/
def defaultdictDesH (rec : HLRec) (v : HVal) (t : Ty) (kw : HLoadKw) : Res HVal := do
  let (cls_, factory) ← defaultdictTy t.getArgs                -- lines 24-30
  let loaded ← rec v (some cls_) kw                            -- line 31
  match loaded with
  | .dict _ es => pure (.ddict none factory es)
  | _ => Res.raise { kind := .typeError }

/-- The loop of `default_union_deserializer`, `/repo/jsons/deserializers/default_union.py` lines 20-30. -/
def unionLoadLoopH (rec : HLRec) (v : HVal) (t : Ty) (kw : HLoadKw) : List Ty → Res HVal
  | [] => Res.raise { kind := .deserializationError, source := some v.erase, target := some t }  -- 26-30
  | a :: as => do
    match ← (rec v (some a) kw).attempt with                   -- line 22
    | .ok r => pure r
    | .error e =>
      if e.kind.isJsonsError then unionLoadLoopH rec v t kw as -- lines 23-24
      else Res.raise e

/-- `default_union_deserializer`, `/repo/jsons/deserializers/default_union.py` lines 9-30. -/
def unionDesH (rec : HLRec) (v : HVal) (t : Ty) (kw : HLoadKw) : Res HVal :=
  match t.unionParams with
  | none => Res.raise { kind := .typeError }
  | some ts => unionLoadLoopH rec v t kw ts

/-! ## Objects -/

/-- The class from the hints for a parameter, and the hints for the value, see `metaFor`,
`/repo/jsons/deserializers/default_object.py` lines 126-137: nothing of this is returned. -/
def metaForH (H : HLEnv) (kw : HLoadKw) (name : PyStr) : Except ErrKind (Option Ty × List (Val × Val)) :=
  metaFor H.toLEnv { fork := kw.fork, metaHints := kw.metaHints } name

/-- `_get_value_from_obj`, `/repo/jsons/deserializers/default_object.py` lines 122-141. -/
def valueFromObjH (H : HLEnv) (rec : HLRec) (obj : HVal) (name : PyStr) (hint : Option Ty)
    (kw : HLoadKw) : Res HVal := do
  let m ← Res.liftS obj.erase (metaForH H kw name)             -- lines 126-137
  let cls_ := determinePrecedence hint m.1 none true           -- lines 138-139
  let x ← Res.liftK (subscriptH obj name)
  rec x cls_ { kw with metaHints := some m.2, attrGetters := [] }         -- line 140

/-- `_get_value_for_attr` from line 96 on, `/repo/jsons/deserializers/default_object.py` lines 96-113: what a
getter returns or the default value itself. -/
def valueElseH (H : HLEnv) (obj : HVal) (c : Nat) (kw : HLoadKw) (p : Param) (hint : Option Ty) : Res (Option HVal) :=
  match assoc kw.attrGetters p.name with                       -- lines 96-99
  | some g => do
    let v ← Res.lift g
    pure (some v)
  | none => match H.paramDefault c p.name with                 -- lines 100-102
    | some d => pure (some d)
    | none =>
      if p.variadic then pure none                             -- lines 103-106
      else do
        if ← Res.liftK (canMatchWithNone H.toLEnv hint) then pure (some (.atom .none))  -- lines 107-109
        else Res.raise { kind := .unfulfilledArgument, source := some obj.erase,
                         target := some (.cls (.user c)), argument := some p.name }

/-- `_get_value_for_attr`, `/repo/jsons/deserializers/default_object.py` lines 82-113. -/
def valueForAttrH (H : HLEnv) (rec : HLRec) (obj : HVal) (c : Nat) (kw : HLoadKw) (p : Param) :
    Res (Option HVal) := do
  let hint := assoc (H.info c).initHints p.name                -- line 69
  if ← Res.liftK (keyIn obj.erase p.name) then do              -- lines 92-95
    let v ← valueFromObjH H rec obj p.name hint kw
    pure (some v)
  else valueElseH H obj c kw p hint

/-- The loop of `_get_constructor_args`, `/repo/jsons/deserializers/default_object.py` lines 61-74. -/
def ctorArgsH (H : HLEnv) (rec : HLRec) (obj : HVal) (c : Nat) (kw : HLoadKw) :
    List Param → Res (List (PyStr × HVal))
  | [] => pure []
  | p :: ps => do
    let v ← valueForAttrH H rec obj c kw p
    let r ← ctorArgsH H rec obj c kw ps
    match v with
    | some v => pure ((p.name, v) :: r)                        -- line 73
    | none => pure r

/-- `remaining_attrs` of `_get_remaining_args`, `/repo/jsons/deserializers/default_object.py` lines 192-194. -/
def remainingAttrsH (obj : HVal) (args : List (PyStr × HVal)) : Except ErrKind (List (HVal × HVal)) :=
  match obj with
  | .dict _ es => .ok (es.filter fun e => match e.1 with
    | .atom (.str s) => (assoc args s).isNone && decide (s ≠ metaKey)
    | _ => true)
  | v => match v.iter with
    | some [] => .ok []
    | _ => .error .typeError

/-- `_get_remaining_args`, `/repo/jsons/deserializers/default_object.py` lines 186-200. -/
def getRemainingArgsH (obj : HVal) (c : Nat) (args : List (PyStr × HVal)) (strict : Bool) :
    Res (List (HVal × HVal)) := do
  let rest ← Res.liftK (remainingAttrsH obj args)
  match rest with
  | (k, _) :: _ =>
    if strict then Res.raise (signatureMismatch obj.erase c k.erase)      -- lines 195-199
    else pure rest
  | [] => pure rest

/-- `/repo/jsons/deserializers/default_object.py` lines 166-169, see `setOne`. -/
def setOneH (H : HLEnv) (c : Nat) (as : List (PyStr × HVal)) (k y : HVal) :
    Except Err (List (PyStr × HVal)) :=
  match k with
  | .atom (.str s) => match H.setAttrH c as s y with           -- line 167
    | .ok as => .ok as
    | .error e => if e.kind = .attributeError then .ok as else .error e   -- lines 168-169
  | _ => .error { kind := .typeError }

/-- The first loop of `_set_remaining_attrs`, `/repo/jsons/deserializers/default_object.py` lines 150-169. -/
def setRemainingH (H : HLEnv) (rec : HLRec) (c : Nat) (kw : HLoadKw) :
    List (HVal × HVal) → List (PyStr × HVal) → Res (List (PyStr × HVal))
  | [], as => pure as
  | (k, v) :: es, as => do
    let hint := annotation (H.info c) k.erase                  -- lines 151-152
    warnHashed H.toEnv kw.fork v.erase hint                    -- lines 154-162
    let y ← rec v (some (hint.getD (.cls v.erase.cls))) { kw with attrGetters := [] }  -- lines 163-165
    let as ← Res.lift (setOneH H c as k y)                     -- lines 166-169
    setRemainingH H rec c kw es as

/-- The second loop of `_set_remaining_attrs`, `/repo/jsons/deserializers/default_object.py` lines 170-171. -/
def setGettersH (H : HLEnv) (c : Nat) :
    List (PyStr × Except Err HVal) → List (PyStr × HVal) → Except Err (List (PyStr × HVal))
  | [], as => .ok as
  | (n, g) :: gs, as => do
    let v ← g
    let as ← H.setAttrH c as n v
    setGettersH H c gs as

/-- `_check_and_transform_keys`, `/repo/jsons/deserializers/default_object.py` lines 174-183: a new dict with
the values themselves, if there is a transformer. -/
def transformObjH (info : Nat → ClassInfo) (v : HVal) (kt : Option (HVal → Except Err HVal)) :
    Except Err HVal :=
  match kt with
  | none => .ok v
  | some f => match v with
    | .dict _ es => (transformKeysH info f [] es).map (.dict none)
    | v => match v.iter with
      | some [] => .ok (.dict none [])
      | _ => .error { kind := .typeError }

/-- `default_object_deserializer`, `/repo/jsons/deserializers/default_object.py` lines 17-45: a new object. -/
def objectDesH (H : HLEnv) (rec : HLRec) (v : HVal) (t : Ty) (kw : HLoadKw) : Res HVal :=
  match t with
  | .cls (.user c) => do
    let obj ← Res.lift (transformObjH H.info v kw.keyTransformer)         -- line 38
    let args ← ctorArgsH H rec obj c kw (H.info c).params      -- line 40
    let rest ← getRemainingArgsH obj c args kw.strict          -- lines 41-42
    let as ← Res.lift (H.constructH c args)                    -- line 43
    let as ← setRemainingH H rec c kw rest as                  -- line 44
    let as ← Res.lift (setGettersH H c kw.attrGetters as)
    pure (.obj none c as)
  | t => H.foreignDesH rec v t kw

/-! ## `load` -/

/-- A call of a deserializer, see `callDes`. -/
def callDesH (H : HLEnv) (rec : HLRec) : DesFn → HVal → Ty → HLoadKw → Res HVal
  | .list, v, t, kw => do
    let ys ← listDesH H rec v t.getArgs kw
    pure (.seq none .list ys)
  | .tuple, v, t, kw => tupleDesH H rec v t kw
  | .union, v, t, kw => unionDesH rec v t kw
  | .defaultdict, v, t, kw => defaultdictDesH rec v t kw
  | .datetime, v, _, _ => madeL (datetimeDes v.erase)
  | .date, v, _, _ => madeL (dateDes v.erase)
  | .time, v, _, _ => madeL (timeDes v.erase)
  | .timezone, v, _, _ => timezoneDesH rec v
  | .timedelta, v, _, _ => madeL (timedeltaDes H.toLEnv v.erase)
  | .string, v, t, kw => stringDesH H rec v t kw
  | .noneType, v, t, _ => madeL (noneTypeDes v.erase t)
  | .primitive, v, t, _ => primitiveDesH H v t
  | .enum, v, t, kw => madeL (enumDes H.toLEnv v.erase t { useEnumName := kw.useEnumName })
  | .mapping, v, t, kw => mappingDesH H rec v t kw
  | .iterable, v, t, kw => iterableDesH H rec v t kw
  | .object, v, t, kw => objectDesH H rec v t kw
  | .uuid, v, _, _ => madeL (uuidDes H.toLEnv v.erase)
  | .complex, v, _, _ => complexDesH rec v
  | .decimal, v, _, _ => madeL (decimalDes H.toLEnv v.erase)
  | .path, v, _, _ => madeL (pathDes H.toLEnv v.erase)
  | .zoneinfo, v, _, _ => madeL (zoneinfoDes H.toLEnv v.erase)
  | .custom id, v, t, kw => H.customDesH id rec v t kw

/-- `_do_load`, `/repo/jsons/_load_impl.py` lines 104-125, see `doLoad`. -/
def doLoadH (H : HLEnv) (rec : HLRec) (fn : Option DesFn) (v : HVal) (t : Ty) (kw : HLoadKw) : Res HVal :=
  match fn with
  | none => Res.raise { kind := .deserializationError, source := some v.erase, target := some t }  -- 111
  | some f => do
    let body : Res HVal := do
      let r ← callDesH H rec f v t kw                          -- line 113
      validate H.toLEnv r.erase t kw.fork                      -- line 114
      pure r
    match ← body.attempt with
    | .ok r => pure r
    | .error e =>
      if e.kind.isJsonsError then Res.raise e                  -- lines 117-118
      else Res.raise { kind := .deserializationError, msg := e.msg, source := some v.erase,
                       target := some t }                      -- lines 119-120

/-- `load` from line 82 on, `/repo/jsons/_load_impl.py` lines 82-101 and 188-205, see `loadFrom`. -/
def loadFromH (H : HLEnv) (rec : HLRec) (v : HVal) (cls : Option Ty) (kw : HLoadKw) : Res HVal :=
  if v.erase.cls ∉ validTypes then                             -- lines 194-200
    Res.raise { kind := .deserializationError, source := some v.erase, target := cls }
  else do
    let m ← Res.liftS v.erase (getClsAndMeta H.toLEnv v.erase kw.fork)    -- lines 202-203
    let t := (determinePrecedence cls (m.map (·.1)) (some (.cls v.erase.cls)) kw.inferred).getD
      (.cls v.erase.cls)                                       -- lines 204-205
    let fn ← Res.liftK (H.getDes kw.fork t)                    -- line 86
    doLoadH H rec fn v t { kw with                             -- lines 91-99
      metaHints := some (kw.metaHints.getD ((m.map (·.2)).getD []))
      inferred := decide (some t ≠ cls) }

/-- `load`, `/repo/jsons/_load_impl.py` lines 76-101: line 79 returns the document itself. -/
def loadWithH (H : HLEnv) (rec : HLRec) (v : HVal) (cls : Option Ty) (kw : HLoadKw) : Res HVal := do
  checkForNone H.toLEnv v.erase cls                            -- line 76
  if (kw.strict = false ∧ cls = some (.cls v.erase.cls)) ∨ cls = some .any then do  -- lines 77, 208-209
    validate H.toLEnv v.erase (cls.getD .any) kw.fork          -- line 78
    pure v                                                     -- line 79
  else loadFromH H rec v cls kw

/-- The calls that are possible with a stack for `n` nested calls, see `loadRec`. -/
def loadRecH (H : HLEnv) : Nat → HLRec
  | 0 => fun _ _ _ => Res.raise { kind := .recursionError }
  | n + 1 => loadWithH H (loadRecH H n)

/-- `load(json_obj, cls, **kwargs)` with a stack for `n` nested calls. -/
def loadH (H : HLEnv) (n : Nat) (v : HVal) (cls : Option Ty) (kw : HLoadKw) : Res HVal :=
  loadRecH H n v cls kw

end Verif.Core
