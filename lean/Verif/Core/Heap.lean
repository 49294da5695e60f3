import Verif.Core.Dump

/-!
# `dump` on values with identities

The values of `Verif.Core.Val` are trees.  Here the containers and objects carry an identity, so that it
can be told whether what `dump` returns was there before the call or is new, and which of the things that
were there before are written to.  The functions are those of `Verif.Core.Dump`, one by one; what a
serializer does to values without containers is taken from there.
-/

set_option autoImplicit false

namespace Verif.Core
open Verif Verif.Datetime

/-- Values as in `Val`, with identities: `some i` is something that was there before the call, `none`
is something that was made during the call (`[...]`, `{...}`, `/repo/jsons/serializers/default_list.py` line
48, `/repo/jsons/serializers/default_dict.py` line 34, `/repo/jsons/serializers/default_object.py` line 112,
...).  Simplification: what is made during the call is not told apart, so this does not show whether two
parts of a dump are the same new object. -/
inductive HVal where
  | atom (a : Atom)
  | seq (l : Option Nat) (k : SeqKind) (xs : List HVal)
  | dict (l : Option Nat) (es : List (HVal × HVal))
  | ddict (l : Option Nat) (factory : Option Ty) (es : List (HVal × HVal))
  | ntuple (l : Option Nat) (c : Nat) (xs : List HVal)
  | enum (c : Nat) (member : PyStr)
  | obj (l : Option Nat) (c : Nat) (attrs : List (PyStr × HVal))

mutual
/-- The value without identities: what `==` and the functions of `Verif.Core.Dump` see. -/
def HVal.erase : HVal → Val
  | .atom a => .atom a
  | .seq _ k xs => .seq k (HVal.eraseList xs)
  | .dict _ es => .dict (HVal.eraseEntries es)
  | .ddict _ f es => .ddict f (HVal.eraseEntries es)
  | .ntuple _ c xs => .ntuple c (HVal.eraseList xs)
  | .enum c m => .enum c m
  | .obj _ c as => .obj c (HVal.eraseAttrs as)
/-- The elements without identities. -/
def HVal.eraseList : List HVal → List Val
  | [] => []
  | x :: xs => x.erase :: HVal.eraseList xs
/-- The entries without identities. -/
def HVal.eraseEntries : List (HVal × HVal) → List (Val × Val)
  | [] => []
  | (k, v) :: es => (k.erase, v.erase) :: HVal.eraseEntries es
/-- The attributes without identities. -/
def HVal.eraseAttrs : List (PyStr × HVal) → List (PyStr × Val)
  | [] => []
  | (n, v) :: as => (n, v.erase) :: HVal.eraseAttrs as
end

mutual
/-- The identities in a value: what it shares with what was there before. -/
def HVal.labels : HVal → List Nat
  | .atom _ => []
  | .seq l _ xs => l.toList ++ HVal.labelsList xs
  | .dict l es => l.toList ++ HVal.labelsEntries es
  | .ddict l _ es => l.toList ++ HVal.labelsEntries es
  | .ntuple l _ xs => l.toList ++ HVal.labelsList xs
  | .enum _ _ => []
  | .obj l _ as => l.toList ++ HVal.labelsAttrs as
/-- The identities in elements. -/
def HVal.labelsList : List HVal → List Nat
  | [] => []
  | x :: xs => x.labels ++ HVal.labelsList xs
/-- The identities in entries. -/
def HVal.labelsEntries : List (HVal × HVal) → List Nat
  | [] => []
  | (k, v) :: es => k.labels ++ v.labels ++ HVal.labelsEntries es
/-- The identities in attributes. -/
def HVal.labelsAttrs : List (PyStr × HVal) → List Nat
  | [] => []
  | (_, v) :: as => v.labels ++ HVal.labelsAttrs as
end

mutual
/-- A value that was made during the call, with all its parts. -/
def HVal.fresh : Val → HVal
  | .atom a => .atom a
  | .seq k xs => .seq none k (HVal.freshList xs)
  | .dict es => .dict none (HVal.freshEntries es)
  | .ddict f es => .ddict none f (HVal.freshEntries es)
  | .ntuple c xs => .ntuple none c (HVal.freshList xs)
  | .enum c m => .enum c m
  | .obj c as => .obj none c (HVal.freshAttrs as)
/-- New elements. -/
def HVal.freshList : List Val → List HVal
  | [] => []
  | x :: xs => HVal.fresh x :: HVal.freshList xs
/-- New entries. -/
def HVal.freshEntries : List (Val × Val) → List (HVal × HVal)
  | [] => []
  | (k, v) :: es => (HVal.fresh k, HVal.fresh v) :: HVal.freshEntries es
/-- New attributes. -/
def HVal.freshAttrs : List (PyStr × Val) → List (PyStr × HVal)
  | [] => []
  | (n, v) :: as => (n, HVal.fresh v) :: HVal.freshAttrs as
end

/-- A text; see `HVal`. -/
abbrev HVal.str (s : PyStr) : HVal := .atom (.str s)

/-- The outcome of a call, and the identities of the dicts that were written to during it (`d[k] = v` and
`del d[k]`: `/repo/jsons/serializers/default_dict.py` lines 78-80 and
`/repo/jsons/serializers/default_object.py` lines 312 and 323), as far as they were there before. -/
structure WRes (α : Type) where
  res : Res α
  writes : List Nat

/-- A call that writes to nothing that was there before; see `WRes`. -/
def WRes.of {α : Type} (x : Res α) : WRes α := ⟨x, []⟩

/-- One call after the other, as in Python: an exception skips the rest. -/
def WRes.bind {α β : Type} (x : WRes α) (f : α → WRes β) : WRes β :=
  match x.res.val with
  | .ok a => ⟨⟨x.res.log ++ (f a).res.log, (f a).res.val⟩, x.writes ++ (f a).writes⟩
  | .error e => ⟨⟨x.res.log, .error e⟩, x.writes⟩

instance : Monad WRes where
  pure a := .of (pure a)
  bind := WRes.bind

/-- `try: x except Exception`: the outcome as a value; what was written stays. -/
def WRes.attempt {α : Type} (x : WRes α) : WRes (Except Err α) := ⟨x.res.attempt, x.writes⟩

/-- `raise e`. -/
def WRes.raise {α : Type} (e : Err) : WRes α := .of (Res.raise e)

/-- A write to a dict; only those that were there before are noted. -/
def WRes.write (l : Option Nat) : WRes Unit := ⟨pure (), l.toList⟩

/-- What the code can call recursively, see `Rec`. -/
structure HRec where
  dump : HVal → Option Ty → DumpKw → WRes HVal
  call : SerFn → HVal → Option Ty → DumpKw → WRes HVal

/-- The surroundings of `dump` with identities: the values of enum members, the values of class
variables, what properties return, the attributes of values that are not objects of the program, and the
serializers of the program. -/
structure HEnv extends Env where
  enumValue : Nat → PyStr → Option HVal
  classVar : Nat → PyStr → Option HVal
  propH : Nat → PyStr → HVal → Except Err HVal
  attrOtherH : HVal → PyStr → Except Err HVal
  customSerH : Nat → HRec → HVal → Option Ty → DumpKw → WRes HVal

/-- `getattr(obj, name)`, see `Env.getAttr`: the attribute itself, not a copy. -/
def HEnv.getAttrH (H : HEnv) (v : HVal) (name : PyStr) : Except Err HVal :=
  match v with
  | .obj _ c as =>
    match assoc (H.info c).members name with
    | some .prop => H.propH c name v
    | m => match assoc as name with
      | some a => .ok a
      | none => match m with
        | some (.var _) => match H.classVar c name with
          | some a => .ok a
          | none => .error { kind := .attributeError }
        | _ => .error { kind := .attributeError }
  | v => H.attrOtherH v name

/-- `list(obj)`, see `Val.iter`: the elements themselves. -/
def HVal.iter : HVal → Option (List HVal)
  | .seq _ _ xs => some xs
  | .ntuple _ _ xs => some xs
  | .dict _ es => some (es.map (·.1))
  | .ddict _ _ es => some (es.map (·.1))
  | .atom (.str s) => some (s.map fun c => .str [c])
  | _ => none

/-- `d[k]` on the entries of a dict, see `dictGet`. -/
def hget (es : List (HVal × HVal)) (k : Val) : Option HVal :=
  match es with
  | [] => none
  | (k', v) :: es => if pyEq k'.erase k then some v else hget es k

/-- `d[k] = v` on the entries of a dict, see `dictSet`. -/
def hset (es : List (HVal × HVal)) (k v : HVal) : List (HVal × HVal) :=
  match es with
  | [] => [(k, v)]
  | (k', v') :: es => if pyEq k'.erase k.erase then (k', v) :: es else (k', v') :: hset es k v

/-- A loop or comprehension, see `mapRes`. -/
def mapW {α β : Type} (f : α → WRes β) : List α → WRes (List β)
  | [] => pure []
  | x :: xs => do
    let y ← f x
    let ys ← mapW f xs
    pure (y :: ys)

/-- A serializer that builds its result anew: `/repo/jsons/serializers/default_datetime.py`,
`default_date.py`, `default_time.py`, `default_timedelta.py`, `default_uuid.py`, `default_decimal.py`,
`default_path.py` and `default_zone_info.py`. -/
def made (x : Res Val) : WRes HVal := .of (x >>= fun v => pure (HVal.fresh v))

/-- `default_primitive_serializer`, `/repo/jsons/serializers/default_primitive.py` lines 6-27: the object
itself, or a new one (line 23). -/
def primitiveH (H : HEnv) (v : HVal) (cls : Option Ty) : WRes HVal :=
  let cls_ := match cls with
    | some (.newtype _ t) => some t
    | c => c
  match cls_ with
  | none => pure v
  | some t =>
    if v.erase = .none then pure v                             -- line 21
    else match H.isInstance v.erase t with
      | .error k => .raise { kind := k }
      | .ok true => pure v
      | .ok false => match H.cast v.erase t with               -- line 23
        | .ok r => pure (HVal.fresh r)
        | .error k =>
          if k.isValueError then .raise { kind := .serializationError }
          else .raise { kind := k }

/-- `default_enum_serializer`, `/repo/jsons/serializers/default_enum.py` lines 4-18: the value of the member
itself (line 18). -/
def enumH (H : HEnv) (v : HVal) (kw : DumpKw) : WRes HVal :=
  match v with
  | .enum c m =>
    if kw.useEnumName then pure (.str m)
    else match H.enumValue c m with
      | some w => pure w
      | none => .raise { kind := .attributeError }
  | v => .of (Res.lift (H.getAttrH v (if kw.useEnumName then "name".toList else "value".toList)))

/-- `default_complex_serializer`, `/repo/jsons/serializers/default_complex.py` lines 1-8: a new dict with
the attributes themselves. -/
def complexH (H : HEnv) (v : HVal) : WRes HVal :=
  match v with
  | .atom (.complex _ _) | .atom (.float _) | .atom (.int _) | .atom (.bool _) => made (complexSer H.toEnv v.erase)
  | v => do
    let re ← WRes.of (Res.lift (H.getAttrH v "real".toList))
    let im ← WRes.of (Res.lift (H.getAttrH v "imag".toList))
    pure (.dict none [(.str "real".toList, re), (.str "imag".toList, im)])

/-- `default_timezone_serializer`, `/repo/jsons/serializers/default_timezone.py` lines 6-19: a new dict. -/
def timezoneH (rec : HRec) (v : HVal) (cls : Option Ty) (kw : DumpKw) : WRes HVal :=
  match v with
  | .atom (.timezone us name) => do
    let offset ← rec.dump (.atom (.timedelta us)) cls kw       -- line 15
    pure (.dict none [(.str "name".toList, .str (name.getD (fixedName us))), (.str "offset".toList, offset)])
  | _ => .raise { kind := .attributeError }

/-- `default_list_serializer`, `/repo/jsons/serializers/default_list.py` lines 10-48: a new list (lines 29
and 48). -/
def listH (H : HEnv) (rec : HRec) (v : HVal) (cls : Option Ty) (kw : DumpKw) : WRes HVal :=
  if v.erase.falsy then pure (.seq none .list [])              -- lines 28-29
  else
    let kw' := { kw with storeCls := false }                   -- lines 31-35
    let args := (cls.map Ty.getArgs).getD []                   -- line 40
    match v.iter with
    | none => .raise { kind := .typeError }
    | some xs =>
      match args with
      | t :: _ => typed xs t kw'                               -- lines 41-43
      | [] =>
        if kw.strict then                                      -- lines 44-46
          match v, xs with
          | .seq _ .set _, _ | .seq _ .frozenset _, _ => .raise { kind := .typeError }
          | .dict _ _, _ | .ddict _ _ _, _ => .raise { kind := .keyError }
          | _, x :: _ => typed xs (.cls x.erase.cls) kw'
          | _, [] => pure (.seq none .list [])
        else do
          let ys ← mapW (fun x => rec.dump x none kw') xs      -- line 48
          pure (.seq none .list ys)
where
  /-- lines 43, 46 and 48 with a known element type -/
  typed (xs : List HVal) (t : Ty) (kw' : DumpKw) : WRes HVal := do
    let fn ← WRes.of (Res.liftK (H.getSer kw.fork t))
    let ys ← mapW (fun x => match fn with
      | some f => rec.call f x (some t) kw'
      | none => .raise { kind := .typeError }) xs
    pure (.seq none .list ys)

/-- `default_iterable_serializer`, `/repo/jsons/serializers/default_iterable.py` lines 12-49: a new list
(line 43). -/
def iterableH (H : HEnv) (rec : HRec) (v : HVal) (cls : Option Ty) (kw : DumpKw) : WRes HVal :=
  let kw' := { kw with storeCls := false }                     -- lines 34-35
  match v.iter with
  | none => .raise { kind := .typeError }
  | some xs => do
    let subclasses ← WRes.of (elementTypes H.toEnv v.erase xs.length cls kw.strict)
    let ys ← mapW (fun p => rec.dump p.1 p.2 kw') (xs.zip subclasses)
    pure (.seq none .list ys)

/-- `default_namedtuple_serializer`, `/repo/jsons/serializers/default_tuple.py` lines 31-41: a new dict
(line 39). -/
def namedtupleH (rec : HRec) (fields : List PyStr) (xs : List HVal) (kw : DumpKw) : WRes HVal := do
  let ys ← mapW (fun p => do
    let y ← rec.dump p.2 none kw
    pure (HVal.str p.1, y)) (fields.zip xs)
  pure (.dict none ys)

/-- `default_tuple_serializer`, `/repo/jsons/serializers/default_tuple.py` lines 10-28. -/
def tupleH (H : HEnv) (rec : HRec) (v : HVal) (cls : Option Ty) (kw : DumpKw) : WRes HVal :=
  match v with
  | .ntuple _ c xs => namedtupleH rec (H.info c).fields xs kw  -- lines 21-22
  | v => do
    let cls_ ← WRes.of (tupleCls v.erase cls)
    iterableH H rec v cls_ kw                                  -- line 28

/-- `_store_and_hash`, `/repo/jsons/serializers/default_dict.py` lines 62-81, together with lines 46-47: the
key itself, or what it was dumped to; the dict under `-keys` is written to (line 80). -/
def storeAndHashH (H : HEnv) (rec : HRec) (result : List (HVal × HVal)) (key : HVal) (kw : DumpKw) :
    WRes (List (HVal × HVal) × HVal) :=
  if isValidJsonKey H.toEnv key.erase then pure (result, key)  -- line 70
  else do
    let dumped ← rec.dump key none kw                          -- line 72
    if isValidJsonKey H.toEnv dumped.erase then pure (result, dumped)  -- lines 73-74
    else
      let h : HVal := .atom (.int (H.hash key.erase))          -- line 76
      match hget result (.str keysKey) with
      | none => pure (result ++ [(.str keysKey, .dict none [(h, dumped)])], h)  -- lines 78-80
      | some (.dict l ks) => do
        WRes.write l
        pure (hset result (.str keysKey) (.dict l (hset ks h dumped)), h)
      | some _ => .raise { kind := .typeError }

/-- Lines 55-58 of `/repo/jsons/serializers/default_dict.py`, and `_add_dumped_elem`,
`/repo/jsons/serializers/default_object.py` lines 150-159: the new dict gets what was dumped, and the key
itself if there is no key transformer. -/
def addDumpedH (kw : DumpKw) (result : List (HVal × HVal)) (key dumped : HVal) :
    Except Err (List (HVal × HVal)) :=
  if kw.stripNulls && dumped.erase == .none then .ok result
  else match kw.keyTransformer with
    | none => .ok (hset result key dumped)
    | some _ => (transformKey kw.keyTransformer key.erase).map fun k => hset result (HVal.fresh k) dumped

/-- The loop of `default_dict_serializer`, `/repo/jsons/serializers/default_dict.py` lines 36-58. -/
def dictLoopH (H : HEnv) (rec : HRec) (kw : DumpKw) :
    List (HVal × HVal) → List (HVal × HVal) → WRes (List (HVal × HVal))
  | [], result => pure result
  | (key, v) :: es, result => do
    let cls_ := match key with                                 -- line 38
      | .atom (.str s) => assoc kw.types s
      | _ => none
    let (result, key) ← storeAndHashH H rec result key kw      -- lines 42-47
    let dumped ← rec.dump v cls_ { kw with types := [] }       -- lines 49-54
    let result ← WRes.of (Res.lift (addDumpedH kw result key dumped))      -- lines 55-58
    dictLoopH H rec kw es result

/-- `default_dict_serializer`, `/repo/jsons/serializers/default_dict.py` lines 7-59: a new dict (line 34). -/
def dictH (H : HEnv) (rec : HRec) (v : HVal) (kw : DumpKw) : WRes HVal :=
  match v with
  | .dict _ es | .ddict _ _ es => do
    let r ← dictLoopH H rec kw es []
    pure (.dict none r)
  | v => match v.iter with
    | some [] => pure (.dict none [])
    | _ => .raise { kind := .typeError }

/-- The loop of `default_union_serializer`, `/repo/jsons/serializers/default_union.py` lines 27-37. -/
def unionLoopH (rec : HRec) (v : HVal) (kw : DumpKw) : List Ty → WRes HVal
  | [] => .raise { kind := .serializationError }               -- lines 33-37
  | t :: ts => do
    match ← (rec.dump v (some t) kw).attempt with              -- line 29
    | .ok r => pure r
    | .error e => if e.kind.isJsonsError then unionLoopH rec v kw ts else .raise e  -- line 30

/-- `default_union_serializer`, `/repo/jsons/serializers/default_union.py` lines 9-37. -/
def unionH (rec : HRec) (v : HVal) (cls : Option Ty) (kw : DumpKw) : WRes HVal :=
  match cls.bind Ty.unionParams with                           -- line 20
  | none => .raise { kind := .typeError }
  | some ts =>
    if v.erase = .none ∧ .cls .noneType ∈ ts then pure v       -- lines 24-25
    else unionLoopH rec v kw ts

/-- `_store_cls_info`, `/repo/jsons/serializers/default_object.py` lines 316-323: line 323 writes to the
dict that the serializer has returned. -/
def storeClsInfoH (H : HEnv) (storeCls : Bool) (dumped attr : HVal) : WRes HVal :=
  match dumped with
  | .dict l es =>
    if storeCls then do
      WRes.write l                                             -- line 323
      pure (.dict l (hset es (.str clsKey) (.str (H.clsNameOf attr.erase))))
    else pure dumped
  | _ => pure dumped

/-- The body of the `try` of `_do_serialize`, `/repo/jsons/serializers/default_object.py` lines 121-131. -/
def dumpAttrH (H : HEnv) (rec : HRec) (kw : DumpKw) (fn : Option SerFn) (attr : HVal)
    (hint : Option Ty) : WRes HVal :=
  match fn with
  | none => .raise { kind := .typeError }
  | some f => do
    let d ← rec.call f attr hint kw
    storeClsInfoH H kw.storeCls d attr

/-- The loop of `_do_serialize`, `/repo/jsons/serializers/default_object.py` lines 116-147. -/
def attrLoopH (H : HEnv) (rec : HRec) (kw : DumpKw) (isPublic : Bool) (v : HVal) (clsName : PyStr) :
    List (PyStr × Option Ty) → List (HVal × HVal) → WRes (List (HVal × HVal))
  | [], result => pure result
  | (name, hint) :: as, result => do
    let attr ← WRes.of (Res.lift (H.getAttrH v name))          -- line 117
    let attrType := hint.getD (.cls attr.erase.cls)            -- line 118
    WRes.of (Res.emit (.announce attrType kw.fork))            -- line 119
    let fn ← WRes.of (Res.liftK (H.getSer kw.fork attrType))   -- line 120
    match ← (dumpAttrH H rec kw fn attr hint).attempt with     -- lines 121-131
    | .error e =>
      if !e.hasArgs then .raise { kind := .indexError }
      else if kw.strict then .raise { kind := .serializationError, msg := e.msg }  -- line 134
      else do
        WRes.of (H.warn kw.fork "attribute-not-serialized".toList clsName)  -- lines 136-140
        pure result                                            -- line 141
    | .ok d => do
      let name := if isPublic then lstrip_ name else name      -- lines 143-144
      let result ← WRes.of (Res.lift (addDumpedH kw result (.str name) d))  -- lines 145-146
      attrLoopH H rec kw isPublic v clsName as result

mutual
/-- `_fill_collection_of_types`, `/repo/jsons/serializers/default_object.py` lines 289-304, for a nested
dict: the same dict, from which line 312 deletes the `-cls` marker. -/
def fillValH : HVal → PyStr → List (HVal × HVal) → WRes (HVal × HVal × List (HVal × HVal))
  | .dict l es, pre, coll => do
    if (hget es (.str clsKey)).isSome then WRes.write l        -- line 312
    let (es', coll') ← fillEntriesH es pre coll
    pure (.dict l es', (hget es (.str clsKey)).getD (.atom .none), coll')
  | v, _, coll => pure (v, .atom .none, coll)
/-- Lines 297-303 for the entries of a dict, see `fillEntries`. -/
def fillEntriesH : List (HVal × HVal) → PyStr → List (HVal × HVal) →
    WRes (List (HVal × HVal) × List (HVal × HVal))
  | [], _, coll => pure ([], coll)
  | (k, v) :: es, pre, coll =>
    if k.erase = .str clsKey then fillEntriesH es pre coll
    else match v with
      | .dict l ds =>
        if k.erase = .str metaKey then do
          let (es', coll') ← fillEntriesH es pre coll
          pure ((k, v) :: es', coll')
        else match k with
          | .atom (.str a) => do
            let (v', name, coll) ← fillValH (.dict l ds) (pre ++ a ++ ['/']) coll  -- lines 299-302
            let coll := hset coll (.str (pre ++ a)) name                          -- line 303
            let (es', coll') ← fillEntriesH es pre coll
            pure ((k, v') :: es', coll')
          | _ => .raise { kind := .typeError }
      | v => do
        let (es', coll') ← fillEntriesH es pre coll
        pure ((k, v) :: es', coll')
end

/-- `_get_dict_with_meta`, `/repo/jsons/serializers/default_object.py` lines 267-286; the dict is the one
that was made in line 112. -/
def dictWithMetaH (H : HEnv) (obj : List (HVal × HVal)) (clsName : PyStr) (verbose : Verbosity) :
    WRes (List (HVal × HVal)) :=
  if verbose = {} then pure obj                                -- lines 274-275
  else do
    let obj := hset obj (.str metaKey) (.dict none [])         -- line 277
    let (obj, meta1) ← if verbose.classInfo then do            -- lines 278-282
        let (obj, coll) ← fillEntriesH obj ['/'] []
        let coll := hset coll (.str ['/']) (.str clsName)
        pure (obj, [(HVal.str "classes".toList, HVal.dict none coll)])
      else pure (obj, [])
    let meta2 := if verbose.dumpTime then                      -- lines 283-285
        [(HVal.str "dump_time".toList, HVal.str H.now)]
      else []
    pure (hset obj (.str metaKey) (.dict none (meta1 ++ meta2)))

/-- `default_object_serializer` from line 71 on, `/repo/jsons/serializers/default_object.py` lines 71-97. -/
def objectHWith (H : HEnv) (rec : HRec) (v : HVal) (kw : DumpKw) (strip : StripAttr) (t : Ty)
    (I : ClassInfo) (attributes : Except Err (List (PyStr × Option Ty))) : WRes HVal := do
  let attributes ← WRes.of (Res.lift attributes)
  let kw' := { kw with stripAttr := strip, storeCls := kw.verbose.classInfo }   -- lines 72-79
  let result ← attrLoopH H rec kw' (I.isAttrs && !kw.stripPrivates) v (H.className false t)
    attributes []
  if kw.storeCls then pure (.dict none result)                 -- line 95
  else do
    let result ← dictWithMetaH H result (H.className true t) kw.verbose
    pure (.dict none result)

/-- `default_object_serializer`, `/repo/jsons/serializers/default_object.py` lines 18-97. -/
def objectH (H : HEnv) (rec : HRec) (v : HVal) (cls : Option Ty) (kw : DumpKw) : WRes HVal :=
  let strip := normalizeStripAttr kw.stripAttr                 -- line 60
  let fromObject : WRes HVal := match v with                   -- lines 66-69
    | .obj _ c as => objectHWith H rec v kw strip (.cls (.user c)) (H.info c)
        (attributesFromObject (H.info c) (HVal.eraseAttrs as) kw strip)
    | v => objectHWith H rec v kw strip (.cls v.erase.cls) ClassInfo.object
        (H.foreignAttrs v.erase none kw)
  match cls with
  | none => fromObject
  | some t =>
    if kw.strict then match t with                             -- lines 61-64
      | .cls (.user c) => objectHWith H rec v kw strip t (H.info c)
          (attributesFromClass (H.info c) kw strip)
      | .cls .object => objectHWith H rec v kw strip t ClassInfo.object
          (attributesFromClass ClassInfo.object kw strip)
      | t => objectHWith H rec v kw strip t ClassInfo.object (H.foreignAttrs v.erase (some t) kw)
    else fromObject

/-- A call of a serializer, see `callSer`. -/
def callSerH (H : HEnv) (rec : HRec) : SerFn → HVal → Option Ty → DumpKw → WRes HVal
  | .tuple, v, cls, kw => tupleH H rec v cls kw
  | .complex, v, _, _ => complexH H v
  | .datetime, v, _, kw => made (toStr H.toEnv v.erase kw.stripMicroseconds kw.fork .datetime)
  | .date, v, _, kw => made (toStr H.toEnv v.erase false kw.fork .date)
  | .time, v, _, kw => made (toStr H.toEnv v.erase false kw.fork .time)
  | .timezone, v, cls, kw => timezoneH rec v cls kw
  | .timedelta, v, _, _ => made (timedeltaSer H.toEnv v.erase)
  | .primitive, v, cls, _ => primitiveH H v cls
  | .enum, v, _, kw => enumH H v kw
  | .dict, v, _, kw => dictH H rec v kw
  | .list, v, cls, kw => listH H rec v cls kw
  | .iterable, v, cls, kw => iterableH H rec v cls kw
  | .object, v, cls, kw => objectH H rec v cls kw
  | .uuid, v, _, _ => made (strSer H.toEnv v.erase)
  | .decimal, v, _, _ => made (strSer H.toEnv v.erase)
  | .union, v, cls, kw => unionH rec v cls kw
  | .path, v, _, _ => made (pathSer v.erase)
  | .zoneinfo, v, _, _ => made (zoneinfoSer v.erase)
  | .custom id, v, cls, kw => H.customSerH id rec v cls kw

/-- `dump`, `/repo/jsons/_dump_impl.py` lines 16-66, see `dumpWith`. -/
def dumpHWith (H : HEnv) (rec : HRec) (v : HVal) (cls : Option Ty) (kw : DumpKw) : WRes HVal := do
  let cls_ := cls.getD (.cls v.erase.cls)                      -- line 42
  let fn ← WRes.of (Res.liftK (H.getSer kw.fork cls_))         -- line 43
  WRes.of (Res.emit (.announce cls_ kw.fork))                  -- line 54
  match ← (match fn with
    | some f => rec.call f v cls kw                            -- line 60
    | none => .raise { kind := .typeError }).attempt with
  | .ok r => pure r
  | .error e => .raise { kind := .serializationError, msg := e.msg }  -- line 66

/-- The calls that are possible with a stack for `n` nested calls, see `recOf`. -/
def recOfH (H : HEnv) : Nat → HRec
  | 0 => ⟨fun _ _ _ => .raise { kind := .recursionError }, fun _ _ _ _ => .raise { kind := .recursionError }⟩
  | n + 1 => ⟨dumpHWith H (recOfH H n), callSerH H (recOfH H n)⟩

/-- `dump(obj, cls, **kwargs)` with a stack for `n` nested calls. -/
def dumpH (H : HEnv) (n : Nat) (v : HVal) (cls : Option Ty) (kw : DumpKw) : WRes HVal :=
  (recOfH H n).dump v cls kw

end Verif.Core
