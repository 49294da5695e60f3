import Verif.Core.Load

/-!
# Model of `load` with what it does to its input

`load` of `Verif.Core.Load` is a function of values.  The program passes references: the
parts of the input that a deserializer hands to nested calls are the parts of the
caller's own lists and dicts.  One statement of jsons changes such a part: `del
result['-keys'][key]`, `/repo/jsons/deserializers/default_dict.py` line 58, for `result`
is a copy of the dict, but `result['-keys']` is not.  The functions of this file follow
those of `Verif.Core.Load` branch by branch and add a list of these deletions; the
alternatives of a union see the input as the earlier ones left it.

Simplifications.  Keys of dicts can be hashed, so there is nothing in them that could be
changed; they are loaded with `load`.  The same holds for the nested calls of the
deserializers of texts, time zones and complex numbers, which hand on the input to
deserializers of numbers and times only, and for default values of named tuples, which
are not parts of the input.  Custom deserializers are taken to leave the input alone.
The `source` of an exception is the value as it was when the call started.
-/

set_option autoImplicit false

namespace Verif.Core
open Verif

/-- A step from a value to one of its parts: the element of a sequence or the value under
a key of a dict. -/
inductive Step where
  /-- the element at an index -/
  | elem (i : Nat)
  /-- the value of a dict under a key -/
  | key (k : Val)

/-- An execution of `del result['-keys'][key]`,
`/repo/jsons/deserializers/default_dict.py` line 58: the place of the dict in the input,
and the key. -/
structure Del where
  path : List Step
  key : Val

/-- The outcome of a call, and the deletions made during it; see the comment at the top of
the file for what this models. -/
structure SRes (α : Type) where
  res : Res α
  dels : List Del

/-- A call that leaves the input alone; see the comment at the top of the file. -/
def SRes.of {α : Type} (x : Res α) : SRes α := ⟨x, []⟩

/-- One call after the other, as in Python: an exception skips the rest. -/
def SRes.bind {α β : Type} (x : SRes α) (f : α → SRes β) : SRes β :=
  match x.res.val with
  | .ok a => ⟨⟨x.res.log ++ (f a).res.log, (f a).res.val⟩, x.dels ++ (f a).dels⟩
  | .error e => ⟨⟨x.res.log, .error e⟩, x.dels⟩

instance : Monad SRes where
  pure a := .of (pure a)
  bind := SRes.bind

/-- `try: x except Exception`: the outcome as a value; the deletions stay. -/
def SRes.attempt {α : Type} (x : SRes α) : SRes (Except Err α) := ⟨x.res.attempt, x.dels⟩

/-- A call with a part of the input: its deletions, seen from the whole. -/
def SRes.at {α : Type} (s : Step) (x : SRes α) : SRes α :=
  ⟨x.res, x.dels.map fun d => { d with path := s :: d.path }⟩

/-- `raise e`. -/
def SRes.raise {α : Type} (e : Err) : SRes α := .of (Res.raise e)

/-- What nested calls of `load` do. -/
abbrev SRec := Val → Option Ty → LoadKw → SRes Val

/-! ## The input after deletions -/

/-- `del v['-keys'][h]`, `/repo/jsons/deserializers/default_dict.py` line 58. -/
def dropStored (h : Val) (v : Val) : Val :=
  match v with
  | .dict es => match dictGet es (.str keysKey) with
    | some (.dict ks) => .dict (dictSet es (.str keysKey) (.dict (dictDel ks h)))
    | _ => v
  | _ => v

/-- The value after a change of the part at a place. -/
def modAt (f : Val → Val) : List Step → Val → Val
  | [], v => f v
  | .elem i :: p, .seq k xs => .seq k (xs.modify i (modAt f p))
  | .key k :: p, .dict es =>
    .dict (es.map fun e => if pyEq e.1 k then (e.1, modAt f p e.2) else e)
  | _, v => v

/-- The value after some deletions, in order. -/
def applyDels (v : Val) (ds : List Del) : Val :=
  ds.foldl (fun v d => modAt (dropStored d.key) d.path v) v

/-! ## Collections -/

/-- The loop of `_do_load`, `/repo/jsons/deserializers/default_list.py` lines 56-69;
`i` is the index of the next element. -/
def listLoopS (E : LEnv) (srec : SRec) (cls : Option Ty) (warn : Bool) (kw : LoadKw) :
    Nat → List Val → SRes (List Val)
  | _, [] => pure []
  | i, x :: xs => do
    match ← ((srec x cls kw).at (.elem i)).attempt with        -- line 59
    | .ok y => do
      let ys ← listLoopS E srec cls warn kw (i + 1) xs
      pure (y :: ys)
    | .error e =>
      if e.kind.isDeserializationError then                    -- line 60
        if warn then do                                        -- lines 63-64
          .of (E.warn kw.fork "element-not-deserialized".toList (elementMsg i e.msg))
          listLoopS E srec cls warn kw (i + 1) xs
        else .raise { kind := .deserializationError, msg := elementMsg i e.msg,
                      source := e.source, target := e.target } -- lines 66-67
      else .raise e

/-- `default_list_deserializer`, `/repo/jsons/deserializers/default_list.py` lines
12-47, with one task. -/
def listDesS (E : LEnv) (srec : SRec) (v : Val) (args : List Ty) (kw : LoadKw) :
    SRes (List Val) :=
  match v.iter with
  | none => .raise { kind := .typeError }
  | some xs =>
    let kw' := { kw with warnOnFail := false, inferred := kw.inferred || !args.isEmpty }
    listLoopS E srec args.head? kw.warnOnFail kw' 0 xs         -- lines 35-42

/-- `default_iterable_deserializer`,
`/repo/jsons/deserializers/default_iterable.py` lines 8-30. -/
def iterableDesS (E : LEnv) (srec : SRec) (v : Val) (t : Ty) (kw : LoadKw) : SRes Val := do
  let ys ← listDesS E srec v t.getArgs kw                      -- lines 22-25
  match t.naked? with                                          -- line 27
  | some c => .of (Res.liftK (castSeq E.info c ys))
  | none => .raise { kind := .typeError }

/-- The key of the input that became the key `k` of the transformed dict: of several, the
last one; `/repo/jsons/deserializers/default_tuple.py` line 57 and
`/repo/jsons/deserializers/default_object.py` line 178. -/
def originKey (f : Val → Except Err Val) (es : List (Val × Val)) (k : Val) : Val :=
  (es.reverse.find? fun e => match f e.1 with
    | .ok k' => pyEq k' k
    | .error _ => false).elim k (·.1)

/-- The place in the input of the value under a key of the transformed dict,
`/repo/jsons/deserializers/default_tuple.py` line 57 and
`/repo/jsons/deserializers/default_object.py` line 178. -/
def stepFor (v : Val) (kt : Option (Val → Except Err Val)) (k : Val) : Step :=
  match kt, v with
  | some f, .dict es => .key (originKey f es k)
  | _, _ => .key k

/-- The loading of a field of a named tuple, `/repo/jsons/deserializers/default_tuple.py`
line 85: the field is a part of the input or a default (lines 61-67). -/
def ntupleLoadS (prec : LRec) (srec : SRec) (v : Val) (tfm : Option (List (Val × Val)))
    (len i : Nat) (name : PyStr) (field : Val) (hint : Option Ty) (kw : LoadKw) : SRes Val :=
  if i < len then
    if tfm.isSome then (srec field hint kw).at (stepFor v kw.keyTransformer (.str name))
    else (srec field hint kw).at (.elem i)
  else .of (prec field hint kw)

/-- The loop of `default_namedtuple_deserializer`,
`/repo/jsons/deserializers/default_tuple.py` lines 59-86. -/
def ntupleLoopS (E : LEnv) (prec : LRec) (srec : SRec) (c : Nat) (v : Val)
    (tfm : Option (List (Val × Val))) (len : Nat) (kw : LoadKw) :
    Nat → List PyStr → SRes (List Val)
  | _, [] => pure []
  | i, name :: names => do
    let I := E.info c
    let field ← .of (Res.liftK (ntupleField I v tfm len i name))
    let hint := if I.hasAnnotations then assoc I.hints name else none     -- lines 70-75, 84
    if field = .none ∧ .cls .noneType ∉ (hint.bind Ty.unionParams).getD [] then
      .raise { kind := .unfulfilledArgument, source := some v, target := some (.cls (.user c)),
               argument := some name }                         -- lines 77-83
    else do
      let y ← ntupleLoadS prec srec v tfm len i name field hint kw        -- line 85
      let ys ← ntupleLoopS E prec srec c v tfm len kw (i + 1) names
      pure (y :: ys)

/-- `default_namedtuple_deserializer`,
`/repo/jsons/deserializers/default_tuple.py` lines 39-88. -/
def ntupleDesS (E : LEnv) (prec : LRec) (srec : SRec) (v : Val) (c : Nat) (kw : LoadKw) :
    SRes Val := do
  let tfm ← .of (Res.lift (ntupleTfm E.info (kw.keyTransformer.getD .ok) v))  -- lines 53-57
  match v.iter with
  | none => .raise { kind := .typeError }                      -- `len(obj)`, line 61
  | some xs => do
    let ys ← ntupleLoopS E prec srec c v tfm xs.length kw 0 (E.info c).fields
    pure (.ntuple c ys)                                        -- line 87

/-- The loop of lines 32-33 of `/repo/jsons/deserializers/default_tuple.py`; `i` is the
index of the next element. -/
def tupleLoopS (srec : SRec) (kw : LoadKw) : Nat → List Ty → List Val → SRes (List Val)
  | _, _, [] => pure []
  | _, [], _ :: _ => .raise { kind := .indexError }
  | i, t :: ts, x :: xs => do
    let y ← (srec x (some t) kw).at (.elem i)
    let ys ← tupleLoopS srec kw (i + 1) ts xs
    pure (y :: ys)

/-- The comprehension of line 35 of `/repo/jsons/deserializers/default_tuple.py`. -/
def tupleAnyS (srec : SRec) (kw : LoadKw) : Nat → List Val → SRes (List Val)
  | _, [] => pure []
  | i, x :: xs => do
    let y ← (srec x none kw).at (.elem i)
    let ys ← tupleAnyS srec kw (i + 1) xs
    pure (y :: ys)

/-- `default_tuple_deserializer`, `/repo/jsons/deserializers/default_tuple.py` lines
27-36, for what is not a named tuple. -/
def plainTupleDesS (srec : SRec) (v : Val) (t : Ty) (kw : LoadKw) : SRes Val :=
  let kw' := { kw with keyTransformer := none }
  match v.iter with
  | none => .raise { kind := .typeError }
  | some xs => do
    let ys ← match t, t.getArgs with
      | .gen .tupleEll _, a :: _ => tupleLoopS srec kw' 0 (List.replicate xs.length a) xs  -- 30-33
      | _, a :: as => tupleLoopS srec kw' 0 (a :: as) xs       -- lines 32-33
      | _, [] => tupleAnyS srec kw' 0 xs                       -- line 35
    pure (.tuple ys)

/-- `default_tuple_deserializer`, `/repo/jsons/deserializers/default_tuple.py` lines
12-36. -/
def tupleDesS (E : LEnv) (prec : LRec) (srec : SRec) (v : Val) (t : Ty) (kw : LoadKw) :
    SRes Val :=
  match t with
  | .cls (.user c) =>
    if (E.info c).kind = .ntuple then ntupleDesS E prec srec v c kw        -- lines 25-26
    else plainTupleDesS srec v t kw
  | _ => plainTupleDesS srec v t kw

/-! ## Dicts -/

/-- `result['-keys'][key]`, `/repo/jsons/deserializers/default_dict.py` line 53. -/
def storedKey (es : List (Val × Val)) (h : Val) : Except ErrKind Val :=
  match dictGet es (.str keysKey) with
  | some (.dict ks) => match dictGet ks h with
    | some k => .ok k
    | none => .error .keyError
  | _ => .error .typeError

/-- One round of the loop of `_load_hashed_keys`,
`/repo/jsons/deserializers/default_dict.py` lines 51-59, for the dict `es` (`result`) and
the stored key `h`: also the loaded key, for `Origins`. -/
def unhashKeyS (E : LEnv) (srec : SRec) (keyTy : Ty) (kw : LoadKw) (es : List (Val × Val))
    (h : Val) : SRes (List (Val × Val) × Val) := do
  let original ← .of (Res.liftK (storedKey es h))              -- line 53
  let loaded ← ((srec original (some keyTy) kw).at (.key h)).at
    (.key (.str keysKey))                                      -- line 54
  match dictGet es h with                                      -- line 57
  | none => .raise { kind := .keyError }
  | some v =>
    if loaded.hashable E.info then
      let es := dictSet es loaded v
      match dictGet es (.str keysKey) with                     -- line 58
      | some (.dict ks) =>
        if (dictGet ks h).isSome then
          ⟨pure (dictDel (dictSet es (.str keysKey) (.dict (dictDel ks h))) h, loaded),
            [{ path := [], key := h }]⟩
        else .raise { kind := .keyError }
      | _ => .raise { kind := .typeError }
    else .raise { kind := .typeError }

/-- For each loaded key of `/repo/jsons/deserializers/default_dict.py` line 57 the key of
the input with the value for it, the last pair first. -/
abbrev Origins := List (Val × Val)

/-- The key of the input with the value that is now under `k`,
`/repo/jsons/deserializers/default_dict.py` line 57. -/
def Origins.of (o : Origins) (k : Val) : Val :=
  (o.find? fun e => pyEq e.1 k).elim k (·.2)

/-- The loop of `_load_hashed_keys`, `/repo/jsons/deserializers/default_dict.py` lines
51-59. -/
def unhashLoopS (E : LEnv) (srec : SRec) (keyTy : Ty) (kw : LoadKw) :
    List Val → List (Val × Val) → Origins → SRes (List (Val × Val) × Origins)
  | [], es, o => pure (es, o)
  | h :: hs, es, o => do
    let r ← unhashKeyS E srec keyTy kw es h
    unhashLoopS E srec keyTy kw hs r.1 ((r.2, h) :: o)

/-- `_load_hashed_keys`, `/repo/jsons/deserializers/default_dict.py` lines 32-62: the
entries, where they come from, and whether there were hashed keys. -/
def loadHashedKeysS (E : LEnv) (srec : SRec) (v : Val) (args : List Ty) (kw : LoadKw) :
    SRes ((List (Val × Val) × Origins) × Bool) :=
  match v with
  | .dict es =>
    match dictGet es (.str keysKey) with                       -- line 41
    | none => pure ((es, []), false)
    | some stored => match stored.iter with
      | none => .raise { kind := .typeError }
      | some [] => pure ((es, []), false)                      -- line 42
      | some hs => match args with
        | [keyTy, _] => do
          let r ← unhashLoopS E srec keyTy kw (E.setOrder hs) es []       -- lines 49-59
          pure ((dictDel r.1 (.str keysKey), r.2), true)       -- line 61
        | _ => .raise { kind := .deserializationError, source := some v,
                        target := some (mappingTy args) }     -- lines 44-48
  | _ => .raise { kind := .attributeError }

/-- The comprehension of `_deserialize`,
`/repo/jsons/deserializers/default_dict.py` lines 84-87. -/
def dictCompS (info : Nat → ClassInfo) (o : Origins) (keyFn : Val → Res Val)
    (valFn : Val → SRes Val) :
    List (Val × Val) → List (Val × Val) → SRes (List (Val × Val))
  | acc, [] => pure acc
  | acc, (k, v) :: es => do
    let k' ← .of (keyFn k)
    let v' ← (valFn v).at (.key (o.of k))
    if k'.hashable info then dictCompS info o keyFn valFn (dictSet acc k' v') es
    else .raise { kind := .typeError }

/-- `default_dict_deserializer`, `/repo/jsons/deserializers/default_dict.py` lines
9-29, with `_deserialize`, lines 65-87. -/
def dictDesS (E : LEnv) (prec : LRec) (srec : SRec) (v : Val) (args : List Ty) (kw : LoadKw) :
    SRes (List (Val × Val)) := do
  let r ← loadHashedKeysS E srec v args kw                     -- lines 26-27
  let kt := kw.keyTransformer.getD .ok                         -- line 71
  let kwV := { kw with keyTransformer := some kt }             -- line 73
  let kwK := { kw with keyTransformer := none }                -- line 82
  match args with
  | [k, t] =>
    let keyFn := if r.2 then fun x => Res.lift (kt x)          -- line 72
      else fun x => do                                         -- line 83
        let y ← Res.lift (kt x)
        prec y (some k) kwK
    dictCompS E.info r.1.2 keyFn (fun x => srec x (some t) kwV) [] r.1.1  -- lines 84-87
  | _ => dictCompS E.info r.1.2 (fun x => Res.lift (kt x)) (fun x => srec x none kwV) [] r.1.1

/-- `default_mapping_deserializer`,
`/repo/jsons/deserializers/default_mapping.py` lines 9-27. -/
def mappingDesS (E : LEnv) (prec : LRec) (srec : SRec) (v : Val) (t : Ty) (kw : LoadKw) :
    SRes Val := do
  let es ← dictDesS E prec srec v t.getArgs kw
  pure (.dict es)

/-- `default_defaultdict_deserializer`,
`/repo/jsons/deserializers/default_defaultdict.py` lines 9-32: the class to load with and
the factory (lines 24-30). -/
def defaultdictCls (t : Ty) : Res (Ty × Option Ty) :=
  match t.getArgs with
  | [] => pure (.gen .dict [], none)
  | [k, w] => pure (.gen .dict [k, w], some w)
  | _ => Res.raise { kind := .valueError }

/-- `default_defaultdict_deserializer`,
`/repo/jsons/deserializers/default_defaultdict.py` lines 9-32. -/
def defaultdictDesS (srec : SRec) (v : Val) (t : Ty) (kw : LoadKw) : SRes Val := do
  let c ← .of (defaultdictCls t)                               -- lines 24-30
  let loaded ← srec v (some c.1) kw                            -- line 31
  match loaded with
  | .dict es => pure (.ddict c.2 es)
  | _ => .raise { kind := .typeError }

/-- The loop of `default_union_deserializer`,
`/repo/jsons/deserializers/default_union.py` lines 20-30: each alternative gets the input
as the earlier ones left it. -/
def unionLoadLoopS (srec : SRec) (v₀ : Val) (t : Ty) (kw : LoadKw) : Val → List Ty → SRes Val
  | _, [] => .raise { kind := .deserializationError, source := some v₀, target := some t }  -- 26-30
  | v, a :: as =>
    let x := srec v (some a) kw                                -- line 22
    do
      match ← x.attempt with
      | .ok r => pure r
      | .error e =>
        if e.kind.isJsonsError then
          unionLoadLoopS srec v₀ t kw (applyDels v x.dels) as  -- lines 23-24
        else .raise e

/-- `default_union_deserializer`, `/repo/jsons/deserializers/default_union.py` lines
9-30. -/
def unionDesS (srec : SRec) (v : Val) (t : Ty) (kw : LoadKw) : SRes Val :=
  match t.unionParams with
  | none => .raise { kind := .typeError }
  | some ts => unionLoadLoopS srec v t kw v ts

/-! ## Objects -/

/-- `_get_value_from_obj`, `/repo/jsons/deserializers/default_object.py` lines
122-141; `s` is the place of the value in the input. -/
def valueFromObjS (E : LEnv) (srec : SRec) (s : Step) (obj : Val) (name : PyStr)
    (hint : Option Ty) (kw : LoadKw) : SRes Val := do
  let m ← .of (Res.liftS obj (metaFor E kw name))              -- lines 126-137
  let cls_ := determinePrecedence hint m.1 none true           -- lines 138-139
  let x ← .of (Res.liftK (subscript obj name))
  (srec x cls_ { kw with metaHints := some m.2, attrGetters := [] }).at s  -- line 140

/-- `_get_value_for_attr`, `/repo/jsons/deserializers/default_object.py` lines 82-113;
`v` is the input, `obj` the dict with transformed keys. -/
def valueForAttrS (E : LEnv) (srec : SRec) (v obj : Val) (c : Nat) (kw : LoadKw) (p : Param) :
    SRes (Option Val) := do
  let hint := assoc (E.info c).initHints p.name                -- line 69
  if ← .of (Res.liftK (keyIn obj p.name)) then do              -- lines 92-95
    let v ← valueFromObjS E srec (stepFor v kw.keyTransformer (.str p.name)) obj p.name hint kw
    pure (some v)
  else match assoc kw.attrGetters p.name with                  -- lines 96-99
    | some g => do
      let v ← .of (Res.lift g)
      pure (some v)
    | none => match p.default with                             -- lines 100-102
      | some d => pure (some d)
      | none =>
        if p.variadic then pure none                           -- lines 103-106
        else do
          if ← .of (Res.liftK (canMatchWithNone E hint)) then pure (some .none)  -- lines 107-109
          else .raise { kind := .unfulfilledArgument, source := some obj,
                        target := some (.cls (.user c)), argument := some p.name }

/-- The loop of `_get_constructor_args`,
`/repo/jsons/deserializers/default_object.py` lines 61-74. -/
def ctorArgsS (E : LEnv) (srec : SRec) (v obj : Val) (c : Nat) (kw : LoadKw) :
    List Param → SRes (List (PyStr × Val))
  | [] => pure []
  | p :: ps => do
    let x ← valueForAttrS E srec v obj c kw p
    let r ← ctorArgsS E srec v obj c kw ps
    match x with
    | some x => pure ((p.name, x) :: r)                        -- line 73
    | none => pure r

/-- The first loop of `_set_remaining_attrs`,
`/repo/jsons/deserializers/default_object.py` lines 150-169; `v` is the input, `as` are
the attributes of the instance. -/
def setRemainingS (E : LEnv) (srec : SRec) (v : Val) (c : Nat) (kw : LoadKw) :
    List (Val × Val) → List (PyStr × Val) → SRes (List (PyStr × Val))
  | [], as => pure as
  | (k, x) :: es, as => do
    let hint := annotation (E.info c) k                        -- lines 151-152
    .of (warnHashed E.toEnv kw.fork x hint)                    -- lines 154-162
    let y ← (srec x (some (hint.getD (.cls x.cls))) { kw with attrGetters := [] }).at
      (stepFor v kw.keyTransformer k)                          -- lines 163-165
    let as ← .of (Res.lift (setOne E c as k y))                -- lines 166-169
    setRemainingS E srec v c kw es as

/-- `default_object_deserializer`, `/repo/jsons/deserializers/default_object.py` lines
17-45. -/
def objectDesS (E : LEnv) (prec : LRec) (srec : SRec) (v : Val) (t : Ty) (kw : LoadKw) :
    SRes Val :=
  match t with
  | .cls (.user c) => do
    let obj ← .of (Res.lift (transformObj E.info v kw.keyTransformer))    -- line 38
    let args ← ctorArgsS E srec v obj c kw (E.info c).params   -- line 40
    let rest ← .of (getRemainingArgs obj c args kw.strict)     -- lines 41-42
    let as ← .of (Res.lift (E.construct c args))               -- line 43
    let as ← setRemainingS E srec v c kw rest as               -- line 44
    let as ← .of (Res.lift (setGetters E c kw.attrGetters as))
    pure (.obj c as)
  | t => .of (E.foreignDes prec v t kw)

/-! ## `load` -/

/-- A call of a deserializer (`/repo/jsons/_load_impl.py` line 113). -/
def callDesS (E : LEnv) (prec : LRec) (srec : SRec) : DesFn → Val → Ty → LoadKw → SRes Val
  | .list, v, t, kw => do
    let ys ← listDesS E srec v t.getArgs kw
    pure (.list ys)
  | .tuple, v, t, kw => tupleDesS E prec srec v t kw
  | .union, v, t, kw => unionDesS srec v t kw
  | .defaultdict, v, t, kw => defaultdictDesS srec v t kw
  | .mapping, v, t, kw => mappingDesS E prec srec v t kw
  | .iterable, v, t, kw => iterableDesS E srec v t kw
  | .object, v, t, kw => objectDesS E prec srec v t kw
  | f, v, t, kw => .of (callDes E prec f v t kw)

/-- `_do_load`, `/repo/jsons/_load_impl.py` lines 104-125. -/
def doLoadS (E : LEnv) (prec : LRec) (srec : SRec) (fn : Option DesFn) (v : Val) (t : Ty)
    (kw : LoadKw) : SRes Val :=
  match fn with
  | none => .raise { kind := .deserializationError, source := some v, target := some t }  -- 111
  | some f => do
    let body : SRes Val := do
      let r ← callDesS E prec srec f v t kw                    -- line 113
      .of (validate E r t kw.fork)                             -- line 114
      pure r
    match ← body.attempt with
    | .ok r => pure r
    | .error e =>
      if e.kind.isJsonsError then .raise e                     -- lines 117-118
      else .raise { kind := .deserializationError, msg := e.msg, source := some v,
                    target := some t }                         -- lines 119-120

/-- `load` from line 82 on, `/repo/jsons/_load_impl.py` lines 82-101 and 188-205. -/
def loadFromS (E : LEnv) (prec : LRec) (srec : SRec) (v : Val) (cls : Option Ty) (kw : LoadKw) :
    SRes Val :=
  if v.cls ∉ validTypes then                                   -- lines 194-200
    .raise { kind := .deserializationError, source := some v, target := cls }
  else do
    let m ← .of (Res.liftS v (getClsAndMeta E v kw.fork))      -- lines 202-203
    let t := (determinePrecedence cls (m.map (·.1)) (some (.cls v.cls)) kw.inferred).getD
      (.cls v.cls)                                             -- lines 204-205
    let fn ← .of (Res.liftK (E.getDes kw.fork t))              -- line 86
    doLoadS E prec srec fn v t { kw with                       -- lines 91-99
      metaHints := some (kw.metaHints.getD ((m.map (·.2)).getD []))
      inferred := decide (some t ≠ cls) }

/-- `load`, `/repo/jsons/_load_impl.py` lines 76-101, for a `cls` that is not a text. -/
def loadWithS (E : LEnv) (prec : LRec) (srec : SRec) (v : Val) (cls : Option Ty) (kw : LoadKw) :
    SRes Val := do
  .of (checkForNone E v cls)                                   -- line 76
  if (kw.strict = false ∧ cls = some (.cls v.cls)) ∨ cls = some .any then do  -- lines 77, 208-209
    .of (validate E v (cls.getD .any) kw.fork)                 -- line 78
    pure v
  else loadFromS E prec srec v cls kw

/-- The calls that are possible with a stack for `n` nested calls
(`/repo/jsons/_load_impl.py` lines 76-101). -/
def loadRecS (E : LEnv) : Nat → SRec
  | 0 => fun _ _ _ => .raise { kind := .recursionError }
  | n + 1 => loadWithS E (loadRec E n) (loadRecS E n)

/-- `load(json_obj, cls, **kwargs)`, `/repo/jsons/_load_impl.py` lines 16-101, with a stack
for `n` nested calls: the outcome, and the deletions in the input. -/
def loadS (E : LEnv) (n : Nat) (v : Val) (cls : Option Ty) (kw : LoadKw) : SRes Val :=
  loadRecS E n v cls kw

/-- The input after `load(json_obj, cls, **kwargs)`, `/repo/jsons/_load_impl.py` lines
16-101. -/
def inputAfter (E : LEnv) (n : Nat) (v : Val) (cls : Option Ty) (kw : LoadKw) : Val :=
  applyDels v (loadS E n v cls kw).dels

end Verif.Core
