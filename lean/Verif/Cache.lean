import Verif.Registry

/-!
# Model of the function cache

`/repo/jsons/_cache.py`, the cached functions of `/repo/jsons/_common_impl.py`,
`/repo/jsons/_compatibility_impl.py`, `/repo/jsons/_lizers_impl.py`,
`/repo/jsons/_validation.py` and `/repo/jsons/_extra_impl.py`, and the parts of
`/repo/jsons/_dump_impl.py` and `/repo/jsons/_load_impl.py` that fill and clear the
cache.
-/

set_option autoImplicit false

namespace Verif.Cache
open Verif Verif.Registry

/-! ## The cache itself -/

/-- The one `lru_cache` behind all cached functions (`/repo/jsons/_cache.py` line
22: the decorated method is an attribute of the class, so all wrappers share it),
most recently used entry first. -/
abbrev Lru (K V : Type) := List (K × V)

/-- The default `maxsize` of `functools.lru_cache`. -/
def maxsize : Nat := 128

variable {K V : Type} [DecidableEq K]

/-- The cached value of a key. -/
def Lru.find (c : Lru K V) (k : K) : Option V := (c.find? fun e => e.1 = k).map (·.2)

/-- A hit moves the entry to the front. -/
def Lru.touch (c : Lru K V) (k : K) (v : V) : Lru K V := (k, v) :: c.filter fun e => e.1 ≠ k

/-- After a miss the new value is stored: not if the key has been stored in the
meantime, and in place of the oldest entry if the cache is full. -/
def Lru.store (c : Lru K V) (k : K) (v : V) : Lru K V :=
  if (c.find k).isSome then c
  else if c.length ≥ maxsize then (k, v) :: c.dropLast
  else (k, v) :: c

/-! ## Computations -/

variable {F C : Type}

/-- What the cached functions need to know about classes: which are equal for
Python (`canon` picks a representative), `get_naked_class`
(`/repo/jsons/_compatibility_impl.py` lines 59-65) and `get_union_params` (lines
52-56).  `issubclass` looks at the naked class. -/
structure CWorld (C : Type) extends World C where
  canon : C → C
  naked : C → C
  params : C → Option (List C)
  naked_sub : ∀ c p, sub (naked c) p = sub c p

/-- Calls of cached functions, with their arguments.  Not modelled:
`_get_signature`, `get_type_hints`, `tuple_with_ellipsis` and the cached functions
of `serializers/default_object.py`, which only depend on the class. -/
inductive Call (C : Type) where
  | className (c : C) (lower full : Bool)
  | naked (c : C)
  | params (c : C)
  | getSer (c : C) (i : Nat)
  | getDeser (c : C) (i : Nat)
  | getVal (c : C) (i : Nat)
  | announce (c : C) (name : Option PyStr) (i : Nat)
  deriving DecidableEq

/-- The cache key of a call: arguments are compared with `==`. -/
def Call.key (W : CWorld C) : Call C → Call C
  | .className c l f => .className (W.canon c) l f
  | .naked c => .naked (W.canon c)
  | .params c => .params (W.canon c)
  | .getSer c i => .getSer (W.canon c) i
  | .getDeser c i => .getDeser (W.canon c) i
  | .getVal c i => .getVal (W.canon c) i
  | .announce c n i => .announce (W.canon c) n i

/-- What cached functions return. -/
inductive CVal (F C : Type) where
  | str (s : PyStr)
  | cls (c : C)
  | clss (cs : Option (List C))
  | fn (f : Option F)
  | unit
  deriving DecidableEq

/-- The state of the program: the registries and the cache. -/
structure St (F C : Type) where
  heap : Heap F C
  cache : Lru (Call C) (CVal F C)

/-- A computation: it may raise, in which case the changes it made stay. -/
abbrev Comp (F C α : Type) := St F C → Except ErrKind α × St F C

/-- `return`. -/
def Comp.ret {α : Type} (a : α) : Comp F C α := fun s => (.ok a, s)

/-- Sequencing. -/
def Comp.bind {α β : Type} (m : Comp F C α) (k : α → Comp F C β) : Comp F C β := fun s =>
  match m s with
  | (.ok a, s') => k a s'
  | (.error e, s') => (.error e, s')

/-- Raising. -/
def Comp.raise {α : Type} (e : ErrKind) : Comp F C α := fun s => (.error e, s)

/-- `clear`, `/repo/jsons/_cache.py` lines 40-46. -/
def clear : Comp F C Unit := fun s => (.ok (), { s with cache := [] })

variable [DecidableEq C]

/-- Calling a cached function, `/repo/jsons/_cache.py` lines 22-24, as
`functools.lru_cache` does: a hit returns the stored value; a miss computes it and
stores it unless an exception is raised. -/
def cachedCall (W : CWorld C) (body : Call C → Comp F C (CVal F C)) (a : Call C) :
    Comp F C (CVal F C) := fun s =>
  match s.cache.find (a.key W) with
  | some v => (.ok v, { s with cache := s.cache.touch (a.key W) v })
  | none => match body a s with
    | (.ok v, s') => (.ok v, { s' with cache := s'.cache.store (a.key W) v })
    | (.error e, s') => (.error e, s')

/-- The cached functions that call no other cached function: `get_class_name`
(`/repo/jsons/_common_impl.py` lines 46-68), `get_naked_class` and
`get_union_params`.  The other calls do not occur here. -/
def leafBody (W : CWorld C) : Call C → Comp F C (CVal F C)
  | .className c lower full =>
    Comp.ret (.str (getClassName (W.attrs c) (if lower then PyStr.lower else id) full))
  | .naked c => Comp.ret (.cls (W.naked c))
  | .params c => Comp.ret (.clss (W.params c))
  | _ => Comp.raise .typeError

/-- A call of one of these. -/
def leafCall (W : CWorld C) (a : Call C) : Comp F C (CVal F C) := cachedCall W (leafBody W) a

/-- `get_class_name(c, str.lower, fully_qualified=True)`. -/
def lowerName (W : CWorld C) (c : C) : Comp F C PyStr :=
  (leafCall W (.className c true true)).bind fun
    | .str s => Comp.ret s
    | _ => Comp.raise .typeError

/-- `_get_lizer_by_parents` and `_get_parents`, `/repo/jsons/_lizers_impl.py`
lines 130-159, with their cached calls. -/
def byParents (W : CWorld C) (t : Table F C) (c : C) : Comp F C (Option F) :=
  (leafCall W (.naked c)).bind fun
    | .cls n => match getParents W.toWorld n t.classes with
      | [] => Comp.ret none
      | p :: _ => (lowerName W p).bind fun pname => match t.lizers pname with
        | some f => Comp.ret (some f)
        | none => Comp.raise .keyError
    | _ => Comp.raise .typeError

/-- `_get_lizer` with `recursive=True`, `/repo/jsons/_lizers_impl.py` lines
121-123, 127. -/
def getLizerRecC (W : CWorld C) (t : Table F C) (c : C) : Comp F C (Option F) :=
  (lowerName W c).bind fun name => match t.lizers name with
    | some f => Comp.ret (some f)
    | none => byParents W t c

/-- `_get_lizer`, `/repo/jsons/_lizers_impl.py` lines 115-127. -/
def getLizerC (W : CWorld C) (t : Table F C) (c : C) : Comp F C (Option F) :=
  (getLizerRecC W t c).bind fun
    | some f => Comp.ret (some f)
    | none => match W.supertype c with
      | some s => getLizerRecC W t s
      | none => Comp.ret none

/-- The registry of a holder. -/
def serOf (h : Heap F C) (i : Nat) : Option (Table F C) :=
  h.holders[i]?.map fun x => h.sers.getD x.ser Table.empty

/-- The registry of a holder. -/
def deserOf (h : Heap F C) (i : Nat) : Option (Table F C) :=
  h.holders[i]?.map fun x => h.desers.getD x.deser Table.empty

/-- The registry of a holder. -/
def valOf (h : Heap F C) (i : Nat) : Option (Table F C) :=
  h.holders[i]?.map fun x => h.vals.getD x.val Table.empty

/-- Looking up in a registry; the holder must be one. -/
def tableLookup (W : CWorld C) (t : Heap F C → Option (Table F C)) (c : C) :
    Comp F C (CVal F C) := fun s =>
  match t s.heap with
  | some t => (getLizerC W t c).bind (fun f => Comp.ret (.fn f)) s
  | none => (.error .attributeError, s)

/-- The bodies of all cached functions: `get_serializer` and `get_deserializer`
(`/repo/jsons/_lizers_impl.py` lines 85-112), `get_validator`
(`/repo/jsons/_validation.py` lines 38-49), `announce_class`
(`/repo/jsons/_extra_impl.py` lines 38-53). -/
def body (W : CWorld C) : Call C → Comp F C (CVal F C)
  | .getSer c i => tableLookup W (serOf · i) c
  | .getDeser c i => tableLookup W (deserOf · i) c
  | .getVal c i => tableLookup W (valOf · i) c
  | .announce c name i =>
    ((match truthyStr name with
      | some n => Comp.ret (.str n)
      | none => leafCall W (.className c false true)) : Comp F C (CVal F C)).bind fun
    | .str n => fun s => (.ok .unit, { s with heap := step W.toWorld s.heap (.announce c n i) })
    | _ => Comp.raise .typeError
  | a => leafBody W a

/-- Calling any cached function. -/
def call (W : CWorld C) (a : Call C) : Comp F C (CVal F C) := cachedCall W (body W) a

/-! ## Setting things -/

/-- The classes whose names an operation looks up. -/
def Op.classes : Op F C → List C
  | .setSer _ cls _ _ | .setDeser _ cls _ _ => cls.filterMap id
  | .setVal _ cls _ => cls
  | _ => []

/-- `get_class_name` for each class of an operation. -/
def lookupNames (W : CWorld C) (cs : List C) : Comp F C Unit :=
  cs.foldr (fun c k => (leafCall W (.className c false true)).bind fun _ => k) (Comp.ret ())

/-- `set_serializer`, `set_deserializer`, `set_validator`, `suppress_warnings`,
`suppress_warning`, `fork`, class definitions.  The names of the classes are
looked up through the cache (`/repo/jsons/_lizers_impl.py` lines 43, 79,
`/repo/jsons/_validation.py` line 33).  Simplification: all names are looked up
before the first class is registered; registering does not change names.
`announce_class` is not among these operations: it is a cached call.
Positional and keyword arguments are not distinguished in keys. -/
def doOp (W : CWorld C) (op : Op F C) : Comp F C Unit :=
  (lookupNames W (Op.classes op)).bind fun _ s => (.ok (), { s with heap := step W.toWorld s.heap op })

/-! ## dump and load -/

/-- `dump` and `_do_dump`, `/repo/jsons/_dump_impl.py` lines 42-66: `c` is
`cls or obj.__class__`, `serializer` is what calling the looked up function does
(with `none`, calling `None`); it may do anything, nested calls of `dump` and
`load` included. -/
def dump {R : Type} (W : CWorld C) (i : Nat) (c : C) (initial : Bool)
    (serializer : Option F → Comp F C R) : Comp F C R :=
  (call W (.getSer c i)).bind fun                              -- line 43
  | .fn f => (call W (.announce c none i)).bind fun _ => fun s =>  -- line 54
    match serializer f s with                                  -- line 60
    | (.ok r, s') => if initial then (.ok r, { s' with cache := [] }) else (.ok r, s')
    | (.error _, s') => (.error .serializationError, { s' with cache := [] })  -- lines 65-66
  | _ => Comp.raise .typeError

/-- `validate`, `/repo/jsons/_validation.py` lines 64-75; `check` is the outcome of
the validator function. -/
def validate {R : Type} (W : CWorld C) (i : Nat) (c : C) (check : F → R → Bool) (r : R) :
    Comp F C Unit :=
  (call W (.getVal c i)).bind fun
  | .fn (some f) => if check f r then Comp.ret () else Comp.raise .validationError
  | _ => Comp.ret ()

/-- `load` and `_do_load`, `/repo/jsons/_load_impl.py` lines 76-125.  `noneCheck`
is `_check_for_none` (line 76), `skip` is the outcome of `_should_skip` with the
value that is then returned, `resolve` are lines 80-84 and gives the class,
`deserializer` is what the looked up function does. -/
def load {R : Type} (W : CWorld C) (i : Nat) (c : C) (initial : Bool) (noneCheck : Comp F C Unit)
    (skip : Option R) (resolve : Comp F C C) (deserializer : F → C → Comp F C R)
    (check : F → R → Bool) : Comp F C R :=
  noneCheck.bind fun _ => match skip with
  | some r => (validate W i c check r).bind fun _ => Comp.ret r       -- lines 77-79
  | none => resolve.bind fun c' =>                                    -- lines 80-84
    (call W (.getDeser c' i)).bind fun                                -- line 86
    | .fn f => (leafCall W (.className c' false true)).bind fun _ =>  -- line 109
      match f with
      | none => Comp.raise .deserializationError                           -- lines 110-111
      | some f => fun s =>
        match ((deserializer f c').bind fun r =>                      -- lines 113-114
          (validate W i c' check r).bind fun _ => Comp.ret r) s with
        | (.ok r, s') => if initial then (.ok r, { s' with cache := [] }) else (.ok r, s')
        | (.error e, s') => (.error (if e.isJsonsError then e else .deserializationError),
            { s' with cache := [] })                                  -- lines 115-120
    | _ => Comp.raise .typeError

end Verif.Cache
