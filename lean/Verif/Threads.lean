import Verif.Cache

/-!
# Model of threads that use jsons at the same time

The cached functions of `Verif.Cache` in small steps: what a thread does between two of
its steps, other threads do in any order.  A step is what no other thread can
interrupt in CPython: one operation on a dict, on a list or on the `lru_cache`.
-/

set_option autoImplicit false

namespace Verif.Threads
open Verif Verif.Registry Verif.Cache

/-- The registries of a state holder, `/repo/jsons/_common_impl.py` lines 28-33. -/
inductive Kind where
  | ser
  | deser
  | val
  deriving DecidableEq

/-- What a thread still has to do; it ends with a result or an exception. -/
inductive Prog (F C α : Type) where
  /-- The end. -/
  | done (r : Except ErrKind α)
  /-- `lru_cache` looks for a key (`/repo/jsons/_cache.py` line 22). -/
  | probe (k : Call C) (next : Option (CVal F C) → Prog F C α)
  /-- `lru_cache` stores a result after a miss. -/
  | store (k : Call C) (v : CVal F C) (next : Prog F C α)
  /-- `cache_clear()`, `/repo/jsons/_cache.py` line 46. -/
  | clear (next : Prog F C α)
  /-- `fork_inst._serializers` and `fork_inst._classes_serializers` etc.: the containers
  (`/repo/jsons/_lizers_impl.py` lines 95-96, 110-111). -/
  | refs (r : Kind) (i : Nat) (next : Option Nat → Prog F C α)
  /-- `lizers.get(name)`, line 122, and `lizers[name]`, line 139. -/
  | get (r : Kind) (j : Nat) (n : PyStr) (next : Option F → Prog F C α)
  /-- The classes in the list of classes, lines 152-158.  Simplification: the loop sees
  the list as it is at one moment. -/
  | list (r : Kind) (j : Nat) (next : List C → Prog F C α)
  /-- `classes.insert(index, cls)`, lines 41-42 and 77-78.  Simplification: the length of the
  list is taken in the same step. -/
  | insert (r : Kind) (j : Nat) (c : C) (hp : Bool) (next : Prog F C α)
  /-- `lizers[name] = func`, lines 44, 46, 80 and 82. -/
  | set (r : Kind) (j : Nat) (n : PyStr) (f : F) (next : Prog F C α)
  /-- `_announced_classes[cls] = name` and `_announced_classes[name] = cls`,
  `/repo/jsons/_extra_impl.py` lines 52-53.  Simplification: one step; nothing here reads
  them. -/
  | announce (c : C) (n : PyStr) (i : Nat) (next : Prog F C α)

variable {F C α β : Type}

/-- What `p` does, then `k` with its outcome: `try`, `except` and sequencing. -/
def Prog.handle (p : Prog F C α) (k : Except ErrKind α → Prog F C β) : Prog F C β :=
  match p with
  | .done r => k r
  | .probe a n => .probe a fun v => (n v).handle k
  | .store a v n => .store a v (n.handle k)
  | .clear n => .clear (n.handle k)
  | .refs r i n => .refs r i fun j => (n j).handle k
  | .get r j s n => .get r j s fun f => (n f).handle k
  | .list r j n => .list r j fun cs => (n cs).handle k
  | .insert r j c hp n => .insert r j c hp (n.handle k)
  | .set r j s f n => .set r j s f (n.handle k)
  | .announce c s i n => .announce c s i (n.handle k)

/-- Sequencing: an exception ends it. -/
def Prog.bind (p : Prog F C α) (k : α → Prog F C β) : Prog F C β :=
  p.handle fun
    | .ok a => k a
    | .error e => .done (.error e)

/-- The container that an attribute of a state holder refers to. -/
def refOf (h : Heap F C) (r : Kind) (i : Nat) : Option Nat :=
  h.holders[i]?.map fun x => match r with
    | .ser => x.ser
    | .deser => x.deser
    | .val => x.val

/-- The registry behind a reference. -/
def tabOf (h : Heap F C) (r : Kind) (j : Nat) : Table F C :=
  match r with
  | .ser => h.sers.getD j Table.empty
  | .deser => h.desers.getD j Table.empty
  | .val => h.vals.getD j Table.empty

/-- Changing the registry behind a reference. -/
def change (h : Heap F C) (r : Kind) (j : Nat) (g : Table F C → Table F C) : Heap F C :=
  match r with
  | .ser => { h with sers := h.sers.modify j g }
  | .deser => { h with desers := h.desers.modify j g }
  | .val => { h with vals := h.vals.modify j g }

variable [DecidableEq C]

/-- One step of a thread, with the lines given at `Prog`. -/
def step1 (W : CWorld C) (s : St F C) : Prog F C α → Prog F C α × St F C
  | .done r => (.done r, s)
  | .probe k n => match s.cache.find k with
    | some v => (n (some v), { s with cache := s.cache.touch k v })
    | none => (n none, s)
  | .store k v n => (n, { s with cache := s.cache.store k v })
  | .clear n => (n, { s with cache := [] })
  | .refs r i n => (n (refOf s.heap r i), s)
  | .get r j m n => (n ((tabOf s.heap r j).lizers m), s)
  | .list r j n => (n (tabOf s.heap r j).classes, s)
  | .insert r j c hp n =>
    (n, { s with heap := change s.heap r j fun t =>
      { t with classes := if hp then c :: t.classes else t.classes ++ [c] } })
  | .set r j m f n =>
    (n, { s with heap := change s.heap r j fun t => { t with lizers := update t.lizers m f } })
  | .announce c m i n => (n, { s with heap := step W.toWorld s.heap (.announce c m i) })

/-- A thread that runs alone. -/
def Prog.run (W : CWorld C) : Prog F C α → Comp F C α
  | .done r => fun s => (r, s)
  | .probe k n => fun s => match s.cache.find k with
    | some v => (n (some v)).run W { s with cache := s.cache.touch k v }
    | none => (n none).run W s
  | .store k v n => fun s => n.run W { s with cache := s.cache.store k v }
  | .clear n => fun s => n.run W { s with cache := [] }
  | .refs r i n => fun s => (n (refOf s.heap r i)).run W s
  | .get r j m n => fun s => (n ((tabOf s.heap r j).lizers m)).run W s
  | .list r j n => fun s => (n (tabOf s.heap r j).classes).run W s
  | .insert r j c hp n => fun s => n.run W { s with heap := change s.heap r j fun t =>
      { t with classes := if hp then c :: t.classes else t.classes ++ [c] } }
  | .set r j m f n => fun s => n.run W { s with heap := change s.heap r j fun t =>
      { t with lizers := update t.lizers m f } }
  | .announce c m i n => fun s => n.run W { s with heap := step W.toWorld s.heap (.announce c m i) }

/-- All threads and what they share; one step of the thread with the number `i`. -/
def stepAt (W : CWorld C) (x : List (Prog F C α) × St F C) (i : Nat) : List (Prog F C α) × St F C :=
  match x.1[i]? with
  | none => x
  | some p => (x.1.set i (step1 W x.2 p).1, (step1 W x.2 p).2)

/-- The threads take their steps in the given order. -/
def runAll (W : CWorld C) (x : List (Prog F C α) × St F C) (schedule : List Nat) : List (Prog F C α) × St F C :=
  schedule.foldl (stepAt W) x

/-! ## The cached functions -/

/-- Calling a cached function, `/repo/jsons/_cache.py` lines 22-24. -/
def cachedP (W : CWorld C) (body : Call C → Prog F C (CVal F C)) (a : Call C) : Prog F C (CVal F C) :=
  .probe (a.key W) fun
    | some v => .done (.ok v)
    | none => (body a).bind fun v => .store (a.key W) v (.done (.ok v))

/-- `get_class_name`, `get_naked_class`, `get_union_params`, see `Verif.Cache.leafBody`. -/
def leafBodyP (W : CWorld C) : Call C → Prog F C (CVal F C)
  | .className c lower full =>
    .done (.ok (.str (getClassName (W.attrs c) (if lower then PyStr.lower else id) full)))
  | .naked c => .done (.ok (.cls (W.naked c)))
  | .params c => .done (.ok (.clss (W.params c)))
  | _ => .done (.error .typeError)

/-- A call of one of these. -/
def leafP (W : CWorld C) (a : Call C) : Prog F C (CVal F C) := cachedP W (leafBodyP W) a

/-- `get_class_name(c, str.lower, fully_qualified=True)`. -/
def lowerNameP (W : CWorld C) (c : C) : Prog F C PyStr :=
  (leafP W (.className c true true)).bind fun
    | .str s => .done (.ok s)
    | _ => .done (.error .typeError)

/-- `_get_lizer_by_parents` and `_get_parents`, `/repo/jsons/_lizers_impl.py` lines
130-159. -/
def byParentsP (W : CWorld C) (r : Kind) (j : Nat) (c : C) : Prog F C (Option F) :=
  (leafP W (.naked c)).bind fun                                -- line 151
    | .cls n => .list r j fun cs => match getParents W.toWorld n cs with  -- lines 152-158
      | [] => .done (.ok none)
      | p :: _ => (lowerNameP W p).bind fun pname =>           -- line 138
        .get r j pname fun                                     -- line 139
          | some f => .done (.ok (some f))
          | none => .done (.error .keyError)
    | _ => .done (.error .typeError)

/-- `_get_lizer` with `recursive=True`, `/repo/jsons/_lizers_impl.py` lines 121-123, 127. -/
def getLizerRecP (W : CWorld C) (r : Kind) (j : Nat) (c : C) : Prog F C (Option F) :=
  (lowerNameP W c).bind fun name => .get r j name fun
    | some f => .done (.ok (some f))
    | none => byParentsP W r j c

/-- `_get_lizer`, `/repo/jsons/_lizers_impl.py` lines 115-127. -/
def getLizerP (W : CWorld C) (r : Kind) (j : Nat) (c : C) : Prog F C (Option F) :=
  (getLizerRecP W r j c).bind fun
    | some f => .done (.ok (some f))
    | none => match W.supertype c with
      | some s => getLizerRecP W r j s
      | none => .done (.ok none)

/-- `get_serializer`, `get_deserializer` (`/repo/jsons/_lizers_impl.py` lines 86-112) and
`get_validator` (`/repo/jsons/_validation.py` lines 39-49). -/
def lookupP (W : CWorld C) (r : Kind) (c : C) (i : Nat) : Prog F C (CVal F C) :=
  .refs r i fun
    | some j => (getLizerP W r j c).bind fun f => .done (.ok (.fn f))
    | none => .done (.error .attributeError)

/-- The bodies of all cached functions, see `Verif.Cache.body`. -/
def bodyP (W : CWorld C) : Call C → Prog F C (CVal F C)
  | .getSer c i => lookupP W .ser c i
  | .getDeser c i => lookupP W .deser c i
  | .getVal c i => lookupP W .val c i
  | .announce c name i =>                                      -- `_extra_impl.py` lines 50-53
    ((match truthyStr name with
      | some n => .done (.ok (.str n))
      | none => leafP W (.className c false true)) : Prog F C (CVal F C)).bind fun
    | .str n => .announce c n i (.done (.ok .unit))
    | _ => .done (.error .typeError)
  | a => leafBodyP W a

/-- Calling any cached function. -/
def callP (W : CWorld C) (a : Call C) : Prog F C (CVal F C) := cachedP W (bodyP W) a

omit [DecidableEq C] in
/-- `clear`, `/repo/jsons/_cache.py` lines 40-46: the shared cache is cleared once for each of
the `n` wrappers. -/
def clearP : Nat → Prog F C Unit
  | 0 => .done (.ok ())
  | n + 1 => .clear (clearP n)

/-- The number of functions that are decorated with `cached` (`_common_impl.py` line 46,
`_compatibility_impl.py` lines 42, 52, 59, 68, `_extra_impl.py` line 38, `_lizers_impl.py` lines
85, 100, `_validation.py` line 38, `deserializers/default_object.py` line 77,
`serializers/default_object.py` lines 171, 203, 249, 326). -/
def wrappers : Nat := 14

/-- `set_serializer` and `set_deserializer` for one class,
`/repo/jsons/_lizers_impl.py` lines 41-44 and 77-80. -/
def setP (W : CWorld C) (r : Kind) (f : F) (c : C) (hp : Bool) (i : Nat) : Prog F C Unit :=
  .refs r i fun
    | some j => .insert r j c hp ((leafP W (.className c false true)).bind fun
      | .str n => .set r j n.lower f (.done (.ok ()))
      | _ => .done (.error .typeError))
    | none => .done (.error .attributeError)

/-! ## dump and load -/

/-- `dump` and `_do_dump`, `/repo/jsons/_dump_impl.py` lines 42-66, see `Verif.Cache.dump`. -/
def dumpP {R : Type} (W : CWorld C) (i : Nat) (c : C) (initial : Bool)
    (serializer : Option F → Prog F C R) : Prog F C R :=
  (callP W (.getSer c i)).bind fun                             -- line 43
  | .fn f => (callP W (.announce c none i)).bind fun _ =>      -- line 54
    (serializer f).handle fun                                  -- line 60
    | .ok r => if initial then (clearP wrappers).bind fun _ => .done (.ok r) else .done (.ok r)
    | .error _ => (clearP wrappers).bind fun _ => .done (.error .serializationError)  -- lines 65-66
  | _ => .done (.error .typeError)

/-- `validate`, `/repo/jsons/_validation.py` lines 64-75. -/
def validateP {R : Type} (W : CWorld C) (i : Nat) (c : C) (check : F → R → Bool) (r : R) :
    Prog F C Unit :=
  (callP W (.getVal c i)).bind fun
  | .fn (some f) => if check f r then .done (.ok ()) else .done (.error .validationError)
  | _ => .done (.ok ())

/-- `load` and `_do_load`, `/repo/jsons/_load_impl.py` lines 76-125, see `Verif.Cache.load`. -/
def loadP {R : Type} (W : CWorld C) (i : Nat) (c : C) (initial : Bool) (noneCheck : Prog F C Unit)
    (skip : Option R) (resolve : Prog F C C) (deserializer : F → C → Prog F C R)
    (check : F → R → Bool) : Prog F C R :=
  noneCheck.bind fun _ => match skip with
  | some r => (validateP W i c check r).bind fun _ => .done (.ok r)   -- lines 77-79
  | none => resolve.bind fun c' =>                                    -- lines 80-84
    (callP W (.getDeser c' i)).bind fun                               -- line 86
    | .fn f => (leafP W (.className c' false true)).bind fun _ =>     -- line 109
      match f with
      | none => .done (.error .deserializationError)                  -- lines 110-111
      | some f =>
        ((deserializer f c').bind fun r =>                            -- lines 113-114
          (validateP W i c' check r).bind fun _ => .done (.ok r)).handle fun
        | .ok r => if initial then (clearP wrappers).bind fun _ => .done (.ok r) else .done (.ok r)
        | .error e => (clearP wrappers).bind fun _ =>                 -- lines 115-120
            .done (.error (if e.isJsonsError then e else .deserializationError))
    | _ => .done (.error .typeError)

end Verif.Threads
