import Verif.Py.Err
import Verif.Py.Str
import Verif.Datetime

/-!
# Values, types and results

The values that `dump` and `load` handle, the types they are given, and the
results of calls: a value or an exception, together with the warnings and
announcements on the way.
-/

set_option autoImplicit false

namespace Verif.Core
open Verif Verif.Datetime

/-! ## Classes and types -/

/-- The classes.  The first ones are those for which
`/repo/jsons/__init__.py` lines 277-321 registers functions and those of
`VALID_TYPES` (`/repo/jsons/_common_impl.py` line 18); `path` is `PurePath`.  A
class of the program is a number; what is known of it is in `ClassInfo`. -/
inductive Cls where
  | noneType | bool | int | float | str
  | list | tuple | set | frozenset | deque | dict | defaultdict
  | datetime | date | time | timedelta | timezone
  | uuid | decimal | complex | path | zoneinfo
  | object | mapping | iterable | enum | intEnum
  | user (id : Nat)
  deriving DecidableEq

/-- The generic classes of `typing`; `tupleEll` is `Tuple[T, ...]`. -/
inductive Gen where
  | list | tuple | tupleEll | set | frozenset | deque | dict | defaultdict | mapping | iterable
  deriving DecidableEq

/-- Types: what can be given as `cls` or as a hint.  A generic class without
arguments is the bare alias, such as `List`.  `union` is `Union[...]` and
`Optional[...]`, with its members in order; `special` is the bare `Union` or
`Optional` (only used in registrations). -/
inductive Ty where
  | cls (c : Cls)
  | any
  | gen (g : Gen) (args : List Ty)
  | union (args : List Ty)
  | newtype (name : PyStr) (t : Ty)
  | special (optional : Bool)

mutual
/-- Types can be compared. -/
def Ty.decTy : (a b : Ty) → Decidable (a = b)
  | .cls c, .cls d => if h : c = d then isTrue (by rw [h]) else isFalse (by intro e; cases e; exact h rfl)
  | .any, .any => isTrue rfl
  | .special a, .special b =>
    if h : a = b then isTrue (by rw [h]) else isFalse (by intro e; cases e; exact h rfl)
  | .gen g as, .gen h bs =>
    match decEq g h, Ty.decTys as bs with
    | isTrue e, isTrue e' => isTrue (by rw [e, e'])
    | isFalse e, _ => isFalse (by intro x; cases x; exact e rfl)
    | _, isFalse e => isFalse (by intro x; cases x; exact e rfl)
  | .union as, .union bs =>
    match Ty.decTys as bs with
    | isTrue e => isTrue (by rw [e])
    | isFalse e => isFalse (by intro x; cases x; exact e rfl)
  | .newtype n a, .newtype m b =>
    match decEq n m, Ty.decTy a b with
    | isTrue e, isTrue e' => isTrue (by rw [e, e'])
    | isFalse e, _ => isFalse (by intro x; cases x; exact e rfl)
    | _, isFalse e => isFalse (by intro x; cases x; exact e rfl)
  | .cls _, .any | .cls _, .gen _ _ | .cls _, .union _ | .cls _, .newtype _ _
  | .any, .cls _ | .any, .gen _ _ | .any, .union _ | .any, .newtype _ _
  | .gen _ _, .cls _ | .gen _ _, .any | .gen _ _, .union _ | .gen _ _, .newtype _ _
  | .union _, .cls _ | .union _, .any | .union _, .gen _ _ | .union _, .newtype _ _
  | .newtype _ _, .cls _ | .newtype _ _, .any | .newtype _ _, .gen _ _
  | .newtype _ _, .union _ | .special _, .cls _ | .special _, .any | .special _, .gen _ _
  | .special _, .union _ | .special _, .newtype _ _ | .cls _, .special _ | .any, .special _
  | .gen _ _, .special _ | .union _, .special _ | .newtype _ _, .special _ =>
    isFalse (by intro x; cases x)
termination_by structural x => x
/-- Lists of types can be compared. -/
def Ty.decTys : (a b : List Ty) → Decidable (a = b)
  | [], [] => isTrue rfl
  | a :: as, b :: bs =>
    match Ty.decTy a b, Ty.decTys as bs with
    | isTrue e, isTrue e' => isTrue (by rw [e, e'])
    | isFalse e, _ => isFalse (by intro x; cases x; exact e rfl)
    | _, isFalse e => isFalse (by intro x; cases x; exact e rfl)
  | [], _ :: _ | _ :: _, [] => isFalse (by intro x; cases x)
termination_by structural x => x
end

instance : DecidableEq Ty := Ty.decTy

/-! ## Values -/

/-- Values without parts.  Simplifications: a `float` is a rational number
(infinities and NaN are not modelled); instances of proper subclasses of the
built-in classes are not modelled, except for enums, named tuples and
`defaultdict`.  A `timedelta` is a number of microseconds; a `timezone` is its
offset in microseconds and the name it was given; `UUID`, `Decimal`, `PurePath` and
`ZoneInfo` values are their texts (`str(obj)`, `as_posix()`, `key`). -/
inductive Atom where
  | none
  | bool (b : Bool)
  | int (n : Int)
  | float (x : ℚ)
  | str (s : PyStr)
  | datetime (d : DT)
  | date (d : Date)
  | time (t : Time)
  | timedelta (us : Int)
  | timezone (us : Int) (name : Option PyStr)
  | uuid (s : PyStr)
  | decimal (s : PyStr)
  | complex (re im : ℚ)
  | path (s : PyStr)
  | zoneinfo (key : PyStr)
  deriving DecidableEq

/-- The built-in collections. -/
inductive SeqKind where
  | list | tuple | set | frozenset | deque
  deriving DecidableEq

/-- Values.  A collection is the list of its elements in the order of iteration;
a dict is the list of its entries in order; a `defaultdict` has its
`default_factory`; a named tuple is its class and its fields; an enum member is its
class and its name; an object is its class and its instance attributes
(`__dict__` or slots).  Simplification: values are trees; an object that is
reached on two ways is two equal values.  (What a property returns may be the
object itself, see `Env.prop`.) -/
inductive Val where
  | atom (a : Atom)
  | seq (k : SeqKind) (xs : List Val)
  | dict (es : List (Val × Val))
  | ddict (factory : Option Ty) (es : List (Val × Val))
  | ntuple (c : Nat) (xs : List Val)
  | enum (c : Nat) (member : PyStr)
  | obj (c : Nat) (attrs : List (PyStr × Val))

mutual
/-- Values can be compared (this is not Python's `==`, see `pyEq`). -/
def Val.decVal : (a b : Val) → Decidable (a = b)
  | .atom a, .atom b => if h : a = b then isTrue (by rw [h]) else isFalse (by intro e; cases e; exact h rfl)
  | .seq k xs, .seq l ys =>
    match decEq k l, Val.decVals xs ys with
    | isTrue e, isTrue e' => isTrue (by rw [e, e'])
    | isFalse e, _ => isFalse (by intro x; cases x; exact e rfl)
    | _, isFalse e => isFalse (by intro x; cases x; exact e rfl)
  | .dict xs, .dict ys =>
    match Val.decEntries xs ys with
    | isTrue e => isTrue (by rw [e])
    | isFalse e => isFalse (by intro x; cases x; exact e rfl)
  | .ddict k xs, .ddict l ys =>
    match decEq k l, Val.decEntries xs ys with
    | isTrue e, isTrue e' => isTrue (by rw [e, e'])
    | isFalse e, _ => isFalse (by intro x; cases x; exact e rfl)
    | _, isFalse e => isFalse (by intro x; cases x; exact e rfl)
  | .ntuple k xs, .ntuple l ys =>
    match decEq k l, Val.decVals xs ys with
    | isTrue e, isTrue e' => isTrue (by rw [e, e'])
    | isFalse e, _ => isFalse (by intro x; cases x; exact e rfl)
    | _, isFalse e => isFalse (by intro x; cases x; exact e rfl)
  | .enum c m, .enum d n =>
    if h : c = d ∧ m = n then isTrue (by rw [h.1, h.2])
    else isFalse (by intro e; cases e; exact h ⟨rfl, rfl⟩)
  | .obj k xs, .obj l ys =>
    match decEq k l, Val.decAttrs xs ys with
    | isTrue e, isTrue e' => isTrue (by rw [e, e'])
    | isFalse e, _ => isFalse (by intro x; cases x; exact e rfl)
    | _, isFalse e => isFalse (by intro x; cases x; exact e rfl)
  | .atom _, .seq _ _ | .atom _, .dict _ | .atom _, .ddict _ _ | .atom _, .ntuple _ _
  | .atom _, .enum _ _ | .atom _, .obj _ _
  | .seq _ _, .atom _ | .seq _ _, .dict _ | .seq _ _, .ddict _ _ | .seq _ _, .ntuple _ _
  | .seq _ _, .enum _ _ | .seq _ _, .obj _ _
  | .dict _, .atom _ | .dict _, .seq _ _ | .dict _, .ddict _ _ | .dict _, .ntuple _ _
  | .dict _, .enum _ _ | .dict _, .obj _ _
  | .ddict _ _, .atom _ | .ddict _ _, .seq _ _ | .ddict _ _, .dict _ | .ddict _ _, .ntuple _ _
  | .ddict _ _, .enum _ _ | .ddict _ _, .obj _ _
  | .ntuple _ _, .atom _ | .ntuple _ _, .seq _ _ | .ntuple _ _, .dict _ | .ntuple _ _, .ddict _ _
  | .ntuple _ _, .enum _ _ | .ntuple _ _, .obj _ _
  | .enum _ _, .atom _ | .enum _ _, .seq _ _ | .enum _ _, .dict _ | .enum _ _, .ddict _ _
  | .enum _ _, .ntuple _ _ | .enum _ _, .obj _ _
  | .obj _ _, .atom _ | .obj _ _, .seq _ _ | .obj _ _, .dict _ | .obj _ _, .ddict _ _
  | .obj _ _, .ntuple _ _ | .obj _ _, .enum _ _ => isFalse (by intro x; cases x)
termination_by structural x => x
/-- Lists of values can be compared. -/
def Val.decVals : (a b : List Val) → Decidable (a = b)
  | [], [] => isTrue rfl
  | a :: as, b :: bs =>
    match Val.decVal a b, Val.decVals as bs with
    | isTrue e, isTrue e' => isTrue (by rw [e, e'])
    | isFalse e, _ => isFalse (by intro x; cases x; exact e rfl)
    | _, isFalse e => isFalse (by intro x; cases x; exact e rfl)
  | [], _ :: _ | _ :: _, [] => isFalse (by intro x; cases x)
termination_by structural x => x
/-- Entries can be compared. -/
def Val.decEntries : (a b : List (Val × Val)) → Decidable (a = b)
  | [], [] => isTrue rfl
  | (a, a') :: as, (b, b') :: bs =>
    match Val.decVal a b, Val.decVal a' b', Val.decEntries as bs with
    | isTrue e, isTrue e', isTrue e'' => isTrue (by rw [e, e', e''])
    | isFalse e, _, _ => isFalse (by intro x; cases x; exact e rfl)
    | _, isFalse e, _ => isFalse (by intro x; cases x; exact e rfl)
    | _, _, isFalse e => isFalse (by intro x; cases x; exact e rfl)
  | [], _ :: _ | _ :: _, [] => isFalse (by intro x; cases x)
termination_by structural x => x
/-- Attributes can be compared. -/
def Val.decAttrs : (a b : List (PyStr × Val)) → Decidable (a = b)
  | [], [] => isTrue rfl
  | (a, a') :: as, (b, b') :: bs =>
    match decEq a b, Val.decVal a' b', Val.decAttrs as bs with
    | isTrue e, isTrue e', isTrue e'' => isTrue (by rw [e, e', e''])
    | isFalse e, _, _ => isFalse (by intro x; cases x; exact e rfl)
    | _, isFalse e, _ => isFalse (by intro x; cases x; exact e rfl)
    | _, _, isFalse e => isFalse (by intro x; cases x; exact e rfl)
  | [], _ :: _ | _ :: _, [] => isFalse (by intro x; cases x)
termination_by structural x => x
end

instance : DecidableEq Val := Val.decVal

namespace Val
/-- `None`. -/
@[match_pattern] abbrev none : Val := .atom .none
/-- A `bool`. -/
@[match_pattern] abbrev bool (b : Bool) : Val := .atom (.bool b)
/-- An `int`. -/
@[match_pattern] abbrev int (n : Int) : Val := .atom (.int n)
/-- A `float`. -/
@[match_pattern] abbrev float (x : ℚ) : Val := .atom (.float x)
/-- A `str`. -/
@[match_pattern] abbrev str (s : PyStr) : Val := .atom (.str s)
/-- A `list`. -/
@[match_pattern] abbrev list (xs : List Val) : Val := .seq .list xs
/-- A `tuple`. -/
@[match_pattern] abbrev tuple (xs : List Val) : Val := .seq .tuple xs
/-- A `set`. -/
@[match_pattern] abbrev set (xs : List Val) : Val := .seq .set xs
end Val

/-- `obj.__class__` of a value without parts. -/
def Atom.cls : Atom → Cls
  | .none => .noneType | .bool _ => .bool | .int _ => .int | .float _ => .float | .str _ => .str
  | .datetime _ => .datetime | .date _ => .date | .time _ => .time | .timedelta _ => .timedelta
  | .timezone _ _ => .timezone | .uuid _ => .uuid | .decimal _ => .decimal
  | .complex _ _ => .complex | .path _ => .path | .zoneinfo _ => .zoneinfo

/-- The class of a built-in collection. -/
def SeqKind.cls : SeqKind → Cls
  | .list => .list | .tuple => .tuple | .set => .set | .frozenset => .frozenset | .deque => .deque

/-- `obj.__class__`, `/repo/jsons/_dump_impl.py` line 42; `type(json_obj)`,
`/repo/jsons/_load_impl.py` lines 194, 205, 209. -/
def Val.cls : Val → Cls
  | .atom a => a.cls
  | .seq k _ => k.cls
  | .dict _ => .dict
  | .ddict _ _ => .defaultdict
  | .ntuple c _ => .user c
  | .enum c _ => .user c
  | .obj c _ => .user c

/-- The number that a `bool`, `int`, `float` or `complex` without imaginary part is. -/
def Atom.num? : Atom → Option ℚ
  | .bool b => some (if b then 1 else 0)
  | .int n => some n
  | .float x => some x
  | .complex re im => if im = 0 then some re else .none
  | _ => .none

/-- `a == b` as dicts and sets use it for their keys: numbers are compared by
value (`1 == 1.0 == True == 1+0j`), `timezone`s by their offset.  Simplifications: inside
tuples and other composite keys the comparison is exact; a `Decimal` is equal only to a
`Decimal` with the same text. -/
def pyEq : Val → Val → Bool
  | .atom a, .atom b => match a, b with
    | .timezone x _, .timezone y _ => x == y
    | a, b => match a.num?, b.num? with
      | some x, some y => x == y
      | _, _ => a == b
  | a, b => a == b

/-- `d.get(k)` on the entries of a dict. -/
def dictGet (es : List (Val × Val)) (k : Val) : Option Val :=
  match es with
  | [] => none
  | (k', v) :: es => if pyEq k' k then some v else dictGet es k

/-- `d[k] = v` on the entries of a dict: an existing entry keeps its place and its
key. -/
def dictSet (es : List (Val × Val)) (k v : Val) : List (Val × Val) :=
  match es with
  | [] => [(k, v)]
  | (k', v') :: es => if pyEq k' k then (k', v) :: es else (k', v') :: dictSet es k v

/-- `del d[k]`, if there is such a key. -/
def dictDel (es : List (Val × Val)) (k : Val) : List (Val × Val) :=
  match es with
  | [] => []
  | (k', v') :: es => if pyEq k' k then es else (k', v') :: dictDel es k

/-- Looking up a name in attributes, hints, members, ... -/
def assoc {β : Type} (l : List (PyStr × β)) (n : PyStr) : Option β :=
  match l with
  | [] => none
  | (m, b) :: l => if m = n then some b else assoc l n

/-- Setting the value of a name, in its place if it is there already. -/
def assocSet {β : Type} (l : List (PyStr × β)) (n : PyStr) (b : β) : List (PyStr × β) :=
  match l with
  | [] => [(n, b)]
  | (m, c) :: l => if m = n then (m, b) :: l else (m, c) :: assocSet l n b

/-- `not obj`: `None`, `False`, zero and what has no elements.  Simplification:
objects, dates, UUIDs and the like are truthy (a `Decimal` 0 is falsy in Python). -/
def Val.falsy : Val → Bool
  | .atom .none => true
  | .atom (.bool b) => !b
  | .atom (.int n) => n == 0
  | .atom (.float x) => x == 0
  | .atom (.str s) => s.isEmpty
  | .atom (.timedelta us) => us == 0
  | .atom (.complex re im) => re == 0 && im == 0
  | .seq _ xs => xs.isEmpty
  | .dict es => es.isEmpty
  | .ddict _ es => es.isEmpty
  | .ntuple _ xs => xs.isEmpty
  | _ => false

/-! ## Exceptions and results -/

/-- An exception: its class, its text, whether it has arguments (`err.args`), and
what the exceptions of `/repo/jsons/exceptions.py` carry: `source` and `target`
(lines 57-87), `argument` (lines 32-54).  Simplifications: the texts of built-in
exceptions and the values that are printed in the texts are left out. -/
structure Err where
  kind : ErrKind
  msg : PyStr := []
  hasArgs : Bool := true
  source : Option Val := none
  target : Option Ty := none
  argument : Option PyStr := none
  deriving DecidableEq

/-- What happens besides the result: a warning that is emitted
(`/repo/jsons/_common_impl.py` lines 38-43), an announcement of a class
(`/repo/jsons/_extra_impl.py` lines 38-53). -/
inductive Event where
  | warn (code msg : PyStr)
  | announce (t : Ty) (fork : Nat)
  deriving DecidableEq

/-- The result of a call: the events and the returned value or the exception. -/
structure Res (α : Type) where
  log : List Event
  val : Except Err α

instance {α : Type} [DecidableEq α] : DecidableEq (Res α) := fun a b =>
  if h : a.log = b.log ∧ a.val = b.val then isTrue (by cases a; cases b; cases h; simp_all)
  else isFalse (by intro e; rw [e] at h; exact h ⟨rfl, rfl⟩)

namespace Res
variable {α β : Type}

/-- Returning. -/
def ret (a : α) : Res α := ⟨[], .ok a⟩

/-- Raising. -/
def raise (e : Err) : Res α := ⟨[], .error e⟩

/-- An event. -/
def emit (e : Event) : Res Unit := ⟨[e], .ok ()⟩

/-- One after the other. -/
def bind (x : Res α) (f : α → Res β) : Res β :=
  match x.val with
  | .ok a => ⟨x.log ++ (f a).log, (f a).val⟩
  | .error e => ⟨x.log, .error e⟩

instance : Monad Res where
  pure := ret
  bind := bind

/-- `try: x except Exception as err: h(err)`. -/
def orElse (x : Res α) (h : Err → Res α) : Res α :=
  match x.val with
  | .ok _ => x
  | .error e => ⟨x.log ++ (h e).log, (h e).val⟩

/-- An outcome without events. -/
def lift : Except Err α → Res α
  | .ok a => ret a
  | .error e => raise e

/-- An outcome of which only the class of the exception is known. -/
def liftK : Except ErrKind α → Res α
  | .ok a => ret a
  | .error k => raise { kind := k }

/-- The same for looking up a class by its name, for the document `src`: an
`UnknownClassError` has a source, `/repo/jsons/_common_impl.py` lines 140-149. -/
def liftS (src : Val) : Except ErrKind α → Res α
  | .ok a => ret a
  | .error k => raise { kind := k, source := if k = .unknownClass then some src else none }

end Res

/-- `[f(x) for x in xs]`. -/
def mapRes {α β : Type} (f : α → Res β) : List α → Res (List β)
  | [] => pure []
  | x :: xs => do
    let y ← f x
    let ys ← mapRes f xs
    pure (y :: ys)

end Verif.Core
