import Verif.Py.Err
import Verif.Py.Str

/-!
# Model of the registries of (de)serializers, validators, announced classes and
suppressed warnings

`/repo/jsons/_lizers_impl.py`, `/repo/jsons/_fork_impl.py`,
`/repo/jsons/_extra_impl.py`, `/repo/jsons/_validation.py` lines 14-49 and
`/repo/jsons/_common_impl.py` lines 23-68, 77-101, 140-170.

The caches of the functions modelled here are the subject of `Verif.Cache`.
-/

set_option autoImplicit false

namespace Verif.Registry
open Verif

/-! ## Names of classes -/

/-- What `get_class_name` looks at: the attributes `__qualname__`, `__name__`,
`_name`, `__module__`, and the `repr`. -/
structure ClsAttrs where
  qualname : Option PyStr
  name : Option PyStr
  uname : Option PyStr
  repr : PyStr
  module : Option PyStr

/-- `s.split(sub)[0]` for a two-character separator. -/
def beforeSub (a b : Char) : PyStr → PyStr
  | x :: y :: s => if x = a ∧ y = b then [] else x :: beforeSub a b (y :: s)
  | s => s

/-- The value if it is a string that is not empty (`if not cls_name`). -/
def truthyStr : Option PyStr → Option PyStr
  | some (c :: s) => some (c :: s)
  | _ => none

/-- `_get_simple_name`, `/repo/jsons/_common_impl.py` lines 152-163; `None` is
given with the attributes of its type (line 154). -/
def getSimpleName (a : ClsAttrs) : PyStr :=
  match truthyStr a.name with                                  -- line 155
  | some n => n
  | none => match truthyStr a.uname with                       -- line 157
    | some n => n
    | none =>
      beforeSub '\'' '>' (((a.repr.split '[').headD []).split '.' |>.getLastD [])  -- lines 159-162

/-- `_get_module`, `/repo/jsons/_common_impl.py` lines 166-170;
`str.__class__.__module__` is `builtins`. -/
def getModule (a : ClsAttrs) : Option PyStr :=
  match truthyStr a.module with
  | some m => if m ≠ "builtins".toList then some m else none
  | none => none

/-- `get_class_name`, `/repo/jsons/_common_impl.py` lines 46-74. -/
def getClassName (a : ClsAttrs) (transformer : PyStr → PyStr) (full : Bool) : PyStr :=
  let special : Option PyStr :=                                -- lines 72-74
    if a.qualname = some "NewType.<locals>.new_type".toList then truthyStr a.name else none
  match special with
  | some n => transformer n                                    -- line 62
  | none =>
    let n := getSimpleName a                                   -- line 63
    let n := match full, getModule a with                      -- lines 64-67
      | true, some m => m ++ '.' :: n
      | _, _ => n
    transformer n                                              -- line 68

/-- The classes of a program: their attributes; `issubclass(get_naked_class(a), b)`
(`none` for a `TypeError` or `AttributeError`, which `_get_parents` ignores); the
`__supertype__` of a `NewType`. -/
structure World (C : Type) where
  attrs : C → ClsAttrs
  sub : C → C → Option Bool
  supertype : C → Option C

variable {F C : Type}

/-- `get_class_name(cls, fully_qualified=True).lower()`,
`/repo/jsons/_lizers_impl.py` lines 43-44. -/
def World.regName (W : World C) (c : C) : PyStr := (getClassName (W.attrs c) id true).lower

/-- `get_class_name(cls, str.lower, fully_qualified=True)`,
`/repo/jsons/_lizers_impl.py` lines 121, 138. -/
def World.lookupName (W : World C) (c : C) : PyStr := getClassName (W.attrs c) PyStr.lower true

/-! ## One registry -/

/-- A registry: the list of classes (`_classes_serializers`, ...) and the dict
from names to functions (`_serializers`, ...).  The dict is only read and written
by key, so it is a function; registered functions are truthy. -/
structure Table (F C : Type) where
  classes : List C
  lizers : PyStr → Option F

/-- The empty registry, `/repo/jsons/_common_impl.py` lines 28-33. -/
def Table.empty : Table F C := ⟨[], fun _ => none⟩

/-- `dict[key] = value`. -/
def update {V : Type} (d : PyStr → Option V) (k : PyStr) (v : V) : PyStr → Option V :=
  fun k' => if k' = k then some v else d k'

/-- `set_serializer` / `set_deserializer` for one class or `None`,
`/repo/jsons/_lizers_impl.py` lines 40-46 and 76-82. -/
def setLizer1 (W : World C) (f : F) (highPrio : Bool) (t : Table F C) : Option C → Table F C
  | some c =>
    { classes := if highPrio then c :: t.classes else t.classes ++ [c]    -- lines 41-42
      lizers := update t.lizers (W.regName c) f }                        -- lines 43-44
  | none => { t with lizers := update t.lizers "nonetype".toList f }      -- line 46

/-- `set_serializer` / `set_deserializer`, `/repo/jsons/_lizers_impl.py` lines
37-46 and 73-82.  A single class is the list of length one; sequences within
sequences are not modelled. -/
def setLizer (W : World C) (f : F) (cls : List (Option C)) (highPrio : Bool) (t : Table F C) :
    Table F C :=
  cls.foldl (setLizer1 W f highPrio) t

/-- `set_validator`, `/repo/jsons/_validation.py` lines 29-35. -/
def setVal (W : World C) (f : F) (cls : List C) (t : Table F C) : Table F C :=
  cls.foldl (fun t c => ⟨t.classes ++ [c], update t.lizers (W.regName c) f⟩) t

/-- `_get_parents`, `/repo/jsons/_lizers_impl.py` lines 143-159. -/
def getParents (W : World C) (c : C) (classes : List C) : List C :=
  classes.filter fun p => W.sub c p == some true

/-- `_get_lizer_by_parents`, `/repo/jsons/_lizers_impl.py` lines 130-140; a missing
name is a `KeyError` (line 139). -/
def getLizerByParents (W : World C) (t : Table F C) (c : C) : Except ErrKind (Option F) :=
  match getParents W c t.classes with
  | [] => .ok none
  | p :: _ => match t.lizers (W.lookupName p) with
    | some f => .ok (some f)
    | none => .error .keyError

/-- `_get_lizer` with `recursive=True`, `/repo/jsons/_lizers_impl.py` lines
121-123, 127. -/
def getLizerRec (W : World C) (t : Table F C) (c : C) : Except ErrKind (Option F) :=
  match t.lizers (W.lookupName c) with                         -- line 122
  | some f => .ok (some f)
  | none => getLizerByParents W t c                            -- line 123

/-- `_get_lizer`, `/repo/jsons/_lizers_impl.py` lines 115-127. -/
def getLizer (W : World C) (t : Table F C) (c : C) : Except ErrKind (Option F) :=
  match getLizerRec W t c with
  | .ok none => match W.supertype c with                       -- line 124
    | some s => getLizerRec W t s                              -- line 125
    | none => .ok none
  | r => r

/-! ## Forks -/

/-- A class that holds the state: `StateHolder`, a fork, or a class derived from
one of them.  The containers are references.  A derived class that does not define
an attribute finds that of its base class; as no container attribute is rebound to
another object after the class was made, the references are resolved when the
class is made.  `flag` is the class's own `_suppress_warnings`, if it has one.
Classes with several such bases are not modelled. -/
structure Holder where
  parent : Option Nat
  ser : Nat
  deser : Nat
  val : Nat
  ann : Nat
  sup : Nat
  flag : Option Bool

/-- The dict `_announced_classes`, which has classes and names as keys. -/
structure Ann (C : Type) where
  byName : PyStr → Option C
  byCls : C → Option PyStr

/-- All state holders and the containers they refer to. -/
structure Heap (F C : Type) where
  holders : List Holder
  sers : List (Table F C)
  desers : List (Table F C)
  vals : List (Table F C)
  anns : List (Ann C)
  sups : List (List PyStr)

/-- `StateHolder` alone, `/repo/jsons/_common_impl.py` lines 23-36. -/
def Heap.init : Heap F C where
  holders := [⟨none, 0, 0, 0, 0, 0, some false⟩]
  sers := [Table.empty]
  desers := [Table.empty]
  vals := [Table.empty]
  anns := [⟨fun _ => none, fun _ => none⟩]
  sups := [[]]

/-- What a program can do to the state holders; the number is the holder
(`fork_inst`). -/
inductive Op (F C : Type) where
  | setSer (f : F) (cls : List (Option C)) (highPrio : Bool) (i : Nat)
  | setDeser (f : F) (cls : List (Option C)) (highPrio : Bool) (i : Nat)
  | setVal (f : F) (cls : List C) (i : Nat)
  | announce (c : C) (name : PyStr) (i : Nat)
  | suppressWarnings (flag : Bool) (i : Nat)
  | suppressWarning (code : PyStr) (i : Nat)
  | fork (i : Nat)
  | subclass (i : Nat)

/-- The holder on which an operation works. -/
def Op.target : Op F C → Nat
  | .setSer _ _ _ i | .setDeser _ _ _ i | .setVal _ _ i | .announce _ _ i
  | .suppressWarnings _ i | .suppressWarning _ i | .fork i | .subclass i => i

/-- `fork`, `/repo/jsons/_fork_impl.py` lines 22-38: the serializers, the
deserializers and the suppressed warnings are copied, the flag is made an attribute
of the new class; validators and announced classes are inherited.  Names and the
counter are not modelled. -/
def forkOp (h : Heap F C) (x : Holder) (i : Nat) (flag : Bool) : Heap F C :=
  { h with
    holders := h.holders ++ [⟨some i, h.sers.length, h.desers.length, x.val, x.ann,
      h.sups.length, some flag⟩]
    sers := h.sers ++ [h.sers.getD x.ser Table.empty]                     -- lines 31, 33
    desers := h.desers ++ [h.desers.getD x.deser Table.empty]             -- lines 32, 34
    sups := h.sups ++ [h.sups.getD x.sup []] }                            -- line 37

/-- `cls._suppress_warnings` with Python's attribute lookup along the base
classes. -/
def flagOf (hs : List Holder) : Nat → Nat → Bool
  | 0, _ => false
  | n + 1, i => match hs[i]? with
    | none => false
    | some x => match x.flag with
      | some b => b
      | none => match x.parent with
        | some p => flagOf hs n p
        | none => false

/-- The value of the flag for a holder. -/
def Heap.flag (h : Heap F C) (i : Nat) : Bool := flagOf h.holders h.holders.length i

/-- One operation; on a holder that does not exist nothing happens. -/
def step (W : World C) [DecidableEq C] (h : Heap F C) (op : Op F C) : Heap F C :=
  match h.holders[op.target]? with
  | none => h
  | some x => match op with
    | .setSer f cls hp _ =>
      { h with sers := h.sers.modify x.ser (setLizer W f cls hp) }
    | .setDeser f cls hp _ =>
      { h with desers := h.desers.modify x.deser (setLizer W f cls hp) }
    | .setVal f cls _ =>
      { h with vals := h.vals.modify x.val (setVal W f cls) }
    | .announce c name _ =>                          -- `_extra_impl.py` lines 52-53
      { h with anns := h.anns.modify x.ann fun a =>
          ⟨update a.byName name c, fun c' => if c' = c then some name else a.byCls c'⟩ }
    | .suppressWarnings flag i =>                    -- `_extra_impl.py` line 22
      { h with holders := h.holders.set i { x with flag := some flag } }
    | .suppressWarning code _ =>                     -- `_extra_impl.py` line 35
      { h with sups := h.sups.modify x.sup fun s => code :: s }
    | .fork i => forkOp h x i (h.flag i)
    | .subclass i => { h with holders := h.holders ++ [{ x with parent := some i, flag := none }] }

/-- A history of operations. -/
def run (W : World C) [DecidableEq C] (h : Heap F C) (ops : List (Op F C)) : Heap F C :=
  ops.foldl (step W) h

/-! ## Looking things up -/

/-- `get_serializer`, `/repo/jsons/_lizers_impl.py` lines 86-97. -/
def getSer (W : World C) (h : Heap F C) (i : Nat) (c : C) : Except ErrKind (Option F) :=
  match h.holders[i]? with
  | some x => getLizer W (h.sers.getD x.ser Table.empty) c
  | none => .ok none

/-- `get_deserializer`, `/repo/jsons/_lizers_impl.py` lines 101-112. -/
def getDeser (W : World C) (h : Heap F C) (i : Nat) (c : C) : Except ErrKind (Option F) :=
  match h.holders[i]? with
  | some x => getLizer W (h.desers.getD x.deser Table.empty) c
  | none => .ok none

/-- `get_validator`, `/repo/jsons/_validation.py` lines 39-49. -/
def getVal (W : World C) (h : Heap F C) (i : Nat) (c : C) : Except ErrKind (Option F) :=
  match h.holders[i]? with
  | some x => getLizer W (h.vals.getD x.val Table.empty) c
  | none => .ok none

/-- `fork_inst._announced_classes.get(cls_str)`,
`/repo/jsons/_common_impl.py` line 144. -/
def announced (h : Heap F C) (i : Nat) (name : PyStr) : Option C :=
  match h.holders[i]? with
  | some x => (h.anns[x.ann]?).bind fun a => a.byName name
  | none => none

/-- Whether `fork_inst._warn(msg, code)` emits a warning,
`/repo/jsons/_common_impl.py` lines 39-43. -/
def warns (h : Heap F C) (i : Nat) (code : PyStr) : Bool :=
  match h.holders[i]? with
  | some x => !(h.flag i) && !((h.sups.getD x.sup []).contains code)
  | none => false

/-! ## Classes from strings -/

/-- The modules of a program: `getattr(builtins, name, None)`; `import_module(name)`
with the attributes of the module (`none` if that raises one of the exceptions that are
caught, as it does for the empty name); `origin[args]`. -/
structure Modules (C : Type) where
  builtin : PyStr → Option C
  importModule : PyStr → Option (PyStr → Option C)
  subscript : C → List C → Except ErrKind C

/-- `'.'.join(ws)`. -/
def joinDots : List PyStr → PyStr
  | [] => []
  | [w] => w
  | w :: ws => w ++ '.' :: joinDots ws

/-- The body of the `try` of `get_cls_from_str`, `/repo/jsons/_common_impl.py` lines
84-88: `none` for an exception that is caught. -/
def Modules.imported (M : Modules C) (s : PyStr) : Option C :=
  let splitted := s.split '.'                                  -- line 84
  let moduleName := joinDots splitted.dropLast                 -- line 85
  let clsName := splitted.getLastD []                          -- line 86
  (M.importModule moduleName).bind fun attrs => attrs clsName  -- lines 87-88

/-- `s.strip()` for blanks. -/
def strip (s : PyStr) : PyStr :=
  ((s.dropWhile (· == ' ')).reverse.dropWhile (· == ' ')).reverse

/-- `get_cls_from_str` for a name without brackets,
`/repo/jsons/_common_impl.py` lines 78-80, 83-91 and 140-149. -/
def getClsPlain (M : Modules C) (h : Heap F C) (i : Nat) (s : PyStr) : Except ErrKind C :=
  match M.builtin s with                                       -- line 78
  | some c => .ok c
  | none => match M.imported s with                            -- lines 84-88
    | some c => .ok c
    | none => match announced h i s with                       -- line 90
      | some c => .ok c
      | none => .error .unknownClass

/-- `get_cls_from_str` and `_get_generic_cls_from_str`,
`/repo/jsons/_common_impl.py` lines 77-101.  `a, b = s.split('[')` is a
`ValueError` unless there is exactly one bracket. -/
def getClsFromStr (M : Modules C) (h : Heap F C) (i : Nat) (s : PyStr) : Except ErrKind C :=
  match M.builtin s with
  | some c => .ok c
  | none =>
    if '[' ∈ s ∧ ']' ∈ s then
      match s.split '[' with                                   -- line 96
      | [originStr, subStr] => do
        let origin ← getClsPlain M h i originStr               -- line 98
        let subs ← (PyStr.split ',' subStr.dropLast).mapM fun x => getClsPlain M h i (strip x)
        M.subscript origin subs                                -- line 101
      | _ => .error .valueError
    else getClsPlain M h i s

end Verif.Registry
