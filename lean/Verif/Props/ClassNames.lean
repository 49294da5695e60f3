import Verif.Py.StrLemmas
import Verif.Props.Registry
import Verif.Core.LoadDemo

/-!
# Properties of the names of classes

C81.
-/

set_option autoImplicit false

namespace Verif.Props.ClassNames
open Verif Verif.Registry

variable {F C : Type}

/-! ## Specification -/

/-- A class with the given module and name that was made with a `class` statement: it has
these as `__module__` and `__name__`, and its `__qualname__` is not that of a `NewType`.
Names are not empty and have no dots or brackets. -/
structure Named (a : ClsAttrs) (m n : PyStr) : Prop where
  module : a.module = some m
  name : a.name = some n
  qualname : a.qualname ≠ some "NewType.<locals>.new_type".toList
  module_ne : m ≠ []
  name_ne : n ≠ []
  noDot : '.' ∉ n
  noBracket : '[' ∉ m ++ n

/-- The class is what its module has under its name. -/
def InModule (M : Modules C) (c : C) (m n : PyStr) : Prop :=
  ∃ attrs, M.importModule m = some attrs ∧ attrs n = some c

/-- What a name with a dot is not: the name of an attribute of `builtins`. -/
def NoDottedBuiltins (M : Modules C) : Prop := ∀ s, '.' ∈ s → M.builtin s = none

/-! ## Lemmas -/

theorem joinDots_cons {w : PyStr} {ws : List PyStr} (h : ws ≠ []) :
    joinDots (w :: ws) = w ++ '.' :: joinDots ws := by
  cases ws with
  | nil => exact absurd rfl h
  | cons => rfl

theorem joinDots_split (s : PyStr) : joinDots (s.split '.') = s := by
  induction s with
  | nil => rfl
  | cons c s ih =>
    unfold PyStr.split
    split
    · next h =>
      rw [joinDots_cons (PyStr.split_ne_nil _ _), ih, h]
      rfl
    · cases hs : PyStr.split '.' s with
      | nil => exact absurd hs (PyStr.split_ne_nil _ _)
      | cons w ws =>
        rw [hs] at ih
        cases ws with
        | nil => simp only [joinDots] at ih ⊢; rw [ih]
        | cons w' ws =>
          simp only [joinDots, List.cons_append] at ih ⊢
          rw [ih]

theorem split_snoc (s n : PyStr) (h : '.' ∉ n) :
    (s ++ '.' :: n).split '.' = s.split '.' ++ [n] := by
  induction s with
  | nil =>
    rw [List.nil_append]
    unfold PyStr.split
    rw [if_pos rfl, PyStr.split_of_not_mem h]
    rfl
  | cons c s ih =>
    rw [List.cons_append]
    unfold PyStr.split
    rw [ih]
    split
    · rfl
    · cases hs : PyStr.split '.' s with
      | nil => exact absurd hs (PyStr.split_ne_nil _ _)
      | cons w ws => rfl

theorem imported_eq (M : Modules C) (m n : PyStr) (h : '.' ∉ n) :
    M.imported (m ++ '.' :: n) = (M.importModule m).bind fun attrs => attrs n := by
  unfold Modules.imported
  simp only [split_snoc m n h, List.dropLast_concat, joinDots_split, List.getLastD_concat]

theorem truthy_of_ne {s : PyStr} (h : s ≠ []) : truthyStr (some s) = some s := by
  cases s with
  | nil => exact absurd rfl h
  | cons => rfl

theorem className_eq {a : ClsAttrs} {m n : PyStr} (h : Named a m n) (hm : m ≠ "builtins".toList) :
    getClassName a id true = m ++ '.' :: n := by
  unfold getClassName getSimpleName getModule
  simp only [if_neg h.qualname, h.name, h.module, truthy_of_ne h.name_ne, truthy_of_ne h.module_ne,
    ne_eq, hm, not_false_eq_true, if_true, id]

theorem className_builtin {a : ClsAttrs} {n : PyStr} (h : Named a "builtins".toList n) :
    getClassName a id true = n := by
  unfold getClassName getSimpleName getModule
  simp only [if_neg h.qualname, h.name, h.module, truthy_of_ne h.name_ne,
    truthy_of_ne h.module_ne, ne_eq, not_true_eq_false, if_false, id]

theorem noBracket_name {a : ClsAttrs} {m n : PyStr} (h : Named a m n) : '[' ∉ m ++ '.' :: n := by
  have := h.noBracket
  simp only [List.mem_append, List.mem_cons, not_or] at this ⊢
  exact ⟨this.1, by decide, this.2⟩

/-! ## The theorems -/

/-- C81, for the classes that are found in their modules: the name that a verbose dump
writes for the class is one with which `load` finds the class again, in every state of
the registries and from every fork. -/
theorem module_class_found (W : World C) (M : Modules C) (h : Heap F C) (i : Nat) (c : C)
    (m n : PyStr) (hn : Named (W.attrs c) m n) (hb : NoDottedBuiltins M)
    (hc : if m = "builtins".toList then M.builtin n = some c else InModule M c m n) :
    getClsFromStr M h i (getClassName (W.attrs c) id true) = .ok c := by
  split at hc
  · next hm =>
    subst hm
    rw [className_builtin hn]
    unfold getClsFromStr
    simp only [hc]
  · next hm =>
    obtain ⟨attrs, h1, h2⟩ := hc
    rw [className_eq hn hm]
    unfold getClsFromStr getClsPlain
    simp only [hb (m ++ '.' :: n) (by simp), noBracket_name hn, false_and, if_false,
      imported_eq M m n hn.noDot, h1, Option.bind_some, h2]

/-- C81, for the classes that are not found in their modules (they are defined in a
function or in another class): after the class was announced under its name, as every
dump does, it is found under the name until a class with the same module and name is
announced. -/
theorem local_class_found_partial [DecidableEq C] (W : World C) (M : Modules C)
    (pre post : List (Op F C)) (i j : Nat) (c : C) (m n : PyStr)
    (hn : Named (W.attrs c) m n) (hm : m ≠ "builtins".toList) (hb : NoDottedBuiltins M)
    (hc : ∀ attrs, M.importModule m = some attrs → attrs n = none)
    (hi : i < (Registry.owners pre).length)
    (hj : j < (Registry.owners (pre ++ .announce c (getClassName (W.attrs c) id true) i :: post)).length)
    (hpost : ∀ op ∈ post, ∀ c' k, op ≠ .announce c' (getClassName (W.attrs c) id true) k) :
    getClsFromStr M (run W Heap.init
      (pre ++ .announce c (getClassName (W.attrs c) id true) i :: post)) j
      (getClassName (W.attrs c) id true) = .ok c := by
  refine Registry.announced_class_found_partial W M pre post c _ i j hi hj ?_ ?_ ?_ hpost
  · rw [className_eq hn hm]; exact hb _ (by simp)
  · rw [className_eq hn hm, imported_eq M m n hn.noDot]
    cases h : M.importModule m with
    | none => rfl
    | some attrs => exact hc attrs h
  · rw [className_eq hn hm]; exact fun h => noBracket_name hn h.1

/-- C81 is not true of a class in another class (or in a function) if its module has a
class with the same name: the name leads to that one, whatever was announced. -/
theorem nested_class_mistaken (W : World C) (M : Modules C) (h : Heap F C) (i : Nat) (c c' : C)
    (m n : PyStr) (hn : Named (W.attrs c) m n) (hm : m ≠ "builtins".toList) (hb : NoDottedBuiltins M)
    (hc : InModule M c' m n) :
    getClsFromStr M h i (getClassName (W.attrs c) id true) = .ok c' := by
  obtain ⟨attrs, h1, h2⟩ := hc
  rw [className_eq hn hm]
  unfold getClsFromStr getClsPlain
  simp only [hb (m ++ '.' :: n) (by simp), noBracket_name hn, false_and, if_false,
    imported_eq M m n hn.noDot, h1, Option.bind_some, h2]

/-! ## Examples -/

/-- Classes of a program: `int`, the class `Dog` of the module `pets`, and the classes `Dog`
and `Flea` in other classes of that module. -/
inductive Ex where
  | int | dog | innerDog | flea
  deriving DecidableEq

/-- Their attributes; the `__name__` of a class in a class is the same as that of one in
the module. -/
def exWorld : World Ex where
  attrs := fun c => match c with
    | .int => ⟨some "int".toList, some "int".toList, none, "<class 'int'>".toList, some "builtins".toList⟩
    | .dog => ⟨some "Dog".toList, some "Dog".toList, none, "<class 'pets.Dog'>".toList, some "pets".toList⟩
    | .innerDog => ⟨some "Hot.Dog".toList, some "Dog".toList, none, "<class 'pets.Hot.Dog'>".toList,
        some "pets".toList⟩
    | .flea => ⟨some "Dog.Flea".toList, some "Flea".toList, none, "<class 'pets.Dog.Flea'>".toList,
        some "pets".toList⟩
  sub := fun _ _ => some false
  supertype := fun _ => none

/-- Their modules. -/
def exModules : Modules Ex where
  builtin := fun s => if s = "int".toList then some .int else none
  importModule := fun m => if m = "pets".toList then
    some (fun n => if n = "Dog".toList then some .dog else none) else none
  subscript := fun c _ => .ok c

theorem ex_noDotted : NoDottedBuiltins exModules := by
  intro s hs
  show (if s = "int".toList then some Ex.int else none) = none
  rw [if_neg]
  rintro rfl
  exact absurd hs (by decide)

example (h : Heap Nat Ex) (i : Nat) :
    getClsFromStr exModules h i (getClassName (exWorld.attrs .dog) id true) = .ok .dog ∧
    getClsFromStr exModules h i (getClassName (exWorld.attrs .int) id true) = .ok .int ∧
    getClsFromStr exModules h i (getClassName (exWorld.attrs .innerDog) id true) = .ok .dog := by
  refine ⟨?_, ?_, ?_⟩
  · exact module_class_found exWorld exModules h i .dog "pets".toList "Dog".toList
      ⟨rfl, rfl, by decide, by decide, by decide, by decide, by decide⟩ ex_noDotted
      (by rw [if_neg (by decide)]; exact ⟨_, rfl, rfl⟩)
  · exact module_class_found exWorld exModules h i .int "builtins".toList "int".toList
      ⟨rfl, rfl, by decide, by decide, by decide, by decide, by decide⟩ ex_noDotted
      (by rw [if_pos rfl]; rfl)
  · exact nested_class_mistaken exWorld exModules h i .innerDog .dog "pets".toList "Dog".toList
      ⟨rfl, rfl, by decide, by decide, by decide, by decide, by decide⟩ (by decide) ex_noDotted
      ⟨_, rfl, rfl⟩

example : getClsFromStr exModules (run (F := Nat) exWorld Heap.init
      [.fork 0, .announce .flea (getClassName (exWorld.attrs .flea) id true) 1, .fork 1]) 2
      (getClassName (exWorld.attrs .flea) id true) = .ok .flea ∧
    getClassName (exWorld.attrs .flea) id true = "pets.Flea".toList := by
  refine ⟨?_, rfl⟩
  exact local_class_found_partial exWorld exModules [.fork 0] [.fork 1] 1 2 .flea "pets".toList
    "Flea".toList ⟨rfl, rfl, by decide, by decide, by decide, by decide, by decide⟩ (by decide)
    ex_noDotted (by intro attrs h; cases h; rfl) (by decide) (by decide) (by simp)

/-! ## The consequence for dump and load -/

open Verif.Core

/-- Two classes with the same name, one of them in another class: their attributes are
what `get_class_name` looks at. -/
def twoInfo : Nat → ClassInfo
  | 0 => { attrs := mainAttrs "Point" }
  | _ => { attrs := { mainAttrs "Point" with qualname := some "Outer.Point".toList } }

/-- The modules of a program with these classes: `__main__.Point` is the first one. -/
def twoModules : Modules Ty where
  builtin := fun _ => none
  importModule := fun m => if m = "__main__".toList then
    some (fun n => if n = "Point".toList then some (.cls (.user 0)) else none) else none
  subscript := fun c _ => .ok c

/-- The surroundings with the model of `get_cls_from_str` for the state `h`. -/
def twoEnv (h : Heap DesFn Ty) : LEnv := { demoLEnv twoInfo with
  clsFromStr := fun i s => getClsFromStr twoModules h i s }

/-- C81 fails for dump and load as well: an object of a class in another class is loaded
from its verbose dump as an object of the class of the module that has the same name,
whatever classes were announced. -/
theorem nested_class_round_trip_fails (h : Heap DesFn Ty) : ∃ j,
    (dump (twoEnv h).toEnv 5 (.obj 1 []) none { verbose := { classInfo := true } }).val = .ok j ∧
    (load (twoEnv h) 5 j none {}).val = .ok (.obj 0 []) := by
  refine ⟨.dict [(.str metaKey, .dict [(.str "classes".toList, .dict [(.str "/".toList,
    .str "__main__.Point".toList)])])], by rfl, by rfl⟩

end Verif.Props.ClassNames
