import Verif.Core.LoadLemmas
import Verif.Core.LoadDemo
import Verif.Props.LoadBasics

/-! # A class that is given by its name (C97) -/

set_option autoImplicit false

namespace Verif.Props.NamedClass

open Verif Verif.Core Verif.Datetime

/-- The exact-type inputs that `load` returns as they are. -/
def Returned (v : Val) (t : Ty) (strict : Bool) : Prop := t = .any ∨ (strict = false ∧ t = .cls v.cls)

/-- C97: `load(v, 'name', **kw)` is `load(v, cls, **kw)` for the class of that name: it returns,
raises and warns of the same, unless `v` is `None` or an exact-type input. -/
theorem named_class_partial (E : LEnv) (n : Nat) (v : Val) (name : PyStr) (t : Ty) (kw : LoadKw)
    (h : E.clsFromStr kw.fork name = .ok t) (hv : v ≠ .none) (hr : ¬ Returned v t kw.strict) :
    loadByName E n v name kw = load E (n + 1) v (some t) kw := by
  have hnone : checkForNone E v (some t) = pure () := by
    unfold checkForNone
    rw [if_neg hv]
  have hskip : ¬ ((kw.strict = false ∧ some t = some (Ty.cls v.cls)) ∨ some t = some .any) := by
    rintro (⟨h1, h2⟩ | h)
    · exact hr (.inr ⟨h1, Option.some.inj h2⟩)
    · exact hr (.inl (Option.some.inj h))
  show _ = loadWith E (loadRec E n) v (some t) kw
  unfold loadWith loadByName
  rw [hnone, if_neg hv, h, pure_bind', if_neg hskip]
  rfl

/-- A `Point` by its name. -/
example : loadByName (demoLEnv demoInfo) 8 (.dict [(.str "x".toList, .int 1)]) "__main__.Point".toList {} =
    load (demoLEnv demoInfo) 9 (.dict [(.str "x".toList, .int 1)]) (some (.cls (.user 0))) {} ∧
    (loadByName (demoLEnv demoInfo) 8 (.dict [(.str "x".toList, .int 1)]) "__main__.Point".toList {}).val =
      .ok (.obj 0 [("x".toList, .int 1), ("y".toList, .int 0)]) :=
  ⟨named_class_partial _ 8 _ _ (.cls (.user 0)) {} rfl (by decide) (by unfold Returned; decide), by decide +kernel⟩

/-- C97: a name that stands for no class raises an exception that carries the document, whatever
the document and the other arguments are. -/
theorem unknown_name (E : LEnv) (n : Nat) (v : Val) (name : PyStr) (kw : LoadKw)
    (h : E.clsFromStr kw.fork name = .error .unknownClass) (hv : v ≠ .none) :
    loadByName E n v name kw = Res.raise { kind := .unknownClass, source := some v } := by
  unfold loadByName
  rw [if_neg hv, h]
  rfl

example : (loadByName (demoLEnv demoInfo) 8 (.int 5) "Nothing".toList {}).val =
    .error { kind := .unknownClass, source := some (.int 5) } := by
  rw [unknown_name _ _ _ _ _ (by decide +kernel) (by decide)]; rfl

/-- C97: `None` is refused by every name. -/
theorem none_refused (E : LEnv) (n : Nat) (name : PyStr) (kw : LoadKw) :
    ∃ e, (loadByName E n .none name kw).val = .error e ∧
      (e.kind = .deserializationError ∨ e.kind = .typeError) := by
  unfold loadByName
  rw [if_pos rfl]
  split
  · exact ⟨_, rfl, .inr rfl⟩
  · exact ⟨_, rfl, .inl rfl⟩

/-- `load(None, Optional[...])` and `load(None, NoneType)` give `None`; by their names they are refused. -/
theorem none_differs : (load (demoLEnv demoInfo) 9 .none (some (.cls .noneType)) {}).val = .ok .none ∧
    (loadByName (demoLEnv demoInfo) 8 .none "NoneType".toList {}).val =
      .error { kind := .deserializationError, source := some .none } := by
  constructor <;> decide +kernel

/-- The surroundings with the built-in class `dict`. -/
def withDict : LEnv := { demoLEnv demoInfo with
  clsFromStr := fun i s => if s = "dict".toList then .ok (.cls .dict) else (demoLEnv demoInfo).clsFromStr i s }

/-- An exact-type input is returned as it is if the class is given, but not if its name is given:
`load({'a': '2020-01-01T00:00:00Z'}, dict)` has a text in it, `load(..., 'dict')` a `datetime`. -/
theorem named_class_fails :
    (load withDict 9 (.dict [(.str "a".toList, .str "2020-01-01T00:00:00Z".toList)]) (some (.cls .dict)) {}).val =
      .ok (.dict [(.str "a".toList, .str "2020-01-01T00:00:00Z".toList)]) ∧
    (loadByName withDict 8 (.dict [(.str "a".toList, .str "2020-01-01T00:00:00Z".toList)]) "dict".toList {}).val =
      .ok (.dict [(.str "a".toList, .atom (.datetime ⟨2020, 1, 1, 0, 0, 0, 0, some Tz.utc⟩))]) := by
  constructor <;> decide +kernel

end Verif.Props.NamedClass
