import Verif.Core.LoadDispatch
import Verif.Core.Demo

/-!
# Surroundings of `load` for examples and counterexamples
-/

set_option autoImplicit false

namespace Verif.Core
open Verif Verif.Datetime

/-- The surroundings of a program with the given classes after `import jsons`: a
constructor stores its arguments as attributes, attributes can be set, and texts of
paths and of UUIDs are taken as they are; the class names are those of the first two
classes of `demoInfo` and the ones of some built-in classes. -/
def demoLEnv (info : Nat → ClassInfo) : LEnv where
  toEnv := demoEnv info
  desers := fun _ => initialDesers info
  vals := fun _ => Registry.Table.empty
  validator := fun _ _ => .ok true
  clsFromStr := fun _ s =>
    if s = "__main__.Point".toList then .ok (.cls (.user 0))
    else if s = "__main__.Person".toList then .ok (.cls (.user 5))
    else if s = "int".toList then .ok (.cls .int)
    else if s = "str".toList then .ok (.cls .str)
    else if s = "datetime.datetime".toList then .ok (.cls .datetime)
    else .error .unknownClass
  construct := fun _ args => .ok args
  setAttr := fun _ as n v => .ok (assocSet as n v)
  uuidOf := fun v => match v with | .str s => .ok s | _ => .error .attributeError
  decimalOf := fun v => match v with | .str s => .ok s | _ => .error .typeError
  pathOf := fun v => match v with | .str s => .ok s | _ => .error .typeError
  zoneOf := fun v => match v with | .str s => .ok s | _ => .error .typeError
  foreignDes := fun _ _ _ _ => Res.raise { kind := .typeError }
  customDes := fun _ _ _ _ _ => Res.raise { kind := .other }

theorem demo_desNames : NamesOk demoInfo desNames := by
  intro c
  match c with
  | 0 | 1 | 2 | 3 | 4 | 5 => decide
  | n + 6 =>
    have : (demoInfo (n + 6)).attrs = mainAttrs "Other" := rfl
    rw [this]
    decide

theorem demo_desers (fork : Nat) : DefaultDesers (demoLEnv demoInfo) fork :=
  fun t => getLizer_desFn demoInfo demo_desNames t

theorem demo_novals (fork : Nat) : NoValidators (demoLEnv demoInfo) fork :=
  fun t => getLizer_empty demoInfo t

/-- `[1, 'a', {'k': None}]` without a class -/
example : (load (demoLEnv demoInfo) 6 (.list [.int 1, .str "a".toList, .dict [(.str "k".toList, .none)]])
    none {}).val = .ok (.list [.int 1, .str "a".toList, .dict [(.str "k".toList, .none)]]) := by rfl

/-- `{'x': 1}` as a `Point` -/
example : (load (demoLEnv demoInfo) 6 (.dict [(.str "x".toList, .int 1)])
    (some (.cls (.user 0))) {}).val
    = .ok (.obj 0 [("x".toList, .int 1), ("y".toList, .int 0)]) := by rfl

/-- `['1', '2']` as `List[int]` -/
example : (load (demoLEnv demoInfo) 6 (.list [.str "1".toList, .str "2".toList])
    (some (.gen .list [.cls .int])) {}).val = .ok (.list [.int 1, .int 2]) := by rfl

/-- A text without a class may be a `datetime`. -/
example : (load (demoLEnv demoInfo) 6 (.str "2020-01-01T00:00:00Z".toList) none {}).val
    = .ok (.atom (.datetime ⟨2020, 1, 1, 0, 0, 0, 0, some Tz.utc⟩)) := by rfl

end Verif.Core
