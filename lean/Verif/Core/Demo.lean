import Verif.Core.DispatchLemmas
import Verif.Core.Json

/-!
# Surroundings for examples and counterexamples
-/

set_option autoImplicit false

namespace Verif.Core
open Verif Verif.Datetime

/-- The surroundings of a program with the given classes after `import jsons`, in
Python 3.10 with the local time zone UTC; every property returns the object itself. -/
def demoEnv (info : Nat → ClassInfo) : Env where
  info := info
  sers := fun _ => initialSers info
  warns := fun _ _ => true
  R := Rounding.exact
  localTz := Tz.utc
  pad := true
  now := "2024-01-01T00:00:00Z".toList
  prop := fun _ _ v => .ok v
  strOther := fun _ => "?".toList
  intOther := fun _ => .error .typeError
  floatOther := fun _ => .error .valueError
  hash := fun _ => 7
  getTypeOther := fun v => .cls v.cls
  typeName := fun _ => "?".toList
  attrOther := fun _ _ => .error { kind := .attributeError }
  foreignAttrs := fun _ _ _ => .ok []
  customSer := fun _ _ _ _ _ => Res.raise { kind := .other }

/-- The attributes of a class of the program. -/
def mainAttrs (name : String) : Registry.ClsAttrs := pyAttrs "__main__" name

/-- Some classes: `Point` (`x`, `y`), `Pair` (a named tuple), `Color` (an enum),
`Level` (an `IntEnum`), `Node` (with a property `me`), `Person` (`name`, `born`), and
one without anything. -/
def demoInfo : Nat → ClassInfo
  | 0 => { attrs := mainAttrs "Point"
           hints := [("x".toList, .cls .int), ("y".toList, .cls .int)]
           initHints := [("x".toList, .cls .int), ("y".toList, .cls .int)]
           params := [{ name := "x".toList }, { name := "y".toList, default := some (.int 0) }] }
  | 1 => { attrs := mainAttrs "Pair", kind := .ntuple, fields := ["first".toList, "second".toList] }
  | 2 => { attrs := mainAttrs "Color", kind := .enum false
           enumMembers := [("RED".toList, .int 1), ("GREEN".toList, .set [.int 2])] }
  | 3 => { attrs := mainAttrs "Level", kind := .enum true
           enumMembers := [("LOW".toList, .int 1), ("HIGH".toList, .int 2)] }
  | 4 => { attrs := mainAttrs "Node", members := [("me".toList, .prop)] }
  | 5 => { attrs := mainAttrs "Person"
           params := [{ name := "name".toList }, { name := "born".toList }] }
  | _ => { attrs := mainAttrs "Other" }

theorem demo_names : NamesOk demoInfo serNames := by
  intro c
  match c with
  | 0 | 1 | 2 | 3 | 4 | 5 => decide
  | n + 6 =>
    have : (demoInfo (n + 6)).attrs = mainAttrs "Other" := rfl
    rw [this]
    decide

theorem demo_sers (fork : Nat) : DefaultSers (demoEnv demoInfo) fork :=
  fun t => getLizer_serFn demoInfo demo_names t

/-- `[1, 'a', {'k': None}]` -/
example : (dump (demoEnv demoInfo) 6 (.list [.int 1, .str "a".toList, .dict [(.str "k".toList, .none)]])
    none {}).val = .ok (.list [.int 1, .str "a".toList, .dict [(.str "k".toList, .none)]]) := by rfl

/-- `Point(1, 2)` -/
example : (dump (demoEnv demoInfo) 6 (.obj 0 [("x".toList, .int 1), ("y".toList, .int 2)])
    none {}).val = .ok (.dict [(.str "x".toList, .int 1), (.str "y".toList, .int 2)]) := by rfl

/-- `Node()` -/
example : (dump (demoEnv demoInfo) 4 (.obj 4 [])
    none {}).val = .ok (.dict [(.str "me".toList, .dict [(.str "me".toList, .dict [])])]) := by rfl

end Verif.Core
