import Verif.Core.LoadLemmas
import Verif.Core.LoadDemo

/-!
# Which deserializer is used

C82.
-/

set_option autoImplicit false

namespace Verif.Props.LoadDispatch
open Verif Verif.Core Verif.Registry

/-- C82: after `import jsons` the lookup finds for every type the deserializer that the
specification `Ty.desFn` names, if the classes of the program are not called like one of
the registered classes. -/
theorem default_deserializer (info : Nat → ClassInfo) (hn : NamesOk info desNames) (t : Ty) :
    getLizer (tyWorld info) (initialDesers info) t = .ok (t.desFn info) :=
  getLizer_desFn info hn t

/-- A member of an `IntEnum` is loaded as an enum, not as an int; a named tuple as a tuple;
a `defaultdict` as such; a `Deque` as an iterable; a `NewType` as its supertype; `Any` not
at all. -/
example (n : PyStr) :
    (Ty.cls (.user 3)).desFn demoInfo = some .enum ∧
    (Ty.cls (.user 1)).desFn demoInfo = some .tuple ∧
    (Ty.gen .defaultdict [.cls .str, .cls .int]).desFn demoInfo = some .defaultdict ∧
    (Ty.cls .deque).desFn demoInfo = some .iterable ∧
    (Ty.newtype n (.cls .int)).desFn demoInfo = some .primitive ∧
    Ty.any.desFn demoInfo = none := ⟨rfl, rfl, rfl, rfl, rfl, rfl⟩

/-- The example meets the condition on the names. -/
example (t : Ty) : getLizer (tyWorld demoInfo) (initialDesers demoInfo) t = .ok (t.desFn demoInfo) :=
  default_deserializer demoInfo demo_desNames t

/-- The condition on the names is needed: a class of the program that is called `Date` in a
module called `DateTime` is loaded as a date. -/
theorem default_deserializer_collision : ∃ (info : Nat → ClassInfo) (t : Ty),
    getLizer (tyWorld info) (initialDesers info) t ≠ .ok (t.desFn info) :=
  ⟨fun _ => { attrs := pyAttrs "DateTime" "Date" }, .cls (.user 0), by
    have : getLizer (tyWorld fun _ => { attrs := pyAttrs "DateTime" "Date" })
      (initialDesers fun _ => { attrs := pyAttrs "DateTime" "Date" }) (.cls (.user 0))
        = .ok (some .date) := by rfl
    rw [this]
    simp [Ty.desFn, Cls.desFn]⟩

/-- A `NewType` of a `NewType` is the exception: nothing at all can be loaded with it, not
even what can be loaded with the `NewType` that it is made of. -/
theorem newtype_of_newtype (E : LEnv) (fork : Nat) (hd : DefaultDesers E fork) (n : Nat) (a b : PyStr)
    (t : Ty) (v : Val) (kw : LoadKw) (hk : kw.fork = fork) (hi : kw.inferred = false)
    (hm : NoMeta v) (hu : canMatchWithNone E (some (.newtype a (.newtype b t))) = .ok false) :
    ∃ e, (load E (n + 1) v (some (.newtype a (.newtype b t))) kw).val = .error e ∧
      e.kind = .deserializationError := by
  by_cases h0 : v = .none
  · subst h0
    rw [load_succ]
    unfold loadWith checkForNone
    rw [if_pos rfl, hu]
    exact ⟨_, rfl, rfl⟩
  · have hs : ¬ Skips v (some (.newtype a (.newtype b t))) kw := by
      rintro (⟨_, h⟩ | h) <;> cases h
    by_cases h1 : v.cls ∈ validTypes
    · rw [load_enter (fun h => absurd h h0) hs h1 (noMeta_get hm _) (hk ▸ hd),
        target_explicit (.inl hi)]
      exact ⟨_, rfl, rfl⟩
    · rw [load_from (fun h => absurd h h0) hs]
      unfold loadFrom
      rw [if_pos h1]
      exact ⟨_, rfl, rfl⟩

example : (∃ e, (load (demoLEnv demoInfo) 5 (.int 1)
      (some (.newtype "A".toList (.newtype "B".toList (.cls .str)))) {}).val = .error e ∧
      e.kind = .deserializationError) ∧
    (load (demoLEnv demoInfo) 5 (.str "x".toList) (some (.newtype "B".toList (.cls .str))) {}).val
      = .ok (.str "x".toList) := by
  refine ⟨?_, by rfl⟩
  exact newtype_of_newtype _ 0 (demo_desers 0) 4 _ _ _ _ _ rfl rfl (by intro es h; cases h) (by rfl)

end Verif.Props.LoadDispatch
