import Verif.Core.Load
import Verif.Core.DispatchLemmas

/-!
# Which deserializer is found for which type

The registrations that jsons makes when it is imported, and what the lookup of
`Verif.Registry` finds with them.
-/

set_option autoImplicit false

namespace Verif.Core
open Verif Verif.Registry

/-- The calls of `set_deserializer` of `/repo/jsons/__init__.py` lines 295-314 and 321,
in order: function, classes, `high_prio`. -/
def desRegistrations : List (DesFn × List (Option Ty) × Bool) :=
  [(.list, [some (.cls .list), some (.gen .list [])], true),
   (.tuple, [some (.cls .tuple), some (.gen .tuple [])], true),
   (.union, [some (.special false), some (.special true)], true),
   (.defaultdict, [some (.gen .defaultdict [])], true),
   (.datetime, [some (.cls .datetime)], true),
   (.date, [some (.cls .date)], true),
   (.time, [some (.cls .time)], true),
   (.timezone, [some (.cls .timezone)], true),
   (.timedelta, [some (.cls .timedelta)], true),
   (.string, [some (.cls .str)], true),
   (.noneType, [some (.cls .noneType)], true),
   (.primitive, [some (.cls .int), some (.cls .float), some (.cls .bool)], true),
   (.enum, [some (.cls .enum), some (.cls .intEnum)], true),
   (.mapping, [some (.cls .mapping), some (.cls .dict), some (.gen .dict [])], false),
   (.iterable, [some (.gen .iterable [])], false),
   (.object, [some (.cls .object)], false),
   (.uuid, [some (.cls .uuid)], true),
   (.complex, [some (.cls .complex)], true),
   (.decimal, [some (.cls .decimal)], true),
   (.path, [some (.cls .path)], true),
   (.zoneinfo, [some (.cls .zoneinfo)], true)]

/-- The registry of deserializers after `import jsons`
(`/repo/jsons/__init__.py` lines 295-321). -/
def initialDesers (info : Nat → ClassInfo) : Table DesFn Ty :=
  desRegistrations.foldl (fun t r => setLizer (tyWorld info) r.1 r.2.1 r.2.2 t) Table.empty

/-! ## The specification -/

/-- The deserializer that a class should have: its own, or that of the kind of things
it is. -/
def Cls.desFn (info : Nat → ClassInfo) : Cls → DesFn
  | .noneType => .noneType
  | .bool | .int | .float => .primitive
  | .str => .string
  | .list => .list
  | .tuple => .tuple
  | .set | .frozenset | .deque | .iterable => .iterable
  | .dict | .mapping => .mapping
  | .defaultdict => .defaultdict
  | .datetime => .datetime
  | .date => .date
  | .time => .time
  | .timedelta => .timedelta
  | .timezone => .timezone
  | .uuid => .uuid
  | .decimal => .decimal
  | .complex => .complex
  | .path => .path
  | .zoneinfo => .zoneinfo
  | .object => .object
  | .enum | .intEnum => .enum
  | .user c => match (info c).kind with
    | .plain => .object
    | .ntuple => .tuple
    | .enum _ => .enum

/-- The deserializer that a type should have, if it has one: a `NewType` has that of
its supertype (if that is not a `NewType` itself); `Any` has none. -/
def Ty.desFn (info : Nat → ClassInfo) : Ty → Option DesFn
  | .cls c => some (c.desFn info)
  | .gen g _ => some (g.naked.desFn info)
  | .union _ | .special _ => some .union
  | .any => none
  | .newtype _ (.cls c) => some (c.desFn info)
  | .newtype _ (.gen g _) => some (g.naked.desFn info)
  | .newtype _ (.union _) | .newtype _ (.special _) => some .union
  | .newtype _ _ => none

/-- The names under which jsons registers deserializers. -/
def desNames : List PyStr :=
  ["list", "typing.list", "tuple", "typing.tuple", "typing.union", "typing.optional",
   "typing.defaultdict", "datetime.datetime", "datetime.date", "datetime.time",
   "datetime.timezone", "datetime.timedelta", "str", "nonetype", "int", "float", "bool",
   "enum.enum", "enum.intenum", "collections.abc.mapping", "dict", "typing.dict",
   "typing.iterable", "object", "uuid.uuid", "complex", "decimal.decimal",
   "pathlib.purepath", "zoneinfo.zoneinfo"].map String.toList

/-- In this fork, the lookup of deserializers finds those of jsons. -/
def DefaultDesers (E : LEnv) (fork : Nat) : Prop :=
  ∀ t, E.getDes fork t = .ok (t.desFn E.info)

/-- In this fork, there are no validators. -/
def NoValidators (E : LEnv) (fork : Nat) : Prop := ∀ t, E.getVal fork t = .ok none

/-! ## The lookup -/

theorem initialDesers_none (info : Nat → ClassInfo) (k : PyStr) (h : k ∉ desNames) :
    (initialDesers info).lizers k = none := by
  have aux : ∀ (rs : List (DesFn × List (Option Ty) × Bool)) (t : Table DesFn Ty),
      (∀ r ∈ rs, k ∉ r.2.1.map (tyWorld info).key) → t.lizers k = none →
      (rs.foldl (fun t r => setLizer (tyWorld info) r.1 r.2.1 r.2.2 t) t).lizers k = none := by
    intro rs
    induction rs with
    | nil => intro t _ h; exact h
    | cons r rs ih =>
      intro t hr ht
      refine ih _ (fun r' h' => hr r' (List.mem_cons_of_mem _ h')) ?_
      rw [setLizer_lizers, if_neg (hr r (List.mem_cons_self))]
      exact ht
  refine aux _ _ ?_ rfl
  have : desNames = desRegistrations.flatMap fun r => r.2.1.map (tyWorld info).key := by rfl
  rw [this] at h
  intro r hr hk
  exact h (List.mem_flatMap.2 ⟨r, hr, hk⟩)

theorem getDesRec_cls (info : Nat → ClassInfo) (hn : NamesOk info desNames) (c : Cls) :
    getLizerRec (tyWorld info) (initialDesers info) (.cls c) = .ok (some (c.desFn info)) := by
  cases c with
  | user c =>
    unfold getLizerRec
    have h : (initialDesers info).lizers ((tyWorld info).lookupName (.cls (.user c))) = none := by
      rw [lookupName_eq]
      exact initialDesers_none info _ (hn c)
    rw [h]
    simp only
    unfold getLizerByParents
    cases hk : (info c).kind with
    | plain =>
      have : getParents (tyWorld info) (.cls (.user c)) (initialDesers info).classes
          = [.cls .object] := by
        simp [getParents, initialDesers, desRegistrations, setLizer, setLizer1, tyWorld, Ty.sub, Ty.naked?, Gen.naked, Cls.sub, hk, Table.empty]
      rw [this]; simp only [Cls.desFn, hk]; rfl
    | ntuple =>
      have : getParents (tyWorld info) (.cls (.user c)) (initialDesers info).classes
          = [.gen .tuple [], .cls .tuple, .gen .iterable [], .cls .object] := by
        simp [getParents, initialDesers, desRegistrations, setLizer, setLizer1, tyWorld, Ty.sub, Ty.naked?, Gen.naked, Cls.sub, hk, Table.empty]
      rw [this]; simp only [Cls.desFn, hk]; rfl
    | enum b =>
      cases b with
      | false =>
        have : getParents (tyWorld info) (.cls (.user c)) (initialDesers info).classes
            = [.cls .enum, .cls .object] := by
          simp [getParents, initialDesers, desRegistrations, setLizer, setLizer1, tyWorld, Ty.sub, Ty.naked?, Gen.naked, Cls.sub, hk, Table.empty]
        rw [this]; simp only [Cls.desFn, hk]; rfl
      | true =>
        have : getParents (tyWorld info) (.cls (.user c)) (initialDesers info).classes
            = [.cls .intEnum, .cls .enum, .cls .int, .cls .object] := by
          simp [getParents, initialDesers, desRegistrations, setLizer, setLizer1, tyWorld, Ty.sub, Ty.naked?, Gen.naked, Cls.sub, hk, Table.empty]
        rw [this]; simp only [Cls.desFn, hk]; rfl
  | _ => rfl

theorem getDesRec_gen (info : Nat → ClassInfo) (g : Gen) (args : List Ty) :
    getLizerRec (tyWorld info) (initialDesers info) (.gen g args)
      = .ok (some (g.naked.desFn info)) := by
  cases g <;> rfl

theorem getDesRec_union (info : Nat → ClassInfo) (args : List Ty) :
    getLizerRec (tyWorld info) (initialDesers info) (.union args) = .ok (some .union) := by
  unfold getLizerRec World.lookupName
  have : (tyWorld info).attrs (.union args) = (Ty.union args).attrs info := rfl
  rw [this]
  rcases attrs_union info args with h | h <;> rw [h] <;> rfl

theorem getDesRec_special (info : Nat → ClassInfo) (b : Bool) :
    getLizerRec (tyWorld info) (initialDesers info) (.special b) = .ok (some .union) := by
  cases b <;> rfl

theorem getDesRec_any (info : Nat → ClassInfo) :
    getLizerRec (tyWorld info) (initialDesers info) .any = .ok none := by rfl

theorem desNames_head : ∀ k ∈ desNames, k.head? ≠ some '_' := by decide

theorem newtype_desName (info : Nat → ClassInfo) (n : PyStr) (t : Ty) :
    (tyWorld info).lookupName (.newtype n t) ∉ desNames := by
  by_cases hn : n = "NewType.<locals>.new_type".toList
  · subst hn
    have : (tyWorld info).lookupName (.newtype "NewType.<locals>.new_type".toList t)
        = "newtype.<locals>.new_type".toList := by rfl
    rw [this]
    decide
  · intro h
    refine desNames_head _ h ?_
    unfold World.lookupName getClassName
    have : (some n = some "NewType.<locals>.new_type".toList) = False := by simpa using hn
    simp only [tyWorld, Ty.attrs, this, if_false]
    have hm : ∀ a b r, getModule ⟨some n, a, b, r, some "__main__".toList⟩ = some "__main__".toList := by
      intro a b r; rfl
    rw [hm]
    rfl

/-- A `NewType` has no deserializer of its own. -/
theorem getDesRec_newtype (info : Nat → ClassInfo) (n : PyStr) (t : Ty) :
    getLizerRec (tyWorld info) (initialDesers info) (.newtype n t) = .ok none := by
  have h : (initialDesers info).lizers ((tyWorld info).lookupName (.newtype n t)) = none := by
    apply initialDesers_none
    exact newtype_desName info n t
  unfold getLizerRec
  rw [h]
  rfl

theorem getLizer_desFn (info : Nat → ClassInfo) (hn : NamesOk info desNames) (t : Ty) :
    getLizer (tyWorld info) (initialDesers info) t = .ok (t.desFn info) := by
  unfold getLizer
  cases t with
  | cls c => rw [getDesRec_cls info hn]; rfl
  | gen g a => rw [getDesRec_gen]; rfl
  | union a => rw [getDesRec_union]; rfl
  | special b => rw [getDesRec_special]; rfl
  | any => rw [getDesRec_any]; rfl
  | newtype n t =>
    rw [getDesRec_newtype]
    simp only [tyWorld, Ty.supertype]
    cases t with
    | cls c => exact getDesRec_cls info hn c
    | gen g a => exact getDesRec_gen info g a
    | union a => exact getDesRec_union info a
    | special b => exact getDesRec_special info b
    | any => exact getDesRec_any info
    | newtype n t => exact getDesRec_newtype info n t

theorem getLizer_empty {L : Type} (info : Nat → ClassInfo) (t : Ty) :
    getLizer (tyWorld info) (Table.empty : Table L Ty) t = .ok none := by
  have h : ∀ t, getLizerRec (tyWorld info) (Table.empty : Table L Ty) t = .ok none := by
    intro t; rfl
  unfold getLizer
  rw [h]
  cases t <;> rfl

end Verif.Core
