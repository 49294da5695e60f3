import Verif.Core.Dump
import Verif.Core.Dispatch

/-!
# What JSON is, and which values a dump reaches

Specifications for the properties of `dump`.
-/

set_option autoImplicit false

namespace Verif.Core
open Verif Verif.Datetime

/-- `None`, `bool`, `int`, `float`, `str`, or an instance of an `int` subclass (a
member of an `IntEnum`). -/
def JsonLeaf (info : Nat → ClassInfo) : Val → Prop
  | .atom .none | .atom (.bool _) | .atom (.int _) | .atom (.float _) | .atom (.str _) => True
  | .enum c _ => (info c).kind = .enum true
  | _ => False

/-- Built from leaves, lists and dicts of which every key satisfies `A` and every
value satisfies `B`. -/
inductive JsonWith (info : Nat → ClassInfo) (A B : Val → Prop) : Val → Prop
  | leaf {v : Val} : JsonLeaf info v → JsonWith info A B v
  | list {xs : List Val} : (∀ x ∈ xs, JsonWith info A B x) → JsonWith info A B (.list xs)
  | dict {es : List (Val × Val)} : (∀ e ∈ es, A e.1 ∧ B e.2) →
      (∀ e ∈ es, JsonWith info A B e.2) → JsonWith info A B (.dict es)

/-- JSON: leaves, lists, and dicts of which the keys are leaves. -/
def Json (info : Nat → ClassInfo) : Val → Prop := JsonWith info (JsonLeaf info) fun _ => True

/-- The set `S` contains what can be reached from its values: elements, keys,
values, what attributes and properties give, the offsets of time zones; and classes
are of the kind that their instances have. -/
structure Reach (E : Env) (S : Val → Prop) : Prop where
  elem : ∀ {v x : Val} {xs : List Val}, S v → v.iter = some xs → x ∈ xs → S x
  value : ∀ {es : List (Val × Val)} {e : Val × Val}, S (.dict es) → e ∈ es → S e.2
  valueD : ∀ {f : Option Ty} {es : List (Val × Val)} {e : Val × Val},
    S (.ddict f es) → e ∈ es → S e.2
  attr : ∀ {v w : Val} {n : PyStr}, S v → E.getAttr v n = .ok w → S w
  offset : ∀ {us : Int} {n : Option PyStr}, S (.atom (.timezone us n)) → S (.atom (.timedelta us))
  plain : ∀ {c : Nat} {as : List (PyStr × Val)}, S (.obj c as) → (E.info c).kind = .plain
  ntuple : ∀ {c : Nat} {xs : List Val}, S (.ntuple c xs) → (E.info c).kind = .ntuple
  enum : ∀ {c : Nat} {m : PyStr}, S (.enum c m) → ∃ b, (E.info c).kind = .enum b

/-- What can be reached from a value: elements, keys, values, what attributes and
properties give, the offsets of time zones. -/
inductive Reachable (E : Env) (v : Val) : Val → Prop
  | self : Reachable E v v
  | elem {w x : Val} {xs : List Val} : Reachable E v w → w.iter = some xs → x ∈ xs →
      Reachable E v x
  | value {es : List (Val × Val)} {e : Val × Val} : Reachable E v (.dict es) → e ∈ es →
      Reachable E v e.2
  | valueD {f : Option Ty} {es : List (Val × Val)} {e : Val × Val} :
      Reachable E v (.ddict f es) → e ∈ es → Reachable E v e.2
  | attr {w x : Val} {n : PyStr} : Reachable E v w → E.getAttr w n = .ok x → Reachable E v x
  | offset {us : Int} {n : Option PyStr} : Reachable E v (.atom (.timezone us n)) →
      Reachable E v (.atom (.timedelta us))

/-- The class of an instance is of the right kind: `Val.obj` is an instance of an
ordinary class, and so on. -/
def RightKind (E : Env) : Val → Prop
  | .obj c _ => (E.info c).kind = .plain
  | .ntuple c _ => (E.info c).kind = .ntuple
  | .enum c _ => ∃ b, (E.info c).kind = .enum b
  | _ => True

theorem reach_of_reachable {E : Env} {v : Val} (h : ∀ w, Reachable E v w → RightKind E w) :
    Reach E (Reachable E v) where
  elem h1 h2 h3 := .elem h1 h2 h3
  value h1 h2 := .value h1 h2
  valueD h1 h2 := .valueD h1 h2
  attr h1 h2 := .attr h1 h2
  offset h1 := .offset h1
  plain h1 := h _ h1
  ntuple h1 := h _ h1
  enum h1 := h _ h1

/-- What is reachable is in every set that contains the value and is closed. -/
theorem reachable_sub {E : Env} {S : Val → Prop} {v w : Val} (hS : Reach E S) (hv : S v)
    (h : Reachable E v w) : S w := by
  induction h with
  | self => exact hv
  | elem _ h2 h3 ih => exact hS.elem ih h2 h3
  | value _ h2 ih => exact hS.value ih h2
  | valueD _ h2 ih => exact hS.valueD ih h2
  | attr _ h2 ih => exact hS.attr ih h2
  | offset _ ih => exact hS.offset ih

/-- The lookup in the registry of the fork finds the serializers of jsons. -/
def DefaultSers (E : Env) (fork : Nat) : Prop :=
  ∀ t, E.getSer fork t = .ok (t.serFn E.info)

end Verif.Core
