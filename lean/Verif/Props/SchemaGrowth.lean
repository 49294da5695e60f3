import Verif.Props.KeyOrder

/-! # A class can get more parameters without making stored documents useless (C115) -/

set_option autoImplicit false

namespace Verif.Props.SchemaGrowth

open Verif Verif.Core Verif.Datetime
open Verif.Props.KeyOrder (entries assoc_some_mem dictGet_entries transformObj_id transformKeys_id ctorArgs_has)

/-! ## What is loaded by the new program -/

/-- The second value is the first one, but objects have more attributes: `new c` are the additional
attributes of the instances of the class `c`, with their values. -/
inductive Grown (new : Nat → PyStr → Option Val) : Val → Val → Prop where
  | atom (a : Atom) : Grown new (.atom a) (.atom a)
  | enum (c : Nat) (m : PyStr) : Grown new (.enum c m) (.enum c m)
  | seq (k : SeqKind) (xs ys : List Val) : xs.length = ys.length →
      (∀ x y, (x, y) ∈ xs.zip ys → Grown new x y) → Grown new (.seq k xs) (.seq k ys)
  | ntuple (c : Nat) (xs ys : List Val) : xs.length = ys.length →
      (∀ x y, (x, y) ∈ xs.zip ys → Grown new x y) → Grown new (.ntuple c xs) (.ntuple c ys)
  | dict (es gs : List (Val × Val)) : es.map (·.1) = gs.map (·.1) →
      (∀ x y, (x, y) ∈ (es.map (·.2)).zip (gs.map (·.2)) → Grown new x y) →
      Grown new (.dict es) (.dict gs)
  | ddict (f : Option Ty) (es gs : List (Val × Val)) : es.map (·.1) = gs.map (·.1) →
      (∀ x y, (x, y) ∈ (es.map (·.2)).zip (gs.map (·.2)) → Grown new x y) →
      Grown new (.ddict f es) (.ddict f gs)
  | obj (c : Nat) (as bs : List (PyStr × Val)) :
      (∀ s, new c s = none → (assoc as s).isSome = (assoc bs s).isSome) →
      (∀ s x y, new c s = none → assoc as s = some x → assoc bs s = some y → Grown new x y) →
      (∀ s d, new c s = some d → assoc as s = none ∧ assoc bs s = some d) →
      Grown new (.obj c as) (.obj c bs)

/-! ## The new program -/

/-- The second parameter list has all parameters of the first one, and those in `new`.  The latter
have a default value, or they get `None`, because their hint (`hints`, by name) admits it. -/
inductive Wider (E : LEnv) (R : Val → Val → Prop) (new : PyStr → Option Val)
    (hints : PyStr → Option Ty) : List Param → List Param → Prop where
  | nil : Wider E R new hints [] []
  | keep (p p' : Param) (ps ps' : List Param) : p.name = p'.name → new p.name = none →
      p.variadic = p'.variadic →
      ((p.default = none ∧ p'.default = none) ∨
        ∃ d d', p.default = some d ∧ p'.default = some d' ∧ R d d') →
      Wider E R new hints ps ps' → Wider E R new hints (p :: ps) (p' :: ps')
  | add (p : Param) (d : Val) (ps ps' : List Param) : new p.name = some d →
      (p.default = some d ∨ (p.default = none ∧ p.variadic = false ∧ d = .none ∧
        canMatchWithNone E (hints p.name) = .ok true)) →
      Wider E R new hints ps ps' → Wider E R new hints ps (p :: ps')

/-- The new program: the classes are described by `info`, and have the constructors `con`. -/
def upgraded (E : LEnv) (info : Nat → ClassInfo)
    (con : Nat → List (PyStr × Val) → Except Err (List (PyStr × Val)))
    (desers : Nat → Registry.Table DesFn Ty) : LEnv :=
  { E with info := info, construct := con, desers := desers }

/-- The attributes of objects, and the arguments of constructors. -/
def GrownA (new : Nat → PyStr → Option Val) (c : Nat) (as bs : List (PyStr × Val)) : Prop :=
  (∀ s, new c s = none → (assoc as s).isSome = (assoc bs s).isSome) ∧
  (∀ s x y, new c s = none → assoc as s = some x → assoc bs s = some y → Grown new x y) ∧
  (∀ s d, new c s = some d → assoc as s = none ∧ assoc bs s = some d)

/-- What has changed: classes have more parameters (`new`).  The constructors make more attributes
of them; jsons is used without deserializers and validators of the program. -/
structure Upgrade (E : LEnv) (info : Nat → ClassInfo)
    (con : Nat → List (PyStr × Val) → Except Err (List (PyStr × Val)))
    (desers : Nat → Registry.Table DesFn Ty) (new : Nat → PyStr → Option Val) : Prop where
  attrs : ∀ c, (info c).attrs = (E.info c).attrs
  kind : ∀ c, (info c).kind = (E.info c).kind
  hashable : ∀ c, (info c).hashable = (E.info c).hashable
  enums : ∀ c, (info c).enumMembers = (E.info c).enumMembers
  tuples : ∀ c, (E.info c).kind = .ntuple → info c = E.info c
  hints : ∀ c s, new c s = none → assoc (info c).hints s = assoc (E.info c).hints s
  initHints : ∀ c s, new c s = none → assoc (info c).initHints s = assoc (E.info c).initHints s
  params : ∀ c, Wider E (Grown new) (new c) (fun s => assoc (info c).initHints s)
    (E.info c).params (info c).params
  all : ∀ c s d, new c s = some d → ∃ p ∈ (info c).params, p.name = s
  ctor : ∀ c args args', GrownA new c args args' →
    (∃ as bs, E.construct c args = .ok as ∧ con c args' = .ok bs ∧ GrownA new c as bs) ∨
    ∃ e, E.construct c args = .error e ∧ con c args' = .error e
  set : ∀ c as n v, E.setAttr c as n v = .ok (assocSet as n v)
  des : ∀ i, DefaultDesers E i
  des' : ∀ i, DefaultDesers (upgraded E info con desers) i
  vals : ∀ i, NoValidators E i
  vals' : ∀ i, NoValidators (upgraded E info con desers) i

/-! ## Documents -/

/-- What `json.loads` returns, without a `'-meta'`. -/
inductive Json : Val → Prop where
  | none : Json .none
  | bool (b : Bool) : Json (.bool b)
  | int (n : Int) : Json (.int n)
  | float (x : ℚ) : Json (.float x)
  | str (s : PyStr) : Json (.str s)
  | list (xs : List Val) : (∀ x ∈ xs, Json x) → Json (.list xs)
  | dict (ps : List (PyStr × Val)) : (ps.map (·.1)).Nodup → metaKey ∉ ps.map (·.1) →
      (∀ s x, (s, x) ∈ ps → Json x) → Json (.dict (entries ps))

/-- The classes that have no parts. -/
def scalars : List Cls :=
  [.noneType, .bool, .int, .float, .str, .datetime, .date, .time, .timedelta, .uuid, .decimal, .path]

/-- Types of lists, and the type of their elements. -/
inductive ListLike : Option Ty → Option Ty → Prop where
  | free : ListLike none none
  | cls (c : Cls) : c ∈ [Cls.list, .tuple, .deque, .iterable] → ListLike (some (.cls c)) none
  | gen (g : Gen) (args : List Ty) : g ∈ [Gen.list, .tupleEll, .deque, .iterable] →
      ListLike (some (.gen g args)) args.head?

/-- Types of dicts, and the type of their values. -/
inductive DictLike : Option Ty → Option Ty → Prop where
  | free : DictLike none none
  | cls (c : Cls) : c ∈ [Cls.dict, .mapping, .defaultdict] → DictLike (some (.cls c)) none
  | bare (g : Gen) : g ∈ [Gen.dict, .mapping, .defaultdict] → DictLike (some (.gen g [])) none
  | gen (g : Gen) (k : Cls) (t : Ty) : g ∈ [Gen.dict, .mapping, .defaultdict] → k ∈ scalars →
      DictLike (some (.gen g [.cls k, t])) (some t)

/-- The dict of a document, if it is one. -/
def dictOf : Val → Option (List (Val × Val))
  | .dict es => some es
  | _ => none

/-- Documents that may be loaded as instances of the type, successfully or not.  They have no entry
with the name of a new parameter where an object is expected. -/
inductive Fits (info : Nat → ClassInfo) (new : Nat → PyStr → Option Val) : Option Ty → Val → Prop where
  | any (v : Val) : Json v → Fits info new (some .any) v
  | leaf (v : Val) : Json v → v.cls ∈ scalars → Fits info new none v
  | scalar (c : Cls) (v : Val) : c ∈ scalars → Json v → Fits info new (some (.cls c)) v
  | enum (c : Nat) (b : Bool) (v : Val) : (info c).kind = .enum b → Json v →
      Fits info new (some (.cls (.user c))) v
  | union (ts : List Ty) (v : Val) : Json v → (∀ t ∈ ts, Fits info new (some t) v) →
      Fits info new (some (.union ts)) v
  | list (o arg : Option Ty) (v : Val) : ListLike o arg → Json v → (o = none → v.cls = .list) →
      (∀ xs x, v.iter = some xs → x ∈ xs → Fits info new arg x) → Fits info new o v
  | set (g : Gen) (c : Cls) (v : Val) : g = .set ∨ g = .frozenset → c ∈ scalars → Json v →
      Fits info new (some (.gen g [.cls c])) v
  | tuple (ts : List Ty) (v : Val) : Json v → ts ≠ [] →
      (∀ xs (i : Nat) t x, v.iter = some xs → ts[i]? = some t → xs[i]? = some x →
        Fits info new (some t) x) → Fits info new (some (.gen .tuple ts)) v
  | dict (o arg : Option Ty) (v : Val) : DictLike o arg → Json v → (o = none → v.cls = .dict) →
      (∀ ps, v = .dict (entries ps) → keysKey ∉ ps.map (·.1)) →
      (∀ ps s x, v = .dict (entries ps) → (s, x) ∈ ps → Fits info new arg x) → Fits info new o v
  | obj (c : Nat) (v : Val) : (info c).kind = .plain → Json v →
      (∀ s, new c s ≠ none → keyIn v s ≠ .ok true) →
      (∀ ps s x, v = .dict (entries ps) → assoc ps s = some x →
        s ∈ (info c).params.map (·.name) → Fits info new (assoc (info c).initHints s) x) →
      (∀ ps s x, v = .dict (entries ps) → assoc ps s = some x →
        s ∉ (info c).params.map (·.name) →
        Fits info new (some ((assoc (info c).hints s).getD (.cls x.cls))) x) →
      Fits info new (some (.cls (.user c))) v
  | ntuple (c : Nat) (v : Val) : (info c).kind = .ntuple → Json v →
      (∀ xs i s x, v.iter = some xs → (info c).fields[i]? = some s →
        ntupleField (info c) v (dictOf v) xs.length i s = .ok x →
        Fits info new (if (info c).hasAnnotations then assoc (info c).hints s else none) x) →
      Fits info new (some (.cls (.user c))) v

/-- The keyword arguments: no key transformer that changes keys, no class hints given by hand, no
`attr_getters`. -/
structure KwOk (kw : LoadKw) : Prop where
  kt : ∀ f, kw.keyTransformer = some f → ∀ x, f x = .ok x
  hints : kw.metaHints.getD [] = []
  getters : kw.attrGetters = []

/-! ## Outcomes -/

/-- The same warnings, and either both return something related, or both fail with the same
exception. -/
def Rel {α : Type} (R : α → α → Prop) (x y : Res α) : Prop :=
  x.log = y.log ∧ ((∃ a b, x.val = .ok a ∧ y.val = .ok b ∧ R a b) ∨
    ∃ e, x.val = .error e ∧ y.val = .error e)

theorem Rel.refl {α : Type} {R : α → α → Prop} (x : Res α) (hR : ∀ a, x.val = .ok a → R a a) : Rel R x x := by
  refine ⟨rfl, ?_⟩
  cases h : x.val with
  | ok a => exact .inl ⟨a, a, rfl, rfl, hR a h⟩
  | error e => exact .inr ⟨e, rfl, rfl⟩

theorem Rel.eq {α : Type} (x : Res α) : Rel Eq x x := Rel.refl x fun _ _ => rfl

theorem Rel.pure {α : Type} {R : α → α → Prop} {a b : α} (h : R a b) :
    Rel R (Pure.pure a) (Pure.pure b) := ⟨rfl, .inl ⟨a, b, rfl, rfl, h⟩⟩

theorem Rel.raise {α : Type} {R : α → α → Prop} (e : Err) :
    Rel (α := α) R (Res.raise e) (Res.raise e) := ⟨rfl, .inr ⟨e, rfl, rfl⟩⟩

theorem Rel.bind {α β : Type} {R : α → α → Prop} {S : β → β → Prop} {x y : Res α} {f g : α → Res β}
    (h : Rel R x y) (hf : ∀ a b, x.val = .ok a → y.val = .ok b → R a b → Rel S (f a) (g b)) :
    Rel S (x >>= f) (y >>= g) := by
  obtain ⟨hl, ⟨a, b, ha, hb, hab⟩ | ⟨e, he, he'⟩⟩ := h
  · have h := hf a b ha hb hab
    unfold Rel
    rw [bind_val, bind_val, bind_log, bind_log, ha, hb]
    exact ⟨by dsimp only; rw [hl, h.1], h.2⟩
  · refine ⟨?_, .inr ⟨e, Core.bind_err.2 (.inl he), Core.bind_err.2 (.inl he')⟩⟩
    rw [bind_log, bind_log, he, he']
    exact hl

theorem Rel.mono {α : Type} {R S : α → α → Prop} {x y : Res α} (h : Rel R x y)
    (hRS : ∀ a b, R a b → S a b) : Rel S x y := by
  obtain ⟨hl, ⟨a, b, ha, hb, hab⟩ | h⟩ := h
  · exact ⟨hl, .inl ⟨a, b, ha, hb, hRS a b hab⟩⟩
  · exact ⟨hl, .inr h⟩

/-- The same of two outcomes. -/
def ExRel {α : Type} (R : α → α → Prop) (x y : Except Err α) : Prop :=
  (∃ a b, x = .ok a ∧ y = .ok b ∧ R a b) ∨ ∃ e, x = .error e ∧ y = .error e

theorem Rel.attempt {α : Type} {R : α → α → Prop} {x y : Res α} (h : Rel R x y) :
    Rel (ExRel R) x.attempt y.attempt :=
  ⟨h.1, .inl ⟨x.val, y.val, rfl, rfl, h.2⟩⟩

theorem Rel.lift {α : Type} {R : α → α → Prop} {x y : Except Err α} (h : ExRel R x y) :
    Rel R (Res.lift x) (Res.lift y) := by
  refine ⟨by rw [lift_log, lift_log], ?_⟩
  rw [lift_val, lift_val]
  exact h

/-! ## Values -/

section
variable {new : Nat → PyStr → Option Val}

theorem Json.grown {v : Val} (h : Json v) : Grown new v v := by
  have hz : ∀ (l : List Val) x y, (x, y) ∈ l.zip l → x = y ∧ x ∈ l := by
    intro l
    induction l with
    | nil => intro x y h; cases h
    | cons a l ih =>
      intro x y h
      rw [List.zip_cons_cons, List.mem_cons] at h
      rcases h with h | h
      · cases h; exact ⟨rfl, List.mem_cons_self⟩
      · exact ⟨(ih x y h).1, List.mem_cons_of_mem _ (ih x y h).2⟩
  induction h with
  | none | bool | int | float | str => exact .atom _
  | list xs _ ih =>
    refine .seq _ _ _ rfl fun x y h => ?_
    obtain ⟨rfl, hx⟩ := hz _ x y h
    exact ih x hx
  | dict ps _ _ _ ih =>
    refine .dict _ _ rfl fun x y h => ?_
    obtain ⟨rfl, hx⟩ := hz _ x y h
    obtain ⟨e, he, rfl⟩ := List.mem_map.1 hx
    obtain ⟨p, hp, rfl⟩ := List.mem_map.1 he
    exact ih _ _ hp

theorem Json.valid {v : Val} (h : Json v) : v.cls ∈ validTypes := by
  cases h <;> simp [Val.cls, Atom.cls, SeqKind.cls, validTypes]

theorem Json.noMeta {v : Val} (h : Json v) : NoMeta v := by
  intro es he
  cases h with
  | dict ps _ hm _ =>
    cases he
    rw [dictGet_entries]
    exact assoc_none.2 hm
  | _ => cases he

theorem Json.iter {v : Val} (h : Json v) {xs : List Val} (hx : v.iter = some xs) : ∀ x ∈ xs, Json x := by
  cases h with
  | str s =>
    cases hx
    intro x hx
    obtain ⟨c, _, rfl⟩ := List.mem_map.1 hx
    exact .str _
  | list xs h => cases hx; exact h
  | dict ps _ _ _ =>
    cases hx
    intro x hx
    obtain ⟨e, he, rfl⟩ := List.mem_map.1 hx
    obtain ⟨p, hp, rfl⟩ := List.mem_map.1 he
    exact .str _
  | _ => cases hx

theorem Fits.json {info : Nat → ClassInfo} {o : Option Ty} {v : Val} (h : Fits info new o v) : Json v := by
  cases h <;> assumption

/-- Elements. -/
def GrownL (new : Nat → PyStr → Option Val) (xs ys : List Val) : Prop :=
  xs.length = ys.length ∧ ∀ x y, (x, y) ∈ xs.zip ys → Grown new x y

theorem GrownL.nil : GrownL new [] [] := ⟨rfl, fun _ _ h => by cases h⟩

theorem GrownL.cons {x y : Val} {xs ys : List Val} (h : Grown new x y) (hs : GrownL new xs ys) :
    GrownL new (x :: xs) (y :: ys) := by
  refine ⟨by simp [hs.1], fun a b hab => ?_⟩
  rw [List.zip_cons_cons, List.mem_cons] at hab
  rcases hab with hab | hab
  · cases hab; exact h
  · exact hs.2 a b hab

/-- Entries. -/
def GrownE (new : Nat → PyStr → Option Val) (es gs : List (Val × Val)) : Prop :=
  List.Forall₂ (fun e g => e.1 = g.1 ∧ Grown new e.2 g.2) es gs

theorem GrownE.keys {es gs : List (Val × Val)} (h : GrownE new es gs) : es.map (·.1) = gs.map (·.1) := by
  induction h with
  | nil => rfl
  | cons h _ ih => rw [List.map_cons, List.map_cons, h.1, ih]

theorem GrownE.vals {es gs : List (Val × Val)} (h : GrownE new es gs) :
    ∀ x y, (x, y) ∈ (es.map (·.2)).zip (gs.map (·.2)) → Grown new x y := by
  induction h with
  | nil => intro x y h; cases h
  | cons h _ ih =>
    intro x y hxy
    rw [List.map_cons, List.map_cons, List.zip_cons_cons, List.mem_cons] at hxy
    rcases hxy with hxy | hxy
    · cases hxy; exact h.2
    · exact ih x y hxy

theorem GrownE.set {es gs : List (Val × Val)} (h : GrownE new es gs) (k : Val) {x y : Val}
    (hxy : Grown new x y) : GrownE new (dictSet es k x) (dictSet gs k y) := by
  induction h with
  | nil => exact .cons ⟨rfl, hxy⟩ .nil
  | @cons e g es gs h hs ih =>
    obtain ⟨a, x'⟩ := e
    obtain ⟨b, y'⟩ := g
    obtain ⟨h1, h2⟩ := h
    dsimp only at h1 h2
    subst h1
    simp only [dictSet]
    split
    · exact .cons ⟨rfl, hxy⟩ hs
    · exact .cons ⟨rfl, h2⟩ ih

theorem GrownE.of_dict {es : List (Val × Val)} {w : Val} (h : Grown new (.dict es) w) :
    ∃ gs, w = .dict gs ∧ es.map (·.1) = gs.map (·.1) ∧
      ∀ x y, (x, y) ∈ (es.map (·.2)).zip (gs.map (·.2)) → Grown new x y := by
  cases h with
  | dict _ gs h1 h2 => exact ⟨gs, rfl, h1, h2⟩

theorem GrownA.set {c : Nat} {as bs : List (PyStr × Val)} (h : GrownA new c as bs) {n : PyStr}
    (hn : new c n = none) {x y : Val} (hxy : Grown new x y) :
    GrownA new c (assocSet as n x) (assocSet bs n y) := by
  refine ⟨fun s hs => ?_, fun s a b hs => ?_, fun s d hs => ?_⟩
  · rw [assoc_set, assoc_set]
    split
    · rfl
    · exact h.1 s hs
  · rw [assoc_set, assoc_set]
    split
    · intro ha hb; cases ha; cases hb; exact hxy
    · exact h.2.1 s a b hs
  · have hne : n ≠ s := fun h => by subst h; rw [hn] at hs; cases hs
    rw [assoc_set, assoc_set, if_neg hne, if_neg hne]
    exact h.2.2 s d hs

end

/-! ## What does not depend on the parameters -/

section
variable {E : LEnv} {info : Nat → ClassInfo}
  {con : Nat → List (PyStr × Val) → Except Err (List (PyStr × Val))}
  {desers : Nat → Registry.Table DesFn Ty} {new : Nat → PyStr → Option Val}

/-- The new program. -/
local notation "E'" => upgraded E info con desers

theorem tyAttrs_eq (U : Upgrade E info con desers new) (t : Ty) : t.attrs info = t.attrs E.info := by
  cases t with
  | cls c =>
    cases c with
    | user c => exact U.attrs c
    | _ => rfl
  | union ts =>
    rcases ts with _ | ⟨a, _ | ⟨b, _ | ⟨_, _⟩⟩⟩ <;> rfl
  | special b => cases b <;> rfl
  | _ => rfl

theorem canMatch_eq (U : Upgrade E info con desers new) (o : Option Ty) :
    canMatchWithNone E' o = canMatchWithNone E o := by
  have h : ∀ t, (E').className false t = E.className false t := by
    intro t
    unfold Env.className
    exact congrArg (fun a => Registry.getClassName a id false) (tyAttrs_eq U t)
  unfold canMatchWithNone
  split
  · rfl
  · rfl
  · rfl
  · rfl
  · rw [h]

theorem checkForNone_eq (U : Upgrade E info con desers new) (v : Val) (o : Option Ty) :
    checkForNone E' v o = checkForNone E v o := by
  unfold checkForNone
  rw [canMatch_eq U]

theorem clsDesFn_eq (U : Upgrade E info con desers new) (c : Cls) : c.desFn info = c.desFn E.info := by
  cases c with
  | user c => simp only [Cls.desFn, U.kind c]
  | _ => rfl

theorem desFn_eq (U : Upgrade E info con desers new) (t : Ty) : t.desFn info = t.desFn E.info := by
  cases t with
  | cls c => simp only [Ty.desFn, clsDesFn_eq U]
  | gen g _ => simp only [Ty.desFn, clsDesFn_eq U]
  | newtype n t =>
    cases t <;> simp only [Ty.desFn, clsDesFn_eq U]
  | _ => rfl

mutual
theorem hashable_eq (U : Upgrade E info con desers new) : ∀ v : Val, v.hashable info = v.hashable E.info
  | .atom _ => by simp only [Val.hashable]
  | .seq .tuple xs => by simp only [Val.hashable]; exact allHashable_eq U xs
  | .seq .frozenset _ => by simp only [Val.hashable]
  | .seq .list _ => by simp only [Val.hashable]
  | .seq .set _ => by simp only [Val.hashable]
  | .seq .deque _ => by simp only [Val.hashable]
  | .dict _ => by simp only [Val.hashable]
  | .ddict _ _ => by simp only [Val.hashable]
  | .ntuple _ xs => by simp only [Val.hashable]; exact allHashable_eq U xs
  | .enum _ _ => by simp only [Val.hashable]
  | .obj c _ => by simp only [Val.hashable]; exact U.hashable c
theorem allHashable_eq (U : Upgrade E info con desers new) :
    ∀ xs : List Val, Val.allHashable info xs = Val.allHashable E.info xs
  | [] => by simp only [Val.allHashable]
  | x :: xs => by simp only [Val.allHashable, hashable_eq U x, allHashable_eq U xs]
end

theorem KwOk.callee {kw : LoadKw} (h : KwOk kw) (v : Val) (o : Option Ty) : KwOk (calleeKw v o kw none) := by
  refine ⟨h.kt, ?_, h.getters⟩
  show (some (kw.metaHints.getD [])).getD [] = []
  exact h.hints

theorem doLoad_rel (U : Upgrade E info con desers new) {R : Val → Val → Prop} {rec rec' : LRec} {f : DesFn}
    {v : Val} {t : Ty} {kw : LoadKw} (h : Rel R (callDes E rec f v t kw) (callDes E' rec' f v t kw)) :
    Rel R (doLoad E rec (some f) v t kw) (doLoad E' rec' (some f) v t kw) := by
  refine ⟨?_, ?_⟩
  · rw [doLoad_noval_log (U.vals _ _), doLoad_noval_log (U.vals' _ _)]
    exact h.1
  · rw [doLoad_noval (U.vals _ _), doLoad_noval (U.vals' _ _)]
    rcases h.2 with ⟨a, b, ha, hb, hab⟩ | ⟨e, he, he'⟩
    · exact .inl ⟨a, b, by rw [ha], by rw [hb], hab⟩
    · exact .inr ⟨_, by rw [he], by rw [he']⟩

theorem enter (U : Upgrade E info con desers new) {R : Val → Val → Prop} {n : Nat} {v : Val} {o : Option Ty}
    {kw : LoadKw} (hv : Json v) (hR : R v v)
    (hd : ∀ f, (o.getD (.cls v.cls)).desFn E.info = some f →
      Rel R (callDes E (load E n) f v (o.getD (.cls v.cls)) (calleeKw v o kw none))
        (callDes E' (load E' n) f v (o.getD (.cls v.cls)) (calleeKw v o kw none))) :
    Rel R (load E (n + 1) v o kw) (load E' (n + 1) v o kw) := by
  rw [load_succ, load_succ]
  unfold loadWith
  rw [checkForNone_eq U]
  refine Rel.bind (Rel.eq _) fun _ _ _ _ _ => ?_
  split
  · rw [validate_none (U.vals _ _), validate_none (U.vals' _ _)]
    exact .pure hR
  · show Rel R (loadFrom E (load E n) v o kw) (loadFrom E' (load E' n) v o kw)
    rw [loadFrom_eq hv.valid (noMeta_get hv.noMeta _) (U.des _),
      loadFrom_eq hv.valid (noMeta_get hv.noMeta _) (U.des' _)]
    have ht : target v o kw none = o.getD (.cls v.cls) := by
      cases o with
      | none => exact target_free
      | some t => exact target_explicit (.inr rfl)
    rw [ht]
    show Rel R (doLoad E _ ((o.getD (.cls v.cls)).desFn E.info) _ _ _)
      (doLoad E' _ ((o.getD (.cls v.cls)).desFn info) _ _ _)
    rw [desFn_eq U]
    cases hf : (o.getD (.cls v.cls)).desFn E.info with
    | none => exact Rel.raise _
    | some f => exact doLoad_rel U (hd f hf)

/-! ## Values without parts -/

theorem primitive_eq {v : Val} (hv : Json v) {c : Cls} (hc : c ∈ [Cls.bool, .int, .float, .str]) :
    primitiveDes E' v (.cls c) = primitiveDes E v (.cls c) := by
  simp only [List.mem_cons, List.not_mem_nil, or_false] at hc
  rcases hc with rfl | rfl | rfl | rfl <;> cases hv <;> rfl

theorem scalarDes_eq {n : Nat} {c : Cls} {f : DesFn} {v : Val} {kw : LoadKw} (hv : Json v) (hc : c ∈ scalars)
    (hf : (Ty.cls c).desFn E.info = some f)
    (h : load E n v (some (.cls .datetime)) kw = load E' n v (some (.cls .datetime)) kw) :
    callDes E (load E n) f v (.cls c) kw = callDes E' (load E' n) f v (.cls c) kw := by
  simp only [scalars, List.mem_cons, List.not_mem_nil, or_false] at hc
  rcases hc with rfl | rfl | rfl | rfl | rfl | rfl | rfl | rfl | rfl | rfl | rfl | rfl <;> cases hf
  · simp only [callDes, Cls.desFn]
  · exact (primitive_eq hv (by simp)).symm
  · exact (primitive_eq hv (by simp)).symm
  · exact (primitive_eq hv (by simp)).symm
  · show stringDes E (load E n) v (.cls .str) kw = stringDes E' (load E' n) v (.cls .str) kw
    unfold stringDes
    rw [h, primitive_eq hv (by simp)]
    rfl
  · simp only [callDes, Cls.desFn]
  · simp only [callDes, Cls.desFn]
  · simp only [callDes, Cls.desFn]
  · simp only [callDes, Cls.desFn]; unfold timedeltaDes; rfl
  · simp only [callDes, Cls.desFn]; unfold uuidDes; rfl
  · simp only [callDes, Cls.desFn]; unfold decimalDes; rfl
  · simp only [callDes, Cls.desFn]; unfold pathDes; rfl

theorem scalar_eq (U : Upgrade E info con desers new) (n : Nat) {v : Val} (hv : Json v) {c : Cls}
    (hc : c ∈ scalars) (kw : LoadKw) :
    load E n v (some (.cls c)) kw = load E' n v (some (.cls c)) kw := by
  induction n generalizing c kw with
  | zero => rfl
  | succ n ih =>
    have h := enter U (R := Eq) (n := n) (o := some (.cls c)) (kw := kw) hv rfl (fun f hf => by
      have h := scalarDes_eq (kw := calleeKw v (some (.cls c)) kw none) hv hc hf (ih (by simp [scalars]) _)
      show Rel Eq (callDes E (load E n) f v (.cls c) _) _
      rw [h]
      exact Rel.eq _)
    obtain ⟨hl, ⟨a, b, ha, hb, hab⟩ | ⟨e, he, he'⟩⟩ := h
    · exact res_ext hl (by rw [ha, hb, hab])
    · exact res_ext hl (by rw [he, he'])

end

/-! ## Collections -/

section
variable {E : LEnv} {info : Nat → ClassInfo}
  {con : Nat → List (PyStr × Val) → Except Err (List (PyStr × Val))}
  {desers : Nat → Registry.Table DesFn Ty} {new : Nat → PyStr → Option Val}

/-- The new program. -/
local notation "E'" => upgraded E info con desers

/-- What is known of the nested calls. -/
def Ih (E : LEnv) (new : Nat → PyStr → Option Val) (rec rec' : LRec) : Prop :=
  ∀ v o kw, Fits E.info new o v → KwOk kw → Rel (Grown new) (rec v o kw) (rec' v o kw)

variable {rec rec' : LRec}

theorem listLoop_rel {cls : Option Ty} {warn : Bool} {kw : LoadKw} (xs : List Val) (i : Nat)
    (h : ∀ x ∈ xs, Rel (Grown new) (rec x cls kw) (rec' x cls kw)) :
    Rel (GrownL new) (listLoop E rec cls warn kw i xs) (listLoop E' rec' cls warn kw i xs) := by
  induction xs generalizing i with
  | nil => exact .pure .nil
  | cons x xs ih =>
    have ih := fun i => ih i fun y hy => h y (List.mem_cons_of_mem _ hy)
    rw [listLoop, listLoop]
    refine (h x List.mem_cons_self).attempt.bind fun p q _ _ hpq => ?_
    rcases hpq with ⟨a, b, rfl, rfl, hab⟩ | ⟨e, rfl, rfl⟩
    · exact (ih (i + 1)).bind fun as bs _ _ h => .pure (.cons hab h)
    · dsimp only
      split
      · split
        · exact Rel.bind (Rel.eq _) fun _ _ _ _ _ => ih (i + 1)
        · exact Rel.raise _
      · exact Rel.raise _

theorem listDes_rel (hr : Ih E new rec rec') {v : Val} {args : List Ty} {kw : LoadKw} (hk : KwOk kw)
    (h : ∀ xs x, v.iter = some xs → x ∈ xs → Fits E.info new args.head? x) :
    Rel (GrownL new) (listDes E rec v args kw) (listDes E' rec' v args kw) := by
  unfold listDes
  cases hi : v.iter with
  | none => exact Rel.raise _
  | some xs =>
    exact listLoop_rel xs 0 fun x hx => hr _ _ _ (h xs x hi hx) ⟨hk.kt, hk.hints, hk.getters⟩

theorem tupleLoop_rel {kw : LoadKw} (ts : List Ty) (xs : List Val)
    (h : ∀ (i : Nat) t x, ts[i]? = some t → xs[i]? = some x →
      Rel (Grown new) (rec x (some t) kw) (rec' x (some t) kw)) :
    Rel (GrownL new) (tupleLoop rec kw ts xs) (tupleLoop rec' kw ts xs) := by
  induction xs generalizing ts with
  | nil => cases ts <;> exact .pure .nil
  | cons x xs ih =>
    cases ts with
    | nil => exact Rel.raise _
    | cons t ts =>
      rw [tupleLoop, tupleLoop]
      refine (h 0 t x rfl rfl).bind fun a b _ _ hab => ?_
      exact (ih ts fun i t y ht hy => h (i + 1) t y (by simpa using ht) (by simpa using hy)).bind
        fun as bs _ _ h => .pure (.cons hab h)

theorem mapRes_rel {f g : Val → Res Val} (xs : List Val) (h : ∀ x ∈ xs, Rel (Grown new) (f x) (g x)) :
    Rel (GrownL new) (mapRes f xs) (mapRes g xs) := by
  induction xs with
  | nil => exact .pure .nil
  | cons x xs ih =>
    rw [mapRes, mapRes]
    refine (h x List.mem_cons_self).bind fun a b _ _ hab => ?_
    exact (ih fun y hy => h y (List.mem_cons_of_mem _ hy)).bind fun as bs _ _ h => .pure (.cons hab h)

theorem KwOk.noKt {kw : LoadKw} (hk : KwOk kw) : KwOk { kw with keyTransformer := none } :=
  ⟨(fun _ h => by cases h), hk.hints, hk.getters⟩

theorem KwOk.ktd {kw : LoadKw} (hk : KwOk kw) (x : Val) : kw.keyTransformer.getD .ok x = .ok x := by
  cases h : kw.keyTransformer with
  | none => rfl
  | some f => exact hk.kt f h x

theorem KwOk.withKt {kw : LoadKw} (hk : KwOk kw) :
    KwOk { kw with keyTransformer := some (kw.keyTransformer.getD .ok) } :=
  ⟨(fun f h => by cases h; exact hk.ktd), hk.hints, hk.getters⟩

theorem tupleCls_rel (hr : Ih E new rec rec') {v : Val} {t : Ty} {kw : LoadKw} (hk : KwOk kw)
    (ht : t = .cls .tuple ∨ ∃ args, t = .gen .tupleEll args)
    (h : ∀ xs x, v.iter = some xs → x ∈ xs → Fits E.info new t.getArgs.head? x) :
    Rel (Grown new) (tupleDes E rec v t kw) (tupleDes E' rec' v t kw) := by
  have hmap : ∀ xs, v.iter = some xs → t.getArgs = [] →
      Rel (GrownL new) (mapRes (fun x => rec x none { kw with keyTransformer := none }) xs)
        (mapRes (fun x => rec' x none { kw with keyTransformer := none }) xs) := by
    intro xs hi ha
    refine mapRes_rel xs fun x hx => hr _ _ _ ?_ hk.noKt
    have := h xs x hi hx
    rwa [ha] at this
  rcases ht with rfl | ⟨args, rfl⟩
  · show Rel (Grown new) (match v.iter with
      | none => Res.raise { kind := .typeError }
      | some xs => do
        let ys ← mapRes (fun x => rec x none { kw with keyTransformer := none }) xs
        pure (.tuple ys)) (match v.iter with
      | none => Res.raise { kind := .typeError }
      | some xs => do
        let ys ← mapRes (fun x => rec' x none { kw with keyTransformer := none }) xs
        pure (.tuple ys))
    cases hi : v.iter with
    | none => exact Rel.raise _
    | some xs => exact (hmap xs hi rfl).bind fun as bs _ _ h => .pure (.seq _ _ _ h.1 h.2)
  · unfold tupleDes
    dsimp only
    cases hi : v.iter with
    | none => exact Rel.raise _
    | some xs =>
      cases args with
      | nil => exact (hmap xs hi rfl).bind fun as bs _ _ h => .pure (.seq _ _ _ h.1 h.2)
      | cons a as =>
        refine Rel.bind (R := GrownL new) ?_ fun as bs _ _ h => .pure (.seq _ _ _ h.1 h.2)
        refine tupleLoop_rel _ _ fun i t x ht hx => ?_
        have hta : t = a := by
          have := List.mem_of_getElem? ht
          exact (List.mem_replicate.1 this).2
        subst hta
        exact hr _ _ _ (h xs x hi (List.mem_of_getElem? hx)) hk.noKt

theorem tuplePos_rel (hr : Ih E new rec rec') {v : Val} {ts : List Ty} {kw : LoadKw} (hk : KwOk kw)
    (hts : ts ≠ []) (h : ∀ xs (i : Nat) t x, v.iter = some xs → ts[i]? = some t → xs[i]? = some x →
      Fits E.info new (some t) x) :
    Rel (Grown new) (tupleDes E rec v (.gen .tuple ts) kw) (tupleDes E' rec' v (.gen .tuple ts) kw) := by
  cases ts with
  | nil => exact absurd rfl hts
  | cons a as =>
    unfold tupleDes
    dsimp only
    cases hi : v.iter with
    | none => exact Rel.raise _
    | some xs =>
      refine Rel.bind (R := GrownL new) ?_ fun as bs _ _ h => .pure (.seq _ _ _ h.1 h.2)
      exact tupleLoop_rel _ _ fun i t x ht hx => hr _ _ _ (h xs i t x hi ht hx) hk.noKt

theorem list_rel (hr : Ih E new rec rec') {o arg : Option Ty} {v : Val} {kw : LoadKw} (hk : KwOk kw)
    {f : DesFn} (ho : ListLike o arg) (hv : o = none → v.cls = .list)
    (hf : (o.getD (.cls v.cls)).desFn E.info = some f)
    (h : ∀ xs x, v.iter = some xs → x ∈ xs → Fits E.info new arg x) :
    Rel (Grown new) (callDes E rec f v (o.getD (.cls v.cls)) kw)
      (callDes E' rec' f v (o.getD (.cls v.cls)) kw) := by
  have hlist : ∀ args : List Ty, args.head? = arg →
      Rel (GrownL new) (listDes E rec v args kw) (listDes E' rec' v args kw) := by
    intro args ha
    exact listDes_rel hr hk (by rw [ha]; exact h)
  cases ho with
  | free =>
    rw [hv rfl] at hf ⊢
    cases hf
    exact (hlist [] rfl).bind fun as bs _ _ h => .pure (.seq _ _ _ h.1 h.2)
  | cls c hc =>
    simp only [List.mem_cons, List.not_mem_nil, or_false] at hc
    rcases hc with rfl | rfl | rfl | rfl <;> cases hf
    · exact (hlist [] rfl).bind fun as bs _ _ h => .pure (.seq _ _ _ h.1 h.2)
    · exact tupleCls_rel (info := info) (con := con) (desers := desers) hr hk (.inl rfl) h
    · exact (hlist [] rfl).bind fun as bs _ _ h => .pure (.seq _ _ _ h.1 h.2)
    · exact (hlist [] rfl).bind fun as bs _ _ h => .pure (.seq _ _ _ h.1 h.2)
  | gen g args hg =>
    simp only [List.mem_cons, List.not_mem_nil, or_false] at hg
    rcases hg with rfl | rfl | rfl | rfl <;> cases hf
    · exact (hlist args rfl).bind fun as bs _ _ h => .pure (.seq _ _ _ h.1 h.2)
    · exact tupleCls_rel (info := info) (con := con) (desers := desers) hr hk (.inr ⟨args, rfl⟩) h
    · exact (hlist args rfl).bind fun as bs _ _ h => .pure (.seq _ _ _ h.1 h.2)
    · exact (hlist args rfl).bind fun as bs _ _ h => .pure (.seq _ _ _ h.1 h.2)

theorem unionLoop_rel {v : Val} {t : Ty} {kw : LoadKw} (ts : List Ty)
    (h : ∀ a ∈ ts, Rel (Grown new) (rec v (some a) kw) (rec' v (some a) kw)) :
    Rel (Grown new) (unionLoadLoop rec v t kw ts) (unionLoadLoop rec' v t kw ts) := by
  induction ts with
  | nil => exact Rel.raise _
  | cons a ts ih =>
    have ih := ih fun b hb => h b (List.mem_cons_of_mem _ hb)
    rw [unionLoadLoop, unionLoadLoop]
    refine (h a List.mem_cons_self).attempt.bind fun p q _ _ hpq => ?_
    rcases hpq with ⟨a, b, rfl, rfl, hab⟩ | ⟨e, rfl, rfl⟩
    · exact .pure hab
    · dsimp only
      split
      · exact ih
      · exact Rel.raise _

theorem comp_rel (U : Upgrade E info con desers new) {keyFn keyFn' valFn valFn' : Val → Res Val}
    (hk : ∀ s, keyFn (.str s) = keyFn' (.str s)) (ps : List (PyStr × Val))
    (hv : ∀ s x, (s, x) ∈ ps → Rel (Grown new) (valFn x) (valFn' x)) {acc acc' : List (Val × Val)}
    (ha : GrownE new acc acc') :
    Rel (GrownE new) (dictComp E.info keyFn valFn acc (entries ps))
      (dictComp info keyFn' valFn' acc' (entries ps)) := by
  induction ps generalizing acc acc' with
  | nil => exact .pure ha
  | cons p ps ih =>
    obtain ⟨s, x⟩ := p
    show Rel (GrownE new) (dictComp E.info keyFn valFn acc ((.str s, x) :: entries ps))
      (dictComp info keyFn' valFn' acc' ((.str s, x) :: entries ps))
    rw [dictComp, dictComp, hk s]
    refine Rel.bind (Rel.eq _) fun k k' _ _ hkk => ?_
    subst hkk
    refine (hv s x List.mem_cons_self).bind fun a b _ _ hab => ?_
    rw [hashable_eq U k]
    split
    · exact ih (fun s x h => hv s x (List.mem_cons_of_mem _ h)) (ha.set k hab)
    · exact Rel.raise _

theorem dictDes_rel (U : Upgrade E info con desers new) (hr : Ih E new rec rec') {v : Val} {args : List Ty}
    {arg : Option Ty} {kw : LoadKw} (hk : KwOk kw) (hv : Json v)
    (ha : (args = [] ∧ arg = none) ∨ ∃ k t, args = [k, t] ∧ arg = some t ∧
      ∀ s kw', rec (.str s) (some k) kw' = rec' (.str s) (some k) kw')
    (hkeys : ∀ ps, v = .dict (entries ps) → keysKey ∉ ps.map (·.1))
    (h : ∀ ps s x, v = .dict (entries ps) → (s, x) ∈ ps → Fits E.info new arg x) :
    Rel (GrownE new) (dictDes E rec v args kw) (dictDes E' rec' v args kw) := by
  unfold dictDes
  cases hv with
  | dict ps hn hm hj =>
    have h1 : ∀ (E : LEnv) (rec : LRec),
        loadHashedKeys E rec (.dict (entries ps)) args kw = pure (entries ps, false) := by
      intro E rec
      simp only [loadHashedKeys, dictGet_entries, assoc_none.2 (hkeys ps rfl)]
    rw [h1, h1, pure_bind', pure_bind']
    rcases ha with ⟨rfl, rfl⟩ | ⟨k, t, rfl, rfl, hkey⟩
    · exact comp_rel U (fun _ => rfl) ps (fun s x hx => hr _ _ _ (h ps s x rfl hx) hk.withKt) .nil
    · refine comp_rel U (fun s => ?_) ps (fun s x hx => hr _ _ _ (h ps s x rfl hx) hk.withKt) .nil
      simp only [Bool.false_eq_true, if_false]
      rw [hk.ktd]
      show (pure (Val.str s) >>= _) = (pure (Val.str s) >>= _)
      rw [pure_bind', pure_bind']
      exact hkey s _
  | _ => exact Rel.raise _

theorem ddict_rel (hr : Ih E new rec rec') {t : Ty} {kw : LoadKw} (hk : KwOk kw) {v : Val}
    (h : (t.getArgs = [] ∧ Fits E.info new (some (.gen .dict [])) v) ∨
      ∃ k u, t.getArgs = [k, u] ∧ Fits E.info new (some (.gen .dict [k, u])) v) :
    Rel (Grown new) (defaultdictDes rec v t kw) (defaultdictDes rec' v t kw) := by
  have hfin : ∀ (f : Option Ty) (a b : Val), Grown new a b →
      Rel (Grown new) (match a with
        | .dict es => pure (.ddict f es)
        | _ => Res.raise { kind := .typeError })
        (match b with
        | .dict es => pure (.ddict f es)
        | _ => Res.raise { kind := .typeError }) := by
    intro f a b hab
    cases hab with
    | dict es gs h1 h2 => exact .pure (.ddict f es gs h1 h2)
    | _ => exact Rel.raise _
  unfold defaultdictDes
  rcases h with ⟨ha, h⟩ | ⟨k, u, ha, h⟩
  · rw [ha]
    show Rel (Grown new) (pure _ >>= _) (pure _ >>= _)
    rw [pure_bind', pure_bind']
    exact (hr _ _ _ h hk).bind fun a b _ _ hab => hfin none a b hab
  · rw [ha]
    show Rel (Grown new) (pure _ >>= _) (pure _ >>= _)
    rw [pure_bind', pure_bind']
    exact (hr _ _ _ h hk).bind fun a b _ _ hab => hfin (some u) a b hab

/-! ## Named tuples -/

theorem ntupleLoop_rel (U : Upgrade E info con desers new) (hr : Ih E new rec rec') {v : Val} {c : Nat}
    {tfm : Option (List (Val × Val))} {len : Nat} {kw : LoadKw} (hk : KwOk kw)
    (hc : (E.info c).kind = .ntuple) (names : List PyStr) (i : Nat)
    (h : ∀ j s x, names[j]? = some s → ntupleField (E.info c) v tfm len (i + j) s = .ok x →
      Fits E.info new (if (E.info c).hasAnnotations then assoc (E.info c).hints s else none) x) :
    Rel (GrownL new) (ntupleLoop E rec c v tfm len kw i names) (ntupleLoop E' rec' c v tfm len kw i names) := by
  induction names generalizing i with
  | nil => exact .pure .nil
  | cons s names ih =>
    rw [ntupleLoop, ntupleLoop]
    have hI : (E').info c = E.info c := U.tuples c hc
    rw [hI]
    dsimp only
    have hfit : ∀ x, ntupleField (E.info c) v tfm len i s = .ok x →
        Fits E.info new (if (E.info c).hasAnnotations then assoc (E.info c).hints s else none) x :=
      fun x hx => h 0 s x rfl hx
    generalize (if (E.info c).hasAnnotations then assoc (E.info c).hints s else none) = hint at hfit ⊢
    refine Rel.bind (Rel.eq _) fun x x' hx _ hxx => ?_
    subst hxx
    split
    · exact Rel.raise _
    · refine (hr _ _ _ (hfit x (liftK_ok.1 hx)) hk).bind fun a b _ _ hab => ?_
      refine (ih (i + 1) fun j s x hs hx => h (j + 1) s x (by simpa using hs) ?_).bind
        fun as bs _ _ h => .pure (.cons hab h)
      rw [← hx]
      congr 1
      omega

theorem ntupleTfm_id {info : Nat → ClassInfo} {kw : LoadKw} (hk : KwOk kw) {v : Val} (hv : Json v) :
    ntupleTfm info (kw.keyTransformer.getD .ok) v = .ok (dictOf v) := by
  cases hv with
  | dict ps hn =>
    have := transformKeys_id (info := info) hk.ktd ps [] hn
    show Except.map some (transformKeys info _ (entries []) (entries ps)) = _
    rw [this]
    rfl
  | _ => rfl

theorem ntupleDes_rel (U : Upgrade E info con desers new) (hr : Ih E new rec rec') {v : Val} {c : Nat}
    {kw : LoadKw} (hk : KwOk kw) (hv : Json v) (hc : (E.info c).kind = .ntuple)
    (h : ∀ xs i s x, v.iter = some xs → (E.info c).fields[i]? = some s →
      ntupleField (E.info c) v (dictOf v) xs.length i s = .ok x →
      Fits E.info new (if (E.info c).hasAnnotations then assoc (E.info c).hints s else none) x) :
    Rel (Grown new) (ntupleDes E rec v c kw) (ntupleDes E' rec' v c kw) := by
  unfold ntupleDes
  rw [ntupleTfm_id hk hv, ntupleTfm_id hk hv]
  refine Rel.bind (R := Eq) (Rel.eq _) fun a b ha _ hab => ?_
  subst hab
  have ha : dictOf v = a := by rw [lift_val] at ha; cases ha; rfl
  subst ha
  cases hi : v.iter with
  | none => exact Rel.raise _
  | some xs =>
    have hI : (E').info c = E.info c := U.tuples c hc
    rw [hI]
    refine (ntupleLoop_rel U hr hk hc _ 0 fun j s x hs hx => ?_).bind
      fun as bs _ _ h => .pure (.ntuple _ _ _ h.1 h.2)
    exact h xs j s x hi hs (by rw [← hx]; congr 1; omega)

end

/-! ## Objects -/

section
variable {E : LEnv} {info : Nat → ClassInfo}
  {con : Nat → List (PyStr × Val) → Except Err (List (PyStr × Val))}
  {desers : Nat → Registry.Table DesFn Ty} {new : Nat → PyStr → Option Val}

/-- The new program. -/
local notation "E'" => upgraded E info con desers

variable {rec rec' : LRec}

theorem metaFor_none {E : LEnv} {kw : LoadKw} (hk : KwOk kw) (n : PyStr) : metaFor E kw n = .ok (none, []) := by
  unfold metaFor
  rw [hk.hints]
  rfl

/-- Optional values. -/
def GrownO (new : Nat → PyStr → Option Val) : Option Val → Option Val → Prop
  | some x, some y => Grown new x y
  | none, none => True
  | _, _ => False

theorem valueFromObj_rel (hr : Ih E new rec rec') {obj : Val} {name : PyStr} {hint : Option Ty} {kw : LoadKw}
    (hk : KwOk kw) (h : ∀ x, subscript obj name = .ok x → Fits E.info new hint x) :
    Rel (Grown new) (valueFromObj E rec obj name hint kw) (valueFromObj E' rec' obj name hint kw) := by
  unfold valueFromObj
  rw [metaFor_none hk, metaFor_none hk, liftS_of_ok, pure_bind', pure_bind']
  refine Rel.bind (Rel.eq _) fun x x' hx _ hxx => ?_
  subst hxx
  have h4 : determinePrecedence hint none none true = hint := by
    unfold determinePrecedence
    cases hint <;> rfl
  dsimp only
  rw [h4]
  exact hr _ _ _ (h x (liftK_ok.1 hx)) ⟨hk.kt, rfl, rfl⟩

theorem keep_rel (U : Upgrade E info con desers new) (hr : Ih E new rec rec') {obj : Val} {c : Nat} {kw : LoadKw}
    (hk : KwOk kw) {p p' : Param} (hn : p.name = p'.name) (hnew : new c p.name = none)
    (hvar : p.variadic = p'.variadic)
    (hd : (p.default = none ∧ p'.default = none) ∨
      ∃ d d', p.default = some d ∧ p'.default = some d' ∧ Grown new d d')
    (h : ∀ x, subscript obj p.name = .ok x → Fits E.info new (assoc (E.info c).initHints p.name) x) :
    Rel (GrownO new) (valueForAttr E rec obj c kw p) (valueForAttr E' rec' obj c kw p') := by
  unfold valueForAttr
  have hh : assoc ((E').info c).initHints p'.name = assoc (E.info c).initHints p.name := by
    rw [← hn]; exact U.initHints c _ hnew
  dsimp only
  rw [hh, ← hn, hk.getters, ← hvar]
  refine Rel.bind (Rel.eq _) fun b b' _ _ hbb => ?_
  subst hbb
  split
  · refine (valueFromObj_rel hr hk h).bind fun a b _ _ hab => .pure hab
  · show Rel (GrownO new) (match p.default with
        | some d => _
        | none => _) (match p'.default with
        | some d => _
        | none => _)
    rcases hd with ⟨h1, h2⟩ | ⟨d, d', h1, h2, hdd⟩
    · rw [h1, h2]
      dsimp only
      split
      · exact .pure trivial
      · rw [canMatch_eq U]
        refine Rel.bind (Rel.eq _) fun b b' _ _ hbb => ?_
        subst hbb
        split
        · exact .pure (.atom _)
        · exact Rel.raise _
    · rw [h1, h2]
      exact .pure hdd

theorem add_val (U : Upgrade E info con desers new) {obj : Val} {c : Nat} {kw : LoadKw}
    (hk : KwOk kw) {p : Param} {d : Val}
    (hd : p.default = some d ∨ (p.default = none ∧ p.variadic = false ∧ d = .none ∧
      canMatchWithNone E (assoc (info c).initHints p.name) = .ok true))
    (h : keyIn obj p.name = .ok false) :
    valueForAttr E' rec' obj c kw p = pure (some d) := by
  unfold valueForAttr
  dsimp only
  rw [hk.getters, h, liftK_of_ok, pure_bind', if_neg (by decide)]
  rcases hd with hd | ⟨hd, hvar, rfl, hm⟩
  · rw [hd]; rfl
  · rw [hd, hvar, canMatch_eq U]
    show (if false = true then _ else Res.liftK (canMatchWithNone E (assoc (info c).initHints p.name)) >>= _) = _
    rw [hm, if_neg (by decide)]
    rfl

/-- Arguments. -/
structure Args (new : Nat → PyStr → Option Val) (c : Nat) (ps' : List Param)
    (args args' : List (PyStr × Val)) : Prop where
  same : ∀ s, new c s = none → (assoc args s).isSome = (assoc args' s).isSome
  grown : ∀ s x y, new c s = none → assoc args s = some x → assoc args' s = some y → Grown new x y
  old : ∀ s d, new c s = some d → assoc args s = none
  added : ∀ p ∈ ps', ∀ d, new c p.name = some d → assoc args' p.name = some d

theorem ctorArgs_rel (U : Upgrade E info con desers new) (hr : Ih E new rec rec') {obj : Val} {c : Nat}
    {kw : LoadKw} (hk : KwOk kw) (hin : ∀ s, new c s ≠ none → keyIn obj s = .ok false)
    {ps ps' : List Param}
    (hw : Wider E (Grown new) (new c) (fun s => assoc (info c).initHints s) ps ps')
    (h : ∀ p ∈ ps, ∀ x, subscript obj p.name = .ok x → Fits E.info new (assoc (E.info c).initHints p.name) x) :
    Rel (Args new c ps') (ctorArgs E rec obj c kw ps) (ctorArgs E' rec' obj c kw ps') := by
  induction hw with
  | nil =>
    exact .pure ⟨fun _ _ => rfl, (fun _ _ _ _ h => by cases h), fun _ _ _ => rfl, fun _ h => by cases h⟩
  | keep p p' ps ps' hn hnew hvar hd _ ih =>
    rw [ctorArgs, ctorArgs]
    refine (keep_rel U hr hk hn hnew hvar hd (h p List.mem_cons_self)).bind fun a b _ _ hab => ?_
    refine (ih fun q hq => h q (List.mem_cons_of_mem _ hq)).bind fun as bs _ _ hs => ?_
    have hadd : ∀ q ∈ p' :: ps', ∀ d, new c q.name = some d → q ∈ ps' := by
      intro q hq d hqd
      rcases List.mem_cons.1 hq with rfl | hq
      · rw [← hn, hnew] at hqd; cases hqd
      · exact hq
    cases a with
    | none =>
      cases b with
      | some b => cases hab
      | none => exact .pure ⟨hs.same, hs.grown, hs.old, fun q hq d hd => hs.added q (hadd q hq d hd) d hd⟩
    | some a =>
      cases b with
      | none => cases hab
      | some b =>
        refine .pure ⟨fun s hs' => ?_, fun s x y hs' => ?_, fun s d hs' => ?_, fun q hq d hd => ?_⟩
        · simp only [assoc, ← hn]
          split
          · rfl
          · exact hs.same s hs'
        · simp only [assoc, ← hn]
          split
          · intro hx hy; cases hx; cases hy; exact hab
          · exact hs.grown s x y hs'
        · have : p.name ≠ s := fun h => by subst h; rw [hnew] at hs'; cases hs'
          simp only [assoc, if_neg this]
          exact hs.old s d hs'
        · have : p'.name ≠ q.name := fun h => by rw [← h, ← hn, hnew] at hd; cases hd
          simp only [assoc, if_neg this]
          exact hs.added q (hadd q hq d hd) d hd
  | add p d ps ps' hnew hd _ ih =>
    rw [show ctorArgs E' rec' obj c kw (p :: ps') = (ctorArgs E' rec' obj c kw ps' >>= fun r =>
        pure ((p.name, d) :: r)) by
      rw [ctorArgs, add_val U hk hd (hin _ (by rw [hnew]; simp)), pure_bind']]
    rw [show ctorArgs E rec obj c kw ps = (ctorArgs E rec obj c kw ps >>= pure) by
      refine res_ext ?_ ?_
      · rw [bind_log]; split <;> simp
      · rw [bind_val]; split
        · next h => rw [h]; rfl
        · next h => exact h]
    refine (ih h).bind fun as bs _ _ hs => ?_
    refine .pure ⟨fun s hs' => ?_, fun s x y hs' => ?_, hs.old, fun q hq d' hd' => ?_⟩
    · have : p.name ≠ s := fun h => by subst h; rw [hnew] at hs'; cases hs'
      simp only [assoc, if_neg this]
      exact hs.same s hs'
    · have : p.name ≠ s := fun h => by subst h; rw [hnew] at hs'; cases hs'
      simp only [assoc, if_neg this]
      exact hs.grown s x y hs'
    · simp only [assoc]
      split
      · next hpq => rw [← hpq, hnew] at hd'; exact hd'
      · next hpq =>
        rcases List.mem_cons.1 hq with rfl | hq
        · exact absurd rfl hpq
        · exact hs.added q hq d' hd'

theorem setRemaining_rel (U : Upgrade E info con desers new) (hr : Ih E new rec rec') {c : Nat}
    {kw : LoadKw} (hk : KwOk kw) (ps : List (PyStr × Val))
    (h : ∀ s x, (s, x) ∈ ps → new c s = none ∧
      Fits E.info new (some ((assoc (E.info c).hints s).getD (.cls x.cls))) x)
    {as bs : List (PyStr × Val)} (hab : GrownA new c as bs) :
    Rel (GrownA new c) (setRemaining E rec c kw (entries ps) as)
      (setRemaining E' rec' c kw (entries ps) bs) := by
  induction ps generalizing as bs with
  | nil => exact .pure hab
  | cons p ps ih =>
    obtain ⟨s, x⟩ := p
    obtain ⟨hs, hfit⟩ := h s x List.mem_cons_self
    show Rel (GrownA new c) (setRemaining E rec c kw ((.str s, x) :: entries ps) as)
      (setRemaining E' rec' c kw ((.str s, x) :: entries ps) bs)
    rw [setRemaining, setRemaining]
    have hann : annotation ((E').info c) (.str s) = assoc (E.info c).hints s := U.hints c s hs
    have hann' : annotation (E.info c) (.str s) = assoc (E.info c).hints s := rfl
    rw [hann, hann']
    refine Rel.bind (R := fun _ _ => True) ((Rel.eq (warnHashed E.toEnv kw.fork x _)).mono fun _ _ _ => trivial)
      fun _ _ _ _ _ => ?_
    have hk' : KwOk { kw with attrGetters := [] } := ⟨hk.kt, hk.hints, rfl⟩
    refine (hr _ _ _ hfit hk').bind fun a b _ _ hxy => ?_
    have h1 : setOne E c as (.str s) a = .ok (assocSet as s a) := by simp only [setOne, U.set]
    have h2 : setOne E' c bs (.str s) b = .ok (assocSet bs s b) := by
      have : (E').setAttr c bs s b = .ok (assocSet bs s b) := U.set c bs s b
      simp only [setOne, this]
    rw [h1, h2]
    show Rel _ (pure _ >>= _) (pure _ >>= _)
    rw [pure_bind', pure_bind']
    exact ih (fun s x hx => h s x (List.mem_cons_of_mem _ hx)) (hab.set hs hxy)

theorem keyIn_cases {v : Val} (hv : Json v) : (∀ s, ∃ b, keyIn v s = .ok b) ∨
    ((∀ s, keyIn v s = .error .typeError) ∧ ∀ args, remainingAttrs v args = .error .typeError) := by
  by_cases hf : v.falsy
  · left
    intro s
    unfold keyIn
    rw [if_pos hf]
    exact ⟨_, rfl⟩
  · cases hv with
    | none | bool | int | float =>
      right
      refine ⟨fun s => ?_, fun _ => rfl⟩
      unfold keyIn
      rw [if_neg hf]
    | str | list | dict =>
      left
      intro s
      unfold keyIn
      rw [if_neg hf]
      exact ⟨_, rfl⟩

theorem args_none {rec : LRec} {E : LEnv} {v : Val} {c : Nat} {kw : LoadKw} {ps : List Param}
    (h1 : ∀ s, keyIn v s = .error .typeError) (h2 : ∀ args, remainingAttrs v args = .error .typeError)
    {β : Type} (f : List (PyStr × Val) → List (Val × Val) → Res β) :
    (ctorArgs E rec v c kw ps >>= fun args => getRemainingArgs v c args kw.strict >>= f args) =
      Res.raise { kind := .typeError } := by
  cases ps with
  | nil =>
    show (pure [] >>= _) = _
    rw [pure_bind']
    unfold getRemainingArgs
    rw [h2]
    rfl
  | cons p ps =>
    rw [ctorArgs]
    unfold valueForAttr
    dsimp only
    rw [h1]
    rfl

/-- The entries that are not arguments. -/
theorem filter_entries (ps : List (PyStr × Val)) (args : List (PyStr × Val)) :
    remainingAttrs (.dict (entries ps)) args =
      .ok (entries (ps.filter fun p => (assoc args p.1).isNone && decide (p.1 ≠ metaKey))) := by
  show Except.ok _ = _
  congr 1
  unfold entries
  rw [List.filter_map]
  rfl

theorem object_rel (U : Upgrade E info con desers new) (hr : Ih E new rec rec') {obj : Val} {c : Nat}
    {kw : LoadKw} (hk : KwOk kw) (hv : Json obj)
    (hin : ∀ s, new c s ≠ none → keyIn obj s ≠ .ok true)
    (hp : ∀ ps s x, obj = .dict (entries ps) → assoc ps s = some x →
      s ∈ (E.info c).params.map (·.name) → Fits E.info new (assoc (E.info c).initHints s) x)
    (hq : ∀ ps s x, obj = .dict (entries ps) → assoc ps s = some x →
      s ∉ (E.info c).params.map (·.name) →
      Fits E.info new (some ((assoc (E.info c).hints s).getD (.cls x.cls))) x) :
    Rel (Grown new)
      (ctorArgs E rec obj c kw (E.info c).params >>= fun args =>
        getRemainingArgs obj c args kw.strict >>= fun rest =>
        Res.lift (E.construct c args) >>= fun as =>
        setRemaining E rec c kw rest as >>= fun as =>
        Res.lift (setGetters E c kw.attrGetters as) >>= fun as => pure (.obj c as))
      (ctorArgs E' rec' obj c kw (info c).params >>= fun args =>
        getRemainingArgs obj c args kw.strict >>= fun rest =>
        Res.lift (con c args) >>= fun as =>
        setRemaining E' rec' c kw rest as >>= fun as =>
        Res.lift (setGetters E' c kw.attrGetters as) >>= fun as => pure (.obj c as)) := by
  rcases keyIn_cases hv with hok | ⟨h1, h2⟩
  · have hin' : ∀ s, new c s ≠ none → keyIn obj s = .ok false := by
      intro s hs
      obtain ⟨b, hb⟩ := hok s
      cases b with
      | false => exact hb
      | true => exact absurd hb (hin s hs)
    refine (ctorArgs_rel U hr hk hin' (U.params c) ?_).bind fun args args' ha _ hargs => ?_
    · intro p hpm x hx
      cases hv with
      | dict ps =>
        refine hp ps p.name x rfl ?_ (List.mem_map_of_mem hpm)
        simp only [subscript, dictGet_entries] at hx
        split at hx
        · next w hw => cases hx; exact hw
        · cases hx
      | _ => cases hx
    · have hsplit : ∃ r : Except ErrKind (List (PyStr × Val)),
          remainingAttrs obj args = r.map entries ∧ remainingAttrs obj args' = r.map entries ∧
          ∀ ps, r = .ok ps → ∀ s x, (s, x) ∈ ps → new c s = none ∧
            Fits E.info new (some ((assoc (E.info c).hints s).getD (.cls x.cls))) x := by
        cases hv with
        | dict ps hn =>
          have hnew : ∀ s x, (s, x) ∈ ps → new c s = none := by
            intro s x hx
            by_contra hs
            have h1 := hin' s hs
            rw [KeyOrder.keyIn_entries, KeyOrder.assoc_of_mem hn hx] at h1
            cases h1
          refine ⟨.ok _, filter_entries ps args, ?_, ?_⟩
          · rw [filter_entries ps args']
            show Except.ok _ = Except.ok _
            congr 2
            refine List.filter_congr fun p hpm => ?_
            obtain ⟨s, x⟩ := p
            have := hargs.same s (hnew s x hpm)
            cases h1 : assoc args s <;> cases h2 : assoc args' s <;> simp_all
          · intro qs hqs s x hx
            cases hqs
            obtain ⟨hx, hnone⟩ := List.mem_filter.1 hx
            refine ⟨hnew s x hx, hq ps s x rfl (KeyOrder.assoc_of_mem hn hx) fun hs => ?_⟩
            obtain ⟨p, hpm, rfl⟩ := List.mem_map.1 hs
            have := ctorArgs_has ha hpm (by rw [KeyOrder.assoc_of_mem hn hx]; rfl)
            dsimp only at hnone
            rw [Bool.and_eq_true, Option.isNone_iff_eq_none] at hnone
            rw [hnone.1] at this
            cases this
        | str s =>
          cases s with
          | nil => exact ⟨.ok [], rfl, rfl, fun ps h s x hx => by cases h; cases hx⟩
          | cons => exact ⟨.error .typeError, rfl, rfl, fun ps h => by cases h⟩
        | list xs =>
          cases xs with
          | nil => exact ⟨.ok [], rfl, rfl, fun ps h s x hx => by cases h; cases hx⟩
          | cons => exact ⟨.error .typeError, rfl, rfl, fun ps h => by cases h⟩
        | _ => exact ⟨.error .typeError, rfl, rfl, fun ps h => by cases h⟩
      obtain ⟨r, hr1, hr2, hr3⟩ := hsplit
      unfold getRemainingArgs
      rw [hr1, hr2]
      refine Rel.bind (R := fun a b => a = b ∧ ∃ ps, r = .ok ps ∧ a = entries ps) ?_ ?_
      · refine Rel.bind (Rel.eq _) fun a b ha _ hab => ?_
        subst hab
        have hps : ∃ ps, r = .ok ps ∧ a = entries ps := by
          have := liftK_ok.1 ha
          cases r with
          | error => cases this
          | ok ps => cases this; exact ⟨ps, rfl, rfl⟩
        split
        · split
          · exact Rel.raise _
          · exact .pure ⟨rfl, hps⟩
        · exact .pure ⟨rfl, hps⟩
      · rintro _ _ _ _ ⟨rfl, ps, hps, rfl⟩
        have hga : GrownA new c args args' :=
          ⟨hargs.same, hargs.grown, fun s d hs => ⟨hargs.old s d hs, by
            obtain ⟨p, hpm, rfl⟩ := U.all c s d hs
            exact hargs.added p hpm d hs⟩⟩
        refine (Rel.lift (U.ctor c args args' hga)).bind fun as bs _ _ hab => ?_
        refine (setRemaining_rel U hr hk ps (hr3 ps hps) hab).bind fun as bs _ _ hab => ?_
        rw [hk.getters]
        show Rel (Grown new) (pure as >>= _) (pure bs >>= _)
        rw [pure_bind', pure_bind']
        exact .pure (.obj c as bs hab.1 hab.2.1 hab.2.2)
  · rw [args_none h1 h2, args_none h1 h2]
    exact Rel.raise _

theorem transformObj_json {info : Nat → ClassInfo} {kw : LoadKw} (hk : KwOk kw) {v : Val} (hv : Json v) :
    transformObj info v kw.keyTransformer = .ok v ∨
    ((∀ es, v ≠ .dict es) ∧ ∃ r, (∀ info', transformObj info' v kw.keyTransformer = r) ∧
      ((∃ e, r = .error e) ∨ r = .ok (.dict []))) := by
  cases h : kw.keyTransformer with
  | none => exact .inl rfl
  | some f =>
    cases hv with
    | dict ps hn =>
      left
      have := transformKeys_id (info := info) (hk.kt f h) ps [] hn
      show Except.map _ (transformKeys info f (entries []) (entries ps)) = _
      rw [this]
      rfl
    | str s =>
      refine .inr ⟨nofun, ?_⟩
      cases s with
      | nil => exact ⟨_, fun _ => rfl, .inr rfl⟩
      | cons => exact ⟨_, fun _ => rfl, .inl ⟨_, rfl⟩⟩
    | list xs =>
      refine .inr ⟨nofun, ?_⟩
      cases xs with
      | nil => exact ⟨_, fun _ => rfl, .inr rfl⟩
      | cons => exact ⟨_, fun _ => rfl, .inl ⟨_, rfl⟩⟩
    | _ => exact .inr ⟨nofun, _, fun _ => rfl, .inl ⟨_, rfl⟩⟩

theorem transformObj_info {kw : LoadKw} (hk : KwOk kw) {v : Val} (hv : Json v) (i j : Nat → ClassInfo) :
    transformObj i v kw.keyTransformer = transformObj j v kw.keyTransformer := by
  rcases transformObj_json (info := i) hk hv with h | ⟨_, r, h, _⟩
  · rcases transformObj_json (info := j) hk hv with h' | ⟨_, r, h', _⟩
    · rw [h, h']
    · rw [h', h']
  · rw [h, h]

theorem objectDes_rel (U : Upgrade E info con desers new) (hr : Ih E new rec rec') {v : Val} {c : Nat}
    {kw : LoadKw} (hk : KwOk kw) (hv : Json v)
    (hin : ∀ s, new c s ≠ none → keyIn v s ≠ .ok true)
    (hp : ∀ ps s x, v = .dict (entries ps) → assoc ps s = some x →
      s ∈ (E.info c).params.map (·.name) → Fits E.info new (assoc (E.info c).initHints s) x)
    (hq : ∀ ps s x, v = .dict (entries ps) → assoc ps s = some x →
      s ∉ (E.info c).params.map (·.name) →
      Fits E.info new (some ((assoc (E.info c).hints s).getD (.cls x.cls))) x) :
    Rel (Grown new) (objectDes E rec v (.cls (.user c)) kw) (objectDes E' rec' v (.cls (.user c)) kw) := by
  unfold objectDes
  dsimp only
  rw [transformObj_info hk hv (E').info E.info]
  refine Rel.bind (Rel.eq _) fun obj obj' ho _ hoo => ?_
  subst hoo
  rw [lift_val] at ho
  rcases transformObj_json (info := E.info) hk hv with h | ⟨hnd, r, h, hr'⟩
  · rw [h] at ho
    cases ho
    exact object_rel U hr hk hv hin hp hq
  · rw [h] at ho
    rcases hr' with ⟨e, rfl⟩ | rfl
    · cases ho
    · cases ho
      have he : ∀ ps, Val.dict [] = .dict (entries ps) → ps = [] := by
        intro ps hps
        cases ps with
        | nil => rfl
        | cons => cases hps
      refine object_rel U hr hk (.dict [] (by simp) (by simp) (fun _ _ h => by cases h)) ?_ ?_ ?_
      · intro s _ hs
        cases hs
      · intro ps s x hps hx
        rw [he ps hps] at hx; cases hx
      · intro ps s x hps hx
        rw [he ps hps] at hx; cases hx

/-! ## The theorem -/

theorem enum_eq (U : Upgrade E info con desers new) {v : Val} {c : Nat} {kw : LoadKw} :
    enumDes E' v (.cls (.user c)) kw = enumDes E v (.cls (.user c)) kw := by
  unfold enumDes enumByName enumByValue
  have : ((E').info c).enumMembers = (E.info c).enumMembers := U.enums c
  simp only [this]

theorem enumDes_grown {v r : Val} {c : Nat} {kw : LoadKw}
    (h : (enumDes E v (.cls (.user c)) kw).val = .ok r) : ∃ m, r = .enum c m := by
  have h1 : ∀ r, enumByName (E.info c) c v = .ok r → ∃ m, r = .enum c m := by
    intro r h
    unfold enumByName at h
    split at h
    · split at h
      · cases h; exact ⟨_, rfl⟩
      · cases h
    · cases h
  have h2 : ∀ r, enumByValue (E.info c) c v = .ok r → ∃ m, r = .enum c m := by
    intro r h
    unfold enumByValue at h
    split at h
    · cases h; exact ⟨_, rfl⟩
    · cases h
  unfold enumDes at h
  dsimp only at h
  split at h
  · exact h1 r (liftK_ok.1 h)
  · exact h2 r (liftK_ok.1 h)
  · split at h
    · next r' h' => cases h; exact h1 r h'
    · exact h2 r (liftK_ok.1 h)

theorem primitive_grown {v r : Val} (hv : Json v) {t : Ty} (h : (primitiveDes E v t).val = .ok r) :
    Grown new r r := by
  unfold primitiveDes at h
  split at h
  · cases h; exact hv.grown
  · split at h
    · cases h
    · cases h; exact hv.grown
    · split at h
      · next r' h' =>
        cases h
        unfold Env.cast at h'
        split at h'
        · cases h'; exact .atom _
        · cases h'; exact .atom _
        · cases hi : E.intOf v with
          | error => rw [hi] at h'; cases h'
          | ok => rw [hi] at h'; cases h'; exact .atom _
        · cases hi : E.floatOf v with
          | error => rw [hi] at h'; cases h'
          | ok => rw [hi] at h'; cases h'; exact .atom _
        · cases h'
      · split at h <;> cases h

theorem map_atom {α : Type} {x : Except ErrKind α} {g : α → Atom} {r : Val}
    (h : (Res.liftK (x.map fun d => Val.atom (g d))).val = .ok r) : Grown new r r := by
  have h := liftK_ok.1 h
  cases x with
  | error => cases h
  | ok a => cases h; exact .atom _

theorem scalar_grown {v r : Val} {c : Cls} {f : DesFn} {kw : LoadKw} (hv : Json v) (hc : c ∈ scalars)
    (hf : (Ty.cls c).desFn E.info = some f)
    (hd : ∀ r, (rec v (some (.cls .datetime)) kw).val = .ok r → Grown new r r)
    (h : (callDes E rec f v (.cls c) kw).val = .ok r) : Grown new r r := by
  simp only [scalars, List.mem_cons, List.not_mem_nil, or_false] at hc
  rcases hc with rfl | rfl | rfl | rfl | rfl | rfl | rfl | rfl | rfl | rfl | rfl | rfl <;> cases hf <;>
    simp only [callDes, Cls.desFn] at h
  · unfold noneTypeDes at h
    split at h
    · cases h; exact hv.grown
    · cases h
  · exact primitive_grown hv h
  · exact primitive_grown hv h
  · exact primitive_grown hv h
  · unfold stringDes at h
    split at h
    · cases h; exact .atom _
    · rw [Core.bind_ok] at h
      obtain ⟨o, ho, h⟩ := h
      rw [attempt_val, Except.ok.injEq] at ho
      cases o with
      | ok r' => cases h; exact hd r ho
      | error e =>
        dsimp only at h
        split at h
        · exact primitive_grown hv h
        · cases h
  · unfold datetimeDes at h
    split at h
    · exact map_atom h
    · cases h
  · unfold dateDes at h
    split at h
    · exact map_atom h
    · cases h
  · unfold timeDes at h
    split at h
    · exact map_atom h
    · cases h
  · unfold timedeltaDes at h
    split at h
    · cases h; exact .atom _
    · cases h; exact .atom _
    · cases h; exact .atom _
    · cases h
  · exact map_atom h
  · exact map_atom h
  · exact map_atom h

/-- A value without parts, as a relation. -/
theorem scalar_rel (U : Upgrade E info con desers new) {n : Nat} (ih : Ih E new (load E n) (load E' n)) {c : Cls}
    {f : DesFn} {v : Val} {kw : LoadKw} (hk : KwOk kw) (hv : Json v) (hc : c ∈ scalars)
    (hf : (Ty.cls c).desFn E.info = some f) :
    Rel (Grown new) (callDes E (load E n) f v (.cls c) kw) (callDes E' (load E' n) f v (.cls c) kw) := by
  have hs := scalar_eq U n hv (c := .datetime) (by simp [scalars]) kw
  rw [← scalarDes_eq hv hc hf hs]
  refine Rel.refl _ fun a ha => scalar_grown hv hc hf (fun r hr => ?_) ha
  have := ih v (some (.cls .datetime)) kw (.scalar _ v (by simp [scalars]) hv) hk
  rw [← hs] at this
  obtain ⟨_, ⟨a, b, ha, hb, hab⟩ | ⟨e, he, _⟩⟩ := this
  · rw [ha] at hr hb; cases hr; cases hb; exact hab
  · rw [he] at hr; cases hr

theorem listLoop_eq {cls : Option Ty} {warn : Bool} {kw : LoadKw} (xs : List Val) (i : Nat)
    (h : ∀ x ∈ xs, rec x cls kw = rec' x cls kw) :
    listLoop E rec cls warn kw i xs = listLoop E' rec' cls warn kw i xs := by
  induction xs generalizing i with
  | nil => rfl
  | cons x xs ih =>
    have ih := fun i => ih i fun y hy => h y (List.mem_cons_of_mem _ hy)
    rw [listLoop, listLoop, h x List.mem_cons_self]
    simp only [ih]
    rfl

theorem dedup_mem (xs acc : List Val) (x : Val) (h : x ∈ dedup acc xs) : x ∈ acc ∨ x ∈ xs := by
  induction xs generalizing acc with
  | nil => exact .inl (List.mem_reverse.1 h)
  | cons y xs ih =>
    rw [dedup] at h
    split at h
    · rcases ih acc h with h | h
      · exact .inl h
      · exact .inr (List.mem_cons_of_mem _ h)
    · rcases ih (y :: acc) h with h | h
      · rcases List.mem_cons.1 h with rfl | h
        · exact .inr List.mem_cons_self
        · exact .inl h
      · exact .inr (List.mem_cons_of_mem _ h)

theorem mem_zip_self {l : List Val} {x : Val} (h : x ∈ l) : (x, x) ∈ l.zip l := by
  induction l with
  | nil => cases h
  | cons a l ih =>
    rw [List.zip_cons_cons]
    rcases List.mem_cons.1 h with rfl | h
    · exact List.mem_cons_self
    · exact List.mem_cons_of_mem _ (ih h)

theorem zip_self {l : List Val} {x y : Val} (h : (x, y) ∈ l.zip l) : x = y ∧ x ∈ l := by
  induction l with
  | nil => cases h
  | cons a l ih =>
    rw [List.zip_cons_cons, List.mem_cons] at h
    rcases h with h | h
    · cases h; exact ⟨rfl, List.mem_cons_self⟩
    · exact ⟨(ih h).1, List.mem_cons_of_mem _ (ih h).2⟩

/-- Sets of values without parts. -/
theorem set_rel (U : Upgrade E info con desers new) {n : Nat} (ih : Ih E new (load E n) (load E' n)) {g : Gen}
    {c : Cls} {v : Val} {kw : LoadKw} (hk : KwOk kw) (hv : Json v) (hc : c ∈ scalars)
    (hg : g = .set ∨ g = .frozenset) :
    Rel (Grown new) (iterableDes E (load E n) v (.gen g [.cls c]) kw)
      (iterableDes E' (load E' n) v (.gen g [.cls c]) kw) := by
  have heq : listDes E (load E n) v [.cls c] kw = listDes E' (load E' n) v [.cls c] kw := by
    unfold listDes
    cases hi : v.iter with
    | none => rfl
    | some xs => exact listLoop_eq xs 0 fun x hx => scalar_eq U n (hv.iter hi x hx) hc _
  have hl := listDes_rel (info := info) (con := con) (desers := desers) (args := [.cls c]) ih hk
    (fun xs x hi hx => .scalar c x hc (hv.iter hi x hx))
  rw [← heq] at hl
  unfold iterableDes
  show Rel (Grown new) (listDes E (load E n) v [.cls c] kw >>= _) (listDes E' (load E' n) v [.cls c] kw >>= _)
  rw [← heq]
  refine hl.bind fun ys zs hy hz h => ?_
  rw [hy] at hz
  cases hz
  have hset : ∀ k, Grown new (.seq k (dedup [] ys)) (.seq k (dedup [] ys)) := by
    intro k
    refine .seq _ _ _ rfl fun x y hxy => ?_
    obtain ⟨rfl, hx⟩ := zip_self hxy
    rcases dedup_mem ys [] x hx with hx | hx
    · cases hx
    · exact h.2 x x (mem_zip_self hx)
  have hcast : castSeq ((E').info) g.naked ys = castSeq E.info g.naked ys := by
    have := allHashable_eq U ys
    rcases hg with rfl | rfl
    · show (if Val.allHashable info ys then _ else _) = _
      rw [this]; rfl
    · show (if Val.allHashable info ys then _ else _) = _
      rw [this]; rfl
  show Rel (Grown new) (Res.liftK (castSeq E.info g.naked ys)) (Res.liftK (castSeq ((E').info) g.naked ys))
  rw [hcast]
  refine Rel.refl _ fun a ha => ?_
  have ha := liftK_ok.1 ha
  rcases hg with rfl | rfl
  · have ha : (if Val.allHashable E.info ys then Except.ok (.set (dedup [] ys)) else .error ErrKind.typeError) =
      Except.ok a := ha
    split at ha
    · cases ha; exact hset _
    · cases ha
  · have ha : (if Val.allHashable E.info ys then Except.ok (.seq .frozenset (dedup [] ys)) else .error ErrKind.typeError) =
      Except.ok a := ha
    split at ha
    · cases ha; exact hset _
    · cases ha

theorem growth (U : Upgrade E info con desers new) (n : Nat) : Ih E new (load E n) (load E' n) := by
  induction n with
  | zero => intro v o kw _ _; exact Rel.raise _
  | succ n ih =>
    intro v o kw h hk
    refine enter U h.json h.json.grown fun f hf => ?_
    have hk' := hk.callee v o
    generalize calleeKw v o kw none = kw' at hk' ⊢
    cases h with
    | any => cases hf
    | leaf _ hv hc => exact scalar_rel U ih hk' hv hc hf
    | scalar c _ hc hv => exact scalar_rel U ih hk' hv hc hf
    | enum c b _ hc hv =>
      have : f = .enum := by
        simp only [Option.getD_some, Ty.desFn, Cls.desFn, hc] at hf
        cases hf; rfl
      subst this
      show Rel (Grown new) (enumDes E v (.cls (.user c)) kw') (enumDes E' v (.cls (.user c)) kw')
      rw [enum_eq U]
      refine Rel.refl _ fun a ha => ?_
      obtain ⟨m, rfl⟩ := enumDes_grown ha
      exact .enum c m
    | union ts _ _ ht =>
      cases hf
      exact unionLoop_rel ts fun t htm => ih _ _ _ (ht t htm) hk'
    | list o arg _ ho hv hl hxs => exact list_rel ih hk' ho hl hf hxs
    | set g c _ hg hc hv =>
      have hs := set_rel U ih hk' hv hc hg
      rcases hg with rfl | rfl <;> cases hf <;> exact hs
    | tuple ts _ hv hts hxs =>
      cases hf
      exact tuplePos_rel (info := info) (con := con) (desers := desers) ih hk' hts hxs
    | dict o arg _ ho hv hcls hkeys hvals =>
      have hm : ∀ args, ((args = [] ∧ arg = none) ∨ ∃ k t, args = [.cls k, t] ∧ arg = some t ∧ k ∈ scalars) →
          Rel (Grown new) (dictDes E (load E n) v args kw' >>= fun es => pure (.dict es))
            (dictDes E' (load E' n) v args kw' >>= fun es => pure (.dict es)) := by
        intro args ha
        refine (dictDes_rel U ih hk' hv ?_ hkeys hvals).bind
          fun as bs _ _ h => .pure (.dict _ _ (GrownE.keys h) (GrownE.vals h))
        rcases ha with ha | ⟨k, t, ha, ha', hks⟩
        · exact .inl ha
        · exact .inr ⟨.cls k, t, ha, ha', fun s kw => scalar_eq U n (.str s) hks kw⟩
      have hdd : ∀ args, DictLike (some (.gen .dict args)) arg → Fits E.info new (some (.gen .dict args)) v :=
        fun args ha => .dict _ _ v ha hv (fun h => by cases h) hkeys hvals
      cases ho with
      | free =>
        rw [hcls rfl] at hf ⊢
        cases hf; exact hm [] (.inl ⟨rfl, rfl⟩)
      | cls c hc =>
        simp only [List.mem_cons, List.not_mem_nil, or_false] at hc
        rcases hc with rfl | rfl | rfl <;> cases hf
        · exact hm [] (.inl ⟨rfl, rfl⟩)
        · exact hm [] (.inl ⟨rfl, rfl⟩)
        · exact ddict_rel ih hk' (.inl ⟨rfl, hdd [] (.bare .dict (by simp))⟩)
      | bare g hg =>
        simp only [List.mem_cons, List.not_mem_nil, or_false] at hg
        rcases hg with rfl | rfl | rfl <;> cases hf
        · exact hm [] (.inl ⟨rfl, rfl⟩)
        · exact hm [] (.inl ⟨rfl, rfl⟩)
        · exact ddict_rel ih hk' (.inl ⟨rfl, hdd [] (.bare .dict (by simp))⟩)
      | gen g k t hg hks =>
        simp only [List.mem_cons, List.not_mem_nil, or_false] at hg
        rcases hg with rfl | rfl | rfl <;> cases hf
        · exact hm [.cls k, t] (.inr ⟨k, t, rfl, rfl, hks⟩)
        · exact hm [.cls k, t] (.inr ⟨k, t, rfl, rfl, hks⟩)
        · exact ddict_rel ih hk' (.inr ⟨.cls k, t, rfl, hdd _ (.gen .dict k t (by simp) hks)⟩)
    | obj c _ hc hv h1 h2 h3 =>
      have : f = .object := by
        simp only [Option.getD_some, Ty.desFn, Cls.desFn, hc] at hf
        cases hf; rfl
      subst this
      exact objectDes_rel U ih hk' hv h1 h2 h3
    | ntuple c _ hc hv h1 =>
      have : f = .tuple := by
        simp only [Option.getD_some, Ty.desFn, Cls.desFn, hc] at hf
        cases hf; rfl
      subst this
      have hc' : ((E').info c).kind = .ntuple := (U.kind c).trans hc
      show Rel (Grown new) (tupleDes E (load E n) _ (.cls (.user c)) kw')
        (tupleDes E' (load E' n) _ (.cls (.user c)) kw')
      unfold tupleDes
      simp only [hc, hc', if_true]
      exact ntupleDes_rel U ih hk' hv hc h1

/-- A class gets more parameters, each with a default value, or with a hint that admits `None` (or no
hint at all).  Then a document without entries of these names is loaded as before: the same
exception, or the same value, in which instances of such classes have the new attributes, with the
default values; with the same warnings.  Missing: documents with `'-meta'` or `'-keys'`, key
transformers, `attr_getters`, sets of objects, `NewType`s, deserializers and validators of the program, fields of
named tuples. -/
theorem schema_growth_partial (U : Upgrade E info con desers new) (n : Nat) {v : Val} {o : Option Ty}
    {kw : LoadKw} (h : Fits E.info new o v) (hk : KwOk kw) :
    (∀ r, (load E n v o kw).val = .ok r → ∃ r', (load E' n v o kw).val = .ok r' ∧ Grown new r r') ∧
    (∀ e, (load E n v o kw).val = .error e → (load E' n v o kw).val = .error e) ∧
    (load E' n v o kw).log = (load E n v o kw).log := by
  obtain ⟨hl, ⟨a, b, ha, hb, hab⟩ | ⟨e, he, he'⟩⟩ := growth U n v o kw h hk
  · exact ⟨(fun r hr => by rw [ha] at hr; cases hr; exact ⟨b, hb, hab⟩),
      (fun e he => by rw [ha] at he; cases he), hl.symm⟩
  · exact ⟨(fun r hr => by rw [he] at hr; cases hr),
      (fun e1 he1 => by rw [he] at he1; cases he1; exact he'), hl.symm⟩

end

/-! ## Examples -/

/-- The classes of the example: `Point` gets a parameter `z: int = 0`, `Person` gets a parameter
`email` without a hint and without a default value. -/
def growInfo : Nat → ClassInfo
  | 0 => { demoInfo 0 with
           hints := (demoInfo 0).hints ++ [("z".toList, .cls .int)]
           initHints := (demoInfo 0).initHints ++ [("z".toList, .cls .int)]
           params := (demoInfo 0).params ++ [{ name := "z".toList, default := some (.int 0) }] }
  | 5 => { demoInfo 5 with params := { name := "email".toList } :: (demoInfo 5).params }
  | c => demoInfo c

/-- The new attributes. -/
def growNew : Nat → PyStr → Option Val
  | 0, s => if s = "z".toList then some (.int 0) else none
  | 5, s => if s = "email".toList then some .none else none
  | _, _ => none

theorem grow_names : NamesOk growInfo desNames := by
  intro c
  match c with
  | 0 | 1 | 2 | 3 | 4 | 5 => decide
  | n + 6 =>
    have : (growInfo (n + 6)).attrs = mainAttrs "Other" := rfl
    rw [this]
    decide

theorem assoc_append {β : Type} (l l' : List (PyStr × β)) (s : PyStr) (h : assoc l' s = none) :
    assoc (l ++ l') s = assoc l s := by
  induction l with
  | nil => exact h
  | cons p l ih =>
    obtain ⟨n, b⟩ := p
    simp only [List.cons_append, assoc, ih]

theorem wider_nil {E : LEnv} {R : Val → Val → Prop} {new : PyStr → Option Val} {hints : PyStr → Option Ty}
    (ps ps' : List Param) (h : ps = []) (h' : ps' = []) : Wider E R new hints ps ps' := by
  subst h; subst h'; exact .nil

theorem grow_upgrade : Upgrade (demoLEnv demoInfo) growInfo (demoLEnv demoInfo).construct
    (fun _ => initialDesers growInfo) growNew where
  attrs := fun c => by match c with | 0 | 1 | 2 | 3 | 4 | 5 | n + 6 => rfl
  kind := fun c => by match c with | 0 | 1 | 2 | 3 | 4 | 5 | n + 6 => rfl
  hashable := fun c => by match c with | 0 | 1 | 2 | 3 | 4 | 5 | n + 6 => rfl
  enums := fun c => by match c with | 0 | 1 | 2 | 3 | 4 | 5 | n + 6 => rfl
  tuples := fun c h => by
    match c with
    | 0 => cases h
    | 5 => cases h
    | 1 | 2 | 3 | 4 | n + 6 => rfl
  hints := fun c s h => by
    match c with
    | 0 =>
      refine assoc_append _ _ s ?_
      have : s ≠ "z".toList := fun hs => by subst hs; cases h
      simp only [assoc, if_neg (Ne.symm this)]
    | 1 | 2 | 3 | 4 | 5 | n + 6 => rfl
  initHints := fun c s h => by
    match c with
    | 0 =>
      refine assoc_append _ _ s ?_
      have : s ≠ "z".toList := fun hs => by subst hs; cases h
      simp only [assoc, if_neg (Ne.symm this)]
    | 1 | 2 | 3 | 4 | 5 | n + 6 => rfl
  params := fun c => by
    match c with
    | 0 =>
      exact .keep _ _ _ _ rfl (by decide) rfl (.inl ⟨rfl, rfl⟩)
        (.keep _ _ _ _ rfl (by decide) rfl (.inr ⟨.int 0, .int 0, rfl, rfl, .atom _⟩)
          (.add _ (.int 0) _ _ rfl (.inl rfl) .nil))
    | 5 =>
      exact .add _ .none _ _ rfl (.inr ⟨rfl, rfl, rfl, rfl⟩)
        (.keep _ _ _ _ rfl (by decide) rfl (.inl ⟨rfl, rfl⟩)
          (.keep _ _ _ _ rfl (by decide) rfl (.inl ⟨rfl, rfl⟩) .nil))
    | 1 | 2 | 3 | 4 | n + 6 => exact .nil
  all := fun c s d h => by
    match c with
    | 0 =>
      have hs : s = "z".toList := by
        by_contra hs
        simp only [growNew, if_neg hs] at h; cases h
      subst hs
      exact ⟨{ name := "z".toList, default := some (.int 0) }, by decide, rfl⟩
    | 5 =>
      have hs : s = "email".toList := by
        by_contra hs
        simp only [growNew, if_neg hs] at h; cases h
      subst hs
      exact ⟨{ name := "email".toList }, by decide, rfl⟩
    | 1 | 2 | 3 | 4 | n + 6 => cases h
  ctor := fun c args args' h => .inl ⟨args, args', rfl, rfl, h⟩
  set := fun _ _ _ _ => rfl
  des := demo_desers
  des' := fun _ t => getLizer_desFn growInfo grow_names t
  vals := demo_novals
  vals' := fun _ t => getLizer_empty growInfo t

/-- `{'x': '1'}` -/
def doc1 : List (PyStr × Val) := [("x".toList, .str "1".toList)]

/-- `{'name': 'A', 'born': 5}` -/
def doc2 : List (PyStr × Val) := [("name".toList, .str "A".toList), ("born".toList, .int 5)]

theorem json1 : Json (.dict (entries doc1)) := by
  refine .dict _ (by decide) (by decide) fun s x h => ?_
  simp only [doc1, List.mem_cons, List.not_mem_nil, or_false, Prod.mk.injEq] at h
  rw [h.2]; exact .str _

theorem json2 : Json (.dict (entries doc2)) := by
  refine .dict _ (by decide) (by decide) fun s x h => ?_
  simp only [doc2, List.mem_cons, List.not_mem_nil, or_false, Prod.mk.injEq] at h
  rcases h with ⟨_, rfl⟩ | ⟨_, rfl⟩
  · exact .str _
  · exact .int _

theorem entries_inj {ps qs : List (PyStr × Val)} (h : Val.dict (entries ps) = .dict (entries qs)) : ps = qs := by
  have h : entries ps = entries qs := by simpa using h
  refine List.map_injective_iff.2 ?_ h
  intro a b hab
  obtain ⟨a1, a2⟩ := a
  obtain ⟨b1, b2⟩ := b
  simp only [Prod.mk.injEq, Val.atom.injEq, Atom.str.injEq] at hab
  rw [hab.1, hab.2]

theorem not_new {c : Nat} {ps : List (PyStr × Val)} (h : ∀ s, s ∈ ps.map (·.1) → growNew c s = none) (s : PyStr)
    (hs : growNew c s ≠ none) : keyIn (.dict (entries ps)) s ≠ .ok true := by
  intro hk
  rw [KeyOrder.keyIn_entries] at hk
  refine hs (h s ?_)
  by_contra hm
  rw [assoc_none.2 hm] at hk
  cases hk

theorem fits_leaf {o : Option Ty} {x : Val} (hx : Json x) (hc : x.cls ∈ scalars)
    (ho : o = none ∨ ∃ c ∈ scalars, o = some (.cls c)) : Fits demoInfo growNew o x := by
  rcases ho with rfl | ⟨c, hcs, rfl⟩
  · exact .leaf x hx hc
  · exact .scalar c x hcs hx

/-- Entries without parts fit the classes `Point` and `Person`. -/
theorem fits_obj {c : Nat} (hc : c = 0 ∨ c = 5) {ps : List (PyStr × Val)} (hj : Json (.dict (entries ps)))
    (hn : ∀ s, s ∈ ps.map (·.1) → growNew c s = none)
    (hl : ∀ s x, assoc ps s = some x → Json x ∧ x.cls ∈ scalars) :
    Fits demoInfo growNew (some (.cls (.user c))) (.dict (entries ps)) := by
  have hh : ∀ (l : List (PyStr × Ty)), (∀ s t, assoc l s = some t → t = .cls .int) → ∀ (s : PyStr) (x : Val),
      x.cls ∈ scalars → (assoc l s = none ∨ ∃ c ∈ scalars, assoc l s = some (.cls c)) ∧
      (∃ c ∈ scalars, some ((assoc l s).getD (.cls x.cls)) = some (.cls c)) := by
    intro l hl s x hx
    cases h : assoc l s with
    | none => exact ⟨.inl rfl, x.cls, hx, rfl⟩
    | some t =>
      rw [hl s t h]
      exact ⟨.inr ⟨.int, by decide, rfl⟩, .int, by decide, rfl⟩
  have hints : ∀ s t, assoc (demoInfo c).hints s = some t → t = .cls .int := by
    intro s t ht
    rcases hc with rfl | rfl
    · have := assoc_some_mem ht
      simp only [demoInfo, List.mem_cons, List.not_mem_nil, or_false, Prod.mk.injEq] at this
      rcases this with ⟨_, rfl⟩ | ⟨_, rfl⟩ <;> rfl
    · cases ht
  have hinit : (demoInfo c).initHints = (demoInfo c).hints := by rcases hc with rfl | rfl <;> rfl
  refine .obj c _ (by rcases hc with rfl | rfl <;> rfl) hj (not_new hn) ?_ ?_
  · intro qs s x hq hx _
    rw [← entries_inj hq] at hx
    rw [hinit]
    exact fits_leaf (hl s x hx).1 (hl s x hx).2 (hh _ hints s x (hl s x hx).2).1
  · intro qs s x hq hx _
    rw [← entries_inj hq] at hx
    exact fits_leaf (hl s x hx).1 (hl s x hx).2 (.inr (hh _ hints s x (hl s x hx).2).2)

/-- `List[Union[Point, Person]]` -/
def docTy : Ty := .gen .list [.union [.cls (.user 0), .cls (.user 5)]]

/-- `[{'x': '1'}, {'name': 'A', 'born': 5}]` -/
def doc : Val := .list [.dict (entries doc1), .dict (entries doc2)]

theorem doc_fits : Fits demoInfo growNew (some docTy) doc := by
  refine .list _ _ _ (.gen .list _ (by simp)) (.list _ ?_) (fun h => by cases h) ?_
  · intro x hx
    simp only [List.mem_cons, List.not_mem_nil, or_false] at hx
    rcases hx with rfl | rfl
    · exact json1
    · exact json2
  · intro xs x hxs hx
    cases hxs
    simp only [List.mem_cons, List.not_mem_nil, or_false] at hx
    rcases hx with rfl | rfl
    · have hl : ∀ s x, assoc doc1 s = some x → Json x ∧ x.cls ∈ scalars := by
        intro s x hx
        have := assoc_some_mem hx
        simp only [doc1, List.mem_cons, List.not_mem_nil, or_false, Prod.mk.injEq] at this
        rw [this.2]; exact ⟨.str _, by decide⟩
      refine .union _ _ json1 fun t ht => ?_
      simp only [List.mem_cons, List.not_mem_nil, or_false] at ht
      rcases ht with rfl | rfl
      · exact fits_obj (.inl rfl) json1 (by decide) hl
      · exact fits_obj (.inr rfl) json1 (by decide) hl
    · have hl : ∀ s x, assoc doc2 s = some x → Json x ∧ x.cls ∈ scalars := by
        intro s x hx
        have := assoc_some_mem hx
        simp only [doc2, List.mem_cons, List.not_mem_nil, or_false, Prod.mk.injEq] at this
        rcases this with ⟨_, rfl⟩ | ⟨_, rfl⟩
        · exact ⟨.str _, by decide⟩
        · exact ⟨.int _, by decide⟩
      refine .union _ _ json2 fun t ht => ?_
      simp only [List.mem_cons, List.not_mem_nil, or_false] at ht
      rcases ht with rfl | rfl
      · exact fits_obj (.inl rfl) json2 (by decide) hl
      · exact fits_obj (.inr rfl) json2 (by decide) hl

/-- The new program of the example. -/
abbrev growLEnv : LEnv :=
  upgraded (demoLEnv demoInfo) growInfo (demoLEnv demoInfo).construct (fun _ => initialDesers growInfo)

example : ∀ r, (load (demoLEnv demoInfo) 9 doc (some docTy) {}).val = .ok r →
    ∃ r', (load growLEnv 9 doc (some docTy) {}).val = .ok r' ∧ Grown growNew r r' :=
  (schema_growth_partial grow_upgrade 9 doc_fits ⟨(fun _ h => by cases h), rfl, rfl⟩).1

/-- `[Point(1, 0), Person('A', 5)]` in the old program -/
example : (load (demoLEnv demoInfo) 9 doc (some docTy) {}).val = .ok (.list
    [.obj 0 [("x".toList, .int 1), ("y".toList, .int 0)],
     .obj 5 [("name".toList, .str "A".toList), ("born".toList, .int 5)]]) := by decide +kernel

/-- `[Point(1, 0, 0), Person(None, 'A', 5)]` in the new program -/
example : (load growLEnv 9 doc (some docTy) {}).val = .ok (.list
    [.obj 0 [("x".toList, .int 1), ("y".toList, .int 0), ("z".toList, .int 0)],
     .obj 5 [("email".toList, .none), ("name".toList, .str "A".toList), ("born".toList, .int 5)]]) := by
  decide +kernel

/-- `{'y': 1}` as a `Point` is an exception in both, even with `strict=True` -/
example : (load (demoLEnv demoInfo) 9 (.dict [(.str "y".toList, .int 1)]) (some (.cls (.user 0)))
      { strict := true }).val.toOption = none ∧
    (load growLEnv 9 (.dict [(.str "y".toList, .int 1)]) (some (.cls (.user 0))) { strict := true }).val =
    (load (demoLEnv demoInfo) 9 (.dict [(.str "y".toList, .int 1)]) (some (.cls (.user 0)))
      { strict := true }).val := by decide +kernel

/-! ## Where it fails -/

/-- A document that has an entry with the name of the new parameter, which was an attribute that the
class did not know of: it is now loaded as what the parameter is hinted as. -/
theorem schema_growth_fails_entry : ∃ (v r : Val) (e : Err),
    (load (demoLEnv demoInfo) 9 v (some (.cls (.user 0))) {}).val = .ok r ∧
    (load growLEnv 9 v (some (.cls (.user 0))) {}).val = .error e :=
  ⟨.dict [(.str "x".toList, .int 1), (.str "z".toList, .str "abc".toList)],
    .obj 0 [("x".toList, .int 1), ("y".toList, .int 0), ("z".toList, .str "abc".toList)],
    { kind := .deserializationError, source := some (.str "abc".toList), target := some (.cls .int) },
    by decide +kernel, by decide +kernel⟩

/-- The same classes, but the new parameter of `Point` has no default value. -/
def needInfo : Nat → ClassInfo
  | 0 => { growInfo 0 with params := (demoInfo 0).params ++ [{ name := "z".toList }] }
  | c => growInfo c

/-- A new parameter with a hint and without a default value. -/
theorem schema_growth_fails_required : ∃ (v r : Val) (e : Err), Fits demoInfo growNew (some (.cls (.user 0))) v ∧
    (load (demoLEnv demoInfo) 9 v (some (.cls (.user 0))) {}).val = .ok r ∧
    (load (upgraded (demoLEnv demoInfo) needInfo (demoLEnv demoInfo).construct (fun _ => initialDesers needInfo))
      9 v (some (.cls (.user 0))) {}).val = .error e ∧ e.kind = .unfulfilledArgument :=
  ⟨.dict (entries doc1), .obj 0 [("x".toList, .int 1), ("y".toList, .int 0)],
    { kind := .unfulfilledArgument, source := some (.dict (entries doc1)),
      target := some (.cls (.user 0)), argument := some "z".toList },
    fits_obj (.inl rfl) json1 (by decide) (by
      intro s x hx
      have := assoc_some_mem hx
      simp only [doc1, List.mem_cons, List.not_mem_nil, or_false, Prod.mk.injEq] at this
      rw [this.2]; exact ⟨.str _, by decide⟩),
    by decide +kernel, by decide +kernel, rfl⟩

end Verif.Props.SchemaGrowth
