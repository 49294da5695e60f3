import Verif.Props.SchemaGrowth
import Verif.Props.UnionOrder
import Verif.Props.LoadObject

/-! # A hint can be widened without making stored documents useless (C120) -/

set_option autoImplicit false

namespace Verif.Props.Widening

open Verif Verif.Core
open Verif.Props.LoadBasics Verif.Props.LoadCollections Verif.Props.LoadObject
open Verif.Props.UnionOrder (NoneFine)
open Verif.Props.SchemaGrowth (Json scalars Rel)

/-! ## The new program -/

/-- The new program: the classes are described by `info`. -/
def rehinted (E : LEnv) (info : Nat → ClassInfo) (desers : Nat → Registry.Table DesFn Ty) : LEnv :=
  { E with info := info, desers := desers }

/-- The class `c` has the parameters `ps` instead: the same ones, or the same ones in another order, if
the constructor does not look at the order of the keyword arguments. -/
def SameParams (E : LEnv) (c : Nat) (ps : List Param) : Prop :=
  ps = (E.info c).params ∨ ps.Perm (E.info c).params ∧ ((E.info c).params.map (·.name)).Nodup ∧
    ∀ args args' : List (PyStr × Val), (args.map (·.1)).Nodup → args.Perm args' →
      E.construct c args = E.construct c args'

/-- What has changed: hints of classes, the order of parameters, and the members of enums.  jsons is used without deserializers and validators of the
program. -/
structure Rehint (E : LEnv) (info : Nat → ClassInfo) (desers : Nat → Registry.Table DesFn Ty) :
    Prop where
  attrs : ∀ c, (info c).attrs = (E.info c).attrs
  kind : ∀ c, (info c).kind = (E.info c).kind
  hashable : ∀ c, (info c).hashable = (E.info c).hashable
  params : ∀ c, SameParams E c (info c).params
  des : ∀ i, DefaultDesers E i
  des' : ∀ i, DefaultDesers (rehinted E info desers) i
  vals : ∀ i, NoValidators E i
  vals' : ∀ i, NoValidators (rehinted E info desers) i

/-! ## The specification -/

/-- The member of a union is loaded without success, however deep the stack is. -/
def Refuses (E : LEnv) (kw : LoadKw) (v : Val) (t : Ty) : Prop :=
  ∀ n r, (load E n v (some t) kw).val ≠ .ok r

/-- The document is loaded as the type with success, if the stack is deep enough. -/
def Accepts (E : LEnv) (kw : LoadKw) (v : Val) (o : Option Ty) : Prop :=
  ∃ r N, ∀ n, N ≤ n → (load E n v o kw).val = .ok r

/-- What a named tuple has for the field `name` with the index `i`: the element of the document,
else the default value, else `None`. -/
def fieldVal (I : ClassInfo) (xs : List Val) (i : Nat) (name : PyStr) : Val :=
  (xs[i]?).getD ((assoc I.fieldDefaults name).getD .none)

/-- The dict `es` has, under its keys as they are transformed, the values `xs` for the first fields
of the named tuple, and as many entries. -/
def FieldEntries (E : LEnv) (kw : LoadKw) (c : Nat) (es : List (Val × Val)) (xs : List Val) : Prop :=
  es.length = xs.length ∧
    ∃ es', Transformed E { kw with keyTransformer := some (kw.keyTransformer.getD .ok) } es es' ∧
      ∀ (i : Nat) name, (E.info c).fields[i]? = some name → i < xs.length →
        dictGet es' (.str name) = xs[i]?

/-- The second type, in the new program, is at least as wide as the first one, in the old program,
as far as the document is concerned.  Types may become unions, unions may get members, and so may
the hints of the attributes of objects, and so on at whatever depth; members that come before the
one that accepts the document have to refuse it. -/
inductive Widened (E E' : LEnv) : LoadKw → Val → Option Ty → Option Ty → Prop where
  /-- what both programs load alike -/
  | same (kw : LoadKw) (v : Val) (o : Option Ty)
      (h : ∀ n, (load E n v o kw).val = (load E' n v o kw).val) : Widened E E' kw v o o
  /-- from `t` to `Union[..., t', ...]` -/
  | choice (kw : LoadKw) (v : Val) (o : Option Ty) (pre post : List Ty) (t : Ty)
      (h1 : v.cls ∈ validTypes) (hm : NoMeta v) (hn : NoneFine E' v (pre ++ t :: post))
      (ha : Accepts E kw v o) (hp : ∀ p ∈ pre, Refuses E' kw v p)
      (h : Widened E E' kw v o (some t)) : Widened E E' kw v o (some (.union (pre ++ t :: post)))
  /-- from `Union[..., t, ...]` to `Union[..., t', ...]` -/
  | union (kw : LoadKw) (v : Val) (pre post pre' post' : List Ty) (t t' : Ty)
      (h1 : v.cls ∈ validTypes) (hm : NoMeta v) (hn : NoneFine E v (pre ++ t :: post))
      (hn' : NoneFine E' v (pre' ++ t' :: post')) (ha : Accepts E kw v (some t))
      (hp : ∀ p ∈ pre, Refuses E kw v p) (hp' : ∀ p ∈ pre', Refuses E' kw v p)
      (h : Widened E E' kw v (some t) (some t')) :
      Widened E E' kw v (some (.union (pre ++ t :: post))) (some (.union (pre' ++ t' :: post')))
  | list (kw : LoadKw) (v : Val) (xs : List Val) (a b : Ty) (h1 : v.cls ∈ validTypes)
      (hm : NoMeta v) (hx : v.iter = some xs) (he : ∀ x ∈ xs, NoMeta x)
      (h : ∀ x ∈ xs, Widened E E' kw x (some a) (some b)) :
      Widened E E' kw v (some (.gen .list [a])) (some (.gen .list [b]))
  | tuple (kw : LoadKw) (v : Val) (xs : List Val) (ts us : List Ty) (h0 : ts ≠ [])
      (hl : ts.length = us.length) (h1 : v.cls ∈ validTypes) (hm : NoMeta v) (hx : v.iter = some xs)
      (he : ∀ x ∈ xs, NoMeta x)
      (h : ∀ (i : Nat) t u x, ts[i]? = some t → us[i]? = some u → xs[i]? = some x →
        Widened E E' { kw with keyTransformer := none } x (some t) (some u)) :
      Widened E E' kw v (some (.gen .tuple ts)) (some (.gen .tuple us))
  /-- sets, frozensets, deques and `Iterable[...]` -/
  | each (kw : LoadKw) (v : Val) (xs : List Val) (g : Gen) (a b : Ty)
      (hg : g ∈ [Gen.set, .frozenset, .deque, .iterable]) (h1 : v.cls ∈ validTypes)
      (hm : NoMeta v) (hx : v.iter = some xs) (he : ∀ x ∈ xs, NoMeta x)
      (h : ∀ x ∈ xs, Widened E E' kw x (some a) (some b)) :
      Widened E E' kw v (some (.gen g [a])) (some (.gen g [b]))
  /-- `Tuple[..., ...]` with any number of elements -/
  | ellipsis (kw : LoadKw) (v : Val) (xs : List Val) (a b : Ty) (h1 : v.cls ∈ validTypes)
      (hm : NoMeta v) (hx : v.iter = some xs) (he : ∀ x ∈ xs, NoMeta x)
      (h : ∀ x ∈ xs, Widened E E' { kw with keyTransformer := none } x (some a) (some b)) :
      Widened E E' kw v (some (.gen .tupleEll [a])) (some (.gen .tupleEll [b]))
  | dict (kw : LoadKw) (g : Gen) (es : List (Val × Val)) (k l a b : Ty) (hg : g = .dict ∨ g = .mapping)
      (hm : dictGet es (.str metaKey) = none) (hh : dictGet es (.str keysKey) = none)
      (he : ∀ e ∈ es, NoMeta e.2)
      (hk : ∀ e ∈ es, ∀ k, kw.keyTransformer.getD .ok e.1 = .ok k → NoMeta k)
      (hs : ∀ e ∈ es, ∀ q, kw.keyTransformer.getD .ok e.1 = .ok q →
        Widened E E' { kw with keyTransformer := none } q (some k) (some l))
      (h : ∀ e ∈ es, Widened E E' { kw with keyTransformer := some (kw.keyTransformer.getD .ok) } e.2
        (some a) (some b)) :
      Widened E E' kw (.dict es) (some (.gen g [k, a])) (some (.gen g [l, b]))
  /-- the hints of the class `c` have become wider -/
  | obj (kw : LoadKw) (c : Nat) (es : List (Val × Val)) (hc : (E.info c).kind = .plain) (hp : Plain kw es)
      (hn : ∀ p ∈ (E.info c).params, MayBeNone (assoc (E.info c).initHints p.name) →
        MayBeNone (assoc (E'.info c).initHints p.name))
      (h : ∀ es', Transformed E kw es es' → ∀ s x, (Val.str s, x) ∈ es' →
        Widened E E' (partKw kw) x (assoc (E.info c).initHints s) (assoc (E'.info c).initHints s))
      (h' : ∀ es', Transformed E kw es es' → ∀ s x, (Val.str s, x) ∈ es' → ¬ Known (E.info c) (.str s) →
        Widened E E' (partKw kw) x (some ((assoc (E.info c).hints s).getD (.cls x.cls)))
          (some ((assoc (E'.info c).hints s).getD (.cls x.cls)))) :
      Widened E E' kw (.dict es) (some (.cls (.user c))) (some (.cls (.user c)))
  /-- the hints of the named tuple `c`, loaded from a list or a tuple -/
  | named (kw : LoadKw) (c : Nat) (k : SeqKind) (xs : List Val) (hk : k = .list ∨ k = .tuple)
      (hc : (E.info c).kind = .ntuple) (hf : (E'.info c).fields = (E.info c).fields)
      (hd : (E'.info c).fieldDefaults = (E.info c).fieldDefaults) (he : ∀ x ∈ xs, NoMeta x)
      (hdef : ∀ p ∈ (E.info c).fieldDefaults, NoMeta p.2)
      (ho : ∀ name ∈ (E.info c).fields, Optional' (E.info c) name → Optional' (E'.info c) name)
      (h : ∀ (i : Nat) name, (E.info c).fields[i]? = some name →
        Widened E E' kw (fieldVal (E.info c) xs i name) (fieldHint (E.info c) name)
          (fieldHint (E'.info c) name)) :
      Widened E E' kw (.seq k xs) (some (.cls (.user c))) (some (.cls (.user c)))
  /-- the hints of the named tuple `c`, loaded from a dict -/
  | namedDict (kw : LoadKw) (c : Nat) (es : List (Val × Val)) (xs : List Val)
      (hc : (E.info c).kind = .ntuple) (hf : (E'.info c).fields = (E.info c).fields)
      (hm : dictGet es (.str metaKey) = none) (hx : FieldEntries E kw c es xs)
      (h : Widened E E' kw (.list xs) (some (.cls (.user c))) (some (.cls (.user c)))) :
      Widened E E' kw (.dict es) (some (.cls (.user c))) (some (.cls (.user c)))
  /-- a default dict with the type `a` of values, which is also what makes the missing values -/
  | ddict (kw : LoadKw) (es : List (Val × Val)) (k l a : Ty) (hm : dictGet es (.str metaKey) = none)
      (h : Widened E E' kw (.dict es) (some (.gen .dict [k, a])) (some (.gen .dict [l, a]))) :
      Widened E E' kw (.dict es) (some (.gen .defaultdict [k, a])) (some (.gen .defaultdict [l, a]))
  /-- the enum `c` may have got the members `more`, after the others; none of them has the name that
  is looked up in vain, before the value is looked up -/
  | enum (kw : LoadKw) (v : Val) (c : Nat) (more : List (PyStr × Val))
      (hc : ∃ i, (E.info c).kind = .enum i) (h1 : v.cls ∈ validTypes) (hm : NoMeta v)
      (hmore : (E'.info c).enumMembers = (E.info c).enumMembers ++ more)
      (hnew : ∀ s, v = .str s → kw.useEnumName = none → assoc (E.info c).enumMembers s = none →
        assoc more s = none) :
      Widened E E' kw v (some (.cls (.user c))) (some (.cls (.user c)))

/-! ## Parts that both programs load alike -/

section
variable {E : LEnv} {info : Nat → ClassInfo} {desers : Nat → Registry.Table DesFn Ty}

/-- The new program. -/
local notation "E'" => rehinted E info desers

theorem tyAttrs_eq (U : Rehint E info desers) (t : Ty) : t.attrs info = t.attrs E.info := by
  cases t with
  | cls c =>
    cases c with
    | user c => exact U.attrs c
    | _ => rfl
  | union ts =>
    rcases ts with _ | ⟨a, _ | ⟨b, _ | ⟨_, _⟩⟩⟩ <;> rfl
  | special b => cases b <;> rfl
  | _ => rfl

theorem canMatch_eq (U : Rehint E info desers) (o : Option Ty) :
    canMatchWithNone E' o = canMatchWithNone E o := by
  have h : ∀ t, (E').className false t = E.className false t := by
    intro t
    unfold Env.className
    exact congrArg (fun a => Registry.getClassName a id false) (tyAttrs_eq U t)
  unfold canMatchWithNone
  split
  · rfl
  · rfl
  · rfl
  · rfl
  · rw [h]

theorem checkForNone_eq (U : Rehint E info desers) (v : Val) (o : Option Ty) :
    checkForNone E' v o = checkForNone E v o := by
  unfold checkForNone
  rw [canMatch_eq U]

theorem clsDesFn_eq (U : Rehint E info desers) (c : Cls) : c.desFn info = c.desFn E.info := by
  cases c with
  | user c => simp only [Cls.desFn, U.kind c]
  | _ => rfl

theorem desFn_eq (U : Rehint E info desers) (t : Ty) : t.desFn info = t.desFn E.info := by
  cases t with
  | cls c => simp only [Ty.desFn, clsDesFn_eq U]
  | gen g _ => simp only [Ty.desFn, clsDesFn_eq U]
  | newtype n t =>
    cases t <;> simp only [Ty.desFn, clsDesFn_eq U]
  | _ => rfl

mutual
theorem hashable_eq (U : Rehint E info desers) : ∀ v : Val, v.hashable info = v.hashable E.info
  | .atom _ => by simp only [Val.hashable]
  | .seq .tuple xs => by simp only [Val.hashable]; exact allHashable_eq U xs
  | .seq .frozenset _ => by simp only [Val.hashable]
  | .seq .list _ => by simp only [Val.hashable]
  | .seq .set _ => by simp only [Val.hashable]
  | .seq .deque _ => by simp only [Val.hashable]
  | .dict _ => by simp only [Val.hashable]
  | .ddict _ _ => by simp only [Val.hashable]
  | .ntuple _ xs => by simp only [Val.hashable]; exact allHashable_eq U xs
  | .enum _ _ => by simp only [Val.hashable]
  | .obj c _ => by simp only [Val.hashable]; exact U.hashable c
theorem allHashable_eq (U : Rehint E info desers) :
    ∀ xs : List Val, Val.allHashable info xs = Val.allHashable E.info xs
  | [] => by simp only [Val.allHashable]
  | x :: xs => by simp only [Val.allHashable, hashable_eq U x, allHashable_eq U xs]
end

theorem doLoad_rel (U : Rehint E info desers) {R : Val → Val → Prop} {rec rec' : LRec} {f : DesFn}
    {v : Val} {t : Ty} {kw : LoadKw} (h : Rel R (callDes E rec f v t kw) (callDes E' rec' f v t kw)) :
    Rel R (doLoad E rec (some f) v t kw) (doLoad E' rec' (some f) v t kw) := by
  refine ⟨?_, ?_⟩
  · rw [doLoad_noval_log (U.vals _ _), doLoad_noval_log (U.vals' _ _)]
    exact h.1
  · rw [doLoad_noval (U.vals _ _), doLoad_noval (U.vals' _ _)]
    rcases h.2 with ⟨a, b, ha, hb, hab⟩ | ⟨e, he, he'⟩
    · exact .inl ⟨a, b, by rw [ha], by rw [hb], hab⟩
    · exact .inr ⟨_, by rw [he], by rw [he']⟩

theorem enter (U : Rehint E info desers) {R : Val → Val → Prop} {n : Nat} {v : Val} {o : Option Ty}
    {kw : LoadKw} (hv : Json v) (hR : R v v)
    (hd : ∀ f, (o.getD (.cls v.cls)).desFn E.info = some f →
      Rel R (callDes E (load E n) f v (o.getD (.cls v.cls)) (calleeKw v o kw none))
        (callDes E' (load E' n) f v (o.getD (.cls v.cls)) (calleeKw v o kw none))) :
    Rel R (load E (n + 1) v o kw) (load E' (n + 1) v o kw) := by
  rw [load_succ, load_succ]
  unfold loadWith
  rw [checkForNone_eq U]
  refine Rel.bind (Rel.eq _) fun _ _ _ _ _ => ?_
  split
  · rw [validate_none (U.vals _ _), validate_none (U.vals' _ _)]
    exact .pure hR
  · show Rel R (loadFrom E (load E n) v o kw) (loadFrom E' (load E' n) v o kw)
    rw [loadFrom_eq hv.valid (noMeta_get hv.noMeta _) (U.des _),
      loadFrom_eq hv.valid (noMeta_get hv.noMeta _) (U.des' _)]
    have ht : target v o kw none = o.getD (.cls v.cls) := by
      cases o with
      | none => exact target_free
      | some t => exact target_explicit (.inr rfl)
    rw [ht]
    show Rel R (doLoad E _ ((o.getD (.cls v.cls)).desFn E.info) _ _ _)
      (doLoad E' _ ((o.getD (.cls v.cls)).desFn info) _ _ _)
    rw [desFn_eq U]
    cases hf : (o.getD (.cls v.cls)).desFn E.info with
    | none => exact Rel.raise _
    | some f => exact doLoad_rel U (hd f hf)

theorem primitive_eq {v : Val} (hv : Json v) {c : Cls} (hc : c ∈ [Cls.bool, .int, .float, .str]) :
    primitiveDes E' v (.cls c) = primitiveDes E v (.cls c) := by
  simp only [List.mem_cons, List.not_mem_nil, or_false] at hc
  rcases hc with rfl | rfl | rfl | rfl <;> cases hv <;> rfl

theorem scalarDes_eq {n : Nat} {c : Cls} {f : DesFn} {v : Val} {kw : LoadKw} (hv : Json v) (hc : c ∈ scalars)
    (hf : (Ty.cls c).desFn E.info = some f)
    (h : load E n v (some (.cls .datetime)) kw = load E' n v (some (.cls .datetime)) kw) :
    callDes E (load E n) f v (.cls c) kw = callDes E' (load E' n) f v (.cls c) kw := by
  simp only [scalars, List.mem_cons, List.not_mem_nil, or_false] at hc
  rcases hc with rfl | rfl | rfl | rfl | rfl | rfl | rfl | rfl | rfl | rfl | rfl | rfl <;> cases hf
  · simp only [callDes, Cls.desFn]
  · exact (primitive_eq hv (by simp)).symm
  · exact (primitive_eq hv (by simp)).symm
  · exact (primitive_eq hv (by simp)).symm
  · show stringDes E (load E n) v (.cls .str) kw = stringDes E' (load E' n) v (.cls .str) kw
    unfold stringDes
    rw [h, primitive_eq hv (by simp)]
    rfl
  · simp only [callDes, Cls.desFn]
  · simp only [callDes, Cls.desFn]
  · simp only [callDes, Cls.desFn]
  · simp only [callDes, Cls.desFn]; unfold timedeltaDes; rfl
  · simp only [callDes, Cls.desFn]; unfold uuidDes; rfl
  · simp only [callDes, Cls.desFn]; unfold decimalDes; rfl
  · simp only [callDes, Cls.desFn]; unfold pathDes; rfl

theorem scalar_eq (U : Rehint E info desers) (n : Nat) {v : Val} (hv : Json v) {c : Cls}
    (hc : c ∈ scalars) (kw : LoadKw) :
    load E n v (some (.cls c)) kw = load E' n v (some (.cls c)) kw := by
  induction n generalizing c kw with
  | zero => rfl
  | succ n ih =>
    have h := enter U (R := Eq) (n := n) (o := some (.cls c)) (kw := kw) hv rfl (fun f hf => by
      have h := scalarDes_eq (kw := calleeKw v (some (.cls c)) kw none) hv hc hf (ih (by simp [scalars]) _)
      show Rel Eq (callDes E (load E n) f v (.cls c) _) _
      rw [h]
      exact Rel.eq _)
    obtain ⟨hl, ⟨a, b, ha, hb, hab⟩ | ⟨e, he, he'⟩⟩ := h
    · exact res_ext hl (by rw [ha, hb, hab])
    · exact res_ext hl (by rw [he, he'])

end

/-! ## Lemmas -/

theorem common {α : Type} {P : α → Nat → Prop} (l : List α)
    (h : ∀ x ∈ l, ∃ N, ∀ n, N ≤ n → P x n) : ∃ N, ∀ x ∈ l, ∀ n, N ≤ n → P x n :=
  DumpCollections.common_bound l h

theorem first_is {f : Ty → Except Err Val} {pre post : List Ty} {a : Ty} {r y : Val}
    (h : FirstLoads f (pre ++ a :: post) r) (hp : ∀ p ∈ pre, ∀ x, f p ≠ .ok x) (ha : f a = .ok y) :
    r = y := by
  induction pre with
  | nil =>
    obtain ⟨p, c, q, he, h1, h2⟩ := h
    cases p with
    | nil =>
      obtain ⟨rfl, rfl⟩ : a = c ∧ post = q := by simpa using he
      rw [ha] at h2; cases h2; rfl
    | cons z p =>
      obtain ⟨rfl, rfl⟩ : a = z ∧ post = p ++ c :: q := by simpa using he
      exact absurd ha (h1 a (by simp) y)
  | cons z pre ih =>
    obtain ⟨p, c, q, he, h1, h2⟩ := h
    cases p with
    | nil =>
      obtain ⟨rfl, rfl⟩ : z = c ∧ pre ++ a :: post = q := by simpa using he
      exact absurd h2 (hp z (by simp) r)
    | cons z' p =>
      obtain ⟨rfl, he2⟩ : z = z' ∧ pre ++ a :: post = p ++ c :: q := by simpa using he
      exact ih ⟨p, c, q, he2, fun d hd => h1 d (by simp [hd]), h2⟩ fun d hd => hp d (by simp [hd])

theorem elementwise_mono {f g : Ty → Val → Except Err Val} {xs ys : List Val} {ts us : List Ty}
    (hl : ts.length = us.length)
    (h : ∀ (i : Nat) t u x y, ts[i]? = some t → us[i]? = some u → xs[i]? = some x → f t x = .ok y →
      g u x = .ok y) (he : Elementwise f ts xs ys) : Elementwise g us xs ys := by
  induction he generalizing us with
  | nil => exact .nil
  | @cons t ts x y xs ys h1 _ ih =>
    cases us with
    | nil => cases hl
    | cons u us =>
      refine .cons (h 0 t u x y rfl rfl rfl h1) (ih (by simpa using hl) ?_)
      intro i t' u' x' y' ht hu hx
      exact h (i + 1) t' u' x' y' (by simpa using ht) (by simpa using hu) (by simpa using hx)

theorem argsOf_mono {I I' : ClassInfo} {ld ld' : PyStr → Option Ty → Val → Val → Prop}
    {gs : List (PyStr × Except Err Val)} {es : List (Val × Val)} {ps : List Param}
    {r : List (PyStr × Val)}
    (hn : ∀ p ∈ ps, MayBeNone (assoc I.initHints p.name) → MayBeNone (assoc I'.initHints p.name))
    (h : ∀ s x, (Val.str s, x) ∈ es → ∀ y, ld s (assoc I.initHints s) x y → ld' s (assoc I'.initHints s) x y)
    (ha : ArgsOf I ld gs es ps r) : ArgsOf I' ld' gs es ps r := by
  have one : ∀ {p : Param} {o : Option Val},
      (MayBeNone (assoc I.initHints p.name) → MayBeNone (assoc I'.initHints p.name)) →
      ArgOf I ld gs es p o → ArgOf I' ld' gs es p o := by
    intro p o hp ho
    cases ho with
    | given h1 h2 =>
      obtain ⟨e, he, hx, hk⟩ := dictGet_mem h1
      have hk' := pyEq_eq_str hk
      subst hx
      exact .given h1 (h p.name e.2 (by rw [← hk']; exact he) _ h2)
    | getter h1 h2 => exact .getter h1 h2
    | default h1 h2 h3 => exact .default h1 h2 h3
    | variadic h1 h2 h3 h4 => exact .variadic h1 h2 h3 h4
    | omitted h1 h2 h3 h4 h5 => exact .omitted h1 h2 h3 h4 (hp h5)
  induction ha with
  | nil => exact .nil
  | arg h1 _ ih => exact .arg (one (hn _ (by simp)) h1) (ih fun p hp => hn p (by simp [hp]))
  | noarg h1 _ ih => exact .noarg (one (hn _ (by simp)) h1) (ih fun p hp => hn p (by simp [hp]))

/-- The arguments for the parameters in another order. -/
theorem argsOf_perm {I : ClassInfo} {ld : PyStr → Option Ty → Val → Val → Prop}
    {gs : List (PyStr × Except Err Val)} {es : List (Val × Val)} {ps qs : List Param} (hp : ps.Perm qs) :
    ∀ {r : List (PyStr × Val)}, ArgsOf I ld gs es ps r → ∃ r', r.Perm r' ∧ ArgsOf I ld gs es qs r' := by
  induction hp with
  | nil => exact fun h => ⟨_, .refl _, h⟩
  | cons p _ ih =>
    intro r h
    cases h with
    | arg h1 h2 =>
      obtain ⟨r', h3, h4⟩ := ih h2
      exact ⟨_, h3.cons _, .arg h1 h4⟩
    | noarg h1 h2 =>
      obtain ⟨r', h3, h4⟩ := ih h2
      exact ⟨_, h3, .noarg h1 h4⟩
  | swap p q ps =>
    intro r h
    cases h with
    | arg h1 h2 =>
      cases h2 with
      | arg h3 h4 => exact ⟨_, .swap _ _ _, .arg h3 (.arg h1 h4)⟩
      | noarg h3 h4 => exact ⟨_, .refl _, .noarg h3 (.arg h1 h4)⟩
    | noarg h1 h2 =>
      cases h2 with
      | arg h3 h4 => exact ⟨_, .refl _, .arg h3 (.noarg h1 h4)⟩
      | noarg h3 h4 => exact ⟨_, .refl _, .noarg h3 (.noarg h1 h4)⟩
  | trans _ _ ih ih' =>
    intro r h
    obtain ⟨r1, h1, h2⟩ := ih h
    obtain ⟨r2, h3, h4⟩ := ih' h2
    exact ⟨r2, h1.trans h3, h4⟩

theorem argsOf_names {I : ClassInfo} {ld : PyStr → Option Ty → Val → Val → Prop}
    {gs : List (PyStr × Except Err Val)} {es : List (Val × Val)} {ps : List Param}
    {r : List (PyStr × Val)} (h : ArgsOf I ld gs es ps r) :
    (r.map (·.1)).Sublist (ps.map (·.name)) := by
  induction h with
  | nil => exact .slnil
  | arg _ _ ih => exact ih.cons₂ _
  | noarg _ _ ih => exact ih.cons _

theorem SameParams.mem {E : LEnv} {c : Nat} {ps : List Param} (h : SameParams E c ps) (p : Param) :
    p ∈ ps ↔ p ∈ (E.info c).params := by
  rcases h with rfl | ⟨h, _⟩
  · rfl
  · exact h.mem_iff

theorem SameParams.args {E : LEnv} {c : Nat} {ps : List Param} (h : SameParams E c ps) {I : ClassInfo}
    {ld : PyStr → Option Ty → Val → Val → Prop} {gs : List (PyStr × Except Err Val)}
    {es : List (Val × Val)} {as : List (PyStr × Val)} :
    (∃ r, ArgsOf I ld gs es (E.info c).params r ∧ E.construct c r = .ok as) ↔
      ∃ r, ArgsOf I ld gs es ps r ∧ E.construct c r = .ok as := by
  rcases h with rfl | ⟨h, hd, hc⟩
  · rfl
  · constructor
    · rintro ⟨r, h1, h2⟩
      obtain ⟨r', h3, h4⟩ := argsOf_perm h.symm h1
      exact ⟨r', h4, by rw [← hc _ _ (hd.sublist (argsOf_names h1)) h3]; exact h2⟩
    · rintro ⟨r, h1, h2⟩
      obtain ⟨r', h3, h4⟩ := argsOf_perm h h1
      exact ⟨r', h4, by rw [hc _ _ (hd.sublist (argsOf_names h4)) h3.symm]; exact h2⟩

theorem known_iff {I I' : ClassInfo} (h : ∀ p, p ∈ I'.params ↔ p ∈ I.params) (k : Val) :
    Known I' k ↔ Known I k := by
  simp only [Known, h]

theorem attrsSet_mono {E E' : LEnv} {c : Nat} {ld ld' : Option Ty → Val → Val → Prop}
    {es : List (Val × Val)} {a b : List (PyStr × Val)} (hp : ∀ p, p ∈ (E'.info c).params ↔ p ∈ (E.info c).params)
    (hs : E'.setAttr = E.setAttr)
    (h : ∀ s x, (Val.str s, x) ∈ es → ¬ Known (E.info c) (.str s) → ∀ y,
      ld (some ((assoc (E.info c).hints s).getD (.cls x.cls))) x y →
      ld' (some ((assoc (E'.info c).hints s).getD (.cls x.cls))) x y)
    (ha : AttrsSet E c ld es a b) : AttrsSet E' c ld' es a b := by
  induction ha with
  | nil => exact .nil
  | known h1 _ ih =>
    exact .known ((known_iff hp _).2 h1) (ih fun s x hx => h s x (List.mem_cons_of_mem _ hx))
  | set h1 h2 h3 _ ih =>
    exact .set (fun hk => h1 ((known_iff hp _).1 hk)) (h _ _ List.mem_cons_self h1 _ h2) (by rw [hs]; exact h3)
      (ih fun s x hx => h s x (List.mem_cons_of_mem _ hx))
  | refused h1 h2 h3 h4 _ ih =>
    exact .refused (fun hk => h1 ((known_iff hp _).1 hk)) (h _ _ List.mem_cons_self h1 _ h2)
      (by rw [hs]; exact h3) h4 (ih fun s x hx => h s x (List.mem_cons_of_mem _ hx))

theorem gettersSet_eq {E E' : LEnv} {c : Nat} {gs : List (PyStr × Except Err Val)}
    {a b : List (PyStr × Val)} (hs : E'.setAttr = E.setAttr) (h : GettersSet E c gs a b) :
    GettersSet E' c gs a b := by
  induction h with
  | nil => exact .nil
  | cons h1 _ ih => exact .cons (by rw [hs]; exact h1) ih

theorem transformed_unique {E : LEnv} {kw : LoadKw} {es a b : List (Val × Val)}
    (h : Transformed E kw es a) (h' : Transformed E kw es b) : a = b := by
  unfold Transformed at h h'
  cases hk : kw.keyTransformer with
  | none => simp only [hk] at h h'; rw [h, h']
  | some f =>
    simp only [hk] at h h'
    obtain ⟨ps, h1, rfl⟩ := h
    obtain ⟨qs, h2, rfl⟩ := h'
    have : ps = qs := by
      clear hk
      induction h1 generalizing qs with
      | nil => cases h2; rfl
      | @cons e p es ps h1 _ ih =>
        cases h2 with
        | @cons _ q _ qs h3 h4 =>
          rw [ih qs h4]
          have e1 : p.1 = q.1 := by
            have := h1.1.symm.trans h3.1
            exact Except.ok.inj this
          have e2 : p.2 = q.2 := h1.2.1.trans h3.2.1.symm
          rw [show p = q from Prod.ext e1 e2]
    rw [this]

theorem transformed_eq {E : LEnv} {info : Nat → ClassInfo} {desers : Nat → Registry.Table DesFn Ty}
    (U : Rehint E info desers) {kw : LoadKw} {es a : List (Val × Val)} (h : Transformed E kw es a) :
    Transformed (rehinted E info desers) kw es a := by
  unfold Transformed at h ⊢
  cases hk : kw.keyTransformer with
  | none => simp only [hk] at h ⊢; exact h
  | some f =>
    simp only [hk] at h ⊢
    obtain ⟨ps, h1, h2⟩ := h
    refine ⟨ps, h1.imp fun e p h => ⟨h.1, h.2.1, ?_⟩, h2⟩
    rw [← h.2.2]
    exact hashable_eq U p.1

/-! ## C120 -/

/-- A named tuple is loaded from such a dict like from the list. -/
theorem named_dict_as_list (E : LEnv) (n c : Nat) (es : List (Val × Val)) (xs : List Val)
    (r : Val) (kw : LoadKw) (hc : (E.info c).kind = .ntuple) (hd : DefaultDesers E kw.fork)
    (hv : NoValidators E kw.fork) (hmeta : dictGet es (.str metaKey) = none)
    (hx : FieldEntries E kw c es xs) :
    (load E (n + 1) (.dict es) (some (.cls (.user c))) kw).val = .ok r ↔
      (load E (n + 1) (.list xs) (some (.cls (.user c))) kw).val = .ok r := by
  obtain ⟨hlen, es', htr, hget⟩ := hx
  have hm : NoMeta (.dict es) := by intro es' h; cases h; exact hmeta
  have ht : (transformKeys E.info (kw.keyTransformer.getD .ok) [] es).map some
      = (.ok (some es') : Except Err _) := by
    rw [(transformKeys_ok es [] es').2 htr]
    rfl
  rw [ntuple_step (v := .dict es) (xs := es.map (·.1)) hd hv hc
      (by simp [Val.cls, validTypes]) hm rfl ht,
    ntuple_step (v := .list xs) (xs := xs) hd hv hc (by simp [Val.cls, SeqKind.cls, validTypes])
      (by intro es h; cases h) rfl rfl, wrapRes_ok, wrapRes_ok]
  simp only [Core.bind_ok, pure_val, Except.ok.injEq, ntupleLoop_ok]
  have hg : ∀ j name, (E.info c).fields[j]? = some name →
      ntupleField (E.info c) (.dict es) (some es') (es.map (·.1)).length (0 + j) name =
      ntupleField (E.info c) (.list xs) none xs.length (0 + j) name := by
    intro j name hj
    simp only [ntupleField, List.length_map, hlen, Nat.zero_add]
    split
    · next hlt =>
      have h := hget j name hj hlt
      have hx : xs[j]? = some xs[j] := List.getElem?_eq_getElem hlt
      simp only [subscript, h, hx, index]
    · rfl
  constructor
  · rintro ⟨ys, h, rfl⟩
    exact ⟨ys, loopOk_congr _ _ _ hg h, rfl⟩
  · rintro ⟨ys, h, rfl⟩
    exact ⟨ys, loopOk_congr _ _ _ (fun j name hj => (hg j name hj).symm) h, rfl⟩

theorem fieldEntries_eq {E : LEnv} {info : Nat → ClassInfo} {desers : Nat → Registry.Table DesFn Ty}
    (U : Rehint E info desers) {kw : LoadKw} {c : Nat} {es : List (Val × Val)} {xs : List Val}
    (hf : (info c).fields = (E.info c).fields) (h : FieldEntries E kw c es xs) :
    FieldEntries (rehinted E info desers) kw c es xs := by
  obtain ⟨hl, es', h1, h2⟩ := h
  refine ⟨hl, es', transformed_eq U h1, fun i name hi hlt => h2 i name ?_ hlt⟩
  rw [← hf]
  exact hi

/-- Sets, frozensets, deques and `Iterable[...]` are loaded element by element. -/
theorem collection_load (E : LEnv) (n : Nat) (v r : Val) (xs : List Val) (g : Gen) (t : Ty) (kw : LoadKw)
    (hg : g ∈ [Gen.set, .frozenset, .deque, .iterable])
    (hd : DefaultDesers E kw.fork) (hv : NoValidators E kw.fork) (h1 : v.cls ∈ validTypes)
    (hm : NoMeta v) (hx : v.iter = some xs) (he : ∀ x ∈ xs, NoMeta x) (hw : kw.warnOnFail = false) :
    (load E (n + 1) v (some (.gen g [t])) kw).val = .ok r ↔
      ∃ ys, castSeq E.info g.naked ys = .ok r ∧
        List.Forall₂ (fun x y => (load E n x (some t) kw).val = .ok y) xs ys := by
  have hl := fun ys => (list_load E n v (.list ys) xs t kw hd hv h1 hm hx he hw).symm
  have hl' : ∀ ys, List.Forall₂ (fun x y => (load E n x (some t) kw).val = .ok y) xs ys ↔
      (listLoop E (load E n) (some t) kw.warnOnFail (elemKw kw) 0 xs).val = .ok ys := by
    intro ys
    have := hl ys
    rw [(list_step hd hv h1 hm hx).1, wrapRes_ok] at this
    simp only [bind_ok, pure_val, Except.ok.injEq, Val.list, Val.seq.injEq, true_and] at this
    simpa using this
  have hf : (Ty.gen g [t]).desFn E.info = some .iterable := by
    simp only [List.mem_cons, List.not_mem_nil, or_false] at hg
    rcases hg with rfl | rfl | rfl | rfl <;> rfl
  have hn : (Ty.gen g [t]).naked? = some g.naked := by
    simp only [List.mem_cons, List.not_mem_nil, or_false] at hg
    rcases hg with rfl | rfl | rfl | rfl <;> rfl
  rw [(load_via (n := n) (t := .gen g [t]) (kw := kw)
    (fun h => absurd h (iter_not_none hx)) gen_not_skip h1 (noMeta_get hm _) (.inr rfl) hd hf (hv _)).1,
    wrapRes_ok]
  have hc : callDes E (load E n) .iterable v (.gen g [t]) (kwOf kw none) =
      (do let ys ← listLoop E (load E n) (some t) kw.warnOnFail (elemKw kw) 0 xs
          Res.liftK (castSeq E.info g.naked ys)) := by
    simp only [callDes, iterableDes, listDes, hx, Ty.getArgs, hn]
    rfl
  rw [congrArg Res.val hc]
  simp only [bind_ok]
  constructor
  · rintro ⟨ys, h, h'⟩
    refine ⟨ys, ?_, (hl' ys).2 h⟩
    cases hh : castSeq E.info g.naked ys with
    | ok z => rw [hh] at h'; cases h'; rfl
    | error k => rw [hh] at h'; cases h'
  · rintro ⟨ys, h', h⟩
    exact ⟨ys, (hl' ys).1 h, by rw [h']; rfl⟩

theorem castSeq_eq {E : LEnv} {info : Nat → ClassInfo} {desers : Nat → Registry.Table DesFn Ty}
    (U : Rehint E info desers) (c : Cls) (ys : List Val) :
    castSeq info c ys = castSeq E.info c ys := by
  unfold castSeq
  cases c <;> simp only [allHashable_eq U]

theorem forall₂_mono {f g : Val → Except Err Val} {xs ys : List Val}
    (hf : ∀ x ∈ xs, ∀ r, f x = .ok r → g x = .ok r) (h : List.Forall₂ (fun x y => f x = .ok y) xs ys) :
    List.Forall₂ (fun x y => g x = .ok y) xs ys := by
  induction h with
  | nil => exact .nil
  | cons h1 _ ih => exact .cons (hf _ (by simp) _ h1) (ih fun x hx => hf x (by simp [hx]))

theorem fieldsFrom_mono {f g : Option Ty → Val → Except Err Val} {I J : ClassInfo} {xs ys : List Val}
    {names : List PyStr} (hd : J.fieldDefaults = I.fieldDefaults)
    (ho : ∀ name ∈ names, Optional' I name → Optional' J name)
    (hf : ∀ (i : Nat) name, names[i]? = some name → ∀ r,
      f (fieldHint I name) (fieldVal I xs i name) = .ok r → g (fieldHint J name) (fieldVal I xs i name) = .ok r)
    (h : FieldsFrom f I xs names ys) : FieldsFrom g J xs names ys := by
  induction h with
  | nil => exact .nil
  | given h1 h2 _ ih =>
    exact .given (fun hx => ho _ (by simp) (h1 hx)) (hf 0 _ rfl _ h2)
      (ih (fun p hp => ho p (by simp [hp])) fun i p hp r hr =>
        hf (i + 1) p (by simpa using hp) r (by simpa [fieldVal] using hr))
  | default h0 h1 h2 _ ih =>
    refine .default (by rw [hd]; exact h0) (fun hx => ho _ (by simp) (h1 hx)) ?_
      (ih (fun p hp => ho p (by simp [hp])) fun i p hp r hr =>
        hf (i + 1) p (by simpa using hp) r (by simpa [fieldVal] using hr))
    have := hf 0 _ rfl _ (by simpa [fieldVal, h0] using h2)
    simpa [fieldVal, h0] using this
  | omitted h0 h1 h2 _ ih =>
    refine .omitted (by rw [hd]; exact h0) (ho _ (by simp) h1) ?_
      (ih (fun p hp => ho p (by simp [hp])) fun i p hp r hr =>
        hf (i + 1) p (by simpa using hp) r (by simpa [fieldVal] using hr))
    have := hf 0 _ rfl _ (by simpa [fieldVal, h0] using h2)
    simpa [fieldVal, h0] using this

theorem enumByName_more {I I' : ClassInfo} {c : Nat} {v r : Val} {more : List (PyStr × Val)}
    (hmore : I'.enumMembers = I.enumMembers ++ more) (h : enumByName I c v = .ok r) :
    enumByName I' c v = .ok r := by
  unfold enumByName at h ⊢
  split at h
  · next s =>
    split at h
    · next hs =>
      cases h
      rw [if_pos]
      rw [hmore]
      revert hs
      generalize I.enumMembers = l
      intro hs
      induction l with
      | nil => cases hs
      | cons p l ih =>
        obtain ⟨a, b⟩ := p
        by_cases ha : a = s
        · simp [assoc, ha]
        · simp only [assoc, ha, if_false, List.cons_append] at hs ⊢
          exact ih hs
    · cases h
  · cases h

theorem enumByName_none {I I' : ClassInfo} {c : Nat} {v : Val} {e : ErrKind} {more : List (PyStr × Val)}
    (hmore : I'.enumMembers = I.enumMembers ++ more)
    (hnew : ∀ s, v = .str s → assoc I.enumMembers s = none → assoc more s = none)
    (h : enumByName I c v = .error e) : enumByName I' c v = .error e := by
  unfold enumByName at h ⊢
  split at h
  · next s =>
    split at h
    · cases h
    · next hs =>
      have hs : assoc I.enumMembers s = none := by simpa using hs
      have : assoc I'.enumMembers s = none := by
        rw [hmore, SchemaGrowth.assoc_append _ _ _ (hnew s rfl hs), hs]
      simp only [this, Option.isSome_none, Bool.false_eq_true, if_false]
      exact h
  · next hv =>
    exact h

theorem enumByValue_more {I I' : ClassInfo} {c : Nat} {v r : Val} {more : List (PyStr × Val)}
    (hmore : I'.enumMembers = I.enumMembers ++ more) (h : enumByValue I c v = .ok r) :
    enumByValue I' c v = .ok r := by
  unfold enumByValue at h ⊢
  rw [hmore, List.find?_append]
  split at h
  · next p hp => rw [hp]; exact h
  · cases h

theorem enumDes_more {E E' : LEnv} {c : Nat} {v r : Val} {kw : LoadKw} {more : List (PyStr × Val)}
    (hmore : (E'.info c).enumMembers = (E.info c).enumMembers ++ more)
    (hnew : ∀ s, v = .str s → kw.useEnumName = none → assoc (E.info c).enumMembers s = none →
      assoc more s = none) (h : (enumDes E v (.cls (.user c)) kw).val = .ok r) :
    (enumDes E' v (.cls (.user c)) kw).val = .ok r := by
  unfold enumDes at h ⊢
  dsimp only at h ⊢
  cases hk : kw.useEnumName with
  | some b =>
    rw [hk] at h
    cases b with
    | true => exact liftK_ok.2 (enumByName_more hmore (liftK_ok.1 h))
    | false => exact liftK_ok.2 (enumByValue_more hmore (liftK_ok.1 h))
  | none =>
    rw [hk] at h
    dsimp only at h ⊢
    cases hn : enumByName (E.info c) c v with
    | ok x =>
      rw [hn] at h
      rw [enumByName_more hmore hn]
      exact h
    | error e =>
      rw [hn] at h
      rw [enumByName_none hmore (fun s hs => hnew s hs hk) hn]
      exact liftK_ok.2 (enumByValue_more hmore (liftK_ok.1 h))

theorem default_dict_load {E : LEnv} {n : Nat} {es : List (Val × Val)} {r : Val} {k a : Ty} {kw : LoadKw}
    (hd : DefaultDesers E kw.fork) (hv : NoValidators E kw.fork) (hm : dictGet es (.str metaKey) = none) :
    (load E (n + 1) (.dict es) (some (.gen .defaultdict [k, a])) kw).val = .ok r ↔
      ∃ ps, (load E n (.dict es) (some (.gen .dict [k, a])) kw).val = .ok (.dict ps) ∧
        r = .ddict (some a) ps := by
  have hm : NoMeta (.dict es) := by intro es' h; cases h; exact hm
  rw [(load_via (t := .gen .defaultdict [k, a]) (f := .defaultdict) (fun h => by cases h) gen_not_skip
    (by simp [Val.cls, validTypes]) (noMeta_get hm _) (.inr rfl) hd rfl (hv _)).1, wrapRes_ok]
  simp only [callDes, defaultdictDes, Ty.getArgs, pure_bind', bind_ok]
  rw [load_same (noMeta_get hm _) (.inr rfl)]
  constructor
  · rintro ⟨x, h1, h2⟩
    split at h2
    · next ps => cases h2; exact ⟨ps, h1, rfl⟩
    · cases h2
  · rintro ⟨ps, h, rfl⟩
    exact ⟨_, h, rfl⟩

theorem none_no_user {E : LEnv} {n c : Nat} {r : Val} {kw : LoadKw} :
    (load E (n + 1) .none (some (.cls (.user c))) kw).val ≠ .ok r := by
  intro h
  rw [load_succ] at h
  unfold loadWith at h
  obtain ⟨_, h, _⟩ := Core.bind_ok.1 h
  unfold checkForNone at h
  rw [if_pos rfl] at h
  obtain ⟨b, h1, h2⟩ := Core.bind_ok.1 h
  have h1 := liftK_ok.1 h1
  unfold canMatchWithNone at h1
  dsimp only at h1
  split at h1
  · cases h1
  · cases h1
    cases h2

theorem enum_load {E : LEnv} {n c : Nat} {v r : Val} {kw : LoadKw} (hd : DefaultDesers E kw.fork)
    (hv : NoValidators E kw.fork) (hc : ∃ i, (E.info c).kind = .enum i) (h0 : v ≠ .none)
    (h1 : v.cls ∈ validTypes) (hm : NoMeta v) :
    (load E (n + 1) v (some (.cls (.user c))) kw).val = .ok r ↔
      (enumDes E v (.cls (.user c)) kw).val = .ok r := by
  have hu : v.cls ≠ .user c := by
    intro h; rw [h] at h1; simp [validTypes] at h1
  rw [(load_via (t := .cls (.user c)) (f := .enum) (fun h => absurd h h0) (by
      rintro (⟨_, h⟩ | h)
      · simp only [Option.some.injEq, Ty.cls.injEq] at h; exact hu h.symm
      · cases h) h1 (noMeta_get hm _) (.inr rfl) hd (enum_desFn hc).1 (hv _)).1, wrapRes_ok]
  simp only [callDes, enumDes, kwOf]

/-- C120: what the old program loads, given enough stack, is loaded by the new program to the same
value. -/
theorem widening_partial (E : LEnv) (info : Nat → ClassInfo) (desers : Nat → Registry.Table DesFn Ty)
    (U : Rehint E info desers) (kw : LoadKw) (v : Val) (t u : Option Ty) (hw : kw.warnOnFail = false)
    (hi : kw.inferred = false) (h : Widened E (rehinted E info desers) kw v t u) :
    ∃ N, ∀ n, N ≤ n → ∀ r, (load E n v t kw).val = .ok r →
      (load (rehinted E info desers) n v u kw).val = .ok r := by
  induction h with
  | same kw v o h => exact ⟨0, fun n _ r hr => by rw [← h]; exact hr⟩
  | ddict kw es k l a hm _ ih =>
    obtain ⟨N, hN⟩ := ih hw hi
    refine ⟨N + 1, fun n hn r hr => ?_⟩
    obtain ⟨n, rfl⟩ : ∃ m, n = m + 1 := ⟨n - 1, by omega⟩
    rw [default_dict_load (U.des _) (U.vals _) hm] at hr
    rw [default_dict_load (U.des' _) (U.vals' _) hm]
    obtain ⟨ps, h, rfl⟩ := hr
    exact ⟨ps, hN n (by omega) _ h, rfl⟩
  | enum kw v c more hc h1 hm hmore hnew =>
    refine ⟨1, fun n hn r hr => ?_⟩
    obtain ⟨n, rfl⟩ : ∃ m, n = m + 1 := ⟨n - 1, by omega⟩
    have h0 : v ≠ .none := by
      rintro rfl
      exact none_no_user hr
    rw [enum_load (U.des _) (U.vals _) hc h0 h1 hm] at hr
    rw [enum_load (U.des' _) (U.vals' _) (by
      obtain ⟨i, hc⟩ := hc
      exact ⟨i, (U.kind c).trans hc⟩) h0 h1 hm]
    exact enumDes_more hmore hnew hr
  | choice kw v o pre post t h1 hm hn ha hp _ ih =>
    obtain ⟨N, hN⟩ := ih hw hi
    obtain ⟨y, M, hM⟩ := ha
    refine ⟨max N M + 2, fun n hn' r hr => ?_⟩
    obtain ⟨n, rfl⟩ : ∃ m, n = m + 2 := ⟨n - 2, by omega⟩
    rw [(union_load_partial _ n v _ kw (lookupsOk_of_default (U.des' _) (U.vals' _)) (U.des' _ _)
      (U.vals' _ _) h1 (noMeta_metaOk hm) hi hn).1 r]
    have hy : r = y := by
      rw [hM (n + 2) (by omega)] at hr
      exact (Except.ok.inj hr).symm
    subst hy
    exact ⟨pre, t, post, rfl, fun p hp' x => hp p hp' _ x, hN _ (by omega) _ (hM _ (by omega))⟩
  | union kw v pre post pre' post' t t' h1 hm hn hn' ha hp hp' _ ih =>
    obtain ⟨N, hN⟩ := ih hw hi
    obtain ⟨y, M, hM⟩ := ha
    refine ⟨max N M + 2, fun n hn'' r hr => ?_⟩
    obtain ⟨n, rfl⟩ : ∃ m, n = m + 2 := ⟨n - 2, by omega⟩
    rw [(union_load_partial _ n v _ kw (lookupsOk_of_default (U.des' _) (U.vals' _)) (U.des' _ _)
      (U.vals' _ _) h1 (noMeta_metaOk hm) hi hn').1 r]
    rw [(union_load_partial _ n v _ kw (lookupsOk_of_default (U.des _) (U.vals _)) (U.des _ _)
      (U.vals _ _) h1 (noMeta_metaOk hm) hi hn).1 r] at hr
    have hy := first_is hr (fun p hp' x => hp p hp' _ x) (hM (n + 1) (by omega))
    subst hy
    exact ⟨pre', t', post', rfl, fun p h x => hp' p h _ x, hN _ (by omega) _ (hM _ (by omega))⟩
  | list kw v xs a b h1 hm hx he hW ih =>
    obtain ⟨N, hN⟩ := common xs fun x hx => ih x hx hw hi
    refine ⟨N + 1, fun n hn r hr => ?_⟩
    obtain ⟨n, rfl⟩ : ∃ m, n = m + 1 := ⟨n - 1, by omega⟩
    rw [list_load _ n v r xs a kw (U.des _) (U.vals _) h1 hm hx he hw] at hr
    rw [list_load _ n v r xs b kw (U.des' _) (U.vals' _) h1 hm hx he hw]
    obtain ⟨ys, rfl, h⟩ := hr
    refine ⟨ys, rfl, ?_⟩
    clear hx he hW ih
    induction h with
    | nil => exact .nil
    | cons h1 _ ih' => exact .cons (hN _ (by simp) n (by omega) _ h1) (ih' fun x hx => hN x (by simp [hx]))
  | tuple kw v xs ts us h0 hl h1 hm hx he _ ih =>
    obtain ⟨N, hN⟩ := common (List.range ts.length) (P := fun i n => ∀ t u x, ts[i]? = some t →
        us[i]? = some u → xs[i]? = some x → ∀ r,
        (load E n x (some t) { kw with keyTransformer := none }).val = .ok r →
        (load (rehinted E info desers) n x (some u) { kw with keyTransformer := none }).val = .ok r) (by
      intro i _
      cases ht : ts[i]? with
      | none => exact ⟨0, fun n _ t u x h => by cases h⟩
      | some t =>
        cases hu : us[i]? with
        | none => exact ⟨0, fun n _ t u x _ h => by cases h⟩
        | some u =>
          cases hx : xs[i]? with
          | none => exact ⟨0, fun n _ t u x _ _ h => by cases h⟩
          | some x =>
            obtain ⟨N, hN⟩ := ih i t u x ht hu hx hw hi
            refine ⟨N, fun n hn t' u' x' h1 h2 h3 => ?_⟩
            cases h1; cases h2; cases h3
            exact hN n hn)
    refine ⟨N + 1, fun n hn r hr => ?_⟩
    obtain ⟨n, rfl⟩ : ∃ m, n = m + 1 := ⟨n - 1, by omega⟩
    match ts, us, h0, hl with
    | t :: ts, u :: us, _, hl =>
      rw [tuple_load_partial _ n v r xs t ts kw (U.des _) (U.vals _) h1 hm hx he] at hr
      rw [tuple_load_partial _ n v r xs u us kw (U.des' _) (U.vals' _) h1 hm hx he]
      obtain ⟨ys, rfl, hlen, h⟩ := hr
      refine ⟨ys, rfl, (by rw [← hl]; exact hlen), elementwise_mono hl ?_ h⟩
      intro i t' u' x y ht hu hx' hy
      exact hN i (List.mem_range.2 (List.getElem?_eq_some_iff.1 ht).1) n (by omega) t' u' x ht hu hx' y hy
  | each kw v xs g a b hg h1 hm hx he hW ih =>
    obtain ⟨N, hN⟩ := common xs fun x hx => ih x hx hw hi
    refine ⟨N + 1, fun n hn r hr => ?_⟩
    obtain ⟨n, rfl⟩ : ∃ m, n = m + 1 := ⟨n - 1, by omega⟩
    rw [collection_load _ n v r xs g a kw hg (U.des _) (U.vals _) h1 hm hx he hw] at hr
    rw [collection_load _ n v r xs g b kw hg (U.des' _) (U.vals' _) h1 hm hx he hw]
    obtain ⟨ys, hc, h⟩ := hr
    exact ⟨ys, (castSeq_eq U _ _).trans hc, forall₂_mono (fun x hx => hN x hx n (by omega)) h⟩
  | ellipsis kw v xs a b h1 hm hx he hW ih =>
    obtain ⟨N, hN⟩ := common xs fun x hx => ih x hx hw hi
    refine ⟨N + 1, fun n hn r hr => ?_⟩
    obtain ⟨n, rfl⟩ : ∃ m, n = m + 1 := ⟨n - 1, by omega⟩
    rw [tuple_ellipsis_load _ n v r xs a kw (U.des _) (U.vals _) h1 hm hx he] at hr
    rw [tuple_ellipsis_load _ n v r xs b kw (U.des' _) (U.vals' _) h1 hm hx he]
    obtain ⟨ys, rfl, h⟩ := hr
    exact ⟨ys, rfl, forall₂_mono (fun x hx => hN x hx n (by omega)) h⟩
  | dict kw g es k l a b hg hm hh he hk hS hW ihk ih =>
    obtain ⟨N, hN⟩ := common es fun e h => ih e h hw hi
    obtain ⟨M, hs⟩ := common es (P := fun e n => ∀ q, kw.keyTransformer.getD .ok e.1 = .ok q → ∀ r,
        (load E n q (some k) { kw with keyTransformer := none }).val = .ok r →
        (load (rehinted E info desers) n q (some l) { kw with keyTransformer := none }).val = .ok r) (by
      intro e he
      cases hq : kw.keyTransformer.getD .ok e.1 with
      | error => exact ⟨0, nofun⟩
      | ok q =>
        obtain ⟨M, hM⟩ := ihk e he q hq hw hi
        refine ⟨M, fun n hn q' hq' => ?_⟩
        cases hq'
        exact hM n hn)
    refine ⟨max N M + 1, fun n hn r hr => ?_⟩
    obtain ⟨n, rfl⟩ : ∃ m, n = m + 1 := ⟨n - 1, by omega⟩
    rw [dict_load_partial _ n g es r k a kw hg (U.des _) (U.vals _) hm hh he hk] at hr
    rw [dict_load_partial _ n g es r l b kw hg (U.des' _) (U.vals' _) hm hh he hk]
    obtain ⟨ps, h, h'⟩ := hr
    refine ⟨ps, ?_, h'⟩
    clear hm hh h' hk he hS hW ihk ih
    induction h with
    | nil => exact .nil
    | cons h1 _ ih' =>
      obtain ⟨⟨q, h2, h3⟩, h4, h5⟩ := h1
      refine .cons ⟨⟨q, h2, hs _ (by simp) n (by omega) q h2 _ h3⟩, hN _ (by simp) n (by omega) _ h4, ?_⟩
        (ih' (fun e he => hN e (by simp [he])) (fun e he => hs e (by simp [he])))
      rw [← h5]; exact hashable_eq U _
  | named kw c k xs hk hc hf hd he hdef ho _ ih =>
    obtain ⟨N, hN⟩ := common (List.range (E.info c).fields.length) (P := fun i n => ∀ name,
        (E.info c).fields[i]? = some name → ∀ r,
        (load E n (fieldVal (E.info c) xs i name) (fieldHint (E.info c) name) kw).val = .ok r →
        (load (rehinted E info desers) n (fieldVal (E.info c) xs i name) (fieldHint (info c) name)
          kw).val = .ok r) (by
      intro i _
      cases hi' : (E.info c).fields[i]? with
      | none => exact ⟨0, nofun⟩
      | some name =>
        obtain ⟨N, hN⟩ := ih i name hi' hw hi
        refine ⟨N, fun n hn name' h => ?_⟩
        cases h
        exact hN n hn)
    refine ⟨N + 1, fun n hn r hr => ?_⟩
    obtain ⟨n, rfl⟩ : ∃ m, n = m + 1 := ⟨n - 1, by omega⟩
    rw [namedtuple_from_list _ n c k xs r kw hk hc (U.des _) (U.vals _) he hdef] at hr
    rw [namedtuple_from_list _ n c k xs r kw hk ((U.kind c).trans hc) (U.des' _) (U.vals' _) he
      (by rw [hd]; exact hdef)]
    obtain ⟨ys, rfl, h⟩ := hr
    refine ⟨ys, rfl, ?_⟩
    rw [hf]
    exact fieldsFrom_mono hd ho (fun i name hi' r hr =>
      hN i (List.mem_range.2 (List.getElem?_eq_some_iff.1 hi').1) n (by omega) name hi' r hr) h
  | namedDict kw c es xs hc hf hm hx _ ih =>
    obtain ⟨N, hN⟩ := ih hw hi
    refine ⟨N + 1, fun n hn r hr => ?_⟩
    obtain ⟨n, rfl⟩ : ∃ m, n = m + 1 := ⟨n - 1, by omega⟩
    rw [named_dict_as_list _ n c es xs r kw hc (U.des _) (U.vals _) hm hx] at hr
    rw [named_dict_as_list _ n c es xs r kw ((U.kind c).trans hc) (U.des' _) (U.vals' _) hm
      (fieldEntries_eq U hf hx)]
    exact hN _ (by omega) r hr
  | obj kw c es hc hp hn _ _ ih ih' =>
    by_cases ht : ∃ es', Transformed E kw es es'
    · obtain ⟨es', ht⟩ := ht
      obtain ⟨N, hN⟩ := common es' (P := fun e n => ∀ s, e.1 = .str s → (∀ r,
          (load E n e.2 (assoc (E.info c).initHints s) (partKw kw)).val = .ok r →
          (load (rehinted E info desers) n e.2 (assoc (info c).initHints s) (partKw kw)).val = .ok r) ∧
          (¬ Known (E.info c) (.str s) → ∀ r,
          (load E n e.2 (some ((assoc (E.info c).hints s).getD (.cls e.2.cls))) (partKw kw)).val = .ok r →
          (load (rehinted E info desers) n e.2 (some ((assoc (info c).hints s).getD (.cls e.2.cls)))
            (partKw kw)).val = .ok r)) (by
        rintro ⟨k, x⟩ he
        by_cases hk : ∃ s, k = .str s
        · obtain ⟨s, rfl⟩ := hk
          obtain ⟨N, hN⟩ := ih es' ht s x he hw hi
          by_cases hkn : Known (E.info c) (.str s)
          · refine ⟨N, fun n hn s' hs => ?_⟩
            cases hs
            exact ⟨hN n hn, fun h => absurd hkn h⟩
          · obtain ⟨M, hM⟩ := ih' es' ht s x he hkn hw hi
            refine ⟨max N M, fun n hn s' hs => ?_⟩
            cases hs
            exact ⟨hN n (by omega), fun _ => hM n (by omega)⟩
        · exact ⟨0, fun n _ s hs => absurd ⟨s, hs⟩ hk⟩)
      refine ⟨N + 1, fun n hn' r hr => ?_⟩
      obtain ⟨n, rfl⟩ : ∃ m, n = m + 1 := ⟨n - 1, by omega⟩
      rw [object_load_plain _ n c es r kw (U.des _) (U.vals _ _) hc hp] at hr
      rw [object_load_plain _ n c es r kw (U.des' _) (U.vals' _ _) ((U.kind c).trans hc) hp]
      obtain ⟨es'', args, as0, as1, as2, h0, h1, h2, h3, h4, h5, rfl⟩ := hr
      obtain rfl := transformed_unique ht h0
      obtain ⟨args', h1', h3'⟩ := (U.params c).args.1 ⟨args, argsOf_mono (I' := info c)
        (ld' := fun _ hint x y => (load (rehinted E info desers) n x hint (partKw kw)).val = .ok y) hn
        (fun s x hx y hy => (hN (.str s, x) hx n (by omega) s rfl).1 y hy) h1, h3⟩
      refine ⟨es', args', as0, as1, as2, transformed_eq U h0, h1', ?_, h3', ?_,
        gettersSet_eq (E := E) rfl h5, rfl⟩
      · intro hst e he
        exact (known_iff (U.params c).mem _).2 (h2 hst e he)
      · exact attrsSet_mono (U.params c).mem rfl
          (fun s x hx hkn y hy => (hN (.str s, x) hx n (by omega) s rfl).2 hkn y hy) h4
    · refine ⟨1, fun n hn' r hr => ?_⟩
      obtain ⟨n, rfl⟩ : ∃ m, n = m + 1 := ⟨n - 1, by omega⟩
      rw [object_load_plain _ n c es r kw (U.des _) (U.vals _ _) hc hp] at hr
      obtain ⟨es'', _, _, _, _, h0, _⟩ := hr
      exact absurd ⟨es'', h0⟩ ht

/-! ## Examples -/

/-- The hints of `Point` become `x: Optional[int]` and `y: Union[int, str]`. -/
def wideInfo : Nat → ClassInfo
  | 0 => { demoInfo 0 with
           hints := [("x".toList, .union [.cls .int, .cls .noneType]), ("y".toList, .union [.cls .int, .cls .str])]
           initHints := [("x".toList, .union [.cls .int, .cls .noneType]),
             ("y".toList, .union [.cls .int, .cls .str])] }
  | c => demoInfo c

theorem wide_names : NamesOk wideInfo desNames := by
  intro c
  match c with
  | 0 | 1 | 2 | 3 | 4 | 5 => decide
  | n + 6 =>
    have : (wideInfo (n + 6)).attrs = mainAttrs "Other" := rfl
    rw [this]
    decide

/-- The old and the new program. -/
theorem demo_rehint : Rehint (demoLEnv demoInfo) wideInfo (fun _ => initialDesers wideInfo) where
  attrs := fun c => by match c with | 0 | 1 | 2 | 3 | 4 | 5 | n + 6 => rfl
  kind := fun c => by match c with | 0 | 1 | 2 | 3 | 4 | 5 | n + 6 => rfl
  hashable := fun c => by match c with | 0 | 1 | 2 | 3 | 4 | 5 | n + 6 => rfl
  params := fun c => .inl (by match c with | 0 | 1 | 2 | 3 | 4 | 5 | n + 6 => rfl)
  des := demo_desers
  des' := fun _ t => getLizer_desFn wideInfo wide_names t
  vals := demo_novals
  vals' := fun _ t => getLizer_empty wideInfo t

/-- The new program. -/
abbrev wideEnv : LEnv := rehinted (demoLEnv demoInfo) wideInfo fun _ => initialDesers wideInfo

/-- `{'x': 1, 'y': 2}` -/
def pointDoc : List (Val × Val) := [(.str "x".toList, .int 1), (.str "y".toList, .int 2)]

theorem int_accepts (k : Int) : Accepts (demoLEnv demoInfo) {} (.int k) (some (.cls .int)) :=
  ⟨.int k, 1, fun n hn => by
    obtain ⟨n, rfl⟩ : ∃ m, n = m + 1 := ⟨n - 1, by omega⟩
    rfl⟩

theorem int_widened (k : Int) (a : Ty) : Widened (demoLEnv demoInfo) wideEnv {} (.int k) (some (.cls .int))
    (some (.union [.cls .int, a])) :=
  .choice {} _ _ [] [a] (.cls .int) (by simp [Val.cls, Atom.cls, validTypes])
    (noMeta_of_not_dict (by simp [Val.cls, Atom.cls, SeqKind.cls])) nofun (int_accepts k) nofun
    (.same _ _ _ fun n => congrArg Res.val (scalar_eq demo_rehint n (.int k) (by simp [scalars]) {}))

/-- `Point` with the old and with the new hints. -/
theorem point_widened : Widened (demoLEnv demoInfo) wideEnv {} (.dict pointDoc) (some (.cls (.user 0)))
    (some (.cls (.user 0))) := by
  refine .obj {} 0 pointDoc rfl ⟨rfl, ?_, rfl⟩ ?_ ?_ ?_
  · intro e he
    simp only [pointDoc, List.mem_cons, List.not_mem_nil, or_false] at he
    rcases he with rfl | rfl <;> exact noMeta_of_not_dict (by simp [Val.cls, Atom.cls, SeqKind.cls])
  · intro p hp h
    have hp' : p.name = "x".toList ∨ p.name = "y".toList := by
      simp only [demoLEnv, demoEnv, demoInfo, List.mem_cons, List.not_mem_nil, or_false] at hp
      rcases hp with rfl | rfl
      · exact .inl rfl
      · exact .inr rfl
    rcases hp' with hp' | hp' <;> rw [hp'] at h <;> exact nomatch h (.cls .int) rfl
  · intro es' ht s x hx
    obtain rfl : es' = pointDoc := ht
    simp only [pointDoc, List.mem_cons, Prod.mk.injEq, List.not_mem_nil, or_false] at hx
    rcases hx with ⟨h, rfl⟩ | ⟨h, rfl⟩ <;> cases h
    · exact int_widened 1 _
    · exact int_widened 2 _
  · intro es' ht s x hx hk
    obtain rfl : es' = pointDoc := ht
    refine absurd ?_ hk
    simp only [pointDoc, List.mem_cons, Prod.mk.injEq, List.not_mem_nil, or_false] at hx
    rcases hx with ⟨h, rfl⟩ | ⟨h, rfl⟩ <;> rw [h]
    · exact .inr ⟨_, List.mem_cons_self, rfl⟩
    · exact .inr ⟨_, List.mem_cons_of_mem _ List.mem_cons_self, rfl⟩

theorem point_accepts : Accepts (demoLEnv demoInfo) {} (.dict pointDoc) (some (.cls (.user 0))) :=
  ⟨.obj 0 [("x".toList, .int 1), ("y".toList, .int 2)], 2, fun n hn => by
    obtain ⟨n, rfl⟩ : ∃ m, n = m + 2 := ⟨n - 2, by omega⟩
    rfl⟩

/-- `[{'x': 1, 'y': 2}]` as `List[Point]` and as `List[Union[Point, int]]`. -/
example : Widened (demoLEnv demoInfo) wideEnv {} (.list [.dict pointDoc])
    (some (.gen .list [.cls (.user 0)])) (some (.gen .list [.union [.cls (.user 0), .cls .int]])) := by
  have hm : NoMeta (.dict pointDoc) := by intro es h; cases h; rfl
  refine .list {} _ [.dict pointDoc] _ _ (by simp [Val.cls, SeqKind.cls, validTypes])
    (noMeta_of_not_dict (by simp [Val.cls, Atom.cls, SeqKind.cls])) rfl ?_ ?_
  · intro x hx
    rw [List.mem_singleton.1 hx]; exact hm
  · intro x hx
    rw [List.mem_singleton.1 hx]
    exact .choice {} _ _ [] [.cls .int] _ (by simp [Val.cls, validTypes]) hm nofun point_accepts nofun
      point_widened

example : (load (demoLEnv demoInfo) 9 (.list [.dict pointDoc]) (some (.gen .list [.cls (.user 0)])) {}).val =
    .ok (.list [.obj 0 [("x".toList, .int 1), ("y".toList, .int 2)]]) ∧
    (load wideEnv 9 (.list [.dict pointDoc]) (some (.gen .list [.union [.cls (.user 0), .cls .int]])) {}).val =
    .ok (.list [.obj 0 [("x".toList, .int 1), ("y".toList, .int 2)]]) := ⟨by rfl, by decide +kernel⟩

/-- `[1]` as `Deque[int]` and as `Deque[Union[int, str]]`. -/
example : Widened (demoLEnv demoInfo) wideEnv {} (.list [.int 1]) (some (.gen .deque [.cls .int]))
    (some (.gen .deque [.union [.cls .int, .cls .str]])) := by
  refine .each {} _ [.int 1] _ _ _ (by simp) (by simp [Val.cls, SeqKind.cls, validTypes])
    (noMeta_of_not_dict (by simp [Val.cls, SeqKind.cls])) rfl ?_ ?_
  · intro x hx
    rw [List.mem_singleton.1 hx]
    exact noMeta_of_not_dict (by simp [Val.cls, Atom.cls])
  · intro x hx
    rw [List.mem_singleton.1 hx]
    exact int_widened 1 _

example : (load wideEnv 9 (.list [.int 1]) (some (.gen .deque [.union [.cls .int, .cls .str]])) {}).val =
    .ok (.seq .deque [.int 1]) := by decide +kernel

/-! ## What does not hold -/

/-- C120 fails if a member comes first that accepts the document, too: `'5'` is loaded as `str` to
`'5'`, and as `Union[int, str]` to 5. -/
theorem widening_fails_before : ∃ (v r r' : Val), Accepts (demoLEnv demoInfo) {} v (some (.cls .str)) ∧
    (load (demoLEnv demoInfo) 9 v (some (.cls .str)) {}).val = .ok r ∧
    (load wideEnv 9 v (some (.union [.cls .int, .cls .str])) {}).val = .ok r' ∧ r ≠ r' :=
  ⟨.str "5".toList, .str "5".toList, .int 5, ⟨.str "5".toList, 2, fun n hn => by
    obtain ⟨n, rfl⟩ : ∃ m, n = m + 2 := ⟨n - 2, by omega⟩
    rfl⟩, by rfl, by rfl, by simp⟩

/-- C120 fails for members of unions that are classes: a `Point` with wider hints accepts documents
that went to the next member before.  `{'y': 'a', 'x': 1}` is a `dict` for the old program if
`Union[Point, dict]` is asked for, and a `Point` for the new program. -/
theorem widening_fails_member : ∃ (v r r' : Val),
    (load (demoLEnv demoInfo) 9 v (some (.union [.cls (.user 0), .cls .dict])) {}).val = .ok r ∧
    (load wideEnv 9 v (some (.union [.cls (.user 0), .cls .dict])) {}).val = .ok r' ∧ r ≠ r' :=
  ⟨.dict [(.str "x".toList, .int 1), (.str "y".toList, .str "a".toList)],
    .dict [(.str "x".toList, .int 1), (.str "y".toList, .str "a".toList)],
    .obj 0 [("x".toList, .int 1), ("y".toList, .str "a".toList)], by rfl, by rfl, by simp⟩

/-- C120 fails for default dicts: the type of the values is also what makes the missing values, so
that `DefaultDict[str, Union[int, str]]` gives a default dict that is not the one of
`DefaultDict[str, int]`. -/
theorem widening_fails_default_dict : ∃ (v r r' : Val),
    (load (demoLEnv demoInfo) 9 v (some (.gen .defaultdict [.cls .str, .cls .int])) {}).val = .ok r ∧
    (load wideEnv 9 v (some (.gen .defaultdict [.cls .str, .union [.cls .int, .cls .str]])) {}).val = .ok r' ∧
    r ≠ r' :=
  ⟨.dict [(.str "a".toList, .int 1)], .ddict (some (.cls .int)) [(.str "a".toList, .int 1)],
    .ddict (some (.union [.cls .int, .cls .str])) [(.str "a".toList, .int 1)],
    by decide +kernel, by decide +kernel, by simp⟩

end Verif.Props.Widening
