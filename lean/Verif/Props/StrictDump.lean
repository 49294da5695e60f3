import Verif.Props.DumpTyped
import Verif.Props.StrictTuples

/-! # C110: strict mode of `dump` only refuses more -/

set_option autoImplicit false

namespace Verif.Props.StrictDump

open Verif Verif.Core Verif.Props.DumpTyped Verif.Props.DumpObject

variable {E : Env}

/-! ## The specification -/

/-- The same JSON, up to the order of the entries of its objects. -/
inductive Like : Val → Val → Prop
  | same (v : Val) : Like v v
  | list {xs ys : List Val} : List.Forall₂ Like xs ys → Like (.list xs) (.list ys)
  | dict {es fs gs : List (Val × Val)} :
      es.map (·.1) = fs.map (·.1) → List.Forall₂ Like (es.map (·.2)) (fs.map (·.2)) → fs.Perm gs →
      Like (.dict es) (.dict gs)

/-- `v` has no parts that jsons dumps on their own. -/
def Scalar (E : Env) : Val → Prop
  | .atom (.timezone _ _) => False
  | .atom _ => True
  | .enum c _ => ∃ b, (E.info c).kind = .enum b
  | _ => False

/-- The types with which strict mode dumps the elements of a collection. -/
inductive ElemTypes (E : Env) : SeqKind → List Val → Option Ty → List (Option Ty) → Prop
  /-- `List[T]` -/
  | list {xs : List Val} {a : Ty} {as : List Ty} :
      ElemTypes E .list xs (some (.gen .list (a :: as))) (List.replicate xs.length (some a))
  /-- A list without a type for its elements: they are dumped as the class of the first. -/
  | bareList {x : Val} {xs : List Val} {cls : Option Ty} :
      cls ∈ [none, some (.cls .list), some (.gen .list [])] →
      ElemTypes E .list (x :: xs) cls (List.replicate (x :: xs).length (some (.cls x.cls)))
  | empty {cls : Option Ty} : cls ∈ [none, some (.cls .list), some (.gen .list [])] →
      ElemTypes E .list [] cls []
  | set {k : SeqKind} {xs : List Val} {cls : Option Ty} : k ∈ [SeqKind.set, .frozenset] →
      cls ∈ [none, some (.cls k.cls), some (.gen .set []), some (.gen .frozenset [])] →
      ElemTypes E k xs cls (List.replicate xs.length none)
  /-- `Set[T]`, `FrozenSet[T]`, `Deque[T]`, `Iterable[T]` -/
  | iterable {k : SeqKind} {xs : List Val} {g : Gen} {a : Ty} :
      g ∈ [Gen.set, .frozenset, .deque, .iterable] →
      ElemTypes E k xs (some (.gen g [a])) (List.replicate xs.length (some a))
  /-- `Tuple[T]` -/
  | tupleOne {xs : List Val} {a : Ty} :
      ElemTypes E .tuple xs (some (.gen .tuple [a])) (List.replicate xs.length (some a))
  /-- `Tuple[T1, ..., Tn]` -/
  | tuple {xs : List Val} {a b : Ty} {ts : List Ty} :
      ElemTypes E .tuple xs (some (.gen .tuple (a :: b :: ts))) ((a :: b :: ts).map some)
  /-- `Tuple[T, ...]` -/
  | tupleEll {xs : List Val} {a : Ty} {as : List Ty} :
      ElemTypes E .tuple xs (some (.gen .tupleEll (a :: as))) (List.replicate xs.length (some a))
  /-- A tuple without a type: its elements are dumped as the type of the first. -/
  | bareTuple {x : Val} {xs : List Val} :
      ElemTypes E .tuple (x :: xs) none (List.replicate (x :: xs).length (some (E.getType x)))
  | emptyTuple : ElemTypes E .tuple [] none []

/-- The names of the attributes that a class declares: its slots, or else its annotations,
or else the hinted parameters of its `__init__`. -/
def declared (I : ClassInfo) : List PyStr :=
  match I.slots with
  | some l => l
  | none =>
    if I.hasAnnotations then I.hints.map (·.1)
    else (I.initHints.map (·.1)).filter (· ≠ "self".toList)

/-- `v` is a value of exactly the type `cls`, with all that belongs to it. -/
inductive Exact (E : Env) (K : DumpKw) (l : List PyStr) : Val → Option Ty → Prop
  | scalar {v : Val} {cls : Option Ty} : Scalar E v → cls ∈ [none, some (.cls v.cls)] →
      Exact E K l v cls
  | boolInt (b : Bool) : Exact E K l (.bool b) (some (.cls .int))
  /-- A dict with keys that JSON has, and any type of dicts. -/
  | dict {es : List (Val × Val)} {cls : Option Ty} :
      cls.all (fun t => t.serFn E.info = some .dict) →
      (∀ e ∈ es, isValidJsonKey E e.1 = true) → (∀ e ∈ es, Exact E K l e.2 none) →
      Exact E K l (.dict es) cls
  | ddict {d : Option Ty} {es : List (Val × Val)} {cls : Option Ty} :
      cls.all (fun t => t.serFn E.info = some .dict) →
      (∀ e ∈ es, isValidJsonKey E e.1 = true) → (∀ e ∈ es, Exact E K l e.2 none) →
      Exact E K l (.ddict d es) cls
  | seq {k : SeqKind} {xs : List Val} {cls : Option Ty} {ts : List (Option Ty)} :
      ElemTypes E k xs cls ts → (∀ p ∈ xs.zip ts, Exact E K l p.1 p.2) →
      Exact E K l (.seq k xs) cls
  /-- Named tuples, as themselves and as tuples: the types are not looked at. -/
  | named {c : Nat} {xs : List Val} {cls : Option Ty} : (E.info c).kind = .ntuple →
      cls.all (fun t => t.serFn E.info = some .tuple) → (∀ x ∈ xs, Exact E K l x none) →
      Exact E K l (.ntuple c xs) cls
  | noneUnion {ts : List Ty} : .cls .noneType ∈ ts → Exact E K l .none (some (.union ts))
  /-- The only member that does not refuse the value. -/
  | union {v : Val} {t : Ty} {ts : List Ty} : v ≠ .none → t ∈ ts →
      (∀ u ∈ ts, u = t ∨ Refuses E v u) → Exact E K l v (some t) → Exact E K l v (some (.union ts))
  /-- An object without a type, or as its own class if it has exactly the attributes that
  the class declares. -/
  | object {c : Nat} {as : List (PyStr × Val)} {cls : Option Ty} : (E.info c).kind = .plain →
      (E.info c).isAttrs = false → (∀ m, assoc (E.info c).members m ≠ some .noSource) →
      (cls = none ∨ cls = some (.cls (.user c)) ∧ (declared (E.info c)).Nodup ∧
        (∀ m, m ∈ declared (E.info c) ∨ m ∈ (E.info c).members.map (·.1) ↔
          m ∈ as.map (·.1) ∨ m ∈ (E.info c).members.map (·.1))) →
      (∀ m a, Selected (E.info c) as K l m → E.getAttr (.obj c as) m = .ok a →
        Exact E K l a (hintOf (E.info c) true m)) →
      (∀ m a t, Selected (E.info c) as K l m → E.getAttr (.obj c as) m = .ok a →
        hintOf (E.info c) false m = some t → Fits E a t) →
      Exact E K l (.obj c as) cls

/-- No verbosity, no key transformer, no stripping of nulls. -/
structure Plain (E : Env) (K : DumpKw) : Prop where
  sers : DefaultSers E K.fork
  verbose : K.verbose = {}
  keys : K.keyTransformer = none
  nulls : K.stripNulls = false
  types : K.types = []
  storeCls : K.storeCls = false

/-- The options with another `strip_attr` and another `strict`. -/
abbrev opt (K : DumpKw) (b : Bool) (s : StripAttr) : DumpKw := { K with stripAttr := s, strict := b }

theorem opt_storeCls {K : DumpKw} (hK : Plain E K) (b : Bool) (s : StripAttr) :
    ({ opt K b s with storeCls := false } : DumpKw) = opt K b s := by
  have := hK.storeCls
  cases K; simp_all

theorem opt_types {K : DumpKw} (hK : Plain E K) (b : Bool) (s : StripAttr) :
    ({ opt K b s with types := [] } : DumpKw) = opt K b s := by
  have := hK.types
  cases K; simp_all

theorem opt_attr {K : DumpKw} (hK : Plain E K) (b : Bool) (s : StripAttr) (l : List PyStr) :
    attrKw (opt K b s) l = opt K b (.tuple l) := by
  have := hK.storeCls
  have := hK.verbose
  cases K; simp_all [attrKw]

theorem selected_opt {K : DumpKw} {I : ClassInfo} {as : List (PyStr × Val)} {b : Bool}
    {s : StripAttr} {l : List PyStr} {m : PyStr} :
    Selected I as (opt K b s) l m ↔ Selected I as K l m :=
  ⟨fun ⟨h1, h2, h3, h4, h5, h6, h7, h8, h9, h10, h11⟩ =>
      ⟨h1, h2, h3, h4, h5, h6, h7, h8, h9, h10, h11⟩,
    fun ⟨h1, h2, h3, h4, h5, h6, h7, h8, h9, h10, h11⟩ =>
      ⟨h1, h2, h3, h4, h5, h6, h7, h8, h9, h10, h11⟩⟩

/-- A result needs at least two calls. -/
theorem deep {n : Nat} {v j : Val} {cls : Option Ty} {kw : DumpKw} (hs : DefaultSers E kw.fork)
    (h : (dump E n v cls kw).val = .ok j) : ∃ m, n = m + 2 := by
  match n with
  | 0 => cases h
  | 1 =>
    obtain ⟨f, _, h⟩ := (dump_ok_iff hs).1 h
    cases h
  | m + 2 => exact ⟨m, rfl⟩

/-! ## Values without parts -/

theorem scalar_call {rec rec' : Rec} {v : Val} {cls : Option Ty} {K : DumpKw} {b b' : Bool}
    {s s' : StripAttr} (hv : Scalar E v) (hc : cls ∈ [none, some (.cls v.cls)]) :
    callSer E rec (v.cls.serFn E.info) v cls (opt K b s) =
      callSer E rec' (v.cls.serFn E.info) v none (opt K b' s') := by
  simp only [List.mem_cons, List.not_mem_nil, or_false] at hc
  cases v with
  | atom a =>
    cases a with
    | timezone => exact hv.elim
    | _ =>
      rcases hc with rfl | rfl <;> rfl
  | enum c m =>
    obtain ⟨i, hi⟩ := hv
    simp only [Val.cls, Cls.serFn, hi]
    rfl
  | seq => exact hv.elim
  | dict => exact hv.elim
  | ddict => exact hv.elim
  | ntuple => exact hv.elim
  | obj => exact hv.elim

/-! ## Collections -/

/-- Outside strict mode a collection without a type is the list of its elements. -/
theorem seq_untyped {K : DumpKw} (hK : Plain E K) {s : StripAttr} {k : SeqKind} {xs ys : List Val}
    (h0 : List.Forall₂ (fun x y => Returns E x none (opt K false s) y) xs ys) :
    Returns E (.seq k xs) none (opt K false s) (.list ys) := by
  obtain ⟨N, h⟩ := forall₂_bound h0
  refine .of_succ (k := 2) ⟨N, fun n hn => ?_⟩
  have hit : (callSer E (recOf E n) .iterable (.seq k xs) none (opt K false s)).val =
      .ok (.list ys) := by
    have hlift : ∀ a : List (Option Ty), (Res.lift (.ok a) : Res (List (Option Ty))) = pure a :=
      fun _ => rfl
    have hsub : getSubclasses xs.length none = .ok (List.replicate xs.length none) := by
      simp [getSubclasses]
    simp only [callSer, iterableSer, Val.iter, elementTypes, Bool.false_eq_true, if_false, hsub,
      hlift, pure_bind']
    rw [Core.bind_ok]
    refine ⟨ys, mapRes_ok.2 ?_, rfl⟩
    have h' := h n hn
    clear hsub h h0
    induction h' with
    | nil => exact .nil
    | cons h1 _ ih =>
      refine .cons ?_ ih
      show ((recOf E n).dump _ none { opt K false s with storeCls := false }).val = _
      rw [opt_storeCls hK]
      exact h1
  rw [dump_via (f := k.cls.serFn E.info) (kw := opt K false s) hK.sers rfl, ← iterable_call (cls := none) rfl]
  exact hit

theorem zip_replicate {α β : Type} (xs : List α) (b : β) :
    xs.zip (List.replicate xs.length b) = xs.map fun x => (x, b) := by
  induction xs with
  | nil => rfl
  | cons x xs ih => simp [List.replicate_succ, ih]

theorem forall₂_map_left {α β γ : Type} {P : β → γ → Prop} {f : α → β} {xs : List α} {ys : List γ} :
    List.Forall₂ P (xs.map f) ys ↔ List.Forall₂ (fun x y => P (f x) y) xs ys := by
  rw [List.forall₂_map_left_iff]

/-- The iterable serializer in strict mode. -/
theorem iterable_strict {K : DumpKw} (hK : Plain E K) {n : Nat} {s : StripAttr} {k : SeqKind}
    {xs : List Val} {cls cls' : Option Ty} {ts : List (Option Ty)} {j : Val}
    (hd : determineCls E (.seq k xs) cls = .ok cls') (hg : getSubclasses xs.length cls' = .ok ts)
    (h : (iterableSer E (recOf E n) (.seq k xs) cls (opt K true s)).val = .ok j) :
    ∃ ys, j = .list ys ∧ List.Forall₂ (fun (p : Val × Option Ty) y =>
      (dump E n p.1 p.2 (opt K true s)).val = .ok y) (xs.zip ts) ys := by
  simp only [iterableSer, Val.iter, elementTypes, if_true, hd, liftK_of_ok, pure_bind', hg,
    Core.bind_ok, lift_val, mapRes_ok, pure_val, Except.ok.injEq, exists_eq_left'] at h
  obtain ⟨ys, h1, h2⟩ := h
  refine ⟨ys, h2.symm, ?_⟩
  have := opt_storeCls hK true s
  rw [← this]
  exact h1

/-- The list serializer with a known type. -/
theorem list_strict {K : DumpKw} (hK : Plain E K) {n : Nat} {s : StripAttr}
    {xs : List Val} {a : Ty} {j : Val}
    (h : (listSer.typed E (recOf E n) (opt K true s) xs a { opt K true s with storeCls := false }).val
      = .ok j) :
    ∃ ys, j = .list ys ∧ List.Forall₂ (fun (p : Val × Option Ty) y =>
      (dump E (n + 1) p.1 p.2 (opt K true s)).val = .ok y)
        (xs.zip (List.replicate xs.length (some a))) ys := by
  rw [opt_storeCls hK] at h
  simp only [listSer.typed, Core.bind_ok, liftK_ok, hK.sers _, mapRes_ok, pure_val,
    Except.ok.injEq] at h
  obtain ⟨f, hf, ys, h1, h2⟩ := h
  refine ⟨ys, h2.symm, ?_⟩
  rw [zip_replicate, forall₂_map_left]
  refine h1.imp fun x y hxy => ?_
  cases f with
  | none => cases hxy
  | some f => exact (dump_ok_iff (kw := opt K true s) hK.sers).2 ⟨f, hf, hxy⟩

theorem subclasses_replicate (n : Nat) (t : Ty) (a : Ty) (h : t.getArgs = [a]) :
    getSubclasses n (some t) = .ok (List.replicate n (some a)) := by
  simp [getSubclasses, h]

theorem subclasses_many {n : Nat} {a b : Ty} {ts : List Ty} {r : List (Option Ty)} :
    getSubclasses n (some (.gen .tuple (a :: b :: ts))) = .ok r ↔
      n = ((a :: b :: ts).map some : List (Option Ty)).length ∧ r = (a :: b :: ts).map some := by
  show (if ((a :: b :: ts).map some : List (Option Ty)).length ≠ n then
    Except.error ({ kind := .serializationError } : Err) else Except.ok ((a :: b :: ts).map some)) = _ ↔ _
  by_cases h : ((a :: b :: ts).map some : List (Option Ty)).length = n
  · rw [if_neg (not_not.2 h), Except.ok.injEq]
    exact ⟨fun e => ⟨h.symm, e.symm⟩, fun e => e.2.symm⟩
  · rw [if_pos h]
    constructor
    · intro e; cases e
    · rintro ⟨e, -⟩; exact absurd e.symm h

/-- What strict mode makes of a collection. -/
theorem seq_strict {K : DumpKw} (hK : Plain E K) {n : Nat} {s : StripAttr} {k : SeqKind}
    {xs : List Val} {cls : Option Ty} {ts : List (Option Ty)} {j : Val}
    (ht : ElemTypes E k xs cls ts)
    (h : (dump E (n + 2) (.seq k xs) cls (opt K true s)).val = .ok j) :
    xs.length = ts.length ∧ ∃ m ys, j = .list ys ∧ List.Forall₂ (fun (p : Val × Option Ty) y =>
      (dump E m p.1 p.2 (opt K true s)).val = .ok y) (xs.zip ts) ys := by
  have hs : DefaultSers E (opt K true s).fork := hK.sers
  cases ht with
  | @list _ a as =>
    refine ⟨by simp, ?_⟩
    rw [dump_via (f := .list) hs rfl] at h
    cases xs with
    | nil => cases h; exact ⟨0, [], rfl, .nil⟩
    | cons x xs => exact ⟨n + 1, list_strict hK h⟩
  | @bareList x xs _ hc =>
    refine ⟨by simp, n + 1, ?_⟩
    simp only [List.mem_cons, List.not_mem_nil, or_false] at hc
    rcases hc with rfl | rfl | rfl <;> rw [dump_via (f := .list) hs rfl] at h <;>
      exact list_strict hK h
  | empty hc =>
    simp only [List.mem_cons, List.not_mem_nil, or_false] at hc
    refine ⟨rfl, 0, [], ?_, .nil⟩
    rcases hc with rfl | rfl | rfl <;> rw [dump_via (f := .list) hs rfl] at h <;> cases h <;> rfl
  | set hk hc =>
    refine ⟨by simp, n, ?_⟩
    simp only [List.mem_cons, List.not_mem_nil, or_false] at hc hk
    rcases hk with rfl | rfl <;> rcases hc with rfl | rfl | rfl | rfl <;>
      rw [dump_via (f := .iterable) hs rfl] at h <;>
      refine iterable_strict hK rfl ?_ h <;> simp [getSubclasses, Ty.getArgs]
  | @iterable _ _ g a hg =>
    refine ⟨by simp, n, ?_⟩
    simp only [List.mem_cons, List.not_mem_nil, or_false] at hg
    rcases hg with rfl | rfl | rfl | rfl <;> rw [dump_via (f := .iterable) hs rfl] at h <;>
      exact iterable_strict hK rfl (subclasses_replicate _ _ _ rfl) h
  | tupleOne =>
    refine ⟨by simp, n, ?_⟩
    rw [dump_via (f := .tuple) hs rfl] at h
    replace h : (do let c ← (pure (some _) : Res (Option Ty)); iterableSer E (recOf E n) _ c _ : Res Val).val = _ := h
    rw [pure_bind'] at h
    exact iterable_strict hK rfl (subclasses_replicate _ _ _ rfl) h
  | @tuple _ a b ts =>
    rw [dump_via (f := .tuple) hs rfl] at h
    replace h : (do let c ← (pure (some _) : Res (Option Ty)); iterableSer E (recOf E n) _ c _ : Res Val).val = _ := h
    rw [pure_bind'] at h
    have hl : xs.length = ((a :: b :: ts).map some : List (Option Ty)).length := by
      rw [Verif.Props.StrictTuples.iterable_strict rfl rfl] at h
      obtain ⟨subs, _, h1, _⟩ := h
      exact (subclasses_many.1 h1).1
    exact ⟨hl, n, iterable_strict hK rfl (subclasses_many.2 ⟨hl, rfl⟩) h⟩
  | @tupleEll _ a as =>
    refine ⟨by simp, n, ?_⟩
    rw [dump_via (f := .tuple) hs rfl] at h
    replace h : (do let c ← (pure (some _) : Res (Option Ty)); iterableSer E (recOf E n) _ c _ : Res Val).val = _ := h
    rw [pure_bind'] at h
    refine iterable_strict hK rfl ?_ h
    match xs with
    | [] => rfl
    | [x] => rfl
    | x :: y :: xs =>
      simp [getSubclasses, Ty.getArgs, List.replicate_succ]
  | @bareTuple x xs =>
    refine ⟨by simp, n, ?_⟩
    rw [dump_via (f := .tuple) hs rfl] at h
    replace h : (do let c ← (pure none : Res (Option Ty)); iterableSer E (recOf E n) _ c _ : Res Val).val = _ := h
    rw [pure_bind'] at h
    exact iterable_strict hK rfl (subclasses_replicate _ _ _ rfl) h
  | emptyTuple =>
    refine ⟨rfl, 0, [], ?_, .nil⟩
    rw [dump_via (f := .tuple) hs rfl] at h
    cases h; rfl

/-! ## Dicts -/

/-- Entries with the same keys. -/
def Entries : List (Val × Val) → List (Val × Val) → Prop :=
  List.Forall₂ fun e f => e.1 = f.1 ∧ Like e.2 f.2

theorem Entries.like {es fs gs : List (Val × Val)} (h : Entries es fs) (hp : fs.Perm gs) :
    Like (.dict es) (.dict gs) := by
  refine .dict ?_ ?_ hp
  · clear hp
    induction h with
    | nil => rfl
    | cons h1 _ ih => rw [List.map_cons, List.map_cons, h1.1, ih]
  · clear hp
    induction h with
    | nil => exact .nil
    | cons h1 _ ih => exact .cons h1.2 ih

theorem Entries.set {es fs : List (Val × Val)} (h : Entries es fs) (k : Val) {v w : Val}
    (hv : Like v w) : Entries (dictSet es k v) (dictSet fs k w) := by
  induction h with
  | nil => exact .cons ⟨rfl, hv⟩ .nil
  | @cons e f es fs h1 h2 ih =>
    obtain ⟨a, b⟩ := e
    obtain ⟨a', b'⟩ := f
    obtain ⟨rfl, h1⟩ := h1
    simp only [dictSet]
    split
    · exact .cons ⟨rfl, hv⟩ h2
    · exact .cons ⟨rfl, h1⟩ ih

/-- What a value without a type gives outside strict mode. -/
def Back (E : Env) (K : DumpKw) (s : StripAttr) (v : Val) (cls : Option Ty) : Prop :=
  ∀ n j, (dump E n v cls (opt K true s)).val = .ok j →
    ∃ j', Like j j' ∧ Returns E v none (opt K false s) j'

theorem dictLoop_step {K : DumpKw} (hK : Plain E K) {b : Bool} {s : StripAttr} {n : Nat}
    {k v : Val} {es acc r : List (Val × Val)} (hk : isValidJsonKey E k = true) :
    (dictLoop E (recOf E n) (opt K b s) ((k, v) :: es) acc).val = .ok r ↔
      ∃ d, (dump E n v none (opt K b s)).val = .ok d ∧
        (dictLoop E (recOf E n) (opt K b s) es (dictSet acc k d)).val = .ok r := by
  have hst : storeAndHash E (recOf E n) acc k (opt K b s) = pure (acc, k) := by
    simp only [storeAndHash, hk, if_true]
  have hadd : ∀ d, addDumped (opt K b s) acc k d = .ok (dictSet acc k d) := by
    intro d
    show (if (K.stripNulls && d == .none) = true then _ else
      (transformKey K.keyTransformer k).map _) = _
    rw [hK.nulls, hK.keys]
    rfl
  have hl : dictLoop E (recOf E n) (opt K b s) ((k, v) :: es) acc =
      (do
        let p ← storeAndHash E (recOf E n) acc k (opt K b s)
        let d ← (recOf E n).dump v none { opt K b s with types := [] }
        let result ← Res.lift (addDumped (opt K b s) p.1 p.2 d)
        dictLoop E (recOf E n) (opt K b s) es result) := by
    by_cases hx : ∃ m, k = .str m
    · obtain ⟨m, rfl⟩ := hx
      have : assoc (opt K b s).types m = none := by
        show assoc K.types m = none
        rw [hK.types]; rfl
      rw [dictLoop, this]
    · rw [dictLoop]
      exact fun m hm => hx ⟨m, hm⟩
  rw [hl, hst, pure_bind', Core.bind_ok]
  dsimp only
  refine exists_congr fun d => and_congr ?_ ?_
  · show ((recOf E n).dump v none { opt K b s with types := [] }).val = _ ↔ _
    rw [opt_types hK]
    rfl
  · rw [hadd, Core.bind_ok]
    simp only [lift_val, Except.ok.injEq, exists_eq_left']

theorem dictLoop_back {K : DumpKw} (hK : Plain E K) {s : StripAttr} {n : Nat}
    (es : List (Val × Val)) (hk : ∀ e ∈ es, isValidJsonKey E e.1 = true)
    (ih : ∀ e ∈ es, Back E K s e.2 none) {acc acc' r : List (Val × Val)} (ha : Entries acc acc')
    (h : (dictLoop E (recOf E n) (opt K true s) es acc).val = .ok r) :
    ∃ r', Entries r r' ∧ ∃ N, ∀ n, N ≤ n →
      (dictLoop E (recOf E n) (opt K false s) es acc').val = .ok r' := by
  induction es generalizing acc acc' with
  | nil =>
    cases h
    exact ⟨acc', ha, 0, fun n _ => rfl⟩
  | cons e es ihe =>
    obtain ⟨k, v⟩ := e
    rw [dictLoop_step hK (hk (k, v) List.mem_cons_self)] at h
    obtain ⟨d, h1, h2⟩ := h
    obtain ⟨d', hd, N1, h1'⟩ := ih (k, v) List.mem_cons_self n d h1
    obtain ⟨r', hr, N2, h2'⟩ := ihe (fun e he => hk e (List.mem_cons_of_mem _ he))
      (fun e he => ih e (List.mem_cons_of_mem _ he)) (ha.set k hd) h2
    refine ⟨r', hr, max N1 N2, fun m hm => ?_⟩
    rw [dictLoop_step hK (hk (k, v) List.mem_cons_self)]
    exact ⟨d', h1' m (by omega), h2' m (by omega)⟩

/-! ## Objects -/

theorem assocSet_nodup {β : Type} {l : List (PyStr × β)} (h : (l.map (·.1)).Nodup) (n : PyStr)
    (b : β) : ((assocSet l n b).map (·.1)).Nodup := by
  have hmem : ∀ (l : List (PyStr × β)) m, m ∈ (assocSet l n b).map (·.1) → m = n ∨ m ∈ l.map (·.1) := by
    intro l m hm
    by_contra hne
    rw [not_or] at hne
    have h1 : assoc (assocSet l n b) m = none := by
      rw [assoc_set, if_neg (fun e => hne.1 e.symm)]
      exact assoc_none.2 hne.2
    exact assoc_none.1 h1 hm
  induction l with
  | nil => simp [assocSet]
  | cons p l ih =>
    obtain ⟨x, c⟩ := p
    rw [List.map_cons, List.nodup_cons] at h
    simp only [assocSet]
    split
    · rw [List.map_cons, List.nodup_cons]; exact h
    · next hx =>
      rw [List.map_cons, List.nodup_cons]
      refine ⟨fun hm => ?_, ih h.2⟩
      rcases hmem l x hm with e | e
      · exact hx e
      · exact h.1 e

theorem foldl_nodup {β γ : Type} (ms : List (PyStr × γ)) (b : β) {l : List (PyStr × β)}
    (h : (l.map (·.1)).Nodup) :
    ((ms.foldl (fun as p => assocSet as p.1 b) l).map (·.1)).Nodup := by
  induction ms generalizing l with
  | nil => exact h
  | cons p ms ih => exact ih (assocSet_nodup h p.1 b)

theorem mem_assoc {β : Type} {l : List (PyStr × β)} (h : (l.map (·.1)).Nodup) {p : PyStr × β}
    (hp : p ∈ l) : assoc l p.1 = some p.2 := by
  induction l with
  | nil => cases hp
  | cons q l ih =>
    rw [List.map_cons, List.nodup_cons] at h
    obtain ⟨x, c⟩ := q
    simp only [assoc]
    rcases List.mem_cons.1 hp with rfl | hp'
    · simp
    · rw [if_neg, ih h.2 hp']
      intro e
      have e : x = p.1 := e
      exact h.1 (e ▸ List.mem_map_of_mem (f := (·.1)) hp')

/-- What a class declares, with its hints. -/
theorem class_list {I : ClassInfo} (hd : (declared I).Nodup) :
    ((attributesAndTypes I true).map (·.1)).Nodup ∧
    ∀ p, p ∈ attributesAndTypes I true ↔
      (p.1 ∈ declared I ∨ p.1 ∈ I.members.map (·.1)) ∧ p.2 = hintOf I true p.1 := by
  have hnd : ((attributesAndTypes I true).map (·.1)).Nodup := by
    unfold attributesAndTypes
    refine foldl_nodup _ _ ?_
    unfold declared at hd
    cases hs : I.slots with
    | some sl => rw [hs] at hd; simpa [Function.comp_def] using hd
    | none =>
      rw [hs] at hd
      simp only at hd ⊢
      split
      · next h => rw [if_pos h] at hd; simpa [Function.comp_def] using hd
      · next h =>
        rw [if_neg h] at hd
        simp only [if_true]
        rw [List.map_map]
        have : (I.initHints.filter fun p => decide (p.1 ≠ "self".toList)).map
            ((fun x => x.1) ∘ fun p => ((p.1, some p.2) : PyStr × Option Ty)) =
            (I.initHints.map (·.1)).filter (· ≠ "self".toList) := by
          rw [List.filter_map]
          rfl
        rw [this]
        exact hd
  have hperm : ∀ n, n ∈ ((I.members.filter fun p => p.2 == .prop) ++
      (I.members.filter fun p => p.2 != .prop)).map (·.1) ↔ n ∈ I.members.map (·.1) := by
    intro n
    simp only [List.mem_map, List.mem_append, List.mem_filter, bne]
    constructor
    · rintro ⟨p, h | h, rfl⟩ <;> exact ⟨p, h.1, rfl⟩
    · rintro ⟨p, h, rfl⟩
      refine ⟨p, ?_, rfl⟩
      cases hb : (p.2 == Member.prop)
      · exact .inr ⟨h, rfl⟩
      · exact .inl ⟨h, rfl⟩
  have hnames : ∀ n, n ∈ (attributesAndTypes I true).map (·.1) ↔
      (n ∈ declared I ∨ n ∈ I.members.map (·.1)) := by
    intro n
    have h0 : n ∈ (attributesAndTypes I true).map (·.1) ↔ assoc (attributesAndTypes I true) n ≠ none := by
      rw [ne_eq, assoc_none, not_not]
    rw [h0]
    unfold attributesAndTypes declared
    dsimp only
    rw [foldl_assocSet_none]
    by_cases hm : n ∈ I.members.map (·.1)
    · rw [if_pos ((hperm n).2 hm)]
      simp [hm]
    · rw [if_neg fun h => hm ((hperm n).1 h), ne_eq, assoc_none, not_not]
      simp only [hm, or_false]
      cases I.slots with
      | some sl => simp
      | none =>
        dsimp only
        split
        · simp
        · simp only [if_true, List.mem_map, List.mem_filter, decide_eq_true_eq]
          constructor
          · rintro ⟨p, ⟨q, ⟨h1, h2⟩, rfl⟩, rfl⟩
            exact ⟨⟨q, h1, rfl⟩, h2⟩
          · rintro ⟨⟨q, h1, rfl⟩, h2⟩
            exact ⟨_, ⟨q, ⟨h1, h2⟩, rfl⟩, rfl⟩
  refine ⟨hnd, fun p => ?_⟩
  rw [← hint_eq, ← hnames]
  constructor
  · intro hp
    refine ⟨List.mem_map_of_mem (f := (·.1)) hp, ?_⟩
    rw [mem_assoc hnd hp]
    rfl
  · rintro ⟨h1, h2⟩
    obtain ⟨q, hq, he⟩ := List.mem_map.1 h1
    have := mem_assoc hnd hq
    rw [he] at this
    rw [this] at h2
    have : q = p := Prod.ext he h2.symm
    exact this ▸ hq

/-- The attributes that strict mode dumps. -/
theorem object_strict {K : DumpKw} (hK : Plain E K) {s : StripAttr} {l : List PyStr}
    (hl : stripNames s = some l) {n c : Nat} {as : List (PyStr × Val)} {cls : Option Ty} {j : Val}
    (hk : (E.info c).kind = .plain) (hat : (E.info c).isAttrs = false)
    (hns : ∀ m, assoc (E.info c).members m ≠ some .noSource)
    (hc : cls = none ∨ cls = some (.cls (.user c)) ∧ (declared (E.info c)).Nodup ∧
        (∀ m, m ∈ declared (E.info c) ∨ m ∈ (E.info c).members.map (·.1) ↔
          m ∈ as.map (·.1) ∨ m ∈ (E.info c).members.map (·.1)))
    (h : (dump E (n + 2) (.obj c as) cls (opt K true s)).val = .ok j) :
    ∃ (ps : List (PyStr × Option Ty)) (g : PyStr × Option Ty → Val),
      j = .dict (ps.map fun p => (.str p.1, g p)) ∧ (ps.map (·.1)).Nodup ∧
      (∀ p, p ∈ ps ↔ Selected (E.info c) as K l p.1 ∧ p.2 = hintOf (E.info c) true p.1) ∧
      ∀ p ∈ ps, AttrDump E n (.obj c as) (opt K true (.tuple l)) p (g p) := by
  have hs : DefaultSers E (opt K true s).fork := hK.sers
  have hloop : ∃ (ps : List (PyStr × Option Ty)) (cn : PyStr) (es : List (Val × Val)),
      (attrLoop E (recOf E n) (opt K true (.tuple l)) false (.obj c as) cn ps []).val = .ok es ∧
      j = .dict es ∧ (ps.map (·.1)).Nodup ∧
      ∀ p, p ∈ ps ↔ Selected (E.info c) as K l p.1 ∧ p.2 = hintOf (E.info c) true p.1 := by
    rcases hc with rfl | ⟨rfl, hd, hm⟩
    · obtain ⟨ps, hps, hsorted, hmem⟩ := selected_list (as := as) (kw := opt K true s) (l := l) hns
      obtain ⟨es, h1, h2⟩ := (object_eq (kw := opt K true s) hs hk hK.verbose hl hps).1 h
      rw [opt_attr hK, hat] at h1
      exact ⟨ps, _, es, h1, h2, Before.nodup hsorted, fun p => by rw [hmem, selected_opt]⟩
    · have hf : ((some (Ty.cls (.user c))).getD (.cls (Val.obj c as).cls)).serFn E.info =
          some .object := by simp [Ty.serFn, Cls.serFn, hk]
      rw [dump_via hs hf] at h
      obtain ⟨hnd, hal⟩ := class_list hd
      obtain ⟨ps, hps⟩ := go_total (kw := opt K true s) (strip := l ++ abcAttrs) hns
        (attributesAndTypes (E.info c) true)
      obtain ⟨h1, h2⟩ := go_spec hps
      have hat' : attributesFromClass (E.info c) (opt K true s) (.tuple l) = .ok ps := hps
      simp only [callSer, objectSer, if_true, normalize_names hl, objectSerWith, hat',
        Core.bind_ok, lift_val, Except.ok.injEq, exists_eq_left'] at h
      obtain ⟨es, h3, h4⟩ := h
      refine ⟨ps, E.className false (.cls (.user c)), es, ?_, ?_, hnd.sublist (h1.map _), fun p => ?_⟩
      · rw [hat] at h3
        rw [← opt_attr hK true s l]
        simp only [attrKw]
        rw [hK.verbose] at h3
        exact h3
      · rw [hK.storeCls] at h4
        simpa [Core.bind_ok, dictWithMeta, liftK_ok, eq_comm, hK.verbose] using h4
      · rw [h2, hal, hm]
        constructor
        · rintro ⟨⟨h5, h6⟩, h7⟩
          exact ⟨selected_opt.1 ((keep_iff (hns _) h5).1 h7), h6⟩
        · rintro ⟨h5, h6⟩
          exact ⟨⟨h5.attr, h6⟩, (keep_iff (hns _) h5.attr).2 (selected_opt.2 h5)⟩
  obtain ⟨ps, cn, es, h1, rfl, hnd, hmem⟩ := hloop
  have hs' : DefaultSers E (opt K true (.tuple l)).fork := hK.sers
  have hd := attrLoop_strict hs' rfl ps [] es h1
  have hex : ∀ p : PyStr × Option Ty, ∃ d, p ∈ ps →
      AttrDump E n (.obj c as) (opt K true (.tuple l)) p d := by
    intro p
    by_cases hp : p ∈ ps
    · obtain ⟨d, hd⟩ := hd p hp
      exact ⟨d, fun _ => hd⟩
    · exact ⟨.none, fun h => absurd h hp⟩
  obtain ⟨g, hg⟩ := Classical.axiomOfChoice hex
  have hall := (attrLoop_all (cn := cn) hs' hK.storeCls hK.keys hK.nulls g [] ps []
    (fun p hp => hg p hp) hnd (by simp)).1
  simp only [List.append_nil, List.nil_append, attrLoop, pure_val] at hall
  rw [hall] at h1
  cases h1
  exact ⟨ps, g, rfl, hnd, hmem, fun p hp => hg p hp⟩

/-- The attributes that are dumped outside strict mode. -/
theorem object_lax {K : DumpKw} (hK : Plain E K) {s : StripAttr} {l : List PyStr}
    (hl : stripNames s = some l) {c : Nat} {as : List (PyStr × Val)} (g : PyStr → Val)
    (hk : (E.info c).kind = .plain) (hat : (E.info c).isAttrs = false)
    (hns : ∀ m, assoc (E.info c).members m ≠ some .noSource)
    (h : ∀ m, Selected (E.info c) as K l m → ∃ a, E.getAttr (.obj c as) m = .ok a ∧
      Returns E a (hintOf (E.info c) false m) (opt K false (.tuple l)) (g m)) :
    ∃ ns : List PyStr, ns.Nodup ∧ (∀ m, m ∈ ns ↔ Selected (E.info c) as K l m) ∧
      Returns E (.obj c as) none (opt K false s) (.dict (ns.map fun m => (.str m, g m))) := by
  obtain ⟨ps, hps, hsorted, hmem⟩ := selected_list (as := as) (kw := opt K false s) (l := l) hns
  have hnd := Before.nodup hsorted
  refine ⟨ps.map (·.1), hnd, ?_, ?_⟩
  · intro m
    rw [List.mem_map]
    constructor
    · rintro ⟨p, hp, rfl⟩
      exact selected_opt.1 ((hmem p).1 hp).1
    · intro hm
      exact ⟨(m, hintOf (E.info c) false m), (hmem (m, _)).2 ⟨selected_opt.2 hm, rfl⟩, rfl⟩
  · have hb : ∃ N, ∀ n, N ≤ n → ∀ p ∈ ps,
        AttrDump E n (.obj c as) (opt K false (.tuple l)) p (g p.1) := by
      have hone : ∀ p ∈ ps, ∃ N, ∀ n, N ≤ n →
          AttrDump E n (.obj c as) (opt K false (.tuple l)) p (g p.1) := by
        intro p hp
        obtain ⟨h1, h2⟩ := (hmem p).1 hp
        obtain ⟨a, h3, N, h4⟩ := h p.1 (selected_opt.1 h1)
        refine ⟨N, fun n hn => ⟨a, h3, ?_⟩⟩
        rw [h2]
        exact h4 (n + 1) (by omega)
      clear hps hsorted hmem hnd
      induction ps with
      | nil => exact ⟨0, fun _ _ _ h => by cases h⟩
      | cons p ps ih =>
        obtain ⟨N1, h1⟩ := hone p List.mem_cons_self
        obtain ⟨N2, h2⟩ := ih fun p hp => hone p (List.mem_cons_of_mem _ hp)
        refine ⟨max N1 N2, fun n hn q hq => ?_⟩
        rcases List.mem_cons.1 hq with rfl | hq
        · exact h1 n (by omega)
        · exact h2 n (by omega) q hq
    obtain ⟨N, hb⟩ := hb
    refine .of_succ (k := 2) ⟨N, fun n hn => ?_⟩
    have hall := (attrLoop_all (kw := opt K false (.tuple l)) (n := n) (v := .obj c as)
      (cn := E.className false (.cls (.user c))) hK.sers hK.storeCls hK.keys hK.nulls
      (fun p => g p.1) [] ps [] (hb n hn) hnd (by simp)).1
    simp only [List.append_nil, List.nil_append, attrLoop, pure_val] at hall
    refine (object_eq (kw := opt K false s) hK.sers hk hK.verbose hl hps).2 ⟨_, ?_, rfl⟩
    rw [opt_attr hK, hat, List.map_map]
    exact hall

/-! ## C110 -/

theorem strict_back {K : DumpKw} (hK : Plain E K) {l : List PyStr} {v : Val} {cls : Option Ty}
    (hv : Exact E K l v cls) : ∀ s, stripNames s = some l → Back E K s v cls := by
  induction hv with
  | @scalar v cls hv hc =>
    intro s hl n j h
    obtain ⟨n, rfl⟩ := deep (kw := opt K true s) hK.sers h
    refine ⟨j, .same j, .of_succ (k := 2) ⟨0, fun m _ => ?_⟩⟩
    have hf : (cls.getD (.cls v.cls)).serFn E.info = some (v.cls.serFn E.info) := by
      simp only [List.mem_cons, List.not_mem_nil, or_false] at hc
      rcases hc with rfl | rfl <;> rfl
    rw [dump_via (kw := opt K true s) hK.sers hf] at h
    rw [dump_via (cls := none) (kw := opt K false s) hK.sers (f := v.cls.serFn E.info) rfl,
      ← scalar_call (rec := recOf E n) (b := true) (s := s) hv hc]
    exact h
  | boolInt b =>
    intro s hl n j h
    obtain ⟨n, rfl⟩ := deep (kw := opt K true s) hK.sers h
    rw [dump_via (f := .primitive) (kw := opt K true s) hK.sers rfl] at h
    cases h
    refine ⟨_, .same _, .of_succ (k := 2) ⟨0, fun m _ => ?_⟩⟩
    rw [dump_via (f := .primitive) (kw := opt K false s) hK.sers rfl]
    rfl
  | @dict es cls hc hk hv ih =>
    intro s hl n j h
    obtain ⟨n, rfl⟩ := deep (kw := opt K true s) hK.sers h
    have hf : (cls.getD (.cls (Val.dict es).cls)).serFn E.info = some .dict := by
      cases cls with
      | none => rfl
      | some t => simpa using hc
    rw [dump_via (kw := opt K true s) hK.sers hf] at h
    simp only [callSer, dictSer, Core.bind_ok, pure_val, Except.ok.injEq] at h
    obtain ⟨r, h1, rfl⟩ := h
    obtain ⟨r', hr, N, h2⟩ := dictLoop_back hK es hk (fun e he => ih e he s hl) .nil h1
    refine ⟨_, hr.like (.refl _), .of_succ (k := 2) ⟨N, fun m hm => ?_⟩⟩
    rw [dump_via (f := .dict) (kw := opt K false s) hK.sers rfl]
    simp only [callSer, dictSer, Core.bind_ok, pure_val, Except.ok.injEq]
    exact ⟨r', h2 m hm, rfl⟩
  | @ddict d es cls hc hk hv ih =>
    intro s hl n j h
    obtain ⟨n, rfl⟩ := deep (kw := opt K true s) hK.sers h
    have hf : (cls.getD (.cls (Val.ddict d es).cls)).serFn E.info = some .dict := by
      cases cls with
      | none => rfl
      | some t => simpa using hc
    rw [dump_via (kw := opt K true s) hK.sers hf] at h
    simp only [callSer, dictSer, Core.bind_ok, pure_val, Except.ok.injEq] at h
    obtain ⟨r, h1, rfl⟩ := h
    obtain ⟨r', hr, N, h2⟩ := dictLoop_back hK es hk (fun e he => ih e he s hl) .nil h1
    refine ⟨_, hr.like (.refl _), .of_succ (k := 2) ⟨N, fun m hm => ?_⟩⟩
    rw [dump_via (f := .dict) (kw := opt K false s) hK.sers rfl]
    simp only [callSer, dictSer, Core.bind_ok, pure_val, Except.ok.injEq]
    exact ⟨r', h2 m hm, rfl⟩
  | @seq k xs cls ts ht hx ih =>
    intro s hl n j h
    obtain ⟨n, rfl⟩ := deep (kw := opt K true s) hK.sers h
    obtain ⟨hlen, m, ys, rfl, hys⟩ := seq_strict hK ht h
    clear h ht hx
    have : ∃ zs, List.Forall₂ Like ys zs ∧
        List.Forall₂ (fun x y => Returns E x none (opt K false s) y) xs zs := by
      induction xs generalizing ts ys with
      | nil => cases hys; exact ⟨[], .nil, .nil⟩
      | cons x xs ih' =>
        cases ts with
        | nil => cases hlen
        | cons t ts =>
          rw [List.zip_cons_cons] at hys
          cases hys with
          | cons h1 h2 =>
            obtain ⟨z, hz, hr⟩ := ih (x, t) (by simp) s hl m _ h1
            obtain ⟨zs, h3, h4⟩ := ih'
              (fun p hp => ih p (by rw [List.zip_cons_cons]; exact List.mem_cons_of_mem _ hp))
              (by simpa using hlen) _ h2
            exact ⟨z :: zs, .cons hz h3, .cons hr h4⟩
    obtain ⟨zs, h1, h2⟩ := this
    exact ⟨_, .list h1, seq_untyped hK h2⟩
  | @named c xs cls hk hc _ ih =>
    intro s hl n j h
    obtain ⟨n, rfl⟩ := deep (kw := opt K true s) hK.sers h
    have hf : (cls.getD (.cls (Val.ntuple c xs).cls)).serFn E.info = some .tuple := by
      cases cls with
      | none => simp [Ty.serFn, Cls.serFn, Val.cls, hk]
      | some t => simpa using hc
    rw [dump_via (kw := opt K true s) hK.sers hf] at h
    simp only [callSer, tupleSer, namedtupleSer, Core.bind_ok, mapRes_ok, pure_val,
      Except.ok.injEq] at h
    obtain ⟨ys, h1, rfl⟩ := h
    have : ∃ zs, Entries ys zs ∧ List.Forall₂ (fun (p : PyStr × Val) (z : Val × Val) =>
        ∃ N, ∀ n, N ≤ n → ∃ y, (dump E n p.2 none (opt K false s)).val = .ok y ∧ (.str p.1, y) = z)
          ((E.info c).fields.zip xs) zs := by
      have ih2 : ∀ p ∈ (E.info c).fields.zip xs, Back E K s p.2 none :=
        fun p hp => ih p.2 (List.of_mem_zip hp).2 s hl
      clear ih hf
      generalize (E.info c).fields.zip xs = qs at h1 ih2 ⊢
      induction h1 with
      | nil => exact ⟨[], .nil, .nil⟩
      | cons h2 _ ih' =>
        obtain ⟨y, h3, rfl⟩ := h2
        obtain ⟨z, hz, N, hr⟩ := ih2 _ List.mem_cons_self _ _ h3
        obtain ⟨zs, h4, h5⟩ := ih' fun p hp => ih2 p (List.mem_cons_of_mem _ hp)
        exact ⟨(.str _, z) :: zs, .cons ⟨rfl, hz⟩ h4, .cons ⟨N, fun n hn => ⟨z, hr n hn, rfl⟩⟩ h5⟩
    obtain ⟨zs, hz, h2⟩ := this
    obtain ⟨N, h2⟩ := forall₂_bound h2
    refine ⟨_, hz.like (.refl _), .of_succ (k := 2) ⟨N, fun m hm => ?_⟩⟩
    have hf' : ((none : Option Ty).getD (.cls (Val.ntuple c xs).cls)).serFn E.info = some .tuple := by
      simp [Ty.serFn, Cls.serFn, Val.cls, hk]
    rw [dump_via (kw := opt K false s) hK.sers hf']
    simp only [callSer, tupleSer, namedtupleSer, Core.bind_ok, mapRes_ok, pure_val,
      Except.ok.injEq]
    exact ⟨zs, h2 m hm, rfl⟩
  | noneUnion hn =>
    intro s hl n j h
    obtain ⟨n, rfl⟩ := deep (kw := opt K true s) hK.sers h
    rw [dump_via (f := .union) (kw := opt K true s) hK.sers rfl] at h
    simp only [callSer, unionSer, Option.bind_some, Ty.unionParams] at h
    simp only [hn, and_self, if_true] at h
    cases h
    refine ⟨_, .same _, .of_succ (k := 2) ⟨0, fun m _ => ?_⟩⟩
    rw [dump_via (f := .primitive) (kw := opt K false s) hK.sers rfl]
    rfl
  | @union v t ts hn ht hr _ ih =>
    intro s hl n j h
    obtain ⟨n, rfl⟩ := deep (kw := opt K true s) hK.sers h
    cases n with
    | zero =>
      rw [dump_via (f := .union) (kw := opt K true s) hK.sers rfl] at h
      simp only [callSer, unionSer, Option.bind_some, Ty.unionParams] at h
      rw [if_neg (by simp [hn])] at h
      exfalso
      have : ∀ us : List Ty, ∀ r, (unionLoop (recOf E 0) v (opt K true s) us).val ≠ .ok r := by
        intro us
        cases us with
        | nil => intro r hr; cases hr
        | cons u us => intro r hr; cases hr
      exact this _ _ h
    | succ n =>
      rw [DumpCollections.union_dump _ n _ _ (opt K true s) hK.sers, if_neg (by simp [hn])] at h
      obtain ⟨before, u, after, rfl, _, h2⟩ := h
      obtain ⟨m, hm⟩ := deep (kw := opt K true s) hK.sers h2
      rcases hr u (by simp) with rfl | hu
      · exact ih s hl _ _ h2
      · exfalso
        obtain ⟨e, he⟩ := refuses_error (kw := opt K true s) hK.sers hu m
        rw [← hm] at he
        rw [show (dump E (n + 1) v (some u) (opt K true s)).val = _ from h2] at he
        cases he
  | @object c as cls hk hat hns hc _ hfit ih =>
    intro s hl n j h
    obtain ⟨n, rfl⟩ := deep (kw := opt K true s) hK.sers h
    obtain ⟨ps, g, rfl, hnd, hmem, hg⟩ := object_strict hK hl hk hat hns hc h
    have hex : ∀ m, ∃ d', ∀ p ∈ ps, p.1 = m → Like (g p) d' ∧ ∃ a, E.getAttr (.obj c as) m = .ok a ∧
        Returns E a (hintOf (E.info c) false m) (opt K false (.tuple l)) d' := by
      intro m
      by_cases hm : ∃ p ∈ ps, p.1 = m
      · obtain ⟨p, hp, rfl⟩ := hm
        obtain ⟨h1, h2⟩ := (hmem p).1 hp
        obtain ⟨a, h3, h4⟩ := hg p hp
        rw [h2] at h4
        obtain ⟨d', h5, h6⟩ := ih p.1 a h1 h3 (.tuple l) rfl _ _ h4
        refine ⟨d', fun q hq he => ?_⟩
        have : q = p := Prod.ext he (by rw [((hmem q).1 hq).2, h2, he])
        subst this
        refine ⟨h5, a, h3, ?_⟩
        cases ht : hintOf (E.info c) false q.1 with
        | none => exact h6
        | some t =>
          exact dump_typed_partial E a t (opt K false (.tuple l)) d' hK.sers rfl
            (hfit q.1 a t h1 h3 ht) h6
      · exact ⟨.none, fun p hp he => absurd ⟨p, hp, he⟩ hm⟩
    obtain ⟨g', hg'⟩ := Classical.axiomOfChoice hex
    obtain ⟨ns, hns', hmn, hret⟩ := object_lax hK hl (as := as) g' hk hat hns (by
      intro m hm
      exact (hg' m (m, hintOf (E.info c) true m) ((hmem (m, _)).2 ⟨hm, rfl⟩) rfl).2)
    refine ⟨_, ?_, hret⟩
    refine Entries.like (fs := (ps.map (·.1)).map fun m => (.str m, g' m)) ?_ ?_
    · rw [List.map_map]
      clear hnd hmem hg hex hret h
      have : ∀ p ∈ ps, Like (g p) (g' p.1) := fun p hp => (hg' p.1 p hp rfl).1
      clear hg'
      induction ps with
      | nil => exact .nil
      | cons p ps ihp =>
        exact .cons ⟨rfl, this p List.mem_cons_self⟩ (ihp fun q hq => this q (List.mem_cons_of_mem _ hq))
    · refine List.Perm.map _ ((List.perm_ext_iff_of_nodup hnd hns').2 fun m => ?_)
      rw [hmn, List.mem_map]
      constructor
      · rintro ⟨p, hp, rfl⟩; exact ((hmem p).1 hp).1
      · intro hm; exact ⟨(m, hintOf (E.info c) true m), (hmem (m, _)).2 ⟨hm, rfl⟩, rfl⟩

/-- C110, `_partial`: if `dump(v, cls=T, strict=True)` returns `j` for a value of exactly the
type `T` then `dump(v)` returns the same up to the order of the entries of objects, and so
does `dump(v, cls=T)` if the class fits (C84); `T` may be missing.  Missing (and false, see
below): values that are not exactly of the types with which strict mode dumps them, among
them lists with elements of several classes and instances of subclasses.  Not covered:
dict keys that JSON does not have, time zones and `NewType`s; for `verbose`, key
transformers and `strip_nulls` see `StrictStyled.strict_styled_partial`. -/
theorem strict_dump_partial (E : Env) (n : Nat) (v j : Val) (cls : Option Ty) (kw : DumpKw)
    (l : List PyStr) (hkw : Plain E kw) (hl : stripNames kw.stripAttr = some l)
    (hv : Exact E kw l v cls)
    (h : (dump E n v cls { kw with strict := true }).val = .ok j) :
    ∃ j', Like j j' ∧ Returns E v none { kw with strict := false } j' ∧
      ∀ t, cls = some t → Fits E v t → Returns E v (some t) { kw with strict := false } j' := by
  obtain ⟨j', h1, h2⟩ := strict_back hkw hv kw.stripAttr hl n j h
  exact ⟨j', h1, h2, fun t _ ht =>
    dump_typed_partial E v t { kw with strict := false } j' hkw.sers rfl ht h2⟩

/-! ## What `Like` means -/

/-- Scalars are the same, and lists have the same elements in the same order. -/
theorem like_atom {a : Atom} {j : Val} (h : Like (.atom a) j) : j = .atom a := by
  cases h; rfl

theorem like_list {xs : List Val} {j : Val} (h : Like (.list xs) j) :
    ∃ ys, j = .list ys ∧ List.Forall₂ Like xs ys := by
  cases h with
  | same =>
    refine ⟨xs, rfl, ?_⟩
    induction xs with
    | nil => exact .nil
    | cons x xs ih => exact .cons (.same x) ih
  | list h => exact ⟨_, rfl, h⟩

/-- Every entry of the one is an entry of the other, with a value that is like it. -/
theorem like_dict {es : List (Val × Val)} {j : Val} (h : Like (.dict es) j) :
    ∃ fs, j = .dict fs ∧ es.length = fs.length ∧ (∀ e ∈ es, ∃ w, (e.1, w) ∈ fs ∧ Like e.2 w) ∧
      ∀ f ∈ fs, ∃ w, (f.1, w) ∈ es ∧ Like w f.2 := by
  cases h with
  | same => exact ⟨es, rfl, rfl, fun e he => ⟨e.2, he, .same _⟩, fun e he => ⟨e.2, he, .same _⟩⟩
  | @dict _ fs gs h1 h2 h3 =>
    have hlen : es.length = fs.length := by simpa using congrArg List.length h1
    have key : (∀ e ∈ es, ∃ w, (e.1, w) ∈ fs ∧ Like e.2 w) ∧
        ∀ f ∈ fs, ∃ w, (f.1, w) ∈ es ∧ Like w f.2 := by
      clear h3
      induction es generalizing fs with
      | nil =>
        cases fs with
        | nil => exact ⟨by simp, by simp⟩
        | cons => cases hlen
      | cons e es ih =>
        cases fs with
        | nil => cases hlen
        | cons f fs =>
          simp only [List.map_cons, List.cons.injEq] at h1
          rw [List.map_cons, List.map_cons] at h2
          cases h2 with
          | cons h4 h5 =>
            obtain ⟨ih1, ih2⟩ := ih h1.2 h5 (by simpa using hlen)
            constructor
            · intro e' he
              rcases List.mem_cons.1 he with rfl | he
              · exact ⟨f.2, by rw [h1.1]; exact List.mem_cons_self, h4⟩
              · obtain ⟨w, h6, h7⟩ := ih1 e' he
                exact ⟨w, List.mem_cons_of_mem _ h6, h7⟩
            · intro f' hf
              rcases List.mem_cons.1 hf with rfl | hf
              · exact ⟨e.2, by rw [← h1.1]; exact List.mem_cons_self, h4⟩
              · obtain ⟨w, h6, h7⟩ := ih2 f' hf
                exact ⟨w, List.mem_cons_of_mem _ h6, h7⟩
    refine ⟨gs, rfl, hlen.trans h3.length_eq, fun e he => ?_, fun f hf => key.2 f (h3.mem_iff.2 hf)⟩
    obtain ⟨w, h4, h5⟩ := key.1 e he
    exact ⟨w, h3.mem_iff.1 h4, h5⟩

/-! ## Where strict mode gives something else -/

/-- `class Base: x: int` and `class Derived(Base)` with `y: int` before `x: int`. -/
def familyInfo : Nat → ClassInfo
  | 0 => { attrs := mainAttrs "Base", hints := [("x".toList, .cls .int)] }
  | 1 => { attrs := mainAttrs "Derived", supers := [0]
           hints := [("y".toList, .cls .int), ("x".toList, .cls .int)] }
  | _ => { attrs := mainAttrs "Other" }

/-- C110 is false in general: `dump([1.5, 2], strict=True)` makes a float of the `2`, and
`dump(Derived(), cls=Base, strict=True)` loses an attribute. -/
theorem strict_dump_changes :
    (dump (demoEnv demoInfo) 9 (.list [.float (3 / 2), .int 2]) none { strict := true }).val =
      .ok (.list [.float (3 / 2), .float 2]) ∧
    (dump (demoEnv demoInfo) 9 (.list [.float (3 / 2), .int 2]) none {}).val =
      .ok (.list [.float (3 / 2), .int 2]) ∧
    (dump (demoEnv familyInfo) 9 (.obj 1 [("x".toList, .int 1), ("y".toList, .int 2)])
      (some (.cls (.user 0))) { strict := true }).val = .ok (.dict [(.str "x".toList, .int 1)]) ∧
    (dump (demoEnv familyInfo) 9 (.obj 1 [("x".toList, .int 1), ("y".toList, .int 2)])
      (some (.cls (.user 0))) {}).val =
      .ok (.dict [(.str "x".toList, .int 1), (.str "y".toList, .int 2)]) :=
  ⟨by rfl, by rfl, by rfl, by rfl⟩

/-- The order does change: with its class an object is dumped in the order of the
annotations, otherwise in the order of the names. -/
theorem strict_dump_order :
    (dump (demoEnv familyInfo) 9 (.obj 1 [("x".toList, .int 1), ("y".toList, .int 2)])
      (some (.cls (.user 1))) { strict := true }).val =
      .ok (.dict [(.str "y".toList, .int 2), (.str "x".toList, .int 1)]) ∧
    (dump (demoEnv familyInfo) 9 (.obj 1 [("x".toList, .int 1), ("y".toList, .int 2)])
      (some (.cls (.user 1))) {}).val =
      .ok (.dict [(.str "x".toList, .int 1), (.str "y".toList, .int 2)]) :=
  ⟨by rfl, by rfl⟩

/-! ## An example -/

theorem demo_plain : Plain (demoEnv demoInfo) {} := ⟨demo_sers 0, rfl, rfl, rfl, rfl, rfl⟩

/-- `Point(x, y)` is exactly a `Point`. -/
theorem point_exact (x y : Int) : Exact (demoEnv demoInfo) {} []
    (.obj 0 [("x".toList, .int x), ("y".toList, .int y)]) (some (.cls (.user 0))) := by
  have hsel : ∀ m a, Selected (demoInfo 0) [("x".toList, .int x), ("y".toList, .int y)] {} [] m →
      (demoEnv demoInfo).getAttr (.obj 0 [("x".toList, .int x), ("y".toList, .int y)]) m = .ok a →
      ∀ b, hintOf (demoInfo 0) b m = some (.cls .int) ∧ ∃ i, a = .int i := by
    intro m a hs ha b
    have hm : m = "x".toList ∨ m = "y".toList := by
      have := hs.attr
      simpa [demoInfo] using this
    rcases hm with rfl | rfl
    · cases ha; exact ⟨by cases b <;> rfl, x, rfl⟩
    · cases ha; exact ⟨by cases b <;> rfl, y, rfl⟩
  refine .object rfl rfl (fun m => by intro h; cases h) (.inr ⟨rfl, by decide, fun m => ?_⟩) ?_ ?_
  · simp [declared, demoEnv, demoInfo]
  · intro m a hs ha
    obtain ⟨h1, i, rfl⟩ := hsel m a hs ha true
    rw [show (demoEnv demoInfo).info = demoInfo from rfl, h1]
    exact .scalar trivial (by simp [Val.cls, Atom.cls])
  · intro m a t hs ha ht
    obtain ⟨h1, i, rfl⟩ := hsel m a hs ha false
    rw [show (demoEnv demoInfo).info = demoInfo from rfl, h1] at ht
    cases ht
    exact .own (v := .int i) trivial nofun nofun

/-- `{'a': [Point(1, 2), Point(3, 4)], 'b': (1, 2)}`. -/
example : Exact (demoEnv demoInfo) {} []
      (.dict [(.str ['a'], .list [.obj 0 [("x".toList, .int 1), ("y".toList, .int 2)],
          .obj 0 [("x".toList, .int 3), ("y".toList, .int 4)]]),
        (.str ['b'], .seq .tuple [.int 1, .int 2])]) none ∧
    (dump (demoEnv demoInfo) 9 (.dict [(.str ['a'], .list [
          .obj 0 [("x".toList, .int 1), ("y".toList, .int 2)],
          .obj 0 [("x".toList, .int 3), ("y".toList, .int 4)]]),
        (.str ['b'], .seq .tuple [.int 1, .int 2])]) none { strict := true }).val =
      .ok (.dict [(.str ['a'], .list [
          .dict [(.str "x".toList, .int 1), (.str "y".toList, .int 2)],
          .dict [(.str "x".toList, .int 3), (.str "y".toList, .int 4)]]),
        (.str ['b'], .list [.int 1, .int 2])]) := by
  refine ⟨.dict rfl ?_ ?_, by rfl⟩
  · intro e he
    simp only [List.mem_cons, List.not_mem_nil, or_false] at he
    rcases he with rfl | rfl <;> rfl
  · intro e he
    simp only [List.mem_cons, List.not_mem_nil, or_false] at he
    rcases he with rfl | rfl
    · refine .seq (.bareList (by simp)) fun p hp => ?_
      simp only [List.length_cons, List.length_nil, List.replicate_succ, List.replicate_zero,
        List.zip_cons_cons, List.zip_nil_right, List.mem_cons, List.not_mem_nil, or_false] at hp
      rcases hp with rfl | rfl <;> exact point_exact _ _
    · refine .seq .bareTuple fun p hp => ?_
      simp only [List.length_cons, List.length_nil, List.replicate_succ, List.replicate_zero,
        List.zip_cons_cons, List.zip_nil_right, List.mem_cons, List.not_mem_nil, or_false] at hp
      rcases hp with rfl | rfl <;> exact .scalar trivial (.tail _ (.head _))

end Verif.Props.StrictDump
