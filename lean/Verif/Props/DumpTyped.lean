import Verif.Props.Times
import Verif.Props.Refuses

/-! # C84: a class that fits does not change what is dumped -/

set_option autoImplicit false

namespace Verif.Props.DumpTyped

open Verif Verif.Core Verif.Datetime Verif.Props.Times

variable {E : Env}

/-! ## The specification -/

/-- `dump(v, cls, **kw)` returns `j`, if the stack is large enough. -/
def Returns (E : Env) (v : Val) (cls : Option Ty) (kw : DumpKw) (j : Val) : Prop :=
  ∃ N, ∀ n, N ≤ n → (dump E n v cls kw).val = .ok j

/-- `v` is a value of type `t`, as far as this is looked at. -/
inductive Fits (E : Env) : Val → Ty → Prop
  /-- A value and its own class. -/
  | own {v : Val} : RightKind E v → v.cls ≠ .tuple → v.cls ≠ .timezone → Fits E v (.cls v.cls)
  | boolInt (b : Bool) : Fits E (.bool b) (.cls .int)
  /-- An object and any superclass. -/
  | object {c d : Nat} {as : List (PyStr × Val)} : (E.info c).kind = .plain →
      (E.info d).kind = .plain → Fits E (.obj c as) (.cls (.user d))
  | dict {v : Val} {g : Gen} {a : List Ty} : v.cls ∈ [Cls.dict, .defaultdict] →
      g ∈ [Gen.dict, .mapping, .defaultdict] → Fits E v (.gen g a)
  | mapping {v : Val} {c : Cls} : v.cls ∈ [Cls.dict, .defaultdict] →
      c ∈ [Cls.dict, .mapping, .defaultdict] → Fits E v (.cls c)
  /-- `Tuple[T1, ..., Tn]` with at least one argument. -/
  | tuple {xs : List Val} {a : Ty} {as : List Ty} : Fits E (.seq .tuple xs) (.gen .tuple (a :: as))
  | tupleEll {xs : List Val} {as : List Ty} : Fits E (.seq .tuple xs) (.gen .tupleEll as)
  | named {c : Nat} {xs : List Val} {g : Gen} {as : List Ty} : (E.info c).kind = .ntuple →
      g ∈ [Gen.tuple, .tupleEll] → Fits E (.ntuple c xs) (.gen g as)
  /-- `Set[T]`, `FrozenSet[T]`, `Deque[T]`, `Iterable[T]`. -/
  | iterable {k : SeqKind} {xs : List Val} {g : Gen} {as : List Ty} :
      g ∈ [Gen.set, .frozenset, .deque, .iterable] → Fits E (.seq k xs) (.gen g as)
  | bareList {xs : List Val} : Fits E (.list xs) (.gen .list [])
  | list {xs : List Val} {a : Ty} {as : List Ty} : (∀ x ∈ xs, Fits E x a) →
      Fits E (.list xs) (.gen .list (a :: as))
  | newtype {v : Val} {c : Cls} {name : PyStr} : c ≠ .tuple → (∀ d, c = .user d → (E.info d).kind ≠ .ntuple) →
      Fits E v (.cls c) → Fits E v (.newtype name (.cls c))
  /-- `None` in `Optional[T]`. -/
  | none {ts : List Ty} : .cls .noneType ∈ ts → Fits E .none (.union ts)
  /-- The first member that does not refuse the value. -/
  | union {v : Val} {t : Ty} {before after : List Ty} : v ≠ .none →
      (∀ u ∈ before, Refuses E v u) → Fits E v t → Fits E v (.union (before ++ t :: after))

/-! ## Types that are not looked at -/

/-- The serializers that do not look at the class outside strict mode. -/
theorem callSer_cls {rec : Rec} {f : SerFn} {v : Val} {cls cls' : Option Ty} {kw : DumpKw}
    (hk : kw.strict = false)
    (hf : f ∈ [SerFn.complex, .datetime, .date, .time, .timedelta, .enum, .dict, .iterable,
      .object, .uuid, .decimal, .path, .zoneinfo]) :
    callSer E rec f v cls kw = callSer E rec f v cls' kw := by
  simp only [List.mem_cons, List.not_mem_nil, or_false] at hf
  rcases hf with rfl | rfl | rfl | rfl | rfl | rfl | rfl | rfl | rfl | rfl | rfl | rfl | rfl
  case inr.inr.inr.inr.inr.inr.inr.inl =>
    simp only [callSer, iterableSer, elementTypes, hk, Bool.false_eq_true, if_false]
  case inr.inr.inr.inr.inr.inr.inr.inr.inl =>
    simp only [callSer, objectSer, hk, Bool.false_eq_true, if_false]
    cases cls <;> cases cls' <;> rfl
  all_goals rfl

theorem val_of_calls {n : Nat} {v : Val} {t : Ty} {kw : DumpKw} {f g : SerFn}
    (hs : DefaultSers E kw.fork) (hf : t.serFn E.info = some f)
    (hg : (Ty.cls v.cls).serFn E.info = some g)
    (h : callSer E (recOf E n) f v (some t) kw = callSer E (recOf E n) g v none kw) :
    (dump E (n + 2) v (some t) kw).val = (dump E (n + 2) v none kw).val := by
  rw [dump_all hs (f := f) (cls := some t) hf, dump_all hs (f := g) (cls := none) hg, h]

theorem own_same {n : Nat} {v : Val} {kw : DumpKw} (hs : DefaultSers E kw.fork)
    (hk : kw.strict = false) (hr : RightKind E v) (h1 : v.cls ≠ .tuple) (h2 : v.cls ≠ .timezone) :
    (dump E (n + 2) v (some (.cls v.cls)) kw).val = (dump E (n + 2) v none kw).val := by
  refine val_of_calls hs rfl rfl ?_
  cases v with
  | atom a =>
    cases a <;> first
      | (refine callSer_cls hk ?_; simp [Val.cls, Atom.cls, Cls.serFn]; done)
      | exact absurd rfl h2
      | (simp only [Val.cls, Atom.cls, Cls.serFn, callSer, primitiveSer, Env.isInstance, Cls.sub]
         simp)
  | seq k xs =>
    cases k <;> first
      | (refine callSer_cls hk ?_; simp [Val.cls, SeqKind.cls, Cls.serFn]; done)
      | exact absurd rfl h1
      | rfl
  | dict es => exact callSer_cls hk (by simp [Val.cls, Cls.serFn])
  | ddict d es => exact callSer_cls hk (by simp [Val.cls, Cls.serFn])
  | ntuple c xs =>
    have hr : (E.info c).kind = .ntuple := hr
    simp only [Val.cls, Cls.serFn, hr]; rfl
  | enum c m =>
    obtain ⟨i, hr⟩ := hr
    simp only [Val.cls, Cls.serFn, hr]; rfl
  | obj c as =>
    have hr : (E.info c).kind = .plain := hr
    simp only [Val.cls, Cls.serFn, hr]
    exact callSer_cls hk (by simp)

theorem dict_serFn {v : Val} (h : v.cls ∈ [Cls.dict, .defaultdict]) : v.cls.serFn E.info = .dict := by
  simp only [List.mem_cons, List.not_mem_nil, or_false] at h
  rcases h with h | h <;> rw [h] <;> rfl

/-- Classes and `NewType`s of classes. -/
theorem cls_same {n : Nat} {v : Val} {c : Cls} {kw : DumpKw} (hs : DefaultSers E kw.fork)
    (hk : kw.strict = false) (h : Fits E v (.cls c)) :
    (dump E (n + 2) v (some (.cls c)) kw).val = (dump E (n + 2) v none kw).val := by
  cases h with
  | own hr h1 h2 => exact own_same hs hk hr h1 h2
  | boolInt b => exact val_of_calls hs rfl rfl rfl
  | object h1 h2 =>
    refine val_of_calls (f := .object) (g := .object) hs ?_ ?_ (callSer_cls hk (by simp))
    · simp only [Ty.serFn, Cls.serFn, h2]
    · simp only [Ty.serFn, Val.cls, Cls.serFn, h1]
  | mapping h1 h2 =>
    refine val_of_calls (f := .dict) (g := .dict) hs ?_ (congrArg some (dict_serFn h1)) (callSer_cls hk (by simp))
    simp only [List.mem_cons, List.not_mem_nil, or_false] at h2
    rcases h2 with rfl | rfl | rfl <;> rfl

theorem newtype_same {n : Nat} {v : Val} {c : Cls} {name : PyStr} {kw : DumpKw}
    (hs : DefaultSers E kw.fork) (hk : kw.strict = false) (hc : c ≠ .tuple)
    (hn : ∀ d, c = .user d → (E.info d).kind ≠ .ntuple) (h : Fits E v (.cls c)) :
    (dump E (n + 2) v (some (.newtype name (.cls c))) kw).val = (dump E (n + 2) v none kw).val := by
  rw [← cls_same hs hk h]
  have h1 : (Ty.newtype name (.cls c)).serFn E.info = some (c.serFn E.info) := rfl
  rw [dump_all hs (cls := some _) h1, dump_all hs (cls := some (.cls c)) (f := c.serFn E.info) rfl]
  have : callSer E (recOf E n) (c.serFn E.info) v (some (.newtype name (.cls c))) kw =
      callSer E (recOf E n) (c.serFn E.info) v (some (.cls c)) kw := by
    cases c with
    | tuple => exact absurd rfl hc
    | user d =>
      have := hn d rfl
      simp only [Cls.serFn]
      cases hd : (E.info d).kind with
      | plain => exact callSer_cls hk (by simp)
      | ntuple => exact absurd hd this
      | enum i => rfl
    | timezone =>
      exfalso
      generalize ht : Ty.cls .timezone = t at h
      cases h with
      | own _ _ h2 => injection ht with ht; exact h2 ht.symm
      | mapping _ h2 => injection ht with ht; subst ht; simp at h2
      | _ => cases ht
    | _ => first
      | rfl
      | (refine callSer_cls hk ?_; simp [Cls.serFn])
  rw [this]

/-- The types that are not looked into. -/
def Simple : Ty → Prop
  | .union _ => False
  | .gen .list (_ :: _) => False
  | _ => True

theorem tuple_call {rec : Rec} {v : Val} {t : Ty} {kw : DumpKw} (hk : kw.strict = false)
    (h : (∃ a as, t = .gen .tuple (a :: as)) ∨ ∃ as, t = .gen .tupleEll as) (xs : List Val)
    (hv : v = .seq .tuple xs) :
    callSer E rec .tuple v (some t) kw = callSer E rec .tuple v none kw := by
  subst hv
  have hit : ∀ cls cls', iterableSer E rec (.seq .tuple xs) cls kw = iterableSer E rec (.seq .tuple xs) cls' kw :=
    fun cls cls' => callSer_cls (E := E) (rec := rec) (f := .iterable) (v := .seq .tuple xs)
      (cls := cls) (cls' := cls') hk (by simp)
  rcases h with ⟨a, as, rfl⟩ | ⟨as, rfl⟩
  · show (do let cls_ ← (pure _ : Res (Option Ty)); iterableSer E rec (.seq .tuple xs) cls_ kw) = _
    rw [pure_bind']
    exact hit _ none
  · show (do let cls_ ← (pure _ : Res (Option Ty)); iterableSer E rec (.seq .tuple xs) cls_ kw) = _
    rw [pure_bind']
    exact hit _ none

/-- A sequence as an iterable. -/
theorem iterable_call {n : Nat} {k : SeqKind} {xs : List Val} {cls : Option Ty} {kw : DumpKw}
    (hk : kw.strict = false) :
    (callSer E (recOf E n) .iterable (.seq k xs) cls kw) =
      callSer E (recOf E n) (k.cls.serFn E.info) (.seq k xs) none kw := by
  have hel : ∀ ys : List Val, ∀ f : Val → Res Val, mapRes (fun p : Val × Option Ty => f p.1)
      (ys.zip (List.replicate ys.length none)) = mapRes f ys := by
    intro ys f
    induction ys with
    | nil => rfl
    | cons y ys ih => simp only [List.length_cons, List.replicate_succ, List.zip_cons_cons, mapRes, ih]
  rw [callSer_cls (cls' := none) hk (by simp)]
  cases k with
  | list =>
    have hlift : ∀ a : List (Option Ty), (Res.lift (.ok a) : Res (List (Option Ty))) = pure a :=
      fun _ => rfl
    have hsub : getSubclasses xs.length none = .ok (List.replicate xs.length none) := by
      simp [getSubclasses]
    simp only [callSer, iterableSer, Val.iter, elementTypes, hk, Bool.false_eq_true, if_false, hsub,
      hlift, pure_bind', SeqKind.cls, Cls.serFn, listSer, Val.falsy, Option.map_none,
      Option.getD_none]
    have hz : mapRes (fun p : Val × Option Ty => (recOf E n).dump p.1 p.2 { kw with storeCls := false, strict := false })
        (xs.zip (List.replicate xs.length none)) =
        mapRes (fun x => (recOf E n).dump x none { kw with storeCls := false, strict := false }) xs := by
      rw [← hel xs]
      refine mapRes_congr ?_
      intro p hp
      rw [List.eq_of_mem_replicate (List.of_mem_zip hp).2]
    cases xs with
    | nil => rfl
    | cons x xs =>
      rw [hz]
      rfl
  | _ => rfl

/-- C84, the types that are not looked into. -/
theorem dump_typed_same (E : Env) (n : Nat) (v : Val) (t : Ty) (kw : DumpKw)
    (hs : DefaultSers E kw.fork) (hk : kw.strict = false) (h : Fits E v t) (ht : Simple t) :
    (dump E (n + 2) v (some t) kw).val = (dump E (n + 2) v none kw).val := by
  cases h with
  | own hr h1 h2 => exact own_same hs hk hr h1 h2
  | boolInt b => exact cls_same hs hk (.boolInt b)
  | object h1 h2 => exact cls_same hs hk (.object h1 h2)
  | mapping h1 h2 => exact cls_same hs hk (.mapping h1 h2)
  | newtype h1 h2 h3 => exact newtype_same hs hk h1 h2 h3
  | dict h1 h2 =>
    refine val_of_calls (f := .dict) (g := .dict) hs ?_ (congrArg some (dict_serFn h1)) (callSer_cls hk (by simp))
    simp only [List.mem_cons, List.not_mem_nil, or_false] at h2
    rcases h2 with rfl | rfl | rfl <;> rfl
  | tuple => exact val_of_calls hs rfl rfl (tuple_call hk (.inl ⟨_, _, rfl⟩) _ rfl)
  | tupleEll => exact val_of_calls hs rfl rfl (tuple_call hk (.inr ⟨_, rfl⟩) _ rfl)
  | named h1 h2 =>
    refine val_of_calls (f := .tuple) (g := .tuple) hs ?_ ?_ rfl
    · simp only [List.mem_cons, List.not_mem_nil, or_false] at h2
      rcases h2 with rfl | rfl <;> rfl
    · simp only [Ty.serFn, Val.cls, Cls.serFn, h1]
  | @iterable k xs g as h1 =>
    refine val_of_calls (f := .iterable) (g := k.cls.serFn E.info) hs ?_ ?_ (iterable_call hk)
    · simp only [List.mem_cons, List.not_mem_nil, or_false] at h1
      rcases h1 with rfl | rfl | rfl | rfl <;> rfl
    · rfl
  | bareList => exact val_of_calls hs rfl rfl rfl
  | list => exact absurd ht (by simp [Simple])
  | none => exact absurd ht (by simp [Simple])
  | union => exact absurd ht (by simp [Simple])

/-! ## Lists -/

theorem Returns.of_succ {v : Val} {cls : Option Ty} {kw : DumpKw} {j : Val} {k : Nat}
    (h : ∃ N, ∀ n, N ≤ n → (dump E (n + k) v cls kw).val = .ok j) : Returns E v cls kw j := by
  obtain ⟨N, h⟩ := h
  refine ⟨N + k, fun n hn => ?_⟩
  have := h (n - k) (by omega)
  rwa [show n - k + k = n by omega] at this

theorem forall₂_bound {α β : Type} {P : α → β → Nat → Prop} {xs : List α} {ys : List β}
    (h : List.Forall₂ (fun x y => ∃ N, ∀ n, N ≤ n → P x y n) xs ys) :
    ∃ N, ∀ n, N ≤ n → List.Forall₂ (fun x y => P x y n) xs ys := by
  induction h with
  | nil => exact ⟨0, fun _ _ => .nil⟩
  | cons h1 _ ih =>
    obtain ⟨N1, h1⟩ := h1
    obtain ⟨N2, h2⟩ := ih
    exact ⟨max N1 N2, fun n hn => .cons (h1 n (by omega)) (h2 n (by omega))⟩

theorem forall₂_all {α β : Type} {P : α → β → Nat → Prop} {xs : List α} {ys : List β} {N : Nat}
    (h : ∀ n, N ≤ n → List.Forall₂ (fun x y => P x y n) xs ys) :
    List.Forall₂ (fun x y => ∀ n, N ≤ n → P x y n) xs ys := by
  induction xs generalizing ys with
  | nil => cases h N (Nat.le_refl _); exact .nil
  | cons x xs ih =>
    cases ys with
    | nil => cases h N (Nat.le_refl _)
    | cons y ys =>
      refine .cons (fun n hn => ?_) (ih fun n hn => ?_)
      · cases h n hn with | cons a _ => exact a
      · cases h n hn with | cons _ a => exact a

/-- What an untyped list is dumped as. -/
theorem list_untyped {xs : List Val} {kw : DumpKw} {j : Val} (hs : DefaultSers E kw.fork)
    (hk : kw.strict = false) (h : Returns E (.list xs) none kw j) :
    ∃ ys, j = .list ys ∧
      List.Forall₂ (fun x y => Returns E x none { kw with storeCls := false } y) xs ys := by
  obtain ⟨N, h⟩ := h
  cases xs with
  | nil =>
    have := h (N + 2) (by omega)
    rw [dump_via (f := .list) hs rfl] at this
    cases this
    exact ⟨[], rfl, .nil⟩
  | cons x xs =>
    have key : ∀ n, N ≤ n → ∃ ys, j = .list ys ∧ List.Forall₂ (fun x y =>
        (dump E n x none { kw with storeCls := false }).val = .ok y) (x :: xs) ys := by
      intro n hn
      have := h (n + 2) (by omega)
      rw [dump_via (f := .list) hs rfl] at this
      simp only [callSer, listSer, Val.falsy, Val.iter, List.isEmpty_cons, Bool.false_eq_true,
        if_false, Option.map_none, Option.getD_none, hk, Core.bind_ok, pure_val, Except.ok.injEq,
        mapRes_ok] at this
      obtain ⟨ys, h1, h2⟩ := this
      refine ⟨ys, h2.symm, h1.imp fun a b hab => ?_⟩
      have hkw : ({ kw with storeCls := false } : DumpKw) =
          { kw with storeCls := false, strict := false } := by simp only [hk]
      rw [hkw]
      exact hab
    obtain ⟨ys, rfl, _⟩ := key N (Nat.le_refl _)
    refine ⟨ys, rfl, ?_⟩
    refine (forall₂_all (N := N) (P := fun x y n => (dump E n x none { kw with storeCls := false }).val = .ok y)
      fun n hn => ?_).imp fun a b hab => ⟨N, hab⟩
    obtain ⟨zs, h1, h2⟩ := key n hn
    cases h1
    exact h2

theorem list_typed {xs ys : List Val} {a : Ty} {as : List Ty} {kw : DumpKw}
    (hs : DefaultSers E kw.fork)
    (h : List.Forall₂ (fun x y => Returns E x (some a) { kw with storeCls := false } y) xs ys) :
    Returns E (.list xs) (some (.gen .list (a :: as))) kw (.list ys) := by
  obtain ⟨N, h⟩ := forall₂_bound h
  refine ⟨N + 2, fun n hn => ?_⟩
  obtain ⟨n, rfl⟩ : ∃ m, n = m + 2 := ⟨n - 2, by omega⟩
  rw [dump_via (f := .list) hs rfl]
  cases xs with
  | nil => cases h N (Nat.le_refl _); rfl
  | cons x xs =>
    have h' := h (n + 1) (by omega)
    obtain ⟨f, hf⟩ : ∃ f, a.serFn E.info = some f := by
      cases ys with
      | nil => cases h'
      | cons y ys =>
        cases h' with
        | cons h1 _ =>
          obtain ⟨f, hf, _⟩ := (dump_ok_iff (kw := { kw with storeCls := false }) hs).1 h1
          exact ⟨f, hf⟩
    show (listSer E (recOf E n) (.list (x :: xs)) _ kw).val = _
    simp only [listSer, Val.falsy, Val.iter, List.isEmpty_cons, Bool.false_eq_true,
        if_false, Option.map_some, Option.getD_some, Ty.getArgs, listSer.typed]
    rw [hs, hf, liftK_of_ok, pure_bind', Core.bind_ok]
    refine ⟨ys, mapRes_ok.2 (h'.imp fun u w huw => ?_), rfl⟩
    obtain ⟨g, hg, hw⟩ := (dump_ok_iff (kw := { kw with storeCls := false }) hs).1 huw
    have : g = f := by
      have : some g = some f := hg.symm.trans hf
      exact Option.some.inj this
    subst this
    exact hw

/-! ## C84 -/

/-- C84, `_partial`: if `dump(v)` returns `j` then `dump(v, cls=T)` returns `j`, too, for
every value and every type that fits it, outside strict mode, whatever the other options
are.  Missing (and false, see below): values of subclasses of built-in classes (a datetime
as a date, an `IntEnum` as an int), the bare `tuple`, time zones (C71), and unions with a
member before the right one that also accepts the value. -/
theorem dump_typed_partial (E : Env) (v : Val) (t : Ty) (kw : DumpKw) (j : Val)
    (hs : DefaultSers E kw.fork) (hk : kw.strict = false) (h : Fits E v t)
    (hj : Returns E v none kw j) : Returns E v (some t) kw j := by
  have simple : ∀ {v t kw j}, DefaultSers E kw.fork → kw.strict = false → Fits E v t → Simple t →
      Returns E v none kw j → Returns E v (some t) kw j := by
    intro v t kw j hs hk h ht ⟨N, hj⟩
    refine .of_succ (k := 2) ⟨N, fun n hn => ?_⟩
    rw [dump_typed_same E n v t kw hs hk h ht]
    exact hj _ (by omega)
  induction h generalizing kw j with
  | own h1 h2 h3 => exact simple hs hk (.own h1 h2 h3) trivial hj
  | boolInt b => exact simple hs hk (.boolInt b) trivial hj
  | object h1 h2 => exact simple hs hk (.object h1 h2) trivial hj
  | dict h1 h2 =>
    refine simple hs hk (.dict h1 h2) ?_ hj
    simp only [List.mem_cons, List.not_mem_nil, or_false] at h2
    rcases h2 with rfl | rfl | rfl <;> trivial
  | mapping h1 h2 => exact simple hs hk (.mapping h1 h2) trivial hj
  | tuple => exact simple hs hk .tuple trivial hj
  | tupleEll => exact simple hs hk .tupleEll trivial hj
  | named h1 h2 =>
    refine simple hs hk (.named h1 h2) ?_ hj
    simp only [List.mem_cons, List.not_mem_nil, or_false] at h2
    rcases h2 with rfl | rfl <;> trivial
  | iterable h1 =>
    refine simple hs hk (.iterable h1) ?_ hj
    simp only [List.mem_cons, List.not_mem_nil, or_false] at h1
    rcases h1 with rfl | rfl | rfl | rfl <;> trivial
  | bareList => exact simple hs hk .bareList trivial hj
  | newtype h1 h2 h3 => exact simple hs hk (.newtype h1 h2 h3) trivial hj
  | @list xs a as hx ih =>
    obtain ⟨ys, rfl, hys⟩ := list_untyped hs hk hj
    refine list_typed hs ?_
    clear hj hx
    induction hys with
    | nil => exact .nil
    | @cons x y xs ys h1 _ ih' =>
      exact .cons (ih x List.mem_cons_self (kw := { kw with storeCls := false }) y hs hk h1)
        (ih' fun x hx => ih x (List.mem_cons_of_mem _ hx))
  | @none ts hn =>
    have h0 : j = .none := by
      obtain ⟨N, hj⟩ := hj
      have := hj (N + 2) (by omega)
      rw [dump_via (f := .primitive) hs rfl] at this
      cases this; rfl
    subst h0
    refine .of_succ (k := 3) ⟨0, fun n _ => ?_⟩
    rw [DumpCollections.union_dump _ _ _ _ _ hs, if_pos ⟨rfl, hn⟩]
  | @union v t before after hv hb ht ih =>
    obtain ⟨N, h⟩ := ih kw j hs hk hj
    refine .of_succ (k := 4) ⟨N, fun n hn => ?_⟩
    rw [DumpCollections.union_dump _ (n + 1) _ _ _ hs, if_neg (by simp [hv])]
    exact ⟨before, t, after, rfl, fun u hu => refuses_error hs (hb u hu) n, h _ (by omega)⟩

/-- `[Point(1), None]` is a value of `List[Optional[Point]]`. -/
theorem points_fit : Fits (demoEnv demoInfo)
    (.list [.obj 0 [("x".toList, .int 1), ("y".toList, .int 0)], .none])
    (.gen .list [.union [.cls (.user 0), .cls .noneType]]) := by
  refine .list ?_
  intro x hx
  simp only [List.mem_cons, List.not_mem_nil, or_false] at hx
  rcases hx with rfl | rfl
  · exact .union (before := []) (by simp) (by simp) (.object rfl rfl)
  · exact .none (by simp)

/-- A tuple as `Union[int, Tuple[int, ...]]` and a text as
`Union[datetime, int, Dict[str, int], str]`. -/
example : Fits (demoEnv demoInfo) (.seq .tuple [.int 1, .int 2])
      (.union [.cls .int, .gen .tupleEll [.cls .int]]) ∧
    Fits (demoEnv demoInfo) (.str "a".toList)
      (.union [.cls .datetime, .cls .int, .gen .dict [.cls .str, .cls .int], .cls .str]) := by
  refine ⟨?_, ?_⟩
  · refine .union (before := [.cls .int]) (by simp) ?_ .tupleEll
    intro u hu
    rw [List.mem_singleton] at hu
    subst hu
    exact .int (k := .typeError) (by simp) rfl rfl
  · refine .union (before := [.cls .datetime, .cls .int, .gen .dict [.cls .str, .cls .int]]) (by simp) ?_
      (.own trivial (by decide) (by decide))
    intro u hu
    simp only [List.mem_cons, List.not_mem_nil, or_false] at hu
    rcases hu with rfl | rfl | rfl
    · exact .moment (by simp) (by decide)
    · exact .int (k := .valueError) (by simp) rfl rfl
    · exact .dict (by simp) (by decide) (by simp [Val.iter])

/-- `[1, None]` is dumped as `List[Optional[int]]` as it is dumped without a class. -/
example : Returns (demoEnv demoInfo) (.list [.int 1, .none])
    (some (.gen .list [.union [.cls .int, .cls .noneType]])) {} (.list [.int 1, .none]) := by
  refine dump_typed_partial _ _ _ _ _ (demo_sers 0) rfl (.list ?_) ⟨4, fun n hn => ?_⟩
  · intro x hx
    simp only [List.mem_cons, List.not_mem_nil, or_false] at hx
    rcases hx with rfl | rfl
    · exact .union (before := []) (by simp) (by simp) (.own trivial (by decide) (by decide))
    · exact .none (by simp)
  · obtain ⟨n, rfl⟩ : ∃ m, n = m + 4 := ⟨n - 4, by omega⟩
    rfl

/-! ## Where it fails -/

/-- C84 is false for the bare class `tuple` (and for `Tuple`): `dump((1, 2), cls=tuple)`
raises, although `dump((1, 2))` is `[1, 2]`. -/
theorem typed_fails_tuple (E : Env) (n : Nat) (xs : List Val) (t : Ty) (kw : DumpKw)
    (hs : DefaultSers E kw.fork) (ht : t = .cls .tuple ∨ t = .gen .tuple []) :
    ∃ e, (dump E (n + 2) (.seq .tuple xs) (some t) kw).val = .error e ∧
      e.kind = .serializationError := by
  rw [dump_all (f := .tuple) hs (by rcases ht with rfl | rfl <;> rfl)]
  rcases ht with rfl | rfl <;> exact ⟨_, rfl, rfl⟩

/-- A class with the attributes `pair: tuple` and `size: int`. -/
def boxInfo : Nat → ClassInfo := fun _ =>
  { attrs := mainAttrs "Box", initHints := [("pair".toList, .cls .tuple), ("size".toList, .cls .int)],
    hints := [("pair".toList, .cls .tuple), ("size".toList, .cls .int)] }

/-- As the hints of attributes are given as classes, an attribute with the hint `tuple` is
left out, and those after it, too, with a warning. -/
theorem typed_fails_tuple_attribute :
    (dump (demoEnv boxInfo) 9 (.obj 0 [("pair".toList, .seq .tuple [.int 1, .int 2]), ("size".toList, .int 3)])
      none {}).val = .ok (.dict []) := by
  rfl

/-- C84 is false for a datetime as a date: the text has an offset, but no time. -/
theorem typed_fails_datetime :
    (dump (demoEnv demoInfo) 9 (.atom (.datetime ⟨2024, 2, 29, 12, 0, 0, 0, some Tz.utc⟩))
      (some (.cls .date)) {}).val = .ok (.str "2024-02-29Z".toList) ∧
    (dump (demoEnv demoInfo) 9 (.atom (.datetime ⟨2024, 2, 29, 12, 0, 0, 0, some Tz.utc⟩))
      none {}).val = .ok (.str "2024-02-29T12:00:00Z".toList) := by
  refine ⟨by rfl, by rfl⟩

/-- C84 is false for an `IntEnum` as an int: the member itself is returned instead of its
name. -/
theorem typed_fails_intEnum :
    (dump (demoEnv demoInfo) 9 (.enum 3 "LOW".toList) (some (.cls .int)) {}).val
      = .ok (.enum 3 "LOW".toList) ∧
    (dump (demoEnv demoInfo) 9 (.enum 3 "LOW".toList) none {}).val = .ok (.str "LOW".toList) := by
  refine ⟨by rfl, by rfl⟩

/-- C84 is false for unions: zero is dumped as an empty list if there is a list among the
members before `int`; see also `DumpCollections.union_dump_changes_kind`. -/
theorem typed_fails_union :
    (dump (demoEnv demoInfo) 9 (.int 0) (some (.union [.gen .list [.cls .int], .cls .int])) {}).val
      = .ok (.list []) ∧
    (dump (demoEnv demoInfo) 9 (.int 0) none {}).val = .ok (.int 0) := by
  refine ⟨by rfl, by rfl⟩

end Verif.Props.DumpTyped
