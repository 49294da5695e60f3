import Verif.Core.DumpLemmas
import Verif.Core.Demo

/-!
# Properties of dumping JSON values, unions, lists and time zones

C31, C39, C40, C58, C71, C75.
-/

set_option autoImplicit false

namespace Verif.Props.DumpCollections
open Verif Verif.Core

/-! ## C31: JSON values stay as they are -/

/-- `None`, `bool`, `int`, `float` or `str`. -/
def Prim : Val → Prop
  | .atom .none | .atom (.bool _) | .atom (.int _) | .atom (.float _) | .atom (.str _) => True
  | _ => False

/-- A JSON value; the keys of a dict are different for Python. -/
inductive JsonVal : Val → Prop
  | prim {v : Val} : Prim v → JsonVal v
  | list {xs : List Val} : (∀ x ∈ xs, JsonVal x) → JsonVal (.list xs)
  | dict {es : List (Val × Val)} : (∀ e ∈ es, Prim e.1) →
      es.Pairwise (fun a b => pyEq a.1 b.1 = false) → (∀ e ∈ es, JsonVal e.2) →
      JsonVal (.dict es)

/-- The options of C31: no key transformer, no `strip_nulls`, not strict. -/
structure Neutral (fork : Nat) (kw : DumpKw) : Prop where
  fork : kw.fork = fork
  strict : kw.strict = false
  kt : kw.keyTransformer = none
  nulls : kw.stripNulls = false
  types : kw.types = []

theorem common_bound {α : Type} {P : α → Nat → Prop} (l : List α)
    (h : ∀ x ∈ l, ∃ N, ∀ n, N ≤ n → P x n) : ∃ N, ∀ x ∈ l, ∀ n, N ≤ n → P x n := by
  induction l with
  | nil => exact ⟨0, fun x hx => by cases hx⟩
  | cons a l ih =>
    obtain ⟨N1, h1⟩ := h a List.mem_cons_self
    obtain ⟨N2, h2⟩ := ih fun x hx => h x (List.mem_cons_of_mem _ hx)
    refine ⟨max N1 N2, fun x hx n hn => ?_⟩
    rcases List.mem_cons.1 hx with rfl | hx
    · exact h1 n (by omega)
    · exact h2 x hx n (by omega)

theorem dictLoop_id {E : Env} {fork : Nat} {rec : Rec} {kw : DumpKw} (hkw : Neutral fork kw) :
    ∀ (es acc : List (Val × Val)),
      (∀ e ∈ es, Prim e.1 ∧ (rec.dump e.2 none { kw with types := [] }).val = .ok e.2) →
      es.Pairwise (fun a b => pyEq a.1 b.1 = false) →
      (∀ a ∈ acc, ∀ b ∈ es, pyEq a.1 b.1 = false) →
      (dictLoop E rec kw es acc).val = .ok (acc ++ es) := by
  intro es
  induction es with
  | nil => intro acc _ _ _; simp [dictLoop]
  | cons e es ih =>
    obtain ⟨k, v⟩ := e
    intro acc h1 h2 h3
    have hk := h1 _ List.mem_cons_self
    have hvalid : isValidJsonKey E k = true := by
      have := hk.1
      cases k with
      | atom a => cases a <;> simp_all [Prim, isValidJsonKey, Val.cls, Atom.cls, Cls.sub]
      | _ => simp [Prim] at this
    have hd := hk.2
    have hns : ∀ s : PyStr, assoc kw.types s = none := by intro s; rw [hkw.types]; rfl
    have hadd : addDumped kw acc k v = .ok (acc ++ [(k, v)]) := by
      simp only [addDumped, hkw.nulls, Bool.false_and, transformKey, hkw.kt, Except.map,
        Bool.false_eq_true, if_false]
      rw [dictSet_new (fun a ha => h3 a ha _ List.mem_cons_self)]
    have hcls : (dictLoop E rec kw ((k, v) :: es) acc) = (do
        let (result, key) ← storeAndHash E rec acc k kw
        let dumped ← rec.dump v none { kw with types := [] }
        let result ← Res.lift (addDumped kw result key dumped)
        dictLoop E rec kw es result) := by
      simp only [dictLoop]
      split
      · simp only [hns]
      · rfl
    rw [hcls]
    simp only [storeAndHash, hvalid, if_true, pure_bind']
    rw [bind_val, hd]
    simp only
    rw [hadd, bind_val, lift_val]
    simp only
    rw [ih (acc ++ [(k, v)]) (fun e he => h1 e (List.mem_cons_of_mem _ he))
      (List.Pairwise.of_cons h2) ?_]
    · simp
    · intro a ha b hb
      rcases List.mem_append.1 ha with ha | ha
      · exact h3 a ha b (List.mem_cons_of_mem _ hb)
      · rw [List.mem_singleton] at ha
        subst ha
        exact (List.pairwise_cons.1 h2).1 b hb

/-- C31: a JSON value of any size is dumped to itself, if the stack is large enough;
`verbose` and the other options do not matter.  So dumping is idempotent on JSON
values. -/
theorem dump_json_id (E : Env) (fork : Nat) (hds : DefaultSers E fork) (v : Val) (hv : JsonVal v) :
    ∃ N, ∀ n, N ≤ n → ∀ kw, Neutral fork kw → (dump E n v none kw).val = .ok v := by
  induction hv with
  | @prim v h =>
    refine ⟨2, fun n hn kw hkw => ?_⟩
    obtain ⟨n, rfl⟩ : ∃ m, n = m + 2 := ⟨n - 2, by omega⟩
    rw [dump_ok_iff (by rw [hkw.fork]; exact hds)]
    refine ⟨.primitive, ?_, ?_⟩
    · cases v with
      | atom a => cases a <;> simp_all [Prim, Ty.serFn, Cls.serFn, Val.cls, Atom.cls]
      | _ => simp [Prim] at h
    · rfl
  | @list xs _ ih =>
    obtain ⟨N, hN⟩ := common_bound xs ih
    refine ⟨N + 2, fun n hn kw hkw => ?_⟩
    obtain ⟨n, rfl⟩ : ∃ m, n = m + 2 := ⟨n - 2, by omega⟩
    rw [dump_ok_iff (by rw [hkw.fork]; exact hds)]
    refine ⟨.list, rfl, ?_⟩
    rw [recOf_call]
    simp only [callSer, listSer, Val.falsy, Val.iter]
    cases xs with
    | nil => rfl
    | cons x xs =>
      simp only [List.isEmpty_cons, Bool.false_eq_true, if_false, Option.map_none,
        Option.getD_none, hkw.strict]
      rw [bind_ok]
      refine ⟨x :: xs, ?_, rfl⟩
      have := mapRes_total (f := fun x => (recOf E n).dump x none
        { kw with storeCls := false, strict := false }) (g := id) (xs := x :: xs) ?_
      · simpa using this
      · intro y hy
        exact hN y hy n (by omega) _ ⟨hkw.1, rfl, hkw.3, hkw.4, hkw.5⟩
  | @dict es h1 h2 _ ih =>
    obtain ⟨N, hN⟩ := common_bound es ih
    refine ⟨N + 2, fun n hn kw hkw => ?_⟩
    obtain ⟨n, rfl⟩ : ∃ m, n = m + 2 := ⟨n - 2, by omega⟩
    rw [dump_ok_iff (by rw [hkw.fork]; exact hds)]
    refine ⟨.dict, rfl, ?_⟩
    rw [recOf_call]
    simp only [callSer, dictSer, bind_ok, pure_val, Except.ok.injEq]
    refine ⟨es, ?_, rfl⟩
    have := dictLoop_id (E := E) (rec := recOf E n) hkw es []
      (fun e he => ⟨h1 e he, hN e he n (by omega) _ ⟨hkw.1, hkw.2, hkw.3, hkw.4, rfl⟩⟩) h2
      (fun a ha => by cases ha)
    simpa using this

/-- `{'a': [1, None, 2.5], 2: {}}` -/
example : ∃ N, ∀ n, N ≤ n → (dump (demoEnv demoInfo) n (.dict [(.str ['a'],
      .list [.int 1, .none, .float (5 / 2)]), (.int 2, .dict [])]) none
      { verbose := ⟨true, true⟩ }).val =
    .ok (.dict [(.str ['a'], .list [.int 1, .none, .float (5 / 2)]), (.int 2, .dict [])]) := by
  obtain ⟨N, hN⟩ := dump_json_id (demoEnv demoInfo) 0 (demo_sers 0) (.dict [(.str ['a'],
      .list [.int 1, .none, .float (5 / 2)]), (.int 2, .dict [])]) (by
    refine .dict ?_ ?_ ?_
    · intro e he; simp at he; rcases he with rfl | rfl <;> trivial
    · simp [pyEq, Atom.num?]
    · intro e he; simp at he
      rcases he with rfl | rfl
      · exact .list fun x hx => by
          simp at hx; rcases hx with rfl | rfl | rfl <;> exact .prim trivial
      · exact .dict (by simp) (by simp) (by simp))
  exact ⟨N, fun n hn => hN n hn _ ⟨rfl, rfl, rfl, rfl, rfl⟩⟩

/-! ## C39: unions -/

/-- The first type for which `f` returns. -/
def FirstOk (f : Ty → Except Err Val) (ts : List Ty) (r : Val) : Prop :=
  ∃ before t after, ts = before ++ t :: after ∧ (∀ u ∈ before, ∃ e, f u = .error e) ∧ f t = .ok r

theorem unionLoop_ok {rec : Rec} {v r : Val} {kw : DumpKw} (ts : List Ty)
    (hj : ∀ t e, (rec.dump v (some t) kw).val = .error e → e.kind.isJsonsError = true) :
    (unionLoop rec v kw ts).val = .ok r ↔
      FirstOk (fun t => (rec.dump v (some t) kw).val) ts r := by
  induction ts with
  | nil =>
    simp only [unionLoop, raise_val, reduceCtorEq, false_iff]
    rintro ⟨b, t, a, h, _⟩
    simp at h
  | cons t ts ih =>
    simp only [unionLoop, bind_val, attempt_val]
    cases h : (rec.dump v (some t) kw).val with
    | ok x =>
      simp only [pure_val, Except.ok.injEq]
      constructor
      · rintro rfl; exact ⟨[], t, ts, rfl, by simp, h⟩
      · rintro ⟨b, u, a, h1, h2, h3⟩
        cases b with
        | nil => simp at h1; obtain ⟨rfl, rfl⟩ := h1; simp only [h] at h3; exact Except.ok.inj h3
        | cons w b =>
          simp at h1
          obtain ⟨e, he⟩ := h2 w List.mem_cons_self
          rw [← h1.1] at he; simp only [h] at he; cases he
    | error e =>
      simp only [hj t e h, if_true]
      rw [ih]
      constructor
      · rintro ⟨b, u, a, rfl, h2, h3⟩
        refine ⟨t :: b, u, a, rfl, ?_, h3⟩
        intro w hw
        rcases List.mem_cons.1 hw with rfl | hw
        · exact ⟨e, h⟩
        · exact h2 w hw
      · rintro ⟨b, u, a, h1, h2, h3⟩
        cases b with
        | nil => simp at h1; obtain ⟨rfl, rfl⟩ := h1; simp only [h] at h3; cases h3
        | cons w b =>
          simp at h1
          exact ⟨b, u, a, h1.2, fun y hy => h2 y (List.mem_cons_of_mem _ hy), h3⟩

/-- C39: `dump(v, Union[T1..Tn])` returns what the first `Ti` gives for which
`dump(v, Ti)` returns; `None` stays `None` if `NoneType` is among the members; if no
member fits then it raises `SerializationError`. -/
theorem union_dump (E : Env) (n : Nat) (v : Val) (ts : List Ty) (kw : DumpKw)
    (hds : DefaultSers E kw.fork) (r : Val) :
    (dump E (n + 3) v (some (.union ts)) kw).val = .ok r ↔
      if v = .none ∧ .cls .noneType ∈ ts then r = .none
      else FirstOk (fun t => (dump E (n + 1) v (some t) kw).val) ts r := by
  rw [dump_ok_iff hds]
  have hu : ∀ f, ((some (Ty.union ts)).getD (.cls v.cls)).serFn E.info = some f ↔ f = .union := by
    intro f; simp [Ty.serFn, eq_comm]
  simp only [hu, exists_eq_left, recOf_call, callSer, unionSer, Option.bind_some, Ty.unionParams]
  split
  · next h => rw [h.1]; simp [eq_comm]
  · exact unionLoop_ok ts fun t e h => by
      have := dump_err_kind hds (n := n) h
      rw [this]; rfl

theorem union_dump_error (E : Env) (n : Nat) (v : Val) (ts : List Ty) (kw : DumpKw)
    (hds : DefaultSers E kw.fork) (hn : ¬ (v = .none ∧ .cls .noneType ∈ ts))
    (hall : ∀ t ∈ ts, ∃ e, (dump E (n + 1) v (some t) kw).val = .error e) :
    ∃ e, (dump E (n + 3) v (some (.union ts)) kw).val = .error e ∧ e.kind = .serializationError := by
  rcases except_cases (dump E (n + 3) v (some (.union ts)) kw).val with ⟨r, h⟩ | ⟨e, h⟩
  · have h' := (union_dump E n v ts kw hds r).1 h
    rw [if_neg hn] at h'
    obtain ⟨b, t, a, rfl, _, h3⟩ := h'
    obtain ⟨e, he⟩ := hall t (by simp)
    simp only [he] at h3
    cases h3
  · exact ⟨e, h, dump_err_kind hds h⟩

/-- `dump('x', Union[int, str])` is `'x'`; `dump('x', Union[int, float])` fails. -/
example : (dump (demoEnv demoInfo) 9 (.str ['x']) (some (.union [.cls .int, .cls .str])) {}).val =
      .ok (.str ['x']) ∧
    ∃ e, (dump (demoEnv demoInfo) 9 (.str ['x']) (some (.union [.cls .int, .cls .float])) {}).val =
      .error e := ⟨by rfl, _, rfl⟩

/-! ## C40: the kind of the value -/

/-- C40 is false: `dump(2.5, Union[int, float])` is `2`, and `dump(5, Union[str, int])`
is `str(5)`, although the values are instances of the second member. -/
theorem union_dump_changes_kind :
    (dump (demoEnv demoInfo) 9 (.float (5 / 2)) (some (.union [.cls .int, .cls .float])) {}).val =
      .ok (.int 2) ∧
    (dump (demoEnv demoInfo) 9 (.float (5 / 2)) (some (.cls .float)) {}).val =
      .ok (.float (5 / 2)) ∧
    (dump (demoEnv demoInfo) 9 (.int 5) (some (.union [.cls .str, .cls .int])) {}).val =
      .ok (.str ((demoEnv demoInfo).strOf (.int 5))) := by
  refine ⟨?_, by rfl, by rfl⟩
  have ht : Datetime.truncQ (5 / 2) = 2 := by decide +kernel
  rw [show (9 : Nat) = 6 + 3 from rfl, union_dump _ _ _ _ _ (demo_sers 0), if_neg (by simp)]
  refine ⟨[], _, _, rfl, by simp, ?_⟩
  rw [dump_ok_iff (demo_sers 0)]
  refine ⟨.primitive, rfl, ?_⟩
  have hc : (demoEnv demoInfo).cast (.float (5 / 2)) (.cls .int) = .ok (.int 2) := by
    simp only [Env.cast, Env.intOf, ht]; rfl
  have hi : (demoEnv demoInfo).isInstance (.float (5 / 2)) (.cls .int) = .ok false := rfl
  simp only [recOf_call, callSer, primitiveSer, hc, hi, pure_val, reduceCtorEq, Val.atom.injEq,
    if_false]

theorem dump_noneType_error {E : Env} {n : Nat} {v : Val} {kw : DumpKw}
    (hds : DefaultSers E kw.fork) (hv : v ≠ .none) :
    ∃ e, (dump E (n + 1) v (some (.cls .noneType)) kw).val = .error e := by
  rcases except_cases (dump E (n + 1) v (some (.cls .noneType)) kw).val with ⟨r, h⟩ | h
  · exfalso
    rw [dump_ok_iff hds] at h
    obtain ⟨f, h1, h2⟩ := h
    simp only [Option.getD_some, Ty.serFn, Cls.serFn, Option.some.injEq] at h1
    subst h1
    cases n with
    | zero => simp [recOf] at h2
    | succ n =>
      have hsub : v.cls.sub E.info .noneType = false := by
        cases v with
        | atom a => cases a <;> simp_all [Val.cls, Atom.cls, Cls.sub]
        | seq k xs => cases k <;> simp [Val.cls, SeqKind.cls, Cls.sub]
        | _ => simp [Val.cls, Cls.sub]
      simp [recOf_call, callSer, primitiveSer, hv, Env.isInstance, hsub, Env.cast,
        ErrKind.isValueError] at h2
  · exact h

/-- C40, `_partial`: a value other than `None` is dumped as `Optional[T]` exactly as it
is dumped as `T`.  Missing: unions with two proper members, where the first one that
accepts the value may convert it (see `union_dump_changes_kind`). -/
theorem optional_dump_partial (E : Env) (n : Nat) (v : Val) (t : Ty) (kw : DumpKw)
    (hds : DefaultSers E kw.fork) (hv : v ≠ .none) (r : Val) :
    ((dump E (n + 3) v (some (.union [t, .cls .noneType])) kw).val = .ok r ↔
      (dump E (n + 1) v (some t) kw).val = .ok r) ∧
    ((dump E (n + 3) v (some (.union [.cls .noneType, t])) kw).val = .ok r ↔
      (dump E (n + 1) v (some t) kw).val = .ok r) := by
  obtain ⟨e, he⟩ := dump_noneType_error (n := n) (kw := kw) hds hv
  rw [union_dump _ _ _ _ _ hds, if_neg (by simp [hv]), union_dump _ _ _ _ _ hds,
    if_neg (by simp [hv])]
  constructor
  · constructor
    · rintro ⟨b, u, a, h1, h2, h3⟩
      match b, h1 with
      | [], h1 => simp at h1; rw [h1.1]; exact h3
      | [w], h1 =>
        simp at h1
        rw [← h1.2.1] at h3; simp only [he] at h3; cases h3
      | _ :: _ :: _, h1 => simp at h1
    · intro h; exact ⟨[], t, _, rfl, by simp, h⟩
  · constructor
    · rintro ⟨b, u, a, h1, h2, h3⟩
      match b, h1 with
      | [], h1 => simp at h1; rw [← h1.1] at h3; simp only [he] at h3; cases h3
      | [w], h1 => simp at h1; rw [h1.2.1]; exact h3
      | _ :: _ :: _, h1 => simp at h1
    · intro h
      refine ⟨[.cls .noneType], t, [], rfl, ?_, h⟩
      intro u hu; rw [List.mem_singleton] at hu; rw [hu]; exact ⟨e, he⟩

/-- `dump('x', Optional[str])` -/
example : (dump (demoEnv demoInfo) 9 (.str ['x']) (some (.union [.cls .str, .cls .noneType])) {}).val =
    .ok (.str ['x']) :=
  (optional_dump_partial _ 6 _ _ _ (demo_sers 0) (by simp) _).1.2 (by rfl)

/-! ## C58: lists in strict mode -/

/-- C58 is false: in strict mode the elements of a list are dumped as the type of the
first one.  `dump([True, 2], strict=True)` is `[True, True]`, and
`dump([1, 'a'], strict=True)` fails, although each of the elements can be dumped. -/
theorem strict_list_changes_values :
    (dump (demoEnv demoInfo) 9 (.list [.bool true, .int 2]) none { strict := true }).val =
      .ok (.list [.bool true, .bool true]) ∧
    (∃ e, (dump (demoEnv demoInfo) 9 (.list [.int 1, .str ['a']]) none { strict := true }).val =
      .error e) ∧
    ∀ v ∈ [Val.int 2, .int 1, .str ['a']],
      (dump (demoEnv demoInfo) 9 v none { strict := true }).val = .ok v := by
  refine ⟨by rfl, ⟨_, rfl⟩, ?_⟩
  intro v hv
  simp only [List.mem_cons, List.not_mem_nil, or_false] at hv
  rcases hv with rfl | rfl | rfl <;> rfl

/-- C58, `_partial`: a strict dump of a list gives, in order, the dumps of its elements
as the class of the *first* element.  Missing: that these are the dumps of the elements
on their own (see `strict_list_changes_values`). -/
theorem strict_list_partial (E : Env) (n : Nat) (x : Val) (xs ys : List Val) (kw : DumpKw)
    (hds : DefaultSers E kw.fork) (hs : kw.strict = true) :
    (dump E (n + 2) (.list (x :: xs)) none kw).val = .ok (.list ys) ↔
      List.Forall₂ (fun v y => (dump E (n + 1) v (some (.cls x.cls))
        { kw with storeCls := false }).val = .ok y) (x :: xs) ys := by
  have hk : DefaultSers E ({ kw with storeCls := false } : DumpKw).fork := hds
  rw [dump_via hds (f := .list) rfl]
  have hl : listSer E (recOf E n) (.list (x :: xs)) none kw =
      listSer.typed E (recOf E n) kw (x :: xs) (.cls x.cls) { kw with storeCls := false } := by
    unfold listSer
    rw [hs]
    rfl
  rw [callSer, hl, listSer.typed, hds]
  simp only [liftK_of_ok, pure_bind', bind_ok, pure_val, Except.ok.injEq, Val.seq.injEq, true_and,
    mapRes_ok, exists_eq_right]
  have key : ∀ v y, ((match (Ty.cls x.cls).serFn E.info with
        | some f => (recOf E n).call f v (some (.cls x.cls)) { kw with storeCls := false }
        | none => Res.raise { kind := .typeError }).val = .ok y) ↔
      (dump E (n + 1) v (some (.cls x.cls)) { kw with storeCls := false }).val = .ok y := by
    intro v y
    rw [dump_ok_iff hk]
    simp only [Option.getD_some]
    cases (Ty.cls x.cls).serFn E.info with
    | none => simp
    | some f => simp
  have key' : (fun (v y : Val) => ((match (Ty.cls x.cls).serFn E.info with
        | some f => (recOf E n).call f v (some (.cls x.cls)) { kw with storeCls := false }
        | none => Res.raise { kind := .typeError }).val = .ok y)) = fun v y =>
      (dump E (n + 1) v (some (.cls x.cls)) { kw with storeCls := false }).val = .ok y := by
    funext v y; exact propext (key v y)
  exact iff_of_eq (congrArg (fun P => List.Forall₂ P (x :: xs) ys) key')

/-- Lists of values of one primitive class keep their values. -/
theorem strict_list_homogeneous (E : Env) (n : Nat) (x : Val) (xs : List Val) (kw : DumpKw)
    (hds : DefaultSers E kw.fork) (hs : kw.strict = true) (hx : Prim x)
    (hc : ∀ y ∈ xs, y.cls = x.cls) :
    (dump E (n + 3) (.list (x :: xs)) none kw).val = .ok (.list (x :: xs)) := by
  rw [strict_list_partial E (n + 1) x xs _ kw hds hs]
  have hx' : (Ty.cls x.cls).serFn E.info = some .primitive := by
    cases x with
    | atom a => cases a <;> simp_all [Prim, Ty.serFn, Cls.serFn, Val.cls, Atom.cls]
    | _ => simp [Prim] at hx
  have key : ∀ y ∈ x :: xs, (dump E (n + 2) y (some (.cls x.cls))
      { kw with storeCls := false }).val = .ok y := by
    intro y hy
    have hy' : y.cls = x.cls := by
      rcases List.mem_cons.1 hy with rfl | hy
      · rfl
      · exact hc y hy
    rw [dump_ok_iff (kw := { kw with storeCls := false }) hds]
    refine ⟨.primitive, hx', ?_⟩
    have : E.isInstance y (.cls x.cls) = .ok true := by simp [Env.isInstance, hy', Cls.sub]
    simp only [recOf_call, callSer, primitiveSer, this]
    split <;> rfl
  clear hc
  generalize x :: xs = l at key
  induction l with
  | nil => exact .nil
  | cons y l ih =>
    exact .cons (key y List.mem_cons_self) (ih fun z hz => key z (List.mem_cons_of_mem _ hz))

/-- `dump([1, 2, 3], strict=True)` -/
example : (dump (demoEnv demoInfo) 3 (.list [.int 1, .int 2, .int 3]) none { strict := true }).val =
    .ok (.list [.int 1, .int 2, .int 3]) :=
  strict_list_homogeneous _ 0 _ _ _ (demo_sers 0) rfl trivial (by simp [Val.cls, Atom.cls])

/-! ## C75: strict mode and the other collections -/

/-- C75 is false: a non-empty `deque` cannot be dumped in strict mode, whatever its
elements are. -/
theorem strict_deque_fails (E : Env) (n : Nat) (x : Val) (xs : List Val) (kw : DumpKw)
    (hds : DefaultSers E kw.fork) (hs : kw.strict = true) :
    ∃ e, (dump E (n + 1) (.seq .deque (x :: xs)) none kw).val = .error e := by
  rcases except_cases (dump E (n + 1) (.seq .deque (x :: xs)) none kw).val with ⟨r, h⟩ | h
  · exfalso
    rw [dump_ok_iff hds] at h
    obtain ⟨f, h1, h2⟩ := h
    simp only [Option.getD_none, Val.cls, SeqKind.cls, Ty.serFn, Cls.serFn, Option.some.injEq] at h1
    subst h1
    cases n with
    | zero => simp [recOf] at h2
    | succ n =>
      simp [recOf_call, callSer, iterableSer, Val.iter, elementTypes, hs, determineCls, Res.liftK,
        bind_val] at h2
  · exact h

/-- It can be dumped otherwise: `dump(deque([1, 2]))`. -/
example : (dump (demoEnv demoInfo) 9 (.seq .deque [.int 1, .int 2]) none {}).val =
    .ok (.list [.int 1, .int 2]) := by rfl

/-- C75, `_partial`: sets and frozensets (in both modes) and `deque`s, tuples and sets in
the default mode are dumped to the list of the dumps of their elements in the order of
iteration.  Missing: `deque`s (see `strict_deque_fails`) and tuples in strict mode. -/
theorem collection_dump_partial (E : Env) (n : Nat) (k : SeqKind) (xs ys : List Val) (kw : DumpKw)
    (hds : DefaultSers E kw.fork) (hl : k ≠ .list)
    (hs : kw.strict = false ∨ k = .set ∨ k = .frozenset) :
    (dump E (n + 2) (.seq k xs) none kw).val = .ok (.list ys) ↔
      List.Forall₂ (fun v y => (dump E n v none { kw with storeCls := false }).val = .ok y) xs ys := by
  have hz : ∀ zs : List Val, List.Forall₂ (fun (p : Val × Option Ty) y =>
      ((recOf E n).dump p.1 p.2 { kw with storeCls := false }).val = .ok y)
      (zs.zip (List.replicate zs.length none)) ys ↔
      List.Forall₂ (fun v y => (dump E n v none { kw with storeCls := false }).val = .ok y) zs ys := by
    intro zs
    induction zs generalizing ys with
    | nil => simp
    | cons z zs ih =>
      cases ys with
      | nil => simp [List.replicate_succ]
      | cons y ys =>
        rw [List.length_cons, List.replicate_succ, List.zip_cons_cons, List.forall₂_cons,
          List.forall₂_cons, ih]
        rfl
  have hi : (iterableSer E (recOf E n) (.seq k xs) none kw).val = .ok (.list ys) ↔
      List.Forall₂ (fun v y => (dump E n v none { kw with storeCls := false }).val = .ok y) xs ys := by
    have he : elementTypes E (.seq k xs) xs.length none kw.strict =
        pure (List.replicate xs.length none) := by
      have hg : getSubclasses xs.length none = .ok (List.replicate xs.length none) := by
        simp [getSubclasses]
      unfold elementTypes
      rcases hs with h | rfl | rfl
      · rw [h, hg]; rfl
      · cases kw.strict
        · rw [hg]; rfl
        · simp only [if_true, determineCls, liftK_of_ok, pure_bind', hg]; rfl
      · cases kw.strict
        · rw [hg]; rfl
        · simp only [if_true, determineCls, liftK_of_ok, pure_bind', hg]; rfl
    simp only [iterableSer, Val.iter, he, pure_bind', bind_ok, pure_val, Except.ok.injEq,
      Val.seq.injEq, true_and, exists_eq_right, mapRes_ok]
    exact hz xs
  rw [dump_ok_iff hds]
  cases k with
  | list => exact absurd rfl hl
  | tuple =>
    simp only [Option.getD_none, Val.cls, SeqKind.cls, Ty.serFn, Cls.serFn, Option.some.injEq,
      exists_eq_left', recOf_call, callSer, tupleSer, tupleCls, pure_bind']
    exact hi
  | set | frozenset | deque =>
    simp only [Option.getD_none, Val.cls, SeqKind.cls, Ty.serFn, Cls.serFn, Option.some.injEq,
      exists_eq_left', recOf_call, callSer]
    exact hi

/-- `dump({1, 2}, strict=True)` -/
example : (dump (demoEnv demoInfo) 4 (.set [.int 1, .int 2]) none { strict := true }).val =
    .ok (.list [.int 1, .int 2]) :=
  (collection_dump_partial _ 2 _ _ _ _ (demo_sers 0) (by decide) (by simp)).2
    (.cons (by rfl) (.cons (by rfl) .nil))

/-! ## C71: time zones -/

/-- C71 is false: `dump(tz, cls=timezone)` fails for every `datetime.timezone`, since
the class is handed on to the dump of the offset.  So does the dump of an attribute
with the hint `timezone`. -/
theorem timezone_with_cls_fails (E : Env) (n : Nat) (us : Int) (name : Option PyStr) (kw : DumpKw)
    (hds : DefaultSers E kw.fork) :
    ∃ e, (dump E (n + 1) (.atom (.timezone us name)) (some (.cls .timezone)) kw).val = .error e := by
  rcases except_cases (dump E (n + 1) (.atom (.timezone us name)) (some (.cls .timezone)) kw).val
    with ⟨r, h⟩ | h
  · exfalso
    rw [dump_ok_iff hds] at h
    obtain ⟨f, h1, h2⟩ := h
    simp only [Option.getD_some, Ty.serFn, Cls.serFn, Option.some.injEq] at h1
    subst h1
    cases n with
    | zero => simp [recOf] at h2
    | succ n =>
      simp only [recOf_call, callSer, timezoneSer, bind_ok, recOf_dump] at h2
      obtain ⟨o, h2, _⟩ := h2
      cases n with
      | zero => simp [dump, recOf] at h2
      | succ n =>
        rw [dump_ok_iff hds] at h2
        obtain ⟨f, h1, h2⟩ := h2
        simp only [Option.getD_some, Ty.serFn, Cls.serFn, Option.some.injEq] at h1
        subst h1
        cases n with
        | zero => simp [recOf] at h2
        | succ n => simp [recOf_call, callSer, timezoneSer] at h2
  · exact h

/-- C71, `_partial` (dump only): without a class a time zone is dumped to its name and
its offset in seconds. -/
theorem timezone_dump_partial (E : Env) (n : Nat) (us : Int) (name : Option PyStr) (kw : DumpKw)
    (hds : DefaultSers E kw.fork) :
    (dump E (n + 4) (.atom (.timezone us name)) none kw).val = .ok (.dict [
      (.str "name".toList, .str (name.getD (Datetime.fixedName us))),
      (.str "offset".toList, .float (Timedelta.timedeltaSerializer E.R us))]) := by
  rw [dump_ok_iff hds]
  refine ⟨.timezone, rfl, ?_⟩
  simp only [recOf_call, callSer, timezoneSer, bind_ok, recOf_dump, pure_val]
  refine ⟨_, ?_, rfl⟩
  rw [dump_ok_iff hds]
  exact ⟨.timedelta, rfl, rfl⟩

/-- `dump(timezone(timedelta(hours=1)))` -/
example : ∃ r, (dump (demoEnv demoInfo) 4 (.atom (.timezone 3600000000 none)) none {}).val = .ok r :=
  ⟨_, timezone_dump_partial _ 0 _ _ _ (demo_sers 0)⟩

end Verif.Props.DumpCollections
