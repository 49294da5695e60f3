import Verif.Props.DumpTyped

/-! # C85: strict dumps of tuples and other collections follow the type -/

set_option autoImplicit false

namespace Verif.Props.StrictTuples

open Verif Verif.Core Verif.Datetime Verif.Props.Times

variable {E : Env}

/-- The `i`-th element is dumped as the `i`-th type. -/
def DumpedAs (E : Env) (n : Nat) (kw : DumpKw) (xs : List Val) (ts : List Ty) (ys : List Val) : Prop :=
  xs.length = ts.length ∧ ys.length = ts.length ∧
    ∀ (i : Nat) x t y, xs[i]? = some x → ts[i]? = some t → ys[i]? = some y →
      (dump E n x (some t) kw).val = .ok y

theorem zip_dumped {n : Nat} {kw : DumpKw} {ts : List Ty} {xs ys : List Val}
    (hl : xs.length = ts.length) :
    List.Forall₂ (fun (p : Val × Option Ty) y => (dump E n p.1 p.2 kw).val = .ok y)
      (xs.zip (ts.map some)) ys ↔ DumpedAs E n kw xs ts ys := by
  induction ts generalizing xs ys with
  | nil =>
    cases xs with
    | nil =>
      constructor
      · intro h; cases h; exact ⟨rfl, rfl, by simp⟩
      · rintro ⟨-, h, -⟩
        cases ys with
        | nil => exact .nil
        | cons y ys => cases h
    | cons => cases hl
  | cons t ts ih =>
    cases xs with
    | nil => cases hl
    | cons x xs =>
      have hl' : xs.length = ts.length := by simpa using hl
      constructor
      · intro h
        cases h with
        | cons h1 h2 =>
          obtain ⟨_, h3, h4⟩ := (ih hl').1 h2
          refine ⟨hl, by simp [h3], ?_⟩
          rintro (_ | i) x' t' y' hx ht hy
          · simp at hx ht hy; subst hx ht hy; exact h1
          · simp at hx ht hy; exact h4 i x' t' y' hx ht hy
      · rintro ⟨-, h3, h4⟩
        cases ys with
        | nil => cases h3
        | cons y ys =>
          refine .cons (h4 0 x t y rfl rfl rfl) ((ih hl').2 ⟨hl', by simpa using h3, ?_⟩)
          intro i x' t' y' hx ht hy
          exact h4 (i + 1) x' t' y' (by simpa using hx) (by simpa using ht) (by simpa using hy)

theorem iterable_strict {n : Nat} {v j : Val} {xs : List Val} {t : Ty} {kw : DumpKw}
    (hk : kw.strict = true) (hv : v.iter = some xs) :
    (iterableSer E (recOf E n) v (some t) kw).val = .ok j ↔
      ∃ subs ys, getSubclasses xs.length (some t) = .ok subs ∧ j = .list ys ∧
        List.Forall₂ (fun (p : Val × Option Ty) y =>
          (dump E n p.1 p.2 { kw with storeCls := false }).val = .ok y) (xs.zip subs) ys := by
  have hd : determineCls E v (some t) = .ok (some t) := rfl
  have hkw : ({ kw with storeCls := false } : DumpKw) =
      { kw with storeCls := false, strict := true } := by simp only [hk]
  rw [hkw]
  simp only [iterableSer, hv, elementTypes, hk, if_true, hd, liftK_of_ok, pure_bind', Core.bind_ok,
    lift_val, mapRes_ok, pure_val, Except.ok.injEq]
  constructor
  · rintro ⟨subs, h1, ys, h2, h3⟩
    exact ⟨subs, ys, h1, h3.symm, h2⟩
  · rintro ⟨subs, ys, h1, rfl, h2⟩
    exact ⟨subs, h1, ys, h2, rfl⟩

/-- C85: in strict mode a tuple is dumped as `Tuple[T1, ..., Tn]`, with two or more types,
exactly if it has `n` elements and every element can be dumped as its type; the result
is the list of these. -/
theorem strict_tuple_partial (E : Env) (n : Nat) (xs : List Val) (t t' : Ty) (ts : List Ty) (j : Val)
    (kw : DumpKw) (hs : DefaultSers E kw.fork) (hk : kw.strict = true) :
    (dump E (n + 2) (.seq .tuple xs) (some (.gen .tuple (t :: t' :: ts))) kw).val = .ok j ↔
      ∃ ys, j = .list ys ∧ DumpedAs E n { kw with storeCls := false } xs (t :: t' :: ts) ys := by
  rw [dump_via (f := .tuple) hs rfl]
  show (do let cls_ ← (pure _ : Res (Option Ty)); iterableSer E (recOf E n) (.seq .tuple xs) cls_ kw).val = _ ↔ _
  rw [pure_bind', iterable_strict hk rfl]
  have hg : getSubclasses xs.length (some (.gen .tuple (t :: t' :: ts))) =
      if xs.length = (t :: t' :: ts).length then .ok ((t :: t' :: ts).map some)
      else .error { kind := .serializationError } := by
    simp only [getSubclasses, Option.map_some, Option.getD_some, Ty.getArgs, List.length_map, ne_eq, ite_not]
    congr 1
    exact propext eq_comm
  rw [hg]
  constructor
  · rintro ⟨subs, ys, h1, rfl, h2⟩
    split at h1
    · next hl =>
      cases h1
      exact ⟨ys, rfl, (zip_dumped hl).1 h2⟩
    · cases h1
  · rintro ⟨ys, rfl, h⟩
    exact ⟨_, ys, if_pos h.1, rfl, (zip_dumped h.1).2 h⟩

/-- Collections of one type, and `Tuple[T, ...]`. -/
inductive OneType (t : Ty) : SeqKind → Ty → Prop
  | tuple : OneType t .tuple (.gen .tupleEll [t])
  | set : OneType t .set (.gen .set [t])
  | frozenset : OneType t .frozenset (.gen .frozenset [t])
  | deque : OneType t .deque (.gen .deque [t])
  | iterable {k : SeqKind} : OneType t k (.gen .iterable [t])

/-- C85 for collections of one type: in strict mode every element is dumped as this type. -/
theorem strict_collection (E : Env) (n : Nat) (k : SeqKind) (xs : List Val) (t c : Ty) (j : Val)
    (kw : DumpKw) (hs : DefaultSers E kw.fork) (hk : kw.strict = true) (hc : OneType t k c) :
    (dump E (n + 2) (.seq k xs) (some c) kw).val = .ok j ↔
      ∃ ys, j = .list ys ∧
        DumpedAs E n { kw with storeCls := false } xs (List.replicate xs.length t) ys := by
  have key : ∀ c', getSubclasses xs.length (some c') = .ok ((List.replicate xs.length t).map some) →
      ((iterableSer E (recOf E n) (.seq k xs) (some c') kw).val = .ok j ↔ ∃ ys, j = .list ys ∧
        DumpedAs E n { kw with storeCls := false } xs (List.replicate xs.length t) ys) := by
    intro c' hg
    rw [iterable_strict (xs := xs) hk rfl, hg]
    constructor
    · rintro ⟨subs, ys, h1, rfl, h2⟩
      cases h1
      exact ⟨ys, rfl, (zip_dumped (by simp)).1 h2⟩
    · rintro ⟨ys, rfl, h⟩
      exact ⟨_, ys, rfl, rfl, (zip_dumped (by simp)).2 h⟩
  have one : ∀ g, getSubclasses xs.length (some (.gen g [t])) = .ok ((List.replicate xs.length t).map some) := by
    intro g
    simp [getSubclasses, Ty.getArgs]
  cases hc with
  | tuple =>
    rw [dump_via (f := .tuple) hs rfl]
    show (do let cls_ ← (pure _ : Res (Option Ty)); iterableSer E (recOf E n) (.seq .tuple xs) cls_ kw).val = _ ↔ _
    rw [pure_bind']
    refine key _ ?_
    show getSubclasses xs.length (some (.gen .tuple (List.replicate xs.length t))) = _
    match xs with
    | [] => rfl
    | [x] => rfl
    | x :: y :: zs => simp [getSubclasses, Ty.getArgs, List.replicate_succ]
  | set => rw [dump_via (f := .iterable) hs rfl]; exact key _ (one _)
  | frozenset => rw [dump_via (f := .iterable) hs rfl]; exact key _ (one _)
  | deque => rw [dump_via (f := .iterable) hs rfl]; exact key _ (one _)
  | iterable => rw [dump_via (f := .iterable) hs rfl]; exact key _ (one _)

/-- C85 is false for tuples with one type: `Tuple[int]` is taken for `Tuple[int, ...]`. -/
theorem strict_tuple_single (E : Env) (n : Nat) (xs : List Val) (t : Ty) (j : Val)
    (kw : DumpKw) (hs : DefaultSers E kw.fork) (hk : kw.strict = true) :
    (dump E (n + 2) (.seq .tuple xs) (some (.gen .tuple [t])) kw).val = .ok j ↔
      (dump E (n + 2) (.seq .tuple xs) (some (.gen .tupleEll [t])) kw).val = .ok j := by
  rw [strict_collection E n .tuple xs t _ j kw hs hk .tuple, dump_via (f := .tuple) hs rfl]
  show (do let cls_ ← (pure _ : Res (Option Ty)); iterableSer E (recOf E n) (.seq .tuple xs) cls_ kw).val = _ ↔ _
  rw [pure_bind', iterable_strict (xs := xs) hk rfl]
  have hg : getSubclasses xs.length (some (.gen .tuple [t])) = .ok ((List.replicate xs.length t).map some) := by
    simp [getSubclasses, Ty.getArgs]
  rw [hg]
  constructor
  · rintro ⟨subs, ys, h1, rfl, h2⟩
    cases h1
    exact ⟨ys, rfl, (zip_dumped (by simp)).1 h2⟩
  · rintro ⟨ys, rfl, h⟩
    exact ⟨_, ys, rfl, rfl, (zip_dumped (by simp)).2 h⟩

/-- C75 for tuples in strict mode: without a class all elements are dumped as the type of
the first one, as if `Tuple[T, ...]` were given. -/
theorem strict_tuple_untyped (E : Env) (n : Nat) (x : Val) (xs : List Val) (j : Val)
    (kw : DumpKw) (hs : DefaultSers E kw.fork) (hk : kw.strict = true) :
    (dump E (n + 2) (.seq .tuple (x :: xs)) none kw).val = .ok j ↔
      ∃ ys, j = .list ys ∧ DumpedAs E n { kw with storeCls := false } (x :: xs)
        (List.replicate (x :: xs).length (E.getType x)) ys := by
  rw [← strict_collection E n .tuple (x :: xs) (E.getType x) _ j kw hs hk .tuple,
    ← strict_tuple_single E n (x :: xs) (E.getType x) j kw hs hk,
    dump_via (f := .tuple) hs rfl, dump_via (f := .tuple) hs rfl]
  show (do let cls_ ← (pure _ : Res (Option Ty)); iterableSer E (recOf E n) (.seq .tuple (x :: xs)) cls_ kw).val = _ ↔
    (do let cls_ ← (pure _ : Res (Option Ty)); iterableSer E (recOf E n) (.seq .tuple (x :: xs)) cls_ kw).val = _
  rw [pure_bind', pure_bind']
  simp only [iterableSer, elementTypes, hk, if_true]
  rfl

/-- C75 is false for tuples in strict mode: `dump((True, 2), strict=True)` is
`[True, True]`. -/
theorem strict_tuple_changes_values :
    (dump (demoEnv demoInfo) 9 (.seq .tuple [.bool true, .int 2]) none { strict := true }).val
      = .ok (.list [.bool true, .bool true]) ∧
    (dump (demoEnv demoInfo) 9 (.seq .tuple [.bool true, .int 2]) none {}).val
      = .ok (.list [.bool true, .int 2]) := by
  refine ⟨by rfl, by rfl⟩

/-- `(1, 'a')` is dumped as `Tuple[str, str]`, but not as `Tuple[str, str, str]`; three
elements are dumped as `Tuple[str]`. -/
example : (dump (demoEnv demoInfo) 9 (.seq .tuple [.str "b".toList, .str "a".toList])
      (some (.gen .tuple [.cls .str, .cls .str])) { strict := true }).val
      = .ok (.list [.str "b".toList, .str "a".toList]) ∧
    (∃ e, (dump (demoEnv demoInfo) 9 (.seq .tuple [.str "b".toList, .str "a".toList])
      (some (.gen .tuple [.cls .str, .cls .str, .cls .str])) { strict := true }).val = .error e) ∧
    (dump (demoEnv demoInfo) 9 (.seq .tuple [.int 1, .int 2, .int 3])
      (some (.gen .tuple [.cls .int])) { strict := true }).val = .ok (.list [.int 1, .int 2, .int 3]) ∧
    (dump (demoEnv demoInfo) 9 (.seq .set [.int 1, .int 0]) (some (.gen .set [.cls .bool]))
      { strict := true }).val = .ok (.list [.bool true, .bool false]) := by
  refine ⟨by rfl, ⟨_, by rfl⟩, by rfl, by rfl⟩

end Verif.Props.StrictTuples
