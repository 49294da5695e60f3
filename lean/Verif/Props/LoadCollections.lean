import Verif.Core.LoadLemmas
import Verif.Core.LoadDemo

/-!
# Properties of loading collections

C41, C42, C43, C44, C45.
-/

set_option autoImplicit false

namespace Verif.Props.LoadCollections
open Verif Verif.Core

/-! ## C41, C42: lists -/

/-- The message for an element that cannot be loaded. -/
def failText (i : Nat) (msg : PyStr) : PyStr :=
  "Could not deserialize element at index ".toList ++ Nat.toDigits 10 i ++ ". ".toList ++ msg

theorem elementMsg_eq (i : Nat) (m : PyStr) : elementMsg i m = failText i m := rfl

theorem warn_log (E : Env) (fork : Nat) (c m : PyStr) :
    (E.warn fork c m).log = if E.warns fork c = true then [.warn c m] else [] := by
  unfold Env.warn
  split <;> rfl

/-- The keyword arguments for the elements of a list. -/
def elemKw (kw : LoadKw) : LoadKw := { kwOf kw none with warnOnFail := false, inferred := true }

theorem listLoop_ok {E : LEnv} {rec : LRec} {cls : Option Ty} {kw : LoadKw} :
    ∀ (xs : List Val) (i : Nat) (ys : List Val),
      (listLoop E rec cls false kw i xs).val = .ok ys ↔
        List.Forall₂ (fun x y => (rec x cls kw).val = .ok y) xs ys := by
  intro xs
  induction xs with
  | nil =>
    intro i ys
    simp only [listLoop, pure_val, Except.ok.injEq]
    constructor
    · rintro rfl; exact .nil
    · intro h; cases h; rfl
  | cons x xs ih =>
    intro i ys
    simp only [listLoop, bind_ok, attempt_val, Except.ok.injEq, exists_eq_left']
    cases hx : (rec x cls kw).val with
    | ok y =>
      simp only [bind_ok, pure_val, Except.ok.injEq]
      constructor
      · rintro ⟨ys', h, rfl⟩
        exact .cons hx ((ih _ _).1 h)
      · intro h
        cases h with
        | cons h1 h2 =>
          rw [hx] at h1
          cases h1
          exact ⟨_, (ih _ _).2 h2, rfl⟩
    | error e =>
      constructor
      · intro h
        simp only at h
        split at h <;> simp at h
      · intro h
        cases h with
        | cons h1 h2 => rw [hx] at h1; cases h1

theorem listLoop_err {E : LEnv} {rec : LRec} {cls : Option Ty} {kw : LoadKw} {x : Val} {post : List Val}
    {e : Err} : ∀ (pre : List Val) (i : Nat), (∀ y ∈ pre, ∃ r, (rec y cls kw).val = .ok r) →
      (rec x cls kw).val = .error e →
      (listLoop E rec cls false kw i (pre ++ x :: post)).val = .error
        (if e.kind.isDeserializationError then
          { kind := .deserializationError, msg := failText (i + pre.length) e.msg
            source := e.source, target := e.target }
        else e) := by
  intro pre
  induction pre with
  | nil =>
    intro i _ h
    simp only [List.nil_append, listLoop, bind_val, attempt_val, h, elementMsg_eq]
    split
    · rw [if_neg (by decide)]; rfl
    · rfl
  | cons y pre ih =>
    intro i h1 h2
    obtain ⟨r, hr⟩ := h1 y List.mem_cons_self
    simp only [List.cons_append, listLoop, bind_val, attempt_val, hr]
    rw [ih (i + 1) (fun z hz => h1 z (List.mem_cons_of_mem _ hz)) h2]
    simp only [List.length_cons, Nat.add_assoc, Nat.add_comm 1]

/-- With `warn_on_fail`, what the loop returns. -/
theorem listLoop_warn {E : LEnv} {rec : LRec} {cls : Option Ty} {kw : LoadKw} :
    ∀ (xs : List Val) (i : Nat), (∀ x ∈ xs, ∀ e, (rec x cls kw).val = .error e →
        e.kind.isDeserializationError = true) →
      (listLoop E rec cls true kw i xs).val =
        .ok (xs.filterMap fun x => (rec x cls kw).val.toOption) ∧
      (listLoop E rec cls true kw i xs).log = (xs.zipIdx i).flatMap fun p =>
        (rec p.1 cls kw).log ++ match (rec p.1 cls kw).val with
          | .ok _ => []
          | .error e => if E.warns kw.fork "element-not-deserialized".toList = true then
              [.warn "element-not-deserialized".toList (failText p.2 e.msg)] else [] := by
  intro xs
  induction xs with
  | nil => intro i _; exact ⟨rfl, rfl⟩
  | cons x xs ih =>
    intro i h
    obtain ⟨ih1, ih2⟩ := ih (i + 1) fun y hy => h y (List.mem_cons_of_mem _ hy)
    simp only [listLoop, bind_val, bind_log, attempt_val, attempt_log, List.zipIdx_cons,
      List.flatMap_cons]
    cases hx : (rec x cls kw).val with
    | ok y =>
      simp only [bind_val, bind_log, ih1, ih2, pure_val, pure_log, List.append_nil]
      refine ⟨?_, trivial⟩
      rw [List.filterMap_cons_some (b := y) (by rw [hx]; rfl)]
    | error e =>
      have hk := h x List.mem_cons_self e hx
      rw [List.filterMap_cons_none (by rw [hx]; rfl)]
      simp only [hk, if_true, elementMsg_eq]
      rw [bind_val, bind_log, warn_val, warn_log]
      refine ⟨ih1, ?_⟩
      rw [ih2, List.append_assoc]

theorem gen_not_skip {v : Val} {g : Gen} {a : List Ty} {kw : LoadKw} : ¬ Skips v (some (.gen g a)) kw := by
  rintro (⟨_, h⟩ | h) <;> cases h

theorem iter_not_none {v : Val} {xs : List Val} (h : v.iter = some xs) : v ≠ .none := by
  rintro rfl; cases h

/-- A call for an element of a list. -/
theorem elem_load {E : LEnv} {n : Nat} {x : Val} {t : Ty} {kw : LoadKw} (h : NoMeta x) :
    load E n x (some t) (elemKw kw) =
      load E n x (some t) { kw with warnOnFail := false } := by
  refine (load_inferred (E := E) (n := n) (t := t)
    (kw := { kwOf kw none with warnOnFail := false }) h true).trans ?_
  exact load_same (kw := { kw with warnOnFail := false }) (m := none) (noMeta_get h _) (.inr rfl)

/-- The elements of a list of type `List[T]`. -/
theorem list_step {E : LEnv} {n : Nat} {v : Val} {xs : List Val} {t : Ty} {kw : LoadKw}
    (hd : DefaultDesers E kw.fork) (hv : NoValidators E kw.fork) (h1 : v.cls ∈ validTypes)
    (hm : NoMeta v) (hx : v.iter = some xs) :
    (load E (n + 1) v (some (.gen .list [t])) kw).val = wrapRes v (.gen .list [t])
      (do let ys ← listLoop E (load E n) (some t) kw.warnOnFail
            (elemKw kw) 0 xs
          pure (Val.list ys)).val ∧
    (load E (n + 1) v (some (.gen .list [t])) kw).log =
      (listLoop E (load E n) (some t) kw.warnOnFail
            (elemKw kw) 0 xs).log := by
  have h := load_via (n := n) (t := .gen .list [t]) (kw := kw)
    (fun h => absurd h (iter_not_none hx)) gen_not_skip h1 (noMeta_get hm _) (.inr rfl) hd rfl (hv _)
  have hc : callDes E (load E n) .list v (.gen .list [t]) (kwOf kw none) =
      (do let ys ← listLoop E (load E n) (some t) kw.warnOnFail
            (elemKw kw) 0 xs
          pure (Val.list ys)) := by
    simp only [callDes, listDes, hx, Ty.getArgs]
    rfl
  rw [h.1, h.2]
  constructor
  · exact congrArg (fun r => wrapRes v (.gen .list [t]) (Res.val r)) hc
  · refine (congrArg Res.log hc).trans ?_
    rw [bind_log]
    split <;> simp

/-- C41: what can be iterated (a list, tuple, set, ...) is loaded as `List[T]` element by
element; `kw` are any options.  (For elements with their own '-meta' see C61.) -/
theorem list_load (E : LEnv) (n : Nat) (v r : Val) (xs : List Val) (t : Ty) (kw : LoadKw)
    (hd : DefaultDesers E kw.fork) (hv : NoValidators E kw.fork) (h1 : v.cls ∈ validTypes)
    (hm : NoMeta v) (hx : v.iter = some xs) (he : ∀ x ∈ xs, NoMeta x) (hw : kw.warnOnFail = false) :
    (load E (n + 1) v (some (.gen .list [t])) kw).val = .ok r ↔
      ∃ ys, r = .list ys ∧ List.Forall₂ (fun x y => (load E n x (some t) kw).val = .ok y) xs ys := by
  have hkw : ({ kw with warnOnFail := false } : LoadKw) = kw := by cases kw; cases hw; rfl
  have hcongr : ∀ ys, List.Forall₂ (fun x y => (load E n x (some t)
      (elemKw kw)).val = .ok y) xs ys ↔
      List.Forall₂ (fun x y => (load E n x (some t) kw).val = .ok y) xs ys := by
    intro ys
    clear hx
    induction xs generalizing ys with
    | nil => constructor <;> (intro h; cases h; exact .nil)
    | cons x xs ih =>
      have hx := elem_load (E := E) (n := n) (t := t) (kw := kw) (he x List.mem_cons_self)
      rw [hkw] at hx
      have ih := ih fun y hy => he y (List.mem_cons_of_mem _ hy)
      constructor
      · intro h
        cases h with
        | cons h1 h2 => rw [hx] at h1; exact .cons h1 ((ih _).1 h2)
      · intro h
        cases h with
        | cons h1 h2 => rw [← hx] at h1; exact .cons h1 ((ih _).2 h2)
  rw [(list_step hd hv h1 hm hx).1, wrapRes_ok, hw]
  simp only [bind_ok, pure_val, Except.ok.injEq, listLoop_ok, hcongr]
  constructor
  · rintro ⟨ys, h, rfl⟩; exact ⟨ys, rfl, h⟩
  · rintro ⟨ys, rfl, h⟩; exact ⟨ys, h, rfl⟩

/-- C41: if an element fails with a `DeserializationError`, and those before it do not
fail, then the error names its index and has its source and target. -/
theorem list_load_error (E : LEnv) (n : Nat) (v x : Val) (pre post : List Val) (t : Ty) (kw : LoadKw)
    (e : Err) (hd : DefaultDesers E kw.fork) (hv : NoValidators E kw.fork) (h1 : v.cls ∈ validTypes)
    (hm : NoMeta v) (hx : v.iter = some (pre ++ x :: post)) (he : ∀ y ∈ pre ++ x :: post, NoMeta y)
    (hw : kw.warnOnFail = false) (hpre : ∀ y ∈ pre, ∃ r, (load E n y (some t) kw).val = .ok r)
    (hbad : (load E n x (some t) kw).val = .error e) (hk : e.kind.isDeserializationError = true) :
    (load E (n + 1) v (some (.gen .list [t])) kw).val = .error
      { kind := .deserializationError
        msg := failText pre.length e.msg
        source := e.source
        target := e.target } := by
  have hkw : ({ kw with warnOnFail := false } : LoadKw) = kw := by cases kw; cases hw; rfl
  rw [(list_step hd hv h1 hm hx).1, hw, bind_val, listLoop_err (e := e) pre 0]
  · rw [if_pos hk, Nat.zero_add]; rfl
  · intro y hy
    rw [elem_load (he y (List.mem_append_left _ hy)), hkw]
    exact hpre y hy
  · rw [elem_load (he x (by simp)), hkw]
    exact hbad

/-- `[1, 2, [], 'x']` as `List[int]` fails at index 2. -/
example : (load (demoLEnv demoInfo) 3 (.list [.int 1, .str "2".toList, .list [], .str "x".toList])
    (some (.gen .list [.cls .int])) {}).val = .error
      { kind := .deserializationError, msg := failText 2 [], source := some (.list []),
        target := some (.cls .int) } := by rfl

/-- C42, for elements that fail with a `DeserializationError`: the other elements are
returned in order, and there is one warning for each element that fails (unless that
warning is suppressed), with its index.  The elements are loaded without
`warn_on_fail`. -/
theorem warn_on_fail_partial (E : LEnv) (n : Nat) (v : Val) (xs : List Val) (t : Ty) (kw : LoadKw)
    (hd : DefaultDesers E kw.fork) (hv : NoValidators E kw.fork) (h1 : v.cls ∈ validTypes)
    (hm : NoMeta v) (hx : v.iter = some xs) (he : ∀ x ∈ xs, NoMeta x)
    (hk : ∀ x ∈ xs, ∀ e, (load E n x (some t) kw).val = .error e → e.kind.isDeserializationError = true)
    (hw : kw.warnOnFail = false) :
    (load E (n + 1) v (some (.gen .list [t])) { kw with warnOnFail := true }).val =
      .ok (.list (xs.filterMap fun x => (load E n x (some t) kw).val.toOption)) ∧
    (load E (n + 1) v (some (.gen .list [t])) { kw with warnOnFail := true }).log =
      xs.zipIdx.flatMap fun p => (load E n p.1 (some t) kw).log ++
        match (load E n p.1 (some t) kw).val with
          | .ok _ => []
          | .error e => if E.warns kw.fork "element-not-deserialized".toList = true then
              [.warn "element-not-deserialized".toList (failText p.2 e.msg)] else [] := by
  have hkw : ({ ({ kw with warnOnFail := true } : LoadKw) with warnOnFail := false } : LoadKw) = kw := by
    cases kw; cases hw; rfl
  have hel : ∀ x ∈ xs, load E n x (some t)
      (elemKw { kw with warnOnFail := true }) =
      load E n x (some t) kw := by
    intro x hx
    rw [elem_load (he x hx), hkw]
  have hl := listLoop_warn (E := E) (rec := load E n) (cls := some t)
    (kw := (elemKw { kw with warnOnFail := true })) xs 0
    (by intro x hx e h; rw [hel x hx] at h; exact hk x hx e h)
  have hs := list_step (n := n) (t := t) (kw := { kw with warnOnFail := true }) hd hv h1 hm hx
  constructor
  · rw [hs.1, wrapRes_ok, bind_ok]
    refine ⟨_, hl.1, ?_⟩
    rw [pure_val]
    congr 2
    exact List.filterMap_congr fun x hx => by rw [hel x hx]
  · rw [hs.2]
    refine hl.2.trans ?_
    have : ∀ (f g : Val × Nat → List Event) (l : List (Val × Nat)), (∀ p ∈ l, f p = g p) →
        l.flatMap f = l.flatMap g := by
      intro f g l h
      induction l with
      | nil => rfl
      | cons a l ih =>
        rw [List.flatMap_cons, List.flatMap_cons, h a List.mem_cons_self,
          ih fun p hp => h p (List.mem_cons_of_mem _ hp)]
    apply this
    intro p hp
    have hp' : p.1 ∈ xs := by
      have := List.mem_zipIdx hp
      simp only [this]
      exact List.getElem_mem _
    simp only [hel p.1 hp']
    rfl

/-- `[1, [], '2', 'x']` as `List[int]` with `warn_on_fail=True`. -/
example : (load (demoLEnv demoInfo) 3 (.list [.int 1, .list [], .str "2".toList, .str "x".toList])
    (some (.gen .list [.cls .int])) { warnOnFail := true }) =
      ⟨[.warn "element-not-deserialized".toList (failText 1 []),
        .warn "element-not-deserialized".toList (failText 3 [])], .ok (.list [.int 1, .int 2])⟩ := by rfl

/-- Surroundings with a validator for `int` that refuses negative numbers. -/
def refusing : LEnv := { demoLEnv demoInfo with
  vals := fun _ => Registry.setLizer (tyWorld demoInfo) 0 [some (.cls .int)] true Registry.Table.empty
  validator := fun _ v => match v with
    | .int n => .ok (0 ≤ n)
    | _ => .ok true }

/-- C42 fails for elements that a validator refuses: they are not skipped. -/
theorem warn_on_fail_fails : ∃ (E : LEnv),
    (load E 2 (.int 1) (some (.cls .int)) {}).val = .ok (.int 1) ∧
    (∃ e, (load E 2 (.int (-1)) (some (.cls .int)) {}).val = .error e) ∧
    ∃ e, (load E 3 (.list [.int 1, .int (-1)]) (some (.gen .list [.cls .int]))
      { warnOnFail := true }).val = .error e ∧ e.kind = .validationError := by
  refine ⟨refusing, by rfl, ⟨_, by rfl⟩, ⟨_, by rfl, rfl⟩⟩

/-! ## C43: tuples -/

/-- Elements loaded one by one with their types; there may be types left. -/
inductive Elementwise (f : Ty → Val → Except Err Val) : List Ty → List Val → List Val → Prop
  | nil {ts : List Ty} : Elementwise f ts [] []
  | cons {t : Ty} {ts : List Ty} {x y : Val} {xs ys : List Val} : f t x = .ok y →
      Elementwise f ts xs ys → Elementwise f (t :: ts) (x :: xs) (y :: ys)

theorem tupleLoop_ok {rec : LRec} {kw : LoadKw} :
    ∀ (xs : List Val) (ts : List Ty) (ys : List Val), (tupleLoop rec kw ts xs).val = .ok ys ↔
      Elementwise (fun t x => (rec x (some t) kw).val) ts xs ys := by
  intro xs
  induction xs with
  | nil =>
    intro ts ys
    simp only [tupleLoop, pure_val, Except.ok.injEq]
    constructor
    · rintro rfl; exact .nil
    · intro h; cases h; rfl
  | cons x xs ih =>
    intro ts ys
    cases ts with
    | nil =>
      constructor
      · intro h; cases h
      · intro h; cases h
    | cons t ts =>
      simp only [tupleLoop, bind_ok, pure_val, Except.ok.injEq]
      constructor
      · rintro ⟨y, h1, ys', h2, rfl⟩
        exact .cons h1 ((ih _ _).1 h2)
      · intro h
        cases h with
        | cons h1 h2 => exact ⟨_, h1, _, (ih _ _).2 h2, rfl⟩

theorem elementwise_congr {f g : Ty → Val → Except Err Val} :
    ∀ (xs : List Val) (ts : List Ty) (ys : List Val), (∀ x ∈ xs, ∀ t, f t x = g t x) →
      (Elementwise f ts xs ys ↔ Elementwise g ts xs ys) := by
  intro xs
  induction xs with
  | nil => intro ts ys _; constructor <;> (intro h; cases h; exact .nil)
  | cons x xs ih =>
    intro ts ys h
    constructor
    · intro he
      cases he with
      | cons h1 h2 =>
        rw [h x List.mem_cons_self] at h1
        exact .cons h1 ((ih _ _ fun y hy => h y (List.mem_cons_of_mem _ hy)).1 h2)
    · intro he
      cases he with
      | cons h1 h2 =>
        rw [← h x List.mem_cons_self] at h1
        exact .cons h1 ((ih _ _ fun y hy => h y (List.mem_cons_of_mem _ hy)).2 h2)

/-- C43, except that too short inputs are accepted: `Tuple[T1, ..., Tn]` is loaded
element by element, and only from at most `n` elements; the elements are loaded
without the key transformer. -/
theorem tuple_load_partial (E : LEnv) (n : Nat) (v r : Val) (xs : List Val) (t : Ty) (ts : List Ty)
    (kw : LoadKw) (hd : DefaultDesers E kw.fork) (hv : NoValidators E kw.fork)
    (h1 : v.cls ∈ validTypes) (hm : NoMeta v) (hx : v.iter = some xs) (he : ∀ x ∈ xs, NoMeta x) :
    (load E (n + 1) v (some (.gen .tuple (t :: ts))) kw).val = .ok r ↔
      ∃ ys, r = .tuple ys ∧ xs.length ≤ (t :: ts).length ∧
        Elementwise (fun t x => (load E n x (some t) { kw with keyTransformer := none }).val)
          (t :: ts) xs ys := by
  have hlen : ∀ {f : Ty → Val → Except Err Val} {ts : List Ty} {xs ys : List Val},
      Elementwise f ts xs ys → xs.length ≤ ts.length := by
    intro f ts xs ys h
    induction h with
    | nil => exact Nat.zero_le _
    | cons _ _ ih => simpa using ih
  rw [(load_via (n := n) (t := .gen .tuple (t :: ts)) (kw := kw)
    (fun h => absurd h (iter_not_none hx)) gen_not_skip h1 (noMeta_get hm _) (.inr rfl) hd rfl
    (hv _)).1, wrapRes_ok]
  have hc : callDes E (load E n) .tuple v (.gen .tuple (t :: ts)) (kwOf kw none) =
      (do let ys ← tupleLoop (load E n) (kwOf { kw with keyTransformer := none } none) (t :: ts) xs
          pure (Val.tuple ys)) := by
    simp only [callDes, tupleDes, hx, Ty.getArgs]
    rfl
  have hcongr : ∀ ys, (tupleLoop (load E n) (kwOf { kw with keyTransformer := none } none)
      (t :: ts) xs).val = .ok ys ↔
      Elementwise (fun t x => (load E n x (some t) { kw with keyTransformer := none }).val)
        (t :: ts) xs ys := by
    intro ys
    rw [tupleLoop_ok]
    apply elementwise_congr
    intro x hx t
    rw [load_same (noMeta_get (he x hx) _) (.inr rfl)]
  refine Iff.trans (b := ((do
      let ys ← tupleLoop (load E n) (kwOf { kw with keyTransformer := none } none) (t :: ts) xs
      pure (Val.tuple ys)) : Res Val).val = .ok r) (by rw [← hc]; exact Iff.rfl) ?_
  simp only [bind_ok, pure_val, Except.ok.injEq, hcongr]
  constructor
  · rintro ⟨ys, h, rfl⟩; exact ⟨ys, rfl, hlen h, h⟩
  · rintro ⟨ys, rfl, _, h⟩; exact ⟨ys, h, rfl⟩

/-- `['1', 2]` as `Tuple[int, str]`. -/
example : (load (demoLEnv demoInfo) 3 (.list [.str "1".toList, .str "b".toList])
    (some (.gen .tuple [.cls .int, .cls .str])) {}).val = .ok (.tuple [.int 1, .str "b".toList]) := by rfl

/-- C43 fails for inputs that are too short: `[1]` is loaded as a `Tuple[int, str]`. -/
theorem tuple_load_short : ∃ (E : LEnv) (xs ys : List Val) (ts : List Ty), xs.length < ts.length ∧
    ∀ (n : Nat) (kw : LoadKw), (load E (n + 2) (.list xs) (some (.gen .tuple ts)) { kw with strict := false, fork := 0 }).val
      = .ok (.tuple ys) := by
  refine ⟨demoLEnv demoInfo, [.int 1], [.int 1], [.cls .int, .cls .str], by decide, ?_⟩
  intro n kw
  rw [tuple_load_partial _ _ _ _ [.int 1] _ _ _ (demo_desers 0) (demo_novals 0) (by decide)
    (noMeta_of_not_dict (by decide)) rfl (by
      intro x hx
      rw [List.mem_singleton] at hx
      subst hx
      exact noMeta_of_not_dict (by decide))]
  refine ⟨_, rfl, by decide, .cons ?_ .nil⟩
  have h := load_skip (E := demoLEnv demoInfo) (n := n) (v := .int 1) (cls := some (.cls .int))
    (kw := { { kw with strict := false, fork := 0 } with keyTransformer := none })
    (fun h => by cases h) (.inl ⟨rfl, rfl⟩)
  rw [h, validate_none (demo_novals 0 _)]
  rfl

/-- Too long inputs are refused with a `DeserializationError`. -/
theorem tuple_load_long (E : LEnv) (n : Nat) (v : Val) (xs : List Val) (t : Ty) (ts : List Ty)
    (kw : LoadKw) (hd : DefaultDesers E kw.fork) (hv : NoValidators E kw.fork)
    (h1 : v.cls ∈ validTypes) (hm : NoMeta v) (hx : v.iter = some xs) (he : ∀ x ∈ xs, NoMeta x)
    (hlen : (t :: ts).length < xs.length) :
    ∃ e, (load E (n + 1) v (some (.gen .tuple (t :: ts))) kw).val = .error e ∧
      e.kind.isJsonsError = true := by
  rcases except_cases (load E (n + 1) v (some (.gen .tuple (t :: ts))) kw).val with ⟨r, h⟩ | ⟨e, h⟩
  · rw [tuple_load_partial E n v r xs t ts kw hd hv h1 hm hx he] at h
    obtain ⟨_, _, h, _⟩ := h
    omega
  · exact ⟨e, h, load_err_kind (lookupsOk_of_default hd hv) (noMeta_metaOk hm)
      (fun h => absurd h (iter_not_none hx)) h⟩

/-- `Tuple[T, ...]` is loaded element by element from any number of elements. -/
theorem tuple_ellipsis_load (E : LEnv) (n : Nat) (v r : Val) (xs : List Val) (t : Ty)
    (kw : LoadKw) (hd : DefaultDesers E kw.fork) (hv : NoValidators E kw.fork)
    (h1 : v.cls ∈ validTypes) (hm : NoMeta v) (hx : v.iter = some xs) (he : ∀ x ∈ xs, NoMeta x) :
    (load E (n + 1) v (some (.gen .tupleEll [t])) kw).val = .ok r ↔
      ∃ ys, r = .tuple ys ∧ List.Forall₂ (fun x y =>
        (load E n x (some t) { kw with keyTransformer := none }).val = .ok y) xs ys := by
  rw [(load_via (n := n) (t := .gen .tupleEll [t]) (kw := kw)
    (fun h => absurd h (iter_not_none hx)) gen_not_skip h1 (noMeta_get hm _) (.inr rfl) hd rfl
    (hv _)).1, wrapRes_ok]
  have hc : callDes E (load E n) .tuple v (.gen .tupleEll [t]) (kwOf kw none) =
      (do let ys ← tupleLoop (load E n) (kwOf { kw with keyTransformer := none } none)
            (List.replicate xs.length t) xs
          pure (Val.tuple ys)) := by
    simp only [callDes, tupleDes, hx, Ty.getArgs]
    rfl
  have key : ∀ ys, Elementwise (fun t x => (load E n x (some t) { kw with keyTransformer := none }).val)
      (List.replicate xs.length t) xs ys ↔ List.Forall₂ (fun x y =>
        (load E n x (some t) { kw with keyTransformer := none }).val = .ok y) xs ys := by
    clear hc hx he
    induction xs with
    | nil => intro ys; constructor <;> (intro h; cases h; constructor)
    | cons x xs ih =>
      intro ys
      constructor
      · intro h
        cases h with
        | cons h1 h2 => exact .cons h1 ((ih _).1 h2)
      · intro h
        cases h with
        | cons h1 h2 => exact .cons h1 ((ih _).2 h2)
  have hcongr : ∀ ys, (tupleLoop (load E n) (kwOf { kw with keyTransformer := none } none)
      (List.replicate xs.length t) xs).val = .ok ys ↔ List.Forall₂ (fun x y =>
        (load E n x (some t) { kw with keyTransformer := none }).val = .ok y) xs ys := by
    intro ys
    rw [tupleLoop_ok, ← key]
    apply elementwise_congr
    intro x hx t
    rw [load_same (noMeta_get (he x hx) _) (.inr rfl)]
  refine Iff.trans (b := ((do
      let ys ← tupleLoop (load E n) (kwOf { kw with keyTransformer := none } none)
        (List.replicate xs.length t) xs
      pure (Val.tuple ys)) : Res Val).val = .ok r) (by rw [← hc]; exact Iff.rfl) ?_
  simp only [bind_ok, pure_val, Except.ok.injEq, hcongr]
  constructor
  · rintro ⟨ys, h, rfl⟩; exact ⟨ys, rfl, h⟩
  · rintro ⟨ys, rfl, h⟩; exact ⟨ys, h, rfl⟩

example : (load (demoLEnv demoInfo) 3 (.list [.str "1".toList, .int 2, .str "3".toList])
    (some (.gen .tupleEll [.cls .int])) {}).val = .ok (.tuple [.int 1, .int 2, .int 3]) := by rfl

/-! ## C44: named tuples -/

/-- The hint of a field. -/
def fieldHint (I : ClassInfo) (name : PyStr) : Option Ty :=
  if I.hasAnnotations then assoc I.hints name else none

/-- The hint of the field allows `None` (`NoneType` is among its arguments). -/
def Optional' (I : ClassInfo) (name : PyStr) : Prop :=
  ∃ t, fieldHint I name = some t ∧ .cls .noneType ∈ t.getArgs

/-- The fields `names` get the values `xs` in order, then their defaults (or `None`, if
the hint allows it); each is loaded with its hint; values that are left over are
ignored. -/
inductive FieldsFrom (f : Option Ty → Val → Except Err Val) (I : ClassInfo) :
    List Val → List PyStr → List Val → Prop
  | nil {xs : List Val} : FieldsFrom f I xs [] []
  | given {x y : Val} {xs ys : List Val} {name : PyStr} {names : List PyStr} :
      (x = .none → Optional' I name) → f (fieldHint I name) x = .ok y → FieldsFrom f I xs names ys →
      FieldsFrom f I (x :: xs) (name :: names) (y :: ys)
  | default {d y : Val} {ys : List Val} {name : PyStr} {names : List PyStr} :
      assoc I.fieldDefaults name = some d → (d = .none → Optional' I name) →
      f (fieldHint I name) d = .ok y → FieldsFrom f I [] names ys →
      FieldsFrom f I [] (name :: names) (y :: ys)
  | omitted {y : Val} {ys : List Val} {name : PyStr} {names : List PyStr} :
      assoc I.fieldDefaults name = none → Optional' I name →
      f (fieldHint I name) .none = .ok y → FieldsFrom f I [] names ys →
      FieldsFrom f I [] (name :: names) (y :: ys)

theorem optional_iff (I : ClassInfo) (name : PyStr) :
    Optional' I name ↔ .cls .noneType ∈ ((fieldHint I name).bind Ty.unionParams).getD [] := by
  unfold Optional'
  cases h : fieldHint I name with
  | none => simp
  | some t =>
    simp only [Option.some.injEq, exists_eq_left', Option.bind_some]
    cases t with
    | gen g a => cases a <;> simp [Ty.getArgs, Ty.unionParams]
    | _ => simp [Ty.getArgs, Ty.unionParams]

/-- The fields get the values that `get` finds. -/
inductive LoopOk (f : Option Ty → Val → Except Err Val) (I : ClassInfo)
    (get : Nat → PyStr → Except ErrKind Val) : Nat → List PyStr → List Val → Prop
  | nil {i : Nat} : LoopOk f I get i [] []
  | cons {i : Nat} {w y : Val} {ys : List Val} {name : PyStr} {names : List PyStr} :
      get i name = .ok w → (w = .none → Optional' I name) → f (fieldHint I name) w = .ok y →
      LoopOk f I get (i + 1) names ys → LoopOk f I get i (name :: names) (y :: ys)

theorem ntupleLoop_cons (E : LEnv) (rec : LRec) (c : Nat) (v : Val) (tfm : Option (List (Val × Val)))
    (len : Nat) (kw : LoadKw) (i : Nat) (name : PyStr) (names : List PyStr) :
    ntupleLoop E rec c v tfm len kw i (name :: names) = (do
      let w ← Res.liftK (ntupleField (E.info c) v tfm len i name)
      if w = .none ∧ .cls .noneType ∉ ((fieldHint (E.info c) name).bind Ty.unionParams).getD [] then
        Res.raise { kind := .unfulfilledArgument, source := some v, target := some (.cls (.user c)),
                    argument := some name }
      else do
        let y ← rec w (fieldHint (E.info c) name) kw
        let ys ← ntupleLoop E rec c v tfm len kw (i + 1) names
        pure (y :: ys)) := rfl

theorem ntupleLoop_ok {E : LEnv} {rec : LRec} {c : Nat} {v : Val} {tfm : Option (List (Val × Val))}
    {len : Nat} {kw : LoadKw} : ∀ (names : List PyStr) (i : Nat) (ys : List Val),
      (ntupleLoop E rec c v tfm len kw i names).val = .ok ys ↔
        LoopOk (fun h x => (rec x h kw).val) (E.info c) (ntupleField (E.info c) v tfm len) i names ys := by
  intro names
  induction names with
  | nil =>
    intro i ys
    simp only [ntupleLoop, pure_val, Except.ok.injEq]
    constructor
    · rintro rfl; exact .nil
    · intro h; cases h; rfl
  | cons name names ih =>
    intro i ys
    rw [ntupleLoop_cons]
    simp only [bind_ok, liftK_ok]
    constructor
    · rintro ⟨w, hw, h⟩
      split at h
      · cases h
      · next hn =>
        simp only [bind_ok, pure_val, Except.ok.injEq] at h
        obtain ⟨y, hy, ys', hys, rfl⟩ := h
        refine .cons hw ?_ hy ((ih _ _).1 hys)
        intro h0
        rw [optional_iff]
        by_contra hc
        exact hn ⟨h0, hc⟩
    · intro h
      cases h with
      | cons h1 h2 h3 h4 =>
        refine ⟨_, h1, ?_⟩
        rw [if_neg]
        · simp only [bind_ok, pure_val, Except.ok.injEq]
          exact ⟨_, h3, _, (ih _ _).2 h4, rfl⟩
        · rintro ⟨h0, hc⟩
          have := h2 h0
          rw [optional_iff] at this
          exact hc this

theorem loopOk_list {f : Option Ty → Val → Except Err Val} {I : ClassInfo} {k : SeqKind} {xs : List Val}
    (hk : k = .list ∨ k = .tuple) : ∀ (names : List PyStr) (i : Nat) (ys : List Val),
      LoopOk f I (ntupleField I (.seq k xs) none xs.length) i names ys ↔
        FieldsFrom f I (xs.drop i) names ys := by
  have hidx : ∀ i (h : i < xs.length), index (.seq k xs) i = .ok xs[i] := by
    intro i h
    have : xs[i]? = some xs[i] := List.getElem?_eq_getElem h
    rcases hk with rfl | rfl <;> simp only [index, this]
  intro names
  induction names with
  | nil =>
    intro i ys
    generalize List.drop i xs = l
    constructor <;> (intro h; cases h; constructor)
  | cons name names ih =>
    intro i ys
    by_cases hi : i < xs.length
    · have hg : ntupleField I (.seq k xs) none xs.length i name = .ok xs[i] := by
        simp only [ntupleField, hi, if_true, hidx i hi]
      rw [List.drop_eq_getElem_cons hi]
      constructor
      · intro h
        cases h with
        | cons h1 h2 h3 h4 =>
          rw [hg] at h1
          cases h1
          exact .given h2 h3 ((ih _ _).1 h4)
      · intro h
        generalize hl : xs[i] = w at h hg
        have ih := ih (i + 1)
        generalize List.drop (i + 1) xs = rest at h ih
        cases h with
        | given h2 h3 h4 => exact .cons hg h2 h3 ((ih _).2 h4)
    · have hg : ntupleField I (.seq k xs) none xs.length i name
          = .ok ((assoc I.fieldDefaults name).getD .none) := by
        simp only [ntupleField, hi, if_false]
      have hdrop : ∀ j, i ≤ j → xs.drop j = [] := fun j hj => List.drop_of_length_le (by omega)
      rw [hdrop i (Nat.le_refl i)]
      constructor
      · intro h
        cases h with
        | cons h1 h2 h3 h4 =>
          rw [hg] at h1
          rw [ih, hdrop _ (Nat.le_succ i)] at h4
          cases hd : assoc I.fieldDefaults name with
          | none =>
            rw [hd] at h1
            cases h1
            exact .omitted hd (h2 rfl) h3 h4
          | some d =>
            rw [hd] at h1
            cases h1
            exact .default hd h2 h3 h4
      · intro h
        cases h with
        | default h1 h2 h3 h4 =>
          refine .cons (by rw [hg, h1]; rfl) h2 h3 ?_
          rw [ih, hdrop _ (Nat.le_succ i)]
          exact h4
        | omitted h1 h2 h3 h4 =>
          refine .cons (by rw [hg, h1]; rfl) (fun _ => h2) h3 ?_
          rw [ih, hdrop _ (Nat.le_succ i)]
          exact h4

theorem loopOk_congr {f : Option Ty → Val → Except Err Val} {I : ClassInfo}
    {get get' : Nat → PyStr → Except ErrKind Val} : ∀ (names : List PyStr) (i : Nat) (ys : List Val),
      (∀ j name, names[j]? = some name → get (i + j) name = get' (i + j) name) →
      LoopOk f I get i names ys → LoopOk f I get' i names ys := by
  intro names
  induction names with
  | nil => intro i ys _ h; cases h; exact .nil
  | cons name names ih =>
    intro i ys hg h
    cases h with
    | cons h1 h2 h3 h4 =>
      refine .cons ?_ h2 h3 (ih _ _ ?_ h4)
      · rw [← h1]; exact (hg 0 name rfl).symm
      · intro j name' hj
        have := hg (j + 1) name' (by simpa using hj)
        simpa [Nat.add_assoc, Nat.add_comm 1] using this

/-- The way into the deserializer of a named tuple. -/
theorem ntuple_step {E : LEnv} {n c : Nat} {v : Val} {kw : LoadKw} {xs : List Val}
    {tfm : Option (List (Val × Val))}
    (hd : DefaultDesers E kw.fork) (hv : NoValidators E kw.fork) (hc : (E.info c).kind = .ntuple)
    (h1 : v.cls ∈ validTypes) (hm : NoMeta v) (hx : v.iter = some xs)
    (ht : ntupleTfm E.info (kw.keyTransformer.getD .ok) v = .ok tfm) :
    (load E (n + 1) v (some (.cls (.user c))) kw).val = wrapRes v (.cls (.user c))
      (do let ys ← ntupleLoop E (load E n) c v tfm xs.length (kwOf kw none) 0 (E.info c).fields
          pure (Val.ntuple c ys)).val := by
  have hcls : v.cls ≠ .user c := by intro h; rw [h] at h1; simp [validTypes] at h1
  have hf : (Ty.cls (.user c)).desFn E.info = some .tuple := by
    simp only [Ty.desFn, Cls.desFn, hc]
  rw [(load_via (n := n) (t := .cls (.user c)) (kw := kw) (fun h => absurd h (iter_not_none hx))
    (by
      rintro (⟨_, h⟩ | h)
      · simp only [Option.some.injEq, Ty.cls.injEq] at h; exact hcls h.symm
      · cases h) h1 (noMeta_get hm _) (.inr rfl) hd hf (hv _)).1]
  congr 2
  have : tupleDes E (load E n) v (.cls (.user c)) (kwOf kw none) = ntupleDes E (load E n) v c (kwOf kw none) := by
    simp only [tupleDes, hc, if_true]
  show tupleDes E (load E n) v (.cls (.user c)) (kwOf kw none) = _
  rw [this]
  unfold ntupleDes
  have ht' : ntupleTfm E.info ((kwOf kw none).keyTransformer.getD .ok) v = .ok tfm := ht
  rw [ht']
  show (do let tfm ← (pure tfm : Res _); _) = _
  rw [pure_bind', hx]

/-- C44: a named tuple is loaded from a list or tuple of its field values in order, and
trailing fields that are omitted get their defaults. -/
theorem namedtuple_from_list (E : LEnv) (n c : Nat) (k : SeqKind) (xs : List Val) (r : Val)
    (kw : LoadKw) (hk : k = .list ∨ k = .tuple) (hc : (E.info c).kind = .ntuple)
    (hd : DefaultDesers E kw.fork) (hv : NoValidators E kw.fork) (he : ∀ x ∈ xs, NoMeta x)
    (hdef : ∀ p ∈ (E.info c).fieldDefaults, NoMeta p.2) :
    (load E (n + 1) (.seq k xs) (some (.cls (.user c))) kw).val = .ok r ↔
      ∃ ys, r = .ntuple c ys ∧
        FieldsFrom (fun h x => (load E n x h kw).val) (E.info c) xs (E.info c).fields ys := by
  have h1 : (Val.seq k xs).cls ∈ validTypes := by
    rcases hk with rfl | rfl <;> simp [Val.cls, SeqKind.cls, validTypes]
  have hm : NoMeta (.seq k xs) := by intro es h; cases h
  rw [ntuple_step hd hv hc h1 hm rfl rfl, wrapRes_ok]
  simp only [bind_ok, pure_val, Except.ok.injEq, ntupleLoop_ok, loopOk_list hk, List.drop_zero]
  have hassoc : ∀ (l : List (PyStr × Val)) name d, assoc l name = some d → ∃ p ∈ l, p.2 = d := by
    intro l name d h
    induction l with
    | nil => cases h
    | cons p l ih =>
      obtain ⟨m, b⟩ := p
      by_cases hmn : m = name
      · simp only [assoc, hmn, if_true, Option.some.injEq] at h
        exact ⟨_, List.mem_cons_self, h⟩
      · simp only [assoc, hmn, if_false] at h
        obtain ⟨p, hp, hp'⟩ := ih h
        exact ⟨p, List.mem_cons_of_mem _ hp, hp'⟩
  have hcongr : ∀ (xs : List Val) (names : List PyStr) (ys : List Val), (∀ x ∈ xs, NoMeta x) →
      (FieldsFrom (fun h x => (load E n x h (kwOf kw none)).val) (E.info c) xs names ys ↔
        FieldsFrom (fun h x => (load E n x h kw).val) (E.info c) xs names ys) := by
    intro xs names ys he
    constructor
    · intro h
      induction h with
      | nil => exact .nil
      | given h1 h2 _ ih =>
        refine .given h1 ?_ (ih fun y hy => he y (List.mem_cons_of_mem _ hy))
        simp only [load_part (he _ List.mem_cons_self)] at h2
        exact h2
      | default h0 h1 h2 _ ih =>
        refine .default h0 h1 ?_ (ih he)
        obtain ⟨p, hp, hp'⟩ := hassoc _ _ _ h0
        have := hdef p hp
        rw [hp'] at this
        simp only [load_part this] at h2
        exact h2
      | omitted h0 h1 h2 _ ih =>
        refine .omitted h0 h1 ?_ (ih he)
        simp only [load_part (v := .none) (noMeta_of_not_dict (by decide))] at h2
        exact h2
    · intro h
      induction h with
      | nil => exact .nil
      | given h1 h2 _ ih =>
        refine .given h1 ?_ (ih fun y hy => he y (List.mem_cons_of_mem _ hy))
        simp only [load_part (he _ List.mem_cons_self)]
        exact h2
      | default h0 h1 h2 _ ih =>
        refine .default h0 h1 ?_ (ih he)
        obtain ⟨p, hp, hp'⟩ := hassoc _ _ _ h0
        have := hdef p hp
        rw [hp'] at this
        simp only [load_part this]
        exact h2
      | omitted h0 h1 h2 _ ih =>
        refine .omitted h0 h1 ?_ (ih he)
        simp only [load_part (v := .none) (noMeta_of_not_dict (by decide))]
        exact h2
  simp only [hcongr _ _ _ he]
  constructor
  · rintro ⟨ys, h, rfl⟩; exact ⟨ys, rfl, h⟩
  · rintro ⟨ys, rfl, h⟩; exact ⟨ys, h, rfl⟩

/-- A dict of Python: the keys are different and can be hashed. -/
structure DictOk (info : Nat → ClassInfo) (es : List (Val × Val)) : Prop where
  distinct : es.Pairwise fun a b => pyEq a.1 b.1 = false
  hashable : ∀ e ∈ es, e.1.hashable info = true

theorem transformKeys_id {info : Nat → ClassInfo} : ∀ (es acc : List (Val × Val)), DictOk info es →
    (∀ a ∈ acc, ∀ b ∈ es, pyEq a.1 b.1 = false) →
    transformKeys info .ok acc es = .ok (acc ++ es) := by
  intro es
  induction es with
  | nil => intro acc _ _; simp [transformKeys]
  | cons e es ih =>
    obtain ⟨k, v⟩ := e
    intro acc h1 h2
    have hk : k.hashable info = true := h1.hashable _ List.mem_cons_self
    show (do let k' ← (Except.ok k : Except Err Val); if k'.hashable info = true then
      transformKeys info .ok (dictSet acc k' v) es else _) = _
    show (if k.hashable info = true then transformKeys info .ok (dictSet acc k v) es else _) = _
    rw [if_pos hk, dictSet_new (fun a ha => h2 a ha _ List.mem_cons_self), ih]
    · simp
    · exact ⟨(List.pairwise_cons.1 h1.distinct).2, fun e he => h1.hashable e (List.mem_cons_of_mem _ he)⟩
    · intro a ha b hb
      rcases List.mem_append.1 ha with ha | ha
      · exact h2 a ha b (List.mem_cons_of_mem _ hb)
      · rw [List.mem_singleton] at ha
        subst ha
        exact (List.pairwise_cons.1 h1.distinct).1 b hb

/-- C44: a dict with the values for the first fields, in any order, is loaded like the
list of these values. -/
theorem namedtuple_dict_like_list (E : LEnv) (n c : Nat) (es : List (Val × Val)) (xs : List Val)
    (r : Val) (kw : LoadKw) (hc : (E.info c).kind = .ntuple)
    (hd : DefaultDesers E kw.fork) (hv : NoValidators E kw.fork) (hes : DictOk E.info es)
    (hmeta : dictGet es (.str metaKey) = none) (hkt : kw.keyTransformer = none)
    (hlen : es.length = xs.length)
    (hget : ∀ i name, (E.info c).fields[i]? = some name → i < xs.length →
      dictGet es (.str name) = xs[i]?) :
    (load E (n + 1) (.dict es) (some (.cls (.user c))) kw).val = .ok r ↔
      (load E (n + 1) (.list xs) (some (.cls (.user c))) kw).val = .ok r := by
  have hm : NoMeta (.dict es) := by intro es' h; cases h; exact hmeta
  have ht : (transformKeys E.info (kw.keyTransformer.getD .ok) [] es).map some
      = (.ok (some es) : Except Err _) := by
    rw [hkt]
    show (transformKeys E.info .ok [] es).map some = _
    rw [transformKeys_id es [] hes (by simp)]
    rfl
  rw [ntuple_step (v := .dict es) (xs := es.map (·.1)) hd hv hc
      (by simp [Val.cls, validTypes]) hm rfl ht,
    ntuple_step (v := .list xs) (xs := xs) hd hv hc (by simp [Val.cls, SeqKind.cls, validTypes])
      (by intro es h; cases h) rfl rfl, wrapRes_ok, wrapRes_ok]
  simp only [bind_ok, pure_val, Except.ok.injEq, ntupleLoop_ok]
  have hg : ∀ j name, (E.info c).fields[j]? = some name →
      ntupleField (E.info c) (.dict es) (some es) (es.map (·.1)).length (0 + j) name =
      ntupleField (E.info c) (.list xs) none xs.length (0 + j) name := by
    intro j name hj
    simp only [ntupleField, List.length_map, hlen, Nat.zero_add]
    split
    · next hlt =>
      have h := hget j name hj hlt
      have hx : xs[j]? = some xs[j] := List.getElem?_eq_getElem hlt
      simp only [subscript, h, hx, index]
    · rfl
  constructor
  · rintro ⟨ys, h, rfl⟩
    exact ⟨ys, loopOk_congr _ _ _ hg h, rfl⟩
  · rintro ⟨ys, h, rfl⟩
    exact ⟨ys, loopOk_congr _ _ _ (fun j name hj => (hg j name hj).symm) h, rfl⟩

theorem ntupleLoop_unfulfilled {E : LEnv} {rec : LRec} {c : Nat} {v : Val}
    {tfm : Option (List (Val × Val))} {len : Nat} {kw : LoadKw} {name : PyStr} {post : List PyStr}
    (h1 : assoc (E.info c).fieldDefaults name = none) (h2 : ¬ Optional' (E.info c) name) :
    ∀ (pre : List PyStr) (i : Nat) (ys : List Val), len ≤ i + pre.length →
      (ntupleLoop E rec c v tfm len kw i pre).val = .ok ys →
      (ntupleLoop E rec c v tfm len kw i (pre ++ name :: post)).val = .error
        { kind := .unfulfilledArgument, source := some v, target := some (.cls (.user c)),
          argument := some name } := by
  intro pre
  induction pre with
  | nil =>
    intro i ys hlen _
    have : ¬ i < len := by simpa using hlen
    rw [optional_iff] at h2
    rw [List.nil_append, ntupleLoop_cons]
    simp only [ntupleField, this, if_false, h1, Option.getD_none,
      liftK_of_ok, pure_bind']
    rw [if_pos ⟨trivial, h2⟩]
    rfl
  | cons p pre ih =>
    intro i ys hlen h
    rw [ntupleLoop_cons] at h
    simp only [bind_ok, liftK_ok] at h
    obtain ⟨w, hw, h⟩ := h
    rw [List.cons_append, ntupleLoop_cons, hw, liftK_of_ok, pure_bind']
    split at h
    · cases h
    · next hn =>
      rw [if_neg hn]
      simp only [bind_ok, pure_val, Except.ok.injEq] at h
      obtain ⟨y, hy, ys', hys, rfl⟩ := h
      rw [bind_val, hy]
      show (_ >>= _ : Res _).val = _
      rw [bind_val, ih (i + 1) ys' (by simp only [List.length_cons] at hlen; omega) hys]

/-- C44: if the values end before the field `name`, which has no default and does not
allow `None`, and the fields before it can be loaded, then there is an
`UnfulfilledArgumentError` that names it. -/
theorem namedtuple_unfulfilled (E : LEnv) (n c : Nat) (k : SeqKind) (xs ys : List Val)
    (pre post : List PyStr) (name : PyStr) (kw : LoadKw) (hk : k = .list ∨ k = .tuple)
    (hc : (E.info c).kind = .ntuple) (hd : DefaultDesers E kw.fork) (hv : NoValidators E kw.fork)
    (hf : (E.info c).fields = pre ++ name :: post) (hlen : xs.length ≤ pre.length)
    (h1 : assoc (E.info c).fieldDefaults name = none) (h2 : ¬ Optional' (E.info c) name)
    (hpre : FieldsFrom (fun h x => (load E n x h (kwOf kw none)).val) (E.info c) xs pre ys) :
    (load E (n + 1) (.seq k xs) (some (.cls (.user c))) kw).val = .error
      { kind := .unfulfilledArgument, source := some (.seq k xs), target := some (.cls (.user c)),
        argument := some name } := by
  have hvt : (Val.seq k xs).cls ∈ validTypes := by
    rcases hk with rfl | rfl <;> simp [Val.cls, SeqKind.cls, validTypes]
  rw [ntuple_step hd hv hc hvt (by intro es h; cases h) rfl rfl, hf, bind_val,
    ntupleLoop_unfulfilled h1 h2 pre 0 ys (by omega)]
  · rfl
  · rw [ntupleLoop_ok, loopOk_list hk, List.drop_zero]
    exact hpre

/-- A named tuple with the fields `first: int`, `second: str = 'b'` and
`third: Optional[int]`. -/
def triInfo : Nat → ClassInfo := fun _ =>
  { attrs := mainAttrs "Tri", kind := .ntuple
    fields := ["first".toList, "second".toList, "third".toList]
    hints := [("first".toList, .cls .int), ("second".toList, .cls .str),
      ("third".toList, .union [.cls .int, .cls .noneType])]
    fieldDefaults := [("second".toList, .str "b".toList)] }

example : (load (demoLEnv triInfo) 4 (.list [.str "1".toList]) (some (.cls (.user 0))) {}).val
      = .ok (.ntuple 0 [.int 1, .str "b".toList, .none]) ∧
    (load (demoLEnv triInfo) 4 (.dict [(.str "second".toList, .str "x".toList), (.str "first".toList, .int 1)])
      (some (.cls (.user 0))) {}).val = .ok (.ntuple 0 [.int 1, .str "x".toList, .none]) ∧
    (load (demoLEnv triInfo) 4 (.list []) (some (.cls (.user 0))) {}).val
      = .error { kind := .unfulfilledArgument, source := some (.list []), target := some (.cls (.user 0)),
                 argument := some "first".toList } := by
  refine ⟨by rfl, by rfl, by rfl⟩

/-- C44 fails for a dict without the first field: there is a `DeserializationError`
that is not an `UnfulfilledArgumentError`; and a default in the middle is not used. -/
theorem namedtuple_dict_fails : ∃ (E : LEnv) (c : Nat), (E.info c).kind = .ntuple ∧
    (∃ d, assoc (E.info c).fieldDefaults "second".toList = some d) ∧
    (∃ e, (load E 4 (.dict [(.str "second".toList, .str "x".toList)]) (some (.cls (.user c))) {}).val
      = .error e ∧ e.kind = .deserializationError) ∧
    (∃ e, (load E 4 (.dict [(.str "first".toList, .int 1), (.str "third".toList, .int 1)])
      (some (.cls (.user c))) {}).val = .error e ∧ e.kind = .deserializationError) ∧
    ∃ r, (load E 4 (.list [.int 1, .str "b".toList, .int 1]) (some (.cls (.user c))) {}).val = .ok r := by
  refine ⟨demoLEnv triInfo, 0, rfl, ⟨_, by rfl⟩, ⟨_, by rfl, rfl⟩, ⟨_, by rfl, rfl⟩, ⟨_, by rfl⟩⟩

/-! ## C45: dicts -/

/-- The entries in the order in which their keys came first; of equal keys the last
value wins. -/
def entries (ps : List (Val × Val)) : List (Val × Val) :=
  ps.foldl (fun es p => dictSet es p.1 p.2) []

theorem dictComp_ok {info : Nat → ClassInfo} {kf vf : Val → Res Val} :
    ∀ (es acc r : List (Val × Val)), (dictComp info kf vf acc es).val = .ok r ↔
      ∃ ps : List (Val × Val), List.Forall₂ (fun e p => (kf e.1).val = .ok p.1 ∧ (vf e.2).val = .ok p.2 ∧
          p.1.hashable info = true) es ps ∧
        r = ps.foldl (fun es p => dictSet es p.1 p.2) acc := by
  intro es
  induction es with
  | nil =>
    intro acc r
    simp only [dictComp, pure_val, Except.ok.injEq]
    constructor
    · rintro rfl; exact ⟨[], .nil, rfl⟩
    · rintro ⟨ps, h, rfl⟩; cases h; rfl
  | cons e es ih =>
    obtain ⟨k, v⟩ := e
    intro acc r
    simp only [dictComp, bind_ok]
    constructor
    · rintro ⟨k', hk, v', hv, h⟩
      split at h
      · next hh =>
        obtain ⟨ps, h1, rfl⟩ := (ih _ _).1 h
        exact ⟨(k', v') :: ps, .cons ⟨hk, hv, hh⟩ h1, rfl⟩
      · cases h
    · rintro ⟨ps, h, rfl⟩
      cases h with
      | @cons _ p _ ps h1 h2 =>
        obtain ⟨hk, hv, hh⟩ := h1
        refine ⟨p.1, hk, p.2, hv, ?_⟩
        rw [if_pos hh]
        exact (ih _ _).2 ⟨ps, h2, rfl⟩

theorem entries_distinct {ps : List (Val × Val)} (h : ps.Pairwise fun a b => pyEq a.1 b.1 = false) :
    entries ps = ps := by
  have key : ∀ (ps acc : List (Val × Val)), ps.Pairwise (fun a b => pyEq a.1 b.1 = false) →
      (∀ a ∈ acc, ∀ b ∈ ps, pyEq a.1 b.1 = false) →
      ps.foldl (fun es p => dictSet es p.1 p.2) acc = acc ++ ps := by
    intro ps
    induction ps with
    | nil => intro acc _ _; simp
    | cons p ps ih =>
      intro acc h1 h2
      rw [List.foldl_cons, dictSet_new (fun a ha => h2 a ha _ List.mem_cons_self), ih]
      · simp
      · exact (List.pairwise_cons.1 h1).2
      · intro a ha b hb
        rcases List.mem_append.1 ha with ha | ha
        · exact h2 a ha b (List.mem_cons_of_mem _ hb)
        · rw [List.mem_singleton] at ha
          subst ha
          exact (List.pairwise_cons.1 h1).1 b hb
  have := key ps [] h (by simp)
  rwa [List.nil_append] at this

/-- C45, for dicts without the keys '-keys' and '-meta': a dict is loaded as
`Dict[K, V]` or `Mapping[K, V]` by loading every key (after the key transformer) as `K`
and every value as `V`; the entries keep their order, and of equal keys the last one
wins; if the keys are different, these are exactly the entries.  (The keys are loaded
without the key transformer; without a key transformer the values are loaded with the
identity as key transformer.) -/
theorem dict_load_partial (E : LEnv) (n : Nat) (g : Gen) (es : List (Val × Val)) (r : Val) (K V : Ty)
    (kw : LoadKw) (hg : g = .dict ∨ g = .mapping)
    (hd : DefaultDesers E kw.fork) (hv : NoValidators E kw.fork)
    (hmeta : dictGet es (.str metaKey) = none) (hkeys : dictGet es (.str keysKey) = none)
    (he : ∀ e ∈ es, NoMeta e.2)
    (hk : ∀ e ∈ es, ∀ k, kw.keyTransformer.getD .ok e.1 = .ok k → NoMeta k) :
    (load E (n + 1) (.dict es) (some (.gen g [K, V])) kw).val = .ok r ↔
      ∃ ps : List (Val × Val), List.Forall₂ (fun e p =>
          (∃ k, kw.keyTransformer.getD .ok e.1 = .ok k ∧
            (load E n k (some K) { kw with keyTransformer := none }).val = .ok p.1) ∧
          (load E n e.2 (some V) { kw with keyTransformer := some (kw.keyTransformer.getD .ok) }).val
            = .ok p.2 ∧
          p.1.hashable E.info = true) es ps ∧
        r = .dict (entries ps) ∧
        (ps.Pairwise (fun a b => pyEq a.1 b.1 = false) → r = .dict ps) := by
  have hm : NoMeta (.dict es) := by intro es' h; cases h; exact hmeta
  have hf : (Ty.gen g [K, V]).desFn E.info = some .mapping := by rcases hg with rfl | rfl <;> rfl
  rw [(load_via (n := n) (v := .dict es) (t := .gen g [K, V]) (kw := kw) (fun h => by cases h)
    gen_not_skip (by simp [Val.cls, validTypes]) (noMeta_get hm _) (.inr rfl) hd hf (hv _)).1, wrapRes_ok]
  have hc : callDes E (load E n) .mapping (.dict es) (.gen g [K, V]) (kwOf kw none) =
      (do let es ← dictComp E.info
            (fun x => do
              let y ← Res.lift (kw.keyTransformer.getD .ok x)
              load E n y (some K) (kwOf { kw with keyTransformer := none } none))
            (fun x => load E n x (some V)
              (kwOf { kw with keyTransformer := some (kw.keyTransformer.getD .ok) } none)) [] es
          pure (Val.dict es)) := by
    simp only [callDes, mappingDes, dictDes, loadHashedKeys, hkeys, Ty.getArgs, pure_bind']
    first | done | rfl
  refine Iff.trans (b := ((do
      let es ← dictComp E.info
            (fun x => do
              let y ← Res.lift (kw.keyTransformer.getD .ok x)
              load E n y (some K) (kwOf { kw with keyTransformer := none } none))
            (fun x => load E n x (some V)
              (kwOf { kw with keyTransformer := some (kw.keyTransformer.getD .ok) } none)) [] es
      pure (Val.dict es)) : Res Val).val = .ok r) (by rw [← hc]) ?_
  rw [bind_ok]
  simp only [pure_val, Except.ok.injEq, dictComp_ok]
  have hcongr : ∀ ps : List (Val × Val), List.Forall₂ (fun e p =>
        (((do
              let y ← Res.lift (kw.keyTransformer.getD .ok e.1)
              load E n y (some K) (kwOf { kw with keyTransformer := none } none)) : Res Val).val = .ok p.1 ∧
          (load E n e.2 (some V)
              (kwOf { kw with keyTransformer := some (kw.keyTransformer.getD .ok) } none)).val = .ok p.2 ∧
          p.1.hashable E.info = true)) es ps ↔
      List.Forall₂ (fun e p =>
          (∃ k, kw.keyTransformer.getD .ok e.1 = .ok k ∧
            (load E n k (some K) { kw with keyTransformer := none }).val = .ok p.1) ∧
          (load E n e.2 (some V) { kw with keyTransformer := some (kw.keyTransformer.getD .ok) }).val
            = .ok p.2 ∧
          p.1.hashable E.info = true) es ps := by
    intro ps
    clear hmeta hkeys hm hc
    induction es generalizing ps with
    | nil => constructor <;> (intro h; cases h; exact .nil)
    | cons e es ih =>
      have ih := ih (fun e' h' => he e' (List.mem_cons_of_mem _ h'))
        (fun e' h' => hk e' (List.mem_cons_of_mem _ h'))
      have hpt : ∀ p : Val × Val, (((do
              let y ← Res.lift (kw.keyTransformer.getD .ok e.1)
              load E n y (some K) (kwOf { kw with keyTransformer := none } none)) : Res Val).val = .ok p.1) ↔
          ∃ k, kw.keyTransformer.getD .ok e.1 = .ok k ∧
            (load E n k (some K) { kw with keyTransformer := none }).val = .ok p.1 := by
        intro p
        rw [bind_ok]
        constructor
        · rintro ⟨k, h1, h2⟩
          rw [lift_val] at h1
          rw [load_part (hk e List.mem_cons_self k h1)] at h2
          exact ⟨k, h1, h2⟩
        · rintro ⟨k, h1, h2⟩
          refine ⟨k, by rw [lift_val]; exact h1, ?_⟩
          rw [load_part (hk e List.mem_cons_self k h1)]
          exact h2
      constructor
      · intro h
        cases h with
        | cons h1 h2 =>
          rw [hpt, load_part (he e List.mem_cons_self)] at h1
          exact .cons h1 ((ih _).1 h2)
      · intro h
        cases h with
        | cons h1 h2 =>
          rw [← hpt, ← load_part (he e List.mem_cons_self)] at h1
          exact .cons h1 ((ih _).2 h2)
  constructor
  · rintro ⟨_, ⟨ps, h1, rfl⟩, rfl⟩
    exact ⟨ps, (hcongr ps).1 h1, rfl, fun h => congrArg Val.dict (entries_distinct h)⟩
  · rintro ⟨ps, h1, rfl, _⟩
    exact ⟨_, ⟨ps, (hcongr ps).2 h1, rfl⟩, rfl⟩

/-- `{'1': '2', 3: True}` as `Dict[int, int]`. -/
example : (load (demoLEnv demoInfo) 3 (.dict [(.str "1".toList, .str "2".toList), (.int 3, .bool true)])
    (some (.gen .dict [.cls .int, .cls .int])) {}).val
      = .ok (.dict [(.int 1, .int 2), (.int 3, .bool true)]) := by rfl

/-- C45 fails for a dict with the key '-keys': the entry is treated in a special way. -/
theorem dict_load_fails : ∃ (E : LEnv) (es : List (Val × Val)),
    (∀ e ∈ es, (load E 3 e.1 (some (.cls .str)) {}).val = .ok e.1) ∧
    (∀ e ∈ es, (load E 3 e.2 (some (.cls .str)) {}).val = .ok e.2) ∧
    ∃ e, (load E 4 (.dict es) (some (.gen .dict [.cls .str, .cls .str])) {}).val = .error e := by
  refine ⟨demoLEnv demoInfo, [(.str "-keys".toList, .str "ab".toList)], ?_, ?_, ⟨_, by rfl⟩⟩
  · intro e he
    rw [List.mem_singleton] at he
    subst he
    rfl
  · intro e he
    rw [List.mem_singleton] at he
    subst he
    rfl

end Verif.Props.LoadCollections
