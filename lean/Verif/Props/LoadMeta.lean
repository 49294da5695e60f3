import Verif.Props.LoadTypes

/-!
# C34 and C61: exceptions of `load`, and which class is used
-/

set_option autoImplicit false

namespace Verif.Props.LoadMeta
open Verif Verif.Core Verif.Datetime Verif.Props.LoadBasics Verif.Props.LoadCollections
  Verif.Props.LoadObject Verif.Props.LoadTypes

/-! ## C34: exceptions -/

/-- C34: all exceptions of `load` are `JsonsError`s, whatever the deserializers,
validators, getters and constructors do, if the '-meta' of the input itself, if there is
one, is well-formed and names a known class (those of its parts may be anything).  What
is missing is shown to be wrong below. -/
theorem load_raises_jsonsError_partial (E : LEnv) (n : Nat) (v : Val) (cls : Option Ty) (kw : LoadKw)
    (e : Err) (hl : LookupsOk E kw.fork) (hm : MetaOk E kw.fork v)
    (hn : v = .none → ∀ t, cls = some t → ¬ OddName E t)
    (h : (load E (n + 1) v cls kw).val = .error e) : e.kind.isJsonsError = true := by
  refine load_err_kind hl hm ?_ h
  intro hv
  cases cls with
  | none => exact ⟨true, rfl⟩
  | some t =>
    by_cases ha : AllowsNone t
    · exact ⟨true, canMatch_true E t ha⟩
    · exact ⟨false, canMatch_false E t ha (hn hv t rfl)⟩

/-- `'x'` as an `int` -/
example : ∃ e, (load (demoLEnv demoInfo) 3 (.str "x".toList) (some (.cls .int)) {}).val = .error e ∧
    e.kind.isJsonsError = true := by
  refine ⟨_, rfl, load_raises_jsonsError_partial (demoLEnv demoInfo) 2 (.str "x".toList)
    (some (.cls .int)) {} _ (lookupsOk_of_default (demo_desers 0) (demo_novals 0))
    (noMeta_metaOk (noMeta_of_not_dict (by intro h; cases h))) (by intro h; cases h) rfl⟩

/-- C34 fails for a '-meta' without 'classes', as dumping with
`verbose=Verbosity.WITH_DUMP_TIME` makes it: a `KeyError`. -/
theorem load_raises_keyError (E : LEnv) (n : Nat) (cls : Option Ty) (kw : LoadKw) (es ms : List (Val × Val))
    (h1 : dictGet es (.str metaKey) = some (.dict ms)) (h2 : dictGet ms (.str "classes".toList) = none)
    (hs : ¬ Skips (.dict es) cls kw) :
    (load E (n + 1) (.dict es) cls kw).val = .error { kind := .keyError } := by
  rw [load_from (by intro h; cases h) hs]
  unfold loadFrom
  rw [if_neg (by simp [Val.cls, validTypes])]
  have : getClsAndMeta E (.dict es) kw.fork = .error .keyError := by
    simp only [getClsAndMeta, h1, subscript, h2]
    rfl
  rw [this]
  rfl

/-- The `Point` of `{'x': 1, '-meta': {'dump_time': ...}}` -/
example : (load (demoLEnv demoInfo) 3 (.dict [(.str "x".toList, .int 1),
      (.str metaKey, .dict [(.str "dump_time".toList, .str "now".toList)])])
    (some (.cls (.user 0))) {}).val = .error { kind := .keyError } :=
  load_raises_keyError (demoLEnv demoInfo) 2 _ _ _ _ rfl rfl (by rintro (⟨_, h⟩ | h) <;> cases h)

/-- C34 fails for a '-meta' that is not a dict: a `TypeError`. -/
theorem load_raises_typeError (E : LEnv) (n : Nat) (cls : Option Ty) (kw : LoadKw) (es : List (Val × Val))
    (m : Val) (h1 : dictGet es (.str metaKey) = some m) (h2 : ∀ ms, m ≠ .dict ms)
    (hs : ¬ Skips (.dict es) cls kw) :
    (load E (n + 1) (.dict es) cls kw).val = .error { kind := .typeError } := by
  rw [load_from (by intro h; cases h) hs]
  unfold loadFrom
  rw [if_neg (by simp [Val.cls, validTypes])]
  have : getClsAndMeta E (.dict es) kw.fork = .error .typeError := by
    have hm : subscript m "classes".toList = .error .typeError := by
      unfold subscript
      split
      · exact absurd rfl (h2 _)
      · rfl
    simp only [getClsAndMeta, h1, hm]
    rfl
  rw [this]
  rfl

example : (load (demoLEnv demoInfo) 3 (.dict [(.str metaKey, .int 1)]) none {}).val
    = .error { kind := .typeError } :=
  load_raises_typeError (demoLEnv demoInfo) 2 _ _ _ _ rfl (by intro ms h; cases h)
    (by rintro (⟨_, h⟩ | h) <;> cases h)

/-! ## C61: which class is used -/

/-- The '-meta' section of the value names the class `t`. -/
def MetaNames (E : LEnv) (fork : Nat) (v : Val) (t : Ty) : Prop :=
  ∃ es ms cs name, v = .dict es ∧ dictGet es (.str metaKey) = some (.dict ms) ∧
    dictGet ms (.str "classes".toList) = some (.dict cs) ∧
    dictGet cs (.str "/".toList) = some (.str name) ∧ E.clsFromStr fork name = .ok t

/-- The user has registered a deserializer for `t` that returns `r`. -/
def Returns (E : LEnv) (fork : Nat) (t : Ty) (r : Val) : Prop :=
  ∃ i, E.getDes fork t = .ok (some (.custom i)) ∧ E.getVal fork t = .ok none ∧
    ∀ rec v kw, E.customDes i rec v t kw = pure r

theorem metaNames_get {E : LEnv} {fork : Nat} {v : Val} {t : Ty} (h : MetaNames E fork v t) :
    ∃ cs, getClsAndMeta E v fork = .ok (some (t, cs)) := by
  obtain ⟨es, ms, cs, name, rfl, h1, h2, h3, h4⟩ := h
  refine ⟨cs, ?_⟩
  simp only [getClsAndMeta, h1, subscript, h2]
  show (do let name ← (match dictGet cs (.str "/".toList) with
        | some w => .ok w
        | none => .error .keyError : Except ErrKind Val)
           match name, Val.dict cs with
           | .str s, .dict hints => do
             let t ← E.clsFromStr fork s
             return some (t, hints)
           | _, _ => .error .typeError) = _
  rw [h3]
  show (do let t ← E.clsFromStr fork name; return some (t, cs)) = _
  rw [h4]
  rfl

theorem returns_doLoad {E : LEnv} {rec : LRec} {t : Ty} {r v : Val} {kw : LoadKw}
    (h : Returns E kw.fork t r) :
    (do let fn ← Res.liftK (E.getDes kw.fork t)
        doLoad E rec fn v t kw : Res Val).val = .ok r := by
  obtain ⟨i, h1, h2, h3⟩ := h
  rw [h1, liftK_of_ok, pure_bind', doLoad_ok]
  refine ⟨?_, by rw [validate_none h2]; rfl⟩
  show (E.customDes i rec v t kw).val = _
  rw [h3]
  rfl

theorem loadFrom_returns {E : LEnv} {rec : LRec} {t : Ty} {r v : Val} {cls : Option Ty} {kw : LoadKw}
    {m : Option (Ty × List (Val × Val))} (h1 : v.cls ∈ validTypes)
    (h2 : getClsAndMeta E v kw.fork = .ok m) (h3 : target v cls kw m = t) (h : Returns E kw.fork t r) :
    (loadFrom E rec v cls kw).val = .ok r := by
  unfold loadFrom
  rw [if_neg (by simpa using h1), h2, liftS_of_ok, pure_bind']
  show (do let fn ← Res.liftK (E.getDes kw.fork (target v cls kw m))
           doLoad E rec fn v (target v cls kw m) (calleeKw v cls kw m) : Res Val).val = _
  rw [h3]
  exact returns_doLoad (kw := calleeKw v cls kw m) h

/-- C61: the class that is given is used, also if the '-meta' of the input names
another one. -/
theorem explicit_class_used (E : LEnv) (n : Nat) (v r : Val) (t : Ty) (kw : LoadKw)
    (hv : v.cls ∈ validTypes) (hn : v ≠ .none) (hm : MetaOk E kw.fork v) (hi : kw.inferred = false)
    (hr : Returns E kw.fork t r) (hs : ¬ Skips v (some t) kw) :
    (load E (n + 1) v (some t) kw).val = .ok r := by
  obtain ⟨m, hm⟩ := metaOk_get hm
  rw [load_from (fun h => absurd h hn) hs]
  exact loadFrom_returns hv hm (target_explicit (.inl hi)) hr

/-- C61: without a class, that of the '-meta' is used. -/
theorem meta_class_used (E : LEnv) (n : Nat) (v r : Val) (t : Ty) (kw : LoadKw)
    (hm : MetaNames E kw.fork v t) (hr : Returns E kw.fork t r) :
    (load E (n + 1) v none kw).val = .ok r := by
  obtain ⟨cs, hg⟩ := metaNames_get hm
  obtain ⟨es, ms, cs', name, rfl, _⟩ := hm
  rw [load_from (by intro h; cases h) (by rintro (⟨_, h⟩ | h) <;> cases h)]
  refine loadFrom_returns (by simp [Val.cls, validTypes]) hg ?_ hr
  unfold target determinePrecedence
  cases kw.inferred <;> rfl

/-- C61: without a class and without '-meta', the type of the input is used. -/
theorem type_of_input_used (E : LEnv) (n : Nat) (v r : Val) (kw : LoadKw)
    (hv : v.cls ∈ validTypes) (hm : NoMeta v) (hr : Returns E kw.fork (.cls v.cls) r) :
    (load E (n + 1) v none kw).val = .ok r := by
  rw [load_from (fun _ => rfl) (by rintro (⟨_, h⟩ | h) <;> cases h)]
  exact loadFrom_returns hv (noMeta_get hm _) target_free hr

theorem listLoop_forall {E : LEnv} {rec : LRec} {cls : Option Ty} {warn : Bool} {kw : LoadKw}
    {xs ys : List Val} (h : List.Forall₂ (fun x y => (rec x cls kw).val = .ok y) xs ys) :
    ∀ i, (listLoop E rec cls warn kw i xs).val = .ok ys := by
  induction h with
  | nil => intro i; rfl
  | @cons x y xs ys h1 _ ih =>
    intro i
    simp only [listLoop, bind_ok, attempt_val, Except.ok.injEq, exists_eq_left', h1]
    exact ⟨ys, ih _, rfl⟩

/-- C61: the elements of a `List[t]`: the class of their '-meta' is used, else `t`.
The same is not true of the values of dicts and the elements of tuples, see
`meta_beats_inferred_fails`. -/
theorem meta_beats_inferred_partial (E : LEnv) (n : Nat) (xs ys : List Val) (t : Ty) (kw : LoadKw)
    (hd : E.getDes kw.fork (.gen .list [t]) = .ok (some .list))
    (hv : E.getVal kw.fork (.gen .list [t]) = .ok none)
    (h : List.Forall₂ (fun x y =>
      (∃ t', MetaNames E kw.fork x t' ∧ Returns E kw.fork t' y ∧ t ≠ .cls x.cls ∧ t ≠ .any) ∨
      (NoMeta x ∧ x.cls ∈ validTypes ∧ x ≠ .none ∧ Returns E kw.fork t y ∧ t ≠ .cls x.cls ∧ t ≠ .any))
      xs ys) :
    (load E (n + 2) (.list xs) (some (.gen .list [t])) kw).val = .ok (.list ys) := by
  have hm : NoMeta (.list xs) := noMeta_of_not_dict (by intro h; cases h)
  rw [(load_via_des (n := n + 1) (t := .gen .list [t]) (kw := kw) (f := .list) (by intro h; cases h)
    (by rintro (⟨_, h⟩ | h) <;> cases h) (by simp [Val.cls, SeqKind.cls, validTypes])
    (noMeta_get hm _) (.inr rfl) hd hv).1, wrapRes_ok]
  simp only [callDes, bind_ok, pure_val, Except.ok.injEq]
  refine ⟨ys, ?_, rfl⟩
  unfold listDes
  simp only [Val.iter]
  refine listLoop_forall ?_ 0
  refine h.imp ?_
  rintro x y (⟨t', h1, h2, h3, h4⟩ | ⟨h1, h2, h3, h4, h5, h6⟩)
  · obtain ⟨cs, hg⟩ := metaNames_get h1
    obtain ⟨es, ms, cs', name, rfl, _⟩ := h1
    show (load E (n + 1) _ (some t) _).val = _
    rw [load_from (by intro h; cases h) (by
      rintro (⟨_, h⟩ | h)
      · exact h3 (Option.some.inj h)
      · exact h4 (Option.some.inj h))]
    refine loadFrom_returns (by simp [Val.cls, validTypes]) hg ?_ h2
    simp [target, determinePrecedence, Ty.getArgs]
  · show (load E (n + 1) _ (some t) _).val = _
    rw [load_from (fun h => absurd h h3) (by
      rintro (⟨_, h⟩ | h)
      · exact h5 (Option.some.inj h)
      · exact h6 (Option.some.inj h))]
    exact loadFrom_returns h2 (noMeta_get h1 _) (target_explicit (.inr rfl)) h4

/-! ### An example -/

/-- The name `Point` with a deserializer that returns `'point'`, `Person` with one that
returns `'person'`. -/
def markEnv : LEnv :=
  { demoLEnv demoInfo with
    desers := fun _ => Registry.setLizer (tyWorld demoInfo) (.custom 1) [some (.cls (.user 5))] true
      (Registry.setLizer (tyWorld demoInfo) (.custom 0) [some (.cls (.user 0))] true
        (initialDesers demoInfo))
    customDes := fun i _ _ _ _ => pure (if i = 0 then .str "point".toList else .str "person".toList) }

theorem markEnv_point : Returns markEnv 0 (.cls (.user 0)) (.str "point".toList) :=
  ⟨0, rfl, rfl, fun _ _ _ => rfl⟩

theorem markEnv_person : Returns markEnv 0 (.cls (.user 5)) (.str "person".toList) :=
  ⟨1, rfl, rfl, fun _ _ _ => rfl⟩

theorem confusing_names : MetaNames markEnv 0 confusing (.cls (.user 5)) :=
  ⟨_, _, _, "__main__.Person".toList, rfl, rfl, rfl, rfl, rfl⟩

theorem metaNames_ok {E : LEnv} {fork : Nat} {v : Val} {t : Ty} (h : MetaNames E fork v t) :
    MetaOk E fork v := by
  obtain ⟨es, ms, cs, name, rfl, h1, h2, h3, h4⟩ := h
  intro es' m he hm
  cases he
  rw [h1] at hm
  cases hm
  exact ⟨ms, cs, name, t, rfl, h2, h3, h4⟩

example : (load markEnv 3 confusing (some (.cls (.user 0))) {}).val = .ok (.str "point".toList) :=
  explicit_class_used markEnv 2 confusing _ _ {} (by decide) (by intro h; cases h)
    (metaNames_ok confusing_names) rfl markEnv_point (by rintro (⟨_, h⟩ | h) <;> cases h)

example : (load markEnv 3 confusing none {}).val = .ok (.str "person".toList) :=
  meta_class_used markEnv 2 confusing _ _ {} confusing_names markEnv_person

example : (load markEnv 3 (.list [confusing, .dict []]) (some (.gen .list [.cls (.user 0)])) {}).val
    = .ok (.list [.str "person".toList, .str "point".toList]) :=
  meta_beats_inferred_partial markEnv 1 _ _ _ {} rfl rfl
    (.cons (.inl ⟨_, confusing_names, markEnv_person, (by intro h; cases h), (by intro h; cases h)⟩)
      (.cons (.inr ⟨(by intro es h; cases h; rfl), (by decide), (by intro h; cases h), markEnv_point,
        (by intro h; cases h), (by intro h; cases h)⟩) .nil))

/-- C61 fails for dicts and tuples: with `Dict[str, Point]` and `Tuple[Point]` the class
of the '-meta' is not used. -/
theorem meta_beats_inferred_fails :
    (load markEnv 4 (.dict [(.str "k".toList, confusing)]) (some (.gen .dict [.cls .str, .cls (.user 0)]))
      {}).val = .ok (.dict [(.str "k".toList, .str "point".toList)]) ∧
    (load markEnv 4 (.list [confusing]) (some (.gen .tuple [.cls (.user 0)])) {}).val
      = .ok (.tuple [.str "point".toList]) ∧
    MetaNames markEnv 0 confusing (.cls (.user 5)) ∧
    Returns markEnv 0 (.cls (.user 5)) (.str "person".toList) :=
  ⟨rfl, rfl, confusing_names, markEnv_person⟩

end Verif.Props.LoadMeta
