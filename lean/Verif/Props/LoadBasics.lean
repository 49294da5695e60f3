import Verif.Core.LoadLemmas
import Verif.Core.LoadDemo

/-!
# Properties of `load`: `None`, exact types, unions, validators, texts, enums

C36, C37, C38, C62, C63, C64.
-/

set_option autoImplicit false

namespace Verif.Props.LoadBasics
open Verif Verif.Core

/-! ## C36: `None` -/

/-- The types that `None` belongs to: `Any`, `object`, `NoneType`, and the unions with
`NoneType` as a member. -/
inductive AllowsNone : Ty → Prop
  | any : AllowsNone .any
  | object : AllowsNone (.cls .object)
  | noneType : AllowsNone (.cls .noneType)
  | union {ts : List Ty} : .cls .noneType ∈ ts → AllowsNone (.union ts)

/-- `Union` or `Optional` without members; or a class or `NewType` of the program in
the name of which "union" or "optional" occurs, in upper or lower case. -/
def OddName (E : LEnv) : Ty → Prop
  | .special _ => True
  | .cls (.user c) => "union".toList <:+: (E.className false (.cls (.user c))).lower ∨
      "optional".toList <:+: (E.className false (.cls (.user c))).lower
  | .newtype n t => "union".toList <:+: (E.className false (.newtype n t)).lower ∨
      "optional".toList <:+: (E.className false (.newtype n t)).lower
  | _ => False

theorem canMatch_false (E : LEnv) (t : Ty) (h : ¬ AllowsNone t) (hn : ¬ OddName E t) :
    canMatchWithNone E (some t) = .ok false := by
  cases t with
  | any => exact absurd .any h
  | special b => exact absurd trivial hn
  | cls c =>
    cases c with
    | user c =>
      simp only [OddName, not_or] at hn
      simp only [canMatchWithNone, PyStr.hasSub, decide_eq_false hn.1, decide_eq_false hn.2]
      rfl
    | object => exact absurd .object h
    | noneType => exact absurd .noneType h
    | _ => rfl
  | gen g a => cases g <;> rfl
  | newtype n t =>
    simp only [OddName, not_or] at hn
    simp only [canMatchWithNone, PyStr.hasSub, decide_eq_false hn.1, decide_eq_false hn.2]
    rfl
  | union ts =>
    have : .cls .noneType ∉ ts := fun hm => h (.union hm)
    have hs : PyStr.hasSub (E.className false (.union ts)).lower "union".toList = true ∨
        PyStr.hasSub (E.className false (.union ts)).lower "optional".toList = true := by
      unfold Env.className
      rcases attrs_union E.info ts with h | h <;> rw [h]
      · right; decide
      · left; decide
    simp only [canMatchWithNone, Ty.unionParams]
    rw [if_pos (by simpa using hs)]
    simp [this]

/-- C36, without the odd names: `None` is refused for every other type, in strict mode
or not, with a `DeserializationError` that carries the input and the type. -/
theorem none_refused_partial (E : LEnv) (n : Nat) (t : Ty) (kw : LoadKw) (h : ¬ AllowsNone t)
    (hn : ¬ OddName E t) :
    ∃ e, (load E (n + 1) .none (some t) kw).val = .error e ∧ e.kind = .deserializationError ∧
      e.source = some .none ∧ e.target = some t := by
  refine ⟨{ kind := .deserializationError, source := some .none, target := some t }, ?_, rfl, rfl, rfl⟩
  rw [load_succ]
  simp only [loadWith, checkForNone, if_true]
  rw [canMatch_false E t h hn]
  rfl

/-- Even `int` refuses `None`, and so does `Union[int, str]`. -/
example : ¬ AllowsNone (.cls .int) ∧ ¬ OddName (demoLEnv demoInfo) (.cls .int) ∧
    ¬ AllowsNone (.union [.cls .int, .cls .str]) ∧ ¬ AllowsNone (.cls (.user 0)) ∧
    ¬ OddName (demoLEnv demoInfo) (.cls (.user 0)) := by
  refine ⟨?_, ?_, ?_, ?_, ?_⟩
  · intro h; cases h
  · exact id
  · intro h; cases h with | union h => exact absurd h (by decide)
  · intro h; cases h
  · show ¬ (_ ∨ _); decide

/-- A class called `Reunion`. -/
def reunionInfo : Nat → ClassInfo := fun _ => { attrs := mainAttrs "Reunion" }

/-- C36 fails for a class called `Reunion`: `load(None, Reunion)` raises a `TypeError`. -/
theorem none_refused_fails : ∃ (E : LEnv) (t : Ty), ¬ AllowsNone t ∧ ∀ n kw, ∃ e,
    (load E (n + 1) .none (some t) kw).val = .error e ∧ e.kind = .typeError := by
  refine ⟨demoLEnv reunionInfo, .cls (.user 0), ?_, ?_⟩
  · intro h; cases h
  · intro n kw
    refine ⟨{ kind := .typeError }, ?_, rfl⟩
    rfl

theorem unionLoop_skip {rec : LRec} {v : Val} {t : Ty} {kw : LoadKw} {r : Val} {a : Ty} {post : List Ty} :
    ∀ (pre : List Ty), (∀ b ∈ pre, ∃ e, (rec v (some b) kw).val = .error e ∧ e.kind.isJsonsError = true) →
      (rec v (some a) kw).val = .ok r →
      (unionLoadLoop rec v t kw (pre ++ a :: post)).val = .ok r := by
  intro pre
  induction pre with
  | nil =>
    intro _ h
    simp only [List.nil_append, unionLoadLoop, bind_val, attempt_val, h, pure_val]
  | cons b pre ih =>
    intro h1 h2
    obtain ⟨e, he, hk⟩ := h1 b List.mem_cons_self
    simp only [List.cons_append, unionLoadLoop, bind_val, attempt_val, he, hk, if_true]
    exact ih (fun b' hb => h1 b' (List.mem_cons_of_mem _ hb)) h2

theorem canMatch_true (E : LEnv) (t : Ty) (h : AllowsNone t) :
    canMatchWithNone E (some t) = .ok true := by
  cases h with
  | any => rfl
  | object => rfl
  | noneType => rfl
  | @union ts h =>
    have hs : PyStr.hasSub (E.className false (.union ts)).lower "union".toList = true ∨
        PyStr.hasSub (E.className false (.union ts)).lower "optional".toList = true := by
      unfold Env.className
      rcases attrs_union E.info ts with h | h <;> rw [h]
      · right; decide
      · left; decide
    simp only [canMatchWithNone, Ty.unionParams]
    rw [if_pos (by simpa using hs)]
    simp [h]

theorem load_none_noneType (E : LEnv) (n : Nat) (kw : LoadKw) (hd : DefaultDesers E kw.fork)
    (hv : E.getVal kw.fork (.cls .noneType) = .ok none) :
    (load E (n + 1) .none (some (.cls .noneType)) kw).val = .ok .none := by
  by_cases hs : Skips .none (some (.cls .noneType)) kw
  · rw [load_skip (fun _ => rfl) hs]
    show (do validate E .none (.cls .noneType) kw.fork; pure _ : Res Val).val = _
    rw [validate_none hv]
    rfl
  · exact (load_via (fun _ => rfl) hs (by decide) rfl (.inr rfl) hd rfl hv).1

/-- C36, the other direction: `None` is loaded as `None` without a type, as `Any`, as
`NoneType`, and as a union with `NoneType` if the members before it do not accept
`None` themselves. -/
theorem none_accepted (E : LEnv) (n : Nat) (kw : LoadKw) (hd : DefaultDesers E kw.fork)
    (hv : NoValidators E kw.fork) :
    (load E (n + 1) .none none kw).val = .ok .none ∧
    (load E (n + 1) .none (some .any) kw).val = .ok .none ∧
    (load E (n + 1) .none (some (.cls .noneType)) kw).val = .ok .none ∧
    ∀ pre post, (∀ t ∈ pre, ¬ AllowsNone t ∧ ¬ OddName E t) →
      (load E (n + 2) .none (some (.union (pre ++ .cls .noneType :: post))) kw).val = .ok .none := by
  refine ⟨?_, ?_, load_none_noneType E n kw hd (hv _), ?_⟩
  · exact (load_via_free (by decide) rfl hd rfl (hv _)).1
  · rw [load_skip (fun _ => rfl) (.inr rfl)]
    show (do validate E .none .any kw.fork; pure _ : Res Val).val = _
    rw [validate_none (hv _)]
    rfl
  · intro pre post hp
    rw [(load_via (fun _ => canMatch_true E _ (.union (by simp)))
      (by rintro (⟨_, h⟩ | h) <;> cases h) (by decide) rfl (.inr rfl) hd rfl (hv _)).1, wrapRes_ok]
    apply unionLoop_skip
    · intro b hb
      obtain ⟨e, h1, h2, _⟩ := none_refused_partial E n b (kwOf kw none) (hp b hb).1 (hp b hb).2
      exact ⟨e, h1, by rw [h2]; rfl⟩
    · exact load_none_noneType E n _ hd (hv _)

example : (load (demoLEnv demoInfo) 2 .none (some (.union [.cls .int, .cls .noneType])) { strict := true }).val
    = .ok .none := by rfl

/-! ## C37: exact types -/

/-- C37: without `strict`, a value of exactly the given class is returned as it is;
`Any` returns every value as it is, with `strict`, too.  (With a validator, see
`validator_guards`.) -/
theorem exact_type (E : LEnv) (n : Nat) (v : Val) (kw : LoadKw) :
    (kw.strict = false → E.getVal kw.fork (.cls v.cls) = .ok none →
      load E (n + 1) v (some (.cls v.cls)) kw = pure v) ∧
    (E.getVal kw.fork .any = .ok none → load E (n + 1) v (some .any) kw = pure v) := by
  constructor
  · intro h hv
    have h0 : NoneOk E v (some (.cls v.cls)) := by rintro rfl; rfl
    rw [load_skip h0 (.inl ⟨h, rfl⟩)]
    show (do validate E v (.cls v.cls) kw.fork; pure v) = _
    rw [validate_none hv]
    rfl
  · intro hv
    rw [load_skip (fun _ => rfl) (.inr rfl)]
    show (do validate E v .any kw.fork; pure v) = _
    rw [validate_none hv]
    rfl

/-- A dict with entries that would otherwise be loaded. -/
example : load (demoLEnv demoInfo) 1 (.dict [(.str "a".toList, .str "2020-01-01T00:00:00Z".toList)])
    (some (.cls .dict)) {} = pure (.dict [(.str "a".toList, .str "2020-01-01T00:00:00Z".toList)]) := by
  exact (exact_type _ _ (.dict _) {}).1 rfl (demo_novals 0 _)

/-! ## C62: validators -/

/-- C62: whatever the deserializers do, `load` with an explicit class returns only
values that the validator of that class accepts. -/
theorem validator_guards (E : LEnv) (n : Nat) (v r : Val) (t : Ty) (kw : LoadKw) (f : Nat)
    (hk : kw.inferred = false) (hf : E.getVal kw.fork t = .ok (some f))
    (h : (load E n v (some t) kw).val = .ok r) : E.validator f r = .ok true := by
  have key : ∀ w, (validate E w t kw.fork).val = .ok () → E.validator f w = .ok true := by
    intro w hw
    unfold validate at hw
    rw [hf, liftK_of_ok, pure_bind'] at hw
    simp only at hw
    split at hw
    · assumption
    · cases hw
    · cases hw
  cases n with
  | zero => cases h
  | succ n =>
    rw [load_succ] at h
    unfold loadWith at h
    simp only [bind_ok] at h
    obtain ⟨_, _, h⟩ := h
    split at h
    · simp only [bind_ok, pure_val, Except.ok.injEq, Option.getD_some] at h
      obtain ⟨_, h, rfl⟩ := h
      exact key v h
    · unfold loadFrom at h
      split at h
      · cases h
      · simp only [bind_ok, liftK_ok] at h
        obtain ⟨m, _, fn, _, h⟩ := h
        have ht : (determinePrecedence (some t) (m.map (·.1)) (some (.cls v.cls)) kw.inferred).getD
            (.cls v.cls) = t := by rw [hk]; rfl
        rw [ht] at h
        cases fn with
        | none => cases h
        | some g => exact key r (doLoad_ok.1 h).2

/-- C62: if the validator does not accept the value or raises, there is a
`ValidationError`; `v` is of the class already (first part), or it is what the
deserializer of the class returns (second part). -/
theorem validator_refuses (E : LEnv) (n : Nat) (v r : Val) (t : Ty) (kw : LoadKw) (f : Nat)
    (h0 : v ≠ .none) (hk : kw.inferred = false)
    (hf : E.getVal kw.fork t = .ok (some f)) (hr : E.validator f r ≠ .ok true)
    (h : (kw.strict = false ∧ t = .cls v.cls ∧ r = v) ∨
      ((kw.strict = true ∨ t ≠ .cls v.cls) ∧ t ≠ .any ∧ v.cls ∈ validTypes ∧ ∃ m g,
        getClsAndMeta E v kw.fork = .ok m ∧ E.getDes kw.fork t = .ok (some g) ∧
        (callDes E (load E n) g v t { kw with
          metaHints := some (kw.metaHints.getD ((m.map (·.2)).getD [])) }).val = .ok r)) :
    ∃ e, (load E (n + 1) v (some t) kw).val = .error e ∧ e.kind = .validationError := by
  have key : ∃ e, (validate E r t kw.fork).val = .error e ∧ e.kind = .validationError := by
    unfold validate
    rw [hf, liftK_of_ok, pure_bind']
    simp only
    split
    · contradiction
    · exact ⟨_, rfl, rfl⟩
    · exact ⟨_, rfl, rfl⟩
  obtain ⟨e, he, hek⟩ := key
  refine ⟨e, ?_, hek⟩
  rcases h with ⟨h1, rfl, rfl⟩ | ⟨h1, h2, h3, m, g, h4, h5, h6⟩
  · rw [load_skip (fun h => absurd h h0) (.inl ⟨h1, rfl⟩), bind_val, Option.getD_some, he]
  · rw [load_from (fun h => absurd h h0)]
    · unfold loadFrom
      rw [if_neg (by simpa using h3), h4, liftS_of_ok, pure_bind']
      have ht : (determinePrecedence (some t) (m.map (·.1)) (some (.cls v.cls)) kw.inferred).getD
          (.cls v.cls) = t := by rw [hk]; rfl
      simp only [ht, h5, liftK_of_ok, pure_bind']
      unfold doLoad
      have hkw : ({ kw with metaHints := some (kw.metaHints.getD ((m.map (·.2)).getD []))
                            inferred := decide (some t ≠ some t) } : LoadKw) =
          { kw with metaHints := some (kw.metaHints.getD ((m.map (·.2)).getD [])) } := by
        simp [hk]
      rw [hkw]
      simp only [bind_val, attempt_val, h6, he, hek]
      rfl
    · rintro (⟨h, h'⟩ | h)
      · cases h'
        rcases h1 with h1 | h1
        · rw [h] at h1; cases h1
        · exact h1 rfl
      · cases h; exact h2 rfl

/-- An environment with a validator for `int` that accepts positive numbers only. -/
def positiveEnv : LEnv := { demoLEnv demoInfo with
  vals := fun _ => Registry.setLizer (tyWorld demoInfo) 0 [some (.cls .int)] true Registry.Table.empty
  validator := fun _ v => match v with
    | .int n => if n = 0 then .error { kind := .zeroDivisionError, msg := "zero".toList } else .ok (0 < n)
    | _ => .ok true }

example : (load positiveEnv 2 (.str "5".toList) (some (.cls .int)) {}).val = .ok (.int 5) ∧
    (load positiveEnv 2 (.int (-5)) (some (.cls .int)) {}).val
      = .error { kind := .validationError, msg := "Validation failed.".toList } ∧
    (load positiveEnv 2 (.str "0".toList) (some (.cls .int)) {}).val
      = .error { kind := .validationError, msg := "zero".toList } := by
  refine ⟨by rfl, by rfl, by rfl⟩

/-! ## C63: texts -/

theorem str_valid (s : PyStr) : (Val.str s).cls ∈ validTypes := List.mem_cons_self

theorem load_datetime {E : LEnv} {n : Nat} {s : PyStr} {kw : LoadKw} (hd : DefaultDesers E kw.fork)
    (hv : NoValidators E kw.fork) :
    (load E (n + 1) (.str s) (some (.cls .datetime)) kw).val =
      wrapRes (.str s) (.cls .datetime) (datetimeDes (.str s)).val :=
  (load_via (t := .cls .datetime) (fun h => by cases h) (by simp [Skips, Val.cls, Atom.cls]) (str_valid s) rfl (.inr rfl) hd rfl
    (hv _)).1

/-- The exception, if there is one, is not one of jsons. -/
def Foreign {α : Type} (x : Except ErrKind α) : Prop := ∀ k, x = .error k → k.isJsonsError = false

theorem foreign_bind {α β : Type} {x : Except ErrKind α} {f : α → Except ErrKind β} (hx : Foreign x)
    (hf : ∀ a, Foreign (f a)) : Foreign (x >>= f) := by
  cases x with
  | ok a => exact hf a
  | error k => intro k' h; cases h; exact hx k rfl

theorem foreign_ok {α : Type} (a : α) : Foreign (.ok a : Except ErrKind α) := by intro k h; cases h

theorem foreign_err {α : Type} {k : ErrKind} (h : k.isJsonsError = false) :
    Foreign (.error k : Except ErrKind α) := by intro k' h'; cases h'; exact h

open Datetime in
theorem foreign_strptime (s : PyStr) (p : Pattern) : Foreign (strptime s p) := by
  have hf : ∀ {α : Type} (q : P α) (s : PyStr), Foreign (fullMatch q s) := by
    intro α q s
    unfold fullMatch
    split
    · exact foreign_err rfl
    · exact foreign_ok _
    · exact foreign_err rfl
  have hm : ∀ y mo d h mi sec us, Foreign (mkDatetime y mo d h mi sec us) := by
    intros
    unfold mkDatetime
    split
    · exact foreign_ok _
    · exact foreign_err rfl
  cases p <;> exact foreign_bind (hf _ _) fun _ => hm _ _ _ _ _ _ _

open Datetime in
theorem foreign_split2 (c : Char) (s : PyStr) : Foreign (split2 c s) := by
  unfold split2
  split
  · exact foreign_ok _
  · exact foreign_err rfl

open Datetime in
theorem foreign_inst (s : PyStr) (p : Pattern) : Foreign (getDatetimeInst s p) := by
  unfold getDatetimeInst
  split
  · exact foreign_err rfl
  · exact foreign_bind (foreign_strptime _ _) fun _ => foreign_ok _
  · split
    · unfold datetimeOffsetInst
      refine foreign_bind (foreign_split2 _ _) fun _ => foreign_bind (foreign_split2 _ _) fun _ =>
        foreign_bind (foreign_strptime _ _) fun _ => foreign_bind (foreign_split2 _ _) fun _ =>
        foreign_bind ?_ fun _ => foreign_bind ?_ fun _ => foreign_bind ?_ fun _ => foreign_ok _
      · unfold parseInt; simp only; split
        · exact foreign_ok _
        · exact foreign_err rfl
      · unfold parseInt; simp only; split
        · exact foreign_ok _
        · exact foreign_err rfl
      · unfold mkTimezone; simp only; split
        · exact foreign_err rfl
        · split
          · exact foreign_ok _
          · exact foreign_err rfl
    · exact foreign_strptime _ _

open Datetime in
theorem foreign_datetime (s : PyStr) : Foreign (datetimeDeserializer s) := by
  unfold datetimeDeserializer
  split
  · split
    · exact foreign_err rfl
    · exact foreign_inst _ _
  · exact foreign_inst _ _

theorem datetime_kind {s : PyStr} {e : Err} (h : (datetimeDes (.str s)).val = .error e) :
    e.kind.isJsonsError = false := by
  simp only [datetimeDes, liftK_err] at h
  obtain ⟨k, h, rfl⟩ := h
  cases hd : Datetime.datetimeDeserializer s with
  | ok d => rw [hd] at h; cases h
  | error k' => rw [hd] at h; cases h; exact foreign_datetime s k hd

/-- C63: a text without a requested type is a `datetime` if it can be loaded as one, and
otherwise the text itself, in strict mode or not; with `str` requested, it is always the
text itself, also if `str` was inferred from `List[str]`. -/
theorem text_is_datetime_only_unasked (E : LEnv) (n : Nat) (s : PyStr) (kw : LoadKw)
    (hd : DefaultDesers E kw.fork) (hv : NoValidators E kw.fork) :
    (∀ d, (load E (n + 1) (.str s) (some (.cls .datetime)) kw).val = .ok d →
      (load E (n + 2) (.str s) none kw).val = .ok d) ∧
    ((∀ d, (load E (n + 1) (.str s) (some (.cls .datetime)) kw).val ≠ .ok d) →
      (load E (n + 2) (.str s) none kw).val = .ok (.str s)) ∧
    (load E (n + 1) (.str s) (some (.cls .str)) kw).val = .ok (.str s) := by
  have key : (load E (n + 2) (.str s) none kw).val = match (datetimeDes (.str s)).val with
      | .ok d => .ok d
      | .error _ => .ok (.str s) := by
    rw [(load_via_free (str_valid s) rfl hd rfl (hv _)).1]
    have : (callDes E (load E (n + 1)) (Cls.desFn E.info (Val.str s).cls) (.str s) (.cls (Val.str s).cls)
        (kwFree kw)).val = match (datetimeDes (.str s)).val with
      | .ok d => .ok d
      | .error _ => .ok (.str s) := by
      show (stringDes E (load E (n + 1)) (.str s) (.cls .str) (kwFree kw)).val = _
      unfold stringDes
      rw [if_neg (by rintro ⟨_, h⟩; cases h)]
      simp only [bind_val, attempt_val]
      rw [load_datetime (kw := kwFree kw) hd hv]
      cases h : (datetimeDes (.str s)).val with
      | ok d => rfl
      | error e =>
        have := datetime_kind h
        simp only [wrapRes, wrapErr, this]
        rfl
    rw [this]
    cases (datetimeDes (.str s)).val <;> rfl
  refine ⟨?_, ?_, ?_⟩
  · intro d h
    rw [load_datetime hd hv, wrapRes_ok] at h
    rw [key, h]
  · intro h
    rw [key]
    cases hx : (datetimeDes (.str s)).val with
    | ok d => exact absurd (by rw [load_datetime hd hv, hx]; rfl) (h d)
    | error e => rfl
  · by_cases hs : Skips (.str s) (some (.cls .str)) kw
    · rw [load_skip (fun h => by cases h) hs, Option.getD_some, validate_none (hv _)]
      rfl
    · rw [(load_via (fun h => by cases h) hs (str_valid s) rfl (.inr rfl) hd rfl (hv _)).1, wrapRes_ok]
      rfl

example : (load (demoLEnv demoInfo) 3 (.str "2020-01-01T00:00:00Z".toList) none {}).val
      = .ok (.atom (.datetime ⟨2020, 1, 1, 0, 0, 0, 0, some Datetime.Tz.utc⟩)) ∧
    (load (demoLEnv demoInfo) 3 (.str "2020-13-01T00:00:00Z".toList) none {}).val
      = .ok (.str "2020-13-01T00:00:00Z".toList) ∧
    (load (demoLEnv demoInfo) 3 (.list [.str "2020-01-01T00:00:00Z".toList]) (some (.gen .list [.cls .str])) {}).val
      = .ok (.list [.str "2020-01-01T00:00:00Z".toList]) := by
  refine ⟨by rfl, by rfl, by rfl⟩

/-! ## C38: unions -/

/-- `r` is what the first of the types gives for which there is a value. -/
def FirstLoads (f : Ty → Except Err Val) (ts : List Ty) (r : Val) : Prop :=
  ∃ pre a post, ts = pre ++ a :: post ∧ (∀ b ∈ pre, ∀ x, f b ≠ .ok x) ∧ f a = .ok r

theorem unionLoop_none {rec : LRec} {v : Val} {t : Ty} {kw : LoadKw} :
    ∀ (ts : List Ty), (∀ b ∈ ts, ∃ e, (rec v (some b) kw).val = .error e ∧ e.kind.isJsonsError = true) →
      (unionLoadLoop rec v t kw ts).val =
        .error { kind := .deserializationError, source := some v, target := some t } := by
  intro ts
  induction ts with
  | nil => intro _; rfl
  | cons b ts ih =>
    intro h
    obtain ⟨e, he, hk⟩ := h b List.mem_cons_self
    simp only [unionLoadLoop, bind_val, attempt_val, he, hk, if_true]
    exact ih fun b' hb => h b' (List.mem_cons_of_mem _ hb)

/-- C38, except that `None` also needs `NoneType` among the members: a union is loaded
as the first member that can be loaded; if there is none, there is a
`DeserializationError` with the input and the union.  The options are any, also custom
deserializers and validators for the members. -/
theorem union_load_partial (E : LEnv) (n : Nat) (v : Val) (ts : List Ty) (kw : LoadKw)
    (hl : LookupsOk E kw.fork) (hd : E.getDes kw.fork (.union ts) = .ok (some .union))
    (hv : E.getVal kw.fork (.union ts) = .ok none) (h1 : v.cls ∈ validTypes)
    (hm : MetaOk E kw.fork v) (hi : kw.inferred = false)
    (hn : v = .none → .cls .noneType ∈ ts ∧ ∀ t ∈ ts, ¬ OddName E t) :
    (∀ r, (load E (n + 2) v (some (.union ts)) kw).val = .ok r ↔
      FirstLoads (fun t => (load E (n + 1) v (some t) kw).val) ts r) ∧
    ((∀ t ∈ ts, ∀ r, (load E (n + 1) v (some t) kw).val ≠ .ok r) →
      ∃ e, (load E (n + 2) v (some (.union ts)) kw).val = .error e ∧
        e.kind = .deserializationError ∧ e.source = some v ∧ e.target = some (.union ts)) := by
  obtain ⟨m, hm'⟩ := metaOk_get hm
  have hstep := (load_via_des (n := n + 1) (t := .union ts) (kw := kw)
    (fun h => canMatch_true E _ (.union (hn h).1))
    (by rintro (⟨_, h⟩ | h) <;> cases h) h1 hm' (.inl hi) hd hv).1
  have hbad : ∀ t ∈ ts, (∀ r, (load E (n + 1) v (some t) kw).val ≠ .ok r) →
      ∃ e, (load E (n + 1) v (some t) (kwOf kw m)).val = .error e ∧ e.kind.isJsonsError = true := by
    intro t ht h
    rw [load_same hm' (.inl hi)]
    rcases except_cases (load E (n + 1) v (some t) kw).val with ⟨r, hr⟩ | ⟨e, he⟩
    · exact absurd hr (h r)
    · refine ⟨e, he, load_err_kind hl hm (fun h0 => ?_) he⟩
      by_cases ha : AllowsNone t
      · exact ⟨_, canMatch_true E t ha⟩
      · exact ⟨_, canMatch_false E t ha ((hn h0).2 t ht)⟩
  have hok : ∀ r, FirstLoads (fun t => (load E (n + 1) v (some t) kw).val) ts r →
      (load E (n + 2) v (some (.union ts)) kw).val = .ok r := by
    rintro r ⟨pre, a, post, rfl, h2, h3⟩
    rw [hstep, wrapRes_ok]
    apply unionLoop_skip
    · intro b hb
      exact hbad b (List.mem_append_left _ hb) (h2 b hb)
    · rw [load_same hm' (.inl hi)]; exact h3
  have herr : (∀ t ∈ ts, ∀ r, (load E (n + 1) v (some t) kw).val ≠ .ok r) →
      (load E (n + 2) v (some (.union ts)) kw).val =
        .error { kind := .deserializationError, source := some v, target := some (.union ts) } := by
    intro h
    rw [hstep]
    have : (callDes E (load E (n + 1)) .union v (.union ts) (kwOf kw m)).val = _ :=
      unionLoop_none ts fun t ht => hbad t ht (h t ht)
    rw [this]
    rfl
  refine ⟨fun r => ⟨fun h => ?_, hok r⟩, fun h => ⟨_, herr h, rfl, rfl, rfl⟩⟩
  by_cases hex : ∃ t ∈ ts, ∃ r, (load E (n + 1) v (some t) kw).val = .ok r
  · have key : ∀ (l : List Ty), (∃ t ∈ l, ∃ r, (load E (n + 1) v (some t) kw).val = .ok r) →
        ∃ r, FirstLoads (fun t => (load E (n + 1) v (some t) kw).val) l r := by
      intro l
      induction l with
      | nil => rintro ⟨t, ht, _⟩; cases ht
      | cons b l ih =>
        rintro ⟨t, ht, r, hr⟩
        rcases except_cases (load E (n + 1) v (some b) kw).val with ⟨r', hr'⟩ | ⟨e, he⟩
        · exact ⟨r', [], b, l, rfl, fun _ h => (by cases h), hr'⟩
        · have ht' : t ∈ l := by
            rcases List.mem_cons.1 ht with rfl | h
            · rw [he] at hr; cases hr
            · exact h
          obtain ⟨r', pre, a, post, rfl, h2, h3⟩ := ih ⟨t, ht', r, hr⟩
          refine ⟨r', b :: pre, a, post, rfl, ?_, h3⟩
          intro c hc x
          rcases List.mem_cons.1 hc with rfl | hc
          · simp only [he]; exact fun h => by cases h
          · exact h2 c hc x
    obtain ⟨r', hr'⟩ := key ts hex
    have := hok r' hr'
    rw [h] at this
    cases this
    exact hr'
  · rw [herr (fun t ht r hr => hex ⟨t, ht, r, hr⟩)] at h
    cases h

/-- `'12'` as `Union[datetime, int, str]` is 12. -/
example : (load (demoLEnv demoInfo) 4 (.str "12".toList)
    (some (.union [.cls .datetime, .cls .int, .cls .str])) {}).val = .ok (.int 12) := by rfl

example : MetaOk (demoLEnv demoInfo) 0 (.dict [(.str "-meta".toList, .dict [(.str "classes".toList,
    .dict [(.str "/".toList, .str "__main__.Point".toList)])])]) := by
  intro es m h1 h2
  cases h1
  cases h2
  exact ⟨_, _, _, _, rfl, rfl, rfl, rfl⟩

/-- C38 fails for `None` and `Union[int, Any]`: `Any` accepts it, the union does not. -/
theorem union_load_fails_none : ∃ (E : LEnv) (ts : List Ty),
    (load E 2 .none (some (.cls .int)) {}).val ≠ .ok .none ∧
    (load E 2 .none (some .any) {}).val = .ok .none ∧ ts = [.cls .int, .any] ∧
    ∀ r, (load E 3 .none (some (.union ts)) {}).val ≠ .ok r := by
  refine ⟨demoLEnv demoInfo, _, ?_, by rfl, rfl, ?_⟩
  · have : (load (demoLEnv demoInfo) 2 .none (some (.cls .int)) {}).val
      = .error { kind := .deserializationError, source := some .none, target := some (.cls .int) } := by rfl
    rw [this]; intro h; cases h
  · intro r h
    have : (load (demoLEnv demoInfo) 3 .none (some (.union [.cls .int, .any])) {}).val
      = .error { kind := .deserializationError, source := some .none,
                 target := some (.union [.cls .int, .any]) } := by rfl
    rw [this] at h; cases h

/-! ## C64: enums -/

theorem pyEq_refl (v : Val) : pyEq v v = true := by
  cases v with
  | atom a =>
    cases a with
    | complex re im => by_cases him : im = 0 <;> simp [pyEq, Atom.num?, him]
    | _ => simp [pyEq, Atom.num?]
  | _ => simp [pyEq]

/-- The members of an enum have different names and different values (aliases are not
members). -/
structure EnumOk (I : ClassInfo) : Prop where
  names : I.enumMembers.Pairwise fun a b => a.1 ≠ b.1
  values : I.enumMembers.Pairwise fun a b => pyEq a.2 b.2 = false

theorem enum_find {l : List (PyStr × Val)} {m : PyStr} {w : Val}
    (h : l.Pairwise fun a b => pyEq a.2 b.2 = false) (hm : assoc l m = some w) :
    l.find? (fun p => pyEq p.2 w) = some (m, w) := by
  induction l with
  | nil => cases hm
  | cons p l ih =>
    obtain ⟨m', w'⟩ := p
    by_cases hmm : m' = m
    · subst hmm
      simp only [assoc, if_true, Option.some.injEq] at hm
      subst hm
      simp [List.find?, pyEq_refl]
    · simp only [assoc, hmm, if_false] at hm
      have hmem : (m, w) ∈ l := by
        clear ih h
        induction l with
        | nil => cases hm
        | cons q l ih =>
          obtain ⟨a, b⟩ := q
          by_cases ha : a = m
          · subst ha
            simp only [assoc, if_true, Option.some.injEq] at hm
            subst hm
            exact List.mem_cons_self
          · simp only [assoc, ha, if_false] at hm
            exact List.mem_cons_of_mem _ (ih hm)
      have := (List.pairwise_cons.1 h).1 _ hmem
      simp only [List.find?, this]
      exact ih (List.pairwise_cons.1 h).2 hm

theorem enum_desFn {E : LEnv} {c : Nat} (hk : ∃ b, (E.info c).kind = .enum b) :
    (Ty.cls (.user c)).desFn E.info = some .enum ∧ (Ty.cls (.user c)).serFn E.toEnv.info = some .enum := by
  obtain ⟨b, hk⟩ := hk
  simp only [Ty.desFn, Cls.desFn, Ty.serFn, Cls.serFn, hk, and_self]

/-- C64, for members of which the value is a JSON value: the dump of a member by name
is loaded as that member, also without the option on loading; the dump by value is
loaded as that member with `use_enum_name=False`. -/
theorem enum_round_trip_partial (E : LEnv) (n : Nat) (c : Nat) (m : PyStr) (w : Val)
    (dkw : DumpKw) (lkw : LoadKw)
    (hk : ∃ b, (E.info c).kind = .enum b) (hok : EnumOk (E.info c))
    (hw : assoc (E.info c).enumMembers m = some w)
    (hs : DefaultSers E.toEnv dkw.fork) (hd : DefaultDesers E lkw.fork) (hv : NoValidators E lkw.fork) :
    (∀ o, o = none ∨ o = some true → ∃ j,
      (dump E.toEnv (n + 2) (.enum c m) none { dkw with useEnumName := true }).val = .ok j ∧
      (load E (n + 1) j (some (.cls (.user c))) { lkw with useEnumName := o }).val = .ok (.enum c m)) ∧
    (w.cls ∈ validTypes → w ≠ .none → NoMeta w → ∃ j,
      (dump E.toEnv (n + 2) (.enum c m) none { dkw with useEnumName := false }).val = .ok j ∧
      (load E (n + 1) j (some (.cls (.user c))) { lkw with useEnumName := some false }).val
        = .ok (.enum c m)) := by
  obtain ⟨hdes, hser⟩ := enum_desFn hk
  constructor
  · intro o ho
    refine ⟨.str m, ?_, ?_⟩
    · exact (dump_via (v := .enum c m) (cls := none) (f := .enum)
        (kw := { dkw with useEnumName := true }) hs hser).2 rfl
    · rw [(load_via (t := .cls (.user c)) (f := .enum) (kw := { lkw with useEnumName := o })
        (fun h => by cases h) (by simp [Skips, Val.cls, Atom.cls]) (str_valid m) rfl (.inr rfl) hd hdes
        (hv _)).1, wrapRes_ok]
      have hn : enumByName (E.info c) c (.str m) = .ok (.enum c m) := by
        simp [enumByName, hw]
      rcases ho with rfl | rfl <;> simp only [callDes, enumDes, kwOf, hn] <;> rfl
  · intro h1 h2 h3
    refine ⟨w, ?_, ?_⟩
    · refine (dump_via (v := .enum c m) (cls := none) (f := .enum)
        (kw := { dkw with useEnumName := false }) hs hser).2 ?_
      simp only [callSer, enumSer, hw]
      rfl
    · have hu : w.cls ≠ .user c := by
        intro h; rw [h] at h1; simp [validTypes] at h1
      rw [(load_via (t := .cls (.user c)) (f := .enum) (kw := { lkw with useEnumName := some false })
        (fun h => absurd h h2) (by
          rintro (⟨_, h⟩ | h)
          · simp only [Option.some.injEq, Ty.cls.injEq] at h; exact hu h.symm
          · cases h) h1 (noMeta_get h3 _) (.inr rfl) hd hdes
        (hv _)).1, wrapRes_ok]
      simp only [callDes, enumDes, kwOf, enumByValue, enum_find hok.values hw]
      rfl

example : EnumOk (demoInfo 2) ∧ EnumOk (demoInfo 3) ∧
    assoc (demoInfo 2).enumMembers "RED".toList = some (.int 1) := by
  refine ⟨⟨by decide, ?_⟩, ⟨by decide, ?_⟩, by rfl⟩
  · simp [demoInfo, pyEq, Atom.num?]
  · simp [demoInfo, pyEq, Atom.num?]

/-- An enum with the member `NOTHING` of which the value is `None`. -/
def nothingInfo : Nat → ClassInfo := fun _ =>
  { attrs := mainAttrs "Maybe", kind := .enum false, enumMembers := [("NOTHING".toList, .none)] }

/-- C64 fails with `use_enum_name=False` for a member with the value `None`. -/
theorem enum_round_trip_fails : ∃ (E : LEnv) (c : Nat) (m : PyStr), EnumOk (E.info c) ∧
    (∃ w, assoc (E.info c).enumMembers m = some w) ∧
    ∀ n j, (dump E.toEnv (n + 2) (.enum c m) none { useEnumName := false }).val = .ok j →
      ∀ r, (load E (n + 1) j (some (.cls (.user c))) { useEnumName := some false }).val ≠ .ok r := by
  refine ⟨demoLEnv nothingInfo, 0, "NOTHING".toList, ⟨List.pairwise_singleton _ _, List.pairwise_singleton _ _⟩, ⟨.none, by rfl⟩, ?_⟩
  intro n j hj r hr
  have h1 : (dump (demoEnv nothingInfo) (n + 2) (.enum 0 "NOTHING".toList) none { useEnumName := false }).val
      = .ok .none := by rfl
  have hj' : (dump (demoEnv nothingInfo) (n + 2) (.enum 0 "NOTHING".toList) none { useEnumName := false }).val
      = .ok j := hj
  rw [h1] at hj'
  cases hj'
  have h2 : (load (demoLEnv nothingInfo) (n + 1) .none (some (.cls (.user 0))) { useEnumName := some false }).val
      = .error { kind := .deserializationError, source := some .none, target := some (.cls (.user 0)) } := by rfl
  rw [h2] at hr
  cases hr

end Verif.Props.LoadBasics
