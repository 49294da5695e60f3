import Verif.Core.DumpLemmas
import Verif.Core.LoadLemmas
import Verif.Core.LoadDemo
import Verif.Props.LoadBasics

/-! # A `NewType` is dumped and loaded like the type that it stands for (C107) -/

set_option autoImplicit false

namespace Verif.Props.NewTypes

open Verif Verif.Core

/-! ## Dump -/

theorem val_bind {α β : Type} {x x' : Res α} {f : α → Res β} (h : x.val = x'.val) : (x >>= f).val = (x' >>= f).val := by
  obtain ⟨l, a⟩ := x
  obtain ⟨l', a'⟩ := x'
  cases h
  cases a <;> rfl

/-- The types of which a `NewType` is dumped as well: all classes, in strict mode except those that are
dumped as objects; `Dict[...]` and the like; if not strict also `Set[...]`, `Deque[...]` and the
like. -/
def DumpsAlike (info : Nat → ClassInfo) (strict : Bool) : Ty → Prop
  | .cls c => strict = false ∨ c.serFn info ≠ .object
  | .gen g _ => g.naked.serFn info = .dict ∨ g.naked.serFn info = .iterable ∧ strict = false
  | _ => False

theorem serFn_special (info : Nat → ClassInfo) (c : Cls) : c.serFn info ≠ .union ∧ ∀ id, c.serFn info ≠ .custom id := by
  constructor
  · cases c with
    | user c => simp only [Cls.serFn]; split <;> simp
    | _ => simp [Cls.serFn]
  · intro id
    cases c with
    | user c => simp only [Cls.serFn]; split <;> simp
    | _ => simp [Cls.serFn]

theorem call_newtype {E : Env} {n : Nat} {f : SerFn} (v : Val) {name : PyStr} {t : Ty} {kw : DumpKw}
    (h : DumpsAlike E.info kw.strict t) (hf : t.serFn E.info = some f)
    (ih : ∀ v, ((recOf E n).dump v (some (.newtype name t)) kw).val = ((recOf E n).dump v (some t) kw).val) :
    (callSer E (recOf E n) f v (some (.newtype name t)) kw).val = (callSer E (recOf E n) f v (some t) kw).val := by
  cases t with
  | cls c =>
    obtain ⟨hu, hcu⟩ := serFn_special E.info c
    have hf' : c.serFn E.info = f := Option.some.inj hf
    rw [hf'] at hu hcu
    cases f with
    | custom id => exact absurd rfl (hcu id)
    | union => exact absurd rfl hu
    | timezone =>
      show (timezoneSer _ _ _ _).val = (timezoneSer _ _ _ _).val
      unfold timezoneSer
      split
      · exact val_bind (ih _)
      · rfl
    | object =>
      unfold DumpsAlike at h
      rcases h with h | h
      · show (objectSer _ _ _ _ _).val = (objectSer _ _ _ _ _).val
        unfold objectSer
        simp only [h, Bool.false_eq_true, if_false]
      · exact absurd hf' h
    | _ => rfl
  | gen g args =>
    have hf' : g.naked.serFn E.info = f := Option.some.inj hf
    replace h : g.naked.serFn E.info = .dict ∨ g.naked.serFn E.info = .iterable ∧ kw.strict = false := h
    rw [hf'] at h
    rcases h with rfl | ⟨rfl, hs⟩
    · rfl
    · show (iterableSer _ _ _ _ _).val = (iterableSer _ _ _ _ _).val
      unfold iterableSer elementTypes
      simp only [hs, Bool.false_eq_true, if_false]
  | _ => exact h.elim

/-- **C107** (dump).  With a `NewType` of such a type, `dump` gives what it gives with the type, or both
fail alike.  Missing: `NewType`s of `List[...]`, `Tuple[...]` and unions, and of the program's classes
in strict mode; see below for what happens there. -/
theorem dump_newtype_partial (E : Env) (n : Nat) (v : Val) (name : PyStr) (t : Ty) (kw : DumpKw)
    (hs : DefaultSers E kw.fork) (h : DumpsAlike E.info kw.strict t) :
    (dump E n v (some (.newtype name t)) kw).val = (dump E n v (some t) kw).val := by
  induction n using Nat.strong_induction_on generalizing v with
  | _ n ih =>
    cases n with
    | zero => rfl
    | succ n =>
      have hfn : ∃ f, t.serFn E.info = some f ∧ (Ty.newtype name t).serFn E.info = some f := by
        cases t with
        | cls c => exact ⟨_, rfl, rfl⟩
        | gen g args => exact ⟨_, rfl, rfl⟩
        | _ => exact h.elim
      obtain ⟨f, hf, hf'⟩ := hfn
      have hc : ((recOf E n).call f v (some (.newtype name t)) kw).val = ((recOf E n).call f v (some t) kw).val := by
        cases n with
        | zero => rfl
        | succ n => exact call_newtype v h hf fun v => ih n (by omega) v
      show (dumpWith E (recOf E n) v _ kw).val = (dumpWith E (recOf E n) v _ kw).val
      unfold dumpWith
      simp only [Option.getD_some, hs _, hf, hf', bind_val, liftK_of_ok, pure_val, emit_val, attempt_val, hc]

/-! ## Load -/

/-- The types of which a `NewType` is loaded as well: the classes without parts except `str` and the
numbers; `list`, `tuple`, `dict`, `defaultdict` and `Mapping` without parameters. -/
def LoadsAlike (c : Cls) : Prop :=
  c ∈ [Cls.datetime, .date, .time, .timezone, .timedelta, .uuid, .decimal, .complex, .path, .zoneinfo,
    .list, .tuple, .dict, .mapping, .defaultdict]

theorem callDes_newtype {E : LEnv} {rec : LRec} {v : Val} {name : PyStr} {c : Cls} {kw : LoadKw} (hc : LoadsAlike c) :
    callDes E rec (c.desFn E.info) v (.newtype name (.cls c)) kw = callDes E rec (c.desFn E.info) v (.cls c) kw := by
  unfold LoadsAlike at hc
  simp only [List.mem_cons, List.not_mem_nil, or_false] at hc
  rcases hc with h | h | h | h | h | h | h | h | h | h | h | h | h | h | h <;> subst h <;> rfl

/-- **C107** (load).  With a `NewType` of such a class, `load` gives what it gives with the class, or
both fail.  `None` and values that are returned as they are (because they are of the class already)
are not covered.  Missing: all other types; see below for what happens there. -/
theorem load_newtype_partial (E : LEnv) (n : Nat) (v : Val) (name : PyStr) (c : Cls) (kw : LoadKw)
    (hd : DefaultDesers E kw.fork) (hv : NoValidators E kw.fork) (hc : LoadsAlike c) (hnone : v ≠ .none)
    (hskip : kw.strict = true ∨ v.cls ≠ c) (hi : kw.inferred = false) :
    (load E n v (some (.newtype name (.cls c))) kw).val.toOption = (load E n v (some (.cls c)) kw).val.toOption := by
  cases n with
  | zero => rfl
  | succ n =>
    have hs : ¬ Skips v (some (.cls c)) kw := by
      rintro (⟨h1, h2⟩ | h)
      · rcases hskip with h | h
        · rw [h] at h1; cases h1
        · cases h2; exact h rfl
      · cases h
    have hs' : ¬ Skips v (some (.newtype name (.cls c))) kw := by
      rintro (⟨h1, h2⟩ | h)
      · cases h2
      · cases h
    rw [load_from (fun h => absurd h hnone) hs, load_from (fun h => absurd h hnone) hs']
    by_cases hval : v.cls ∈ validTypes
    · cases hm : getClsAndMeta E v kw.fork with
      | error k =>
        unfold loadFrom
        rw [if_neg (by simpa using hval), if_neg (by simpa using hval), hm]
        rfl
      | ok m =>
        have hv1 := (load_via (n := n) (fun h => absurd h hnone) hs hval hm (.inl hi) hd rfl (hv _)).1
        have hv2 := (load_via (n := n) (fun h => absurd h hnone) hs' hval hm (.inl hi) hd rfl (hv _)).1
        rw [load_from (fun h => absurd h hnone) hs] at hv1
        rw [load_from (fun h => absurd h hnone) hs'] at hv2
        rw [hv1, hv2, callDes_newtype hc]
        cases (callDes E (load E n) (c.desFn E.info) v (.cls c) (kwOf kw m)).val <;> rfl
    · unfold loadFrom
      rw [if_pos (by simpa using hval), if_pos (by simpa using hval)]
      rfl

/-- **C107** (texts).  With a `NewType` of `str`, a text is a `datetime` if it can be loaded as one, and
otherwise the text itself. -/
theorem load_newtype_text (E : LEnv) (n : Nat) (s : PyStr) (name : PyStr) (kw : LoadKw)
    (hd : DefaultDesers E kw.fork) (hv : NoValidators E kw.fork) :
    (∀ d, (load E (n + 1) (.str s) (some (.cls .datetime)) kw).val = .ok d →
      (load E (n + 2) (.str s) (some (.newtype name (.cls .str))) kw).val = .ok d) ∧
    ((∀ d, (load E (n + 1) (.str s) (some (.cls .datetime)) kw).val ≠ .ok d) →
      (load E (n + 2) (.str s) (some (.newtype name (.cls .str))) kw).val = .ok (.str s)) := by
  have hs' : ¬ Skips (.str s) (some (.newtype name (.cls .str))) kw := by
    rintro (⟨_, h⟩ | h) <;> cases h
  have key : (load E (n + 2) (.str s) (some (.newtype name (.cls .str))) kw).val
      = match (datetimeDes (.str s)).val with
        | .ok d => .ok d
        | .error _ => .ok (.str s) := by
    rw [(load_via (m := none) (fun h => by cases h) hs' (LoadBasics.str_valid s) rfl (.inr rfl) hd rfl (hv _)).1]
    show wrapRes _ _ (stringDes E (load E (n + 1)) (.str s) (.newtype name (.cls .str)) (kwOf kw none)).val = _
    unfold stringDes
    rw [if_neg (by rintro ⟨h, _⟩; cases h)]
    simp only [bind_val, attempt_val]
    rw [LoadBasics.load_datetime (kw := kwOf kw none) hd hv]
    cases hr : (datetimeDes (.str s)).val with
    | ok d => rfl
    | error e =>
      have := LoadBasics.datetime_kind hr
      simp only [wrapRes, wrapErr, this]
      rfl
  rw [key, LoadBasics.load_datetime hd hv]
  cases hr : (datetimeDes (.str s)).val with
  | ok d => exact ⟨fun d' h => by simpa [wrapRes] using h, fun h => absurd rfl (h d)⟩
  | error e => exact ⟨fun d' h => by simp [wrapRes] at h, fun _ => rfl⟩

/-! ## What is not alike -/

/-- A `NewType` of a class that is loaded by a test with `isinstance` cannot be loaded: nothing but `None`
is. -/
theorem load_newtype_number_fails (E : LEnv) (n : Nat) (v r : Val) (name : PyStr) (c : Cls) (kw : LoadKw)
    (hd : DefaultDesers E kw.fork) (hc : c = .int ∨ c = .float ∨ c = .bool) (hnone : v ≠ .none) (hi : kw.inferred = false) :
    (load E n v (some (.newtype name (.cls c))) kw).val ≠ .ok r := by
  intro hr
  cases n with
  | zero => cases hr
  | succ n =>
    have hs' : ¬ Skips v (some (.newtype name (.cls c))) kw := by
      rintro (⟨_, h⟩ | h) <;> cases h
    rw [load_from (fun h => absurd h hnone) hs'] at hr
    by_cases hval : v.cls ∈ validTypes
    · cases hm : getClsAndMeta E v kw.fork with
      | error k =>
        unfold loadFrom at hr
        rw [if_neg (by simpa using hval), hm] at hr
        cases hr
      | ok m =>
        rw [loadFrom_eq hval hm hd, target_explicit (.inl hi)] at hr
        have hf : (Ty.newtype name (.cls c)).desFn E.info = some .primitive := by
          rcases hc with rfl | rfl | rfl <;> rfl
        rw [hf, doLoad_ok] at hr
        have hp : (primitiveDes E v (.newtype name (.cls c))).val = .ok r := hr.1
        unfold primitiveDes at hp
        rw [if_neg hnone] at hp
        cases hp
    · unfold loadFrom at hr
      rw [if_pos (by simpa using hval)] at hr
      cases hr

/-- A text that looks like a `datetime` is loaded as `str` to itself and as a `NewType` of `str` to that
`datetime`. -/
theorem newtype_text_becomes_datetime :
    (load (demoLEnv demoInfo) 9 (.str "2020-01-01T00:00:00Z".toList) (some (.cls .str)) {}).val
      = .ok (.str "2020-01-01T00:00:00Z".toList) ∧
    (load (demoLEnv demoInfo) 9 (.str "2020-01-01T00:00:00Z".toList) (some (.newtype "Name".toList (.cls .str))) {}).val
      = .ok (.atom (.datetime ⟨2020, 1, 1, 0, 0, 0, 0, some Datetime.Tz.utc⟩)) := by
  refine ⟨by rfl, by rfl⟩

/-- A list is loaded as a `set` and not as a `NewType` of one; the name of a member is loaded as its enum
and not as a `NewType` of it. -/
theorem newtype_set_enum_fail :
    (load (demoLEnv demoInfo) 9 (.list [.int 1]) (some (.cls .set)) {}).val = .ok (.seq .set [.int 1]) ∧
    (load (demoLEnv demoInfo) 9 (.list [.int 1]) (some (.newtype "Ids".toList (.cls .set))) {}).val.toOption = none ∧
    (load (demoLEnv demoInfo) 9 (.str "RED".toList) (some (.cls (.user 2))) {}).val = .ok (.enum 2 "RED".toList) ∧
    (load (demoLEnv demoInfo) 9 (.str "RED".toList) (some (.newtype "Hue".toList (.cls (.user 2)))) {}).val.toOption = none := by
  refine ⟨by rfl, by rfl, by rfl, by rfl⟩

/-- A `NewType` of `List[float]` forgets its parameter: the integer in the list stays one, in `dump` and
in `load`. -/
theorem newtype_forgets_parameter :
    (dump (demoEnv demoInfo) 9 (.list [.int 1]) (some (.gen .list [.cls .float])) {}).val = .ok (.list [.atom (.float 1)]) ∧
    (dump (demoEnv demoInfo) 9 (.list [.int 1]) (some (.newtype "Vec".toList (.gen .list [.cls .float]))) {}).val
      = .ok (.list [.int 1]) ∧
    (load (demoLEnv demoInfo) 9 (.list [.int 1]) (some (.gen .list [.cls .float])) {}).val = .ok (.list [.atom (.float 1)]) ∧
    (load (demoLEnv demoInfo) 9 (.list [.int 1]) (some (.newtype "Vec".toList (.gen .list [.cls .float]))) {}).val
      = .ok (.list [.int 1]) := by
  refine ⟨by decide +kernel, by decide +kernel, by decide +kernel, by decide +kernel⟩

/-- A `NewType` of a union cannot be dumped. -/
theorem newtype_union_fails :
    (dump (demoEnv demoInfo) 9 (.int 1) (some (.union [.cls .int, .cls .str])) {}).val = .ok (.int 1) ∧
    (dump (demoEnv demoInfo) 9 (.int 1) (some (.newtype "Id".toList (.union [.cls .int, .cls .str]))) {}).val.toOption = none := by
  refine ⟨by decide +kernel, by decide +kernel⟩

/-! ## Concrete cases -/

/-- A `NewType` of `datetime`, one of `Dict[str, int]` and one of a class of the program. -/
example :
    (dump (demoEnv demoInfo) 9 (.atom (.datetime ⟨2024, 2, 29, 12, 0, 0, 0, none⟩)) (some (.newtype "Start".toList (.cls .datetime))) {}).val
      = .ok (.str "2024-02-29T12:00:00+00:00".toList) ∧
    (dump (demoEnv demoInfo) 9 (.dict [(.str "a".toList, .int 1)])
        (some (.newtype "Ages".toList (.gen .dict [.cls .str, .cls .int]))) { strict := true }).val
      = .ok (.dict [(.str "a".toList, .int 1)]) ∧
    (dump (demoEnv demoInfo) 9 (.obj 0 [("x".toList, .int 1), ("y".toList, .int 2)])
        (some (.newtype "Spot".toList (.cls (.user 0)))) {}).val
      = (dump (demoEnv demoInfo) 9 (.obj 0 [("x".toList, .int 1), ("y".toList, .int 2)]) (some (.cls (.user 0))) {}).val := by
  refine ⟨?_, ?_, ?_⟩
  · refine (dump_newtype_partial _ _ _ _ _ _ (demo_sers _) (by exact Or.inl rfl)).trans (by rfl)
  · refine (dump_newtype_partial _ _ _ _ _ _ (demo_sers _) (by exact Or.inl rfl)).trans (by decide +kernel)
  · exact dump_newtype_partial _ _ _ _ _ _ (demo_sers _) (Or.inl rfl)

/-- The text of a date, and a list with one. -/
example :
    (load (demoLEnv demoInfo) 9 (.str "2024-02-29T12:00:00-03:30".toList) (some (.newtype "Start".toList (.cls .datetime))) {}).val.toOption
      = some (.atom (.datetime ⟨2024, 2, 29, 12, 0, 0, 0, some (Datetime.Tz.fixed (-210 * 60000000) none)⟩)) ∧
    (load (demoLEnv demoInfo) 9 (.list [.str "2024-02-29T12:00:00-03:30".toList]) (some (.newtype "Row".toList (.cls .tuple))) {}).val.toOption
      = some (.tuple [.atom (.datetime ⟨2024, 2, 29, 12, 0, 0, 0, some (Datetime.Tz.fixed (-210 * 60000000) none)⟩)]) := by
  constructor
  · exact (load_newtype_partial _ _ _ _ _ _ (demo_desers _) (demo_novals _) (by simp [LoadsAlike]) (by simp)
      (.inr (by simp [Val.cls, Atom.cls])) rfl).trans (by rfl)
  · exact (load_newtype_partial _ _ _ _ _ _ (demo_desers _) (demo_novals _) (by simp [LoadsAlike]) (by simp [Val.list])
      (.inr (by simp [Val.cls, SeqKind.cls])) rfl).trans (by rfl)

/-- An ordinary text. -/
example : (load (demoLEnv demoInfo) 9 (.str "abc".toList) (some (.newtype "Name".toList (.cls .str))) {}).val = .ok (.str "abc".toList) :=
  (load_newtype_text (demoLEnv demoInfo) 7 _ _ {} (demo_desers _) (demo_novals _)).2 (by
    intro d h
    have : (load (demoLEnv demoInfo) 8 (.str "abc".toList) (some (.cls .datetime)) {}).val.toOption = none := by rfl
    rw [h] at this
    cases this)

/-- The number 5 as `NewType('UserId', int)`. -/
example : (load (demoLEnv demoInfo) 9 (.int 5) (some (.newtype "UserId".toList (.cls .int))) {}).val ≠ .ok (.int 5) :=
  load_newtype_number_fails _ _ _ _ _ _ _ (demo_desers _) (.inl rfl) (by simp [Val.int]) rfl

end Verif.Props.NewTypes
