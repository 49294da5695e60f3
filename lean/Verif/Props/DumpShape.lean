import Verif.Core.MetaLemmas
import Verif.Core.Demo

/-!
# Properties of everything that `dump` returns or raises

C30, C32, C53, C54, C70, C76.
-/

set_option autoImplicit false

namespace Verif.Props.DumpShape
open Verif Verif.Core Verif.Registry

/-! ## C76: the serializer of every type -/

/-- C76: after `import jsons` the lookup finds for every type the serializer that the
specification `Ty.serFn` names, if the classes of the program are not called like one
of the registered classes. -/
theorem default_dispatch (info : Nat → ClassInfo) (hn : NamesOk info serNames) (t : Ty) :
    getLizer (tyWorld info) (initialSers info) t = .ok (t.serFn info) :=
  getLizer_serFn info hn t

/-- A member of an `IntEnum` is dumped as an enum, not as an int; a named tuple as a
tuple; a `defaultdict` as a dict; a `NewType` as its supertype; `Any` not at all. -/
example (n : PyStr) :
    (Ty.cls (.user 3)).serFn demoInfo = some .enum ∧
    (Ty.cls (.user 1)).serFn demoInfo = some .tuple ∧
    (Ty.gen .defaultdict [.cls .str, .cls .int]).serFn demoInfo = some .dict ∧
    (Ty.newtype n (.cls .int)).serFn demoInfo = some .primitive ∧
    Ty.any.serFn demoInfo = none := ⟨rfl, rfl, rfl, rfl, rfl⟩

/-- The condition on the names is needed: a class of the program that is called
`Date` in a module called `DateTime` is dumped as a date. -/
theorem default_dispatch_collision : ∃ (info : Nat → ClassInfo) (t : Ty),
    getLizer (tyWorld info) (initialSers info) t ≠ .ok (t.serFn info) :=
  ⟨fun _ => { attrs := pyAttrs "DateTime" "Date" }, .cls (.user 0), by
    have : getLizer (tyWorld fun _ => { attrs := pyAttrs "DateTime" "Date" })
      (initialSers fun _ => { attrs := pyAttrs "DateTime" "Date" }) (.cls (.user 0))
        = .ok (some .date) := by rfl
    rw [this]
    simp [Ty.serFn, Cls.serFn]⟩

/-! ## C32, C70: exceptions -/

/-- C32, C70: whatever the value, the options, the custom serializers and properties
do, and however small the stack is: the only exception that escapes from `dump` is
`SerializationError`.  The registry only has to be one that registrations make (see
`Verif.Props.Registry`). -/
theorem dump_raises_only_serializationError (E : Env) (n : Nat) (v : Val) (cls : Option Ty)
    (kw : DumpKw) (hok : TableOk (tyWorld E.info) (E.sers kw.fork)) (e : Err)
    (h : (dump E (n + 1) v cls kw).val = .error e) : e.kind = .serializationError := by
  have hl := getLizer_ok hok (cls.getD (.cls v.cls))
  simp only [dump, recOf, dumpWith, bind_err, liftK_err, liftK_ok, emit_val,
    attempt_val, Except.ok.injEq] at h
  rcases h with ⟨k, h, _⟩ | ⟨fn, h1, h | ⟨_, _, h | ⟨x, h2, h3⟩⟩⟩
  · obtain ⟨o, ho⟩ := hl
    rw [Env.getSer, ho] at h; cases h
  · cases h
  · cases h
  · cases x with
    | ok r => simp at h3
    | error e' => simp only [raise_val, Except.error.injEq] at h3; rw [← h3]

/-- The registry after `import jsons` is such a registry. -/
example (n : Nat) (v : Val) (cls : Option Ty) (kw : DumpKw) (e : Err)
    (h : (dump (demoEnv demoInfo) (n + 1) v cls kw).val = .error e) :
    e.kind = .serializationError :=
  dump_raises_only_serializationError _ n v cls kw (tableOk_initialSers demoInfo) e h

/-- An attribute without a serializer, in strict mode. -/
example : ∃ e, (dump (demoEnv demoInfo) 9 (.obj 5 [("born".toList, .obj 4 [])]) none
    { strict := true }).val = .error e ∧ e.kind = .serializationError := ⟨_, rfl, rfl⟩

/-- `{'me': {'me': ... {}}}` -/
def nest : Nat → Val
  | 0 => .dict []
  | n + 1 => .dict [(.str "me".toList, nest n)]

theorem node_step (rec : Rec) (s : StripAttr) (hs : normalizeStripAttr s = .tuple []) :
    (callSer (demoEnv demoInfo) rec .object (.obj 4 []) none { stripAttr := s }).val =
      match (rec.call .object (.obj 4 []) none { stripAttr := .tuple [] }).val with
      | .ok d => .ok (.dict [(.str "me".toList, d)])
      | .error e => if e.hasArgs then .ok (.dict []) else .error { kind := .indexError } := by
  have hattr : attributesFromObject ((demoEnv demoInfo).info 4) [] { stripAttr := s } (.tuple [])
      = .ok [("me".toList, none)] := by rfl
  have hget : (demoEnv demoInfo).getAttr (.obj 4 []) "me".toList = .ok (.obj 4 []) := by rfl
  have hser : (demoEnv demoInfo).getSer 0 (.cls (.user 4)) = .ok (some .object) := by rfl
  have hm : ∀ es s, dictWithMeta (demoEnv demoInfo) es s {} = .ok es := fun es s => rfl
  have hI : ((demoEnv demoInfo).info 4).isAttrs = false := rfl
  simp only [callSer, objectSer, hs, objectSerWith, hattr, attrLoop, bind_val, lift_val, hget,
    emit_val, attempt_val, hI, Option.getD_none, Val.cls, hser, liftK_of_ok, pure_val, dumpAttr]
  cases h : (rec.call .object (.obj 4 []) none { stripAttr := .tuple [] }).val with
  | ok d =>
    simp [storeClsInfo, addDumped, transformKey, Except.map, dictSet, hm]
    cases d <;> rfl
  | error e =>
    cases ha : e.hasArgs <;> simp [ha, hm, bind_val]

theorem node_call (n : Nat) (s : StripAttr) (hs : normalizeStripAttr s = .tuple []) :
    ((recOf (demoEnv demoInfo) (n + 1)).call .object (.obj 4 []) none { stripAttr := s }).val =
      .ok (nest n) := by
  induction n generalizing s with
  | zero => rw [recOf]; simp only [node_step _ s hs]; rfl
  | succ n ih =>
    rw [recOf]; simp only [node_step _ s hs]
    rw [ih (.tuple []) rfl]
    rfl

/-- C70: a value that refers to itself through a property is dumped as deep as the
stack allows, for every size of the stack. -/
theorem dump_self_reference (n : Nat) :
    (dump (demoEnv demoInfo) (n + 2) (.obj 4 []) none {}).val = .ok (nest n) := by
  have hser : (demoEnv demoInfo).getSer 0 (.cls (.user 4)) = .ok (some .object) := by rfl
  have h := node_call n .none rfl
  simp only [dump]
  rw [recOf]
  simp only [dumpWith, Option.getD_none, Val.cls, hser, liftK_of_ok, bind_val, pure_val, emit_val,
    attempt_val]
  rw [h]
  rfl

/-- In strict mode it is a `SerializationError` instead. -/
example : ∃ e, (dump (demoEnv demoInfo) 9 (.obj 4 []) none { strict := true }).val = .error e ∧
    e.kind = .serializationError := ⟨_, rfl, rfl⟩

/-! ## C30: JSON -/

/-- The values that a dump takes over as they are: the value of an enum member with
`use_enum_name=False`; the attribute `name` (or `value`) of something else that is
dumped as an enum; the attributes `real` and `imag` of something that is dumped as a
complex number. -/
structure RawOk (E : Env) (v : Val) (useEnumName : Bool) (P : Val → Prop) : Prop where
  enumValue : ∀ {c : Nat} {m : PyStr} {w : Val}, useEnumName = false →
    Reachable E v (.enum c m) → assoc (E.info c).enumMembers m = some w → P w
  enumAttr : ∀ {u w : Val}, Reachable E v u → (∀ c m, u ≠ .enum c m) →
    E.getAttr u (if useEnumName then "name".toList else "value".toList) = .ok w → P w
  complexAttr : ∀ {u w : Val}, Reachable E v u →
    (E.getAttr u "real".toList = .ok w ∨ E.getAttr u "imag".toList = .ok w) → P w

theorem enumSer_raw {E : Env} {v u r : Val} {kw : DumpKw} {P : Val → Prop}
    (hraw : RawOk E v kw.useEnumName P) (hstr : ∀ s, P (.str s)) (hu : Reachable E v u)
    (h : (enumSer E u kw).val = .ok r) : P r := by
  unfold enumSer at h
  split at h
  · split at h
    · cases h; exact hstr _
    · next hn =>
      split at h
      · next hw => cases h; exact hraw.enumValue (by simpa using hn) hu hw
      · simp at h
  · next hne =>
    rw [lift_val] at h
    exact hraw.enumAttr hu (fun c m hc => hne c m hc) h

theorem complexSer_raw {E : Env} {v u r : Val} {b : Bool} {A B : Val → Prop}
    (hraw : RawOk E v b fun w => JsonWith E.info A B w ∧ B w) (hre : A (.str "real".toList))
    (him : A (.str "imag".toList)) (hB : ∀ w, w ≠ .none → B w) (hu : Reachable E v u)
    (h : (complexSer E u).val = .ok r) : JsonWith E.info A B r := by
  have mk : ∀ {re im : Val}, JsonWith E.info A B re ∧ B re → JsonWith E.info A B im ∧ B im →
      JsonWith E.info A B (.dict [(.str "real".toList, re), (.str "imag".toList, im)]) := by
    intro re im h1 h2
    refine Entries.dict fun e he => ?_
    simp only [List.mem_cons, List.not_mem_nil, or_false] at he
    rcases he with rfl | rfl
    · exact ⟨⟨hre, h1.2⟩, h1.1⟩
    · exact ⟨⟨him, h2.2⟩, h2.1⟩
  unfold complexSer at h
  simp only at h
  split at h
  · cases h; exact mk ⟨.leaf trivial, hB _ (by simp)⟩ ⟨.leaf trivial, hB _ (by simp)⟩
  · cases h; exact mk ⟨.leaf trivial, hB _ (by simp)⟩ ⟨.leaf trivial, hB _ (by simp)⟩
  · cases h; exact mk ⟨.leaf trivial, hB _ (by simp)⟩ ⟨.leaf trivial, hB _ (by simp)⟩
  · cases h; exact mk ⟨.leaf trivial, hB _ (by simp)⟩ ⟨.leaf trivial, hB _ (by simp)⟩
  · simp only [bind_ok, lift_val, pure_val, Except.ok.injEq] at h
    obtain ⟨re, h1, im, h2, rfl⟩ := h
    exact mk (hraw.complexAttr hu (.inl h1)) (hraw.complexAttr hu (.inr h2))

/-- C30, `_partial`: whatever `dump` returns with the serializers of jsons, for any
class, options and depth, is JSON, provided that the values it takes over as they are
(see `RawOk`) are JSON.  Missing: without the proviso it is false, see
`dump_json_fails_enum` and `dump_json_fails_union`. -/
theorem dump_json_partial (E : Env) (n : Nat) (v : Val) (cls : Option Ty) (kw : DumpKw) (r : Val)
    (hds : DefaultSers E kw.fork) (hkind : ∀ w, Reachable E v w → RightKind E w)
    (hraw : RawOk E v kw.useEnumName (Json E.info)) (hst : kw.storeCls = false)
    (h : (dump E n v cls kw).val = .ok r) : Json E.info r := by
  have ho : EntryOk E (Reachable E v) (JsonLeaf E.info) (fun _ => True) kw := {
    key := by
      intro k k' hk hk'
      rcases transformKey_ok hk' with ⟨_, rfl⟩ | ⟨_, _, _, _, _, _, rfl⟩
      · exact hk
      · trivial
    nonNull := fun _ => trivial
    complex := fun hv h => complexSer_raw (b := kw.useEnumName)
      ⟨fun a b c => ⟨hraw.1 a b c, trivial⟩, fun a b c => ⟨hraw.2 a b c, trivial⟩,
        fun a b => ⟨hraw.3 a b, trivial⟩⟩
      trivial trivial (fun _ _ => trivial) hv h
    enum := fun hv h => enumSer_raw hraw (fun _ => .leaf trivial) hv h
    zoneinfo := by
      intro v r _ h
      unfold zoneinfoSer at h
      split at h
      · cases h
        refine Entries.dict fun e he => ?_
        simp only [List.mem_singleton] at he
        subst he
        exact ⟨⟨trivial, trivial⟩, .leaf trivial⟩
      · simp at h
    timezone := fun _ => ⟨trivial, trivial, fun _ => trivial, fun _ => trivial⟩
    ntuple := fun _ => ⟨fun _ _ => trivial, fun _ => trivial⟩
    hashed := fun _ _ _ => ⟨trivial, fun _ => trivial, fun _ _ => trivial, fun _ => trivial⟩
    cls := fun _ => ⟨trivial, fun _ => trivial⟩
    withMeta := fun he h => dictWithMeta_json he h }
  exact (recOk (reach_of_reachable hkind) hds ho n).dump .self
    ⟨rfl, rfl, rfl, rfl, rfl, fun h => by rw [hst] at h; cases h⟩ h

/-- C30 is false: with `use_enum_name=False` the value of an enum member is returned
as it is, here a set. -/
theorem dump_json_fails_enum : ∃ r,
    (dump (demoEnv demoInfo) 9 (.enum 2 "GREEN".toList) none { useEnumName := false }).val = .ok r ∧
    ¬ Json demoInfo r := by
  refine ⟨.set [.int 2], rfl, ?_⟩
  intro h
  cases h with
  | leaf h => exact h

/-- C30 is false: an object that is dumped as `Union[Color, Person]` is taken for a
`Color` if it has an attribute `name`, which is returned as it is. -/
theorem dump_json_fails_union : ∃ r,
    (dump (demoEnv demoInfo) 9 (.obj 5 [("name".toList, .set [.int 2])])
      (some (.union [.cls (.user 2), .cls (.user 5)])) {}).val = .ok r ∧ ¬ Json demoInfo r := by
  refine ⟨.set [.int 2], rfl, ?_⟩
  intro h
  cases h with
  | leaf h => exact h

/-- `[Point(1), Pair(2, Color.RED)]` -/
def sample : Val := .list [.obj 0 [("x".toList, .int 1)], .ntuple 1 [.int 2, .enum 2 "RED".toList]]

theorem sample_reach : Reach (demoEnv demoInfo) (fun w => w ∈ [sample,
    .obj 0 [("x".toList, .int 1)], .ntuple 1 [.int 2, .enum 2 "RED".toList], .int 1, .int 2,
    .enum 2 "RED".toList]) := by
  unfold sample
  constructor
  · intro v x xs hv hi hx
    simp only [List.mem_cons, List.not_mem_nil, or_false] at hv
    rcases hv with rfl | rfl | rfl | rfl | rfl | rfl <;> simp [Val.iter] at hi <;> subst hi <;>
      simp at hx <;> rcases hx with rfl | rfl <;> simp
  · intro es e hv; simp at hv
  · intro f es e hv; simp at hv
  · intro v w n hv h
    simp only [List.mem_cons, List.not_mem_nil, or_false] at hv
    rcases hv with rfl | rfl | rfl | rfl | rfl | rfl <;>
      simp [Env.getAttr, demoEnv, demoInfo, assoc] at h
    split at h
    · next h' => split at h' <;> simp at h' h; subst h' h; simp
    · simp at h
  · intro us n hv; simp at hv
  · intro c as hv; simp at hv; obtain ⟨rfl, _⟩ := hv; rfl
  · intro c xs hv; simp at hv; obtain ⟨rfl, _⟩ := hv; rfl
  · intro c m hv; simp at hv; obtain ⟨rfl, _⟩ := hv; exact ⟨false, rfl⟩

theorem sample_mem {w : Val} (h : Reachable (demoEnv demoInfo) sample w) : w ∈ [sample,
    .obj 0 [("x".toList, .int 1)], .ntuple 1 [.int 2, .enum 2 "RED".toList], .int 1, .int 2,
    .enum 2 "RED".toList] :=
  reachable_sub sample_reach (by simp) h

theorem sample_kind (w : Val) (h : Reachable (demoEnv demoInfo) sample w) :
    RightKind (demoEnv demoInfo) w := by
  have hw := sample_mem h
  unfold sample at hw
  simp only [List.mem_cons, List.not_mem_nil, or_false] at hw
  rcases hw with rfl | rfl | rfl | rfl | rfl | rfl <;> first | trivial | rfl | exact ⟨false, rfl⟩

theorem sample_raw (b : Bool) (P : Val → Prop) (hP : ∀ n, P (.int n)) :
    RawOk (demoEnv demoInfo) sample b P := by
  have hattr : ∀ {u w : Val} {n : PyStr}, Reachable (demoEnv demoInfo) sample u →
      (demoEnv demoInfo).getAttr u n = .ok w → P w := by
    intro u w n hu h
    have hu := sample_mem hu
    unfold sample at hu
    simp only [List.mem_cons, List.not_mem_nil, or_false] at hu
    rcases hu with rfl | rfl | rfl | rfl | rfl | rfl <;>
      simp [Env.getAttr, demoEnv, demoInfo, assoc] at h
    split at h
    · next h' => split at h' <;> simp at h' h; subst h' h; exact hP 1
    · simp at h
  constructor
  · intro c m w _ h hw
    have h := sample_mem h
    unfold sample at h
    simp at h
    obtain ⟨rfl, rfl⟩ := h
    simp [demoEnv, demoInfo, assoc] at hw
    subst hw
    exact hP 1
  · intro u w hu _ h; exact hattr hu h
  · intro u w hu h; exact h.elim (hattr hu) (hattr hu)

/-- For every depth, class and key transformer. -/
example (n : Nat) (cls : Option Ty) (kt : Option (PyStr → Except Err PyStr)) (r : Val)
    (h : (dump (demoEnv demoInfo) n sample cls
      { keyTransformer := kt, verbose := ⟨true, true⟩, useEnumName := false }).val = .ok r) :
    Json demoInfo r :=
  dump_json_partial _ n sample cls _ r (demo_sers 0) sample_kind
    (sample_raw _ _ fun _ => .leaf trivial) rfl h

/-- Something is returned. -/
example : (dump (demoEnv demoInfo) 9 sample none { verbose := ⟨true, false⟩ }).val =
    .ok (.list [.dict [(.str "x".toList, .int 1), (.str "-meta".toList, .dict
        [(.str "classes".toList, .dict [(.str "/".toList, .str "__main__.Point".toList)])])],
      .dict [(.str "first".toList, .int 2), (.str "second".toList, .str "RED".toList)]]) := by rfl

/-! ## C53: strip_nulls -/

/-- No dict has a value that is `None`. -/
def NoNulls (info : Nat → ClassInfo) : Val → Prop :=
  JsonWith info (fun _ => True) fun w => w ≠ .none

/-- C53, `_partial`: with `strip_nulls=True` no dict in the result has the value
`None`, for any class, key transformer, other options and depth.  Missing: named
tuples (see `strip_nulls_fails_namedtuple`) and the class names of a verbose dump (see
`strip_nulls_fails_verbose`) are excluded; so are values that are taken over as they
are and contain `None` (see `RawOk`). -/
theorem strip_nulls_partial (E : Env) (n : Nat) (v : Val) (cls : Option Ty) (kw : DumpKw) (r : Val)
    (hsn : kw.stripNulls = true)
    (hds : DefaultSers E kw.fork) (hkind : ∀ w, Reachable E v w → RightKind E w)
    (hraw : RawOk E v kw.useEnumName fun w => NoNulls E.info w ∧ w ≠ .none)
    (hnt : ∀ c xs, ¬ Reachable E v (.ntuple c xs)) (hvb : kw.verbose.classInfo = false)
    (hst : kw.storeCls = false)
    (h : (dump E n v cls kw).val = .ok r) : NoNulls E.info r := by
  have ho : EntryOk E (Reachable E v) (fun _ => True) (fun w => w ≠ .none) kw := {
    key := fun _ _ => trivial
    nonNull := fun hn h => hn ⟨hsn, h⟩
    complex := fun hv h => complexSer_raw (b := kw.useEnumName) hraw
      trivial trivial (fun _ h => h) hv h
    enum := fun hv h => (enumSer_raw hraw (fun _ => ⟨.leaf trivial, by simp⟩) hv h).1
    zoneinfo := by
      intro v r _ h
      unfold zoneinfoSer at h
      split at h
      · cases h
        refine Entries.dict fun e he => ?_
        simp only [List.mem_singleton] at he
        subst he
        exact ⟨⟨trivial, by simp⟩, .leaf trivial⟩
      · simp at h
    timezone := fun _ => ⟨trivial, trivial, fun _ => by simp, fun _ => by simp⟩
    ntuple := fun h => absurd h (hnt _ _)
    hashed := fun _ _ _ => ⟨trivial, fun _ => trivial, by
      rintro v hv rfl; simp [isValidJsonKey, Val.cls, Atom.cls, Cls.sub] at hv, by simp⟩
    cls := fun h => by rw [hvb] at h; cases h
    withMeta := by
      intro es r s he h
      rw [dictWithMeta_noClass hvb] at h
      have h := Except.ok.inj h
      have nil : Entries E.info (fun _ => True) (fun w => w ≠ .none) [] := fun e he => by cases he
      split at h
      · subst h
        refine (he.set (k := .str metaKey) trivial (by simp) nil.dict).set trivial
          (by simp) (Entries.dict ?_)
        intro e he
        rw [List.mem_singleton] at he
        subst he
        exact ⟨⟨trivial, by simp⟩, .leaf trivial⟩
      · subst h; exact he }
  exact (recOk (reach_of_reachable hkind) hds ho n).dump .self
    ⟨rfl, rfl, rfl, rfl, rfl, fun h => by rw [hst] at h; cases h⟩ h

/-- C53 is false for named tuples: `dump(Pair(1, None), strip_nulls=True)`. -/
theorem strip_nulls_fails_namedtuple : ∃ r,
    (dump (demoEnv demoInfo) 9 (.ntuple 1 [.int 1, .none]) none { stripNulls := true }).val = .ok r ∧
    ¬ NoNulls demoInfo r := by
  refine ⟨_, rfl, ?_⟩
  intro h
  have := (JsonWith.entries h) (.str "second".toList, .none) (by simp)
  exact this.1.2 rfl

/-- C53 is false for verbose dumps: a dict in an attribute has the class `None` in
`-meta`. -/
theorem strip_nulls_fails_verbose : ∃ r,
    (dump (demoEnv demoInfo) 9 (.obj 5 [("name".toList, .dict [(.str "a".toList, .dict [])])]) none
      { stripNulls := true, verbose := ⟨true, false⟩ }).val = .ok r ∧
    ¬ NoNulls demoInfo r := by
  refine ⟨_, rfl, ?_⟩
  intro h
  have h1 := (JsonWith.entries h) (.str "-meta".toList, _) (List.mem_cons_of_mem _ List.mem_cons_self)
  have h2 := (JsonWith.entries h1.2) _ List.mem_cons_self
  have h3 := (JsonWith.entries h2.2) _ List.mem_cons_self
  exact h3.1.2 rfl

/-- `[{'a': None, 'b': [None]}]` -/
def nulls : Val := .list [.dict [(.str ['a'], .none), (.str ['b'], .list [.none])]]

example : (dump (demoEnv demoInfo) 9 nulls none { stripNulls := true }).val =
    .ok (.list [.dict [(.str ['b'], .list [.none])]]) := by rfl

example (n : Nat) (cls : Option Ty) (r : Val)
    (h : (dump (demoEnv demoInfo) n nulls cls { stripNulls := true }).val = .ok r) :
    NoNulls demoInfo r := by
  have hS : Reach (demoEnv demoInfo) (fun w => w ∈ [nulls,
      .dict [(.str ['a'], .none), (.str ['b'], .list [.none])], .list [.none], .none,
      .str ['a'], .str ['b']]) := by
    unfold nulls
    constructor
    · intro v x xs hv hi hx
      simp only [List.mem_cons, List.not_mem_nil, or_false] at hv
      rcases hv with rfl | rfl | rfl | rfl | rfl | rfl <;> simp [Val.iter] at hi <;> subst hi <;>
        simp at hx <;> first | (subst hx; simp) | (rcases hx with rfl | rfl <;> simp)
    · intro es e hv he
      simp at hv; subst hv; simp at he; rcases he with rfl | rfl <;> simp
    · intro f es e hv; simp at hv
    · intro v w n hv h
      simp only [List.mem_cons, List.not_mem_nil, or_false] at hv
      rcases hv with rfl | rfl | rfl | rfl | rfl | rfl <;> simp [Env.getAttr, demoEnv] at h
    · intro us n hv; simp at hv
    · intro c as hv; simp at hv
    · intro c xs hv; simp at hv
    · intro c m hv; simp at hv
  have hmem : ∀ {w}, Reachable (demoEnv demoInfo) nulls w → _ :=
    fun {w} h => reachable_sub hS (by simp) h
  have hattr : ∀ {u w : Val} {m : PyStr}, Reachable (demoEnv demoInfo) nulls u →
      (demoEnv demoInfo).getAttr u m ≠ .ok w := by
    intro u w m hu h
    have hu := hmem hu
    unfold nulls at hu
    simp only [List.mem_cons, List.not_mem_nil, or_false] at hu
    rcases hu with rfl | rfl | rfl | rfl | rfl | rfl <;> simp [Env.getAttr, demoEnv] at h
  refine strip_nulls_partial _ n nulls cls _ r rfl (demo_sers 0) ?_ ⟨?_, ?_, ?_⟩ ?_ rfl rfl h
  · intro w hw
    have hw := hmem hw
    unfold nulls at hw
    simp only [List.mem_cons, List.not_mem_nil, or_false] at hw
    rcases hw with rfl | rfl | rfl | rfl | rfl | rfl <;> trivial
  · intro c m w _ h; have := hmem h; simp [nulls] at this
  · intro u w hu _ h; exact absurd h (hattr hu)
  · intro u w hu h; exact h.elim (fun h => absurd h (hattr hu)) (fun h => absurd h (hattr hu))
  · intro c xs h; have := hmem h; simp [nulls] at this

/-! ## C54: key_transformer -/

/-- The keys that jsons itself makes for complex numbers, time zones and `ZoneInfo`. -/
def ownKeys : List PyStr := ["real", "imag", "name", "offset", "key"].map String.toList

/-- C54, `_partial`: with `key_transformer=f` every key of every dict in the result
is an image under `f`, or one of the names that jsons gives to the parts of complex
numbers, time zones and `ZoneInfo`s, or the name of a field of a named tuple.  Missing:
those names are not transformed (see `key_transformer_fails`), and dumps with `verbose`
or with keys that are not JSON keys are excluded. -/
theorem key_transformer_partial (E : Env) (n : Nat) (v : Val) (cls : Option Ty) (kw : DumpKw)
    (f : PyStr → Except Err PyStr) (r : Val) (hkt : kw.keyTransformer = some f)
    (hds : DefaultSers E kw.fork) (hkind : ∀ w, Reachable E v w → RightKind E w)
    (hkeys : ∀ es g, (Reachable E v (.dict es) ∨ Reachable E v (.ddict g es)) →
      ∀ e ∈ es, isValidJsonKey E e.1 = true)
    (hraw : RawOk E v kw.useEnumName fun w => JsonLeaf E.info w) (hvb : kw.verbose = {})
    (hst : kw.storeCls = false)
    (h : (dump E n v cls kw).val = .ok r) :
    JsonWith E.info (fun k => (∃ s t, f s = .ok t ∧ k = .str t) ∨ (∃ s ∈ ownKeys, k = .str s) ∨
      ∃ c xs, Reachable E v (.ntuple c xs) ∧ ∃ s ∈ (E.info c).fields, k = .str s)
      (fun _ => True) r := by
  have own : ∀ s ∈ ownKeys, (fun k => (∃ s t, f s = .ok t ∧ k = .str t) ∨
      (∃ s ∈ ownKeys, k = .str s) ∨
      ∃ c xs, Reachable E v (.ntuple c xs) ∧ ∃ s ∈ (E.info c).fields, k = .str s) (Val.str s) :=
    fun s hs => .inr (.inl ⟨s, hs, rfl⟩)
  have ho : EntryOk E (Reachable E v) (fun k => (∃ s t, f s = .ok t ∧ k = .str t) ∨
      (∃ s ∈ ownKeys, k = .str s) ∨
      ∃ c xs, Reachable E v (.ntuple c xs) ∧ ∃ s ∈ (E.info c).fields, k = .str s)
      (fun _ => True) kw := {
    key := by
      intro k k' _ h
      rw [hkt] at h
      rcases transformKey_ok h with ⟨h1, _⟩ | ⟨f', s, t, h1, _, h', rfl⟩
      · cases h1
      · cases h1; exact .inl ⟨s, t, h', rfl⟩
    nonNull := fun _ => trivial
    complex := fun hv h => complexSer_raw (b := kw.useEnumName)
      ⟨fun a b c => ⟨.leaf (hraw.1 a b c), trivial⟩, fun a b c => ⟨.leaf (hraw.2 a b c), trivial⟩,
        fun a b => ⟨.leaf (hraw.3 a b), trivial⟩⟩
      (own _ (by decide)) (own _ (by decide)) (fun _ _ => trivial) hv h
    enum := fun hv h => .leaf (enumSer_raw hraw (fun _ => trivial) hv h)
    zoneinfo := by
      intro v r _ h
      unfold zoneinfoSer at h
      split at h
      · cases h
        refine Entries.dict fun e he => ?_
        simp only [List.mem_singleton] at he
        subst he
        exact ⟨⟨own _ (by decide), trivial⟩, .leaf trivial⟩
      · simp at h
    timezone := fun _ => ⟨own _ (by decide), own _ (by decide), fun _ => trivial, fun _ => trivial⟩
    ntuple := fun h => ⟨fun s hs => .inr (.inr ⟨_, _, h, s, hs, rfl⟩), fun _ => trivial⟩
    hashed := fun h he hn => by rw [hkeys _ _ h _ he] at hn; cases hn
    cls := fun h => by rw [hvb] at h; cases h
    withMeta := by
      intro es r s he h
      rw [hvb] at h
      cases h
      exact he }
  exact (recOk (reach_of_reachable hkind) hds ho n).dump .self
    ⟨rfl, rfl, rfl, rfl, rfl, fun h => by rw [hst] at h; cases h⟩ h

/-- C54 is false: the keys of a dumped complex number and of a dumped named tuple are
not transformed, even if no image under `f` looks like that. -/
theorem key_transformer_fails : ∃ (f : PyStr → Except Err PyStr) (v r : Val) (k w : Val)
    (es : List (Val × Val)), (dump (demoEnv demoInfo) 9 v none { keyTransformer := some f }).val =
      .ok r ∧ r = .dict es ∧ (k, w) ∈ es ∧ ∀ s t, f s = .ok t → k ≠ .str t := by
  refine ⟨fun s => .ok ('X' :: s), .atom (.complex 1 2), _, .str "real".toList, _, _, rfl, rfl,
    List.mem_cons_self, ?_⟩
  intro s t h h'
  cases h
  simp at h'

/-- Attributes and the keys of dicts are transformed. -/
example : (dump (demoEnv demoInfo) 9 (.obj 5 [("name".toList, .dict [(.str "a".toList, .int 1)])])
    none { keyTransformer := some fun s => .ok ('X' :: s) }).val =
    .ok (.dict [(.str "Xname".toList, .dict [(.str "Xa".toList, .int 1)])]) := by rfl

example (n : Nat) (cls : Option Ty) (f : PyStr → Except Err PyStr) (r : Val)
    (h : (dump (demoEnv demoInfo) n sample cls { keyTransformer := some f }).val = .ok r) :=
  key_transformer_partial (demoEnv demoInfo) n sample cls _ f r rfl (demo_sers 0) sample_kind
    (by
      intro es g h
      rcases h with h | h <;> have := sample_mem h <;> simp [sample] at this)
    (sample_raw _ _ fun _ => trivial) rfl rfl h

end Verif.Props.DumpShape
