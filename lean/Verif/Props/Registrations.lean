import Verif.Core.DumpLemmas
import Verif.Core.LoadLemmas
import Verif.Core.LoadDemo
import Verif.Core.AttrLemmas
import Verif.Props.KeyOrder
import Verif.Props.Registry
import Verif.RegistryLemmas

/-! # A registration only matters where its class occurs (C96) -/

set_option autoImplicit false

namespace Verif.Props.Registrations

open Verif Verif.Core Verif.Datetime
open Verif.Props.Depth (bind_congr_ok dictDel_mem transformKeys_values)

/-! ## What occurs in a dump -/

/-- A value or a type. -/
inductive Thing where
  | val (v : Val)
  | ty (t : Ty)

/-- What occurs when the things `S` are dumped: the elements, keys and values of collections, the
attributes (properties, too), the class of a value, the parameters of a type, the type hints of a
class (in strict mode also those of its constructor, and the types of first elements).  A
`timezone` is dumped with its offset. -/
inductive Occurs (E : Env) (strict : Bool) (S : Thing → Prop) : Thing → Prop where
  | given (x : Thing) : S x → Occurs E strict S x
  | elem (v x : Val) (xs : List Val) : Occurs E strict S (.val v) → v.iter = some xs → x ∈ xs →
      Occurs E strict S (.val x)
  | value (es : List (Val × Val)) (e : Val × Val) : Occurs E strict S (.val (.dict es)) → e ∈ es →
      Occurs E strict S (.val e.2)
  | dvalue (t : Option Ty) (es : List (Val × Val)) (e : Val × Val) :
      Occurs E strict S (.val (.ddict t es)) → e ∈ es → Occurs E strict S (.val e.2)
  | attr (v a : Val) (n : PyStr) : Occurs E strict S (.val v) → E.getAttr v n = .ok a →
      Occurs E strict S (.val a)
  | offset (us : Int) (n : Option PyStr) : Occurs E strict S (.val (.atom (.timezone us n))) →
      Occurs E strict S (.val (.atom (.timedelta us)))
  | cls (v : Val) : Occurs E strict S (.val v) → Occurs E strict S (.ty (.cls v.cls))
  | type (v : Val) : strict = true → Occurs E strict S (.val v) → Occurs E strict S (.ty (E.getType v))
  | arg (t a : Ty) : Occurs E strict S (.ty t) → a ∈ t.getArgs → Occurs E strict S (.ty a)
  | ell : Occurs E strict S (.ty (.gen .tupleEll [])) → Occurs E strict S (.ty .any)
  | hint (c : Nat) (h : PyStr × Ty) : Occurs E strict S (.ty (.cls (.user c))) → h ∈ (E.info c).hints →
      Occurs E strict S (.ty h.2)
  | init (c : Nat) (h : PyStr × Ty) : strict = true → Occurs E strict S (.ty (.cls (.user c))) →
      h ∈ (E.info c).initHints → Occurs E strict S (.ty h.2)
  | foreign (v : Val) (cls : Option Ty) (kw : DumpKw) (as : List (PyStr × Option Ty)) (n : PyStr) (t : Ty) :
      kw.strict = strict → Occurs E strict S (.val v) → E.foreignAttrs v cls kw = .ok as →
      (n, some t) ∈ as → Occurs E strict S (.ty t)

/-- The keyword arguments: `fork_inst` is `f`, `strict` is as given, and the types for the
entries of dicts are among `T`. -/
structure KwIn (f : Nat) (strict : Bool) (O : Thing → Prop) (kw : DumpKw) : Prop where
  fork : kw.fork = f
  strict : kw.strict = strict
  types : ∀ p ∈ kw.types, O (.ty p.2)

/-- Calls with what is in `O` have the same outcome. -/
structure Agree (f : Nat) (strict : Bool) (O : Thing → Prop) (rec rec' : Rec) : Prop where
  dump : ∀ v cls kw, KwIn f strict O kw → O (.val v) → (∀ t ∈ cls, O (.ty t)) →
    rec'.dump v cls kw = rec.dump v cls kw
  call : ∀ g v cls kw, KwIn f strict O kw → O (.val v) → (∀ t ∈ cls, O (.ty t)) →
    rec'.call g v cls kw = rec.call g v cls kw

/-- The serializers of the program only dump what occurs in what they are given. -/
def SersStay (E : Env) (f : Nat) (strict : Bool) (S : Thing → Prop) : Prop :=
  ∀ id rec rec', Agree f strict (Occurs E strict S) rec rec' → ∀ v cls kw,
    KwIn f strict (Occurs E strict S) kw → Occurs E strict S (.val v) →
    (∀ t ∈ cls, Occurs E strict S (.ty t)) → E.customSer id rec' v cls kw = E.customSer id rec v cls kw

section
variable {E : Env} {s : Nat → Verif.Registry.Table SerFn Ty} {f : Nat} {strict : Bool} {S : Thing → Prop}
  {rec rec' : Rec}

/-- The same surroundings with other registrations of serializers. -/
abbrev dumpEnv (E : Env) (s : Nat → Verif.Registry.Table SerFn Ty) : Env := { E with sers := s }

local notation "O" => Occurs E strict S

theorem KwIn.storeCls {P : Thing → Prop} {kw : DumpKw} (h : KwIn f strict P kw) (b : Bool) :
    KwIn f strict P { kw with storeCls := b } := ⟨h.fork, h.strict, h.types⟩

theorem listSer_eq (hs : ∀ t, O (.ty t) → (dumpEnv E s).getSer f t = E.getSer f t)
    (hr : Agree f strict O rec rec') (v : Val) (cls : Option Ty) (kw : DumpKw) (hk : KwIn f strict O kw)
    (hv : O (.val v)) (hc : ∀ t ∈ cls, O (.ty t)) :
    listSer (dumpEnv E s) rec' v cls kw = listSer E rec v cls kw := by
  have ht : ∀ xs t, (∀ x ∈ xs, O (.val x)) → O (.ty t) →
      listSer.typed (dumpEnv E s) rec' kw xs t { kw with storeCls := false } =
      listSer.typed E rec kw xs t { kw with storeCls := false } := by
    intro xs t hx ht
    unfold listSer.typed
    rw [show (dumpEnv E s).getSer kw.fork t = E.getSer kw.fork t by rw [hk.fork]; exact hs t ht]
    refine congrArg _ (funext fun fn => congrArg (· >>= _) (mapRes_congr fun x hm => ?_))
    cases fn with
    | none => rfl
    | some g => exact hr.call _ _ _ _ (hk.storeCls _) (hx x hm) (by rintro _ ⟨⟩; exact ht)
  unfold listSer
  split
  · rfl
  · cases hi : v.iter with
    | none => rfl
    | some xs =>
      have hx : ∀ x ∈ xs, O (.val x) := fun x hm => .elem v x xs hv hi hm
      dsimp only
      cases ha : (cls.map Ty.getArgs).getD [] with
      | cons t ts =>
        refine ht xs t hx ?_
        cases cls with
        | none => cases ha
        | some u => exact .arg u t (hc u rfl) (by simp only [Option.map_some, Option.getD_some] at ha; rw [ha]; exact List.mem_cons_self)
      | nil =>
        dsimp only
        split
        · split
          · rfl
          · rfl
          · rfl
          · rfl
          · next x _ _ _ _ _ => exact ht _ _ hx (.cls _ (hx _ List.mem_cons_self))
          · rfl
        · rw [mapRes_congr fun x hm => hr.dump x none _ (hk.storeCls false) (hx x hm) (by rintro _ ⟨⟩)]

/-- The types with which elements are dumped. -/
theorem elementTypes_in (v : Val) (n : Nat) (cls : Option Ty) (b : Bool) (hb : b = strict) (hv : O (.val v))
    (hc : ∀ t ∈ cls, ∀ a ∈ t.getArgs, O (.ty a)) :
    ∀ l, (elementTypes E v n cls b).val = .ok l → ∀ u ∈ l, ∀ t ∈ u, O (.ty t) := by
  have key : ∀ (cls : Option Ty), (∀ t ∈ cls, ∀ a ∈ t.getArgs, O (.ty a)) →
      ∀ l, getSubclasses n cls = .ok l → ∀ u ∈ l, ∀ t ∈ u, O (.ty t) := by
    intro cls hc l h u hu t ht
    have harg : ∀ a ∈ (cls.map Ty.getArgs).getD [], O (.ty a) := by
      cases cls with
      | none => exact fun a ha => nomatch ha
      | some u' => exact hc u' rfl
    unfold getSubclasses at h
    dsimp only at h
    generalize (cls.map Ty.getArgs).getD [] = args at h harg
    split at h
    · split at h <;> cases h
      rw [List.mem_replicate] at hu
      rw [hu.2] at ht
      cases ht
    · split at h <;> cases h
      rw [List.mem_replicate] at hu
      rw [hu.2] at ht
      cases ht
      exact harg _ List.mem_cons_self
    · split at h <;> cases h
      rw [List.mem_map] at hu
      obtain ⟨a, ha, rfl⟩ := hu
      cases ht
      exact harg _ ha
  intro l h
  unfold elementTypes at h
  split at h
  · next hs =>
    rw [bind_val] at h
    cases hd : (Res.liftK (determineCls E v cls)).val with
    | error e => rw [hd] at h; cases h
    | ok c =>
      rw [hd] at h
      dsimp only at h
      rw [lift_val] at h
      refine key c ?_ l h
      rw [liftK_ok] at hd
      unfold determineCls at hd
      have hel : ∀ xs x, v.iter = some xs → x ∈ xs → O (.ty (E.getType x)) :=
        fun xs x hi hx => .type x (hb ▸ hs) (.elem v x xs hv hi hx)
      split at hd
      · cases hd
        exact hc
      · split at hd <;> cases hd
        · rintro _ ⟨⟩ a ha
          rw [List.mem_singleton.mp ha]
          exact hel _ _ rfl List.mem_cons_self
        · rintro _ ⟨⟩ a ha
          rw [List.mem_singleton.mp ha]
          exact hel _ _ rfl List.mem_cons_self
        · rintro _ ⟨⟩ a ha
          rw [List.mem_singleton.mp ha]
          exact hel _ _ rfl List.mem_cons_self
        · rintro _ ⟨⟩ a ha
          cases ha
        · rintro _ ⟨⟩
  · rw [lift_val] at h
    exact key none (by rintro _ ⟨⟩) l h

theorem iterableSer_eq (hr : Agree f strict O rec rec') (v : Val) (cls : Option Ty) (kw : DumpKw)
    (hk : KwIn f strict O kw) (hv : O (.val v)) (hc : ∀ t ∈ cls, ∀ a ∈ t.getArgs, O (.ty a)) :
    iterableSer (dumpEnv E s) rec' v cls kw = iterableSer E rec v cls kw := by
  unfold iterableSer
  cases hi : v.iter with
  | none => rfl
  | some xs =>
    dsimp only
    refine bind_congr_ok (x := elementTypes E v xs.length cls kw.strict) fun l hl => ?_
    rw [mapRes_congr fun p hp => ?_]
    obtain ⟨h1, h2⟩ := List.of_mem_zip (a := p.1) (b := p.2) hp
    exact hr.dump _ _ _ (hk.storeCls false) (.elem v _ xs hv hi h1)
      (elementTypes_in v _ cls _ hk.strict hv hc l hl _ h2)

theorem tupleSer_eq (hr : Agree f strict O rec rec') (v : Val) (cls : Option Ty) (kw : DumpKw)
    (hk : KwIn f strict O kw) (hv : O (.val v)) (hc : ∀ t ∈ cls, O (.ty t)) :
    tupleSer (dumpEnv E s) rec' v cls kw = tupleSer E rec v cls kw := by
  have hcls : ∀ v' : Val, v' = v → (do
      let cls_ ← tupleCls v' cls
      iterableSer (dumpEnv E s) rec' v' cls_ kw) = (do
      let cls_ ← tupleCls v' cls
      iterableSer E rec v' cls_ kw) := by
    rintro _ rfl
    refine bind_congr_ok fun c h => iterableSer_eq hr _ c kw hk hv ?_
    unfold tupleCls at h
    split at h
    · cases h; rintro _ ⟨⟩
    · next t =>
      split at h
      · cases h
      · cases h
        rintro _ ⟨⟩ a ha
        exact .arg t a (hc t rfl) ha
      · next hell =>
        split at h
        · cases h
        · cases h
          rintro _ ⟨⟩ a ha
          change a ∈ List.replicate _ _ at ha
          rw [List.mem_replicate] at ha
          rw [ha.2]
          have ht := hc t rfl
          unfold tupleWithEllipsis at hell
          split at hell
          · next args =>
            cases args with
            | nil => exact .ell ht
            | cons b bs => exact .arg _ _ ht List.mem_cons_self
          all_goals cases hell
  unfold tupleSer
  split
  · next c xs =>
    unfold namedtupleSer
    rw [mapRes_congr fun p hp => ?_]
    rw [hr.dump _ _ _ hk (.elem _ _ xs hv rfl (List.of_mem_zip (a := p.1) (b := p.2) hp).2) (by rintro _ ⟨⟩)]
  · exact hcls _ rfl

theorem storeAndHash_eq (hr : Agree f strict O rec rec') (kw : DumpKw) (hk : KwIn f strict O kw)
    (result : List (Val × Val)) (key : Val) (hv : O (.val key)) :
    storeAndHash (dumpEnv E s) rec' result key kw = storeAndHash E rec result key kw := by
  unfold storeAndHash
  rw [hr.dump _ _ _ hk hv (by rintro _ ⟨⟩)]
  rfl

theorem dictLoop_eq (hr : Agree f strict O rec rec') (kw : DumpKw) (hk : KwIn f strict O kw) :
    ∀ es acc, (∀ e ∈ es, O (.val e.1) ∧ O (.val e.2)) →
      dictLoop (dumpEnv E s) rec' kw es acc = dictLoop E rec kw es acc := by
  intro es
  induction es with
  | nil => intro acc _; rfl
  | cons e es ih =>
    intro acc he
    obtain ⟨k, v⟩ := e
    obtain ⟨h1, h2⟩ := he _ List.mem_cons_self
    have hd : ∀ cls : Option Ty, (∀ t ∈ cls, O (.ty t)) →
        rec'.dump v cls { kw with types := [] } = rec.dump v cls { kw with types := [] } :=
      fun cls hc => hr.dump v cls _ ⟨hk.fork, hk.strict, by rintro _ ⟨⟩⟩ h2 hc
    simp only [dictLoop, storeAndHash_eq hr kw hk _ k h1, fun acc => ih acc fun e h => he e (List.mem_cons_of_mem _ h)]
    rw [hd]
    intro t ht
    split at ht
    · exact hk.types (_, t) (assoc_mem ht)
    · cases ht

theorem unionLoop_eq (hr : Agree f strict O rec rec') (v : Val) (kw : DumpKw) (hk : KwIn f strict O kw)
    (hv : O (.val v)) : ∀ ts : List Ty, (∀ t ∈ ts, O (.ty t)) → unionLoop rec' v kw ts = unionLoop rec v kw ts := by
  intro ts
  induction ts with
  | nil => intro _; rfl
  | cons t ts ih =>
    intro ht
    simp only [unionLoop, hr.dump v (some t) kw hk hv (by rintro _ ⟨⟩; exact ht _ List.mem_cons_self),
      ih fun t h => ht t (List.mem_cons_of_mem _ h)]

theorem attrLoop_eq (hs : ∀ t, O (.ty t) → (dumpEnv E s).getSer f t = E.getSer f t)
    (hr : Agree f strict O rec rec') (kw : DumpKw) (hk : KwIn f strict O kw) (b : Bool) (v : Val) (hv : O (.val v))
    (name : PyStr) : ∀ (as : List (PyStr × Option Ty)) acc, (∀ a ∈ as, ∀ t ∈ a.2, O (.ty t)) →
      attrLoop (dumpEnv E s) rec' kw b v name as acc = attrLoop E rec kw b v name as acc := by
  intro as
  induction as with
  | nil => intro acc _; rfl
  | cons a as ih =>
    intro acc ha
    obtain ⟨n, hint⟩ := a
    have hh := ha _ List.mem_cons_self
    have hd : ∀ fn attr, O (.val attr) →
        dumpAttr (dumpEnv E s) rec' kw fn attr hint = dumpAttr E rec kw fn attr hint := by
      intro fn attr hattr
      unfold dumpAttr
      cases fn with
      | none => rfl
      | some g =>
        dsimp only
        rw [hr.call _ _ _ kw hk hattr hh]
        rfl
    simp only [attrLoop, fun acc => ih acc fun e h => ha e (List.mem_cons_of_mem _ h)]
    change (Res.lift (E.getAttr v n) >>= _) = _
    refine bind_congr_ok fun attr hattr => ?_
    rw [lift_val] at hattr
    have hO : O (.val attr) := .attr v attr n hv hattr
    rw [hk.fork, hs _ (by
      cases hint with
      | none => exact .cls _ hO
      | some t => exact hh t rfl)]
    simp only [fun fn => hd fn attr hO]
    rfl

theorem mem_assocSet {α : Type} {l : List (PyStr × α)} {k : PyStr} {v : α} {p : PyStr × α}
    (h : p ∈ assocSet l k v) : p ∈ l ∨ p = (k, v) := by
  induction l with
  | nil => exact .inr (by simpa [assocSet] using h)
  | cons e l ih =>
    obtain ⟨k', v'⟩ := e
    simp only [assocSet] at h
    split at h
    · next hk =>
      subst hk
      rcases List.mem_cons.mp h with h | h
      · exact .inr h
      · exact .inl (List.mem_cons_of_mem _ h)
    · rcases List.mem_cons.mp h with h | h
      · exact .inl (h ▸ List.mem_cons_self)
      · exact (ih h).imp (List.mem_cons_of_mem _) id

/-- The types with which attributes are dumped. -/
theorem attributesAndTypes_in (I : ClassInfo) (hh : ∀ p ∈ I.hints, O (.ty p.2))
    (hi : strict = true → ∀ p ∈ I.initHints, O (.ty p.2)) :
    ∀ a ∈ attributesAndTypes I strict, ∀ t ∈ a.2, O (.ty t) := by
  have key : ∀ (ms : List (PyStr × Member)) (base : List (PyStr × Option Ty)),
      (∀ a ∈ base, ∀ t ∈ a.2, O (.ty t)) →
      ∀ a ∈ ms.foldl (fun as p => assocSet as p.1 none) base, ∀ t ∈ a.2, O (.ty t) := by
    intro ms
    induction ms with
    | nil => exact fun base h => h
    | cons m ms ih =>
      intro base h
      refine ih _ fun a ha t ht => ?_
      rcases mem_assocSet ha with h' | h'
      · exact h a h' t ht
      · rw [h'] at ht; cases ht
  refine key _ _ ?_
  intro a ha t ht
  split at ha
  · rw [List.mem_map] at ha
    obtain ⟨_, _, rfl⟩ := ha
    cases ht
  · split at ha
    · rw [List.mem_map] at ha
      obtain ⟨p, hp, rfl⟩ := ha
      cases ht
      exact hh p hp
    · split at ha
      · next hst =>
        rw [List.mem_map] at ha
        obtain ⟨p, hp, rfl⟩ := ha
        cases ht
        exact hi hst p (List.mem_filter.mp hp).1
      · cases ha

theorem filterAttributes_in {I : ClassInfo} {kw : DumpKw} {strip : StripAttr} {l as : List (PyStr × Option Ty)}
    (h : filterAttributes I kw strip l = .ok as) : ∀ a ∈ as, a ∈ l := by
  have key : ∀ st (l as : List (PyStr × Option Ty)), filterAttributes.go I kw st l = .ok as → ∀ a ∈ as, a ∈ l := by
    intro st l
    induction l with
    | nil => intro as h; cases h; exact fun _ h => h
    | cons p ps ih =>
      intro as h a ha
      simp only [filterAttributes.go] at h
      cases hb : keepAttr I kw st p.1 with
      | error e => rw [hb] at h; cases h
      | ok b =>
        cases hr : filterAttributes.go I kw st ps with
        | error e => rw [hb, hr] at h; cases h
        | ok r =>
          rw [hb, hr] at h
          cases h
          split at ha
          · rcases List.mem_cons.mp ha with rfl | ha
            · exact List.mem_cons_self
            · exact List.mem_cons_of_mem _ (ih r hr a ha)
          · exact List.mem_cons_of_mem _ (ih r hr a ha)
  unfold filterAttributes at h
  split at h
  · exact key _ l as h
  · exact key _ l as h
  · cases h

theorem objectSer_eq (hs : ∀ t, O (.ty t) → (dumpEnv E s).getSer f t = E.getSer f t)
    (hr : Agree f strict O rec rec') (v : Val) (cls : Option Ty) (kw : DumpKw) (hk : KwIn f strict O kw)
    (hv : O (.val v)) (hc : ∀ t ∈ cls, O (.ty t)) :
    objectSer (dumpEnv E s) rec' v cls kw = objectSer E rec v cls kw := by
  have h : ∀ strip t I (as : Except Err (List (PyStr × Option Ty))),
      (∀ l, as = .ok l → ∀ a ∈ l, ∀ t ∈ a.2, O (.ty t)) →
      objectSerWith (dumpEnv E s) rec' v kw strip t I as = objectSerWith E rec v kw strip t I as := by
    intro strip t I as has
    unfold objectSerWith
    refine bind_congr_ok fun l hl => ?_
    rw [lift_val] at hl
    dsimp only
    rw [attrLoop_eq hs hr { kw with stripAttr := strip, storeCls := kw.verbose.classInfo } ⟨hk.fork, hk.strict, hk.types⟩ _ v hv _ l [] (has l hl)]
    rfl
  have hcls : ∀ c, O (.ty (.cls (.user c))) → ∀ a ∈ attributesAndTypes (E.info c) kw.strict, ∀ t ∈ a.2, O (.ty t) := by
    intro c ho
    rw [hk.strict]
    exact attributesAndTypes_in _ (fun p hp => .hint c p ho hp) (fun hst p hp => .init c p hst ho hp)
  have hfor : ∀ cls l, E.foreignAttrs v cls kw = .ok l → ∀ a ∈ l, ∀ t ∈ a.2, O (.ty t) := by
    intro cls l hl a ha t ht
    obtain ⟨n, h⟩ := a
    cases ht
    exact .foreign v cls kw l n t hk.strict hv hl ha
  have hfrom : objectSer (dumpEnv E s) rec' v none kw = objectSer E rec v none kw := by
    unfold objectSer
    cases v
    case obj c as =>
      refine h _ _ _ _ fun l hl a ha t ht => ?_
      have hm := filterAttributes_in hl a ha
      rw [List.mem_map] at hm
      obtain ⟨n, _, rfl⟩ := hm
      dsimp only at ht
      cases hn : assoc (attributesAndTypes (E.info c) kw.strict) n with
      | none => rw [hn] at ht; cases ht
      | some x =>
        rw [hn] at ht
        exact hcls c (.cls _ hv) _ (assoc_mem hn) t ht
    all_goals exact h _ _ _ _ (hfor _)
  cases cls with
  | none => exact hfrom
  | some t =>
    by_cases hst : kw.strict = true
    · unfold objectSer
      dsimp only
      rw [if_pos hst, if_pos hst]
      split
      · next c =>
        refine h _ _ _ _ fun l hl => ?_
        unfold attributesFromClass at hl
        split at hl
        · exact fun a ha => hcls c (hc _ rfl) a (filterAttributes_in hl a ha)
        · cases hl
      · refine h _ _ _ _ fun l hl => ?_
        unfold attributesFromClass at hl
        split at hl
        · intro a ha
          have hm := filterAttributes_in hl a ha
          rw [show attributesAndTypes ClassInfo.object kw.strict = [] from by cases kw.strict <;> rfl] at hm
          cases hm
        · cases hl
      · exact h _ _ _ _ (hfor _)
    · have hn : ∀ (E : Env) rec, objectSer E rec v (some t) kw = objectSer E rec v none kw := by
        intro E rec
        unfold objectSer
        dsimp only
        rw [if_neg hst]
      rw [hn, hn]
      exact hfrom

theorem callSer_eq (hs : ∀ t, O (.ty t) → (dumpEnv E s).getSer f t = E.getSer f t) (hcu : SersStay E f strict S)
    (hr : Agree f strict O rec rec') (g : SerFn) (v : Val) (cls : Option Ty) (kw : DumpKw)
    (hk : KwIn f strict O kw) (hv : O (.val v)) (hc : ∀ t ∈ cls, O (.ty t)) :
    callSer (dumpEnv E s) rec' g v cls kw = callSer E rec g v cls kw := by
  cases g with
  | tuple => exact tupleSer_eq hr v cls kw hk hv hc
  | timezone =>
    show timezoneSer rec' v cls kw = timezoneSer rec v cls kw
    unfold timezoneSer
    split
    · rw [hr.dump _ _ kw hk (.offset _ _ hv) hc]
    · rfl
  | dict =>
    show dictSer (dumpEnv E s) rec' v kw = dictSer E rec v kw
    unfold dictSer
    split
    · rw [dictLoop_eq hr kw hk]
      exact fun e he => ⟨.elem _ _ _ hv rfl (List.mem_map_of_mem he), .value _ e hv he⟩
    · rw [dictLoop_eq hr kw hk]
      exact fun e he => ⟨.elem _ _ _ hv rfl (List.mem_map_of_mem he), .dvalue _ _ e hv he⟩
    · rfl
  | list => exact listSer_eq hs hr v cls kw hk hv hc
  | iterable => exact iterableSer_eq hr v cls kw hk hv fun t ht a ha => .arg t a (hc t ht) ha
  | object => exact objectSer_eq hs hr v cls kw hk hv hc
  | union =>
    show unionSer rec' v cls kw = unionSer rec v cls kw
    unfold unionSer
    cases cls with
    | none => rfl
    | some t =>
      dsimp only [Option.bind_some]
      cases hu : t.unionParams with
      | none => rfl
      | some ts =>
        dsimp only
        split
        · rfl
        · refine unionLoop_eq hr v kw hk hv ts fun u hm => .arg t u (hc t rfl) ?_
          unfold Ty.unionParams at hu
          split at hu <;> cases hu
          · exact hm
          · exact hm
  | custom id => exact hcu id rec rec' hr v cls kw hk hv hc
  | _ => rfl

theorem recOf_agree (hs : ∀ t, O (.ty t) → (dumpEnv E s).getSer f t = E.getSer f t) (hcu : SersStay E f strict S) :
    ∀ n, Agree f strict O (recOf E n) (recOf (dumpEnv E s) n) := by
  intro n
  induction n with
  | zero => exact ⟨fun _ _ _ _ _ _ => rfl, fun _ _ _ _ _ _ _ => rfl⟩
  | succ n ih =>
    refine ⟨?_, fun g v cls kw hk hv hc => callSer_eq hs hcu ih g v cls kw hk hv hc⟩
    intro v cls kw hk hv hc
    show dumpWith (dumpEnv E s) (recOf (dumpEnv E s) n) v cls kw = dumpWith E (recOf E n) v cls kw
    unfold dumpWith
    dsimp only
    rw [hk.fork, hs _ (by
      cases cls with
      | none => exact .cls _ hv
      | some t => exact hc t rfl)]
    simp only [fun g => ih.call g v cls kw hk hv hc]

end

/-! ## Registrations -/

/-- The name under which a function is registered for a class, or for `None`. -/
def nameOf (W : Verif.Registry.World Ty) : Option Ty → PyStr
  | some c => W.regName c
  | none => "nonetype".toList

/-- A registration for `c` concerns the type `t`: `t`, or what it is a `NewType` of, or a superclass
of that, has the name of `c` (regardless of case).  This is so for `c` itself and for its
subclasses. -/
def Concerns (W : Verif.Registry.World Ty) (c : Option Ty) (t : Ty) : Prop :=
  ∃ u, (u = t ∨ W.supertype t = some u) ∧ ∃ p, (p = u ∨ W.sub u p = some true) ∧ W.regName p = nameOf W c

/-- A registration does not change what is found for types that it does not concern. -/
theorem getLizer_other {F : Type} (W : Verif.Registry.World Ty) (g : F) (hp : Bool) (t : Ty) :
    ∀ (cs : List (Option Ty)) (tab : Verif.Registry.Table F Ty), (∀ c ∈ cs, ¬ Concerns W c t) →
    Verif.Registry.getLizer W (Verif.Registry.setLizer W g cs hp tab) t = Verif.Registry.getLizer W tab t := by
  have one : ∀ (c : Option Ty) (tab : Verif.Registry.Table F Ty), ¬ Concerns W c t →
      Verif.Registry.getLizer W (Verif.Registry.setLizer1 W g hp tab c) t = Verif.Registry.getLizer W tab t := by
    intro c tab hc
    have hl : ∀ n, n ≠ nameOf W c → (Verif.Registry.setLizer1 W g hp tab c).lizers n = tab.lizers n := by
      intro n hn
      cases c with
      | none => exact if_neg hn
      | some c => exact if_neg hn
    have hrec : ∀ u, (u = t ∨ W.supertype t = some u) →
        Verif.Registry.getLizerRec W (Verif.Registry.setLizer1 W g hp tab c) u = Verif.Registry.getLizerRec W tab u := by
      intro u hu
      have hname : ∀ p, (p = u ∨ W.sub u p = some true) → W.lookupName p ≠ nameOf W c := by
        intro p h e
        rw [Verif.Registry.lookupName_eq] at e
        exact hc ⟨u, hu, p, h, e⟩
      have hpar : Verif.Registry.getParents W u (Verif.Registry.setLizer1 W g hp tab c).classes =
          Verif.Registry.getParents W u tab.classes := by
        cases c with
        | none => rfl
        | some c =>
          have hs : (W.sub u c == some true) = false := by
            rw [beq_eq_false_iff_ne]
            intro e
            exact hc ⟨u, hu, c, .inr e, rfl⟩
          unfold Verif.Registry.getParents Verif.Registry.setLizer1
          cases hp <;> simp [List.filter_cons, List.filter_append, hs]
      unfold Verif.Registry.getLizerRec Verif.Registry.getLizerByParents
      rw [hl _ (hname u (.inl rfl)), hpar]
      split
      · rfl
      · split
        · rfl
        · next p ps h =>
          have hm : p ∈ Verif.Registry.getParents W u tab.classes := by rw [h]; exact List.mem_cons_self
          have hsub := (List.mem_filter.mp hm).2
          rw [hl _ (hname p (.inr (by simpa using hsub)))]
    unfold Verif.Registry.getLizer
    rw [hrec t (.inl rfl)]
    split
    · cases hs : W.supertype t with
      | none => rfl
      | some u => exact hrec u (.inr hs)
    · rfl
  intro cs
  induction cs with
  | nil => exact fun tab _ => rfl
  | cons c cs ih =>
    intro tab h
    change Verif.Registry.getLizer W (Verif.Registry.setLizer W g cs hp (Verif.Registry.setLizer1 W g hp tab c)) t = _
    rw [ih _ fun c hm => h c (List.mem_cons_of_mem _ hm), one c tab (h c List.mem_cons_self)]

/-- What `dump(v, cls, **kw)` starts with. -/
def Given (v : Val) (cls : Option Ty) (kw : DumpKw) : Thing → Prop
  | .val w => w = v
  | .ty t => t ∈ cls ∨ ∃ p ∈ kw.types, p.2 = t

/-- C96 for `dump`: `set_serializer(g, [c, ...], high_prio)` does not change what
`dump(v, cls, **kw)` returns, raises and warns of if it concerns no type that occurs in the dump. -/
theorem dump_other_registration (E : Env) (s : Nat → Verif.Registry.Table SerFn Ty) (g : SerFn)
    (cs : List (Option Ty)) (hp : Bool) (n : Nat) (v : Val) (cls : Option Ty) (kw : DumpKw)
    (hset : s kw.fork = Verif.Registry.setLizer (tyWorld E.info) g cs hp (E.sers kw.fork))
    (hcu : SersStay E kw.fork kw.strict (Given v cls kw))
    (hocc : ∀ t, Occurs E kw.strict (Given v cls kw) (.ty t) → ∀ c ∈ cs, ¬ Concerns (tyWorld E.info) c t) :
    dump { E with sers := s } n v cls kw = dump E n v cls kw := by
  refine (recOf_agree (s := s) (S := Given v cls kw) ?_ hcu n).dump v cls kw
    ⟨rfl, rfl, fun p hp => .given _ (.inr ⟨p, hp, rfl⟩)⟩ (.given _ rfl) fun t ht => .given _ (.inl ht)
  intro t ht
  show Verif.Registry.getLizer (tyWorld E.info) (s kw.fork) t = _
  rw [hset]
  exact getLizer_other _ g hp t cs _ (hocc t ht)

/-- `[Point(1, 2), 'a']` -/
def points : Val := .list [.obj 0 [("x".toList, .int 1), ("y".toList, .int 2)], .str "a".toList]

/-- What may occur in it. -/
def InPoints : Thing → Prop
  | .val w => w ∈ [points, .obj 0 [("x".toList, .int 1), ("y".toList, .int 2)], .str "a".toList, .int 1, .int 2]
  | .ty t => t ∈ [Ty.cls .list, .cls (.user 0), .cls .str, .cls .int]

theorem points_occur (x : Thing) (h : Occurs (demoEnv demoInfo) false (Given points none {}) x) : InPoints x := by
  induction h with
  | given x h =>
    cases x with
    | val w => rw [show w = points from h]; exact List.mem_cons_self
    | ty t =>
      rcases h with h | ⟨p, h, _⟩
      · cases h
      · cases h
  | elem v x xs _ hi hx ih =>
    simp only [InPoints, List.mem_cons, List.not_mem_nil, or_false] at ih
    rcases ih with rfl | rfl | rfl | rfl | rfl <;> cases hi
    · simp only [List.mem_cons, List.not_mem_nil, or_false] at hx
      rcases hx with rfl | rfl <;> simp [InPoints]
    · have hx : x = .str "a".toList := List.mem_singleton.mp hx
      subst hx
      simp [InPoints]
  | value es e _ _ ih => simp [InPoints, points] at ih
  | dvalue t es e _ _ ih => simp [InPoints, points] at ih
  | attr v a n _ ha ih =>
    simp only [InPoints, List.mem_cons, List.not_mem_nil, or_false] at ih
    rcases ih with rfl | rfl | rfl | rfl | rfl
    · cases ha
    · have h : assoc [("x".toList, Val.int 1), ("y".toList, Val.int 2)] n = some a := by
        simp only [Env.getAttr, demoEnv, demoInfo, assoc] at ha
        split at ha
        · next h => cases ha; exact h
        · cases ha
      have := assoc_mem h
      simp only [List.mem_cons, List.not_mem_nil, or_false, Prod.mk.injEq] at this
      rcases this with ⟨_, rfl⟩ | ⟨_, rfl⟩ <;> simp [InPoints]
    · cases ha
    · cases ha
    · cases ha
  | offset us n _ ih => simp [InPoints, points] at ih
  | cls v _ ih =>
    simp only [InPoints, List.mem_cons, List.not_mem_nil, or_false] at ih
    rcases ih with rfl | rfl | rfl | rfl | rfl <;> simp [InPoints, points, Val.cls, Atom.cls, SeqKind.cls]
  | type v h => cases h
  | arg t a _ ha ih =>
    simp only [InPoints, List.mem_cons, List.not_mem_nil, or_false] at ih
    rcases ih with rfl | rfl | rfl | rfl <;> cases ha
  | ell _ ih => simp [InPoints] at ih
  | hint c h _ hh ih =>
    simp only [InPoints, List.mem_cons, List.not_mem_nil, or_false, reduceCtorEq, false_or, Ty.cls.injEq,
      Cls.user.injEq] at ih
    subst ih
    simp only [demoEnv, demoInfo, List.mem_cons, List.not_mem_nil, or_false] at hh
    rcases hh with rfl | rfl <;> simp [InPoints]
  | init c h hs => cases hs
  | foreign v cls kw as n t _ _ hf ha => cases hf; cases ha

/-- The names of the superclasses of the types in a list. -/
theorem not_concerns_person {t : Ty} (h : t ∈ [Ty.cls .list, .cls (.user 0), .cls .str, .cls .int, .cls .dict, .cls .datetime,
    .cls .noneType]) : ¬ Concerns (tyWorld demoInfo) (some (.cls (.user 5))) t := by
  rintro ⟨u, hu, p, hp, hn⟩
  have hut : u = t := by
    rcases hu with rfl | hu
    · rfl
    · simp only [List.mem_cons, List.not_mem_nil, or_false] at h
      rcases h with rfl | rfl | rfl | rfl | rfl | rfl | rfl <;> cases hu
  subst hut
  have key : p = .cls (.user 5) ∨ (∃ n s, p = .newtype n s) := by
    cases p with
    | cls c =>
      cases c with
      | user c =>
        match c with
        | 5 => exact .inl rfl
        | 0 | 1 | 2 | 3 | 4 => exact absurd hn (by decide)
        | n + 6 =>
          exfalso
          have : (tyWorld demoInfo).regName (.cls (.user (n + 6))) = "__main__.other".toList := by
            simp only [Verif.Registry.World.regName, tyWorld, Ty.attrs, Cls.attrs, demoInfo]
            decide
          rw [this] at hn
          revert hn
          decide
      | _ => exact absurd hn (by decide)
    | newtype n s => exact .inr ⟨n, s, rfl⟩
    | any => exact absurd hn (by decide)
    | gen g as => 
      rw [show (tyWorld demoInfo).regName (.gen g as) = (tyWorld demoInfo).regName (.gen g []) from rfl] at hn
      cases g <;> exact absurd hn (by decide)
    | union ts =>
      exfalso
      simp only [List.mem_cons, List.not_mem_nil, or_false] at h
      rcases h with rfl | rfl | rfl | rfl | rfl | rfl | rfl <;> (rcases hp with hp | hp <;> cases hp)
    | special b => cases b <;> exact absurd hn (by decide)
  simp only [List.mem_cons, List.not_mem_nil, or_false] at h
  rcases key with rfl | ⟨n, s, rfl⟩
  · rcases h with rfl | rfl | rfl | rfl | rfl | rfl | rfl <;> (rcases hp with hp | hp <;> revert hp <;> decide)
  · rcases h with rfl | rfl | rfl | rfl | rfl | rfl | rfl <;> (rcases hp with hp | hp <;> cases hp)

/-- `set_serializer(g, Person)` does not change `dump([Point(1, 2), 'a'])`. -/
example (g : SerFn) : dump { demoEnv demoInfo with
      sers := fun _ => Verif.Registry.setLizer (tyWorld demoInfo) g [some (.cls (.user 5))] true (initialSers demoInfo) } 9
    points none {} = dump (demoEnv demoInfo) 9 points none {} := by
  refine dump_other_registration (demoEnv demoInfo) _ g [some (.cls (.user 5))] true 9 points none {} rfl
    (fun _ _ _ _ _ _ _ _ _ _ => rfl) fun t ht c hc => ?_
  rw [List.mem_singleton.mp hc]
  have := points_occur _ ht
  simp only [InPoints, List.mem_cons, List.not_mem_nil, or_false] at this
  exact not_concerns_person (by simp only [List.mem_cons, List.not_mem_nil, or_false]; tauto)

/-- A registration for `Point` concerns it, and so does one for `object`. -/
example : Concerns (tyWorld demoInfo) (some (.cls (.user 0))) (.cls (.user 0)) ∧
    Concerns (tyWorld demoInfo) (some (.cls .object)) (.cls (.user 0)) ∧
    (dump { demoEnv demoInfo with
      sers := fun _ => Verif.Registry.setLizer (tyWorld demoInfo) (.custom 0) [some (.cls .object)] true
        (initialSers demoInfo) } 9 points none {}).val ≠ (dump (demoEnv demoInfo) 9 points none {}).val :=
  ⟨⟨_, .inl rfl, _, .inl rfl, rfl⟩, ⟨_, .inl rfl, _, .inr rfl, rfl⟩, by decide +kernel⟩

/-! ## What occurs in a load -/

/-- What occurs when the things `S` are loaded with `fork_inst=f` and the key transformer `kt`: the
elements, keys and values of a document, the classes of its values, the parameters of a type, the
type hints of a class and of its constructor, the defaults of named tuples, the classes that are
named in a document, and what the deserializers of `complex`, `timezone`, `defaultdict` and of
texts load. -/
inductive LOccurs (E : LEnv) (f : Nat) (kt : Val → Except Err Val) (S : Thing → Prop) : Thing → Prop where
  | given (x : Thing) : S x → LOccurs E f kt S x
  | elem (v x : Val) (xs : List Val) : LOccurs E f kt S (.val v) → v.iter = some xs → x ∈ xs →
      LOccurs E f kt S (.val x)
  | value (es : List (Val × Val)) (e : Val × Val) : LOccurs E f kt S (.val (.dict es)) → e ∈ es →
      LOccurs E f kt S (.val e.2)
  | key (es : List (Val × Val)) (e : Val × Val) (k : Val) : LOccurs E f kt S (.val (.dict es)) → e ∈ es →
      kt e.1 = .ok k → LOccurs E f kt S (.val k)
  | del (es : List (Val × Val)) (k : Val) : LOccurs E f kt S (.val (.dict es)) →
      LOccurs E f kt S (.val (.dict (dictDel es k)))
  | default (c : Nat) (d : PyStr × Val) : LOccurs E f kt S (.ty (.cls (.user c))) → (E.info c).kind = .ntuple →
      d ∈ (E.info c).fieldDefaults → LOccurs E f kt S (.val d.2)
  | none (c : Nat) : LOccurs E f kt S (.ty (.cls (.user c))) → (E.info c).kind = .ntuple →
      LOccurs E f kt S (.val .none)
  | cls (v : Val) : LOccurs E f kt S (.val v) → LOccurs E f kt S (.ty (.cls v.cls))
  | arg (t a : Ty) : LOccurs E f kt S (.ty t) → a ∈ t.getArgs → LOccurs E f kt S (.ty a)
  | hint (c : Nat) (h : PyStr × Ty) : LOccurs E f kt S (.ty (.cls (.user c))) → h ∈ (E.info c).hints →
      LOccurs E f kt S (.ty h.2)
  | init (c : Nat) (h : PyStr × Ty) : LOccurs E f kt S (.ty (.cls (.user c))) → h ∈ (E.info c).initHints →
      LOccurs E f kt S (.ty h.2)
  | named (v : Val) (i : Nat) (t : Ty) (hs : List (Val × Val)) : i = f ∨ i = 0 → LOccurs E f kt S (.val v) →
      getClsAndMeta E v i = .ok (some (t, hs)) → LOccurs E f kt S (.ty t)
  | hinted (v : Val) (i j : Nat) (t u : Ty) (hs : List (Val × Val)) (k : Val) (s : PyStr) : i = f ∨ i = 0 →
      j = f ∨ j = 0 → LOccurs E f kt S (.val v) → getClsAndMeta E v i = .ok (some (t, hs)) → (k, .str s) ∈ hs →
      E.clsFromStr j s = .ok u → LOccurs E f kt S (.ty u)
  | datetime (i : Nat) (t : Ty) : i = f ∨ i = 0 → LOccurs E f kt S (.ty t) → E.getDes i t = .ok (some .string) →
      LOccurs E f kt S (.ty (.cls .datetime))
  | offset (i : Nat) (t : Ty) : i = f ∨ i = 0 → LOccurs E f kt S (.ty t) → E.getDes i t = .ok (some .timezone) →
      LOccurs E f kt S (.ty (.cls .timedelta))
  | dict (i : Nat) (t : Ty) : i = f ∨ i = 0 → LOccurs E f kt S (.ty t) → E.getDes i t = .ok (some .defaultdict) →
      LOccurs E f kt S (.ty (.gen .dict t.getArgs))
  | complex (i : Nat) (t : Ty) : i = f ∨ i = 0 → LOccurs E f kt S (.ty t) → E.getDes i t = .ok (some .complex) →
      LOccurs E f kt S (.ty dictStrFloat)
  | numbers (i : Nat) (t : Ty) (v re im : Val) : i = f ∨ i = 0 → LOccurs E f kt S (.ty t) →
      E.getDes i t = .ok (some .complex) → LOccurs E f kt S (.val v) → subscript v "real".toList = .ok re →
      subscript v "imag".toList = .ok im →
      LOccurs E f kt S (.val (.dict [(.str "real".toList, re), (.str "imag".toList, im)]))

/-- The class hints name classes of `O`. -/
def HintsIn (E : LEnv) (f : Nat) (O : Thing → Prop) (hs : List (Val × Val)) : Prop :=
  ∀ e ∈ hs, ∀ s, e.2 = .str s → ∀ i, i = f ∨ i = 0 → ∀ t, E.clsFromStr i s = .ok t → O (.ty t)

/-- The keyword arguments: `fork_inst` is `f` (or the main class), the key transformer is `kt` (or
none), the class hints name classes of `O`. -/
structure LKwIn (E : LEnv) (f : Nat) (kt : Val → Except Err Val) (O : Thing → Prop) (kw : LoadKw) : Prop where
  fork : kw.fork = f ∨ kw.fork = 0
  keys : kw.keyTransformer = none ∨ kw.keyTransformer = some .ok ∨ kw.keyTransformer = some kt
  hints : ∀ hs ∈ kw.metaHints, HintsIn E f O hs

/-- Calls with what is in `O` have the same outcome. -/
def LAgree (E : LEnv) (f : Nat) (kt : Val → Except Err Val) (O : Thing → Prop) (rec rec' : LRec) : Prop :=
  ∀ v cls kw, LKwIn E f kt O kw → O (.val v) → (∀ t ∈ cls, O (.ty t)) → rec' v cls kw = rec v cls kw

/-- The deserializers of the program only load what occurs in what they are given. -/
def DesersStay (E : LEnv) (f : Nat) (kt : Val → Except Err Val) (S : Thing → Prop) : Prop :=
  ∀ rec rec', LAgree E f kt (LOccurs E f kt S) rec rec' → ∀ v t kw, LKwIn E f kt (LOccurs E f kt S) kw →
    LOccurs E f kt S (.val v) → LOccurs E f kt S (.ty t) →
    (∀ id, E.customDes id rec' v t kw = E.customDes id rec v t kw) ∧
    E.foreignDes rec' v t kw = E.foreignDes rec v t kw

section
variable {E : LEnv} {d : Nat → Verif.Registry.Table DesFn Ty} {l : Nat → Verif.Registry.Table Nat Ty} {f : Nat}
  {kt : Val → Except Err Val} {S : Thing → Prop} {rec rec' : LRec}

/-- The same surroundings with other registrations of deserializers and validators. -/
abbrev loadEnv (E : LEnv) (d : Nat → Verif.Registry.Table DesFn Ty) (l : Nat → Verif.Registry.Table Nat Ty) : LEnv :=
  { E with desers := d, vals := l }

local notation "O" => LOccurs E f kt S

/-- The same functions are found for what occurs. -/
structure Same (E : LEnv) (d : Nat → Verif.Registry.Table DesFn Ty) (l : Nat → Verif.Registry.Table Nat Ty)
    (f : Nat) (P : Thing → Prop) : Prop where
  desers : ∀ i, i = f ∨ i = 0 → ∀ t, P (.ty t) → (loadEnv E d l).getDes i t = E.getDes i t
  vals : ∀ i, i = f ∨ i = 0 → ∀ t, P (.ty t) → (loadEnv E d l).getVal i t = E.getVal i t

theorem validate_eq {P : Thing → Prop} (h : Same E d l f P) (v : Val) (t : Ty) (ht : P (.ty t)) {i : Nat}
    (hi : i = f ∨ i = 0) : validate (loadEnv E d l) v t i = validate E v t i := by
  unfold validate
  rw [h.vals i hi t ht]

theorem some_in {P : Thing → Prop} {t : Ty} (h : P (.ty t)) : ∀ u ∈ some t, P (.ty u) := by
  rintro _ ⟨⟩; exact h

theorem none_in {P : Thing → Prop} : ∀ u ∈ (none : Option Ty), P (.ty u) := by
  rintro _ ⟨⟩

theorem get_in {P : Val → Prop} {es : List (Val × Val)} {k x : Val} (h : dictGet es k = some x)
    (he : ∀ e ∈ es, P e.2) : P x := by
  obtain ⟨e, hm, rfl, _⟩ := dictGet_mem h
  exact he e hm

theorem set_in {P : Val → Prop} {es : List (Val × Val)} {k x : Val} (he : ∀ e ∈ es, P e.2) (hx : P x) :
    ∀ e ∈ dictSet es k x, P e.2 := by
  intro e h
  rcases dictSet_mem h with h | h | h
  · exact he e h
  · rw [h]; exact hx
  · rw [h.1]; exact hx

theorem value_in {es : List (Val × Val)} {k x : Val} (h : dictGet es k = some x)
    (he : O (.val (.dict es))) : O (.val x) :=
  get_in (P := fun x => O (.val x)) h fun e hm => .value es e he hm

theorem assoc_in {P : Thing → Prop} {hs : List (PyStr × Ty)} {n : PyStr} (h : ∀ e ∈ hs, P (.ty e.2)) :
    ∀ t ∈ assoc hs n, P (.ty t) := fun _ ht => h _ (assoc_mem ht)

theorem listDes_eq (hr : LAgree E f kt O rec rec') (v : Val) (args : List Ty) (kw : LoadKw) (hk : LKwIn E f kt O kw)
    (hv : O (.val v)) (ha : ∀ a ∈ args, O (.ty a)) :
    listDes (loadEnv E d l) rec' v args kw = listDes E rec v args kw := by
  have hl : ∀ (cls : Option Ty) b (kw' : LoadKw), (∀ t ∈ cls, O (.ty t)) → LKwIn E f kt O kw' → ∀ xs i,
      (∀ x ∈ xs, O (.val x)) → listLoop (loadEnv E d l) rec' cls b kw' i xs = listLoop E rec cls b kw' i xs := by
    intro cls b kw' hc hk' xs
    induction xs with
    | nil => intro i _; rfl
    | cons x xs ih =>
      intro i hx
      simp only [listLoop, hr x cls kw' hk' (hx x List.mem_cons_self) hc,
        fun i => ih i fun x h => hx x (List.mem_cons_of_mem _ h)]
  unfold listDes
  cases hi : v.iter with
  | none => rfl
  | some xs =>
    exact hl _ _ { kw with warnOnFail := false, inferred := kw.inferred || !args.isEmpty }
      (fun t ht => ha t (List.mem_of_mem_head? ht)) ⟨hk.fork, hk.keys, hk.hints⟩ xs 0
      fun x hx => .elem v x xs hv hi hx

theorem ntupleField_in {c i len : Nat} {v x : Val} {tfm : Option (List (Val × Val))} {n : PyStr}
    (hv : O (.val v)) (ht : O (.ty (.cls (.user c)))) (hkind : (E.info c).kind = .ntuple)
    (htfm : ∀ es ∈ tfm, ∀ e ∈ es, O (.val e.2))
    (h : ntupleField (E.info c) v tfm len i n = .ok x) : O (.val x) := by
  unfold ntupleField at h
  split at h
  · split at h
    · next es =>
      unfold subscript at h
      dsimp only at h
      split at h
      · next hg => cases h; exact get_in (P := fun x => O (.val x)) hg (htfm es rfl)
      · cases h
    · unfold index at h
      split at h
      all_goals first
        | cases h; done
        | (split at h
           · next hx => cases h; exact .elem _ _ _ hv rfl (List.mem_of_getElem? hx)
           · cases h)
        | (split at h
           · next hx => cases h; exact .elem _ _ _ hv rfl (List.mem_map_of_mem (List.mem_of_getElem? hx))
           · cases h)
  · cases h
    cases hd : assoc (E.info c).fieldDefaults n with
    | none => exact .none c ht hkind
    | some d => exact .default c (n, d) ht hkind (assoc_mem hd)

theorem tupleDes_eq (hr : LAgree E f kt O rec rec') (v : Val) (t : Ty) (kw : LoadKw) (hk : LKwIn E f kt O kw)
    (hv : O (.val v)) (ht : O (.ty t)) : tupleDes (loadEnv E d l) rec' v t kw = tupleDes E rec v t kw := by
  have hkw' : LKwIn E f kt O { kw with keyTransformer := none } := ⟨hk.fork, .inl rfl, hk.hints⟩
  have hloop : ∀ xs ts, (∀ x ∈ xs, O (.val x)) → (∀ u ∈ ts, O (.ty u)) →
      tupleLoop rec' { kw with keyTransformer := none } ts xs = tupleLoop rec { kw with keyTransformer := none } ts xs := by
    intro xs
    induction xs with
    | nil => intro ts _ _; cases ts <;> rfl
    | cons x xs ih =>
      intro ts hx hts
      cases ts with
      | nil => rfl
      | cons u ts =>
        simp only [tupleLoop, hr x (some u) _ hkw' (hx x List.mem_cons_self) (some_in (hts u List.mem_cons_self)),
          ih ts (fun x h => hx x (List.mem_cons_of_mem _ h)) fun u h => hts u (List.mem_cons_of_mem _ h)]
  have harg : ∀ a ∈ t.getArgs, O (.ty a) := fun a ha => .arg t a ht ha
  have hmap : ∀ xs, (∀ x ∈ xs, O (.val x)) → mapRes (fun x => rec' x none { kw with keyTransformer := none }) xs =
      mapRes (fun x => rec x none { kw with keyTransformer := none }) xs :=
    fun xs hx => mapRes_congr fun x hm => hr x none _ hkw' (hx x hm) none_in
  by_cases hcond : ∃ c, t = .cls (.user c) ∧ (E.info c).kind = .ntuple
  · obtain ⟨c, rfl, hkind⟩ := hcond
    have hL : tupleDes (loadEnv E d l) rec' v (.cls (.user c)) kw = ntupleDes (loadEnv E d l) rec' v c kw :=
      if_pos hkind
    have hR : tupleDes E rec v (.cls (.user c)) kw = ntupleDes E rec v c kw := if_pos hkind
    rw [hL, hR]
    unfold ntupleDes
    refine bind_congr_ok fun tfm htfm => ?_
    rw [lift_val] at htfm
    have htfm' : ∀ es ∈ tfm, ∀ e ∈ es, O (.val e.2) := by
      unfold ntupleTfm at htfm
      split at htfm
      · next es =>
        change (transformKeys E.info _ [] es).map some = _ at htfm
        cases hts : transformKeys E.info (kw.keyTransformer.getD .ok) [] es with
        | error e => rw [hts] at htfm; cases htfm
        | ok ts =>
          rw [hts] at htfm
          cases htfm
          rintro _ ⟨⟩
          exact transformKeys_values (P := fun x => O (.val x)) (fun e he => absurd he List.not_mem_nil) (fun e he => .value es e hv he) hts
      · cases htfm; rintro _ ⟨⟩
    cases hi : v.iter with
    | none => rfl
    | some xs =>
      have hn : ∀ names i, ntupleLoop (loadEnv E d l) rec' c v tfm xs.length kw i names =
          ntupleLoop E rec c v tfm xs.length kw i names := by
        intro names
        induction names with
        | nil => intro i; rfl
        | cons n names ih =>
          intro i
          simp only [ntupleLoop, ih]
          refine bind_congr_ok fun x hx => ?_
          rw [liftK_ok] at hx
          have hO := ntupleField_in hv ht hkind htfm' hx
          rw [hr x _ kw hk hO]
          intro u hu
          split at hu
          · exact .hint c _ ht (assoc_mem hu)
          · cases hu
      dsimp only
      rw [hn]
  · have key : ∀ (E : LEnv), ¬ (∃ c, t = .cls (.user c) ∧ (E.info c).kind = .ntuple) → ∀ rec,
        tupleDes E rec v t kw = (match v.iter with
          | none => Res.raise { kind := .typeError }
          | some xs => do
            let ys ← match t, t.getArgs with
              | .gen .tupleEll _, a :: _ => tupleLoop rec { kw with keyTransformer := none } (List.replicate xs.length a) xs
              | _, a :: as => tupleLoop rec { kw with keyTransformer := none } (a :: as) xs
              | _, [] => mapRes (fun x => rec x none { kw with keyTransformer := none }) xs
            pure (.tuple ys)) := by
      intro E hE rec
      unfold tupleDes
      cases t with
      | cls k =>
        cases k with
        | user c => exact if_neg fun h => hE ⟨c, rfl, h⟩
        | _ => rfl
      | _ => rfl
    rw [key (loadEnv E d l) hcond, key E hcond]
    cases hi : v.iter with
    | none => rfl
    | some xs =>
      have hx : ∀ x ∈ xs, O (.val x) := fun x hm => .elem v x xs hv hi hm
      dsimp only
      generalize t.getArgs = args at harg
      split
      · rw [hloop xs _ hx fun u hu => by rw [(List.mem_replicate.mp hu).2]; exact harg _ List.mem_cons_self]
      · rw [hloop xs _ hx harg]
      · rw [hmap xs hx]

theorem dictComp_congr {info : Nat → ClassInfo} {k k' v v' : Val → Res Val} :
    ∀ (es acc : List (Val × Val)), (∀ e ∈ es, k' e.1 = k e.1 ∧ v' e.2 = v e.2) →
      dictComp info k' v' acc es = dictComp info k v acc es := by
  intro es
  induction es with
  | nil => intro acc _; rfl
  | cons e es ih =>
    intro acc h
    obtain ⟨a, b⟩ := e
    obtain ⟨h1, h2⟩ := h _ List.mem_cons_self
    dsimp only at h1 h2
    simp only [dictComp, h1, h2, fun acc => ih acc fun e he => h e (List.mem_cons_of_mem _ he)]

theorem unhashKey_eq (hr : LAgree E f kt O rec rec') {t : Ty} (ht : O (.ty t)) (kw : LoadKw) (hk : LKwIn E f kt O kw)
    (es : List (Val × Val)) (hes : ∀ e ∈ es, O (.val e.2)) (h : Val) :
    unhashKey (loadEnv E d l) rec' t kw es h = unhashKey E rec t kw es h := by
  unfold unhashKey
  refine bind_congr_ok fun x hx => ?_
  rw [liftK_ok] at hx
  rw [hr x (some t) kw hk ?_ (some_in ht)]
  split at hx
  · next ks hks =>
    have hks' : O (.val (.dict ks)) := get_in (P := fun x => O (.val x)) hks hes
    split at hx
    · next hg => cases hx; exact value_in hg hks'
    · cases hx
  · cases hx

theorem unhashKey_in {t : Ty} {kw : LoadKw} {es es' : List (Val × Val)} (hes : ∀ e ∈ es, O (.val e.2)) {h : Val}
    (hx : (unhashKey E rec t kw es h).val = .ok es') : ∀ e ∈ es', O (.val e.2) := by
  unfold unhashKey at hx
  obtain ⟨_, _, hx⟩ := Core.bind_ok.mp hx
  obtain ⟨loaded, _, hx⟩ := Core.bind_ok.mp hx
  split at hx
  · cases hx
  · next v hv =>
    have hv' : O (.val v) := get_in (P := fun x => O (.val x)) hv hes
    have h1 : ∀ e ∈ dictSet es loaded v, O (.val e.2) := set_in (P := fun x => O (.val x)) hes hv'
    split at hx
    · dsimp only at hx
      split at hx
      · next ks hks =>
        split at hx
        · cases hx
          intro e he
          exact set_in (P := fun x => O (.val x)) h1 (.del ks h (get_in (P := fun x => O (.val x)) hks h1)) e
            (dictDel_mem he)
        · cases hx
      · cases hx
    · cases hx

theorem unhashLoop_eq (hr : LAgree E f kt O rec rec') {t : Ty} (ht : O (.ty t)) (kw : LoadKw) (hk : LKwIn E f kt O kw) :
    ∀ (hs : List Val) (es : List (Val × Val)), (∀ e ∈ es, O (.val e.2)) →
      unhashLoop (loadEnv E d l) rec' t kw hs es = unhashLoop E rec t kw hs es ∧
      ∀ es', (unhashLoop E rec t kw hs es).val = .ok es' → ∀ e ∈ es', O (.val e.2) := by
  intro hs
  induction hs with
  | nil => exact fun es hes => ⟨rfl, fun es' h => by cases h; exact hes⟩
  | cons h hs ih =>
    intro es hes
    constructor
    · simp only [unhashLoop, unhashKey_eq hr ht kw hk es hes h]
      exact bind_congr_ok fun es' hx => (ih es' (unhashKey_in hes hx)).1
    · intro es' hx
      simp only [unhashLoop] at hx
      obtain ⟨es1, h1, h2⟩ := Core.bind_ok.mp hx
      exact (ih es1 (unhashKey_in hes h1)).2 es' h2

theorem dictDes_eq (hr : LAgree E f kt O rec rec') (v : Val) (args : List Ty) (kw : LoadKw) (hk : LKwIn E f kt O kw)
    (hv : O (.val v)) (ha : ∀ a ∈ args, O (.ty a)) :
    dictDes (loadEnv E d l) rec' v args kw = dictDes E rec v args kw := by
  have hh : loadHashedKeys (loadEnv E d l) rec' v args kw = loadHashedKeys E rec v args kw := by
    unfold loadHashedKeys
    split
    · next es =>
      split
      · rfl
      · split
        · rfl
        · rfl
        · split
          · next kty _ _ =>
            rw [show (loadEnv E d l).setOrder = E.setOrder from rfl]
            rw [(unhashLoop_eq hr (ha _ List.mem_cons_self) kw hk _ es fun e he => .value es e hv he).1]
          · rfl
    · rfl
  have hin : ∀ es b, (loadHashedKeys E rec v args kw).val = .ok (es, b) →
      (∀ e ∈ es, O (.val e.2)) ∧ (b = false → v = .dict es) := by
    intro es b h
    unfold loadHashedKeys at h
    split at h
    · next es0 =>
      have h0 : ∀ e ∈ es0, O (.val e.2) := fun e he => .value es0 e hv he
      split at h
      · cases h; exact ⟨h0, fun _ => rfl⟩
      · split at h
        · cases h
        · cases h; exact ⟨h0, fun _ => rfl⟩
        · split at h
          · obtain ⟨es1, h1, h2⟩ := Core.bind_ok.mp h
            cases h2
            refine ⟨fun e he => ?_, fun h => nomatch h⟩
            exact (unhashLoop_eq (d := d) (l := l) (rec' := rec) (fun _ _ _ _ _ _ => rfl) (ha _ List.mem_cons_self) kw hk _ es0 h0).2
              es1 h1 e (dictDel_mem he)
          · cases h
    · cases h
  unfold dictDes
  rw [hh]
  refine bind_congr_ok ?_
  rintro ⟨es, hashed⟩ h
  obtain ⟨h1, h2⟩ := hin es hashed h
  have hkV : LKwIn E f kt O { kw with keyTransformer := some (kw.keyTransformer.getD .ok) } := by
    refine ⟨hk.fork, .inr ?_, hk.hints⟩
    rcases hk.keys with h | h | h <;> rw [h]
    · exact .inl rfl
    · exact .inl rfl
    · exact .inr rfl
  have hkK : LKwIn E f kt O { kw with keyTransformer := none } := ⟨hk.fork, .inl rfl, hk.hints⟩
  dsimp only
  split
  · next k t =>
    refine dictComp_congr es [] fun e he => ⟨?_, hr _ _ _ hkV (h1 e he) (some_in (ha _ (by simp)))⟩
    cases hashed with
    | true => rfl
    | false =>
      rw [if_neg (by decide), if_neg (by decide)]
      refine bind_congr_ok fun y hy => hr _ _ _ hkK ?_ (some_in (ha _ (by simp)))
      rw [lift_val] at hy
      have hv' : O (.val (.dict es)) := h2 rfl ▸ hv
      rcases hk.keys with h | h | h <;> rw [h] at hy
      · cases hy; exact .elem _ _ _ hv' rfl (List.mem_map_of_mem he)
      · cases hy; exact .elem _ _ _ hv' rfl (List.mem_map_of_mem he)
      · exact .key es e y hv' he hy
  · exact dictComp_congr es [] fun e he => ⟨rfl, hr _ _ _ hkV (h1 e he) none_in⟩

theorem unionDes_eq (hr : LAgree E f kt O rec rec') (v : Val) (t : Ty) (kw : LoadKw) (hk : LKwIn E f kt O kw)
    (hv : O (.val v)) (ht : O (.ty t)) : unionDes rec' v t kw = unionDes rec v t kw := by
  have hl : ∀ ts : List Ty, (∀ u ∈ ts, O (.ty u)) → unionLoadLoop rec' v t kw ts = unionLoadLoop rec v t kw ts := by
    intro ts
    induction ts with
    | nil => intro _; rfl
    | cons u ts ih =>
      intro hts
      simp only [unionLoadLoop, hr v (some u) kw hk hv (some_in (hts u List.mem_cons_self)),
        ih fun u h => hts u (List.mem_cons_of_mem _ h)]
  unfold unionDes
  cases hu : t.unionParams with
  | none => rfl
  | some ts =>
    refine hl ts fun u hm => .arg t u ht ?_
    unfold Ty.unionParams at hu
    split at hu <;> cases hu
    · exact hm
    · exact hm

theorem rebase_in {P : Thing → Prop} {pre : PyStr} : ∀ {es acc hs : List (Val × Val)}, rebase pre acc es = .ok hs →
    HintsIn E f P es → HintsIn E f P acc → HintsIn E f P hs := by
  intro es
  induction es with
  | nil => intro acc hs h _ h2; cases h; exact h2
  | cons e es ih =>
    intro acc hs h h1 h2
    obtain ⟨k, v⟩ := e
    simp only [rebase] at h
    split at h
    · exact ih h (fun e hm => h1 e (List.mem_cons_of_mem _ hm))
        (set_in (P := fun x => ∀ s, x = .str s → ∀ i, i = f ∨ i = 0 → ∀ t, E.clsFromStr i s = .ok t → P (.ty t)) h2
          (h1 _ List.mem_cons_self))
    · cases h

theorem metaFor_in {kw : LoadKw} (hk : LKwIn E f kt O kw) {n : PyStr} {m : Option Ty × List (Val × Val)}
    (h : metaFor E kw n = .ok m) : (∀ t ∈ m.1, O (.ty t)) ∧ HintsIn E f O m.2 := by
  have hh : HintsIn E f O (kw.metaHints.getD []) := by
    cases hm : kw.metaHints with
    | none => exact fun _ h => nomatch h
    | some hs => exact hk.hints hs hm
  unfold metaFor at h
  dsimp only at h
  split at h
  · cases h; exact ⟨none_in, hh⟩
  · next w hw =>
    split at h
    · cases h; exact ⟨none_in, hh⟩
    · split at h
      · next s _ =>
        cases hc : E.clsFromStr kw.fork s with
        | error k => rw [hc] at h; cases h
        | ok t =>
          cases hrb : rebase ('/' :: n) [] (kw.metaHints.getD []) with
          | error k => rw [hc, hrb] at h; cases h
          | ok hs =>
            rw [hc, hrb] at h
            cases h
            refine ⟨some_in (get_in (P := fun x => ∀ s, x = .str s → ∀ i, i = f ∨ i = 0 → ∀ t,
              E.clsFromStr i s = .ok t → O (.ty t)) hw hh s rfl kw.fork hk.fork t hc),
              rebase_in hrb hh fun _ h => nomatch h⟩
      · cases h

theorem objectDes_eq (hcu : DesersStay E f kt S) (hr : LAgree E f kt O rec rec') (v : Val)
    (t : Ty) (kw : LoadKw) (hk : LKwIn E f kt O kw) (hv : O (.val v)) (ht : O (.ty t)) :
    objectDes (loadEnv E d l) rec' v t kw = objectDes E rec v t kw := by
  unfold objectDes
  split
  · next c =>
    refine bind_congr_ok fun obj hobj => ?_
    rw [lift_val] at hobj
    have hvals : ∀ es, obj = .dict es → ∀ e ∈ es, O (.val e.2) := by
      rintro es rfl
      unfold transformObj at hobj
      split at hobj
      · cases hobj; exact fun e he => .value es e hv he
      · next g hg =>
        split at hobj
        · next es0 =>
          change (transformKeys E.info _ [] es0).map Val.dict = _ at hobj
          cases hts : transformKeys E.info g [] es0 with
          | error e => rw [hts] at hobj; cases hobj
          | ok ts =>
            rw [hts] at hobj
            cases hobj
            exact transformKeys_values (P := fun x => O (.val x)) (fun e he => absurd he List.not_mem_nil) (fun e he => .value es0 e hv he) hts
        · split at hobj
          · cases hobj; exact fun e he => nomatch he
          · cases hobj
    have hattr : ∀ p, valueForAttr (loadEnv E d l) rec' obj c kw p = valueForAttr E rec obj c kw p := by
      intro p
      have hval : valueFromObj (loadEnv E d l) rec' obj p.name (assoc (E.info c).initHints p.name) kw =
          valueFromObj E rec obj p.name (assoc (E.info c).initHints p.name) kw := by
        unfold valueFromObj
        change (Res.liftS obj (metaFor E kw p.name) >>= _) = _
        refine bind_congr_ok fun m hm => ?_
        rw [liftS_ok] at hm
        obtain ⟨hm1, hm2⟩ := metaFor_in hk hm
        refine bind_congr_ok fun x hx => ?_
        rw [liftK_ok] at hx
        refine hr _ _ _ ⟨hk.fork, hk.keys, ?_⟩ ?_ ?_
        · rintro _ ⟨⟩; exact hm2
        · unfold subscript at hx
          split at hx
          · next es =>
            split at hx
            · next hg => cases hx; exact get_in (P := fun x => O (.val x)) hg (hvals es rfl)
            · cases hx
          · cases hx
        · intro u hu
          simp only [determinePrecedence, if_true, List.findSome?_cons, List.findSome?_nil, id] at hu
          cases h1 : m.1 with
          | some w => rw [h1] at hu; exact hm1 u (h1 ▸ hu)
          | none =>
            rw [h1] at hu
            dsimp only at hu
            cases h2 : assoc (E.info c).initHints p.name with
            | none => rw [h2] at hu; cases hu
            | some w => rw [h2] at hu; cases hu; exact .init c _ ht (assoc_mem h2)
      unfold valueForAttr
      dsimp only
      rw [hval]
      rfl
    have hargs : ∀ ps, ctorArgs (loadEnv E d l) rec' obj c kw ps = ctorArgs E rec obj c kw ps := by
      intro ps
      induction ps with
      | nil => rfl
      | cons p ps ih => simp only [ctorArgs, hattr, ih]
    have hrest : ∀ es as, (∀ e ∈ es, O (.val e.2)) →
        setRemaining (loadEnv E d l) rec' c kw es as = setRemaining E rec c kw es as := by
      intro es
      induction es with
      | nil => intro as _; rfl
      | cons e es ih =>
        intro as hes
        obtain ⟨k, x⟩ := e
        have hx : O (.val x) := hes _ List.mem_cons_self
        simp only [setRemaining, fun as => ih as fun e h => hes e (List.mem_cons_of_mem _ h)]
        rw [hr x _ { kw with attrGetters := [] } ⟨hk.fork, hk.keys, hk.hints⟩ hx]
        · rfl
        · rintro _ ⟨⟩
          unfold annotation
          split
          · next s =>
            cases ha : assoc (E.info c).hints s with
            | none => exact .cls x hx
            | some u => exact .hint c _ ht (assoc_mem ha)
          · exact .cls x hx
    have hg : ∀ gs as, setGetters (loadEnv E d l) c gs as = setGetters E c gs as := by
      intro gs
      induction gs with
      | nil => intro as; rfl
      | cons g gs ih =>
        intro as
        obtain ⟨n, g⟩ := g
        simp only [setGetters, ih]
    rw [show (loadEnv E d l).info = E.info from rfl, hargs]
    refine bind_congr_ok fun args _ => bind_congr_ok fun rest hrem => bind_congr_ok fun as _ => ?_
    rw [hrest]
    · simp only [hg]
    · intro e he
      unfold getRemainingArgs at hrem
      obtain ⟨rest', h1, h2⟩ := Core.bind_ok.mp hrem
      rw [liftK_ok] at h1
      have hrr : rest' = rest := by
        split at h2
        · split at h2
          · cases h2
          · cases h2; rfl
        · cases h2; rfl
      subst hrr
      unfold remainingAttrs at h1
      split at h1
      · next =>
        cases h1
        exact hvals _ rfl e (List.mem_filter.mp he).1
      · split at h1
        · cases h1; cases he
        · cases h1
  · exact (hcu rec rec' hr v _ kw hk hv ht).2

theorem subscript_in {v x : Val} {n : PyStr} (hv : O (.val v)) (h : subscript v n = .ok x) : O (.val x) := by
  unfold subscript at h
  split at h
  · split at h
    · next hg => cases h; exact value_in hg hv
    · cases h
  · cases h

theorem callDes_eq (hcu : DesersStay E f kt S) (hr : LAgree E f kt O rec rec') (g : DesFn) (v : Val) (t : Ty)
    (kw : LoadKw) (hk : LKwIn E f kt O kw) (hv : O (.val v)) (ht : O (.ty t)) {i : Nat} (hi : i = f ∨ i = 0)
    (hg : E.getDes i t = .ok (some g)) : callDes (loadEnv E d l) rec' g v t kw = callDes E rec g v t kw := by
  have harg : ∀ a ∈ t.getArgs, O (.ty a) := fun a ha => .arg t a ht ha
  have h0 : LKwIn E f kt O {} := ⟨.inr rfl, .inl rfl, fun _ h => nomatch h⟩
  cases g with
  | list =>
    show (do let ys ← listDes _ _ _ _ _; pure _) = (do let ys ← listDes _ _ _ _ _; pure _)
    rw [listDes_eq hr v _ kw hk hv harg]
  | tuple => exact tupleDes_eq hr v t kw hk hv ht
  | union => exact unionDes_eq hr v t kw hk hv ht
  | defaultdict =>
    show defaultdictDes _ _ _ _ = defaultdictDes _ _ _ _
    have hd : O (.ty (.gen .dict t.getArgs)) := .dict i t hi ht hg
    unfold defaultdictDes
    generalize t.getArgs = args at hd
    split
    · rw [pure_bind', pure_bind']; dsimp only; rw [hr _ _ _ hk hv (some_in hd)]
    · rw [pure_bind', pure_bind']; dsimp only; rw [hr _ _ _ hk hv (some_in hd)]
    · rfl
  | timezone =>
    show timezoneDes _ _ = timezoneDes _ _
    unfold timezoneDes
    refine bind_congr_ok fun x hx => ?_
    rw [liftK_ok] at hx
    rw [hr _ _ _ h0 (subscript_in hv hx) (some_in (.offset i t hi ht hg))]
  | complex =>
    show complexDes _ _ = complexDes _ _
    unfold complexDes
    dsimp only
    refine congrArg (· >>= _) (congrArg _ ?_)
    refine bind_congr_ok fun re hre => bind_congr_ok fun im him => ?_
    rw [liftK_ok] at hre him
    rw [hr _ _ _ h0 (.numbers i t v re im hi ht hg hv hre him) (some_in (.complex i t hi ht hg))]
  | string =>
    show stringDes _ _ _ _ _ = stringDes _ _ _ _ _
    unfold stringDes
    rw [hr _ _ kw hk hv (some_in (.datetime i t hi ht hg))]
    rfl
  | mapping =>
    show mappingDes _ _ _ _ _ = mappingDes _ _ _ _ _
    unfold mappingDes
    rw [dictDes_eq hr v _ kw hk hv harg]
  | iterable =>
    show iterableDes _ _ _ _ _ = iterableDes _ _ _ _ _
    unfold iterableDes
    rw [listDes_eq hr v _ kw hk hv harg]
  | object => exact objectDes_eq hcu hr v t kw hk hv ht
  | custom id => exact (hcu rec rec' hr v t kw hk hv ht).1 id
  | _ => rfl

theorem loadFrom_eq (h : Same E d l f O) (hcu : DesersStay E f kt S) (hr : LAgree E f kt O rec rec')
    (v : Val) (cls : Option Ty) (kw : LoadKw) (hk : LKwIn E f kt O kw) (hv : O (.val v)) (hc : ∀ t ∈ cls, O (.ty t)) :
    loadFrom (loadEnv E d l) rec' v cls kw = loadFrom E rec v cls kw := by
  unfold loadFrom
  split
  · rfl
  · change (Res.liftS v (getClsAndMeta E v kw.fork) >>= _) = _
    refine bind_congr_ok fun m hm => ?_
    rw [liftS_ok] at hm
    dsimp only
    generalize hT : (determinePrecedence cls (m.map (·.1)) (some (.cls v.cls)) kw.inferred).getD (.cls v.cls) = t
    have hmt : ∀ u ∈ m.map (·.1), O (.ty u) := by
      cases m with
      | none => exact none_in
      | some p => exact some_in (.named v kw.fork p.1 p.2 hk.fork hv hm)
    have ht : O (.ty t) := by
      have key : ∀ l : List (Option Ty), (∀ o ∈ l, ∀ u ∈ o, O (.ty u)) → O (.ty ((l.findSome? id).getD (.cls v.cls))) := by
        intro l hl
        cases hf : l.findSome? id with
        | none => exact .cls v hv
        | some u =>
          obtain ⟨o, ho, hou⟩ := List.exists_of_findSome?_eq_some hf
          exact hl o ho u hou
      rw [← hT]
      unfold determinePrecedence
      dsimp only
      refine key _ ?_
      intro o ho
      split at ho <;> simp only [List.mem_cons, List.not_mem_nil, or_false] at ho <;>
        rcases ho with rfl | rfl | rfl
      · exact hmt
      · exact hc
      · exact some_in (.cls v hv)
      · exact hc
      · exact hmt
      · exact some_in (.cls v hv)
    rw [h.desers _ hk.fork t ht]
    refine bind_congr_ok fun fn hfn => ?_
    rw [liftK_ok] at hfn
    have hk' : LKwIn E f kt O { kw with
        metaHints := some (kw.metaHints.getD ((m.map (·.2)).getD []))
        inferred := decide (some t ≠ cls) } := by
      refine ⟨hk.fork, hk.keys, ?_⟩
      rintro _ ⟨⟩
      cases hmh : kw.metaHints with
      | some hs => exact hk.hints hs hmh
      | none =>
        cases m with
        | none => exact fun _ h => nomatch h
        | some p => exact fun e hm' s hs j hj u hu => .hinted v kw.fork j p.1 u p.2 e.1 s hk.fork hj hv hm (by rw [← hs]; exact hm') hu
    unfold doLoad
    cases fn with
    | none => rfl
    | some g =>
      dsimp only
      rw [callDes_eq hcu hr g v t _ hk' hv ht hk.fork hfn]
      simp only [fun r => validate_eq h r t ht hk.fork]

theorem loadRec_agree (h : Same E d l f O) (hcu : DesersStay E f kt S) :
    ∀ n, LAgree E f kt O (loadRec E n) (loadRec (loadEnv E d l) n) := by
  intro n
  induction n with
  | zero => exact fun _ _ _ _ _ _ => rfl
  | succ n ih =>
    intro v cls kw hk hv hc
    have hnone : checkForNone (loadEnv E d l) v cls = checkForNone E v cls := rfl
    simp only [loadRec, loadWith, loadFrom_eq h hcu ih v cls kw hk hv hc, hnone]
    refine congrArg _ (funext fun _ => ?_)
    split
    · next hcond =>
      rw [validate_eq h v _ ?_ hk.fork]
      rcases hcond with ⟨_, rfl⟩ | rfl
      · exact .cls v hv
      · exact hc _ rfl
    · rfl

end

/-- What `load(v, cls, **kw)` starts with. -/
def LGiven (E : LEnv) (v : Val) (cls : Option Ty) (kw : LoadKw) : Thing → Prop
  | .val w => w = v
  | .ty t => t ∈ cls ∨ ∃ hs ∈ kw.metaHints, ∃ k s i, (k, Val.str s) ∈ hs ∧ (i = kw.fork ∨ i = 0) ∧ E.clsFromStr i s = .ok t

/-- C96 for `load`: `set_deserializer(g, [c, ...], high_prio)` does not change what
`load(v, cls, **kw)` returns, raises and warns of if it concerns no type that occurs in the load. -/
theorem load_other_registration (E : LEnv) (d : Nat → Verif.Registry.Table DesFn Ty) (g : DesFn)
    (cs : List (Option Ty)) (hp : Bool) (n : Nat) (v : Val) (cls : Option Ty) (kw : LoadKw)
    (hset : ∀ i, i = kw.fork ∨ i = 0 →
      d i = E.desers i ∨ d i = Verif.Registry.setLizer (tyWorld E.info) g cs hp (E.desers i))
    (hcu : DesersStay E kw.fork (kw.keyTransformer.getD .ok) (LGiven E v cls kw))
    (hocc : ∀ t, LOccurs E kw.fork (kw.keyTransformer.getD .ok) (LGiven E v cls kw) (.ty t) →
      ∀ c ∈ cs, ¬ Concerns (tyWorld E.info) c t) :
    load { E with desers := d } n v cls kw = load E n v cls kw := by
  refine loadRec_agree (d := d) (l := E.vals) (f := kw.fork) (kt := kw.keyTransformer.getD .ok)
    (S := LGiven E v cls kw) ⟨?_, fun _ _ _ _ => rfl⟩ hcu n v cls kw ⟨.inl rfl, ?_, ?_⟩ (.given _ rfl)
    fun t ht => .given _ (.inl ht)
  · intro i hi t ht
    show Verif.Registry.getLizer (tyWorld E.info) (d i) t = _
    rcases hset i hi with h | h
    · rw [h]; rfl
    · rw [h]
      exact getLizer_other _ g hp t cs _ (hocc t ht)
  · cases kw.keyTransformer with
    | none => exact .inl rfl
    | some f => exact .inr (.inr rfl)
  · intro hs hhs e hm s he i hi t ht
    exact .given _ (.inr ⟨hs, hhs, e.1, s, i, by rw [← he]; exact hm, hi, ht⟩)

/-- `set_validator` is a registration with low priority. -/
theorem setVal_eq {F : Type} (W : Verif.Registry.World Ty) (g : F) (cs : List Ty) (tab : Verif.Registry.Table F Ty) :
    Verif.Registry.setVal W g cs tab = Verif.Registry.setLizer W g (cs.map some) false tab := by
  unfold Verif.Registry.setVal Verif.Registry.setLizer
  rw [List.foldl_map]
  rfl

/-- C96 for validators: `set_validator(g, [c, ...])` does not change what `load(v, cls, **kw)`
returns, raises and warns of if it concerns no type that occurs in the load. -/
theorem load_other_validator (E : LEnv) (l : Nat → Verif.Registry.Table Nat Ty) (g : Nat)
    (cs : List Ty) (n : Nat) (v : Val) (cls : Option Ty) (kw : LoadKw)
    (hset : ∀ i, i = kw.fork ∨ i = 0 →
      l i = E.vals i ∨ l i = Verif.Registry.setVal (tyWorld E.info) g cs (E.vals i))
    (hcu : DesersStay E kw.fork (kw.keyTransformer.getD .ok) (LGiven E v cls kw))
    (hocc : ∀ t, LOccurs E kw.fork (kw.keyTransformer.getD .ok) (LGiven E v cls kw) (.ty t) →
      ∀ c ∈ cs, ¬ Concerns (tyWorld E.info) (some c) t) :
    load { E with vals := l } n v cls kw = load E n v cls kw := by
  refine loadRec_agree (d := E.desers) (l := l) (f := kw.fork) (kt := kw.keyTransformer.getD .ok)
    (S := LGiven E v cls kw) ⟨fun _ _ _ _ => rfl, ?_⟩ hcu n v cls kw ⟨.inl rfl, ?_, ?_⟩ (.given _ rfl)
    fun t ht => .given _ (.inl ht)
  · intro i hi t ht
    show Verif.Registry.getLizer (tyWorld E.info) (l i) t = _
    rcases hset i hi with h | h
    · rw [h]; rfl
    · rw [h, setVal_eq]
      refine getLizer_other _ g false t _ _ fun c hc => ?_
      obtain ⟨c', hc', rfl⟩ := List.mem_map.mp hc
      exact hocc t ht c' hc'
  · cases kw.keyTransformer with
    | none => exact .inl rfl
    | some f => exact .inr (.inr rfl)
  · intro hs hhs e hm s he i hi t ht
    exact .given _ (.inr ⟨hs, hhs, e.1, s, i, by rw [← he]; exact hm, hi, ht⟩)

/-- What occurs when the document of a `Point` is loaded. -/
def InPoint : Thing → Prop
  | .val (.dict es) => ∀ e ∈ es, e ∈ [(Val.str "x".toList, Val.int 1), (.str "y".toList, .int 2)]
  | .val w => w ∈ [Val.str "x".toList, .str "y".toList, .int 1, .int 2]
  | .ty t => t ∈ [Ty.cls (.user 0), .cls .str, .cls .int, .cls .dict, .cls .datetime]

/-- The document. -/
def point : Val := .dict [(.str "x".toList, .int 1), (.str "y".toList, .int 2)]

theorem in_point_val {v : Val} (h : InPoint (.val v)) :
    (∃ es, v = .dict es ∧ ∀ e ∈ es, e ∈ [(Val.str "x".toList, Val.int 1), (.str "y".toList, .int 2)]) ∨
    v = .str "x".toList ∨ v = .str "y".toList ∨ v = .int 1 ∨ v = .int 2 := by
  cases v with
  | dict es => exact .inl ⟨es, rfl, h⟩
  | _ => exact .inr (by simp only [InPoint, List.mem_cons, List.not_mem_nil, or_false] at h; exact h)

theorem not_meta {es : List (Val × Val)}
    (h : ∀ e ∈ es, e ∈ [(Val.str "x".toList, Val.int 1), (.str "y".toList, .int 2)]) :
    dictGet es (.str metaKey) = none := by
  cases hg : dictGet es (.str metaKey) with
  | none => rfl
  | some x =>
    obtain ⟨e, he, _, hk⟩ := dictGet_mem hg
    have := h e he
    simp only [List.mem_cons, List.not_mem_nil, or_false] at this
    rcases this with rfl | rfl <;> exact absurd hk (by decide)

theorem point_names {v : Val} {i : Nat} {p : Ty × List (Val × Val)} (h : InPoint (.val v)) :
    getClsAndMeta (demoLEnv demoInfo) v i ≠ .ok (some p) := by
  intro hm
  rcases in_point_val h with ⟨es, rfl, hes⟩ | rfl | rfl | rfl | rfl
  · unfold getClsAndMeta at hm
    simp only [not_meta hes] at hm
    cases hm
  all_goals cases hm

theorem point_loads (x : Thing)
    (h : LOccurs (demoLEnv demoInfo) 0 .ok (LGiven (demoLEnv demoInfo) point (some (.cls (.user 0))) {}) x) :
    InPoint x := by
  have hdes : ∀ (i : Nat) (t : Ty), InPoint (.ty t) →
      (demoLEnv demoInfo).getDes i t ≠ .ok (some .timezone) ∧ (demoLEnv demoInfo).getDes i t ≠ .ok (some .complex) ∧
      (demoLEnv demoInfo).getDes i t ≠ .ok (some .defaultdict) := by
    intro i t ht
    change (demoLEnv demoInfo).getDes 0 t ≠ _ ∧ (demoLEnv demoInfo).getDes 0 t ≠ _ ∧ (demoLEnv demoInfo).getDes 0 t ≠ _
    simp only [InPoint, List.mem_cons, List.not_mem_nil, or_false] at ht
    rcases ht with rfl | rfl | rfl | rfl | rfl <;> decide +kernel
  induction h with
  | given x h =>
    cases x with
    | val w => rw [show w = point from h]; exact fun e he => he
    | ty t =>
      rcases h with h | ⟨hs, h, _⟩
      · cases h; exact List.mem_cons_self
      · cases h
  | elem v x xs _ hi hx ih =>
    rcases in_point_val ih with ⟨es, rfl, hes⟩ | rfl | rfl | rfl | rfl <;> cases hi
    · obtain ⟨e, he, rfl⟩ := List.mem_map.mp hx
      have := hes e he
      simp only [List.mem_cons, List.not_mem_nil, or_false] at this
      rcases this with rfl | rfl <;> simp [InPoint]
    · have hx : x = .str "x".toList := List.mem_singleton.mp hx
      subst hx
      simp [InPoint]
    · have hx : x = .str "y".toList := List.mem_singleton.mp hx
      subst hx
      simp [InPoint]
  | value es e _ he ih =>
    have := ih e he
    simp only [List.mem_cons, List.not_mem_nil, or_false] at this
    rcases this with rfl | rfl <;> simp [InPoint]
  | key es e k _ he hk ih =>
    cases hk
    have := ih e he
    simp only [List.mem_cons, List.not_mem_nil, or_false] at this
    rcases this with rfl | rfl <;> simp [InPoint]
  | del es k _ ih => exact fun e he => ih e (dictDel_mem he)
  | default c d _ hk _ ih =>
    simp only [InPoint, List.mem_cons, List.not_mem_nil, or_false, reduceCtorEq, Ty.cls.injEq, Cls.user.injEq] at ih
    subst ih
    cases hk
  | none c _ hk ih =>
    simp only [InPoint, List.mem_cons, List.not_mem_nil, or_false, reduceCtorEq, Ty.cls.injEq, Cls.user.injEq] at ih
    subst ih
    cases hk
  | cls v _ ih =>
    rcases in_point_val ih with ⟨es, rfl, hes⟩ | rfl | rfl | rfl | rfl <;> simp [InPoint, Val.cls, Atom.cls]
  | arg t a _ ha ih =>
    simp only [InPoint, List.mem_cons, List.not_mem_nil, or_false] at ih
    rcases ih with rfl | rfl | rfl | rfl | rfl <;> cases ha
  | hint c h _ hh ih =>
    simp only [InPoint, List.mem_cons, List.not_mem_nil, or_false, reduceCtorEq, Ty.cls.injEq, Cls.user.injEq] at ih
    subst ih
    simp only [demoLEnv, demoEnv, demoInfo, List.mem_cons, List.not_mem_nil, or_false] at hh
    rcases hh with rfl | rfl <;> simp [InPoint]
  | init c h _ hh ih =>
    simp only [InPoint, List.mem_cons, List.not_mem_nil, or_false, reduceCtorEq, Ty.cls.injEq, Cls.user.injEq] at ih
    subst ih
    simp only [demoLEnv, demoEnv, demoInfo, List.mem_cons, List.not_mem_nil, or_false] at hh
    rcases hh with rfl | rfl <;> simp [InPoint]
  | named v i t hs _ _ hm ih => exact absurd hm (point_names ih)
  | hinted v i j t u hs k s _ _ _ hm _ _ ih => exact absurd hm (point_names ih)
  | datetime i t => simp [InPoint]
  | offset i t _ _ hg ih => exact absurd hg (hdes i t ih).1
  | dict i t _ _ hg ih => exact absurd hg (hdes i t ih).2.2
  | complex i t _ _ hg ih => exact absurd hg (hdes i t ih).2.1
  | numbers i t v re im _ _ hg _ _ _ ih => exact absurd hg (hdes i t ih).2.1

/-- A deserializer for `Person` does not matter to a `Point`. -/
example (g : DesFn) : load { demoLEnv demoInfo with
    desers := fun i => Verif.Registry.setLizer (tyWorld demoInfo) g [some (.cls (.user 5))] true
      ((demoLEnv demoInfo).desers i) } 9 point (some (.cls (.user 0))) {} =
    load (demoLEnv demoInfo) 9 point (some (.cls (.user 0))) {} := by
  refine load_other_registration (demoLEnv demoInfo) _ g [some (.cls (.user 5))] true 9 point (some (.cls (.user 0))) {}
    (fun i _ => .inr rfl) (fun _ _ _ _ _ _ _ _ _ => ⟨fun _ => rfl, rfl⟩) fun t ht c hc => ?_
  rw [List.mem_singleton.mp hc]
  have := point_loads _ ht
  simp only [InPoint, List.mem_cons, List.not_mem_nil, or_false] at this
  exact not_concerns_person (by simp only [List.mem_cons, List.not_mem_nil, or_false]; tauto)

/-- And neither does a validator. -/
example (g : Nat) : load { demoLEnv demoInfo with
    vals := fun i => Verif.Registry.setVal (tyWorld demoInfo) g [.cls (.user 5)]
      ((demoLEnv demoInfo).vals i) } 9 point (some (.cls (.user 0))) {} =
    load (demoLEnv demoInfo) 9 point (some (.cls (.user 0))) {} := by
  refine load_other_validator (demoLEnv demoInfo) _ g [.cls (.user 5)] 9 point (some (.cls (.user 0))) {}
    (fun i _ => .inr rfl) (fun _ _ _ _ _ _ _ _ _ => ⟨fun _ => rfl, rfl⟩) fun t ht c hc => ?_
  rw [List.mem_singleton.mp hc]
  have := point_loads _ ht
  simp only [InPoint, List.mem_cons, List.not_mem_nil, or_false] at this
  exact not_concerns_person (by simp only [List.mem_cons, List.not_mem_nil, or_false]; tauto)

/-- The load the two examples are about. -/
example : (load (demoLEnv demoInfo) 9 point (some (.cls (.user 0))) {}).val =
    .ok (.obj 0 [("x".toList, .int 1), ("y".toList, .int 2)]) := by decide +kernel

/-- A deserializer for `datetime` does matter to documents with texts, though no `datetime` is asked
for: texts are tried as a `datetime` first. -/
theorem datetime_registration_matters :
    (load { demoLEnv demoInfo with
      desers := fun i => Verif.Registry.setLizer (tyWorld demoInfo) .primitive [some (.cls .datetime)] true
        ((demoLEnv demoInfo).desers i) } 9 (.str "2020-01-01T00:00:00Z".toList) none {}).val ≠
    (load (demoLEnv demoInfo) 9 (.str "2020-01-01T00:00:00Z".toList) none {}).val := by decide +kernel

end Verif.Props.Registrations
