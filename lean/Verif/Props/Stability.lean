import Verif.Props.LoadTypes
import Verif.Props.TextRoundTrip

/-!
# C91: what was loaded survives being dumped and loaded again
-/

set_option autoImplicit false

namespace Verif.Props.Stability
open Verif Verif.Core Verif.Api Verif.Datetime Verif.Props.Datetime
open Verif.Props.LoadBasics Verif.Props.LoadCollections Verif.Props.LoadObject Verif.Props.LoadTypes
open Verif.Props.RoundTrip

/-! ## Specification -/

/-- A key of a document: a text other than '-meta' and '-keys'. -/
def DocKey (k : Val) : Prop := ∃ s, k = .str s ∧ s ≠ metaKey ∧ s ≠ keysKey

/-- JSON documents without '-meta' and '-keys'. -/
inductive Doc : Val → Prop
  | none : Doc .none
  | bool (b : Bool) : Doc (.bool b)
  | int (n : Int) : Doc (.int n)
  | float (q : ℚ) : Doc (.float q)
  | str (s : PyStr) : Doc (.str s)
  | list {xs : List Val} : (∀ x ∈ xs, Doc x) → Doc (.list xs)
  | dict {es : List (Val × Val)} : (∀ e ∈ es, DocKey e.1) → (∀ e ∈ es, Doc e.2) → Doc (.dict es)

/-- The types that are covered: classes with a fixed text, enums, collections, `Optional`,
named tuples (`N`) and the classes `K`, which may refer to each other.  With `exact`, no
`datetime` is in the type; so it has to be for the elements of sets. -/
inductive Lasting (E : LEnv) (K N : Bool → Nat → Prop) : (exact : Bool) → Ty → Prop
  | prim {x : Bool} {c : Cls} : c ∈ [Cls.noneType, .bool, .int, .float, .str, .date, .time, .timedelta,
      .uuid, .decimal, .path, .zoneinfo] → Lasting E K N x (.cls c)
  | datetime : Lasting E K N false (.cls .datetime)
  | complex {x : Bool} : DefaultDesers E 0 → NoValidators E 0 → Lasting E K N x (.cls .complex)
  | enum {x : Bool} {c : Nat} {i : Bool} : (E.info c).kind = .enum i → Lasting E K N x (.cls (.user c))
  | elems {x : Bool} {g : Gen} {a : Ty} : g ∈ [Gen.list, .deque, .tupleEll] → Lasting E K N x a →
      Lasting E K N x (.gen g [a])
  | set {x : Bool} {g : Gen} {a : Ty} : g ∈ [Gen.set, .frozenset] → Lasting E K N true a →
      Lasting E K N x (.gen g [a])
  | tuple {x : Bool} {a : Ty} {as : List Ty} : (∀ t ∈ a :: as, Lasting E K N x t) →
      Lasting E K N x (.gen .tuple (a :: as))
  | dict {x : Bool} {g : Gen} {k : Cls} {a : Ty} : g ∈ [Gen.dict, .mapping, .defaultdict] →
      k ∈ [Cls.str, .int, .float, .bool] → Lasting E K N x a → Lasting E K N x (.gen g [.cls k, a])
  | opt {x : Bool} {a : Ty} : ¬ AllowsNone a → ¬ OddName E a → Lasting E K N x a →
      Lasting E K N x (.union [a, .cls .noneType])
  | ntuple {x : Bool} {c : Nat} : N x c → Lasting E K N x (.cls (.user c))
  | obj {x : Bool} {c : Nat} : K x c → Lasting E K N x (.cls (.user c))

/-- The classes `K` store their parameters, which have hints of covered types, and the
default values are of these types.  Setting an attribute keeps the others. -/
structure Class (E : LEnv) (W : Way) (K N : Bool → Nat → Prop) (x : Bool) (c : Nat) : Prop where
  storing : Storing E c
  fixed : ∀ p ∈ (E.info c).params, p.variadic = false
  types : ∀ p ∈ (E.info c).params, ∀ t, assoc (E.info c).initHints p.name = some t → Lasting E K N x t
  defaults : ∀ p ∈ (E.info c).params, ∀ t, assoc (E.info c).initHints p.name = some t →
    ∀ d, p.default = some d → HasTy E W x d t
  sets : ∀ as s y as', E.setAttr c as s y = .ok as' →
    s ∈ as'.map (·.1) ∧ ∀ m ∈ as.map (·.1), m ∈ as'.map (·.1)

/-- The named tuples `N` have hints of covered types for all fields, and default values
that could be in a document (they are loaded as if they were). -/
structure NamedTuple (E : LEnv) (K N : Bool → Nat → Prop) (x : Bool) (c : Nat) : Prop where
  hinted : Hinted E c
  types : ∀ f ∈ (E.info c).fields, ∀ t, assoc (E.info c).hints f = some t → Lasting E K N x t
  defaults : ∀ f d, assoc (E.info c).fieldDefaults f = some d → Doc d

/-- The classes of a program. -/
structure Program (E : LEnv) (W : Way) (K N : Bool → Nat → Prop) : Prop where
  classes : ∀ x c, K x c → Class E W K N x c
  ntuples : ∀ x c, N x c → NamedTuple E K N x c
  /-- `str(UUID(x))` and so on are texts of which the same is made again. -/
  uuid : ∀ v s, E.uuidOf v = .ok s → E.uuidOf (.str s) = .ok s
  decimal : ∀ v s, E.decimalOf v = .ok s → E.decimalOf (.str s) = .ok s
  path : ∀ v s, E.pathOf v = .ok s → E.pathOf (.str s) = .ok s
  zone : ∀ v s, E.zoneOf v = .ok s → E.zoneOf (.str s) = .ok s

/-- What is known of values without parts to be written correctly. -/
def TidyAtom (E : LEnv) (W : Way) : Atom → Prop
  | .float q => W.float q
  | .complex re im => W.float re ∧ W.float im
  | .datetime d => (E.pad = true ∨ 1000 ≤ d.year) ∧
      ∀ tz off, d.tz = some tz → tz.offAt = some off → WritableOffset off
  | .date d => E.pad = true ∨ 1000 ≤ d.year
  | .timedelta us => |us| ≤ 2 ^ 33 * 1000000 ∧ W.float (Timedelta.timedeltaSerializer E.R us)
  | _ => True

/-- A loaded value with nothing in it that is not written correctly, and with no
attributes other than the parameters of the constructor. -/
inductive Tidy (E : LEnv) (W : Way) : Val → Prop
  | atom {a : Atom} : TidyAtom E W a → Tidy E W (.atom a)
  | enum {c : Nat} {m : PyStr} : Tidy E W (.enum c m)
  | seq {k : SeqKind} {xs : List Val} : (∀ x ∈ xs, Tidy E W x) → Tidy E W (.seq k xs)
  | dict {es : List (Val × Val)} : (∀ e ∈ es, W.key e.1) → (∀ e ∈ es, Tidy E W e.2) → Tidy E W (.dict es)
  | ddict {f : Option Ty} {es : List (Val × Val)} : Tidy E W (.dict es) → Tidy E W (.ddict f es)
  | ntuple {c : Nat} {xs : List Val} : (∀ x ∈ xs, Tidy E W x) → Tidy E W (.ntuple c xs)
  | obj {c : Nat} {as : List (PyStr × Val)} : (∀ a ∈ as, a.1 ∈ (E.info c).params.map (·.name)) →
      (∀ a ∈ as, Tidy E W a.2) → Tidy E W (.obj c as)

/-- The options of the first `load`: no getters and no hints from outside; a key
transformer makes keys of documents out of keys of documents. -/
structure Reads (fork : Nat) (kw : LoadKw) : Prop where
  fork : kw.fork = fork
  getters : kw.attrGetters = []
  hints : kw.metaHints.getD [] = []
  keys : ∀ f, kw.keyTransformer = some f → ∀ k r, DocKey k → f k = .ok r → DocKey r

/-! ## Lemmas -/

variable {E : LEnv} {W : Way} {K N : Bool → Nat → Prop} {fork : Nat}

theorem doc_noMeta {v : Val} (h : Doc v) : NoMeta v := by
  intro es he
  subst he
  cases h with
  | dict h _ =>
    refine dictGet_absent fun e he hm => ?_
    obtain ⟨s, h1, h2, _⟩ := h e he
    rw [h1] at hm
    exact h2 (by simpa using hm)

theorem doc_iter {v : Val} (h : Doc v) {xs : List Val} (hx : v.iter = some xs) : ∀ x ∈ xs, Doc x := by
  cases h with
  | none | bool | int | float => cases hx
  | str s =>
    simp only [Val.iter, Option.some.injEq] at hx
    subst hx
    intro x hx
    obtain ⟨c, _, rfl⟩ := List.mem_map.1 hx
    exact .str _
  | list h => cases hx; exact h
  | dict h _ =>
    simp only [Val.iter, Option.some.injEq] at hx
    subst hx
    intro x hx
    obtain ⟨e, he, rfl⟩ := List.mem_map.1 hx
    obtain ⟨s, h, _⟩ := h e he
    rw [h]
    exact .str s

theorem doc_index {v w : Val} (h : Doc v) {i : Nat} (hi : index v i = .ok w) : Doc w := by
  cases h with
  | none | bool | int | float => cases hi
  | str s =>
    simp only [index] at hi
    split at hi
    · cases hi; exact .str _
    · cases hi
  | list h =>
    simp only [index] at hi
    split at hi
    · next hx => cases hi; exact h _ (List.mem_of_getElem? hx)
    · cases hi
  | dict _ _ => cases hi

theorem Reads.of {kw : LoadKw} (h : Reads fork kw) : Reads fork (kwOf kw none) :=
  ⟨h.fork, h.getters, h.hints, h.keys⟩

theorem Reads.noKeys {kw : LoadKw} (h : Reads fork kw) : Reads fork { kw with keyTransformer := none } :=
  ⟨h.fork, h.getters, h.hints, fun f hf => by cases hf⟩

theorem Reads.getD {kw : LoadKw} (h : Reads fork kw) :
    ∀ k r, DocKey k → kw.keyTransformer.getD .ok k = .ok r → DocKey r := by
  intro k r hk hr
  cases hf : kw.keyTransformer with
  | none => rw [hf] at hr; cases hr; exact hk
  | some f => rw [hf] at hr; exact h.keys f hf k r hk hr

theorem Reads.values {kw : LoadKw} (h : Reads fork kw) :
    Reads fork { kw with keyTransformer := some (kw.keyTransformer.getD .ok) } :=
  ⟨h.fork, h.getters, h.hints, fun f hf k r hk hr => by cases hf; exact h.getD k r hk hr⟩

theorem digit_zero {n : Nat} (h : digit n = '0') : n % 10 = 0 := by
  rw [← digit_val, h]
  rfl

/-- Only the zone without offset is called UTC. -/
theorem fixedName_utc {us : Int} (hm : us % 60000000 = 0) (hb : |us| < 86400000000)
    (h : fixedName us = "UTC".toList ∨ fixedName us = "UTC+00:00".toList) : us = 0 := by
  by_contra hne
  unfold fixedName at h
  rw [if_neg hne] at h
  simp only [pad2] at h
  have hb' := abs_lt.1 hb
  rcases h with h | h
  · have := congrArg List.length h
    simp at this
  · simp only [String.reduceToList, List.cons_append, List.nil_append, List.cons.injEq, true_and] at h
    obtain ⟨_, h1, h2, h3, h4, _⟩ := h
    have h1 := digit_zero h1
    have h2 := digit_zero h2
    have h3 := digit_zero h3
    have h4 := digit_zero h4
    omega

theorem zone_offset {a b : Int} {tz : Tz} (h : mkTimezone a b = .ok tz) :
    ∃ off, HasOffset tz off ∧ |off| < 86400000000 := by
  unfold mkTimezone at h
  simp only at h
  split at h
  · cases h
  · split at h
    · injection h with h
      subst h
      have hb : |(a * 60 + b) * 60000000| < 86400000000 := by rw [abs_lt]; omega
      refine ⟨_, ⟨rfl, .inr rfl, .inl rfl, fun hn => ?_⟩, hb⟩
      refine fixedName_utc (by omega) hb ?_
      simpa [Tz.fixed] using hn
    · cases h

/-- The zones of loaded datetimes. -/
theorem loaded_zone {s : PyStr} {f : Bool} {dt : DT} (h : getDatetimeInst s (.datetime f) = .ok dt) :
    ∃ tz off, dt.tz = some tz ∧ HasOffset tz off ∧ |off| < 86400000000 := by
  unfold getDatetimeInst at h
  split at h
  · cases h
  · unfold datetimeUtcInst at h
    obtain ⟨d, h1, h2⟩ := Datetime.bind_ok h
    injection h2 with h2
    subst h2
    exact ⟨_, 0, rfl, ⟨rfl, .inr rfl, .inl rfl, fun _ => rfl⟩, by decide⟩
  · unfold datetimeOffsetInst at h
    obtain ⟨⟨dat, tim⟩, _, h⟩ := Datetime.bind_ok h
    simp only at h
    obtain ⟨⟨naive, offset⟩, _, h⟩ := Datetime.bind_ok h
    obtain ⟨d, h1, h⟩ := Datetime.bind_ok h
    obtain ⟨⟨hs, ms⟩, _, h⟩ := Datetime.bind_ok h
    obtain ⟨hrs, _, h⟩ := Datetime.bind_ok h
    obtain ⟨mins, _, h⟩ := Datetime.bind_ok h
    obtain ⟨tz, h2, h⟩ := Datetime.bind_ok h
    injection h with h
    subst h
    obtain ⟨off, h3, h4⟩ := zone_offset h2
    exact ⟨tz, off, rfl, h3, h4⟩

theorem loaded_time_micro {s : PyStr} {t : Time} (h : timeDeserializer s = .ok t) : t.micro = 0 := by
  have hz : ∀ {s' d}, strptime s' .time = .ok d → d.micro = 0 := by
    intro s' d h
    simp only [strptime] at h
    obtain ⟨_, _, h⟩ := Datetime.bind_ok h
    unfold mkDatetime at h
    split at h <;> cases h
    rfl
  unfold timeDeserializer at h
  obtain ⟨d, h1, h2⟩ := Datetime.bind_ok h
  cases h2
  unfold getDatetimeInst at h1
  split at h1
  · cases h1
  · unfold datetimeUtcInst at h1
    obtain ⟨d', h3, h4⟩ := Datetime.bind_ok h1
    cases h4
    exact hz h3
  · exact hz h1

/-- What is loaded as a class without parts. -/
theorem scalar_hasTy (hP : Program E W K N) {x : Bool} {c : Cls} (hc : c ∈ [Cls.noneType, .bool, .int, .float,
      .str, .date, .time, .timedelta, .uuid, .decimal, .path, .zoneinfo]) {rec : LRec} {v r : Val} {kw : LoadKw}
    (hi : kw.inferred = false) (hv : Doc v) (h0 : NoneOk E v (some (.cls c)))
    (h : (callDes E rec (c.desFn E.info) v (.cls c) kw).val = .ok r) (ht : Tidy E W r) :
    HasTy E W x r (.cls c) := by
  simp only [List.mem_cons, List.not_mem_nil, or_false] at hc
  have hprim : c = .bool ∨ c = .int ∨ c = .float → (primitiveDes E v (.cls c)).val = .ok r →
      HasTy E W x r (.cls c) := by
    intro hc h
    unfold primitiveDes at h
    split at h
    · next hv =>
      exfalso
      have := h0 hv
      rcases hc with rfl | rfl | rfl <;> cases this
    · split at h
      · cases h
      · next hi =>
        simp only [pure_val, Except.ok.injEq] at h
        subst h
        have hi := Except.ok.inj hi
        cases hv with
        | none => rcases hc with rfl | rfl | rfl <;> cases hi
        | bool b =>
          rcases hc with rfl | rfl | rfl
          · exact .bool b
          · exact .flag b
          · cases hi
        | int n =>
          rcases hc with rfl | rfl | rfl
          · cases hi
          · exact .int n
          · cases hi
        | float q =>
          rcases hc with rfl | rfl | rfl
          · cases hi
          · cases hi
          · cases ht with | atom ht => exact .float ht
        | str s => rcases hc with rfl | rfl | rfl <;> cases hi
        | list _ => rcases hc with rfl | rfl | rfl <;> cases hi
        | dict _ _ => rcases hc with rfl | rfl | rfl <;> cases hi
      · split at h
        · next r' hr =>
          simp only [pure_val, Except.ok.injEq] at h
          subst h
          rcases hc with rfl | rfl | rfl
          · cases hr; exact .bool _
          · simp only [Env.cast] at hr
            cases hx : E.intOf v with
            | error k => rw [hx] at hr; cases hr
            | ok x => rw [hx] at hr; cases hr; exact .int _
          · simp only [Env.cast] at hr
            cases hx : E.floatOf v with
            | error k => rw [hx] at hr; cases hr
            | ok x =>
              rw [hx] at hr; cases hr
              cases ht with | atom ht => exact .float ht
        · split at h <;> cases h
  rcases hc with rfl | rfl | rfl | rfl | rfl | rfl | rfl | rfl | rfl | rfl | rfl | rfl
  · simp only [Cls.desFn, callDes, noneTypeDes] at h
    split at h
    · next hv => subst hv; cases h; exact .none
    · cases h
  · exact hprim (.inl rfl) h
  · exact hprim (.inr (.inl rfl)) h
  · exact hprim (.inr (.inr rfl)) h
  · simp only [Cls.desFn, callDes, stringDes, hi, and_self, if_true, pure_val, Except.ok.injEq] at h
    subst h
    exact .str _
  · simp only [Cls.desFn, callDes, dateDes] at h
    split at h
    · next s =>
      rw [liftK_ok] at h
      cases hx : dateDeserializer s with
      | error k => rw [hx] at h; cases h
      | ok d =>
        rw [hx] at h; cases h
        cases ht with | atom ht => exact .date (loaded_date_valid s d hx) ht
    · cases h
  · simp only [Cls.desFn, callDes, timeDes] at h
    split at h
    · next s =>
      rw [liftK_ok] at h
      cases hx : timeDeserializer s with
      | error k => rw [hx] at h; cases h
      | ok d =>
        rw [hx] at h; cases h
        obtain ⟨h1, h2, h3, _, h5⟩ := loaded_time_valid s d hx
        exact .time h1 h2 h3 (loaded_time_micro hx) h5
    · cases h
  · simp only [Cls.desFn, callDes, timedeltaDes] at h
    have key : ∀ us, Tidy E W (.atom (.timedelta us)) → HasTy E W x (.atom (.timedelta us)) (.cls .timedelta) := by
      intro us ht
      cases ht with | atom ht => exact .timedelta ht.1 ht.2
    split at h <;> cases h <;> exact key _ ht
  · simp only [Cls.desFn, callDes, uuidDes, liftK_ok] at h
    cases hx : E.uuidOf v with
    | error k => rw [hx] at h; cases h
    | ok x => rw [hx] at h; cases h; exact .uuid (hP.uuid _ _ hx)
  · simp only [Cls.desFn, callDes, decimalDes, liftK_ok] at h
    cases hx : E.decimalOf v with
    | error k => rw [hx] at h; cases h
    | ok x => rw [hx] at h; cases h; exact .decimal (hP.decimal _ _ hx)
  · simp only [Cls.desFn, callDes, pathDes, liftK_ok] at h
    cases hx : E.pathOf v with
    | error k => rw [hx] at h; cases h
    | ok x => rw [hx] at h; cases h; exact .path (hP.path _ _ hx)
  · simp only [Cls.desFn, callDes, zoneinfoDes, Core.bind_ok, liftK_ok] at h
    obtain ⟨k, _, h⟩ := h
    cases hx : E.zoneOf k with
    | error k => rw [hx] at h; cases h
    | ok x => rw [hx] at h; cases h; exact .zoneinfo (hP.zone _ _ hx)

theorem datetime_hasTy {v r : Val} (h : (datetimeDes v).val = .ok r) (ht : Tidy E W r) :
    HasTy E W false r (.cls .datetime) := by
  unfold datetimeDes at h
  split at h
  · next s =>
    rw [liftK_ok] at h
    cases hx : datetimeDeserializer s with
    | error k => rw [hx] at h; cases h
    | ok d =>
      rw [hx] at h; cases h
      cases ht with
      | atom ht =>
        have hvalid := (loaded_datetime_valid s d hx).1
        have key : ∃ s' f, getDatetimeInst s' (.datetime f) = .ok d := by
          unfold datetimeDeserializer at hx
          split at hx
          · split at hx
            · cases hx
            · exact ⟨_, _, hx⟩
          · exact ⟨_, _, hx⟩
        obtain ⟨s', f, hk⟩ := key
        obtain ⟨tz, off, h1, h2, h3⟩ := loaded_zone hk
        exact .datetime hvalid ht.1 h1 h2 h3 (ht.2 tz off h1 h2.at_)
  · cases h

theorem complex_hasTy (hd : DefaultDesers E 0) (hv : NoValidators E 0) {x : Bool} {rec : LRec} {v r : Val}
    (h : (complexDes rec v).val = .ok r) (ht : Tidy E W r) : HasTy E W x r (.cls .complex) := by
  simp only [complexDes, Core.bind_ok, attempt_val, Except.ok.injEq, exists_eq_left'] at h
  split at h
  · next r' hr =>
    simp only [pure_val, Except.ok.injEq] at h
    subst h
    simp only [Core.bind_ok] at hr
    obtain ⟨_, _, _, _, _, _, _, _, _, _, hr⟩ := hr
    split at hr <;> cases hr
    cases ht with | atom ht => exact .complex ht.1 ht.2 hd hv
  · split at h <;> cases h

theorem enum_hasTy {x : Bool} {v r : Val} {c : Nat} {i : Bool} {kw : LoadKw} (hk : (E.info c).kind = .enum i)
    (h : (enumDes E v (.cls (.user c)) kw).val = .ok r) : HasTy E W x r (.cls (.user c)) := by
  have h1 : ∀ r, enumByName (E.info c) c v = .ok r → HasTy E W x r (.cls (.user c)) := by
    intro r h
    unfold enumByName at h
    split at h
    · next s =>
      split at h
      · next hs =>
        cases h
        obtain ⟨w, hw⟩ := Option.isSome_iff_exists.1 hs
        exact .enum hk (List.mem_map_of_mem (f := (·.1)) (assoc_mem hw))
      · cases h
    · cases h
  have h2 : ∀ r, enumByValue (E.info c) c v = .ok r → HasTy E W x r (.cls (.user c)) := by
    intro r h
    unfold enumByValue at h
    split at h
    · next p hp =>
      cases h
      exact .enum hk (List.mem_map_of_mem (List.mem_of_find?_eq_some hp))
    · cases h
  simp only [enumDes] at h
  split at h
  · exact h1 r (liftK_ok.1 h)
  · exact h2 r (liftK_ok.1 h)
  · split at h
    · next hr => cases h; exact h1 _ hr
    · exact h2 r (liftK_ok.1 h)

/-! ## Collections -/

theorem dedup_pairwise : ∀ (xs acc : List Val), acc.Pairwise (fun v w => pyEq w v = false) →
    (dedup acc xs).Pairwise (fun v w => pyEq v w = false) := by
  intro xs
  induction xs with
  | nil => intro acc h; exact List.pairwise_reverse.2 h
  | cons y xs ih =>
    intro acc h
    simp only [dedup]
    split
    · exact ih acc h
    · next hn =>
      refine ih _ (List.pairwise_cons.2 ⟨fun w hw => ?_, h⟩)
      rw [Bool.not_eq_true, List.any_eq_false] at hn
      simpa using hn w hw

theorem dictSet_keys {es : List (Val × Val)} {k v : Val} {e : Val × Val} (h : e ∈ dictSet es k v) :
    e.1 = k ∧ dictGet es k = none ∨ ∃ e' ∈ es, e'.1 = e.1 := by
  induction es with
  | nil =>
    simp only [dictSet, List.mem_singleton] at h
    subst h
    exact .inl ⟨rfl, rfl⟩
  | cons p es ih =>
    obtain ⟨k', v'⟩ := p
    simp only [dictSet] at h
    split at h
    · rcases List.mem_cons.1 h with rfl | h
      · exact .inr ⟨_, List.mem_cons_self, rfl⟩
      · exact .inr ⟨_, List.mem_cons_of_mem _ h, rfl⟩
    · next hne =>
      rcases List.mem_cons.1 h with rfl | h
      · exact .inr ⟨_, List.mem_cons_self, rfl⟩
      · rcases ih h with ⟨h1, h2⟩ | ⟨e', he, h⟩
        · exact .inl ⟨h1, by rw [dictGet, if_neg hne]; exact h2⟩
        · exact .inr ⟨e', List.mem_cons_of_mem _ he, h⟩

theorem dictSet_pairwise {k v : Val} : ∀ {es : List (Val × Val)}, es.Pairwise (fun e f => pyEq e.1 f.1 = false) →
    (dictSet es k v).Pairwise (fun e f => pyEq e.1 f.1 = false) := by
  intro es
  induction es with
  | nil => intro _; exact List.pairwise_singleton _ _
  | cons p es ih =>
    obtain ⟨k', v'⟩ := p
    intro h
    obtain ⟨h1, h2⟩ := List.pairwise_cons.1 h
    simp only [dictSet]
    split
    · exact List.pairwise_cons.2 ⟨h1, h2⟩
    · next hne =>
      refine List.pairwise_cons.2 ⟨fun e he => ?_, ih h2⟩
      rcases dictSet_keys he with ⟨h, _⟩ | ⟨e', he', h⟩
      · rw [h]; simpa using hne
      · rw [← h]; exact h1 e' he'

theorem dictComp_pairwise {info : Nat → ClassInfo} {kf vf : Val → Res Val} :
    ∀ (es acc r : List (Val × Val)), (dictComp info kf vf acc es).val = .ok r →
      acc.Pairwise (fun e f => pyEq e.1 f.1 = false) → r.Pairwise (fun e f => pyEq e.1 f.1 = false) := by
  intro es
  induction es with
  | nil =>
    intro acc r h ha
    simp only [dictComp, pure_val, Except.ok.injEq] at h
    subst h
    exact ha
  | cons e es ih =>
    obtain ⟨k, v⟩ := e
    intro acc r h ha
    simp only [dictComp, Core.bind_ok] at h
    obtain ⟨k', _, v', _, h⟩ := h
    split at h
    · exact ih _ _ h (dictSet_pairwise ha)
    · cases h

/-- The keys of a loaded dict. -/
theorem key_loaded (hd : DefaultDesers E fork) {n : Nat} {k : Cls} (hk : k ∈ [Cls.str, .int, .float, .bool])
    {y r : Val} {kw : LoadKw} (hf : kw.fork = fork) (hy : DocKey y)
    (h : (load E n y (some (.cls k)) kw).val = .ok r) :
    r.cls = k ∧ r ≠ .str metaKey ∧ r ≠ .str keysKey := by
  obtain ⟨s, rfl, h1, h2⟩ := hy
  have hs : (Val.str s).cls = .str ∧ Val.str s ≠ .str metaKey ∧ Val.str s ≠ .str keysKey :=
    ⟨rfl, by simpa using h1, by simpa using h2⟩
  cases n with
  | zero => cases h
  | succ n =>
    obtain ⟨h0, ⟨hs', rfl⟩ | ⟨f, hdes, h⟩⟩ := load_ok_cases (hf ▸ hd) (noMeta_of_not_dict (by intro h; cases h)) h
    · rcases hs' with ⟨_, hs'⟩ | hs'
      · cases hs'; exact hs
      · cases hs'
    · have hprim : ∀ k, k = .int ∨ k = .float ∨ k = .bool → (primitiveDes E (.str s) (.cls k)).val = .ok r →
          r.cls = k ∧ r ≠ .str metaKey ∧ r ≠ .str keysKey := by
        intro k hk h
        unfold primitiveDes at h
        rw [if_neg (by intro h; cases h)] at h
        have hi : E.isInstance (.str s) (.cls k) = .ok false := by
          rcases hk with rfl | rfl | rfl <;> rfl
        rw [hi] at h
        simp only at h
        split at h
        · next r' hr =>
          simp only [pure_val, Except.ok.injEq] at h
          subst h
          rcases hk with rfl | rfl | rfl
          · simp only [Env.cast] at hr
            cases hx : E.intOf (.str s) with
            | error k => rw [hx] at hr; cases hr
            | ok x => rw [hx] at hr; cases hr; exact ⟨rfl, by simp, by simp⟩
          · simp only [Env.cast] at hr
            cases hx : E.floatOf (.str s) with
            | error k => rw [hx] at hr; cases hr
            | ok x => rw [hx] at hr; cases hr; exact ⟨rfl, by simp, by simp⟩
          · cases hr; exact ⟨rfl, by simp, by simp⟩
        · split at h <;> cases h
      simp only [List.mem_cons, List.not_mem_nil, or_false] at hk
      rcases hk with rfl | rfl | rfl | rfl <;> cases hdes
      · simp only [Cls.desFn, callDes, stringDes, kwOf, and_self, if_true, pure_val, Except.ok.injEq] at h
        subst h
        exact hs
      · exact hprim _ (.inl rfl) h
      · exact hprim _ (.inr (.inl rfl)) h
      · exact hprim _ (.inr (.inr rfl)) h

theorem dict_loaded (hd : DefaultDesers E fork) {n : Nat} {k : Cls} {a : Ty}
    (hk : k ∈ [Cls.str, .int, .float, .bool]) {v : Val} {es : List (Val × Val)} {kw : LoadKw}
    (hr : Reads fork kw) (hv : Doc v) (h : (dictDes E (load E n) v [.cls k, a] kw).val = .ok es) :
    (∀ e ∈ es, e.1.cls = k ∧ e.1 ≠ .str metaKey ∧ e.1 ≠ .str keysKey) ∧
      es.Pairwise (fun e f => pyEq e.1 f.1 = false) ∧
      ∀ e ∈ es, ∃ x, Doc x ∧ (load E n x (some a)
        { kw with keyTransformer := some (kw.keyTransformer.getD .ok) }).val = .ok e.2 := by
  unfold dictDes at h
  rw [Core.bind_ok] at h
  obtain ⟨⟨es', b⟩, h1, h⟩ := h
  cases hv with
  | none | bool | int | float | str | list => cases h1
  | @dict ds hkeys hvals =>
    have hget : dictGet ds (.str keysKey) = none := by
      refine dictGet_absent fun e he hm => ?_
      obtain ⟨s, h1, _, h2⟩ := hkeys e he
      rw [h1] at hm
      exact h2 (by simpa using hm)
    simp only [loadHashedKeys, hget, pure_val, Except.ok.injEq, Prod.mk.injEq] at h1
    obtain ⟨rfl, rfl⟩ := h1
    simp only [Bool.false_eq_true, if_false] at h
    obtain ⟨h2, h3⟩ := dictComp_mem (A := fun y => y.cls = k ∧ y ≠ .str metaKey ∧ y ≠ .str keysKey)
      (B := fun y => ∃ x, Doc x ∧ (load E n x (some a)
        { kw with keyTransformer := some (kw.keyTransformer.getD .ok) }).val = .ok y) _ _ _ h
      (by
        intro e he y hy
        simp only [Core.bind_ok, lift_val] at hy
        obtain ⟨z, hz, hy⟩ := hy
        exact key_loaded hd (kw := { kw with keyTransformer := none }) hk hr.fork (hr.getD _ _ (hkeys e he) hz) hy)
      (by intro e he y hy; exact ⟨e.2, hvals e he, hy⟩)
      (by intro e he; cases he) (by intro e he; cases he)
    exact ⟨h2, dictComp_pairwise _ _ _ h .nil, h3⟩

theorem dict_hasTy {x : Bool} {g : Gen} {k : Cls} {a : Ty} {es : List (Val × Val)} (hg : g = .dict ∨ g = .mapping)
    (hk : k ∈ [Cls.str, .int, .float, .bool])
    (h1 : ∀ e ∈ es, e.1.cls = k ∧ e.1 ≠ .str metaKey ∧ e.1 ≠ .str keysKey)
    (h2 : es.Pairwise (fun e f => pyEq e.1 f.1 = false)) (ht : Tidy E W (.dict es))
    (h3 : ∀ e ∈ es, Tidy E W e.2 → HasTy E W x e.2 a) : HasTy E W x (.dict es) (.gen g [.cls k, a]) := by
  cases ht with
  | dict ht1 ht2 =>
    refine .dict hg ?_ (fun e he => (h1 e he).1) ht1 (fun e he => (h1 e he).2) h2 fun e he => h3 e he (ht2 e he)
    simp only [List.mem_cons, List.not_mem_nil, or_false] at hk ⊢
    tauto

theorem none_hasTy {x : Bool} {t : Ty} (ht : Lasting E K N x t) (h : AllowsNone t) : HasTy E W x .none t := by
  cases ht with
  | opt h1 h2 _ => exact .optNone h1 h2
  | prim hc =>
    cases h with
    | object => simp at hc
    | noneType => exact .none
  | _ => cases h

/-! ## Objects -/

theorem args_hasTy {x : Bool} {c : Nat} (hc : Class E W K N x c) {ld : PyStr → Option Ty → Val → Val → Prop}
    (hl : ∀ name t v y, Lasting E K N x t → Doc v → ld name (some t) v y → Tidy E W y → HasTy E W x y t)
    {es : List (Val × Val)} (hes : ∀ e ∈ es, Doc e.2) : ∀ (ps : List Param) (args : List (PyStr × Val)),
    (∀ p ∈ ps, p ∈ (E.info c).params) → ArgsOf (E.info c) ld [] es ps args →
      args.map (·.1) = ps.map (·.name) ∧ ((∀ a ∈ args, Tidy E W a.2) →
        ∀ a ∈ args, ∀ t, assoc (E.info c).initHints a.1 = some t → HasTy E W x a.2 t) := by
  intro ps args hps h
  induction h with
  | nil => exact ⟨rfl, fun _ a ha => by cases ha⟩
  | @arg p y ps r h1 _ ih =>
    have hp := hps p List.mem_cons_self
    obtain ⟨ih1, ih2⟩ := ih fun q hq => hps q (List.mem_cons_of_mem _ hq)
    refine ⟨by rw [List.map_cons, List.map_cons, ih1], ?_⟩
    intro ht a ha
    rcases List.mem_cons.1 ha with rfl | ha
    · intro t hh
      have htt := hc.types p hp t hh
      have hty := ht _ List.mem_cons_self
      cases h1 with
      | given h1 h2 =>
        obtain ⟨e, he, rfl⟩ := LoadTypes.dictGet_mem h1
        have hh' : assoc (E.info c).initHints p.name = some t := hh
        rw [hh'] at h2
        exact hl _ t _ _ htt (hes e he) h2 hty
      | getter _ h => cases h
      | default _ _ h => exact hc.defaults p hp t hh _ h
      | omitted _ _ _ _ h => exact none_hasTy htt (h t hh)
    · exact ih2 (fun a ha => ht a (List.mem_cons_of_mem _ ha)) a ha
  | @noarg p ps r h1 _ ih =>
    exfalso
    have hp := hps p List.mem_cons_self
    cases h1 with
    | variadic _ _ _ h =>
      have := hc.fixed p hp
      rw [h] at this
      cases this

theorem attrs_kept {x : Bool} {c : Nat} (hc : Class E W K N x c) {ld : Option Ty → Val → Val → Prop}
    {es : List (Val × Val)} {as bs : List (PyStr × Val)} (h : AttrsSet E c ld es as bs) :
    (∀ m ∈ as.map (·.1), m ∈ bs.map (·.1)) ∧
      (bs = as ∨ ∃ m ∈ bs.map (·.1), ¬ Known (E.info c) (.str m)) := by
  induction h with
  | nil => exact ⟨fun m hm => hm, .inl rfl⟩
  | known _ _ ih => exact ih
  | set h1 _ h3 _ ih =>
    obtain ⟨hs1, hs2⟩ := hc.sets _ _ _ _ h3
    exact ⟨fun m hm => ih.1 m (hs2 m hm), .inr ⟨_, ih.1 _ hs1, h1⟩⟩
  | refused _ _ _ _ _ ih => exact ih

theorem transform_other {info : Nat → ClassInfo} {v w : Val} {f : Val → Except Err Val} (hd : ∀ es, v ≠ .dict es)
    (h : transformObj info v (some f) = .ok w) : v.iter = some [] ∧ w = .dict [] := by
  have heq : transformObj info v (some f) = if v.iter = some [] then .ok (.dict [])
      else .error { kind := .typeError } := by
    have : transformObj info v (some f) = match v.iter with
        | some [] => .ok (.dict [])
        | _ => .error { kind := .typeError } := by
      cases v <;> first | rfl | exact absurd rfl (hd _)
    rw [this]
    split
    · next h => rw [if_pos h]
    · next h => rw [if_neg h]
  rw [heq] at h
  split at h
  · next hi => cases h; exact ⟨hi, rfl⟩
  · cases h

theorem remaining_other {v : Val} {args : List (PyStr × Val)} {rest : List (Val × Val)} (hd : ∀ es, v ≠ .dict es)
    (h : remainingAttrs v args = .ok rest) : v.iter = some [] ∧ rest = [] := by
  have heq : remainingAttrs v args = match v.iter with
      | some [] => .ok []
      | _ => .error .typeError := by
    cases v <;> first | rfl | exact absurd rfl (hd _)
  rw [heq] at h
  split at h
  · next hi => cases h; exact ⟨hi, rfl⟩
  · cases h

/-- What is empty is as good as the empty dict. -/
theorem empty_object {rec : LRec} {v r : Val} {c : Nat} {kw : LoadKw} (hv : v.iter = some []) (hd : ∀ es, v ≠ .dict es)
    (hf : v.falsy = true) (h : (objectDes E rec v (.cls (.user c)) kw).val = .ok r) :
    (objectDes E rec (.dict []) (.cls (.user c)) kw).val = .ok r := by
  unfold objectDes at h ⊢
  simp only [Core.bind_ok, lift_val] at h ⊢
  obtain ⟨obj, h1, h⟩ := h
  cases hk : kw.keyTransformer with
  | some f =>
    refine ⟨.dict [], rfl, ?_⟩
    have : obj = .dict [] := by
      rw [hk] at h1
      exact (transform_other hd h1).2
    rw [← this]
    exact h
  | none =>
    rw [hk] at h1
    simp only [transformObj, Except.ok.injEq] at h1
    subst h1
    refine ⟨.dict [], rfl, ?_⟩
    obtain ⟨args, ha, rest, hr, h⟩ := h
    refine ⟨args, ?_, rest, ?_, h⟩
    · have hone : ∀ p y, (valueForAttr E rec v c kw p).val = .ok y →
          (valueForAttr E rec (.dict []) c kw p).val = .ok y := by
        intro p y h
        unfold valueForAttr at h ⊢
        have hk1 : keyIn v p.name = .ok false := by unfold keyIn; rw [if_pos hf]
        have hk2 : keyIn (.dict []) p.name = .ok false := rfl
        simp only [hk1, liftK_of_ok, pure_bind', Bool.false_eq_true, if_false] at h
        simp only [hk2, liftK_of_ok, pure_bind', Bool.false_eq_true, if_false]
        split at h
        · exact h
        · split at h
          · exact h
          · by_cases hp : p.variadic = true
            · rw [if_pos hp] at h ⊢
              exact h
            · rw [if_neg hp, Core.bind_ok] at h ⊢
              obtain ⟨b, hb, h⟩ := h
              refine ⟨b, hb, ?_⟩
              cases b with
              | true => exact h
              | false => cases h
      clear hr h
      generalize (E.info c).params = ps at ha ⊢
      induction ps generalizing args with
      | nil => exact ha
      | cons p ps ih =>
        simp only [ctorArgs, Core.bind_ok] at ha ⊢
        obtain ⟨y, hy, as, has, h⟩ := ha
        exact ⟨y, hone p y hy, as, ih as has, h⟩
    · rw [getRemaining_ok] at hr ⊢
      refine ⟨?_, hr.2⟩
      rw [(remaining_other hd hr.1).2]
      rfl

theorem object_hasTy {x : Bool} {n c : Nat} (hc : Class E W K N x c) {es : List (Val × Val)}
    {r : Val} {kw : LoadKw} (hr : Reads fork kw) (hes : ∀ e ∈ es, Doc e.2)
    (ih : ∀ t, Lasting E K N x t → ∀ v r kw, Reads fork kw → Doc v → (load E n v (some t) kw).val = .ok r →
      Tidy E W r → HasTy E W x r t)
    (h : (objectDes E (load E n) (.dict es) (.cls (.user c)) (kwOf kw none)).val = .ok r) (ht : Tidy E W r) :
    HasTy E W x r (.cls (.user c)) := by
  rw [objectDes_ok] at h
  obtain ⟨es', args, as0, as1, as2, htr, ha, _, h0, h1, h2, rfl⟩ := h
  have hgs : (kwOf kw none).attrGetters = [] := hr.getters
  rw [hgs] at ha h2
  cases h2
  have hes' : ∀ e ∈ es', Doc e.2 := by
    intro e he
    obtain ⟨e', he', h⟩ := transformed_values htr e he
    rw [h]
    exact hes e' he'
  obtain ⟨hn, hall⟩ := args_hasTy hc (fun name t v y htt hv hl hy => by
    rw [partLoad_plain hr.hints (doc_noMeta hv)] at hl
    exact ih t htt v y (partKw kw) ⟨hr.fork, rfl, hr.hints, hr.keys⟩ hv hl hy) hes' _ _ (fun p hp => hp) ha
  rw [hc.storing.stores args hn] at h0
  cases h0
  cases ht with
  | obj ht1 ht2 =>
    obtain ⟨_, rfl | ⟨m, hm, hk⟩⟩ := attrs_kept hc h1
    · exact .obj hc.storing hn (hall ht2)
    · exfalso
      obtain ⟨a, ha', rfl⟩ := List.mem_map.1 hm
      obtain ⟨p, hp, hpn⟩ := List.mem_map.1 (ht1 a ha')
      exact hk (.inr ⟨p, hp, by rw [hpn]⟩)

/-! ## Named tuples -/

theorem none_type {x : Bool} {t : Ty} (h : HasTy E W x .none t) :
    t = .cls .noneType ∨ ∃ ts, t = .union ts ∧ .cls .noneType ∈ ts := by
  cases h with
  | none => exact .inl rfl
  | unionNone _ => exact .inr ⟨_, rfl, by simp⟩
  | union h _ _ => exact absurd rfl h

theorem ntuple_hasTy {x : Bool} {c n : Nat} (hd : DefaultDesers E fork) (hc : NamedTuple E K N x c) {v r : Val}
    {kw : LoadKw} (hr : Reads fork kw) (hv : Doc v)
    (ih : ∀ t, Lasting E K N x t → ∀ v r kw, Reads fork kw → Doc v → (load E n v (some t) kw).val = .ok r →
      Tidy E W r → HasTy E W x r t)
    (h : (ntupleDes E (load E n) v c kw).val = .ok r) (ht : Tidy E W r) : HasTy E W x r (.cls (.user c)) := by
  simp only [ntupleDes, Core.bind_ok, lift_val] at h
  obtain ⟨tfm, h1, h⟩ := h
  split at h
  · cases h
  · next xs hx =>
    simp only [Core.bind_ok, pure_val, Except.ok.injEq] at h
    obtain ⟨ys, h, rfl⟩ := h
    rw [ntupleLoop_ok] at h
    have hget : ∀ i name w, ntupleField (E.info c) v tfm xs.length i name = .ok w → Doc w := by
      intro i name w h
      unfold ntupleField at h
      split at h
      · cases tfm with
        | some es =>
          cases hv with
          | none | bool | int | float | str | list => cases h1
          | @dict ds _ hvals =>
            have htr : Transformed E { keyTransformer := some (kw.keyTransformer.getD .ok) } ds es := by
              have := (transformObj_ok (E := E) (kw := { keyTransformer := some (kw.keyTransformer.getD .ok) })
                (es := ds) (w := .dict es)).1 (by
                  simp only [ntupleTfm] at h1
                  simp only [transformObj]
                  cases hk : transformKeys E.info (kw.keyTransformer.getD .ok) [] ds with
                  | error e => rw [hk] at h1; cases h1
                  | ok es' => rw [hk] at h1; cases h1; rfl)
              obtain ⟨es', h1, h2⟩ := this
              cases h2
              exact h1
            simp only [subscript] at h
            split at h
            · next hw =>
              cases h
              obtain ⟨e, he, rfl⟩ := LoadTypes.dictGet_mem hw
              obtain ⟨e', he', h⟩ := transformed_values htr e he
              rw [h]
              exact hvals e' he'
            · cases h
        | none => exact doc_index hv h
      · cases h
        cases hf : assoc (E.info c).fieldDefaults name with
        | none => exact .none
        | some d => exact hc.defaults name d hf
    cases ht with
    | ntuple ht =>
      have key : ∀ names i ys, (∀ f ∈ names, f ∈ (E.info c).fields) → (∀ y ∈ ys, Tidy E W y) →
          LoopOk (fun h x => (load E n x h kw).val) (E.info c) (ntupleField (E.info c) v tfm xs.length) i names ys →
          ys.length = names.length ∧ ∀ p ∈ names.zip ys, ∀ t, assoc (E.info c).hints p.1 = some t →
            HasTy E W x p.2 t ∧ (p.2 = .none → .cls .noneType ∈ t.getArgs) := by
        intro names i ys hnames hty h
        induction h with
        | nil => exact ⟨rfl, fun p hp => by cases hp⟩
        | @cons i w y ys name names hw hnone hload _ ih' =>
          obtain ⟨ih1, ih2⟩ := ih' (fun f hf => hnames f (List.mem_cons_of_mem _ hf))
            (fun y hy => hty y (List.mem_cons_of_mem _ hy))
          refine ⟨by simp [ih1], ?_⟩
          intro p hp t hh
          rw [List.zip_cons_cons] at hp
          rcases List.mem_cons.1 hp with rfl | hp
          · have hfh : fieldHint (E.info c) name = some t := by
              unfold fieldHint
              rw [hc.hinted.annotated, if_pos rfl]
              exact hh
            rw [hfh] at hload
            have htt := hc.types name (hnames _ List.mem_cons_self) t hh
            have hy := ih t htt w y kw hr (hget _ _ _ hw) hload (hty y List.mem_cons_self)
            refine ⟨hy, fun hyn => ?_⟩
            simp only at hyn
            subst hyn
            rcases none_type hy with h | ⟨ts, h, hmem⟩
            · subst h
              have hwn : w = .none := by
                cases n with
                | zero => cases hload
                | succ n =>
                  obtain ⟨_, ⟨_, h⟩ | ⟨f, hf, h⟩⟩ := load_ok_cases (hr.fork ▸ hd) (doc_noMeta (hget _ _ _ hw)) hload
                  · exact h.symm
                  · cases hf
                    simp only [Cls.desFn, callDes, noneTypeDes] at h
                    split at h
                    · next hw => exact hw
                    · cases h
              obtain ⟨t', h1, h2⟩ := hnone hwn
              rw [hfh] at h1
              cases h1
              exact h2
            · subst h
              exact hmem
          · exact ih2 p hp t hh
      obtain ⟨h2, h3⟩ := key _ _ _ (fun f hf => hf) ht h
      exact .ntuple hc.hinted h2 (fun p hp t h => (h3 p hp t h).2) fun p hp t h => (h3 p hp t h).1

/-! ## The induction -/

/-- What is loaded can be dumped and loaded again. -/
theorem loaded_hasTy (hP : Program E W K N) (hd : DefaultDesers E fork) (n : Nat) :
    ∀ (x : Bool) (t : Ty), Lasting E K N x t → ∀ (v r : Val) (kw : LoadKw), Reads fork kw → Doc v →
      (load E n v (some t) kw).val = .ok r → Tidy E W r → HasTy E W x r t := by
  induction n with
  | zero => intro x t _ v r kw _ _ h; cases h
  | succ n ih =>
    intro x t htt v r kw hr hv h ht
    have key := load_ok_cases (hr.fork ▸ hd) (doc_noMeta hv) h
    clear h
    obtain ⟨h0, ⟨hs, rfl⟩ | ⟨f, hdes, h⟩⟩ := key
    · rcases hs with ⟨_, hs⟩ | hs
      · cases hs
        cases hv with
        | none => exact .none
        | bool b => exact .bool b
        | int n => exact .int n
        | float q => cases ht with | atom ht => exact .float ht
        | str s => exact .str s
        | list _ => exfalso; cases htt with | prim hc => simp [Val.cls, SeqKind.cls] at hc
        | dict _ _ => exfalso; cases htt with | prim hc => simp [Val.cls] at hc
      · cases hs; cases htt
    · have ih' := ih
      cases htt with
      | prim hc => cases hdes; exact scalar_hasTy hP hc rfl hv h0 h ht
      | datetime => cases hdes; exact datetime_hasTy h ht
      | complex hd' hv' => cases hdes; exact complex_hasTy hd' hv' h ht
      | enum hk =>
        cases hdes
        simp only [Cls.desFn, hk, callDes] at h
        exact enum_hasTy hk h
      | ntuple hN =>
        cases hdes
        have hc := hP.ntuples _ _ hN
        simp only [Cls.desFn, hc.hinted.kind, callDes, tupleDes, if_true] at h
        exact ntuple_hasTy hd hc hr.of hv (fun t htt v r kw hr hv h ht => ih x t htt v r kw hr hv h ht) h ht
      | @obj _ c hK =>
        cases hdes
        have hc := hP.classes _ _ hK
        simp only [Cls.desFn, hc.storing.kind, callDes] at h
        have ihx := fun t htt v r kw hr hv h ht => ih x t htt v r kw hr hv h ht
        have hempty : v.iter = some [] → (∀ es, v ≠ .dict es) → v.falsy = true → HasTy E W x r (.cls (.user c)) :=
          fun h1 h2 h3 => object_hasTy hc hr (fun e he => by cases he) ihx (empty_object h1 h2 h3 h) ht
        have hnone : v.iter ≠ some [] → (∀ es, v ≠ .dict es) → HasTy E W x r (.cls (.user c)) := by
          intro h1 h2
          exfalso
          unfold objectDes at h
          simp only [Core.bind_ok, lift_val] at h
          obtain ⟨obj, h3, args, _, rest, h4, _⟩ := h
          cases hk : (kwOf kw none).keyTransformer with
          | none =>
            rw [hk] at h3
            cases h3
            rw [getRemaining_ok] at h4
            exact h1 (remaining_other h2 h4.1).1
          | some f =>
            rw [hk] at h3
            exact h1 (transform_other h2 h3).1
        cases hv with
        | none | bool | int | float => exact hnone (by intro h; cases h) (by intro es h; cases h)
        | str s =>
          cases s with
          | nil => exact hempty rfl (by intro es h; cases h) rfl
          | cons => exact hnone (by intro h; cases h) (by intro es h; cases h)
        | @list xs _ =>
          cases xs with
          | nil => exact hempty rfl (by intro es h; cases h) rfl
          | cons => exact hnone (by intro h; cases h) (by intro es h; cases h)
        | dict _ hvals => exact object_hasTy hc hr hvals ihx h ht
      | @elems _ g a hg ha =>
        have hl : ∀ {ys : List Val}, (listDes E (load E n) v [a] (kwOf kw none)).val = .ok ys →
            ∀ y ∈ ys, Tidy E W y → HasTy E W x y a := by
          intro ys h y hy hty
          unfold listDes at h
          split at h
          · cases h
          · next xs hx =>
            obtain ⟨w, hw, h'⟩ := listLoop_mem _ _ _ h y hy
            exact ih x a ha w y _ (by exact ⟨hr.fork, hr.getters, hr.of.hints, hr.keys⟩) (doc_iter hv hx w hw) h' hty
        cases hdes
        simp only [List.mem_cons, List.not_mem_nil, or_false] at hg
        rcases hg with rfl | rfl | rfl
        · simp only [Gen.naked, Cls.desFn, callDes, Core.bind_ok, pure_val, Except.ok.injEq] at h
          obtain ⟨ys, h, rfl⟩ := h
          cases ht with | seq ht => exact .list fun y hy => hl h y hy (ht y hy)
        · simp only [Gen.naked, Cls.desFn, callDes, iterableDes, Core.bind_ok, Ty.naked?, castSeq, liftK_ok] at h
          obtain ⟨ys, h, h'⟩ := h
          cases h'
          cases ht with | seq ht => exact .deque fun y hy => hl h y hy (ht y hy)
        · simp only [Gen.naked, Cls.desFn, callDes] at h
          obtain ⟨h1, h2⟩ := tupleDes_plain (E := E) (rec := load E n) (v := v) (t := .gen .tupleEll [a])
            (kw := kwOf kw none) (by intro c h; cases h)
          cases hi : v.iter with
          | none => rw [h1 hi] at h; cases h
          | some xs =>
            rw [h2 xs hi] at h
            simp only [tupleElems, Core.bind_ok, pure_val, Except.ok.injEq] at h
            obtain ⟨ys, h, rfl⟩ := h
            obtain ⟨h3, h4, h5⟩ := Verif.Props.LoadTypes.tupleLoop_ok _ _ _ h
            cases ht with
            | seq ht =>
              refine .tupleEll fun y hy => ?_
              obtain ⟨i, hi', hy'⟩ := List.getElem_of_mem hy
              obtain ⟨w, hw, hx'⟩ := h5 i y a (by rw [List.getElem?_eq_getElem hi', hy'])
                (by rw [List.getElem?_replicate, if_pos (by omega)])
              exact ih x a ha w y { kwOf kw none with keyTransformer := none } hr.of.noKeys (doc_iter hv hi w hw)
                hx' (ht y hy)
      | @set _ g a hg ha =>
        have hl : ∀ {ys : List Val}, (listDes E (load E n) v [a] (kwOf kw none)).val = .ok ys →
            ∀ y ∈ ys, Tidy E W y → HasTy E W true y a := by
          intro ys h y hy hty
          unfold listDes at h
          split at h
          · cases h
          · next xs hx =>
            obtain ⟨w, hw, h'⟩ := listLoop_mem _ _ _ h y hy
            exact ih true a ha w y _ (by exact ⟨hr.fork, hr.getters, hr.of.hints, hr.keys⟩) (doc_iter hv hx w hw) h' hty
        have hmem : ∀ {ys : List Val} {y : Val}, y ∈ dedup [] ys → y ∈ ys := fun h =>
          (dedup_mem _ _ _ h).resolve_left (by intro h; cases h)
        cases hdes
        simp only [List.mem_cons, List.not_mem_nil, or_false] at hg
        rcases hg with rfl | rfl
        · simp only [Gen.naked, Cls.desFn, callDes, iterableDes, Core.bind_ok, Ty.naked?, castSeq, liftK_ok] at h
          obtain ⟨ys, h, h'⟩ := h
          split at h' <;> cases h'
          next hh =>
          cases ht with
          | seq ht =>
            exact .set (fun y hy => hl h y (hmem hy) (ht y hy))
              (fun y hy => (allHashable_iff _).1 hh y (hmem hy)) (dedup_pairwise _ _ .nil)
        · simp only [Gen.naked, Cls.desFn, callDes, iterableDes, Core.bind_ok, Ty.naked?, castSeq, liftK_ok] at h
          obtain ⟨ys, h, h'⟩ := h
          split at h' <;> cases h'
          next hh =>
          cases ht with
          | seq ht =>
            exact .frozenset (fun y hy => hl h y (hmem hy) (ht y hy))
              (fun y hy => (allHashable_iff _).1 hh y (hmem hy)) (dedup_pairwise _ _ .nil)
      | @tuple _ a ts hts =>
        cases hdes
        simp only [Gen.naked, Cls.desFn, callDes] at h
        obtain ⟨h1, h2⟩ := tupleDes_plain (E := E) (rec := load E n) (v := v) (t := .gen .tuple (a :: ts))
          (kw := kwOf kw none) (by intro c h; cases h)
        cases hi : v.iter with
        | none => rw [h1 hi] at h; cases h
        | some xs =>
          rw [h2 xs hi] at h
          simp only [tupleElems, Core.bind_ok, pure_val, Except.ok.injEq] at h
          obtain ⟨ys, h, rfl⟩ := h
          obtain ⟨h3, h4, h5⟩ := Verif.Props.LoadTypes.tupleLoop_ok _ _ _ h
          cases ht with
          | seq ht =>
            refine .tuple (by omega) ?_
            intro p hp
            obtain ⟨i, hi', hp'⟩ := List.getElem_of_mem hp
            have hlen := hi'
            rw [List.length_zip] at hlen
            rw [List.getElem_zip] at hp'
            subst hp'
            obtain ⟨w, hw, hx'⟩ := h5 i ys[i] (a :: ts)[i] (List.getElem?_eq_getElem _) (List.getElem?_eq_getElem _)
            exact ih x _ (hts _ (List.getElem_mem _)) w _ { kwOf kw none with keyTransformer := none } hr.of.noKeys
              (doc_iter hv hi w hw) hx' (ht _ (List.getElem_mem _))
      | @dict _ g k a hg hk ha =>
        have hl : ∀ {es : List (Val × Val)} {g : Gen}, g = .dict ∨ g = .mapping → Tidy E W (.dict es) →
            (dictDes E (load E n) v [.cls k, a] (kwOf kw none)).val = .ok es →
            HasTy E W x (.dict es) (.gen g [.cls k, a]) := by
          intro es g hg ht h
          obtain ⟨h1, h2, h3⟩ := dict_loaded hd hk hr.of hv h
          refine dict_hasTy hg hk h1 h2 ht fun e he hte => ?_
          obtain ⟨w, hw, h⟩ := h3 e he
          exact ih x a ha w _ _ hr.of.values hw h hte
        cases hdes
        simp only [List.mem_cons, List.not_mem_nil, or_false] at hg
        rcases hg with rfl | rfl | rfl
        · simp only [Gen.naked, Cls.desFn, callDes, mappingDes, Core.bind_ok, pure_val, Except.ok.injEq] at h
          obtain ⟨es, h, rfl⟩ := h
          exact hl (.inl rfl) ht h
        · simp only [Gen.naked, Cls.desFn, callDes, mappingDes, Core.bind_ok, pure_val, Except.ok.injEq] at h
          obtain ⟨es, h, rfl⟩ := h
          exact hl (.inr rfl) ht h
        · simp only [Gen.naked, Cls.desFn, callDes, defaultdictDes, Ty.getArgs, pure_bind', Core.bind_ok] at h
          obtain ⟨w, h, h'⟩ := h
          split at h'
          · next es =>
            cases h'
            cases ht with
            | ddict ht => exact .ddict (ih x _ (.dict (by simp) hk ha) v _ (kwOf kw none) hr.of hv h ht)
          · cases h'
      | @opt _ a h1 h2 ha =>
        cases hdes
        simp only [callDes, unionDes, Ty.unionParams] at h
        obtain ⟨b, hb, h'⟩ := unionLoop_ok _ h
        simp only [List.mem_cons, List.not_mem_nil, or_false] at hb
        rcases hb with rfl | rfl
        · have := ih x b ha v r (kwOf kw none) hr.of hv h' ht
          by_cases hrn : r = .none
          · subst hrn
            exact .optNone h1 h2
          · exact .optSome hrn this
        · have := ih x (.cls .noneType) (.prim (by simp)) v r (kwOf kw none) hr.of hv h' ht
          cases this
          exact .optNone h1 h2

/-! ## The theorems -/

/-- C91: `load(dump(x), T)` is `x` for every `x` that `load` has made, also of a document
that is not the dump of something (numbers as texts, missing parameters, `1` for `True`);
up to the time zones of datetimes, of which the offset is kept.  What is missing: unions
other than `Optional`, `Any`, `NewType`, classes without hints, attributes that are not
parameters, documents with '-meta' or '-keys'; offsets that are not written correctly,
years before 1000 where they are not padded and very long time spans (`Tidy`). -/
theorem load_dump_load_partial (E : LEnv) (K N : Bool → Nat → Prop) (fork n : Nat) (x : Bool) (t : Ty)
    (v r : Val) (kw : LoadKw) (hP : Program E direct K N) (hs : DefaultSers E.toEnv fork)
    (hd : DefaultDesers E fork) (hv : NoValidators E fork) (htt : Lasting E K N x t) (hk : Reads fork kw)
    (hdoc : Doc v) (h : (load E n v (some t) kw).val = .ok r) (ht : Tidy E direct r) :
    ∃ M r', Same r r' ∧ (x = true → r' = r) ∧ ∀ n, M ≤ n → ∀ kw, DumpNeutral fork kw →
      ∀ cls, cls = none ∨ cls = some t →
        ∃ j, (dump E.toEnv n r cls kw).val = .ok j ∧
          ∀ m, M ≤ m → ∀ kw', LoadNeutral fork kw' → (load E m j (some t) kw').val = .ok r' :=
  round_trip_partial E fork r t x hs hd hv (loaded_hasTy hP hd n x t htt v r kw hk hdoc h ht)

/-- C91 for texts: `loads(dumps(x), T)` and `loadb(dumpb(x), T)` are `x` for every `x` that
`load` has made.  The keys of dicts and the floats have to survive `json.dumps`. -/
theorem load_dumps_loads_partial (E : LEnv) (F : FloatText) (hF : FloatGrammar F) (K N : Bool → Nat → Prop)
    (fork n : Nat) (x : Bool) (t : Ty) (v r : Val) (kw : LoadKw) (hP : Program E (TextRoundTrip.text E F) K N)
    (hs : DefaultSers E.toEnv fork) (hd : DefaultDesers E fork) (hv : NoValidators E fork)
    (htt : Lasting E K N x t) (hk : Reads fork kw) (hdoc : Doc v)
    (h : (load E n v (some t) kw).val = .ok r) (ht : Tidy E (TextRoundTrip.text E F) r) :
    ∃ M r', Same r r' ∧ (x = true → r' = r) ∧ ∀ n, M ≤ n → ∀ kw, DumpNeutral fork kw →
      ∀ cls, cls = none ∨ cls = some t →
        ∃ s b, (dumps E.toEnv F n r cls kw).val = .ok s ∧ (dumpb E.toEnv F n r cls kw).val = .ok b ∧
          ∀ m, M ≤ m → ∀ kw', LoadNeutral fork kw' → (loads E F m s (some t) kw').val = .ok r' ∧
            (loadb E F m (.bytes b) (some t) kw').val = .ok r' :=
  TextRoundTrip.text_round_trip_partial E F hF fork r t x hs hd hv
    (loaded_hasTy hP hd n x t htt v r kw hk hdoc h ht)

/-! ## Examples -/

theorem mem_assocSet {as : List (PyStr × Val)} {s : PyStr} {y : Val} :
    s ∈ (assocSet as s y).map (·.1) ∧ ∀ m ∈ as.map (·.1), m ∈ (assocSet as s y).map (·.1) := by
  induction as with
  | nil => exact ⟨by simp [assocSet], fun m hm => by cases hm⟩
  | cons a as ih =>
    obtain ⟨k, w⟩ := a
    simp only [assocSet]
    split
    · next h => subst h; exact ⟨by simp, fun m hm => by simpa using hm⟩
    · refine ⟨by simp only [List.map_cons]; exact List.mem_cons_of_mem _ ih.1, ?_⟩
      intro m hm
      simp only [List.map_cons, List.mem_cons] at hm ⊢
      exact hm.imp id (ih.2 m)

/-- `Point` is the only class. -/
theorem demo_program (W : Way) : Program (demoLEnv demoInfo) W (fun _ c => c = 0) (fun _ _ => False) where
  classes := by
    rintro x c rfl
    refine ⟨demo_storing, ?_, ?_, ?_, ?_⟩
    · intro p hp; rcases demo_params hp with rfl | rfl <;> rfl
    · intro p hp t ht
      rcases demo_params hp with rfl | rfl <;> (cases ht; exact .prim (by simp))
    · intro p hp t ht d hd
      rcases demo_params hp with rfl | rfl
      · cases hd
      · cases ht; cases hd; exact .int 0
    · intro as s y as' h
      cases h
      exact mem_assocSet
  ntuples := by intro x c h; cases h
  uuid := by intro v s h; rfl
  decimal := by intro v s h; rfl
  path := by intro v s h; rfl
  zone := by intro v s h; rfl

/-- `{'a': [{'x': '1'}, None, {'x': True, 'y': 2.5}], 'b': []}` -/
def exDoc : Val := .dict [(.str ['a'], .list [.dict [(.str ['x'], .str ['1'])], .none,
    .dict [(.str ['x'], .bool true), (.str ['y'], .float (5 / 2))]]), (.str ['b'], .list [])]

/-- `Dict[str, List[Optional[Point]]]` -/
def exTy : Ty := .gen .dict [.cls .str, .gen .list [.union [.cls (.user 0), .cls .noneType]]]

/-- `{'a': [Point(1, 0), None, Point(True, 2)], 'b': []}` -/
def exResult : Val := .dict [(.str ['a'], .list [.obj 0 [(['x'], .int 1), (['y'], .int 0)], .none,
    .obj 0 [(['x'], .bool true), (['y'], .int 2)]]), (.str ['b'], .list [])]

theorem exDoc_doc : Doc exDoc := by
  have hkey : ∀ c : Char, DocKey (.str [c]) := fun c => ⟨[c], rfl, by simp [metaKey], by simp [keysKey]⟩
  refine .dict ?_ ?_
  · intro e he
    simp only [List.mem_cons, List.not_mem_nil, or_false] at he
    rcases he with rfl | rfl <;> exact hkey _
  · intro e he
    simp only [List.mem_cons, List.not_mem_nil, or_false] at he
    rcases he with rfl | rfl
    · refine .list ?_
      intro y hy
      simp only [List.mem_cons, List.not_mem_nil, or_false] at hy
      rcases hy with rfl | rfl | rfl
      · refine .dict ?_ ?_ <;>
        · intro e he
          simp only [List.mem_cons, List.not_mem_nil, or_false] at he
          subst he
          first | exact hkey _ | exact .str _
      · exact .none
      · refine .dict ?_ ?_ <;>
        · intro e he
          simp only [List.mem_cons, List.not_mem_nil, or_false] at he
          rcases he with rfl | rfl <;> first | exact hkey _ | exact .bool _ | exact .float _
    · exact .list (by intro y hy; cases hy)

theorem exTy_lasting (E : LEnv) (hE : ¬ OddName E (.cls (.user 0))) :
    Lasting E (fun _ c => c = 0) (fun _ _ => False) true exTy :=
  .dict (by simp) (by simp) (.elems (by simp) (.opt (by intro h; cases h) hE (.obj rfl)))

theorem exResult_tidy (W : Way) (hW : ∀ s, W.key (.str s)) : Tidy (demoLEnv demoInfo) W exResult := by
  have hobj : ∀ v w : Val, Tidy (demoLEnv demoInfo) W v → Tidy (demoLEnv demoInfo) W w →
      Tidy (demoLEnv demoInfo) W (.obj 0 [(['x'], v), (['y'], w)]) := by
    intro v w hv hw
    refine .obj ?_ ?_ <;>
    · intro a ha
      simp only [List.mem_cons, List.not_mem_nil, or_false] at ha
      rcases ha with rfl | rfl <;> first | exact hv | exact hw | exact List.mem_cons_self | exact List.mem_cons_of_mem _ List.mem_cons_self
  refine .dict ?_ ?_
  · intro e he
    simp only [List.mem_cons, List.not_mem_nil, or_false] at he
    rcases he with rfl | rfl <;> exact hW _
  · intro e he
    simp only [List.mem_cons, List.not_mem_nil, or_false] at he
    rcases he with rfl | rfl
    · refine .seq ?_
      intro y hy
      simp only [List.mem_cons, List.not_mem_nil, or_false] at hy
      rcases hy with rfl | rfl | rfl
      · exact hobj _ _ (.atom trivial) (.atom trivial)
      · exact .atom trivial
      · exact hobj _ _ (.atom trivial) (.atom trivial)
    · exact .seq (by intro y hy; cases hy)

theorem exDoc_loaded : (load (demoLEnv demoInfo) 9 exDoc (some exTy) {}).val = .ok exResult := by
  decide +kernel

/-- What is loaded from `exDoc`, which is not a dump, is kept. -/
example : ∃ M, ∀ n, M ≤ n → ∃ j, (dump (demoEnv demoInfo) n exResult none {}).val = .ok j ∧
    (load (demoLEnv demoInfo) n j (some exTy) {}).val = .ok exResult := by
  obtain ⟨M, r', _, hr, h⟩ := load_dump_load_partial (demoLEnv demoInfo) _ _ 0 9 true exTy exDoc exResult {}
    (demo_program direct) (demo_sers 0) (demo_desers 0) (demo_novals 0)
    (exTy_lasting _ (by show ¬ (_ ∨ _); decide +kernel)) ⟨rfl, rfl, rfl, fun f hf => by cases hf⟩ exDoc_doc
    exDoc_loaded (exResult_tidy _ fun _ => trivial)
  rw [hr rfl] at h
  refine ⟨M, fun n hn => ?_⟩
  obtain ⟨j, h1, h2⟩ := h n hn {} ⟨rfl, rfl, rfl, rfl, rfl, rfl, rfl, rfl, rfl, rfl, rfl⟩ none (.inl rfl)
  exact ⟨j, h1, h2 n hn _ ⟨rfl, rfl, fun _ => rfl, rfl, rfl, by decide⟩⟩

/-- And as a text. -/
example : ∃ M, ∀ n, M ≤ n → ∃ s, (dumps (demoEnv demoInfo) Functions.demoFloat n exResult none {}).val = .ok s ∧
    (loads (demoLEnv demoInfo) Functions.demoFloat n s (some exTy) {}).val = .ok exResult := by
  obtain ⟨M, r', _, hr, h⟩ := load_dumps_loads_partial (demoLEnv demoInfo) Functions.demoFloat
    Functions.demoFloat_grammar _ _ 0 9 true exTy exDoc exResult {} (demo_program _) (demo_sers 0) (demo_desers 0)
    (demo_novals 0) (exTy_lasting _ (by show ¬ (_ ∨ _); decide +kernel)) ⟨rfl, rfl, rfl, fun f hf => by cases hf⟩
    exDoc_doc exDoc_loaded (exResult_tidy _ fun _ => trivial)
  rw [hr rfl] at h
  refine ⟨M, fun n hn => ?_⟩
  obtain ⟨s, b, h1, _, h2⟩ := h n hn {} ⟨rfl, rfl, rfl, rfl, rfl, rfl, rfl, rfl, rfl, rfl, rfl⟩ none (.inl rfl)
  exact ⟨s, h1, (h2 n hn _ ⟨rfl, rfl, fun _ => rfl, rfl, rfl, by decide⟩).1⟩

/-- The text itself. -/
example : (dumps (demoEnv demoInfo) Functions.demoFloat 9 exResult none {}).val =
    .ok "{\"a\": [{\"x\": 1, \"y\": 0}, null, {\"x\": true, \"y\": 2}], \"b\": []}".toList := by
  decide +kernel

/-! ## Where it fails -/

/-- C91 fails for offsets west of Greenwich with minutes other than 00 and 30: what is
loaded from `'2020-01-01T00:00:00-03:45'` is dumped with the offset `-03:15`, and loaded
from there as another time. -/
theorem load_dump_load_fails_offset :
    (load (demoLEnv demoInfo) 9 (.str "2020-01-01T00:00:00-03:45".toList) (some (.cls .datetime)) {}).val
      = .ok (.atom (.datetime ⟨2020, 1, 1, 0, 0, 0, 0, some (Tz.fixed (-225 * 60000000) none)⟩)) ∧
    (dump (demoEnv demoInfo) 9
        (.atom (.datetime ⟨2020, 1, 1, 0, 0, 0, 0, some (Tz.fixed (-225 * 60000000) none)⟩)) none {}).val
      = .ok (.str "2020-01-01T00:00:00-03:15".toList) ∧
    (load (demoLEnv demoInfo) 9 (.str "2020-01-01T00:00:00-03:15".toList) (some (.cls .datetime)) {}).val
      = .ok (.atom (.datetime ⟨2020, 1, 1, 0, 0, 0, 0, some (Tz.fixed (-195 * 60000000) none)⟩)) := by
  refine ⟨by decide +kernel, by decide +kernel, by decide +kernel⟩

/-- C91 fails for unions: `[1, 1]` as `Union[Tuple[int], Set[int]]` is loaded as `{1}`,
which is dumped as `[1]`, which is loaded as `(1,)`. -/
theorem load_dump_load_fails_union :
    (load (demoLEnv demoInfo) 9 (.list [.int 1, .int 1])
        (some (.union [.gen .tuple [.cls .int], .gen .set [.cls .int]])) {}).val = .ok (.set [.int 1]) ∧
      (dump (demoEnv demoInfo) 9 (.set [.int 1]) none {}).val = .ok (.list [.int 1]) ∧
      (load (demoLEnv demoInfo) 9 (.list [.int 1])
        (some (.union [.gen .tuple [.cls .int], .gen .set [.cls .int]])) {}).val = .ok (.tuple [.int 1]) := by
  refine ⟨by rfl, by rfl, by rfl⟩

/-- A class with a parameter `y: int = None`. -/
def lateInfo (c : Nat) : ClassInfo :=
  { demoInfo c with
    params := [{ name := "y".toList, default := some .none }]
    initHints := [("y".toList, .cls .int)] }

/-- C91 fails for default values that do not have the type of the hint: `{}` is loaded as
`Late(None)` by `class Late: def __init__(self, y: int = None)`, which is dumped as
`{'y': None}`, which is refused. -/
theorem load_dump_load_fails_default :
    (load (demoLEnv lateInfo) 9 (.dict []) (some (.cls (.user 0))) {}).val
      = .ok (.obj 0 [("y".toList, .none)]) ∧
    (dump (demoEnv lateInfo) 9 (.obj 0 [("y".toList, .none)]) none {}).val
      = .ok (.dict [(.str "y".toList, .none)]) ∧
    ∃ e, (load (demoLEnv lateInfo) 9 (.dict [(.str "y".toList, .none)]) (some (.cls (.user 0))) {}).val
      = .error e := by
  refine ⟨by rfl, by rfl, _, by rfl⟩

end Verif.Props.Stability
