import Verif.Props.TextRoundTrip
import Verif.Props.DumpStyle
import Verif.Props.KeyTransformers
import Verif.Props.LoadRename

/-!
# C99: what is dumped in another style can be loaded again

`load(dump(v, key_transformer=camelcase, strip_nulls=True), T, key_transformer=snakecase)` is `v`
again.  C33 is about `dump` and `load` without these options, C83 about what they do to `dump`, C86
about what a key transformer does to `load`.

The style is given by `Style`, and what is needed of the names by `Style.Key`; for the transformers
of jsons `camel_key`, `pascal_key` and `lisp_key` show which names come back.  The values and types
are those of `Styled`, the theorems are `styled_round_trip_partial` and
`styled_text_round_trip_partial`.
-/

set_option autoImplicit false

namespace Verif.Props.StyledRoundTrip
open Verif Verif.Core Verif.Datetime
open Verif.Props.LoadBasics Verif.Props.LoadCollections Verif.Props.LoadObject
open Verif.Props.RoundTrip
open Verif.Props.DumpObject (Selected stripNames hintOf attrKw selected_list object_eq)
open Verif.Props.DumpStyle (Renames transformKey_rename)
open Verif.Props.LoadRename (texts)
open Verif.Api

/-! ## Specification -/

/-- The options of `dump` and `load` that change the style. -/
structure Style where
  /-- `strip_nulls` of `dump` -/
  nulls : Bool
  /-- `key_transformer` of `dump` -/
  fwd : Option (PyStr → Except Err PyStr)
  /-- the new names of the keys -/
  new : PyStr → PyStr
  /-- `key_transformer` of `load`; `Except.ok` if there is none -/
  back : Val → Except Err Val

/-- The key `s` comes back: `dump` renames it, `load` renames it back, and its new name means
nothing to jsons. -/
structure Style.Key (S : Style) (s : PyStr) : Prop where
  renames : Renames S.fwd S.new s
  back : S.back (.str (S.new s)) = .ok (.str s)
  noMeta : S.new s ≠ metaKey
  noKeys : S.new s ≠ keysKey

/-- The same style without a key transformer for `load`. -/
def Style.oneWay (S : Style) : Style := { S with back := .ok }

/-- The options of `dump`, as in C33 except for the style. -/
structure DumpStyled (S : Style) (fork : Nat) (kw : DumpKw) : Prop where
  fork : kw.fork = fork
  strict : kw.strict = false
  keys : kw.keyTransformer = S.fwd
  nulls : kw.stripNulls = S.nulls
  privates : kw.stripPrivates = false
  classVars : kw.stripClassVariables = false
  attrs : stripNames kw.stripAttr = some []
  verbose : kw.verbose = {}
  enums : kw.useEnumName = true
  micros : kw.stripMicroseconds = false
  types : kw.types = []

/-- The options of `load`, as in C33 except for the key transformer. -/
structure LoadStyled (S : Style) (fork : Nat) (kw : LoadKw) : Prop where
  fork : kw.fork = fork
  getters : kw.attrGetters = []
  keys : kw.keyTransformer.getD .ok = S.back
  hints : kw.metaHints.getD [] = []
  warn : kw.warnOnFail = false
  enums : kw.useEnumName ≠ some false

/-- If there is no entry for the parameter then `load` takes `None` for it. -/
def TakesNone (I : ClassInfo) (p : Param) : Prop :=
  p.default = some .none ∨
    (p.default = none ∧ p.variadic = false ∧ MayBeNone (assoc I.initHints p.name))

/-- The types and their values, as in C33. -/
inductive Styled (E : LEnv) (W : Way) : Style → (exact : Bool) → Val → Ty → Prop
  /-- Values without parts: numbers, texts, datetimes, … -/
  | atom {S : Style} {x : Bool} {a : Atom} {c : Cls} : HasTy E W x (.atom a) (.cls c) →
      Styled E W S x (.atom a) (.cls c)
  | enum {S : Style} {x : Bool} {c : Nat} {m : PyStr} {t : Cls} : HasTy E W x (.enum c m) (.cls t) →
      Styled E W S x (.enum c m) (.cls t)
  | list {S : Style} {x : Bool} {a : Ty} {vs : List Val} : (∀ v ∈ vs, Styled E W S x v a) →
      Styled E W S x (.list vs) (.gen .list [a])
  | deque {S : Style} {x : Bool} {a : Ty} {vs : List Val} : (∀ v ∈ vs, Styled E W S x v a) →
      Styled E W S x (.seq .deque vs) (.gen .deque [a])
  | set {S : Style} {x : Bool} {a : Ty} {vs : List Val} : (∀ v ∈ vs, Styled E W S true v a) →
      (∀ v ∈ vs, v.hashable E.info = true) → vs.Pairwise (fun v w => pyEq v w = false) →
      Styled E W S x (.set vs) (.gen .set [a])
  | frozenset {S : Style} {x : Bool} {a : Ty} {vs : List Val} : (∀ v ∈ vs, Styled E W S true v a) →
      (∀ v ∈ vs, v.hashable E.info = true) → vs.Pairwise (fun v w => pyEq v w = false) →
      Styled E W S x (.seq .frozenset vs) (.gen .frozenset [a])
  /-- `load` does not pass the key transformer on to the elements of tuples. -/
  | tuple {S : Style} {x : Bool} {a : Ty} {as : List Ty} {vs : List Val} :
      vs.length ≤ (a :: as).length → (∀ p ∈ vs.zip (a :: as), Styled E W S.oneWay x p.1 p.2) →
      Styled E W S x (.tuple vs) (.gen .tuple (a :: as))
  | tupleEll {S : Style} {x : Bool} {a : Ty} {vs : List Val} :
      (∀ v ∈ vs, Styled E W S.oneWay x v a) → Styled E W S x (.tuple vs) (.gen .tupleEll [a])
  /-- Dicts of which the keys come back; entries with `None` do not come back if nulls are
  stripped. -/
  | dict {S : Style} {x : Bool} {g : Gen} {a : Ty} {ps : List (PyStr × Val)} :
      g = .dict ∨ g = .mapping → (ps.map (·.1)).Nodup → (∀ p ∈ ps, S.Key p.1) →
      (S.nulls = true → ∀ p ∈ ps, p.2 ≠ .none) → (∀ p ∈ ps, Styled E W S x p.2 a) →
      Styled E W S x (.dict (texts ps)) (.gen g [.cls .str, a])
  | ddict {S : Style} {x : Bool} {a : Ty} {es : List (Val × Val)} :
      Styled E W S x (.dict es) (.gen .dict [.cls .str, a]) →
      Styled E W S x (.ddict (some a) es) (.gen .defaultdict [.cls .str, a])
  /-- `dump` neither renames the fields of named tuples nor leaves one out, but the key transformer of
  `load` is applied to their names. -/
  | ntuple {S : Style} {x : Bool} {c : Nat} {xs : List Val} : Hinted E c →
      xs.length = (E.info c).fields.length →
      (∀ f ∈ (E.info c).fields, S.back (.str f) = .ok (.str f)) →
      (∀ p ∈ (E.info c).fields.zip xs, ∀ t, assoc (E.info c).hints p.1 = some t →
        p.2 = .none → .cls .noneType ∈ t.getArgs) →
      (∀ p ∈ (E.info c).fields.zip xs, ∀ t, assoc (E.info c).hints p.1 = some t → Styled E W S x p.2 t) →
      Styled E W S x (.ntuple c xs) (.cls (.user c))
  | unionNone {S : Style} {x : Bool} {pre post : List Ty} :
      (∀ a ∈ pre, ¬ AllowsNone a ∧ ¬ OddName E a) →
      Styled E W S x .none (.union (pre ++ .cls .noneType :: post))
  /-- Unions with the type of the value; the members before it do no harm, as in C33. -/
  | union {S : Style} {x : Bool} {a : Ty} {v : Val} {pre post : List Ty} : v ≠ .none →
      (∀ b ∈ pre, InVain E v b) → Styled E W S x v a → Styled E W S x v (.union (pre ++ a :: post))
  /-- Objects of which the names of the attributes come back.  If nulls are stripped then
  attributes that are `None` have to be `None` if they are not given. -/
  | obj {S : Style} {x : Bool} {c : Nat} {as : List (PyStr × Val)} : Storing E c →
      as.map (·.1) = (E.info c).params.map (·.name) → (∀ p ∈ (E.info c).params, S.Key p.name) →
      (S.nulls = true → ∀ p ∈ (E.info c).params, (p.name, .none) ∈ as → TakesNone (E.info c) p) →
      (∀ a ∈ as, ∀ t, assoc (E.info c).initHints a.1 = some t → Styled E W S x a.2 t) →
      Styled E W S x (.obj c as) (.cls (.user c))

/-- `Optional[T]`, and other unions that begin with the type of the value. -/
theorem Styled.first {E : LEnv} {W : Way} {S : Style} {x : Bool} {a : Ty} {v : Val} {post : List Ty}
    (h1 : v ≠ .none) (h2 : Styled E W S x v a) : Styled E W S x v (.union (a :: post)) :=
  .union (pre := []) h1 (by simp) h2

/-! ## What is proved by induction -/

/-- What `j`, which is loaded as `r`, looks like. -/
structure SShape (S : Style) (j r : Val) : Prop where
  kind : jkind j = jkind r
  text : ∀ s, r = .str s → j = .str s
  names : ∀ c as, r = .obj c as → ∃ fs, j = .dict fs ∧
    ∀ e ∈ fs, ∀ s, S.back e.1 = .ok (.str s) → s ∈ as.map (·.1)

/-- `j` is loaded as `r`, with a stack for at least `N` calls. -/
structure SLoads (E : LEnv) (S : Style) (fork : Nat) (t : Ty) (N : Nat) (j r : Val) : Prop where
  noMeta : NoMeta j
  valid : j.cls ∈ validTypes
  shape : SShape S j r
  load : ∀ n, N ≤ n → ∀ kw, LoadStyled S fork kw → (load E n j (some t) kw).val = .ok r

/-- What is received is loaded as `r`. -/
structure SGot (E : LEnv) (W : Way) (S : Style) (fork : Nat) (t : Ty) (N : Nat) (j r : Val) : Prop where
  sends : W.Sends j
  null : j = .none ↔ r = .none
  loads : ∀ w, W.Gets j w → SLoads E S fork t N w r

/-- The dump of `v`, on the way there and back, is loaded as `r`, which is the same as `v`. -/
structure Srt (E : LEnv) (W : Way) (S : Style) (fork : Nat) (exact : Bool) (t : Ty) (N : Nat)
    (v r : Val) : Prop where
  same : Same v r
  eq : exact = true → r = v
  dump : ∀ n, N ≤ n → ∀ kw, DumpStyled S fork kw → ∀ cls, cls = none ∨ cls = some t →
    ∃ j, (dump E.toEnv n v cls kw).val = .ok j ∧ SGot E W S fork t N j r

variable {E : LEnv} {W : Way} {S : Style} {fork : Nat}

theorem SShape.list {k : SeqKind} {js rs : List Val} : SShape S (.list js) (.seq k rs) :=
  ⟨rfl, (fun _ h => by cases h), fun _ _ h => by cases h⟩

theorem SShape.prim {v : Val} (h : ∀ c as, v ≠ .obj c as) : SShape S v v :=
  ⟨rfl, fun _ h => h, fun c as h' => absurd h' (h c as)⟩

theorem SLoads.mono {t : Ty} {N M : Nat} {j r : Val} (h : SLoads E S fork t N j r) (hm : N ≤ M) :
    SLoads E S fork t M j r :=
  ⟨h.noMeta, h.valid, h.shape, fun n hn => h.load n (Nat.le_trans hm hn)⟩

theorem Srt.mono {x : Bool} {t : Ty} {N M : Nat} {v r : Val} (h : Srt E W S fork x t N v r) (hm : N ≤ M) :
    Srt E W S fork x t M v r := by
  refine ⟨h.same, h.eq, fun n hn kw hk cls hc => ?_⟩
  obtain ⟨j, h1, h2⟩ := h.dump n (Nat.le_trans hm hn) kw hk cls hc
  exact ⟨j, h1, h2.sends, h2.null, fun w hw => (h2.loads w hw).mono hm⟩

theorem Srt.weaken {x : Bool} {t : Ty} {N : Nat} {v r : Val} (h : Srt E W S fork true t N v r) :
    Srt E W S fork x t N v r :=
  ⟨h.same, fun _ => h.eq rfl, h.dump⟩

theorem jkind_null {v : Val} : jkind v = .null ↔ v = .none := by
  cases v with
  | atom a => cases a <;> simp [jkind]
  | _ => simp [jkind]

theorem SLoads.null {t : Ty} {N : Nat} {j r : Val} (h : SLoads E S fork t N j r) : j = .none ↔ r = .none := by
  rw [← jkind_null, ← jkind_null, h.shape.kind]

/-! ## Values without parts -/

/-- The serializers that do not look at the style. -/
def leafSers : List SerFn :=
  [.primitive, .complex, .datetime, .date, .time, .timedelta, .enum, .uuid, .decimal, .path, .zoneinfo]

/-- The deserializers that do not look at the key transformer. -/
def leafDess : List DesFn :=
  [.datetime, .date, .time, .timedelta, .primitive, .enum, .uuid, .complex, .decimal, .path, .zoneinfo]

theorem callSer_leaf {Ev : Env} {rec : Rec} {f : SerFn} (hf : f ∈ leafSers) (v : Val) (cls : Option Ty)
    (kw : DumpKw) (sn : Bool) (kt : Option (PyStr → Except Err PyStr)) :
    callSer Ev rec f v cls { kw with stripNulls := sn, keyTransformer := kt } = callSer Ev rec f v cls kw := by
  simp only [leafSers, List.mem_cons, List.not_mem_nil, or_false] at hf
  rcases hf with rfl | rfl | rfl | rfl | rfl | rfl | rfl | rfl | rfl | rfl | rfl <;> rfl

theorem callDes_leaf {rec : LRec} {f : DesFn} (hf : f ∈ leafDess) (v : Val) (t : Ty) (kw : LoadKw)
    (F : Option (Val → Except Err Val)) :
    callDes E rec f v t { kw with keyTransformer := F } = callDes E rec f v t kw := by
  simp only [leafDess, List.mem_cons, List.not_mem_nil, or_false] at hf
  rcases hf with rfl | rfl | rfl | rfl | rfl | rfl | rfl | rfl | rfl | rfl | rfl <;> rfl

theorem dump_leaf {Ev : Env} {n : Nat} {v j : Val} {cls : Option Ty} {kw : DumpKw} {f : SerFn} (sn : Bool)
    (kt : Option (PyStr → Except Err PyStr)) (hs : DefaultSers Ev kw.fork)
    (hf : (cls.getD (.cls v.cls)).serFn Ev.info = some f) (hl : f ∈ leafSers) :
    (dump Ev (n + 2) v cls { kw with stripNulls := sn, keyTransformer := kt }).val = .ok j ↔
      (dump Ev (n + 2) v cls kw).val = .ok j := by
  rw [dump_via (kw := { kw with stripNulls := sn, keyTransformer := kt }) hs hf, dump_via hs hf,
    callSer_leaf hl]

theorem load_leaf {n : Nat} {j : Val} {t : Ty} {kw : LoadKw} {f : DesFn} (F : Option (Val → Except Err Val))
    (hd : DefaultDesers E kw.fork) (hv : NoValidators E kw.fork) (hf : t.desFn E.info = some f)
    (hl : f ∈ leafDess) (hm : NoMeta j) (hval : j.cls ∈ validTypes) (h0 : j ≠ .none) :
    (load E (n + 1) j (some t) { kw with keyTransformer := F }).val = (load E (n + 1) j (some t) kw).val := by
  by_cases hsk : Skips j (some t) kw
  · rw [load_skip (fun h => absurd h h0) hsk,
      load_skip (kw := { kw with keyTransformer := F }) (fun h => absurd h h0) hsk]
  · rw [(load_via (n := n) (v := j) (t := t) (kw := kw) (f := f) (m := none) (fun h => absurd h h0) hsk hval
        (noMeta_get hm _) (.inr rfl) hd hf (hv _)).1,
      (load_via (n := n) (v := j) (t := t) (kw := { kw with keyTransformer := F }) (f := f) (m := none)
        (fun h => absurd h h0) hsk hval (noMeta_get hm _) (.inr rfl) hd hf (hv _)).1]
    exact congrArg (fun r => wrapRes j t (Res.val r)) (callDes_leaf hl j t (kwOf kw none) F)

theorem DumpStyled.neutral {kw : DumpKw} (h : DumpStyled S fork kw) :
    DumpNeutral fork { kw with stripNulls := false, keyTransformer := none } :=
  ⟨h.fork, h.strict, rfl, rfl, h.privates, h.classVars, h.attrs, h.verbose, h.enums, h.micros, h.types⟩

theorem LoadStyled.neutral {kw : LoadKw} (h : LoadStyled S fork kw) :
    LoadNeutral fork { kw with keyTransformer := none } :=
  ⟨h.fork, h.getters, fun _ => rfl, h.hints, h.warn, h.enums⟩

/-- Values that are dumped and loaded as they are. -/
theorem srt_prim (hW : Lawful E fork W) (hs : DefaultSers E.toEnv fork) (hd : DefaultDesers E fork)
    (hv : NoValidators E fork) {x : Bool} {v : Val}
    (hc : v.cls ∈ [Cls.str, .int, .float, .bool, .noneType]) (hfl : ∀ q, v = .float q → W.float q) :
    Srt E W S fork x (.cls v.cls) 2 v v := by
  have hser : (Ty.cls v.cls).serFn E.info = some .primitive := by
    simp only [List.mem_cons, List.not_mem_nil, or_false] at hc
    rcases hc with h | h | h | h | h <;> rw [h] <;> rfl
  have hins : v.cls.sub E.info v.cls = true := by simp [Cls.sub]
  have hnd : v.cls ≠ .dict := by
    intro h; rw [h] at hc; simp at hc
  refine ⟨.refl v, fun _ => rfl, ?_⟩
  intro n hn kw hk cls hcls
  obtain ⟨n, rfl⟩ : ∃ m, n = m + 2 := ⟨n - 2, by omega⟩
  refine ⟨v, ?_, (hW.prim v hc hfl).1, Iff.rfl, fun w hw => ?_⟩
  swap
  · obtain rfl := (hW.prim v hc hfl).2 w hw
    refine ⟨noMeta_of_not_dict hnd, ?_, .prim (fun c as h => by rw [h] at hc; simp [Val.cls] at hc),
      fun m hm kw' hk' => prim_load hd hv hc hm hk'.fork⟩
    simp only [List.mem_cons, List.not_mem_nil, or_false] at hc
    rcases hc with h | h | h | h | h <;> rw [h] <;> decide
  · rw [dump_via (f := .primitive) (by rw [hk.fork]; exact hs) (by rcases hcls with rfl | rfl <;> exact hser)]
    rcases hcls with rfl | rfl
    · rfl
    · simp only [callSer, primitiveSer, Env.isInstance, hins]
      split <;> rfl

/-- From C33 to this. -/
theorem srt_leaf (hs : DefaultSers E.toEnv fork) (hd : DefaultDesers E fork) (hv : NoValidators E fork)
    {x : Bool} {v r r' : Val} {c : Cls} {N N' : Nat} (h : Rt E W fork x (.cls c) N v r)
    (h' : Rt E direct fork x (.cls c) N' v r') (h0 : v ≠ .none)
    (ho : ∀ c as, v ≠ .obj c as) (h1 : c.serFn E.info ∈ leafSers) (h2 : v.cls.serFn E.info ∈ leafSers)
    (h3 : c.desFn E.info ∈ leafDess) :
    Srt E W S fork x (.cls c) (max N N' + 2) v r := by
  refine ⟨h.same, h.eq, ?_⟩
  intro n hn kw hk cls hcls
  obtain ⟨n, rfl⟩ : ∃ m, n = m + 2 := ⟨n - 2, by omega⟩
  obtain ⟨j, hj, hg⟩ := h.dump (n + 2) (by omega) _ hk.neutral cls hcls
  obtain ⟨j', hj', hg'⟩ := h'.dump (n + 2) (by omega) _ hk.neutral cls hcls
  obtain rfl : j = j' := by rw [hj] at hj'; exact Except.ok.inj hj'
  have hr : r ≠ .none := by
    rw [ne_eq, ← jkind_null, ← same_kind h.same, jkind_null]; exact h0
  have hkind : j ≠ .none := by
    rw [ne_eq, ← jkind_null, (hg'.loads j rfl).shape.kind, ← same_kind h'.same, jkind_null]; exact h0
  refine ⟨j, ?_, hg.sends, by simp [hr, hkind], fun w hw => ?_⟩
  · have hf : ∃ f, (cls.getD (.cls v.cls)).serFn E.info = some f ∧ f ∈ leafSers := by
      rcases hcls with rfl | rfl
      · exact ⟨_, rfl, h2⟩
      · exact ⟨_, rfl, h1⟩
    obtain ⟨f, hf, hl⟩ := hf
    exact (dump_leaf (kw := { kw with stripNulls := false, keyTransformer := none }) kw.stripNulls
      kw.keyTransformer (by show DefaultSers _ kw.fork; rw [hk.fork]; exact hs) hf hl).2 hj
  · have hl := hg.loads w hw
    have hw0 : w ≠ .none := by
      rw [ne_eq, ← jkind_null, hl.shape.kind, jkind_null]; exact hr
    refine ⟨hl.noMeta, hl.valid, ⟨hl.shape.kind, hl.shape.text, ?_⟩, ?_⟩
    · rintro c' as rfl
      have hsame := h.same
      cases hsame with
      | refl => exact absurd rfl (ho _ _)
      | obj _ _ => exact absurd rfl (ho _ _)
    intro m hm kw' hk'
    obtain ⟨m, rfl⟩ : ∃ i, m = i + 1 := ⟨m - 1, by omega⟩
    rw [← hl.load (m + 1) (by omega) _ hk'.neutral]
    exact load_leaf (kw := { kw' with keyTransformer := none }) kw'.keyTransformer
      (by show DefaultDesers _ kw'.fork; rw [hk'.fork]; exact hd)
      (by show NoValidators _ kw'.fork; rw [hk'.fork]; exact hv) rfl h3 hl.noMeta hl.valid hw0

theorem direct_leaf {x : Bool} {v : Val} {c : Cls} (h : HasTy E W x v (.cls c))
    (hv : (∃ a, v = .atom a) ∨ ∃ c m, v = .enum c m) : HasTy E direct x v (.cls c) := by
  cases h with
  | none => exact .none
  | bool b => exact .bool b
  | int n => exact .int n
  | flag b => exact .flag b
  | float h => exact .float trivial
  | str s => exact .str s
  | datetime h1 h2 h3 h4 h5 h6 => exact .datetime h1 h2 h3 h4 h5 h6
  | date h1 h2 => exact .date h1 h2
  | timedelta h h' => exact .timedelta h trivial
  | uuid h => exact .uuid h
  | decimal h => exact .decimal h
  | path h => exact .path h
  | time h1 h2 h3 h4 h5 => exact .time h1 h2 h3 h4 h5
  | zoneinfo h => exact .zoneinfo h
  | complex h1 h2 h3 h4 => exact .complex trivial trivial h3 h4
  | enum h1 h2 => exact .enum h1 h2
  | ntuple _ _ _ _ => rcases hv with ⟨_, h⟩ | ⟨_, _, h⟩ <;> cases h
  | obj _ _ _ => rcases hv with ⟨_, h⟩ | ⟨_, _, h⟩ <;> cases h

theorem srt_simple (hW : Lawful E fork W) (hs : DefaultSers E.toEnv fork) (hd : DefaultDesers E fork)
    (hv : NoValidators E fork) {x : Bool} {v : Val} {c : Cls} (h : HasTy E W x v (.cls c))
    (ha : (∃ a, v = .atom a) ∨ ∃ c m, v = .enum c m) : ∃ N r, Srt E W S fork x (.cls c) N v r := by
  obtain ⟨N, r, hr⟩ := rt_all hW hs hd hv h
  obtain ⟨N', r', hr'⟩ := rt_all (direct_lawful hd hv) hs hd hv (direct_leaf h ha)
  have main : v ≠ .none → c.serFn E.info ∈ leafSers → v.cls.serFn E.info ∈ leafSers →
      c.desFn E.info ∈ leafDess → ∃ N r, Srt E W S fork x (.cls c) N v r :=
    fun h0 h1 h2 h3 => ⟨_, r, srt_leaf hs hd hv hr hr' h0 (by
      rintro c as rfl
      rcases ha with ⟨_, h⟩ | ⟨_, _, h⟩ <;> cases h) h1 h2 h3⟩
  cases h with
  | none => exact ⟨_, _, srt_prim hW hs hd hv (v := .none) (by decide) (by simp)⟩
  | str s => exact ⟨_, _, srt_prim hW hs hd hv (v := .str s) (by simp [Val.cls, Atom.cls]) (by simp)⟩
  | enum h1 h2 =>
    have e1 : (Cls.user ‹_›).serFn E.info = .enum := by simp only [Cls.serFn, h1]
    have e2 : (Cls.user ‹_›).desFn E.info = .enum := by simp only [Cls.desFn, h1]
    refine main (by intro h; cases h) ?_ ?_ ?_
    · rw [e1]; decide
    · show Cls.serFn E.info (.user _) ∈ _; rw [e1]; decide
    · rw [e2]; decide
  | ntuple _ _ _ _ => rcases ha with ⟨_, h⟩ | ⟨_, _, h⟩ <;> cases h
  | obj _ _ _ => rcases ha with ⟨_, h⟩ | ⟨_, _, h⟩ <;> cases h
  | _ => exact main (by intro h; cases h) (by simp [Cls.serFn, leafSers]) (by simp [Val.cls, Atom.cls, Cls.serFn, leafSers]) (by simp [Cls.desFn, leafDess])

/-! ## Collections -/

theorem DumpStyled.store {kw : DumpKw} (h : DumpStyled S fork kw) (b : Bool) :
    DumpStyled S fork { kw with storeCls := b } :=
  ⟨h.fork, h.strict, h.keys, h.nulls, h.privates, h.classVars, h.attrs, h.verbose, h.enums, h.micros,
    h.types⟩

theorem DumpStyled.oneWay {kw : DumpKw} (h : DumpStyled S fork kw) : DumpStyled S.oneWay fork kw :=
  ⟨h.fork, h.strict, h.keys, h.nulls, h.privates, h.classVars, h.attrs, h.verbose, h.enums, h.micros,
    h.types⟩

theorem DumpStyled.noTypes {kw : DumpKw} (h : DumpStyled S fork kw) :
    DumpStyled S fork { kw with types := [] } :=
  ⟨h.fork, h.strict, h.keys, h.nulls, h.privates, h.classVars, h.attrs, h.verbose, h.enums, h.micros, rfl⟩

theorem DumpStyled.attr {kw : DumpKw} (h : DumpStyled S fork kw) : DumpStyled S fork (attrKw kw []) :=
  ⟨h.fork, h.strict, h.keys, h.nulls, h.privates, h.classVars, rfl, rfl, h.enums, h.micros, h.types⟩

theorem LoadStyled.noKeys {kw : LoadKw} (h : LoadStyled S fork kw) :
    LoadStyled S.oneWay fork { kw with keyTransformer := none } :=
  ⟨h.fork, h.getters, rfl, h.hints, h.warn, h.enums⟩

theorem LoadStyled.elem {kw : LoadKw} (h : LoadStyled S fork kw) :
    LoadStyled S fork { kw with warnOnFail := false } :=
  ⟨h.fork, h.getters, h.keys, h.hints, rfl, h.enums⟩

theorem LoadStyled.idKeys {kw : LoadKw} (h : LoadStyled S fork kw) :
    LoadStyled S fork { kw with keyTransformer := some (kw.keyTransformer.getD .ok) } :=
  ⟨h.fork, h.getters, h.keys, h.hints, h.warn, h.enums⟩

theorem LoadStyled.part {kw : LoadKw} (h : LoadStyled S fork kw) : LoadStyled S fork (partKw kw) :=
  ⟨h.fork, rfl, h.keys, h.hints, h.warn, h.enums⟩

theorem elems_dump {x : Bool} {a : Ty} {N : Nat} {vs rs : List Val}
    (h : List.Forall₂ (fun v r => Srt E W S fork x a N v r) vs rs) {n : Nat} (hn : N ≤ n) {kw : DumpKw}
    (hk : DumpStyled S fork kw) {cls : Option Ty} (hcls : cls = none ∨ cls = some a) :
    ∃ js, List.Forall₂ (fun v j => (dump E.toEnv n v cls kw).val = .ok j) vs js ∧
      List.Forall₂ (fun j r => SGot E W S fork a N j r) js rs :=
  forall₂_split (h.imp fun _ _ hr => hr.dump n hn kw hk cls hcls)

theorem got_list (hW : Lawful E fork W) {S' : Style} {a t : Ty} {N M : Nat} {js rs : List Val} {r : Val}
    (h : List.Forall₂ (fun j r => SGot E W S' fork a N j r) js rs) (h0 : r ≠ .none)
    (hl : ∀ ws, List.Forall₂ (fun j r => SLoads E S' fork a N j r) ws rs →
      SLoads E S fork t M (.list ws) r) :
    SGot E W S fork t M (.list js) r := by
  obtain ⟨h1, h2⟩ := hW.list js (forall₂_left h fun _ _ h => h.sends)
  refine ⟨h1, by simp [h0], fun w hw => ?_⟩
  obtain ⟨ws, rfl, hws⟩ := h2 w hw
  exact hl ws (forall₂_comp hws h fun _ _ _ hg h => h.loads _ hg)

theorem elems_same {x : Bool} {a : Ty} {N : Nat} {vs rs : List Val}
    (h : List.Forall₂ (fun v r => Srt E W S fork x a N v r) vs rs) :
    List.Forall₂ Same vs rs ∧ (x = true → rs = vs) :=
  ⟨h.imp fun _ _ hr => hr.same, fun hx => forall₂_eq h fun _ _ hr => hr.eq hx⟩

theorem loads_noMeta {a : Ty} {N : Nat} {js rs : List Val}
    (h : List.Forall₂ (fun j r => SLoads E S fork a N j r) js rs) : ∀ j ∈ js, NoMeta j :=
  forall₂_left h fun _ _ h => h.noMeta

theorem srt_list (hW : Lawful E fork W) (hs : DefaultSers E.toEnv fork) (hd : DefaultDesers E fork)
    (hv : NoValidators E fork) {x : Bool} {a : Ty} {vs : List Val}
    (h : ∀ v ∈ vs, ∃ N r, Srt E W S fork x a N v r) :
    ∃ N r, Srt E W S fork x (.gen .list [a]) N (.list vs) r := by
  obtain ⟨N, rs, hrs⟩ := gather (P := fun v N r => Srt E W S fork x a N v r)
    (fun _ _ _ _ hm hr => hr.mono hm) vs h
  obtain ⟨hsame, heq⟩ := elems_same hrs
  refine ⟨N + 2, .list rs, .seq hsame, fun hx => by rw [heq hx], ?_⟩
  intro n hn kw hk cls hcls
  obtain ⟨n, rfl⟩ : ∃ m, n = m + 2 := ⟨n - 2, by omega⟩
  have hload : ∀ js, List.Forall₂ (fun j r => SLoads E S fork a N j r) js rs →
      SLoads E S fork (.gen .list [a]) (N + 2) (.list js) (.list rs) := by
    intro js hjs
    refine ⟨list_noMeta, list_valid, .list, ?_⟩
    intro m hm kw' hk'
    obtain ⟨m, rfl⟩ : ∃ i, m = i + 1 := ⟨m - 1, by omega⟩
    rw [list_load E m _ _ js a kw' (by rw [hk'.fork]; exact hd) (by rw [hk'.fork]; exact hv) list_valid
      list_noMeta rfl (loads_noMeta hjs) hk'.warn]
    exact ⟨rs, rfl, hjs.imp fun j r h => h.load m (by omega) kw' hk'⟩
  rcases hcls with rfl | rfl
  · obtain ⟨js, h1, h2⟩ := elems_dump hrs (n := n) (by omega) (hk.store false) (.inl rfl)
    exact ⟨.list js, dump_list_none hs hk.fork hk.strict h1, got_list hW h2 (by simp) hload⟩
  · obtain ⟨js, h1, h2⟩ := elems_dump hrs (n := n + 1) (by omega) (hk.store false) (.inr rfl)
    exact ⟨.list js, dump_list_typed hs hk.fork h1, got_list hW h2 (by simp) hload⟩

theorem srt_iter (hW : Lawful E fork W) (hs : DefaultSers E.toEnv fork) (hd : DefaultDesers E fork)
    (hv : NoValidators E fork) {x : Bool} {a : Ty} {N : Nat} {vs rs : List Val} {k : SeqKind} {g : Gen}
    (hk : k = .deque ∧ g = .deque ∨ k = .set ∧ g = .set ∨ k = .frozenset ∧ g = .frozenset)
    (hrs : List.Forall₂ (fun v r => Srt E W S fork x a N v r) vs rs)
    (hcast : castSeq E.info k.cls rs = .ok (.seq k rs)) :
    Srt E W S fork x (.gen g [a]) (N + 2) (.seq k vs) (.seq k rs) := by
  obtain ⟨hsame, heq⟩ := elems_same hrs
  have hg : g.naked = k.cls ∧ (Ty.gen g [a]).desFn E.info = some .iterable ∧
      (Ty.gen g [a]).naked? = some k.cls ∧ k ≠ .list := by
    rcases hk with ⟨rfl, rfl⟩ | ⟨rfl, rfl⟩ | ⟨rfl, rfl⟩ <;> exact ⟨rfl, rfl, rfl, by decide⟩
  obtain ⟨hg1, hg2, hg3, hkl⟩ := hg
  refine ⟨.seq hsame, fun hx => by rw [heq hx], ?_⟩
  intro n hn kw hk cls hcls
  obtain ⟨n, rfl⟩ : ∃ m, n = m + 2 := ⟨n - 2, by omega⟩
  obtain ⟨js, h1, h2⟩ := elems_dump hrs (n := n) (by omega) (hk.store false) (.inl rfl)
  refine ⟨.list js, dump_seq hs hk.fork hk.strict hkl ?_ h1,
    got_list hW h2 (by simp) fun ws h2 => ⟨list_noMeta, list_valid, .list, ?_⟩⟩
  · rcases hcls with rfl | rfl
    · exact .inl rfl
    · exact .inr ⟨_, _, _, rfl, hg1⟩
  · intro m hm kw' hk'
    obtain ⟨m, rfl⟩ : ∃ i, m = i + 1 := ⟨m - 1, by omega⟩
    rw [(load_via (n := m) (v := .list ws) (t := .gen g [a]) (kw := kw') (f := .iterable) (m := none)
      (fun h => by cases h) gen_not_skip list_valid (noMeta_get list_noMeta _) (.inr rfl)
      (by rw [hk'.fork]; exact hd) hg2 (by rw [hk'.fork]; exact hv _)).1, wrapRes_ok]
    show (iterableDes E _ _ _ _).val = _
    unfold iterableDes
    rw [Core.bind_ok]
    refine ⟨rs, ?_, ?_⟩
    · show (listLoop E (load E m) (some a) kw'.warnOnFail (elemKw kw') 0 ws).val = _
      rw [hk'.warn, listLoop_ok]
      refine h2.imp fun j r h => ?_
      rw [elem_load h.noMeta]
      exact h.load m (by omega) _ hk'.elem
    · rw [hg3]
      show (Res.liftK (castSeq E.info k.cls rs)).val = _
      rw [hcast]
      rfl

theorem srt_deque (hW : Lawful E fork W) (hs : DefaultSers E.toEnv fork) (hd : DefaultDesers E fork)
    (hv : NoValidators E fork) {x : Bool} {a : Ty} {vs : List Val}
    (h : ∀ v ∈ vs, ∃ N r, Srt E W S fork x a N v r) :
    ∃ N r, Srt E W S fork x (.gen .deque [a]) N (.seq .deque vs) r := by
  obtain ⟨N, rs, hrs⟩ := gather (P := fun v N r => Srt E W S fork x a N v r)
    (fun _ _ _ _ hm hr => hr.mono hm) vs h
  exact ⟨_, _, srt_iter hW hs hd hv (.inl ⟨rfl, rfl⟩) hrs rfl⟩

theorem srt_sets (hW : Lawful E fork W) (hs : DefaultSers E.toEnv fork) (hd : DefaultDesers E fork)
    (hv : NoValidators E fork) {x : Bool} {a : Ty} {vs : List Val} {k : SeqKind} {g : Gen}
    (hk : k = .set ∧ g = .set ∨ k = .frozenset ∧ g = .frozenset)
    (h : ∀ v ∈ vs, ∃ N r, Srt E W S fork true a N v r) (hh : ∀ v ∈ vs, v.hashable E.info = true)
    (hp : vs.Pairwise (fun v w => pyEq v w = false)) :
    ∃ N r, Srt E W S fork x (.gen g [a]) N (.seq k vs) r := by
  obtain ⟨N, rs, hrs⟩ := gather (P := fun v N r => Srt E W S fork true a N v r)
    (fun _ _ _ _ hm hr => hr.mono hm) vs h
  obtain rfl := (elems_same hrs).2 rfl
  refine ⟨_, _, srt_iter hW hs hd hv (.inr hk) (hrs.imp fun _ _ h => h.weaken) ?_⟩
  rcases hk with ⟨rfl, rfl⟩ | ⟨rfl, rfl⟩ <;>
    simp only [SeqKind.cls, castSeq, (allHashable_iff rs).2 hh, if_true, dedup_distinct rs [] (by simp) hp,
      List.reverse_nil, List.nil_append]

theorem srt_tupleEll (hW : Lawful E fork W) (hs : DefaultSers E.toEnv fork) (hd : DefaultDesers E fork)
    (hv : NoValidators E fork) {x : Bool} {a : Ty} {vs : List Val}
    (h : ∀ v ∈ vs, ∃ N r, Srt E W S.oneWay fork x a N v r) :
    ∃ N r, Srt E W S fork x (.gen .tupleEll [a]) N (.tuple vs) r := by
  obtain ⟨N, rs, hrs⟩ := gather (P := fun v N r => Srt E W S.oneWay fork x a N v r)
    (fun _ _ _ _ hm hr => hr.mono hm) vs h
  obtain ⟨hsame, heq⟩ := elems_same hrs
  refine ⟨N + 2, .tuple rs, .seq hsame, fun hx => by rw [heq hx], ?_⟩
  intro n hn kw hk cls hcls
  obtain ⟨n, rfl⟩ : ∃ m, n = m + 2 := ⟨n - 2, by omega⟩
  obtain ⟨js, h1, h2⟩ := elems_dump hrs (n := n) (by omega) (hk.store false).oneWay (.inl rfl)
  refine ⟨.list js, dump_seq hs hk.fork hk.strict (by decide) ?_ h1,
    got_list hW h2 (by simp) fun ws h2 => ⟨list_noMeta, list_valid, .list, ?_⟩⟩
  · rcases hcls with rfl | rfl
    · exact .inl rfl
    · exact .inr ⟨_, _, _, rfl, rfl⟩
  · intro m hm kw' hk'
    obtain ⟨m, rfl⟩ : ∃ i, m = i + 1 := ⟨m - 1, by omega⟩
    rw [tuple_ellipsis_load E m _ _ ws a kw' (by rw [hk'.fork]; exact hd) (by rw [hk'.fork]; exact hv)
      list_valid list_noMeta rfl (loads_noMeta h2)]
    exact ⟨rs, rfl, h2.imp fun j r h => h.load m (by omega) _ hk'.noKeys⟩

theorem srt_tuple (hW : Lawful E fork W) (hs : DefaultSers E.toEnv fork) (hd : DefaultDesers E fork)
    (hv : NoValidators E fork) {x : Bool} {a : Ty} {as : List Ty} {vs : List Val}
    (hlen : vs.length ≤ (a :: as).length)
    (h : ∀ p ∈ vs.zip (a :: as), ∃ N r, Srt E W S.oneWay fork x p.2 N p.1 r) :
    ∃ N r, Srt E W S fork x (.gen .tuple (a :: as)) N (.tuple vs) r := by
  obtain ⟨N, rs, hrs⟩ := gather (P := fun (p : Val × Ty) N r => Srt E W S.oneWay fork x p.2 N p.1 r)
    (fun _ _ _ _ hm hr => hr.mono hm) (vs.zip (a :: as)) h
  have hfst : (vs.zip (a :: as)).map (·.1) = vs := List.map_fst_zip (by omega)
  obtain ⟨rest, hsnd⟩ := zip_types vs (a :: as)
  generalize vs.zip (a :: as) = ps at hrs hfst hsnd
  have hsame : List.Forall₂ Same vs rs := by
    rw [← hfst, List.forall₂_map_left_iff]
    exact hrs.imp fun _ _ hr => hr.same
  have heq : x = true → rs = vs := by
    intro hx
    have : List.Forall₂ (fun v r => r = v) vs rs := by
      rw [← hfst, List.forall₂_map_left_iff]
      exact hrs.imp fun _ _ hr => hr.eq hx
    exact forall₂_eq this fun _ _ h => h
  refine ⟨N + 2, .tuple rs, .seq hsame, fun hx => by rw [heq hx], ?_⟩
  intro n hn kw hk cls hcls
  obtain ⟨n, rfl⟩ : ∃ m, n = m + 2 := ⟨n - 2, by omega⟩
  have hsplit : ∃ js, List.Forall₂ (fun v j => (dump E.toEnv n v none { kw with storeCls := false }).val = .ok j) vs js ∧
      (∀ j ∈ js, W.Sends j) ∧ ∀ ws, List.Forall₂ W.Gets js ws →
      (∀ j ∈ ws, NoMeta j) ∧ ∀ m, N ≤ m → ∀ kw', LoadStyled S.oneWay fork kw' →
        Elementwise (fun t j => (load E m j (some t) kw').val) (a :: as) ws rs := by
    rw [← hfst, hsnd]
    clear hfst hsnd hsame heq hlen h
    induction hrs with
    | nil =>
      refine ⟨[], .nil, (by simp), ?_⟩
      rintro _ ⟨⟩
      exact ⟨(by simp), fun _ _ _ _ => .nil⟩
    | cons h _ ih =>
      obtain ⟨j, h1, h2⟩ := h.dump n (by omega) _ (hk.store false).oneWay none (.inl rfl)
      obtain ⟨js, h3, h4, h5⟩ := ih
      refine ⟨j :: js, .cons h1 h3, ?_, ?_⟩
      · intro i hi
        rcases List.mem_cons.1 hi with rfl | hi
        · exact h2.sends
        · exact h4 i hi
      · intro ws hws
        cases hws with
        | @cons _ w _ ws hw hws =>
        have h2 := h2.loads w hw
        obtain ⟨h5, h6⟩ := h5 ws hws
        refine ⟨?_, fun m hm kw' hk' => .cons (h2.load m hm kw' hk') (h6 m hm kw' hk')⟩
        intro i hi
        rcases List.mem_cons.1 hi with rfl | hi
        · exact h2.noMeta
        · exact h5 i hi
  obtain ⟨js, h1, h4, h5⟩ := hsplit
  obtain ⟨hsend, hgets⟩ := hW.list js h4
  refine ⟨.list js, dump_seq hs hk.fork hk.strict (by decide) ?_ h1, hsend, by simp, fun w hw => ?_⟩
  · rcases hcls with rfl | rfl
    · exact .inl rfl
    · exact .inr ⟨_, _, _, rfl, rfl⟩
  · obtain ⟨ws, rfl, hws⟩ := hgets w hw
    obtain ⟨h2, h3⟩ := h5 ws hws
    refine ⟨list_noMeta, list_valid, .list, ?_⟩
    intro m hm kw' hk'
    obtain ⟨m, rfl⟩ : ∃ i, m = i + 1 := ⟨m - 1, by omega⟩
    rw [tuple_load_partial E m _ _ ws a as kw' (by rw [hk'.fork]; exact hd) (by rw [hk'.fork]; exact hv)
      list_valid list_noMeta rfl h2]
    exact ⟨rs, rfl, by rw [← hws.length_eq, ← h1.length_eq]; exact hlen, h3 m (by omega) _ hk'.noKeys⟩

/-! ## Unions -/

theorem srt_unionNone (hW : Lawful E fork W) (hs : DefaultSers E.toEnv fork) (hd : DefaultDesers E fork)
    (hv : NoValidators E fork) {x : Bool} {pre post : List Ty}
    (h : ∀ a ∈ pre, ¬ AllowsNone a ∧ ¬ OddName E a) :
    Srt E W S fork x (.union (pre ++ .cls .noneType :: post)) 3 .none .none := by
  refine ⟨.refl _, fun _ => rfl, ?_⟩
  intro n hn kw hk cls hcls
  obtain ⟨n, rfl⟩ : ∃ m, n = m + 3 := ⟨n - 3, by omega⟩
  have hs' : DefaultSers E.toEnv kw.fork := by rw [hk.fork]; exact hs
  have hp := hW.prim .none (by simp [Val.cls, Atom.cls]) (by simp)
  refine ⟨.none, ?_, hp.1, Iff.rfl, fun w hw => ?_⟩
  · rcases hcls with rfl | rfl
    · rw [dump_via (f := .primitive) hs' rfl]; rfl
    · rw [DumpCollections.union_dump _ _ _ _ _ hs', if_pos ⟨rfl, by simp⟩]
  · obtain rfl := hp.2 w hw
    refine ⟨noMeta_of_not_dict (by decide), by decide, .prim (by simp), ?_⟩
    intro m hm kw' hk'
    obtain ⟨m, rfl⟩ : ∃ i, m = i + 2 := ⟨m - 2, by omega⟩
    exact (none_accepted E m kw' (by rw [hk'.fork]; exact hd) (by rw [hk'.fork]; exact hv)).2.2.2
      pre post h

/-- The keys after `load` has transformed them. -/
theorem transformed_names {kw : LoadKw} (hk : kw.keyTransformer.getD .ok = S.back) {es es' : List (Val × Val)}
    (h : Transformed E kw es es') : ∀ e ∈ es', ∃ e0 ∈ es, S.back e0.1 = .ok e.1 := by
  unfold Transformed at h
  cases hkt : kw.keyTransformer with
  | none =>
    rw [hkt] at h hk
    subst h
    exact fun e he => ⟨e, he, by rw [← hk]; rfl⟩
  | some f =>
    rw [hkt] at h hk
    obtain ⟨ps, h1, rfl⟩ := h
    intro e he
    rcases foldl_dictSet_key ps [] e he with h | h
    · cases h
    · obtain ⟨p, hp, h⟩ := List.mem_map.1 h
      obtain ⟨e0, he0, h1⟩ := forall₂_right h1 p hp
      exact ⟨e0, he0, by rw [← hk, ← h]; exact h1.1⟩

/-- An object is not loaded as another class that needs an attribute which it does not have. -/
theorem vain_styled {kw : LoadKw} (hd : DefaultDesers E kw.fork) (hv : NoValidators E kw.fork) {d m : Nat}
    {fs : List (Val × Val)} {w : Val} {names : List PyStr} (hn : Needs E d names)
    (hsh : ∀ e ∈ fs, ∀ s, S.back e.1 = .ok (.str s) → s ∈ names) (hk : LoadStyled S fork kw)
    (hnm : NoMeta (.dict fs)) (hw : (load E (m + 1) (.dict fs) (some (.cls (.user d))) kw).val = .ok w) :
    False := by
  rw [← load_part hnm] at hw
  have hmo : MetaOk E (kwOf kw none).fork (.dict fs) := by
    intro es m' h1 h2
    rw [hnm es h1] at h2
    cases h2
  obtain ⟨H, es', args, as', _, ht, _, ha, _⟩ := constructor_arguments E m d fs w (kwOf kw none) hd (hv _)
    hn.kind hn.distinct hmo rfl hw
  obtain ⟨p, hp, h1, h2, h3, t, h4, h5⟩ := hn.missing
  have habs : dictGet es' (.str p.name) = none := by
    refine dictGet_absent fun e he h => h1 ?_
    obtain ⟨e0, he0, h'⟩ := transformed_names (S := S) (kw := kwOf kw none) hk.keys ht e he
    exact hsh e0 he0 _ (by rw [h', h])
  have hg : assoc (kwOf kw none).attrGetters p.name = none := by
    show assoc kw.attrGetters p.name = none
    rw [hk.getters]; rfl
  have ha := ha p hp
  generalize assoc args p.name = o at ha
  cases ha with
  | given h _ => rw [habs] at h; cases h
  | getter _ h => rw [hg] at h; cases h
  | default _ _ h => rw [h2] at h; cases h
  | variadic _ _ _ h => rw [h3] at h; cases h
  | omitted _ _ _ _ h => exact h5 (h t h4)

theorem srt_union (hs : DefaultSers E.toEnv fork) (hd : DefaultDesers E fork) (hv : NoValidators E fork)
    {x : Bool} {a : Ty} {v r : Val} {N : Nat} {pre post : List Ty} (hv0 : v ≠ .none)
    (hp : ∀ b ∈ pre, InVain E v b) (h : Srt E W S fork x a N v r) :
    Srt E W S fork x (.union (pre ++ a :: post)) (N + 4) v r := by
  refine ⟨h.same, h.eq, ?_⟩
  intro n hn kw hk cls hcls
  obtain ⟨n, rfl⟩ : ∃ m, n = m + 4 := ⟨n - 4, by omega⟩
  have hs' : DefaultSers E.toEnv kw.fork := by rw [hk.fork]; exact hs
  have hr0 : r ≠ .none := by
    rw [ne_eq, ← jkind_null, ← same_kind h.same, jkind_null]; exact hv0
  have hload : ∀ j, SLoads E S fork a N j r → SLoads E S fork (.union (pre ++ a :: post)) (N + 4) j r := by
    intro j hj
    refine ⟨hj.noMeta, hj.valid, hj.shape, ?_⟩
    intro m hm kw' hk'
    obtain ⟨m, rfl⟩ : ∃ i, m = i + 2 := ⟨m - 2, by omega⟩
    have hj0 : j ≠ .none := fun h => hr0 (hj.null.1 h)
    have hd' : DefaultDesers E kw'.fork := by rw [hk'.fork]; exact hd
    have hv' : NoValidators E kw'.fork := by rw [hk'.fork]; exact hv
    rw [(load_via (n := m + 1) (v := j) (t := .union (pre ++ a :: post)) (kw := kw') (f := .union)
      (m := none) (fun h => absurd h hj0)
      (by rintro (⟨_, h⟩ | h) <;> cases h) hj.valid (noMeta_get hj.noMeta _) (.inr rfl)
      hd' rfl (hv' _)).1, wrapRes_ok]
    refine unionLoop_skip (post := post) pre (fun b hb => ?_) ?_
    · rw [load_part hj.noMeta]
      refine vain_load (hp b hb) hv0 (by rw [hj.shape.kind, same_kind h.same]) ?_ hj.noMeta hj.valid m hd' hv' ?_
      · rintro s rfl
        have hsame := h.same
        cases hsame
        exact hj.shape.text s rfl
      · rintro c d as w rfl hneeds hw
        have hsame := h.same
        have main : ∀ bs, r = .obj c bs → as.map (·.1) = bs.map (·.1) → False := by
          intro bs hr hnames
          obtain ⟨fs, rfl, hfs⟩ := hj.shape.names c bs hr
          exact vain_styled hd' hv' (hnames ▸ hneeds) hfs hk' hj.noMeta hw
        cases hsame with
        | refl => exact main as rfl rfl
        | @obj _ _ bs h1 h2 => exact main bs rfl h1
    · rw [load_part hj.noMeta]
      exact hj.load (m + 1) (by omega) kw' hk'
  rcases hcls with rfl | rfl
  · obtain ⟨j, h1, h2⟩ := h.dump (n + 4) (by omega) kw hk none (.inl rfl)
    exact ⟨j, h1, ⟨h2.sends, h2.null, fun w hw => hload w (h2.loads w hw)⟩⟩
  · have hfirst : ∃ j, DumpCollections.FirstOk (fun t => (dump E.toEnv (n + 2) v (some t) kw).val)
        (pre ++ a :: post) j ∧ SGot E W S fork a N j r := by
      obtain ⟨j0, h1, h2⟩ := h.dump (n + 2) (by omega) kw hk none (.inl rfl)
      obtain ⟨j, h3, h4⟩ := h.dump (n + 2) (by omega) kw hk (some a) (.inr rfl)
      clear hload
      induction pre with
      | nil => exact ⟨j, ⟨[], a, post, rfl, by simp, h3⟩, h4⟩
      | cons b pre ih =>
        rcases vain_dump (hp b List.mem_cons_self) hv0 n hs' hk.enums hk.strict with he | he
        · obtain ⟨i, ⟨l, t, l', e1, e2, e3⟩, hi⟩ := ih fun b hb => hp b (List.mem_cons_of_mem _ hb)
          refine ⟨i, ⟨b :: l, t, l', by rw [List.cons_append, e1]; rfl, ?_, e3⟩, hi⟩
          intro u hu
          rcases List.mem_cons.1 hu with rfl | hu
          · exact he
          · exact e2 u hu
        · exact ⟨j0, ⟨[], b, pre ++ a :: post, rfl, by simp, he.trans h1⟩, h2⟩
    obtain ⟨j, h1, h2⟩ := hfirst
    refine ⟨j, ?_, ⟨h2.sends, h2.null, fun w hw => hload w (h2.loads w hw)⟩⟩
    rw [DumpCollections.union_dump _ _ _ _ _ hs', if_neg (by simp [hv0])]
    exact h1

/-! ## Entries -/

/-- The entries that are not stripped. -/
def kept (S : Style) (qs : List (PyStr × Val)) : List (PyStr × Val) :=
  qs.filter fun q => !(S.nulls && q.2 == .none)

/-- The entries under their new names. -/
def renamed (S : Style) (qs : List (PyStr × Val)) : List (PyStr × Val) :=
  qs.map fun q => (S.new q.1, q.2)

theorem mem_kept {qs : List (PyStr × Val)} {q : PyStr × Val} :
    q ∈ kept S qs ↔ q ∈ qs ∧ ¬ (S.nulls = true ∧ q.2 = .none) := by
  simp only [kept, List.mem_filter]
  cases S.nulls <;> simp

theorem Style.Key.inj {a b : PyStr} (ha : S.Key a) (hb : S.Key b) (h : S.new a = S.new b) : a = b := by
  have := ha.back
  rw [h, hb.back] at this
  simpa using this.symm

theorem kept_nodup {qs : List (PyStr × Val)} (h : (qs.map (·.1)).Nodup) :
    ((kept S qs).map (·.1)).Nodup := h.sublist ((List.filter_sublist).map _)

theorem renamed_nodup {qs : List (PyStr × Val)} (h : (qs.map (·.1)).Nodup)
    (hk : ∀ q ∈ qs, S.Key q.1) : ((renamed S qs).map (·.1)).Nodup := by
  have : (renamed S qs).map (·.1) = (qs.map (·.1)).map S.new := by
    simp [renamed, List.map_map, Function.comp_def]
  rw [this]
  refine List.Nodup.map_on ?_ h
  intro a ha b hb hab
  obtain ⟨q, hq, rfl⟩ := List.mem_map.1 ha
  obtain ⟨p, hp, rfl⟩ := List.mem_map.1 hb
  exact (hk q hq).inj (hk p hp) hab

theorem texts_nodup {qs : List (PyStr × Val)} (h : (qs.map (·.1)).Nodup) :
    ((texts qs).map (·.1)).Nodup := by
  have : (texts qs).map (·.1) = (qs.map (·.1)).map Val.str := by
    simp [texts, List.map_map, Function.comp_def]
  rw [this]
  exact h.map fun a b h => by simpa using h

theorem texts_apart {qs : List (PyStr × Val)} (h : (qs.map (·.1)).Nodup) :
    (texts qs).Pairwise fun a b => pyEq a.1 b.1 = false := by
  unfold texts
  rw [List.pairwise_map]
  refine (List.pairwise_map.1 h).imp ?_
  intro a b hab
  rw [← Bool.not_eq_true]
  intro hpy
  exact hab (by simpa using pyEq_str_iff hpy)

/-- One more entry. -/
theorem addDumped_one {kw : DumpKw} (hkt : kw.keyTransformer = S.fwd) (hsn : kw.stripNulls = S.nulls)
    {qs : List (PyStr × Val)} {s : PyStr} {d : Val} (hk : S.Key s) (hks : ∀ q ∈ qs, S.Key q.1)
    (hnew : s ∉ qs.map (·.1)) :
    addDumped kw (texts (renamed S (kept S qs))) (.str s) d =
      .ok (texts (renamed S (kept S (qs ++ [(s, d)])))) := by
  have htk : transformKey S.fwd (.str s) = .ok (.str (S.new s)) :=
    transformKey_rename (k := .str s) hk.renames
  unfold addDumped
  rw [hkt, hsn, htk]
  unfold kept
  rw [List.filter_append]
  by_cases hn : (S.nulls && d == .none) = true
  · rw [if_pos hn]
    have : [(s, d)].filter (fun q => !(S.nulls && q.2 == .none)) = [] := by
      rw [List.filter_singleton]; simp only [hn]; rfl
    rw [this, List.append_nil]
  · rw [if_neg hn]
    have : [(s, d)].filter (fun q => !(S.nulls && q.2 == .none)) = [(s, d)] := by
      rw [List.filter_singleton]; simp only [hn]; rfl
    rw [this]
    simp only [Except.map, Except.ok.injEq]
    rw [dictSet_new]
    · simp [renamed, texts]
    · intro e he
      simp only [texts, renamed, List.map_map, List.mem_map] at he
      obtain ⟨q, hq, rfl⟩ := he
      rw [← Bool.not_eq_true]
      intro hpy
      have := pyEq_str_iff hpy
      simp only [Function.comp, Val.atom.injEq, Atom.str.injEq] at this
      have hq := (List.mem_filter.1 hq).1
      exact hnew (by rw [← (hks q hq).inj hk this]; exact List.mem_map_of_mem hq)

/-- What the way makes of the entries. -/
theorem entries_way (hW : Lawful E fork W) {qs : List (PyStr × Val)} (hn : (qs.map (·.1)).Nodup)
    (hk : ∀ q ∈ qs, S.Key q.1) (hsend : ∀ q ∈ qs, W.Sends q.2) :
    W.Sends (.dict (texts (renamed S qs))) ∧ ∀ w, W.Gets (.dict (texts (renamed S qs))) w →
      ∃ ws, w = .dict (texts (renamed S ws)) ∧
        List.Forall₂ (fun q w => q.1 = w.1 ∧ W.Gets q.2 w.2) qs ws := by
  obtain ⟨h1, h2⟩ := hW.names (texts (renamed S qs)) (by
      intro e he
      obtain ⟨q, _, rfl⟩ := List.mem_map.1 he
      exact ⟨_, rfl⟩) (texts_nodup (renamed_nodup hn hk)) (by
      intro e he
      simp only [texts, renamed, List.map_map, List.mem_map] at he
      obtain ⟨q, hq, rfl⟩ := he
      exact hsend q hq)
  refine ⟨h1, fun w hw => ?_⟩
  obtain ⟨fs, rfl, hfs⟩ := h2 w hw
  clear h1 h2 hn hk hsend hw
  suffices ∃ ws, fs = texts (renamed S ws) ∧
      List.Forall₂ (fun q w => q.1 = w.1 ∧ W.Gets q.2 w.2) qs ws by
    obtain ⟨ws, rfl, h⟩ := this
    exact ⟨ws, rfl, h⟩
  induction qs generalizing fs with
  | nil => cases hfs; exact ⟨[], rfl, .nil⟩
  | cons q qs ih =>
    cases hfs with
    | @cons _ f _ fs h1 h2 =>
      obtain ⟨ws, rfl, h3⟩ := ih _ h2
      refine ⟨(q.1, f.2) :: ws, ?_, .cons ⟨rfl, h1.2⟩ h3⟩
      show f :: _ = (Val.str (S.new q.1), f.2) :: _
      exact congrArg (· :: _) (Prod.ext h1.1.symm rfl)

/-- The names come back. -/
theorem transformed_back {kw : LoadKw} (hk : kw.keyTransformer.getD .ok = S.back)
    {ws : List (PyStr × Val)} (hn : (ws.map (·.1)).Nodup) (hks : ∀ q ∈ ws, S.Key q.1) :
    Transformed E kw (texts (renamed S ws)) (texts ws) := by
  unfold Transformed
  cases hkt : kw.keyTransformer with
  | none =>
    rw [hkt] at hk
    show texts ws = _
    have : renamed S ws = ws := by
      unfold renamed
      conv_rhs => rw [← List.map_id ws]
      refine List.map_congr_left fun q hq => Prod.ext ?_ rfl
      have hb := (hks q hq).back
      rw [← hk] at hb
      simpa using hb
    rw [this]
  | some f =>
    rw [hkt] at hk
    refine ⟨texts ws, ?_, (entries_distinct (texts_apart hn)).symm⟩
    unfold texts renamed
    rw [List.map_map, List.forall₂_map_left_iff, List.forall₂_map_right_iff]
    have : ∀ q ∈ ws, f (.str (S.new q.1)) = .ok (.str q.1) := fun q hq => by
      rw [← (hks q hq).back, ← hk]; rfl
    clear hks hn
    induction ws with
    | nil => exact .nil
    | cons q ws ih =>
      exact .cons ⟨this q List.mem_cons_self, rfl, rfl⟩ (ih fun q hq => this q (List.mem_cons_of_mem _ hq))

/-! ## Dicts -/

theorem dictLoop_styled {Ev : Env} {rec : Rec} {kw : DumpKw} (hk : DumpStyled S fork kw) :
    ∀ (ps js qs : List (PyStr × Val)),
      List.Forall₂ (fun p j => p.1 = j.1 ∧ (rec.dump p.2 none { kw with types := [] }).val = .ok j.2) ps js →
      ((qs ++ ps).map (·.1)).Nodup → (∀ p ∈ qs ++ ps, S.Key p.1) →
      (dictLoop Ev rec kw (texts ps) (texts (renamed S (kept S qs)))).val =
        .ok (texts (renamed S (kept S (qs ++ js)))) := by
  intro ps
  induction ps with
  | nil => intro js qs h _ _; cases h; simp [dictLoop, texts]
  | cons p ps ih =>
    obtain ⟨k, v⟩ := p
    intro js qs h1 h2 h3
    cases h1 with
    | @cons _ f _ js hf hfs =>
    obtain ⟨k', j⟩ := f
    obtain ⟨hkk, hj⟩ := hf
    simp only at hkk hj
    subst hkk
    have hvalid : isValidJsonKey Ev (.str k) = true := by
      simp only [isValidJsonKey, List.any_eq_true]
      exact ⟨.str, by simp, by simp [Cls.sub, Val.cls, Atom.cls]⟩
    have hcls : ∀ acc, (dictLoop Ev rec kw ((.str k, v) :: texts ps) acc) = (do
        let (result, key) ← storeAndHash Ev rec acc (.str k) kw
        let dumped ← rec.dump v none { kw with types := [] }
        let result ← Res.lift (addDumped kw result key dumped)
        dictLoop Ev rec kw (texts ps) result) := by
      intro acc
      simp only [dictLoop, hk.types, assoc]
    have hsplit : (k, v) ∈ qs ++ (k, v) :: ps := by simp
    show (dictLoop Ev rec kw ((.str k, v) :: texts ps) _).val = _
    rw [hcls]
    simp only [storeAndHash, hvalid, if_true, pure_bind']
    rw [Core.bind_ok]
    refine ⟨j, hj, ?_⟩
    rw [Core.bind_ok]
    have hnew : k ∉ qs.map (·.1) := by
      rw [List.map_append, List.nodup_append] at h2
      intro hmem
      exact h2.2.2 k hmem k (by simp) rfl
    refine ⟨_, by rw [addDumped_one hk.keys hk.nulls (h3 _ hsplit)
      (fun q hq => h3 q (List.mem_append_left _ hq)) hnew]; rfl, ?_⟩
    rw [ih js (qs ++ [(k, j)]) hfs (by simpa using h2) ?_]
    · simp
    · intro p hp
      rcases List.mem_append.1 hp with hp | hp
      · rcases List.mem_append.1 hp with hp | hp
        · exact h3 p (List.mem_append_left _ hp)
        · rw [List.mem_singleton] at hp
          subst hp
          exact h3 (k, v) hsplit
      · exact h3 p (List.mem_append_right _ (List.mem_cons_of_mem _ hp))

theorem same_null {v r : Val} (h : Same v r) : v = .none ↔ r = .none := by
  rw [← jkind_null, ← jkind_null, same_kind h]

theorem srt_dict (hW : Lawful E fork W) (hs : DefaultSers E.toEnv fork) (hd : DefaultDesers E fork)
    (hv : NoValidators E fork) {x : Bool} {g : Gen} {a : Ty} {ps : List (PyStr × Val)}
    (hg : g = .dict ∨ g = .mapping) (hn : (ps.map (·.1)).Nodup) (hkey : ∀ p ∈ ps, S.Key p.1)
    (hnull : S.nulls = true → ∀ p ∈ ps, p.2 ≠ .none)
    (h : ∀ p ∈ ps, ∃ N r, Srt E W S fork x a N p.2 r) :
    ∃ N r, Srt E W S fork x (.gen g [.cls .str, a]) N (.dict (texts ps)) r := by
  obtain ⟨N, rs, hrs⟩ := gather (P := fun (e : PyStr × Val) N r => Srt E W S fork x a N e.2 r)
    (fun _ _ _ _ hm hr => hr.mono hm) ps h
  obtain ⟨fs, hfs⟩ := forall₂_key hrs
  have hmap := forall₂_keys (P := fun e f => Srt E W S fork x a N e.2 f.2) hfs
  have htext : ∀ {xs ys : List (PyStr × Val)}, xs.map (·.1) = ys.map (·.1) →
      (texts xs).map (·.1) = (texts ys).map (·.1) := by
    intro xs ys h
    have := congrArg (List.map Val.str) h
    simpa [texts, Function.comp_def] using this
  refine ⟨N + 3, .dict (texts fs), .dict (htext hmap) ?_, ?_, ?_⟩
  · unfold texts
    rw [List.map_map, List.map_map, List.forall₂_map_left_iff, List.forall₂_map_right_iff]
    exact hfs.imp fun _ _ h => h.2.same
  · intro hx
    rw [forall₂_eq hfs]
    intro e f hef
    exact Prod.ext hef.1.symm (hef.2.eq hx)
  intro n hn' kw hkw cls hcls
  obtain ⟨n, rfl⟩ : ∃ m, n = m + 2 := ⟨n - 2, by omega⟩
  obtain ⟨js, h1, h2⟩ := forall₂_split
    (A := fun (e j : PyStr × Val) => e.1 = j.1 ∧ (dump E.toEnv n e.2 none { kw with types := [] }).val = .ok j.2)
    (B := fun (j f : PyStr × Val) => (j.1 = f.1 ∧ SGot E W S fork a N j.2 f.2) ∧
      (S.nulls = true → f.2 ≠ .none)) ((forall₂_mem hfs).imp fun e f hef => by
      obtain ⟨he, hef, hr⟩ := hef
      obtain ⟨j, h1, h2⟩ := hr.dump n (by omega) _ hkw.noTypes none (.inl rfl)
      exact ⟨(e.1, j), ⟨rfl, h1⟩, ⟨hef, h2⟩, fun hS h0 => hnull hS e he ((same_null hr.same).2 h0)⟩)
  have hmapj := forall₂_keys (P := fun e j => (dump E.toEnv n e.2 none { kw with types := [] }).val = .ok j.2) h1
  have hin : ∀ {qs : List (PyStr × Val)}, ps.map (·.1) = qs.map (·.1) → ∀ q ∈ qs, S.Key q.1 := by
    intro qs hqs q hq
    have : q.1 ∈ ps.map (·.1) := by rw [hqs]; exact List.mem_map_of_mem hq
    obtain ⟨e, he, h⟩ := List.mem_map.1 this
    rw [← h]; exact hkey e he
  have hkept : kept S js = js := by
    unfold kept
    rw [List.filter_eq_self]
    intro j hj
    obtain ⟨f, _, ⟨_, hg⟩, h0⟩ := forall₂_left_ex h2 j hj
    cases hS : S.nulls with
    | false => rfl
    | true =>
      have : j.2 ≠ .none := fun h => h0 hS (hg.null.1 h)
      simp [this]
  obtain ⟨hsend, hgets⟩ := entries_way (S := S) hW (qs := js) (by rw [← hmapj]; exact hn) (hin hmapj)
    (forall₂_left h2 fun _ _ h => h.1.2.sends)
  refine ⟨.dict (texts (renamed S js)), ?_, hsend, by simp, fun w hw => ?_⟩
  · rw [dump_via (f := .dict) (by rw [hkw.fork]; exact hs) (by
      rcases hcls with rfl | rfl
      · rfl
      · rcases hg with rfl | rfl <;> rfl)]
    show (dictSer _ _ _ _).val = _
    simp only [dictSer]
    rw [Core.bind_ok]
    refine ⟨texts (renamed S js), ?_, rfl⟩
    have := dictLoop_styled (S := S) (fork := fork) (Ev := E.toEnv) (rec := recOf E.toEnv n) hkw ps js [] h1
      (by simpa using hn) (by simpa using hkey)
    rw [List.nil_append, hkept] at this
    exact this
  · obtain ⟨ws, rfl, hws⟩ := hgets w hw
    have hmapw := forall₂_keys (P := fun e f => W.Gets e.2 f.2) hws
    have h3 : List.Forall₂ (fun w f => (w.1 = f.1 ∧ S.Key w.1) ∧ SLoads E S fork a N w.2 f.2) ws fs :=
      forall₂_comp hws (forall₂_mem h2) fun j w f ⟨hk1, hk2⟩ ⟨hj, ⟨he, h⟩, _⟩ =>
        ⟨⟨by rw [← he, hk1], by rw [← hk1]; exact hin hmapj j hj⟩, h.loads _ hk2⟩
    have hkw : ∀ q ∈ ws, S.Key q.1 := hin (hmapj.trans hmapw)
    have hmem : ∀ e ∈ texts (renamed S ws), ∃ w ∈ ws, e = (.str (S.new w.1), w.2) := by
      intro e he
      simp only [texts, renamed, List.map_map, List.mem_map] at he
      obtain ⟨q, hq, rfl⟩ := he
      exact ⟨q, hq, rfl⟩
    have hmeta : dictGet (texts (renamed S ws)) (.str metaKey) = none := dictGet_absent fun e he => by
      obtain ⟨q, hq, rfl⟩ := hmem e he
      intro h
      exact (hkw q hq).noMeta (by simpa using h)
    have hkk : dictGet (texts (renamed S ws)) (.str keysKey) = none := dictGet_absent fun e he => by
      obtain ⟨q, hq, rfl⟩ := hmem e he
      intro h
      exact (hkw q hq).noKeys (by simpa using h)
    refine ⟨(by intro es' h; cases h; exact hmeta), (by simp [Val.cls, validTypes]),
      ⟨rfl, (fun _ h => by cases h), fun _ _ h => by cases h⟩, ?_⟩
    intro m hm kw' hk'
    obtain ⟨m, rfl⟩ : ∃ i, m = i + 1 := ⟨m - 1, by omega⟩
    rw [dict_load_partial E m g _ _ (.cls .str) a kw' hg (by rw [hk'.fork]; exact hd)
      (by rw [hk'.fork]; exact hv) hmeta hkk (by
        intro e he
        obtain ⟨q, hq, rfl⟩ := hmem e he
        obtain ⟨f, _, _, h⟩ := forall₂_left_ex h3 q hq
        exact h.noMeta) (by
        intro e he k' hk''
        obtain ⟨q, hq, rfl⟩ := hmem e he
        rw [hk'.keys, (hkw q hq).back] at hk''
        cases hk''
        exact noMeta_of_not_dict (by intro h'; cases h'))]
    refine ⟨texts fs, ?_, ?_, fun _ => rfl⟩
    · unfold texts renamed
      rw [List.map_map, List.forall₂_map_left_iff, List.forall₂_map_right_iff]
      refine h3.imp fun w f ⟨⟨he, hk1⟩, hl⟩ => ⟨⟨.str w.1, ?_, ?_⟩, hl.load m (by omega) _ hk'.idKeys, rfl⟩
      · rw [hk'.keys]; exact hk1.back
      · rw [he]
        exact prim_load (v := .str f.1) hd hv (by simp [Val.cls, Atom.cls]) (by omega) hk'.fork
    · rw [entries_distinct (texts_apart (by rw [← hmap]; exact hn))]

theorem srt_ddict (hW : Lawful E fork W) (hs : DefaultSers E.toEnv fork) (hd : DefaultDesers E fork)
    (hv : NoValidators E fork) {x : Bool} {k : Cls} {a : Ty} {es : List (Val × Val)} {N : Nat} {r : Val}
    (h : Srt E W S fork x (.gen .dict [.cls k, a]) N (.dict es) r) :
    ∃ r, Srt E W S fork x (.gen .defaultdict [.cls k, a]) (N + 3) (.ddict (some a) es) r := by
  obtain ⟨fs, rfl, hsame, heq⟩ : ∃ fs, r = .dict fs ∧ Same (.ddict (some a) es) (.ddict (some a) fs) ∧
      (x = true → fs = es) := by
    have h1 := h.same
    have h2 := h.eq
    cases h1 with
    | refl => exact ⟨es, rfl, .refl _, fun _ => rfl⟩
    | dict h3 h4 => exact ⟨_, rfl, .ddict h3 h4, fun hx => by simpa using h2 hx⟩
  refine ⟨.ddict (some a) fs, hsame, fun hx => by rw [heq hx], ?_⟩
  intro n hn kw hkw cls hcls
  have hs' : DefaultSers E.toEnv kw.fork := by rw [hkw.fork]; exact hs
  obtain ⟨j, h1, h2⟩ := h.dump n (by omega) kw hkw none (.inl rfl)
  obtain ⟨n, rfl⟩ : ∃ m, n = m + 2 := ⟨n - 2, by omega⟩
  rw [dump_via (v := .dict es) (cls := none) (f := .dict) hs' rfl] at h1
  have hjd : ∃ js, j = .dict js := by
    replace h1 : (dictSer E.toEnv (recOf E.toEnv n) (.dict es) kw).val = .ok j := h1
    unfold dictSer at h1
    rw [Core.bind_ok] at h1
    obtain ⟨js, _, h1⟩ := h1
    cases h1
    exact ⟨js, rfl⟩
  obtain ⟨js, rfl⟩ := hjd
  refine ⟨.dict js, ?_, h2.sends, by simp, fun w hw => ?_⟩
  · rw [dump_via (v := .ddict (some a) es) (f := .dict) hs' (by rcases hcls with rfl | rfl <;> rfl)]
    exact h1
  · obtain ⟨ws, rfl⟩ := hW.isDict js w hw
    have h2 := h2.loads _ hw
    refine ⟨h2.noMeta, h2.valid, ⟨rfl, (fun _ h => by cases h), fun _ _ h => by cases h⟩, ?_⟩
    intro m hm kw' hk'
    obtain ⟨m, rfl⟩ : ∃ i, m = i + 1 := ⟨m - 1, by omega⟩
    rw [(load_via (n := m) (v := .dict ws) (t := .gen .defaultdict [.cls k, a]) (kw := kw')
      (f := .defaultdict) (m := none) (by intro h; cases h) gen_not_skip h2.valid
      (noMeta_get h2.noMeta _) (.inr rfl)
      (by rw [hk'.fork]; exact hd) rfl (by rw [hk'.fork]; exact hv _)).1, wrapRes_ok]
    show (defaultdictDes _ _ _ _).val = _
    unfold defaultdictDes
    simp only [Ty.getArgs, pure_bind']
    rw [Core.bind_ok]
    refine ⟨.dict fs, ?_, rfl⟩
    rw [load_part h2.noMeta]
    exact h2.load m (by omega) kw' hk'

/-! ## Named tuples -/

/-- Keys that the transformer leaves as they are. -/
theorem transformKeys_fixed {C : Nat → ClassInfo} {F : Val → Except Err Val} : ∀ (fs es acc : List (Val × Val)),
    (∀ e ∈ fs, F e.1 = .ok e.1) → transformKeys C .ok acc fs = .ok es → transformKeys C F acc fs = .ok es := by
  intro fs
  induction fs with
  | nil => intro es acc _ h; exact h
  | cons e fs ih =>
    obtain ⟨k, v⟩ := e
    intro es acc h1 h2
    have := h1 (k, v) List.mem_cons_self
    simp only at this
    simp only [transformKeys, this] at h2 ⊢
    change (if Val.hashable C k = true then _ else _) = _ at h2
    change (if Val.hashable C k = true then _ else _) = _
    split at h2
    · next h => rw [if_pos h]; exact ih _ _ (fun e he => h1 e (List.mem_cons_of_mem _ he)) h2
    · cases h2

theorem styled_none {x : Bool} {v : Val} {t : Ty} (h : Styled E W S x v t) :
    t ≠ .any ∧ t ≠ .cls .object ∧ (t = .cls .noneType → v = .none) := by
  cases h with
  | atom h => exact hasTy_none h
  | enum h => exact hasTy_none h
  | _ => simp

theorem srt_ntuple (hW : Lawful E fork W) (hs : DefaultSers E.toEnv fork) (hd : DefaultDesers E fork)
    (hv : NoValidators E fork) {x : Bool} {c : Nat} {xs : List Val} (hc : Hinted E c)
    (hlen : xs.length = (E.info c).fields.length)
    (hback : ∀ f ∈ (E.info c).fields, S.back (.str f) = .ok (.str f))
    (hnone : ∀ p ∈ (E.info c).fields.zip xs, ∀ t, assoc (E.info c).hints p.1 = some t →
      p.2 = .none → .cls .noneType ∈ t.getArgs)
    (h : ∀ p ∈ (E.info c).fields.zip xs, ∀ t, assoc (E.info c).hints p.1 = some t →
      ∃ N r, Srt E W S fork x t N p.2 r) :
    ∃ N r, Srt E W S fork x (.cls (.user c)) N (.ntuple c xs) r := by
  obtain ⟨N, rs, hrs⟩ := gather
    (P := fun (p : PyStr × Val) N r => ∃ t, assoc (E.info c).hints p.1 = some t ∧
      (p.2 = .none → .cls .noneType ∈ t.getArgs) ∧ Srt E W S fork x t N p.2 r)
    (fun _ _ _ _ hm ⟨t, h1, h3, hr⟩ => ⟨t, h1, h3, hr.mono hm⟩) ((E.info c).fields.zip xs) (by
      intro p hp
      obtain ⟨t, ht⟩ := hc.hints p.1 (List.of_mem_zip hp).1
      obtain ⟨N, r, hr⟩ := h p hp t ht
      exact ⟨N, r, t, ht, hnone p hp t ht, hr⟩)
  refine ⟨N + 3, .ntuple c rs, .ntuple (forall₂_zip_snd hlen (hrs.imp fun p r ⟨_, _, _, hr⟩ => hr.same)),
    ?_, ?_⟩
  · intro hx
    rw [forall₂_eq (forall₂_zip_snd (R := fun v r => r = v) hlen
      (hrs.imp fun p r ⟨_, _, _, hr⟩ => hr.eq hx)) (fun _ _ h => h)]
  intro n hn kw hkw cls hcls
  have hs' : DefaultSers E.toEnv kw.fork := by rw [hkw.fork]; exact hs
  obtain ⟨n, rfl⟩ : ∃ m, n = m + 2 := ⟨n - 2, by omega⟩
  obtain ⟨qs, h1, h2⟩ := forall₂_split
    (A := fun (p q : PyStr × Val) => p.1 = q.1 ∧ (dump E.toEnv n p.2 none kw).val = .ok q.2)
    (B := fun (q : PyStr × Val) r => ∃ t, assoc (E.info c).hints q.1 = some t ∧
      (r = .none → .cls .noneType ∈ t.getArgs) ∧ SGot E W S fork t N q.2 r)
    (hrs.imp fun p r ⟨t, ht, hpn, hr⟩ => by
      obtain ⟨j, h1, h2⟩ := hr.dump n (by omega) kw hkw none (.inl rfl)
      exact ⟨(p.1, j), ⟨rfl, h1⟩, t, ht, fun h => hpn ((same_null hr.same).2 h), h2⟩)
  have hq : qs.map (·.1) = (E.info c).fields := by
    have h3 := forall₂_keys (P := fun p q => (dump E.toEnv n p.2 none kw).val = .ok q.2) h1
    rw [← h3, List.map_fst_zip (by omega)]
  obtain ⟨hsend, hgets⟩ := hW.names (qs.map fun q => (.str q.1, q.2)) (by
      intro e he
      obtain ⟨q, _, rfl⟩ := List.mem_map.1 he
      exact ⟨q.1, rfl⟩) (by
      have h4 : ((qs.map (·.1)).map Val.str).Nodup :=
        List.Nodup.map (fun _ _ h => by simpa using h) (by rw [hq]; exact hc.distinct)
      rw [List.map_map] at h4 ⊢
      exact h4) (by
      intro e he
      obtain ⟨q, hq', rfl⟩ := List.mem_map.1 he
      exact forall₂_left h2 (fun q r ⟨_, _, _, h⟩ => h.sends) q hq')
  refine ⟨.dict (qs.map fun q => (.str q.1, q.2)), ?_, hsend, by simp, fun w hw => ?_⟩
  · rw [dump_via (v := .ntuple c xs) (f := .tuple) hs' (by
      rcases hcls with rfl | rfl <;> simp [Ty.serFn, Val.cls, Cls.serFn, hc.kind])]
    show (namedtupleSer (recOf E.toEnv n) (E.info c).fields xs kw).val = _
    unfold namedtupleSer
    rw [Core.bind_ok]
    refine ⟨_, ?_, rfl⟩
    rw [mapRes_ok, List.forall₂_map_right_iff]
    refine h1.imp fun p q hpq => ?_
    rw [Core.bind_ok]
    exact ⟨q.2, hpq.2, by rw [hpq.1]; rfl⟩
  · obtain ⟨fs, rfl, hfs⟩ := hgets w hw
    obtain ⟨ps, rfl, hps⟩ := forall₂_names hfs
    replace hq : ps.map (·.1) = (E.info c).fields := by
      rw [← hq, forall₂_keys (P := fun q p => W.Gets q.2 p.2) hps]
    replace h2 : List.Forall₂ (fun q r => ∃ t, assoc (E.info c).hints q.1 = some t ∧
        (q.2 = .none → .cls .noneType ∈ t.getArgs) ∧ SLoads E S fork t N q.2 r) ps rs :=
      forall₂_comp hps h2 fun q p r ⟨hp1, hp2⟩ ⟨t, ht, hvn, hgot⟩ =>
        ⟨t, by rw [← hp1]; exact ht, fun hj => hvn ((hgot.loads _ hp2).null.1 hj), hgot.loads _ hp2⟩
    have hnodup : (ps.map (·.1)).Nodup := by rw [hq]; exact hc.distinct
    have hmeta : dictGet (ps.map fun q => (Val.str q.1, q.2)) (.str metaKey) = none := by
      refine dictGet_absent fun e he h => hc.names ?_
      obtain ⟨q, hq', rfl⟩ := List.mem_map.1 he
      simp only [Val.atom.injEq, Atom.str.injEq] at h
      rw [← h, ← hq]
      exact List.mem_map_of_mem hq'
    have hnm : NoMeta (.dict (ps.map fun q => (Val.str q.1, q.2))) := by intro es' h; cases h; exact hmeta
    refine ⟨hnm, by simp [Val.cls, validTypes], ⟨rfl, fun _ h => (by cases h), fun _ _ h => (by cases h)⟩, ?_⟩
    intro m hm kw' hk'
    obtain ⟨m, rfl⟩ : ∃ i, m = i + 1 := ⟨m - 1, by omega⟩
    have htfm : ntupleTfm E.info (kw'.keyTransformer.getD .ok) (.dict (ps.map fun q => (Val.str q.1, q.2))) =
        .ok (some (ps.map fun q => (Val.str q.1, q.2))) := by
      show (transformKeys E.info _ [] _).map some = _
      rw [transformKeys_fixed (C := E.info) (F := kw'.keyTransformer.getD .ok) _
        (ps.map fun q => (Val.str q.1, q.2)) [] ?_ ?_]
      · rfl
      · intro e he
        obtain ⟨q, hq', rfl⟩ := List.mem_map.1 he
        rw [hk'.keys]
        exact hback q.1 (by rw [← hq]; exact List.mem_map_of_mem hq')
      · rw [transformKeys_id _ [] ⟨?_, ?_⟩ (by simp)]
        · rfl
        · rw [List.pairwise_map]
          refine (List.pairwise_map.1 hnodup).imp fun {a b} hab => ?_
          rw [← Bool.not_eq_true]
          intro h
          exact hab (by simpa using pyEq_str_iff h)
        · intro e he
          obtain ⟨q, _, rfl⟩ := List.mem_map.1 he
          rfl
    rw [ntuple_step (v := .dict (ps.map fun q => (Val.str q.1, q.2)))
      (xs := (ps.map fun q => (Val.str q.1, q.2)).map (·.1)) (by rw [hk'.fork]; exact hd)
      (by rw [hk'.fork]; exact hv) hc.kind (by simp [Val.cls, validTypes]) hnm rfl htfm, wrapRes_ok,
      Core.bind_ok]
    refine ⟨rs, ?_, rfl⟩
    rw [ntupleLoop_ok]
    refine loopOk_congr (get := fun _ name => subscript (.dict (ps.map fun q => (Val.str q.1, q.2))) name)
      _ _ _ ?_ (loopOk_of ?_ 0)
    · intro j name hj
      have hlt : 0 + j < ((ps.map fun q => (Val.str q.1, q.2)).map (·.1)).length := by
        obtain ⟨hlt, _⟩ := List.getElem?_eq_some_iff.1 hj
        rw [← hq] at hlt
        simpa using hlt
      simp only [ntupleField, hlt, if_true]
    · rw [← hq, List.forall₂_map_left_iff]
      refine (forall₂_mem h2).imp ?_
      rintro q r ⟨hqm, t, ht, hn, hl⟩
      have hf : fieldHint (E.info c) q.1 = some t := by
        unfold fieldHint
        rw [if_pos hc.annotated, ht]
      refine ⟨q.2, ?_, fun h => ⟨t, hf, hn h⟩, ?_⟩
      · simp only [subscript, dictGet_names hnodup hqm]
      · rw [hf]
        refine hl.load m (by omega) _ ⟨hk'.fork, hk'.getters, hk'.keys, ?_, hk'.warn, hk'.enums⟩
        simp [kwOf, hk'.hints]

/-! ## Objects -/

theorem attrLoop_styled {Ev : Env} {n : Nat} {kw : DumpKw} {v : Val} {cn : PyStr}
    (hds : DefaultSers Ev kw.fork) (hst : kw.storeCls = false) (hkt : kw.keyTransformer = S.fwd)
    (hsn : kw.stripNulls = S.nulls) (g : PyStr × Option Ty → Val) :
    ∀ (ps : List (PyStr × Option Ty)) (qs : List (PyStr × Val)),
      (∀ p ∈ ps, AttrDump Ev n v kw p (g p)) → (qs.map (·.1) ++ ps.map (·.1)).Nodup →
      (∀ s ∈ qs.map (·.1) ++ ps.map (·.1), S.Key s) →
      (attrLoop Ev (recOf Ev n) kw false v cn ps (texts (renamed S (kept S qs)))).val =
        .ok (texts (renamed S (kept S (qs ++ ps.map fun p => (p.1, g p))))) := by
  intro ps
  induction ps with
  | nil => intro qs _ _ _; simp [attrLoop]
  | cons p ps ih =>
    intro qs h1 h2 h3
    rw [attrLoop_step hds hst (h1 p List.mem_cons_self)]
    have hadd : addDumped kw (texts (renamed S (kept S qs)))
        (.str (if false = true then lstrip_ p.1 else p.1)) (g p) =
        .ok (texts (renamed S (kept S (qs ++ [(p.1, g p)])))) := by
      refine addDumped_one hkt hsn (h3 _ (by simp)) (fun q hq => h3 _ (by
        exact List.mem_append_left _ (List.mem_map_of_mem hq))) ?_
      intro hmem
      rw [List.nodup_append] at h2
      exact h2.2.2 _ hmem p.1 (by simp) rfl
    rw [hadd]
    show (attrLoop Ev (recOf Ev n) kw false v cn ps _).val = _
    rw [ih _ (fun q hq => h1 q (List.mem_cons_of_mem _ hq)) (by simpa using h2) (by
      intro s hs
      exact h3 s (by simpa using hs))]
    simp

/-- What is dumped for an object. -/
theorem object_styled (E : Env) (n c : Nat) (as : List (PyStr × Val)) (kw : DumpKw)
    (hds : DefaultSers E kw.fork) (hk : (E.info c).kind = .plain)
    (hst : DumpStyled S fork kw)
    (hat : (E.info c).isAttrs = false)
    (hns : ∀ m, assoc (E.info c).members m ≠ some .noSource)
    (hkey : ∀ m, Selected (E.info c) as kw [] m → S.Key m)
    (hall : ∀ m, Selected (E.info c) as kw [] m → ∃ a d, E.getAttr (.obj c as) m = .ok a ∧
      (dump E (n + 1) a (hintOf (E.info c) kw.strict m) (attrKw kw [])).val = .ok d) :
    ∃ qs, (dump E (n + 2) (.obj c as) none kw).val = .ok (.dict (texts (renamed S (kept S qs)))) ∧
      (qs.map (·.1)).Nodup ∧
      ∀ m d, (m, d) ∈ qs ↔ ∃ a, Selected (E.info c) as kw [] m ∧
        E.getAttr (.obj c as) m = .ok a ∧
        (dump E (n + 1) a (hintOf (E.info c) kw.strict m) (attrKw kw [])).val = .ok d := by
  obtain ⟨ps, hps, hsorted, hmem⟩ := selected_list (as := as) (kw := kw) (l := []) hns
  have hex : ∀ p : PyStr × Option Ty, ∃ d, p ∈ ps → AttrDump E n (.obj c as) (attrKw kw []) p d := by
    intro p
    by_cases hp : p ∈ ps
    · obtain ⟨h1, h2⟩ := (hmem p).1 hp
      obtain ⟨a, d, h3, h4⟩ := hall _ h1
      exact ⟨d, fun _ => ⟨a, h3, by rw [h2]; exact h4⟩⟩
    · exact ⟨.none, fun h => absurd h hp⟩
  obtain ⟨g, hg⟩ := Classical.axiomOfChoice hex
  have hnd := DumpObject.Before.nodup hsorted
  have hloop := attrLoop_styled (S := S) (Ev := E) (n := n) (v := .obj c as)
    (cn := E.className false (.cls (.user c))) (kw := attrKw kw []) hds rfl hst.keys hst.nulls g ps []
    (fun p hp => hg p hp) (by simpa using hnd) (by
      intro s hs
      rw [List.map_nil, List.nil_append] at hs
      obtain ⟨p, hp, rfl⟩ := List.mem_map.1 hs
      exact hkey _ ((hmem p).1 hp).1)
  refine ⟨ps.map fun p => (p.1, g p), (object_eq hds hk hst.verbose hst.attrs hps).2
    ⟨_, by rw [hat]; exact hloop, rfl⟩, ?_, ?_⟩
  · rw [List.map_map]
    exact hnd
  · intro m d
    rw [List.mem_map]
    constructor
    · rintro ⟨p, hp, he⟩
      cases he
      obtain ⟨h1, h2⟩ := (hmem p).1 hp
      obtain ⟨a, h3, h4⟩ := hg p hp
      exact ⟨a, h1, h3, by rw [← h2]; exact h4⟩
    · rintro ⟨a, h1, h2, h3⟩
      refine ⟨(m, hintOf (E.info c) kw.strict m), (hmem _).2 ⟨h1, rfl⟩, ?_⟩
      obtain ⟨a', h4, h5⟩ := hg _ ((hmem (m, hintOf (E.info c) kw.strict m)).2 ⟨h1, rfl⟩)
      simp only at h4 h5
      rw [h2] at h4
      cases h4
      rw [h3] at h5
      cases h5
      rfl

theorem mem_of_names {as bs : List (PyStr × Val)} (h : as.map (·.1) = bs.map (·.1)) {a : PyStr × Val}
    (ha : a ∈ as) : ∃ b ∈ bs, b.1 = a.1 := by
  have : a.1 ∈ bs.map (·.1) := by rw [← h]; exact List.mem_map_of_mem ha
  obtain ⟨b, hb, h⟩ := List.mem_map.1 this
  exact ⟨b, hb, h⟩

theorem srt_obj (hW : Lawful E fork W) (hs : DefaultSers E.toEnv fork) (hd : DefaultDesers E fork)
    (hv : NoValidators E fork) {x : Bool} {c : Nat} {as : List (PyStr × Val)} (hst : Storing E c)
    (hnames : as.map (·.1) = (E.info c).params.map (·.name))
    (hkey : ∀ p ∈ (E.info c).params, S.Key p.name)
    (hnull : S.nulls = true → ∀ p ∈ (E.info c).params, (p.name, .none) ∈ as → TakesNone (E.info c) p)
    (h : ∀ a ∈ as, ∀ t, assoc (E.info c).initHints a.1 = some t → ∃ N r, Srt E W S fork x t N a.2 r) :
    ∃ N r, Srt E W S fork x (.cls (.user c)) N (.obj c as) r := by
  have hparam : ∀ {bs : List (PyStr × Val)}, bs.map (·.1) = (E.info c).params.map (·.name) →
      ∀ b ∈ bs, ∃ p ∈ (E.info c).params, b.1 = p.name := by
    intro bs hb b hmem
    have : b.1 ∈ (E.info c).params.map (·.name) := by rw [← hb]; exact List.mem_map_of_mem hmem
    obtain ⟨p, hp, h⟩ := List.mem_map.1 this
    exact ⟨p, hp, h.symm⟩
  have hex : ∀ a ∈ as, ∃ N r, ∀ t, assoc (E.info c).initHints a.1 = some t → Srt E W S fork x t N a.2 r := by
    intro a ha
    obtain ⟨p, hp, hpn⟩ := hparam hnames a ha
    obtain ⟨t, ht, _⟩ := hst.hints p hp
    rw [← hpn] at ht
    obtain ⟨N, r, hr⟩ := h a ha t ht
    refine ⟨N, r, fun t' ht' => ?_⟩
    rw [ht] at ht'; cases ht'
    exact hr
  obtain ⟨N, rs, hrs⟩ := gather
    (P := fun (a : PyStr × Val) N r => ∀ t, assoc (E.info c).initHints a.1 = some t → Srt E W S fork x t N a.2 r)
    (fun _ _ _ _ hm hr t ht => (hr t ht).mono hm) as hex
  obtain ⟨bs, hbs⟩ := forall₂_key hrs
  replace hbs : List.Forall₂ (fun a b => a.1 = b.1 ∧ ∃ t, assoc (E.info c).initHints a.1 = some t ∧
      (∀ t', assoc (E.info c).hints a.1 = some t' → t' = t) ∧ Srt E W S fork x t N a.2 b.2) as bs := by
    refine (forall₂_mem hbs).imp ?_
    rintro a b ⟨ha, hab, hr⟩
    obtain ⟨p, hp, hpn⟩ := hparam hnames a ha
    obtain ⟨t, ht, ht'⟩ := hst.hints p hp
    rw [← hpn] at ht ht'
    exact ⟨hab, t, ht, ht', hr t ht⟩
  have hmap := forall₂_keys (P := fun a b => ∃ t, assoc (E.info c).initHints a.1 = some t ∧
      (∀ t', assoc (E.info c).hints a.1 = some t' → t' = t) ∧ Srt E W S fork x t N a.2 b.2) hbs
  have hbnames : bs.map (·.1) = (E.info c).params.map (·.name) := by rw [← hmap, hnames]
  refine ⟨N + 3, .obj c bs, .obj hmap ?_, ?_, ?_⟩
  · rw [List.forall₂_map_left_iff, List.forall₂_map_right_iff]
    exact hbs.imp fun _ _ ⟨_, _, _, _, h⟩ => h.same
  · intro hx
    rw [forall₂_eq hbs]
    rintro a b ⟨hab, t, _, _, hr⟩
    exact Prod.ext hab.symm (hr.eq hx)
  intro n hn kw hk cls hcls
  obtain ⟨n, rfl⟩ : ∃ m, n = m + 2 := ⟨n - 2, by omega⟩
  have hs' : DefaultSers E.toEnv kw.fork := by rw [hk.fork]; exact hs
  have hhint : ∀ m t, assoc (E.info c).initHints m = some t →
      (∀ t', assoc (E.info c).hints m = some t' → t' = t) →
      hintOf (E.info c) kw.strict m = none ∨ hintOf (E.info c) kw.strict m = some t := by
    intro m t h1 h2
    unfold hintOf
    split
    · exact .inl rfl
    · split
      · cases hh : assoc (E.info c).hints m with
        | none => exact .inl rfl
        | some t' => rw [h2 t' hh]; exact .inr rfl
      · rw [hk.strict]; exact .inl (if_neg (by simp))
  have hdumps : List.Forall₂ (fun a b => a.1 = b.1 ∧ ∃ t j, assoc (E.info c).initHints a.1 = some t ∧
      (dump E.toEnv (n + 1) a.2 (hintOf (E.info c) kw.strict a.1) (attrKw kw [])).val = .ok j ∧
      SGot E W S fork t N j b.2 ∧ (a.2 = .none ↔ b.2 = .none)) as bs := by
    refine hbs.imp ?_
    rintro a b ⟨hab, t, ht, ht', hr⟩
    obtain ⟨j, h1, h2⟩ := hr.dump (n + 1) (by omega) _ hk.attr _ (hhint _ t ht ht')
    exact ⟨hab, t, j, ht, h1, h2, same_null hr.same⟩
  have hget : ∀ a ∈ as, E.getAttr (.obj c as) a.1 = .ok a.2 := fun a ha => hst.toKeeps.getAttr hnames ha
  have hsel := hst.toKeeps.selected hk.privates hk.classVars hnames
  have hattr : ∀ m, Selected (E.info c) as kw [] m → ∃ a ∈ as, a.1 = m := by
    intro m hm
    obtain ⟨p, hp, rfl⟩ := (hsel m).1 hm
    have : p.name ∈ as.map (·.1) := by rw [hnames]; exact List.mem_map_of_mem hp
    obtain ⟨a, ha, h⟩ := List.mem_map.1 this
    exact ⟨a, ha, h⟩
  have hall := forall₂_left (P := fun a => ∃ j,
    (dump E.toEnv (n + 1) a.2 (hintOf (E.info c) kw.strict a.1) (attrKw kw [])).val = .ok j) hdumps
    (by rintro a b ⟨_, t, j, _, h1, _⟩; exact ⟨j, h1⟩)
  obtain ⟨qs, hdump, hnodup, hqs⟩ := object_styled (S := S) (fork := fork) E.toEnv n c as kw hs' hst.kind hk
    hst.noAttrs (by
      intro m hm
      rcases hst.members m _ hm with h | h | ⟨p, hp, rfl⟩
      · cases h
      · cases h
      · rcases hst.own p hp _ hm with h | ⟨v, h⟩ <;> cases h) (by
      intro m hm
      obtain ⟨p, hp, rfl⟩ := (hsel m).1 hm
      exact hkey p hp) (by
      intro m hm
      obtain ⟨a, ha, rfl⟩ := hattr m hm
      obtain ⟨j, hj⟩ := hall a ha
      exact ⟨a.2, j, hget a ha, hj⟩)
  have hqkey : ∀ q ∈ qs, ∃ p ∈ (E.info c).params, q.1 = p.name := by
    rintro ⟨m, d⟩ hq
    obtain ⟨a, hm, _, _⟩ := (hqs m d).1 hq
    exact (hsel m).1 hm
  -- what is dumped for the attributes
  have hent : List.Forall₂ (fun a b => a.1 = b.1 ∧ ∃ t j, assoc (E.info c).initHints a.1 = some t ∧
      (a.1, j) ∈ qs ∧ (∀ j', (a.1, j') ∈ qs → j' = j) ∧
      SGot E W S fork t N j b.2 ∧ (a.2 = .none ↔ b.2 = .none)) as bs := by
    refine (forall₂_mem hdumps).imp ?_
    rintro a b ⟨ha, hab, t, j, ht, h1, h2⟩
    obtain ⟨p, hp, hpn⟩ := hparam hnames a ha
    refine ⟨hab, t, j, ht, (hqs _ _).2 ⟨a.2, (hsel _).2 ⟨p, hp, hpn⟩, hget a ha, h1⟩, ?_, h2⟩
    intro j' hj'
    obtain ⟨w, _, hw, h3⟩ := (hqs _ _).1 hj'
    rw [hget a ha] at hw
    cases hw
    rw [h1] at h3
    exact (Except.ok.inj h3).symm
  have hparts : ∀ q ∈ qs, ∃ t r, SGot E W S fork t N q.2 r := by
    rintro ⟨m, d⟩ hq
    obtain ⟨w, hm, _, _⟩ := (hqs m d).1 hq
    obtain ⟨a, ha, rfl⟩ := hattr m hm
    obtain ⟨b, _, _, t, j, _, h1, h2, hg, _⟩ := forall₂_left_ex hent a ha
    rw [h2 d hq]
    exact ⟨t, b.2, hg⟩
  have hkk : ∀ q ∈ kept S qs, S.Key q.1 := fun q hq => by
    obtain ⟨p, hp, h⟩ := hqkey q (mem_kept.1 hq).1
    rw [h]; exact hkey p hp
  obtain ⟨hsend, hrecv⟩ := entries_way hW (kept_nodup hnodup) hkk (fun q hq => by
    obtain ⟨t, r, h⟩ := hparts q (mem_kept.1 hq).1
    exact h.sends)
  refine ⟨.dict (texts (renamed S (kept S qs))), ?_, hsend, by simp, fun w hw => ?_⟩
  · rcases hcls with rfl | rfl
    · exact hdump
    · have hobj : (Ty.cls (.user c)).serFn E.info = some .object := by
        simp only [Ty.serFn, Cls.serFn, hst.kind]
      rw [dump_via (v := .obj c as) (cls := none) (f := .object) hs' hobj] at hdump
      rw [dump_via (v := .obj c as) (cls := some (.cls (.user c))) (f := .object) hs' hobj]
      show (objectSer _ _ _ _ _).val = _
      have : objectSer E.toEnv (recOf E.toEnv n) (.obj c as) (some (.cls (.user c))) kw =
          objectSer E.toEnv (recOf E.toEnv n) (.obj c as) none kw := by
        unfold objectSer
        simp only [hk.strict, Bool.false_eq_true, if_false]
      rw [this]
      exact hdump
  obtain ⟨ws, rfl, hws⟩ := hrecv w hw
  have hmapw := forall₂_keys (P := fun e f => W.Gets e.2 f.2) hws
  have hwn : (ws.map (·.1)).Nodup := by rw [← hmapw]; exact kept_nodup hnodup
  have hwk : ∀ q ∈ ws, (∃ p ∈ (E.info c).params, q.1 = p.name) ∧ S.Key q.1 ∧ NoMeta q.2 := by
    intro q hq
    obtain ⟨e, he, h1, h2⟩ := forall₂_right hws q hq
    obtain ⟨t, r, hg⟩ := hparts e (mem_kept.1 he).1
    rw [← h1]
    exact ⟨hqkey e (mem_kept.1 he).1, hkk e he, (hg.loads _ h2).noMeta⟩
  have hmem : ∀ e ∈ texts (renamed S ws), ∃ w ∈ ws, e = (.str (S.new w.1), w.2) := by
    intro e he
    simp only [texts, renamed, List.map_map, List.mem_map] at he
    obtain ⟨q, hq, rfl⟩ := he
    exact ⟨q, hq, rfl⟩
  have hmeta : dictGet (texts (renamed S ws)) (.str metaKey) = none := dictGet_absent fun e he => by
    obtain ⟨q, hq, rfl⟩ := hmem e he
    intro h
    exact (hwk q hq).2.1.noMeta (by simpa using h)
  refine ⟨(by intro es' h; cases h; exact hmeta), (by simp [Val.cls, validTypes]),
    ⟨rfl, (fun _ h => by cases h), ?_⟩, ?_⟩
  · intro c' as' h
    cases h
    refine ⟨_, rfl, fun e he s hs' => ?_⟩
    obtain ⟨q, hq, rfl⟩ := hmem e he
    obtain ⟨⟨p, hp, hqp⟩, hkey, _⟩ := hwk q hq
    have : q.1 = s := by
      have := hkey.back.symm.trans hs'
      simpa using this
    rw [hbnames, ← this, hqp]
    exact List.mem_map_of_mem hp
  intro m hm kw' hk'
  obtain ⟨m, rfl⟩ : ∃ i, m = i + 1 := ⟨m - 1, by omega⟩
  have hknown : ∀ e ∈ texts ws, Known (E.info c) e.1 := by
    intro e he
    obtain ⟨q, hq, rfl⟩ := List.mem_map.1 he
    obtain ⟨p, hp, h⟩ := (hwk q hq).1
    exact .inr ⟨p, hp, by rw [h]⟩
  rw [object_load_plain E m c _ _ kw' (by rw [hk'.fork]; exact hd) (by rw [hk'.fork]; exact hv _)
    hst.kind ⟨hmeta, (by
      intro e he
      obtain ⟨q, hq, rfl⟩ := hmem e he
      exact (hwk q hq).2.2), hk'.hints⟩]
  refine ⟨texts ws, bs, bs, bs, bs, transformed_back hk'.keys hwn fun q hq => (hwk q hq).2.1, ?_,
    fun _ => hknown, hst.stores bs hbnames, attrsSet_known _ hknown, ?_, rfl⟩
  · rw [hk'.getters]
    refine argsOf_all _ _ hbnames ?_
    intro p hp b hb hbp
    obtain ⟨a, ha, hab, t, j, ht, hj, huniq, hg, hab0⟩ := forall₂_right hent b hb
    have hap : a.1 = p.name := hab.trans hbp
    rw [hap] at ht hj huniq
    by_cases hkeep : S.nulls = true ∧ j = .none
    · have habs : dictGet (texts ws) (.str p.name) = none := dictGet_absent fun e he => by
        obtain ⟨q, hq, rfl⟩ := List.mem_map.1 he
        obtain ⟨e, he, h1, h2⟩ := forall₂_right hws q hq
        intro hqe
        simp only [Val.atom.injEq, Atom.str.injEq] at hqe
        obtain ⟨he1, he2⟩ := mem_kept.1 he
        rw [hqe] at h1
        have : e.2 = j := huniq e.2 (by rw [← h1]; exact he1)
        exact he2 ⟨hkeep.1, by rw [this]; exact hkeep.2⟩
      have hb0 : b.2 = .none := hg.null.1 hkeep.2
      have ha0 : (p.name, Val.none) ∈ as := by
        rw [← hap, ← hab0.2 hb0]; exact ha
      rw [hb0]
      rcases hnull hkeep.1 p hp ha0 with h | ⟨h1, h2, h3⟩
      · exact .default habs rfl h
      · exact .omitted habs rfl h1 h2 h3
    · obtain ⟨q, hq, h1, h2⟩ := forall₂_left_ex hws (p.name, j) (mem_kept.2 ⟨hj, hkeep⟩)
      have hgq : dictGet (texts ws) (.str p.name) = some q.2 := by
        have := dictGet_names hwn hq
        rw [← h1] at this
        exact this
      refine .given hgq ?_
      rw [ht]
      exact (hg.loads _ h2).load m (by omega) _ hk'.part
  · rw [hk'.getters]; exact .nil

/-! ## The theorems -/

theorem srt_all (hW : Lawful E fork W) (hs : DefaultSers E.toEnv fork) (hd : DefaultDesers E fork)
    (hv : NoValidators E fork) {S : Style} {x : Bool} {v : Val} {t : Ty} (h : Styled E W S x v t) :
    ∃ N r, Srt E W S fork x t N v r := by
  induction h with
  | atom h => exact srt_simple hW hs hd hv h (.inl ⟨_, rfl⟩)
  | enum h => exact srt_simple hW hs hd hv h (.inr ⟨_, _, rfl⟩)
  | list _ ih => exact srt_list hW hs hd hv ih
  | deque _ ih => exact srt_deque hW hs hd hv ih
  | set _ h1 h2 ih => exact srt_sets hW hs hd hv (.inl ⟨rfl, rfl⟩) ih h1 h2
  | frozenset _ h1 h2 ih => exact srt_sets hW hs hd hv (.inr ⟨rfl, rfl⟩) ih h1 h2
  | tuple h _ ih => exact srt_tuple hW hs hd hv h ih
  | tupleEll _ ih => exact srt_tupleEll hW hs hd hv ih
  | dict h1 h2 h3 h4 _ ih => exact srt_dict hW hs hd hv h1 h2 h3 h4 ih
  | unionNone h => exact ⟨_, _, srt_unionNone hW hs hd hv h⟩
  | ddict _ ih =>
    obtain ⟨N, r, hr⟩ := ih
    obtain ⟨r', hr'⟩ := srt_ddict hW hs hd hv hr
    exact ⟨_, r', hr'⟩
  | ntuple h1 h2 h3 h4 _ ih => exact srt_ntuple hW hs hd hv h1 h2 h3 h4 ih
  | union h1 h2 _ ih =>
    obtain ⟨N, r, hr⟩ := ih
    exact ⟨_, _, srt_union hs hd hv h1 h2 hr⟩
  | obj h1 h2 h3 h4 _ ih => exact srt_obj hW hs hd hv h1 h2 h3 h4 ih

/-- C99 for the values and types of `Styled`: `dump` with `strip_nulls` or without, and with a
key transformer or without, and then `load` with a key transformer that undoes it, gives the
value again; up to the time zones of datetimes (of which the offset is kept), with `cls=T` for
`dump` or without.
What is missing: what is missing for C33 (`round_trip_partial`), and keys of dicts that are no texts. -/
theorem styled_round_trip_partial (E : LEnv) (S : Style) (fork : Nat) (v : Val) (t : Ty) (x : Bool)
    (hs : DefaultSers E.toEnv fork) (hd : DefaultDesers E fork) (hv : NoValidators E fork)
    (h : Styled E direct S x v t) :
    ∃ N r, Same v r ∧ (x = true → r = v) ∧ ∀ n, N ≤ n → ∀ kw, DumpStyled S fork kw →
      ∀ cls, cls = none ∨ cls = some t →
        ∃ j, (dump E.toEnv n v cls kw).val = .ok j ∧
          ∀ m, N ≤ m → ∀ kw', LoadStyled S fork kw' → (load E m j (some t) kw').val = .ok r := by
  obtain ⟨N, r, hr⟩ := srt_all (direct_lawful hd hv) hs hd hv h
  refine ⟨N, r, hr.same, hr.eq, ?_⟩
  intro n hn kw hk cls hc
  obtain ⟨j, h1, h2⟩ := hr.dump n hn kw hk cls hc
  exact ⟨j, h1, (h2.loads j rfl).load⟩

/-- C99 through a text: `dumps` and `loads`, `dumpb` and `loadb`.  The same is missing. -/
theorem styled_text_round_trip_partial (E : LEnv) (F : FloatText) (hF : FloatGrammar F) (S : Style)
    (fork : Nat) (v : Val) (t : Ty) (x : Bool) (hs : DefaultSers E.toEnv fork)
    (hd : DefaultDesers E fork) (hv : NoValidators E fork)
    (h : Styled E (TextRoundTrip.text E F) S x v t) :
    ∃ N r, Same v r ∧ (x = true → r = v) ∧ ∀ n, N ≤ n → ∀ kw, DumpStyled S fork kw →
      ∀ cls, cls = none ∨ cls = some t →
        ∃ s b, (dumps E.toEnv F n v cls kw).val = .ok s ∧ (dumpb E.toEnv F n v cls kw).val = .ok b ∧
          ∀ m, N ≤ m → ∀ kw', LoadStyled S fork kw' → (loads E F m s (some t) kw').val = .ok r ∧
            (loadb E F m (.bytes b) (some t) kw').val = .ok r := by
  obtain ⟨N, r, hr⟩ := srt_all (TextRoundTrip.text_lawful hF hd hv) hs hd hv h
  refine ⟨N, r, hr.same, hr.eq, ?_⟩
  intro n hn kw hk cls hc
  obtain ⟨j, h1, ⟨s, hsend⟩, _, h2⟩ := hr.dump n hn kw hk cls hc
  have hds : (dumps E.toEnv F n v cls kw).val = .ok s := by
    simp only [dumps, Core.bind_ok, liftK_ok]
    exact ⟨j, h1, hsend⟩
  have hdb := ((Functions.dumpb_dumps E.toEnv F n v cls kw).1 s.utf8Encode).mpr ⟨s, hds, rfl⟩
  obtain ⟨j', w, hj, hi, _, hl⟩ := Functions.loads_dumps E F hF n v cls kw s hds
  rw [h1] at hj
  cases hj
  refine ⟨s, _, hds, hdb, fun m hm kw' hk' => ⟨?_, ?_⟩⟩
  · rw [hl]
    exact (h2 w hi).load m hm kw' hk'
  · rw [Functions.loadb_utf8 E F m _ s _ _ rfl, hl]
    exact (h2 w hi).load m hm kw' hk'

/-! ## The styles of jsons -/

/-- A key transformer of jsons as a function on texts. -/
def asKt (k : PyStr → Except ErrKind PyStr) (s : PyStr) : Except Err PyStr :=
  match k s with
  | .ok s => .ok s
  | .error e => .error { kind := e }

/-- `dump(…, key_transformer=k)` and `load(…, key_transformer=KEY_TRANSFORMER_SNAKECASE)`. -/
def snakeBack (nulls : Bool) (k : PyStr → Except ErrKind PyStr) : Style where
  nulls := nulls
  fwd := some (asKt k)
  new := fun s => (k s).toOption.getD []
  back := LoadRename.snake

theorem snakeBack_key {nulls : Bool} {k : PyStr → Except ErrKind PyStr} {s r : PyStr}
    (h1 : k s = .ok r) (h2 : Verif.KeyTransformers.snakecase r = .ok s) (h3 : r ≠ metaKey)
    (h4 : r ≠ keysKey) : (snakeBack nulls k).Key s := by
  have hnew : (snakeBack nulls k).new s = r := by simp [snakeBack, h1, Except.toOption]
  refine ⟨?_, ?_, ?_, ?_⟩
  · show asKt k s = .ok ((snakeBack nulls k).new s)
    rw [hnew]
    simp only [asKt, h1]
  · rw [hnew]
    show LoadRename.tfr _ (.str r) = _
    simp only [LoadRename.tfr, h2]
  · rw [hnew]; exact h3
  · rw [hnew]; exact h4

/-- Names of lower case words with underscores between them come back from camel case. -/
theorem camel_key (nulls : Bool) {ws : List PyStr} (h : KeyTransformers.GoodName ws) :
    (snakeBack nulls Verif.KeyTransformers.camelcase).Key (KeyTransformers.joined ws) := by
  obtain ⟨r, h1, h2⟩ := KeyTransformers.snakecase_camelcase h
  have hd := (KeyTransformers.camelcase_noSep h1).2
  exact snakeBack_key h1 h2 (by rintro rfl; exact hd (by decide)) (by rintro rfl; exact hd (by decide))

/-- They come back from Pascal case. -/
theorem pascal_key (nulls : Bool) {ws : List PyStr} (h : KeyTransformers.GoodName ws) :
    (snakeBack nulls Verif.KeyTransformers.pascalcase).Key (KeyTransformers.joined ws) := by
  obtain ⟨r, h1, h2⟩ := KeyTransformers.snakecase_pascalcase h
  have hd := (KeyTransformers.pascalcase_noSep h1).2
  exact snakeBack_key h1 h2 (by rintro rfl; exact hd (by decide)) (by rintro rfl; exact hd (by decide))

/-- Names in snake case come back from lisp case, except for `_meta` and `_keys`. -/
theorem lisp_key (nulls : Bool) {s : PyStr} (h : Verif.KeyTransformers.snakecase s = .ok s)
    (h1 : s ≠ "_meta".toList) (h2 : s ≠ "_keys".toList) :
    (snakeBack nulls Verif.KeyTransformers.lispcase).Key s := by
  have hne : s ≠ [] := ((KeyTransformers.snakecase_fails_iff s).2).1 ⟨s, h⟩
  obtain ⟨r, hr⟩ := ((KeyTransformers.lispcase_fails_iff s).2).2 hne
  have hb := KeyTransformers.snakecase_lispcase hr
  rw [h] at hb
  refine snakeBack_key hr hb ?_ ?_
  · rintro rfl
    exact h1 (Except.ok.inj (hb.symm.trans (by decide)))
  · rintro rfl
    exact h2 (Except.ok.inj (hb.symm.trans (by decide)))

/-! ## Where it fails -/

/-- `class Staff: def __init__(self, first_name: str, boss_name: Optional[str], room_number: int = 7)` -/
def staffInfo (_ : Nat) : ClassInfo :=
  { attrs := mainAttrs "Staff"
    hints := [("first_name".toList, .cls .str), ("boss_name".toList, .union [.cls .str, .cls .noneType]),
      ("room_number".toList, .union [.cls .int, .cls .noneType])]
    initHints := [("first_name".toList, .cls .str), ("boss_name".toList, .union [.cls .str, .cls .noneType]),
      ("room_number".toList, .union [.cls .int, .cls .noneType])]
    params := [{ name := "first_name".toList }, { name := "boss_name".toList },
      { name := "room_number".toList, default := some (.int 7) }] }

/-- `Staff('A', boss, room)` -/
def staff (boss room : Val) : Val :=
  .obj 0 [("first_name".toList, .str ['A']), ("boss_name".toList, boss), ("room_number".toList, room)]

/-- `key_transformer=KEY_TRANSFORMER_CAMELCASE` for `dump`, and `strip_nulls`. -/
def camelKw (nulls : Bool) : DumpKw :=
  { stripNulls := nulls, keyTransformer := some (asKt Verif.KeyTransformers.camelcase) }

/-- `key_transformer=KEY_TRANSFORMER_SNAKECASE` for `load`. -/
def snakeKw : LoadKw := { keyTransformer := some LoadRename.snake }

/-- C99 fails for objects in tuples: `load` does not rename the keys of an object in a tuple, so
a `List[Staff]` comes back and a `Tuple[Staff]` does not. -/
theorem styled_round_trip_fails_tuple :
    (dump (demoEnv staffInfo) 9 (.tuple [staff (.str ['B']) (.int 1)]) none (camelKw false)).val =
      .ok (.list [.dict [(.str "bossName".toList, .str ['B']), (.str "firstName".toList, .str ['A']),
        (.str "roomNumber".toList, .int 1)]]) ∧
    (load (demoLEnv staffInfo) 9 (.list [.dict [(.str "bossName".toList, .str ['B']),
        (.str "firstName".toList, .str ['A']), (.str "roomNumber".toList, .int 1)]])
      (some (.gen .list [.cls (.user 0)])) snakeKw).val = .ok (.list [staff (.str ['B']) (.int 1)]) ∧
    ∃ e, (load (demoLEnv staffInfo) 9 (.list [.dict [(.str "bossName".toList, .str ['B']),
        (.str "firstName".toList, .str ['A']), (.str "roomNumber".toList, .int 1)]])
      (some (.gen .tuple [.cls (.user 0)])) snakeKw).val = .error e := by
  refine ⟨by decide +kernel, by decide +kernel, ?_⟩
  have h : (match (load (demoLEnv staffInfo) 9 (.list [.dict [(.str "bossName".toList, .str ['B']),
        (.str "firstName".toList, .str ['A']), (.str "roomNumber".toList, .int 1)]])
      (some (.gen .tuple [.cls (.user 0)])) snakeKw).val with
    | .error _ => true
    | .ok _ => false) = true := by decide +kernel
  split at h
  · next e he => exact ⟨e, he⟩
  · cases h

/-- C99 fails for `None` where the default value is something else: with `strip_nulls` the room
that is `None` comes back as 7. -/
theorem styled_round_trip_fails_default :
    (dump (demoEnv staffInfo) 9 (staff .none .none) none (camelKw true)).val =
      .ok (.dict [(.str "firstName".toList, .str ['A'])]) ∧
    (load (demoLEnv staffInfo) 9 (.dict [(.str "firstName".toList, .str ['A'])]) (some (.cls (.user 0)))
      snakeKw).val = .ok (staff .none (.int 7)) := by
  refine ⟨by decide +kernel, by decide +kernel⟩

/-- C99 fails for the key `_meta` in lisp case: its new name is that of the metadata. -/
theorem styled_round_trip_fails_meta :
    (dump (demoEnv demoInfo) 9 (.dict [(.str "_meta".toList, .int 1)]) none
      { keyTransformer := some (asKt Verif.KeyTransformers.lispcase) }).val =
      .ok (.dict [(.str "-meta".toList, .int 1)]) ∧
    ∃ e, (load (demoLEnv demoInfo) 9 (.dict [(.str "-meta".toList, .int 1)])
      (some (.gen .dict [.cls .str, .cls .int])) snakeKw).val = .error e := by
  refine ⟨by decide +kernel, ?_⟩
  have h : (match (load (demoLEnv demoInfo) 9 (.dict [(.str "-meta".toList, .int 1)])
      (some (.gen .dict [.cls .str, .cls .int])) snakeKw).val with
    | .error _ => true
    | .ok _ => false) = true := by decide +kernel
  split at h
  · next e he => exact ⟨e, he⟩
  · cases h

/-- Class 0 is `class Crew: def __init__(self, full_name: str)`, and there are the named tuples
`Desk(desk_number: int, used_by: Union[int, Crew])` and `Sofa(sofaNumber: int)`. -/
def deskInfo (c : Nat) : ClassInfo :=
  match c with
  | 0 =>
    { attrs := mainAttrs "Crew"
      hints := [("full_name".toList, .cls .str)]
      initHints := [("full_name".toList, .cls .str)]
      params := [{ name := "full_name".toList }] }
  | 1 =>
    { attrs := mainAttrs "Crew"
      kind := .ntuple
      hasAnnotations := true
      fields := ["desk_number".toList, "used_by".toList]
      hints := [("desk_number".toList, .cls .int), ("used_by".toList, .union [.cls .int, .cls (.user 0)])] }
  | _ =>
    { attrs := mainAttrs "Crew"
      kind := .ntuple
      hasAnnotations := true
      fields := ["sofaNumber".toList]
      hints := [("sofaNumber".toList, .cls .int)] }

/-- C99 fails for named tuples with fields that the key transformer of `load` renames: `dump` does not
rename the fields of named tuples, so `Sofa(5)` is dumped with its `sofaNumber`, also in camel case; but
`load` looks for `sofaNumber` among renamed keys. -/
theorem styled_round_trip_fails_ntuple :
    (dump (demoEnv deskInfo) 9 (.ntuple 2 [.int 5]) none (camelKw false)).val =
      .ok (.dict [(.str "sofaNumber".toList, .int 5)]) ∧
    (load (demoLEnv deskInfo) 9 (.dict [(.str "sofaNumber".toList, .int 5)]) (some (.cls (.user 2))) {}).val =
      .ok (.ntuple 2 [.int 5]) ∧
    ∃ e, (load (demoLEnv deskInfo) 9 (.dict [(.str "sofaNumber".toList, .int 5)]) (some (.cls (.user 2)))
      snakeKw).val = .error e := by
  refine ⟨by decide +kernel, by decide +kernel, ?_⟩
  have h : (match (load (demoLEnv deskInfo) 9 (.dict [(.str "sofaNumber".toList, .int 5)])
      (some (.cls (.user 2))) snakeKw).val with
    | .error _ => true
    | .ok _ => false) = true := by decide +kernel
  split at h
  · next e he => exact ⟨e, he⟩
  · cases h

/-! ## Examples -/

theorem staff_params {p : Param} {c : Nat} (h : p ∈ ((demoLEnv staffInfo).info c).params) :
    p = { name := "first_name".toList } ∨ p = { name := "boss_name".toList } ∨
      p = { name := "room_number".toList, default := some (.int 7) } := by
  have h' : p ∈ [({ name := "first_name".toList } : Param), { name := "boss_name".toList },
    { name := "room_number".toList, default := some (.int 7) }] := h
  simpa only [List.mem_cons, List.not_mem_nil, or_false] using h'

theorem staff_storing : Storing (demoLEnv staffInfo) 0 where
  kind := rfl
  noAttrs := rfl
  distinct := by decide
  names := by
    intro p hp
    rcases staff_params hp with rfl | rfl | rfl <;> decide
  hints := by
    intro p hp
    rcases staff_params hp with rfl | rfl | rfl <;> exact ⟨_, rfl, by intro t h; cases h; rfl⟩
  members := by intro m k h; cases h
  own := by intro p _ k h; cases h
  stores := fun _ _ => rfl

theorem staff_sers (fork : Nat) : DefaultSers (demoEnv staffInfo) fork :=
  fun t => getLizer_serFn staffInfo
    (by intro c; have h : (staffInfo c).attrs = mainAttrs "Staff" := rfl; rw [h]; decide) t

theorem staff_desers (fork : Nat) : DefaultDesers (demoLEnv staffInfo) fork :=
  fun t => getLizer_desFn staffInfo
    (by intro c; have h : (staffInfo c).attrs = mainAttrs "Staff" := rfl; rw [h]; decide) t

theorem staff_novals (fork : Nat) : NoValidators (demoLEnv staffInfo) fork :=
  fun t => getLizer_empty staffInfo t

/-- The names of the attributes come back. -/
theorem staff_key {p : Param} (h : p ∈ ((demoLEnv staffInfo).info 0).params) :
    (snakeBack true Verif.KeyTransformers.camelcase).Key p.name := by
  rcases staff_params h with rfl | rfl | rfl
  · exact snakeBack_key (r := "firstName".toList) (by decide) (by decide) (by decide) (by decide)
  · exact snakeBack_key (r := "bossName".toList) (by decide) (by decide) (by decide) (by decide)
  · exact snakeBack_key (r := "roomNumber".toList) (by decide) (by decide) (by decide) (by decide)

/-- `Staff('A', None, 1)` can be dumped in camel case without its `None`. -/
theorem staff_styled {W : Way} : Styled (demoLEnv staffInfo) W (snakeBack true Verif.KeyTransformers.camelcase)
    true (staff .none (.int 1)) (.cls (.user 0)) := by
  refine .obj staff_storing rfl (fun p hp => staff_key hp) ?_ ?_
  · intro _ p hp hnone
    rcases staff_params hp with rfl | rfl | rfl
    · simp at hnone
    · refine .inr ⟨rfl, rfl, ?_⟩
      intro t ht
      cases ht
      exact .union (by simp)
    · simp at hnone
  · intro a ha t ht
    simp only [List.mem_cons, List.not_mem_nil, or_false] at ha
    rcases ha with rfl | rfl | rfl
    · cases ht
      exact .atom (.str _)
    · cases ht
      refine .unionNone (pre := [.cls .str]) ?_
      intro a ha
      rw [List.mem_singleton] at ha
      subst ha
      exact ⟨(by intro h; cases h), (by intro h; cases h)⟩
    · cases ht
      exact .first (by simp) (.atom (.int _))

example : ∃ N, ∀ n, N ≤ n → ∃ s,
    (dumps (demoEnv staffInfo) Functions.demoFloat n (staff .none (.int 1)) none (camelKw true)).val = .ok s ∧
    (loads (demoLEnv staffInfo) Functions.demoFloat n s (some (.cls (.user 0))) snakeKw).val
      = .ok (staff .none (.int 1)) := by
  obtain ⟨N, r, _, hr, h⟩ := styled_text_round_trip_partial (demoLEnv staffInfo) Functions.demoFloat
    Functions.demoFloat_grammar _ 0 _ _ true (staff_sers 0) (staff_desers 0) (staff_novals 0) staff_styled
  refine ⟨N, fun n hn => ?_⟩
  obtain ⟨s, b, h1, _, h2⟩ := h n hn (camelKw true)
    ⟨rfl, rfl, rfl, rfl, rfl, rfl, rfl, rfl, rfl, rfl, rfl⟩ none (.inl rfl)
  rw [hr rfl] at h2
  exact ⟨s, h1, (h2 n hn _ ⟨rfl, rfl, rfl, rfl, rfl, by decide⟩).1⟩

/-- The text itself. -/
example : (dumps (demoEnv staffInfo) Functions.demoFloat 9 (staff .none (.int 1)) none (camelKw true)).val
    = .ok "{\"firstName\": \"A\", \"roomNumber\": 1}".toList := by
  decide +kernel

theorem desk_attrs (c : Nat) : (deskInfo c).attrs = mainAttrs "Crew" := by
  match c with
  | 0 => rfl
  | 1 => rfl
  | _ + 2 => rfl

theorem desk_sers (fork : Nat) : DefaultSers (demoEnv deskInfo) fork :=
  fun t => getLizer_serFn deskInfo (by intro c; rw [desk_attrs]; decide) t

theorem desk_desers (fork : Nat) : DefaultDesers (demoLEnv deskInfo) fork :=
  fun t => getLizer_desFn deskInfo (by intro c; rw [desk_attrs]; decide) t

theorem desk_novals (fork : Nat) : NoValidators (demoLEnv deskInfo) fork :=
  fun t => getLizer_empty deskInfo t

theorem crew_params {p : Param} (h : p ∈ ((demoLEnv deskInfo).info 0).params) :
    p = { name := "full_name".toList } := by
  have h' : p ∈ [({ name := "full_name".toList } : Param)] := h
  simpa only [List.mem_cons, List.not_mem_nil, or_false] using h'

theorem crew_storing : Storing (demoLEnv deskInfo) 0 where
  kind := rfl
  noAttrs := rfl
  distinct := by decide
  names := by intro p hp; obtain rfl := crew_params hp; decide
  hints := by intro p hp; obtain rfl := crew_params hp; exact ⟨_, rfl, by intro t h; cases h; rfl⟩
  members := by intro m k h; cases h
  own := by intro p _ k h; cases h
  stores := fun _ _ => rfl

theorem desk_hinted : Hinted (demoLEnv deskInfo) 1 where
  kind := rfl
  annotated := rfl
  distinct := by decide
  names := by decide
  hints := by
    intro f hf
    have hf' : f ∈ ["desk_number".toList, "used_by".toList] := hf
    simp only [List.mem_cons, List.not_mem_nil, or_false] at hf'
    rcases hf' with rfl | rfl <;> exact ⟨_, rfl⟩

/-- `defaultdict(Desk, {'top_floor': Desk(3, Crew('A'))})` -/
def desks : Val := .ddict (some (.cls (.user 1)))
  (texts [("top_floor".toList, .ntuple 1 [.int 3, .obj 0 [("full_name".toList, .str ['A'])]])])

/-- It can be dumped in camel case: the key and the attribute are renamed, the fields of the named tuple
are not. -/
theorem desks_styled {W : Way} : Styled (demoLEnv deskInfo) W (snakeBack true Verif.KeyTransformers.camelcase)
    true desks (.gen .defaultdict [.cls .str, .cls (.user 1)]) := by
  have hcrew : Styled (demoLEnv deskInfo) W (snakeBack true Verif.KeyTransformers.camelcase) true
      (.obj 0 [("full_name".toList, .str ['A'])]) (.cls (.user 0)) := by
    refine .obj crew_storing rfl ?_ ?_ ?_
    · intro p hp
      obtain rfl := crew_params hp
      exact snakeBack_key (r := "fullName".toList) (by decide) (by decide) (by decide) (by decide)
    · intro _ p hp hnone
      simp at hnone
    · intro a ha t ht
      rw [List.mem_singleton] at ha
      subst ha
      cases ht
      exact .atom (.str _)
  have hz : ((demoLEnv deskInfo).info 1).fields.zip [Val.int 3, .obj 0 [("full_name".toList, .str ['A'])]] =
    [("desk_number".toList, .int 3), ("used_by".toList, .obj 0 [("full_name".toList, .str ['A'])])] := rfl
  refine .ddict (.dict (.inl rfl) (by decide) ?_ ?_ ?_)
  · intro p hp
    rw [List.mem_singleton] at hp
    subst hp
    exact snakeBack_key (r := "topFloor".toList) (by decide) (by decide) (by decide) (by decide)
  · intro _ p hp
    rw [List.mem_singleton] at hp
    subst hp
    simp
  · intro p hp
    rw [List.mem_singleton] at hp
    subst hp
    refine .ntuple desk_hinted rfl ?_ ?_ ?_
    · intro f hf
      have hf' : f ∈ ["desk_number".toList, "used_by".toList] := hf
      simp only [List.mem_cons, List.not_mem_nil, or_false] at hf'
      rcases hf' with rfl | rfl <;> rfl
    · intro p hp t ht h
      rw [hz] at hp
      simp only [List.mem_cons, List.not_mem_nil, or_false] at hp
      rcases hp with rfl | rfl <;> cases h
    · intro p hp t ht
      rw [hz] at hp
      simp only [List.mem_cons, List.not_mem_nil, or_false] at hp
      rcases hp with rfl | rfl
      · cases ht
        exact .atom (.int _)
      · cases ht
        refine .union (pre := [.cls .int]) (by simp) ?_ hcrew
        intro b hb
        rw [List.mem_singleton] at hb
        subst hb
        exact .int (.inr (.inr rfl)) rfl rfl

example : ∃ N, ∀ n, N ≤ n → ∃ j,
    (dump (demoEnv deskInfo) n desks none (camelKw true)).val = .ok j ∧
    (load (demoLEnv deskInfo) n j (some (.gen .defaultdict [.cls .str, .cls (.user 1)])) snakeKw).val
      = .ok desks := by
  obtain ⟨N, r, _, hr, h⟩ := styled_round_trip_partial (demoLEnv deskInfo) _ 0 _ _ true (desk_sers 0)
    (desk_desers 0) (desk_novals 0) desks_styled
  refine ⟨N, fun n hn => ?_⟩
  obtain ⟨j, h1, h2⟩ := h n hn (camelKw true)
    ⟨rfl, rfl, rfl, rfl, rfl, rfl, rfl, rfl, rfl, rfl, rfl⟩ none (.inl rfl)
  rw [hr rfl] at h2
  exact ⟨j, h1, h2 n hn _ ⟨rfl, rfl, rfl, rfl, rfl, by decide⟩⟩

/-- The dump itself. -/
example : (dump (demoEnv deskInfo) 9 desks none (camelKw true)).val =
    .ok (.dict [(.str "topFloor".toList, .dict [(.str "desk_number".toList, .int 3),
      (.str "used_by".toList, .dict [(.str "fullName".toList, .str ['A'])])])]) := by
  decide +kernel

end Verif.Props.StyledRoundTrip
