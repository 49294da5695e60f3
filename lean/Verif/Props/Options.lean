import Verif.Core.DumpLemmas
import Verif.Core.LoadLemmas
import Verif.Core.LoadDemo

/-! # The options of a call reach the functions of the program at every depth (C106)

A program can register its own serializers and deserializers.  They get the keyword arguments of
the call of `dump` or `load`, however deep in the value they are called. -/

set_option autoImplicit false

namespace Verif.Props.Options

open Verif Verif.Core

theorem bind_congr_ok {α β : Type} {x : Res α} {h h' : α → Res β} (hh : ∀ a, x.val = .ok a → h a = h' a) :
    (x >>= h) = (x >>= h') := by
  obtain ⟨log, val⟩ := x
  cases val with
  | error e => rfl
  | ok a => show Res.bind _ _ = Res.bind _ _; simp only [Res.bind, hh a rfl]

/-! ## Dump -/

/-- The names that `strip_attr` asks to strip; a set of names is no list of names. -/
def names : StripAttr → Option (List PyStr)
  | .none | .name [] | .set [] => some []
  | .name s => some [s]
  | .tuple l | .list l => some l
  | .set _ | .tupleOfSet => none

/-- The options `k` are those of a call with the options `o`, as far as a program can give them.
`types` is about the entries of one dict, so the serializer of dicts does not pass it on;
`strip_attr` can be given in another form. -/
structure Passed (o k : DumpKw) : Prop where
  strict : k.strict = o.strict
  fork : k.fork = o.fork
  keyTransformer : k.keyTransformer = o.keyTransformer
  stripNulls : k.stripNulls = o.stripNulls
  stripPrivates : k.stripPrivates = o.stripPrivates
  stripProperties : k.stripProperties = o.stripProperties
  stripClassVariables : k.stripClassVariables = o.stripClassVariables
  stripAttr : names k.stripAttr = names o.stripAttr
  verbose : k.verbose = o.verbose
  useEnumName : k.useEnumName = o.useEnumName
  stripMicroseconds : k.stripMicroseconds = o.stripMicroseconds
  types : k.types = o.types ∨ k.types = []

/-- A serializer passes its options on: what it gives depends on calls with its own options only. -/
def PassesOn (E : Env) : Prop :=
  ∀ id rec rec' v cls kw,
    (∀ x c k, Passed kw k → rec'.dump x c k = rec.dump x c k) →
    (∀ f x c k, Passed kw k → rec'.call f x c k = rec.call f x c k) →
    E.customSer id rec' v cls kw = E.customSer id rec v cls kw

section
variable {E : Env} {o : DumpKw} {rec rec' : Rec} {s : Nat → Rec → Val → Option Ty → DumpKw → Res Val}

theorem Passed.refl (o : DumpKw) : Passed o o :=
  ⟨rfl, rfl, rfl, rfl, rfl, rfl, rfl, rfl, rfl, rfl, rfl, .inl rfl⟩

theorem Passed.trans {k l : DumpKw} (h : Passed o k) (g : Passed k l) : Passed o l :=
  ⟨g.strict.trans h.strict, g.fork.trans h.fork, g.keyTransformer.trans h.keyTransformer,
    g.stripNulls.trans h.stripNulls, g.stripPrivates.trans h.stripPrivates,
    g.stripProperties.trans h.stripProperties, g.stripClassVariables.trans h.stripClassVariables,
    g.stripAttr.trans h.stripAttr, g.verbose.trans h.verbose, g.useEnumName.trans h.useEnumName,
    g.stripMicroseconds.trans h.stripMicroseconds, by
      rcases g.types with g | g
      · rw [g]; exact h.types
      · exact .inr g⟩

theorem Passed.storeCls {k : DumpKw} (h : Passed o k) (b : Bool) : Passed o { k with storeCls := b } :=
  { h with }

theorem names_normalize (a : StripAttr) : names (normalizeStripAttr a) = names a := by
  cases a with
  | none => rfl
  | name s => cases s <;> rfl
  | tuple l => cases l <;> rfl
  | list l => cases l <;> rfl
  | set l => cases l <;> rfl
  | tupleOfSet => rfl

/-- Calls with the options `o` have the same outcome. -/
structure Agree (o : DumpKw) (rec rec' : Rec) : Prop where
  dump : ∀ v cls k, Passed o k → rec'.dump v cls k = rec.dump v cls k
  call : ∀ f v cls k, Passed o k → rec'.call f v cls k = rec.call f v cls k

/-- The same surroundings with other serializers of the program. -/
abbrev withSer (E : Env) (s : Nat → Rec → Val → Option Ty → DumpKw → Res Val) : Env := { E with customSer := s }

theorem listSer_eq (hr : Agree o rec rec') (v : Val) (cls : Option Ty) (kw : DumpKw) (hk : Passed o kw) :
    listSer (withSer E s) rec' v cls kw = listSer E rec v cls kw := by
  have ht : ∀ xs t, listSer.typed (withSer E s) rec' kw xs t { kw with storeCls := false } =
      listSer.typed E rec kw xs t { kw with storeCls := false } := by
    intro xs t
    unfold listSer.typed
    refine congrArg _ (funext fun fn => congrArg (· >>= _) (mapRes_congr fun x _ => ?_))
    cases fn with
    | none => rfl
    | some g => exact hr.call _ _ _ _ (hk.storeCls _)
  unfold listSer
  simp only [ht, fun x => hr.dump x none _ (hk.storeCls false)]

theorem iterableSer_eq (hr : Agree o rec rec') (v : Val) (cls : Option Ty) (kw : DumpKw)
    (hk : Passed o kw) : iterableSer (withSer E s) rec' v cls kw = iterableSer E rec v cls kw := by
  unfold iterableSer
  simp only [fun x c => hr.dump x c _ (hk.storeCls false)]
  rfl

theorem tupleSer_eq (hr : Agree o rec rec') (v : Val) (cls : Option Ty) (kw : DumpKw)
    (hk : Passed o kw) : tupleSer (withSer E s) rec' v cls kw = tupleSer E rec v cls kw := by
  unfold tupleSer namedtupleSer
  split
  · simp only [fun x c => hr.dump x c kw hk]
  · exact congrArg _ (funext fun c => iterableSer_eq hr _ c kw hk)

theorem dictLoop_eq (hr : Agree o rec rec') (kw : DumpKw) (hk : Passed o kw) :
    ∀ es acc, dictLoop (withSer E s) rec' kw es acc = dictLoop E rec kw es acc := by
  intro es
  have hs : ∀ acc k, storeAndHash (withSer E s) rec' acc k kw = storeAndHash E rec acc k kw := by
    intro acc k
    unfold storeAndHash
    rw [hr.dump _ _ _ hk]
    rfl
  induction es with
  | nil => intro acc; rfl
  | cons e es ih =>
    intro acc
    obtain ⟨k, v⟩ := e
    simp only [dictLoop, hs, ih,
      fun c => hr.dump v c { kw with types := [] } { hk with types := .inr rfl }]

theorem unionLoop_eq (hr : Agree o rec rec') (v : Val) (kw : DumpKw) (hk : Passed o kw) :
    ∀ ts : List Ty, unionLoop rec' v kw ts = unionLoop rec v kw ts := by
  intro ts
  induction ts with
  | nil => rfl
  | cons t ts ih => simp only [unionLoop, hr.dump v (some t) kw hk, ih]

theorem attrLoop_eq (hr : Agree o rec rec') (kw : DumpKw) (hk : Passed o kw) (b : Bool) (v : Val)
    (name : PyStr) : ∀ (as : List (PyStr × Option Ty)) acc,
      attrLoop (withSer E s) rec' kw b v name as acc = attrLoop E rec kw b v name as acc := by
  intro as
  induction as with
  | nil => intro acc; rfl
  | cons a as ih =>
    intro acc
    obtain ⟨n, hint⟩ := a
    have hd : ∀ fn attr, dumpAttr (withSer E s) rec' kw fn attr hint = dumpAttr E rec kw fn attr hint := by
      intro fn attr
      unfold dumpAttr
      cases fn with
      | none => rfl
      | some g =>
        dsimp only
        rw [hr.call _ _ _ kw hk]
        rfl
    simp only [attrLoop, ih, hd]
    rfl

theorem objectSerWith_eq (hr : Agree o rec rec') (v : Val) (kw : DumpKw) (hk : Passed o kw)
    (strip : StripAttr) (hstrip : strip = normalizeStripAttr kw.stripAttr) (t : Ty) (I : ClassInfo)
    (as : Except Err (List (PyStr × Option Ty))) :
    objectSerWith (withSer E s) rec' v kw strip t I as = objectSerWith E rec v kw strip t I as := by
  unfold objectSerWith
  refine congrArg _ (funext fun as => ?_)
  dsimp only
  rw [attrLoop_eq hr { kw with stripAttr := strip, storeCls := kw.verbose.classInfo }
    { hk with stripAttr := by rw [hstrip]; exact (names_normalize _).trans hk.stripAttr }]
  rfl

theorem objectSer_eq (hr : Agree o rec rec') (v : Val) (cls : Option Ty) (kw : DumpKw) (hk : Passed o kw) :
    objectSer (withSer E s) rec' v cls kw = objectSer E rec v cls kw := by
  unfold objectSer
  have h := fun v t I as => objectSerWith_eq (E := E) (s := s) hr v kw hk _ rfl t I as
  cases cls with
  | none =>
    dsimp only
    split <;> exact h _ _ _ _
  | some t =>
    dsimp only
    split
    · split <;> exact h _ _ _ _
    · split <;> exact h _ _ _ _

theorem callSer_eq (hs : ∀ id rec v cls k, Passed o k → s id rec v cls k = E.customSer id rec v cls k)
    (hp : PassesOn E) (hr : Agree o rec rec') (g : SerFn) (v : Val) (cls : Option Ty) (kw : DumpKw)
    (hk : Passed o kw) :
    callSer (withSer E s) rec' g v cls kw = callSer E rec g v cls kw := by
  cases g with
  | tuple => exact tupleSer_eq hr v cls kw hk
  | timezone =>
    show timezoneSer rec' v cls kw = timezoneSer rec v cls kw
    unfold timezoneSer
    simp only [fun x => hr.dump x cls kw hk]
  | dict =>
    show dictSer (withSer E s) rec' v kw = dictSer E rec v kw
    unfold dictSer
    simp only [dictLoop_eq (s := s) hr kw hk]
  | list => exact listSer_eq hr v cls kw hk
  | iterable => exact iterableSer_eq hr v cls kw hk
  | object => exact objectSer_eq hr v cls kw hk
  | union =>
    show unionSer rec' v cls kw = unionSer rec v cls kw
    unfold unionSer
    simp only [unionLoop_eq hr v kw hk]
  | custom id =>
    show s id rec' v cls kw = E.customSer id rec v cls kw
    rw [hs id rec' v cls kw hk]
    exact hp id rec rec' v cls kw (fun x c k h => hr.dump x c k (hk.trans h))
      fun f x c k h => hr.call f x c k (hk.trans h)
  | _ => rfl

theorem recOf_agree (hs : ∀ id rec v cls k, Passed o k → s id rec v cls k = E.customSer id rec v cls k)
    (hp : PassesOn E) : ∀ n, Agree o (recOf E n) (recOf (withSer E s) n) := by
  intro n
  induction n with
  | zero => exact ⟨fun _ _ _ _ => rfl, fun _ _ _ _ _ => rfl⟩
  | succ n ih =>
    refine ⟨fun v cls kw hk => ?_, fun g v cls kw hk => callSer_eq hs hp ih g v cls kw hk⟩
    show dumpWith (withSer E s) (recOf (withSer E s) n) v cls kw = dumpWith E (recOf E n) v cls kw
    unfold dumpWith
    simp only [fun g => ih.call g v cls kw hk]
    rfl

end

/-- **C106** (dump).  Whatever the serializers of the program would do with other options does not
matter: at every depth they are called with the options that were given to `dump`. -/
theorem options_reach_serializers (E : Env) (hp : PassesOn E) (n : Nat) (v : Val) (cls : Option Ty) (o : DumpKw)
    (s : Nat → Rec → Val → Option Ty → DumpKw → Res Val)
    (hs : ∀ id rec v cls k, Passed o k → s id rec v cls k = E.customSer id rec v cls k) :
    dump { E with customSer := s } n v cls o = dump E n v cls o :=
  (recOf_agree hs hp n).dump v cls o (.refl o)

/-! ## Load -/

/-- A deserializer that is found for some type in the fork `f`. -/
def Has (E : LEnv) (f : Nat) (g : DesFn) : Prop := ∃ t, E.getDes f t = .ok (some g)

/-- The options `k` are those of a call with the options `o`.  The deserializers of tuples, and those
of dicts for the keys, do not pass `key_transformer` on; those of lists and other iterables do not
pass `warn_on_fail` on; the one of objects does not pass `attr_getters` on. -/
structure LPassed (E : LEnv) (o k : LoadKw) : Prop where
  strict : k.strict = o.strict
  fork : k.fork = o.fork
  useEnumName : k.useEnumName = o.useEnumName
  keyTransformer : k.keyTransformer.getD .ok = o.keyTransformer.getD .ok ∨
    k.keyTransformer.getD .ok = .ok ∧ (Has E o.fork .tuple ∨ Has E o.fork .mapping)
  warnOnFail : k.warnOnFail = o.warnOnFail ∨
    k.warnOnFail = false ∧ (Has E o.fork .list ∨ Has E o.fork .iterable)
  attrGetters : k.attrGetters = o.attrGetters ∨ k.attrGetters = [] ∧ Has E o.fork .object

/-- A deserializer passes its options on: what it gives depends on calls with its own options
only. -/
def LPassesOn (E : LEnv) : Prop :=
  ∀ rec rec' v t kw, (∀ x c k, LPassed E kw k → rec' x c k = rec x c k) →
    (∀ id, E.customDes id rec' v t kw = E.customDes id rec v t kw) ∧
    E.foreignDes rec' v t kw = E.foreignDes rec v t kw

section
variable {E : LEnv} {o : LoadKw} {rec rec' : LRec} {s : Nat → LRec → Val → Ty → LoadKw → Res Val}

theorem LPassed.refl (E : LEnv) (o : LoadKw) : LPassed E o o :=
  ⟨rfl, rfl, rfl, .inl rfl, .inl rfl, .inl rfl⟩

theorem LPassed.trans {k l : LoadKw} (h : LPassed E o k) (g : LPassed E k l) : LPassed E o l := by
  refine ⟨g.strict.trans h.strict, g.fork.trans h.fork, g.useEnumName.trans h.useEnumName, ?_, ?_, ?_⟩
  · rcases g.keyTransformer with g' | ⟨g1, g2⟩
    · rcases h.keyTransformer with h' | ⟨h1, h2⟩
      · exact .inl (g'.trans h')
      · exact .inr ⟨g'.trans h1, h2⟩
    · rw [h.fork] at g2; exact .inr ⟨g1, g2⟩
  · rcases g.warnOnFail with g | ⟨g1, g2⟩
    · rw [g]; exact h.warnOnFail
    · rw [h.fork] at g2; exact .inr ⟨g1, g2⟩
  · rcases g.attrGetters with g | ⟨g1, g2⟩
    · rw [g]; exact h.attrGetters
    · rw [h.fork] at g2; exact .inr ⟨g1, g2⟩

/-- Calls with the options `o` have the same outcome, and so have the calls without options for the
parts of complex numbers and of time zones. -/
structure LAgree (E : LEnv) (o : LoadKw) (rec rec' : LRec) : Prop where
  load : ∀ v cls k, LPassed E o k → rec' v cls k = rec v cls k
  bare : ∀ v, rec' v (some (.cls .timedelta)) {} = rec v (some (.cls .timedelta)) {} ∧
    rec' v (some dictStrFloat) {} = rec v (some dictStrFloat) {}

/-- The same surroundings with other deserializers of the program. -/
abbrev withDes (E : LEnv) (s : Nat → LRec → Val → Ty → LoadKw → Res Val) : LEnv := { E with customDes := s }

theorem listDes_eq (hr : LAgree E o rec rec') (v : Val) (args : List Ty) (kw : LoadKw) (hk : LPassed E o kw)
    (hl : Has E o.fork .list ∨ Has E o.fork .iterable) :
    listDes (withDes E s) rec' v args kw = listDes E rec v args kw := by
  have hloop : ∀ (cls : Option Ty) b (kw' : LoadKw), LPassed E o kw' → ∀ xs i,
      listLoop (withDes E s) rec' cls b kw' i xs = listLoop E rec cls b kw' i xs := by
    intro cls b kw' hk' xs
    induction xs with
    | nil => intro i; rfl
    | cons x xs ih =>
      intro i
      simp only [listLoop, hr.load x cls kw' hk', ih]
  unfold listDes
  cases v.iter with
  | none => rfl
  | some xs =>
    exact hloop _ _ { kw with warnOnFail := false, inferred := kw.inferred || !args.isEmpty }
      { hk with warnOnFail := .inr ⟨rfl, hl⟩ } xs 0

theorem tupleDes_eq (hr : LAgree E o rec rec') (v : Val) (t : Ty) (kw : LoadKw) (hk : LPassed E o kw)
    (hl : Has E o.fork .tuple) : tupleDes (withDes E s) rec' v t kw = tupleDes E rec v t kw := by
  have hkw' : LPassed E o { kw with keyTransformer := none } := { hk with keyTransformer := .inr ⟨rfl, .inl hl⟩ }
  have hloop : ∀ xs ts, tupleLoop rec' { kw with keyTransformer := none } ts xs =
      tupleLoop rec { kw with keyTransformer := none } ts xs := by
    intro xs
    induction xs with
    | nil => intro ts; cases ts <;> rfl
    | cons x xs ih =>
      intro ts
      cases ts with
      | nil => rfl
      | cons u ts => simp only [tupleLoop, hr.load x (some u) _ hkw', ih ts]
  have hn : ∀ c tfm len names i, ntupleLoop (withDes E s) rec' c v tfm len kw i names =
      ntupleLoop E rec c v tfm len kw i names := by
    intro c tfm len names
    induction names with
    | nil => intro i; rfl
    | cons n names ih =>
      intro i
      simp only [ntupleLoop, ih, fun x c => hr.load x c kw hk]
  have hnt : ∀ c, ntupleDes (withDes E s) rec' v c kw = ntupleDes E rec v c kw := by
    intro c
    unfold ntupleDes
    simp only [hn]
  unfold tupleDes
  simp only [hnt, hloop, fun x => hr.load x none _ hkw']

theorem dictDes_eq (hr : LAgree E o rec rec') (v : Val) (args : List Ty) (kw : LoadKw) (hk : LPassed E o kw)
    (hl : Has E o.fork .mapping) :
    dictDes (withDes E s) rec' v args kw = dictDes E rec v args kw := by
  have hu : ∀ t es h, unhashKey (withDes E s) rec' t kw es h = unhashKey E rec t kw es h := by
    intro t es h
    unfold unhashKey
    simp only [fun x c => hr.load x c kw hk]
  have hul : ∀ t hs es, unhashLoop (withDes E s) rec' t kw hs es = unhashLoop E rec t kw hs es := by
    intro t hs
    induction hs with
    | nil => intro es; rfl
    | cons h hs ih => intro es; simp only [unhashLoop, hu, ih]
  have hh : loadHashedKeys (withDes E s) rec' v args kw = loadHashedKeys E rec v args kw := by
    unfold loadHashedKeys
    simp only [hul]
  have hkV : LPassed E o { kw with keyTransformer := some (kw.keyTransformer.getD .ok) } :=
    { hk with keyTransformer := hk.keyTransformer }
  have hkK : LPassed E o { kw with keyTransformer := none } := { hk with keyTransformer := .inr ⟨rfl, .inr hl⟩ }
  unfold dictDes
  rw [hh]
  simp only [fun x c => hr.load x c _ hkV, fun x c => hr.load x c _ hkK]

theorem unionDes_eq (hr : LAgree E o rec rec') (v : Val) (t : Ty) (kw : LoadKw) (hk : LPassed E o kw) :
    unionDes rec' v t kw = unionDes rec v t kw := by
  have hl : ∀ ts : List Ty, unionLoadLoop rec' v t kw ts = unionLoadLoop rec v t kw ts := by
    intro ts
    induction ts with
    | nil => rfl
    | cons u ts ih => simp only [unionLoadLoop, hr.load v (some u) kw hk, ih]
  unfold unionDes
  simp only [hl]

theorem objectDes_eq (hp : LPassesOn E) (hr : LAgree E o rec rec') (v : Val)
    (t : Ty) (kw : LoadKw) (hk : LPassed E o kw) (hl : Has E o.fork .object) :
    objectDes (withDes E s) rec' v t kw = objectDes E rec v t kw := by
  have hk' : ∀ m, LPassed E o { kw with metaHints := m, attrGetters := [] } :=
    fun m => { hk with attrGetters := .inr ⟨rfl, hl⟩ }
  unfold objectDes
  split
  · next c =>
    have hattr : ∀ obj p, valueForAttr (withDes E s) rec' obj c kw p = valueForAttr E rec obj c kw p := by
      intro obj p
      have hval : ∀ h, valueFromObj (withDes E s) rec' obj p.name h kw = valueFromObj E rec obj p.name h kw := by
        intro h
        unfold valueFromObj
        simp only [fun x c m => hr.load x c _ (hk' m)]
        rfl
      unfold valueForAttr
      simp only [hval]
      rfl
    have hargs : ∀ obj ps, ctorArgs (withDes E s) rec' obj c kw ps = ctorArgs E rec obj c kw ps := by
      intro obj ps
      induction ps with
      | nil => rfl
      | cons p ps ih => simp only [ctorArgs, hattr, ih]
    have hrest : ∀ es as, setRemaining (withDes E s) rec' c kw es as = setRemaining E rec c kw es as := by
      intro es
      induction es with
      | nil => intro as; rfl
      | cons e es ih =>
        intro as
        obtain ⟨k, x⟩ := e
        simp only [setRemaining, ih, fun x c => hr.load x c { kw with attrGetters := [] } (hk' _)]
        rfl
    have hg : ∀ gs as, setGetters (withDes E s) c gs as = setGetters E c gs as := by
      intro gs
      induction gs with
      | nil => intro as; rfl
      | cons g gs ih =>
        intro as
        obtain ⟨n, g⟩ := g
        simp only [setGetters, ih]
    simp only [hargs, hrest, hg]
  · exact (hp rec rec' v _ kw fun x c k h => hr.load x c k (hk.trans h)).2

theorem callDes_eq (hs : ∀ id rec v t k, LPassed E o k → E.getDes o.fork t = .ok (some (.custom id)) →
      s id rec v t k = E.customDes id rec v t k)
    (hp : LPassesOn E) (hr : LAgree E o rec rec') (g : DesFn) (v : Val) (t : Ty)
    (kw : LoadKw) (hk : LPassed E o kw) (hg : E.getDes kw.fork t = .ok (some g)) :
    callDes (withDes E s) rec' g v t kw = callDes E rec g v t kw := by
  have hgt : E.getDes o.fork t = .ok (some g) := by rw [← hk.fork]; exact hg
  have hg : Has E o.fork g := ⟨t, hgt⟩
  cases g with
  | list =>
    show (do let ys ← listDes _ _ _ _ _; pure _) = (do let ys ← listDes _ _ _ _ _; pure _)
    rw [listDes_eq hr v _ kw hk (.inl hg)]
  | tuple => exact tupleDes_eq hr v t kw hk hg
  | union => exact unionDes_eq hr v t kw hk
  | defaultdict =>
    show defaultdictDes _ _ _ _ = defaultdictDes _ _ _ _
    unfold defaultdictDes
    simp only [fun x c => hr.load x c kw hk]
  | timezone =>
    show timezoneDes _ _ = timezoneDes _ _
    unfold timezoneDes
    simp only [fun x => (hr.bare x).1]
  | complex =>
    show complexDes _ _ = complexDes _ _
    unfold complexDes
    simp only [fun x => (hr.bare x).2]
  | string =>
    show stringDes _ _ _ _ _ = stringDes _ _ _ _ _
    unfold stringDes
    simp only [fun x c => hr.load x c kw hk]
    rfl
  | mapping =>
    show mappingDes _ _ _ _ _ = mappingDes _ _ _ _ _
    unfold mappingDes
    rw [dictDes_eq hr v _ kw hk hg]
  | iterable =>
    show iterableDes _ _ _ _ _ = iterableDes _ _ _ _ _
    unfold iterableDes
    rw [listDes_eq hr v _ kw hk (.inr hg)]
  | object => exact objectDes_eq hp hr v t kw hk hg
  | custom id =>
    show s id rec' v t kw = E.customDes id rec v t kw
    rw [hs id rec' v t kw hk hgt]
    exact (hp rec rec' v t kw fun x c k h => hr.load x c k (hk.trans h)).1 id
  | _ => rfl

theorem loadWith_eq (hs : ∀ id rec v t k, LPassed E o k → E.getDes o.fork t = .ok (some (.custom id)) →
      s id rec v t k = E.customDes id rec v t k)
    (hp : LPassesOn E) (hr : LAgree E o rec rec') (v : Val) (cls : Option Ty) (kw : LoadKw)
    (hk : LPassed E o kw) : loadWith (withDes E s) rec' v cls kw = loadWith E rec v cls kw := by
  have hf : loadFrom (withDes E s) rec' v cls kw = loadFrom E rec v cls kw := by
    unfold loadFrom
    split
    · rfl
    · refine congrArg _ (funext fun m => ?_)
      dsimp only
      refine bind_congr_ok fun fn hfn => ?_
      rw [liftK_ok] at hfn
      unfold doLoad
      cases fn with
      | none => rfl
      | some g =>
        dsimp only
        rw [callDes_eq hs hp hr g v _ { kw with
          metaHints := some (kw.metaHints.getD ((m.map (·.2)).getD []))
          inferred := _ } { hk with } hfn]
        rfl
  unfold loadWith
  rw [hf]
  rfl

theorem loadRec_agree (hs : ∀ id rec v t k, LPassed E o k → E.getDes o.fork t = .ok (some (.custom id)) →
      s id rec v t k = E.customDes id rec v t k)
    (hp : LPassesOn E)
    (hb : ∀ n v, load (withDes E s) n v (some (.cls .timedelta)) {} = load E n v (some (.cls .timedelta)) {} ∧
      load (withDes E s) n v (some dictStrFloat) {} = load E n v (some dictStrFloat) {}) :
    ∀ n, LAgree E o (loadRec E n) (loadRec (withDes E s) n) := by
  intro n
  induction n with
  | zero => exact ⟨fun _ _ _ _ => rfl, hb 0⟩
  | succ n ih => exact ⟨fun v cls kw hk => loadWith_eq hs hp ih v cls kw hk, hb (n + 1)⟩

end

/-- **C106** (load).  Whatever the deserializers of the program would do with other options does not
matter: at every depth they are called with the options that were given to `load` (see `LPassed` for
the exceptions).  The parts of complex numbers and of time zones are loaded without options. -/
theorem options_reach_deserializers_partial (E : LEnv) (hp : LPassesOn E) (n : Nat) (v : Val) (cls : Option Ty) (o : LoadKw)
    (s : Nat → LRec → Val → Ty → LoadKw → Res Val)
    (hs : ∀ id rec v t k, LPassed E o k → E.getDes o.fork t = .ok (some (.custom id)) →
      s id rec v t k = E.customDes id rec v t k)
    (hb : ∀ n v, load { E with customDes := s } n v (some (.cls .timedelta)) {} =
        load E n v (some (.cls .timedelta)) {} ∧
      load { E with customDes := s } n v (some dictStrFloat) {} = load E n v (some dictStrFloat) {}) :
    load { E with customDes := s } n v cls o = load E n v cls o :=
  (loadRec_agree hs hp hb n).load v cls o (.refl E o)

/-- What is loaded without options uses the deserializers of the main class only. -/
theorem load_bare (E : LEnv) (hp : LPassesOn E) (s : Nat → LRec → Val → Ty → LoadKw → Res Val)
    (hs : ∀ id rec v t k, LPassed E {} k → E.getDes 0 t = .ok (some (.custom id)) →
      s id rec v t k = E.customDes id rec v t k) (n : Nat) (v : Val) (cls : Option Ty) :
    load { E with customDes := s } n v cls {} = load E n v cls {} := by
  suffices h : ∀ n, LAgree E {} (loadRec E n) (loadRec (withDes E s) n) from (h n).load v cls {} (.refl E {})
  intro n
  induction n with
  | zero => exact ⟨fun _ _ _ _ => rfl, fun _ => ⟨rfl, rfl⟩⟩
  | succ n ih =>
    have := fun v cls kw hk => loadWith_eq hs hp ih v cls kw hk
    exact ⟨this, fun v => ⟨this _ _ _ (.refl E {}), this _ _ _ (.refl E {})⟩⟩

/-! ### Examples -/

/-- A serializer for `Point` that makes a list of two: whether nulls are stripped, and the dumped
attribute `x`. -/
def spySer : Env :=
  { demoEnv demoInfo with
    sers := fun _ => Registry.setLizer (tyWorld demoInfo) (.custom 0) [some (.cls (.user 0))] true
      (initialSers demoInfo)
    customSer := fun _ rec v _ kw => match v with
      | .obj _ ((_, x) :: _) => do
        let d ← rec.dump x none kw
        pure (.list [.bool kw.stripNulls, d])
      | _ => Res.raise { kind := .typeError } }

/-- Two points, in a dict in a tuple in a list; one of them has the other as its `x`. -/
def deep : Val :=
  .list [.tuple [.dict [(.str ['p'], .obj 0 [("x".toList, .obj 0 [("x".toList, .int 1)])])]]]

theorem spySer_passesOn : PassesOn spySer := by
  intro id rec rec' v cls kw hd _
  show (match v with
    | .obj _ ((_, x) :: _) => do
      let d ← rec'.dump x none kw
      pure (.list [.bool kw.stripNulls, d])
    | _ => Res.raise { kind := .typeError }) = (match v with
    | .obj _ ((_, x) :: _) => do
      let d ← rec.dump x none kw
      pure (.list [.bool kw.stripNulls, d])
    | _ => Res.raise { kind := .typeError } : Res Val)
  simp only [fun x => hd x none kw (.refl kw)]

/-- A serializer that fails if nulls are not stripped is as good, if nulls are to be stripped. -/
example : dump { spySer with
    customSer := fun id rec v cls k => if k.stripNulls then spySer.customSer id rec v cls k
      else Res.raise { kind := .other } } 20 deep none { stripNulls := true } =
    dump spySer 20 deep none { stripNulls := true } :=
  options_reach_serializers spySer spySer_passesOn 20 deep none _ _ fun id rec v cls k h => by
    rw [h.stripNulls]; rfl

example : (dump spySer 20 deep none { stripNulls := true }).val =
    .ok (.list [.list [.dict [(.str ['p'], .list [.bool true, .list [.bool true, .int 1]])]]]) := by decide +kernel

/-- Deserializers of a fork that report their options: one for ints, which reports whether there are a
key transformer, `strict`, `warn_on_fail` and `attr_getters`; and one for floats, which reports
whether there is `strict`. -/
def spyDes (main : Bool) : LEnv :=
  { demoLEnv demoInfo with
    desers := fun f => if f = 0 ∧ main = false then initialDesers demoInfo
      else Registry.setLizer (tyWorld demoInfo) (.custom 1) [some (.cls .float)] true
        (Registry.setLizer (tyWorld demoInfo) (.custom 0) [some (.cls .int)] true (initialDesers demoInfo))
    customDes := fun i _ _ _ kw => pure (if i = 0 then
        .list [.bool kw.keyTransformer.isSome, .bool kw.strict, .bool kw.warnOnFail, .bool (!kw.attrGetters.isEmpty)]
      else .float (if kw.strict then 1 else 0)) }

theorem spyDes_passesOn (b : Bool) : LPassesOn (spyDes b) := fun _ _ _ _ _ _ => ⟨fun _ => rfl, rfl⟩

/-- All the options. -/
def opts : LoadKw :=
  { fork := 1, strict := true, keyTransformer := some .ok, warnOnFail := true,
    attrGetters := [("other".toList, .ok .none)] }

theorem desFn_not_custom (info : Nat → ClassInfo) (t : Ty) (id : Nat) : t.desFn info ≠ some (.custom id) := by
  have hc : ∀ c : Cls, c.desFn info ≠ .custom id := by
    intro c
    cases c with
    | user c => simp only [Cls.desFn]; split <;> simp
    | _ => simp [Cls.desFn]
  cases t with
  | cls c => simpa [Ty.desFn] using hc c
  | gen g args => simpa [Ty.desFn] using hc g.naked
  | newtype n t =>
    cases t with
    | cls c => simpa [Ty.desFn] using hc c
    | gen g args => simpa [Ty.desFn] using hc g.naked
    | _ => simp [Ty.desFn]
  | _ => simp [Ty.desFn]

/-- If only `fork_inst` has such deserializers then they may fail without `strict`, if `strict` is
given. -/
example (v : Val) (cls : Option Ty) : load { spyDes false with
    customDes := fun id rec v t k => if k.strict then (spyDes false).customDes id rec v t k
      else Res.raise { kind := .other } } 20 v cls opts = load (spyDes false) 20 v cls opts := by
  refine options_reach_deserializers_partial (spyDes false) (spyDes_passesOn _) 20 v cls opts _ ?_ ?_
  · intro id rec v t k h _
    rw [h.strict]; rfl
  · have hb := load_bare (spyDes false) (spyDes_passesOn _) (fun id rec v t k =>
      if k.strict then (spyDes false).customDes id rec v t k else Res.raise { kind := .other }) (by
        intro id rec v t k _ h
        have h' : (demoLEnv demoInfo).getDes 0 t = .ok (some (.custom id)) := h
        rw [demo_desers 0 t, Except.ok.injEq] at h'
        exact absurd h' (desFn_not_custom _ _ _))
    exact fun n v => ⟨hb n v _, hb n v _⟩

/-- The options of an attribute in a list in a dict: all but `warn_on_fail` and `attr_getters`. -/
example : (load (spyDes false) 20 (.dict [(.str ['k'], .list [.dict [(.str ['x'], .str ['1'])]])])
    (some (.gen .dict [.cls .str, .gen .list [.cls (.user 0)]])) { opts with attrGetters := [] }).val =
    .ok (.dict [(.str ['k'], .list [.obj 0 [(['x'], .list [.bool true, .bool true, .bool false, .bool false]),
      (['y'], .int 0)]])]) := by decide +kernel

/-- The full claim (no exceptions) is false of the code: options get lost.  The elements of a tuple
are loaded without the key transformer, ... -/
theorem tuple_loses_key_transformer :
    (load (spyDes false) 20 (.list [.str ['1']]) (some (.gen .tuple [.cls .int])) opts).val =
      .ok (.tuple [.list [.bool false, .bool true, .bool true, .bool true]]) := by decide +kernel

/-- ... the elements of a list without `warn_on_fail`, ... -/
theorem list_loses_warn_on_fail :
    (load (spyDes false) 20 (.list [.str ['1']]) (some (.gen .list [.cls .int])) opts).val =
      .ok (.list [.list [.bool true, .bool true, .bool false, .bool true]]) := by decide +kernel

/-- ... the attributes of an object without `attr_getters`, ... -/
theorem object_loses_attr_getters :
    (load (spyDes false) 20 (.dict [(.str ['x'], .str ['1'])]) (some (.cls (.user 0))) opts).val =
      .ok (.obj 0 [(['x'], .list [.bool true, .bool true, .bool true, .bool false]), (['y'], .int 0),
        ("other".toList, .none)]) := by decide +kernel

/-- ... and the parts of a complex number without any: not even `strict` and `fork_inst`. -/
theorem complex_loses_options :
    (load (spyDes true) 20 (.dict [(.str "real".toList, .int 2), (.str "imag".toList, .int 3)])
      (some (.cls .complex)) opts).val = .ok (.atom (.complex 0 0)) ∧
    (load (spyDes true) 20 (.int 2) (some (.cls .float)) opts).val = .ok (.float 1) ∧
    (load (spyDes false) 20 (.dict [(.str "real".toList, .int 2), (.str "imag".toList, .int 3)])
      (some (.cls .complex)) opts).val = .ok (.atom (.complex 2 3)) := by decide +kernel

end Verif.Props.Options
