import Verif.Core.DumpLemmas
import Verif.Core.LoadLemmas
import Verif.Core.LoadDemo
import Verif.Props.Registry

/-! # What a fork depends on (C87) -/

set_option autoImplicit false

namespace Verif.Props.Forks

open Verif Verif.Core Verif.Datetime

/-! ## `dump` -/

/-- The same surroundings with other registrations of serializers and other settings for
warnings. -/
abbrev dumpEnv (E : Env) (s : Nat → Verif.Registry.Table SerFn Ty) (w : Nat → PyStr → Bool) : Env :=
  { E with sers := s, warns := w }

/-- Calls with `fork_inst=f` have the same outcome. -/
structure Agree (f : Nat) (rec rec' : Rec) : Prop where
  dump : ∀ v cls kw, kw.fork = f → rec'.dump v cls kw = rec.dump v cls kw
  call : ∀ g v cls kw, kw.fork = f → rec'.call g v cls kw = rec.call g v cls kw

/-- The serializers of the program pass on the keyword argument `fork_inst` to the calls
that they make. -/
def SersPassFork (E : Env) (f : Nat) : Prop :=
  ∀ id rec rec', Agree f rec rec' → ∀ v cls kw, kw.fork = f →
    E.customSer id rec' v cls kw = E.customSer id rec v cls kw

section
variable {E : Env} {s : Nat → Verif.Registry.Table SerFn Ty} {w : Nat → PyStr → Bool} {f : Nat}
  {rec rec' : Rec}

theorem toStr_eq (hw : w f = E.warns f) (v : Val) (b : Bool) (p : StrfPattern) :
    toStr (dumpEnv E s w) v b f p = toStr E v b f p := by
  unfold toStr
  simp only [Env.warn, hw]

theorem listSer_eq (hs : ∀ t, (dumpEnv E s w).getSer f t = E.getSer f t) (hr : Agree f rec rec')
    (v : Val) (cls : Option Ty) (kw : DumpKw) (hk : kw.fork = f) :
    listSer (dumpEnv E s w) rec' v cls kw = listSer E rec v cls kw := by
  have ht : ∀ xs t, listSer.typed (dumpEnv E s w) rec' kw xs t { kw with storeCls := false } =
      listSer.typed E rec kw xs t { kw with storeCls := false } := by
    intro xs t
    subst hk
    unfold listSer.typed
    rw [hs]
    refine congrArg _ (funext fun fn => congrArg (· >>= _) (mapRes_congr fun x _ => ?_))
    cases fn with
    | none => rfl
    | some g => exact hr.call _ _ _ _ rfl
  have hm : ∀ xs, mapRes (fun x => rec'.dump x none { kw with storeCls := false }) xs =
      mapRes (fun x => rec.dump x none { kw with storeCls := false }) xs :=
    fun xs => mapRes_congr fun x _ => hr.dump _ _ _ hk
  unfold listSer
  simp only [ht, hm]

theorem iterableSer_eq (hr : Agree f rec rec')
    (v : Val) (cls : Option Ty) (kw : DumpKw) (hk : kw.fork = f) :
    iterableSer (dumpEnv E s w) rec' v cls kw = iterableSer E rec v cls kw := by
  have hm : ∀ (xs : List (Val × Option Ty)),
      mapRes (fun p => rec'.dump p.1 p.2 { kw with storeCls := false }) xs =
      mapRes (fun p => rec.dump p.1 p.2 { kw with storeCls := false }) xs :=
    fun xs => mapRes_congr fun x _ => hr.dump _ _ _ hk
  unfold iterableSer
  simp only [hm]
  rfl

theorem tupleSer_eq (hr : Agree f rec rec')
    (v : Val) (cls : Option Ty) (kw : DumpKw) (hk : kw.fork = f) :
    tupleSer (dumpEnv E s w) rec' v cls kw = tupleSer E rec v cls kw := by
  have hm : ∀ (xs : List (PyStr × Val)),
      mapRes (fun p => do
        let y ← rec'.dump p.2 none kw
        pure (Val.str p.1, y)) xs =
      mapRes (fun p => do
        let y ← rec.dump p.2 none kw
        pure (Val.str p.1, y)) xs :=
    fun xs => mapRes_congr fun x _ => by rw [hr.dump _ _ _ hk]
  unfold tupleSer namedtupleSer
  simp only [hm, iterableSer_eq hr _ _ kw hk]

theorem dictLoop_eq (hr : Agree f rec rec') (kw : DumpKw) (hk : kw.fork = f) :
    ∀ es acc, dictLoop (dumpEnv E s w) rec' kw es acc = dictLoop E rec kw es acc := by
  intro es
  have hh : ∀ result key, storeAndHash (dumpEnv E s w) rec' result key kw = storeAndHash E rec result key kw := by
    intro result key
    unfold storeAndHash
    rw [hr.dump _ _ _ hk]
    rfl
  induction es with
  | nil => intro acc; rfl
  | cons e es ih =>
    intro acc
    obtain ⟨k, v⟩ := e
    simp only [dictLoop, hh, ih, hr.dump _ _ { kw with types := [] } hk]

theorem unionLoop_eq (hr : Agree f rec rec') (v : Val) (kw : DumpKw) (hk : kw.fork = f) :
    ∀ ts, unionLoop rec' v kw ts = unionLoop rec v kw ts := by
  intro ts
  induction ts with
  | nil => rfl
  | cons t ts ih => simp only [unionLoop, hr.dump _ _ kw hk, ih]

theorem attrLoop_eq (hs : ∀ t, (dumpEnv E s w).getSer f t = E.getSer f t) (hw : w f = E.warns f)
    (hr : Agree f rec rec') (kw : DumpKw) (hk : kw.fork = f) (b : Bool) (v : Val) (name : PyStr) :
    ∀ as acc, attrLoop (dumpEnv E s w) rec' kw b v name as acc = attrLoop E rec kw b v name as acc := by
  intro as
  have hd : ∀ fn attr hint, dumpAttr (dumpEnv E s w) rec' kw fn attr hint = dumpAttr E rec kw fn attr hint := by
    intro fn attr hint
    unfold dumpAttr
    cases fn with
    | none => rfl
    | some g => simp only [hr.call _ _ _ kw hk]; rfl
  induction as with
  | nil => intro acc; rfl
  | cons a as ih =>
    intro acc
    obtain ⟨n, hint⟩ := a
    simp only [attrLoop, hd, ih, hk, hs, Env.warn, hw]
    rfl

theorem objectSer_eq (hs : ∀ t, (dumpEnv E s w).getSer f t = E.getSer f t) (hw : w f = E.warns f)
    (hr : Agree f rec rec') (v : Val) (cls : Option Ty) (kw : DumpKw) (hk : kw.fork = f) :
    objectSer (dumpEnv E s w) rec' v cls kw = objectSer E rec v cls kw := by
  have h : ∀ v strip t I as, objectSerWith (dumpEnv E s w) rec' v kw strip t I as =
      objectSerWith E rec v kw strip t I as := by
    intro v strip t I as
    unfold objectSerWith
    simp only [attrLoop_eq hs hw hr { kw with stripAttr := strip, storeCls := kw.verbose.classInfo } hk]
    rfl
  unfold objectSer
  simp only [h]

theorem callSer_eq (hs : ∀ t, (dumpEnv E s w).getSer f t = E.getSer f t) (hw : w f = E.warns f)
    (hc : SersPassFork E f) (hr : Agree f rec rec') (g : SerFn) (v : Val) (cls : Option Ty) (kw : DumpKw)
    (hk : kw.fork = f) : callSer (dumpEnv E s w) rec' g v cls kw = callSer E rec g v cls kw := by
  cases g with
  | tuple => exact tupleSer_eq hr v cls kw hk
  | complex => rfl
  | datetime => subst hk; exact toStr_eq hw _ _ _
  | date => subst hk; exact toStr_eq hw _ _ _
  | time => subst hk; exact toStr_eq hw _ _ _
  | timezone =>
    show timezoneSer rec' v cls kw = timezoneSer rec v cls kw
    unfold timezoneSer
    simp only [hr.dump _ _ kw hk]
  | dict =>
    show dictSer (dumpEnv E s w) rec' v kw = dictSer E rec v kw
    unfold dictSer
    simp only [dictLoop_eq hr kw hk]
  | list => exact listSer_eq hs hr v cls kw hk
  | iterable => exact iterableSer_eq hr v cls kw hk
  | object => exact objectSer_eq hs hw hr v cls kw hk
  | union =>
    show unionSer rec' v cls kw = unionSer rec v cls kw
    unfold unionSer
    simp only [unionLoop_eq hr v kw hk]
  | custom id => exact hc id rec rec' hr v cls kw hk
  | _ => rfl

theorem recOf_agree (hs : ∀ t, (dumpEnv E s w).getSer f t = E.getSer f t) (hw : w f = E.warns f)
    (hc : SersPassFork E f) : ∀ n, Agree f (recOf E n) (recOf (dumpEnv E s w) n) := by
  intro n
  induction n with
  | zero => exact ⟨fun _ _ _ _ => rfl, fun _ _ _ _ _ => rfl⟩
  | succ n ih =>
    refine ⟨?_, fun g v cls kw hk => callSer_eq hs hw hc ih g v cls kw hk⟩
    intro v cls kw hk
    show dumpWith (dumpEnv E s w) (recOf (dumpEnv E s w) n) v cls kw = dumpWith E (recOf E n) v cls kw
    unfold dumpWith
    simp only [hk, hs, ih.call _ _ _ kw hk]

end

/-- C87 for `dump`: what `dump(v, cls, fork_inst=f, **kw)` returns, raises and warns of
depends on no other fork: whatever serializers are registered elsewhere and whatever
warnings are suppressed elsewhere (in the main class, too), it is the same. -/
theorem dump_depends_on_own_fork (E : Env) (s : Nat → Verif.Registry.Table SerFn Ty) (w : Nat → PyStr → Bool)
    (f n : Nat) (v : Val) (cls : Option Ty) (kw : DumpKw) (hc : SersPassFork E f) (hk : kw.fork = f)
    (hs : s f = E.sers f) (hw : w f = E.warns f) :
    dump { E with sers := s, warns := w } n v cls kw = dump E n v cls kw :=
  (recOf_agree (s := s) (fun t => congrArg (Verif.Registry.getLizer (tyWorld E.info) · t) hs) hw hc n).dump v cls kw hk

/-- The registrations after `set_serializer(f, Point)` in the main class. -/
def pointChanged (i : Nat) : Verif.Registry.Table SerFn Ty :=
  if i = 0 then Verif.Registry.setLizer (tyWorld demoInfo) (.custom 0) [some (.cls (.user 0))] true (initialSers demoInfo)
  else initialSers demoInfo

/-- A serializer for `Point` that is registered in the main class does not matter for
`dump([Point(1, 2)], fork_inst=fork)`, but it does for `dump([Point(1, 2)])`. -/
example : SersPassFork (demoEnv demoInfo) 1 ∧ pointChanged 1 = (demoEnv demoInfo).sers 1 ∧
    (dump (demoEnv demoInfo) 9 (.list [.obj 0 [("x".toList, .int 1), ("y".toList, .int 2)]]) none
      { fork := 1 }).val = .ok (.list [.dict [(.str "x".toList, .int 1), (.str "y".toList, .int 2)]]) ∧
    (∃ e, (dump { demoEnv demoInfo with sers := pointChanged } 9
      (.list [.obj 0 [("x".toList, .int 1), ("y".toList, .int 2)]]) none {}).val = .error e) :=
  ⟨fun _ _ _ _ _ _ _ _ => rfl, rfl, by rfl, _, rfl⟩

/-- The registry of serializers that the `i`-th class of a program uses (`fork_inst`), after
a history of registrations: `/repo/jsons/_lizers_impl.py` lines 86-97. -/
def sersOf (h : Verif.Registry.Heap SerFn Ty) (i : Nat) : Verif.Registry.Table SerFn Ty :=
  match h.holders[i]? with
  | some x => h.sers.getD x.ser Verif.Registry.Table.empty
  | none => Verif.Registry.Table.empty

/-- C87 for `dump`, for every history: whatever a program does after `pre`, as long as it
registers no serializers in the fork `f` (it may register them in the main class, in other
forks, make forks, announce classes), `dump(v, cls, fork_inst=f, **kw)` does what it did
before. -/
theorem dump_isolated (E : Env) (pre post : List (Verif.Registry.Op SerFn Ty)) (f n : Nat) (v : Val)
    (cls : Option Ty) (kw : DumpKw) (hc : SersPassFork E f) (hk : kw.fork = f)
    (hf : f < (Registry.view .ser pre).owner.length)
    (hpost : ∀ op ∈ post, ∀ j rs, Registry.registrations .ser op = some (j, rs) →
      (Registry.view .ser (pre ++ post)).owner[j]? ≠ (Registry.view .ser (pre ++ post)).owner[f]?) :
    dump { E with sers := sersOf (Verif.Registry.run (tyWorld E.info) .init (pre ++ post)) } n v cls kw =
      dump { E with sers := sersOf (Verif.Registry.run (tyWorld E.info) .init pre) } n v cls kw := by
  have key : ∀ (h : Verif.Registry.Heap SerFn Ty) t,
      Verif.Registry.getLizer (tyWorld E.info) (sersOf h f) t = Registry.get .ser (tyWorld E.info) h f t := by
    intro h t
    unfold sersOf Registry.get Verif.Registry.getSer
    cases h.holders[f]? with
    | none => exact getLizer_empty E.info t
    | some x => rfl
  refine (recOf_agree (E := { E with sers := sersOf (Verif.Registry.run (tyWorld E.info) .init pre) })
    (s := sersOf (Verif.Registry.run (tyWorld E.info) .init (pre ++ post))) (w := E.warns) ?_ rfl hc n).dump v cls kw hk
  intro t
  show Verif.Registry.getLizer (tyWorld E.info) _ t = Verif.Registry.getLizer (tyWorld E.info) _ t
  rw [key, key]
  exact Registry.fork_isolated .ser (tyWorld E.info) pre post f hf hpost t

/-- A program that registers a serializer for `Point` in the main class, makes a fork and
registers another one in the main class. -/
example : SersPassFork (demoEnv demoInfo) 1 ∧
    1 < (Registry.view .ser [Verif.Registry.Op.setSer SerFn.object [some (Ty.cls (.user 0))] true 0, .fork 0]).owner.length ∧
    ∀ op ∈ [Verif.Registry.Op.setSer (SerFn.custom 0) [some (Ty.cls (.user 0))] true 0, .fork 1], ∀ j rs,
      Registry.registrations .ser op = some (j, rs) →
      (Registry.view .ser ([.setSer SerFn.object [some (Ty.cls (.user 0))] true 0, .fork 0] ++
        [.setSer (SerFn.custom 0) [some (Ty.cls (.user 0))] true 0, .fork 1])).owner[j]? ≠
      (Registry.view .ser ([.setSer SerFn.object [some (Ty.cls (.user 0))] true 0, .fork 0] ++
        [.setSer (SerFn.custom 0) [some (Ty.cls (.user 0))] true 0, .fork 1])).owner[1]? := by
  refine ⟨fun _ _ _ _ _ _ _ _ => rfl, by decide, ?_⟩
  intro op hop j rs h
  simp only [List.mem_cons, List.not_mem_nil, or_false] at hop
  rcases hop with rfl | rfl
  · cases h; decide
  · cases h

/-! ## `load` -/

/-- The same surroundings with other registrations, announced classes and settings for
warnings. -/
abbrev loadEnv (E : LEnv) (s : Nat → Verif.Registry.Table SerFn Ty) (d : Nat → Verif.Registry.Table DesFn Ty)
    (l : Nat → Verif.Registry.Table Nat Ty) (w : Nat → PyStr → Bool) (a : Nat → PyStr → Except ErrKind Ty) : LEnv :=
  { E with sers := s, warns := w, desers := d, vals := l, clsFromStr := a }

/-- Calls with the forks `P` have the same outcome. -/
def LAgree (P : Nat → Prop) (rec rec' : LRec) : Prop :=
  ∀ v cls kw, P kw.fork → rec' v cls kw = rec v cls kw

/-- The deserializers of the program pass on the keyword argument `fork_inst` to the calls
that they make. -/
def DesersPassFork (E : LEnv) (P : Nat → Prop) : Prop :=
  ∀ rec rec', LAgree P rec rec' → ∀ v t kw, P kw.fork →
    (∀ id, E.customDes id rec' v t kw = E.customDes id rec v t kw) ∧
    E.foreignDes rec' v t kw = E.foreignDes rec v t kw

section
variable {E : LEnv} {s : Nat → Verif.Registry.Table SerFn Ty} {d : Nat → Verif.Registry.Table DesFn Ty}
  {l : Nat → Verif.Registry.Table Nat Ty} {w : Nat → PyStr → Bool} {a : Nat → PyStr → Except ErrKind Ty}
  {P : Nat → Prop} {rec rec' : LRec}

/-- The forks `P` have the same registrations in both. -/
structure SameForks (E : LEnv) (d : Nat → Verif.Registry.Table DesFn Ty) (l : Nat → Verif.Registry.Table Nat Ty)
    (w : Nat → PyStr → Bool) (a : Nat → PyStr → Except ErrKind Ty) (P : Nat → Prop) : Prop where
  desers : ∀ i, P i → ∀ t, Verif.Registry.getLizer (tyWorld E.info) (d i) t = E.getDes i t
  vals : ∀ i, P i → ∀ t, Verif.Registry.getLizer (tyWorld E.info) (l i) t = E.getVal i t
  warns : ∀ i, P i → w i = E.warns i
  classes : ∀ i, P i → a i = E.clsFromStr i

theorem validate_eq (h : SameForks E d l w a P) (v : Val) (t : Ty) {i : Nat} (hi : P i) :
    validate (loadEnv E s d l w a) v t i = validate E v t i := by
  unfold validate
  rw [show (loadEnv E s d l w a).getVal i t = E.getVal i t from h.vals i hi t]

theorem listDes_eq (h : SameForks E d l w a P) (hr : LAgree P rec rec') (v : Val) (args : List Ty)
    (kw : LoadKw) (hk : P kw.fork) :
    listDes (loadEnv E s d l w a) rec' v args kw = listDes E rec v args kw := by
  have hl : ∀ cls b (kw' : LoadKw), kw'.fork = kw.fork → ∀ xs i,
      listLoop (loadEnv E s d l w a) rec' cls b kw' i xs = listLoop E rec cls b kw' i xs := by
    intro cls b kw' hk' xs
    induction xs with
    | nil => intro i; rfl
    | cons x xs ih =>
      intro i
      simp only [listLoop, hr x cls kw' (hk' ▸ hk), ih, Env.warn, hk', h.warns _ hk]
  unfold listDes
  simp only [hl _ _ { kw with warnOnFail := false, inferred := kw.inferred || !args.isEmpty } rfl]

theorem tupleDes_eq (hr : LAgree P rec rec') (v : Val) (t : Ty) (kw : LoadKw) (hk : P kw.fork) :
    tupleDes (loadEnv E s d l w a) rec' v t kw = tupleDes E rec v t kw := by
  have ht : ∀ (kw' : LoadKw), kw'.fork = kw.fork → ∀ xs ts, tupleLoop rec' kw' ts xs = tupleLoop rec kw' ts xs := by
    intro kw' hk' xs
    induction xs with
    | nil => intro ts; cases ts <;> rfl
    | cons x xs ih =>
      intro ts
      cases ts with
      | nil => rfl
      | cons t ts => simp only [tupleLoop, hr x _ kw' (hk' ▸ hk), ih]
  have hm : ∀ xs, mapRes (fun x => rec' x none { kw with keyTransformer := none }) xs =
      mapRes (fun x => rec x none { kw with keyTransformer := none }) xs :=
    fun xs => mapRes_congr fun x _ => hr _ _ _ hk
  have hn : ∀ c tfm len names i, ntupleLoop (loadEnv E s d l w a) rec' c v tfm len kw i names =
      ntupleLoop E rec c v tfm len kw i names := by
    intro c tfm len names
    induction names with
    | nil => intro i; rfl
    | cons n names ih =>
      intro i
      simp only [ntupleLoop, hr _ _ kw hk, ih]
  unfold tupleDes ntupleDes
  simp only [ht { kw with keyTransformer := none } rfl, hm, hn]

theorem dictDes_eq (hr : LAgree P rec rec') (v : Val) (args : List Ty) (kw : LoadKw) (hk : P kw.fork) :
    dictDes (loadEnv E s d l w a) rec' v args kw = dictDes E rec v args kw := by
  have hu : ∀ t hs es, unhashLoop (loadEnv E s d l w a) rec' t kw hs es = unhashLoop E rec t kw hs es := by
    intro t hs
    induction hs with
    | nil => intro es; rfl
    | cons h hs ih =>
      intro es
      simp only [unhashLoop, unhashKey, hr _ _ kw hk, ih]
  have hh : loadHashedKeys (loadEnv E s d l w a) rec' v args kw = loadHashedKeys E rec v args kw := by
    unfold loadHashedKeys
    simp only [hu]
  unfold dictDes
  simp only [hh, hr _ _ { kw with keyTransformer := some (kw.keyTransformer.getD .ok) } hk,
    hr _ _ { kw with keyTransformer := none } hk]

theorem unionDes_eq (hr : LAgree P rec rec') (v : Val) (t : Ty) (kw : LoadKw) (hk : P kw.fork) :
    unionDes rec' v t kw = unionDes rec v t kw := by
  have hl : ∀ ts, unionLoadLoop rec' v t kw ts = unionLoadLoop rec v t kw ts := by
    intro ts
    induction ts with
    | nil => rfl
    | cons u ts ih => simp only [unionLoadLoop, hr _ _ kw hk, ih]
  unfold unionDes
  simp only [hl]

theorem objectDes_eq (h : SameForks E d l w a P) (hc : DesersPassFork E P) (hr : LAgree P rec rec') (v : Val)
    (t : Ty) (kw : LoadKw) (hk : P kw.fork) :
    objectDes (loadEnv E s d l w a) rec' v t kw = objectDes E rec v t kw := by
  have hm : ∀ name, metaFor (loadEnv E s d l w a) kw name = metaFor E kw name := by
    intro name
    unfold metaFor
    simp only [h.classes _ hk]
  have hv : ∀ obj name hint, valueFromObj (loadEnv E s d l w a) rec' obj name hint kw =
      valueFromObj E rec obj name hint kw := by
    intro obj name hint
    unfold valueFromObj
    simp only [hm]
    refine congrArg _ (funext fun m => congrArg _ (funext fun x => ?_))
    exact hr _ _ _ hk
  have ha : ∀ obj c ps, ctorArgs (loadEnv E s d l w a) rec' obj c kw ps = ctorArgs E rec obj c kw ps := by
    intro obj c ps
    induction ps with
    | nil => rfl
    | cons p ps ih =>
      simp only [ctorArgs, valueForAttr, hv, ih]
      rfl
  have hs : ∀ c es as, setRemaining (loadEnv E s d l w a) rec' c kw es as = setRemaining E rec c kw es as := by
    intro c es
    induction es with
    | nil => intro as; rfl
    | cons e es ih =>
      intro as
      obtain ⟨k, v⟩ := e
      simp only [setRemaining, warnHashed, Env.warn, h.warns _ hk, hr _ _ { kw with attrGetters := [] } hk, ih]
      rfl
  have hg : ∀ c gs as, setGetters (loadEnv E s d l w a) c gs as = setGetters E c gs as := by
    intro c gs
    induction gs with
    | nil => intro as; rfl
    | cons g gs ih =>
      intro as
      obtain ⟨n, g⟩ := g
      simp only [setGetters, ih]
  unfold objectDes
  split
  · simp only [ha, hs, hg]
  · exact (hc rec rec' hr v _ kw hk).2

/-- The deserializers of `complex` and of `timezone`, which do not pass on `fork_inst`. -/
def Forgets : DesFn → Prop
  | .complex | .timezone => True
  | _ => False

theorem callDes_eq (h : SameForks E d l w a P) (hc : DesersPassFork E P) (hr : LAgree P rec rec') (g : DesFn)
    (hg : P 0 ∨ ¬ Forgets g) (v : Val) (t : Ty) (kw : LoadKw) (hk : P kw.fork) :
    callDes (loadEnv E s d l w a) rec' g v t kw = callDes E rec g v t kw := by
  have h0 : Forgets g → ∀ v t, rec' v t {} = rec v t {} := by
    intro hf v t
    exact hr v t {} (hg.resolve_right fun h => h hf)
  cases g with
  | list =>
    show (do let ys ← listDes _ _ _ _ _; pure _) = (do let ys ← listDes _ _ _ _ _; pure _)
    rw [listDes_eq h hr v _ kw hk]
  | tuple => exact tupleDes_eq hr v t kw hk
  | union => exact unionDes_eq hr v t kw hk
  | defaultdict =>
    show defaultdictDes _ _ _ _ = defaultdictDes _ _ _ _
    unfold defaultdictDes
    simp only [hr _ _ kw hk]
  | timezone =>
    show timezoneDes _ _ = timezoneDes _ _
    unfold timezoneDes
    simp only [h0 trivial]
  | complex =>
    show complexDes _ _ = complexDes _ _
    unfold complexDes
    simp only [h0 trivial]
  | string =>
    show stringDes _ _ _ _ _ = stringDes _ _ _ _ _
    unfold stringDes
    simp only [hr _ _ kw hk]
    rfl
  | mapping =>
    show mappingDes _ _ _ _ _ = mappingDes _ _ _ _ _
    unfold mappingDes
    rw [dictDes_eq hr v _ kw hk]
  | iterable =>
    show iterableDes _ _ _ _ _ = iterableDes _ _ _ _ _
    unfold iterableDes
    rw [listDes_eq h hr v _ kw hk]
  | object => exact objectDes_eq h hc hr v t kw hk
  | custom id => exact (hc rec rec' hr v t kw hk).1 id
  | _ => rfl

theorem doLoad_eq (h : SameForks E d l w a P) (hc : DesersPassFork E P) (hr : LAgree P rec rec')
    (fn : Option DesFn) (hg : ∀ g, fn = some g → P 0 ∨ ¬ Forgets g) (v : Val) (t : Ty) (kw : LoadKw)
    (hk : P kw.fork) : doLoad (loadEnv E s d l w a) rec' fn v t kw = doLoad E rec fn v t kw := by
  unfold doLoad
  cases fn with
  | none => rfl
  | some g => simp only [callDes_eq h hc hr g (hg g rfl) v t kw hk, validate_eq h _ t hk]

theorem loadFrom_eq (h : SameForks E d l w a P) (hc : DesersPassFork E P)
    (hz : P 0 ∨ ∀ i, P i → ∀ t g, E.getDes i t = .ok (some g) → ¬ Forgets g) (hr : LAgree P rec rec')
    (v : Val) (cls : Option Ty) (kw : LoadKw) (hk : P kw.fork) :
    loadFrom (loadEnv E s d l w a) rec' v cls kw = loadFrom E rec v cls kw := by
  have hmeta : getClsAndMeta (loadEnv E s d l w a) v kw.fork = getClsAndMeta E v kw.fork := by
    unfold getClsAndMeta
    simp only [h.classes _ hk]
  have hdes : ∀ t, (loadEnv E s d l w a).getDes kw.fork t = E.getDes kw.fork t := h.desers _ hk
  have key : ∀ (t : Ty) (kw' : LoadKw), kw'.fork = kw.fork →
      (do let fn ← Res.liftK (E.getDes kw.fork t)
          doLoad (loadEnv E s d l w a) rec' fn v t kw') =
      (do let fn ← Res.liftK (E.getDes kw.fork t)
          doLoad E rec fn v t kw') := by
    intro t kw' hk'
    cases hf : E.getDes kw.fork t with
    | error k => rfl
    | ok fn =>
      rw [liftK_of_ok, pure_bind', pure_bind']
      refine doLoad_eq h hc hr fn ?_ v t kw' (hk' ▸ hk)
      rintro g rfl
      exact hz.imp id fun h => h _ hk t g hf
  unfold loadFrom
  simp only [hmeta, hdes]
  split
  · rfl
  · exact congrArg _ (funext fun m => key _ _ rfl)

theorem loadRec_agree (h : SameForks E d l w a P) (hc : DesersPassFork E P)
    (hz : P 0 ∨ ∀ i, P i → ∀ t g, E.getDes i t = .ok (some g) → ¬ Forgets g) :
    ∀ n, LAgree P (loadRec E n) (loadRec (loadEnv E s d l w a) n) := by
  intro n
  induction n with
  | zero => exact fun _ _ _ _ => rfl
  | succ n ih =>
    intro v cls kw hk
    have hnone : checkForNone (loadEnv E s d l w a) v cls = checkForNone E v cls := by
      unfold checkForNone canMatchWithNone
      rfl
    simp only [loadRec, loadWith, loadFrom_eq h hc hz ih v cls kw hk, validate_eq h _ _ hk, hnone]

end

/-- C87 for `load`, as far as it holds (it is false for `complex` and `timezone`, see
`load_leaks`): what `load(v, cls, fork_inst=f, **kw)` returns, raises and warns of depends
on no fork but `f` and the main class; it does not depend on the main class either if
the deserializers of `complex` and `timezone` are not used in `f`. -/
theorem load_depends_on_own_fork_partial (E : LEnv) (s : Nat → Verif.Registry.Table SerFn Ty)
    (d : Nat → Verif.Registry.Table DesFn Ty) (l : Nat → Verif.Registry.Table Nat Ty) (w : Nat → PyStr → Bool)
    (a : Nat → PyStr → Except ErrKind Ty) (f n : Nat) (v : Val) (cls : Option Ty) (kw : LoadKw)
    (main : Bool) (hc : DesersPassFork E fun i => i = f ∨ (main = true ∧ i = 0)) (hk : kw.fork = f)
    (hmain : main = true ∨ ∀ t g, E.getDes f t = .ok (some g) → g ≠ .complex ∧ g ≠ .timezone)
    (h : ∀ i, i = f ∨ (main = true ∧ i = 0) →
      d i = E.desers i ∧ l i = E.vals i ∧ w i = E.warns i ∧ a i = E.clsFromStr i) :
    load { E with sers := s, warns := w, desers := d, vals := l, clsFromStr := a } n v cls kw =
      load E n v cls kw := by
  refine loadRec_agree (E := E) (s := s) (P := fun i => i = f ∨ (main = true ∧ i = 0)) ⟨?_, ?_, ?_, ?_⟩ hc ?_ n
    v cls kw (.inl hk)
  · intro i hi t; unfold LEnv.getDes; rw [(h i hi).1]
  · intro i hi t; unfold LEnv.getVal; rw [(h i hi).2.1]
  · exact fun i hi => (h i hi).2.2.1
  · exact fun i hi => (h i hi).2.2.2
  · by_cases hm : main = true
    · exact .inl (.inr ⟨hm, rfl⟩)
    · right
      rintro i (rfl | ⟨h', _⟩) t g hg hf
      · have := hmain.resolve_left hm t g hg
        cases g <;> first | exact hf | exact this.1 rfl | exact this.2 rfl
      · exact hm h'

/-- A deserializer for `Point` registered in another fork, and the one for `datetime` in
the main class. -/
example :
    let E := demoLEnv demoInfo
    let d : Nat → Verif.Registry.Table DesFn Ty := fun i =>
      if i = 2 then .empty else initialDesers demoInfo
    DesersPassFork E (fun i => i = 1 ∨ (true = true ∧ i = 0)) ∧
    (∀ i, i = 1 ∨ (true = true ∧ i = 0) → d i = E.desers i) ∧
    (load { E with desers := d } 9 (.list [.dict [(.str "x".toList, .int 1)]])
      (some (.gen .list [.cls (.user 0)])) { fork := 1 }).val
      = .ok (.list [.obj 0 [("x".toList, .int 1), ("y".toList, .int 0)]]) ∧
    (∃ e, (load { E with desers := d } 9 (.list [.dict [(.str "x".toList, .int 1)]])
      (some (.gen .list [.cls (.user 0)])) { fork := 2 }).val = .error e) := by
  refine ⟨fun _ _ _ _ _ _ _ => ⟨fun _ => rfl, rfl⟩, ?_, by rfl, _, by rfl⟩
  rintro i (rfl | ⟨_, rfl⟩) <;> rfl

/-- The registry of deserializers that the `i`-th class of a program uses (`fork_inst`), after
a history of registrations: `/repo/jsons/_lizers_impl.py` lines 101-112. -/
def desersOf (h : Verif.Registry.Heap DesFn Ty) (i : Nat) : Verif.Registry.Table DesFn Ty :=
  match h.holders[i]? with
  | some x => h.desers.getD x.deser Verif.Registry.Table.empty
  | none => Verif.Registry.Table.empty

/-- C87 for `load` and every history, as far as it holds: as long as a program registers no
deserializers in the fork `f` and in the main class, `load(v, cls, fork_inst=f, **kw)` does
what it did before. -/
theorem load_isolated_partial (E : LEnv) (pre post : List (Verif.Registry.Op DesFn Ty)) (f n : Nat) (v : Val)
    (cls : Option Ty) (kw : LoadKw) (hc : DesersPassFork E fun i => i = f ∨ i = 0) (hk : kw.fork = f)
    (hf : f < (Registry.view .deser pre).owner.length)
    (hpost : ∀ op ∈ post, ∀ j rs, Registry.registrations .deser op = some (j, rs) →
      ∀ i, i = f ∨ i = 0 →
      (Registry.view .deser (pre ++ post)).owner[j]? ≠ (Registry.view .deser (pre ++ post)).owner[i]?) :
    load { E with desers := desersOf (Verif.Registry.run (tyWorld E.info) .init (pre ++ post)) } n v cls kw =
      load { E with desers := desersOf (Verif.Registry.run (tyWorld E.info) .init pre) } n v cls kw := by
  have key : ∀ (h : Verif.Registry.Heap DesFn Ty) i t,
      Verif.Registry.getLizer (tyWorld E.info) (desersOf h i) t = Registry.get .deser (tyWorld E.info) h i t := by
    intro h i t
    unfold desersOf Registry.get Verif.Registry.getDeser
    cases h.holders[i]? with
    | none => exact getLizer_empty E.info t
    | some x => rfl
  refine loadRec_agree (E := { E with desers := desersOf (Verif.Registry.run (tyWorld E.info) .init pre) })
    (s := E.sers) (d := desersOf (Verif.Registry.run (tyWorld E.info) .init (pre ++ post)))
    (P := fun i => i = f ∨ i = 0) ⟨?_, fun _ _ _ => rfl, fun _ _ => rfl, fun _ _ => rfl⟩ hc (.inl (.inr rfl)) n
    v cls kw (.inl hk)
  intro i hi t
  show Verif.Registry.getLizer (tyWorld E.info) _ t = Verif.Registry.getLizer (tyWorld E.info) _ t
  rw [key, key]
  refine Registry.fork_isolated .deser (tyWorld E.info) pre post i ?_ (fun op ho j rs hr => hpost op ho j rs hr i hi) t
  rcases hi with rfl | rfl <;> omega

/-- The registrations after `set_deserializer(f, float)` in the main class. -/
def floatChanged (i : Nat) : Verif.Registry.Table DesFn Ty :=
  if i = 0 then Verif.Registry.setLizer (tyWorld demoInfo) (.custom 0) [some (.cls .float)] true (initialDesers demoInfo)
  else initialDesers demoInfo

/-- The negation of C87 for `load`: after `set_deserializer(f, float)` in the main class,
`load({'real': 1.0, 'imag': 2.0}, complex, fork_inst=fork)` uses `f`, although nothing has
changed in the fork and although `load(1.0, float, fork_inst=fork)` does not use it. -/
theorem load_leaks :
    ∃ (E : LEnv) (d : Nat → Verif.Registry.Table DesFn Ty) (n : Nat) (v : Val) (r : Val),
      d 1 = E.desers 1 ∧ (∀ P, DesersPassFork E P) ∧
      (load E n v (some (.cls .complex)) { fork := 1 }).val = .ok r ∧
      (∃ e, (load { E with desers := d } n v (some (.cls .complex)) { fork := 1 }).val = .error e) := by
  refine ⟨demoLEnv demoInfo, floatChanged, 9, .dict [(.str "real".toList, .int 1), (.str "imag".toList, .int 2)],
    _, rfl, fun _ _ _ _ _ _ _ _ => ⟨fun _ => rfl, rfl⟩, rfl, ?_⟩
  exact ⟨_, rfl⟩

end Verif.Props.Forks
