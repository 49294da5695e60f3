import Verif.Props.Trust
import Verif.Props.Quiet

/-! # A class can be renamed or moved to another module (C116) -/

set_option autoImplicit false

namespace Verif.Props.Rename

open Verif Verif.Core Verif.Datetime Verif.Registry

/-- The same classes with other names and modules. -/
def renameInfo (info : Nat → ClassInfo) (nm : Nat → ClsAttrs) (c : Nat) : ClassInfo :=
  { info c with attrs := nm c }

/-- The same program with other names of the classes; the tables of the registries may differ. -/
abbrev ren (E : LEnv) (nm : Nat → ClsAttrs) (s : Nat → Table SerFn Ty) (d : Nat → Table DesFn Ty)
    (l : Nat → Table Nat Ty) : LEnv :=
  { E with info := renameInfo E.info nm, sers := s, desers := d, vals := l }

section
variable {E : LEnv} {nm : Nat → ClsAttrs} {s : Nat → Table SerFn Ty} {d : Nat → Table DesFn Ty}
  {l : Nat → Table Nat Ty} {rec : LRec}

local notation "E'" => ren E nm s d l

theorem cls_sub_ren (info : Nat → ClassInfo) (a b : Cls) : a.sub (renameInfo info nm) b = a.sub info b := rfl

theorem ty_sub_ren (info : Nat → ClassInfo) (a b : Ty) : a.sub (renameInfo info nm) b = a.sub info b := rfl

mutual
theorem hashable_ren (info : Nat → ClassInfo) : ∀ v : Val, v.hashable (renameInfo info nm) = v.hashable info
  | .atom _ => rfl
  | .enum _ _ => rfl
  | .seq k xs => by cases k <;> first | rfl | exact allHashable_ren info xs
  | .ntuple _ xs => allHashable_ren info xs
  | .dict _ => rfl
  | .ddict _ _ => rfl
  | .obj _ _ => rfl
theorem allHashable_ren (info : Nat → ClassInfo) :
    ∀ xs : List Val, Val.allHashable (renameInfo info nm) xs = Val.allHashable info xs
  | [] => rfl
  | x :: xs => by rw [Val.allHashable, Val.allHashable, hashable_ren info x, allHashable_ren info xs]
end

theorem castSeq_ren (info : Nat → ClassInfo) (c : Cls) (ys : List Val) :
    castSeq (renameInfo info nm) c ys = castSeq info c ys := by
  unfold castSeq
  rw [allHashable_ren]

theorem transformKeys_ren (info : Nat → ClassInfo) (f : Val → Except Err Val) (es acc : List (Val × Val)) :
    transformKeys (renameInfo info nm) f acc es = transformKeys info f acc es := by
  induction es generalizing acc with
  | nil => rfl
  | cons e es ih =>
    obtain ⟨k, v⟩ := e
    simp only [transformKeys, ih, hashable_ren]

theorem dictComp_ren (info : Nat → ClassInfo) (f g : Val → Res Val) (es acc : List (Val × Val)) :
    dictComp (renameInfo info nm) f g acc es = dictComp info f g acc es := by
  induction es generalizing acc with
  | nil => rfl
  | cons e es ih =>
    obtain ⟨k, v⟩ := e
    simp only [dictComp, ih, hashable_ren]

theorem listLoop_ren (cls : Option Ty) (w : Bool) (kw : LoadKw) (xs : List Val) (i : Nat) :
    listLoop E' rec cls w kw i xs = listLoop E rec cls w kw i xs := by
  induction xs generalizing i with
  | nil => rfl
  | cons x xs ih => simp only [listLoop, ih]; rfl

theorem listDes_ren (v : Val) (args : List Ty) (kw : LoadKw) : listDes E' rec v args kw = listDes E rec v args kw := by
  unfold listDes
  simp only [listLoop_ren]

theorem ntupleLoop_ren (c : Nat) (v : Val) (tfm : Option (List (Val × Val))) (len : Nat) (kw : LoadKw)
    (names : List PyStr) (i : Nat) :
    ntupleLoop E' rec c v tfm len kw i names = ntupleLoop E rec c v tfm len kw i names := by
  induction names generalizing i with
  | nil => rfl
  | cons x xs ih => simp only [ntupleLoop, ih]; rfl

theorem tupleDes_ren (v : Val) (t : Ty) (kw : LoadKw) : tupleDes E' rec v t kw = tupleDes E rec v t kw := by
  have hn : ∀ c, ntupleDes E' rec v c kw = ntupleDes E rec v c kw := by
    intro c
    unfold ntupleDes
    simp only [ntupleLoop_ren]
    have : ∀ f, ntupleTfm (renameInfo E.info nm) f v = ntupleTfm E.info f v := by
      intro f
      unfold ntupleTfm
      simp only [transformKeys_ren]
    simp only [this]
    rfl
  unfold tupleDes
  simp only [hn]
  rfl

theorem dictDes_ren (v : Val) (args : List Ty) (kw : LoadKw) : dictDes E' rec v args kw = dictDes E rec v args kw := by
  have hu : ∀ t hs es, unhashLoop E' rec t kw hs es = unhashLoop E rec t kw hs es := by
    intro t hs
    induction hs with
    | nil => intro es; rfl
    | cons h hs ih =>
      intro es
      have : unhashKey E' rec t kw es h = unhashKey E rec t kw es h := by
        unfold unhashKey
        simp only [hashable_ren]
      simp only [unhashLoop, ih, this]
  have hh : loadHashedKeys E' rec v args kw = loadHashedKeys E rec v args kw := by
    unfold loadHashedKeys
    simp only [hu]
  unfold dictDes
  simp only [hh, dictComp_ren]

theorem objectDes_ren (hn : ∀ o, canMatchWithNone E' o = canMatchWithNone E o) (v : Val) (t : Ty) (kw : LoadKw) :
    objectDes E' rec v t kw = objectDes E rec v t kw := by
  have ha : ∀ obj c p, valueForAttr E' rec obj c kw p = valueForAttr E rec obj c kw p := by
    intro obj c p
    unfold valueForAttr
    simp only [hn]
    rfl
  have hargs : ∀ obj c ps, ctorArgs E' rec obj c kw ps = ctorArgs E rec obj c kw ps := by
    intro obj c ps
    induction ps with
    | nil => rfl
    | cons p ps ih => simp only [ctorArgs, ha, ih]
  have hrest : ∀ c es as, setRemaining E' rec c kw es as = setRemaining E rec c kw es as := by
    intro c es
    induction es with
    | nil => intro as; rfl
    | cons e es ih =>
      intro as
      obtain ⟨a, x⟩ := e
      simp only [setRemaining, ih]
      rfl
  have hg : ∀ c gs as, setGetters E' c gs as = setGetters E c gs as := by
    intro c gs
    induction gs with
    | nil => intro as; rfl
    | cons g gs ih =>
      intro as
      obtain ⟨n, g⟩ := g
      simp only [setGetters, ih]
  have ht : ∀ kt, transformObj (renameInfo E.info nm) v kt = transformObj E.info v kt := by
    intro kt
    unfold transformObj
    simp only [transformKeys_ren]
  unfold objectDes
  simp only [hargs, hrest, hg, ht]
  rfl

theorem callDes_ren (hn : ∀ o, canMatchWithNone E' o = canMatchWithNone E o) (g : DesFn) (v : Val) (t : Ty)
    (kw : LoadKw) : callDes E' rec g v t kw = callDes E rec g v t kw := by
  cases g with
  | list => simp only [callDes, listDes_ren]
  | tuple => exact tupleDes_ren v t kw
  | mapping => simp only [callDes, mappingDes, dictDes_ren]
  | iterable => simp only [callDes, iterableDes, listDes_ren, castSeq_ren]
  | object => exact objectDes_ren hn v t kw
  | _ => rfl

/-- The names of the classes do not matter to `load` except through the registries and
`can_match_with_none`. -/
theorem load_ren (hd : ∀ i t, (E').getDes i t = E.getDes i t) (hv : ∀ i t, (E').getVal i t = E.getVal i t)
    (hn : ∀ o, canMatchWithNone E' o = canMatchWithNone E o) (n : Nat) : load E' n = load E n := by
  have hval : ∀ v t i, validate E' v t i = validate E v t i := by
    intro v t i
    unfold validate
    rw [hv]
  have hw : ∀ rec, loadWith E' rec = loadWith E rec := by
    intro rec
    funext v cls kw
    have h1 : checkForNone E' v cls = checkForNone E v cls := by
      unfold checkForNone
      rw [hn]
    have h2 : loadFrom E' rec v cls kw = loadFrom E rec v cls kw := by
      unfold loadFrom
      simp only [hd]
      have : ∀ fn v t kw, doLoad E' rec fn v t kw = doLoad E rec fn v t kw := by
        intro fn v t kw
        unfold doLoad
        simp only [callDes_ren hn, hval]
      simp only [this]
      rfl
    unfold loadWith
    simp only [h1, h2, hval]
  induction n with
  | zero => rfl
  | succ n ih =>
    show loadWith E' (loadRec E' n) = loadWith E (loadRec E n)
    rw [hw]
    exact congrArg _ ih

end

/-! ## `dump` -/

/-- An event without the text of the warning. -/
def gist : Event → Event
  | .warn code _ => .warn code []
  | .announce t i => .announce t i

/-- The same outcome, and the same events up to the texts of warnings. -/
def Same {α : Type} (x x' : Res α) : Prop := x'.val = x.val ∧ x'.log.map gist = x.log.map gist

section
variable {α β : Type}

theorem Same.refl (x : Res α) : Same x x := ⟨rfl, rfl⟩

theorem Same.of_eq {x x' : Res α} (h : x' = x) : Same x x' := h ▸ .refl _

theorem Same.attempt {x x' : Res α} (h : Same x x') : Same x.attempt x'.attempt :=
  ⟨congrArg Except.ok h.1, h.2⟩

theorem Same.bind {x x' : Res α} {f f' : α → Res β} (h : Same x x') (hf : ∀ a, Same (f a) (f' a)) :
    Same (x >>= f) (x' >>= f') := by
  obtain ⟨l, v⟩ := x
  obtain ⟨l', v'⟩ := x'
  obtain ⟨h1, h2⟩ := h
  dsimp only at h1 h2
  subst h1
  cases v' with
  | error e => exact ⟨rfl, h2⟩
  | ok a =>
    refine ⟨(hf a).1, ?_⟩
    show (l' ++ (f' a).log).map gist = (l ++ (f a).log).map gist
    rw [List.map_append, List.map_append, h2, (hf a).2]

theorem Same.mapRes {f f' : α → Res β} (h : ∀ x, Same (f x) (f' x)) : ∀ xs, Same (mapRes f xs) (mapRes f' xs)
  | [] => .refl _
  | x :: xs => (h x).bind fun _ => (Same.mapRes h xs).bind fun _ => .refl _

theorem Same.ite {p : Prop} [Decidable p] {x x' y y' : Res α} (h : Same x x') (h' : Same y y') :
    Same (if p then x else y) (if p then x' else y') := by
  split
  · exact h
  · exact h'

end

/-- No class names are asked for. -/
structure Plain (kw : DumpKw) : Prop where
  verbose : kw.verbose.classInfo = false
  storeCls : kw.storeCls = false

/-- Calls have the same outcome. -/
structure SameRec (rec rec' : Rec) : Prop where
  dump : ∀ v cls kw, Plain kw → Same (rec.dump v cls kw) (rec'.dump v cls kw)
  call : ∀ g v cls kw, Plain kw → Same (rec.call g v cls kw) (rec'.call g v cls kw)

/-- The serializers of the program do not look at the texts of warnings, and do not ask for class
names. -/
def Blind (E : Env) : Prop :=
  ∀ id rec rec', SameRec rec rec' → ∀ v cls kw, Plain kw → Same (E.customSer id rec v cls kw) (E.customSer id rec' v cls kw)

/-- The same program with other names of the classes. -/
abbrev renD (E : Env) (nm : Nat → ClsAttrs) (s : Nat → Table SerFn Ty) : Env :=
  { E with info := renameInfo E.info nm, sers := s }

section
variable {E : Env} {nm : Nat → ClsAttrs} {s : Nat → Table SerFn Ty} {rec rec' : Rec}

local notation "E'" => renD E nm s

theorem listSer_ren (hs : ∀ i t, (E').getSer i t = E.getSer i t) (hr : SameRec rec rec') (v : Val) (cls : Option Ty)
    (kw : DumpKw) (hk : Plain kw) : Same (listSer E rec v cls kw) (listSer E' rec' v cls kw) := by
  have ht : ∀ xs t kw', Plain kw' → Same (listSer.typed E rec kw xs t kw') (listSer.typed E' rec' kw xs t kw') := by
    intro xs t kw' hk'
    unfold listSer.typed
    rw [hs]
    refine .bind (.refl _) fun fn => .bind (.mapRes (fun x => ?_) xs) fun _ => .refl _
    cases fn with
    | none => exact .refl _
    | some g => exact hr.call _ _ _ _ hk'
  unfold listSer
  refine .ite (.refl _) ?_
  dsimp only
  split
  · exact .refl _
  · split
    · exact ht _ _ _ ⟨hk.1, rfl⟩
    · refine .ite ?_ (.bind (.mapRes (fun x => hr.dump _ _ _ (by exact ⟨hk.1, rfl⟩)) _) fun _ => .refl _)
      split <;> first | exact .refl _ | exact ht _ _ _ ⟨hk.1, rfl⟩

theorem iterableSer_ren (hr : SameRec rec rec') (v : Val) (cls : Option Ty) (kw : DumpKw) (hk : Plain kw) :
    Same (iterableSer E rec v cls kw) (iterableSer E' rec' v cls kw) := by
  unfold iterableSer
  dsimp only
  split
  · exact .refl _
  · exact .bind (.refl _) fun _ => .bind (.mapRes (fun x => hr.dump _ _ _ (by exact ⟨hk.1, rfl⟩)) _) fun _ => .refl _

theorem tupleSer_ren (hr : SameRec rec rec') (v : Val) (cls : Option Ty) (kw : DumpKw) (hk : Plain kw) :
    Same (tupleSer E rec v cls kw) (tupleSer E' rec' v cls kw) := by
  unfold tupleSer
  split
  · unfold namedtupleSer
    exact .bind (.mapRes (fun x => .bind (hr.dump _ _ _ hk) fun _ => .refl _) _) fun _ => .refl _
  · exact .bind (.refl _) fun _ => iterableSer_ren hr _ _ _ hk

theorem storeAndHash_ren (hr : SameRec rec rec') (result : List (Val × Val)) (key : Val) (kw : DumpKw)
    (hk : Plain kw) : Same (storeAndHash E rec result key kw) (storeAndHash E' rec' result key kw) := by
  unfold storeAndHash
  exact .ite (.refl _) (.bind (hr.dump _ _ _ ⟨hk.1, hk.2⟩) fun _ => .refl _)

theorem dictLoop_ren (hr : SameRec rec rec') (kw : DumpKw) (hk : Plain kw) :
    ∀ es acc, Same (dictLoop E rec kw es acc) (dictLoop E' rec' kw es acc) := by
  intro es
  induction es with
  | nil => intro acc; exact .refl _
  | cons e es ih =>
    intro acc
    obtain ⟨key, v⟩ := e
    unfold dictLoop
    dsimp only
    exact .bind (storeAndHash_ren hr _ _ _ hk) fun _ => .bind (hr.dump _ _ _ ⟨hk.1, hk.2⟩) fun _ =>
      .bind (.refl _) fun _ => ih _

theorem unionLoop_ren (hr : SameRec rec rec') (v : Val) (kw : DumpKw) (hk : Plain kw) :
    ∀ ts, Same (unionLoop rec v kw ts) (unionLoop rec' v kw ts) := by
  intro ts
  induction ts with
  | nil => exact .refl _
  | cons t ts ih =>
    unfold unionLoop
    refine .bind (hr.dump _ _ _ ⟨hk.1, hk.2⟩).attempt fun r => ?_
    cases r with
    | ok r => exact .refl _
    | error e => exact .ite ih (.refl _)

theorem attrLoop_ren (hs : ∀ i t, (E').getSer i t = E.getSer i t) (hr : SameRec rec rec') (kw : DumpKw)
    (hk : Plain kw) (b : Bool) (v : Val) (name name' : PyStr) :
    ∀ as acc, Same (attrLoop E rec kw b v name as acc) (attrLoop E' rec' kw b v name' as acc) := by
  intro as
  induction as with
  | nil => intro acc; exact .refl _
  | cons a as ih =>
    intro acc
    obtain ⟨n, hint⟩ := a
    unfold attrLoop
    dsimp only
    simp only [hs]
    refine .bind (.refl _) fun attr => .bind (.refl _) fun _ => .bind (.refl _) fun fn => .bind ?_ fun r => ?_
    · refine Same.attempt ?_
      unfold dumpAttr
      cases fn with
      | none => exact .refl _
      | some g =>
        refine .bind (hr.call _ _ _ _ hk) fun r => ?_
        unfold storeClsInfo
        rw [hk.2]
        cases r <;> exact .refl _
    · cases r with
      | error e =>
        refine .ite (.refl _) (.ite (.refl _) (.bind ?_ fun _ => .refl _))
        unfold Env.warn
        show Same (if E.warns kw.fork _ then _ else _) (if E.warns kw.fork _ then _ else _)
        split
        · exact ⟨rfl, rfl⟩
        · exact .refl _
      | ok x => exact .bind (.refl _) fun _ => ih _

theorem keepAttr_ren (I : ClassInfo) (a : ClsAttrs) (kw : DumpKw) (strip : List PyStr) (attr : PyStr) :
    keepAttr { I with attrs := a } kw strip attr = keepAttr I kw strip attr := rfl

theorem filterAttributes_ren (I : ClassInfo) (a : ClsAttrs) (kw : DumpKw) (strip : StripAttr) (l : List (PyStr × Option Ty)) :
    filterAttributes { I with attrs := a } kw strip l = filterAttributes I kw strip l := by
  have hg : ∀ strip, filterAttributes.go { I with attrs := a } kw strip l = filterAttributes.go I kw strip l := by
    intro strip
    induction l with
    | nil => rfl
    | cons p l ih =>
      obtain ⟨n, t⟩ := p
      simp only [filterAttributes.go, ih, keepAttr_ren]
  unfold filterAttributes
  cases strip with
  | tuple l => exact hg _
  | tupleOfSet => exact hg _
  | _ => rfl

theorem fromObject_ren (I : ClassInfo) (a : ClsAttrs) (as : List (PyStr × Val)) (kw : DumpKw) (strip : StripAttr) :
    attributesFromObject { I with attrs := a } as kw strip = attributesFromObject I as kw strip := by
  unfold attributesFromObject
  rw [filterAttributes_ren]
  rfl

theorem fromClass_ren (I : ClassInfo) (a : ClsAttrs) (kw : DumpKw) (strip : StripAttr) :
    attributesFromClass { I with attrs := a } kw strip = attributesFromClass I kw strip := by
  unfold attributesFromClass
  rw [filterAttributes_ren]
  rfl

theorem objectSer_ren (hs : ∀ i t, (E').getSer i t = E.getSer i t) (hr : SameRec rec rec') (v : Val) (cls : Option Ty)
    (kw : DumpKw) (hk : Plain kw) : Same (objectSer E rec v cls kw) (objectSer E' rec' v cls kw) := by
  have hm : ∀ r n n', dictWithMeta E' r n' kw.verbose = dictWithMeta E r n kw.verbose := by
    intro r n n'
    unfold dictWithMeta
    simp only [hk.1]
    rfl
  have hw : ∀ v strip t I I' as, I'.isAttrs = I.isAttrs → Same (objectSerWith E rec v kw strip t I as)
      (objectSerWith E' rec' v kw strip t I' as) := by
    intro v strip t I I' as hI
    unfold objectSerWith
    dsimp only
    rw [hI]
    refine .bind (.refl _) fun _ => .bind (attrLoop_ren hs hr _ (by exact ⟨hk.1, hk.1⟩) _ _ _ _ _ _) fun r =>
      .ite (.refl _) ?_
    rw [hm r ((E).className true t)]
    exact .refl _
  have ho : ∀ c as strip, attributesFromObject (renameInfo E.info nm c) as kw strip =
      attributesFromObject (E.info c) as kw strip := fun c as strip => fromObject_ren _ _ _ _ _
  have hc : ∀ c strip, attributesFromClass (renameInfo E.info nm c) kw strip =
      attributesFromClass (E.info c) kw strip := fun c strip => fromClass_ren _ _ _ _
  unfold objectSer
  dsimp only
  simp only [ho, hc]
  split
  · split <;> exact hw _ _ _ _ _ _ rfl
  · refine .ite ?_ ?_
    · split <;> exact hw _ _ _ _ _ _ rfl
    · split <;> exact hw _ _ _ _ _ _ rfl

theorem callSer_ren (hs : ∀ i t, (E').getSer i t = E.getSer i t) (hc : Blind E) (hr : SameRec rec rec') (g : SerFn)
    (v : Val) (cls : Option Ty) (kw : DumpKw) (hk : Plain kw) :
    Same (callSer E rec g v cls kw) (callSer E' rec' g v cls kw) := by
  cases g with
  | tuple => exact tupleSer_ren hr v cls kw hk
  | timezone =>
    show Same (timezoneSer rec v cls kw) (timezoneSer rec' v cls kw)
    unfold timezoneSer
    split
    · exact .bind (hr.dump _ _ _ ⟨hk.1, hk.2⟩) fun _ => .refl _
    · exact .refl _
  | dict =>
    show Same (dictSer E rec v kw) (dictSer E' rec' v kw)
    unfold dictSer
    split
    · exact .bind (dictLoop_ren hr _ ⟨hk.1, hk.2⟩ _ _) fun _ => .refl _
    · exact .bind (dictLoop_ren hr _ ⟨hk.1, hk.2⟩ _ _) fun _ => .refl _
    · exact .refl _
  | list => exact listSer_ren hs hr v cls kw hk
  | iterable => exact iterableSer_ren hr v cls kw hk
  | object => exact objectSer_ren hs hr v cls kw hk
  | union =>
    show Same (unionSer rec v cls kw) (unionSer rec' v cls kw)
    unfold unionSer
    split
    · exact .refl _
    · exact .ite (.refl _) (unionLoop_ren hr _ _ hk _)
  | custom id => exact hc id rec rec' hr v cls kw hk
  | _ => exact .refl _

/-- The names of the classes do not matter to `dump` except through the registries, for class infos,
and in the texts of warnings. -/
theorem recOf_ren (hs : ∀ i t, (E').getSer i t = E.getSer i t) (hc : Blind E) :
    ∀ n, SameRec (recOf E n) (recOf E' n) := by
  intro n
  induction n with
  | zero => exact ⟨fun _ _ _ _ => .refl _, fun _ _ _ _ _ => .refl _⟩
  | succ n ih =>
    refine ⟨fun v cls kw hk => ?_, fun g v cls kw hk => callSer_ren hs hc ih g v cls kw hk⟩
    show Same (dumpWith E (recOf E n) v cls kw) (dumpWith E' (recOf E' n) v cls kw)
    unfold dumpWith
    dsimp only
    rw [hs]
    refine .bind (.refl _) fun fn => .bind (.refl _) fun _ => .bind ?_ fun r => .refl _
    refine Same.attempt ?_
    cases fn with
    | none => exact .refl _
    | some g => exact ih.call _ _ _ _ hk

end

/-! ## The registries -/

/-- Registrations: a function, the classes that it is registered for, and `high_prio`. -/
abbrev Regs (F : Type) := List (F × List (Option Ty) × Bool)

/-- The registry after these calls of `set_serializer` or `set_deserializer`, beginning with those
of jsons itself (`initialSers`, `initialDesers`); `/repo/jsons/_lizers_impl.py` lines 10-82. -/
def register {F : Type} (info : Nat → ClassInfo) (rs : Regs F) (t : Table F Ty) : Table F Ty :=
  rs.foldl (fun t r => setLizer (tyWorld info) r.1 r.2.1 r.2.2 t) t

/-- The registry after these calls of `set_validator`; `/repo/jsons/_validation.py` lines 10-35. -/
def registerVals (info : Nat → ClassInfo) (rs : List (Nat × List Ty)) : Table Nat Ty :=
  rs.foldl (fun t r => setVal (tyWorld info) r.1 r.2 t) Table.empty

/-- A type has the new name of one of the types `G`, without regard to case, if and only if it has
the old name of that type. -/
structure SameNames (G : Ty → Prop) (info info' : Nat → ClassInfo) : Prop where
  same : ∀ a b, G b → ((tyWorld info').lookupName a = (tyWorld info').lookupName b ↔
    (tyWorld info).lookupName a = (tyWorld info).lookupName b)
  none : ∀ a, (tyWorld info').lookupName a = "nonetype".toList ↔ (tyWorld info).lookupName a = "nonetype".toList

/-- Two registries with the same functions under different names. -/
structure TablesAlike {F : Type} (info info' : Nat → ClassInfo) (t t' : Table F Ty) : Prop where
  classes : t'.classes = t.classes
  lizers : ∀ a, t'.lizers ((tyWorld info').lookupName a) = t.lizers ((tyWorld info).lookupName a)

section
variable {F : Type} {info : Nat → ClassInfo} {nm : Nat → ClsAttrs} {G : Ty → Prop}

theorem regName_eq (W : World Ty) (c : Ty) : W.regName c = W.lookupName c := by
  unfold World.regName World.lookupName getClassName
  dsimp only
  split <;> rfl

theorem update_alike {info' : Nat → ClassInfo} (h : SameNames G info info') {t t' : Table F Ty}
    (ht : TablesAlike info info' t t') (c : Ty) (hc : G c) (f : F) (a : Ty) :
    update t'.lizers ((tyWorld info').regName c) f ((tyWorld info').lookupName a) =
      update t.lizers ((tyWorld info).regName c) f ((tyWorld info).lookupName a) := by
  unfold update
  rw [regName_eq, regName_eq, ht.lizers]
  by_cases ha : (tyWorld info).lookupName a = (tyWorld info).lookupName c
  · rw [if_pos ha, if_pos ((h.same a c hc).2 ha)]
  · rw [if_neg ha, if_neg fun h' => ha ((h.same a c hc).1 h')]

theorem setLizer_alike {info' : Nat → ClassInfo} (h : SameNames G info info') (f : F) (hp : Bool)
    (cs : List (Option Ty)) (hcs : ∀ c, some c ∈ cs → G c) {t t' : Table F Ty} (ht : TablesAlike info info' t t') :
    TablesAlike info info' (setLizer (tyWorld info) f cs hp t) (setLizer (tyWorld info') f cs hp t') := by
  unfold setLizer
  induction cs generalizing t t' with
  | nil => exact ht
  | cons c cs ih =>
    refine ih (fun c hc => hcs c (List.mem_cons_of_mem _ hc)) ?_
    cases c with
    | some c =>
      refine ⟨?_, update_alike h ht c (hcs c List.mem_cons_self) f⟩
      show (if hp then _ else _) = if hp then _ else _
      rw [ht.classes]
    | none =>
      refine ⟨ht.classes, fun a => ?_⟩
      show update t'.lizers _ f _ = update t.lizers _ f _
      unfold update
      rw [ht.lizers]
      by_cases ha : (tyWorld info).lookupName a = "nonetype".toList
      · rw [if_pos ha, if_pos ((h.none a).2 ha)]
      · rw [if_neg ha, if_neg fun h' => ha ((h.none a).1 h')]

theorem register_alike {info' : Nat → ClassInfo} (h : SameNames G info info') (rs : Regs F)
    (hrs : ∀ r ∈ rs, ∀ c, some c ∈ r.2.1 → G c) {t t' : Table F Ty}
    (ht : TablesAlike info info' t t') : TablesAlike info info' (register info rs t) (register info' rs t') := by
  unfold register
  induction rs generalizing t t' with
  | nil => exact ht
  | cons r rs ih =>
    exact ih (fun r hr => hrs r (List.mem_cons_of_mem _ hr))
      (setLizer_alike h r.1 r.2.2 r.2.1 (hrs r List.mem_cons_self) ht)

theorem empty_alike {info' : Nat → ClassInfo} : TablesAlike info info' (Table.empty : Table F Ty) Table.empty :=
  ⟨rfl, fun _ => rfl⟩

theorem registerVals_alike {info' : Nat → ClassInfo} (h : SameNames G info info') (rs : List (Nat × List Ty))
    (hrs : ∀ r ∈ rs, ∀ c ∈ r.2, G c) : TablesAlike info info' (registerVals info rs) (registerVals info' rs) := by
  have key : ∀ (rs : List (Nat × List Ty)) (t t' : Table Nat Ty), (∀ r ∈ rs, ∀ c ∈ r.2, G c) → TablesAlike info info' t t' → TablesAlike info info'
      (rs.foldl (fun t r => setVal (tyWorld info) r.1 r.2 t) t)
      (rs.foldl (fun t r => setVal (tyWorld info') r.1 r.2 t) t') := by
    intro rs
    induction rs with
    | nil => exact fun _ _ _ ht => ht
    | cons r rs ih =>
      intro t t' hrs ht
      refine ih _ _ (fun r hr => hrs r (List.mem_cons_of_mem _ hr)) ?_
      have hcs := hrs r List.mem_cons_self
      obtain ⟨f, cs⟩ := r
      clear hrs ih
      dsimp only at hcs ⊢
      unfold setVal
      induction cs generalizing t t' with
      | nil => exact ht
      | cons c cs ihc =>
        refine ihc _ _ ⟨?_, update_alike h ht c (hcs c List.mem_cons_self) f⟩ fun c hc => hcs c (List.mem_cons_of_mem _ hc)
        show t'.classes ++ [c] = t.classes ++ [c]
        rw [ht.classes]
  exact key rs _ _ hrs empty_alike

theorem getLizer_alike {t t' : Table F Ty} (ht : TablesAlike info (renameInfo info nm) t t') (c : Ty) :
    getLizer (tyWorld (renameInfo info nm)) t' c = getLizer (tyWorld info) t c := by
  have hr : ∀ c, getLizerRec (tyWorld (renameInfo info nm)) t' c = getLizerRec (tyWorld info) t c := by
    intro c
    have hp : getParents (tyWorld (renameInfo info nm)) c t'.classes = getParents (tyWorld info) c t.classes := by
      rw [ht.classes]; rfl
    unfold getLizerRec getLizerByParents
    rw [ht.lizers, hp]
    simp only [ht.lizers]
  unfold getLizer
  rw [hr]
  have : (tyWorld (renameInfo info nm)).supertype c = (tyWorld info).supertype c := rfl
  simp only [this, hr]

end

/-! ## C116 -/

/-- A program: its surroundings, the names of its classes, what it registers in its forks (serializers,
deserializers, validators), and which classes are found by name. -/
def program (E : LEnv) (nm : Nat → ClsAttrs) (rs : Nat → Regs SerFn) (ds : Nat → Regs DesFn)
    (vs : Nat → List (Nat × List Ty)) (cs : Nat → PyStr → Except ErrKind Ty) : LEnv :=
  { E with
    info := renameInfo E.info nm
    sers := fun i => register (renameInfo E.info nm) (rs i) Table.empty
    desers := fun i => register (renameInfo E.info nm) (ds i) Table.empty
    vals := fun i => registerVals (renameInfo E.info nm) (vs i)
    clsFromStr := cs }

/-- Something is registered for the type. -/
def Registered (rs : Nat → Regs SerFn) (ds : Nat → Regs DesFn) (vs : Nat → List (Nat × List Ty)) (t : Ty) : Prop :=
  (∃ i, ∃ r ∈ rs i, some t ∈ r.2.1) ∨ (∃ i, ∃ r ∈ ds i, some t ∈ r.2.1) ∨ ∃ i, ∃ r ∈ vs i, t ∈ r.2

/-- The name of the class contains `union` or `optional`, in any case. -/
def looksLikeUnion (a : ClsAttrs) : Bool :=
  PyStr.hasSub (getClassName a id false).lower "union".toList ||
  PyStr.hasSub (getClassName a id false).lower "optional".toList

theorem none_ren {E : LEnv} {nm nm' : Nat → ClsAttrs} {rs : Nat → Regs SerFn} {ds : Nat → Regs DesFn}
    {vs : Nat → List (Nat × List Ty)} {cs cs' : Nat → PyStr → Except ErrKind Ty}
    (h : ∀ c, looksLikeUnion (nm' c) = looksLikeUnion (nm c)) (o : Option Ty) :
    canMatchWithNone (program E nm' rs ds vs cs') o = canMatchWithNone (program E nm rs ds vs cs) o := by
  match o with
  | none => rfl
  | some (.cls k) =>
    cases hk : k with
    | user c =>
    have h1 : ∀ (nm : Nat → ClsAttrs) (cs : Nat → PyStr → Except ErrKind Ty),
        canMatchWithNone (program E nm rs ds vs cs) (some (.cls (.user c))) =
        if looksLikeUnion (nm c) then .error .typeError else .ok false := fun _ _ => rfl
    rw [h1, h1, h c]
    | _ => rfl
  | some .any => rfl
  | some (.gen g as) => rfl
  | some (.union as) =>
    match as with
    | [] => rfl
    | [_] => rfl
    | [_, _] => rfl
    | _ :: _ :: _ :: _ => rfl
  | some (.newtype _ _) => rfl
  | some (.special b) => cases b <;> rfl

section
variable (E : LEnv) (nm nm' : Nat → ClsAttrs) (rs : Nat → Regs SerFn) (ds : Nat → Regs DesFn)
  (vs : Nat → List (Nat × List Ty)) (cs cs' : Nat → PyStr → Except ErrKind Ty)

/-- C116 for `dump`: two programs that differ in the names (and modules) of their classes only.  If
no name has come to be, or ceased to be, that of a type for which something is registered, then
without class infos `dump` returns and raises the same in both, and gives the same warnings up to
their texts. -/
theorem rename_dump (h : SameNames (Registered rs ds vs) (renameInfo E.info nm) (renameInfo E.info nm'))
    (hb : Blind E.toEnv) (n : Nat) (v : Val) (cls : Option Ty) (kw : DumpKw)
    (hk : kw.verbose.classInfo = false) (hk' : kw.storeCls = false) :
    (dump (program E nm' rs ds vs cs').toEnv n v cls kw).val = (dump (program E nm rs ds vs cs).toEnv n v cls kw).val ∧
    (dump (program E nm' rs ds vs cs').toEnv n v cls kw).log.map gist =
      (dump (program E nm rs ds vs cs).toEnv n v cls kw).log.map gist := by
  refine (recOf_ren (E := (program E nm rs ds vs cs).toEnv) (nm := nm')
    (s := fun i => register (renameInfo E.info nm') (rs i) Table.empty) (fun i t => ?_) hb n).dump v cls kw ⟨hk, hk'⟩
  exact getLizer_alike (info := renameInfo E.info nm) (register_alike h (rs i)
    (fun r hr c hc => .inl ⟨i, r, hr, hc⟩) empty_alike) t

/-- C116 for `load` if the same names are found (as the old names were announced for the renamed
classes, say): no document is loaded differently. -/
theorem rename_load_announced (h : SameNames (Registered rs ds vs) (renameInfo E.info nm) (renameInfo E.info nm'))
    (hu : ∀ c, looksLikeUnion (nm' c) = looksLikeUnion (nm c)) (n : Nat) (v : Val) (cls : Option Ty) (kw : LoadKw) :
    load (program E nm' rs ds vs cs) n v cls kw = load (program E nm rs ds vs cs) n v cls kw := by
  have := load_ren (E := program E nm rs ds vs cs) (nm := nm')
    (s := fun i => register (renameInfo E.info nm') (rs i) Table.empty)
    (d := fun i => register (renameInfo E.info nm') (ds i) Table.empty)
    (l := fun i => registerVals (renameInfo E.info nm') (vs i))
    (fun i t => getLizer_alike (info := renameInfo E.info nm) (register_alike h (ds i)
      (fun r hr c hc => .inr (.inl ⟨i, r, hr, hc⟩)) empty_alike) t)
    (fun i t => getLizer_alike (info := renameInfo E.info nm) (registerVals_alike h (vs i)
      (fun r hr c hc => .inr (.inr ⟨i, r, hr, hc⟩))) t)
    (none_ren hu) n
  exact congrFun (congrFun (congrFun this v) cls) kw

open Verif.Props.Trust (Doc NamesIn PlainDefaults Stay Written) in
/-- C116 for `load`: two programs that differ in the names (and modules) of their classes only.  If
no name has come to be, or ceased to be, that of a type for which something is registered, and if
the names written in the '-meta' sections of the document (`N`) lead to the same classes, then
`load` returns, raises and warns of the same in both. -/
theorem rename_load (h : SameNames (Registered rs ds vs) (renameInfo E.info nm) (renameInfo E.info nm'))
    (hu : ∀ c, looksLikeUnion (nm' c) = looksLikeUnion (nm c)) (n : Nat) (N : PyStr → Prop) (v : Val)
    (cls : Option Ty) (kw : LoadKw) (hv : Doc N v) (hm : ∀ hs ∈ kw.metaHints, NamesIn N hs)
    (hd : PlainDefaults (program E nm rs ds vs cs) kw.fork N cls)
    (hkt : ∀ g ∈ kw.keyTransformer, ∀ k k', Doc N k → g k = .ok k' → Doc N k')
    (hstay : Stay (program E nm rs ds vs cs) kw.fork (kw.keyTransformer.getD .ok)
      (Written (program E nm rs ds vs cs) v cls kw) (Registrations.LGiven (program E nm rs ds vs cs) v cls kw))
    (hcs : ∀ i s, N s → cs' i s = cs i s) :
    load (program E nm' rs ds vs cs') n v cls kw = load (program E nm rs ds vs cs) n v cls kw := by
  rw [rename_load_announced E nm nm' rs ds vs cs' h hu]
  exact Trust.load_makes_mentioned (program E nm rs ds vs cs) E.construct E.setAttr cs' n N v cls kw hv hm hd hkt hstay
    (fun _ _ => ⟨rfl, rfl⟩) hcs

end

/-! ## Programs that register nothing for their own classes -/

/-- A class of the program. -/
def isUser : Option Ty → Bool
  | some (.cls (.user _)) => true
  | _ => false

theorem initial_own : (∀ r ∈ serRegistrations, ∀ o ∈ r.2.1, isUser o = false) ∧
    ∀ r ∈ desRegistrations, ∀ o ∈ r.2.1, isUser o = false := by
  constructor <;> decide

theorem lookup_other (info : Nat → ClassInfo) (nm : Nat → ClsAttrs) {t : Ty} (h : isUser (some t) = false) :
    (tyWorld (renameInfo info nm)).lookupName t = (tyWorld info).lookupName t := by
  match t with
  | .cls (.user c) => cases h
  | .cls k => cases k <;> first | rfl | contradiction
  | .any => rfl
  | .gen g as => rfl
  | .union as =>
    match as with
    | [] => rfl
    | [_] => rfl
    | [_, _] => rfl
    | _ :: _ :: _ :: _ => rfl
  | .newtype _ _ => rfl
  | .special b => cases b <;> rfl

/-- If only jsons itself registers serializers and deserializers, and no validators are registered,
then it is enough that the names of the classes are not those of types of Python. -/
theorem sameNames_initial (info : Nat → ClassInfo) (nm nm' : Nat → ClsAttrs)
    (h : NamesOk (renameInfo info nm) (serNames ++ desNames)) (h' : NamesOk (renameInfo info nm') (serNames ++ desNames)) :
    SameNames (Registered (fun _ => serRegistrations) (fun _ => desRegistrations) (fun _ => []))
      (renameInfo info nm) (renameInfo info nm') := by
  have hreg : ∀ (nm : Nat → ClsAttrs) (b : Ty), Registered (fun _ => serRegistrations) (fun _ => desRegistrations) (fun _ => []) b →
      isUser (some b) = false ∧ (tyWorld (renameInfo info nm)).lookupName b ∈ serNames ++ desNames := by
    intro nm b hb
    have hs : serNames = serRegistrations.flatMap fun r => r.2.1.map (tyWorld (renameInfo info nm)).key := by rfl
    have hd : desNames = desRegistrations.flatMap fun r => r.2.1.map (tyWorld (renameInfo info nm)).key := by rfl
    have hk : (tyWorld (renameInfo info nm)).lookupName b = (tyWorld (renameInfo info nm)).key (some b) :=
      (regName_eq _ _).symm
    rcases hb with ⟨_, r, hr, hb⟩ | ⟨_, r, hr, hb⟩ | ⟨_, r, hr, _⟩
    · refine ⟨initial_own.1 r hr _ hb, List.mem_append_left _ ?_⟩
      rw [hs, hk]
      exact List.mem_flatMap.2 ⟨r, hr, List.mem_map.2 ⟨_, hb, rfl⟩⟩
    · refine ⟨initial_own.2 r hr _ hb, List.mem_append_right _ ?_⟩
      rw [hd, hk]
      exact List.mem_flatMap.2 ⟨r, hr, List.mem_map.2 ⟨_, hb, rfl⟩⟩
    · cases hr
  have huser : ∀ (nm : Nat → ClsAttrs) (hn : NamesOk (renameInfo info nm) (serNames ++ desNames)) (c : Nat),
      (tyWorld (renameInfo info nm)).lookupName (.cls (.user c)) ∉ serNames ++ desNames := by
    intro nm hn c
    rw [← regName_eq]
    exact hn c
  constructor
  · intro a b hb
    have hb1 := hreg nm b hb
    have hb2 := hreg nm' b hb
    cases ha : isUser (some a) with
    | true =>
      match a, ha with
      | .cls (.user c), _ =>
        exact ⟨fun he => absurd (he ▸ hb2.2) (huser nm' h' c), fun he => absurd (he ▸ hb1.2) (huser nm h c)⟩
    | false =>
      rw [lookup_other info nm ha, lookup_other info nm' ha, lookup_other info nm hb1.1, lookup_other info nm' hb1.1]
  · intro a
    have hm : "nonetype".toList ∈ serNames ++ desNames := by decide
    cases ha : isUser (some a) with
    | true =>
      match a, ha with
      | .cls (.user c), _ =>
        exact ⟨fun he => absurd (he ▸ hm) (huser nm' h' c), fun he => absurd (he ▸ hm) (huser nm h c)⟩
    | false => rw [lookup_other info nm ha, lookup_other info nm' ha]

/-! ## Examples -/

/-- The names of the example. -/
def oldNames (c : Nat) : ClsAttrs := (demoInfo c).attrs

/-- `Point` has become `shop.Item`, and `Person` has become `__main__.Employee`. -/
def newNames : Nat → ClsAttrs
  | 0 => pyAttrs "shop" "Item"
  | 5 => pyAttrs "__main__" "Employee"
  | c => (demoInfo c).attrs

theorem oldNames_ok : NamesOk (renameInfo demoInfo oldNames) (serNames ++ desNames) := by
  intro c
  match c with
  | 0 | 1 | 2 | 3 | 4 | 5 => decide
  | n + 6 =>
    have : (renameInfo demoInfo oldNames (n + 6)).attrs = mainAttrs "Other" := rfl
    rw [this]
    decide

theorem newNames_ok : NamesOk (renameInfo demoInfo newNames) (serNames ++ desNames) := by
  intro c
  match c with
  | 0 | 1 | 2 | 3 | 4 | 5 => decide
  | n + 6 =>
    have : (renameInfo demoInfo newNames (n + 6)).attrs = mainAttrs "Other" := rfl
    rw [this]
    decide

theorem looks_alike (c : Nat) : looksLikeUnion (newNames c) = looksLikeUnion (oldNames c) := by
  match c with
  | 0 => decide
  | 5 => decide
  | 1 | 2 | 3 | 4 | n + 6 => rfl

/-- The program of the example with the given names; `cs` finds classes by name. -/
abbrev demoProgram (nm : Nat → ClsAttrs) (cs : Nat → PyStr → Except ErrKind Ty) : LEnv :=
  program (demoLEnv demoInfo) nm (fun _ => serRegistrations) (fun _ => desRegistrations) (fun _ => []) cs

theorem demo_blind : Blind (demoLEnv demoInfo).toEnv := fun _ _ _ _ _ _ _ _ => .refl _

/-- Objects of renamed classes are dumped as before. -/
example : (dump (demoProgram newNames (fun _ _ => .error .unknownClass)).toEnv 9
      (.list [.obj 0 [("x".toList, .int 1)], .obj 5 [("name".toList, .str "A".toList)]]) none {}).val =
    (dump (demoProgram oldNames (demoLEnv demoInfo).clsFromStr).toEnv 9
      (.list [.obj 0 [("x".toList, .int 1)], .obj 5 [("name".toList, .str "A".toList)]]) none {}).val :=
  (rename_dump (demoLEnv demoInfo) oldNames newNames _ _ _ _ _
    (sameNames_initial demoInfo oldNames newNames oldNames_ok newNames_ok) demo_blind 9 _ none {} rfl rfl).1

example : (dump (demoProgram newNames (fun _ _ => .error .unknownClass)).toEnv 9
      (.list [.obj 0 [("x".toList, .int 1)], .obj 5 [("name".toList, .str "A".toList)]]) none {}).val =
    .ok (.list [.dict [(.str "x".toList, .int 1)], .dict [(.str "name".toList, .str "A".toList)]]) := by decide +kernel

/-- A document that names no classes is loaded as before, although no old name is found any more. -/
example : load (demoProgram newNames (fun _ _ => .error .unknownClass)) 9 Trust.doc (some (.cls (.user 0))) {} =
    load (demoProgram oldNames (demoLEnv demoInfo).clsFromStr) 9 Trust.doc (some (.cls (.user 0))) {} := by
  refine rename_load (demoLEnv demoInfo) oldNames newNames _ _ _ _ _
    (sameNames_initial demoInfo oldNames newNames oldNames_ok newNames_ok) looks_alike 9 (fun _ => False) _ _ {}
    Trust.doc_named nofun ?_ nofun (fun _ _ _ _ _ _ _ _ _ => ⟨fun _ => rfl, rfl⟩) fun _ _ h => absurd h id
  intro c _ hk d hd
  match c with
  | 1 => cases hd
  | 0 | 2 | 3 | 4 | 5 | n + 6 => cases hk

/-- `{'x': 1, 'who': {'name': 'A', 'born': 5}, '-meta': {'classes': {'/who': '__main__.Person'}}}` -/
def metaDoc : Val := .dict [(.str "x".toList, .int 1),
  (.str "who".toList, .dict [(.str "name".toList, .str "A".toList), (.str "born".toList, .int 5)]),
  (.str metaKey, .dict [(.str "classes".toList, .dict [(.str "/".toList, .str "__main__.Point".toList),
    (.str "/who".toList, .str "__main__.Person".toList)])])]

/-- A document with the old names is loaded as before if the old names are still found. -/
example : load (demoProgram newNames (demoLEnv demoInfo).clsFromStr) 9 metaDoc none {} =
    load (demoProgram oldNames (demoLEnv demoInfo).clsFromStr) 9 metaDoc none {} :=
  rename_load_announced (demoLEnv demoInfo) oldNames newNames _ _ _ _
    (sameNames_initial demoInfo oldNames newNames oldNames_ok newNames_ok) looks_alike 9 _ none {}

example : (load (demoProgram newNames (demoLEnv demoInfo).clsFromStr) 9 metaDoc none {}).val.toOption.map Val.cls =
    some (.user 0) := by decide +kernel

/-! ## Where it fails -/

/-- The old names have to be found: a document with the old name of a class is refused otherwise. -/
theorem rename_fails_meta : ∃ (v r : Val) (e : Err),
    (load (demoProgram oldNames (demoLEnv demoInfo).clsFromStr) 9 v none {}).val = .ok r ∧
    (load (demoProgram newNames (fun _ _ => .error .unknownClass)) 9 v none {}).val = .error e ∧
    e.kind = .unknownClass :=
  ⟨.dict [(.str "x".toList, .int 1),
      (.str metaKey, .dict [(.str "classes".toList, .dict [(.str "/".toList, .str "__main__.Point".toList)])])],
    .obj 0 [("x".toList, .int 1), ("y".toList, .int 0)],
    { kind := .unknownClass, source := some (.dict [(.str "x".toList, .int 1),
      (.str metaKey, .dict [(.str "classes".toList, .dict [(.str "/".toList, .str "__main__.Point".toList)])])]) },
    by decide +kernel, by decide +kernel, rfl⟩

/-- `Point` has become `Reunion`. -/
def unionNames : Nat → ClsAttrs
  | 0 => pyAttrs "__main__" "Reunion"
  | c => (demoInfo c).attrs

/-- A class must not be called like a union: `None` is then refused with a `TypeError` that is no
`JsonsError`, and so is an object that lacks an argument of this class. -/
theorem rename_fails_union : ∃ (v : Val) (e e' : Err),
    NamesOk (renameInfo demoInfo unionNames) (serNames ++ desNames) ∧
    (load (demoProgram oldNames (demoLEnv demoInfo).clsFromStr) 9 v (some (.cls (.user 0))) {}).val = .error e ∧
    (load (demoProgram unionNames (demoLEnv demoInfo).clsFromStr) 9 v (some (.cls (.user 0))) {}).val = .error e' ∧
    e.kind = .deserializationError ∧ e'.kind = .typeError := by
  refine ⟨.none, { kind := .deserializationError, source := some .none, target := some (.cls (.user 0)) },
    { kind := .typeError }, ?_, by decide +kernel, by decide +kernel, rfl, rfl⟩
  intro c
  match c with
  | 0 | 1 | 2 | 3 | 4 | 5 => decide
  | n + 6 =>
    have : (renameInfo demoInfo unionNames (n + 6)).attrs = mainAttrs "Other" := rfl
    rw [this]
    decide

/-- `Person` has become `POINT`. -/
def upperNames : Nat → ClsAttrs
  | 5 => pyAttrs "__main__" "POINT"
  | c => (demoInfo c).attrs

/-- A new name must not be that of another class for which something is registered, in upper case:
here the deserializer of `Point` (which returns the document) is used for the class `POINT`. -/
theorem rename_fails_case : ∃ v r,
    let E := { demoLEnv demoInfo with customDes := fun _ _ v _ _ => pure v }
    let ds : Nat → Regs DesFn := fun _ => desRegistrations ++ [(.custom 0, [some (.cls (.user 0))], true)]
    (load (program E oldNames (fun _ => serRegistrations) ds (fun _ => []) E.clsFromStr) 9 v
      (some (.cls (.user 5))) {}).val = .ok r ∧
    (load (program E upperNames (fun _ => serRegistrations) ds (fun _ => []) E.clsFromStr) 9 v
      (some (.cls (.user 5))) {}).val = .ok v ∧ r ≠ v :=
  ⟨.dict [(.str "name".toList, .str "A".toList), (.str "born".toList, .int 5)],
    .obj 5 [("name".toList, .str "A".toList), ("born".toList, .int 5)],
    by decide +kernel, by decide +kernel, nofun⟩

end Verif.Props.Rename
