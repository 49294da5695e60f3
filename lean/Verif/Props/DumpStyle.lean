import Verif.Props.DumpShape
import Verif.KeyTransformers
import Verif.Core.AttrLemmas
import Verif.Core.DumpLemmas
import Verif.Core.FillLemmas

/-!
# `strip_nulls` and `key_transformer` only change the style of a dump

C83: with these options `dump` does the same as without them, and then leaves out the
entries with `None` and renames the keys.
-/

set_option autoImplicit false

namespace Verif.Props.DumpStyle
open Verif Verif.Core Verif.Registry

/-! ## The specification -/

/-- The new name of a key; keys that are not texts stay as they are. -/
def renameKey (f : PyStr → PyStr) : Val → Val
  | .atom (.str s) => .str (f s)
  | k => k

mutual
/-- The result without the entries of dicts that have the value `None` (if `sn`), with
the keys renamed by `f`, at every depth. -/
def restyle (sn : Bool) (f : PyStr → PyStr) : Val → Val
  | .seq .list xs => .seq .list (restyleList sn f xs)
  | .dict es => .dict (restyleEntries sn f es)
  | v => v
/-- The elements of a list. -/
def restyleList (sn : Bool) (f : PyStr → PyStr) : List Val → List Val
  | [] => []
  | x :: xs => restyle sn f x :: restyleList sn f xs
/-- The entries of a dict. -/
def restyleEntries (sn : Bool) (f : PyStr → PyStr) : List (Val × Val) → List (Val × Val)
  | [] => []
  | (k, v) :: es =>
    if sn && v == .none then restyleEntries sn f es
    else (renameKey f k, restyle sn f v) :: restyleEntries sn f es
end

/-- The option `key_transformer` makes `f s` of the text `s`; if it is not given then the
text stays as it is. -/
def Renames (kt : Option (PyStr → Except Err PyStr)) (f : PyStr → PyStr) (s : PyStr) : Prop :=
  match kt with
  | none => f s = s
  | some g => g s = .ok (f s)

/-- The same for keys; there must not be a transformer for what is not a text. -/
def RenamesKey (kt : Option (PyStr → Except Err PyStr)) (f : PyStr → PyStr) : Val → Prop
  | .atom (.str s) => Renames kt f s
  | _ => kt = none

/-- The key under which an attribute is shown: `attrs` classes show private attributes
under their public names. -/
def shownName (I : ClassInfo) (kw : DumpKw) (n : PyStr) : PyStr :=
  if I.isAttrs && !kw.stripPrivates then lstrip_ n else n

/-- The attributes `names` are shown under different new names. -/
structure AttrsApart (kt : Option (PyStr → Except Err PyStr)) (f : PyStr → PyStr) (kw : DumpKw)
    (I : ClassInfo) (names : List PyStr) : Prop where
  renames : ∀ a ∈ names, Renames kt f (shownName I kw a)
  inj : ∀ a b, a ∈ names → b ∈ names → f (shownName I kw a) = f (shownName I kw b) → a = b

/-- The names that a class declares: slots, annotations, hints of the constructor,
members. -/
def declared (I : ClassInfo) : List PyStr :=
  (I.slots.getD []) ++ I.hints.map (·.1) ++ I.initHints.map (·.1) ++ I.members.map (·.1)

/-- What is needed of a class in strict mode: nothing is declared twice, and different
attributes are shown under different new names. -/
structure ClassApart (kt : Option (PyStr → Except Err PyStr)) (f : PyStr → PyStr) (kw : DumpKw)
    (I : ClassInfo) : Prop where
  slots : (I.slots.getD []).Nodup
  hints : (I.hints.map (·.1)).Nodup
  initHints : (I.initHints.map (·.1)).Nodup
  apart : AttrsApart kt f kw I (declared I)

/-- What has to be known about what can be reached from the value. -/
structure Styleable (E : Env) (v : Val) (kw : DumpKw) (sn : Bool)
    (kt : Option (PyStr → Except Err PyStr)) (f : PyStr → PyStr) : Prop where
  /-- classes are of the kind that their instances have -/
  kind : ∀ w, Reachable E v w → RightKind E w
  /-- values that are taken over as they are have nothing to rename or to leave out -/
  raw : Props.DumpShape.RawOk E v kw.useEnumName fun w => restyle sn f w = w ∧ w ≠ .none
  /-- the names that jsons makes itself stay as they are -/
  own : ∀ s ∈ Props.DumpShape.ownKeys, f s = s
  /-- the keys of dicts are JSON keys, can be renamed, and stay apart -/
  key : ∀ es g, (Reachable E v (.dict es) ∨ Reachable E v (.ddict g es)) →
    (∀ e ∈ es, JsonLeaf E.info e.1 ∧ RenamesKey kt f e.1) ∧
    es.Pairwise fun a b => pyEq (renameKey f a.1) (renameKey f b.1) = false
  /-- there are no named tuples with `strip_nulls`, and their fields are not renamed -/
  ntuple : ∀ c xs, Reachable E v (.ntuple c xs) →
    sn = false ∧ ∀ s ∈ (E.info c).fields, f s = s
  /-- the attributes of objects stay apart -/
  attrs : ∀ c as, Reachable E v (.obj c as) →
    AttrsApart kt f kw (E.info c) (as.map (·.1) ++ (E.info c).members.map (·.1))
  /-- in strict mode: so do those that the classes declare -/
  classes : kw.strict = true → ∀ c, ClassApart kt f kw (E.info c)
  /-- the attributes of values that are not objects do not depend on the two options,
  and stay apart -/
  foreign : ∀ w t (k : DumpKw), E.foreignAttrs w t { k with stripNulls := sn, keyTransformer := kt } =
      E.foreignAttrs w t { k with stripNulls := false, keyTransformer := none } ∧
    ∀ as, E.foreignAttrs w t k = .ok as → (as.map fun p => f p.1).Nodup ∧
      ∀ p ∈ as, Renames kt f p.1

/-- The result of a call after `g`; the log stays the same. -/
def after {α β : Type} (g : α → β) (x : Res α) : Res β := ⟨x.log, x.val.map g⟩

/-! ## Lemmas about the specification -/

theorem restyleList_eq (sn : Bool) (f : PyStr → PyStr) (xs : List Val) :
    restyleList sn f xs = xs.map (restyle sn f) := by
  induction xs with
  | nil => rfl
  | cons x xs ih => simp [restyleList, ih]

theorem restyleEntries_append (sn : Bool) (f : PyStr → PyStr) (es gs : List (Val × Val)) :
    restyleEntries sn f (es ++ gs) = restyleEntries sn f es ++ restyleEntries sn f gs := by
  induction es with
  | nil => rfl
  | cons e es ih =>
    obtain ⟨k, v⟩ := e
    simp only [List.cons_append, restyleEntries]
    split
    · exact ih
    · simp [ih]

theorem mem_restyleEntries {sn : Bool} {f : PyStr → PyStr} {es : List (Val × Val)} {e : Val × Val}
    (h : e ∈ restyleEntries sn f es) : ∃ e' ∈ es, e.1 = renameKey f e'.1 := by
  induction es with
  | nil => cases h
  | cons p es ih =>
    obtain ⟨k, v⟩ := p
    simp only [restyleEntries] at h
    split at h
    · obtain ⟨e', h1, h2⟩ := ih h
      exact ⟨e', List.mem_cons_of_mem _ h1, h2⟩
    · rcases List.mem_cons.1 h with rfl | h
      · exact ⟨_, List.mem_cons_self, rfl⟩
      · obtain ⟨e', h1, h2⟩ := ih h
        exact ⟨e', List.mem_cons_of_mem _ h1, h2⟩

theorem restyle_leaf {info : Nat → ClassInfo} {sn : Bool} {f : PyStr → PyStr} {v : Val}
    (h : JsonLeaf info v) : restyle sn f v = v := by
  cases v with
  | seq k xs => simp [JsonLeaf] at h
  | dict es => simp [JsonLeaf] at h
  | _ => simp [restyle]

theorem restyle_none {sn : Bool} {f : PyStr → PyStr} {v : Val} :
    (restyle sn f v == .none) = (v == .none) := by
  cases v with
  | seq k xs => cases k <;> simp [restyle]
  | dict es => simp [restyle]
  | _ => simp [restyle]

theorem renameKey_id (k : Val) : renameKey id k = k := by
  unfold renameKey; split <;> rfl

/-- Keys that Python takes for equal have equal new names. -/
theorem renameKey_eq {f : PyStr → PyStr} {a b : Val}
    (h : pyEq (renameKey f a) (renameKey f b) = false) : pyEq a b = false := by
  cases hab : pyEq a b with
  | false => rfl
  | true =>
    exfalso
    by_cases hb : ∃ s, b = .str s
    · obtain ⟨s, rfl⟩ := hb
      have := pyEq_eq_str hab
      subst this
      simp [renameKey, pyEq_str] at h
    · by_cases ha : ∃ s, a = .str s
      · obtain ⟨s, rfl⟩ := ha
        have : pyEq b (.str s) = true := by
          cases b with
          | atom x => cases x <;> simp_all [pyEq, Atom.num?]
          | _ => simp [pyEq] at hab
        exact hb ⟨s, pyEq_eq_str this⟩
      · have e : ∀ k : Val, (¬ ∃ s, k = .str s) → renameKey f k = k := by
          intro k hk
          unfold renameKey
          split
          · exact absurd ⟨_, rfl⟩ hk
          · rfl
        rw [e a ha, e b hb, hab] at h
        cases h

/-! ## Lemmas about `after` -/

section
variable {α β γ : Type}

theorem after_pure (g : α → β) (a : α) : after g (pure a) = pure (g a) := rfl
theorem after_raise (g : α → β) (e : Err) : after g (Res.raise e) = Res.raise e := rfl

theorem after_bind (g : β → γ) (x : Res α) (h : α → Res β) :
    after g (x >>= h) = x >>= fun a => after g (h a) := by
  refine res_ext ?_ ?_
  · simp only [after, bind_log]
  · simp only [after, bind_val]
    cases x.val <;> rfl

theorem bind_after (g : α → β) (x : Res α) (h : β → Res γ) :
    (after g x >>= h) = x >>= fun a => h (g a) := by
  refine res_ext ?_ ?_
  · simp only [after, bind_log]
    cases x.val <;> rfl
  · simp only [after, bind_val]
    cases x.val <;> rfl

theorem bind_congr' {x : Res α} {h h' : α → Res β} (hh : ∀ a, x.val = .ok a → h a = h' a) :
    (x >>= h) = (x >>= h') := by
  refine res_ext ?_ ?_
  · simp only [bind_log]
    cases hx : x.val with
    | ok a => simp [hh a hx]
    | error e => rfl
  · simp only [bind_val]
    cases hx : x.val with
    | ok a => simp [hh a hx]
    | error e => rfl

theorem attempt_after (g : α → β) (x : Res α) :
    (after g x).attempt = after (fun y => y.map g) x.attempt := rfl

theorem mapRes_after {g : β → γ} {F : α → Res γ} {G : α → Res β} {xs : List α}
    (h : ∀ x ∈ xs, F x = after g (G x)) : mapRes F xs = after (List.map g) (mapRes G xs) := by
  induction xs with
  | nil => rfl
  | cons x xs ih =>
    simp only [mapRes]
    rw [h x List.mem_cons_self, ih fun y hy => h y (List.mem_cons_of_mem _ hy), after_bind,
      bind_after]
    refine bind_congr' fun a _ => ?_
    rw [after_bind, bind_after]
    rfl

end

/-! ## The recursion -/

section
variable {E : Env} {v0 : Val} {kw0 : DumpKw} {sn : Bool} {kt : Option (PyStr → Except Err PyStr)}
  {f : PyStr → PyStr}

/-- The options with the style. -/
def sty (sn : Bool) (kt : Option (PyStr → Except Err PyStr)) (kw : DumpKw) : DumpKw :=
  { kw with stripNulls := sn, keyTransformer := kt }

/-- The options of the calls: without style, and otherwise like those of the first call
as far as it matters. -/
structure Opts (kw kw0 : DumpKw) : Prop where
  fork : kw.fork = kw0.fork
  enumName : kw.useEnumName = kw0.useEnumName
  strict : kw.strict = kw0.strict
  privates : kw.stripPrivates = kw0.stripPrivates
  verbose : kw.verbose = {}
  store : kw.storeCls = false
  nulls : kw.stripNulls = false
  kt : kw.keyTransformer = none

/-- The recursive calls do the same, up to style. -/
structure RecStyled (E : Env) (v0 : Val) (kw0 : DumpKw) (sn : Bool)
    (kt : Option (PyStr → Except Err PyStr)) (f : PyStr → PyStr) (rec : Rec) : Prop where
  dump : ∀ {v : Val} {cls : Option Ty} {kw : DumpKw}, Reachable E v0 v → Opts kw kw0 →
    rec.dump v cls (sty sn kt kw) = after (restyle sn f) (rec.dump v cls kw)
  call : ∀ {g : SerFn} {v : Val} {cls : Option Ty} {kw : DumpKw}, Reachable E v0 v →
    Opts kw kw0 → (cls.getD (.cls v.cls)).serFn E.info = some g →
    rec.call g v cls (sty sn kt kw) = after (restyle sn f) (rec.call g v cls kw)
  offset : ∀ {us : Int} {cls : Option Ty} {kw : DumpKw} {r : Val}, Opts kw kw0 →
    (cls.getD (.cls .timezone)).serFn E.info = some .timezone →
    (rec.dump (.atom (.timedelta us)) cls kw).val = .ok r → ∃ x, r = .float x
  callTz : ∀ {us : Int} {cls : Option Ty} {kw : DumpKw} {r : Val},
    (rec.call .timezone (.atom (.timedelta us)) cls kw).val ≠ .ok r
  callTd : ∀ {us : Int} {cls : Option Ty} {kw : DumpKw} {r : Val},
    (rec.call .timedelta (.atom (.timedelta us)) cls kw).val = .ok r → ∃ x, r = .float x

/-- A call whose result has nothing to restyle. -/
theorem after_same {x : Res Val} (h : ∀ r, x.val = .ok r → restyle sn f r = r) :
    x = after (restyle sn f) x := by
  refine res_ext rfl ?_
  simp only [after]
  cases hx : x.val with
  | ok r => simp [Except.map, h r hx]
  | error e => rfl

theorem transformKey_rename {k : Val} (hk : RenamesKey kt f k) :
    transformKey kt k = .ok (renameKey f k) := by
  cases kt with
  | none =>
    unfold RenamesKey at hk
    unfold transformKey renameKey
    simp only
    split
    · next s => simp only [Renames] at hk; rw [hk]
    · rfl
  | some g =>
    unfold RenamesKey at hk
    split at hk
    · next s =>
      simp only [Renames] at hk
      simp [transformKey, renameKey, hk, Except.map]
    · cases hk

/-- One entry, without style and with it. -/
theorem addDumped_style {kw : DumpKw} (ho : Opts kw kw0)
    {acc : List (Val × Val)} {k d : Val} (hk : RenamesKey kt f k)
    (hnew : ∀ e ∈ acc, pyEq (renameKey f e.1) (renameKey f k) = false) :
    addDumped kw acc k d = .ok (acc ++ [(k, d)]) ∧
    addDumped (sty sn kt kw) (restyleEntries sn f acc) k (restyle sn f d) =
      .ok (restyleEntries sn f (acc ++ [(k, d)])) := by
  constructor
  · unfold addDumped
    rw [ho.nulls, ho.kt]
    simp only [Bool.false_and, Bool.false_eq_true, if_false, transformKey, Except.map]
    rw [dictSet_new fun e he => renameKey_eq (hnew e he)]
  · unfold addDumped
    simp only [sty, restyle_none]
    rw [restyleEntries_append]
    simp only [restyleEntries]
    split
    · simp
    · rw [transformKey_rename hk]
      simp only [Except.map]
      rw [dictSet_new]
      intro e he
      obtain ⟨e', h1, h2⟩ := mem_restyleEntries he
      rw [h2]
      exact hnew e' h1

theorem validKey_of_leaf {k : Val} (h : JsonLeaf E.info k) : isValidJsonKey E k = true := by
  cases k with
  | atom a => cases a <;> simp_all [JsonLeaf, isValidJsonKey, Val.cls, Atom.cls, Cls.sub]
  | enum c m => simp_all [JsonLeaf, isValidJsonKey, Val.cls, Cls.sub]
  | _ => simp [JsonLeaf] at h

theorem dictLoop_style {rec : Rec} (hrec : RecStyled E v0 kw0 sn kt f rec)
    {kw : DumpKw} (ho : Opts kw kw0) :
    ∀ (es acc : List (Val × Val)),
      (∀ e ∈ es, Reachable E v0 e.2 ∧ JsonLeaf E.info e.1 ∧ RenamesKey kt f e.1) →
      es.Pairwise (fun a b => pyEq (renameKey f a.1) (renameKey f b.1) = false) →
      (∀ e ∈ acc, ∀ e' ∈ es, pyEq (renameKey f e.1) (renameKey f e'.1) = false) →
      dictLoop E rec (sty sn kt kw) es (restyleEntries sn f acc) =
        after (restyleEntries sn f) (dictLoop E rec kw es acc) := by
  intro es
  induction es with
  | nil => intro acc _ _ _; rfl
  | cons e es ih =>
    obtain ⟨k, v⟩ := e
    intro acc hs hp ha
    obtain ⟨hv, hleaf, hstr⟩ := hs _ List.mem_cons_self
    have hp := List.pairwise_cons.1 hp
    have hvalid := validKey_of_leaf (E := E) hleaf
    have hd : ∀ cls, rec.dump v cls { sty sn kt kw with types := [] } =
        after (restyle sn f) (rec.dump v cls { kw with types := [] }) := fun cls =>
      hrec.dump (kw := { kw with types := [] }) hv
        ⟨ho.1, ho.2, ho.3, ho.4, ho.5, ho.6, ho.7, ho.8⟩
    have hadd : ∀ d, _ := fun d => addDumped_style (sn := sn) (acc := acc) (d := d) ho hstr
      (fun e he => ha e he _ List.mem_cons_self)
    simp only [dictLoop, storeAndHash, hvalid, if_true, pure_bind']
    rw [hd, after_bind, bind_after]
    refine bind_congr' fun d _ => ?_
    rw [(hadd d).1, (hadd d).2]
    simp only [Res.lift]
    show (pure _ >>= _) = after _ (pure _ >>= _)
    rw [pure_bind', pure_bind']
    refine ih _ (fun e he => hs e (List.mem_cons_of_mem _ he)) hp.2 ?_
    intro e he e' he'
    rcases List.mem_append.1 he with he | he
    · exact ha e he e' (List.mem_cons_of_mem _ he')
    · rw [List.mem_singleton] at he
      subst he
      exact hp.1 e' he'

theorem unionLoop_style {rec : Rec} (hrec : RecStyled E v0 kw0 sn kt f rec) {kw : DumpKw}
    (ho : Opts kw kw0) {v : Val} (hv : Reachable E v0 v) : ∀ (ts : List Ty),
    unionLoop rec v (sty sn kt kw) ts = after (restyle sn f) (unionLoop rec v kw ts) := by
  intro ts
  induction ts with
  | nil => rfl
  | cons t ts ih =>
    simp only [unionLoop]
    rw [hrec.dump hv ho, attempt_after, after_bind, bind_after]
    refine bind_congr' fun x _ => ?_
    cases x with
    | ok r => rfl
    | error e =>
      simp only [Except.map]
      split
      · exact ih
      · rfl

theorem attrLoop_style (hds : DefaultSers E kw0.fork) {rec : Rec}
    (hrec : RecStyled E v0 kw0 sn kt f rec) {kw : DumpKw} (ho : Opts kw kw0)
    {v : Val} (hv : Reachable E v0 v) (pub : Bool) (cn : PyStr) :
    ∀ (as : List (PyStr × Option Ty)) (acc : List (Val × Val)),
      (as.map fun p => f (if pub then lstrip_ p.1 else p.1)).Nodup →
      (∀ p ∈ as, Renames kt f (if pub then lstrip_ p.1 else p.1)) →
      (∀ e ∈ acc, ∀ p ∈ as, pyEq (renameKey f e.1)
        (.str (f (if pub then lstrip_ p.1 else p.1))) = false) →
      attrLoop E rec (sty sn kt kw) pub v cn as (restyleEntries sn f acc) =
        after (restyleEntries sn f) (attrLoop E rec kw pub v cn as acc) := by
  intro as
  induction as with
  | nil => intro acc _ _ _; rfl
  | cons p as ih =>
    obtain ⟨name, hint⟩ := p
    intro acc hn hren ha
    have hn := List.nodup_cons.1 hn
    simp only [attrLoop]
    rw [after_bind]
    refine bind_congr' fun attr hattr => ?_
    rw [lift_val] at hattr
    rw [after_bind]
    refine bind_congr' fun _ _ => ?_
    rw [after_bind]
    have hfk : (sty sn kt kw).fork = kw.fork := rfl
    rw [hfk]
    refine bind_congr' fun fn hfn => ?_
    rw [liftK_ok, ho.fork, hds] at hfn
    have hfn := Except.ok.inj hfn
    have hd : dumpAttr E rec (sty sn kt kw) fn attr hint =
        after (restyle sn f) (dumpAttr E rec kw fn attr hint) := by
      unfold dumpAttr
      cases fn with
      | none => rfl
      | some g =>
        simp only
        have hs : ∀ d a, storeClsInfo E (sty sn kt kw).storeCls d a = d ∧
            storeClsInfo E kw.storeCls d a = d := by
          intro d a
          have : (sty sn kt kw).storeCls = false := ho.store
          rw [this, ho.store]
          unfold storeClsInfo
          constructor <;> (split <;> simp)
        rw [hrec.call (Reachable.attr hv hattr) ho hfn, after_bind, bind_after]
        refine bind_congr' fun d _ => ?_
        rw [(hs _ _).1, (hs _ _).2]
        rfl
    rw [hd, attempt_after, after_bind, bind_after]
    refine bind_congr' fun x _ => ?_
    cases x with
    | error e =>
      simp only [Except.map]
      split
      · rfl
      · have hst : (sty sn kt kw).strict = kw.strict := rfl
        rw [hst]
        split
        · rfl
        · rw [after_bind]
          rfl
    | ok d =>
      simp only [Except.map]
      have hadd := addDumped_style (sn := sn) (acc := acc) (d := d)
        (k := .str (if pub then lstrip_ name else name)) ho (hren _ List.mem_cons_self)
        (fun e he => ha e he _ List.mem_cons_self)
      rw [hadd.1, hadd.2]
      simp only [Res.lift]
      show (pure _ >>= _) = after _ (pure _ >>= _)
      rw [pure_bind', pure_bind']
      refine ih _ hn.2 (fun p hp => hren p (List.mem_cons_of_mem _ hp)) ?_
      intro e he p hp
      rcases List.mem_append.1 he with he | he
      · exact ha e he p (List.mem_cons_of_mem _ hp)
      · rw [List.mem_singleton] at he
        subst he
        simp only [renameKey, pyEq_str, beq_eq_false_iff_ne]
        intro e
        apply hn.1
        show f (if pub then lstrip_ name else name) ∈ _
        rw [e]
        exact List.mem_map_of_mem (f := fun p : PyStr × Option Ty =>
          f (if pub then lstrip_ p.1 else p.1)) hp

theorem objectSerWith_style (hds : DefaultSers E kw0.fork) {rec : Rec}
    (hrec : RecStyled E v0 kw0 sn kt f rec) {kw : DumpKw} (ho : Opts kw kw0)
    {v : Val} (hv : Reachable E v0 v) {strip : StripAttr} {t : Ty} {I : ClassInfo}
    {attributes : Except Err (List (PyStr × Option Ty))}
    (ha : ∀ as, attributes = .ok as → (as.map fun p => f (shownName I kw p.1)).Nodup ∧
      ∀ p ∈ as, Renames kt f (shownName I kw p.1)) :
    objectSerWith E rec v (sty sn kt kw) strip t I attributes =
      after (restyle sn f) (objectSerWith E rec v kw strip t I attributes) := by
  unfold objectSerWith
  rw [after_bind]
  refine bind_congr' fun as has => ?_
  rw [lift_val] at has
  have ho' : Opts { kw with stripAttr := strip, storeCls := kw.verbose.classInfo } kw0 :=
    ⟨ho.1, ho.2, ho.3, ho.4, ho.5, by show kw.verbose.classInfo = false; rw [ho.verbose],
      ho.7, ho.8⟩
  have hloop := attrLoop_style hds hrec ho' hv (I.isAttrs && !kw.stripPrivates)
    (E.className false t) as [] (ha as has).1 (ha as has).2 (fun e he => by cases he)
  show (attrLoop E rec (sty sn kt { kw with stripAttr := strip, storeCls := kw.verbose.classInfo })
      (I.isAttrs && !kw.stripPrivates) v (E.className false t) as [] >>= fun result =>
        if kw.storeCls then pure (Val.dict result)
        else Res.liftK (dictWithMeta E result (E.className true t) kw.verbose) >>= fun result =>
          pure (Val.dict result)) = _
  have e5 : restyleEntries sn f [] = [] := rfl
  rw [e5] at hloop
  rw [hloop, after_bind, bind_after]
  refine bind_congr' fun es _ => ?_
  rw [ho.store, ho.verbose]
  simp only [Bool.false_eq_true, if_false, dictWithMeta, if_true, liftK_of_ok, pure_bind', after_pure,
    restyle]

theorem iterableSer_style {rec : Rec} (hrec : RecStyled E v0 kw0 sn kt f rec) {kw : DumpKw}
    (ho : Opts kw kw0) {v : Val} (hv : Reachable E v0 v) (cls : Option Ty) :
    iterableSer E rec v cls (sty sn kt kw) =
      after (restyle sn f) (iterableSer E rec v cls kw) := by
  unfold iterableSer
  simp only
  cases hi : v.iter with
  | none => rfl
  | some xs =>
    simp only
    rw [after_bind]
    show (elementTypes E v xs.length cls kw.strict >>= _) = _
    refine bind_congr' fun sub _ => ?_
    have := mapRes_after (xs := xs.zip sub) (g := restyle sn f)
      (F := fun p => rec.dump p.1 p.2 (sty sn kt { kw with storeCls := false }))
      (G := fun p => rec.dump p.1 p.2 { kw with storeCls := false })
      (fun p hp => hrec.dump (kw := { kw with storeCls := false })
        (Reachable.elem hv hi (List.of_mem_zip hp).1)
        ⟨ho.1, ho.2, ho.3, ho.4, ho.5, rfl, ho.7, ho.8⟩)
    show (mapRes (fun p => rec.dump p.1 p.2 (sty sn kt { kw with storeCls := false }))
      (xs.zip sub) >>= _) = _
    rw [this, after_bind, bind_after]
    refine bind_congr' fun ys _ => ?_
    rw [after_pure, restyle, restyleList_eq]

theorem filter_sty {I : ClassInfo} {kw : DumpKw} {strip : StripAttr} (ps : List (PyStr × Option Ty)) :
    filterAttributes I (sty sn kt kw) strip ps = filterAttributes I kw strip ps := by
  have go : ∀ l (ps : List (PyStr × Option Ty)), filterAttributes.go I (sty sn kt kw) l ps =
      filterAttributes.go I kw l ps := by
    intro l ps
    induction ps with
    | nil => rfl
    | cons p ps ih =>
      simp only [filterAttributes.go, ih]
      rfl
  cases strip <;> simp only [filterAttributes, go]

theorem filter_sublist {I : ClassInfo} {kw : DumpKw} {strip : StripAttr}
    {ps r : List (PyStr × Option Ty)} (h : filterAttributes I kw strip ps = .ok r) :
    r.Sublist ps := by
  cases strip <;> simp only [filterAttributes] at h <;>
    first | exact (go_spec h).1 | cases h

/-- Different names that are apart have different new names. -/
theorem nodup_shown {I : ClassInfo} {kw : DumpKw} {names : List PyStr} {ps r : List (PyStr × Option Ty)}
    (h : AttrsApart kt f kw I names) (hn : (ps.map (·.1)).Nodup) (hs : r.Sublist ps)
    (hm : ∀ p ∈ ps, p.1 ∈ names) : (r.map fun p => f (shownName I kw p.1)).Nodup ∧
      ∀ p ∈ r, Renames kt f (shownName I kw p.1) := by
  refine ⟨?_, fun p hp => h.renames _ (hm p (hs.subset hp))⟩
  have hn' : (r.map (·.1)).Nodup := hn.sublist (hs.map _)
  have hm' : ∀ p ∈ r, p.1 ∈ names := fun p hp => hm p (hs.subset hp)
  clear hn hs hm
  induction r with
  | nil => exact List.nodup_nil
  | cons p r ih =>
    have h1 := List.nodup_cons.1 hn'
    refine List.nodup_cons.2 ⟨?_, ih h1.2 fun q hq => hm' q (List.mem_cons_of_mem _ hq)⟩
    intro hc
    obtain ⟨q, hq, e⟩ := List.mem_map.1 hc
    apply h1.1
    have := h.inj _ _ (hm' q (List.mem_cons_of_mem _ hq)) (hm' p List.mem_cons_self) e
    show p.1 ∈ _
    rw [← this]
    exact List.mem_map_of_mem hq

theorem assocSet_nodup {β : Type} {l : List (PyStr × β)} {n : PyStr} {b : β}
    (h : (l.map (·.1)).Nodup) : ((assocSet l n b).map (·.1)).Nodup := by
  have mem : ∀ (l : List (PyStr × β)) m, m ∈ (assocSet l n b).map (·.1) →
      m ∈ l.map (·.1) ∨ m = n := by
    intro l m
    induction l with
    | nil => simp [assocSet]
    | cons q l ih =>
      obtain ⟨y, c⟩ := q
      simp only [assocSet]
      split
      · intro h; left; simpa using h
      · intro h
        simp only [List.map_cons, List.mem_cons] at h ⊢
        rcases h with h | h
        · exact .inl (.inl h)
        · rcases ih h with h | h
          · exact .inl (.inr h)
          · exact .inr h
  induction l with
  | nil => simp [assocSet]
  | cons p l ih =>
    obtain ⟨m, c⟩ := p
    have h := List.nodup_cons.1 h
    simp only [assocSet]
    split
    · exact List.nodup_cons.2 h
    · next hne =>
      refine List.nodup_cons.2 ⟨?_, ih h.2⟩
      intro hc
      rcases mem l m hc with hc | hc
      · exact h.1 hc
      · exact hne hc

theorem foldl_assocSet_nodup {β γ : Type} (ms : List (PyStr × β)) (b : γ) :
    ∀ {l : List (PyStr × γ)}, (l.map (·.1)).Nodup →
      ((ms.foldl (fun as p => assocSet as p.1 b) l).map (·.1)).Nodup := by
  induction ms with
  | nil => exact fun h => h
  | cons m ms ih => exact fun h => ih (assocSet_nodup h)

theorem foldl_assocSet_mem {β γ : Type} (ms : List (PyStr × β)) (b : γ) (n : PyStr) :
    ∀ {l : List (PyStr × γ)}, n ∈ (ms.foldl (fun as p => assocSet as p.1 b) l).map (·.1) →
      n ∈ l.map (·.1) ∨ n ∈ ms.map (·.1) := by
  induction ms with
  | nil => exact fun h => .inl h
  | cons m ms ih =>
    intro l h
    rcases ih h with h | h
    · have : ∀ (l : List (PyStr × γ)), n ∈ (assocSet l m.1 b).map (·.1) →
          n ∈ l.map (·.1) ∨ n = m.1 := by
        intro l
        induction l with
        | nil => simp [assocSet]
        | cons q l ih =>
          obtain ⟨y, c⟩ := q
          simp only [assocSet]
          split
          · intro h; left; simpa using h
          · intro h
            simp only [List.map_cons, List.mem_cons] at h ⊢
            rcases h with h | h
            · exact .inl (.inl h)
            · rcases ih h with h | h
              · exact .inl (.inr h)
              · exact .inr h
      rcases this l h with h | h
      · exact .inl h
      · exact .inr (by rw [h]; simp)
    · exact .inr (List.mem_cons_of_mem _ h)

theorem attributesAndTypes_nodup {I : ClassInfo} {kw : DumpKw} (h : ClassApart kt f kw I) :
    ((attributesAndTypes I true).map (·.1)).Nodup ∧
      ∀ p ∈ attributesAndTypes I true, p.1 ∈ declared I := by
  unfold attributesAndTypes
  simp only
  have base : ∀ b : List (PyStr × Option Ty), (b.map (·.1)).Nodup →
      (∀ n ∈ b.map (·.1), n ∈ declared I) →
      ((((I.members.filter fun p => p.2 == .prop) ++ I.members.filter fun p => p.2 != .prop).foldl
        (fun as p => assocSet as p.1 none) b).map (·.1)).Nodup ∧
      ∀ p ∈ ((I.members.filter fun p => p.2 == .prop) ++
        I.members.filter fun p => p.2 != .prop).foldl (fun as p => assocSet as p.1 none) b,
        p.1 ∈ declared I := by
    intro b hb hb'
    refine ⟨foldl_assocSet_nodup _ _ hb, fun p hp => ?_⟩
    rcases foldl_assocSet_mem _ _ p.1 (List.mem_map_of_mem hp) with h | h
    · exact hb' _ h
    · simp only [declared, List.mem_append]
      right
      obtain ⟨q, hq, e⟩ := List.mem_map.1 h
      rw [← e]
      rcases List.mem_append.1 hq with hq | hq <;>
        exact List.mem_map_of_mem (List.mem_of_mem_filter hq)
  apply base
  · split
    · next l hl =>
      have := h.slots
      rw [hl] at this
      simpa [List.map_map, Function.comp_def] using this
    · split
      · have := h.hints
        simpa [List.map_map, Function.comp_def] using this
      · rw [if_pos trivial, List.map_map]
        exact h.initHints.sublist (List.filter_sublist.map _)
  · intro n hn
    simp only [declared, List.mem_append]
    split at hn
    · next l hl =>
      left; left; left
      rw [hl]
      simpa [List.map_map, Function.comp_def] using hn
    · split at hn
      · left; left; right
        simpa [List.map_map, Function.comp_def] using hn
      · left; right
        rw [if_pos trivial, List.map_map] at hn
        obtain ⟨q, hq, e⟩ := List.mem_map.1 hn
        rw [← e]
        exact List.mem_map_of_mem (f := (·.1)) (List.mem_of_mem_filter hq)

theorem objectSer_style (hds : DefaultSers E kw0.fork) (hS : Styleable E v0 kw0 sn kt f) {rec : Rec}
    (hrec : RecStyled E v0 kw0 sn kt f rec) {kw : DumpKw} (ho : Opts kw kw0)
    {v : Val} (hv : Reachable E v0 v) (cls : Option Ty) :
    objectSer E rec v cls (sty sn kt kw) =
      after (restyle sn f) (objectSer E rec v cls kw) := by
  have hshown : ∀ I n, shownName I kw n = shownName I kw0 n := by
    intro I n; unfold shownName; rw [ho.privates]
  have hforeign : ∀ w t, E.foreignAttrs w t (sty sn kt kw) = E.foreignAttrs w t kw := by
    intro w t
    have h := (hS.foreign w t kw).1
    have e : ({ kw with stripNulls := false, keyTransformer := none } : DumpKw) = kw := by
      have h1 := ho.nulls
      have h2 := ho.kt
      cases kw
      simp only at h1 h2
      subst h1 h2
      rfl
    rw [e] at h
    exact h
  have hobject : ∀ n, shownName ClassInfo.object kw n = n := fun n => rfl
  -- values that are not objects
  have foreign : ∀ {w : Val} {s : StripAttr} {t : Ty} {o : Option Ty}, Reachable E v0 w →
      objectSerWith E rec w (sty sn kt kw) s t ClassInfo.object (E.foreignAttrs w o (sty sn kt kw)) =
      after (restyle sn f)
        (objectSerWith E rec w kw s t ClassInfo.object (E.foreignAttrs w o kw)) := by
    intro w s t o hw
    rw [hforeign]
    refine objectSerWith_style hds hrec ho hw ?_
    intro as has
    simp only [hobject]
    exact (hS.foreign w o kw).2 as has
  -- the attributes of the object
  have fromObject : objectSer E rec v none (sty sn kt kw) =
      after (restyle sn f) (objectSer E rec v none kw) := by
    cases v with
    | obj c as =>
      have : attributesFromObject (E.info c) as (sty sn kt kw) (normalizeStripAttr kw.stripAttr) =
          attributesFromObject (E.info c) as kw (normalizeStripAttr kw.stripAttr) := by
        unfold attributesFromObject
        simp only
        rw [filter_sty]
        rfl
      show objectSerWith E rec (.obj c as) (sty sn kt kw) (normalizeStripAttr kw.stripAttr)
        (.cls (.user c)) (E.info c)
        (attributesFromObject (E.info c) as (sty sn kt kw) (normalizeStripAttr kw.stripAttr)) = _
      rw [this]
      refine objectSerWith_style hds hrec ho hv ?_
      intro r hr'
      simp only [hshown]
      unfold attributesFromObject at hr'
      refine nodup_shown (hS.attrs c as hv) ?_ (filter_sublist hr') ?_
      · rw [List.map_map]
        have := (dirNames_sorted (E.info c) as).imp fun {a b} (h : Before a b) => h.2
        simpa [Function.comp_def, List.Nodup] using this
      · intro p hp
        obtain ⟨n, hn, rfl⟩ := List.mem_map.1 hp
        exact List.mem_append.2 (mem_dirNames.1 hn)
    | _ => exact foreign hv
  cases cls with
  | none => exact fromObject
  | some t =>
    cases hst : kw.strict with
    | false =>
      have e : ∀ k : DumpKw, k.strict = false → objectSer E rec v (some t) k =
          objectSer E rec v none k := by
        intro k hk; unfold objectSer; rw [hk]; rfl
      rw [e _ hst, e _ (show (sty sn kt kw).strict = false from hst)]
      exact fromObject
    | true =>
      unfold objectSer
      have hst' : (sty sn kt kw).strict = true := hst
      simp only [hst, hst', if_true]
      show _ = after _ _
      have hcl := hS.classes (by rw [← ho.strict]; exact hst)
      have fromClass : ∀ (I : ClassInfo) (s : StripAttr),
          attributesFromClass I (sty sn kt kw) s = attributesFromClass I kw s := by
        intro I s
        unfold attributesFromClass
        split
        · rw [filter_sty]; rfl
        · rfl
      have nodup : ∀ {I : ClassInfo} {s : StripAttr} {as : List (PyStr × Option Ty)},
          ClassApart kt f kw0 I → attributesFromClass I kw s = .ok as →
          (as.map fun p => f (shownName I kw p.1)).Nodup ∧
            ∀ p ∈ as, Renames kt f (shownName I kw p.1) := by
        intro I s as hI has
        unfold attributesFromClass at has
        split at has
        · rw [hst] at has
          simp only [hshown]
          exact nodup_shown hI.apart (attributesAndTypes_nodup hI).1 (filter_sublist has)
            (attributesAndTypes_nodup hI).2
        · cases has
      cases t with
      | cls c =>
        cases c with
        | user c =>
          simp only
          rw [fromClass]
          exact objectSerWith_style hds hrec ho hv fun as has => nodup (hcl c) has
        | object =>
          simp only
          rw [fromClass]
          refine objectSerWith_style hds hrec ho hv fun as has => nodup ?_ has
          exact ⟨List.nodup_nil, List.nodup_nil, List.nodup_nil, ⟨fun a h => (by cases h),
            fun a b h => (by cases h)⟩⟩
        | _ => exact foreign hv
      | _ => exact foreign hv

theorem complexSer_style (hS : Styleable E v0 kw0 sn kt f) {v : Val} (hv : Reachable E v0 v) :
    complexSer E v = after (restyle sn f) (complexSer E v) := by
  have hre : f "real".toList = "real".toList := hS.own _ (by decide)
  have him : f "imag".toList = "imag".toList := hS.own _ (by decide)
  apply after_same
  intro r h
  have mk : ∀ {re im : Val}, restyle sn f re = re ∧ re ≠ .none → restyle sn f im = im ∧ im ≠ .none →
      restyle sn f (.dict [(.str "real".toList, re), (.str "imag".toList, im)]) =
        .dict [(.str "real".toList, re), (.str "imag".toList, im)] := by
    intro re im h1 h2
    simp only [restyle, restyleEntries, renameKey, h1.1, h2.1, hre, him]
    simp [h1.2, h2.2]
  have hnum : ∀ a : Atom, a ≠ .none → restyle sn f (.atom a) = .atom a ∧ Val.atom a ≠ .none := by
    intro a ha; exact ⟨by simp [restyle], by simp [ha]⟩
  unfold complexSer at h
  simp only at h
  split at h
  · cases h; exact mk (hnum _ (by simp)) (hnum _ (by simp))
  · cases h; exact mk (hnum _ (by simp)) (hnum _ (by simp))
  · cases h; exact mk (hnum _ (by simp)) (hnum _ (by simp))
  · cases h; exact mk (hnum _ (by simp)) (hnum _ (by simp))
  · simp only [bind_ok, lift_val, pure_val, Except.ok.injEq] at h
    obtain ⟨re, h1, im, h2, rfl⟩ := h
    exact mk (hS.raw.complexAttr hv (.inl h1)) (hS.raw.complexAttr hv (.inr h2))

theorem callSer_style (hds : DefaultSers E kw0.fork) (hS : Styleable E v0 kw0 sn kt f) {rec : Rec}
    (hrec : RecStyled E v0 kw0 sn kt f rec) {kw : DumpKw} (ho : Opts kw kw0)
    {g : SerFn} {v : Val} {cls : Option Ty} (hv : Reachable E v0 v)
    (hf : (cls.getD (.cls v.cls)).serFn E.info = some g) :
    callSer E rec g v cls (sty sn kt kw) = after (restyle sn f) (callSer E rec g v cls kw) := by
  have leaf : ∀ {x : Res Val}, (∀ r, x.val = .ok r → JsonLeaf E.info r) →
      x = after (restyle sn f) x := fun h => after_same fun r hx => restyle_leaf (h r hx)
  have hreach := reach_of_reachable hS.kind
  cases g with
  | tuple =>
    simp only [callSer, tupleSer]
    split
    · next c xs =>
      obtain ⟨hsn, hfields⟩ := hS.ntuple c xs hv
      unfold namedtupleSer
      have := mapRes_after (xs := (E.info c).fields.zip xs)
        (g := fun e : Val × Val => (e.1, restyle sn f e.2))
        (F := fun p => rec.dump p.2 none (sty sn kt kw) >>= fun y => pure (Val.str p.1, y))
        (G := fun p => rec.dump p.2 none kw >>= fun y => pure (Val.str p.1, y))
        (by
          intro p hp
          rw [hrec.dump (Reachable.elem hv rfl (List.of_mem_zip hp).2) ho, after_bind, bind_after]
          rfl)
      rw [this, after_bind, bind_after]
      refine bind_congr' fun ys hys => ?_
      rw [after_pure, restyle]
      congr 2
      have hk : ∀ y ∈ ys, ∃ s ∈ (E.info c).fields, y.1 = .str s := by
        intro y hy
        obtain ⟨p, hp, h⟩ := mapRes_mem hys hy
        simp only [bind_ok, pure_val, Except.ok.injEq] at h
        obtain ⟨d, _, rfl⟩ := h
        exact ⟨p.1, (List.of_mem_zip hp).1, rfl⟩
      clear hys this
      induction ys with
      | nil => rfl
      | cons y ys ih =>
        obtain ⟨k, d⟩ := y
        obtain ⟨s, hs, hks⟩ := hk _ List.mem_cons_self
        simp only at hks
        subst hks
        simp only [List.map_cons, restyleEntries, hsn, Bool.false_and, Bool.false_eq_true, if_false,
          renameKey, hfields s hs]
        rw [← hsn, ih fun y hy => hk y (List.mem_cons_of_mem _ hy)]
    · rw [after_bind]
      exact bind_congr' fun c _ => iterableSer_style hrec ho hv c
  | complex => exact complexSer_style hS hv
  | datetime => exact leaf fun r h => toStr_leaf h
  | date => exact leaf fun r h => toStr_leaf h
  | time => exact leaf fun r h => toStr_leaf h
  | timezone =>
    simp only [callSer, timezoneSer]
    split
    · rw [hrec.dump (Reachable.offset hv) ho, after_bind, bind_after]
      refine bind_congr' fun o h => ?_
      obtain ⟨x, rfl⟩ := hrec.offset ho hf h
      have h1 := hS.own "name".toList (by decide)
      have h2 := hS.own "offset".toList (by decide)
      rw [after_pure]
      simp only [restyle, restyleEntries, renameKey, h1, h2]
      simp
    · rfl
  | timedelta =>
    refine leaf fun r h => ?_
    simp only [callSer, timedeltaSer] at h
    split at h
    · cases h; trivial
    · simp at h
  | primitive => exact leaf fun r h => primitive_json hreach hv hf h
  | enum =>
    have : enumSer E v (sty sn kt kw) = enumSer E v kw := by unfold enumSer; rfl
    simp only [callSer]
    rw [this]
    refine after_same fun r h => ?_
    refine (DumpShape.enumSer_raw (kw := kw) (P := fun w => restyle sn f w = w ∧ w ≠ .none) ?_
      (fun s => ⟨by simp [restyle], by simp⟩) hv h).1
    rw [ho.enumName]
    exact hS.raw
  | dict =>
    have loop : ∀ (es : List (Val × Val)) (g : Option Ty),
        (Reachable E v0 (.dict es) ∨ Reachable E v0 (.ddict g es)) →
        (dictLoop E rec (sty sn kt kw) es [] >>= fun r => pure (Val.dict r)) =
        after (restyle sn f) (dictLoop E rec kw es [] >>= fun r => pure (Val.dict r)) := by
      intro es g hes
      have hk := hS.key es g hes
      have := dictLoop_style hrec ho es [] (fun e he => ⟨hes.elim (fun h => .value h he)
        (fun h => .valueD h he), hk.1 e he⟩) hk.2 (fun e he => by cases he)
      rw [show restyleEntries sn f [] = [] from rfl] at this
      rw [this, after_bind, bind_after]
      refine bind_congr' fun r _ => ?_
      rw [after_pure, restyle]
    simp only [callSer, dictSer]
    split
    · exact loop _ none (.inl hv)
    · exact loop _ _ (.inr hv)
    · split <;> rfl
  | list =>
    have hkw' : Opts { kw with storeCls := false } kw0 :=
      ⟨ho.1, ho.2, ho.3, ho.4, ho.5, rfl, ho.7, ho.8⟩
    have finish : ∀ {x y : Res (List Val)}, x = after (List.map (restyle sn f)) y →
        (x >>= fun ys => pure (Val.list ys)) =
          after (restyle sn f) (y >>= fun ys => pure (Val.list ys)) := by
      intro x y h
      rw [h, after_bind, bind_after]
      refine bind_congr' fun ys _ => ?_
      rw [after_pure, restyle, restyleList_eq]
    have typed : ∀ (xs : List Val), v.iter = some xs → ∀ (t : Ty),
        listSer.typed E rec (sty sn kt kw) xs t { sty sn kt kw with storeCls := false } =
        after (restyle sn f) (listSer.typed E rec kw xs t { kw with storeCls := false }) := by
      intro xs hxs t
      unfold listSer.typed
      show (Res.liftK (E.getSer kw.fork t) >>= _) = _
      rw [after_bind]
      refine bind_congr' fun fn hfn => ?_
      rw [liftK_ok, ho.fork, hds] at hfn
      have hfn := Except.ok.inj hfn
      cases fn with
      | none => exact finish (mapRes_after fun x _ => rfl)
      | some g =>
        exact finish (mapRes_after fun x hx => hrec.call (kw := { kw with storeCls := false })
          (Reachable.elem hv hxs hx) hkw' hfn)
    simp only [callSer, listSer]
    split
    · rfl
    · cases hxs : v.iter with
      | none => rfl
      | some xs =>
        simp only
        split
        · exact typed xs hxs _
        · have e : (sty sn kt kw).strict = kw.strict := rfl
          rcases Bool.eq_false_or_eq_true kw.strict with hst | hst
          · rw [if_pos hst, if_pos (e.trans hst)]
            split
            · rfl
            · rfl
            · rfl
            · rfl
            · exact typed _ hxs _
            · rfl
          · have hst' : ¬ kw.strict = true := by rw [hst]; simp
            rw [if_neg hst', if_neg (by rw [e]; exact hst')]
            exact finish (mapRes_after fun x hx => hrec.dump (kw := { kw with storeCls := false })
              (Reachable.elem hv hxs hx) hkw')
  | iterable => exact iterableSer_style hrec ho hv cls
  | object => exact objectSer_style hds hS hrec ho hv cls
  | uuid => exact leaf fun r h => by simp only [callSer, strSer] at h; cases h; trivial
  | decimal => exact leaf fun r h => by simp only [callSer, strSer] at h; cases h; trivial
  | union =>
    simp only [callSer, unionSer]
    split
    · rfl
    · split
      · next hn => rw [hn.1]; rfl
      · exact unionLoop_style hrec ho hv _
  | path =>
    refine leaf fun r h => ?_
    simp only [callSer, pathSer] at h
    split at h
    · cases h; trivial
    · simp at h
  | zoneinfo =>
    refine after_same fun r h => ?_
    simp only [callSer, zoneinfoSer] at h
    split at h
    · cases h
      have h1 := hS.own "key".toList (by decide)
      simp only [restyle, restyleEntries, renameKey, h1]
      simp
    · simp at h
  | custom id =>
    exfalso
    revert hf
    generalize cls.getD (.cls v.cls) = t
    have hc : ∀ c : Cls, c.serFn E.info ≠ .custom id := by
      intro c; cases c <;> simp [Cls.serFn]
      split <;> simp
    intro hf
    cases t with
    | newtype n t => cases t <;> simp_all [Ty.serFn]
    | _ => simp_all [Ty.serFn]

theorem dumpWith_style (hds : DefaultSers E kw0.fork) {rec : Rec}
    (hrec : RecStyled E v0 kw0 sn kt f rec) {v : Val} {cls : Option Ty} {kw : DumpKw}
    (hv : Reachable E v0 v) (ho : Opts kw kw0) :
    dumpWith E rec v cls (sty sn kt kw) = after (restyle sn f) (dumpWith E rec v cls kw) := by
  unfold dumpWith
  show (Res.liftK (E.getSer kw.fork _) >>= _) = _
  rw [after_bind]
  refine bind_congr' fun fn hfn => ?_
  rw [liftK_ok, ho.fork, hds] at hfn
  have hfn := Except.ok.inj hfn
  show (Res.emit (.announce _ kw.fork) >>= _) = _
  rw [after_bind]
  refine bind_congr' fun _ _ => ?_
  cases fn with
  | none => rfl
  | some g =>
    simp only
    rw [hrec.call hv ho hfn, attempt_after, after_bind, bind_after]
    refine bind_congr' fun x _ => ?_
    cases x <;> rfl

theorem dumpWith_offset' (hds : DefaultSers E kw0.fork) {rec : Rec}
    (hrec : RecStyled E v0 kw0 sn kt f rec) {us : Int} {cls : Option Ty} {kw : DumpKw} {r : Val}
    (ho : Opts kw kw0) (hf : (cls.getD (.cls .timezone)).serFn E.info = some .timezone)
    (h : (dumpWith E rec (.atom (.timedelta us)) cls kw).val = .ok r) : ∃ x, r = .float x := by
  unfold dumpWith at h
  simp only [bind_ok, emit_val, attempt_val, Except.ok.injEq] at h
  obtain ⟨fn, h1, _, _, x, h2, h3⟩ := h
  rw [liftK_ok, ho.fork, hds] at h1
  simp only [Except.ok.injEq] at h1
  cases x with
  | error e => simp at h3
  | ok d =>
    cases h3
    cases cls with
    | none =>
      simp only [Option.getD_none, Ty.serFn, Val.cls, Atom.cls, Cls.serFn] at h1
      subst h1
      exact hrec.callTd h2
    | some t =>
      simp only [Option.getD_some] at h1 hf
      rw [hf] at h1
      subst h1
      exact absurd h2 hrec.callTz

theorem recStyled (hds : DefaultSers E kw0.fork) (hS : Styleable E v0 kw0 sn kt f)
    (n : Nat) : RecStyled E v0 kw0 sn kt f (recOf E n) := by
  induction n with
  | zero =>
    exact ⟨fun _ _ => rfl, fun _ _ _ => rfl, fun _ _ h => by simp [recOf] at h,
      fun h => by simp [recOf] at h, fun h => by simp [recOf] at h⟩
  | succ n ih =>
    exact ⟨fun hv ho => dumpWith_style hds ih hv ho,
      fun hv ho hf => callSer_style hds hS ih ho hv hf,
      fun ho hf h => dumpWith_offset' hds ih ho hf h,
      fun h => by simp [recOf, callSer, timezoneSer] at h,
      fun h => by simp [recOf, callSer, timedeltaSer] at h; exact ⟨_, h.symm⟩⟩

end

/-! ## The theorems -/

/-- C83, `_partial`: with `strip_nulls` and `key_transformer`, `dump` makes the same
announcements, gives the same warnings and raises the same exceptions as without them,
and returns the same result without the `None` entries and with the keys renamed; for
every class and all other options, in strict mode as well.  Missing: `verbose` (see
`VerboseAdds.verbose_style_partial`); values
that are not `Styleable`: keys that are not JSON keys, `None` in named tuples (see
`style_fails_namedtuple`), keys that are not texts with a transformer (see
`style_fails_key`), different keys with the same new name (see
`style_fails_collision`). -/
theorem dump_style_partial (E : Env) (n : Nat) (v : Val) (cls : Option Ty) (kw : DumpKw)
    (sn : Bool) (kt : Option (PyStr → Except Err PyStr)) (f : PyStr → PyStr)
    (hds : DefaultSers E kw.fork) (hv : Styleable E v kw sn kt f)
    (hn : kw.stripNulls = false) (hk : kw.keyTransformer = none) (hvb : kw.verbose = {})
    (hst : kw.storeCls = false) :
    dump E n v cls { kw with stripNulls := sn, keyTransformer := kt } =
      after (restyle sn f) (dump E n v cls kw) :=
  (recStyled hds hv n).dump .self ⟨rfl, rfl, rfl, rfl, hvb, hst, hn, hk⟩

/-- `key_transformer=KEY_TRANSFORMER_CAMELCASE` -/
def camel (s : PyStr) : Except Err PyStr :=
  (KeyTransformers.camelcase s).mapError fun k => { kind := k }

/-- C83 is false for named tuples: `dump(Pair(1, None), strip_nulls=True)` still has
the `None`. -/
theorem style_fails_namedtuple :
    (dump (demoEnv demoInfo) 9 (.ntuple 1 [.int 1, .none]) none { stripNulls := true }).val ≠
      ((dump (demoEnv demoInfo) 9 (.ntuple 1 [.int 1, .none]) none {}).val.map
        (restyle true id)) := by decide +kernel

/-- C83 is false for keys that are not texts: `dump({1: 2})` works, but with a key
transformer that changes nothing it is a `SerializationError`. -/
theorem style_fails_key :
    (dump (demoEnv demoInfo) 9 (.dict [(.int 1, .int 2)]) none {}).val =
      .ok (.dict [(.int 1, .int 2)]) ∧
    (match (dump (demoEnv demoInfo) 9 (.dict [(.int 1, .int 2)]) none
        { keyTransformer := some fun s => .ok s }).val with
      | .error e => decide (e.kind = .serializationError)
      | .ok _ => false) = true := by decide +kernel

/-- C83 is false for different keys with the same new name: an entry is lost. -/
theorem style_fails_collision :
    (dump (demoEnv demoInfo) 9 (.dict [(.str "a_b".toList, .int 1), (.str "aB".toList, .int 2)]) none
      { keyTransformer := some camel }).val =
    .ok (.dict [(.str "aB".toList, .int 2)]) := by decide +kernel

/-! ## Examples -/

/-- What `camel` makes of a text. -/
def camelName (s : PyStr) : PyStr := match camel s with | .ok t => t | .error _ => s

/-- An object with the attributes `{'first_name': 'A', 'nick_name': None}` and `None`. -/
def record : Val := .obj 6 [("data".toList, .dict [(.str "first_name".toList, .str ['A']),
  (.str "nick_name".toList, .none)]), ("born".toList, .none)]

/-- Without the options, with them, and restyled. -/
example :
    (dump (demoEnv demoInfo) 9 record none {}).val = .ok (.dict [
      (.str "born".toList, .none), (.str "data".toList, .dict [
        (.str "first_name".toList, .str ['A']), (.str "nick_name".toList, .none)])]) ∧
    (dump (demoEnv demoInfo) 9 record none { stripNulls := true, keyTransformer := some camel }).val =
      .ok (.dict [(.str "data".toList, .dict [(.str "firstName".toList, .str ['A'])])]) := by
  decide +kernel

/-- The name of that record. -/
def recordData : Val := .dict [(.str "first_name".toList, .str ['A']),
  (.str "nick_name".toList, .none)]

/-- What can be reached from it. -/
def RecordPart (w : Val) : Prop := w = record ∨ w = recordData ∨ w = .none ∨ ∃ s, w = .str s

theorem recordPart_attr {v w : Val} {n : PyStr} (hv : RecordPart v)
    (h : (demoEnv demoInfo).getAttr v n = .ok w) : w = recordData ∨ w = .none := by
  rcases hv with rfl | rfl | rfl | ⟨s, rfl⟩
  · simp only [record, Env.getAttr, demoEnv, demoInfo, assoc] at h
    split at h
    · next h' =>
      cases h
      split at h'
      · left; cases h'; rfl
      · split at h'
        · right; cases h'; rfl
        · cases h'
    · cases h
  · simp [recordData, Env.getAttr, demoEnv] at h
  · simp [Env.getAttr, demoEnv] at h
  · simp [Env.getAttr, demoEnv] at h

theorem record_reach : Reach (demoEnv demoInfo) RecordPart where
  elem := by
    intro v x xs hv hi hx
    rcases hv with rfl | rfl | rfl | ⟨s, rfl⟩
    · simp [record, Val.iter] at hi
    · simp only [recordData, Val.iter, Option.some.injEq] at hi
      subst hi
      simp only [List.map_cons, List.map_nil, List.mem_cons, List.not_mem_nil, or_false] at hx
      rcases hx with rfl | rfl <;> exact .inr (.inr (.inr ⟨_, rfl⟩))
    · simp [Val.iter] at hi
    · simp only [Val.iter, Option.some.injEq] at hi
      subst hi
      obtain ⟨c, _, rfl⟩ := List.mem_map.1 hx
      exact .inr (.inr (.inr ⟨_, rfl⟩))
  value := by
    intro es e hv he
    rcases hv with h | h | h | ⟨s, h⟩
    · simp [record] at h
    · simp only [recordData, Val.dict.injEq] at h
      subst h
      simp only [List.mem_cons, List.not_mem_nil, or_false] at he
      rcases he with rfl | rfl
      · exact .inr (.inr (.inr ⟨_, rfl⟩))
      · exact .inr (.inr (.inl rfl))
    · cases h
    · cases h
  valueD := by
    intro f es e hv
    rcases hv with h | h | h | ⟨s, h⟩ <;> simp [record, recordData] at h
  attr := by
    intro v w n hv h
    rcases recordPart_attr hv h with rfl | rfl
    · exact .inr (.inl rfl)
    · exact .inr (.inr (.inl rfl))
  offset := by
    intro us n hv
    rcases hv with h | h | h | ⟨s, h⟩ <;> simp [record, recordData] at h
  plain := by
    intro c as hv
    rcases hv with h | h | h | ⟨s, h⟩ <;> simp [record, recordData] at h
    obtain ⟨rfl, _⟩ := h
    rfl
  ntuple := by
    intro c xs hv
    rcases hv with h | h | h | ⟨s, h⟩ <;> simp [record, recordData] at h
  enum := by
    intro c m hv
    rcases hv with h | h | h | ⟨s, h⟩ <;> simp [record, recordData] at h

theorem record_mem {w : Val} (h : Reachable (demoEnv demoInfo) record w) : RecordPart w :=
  reachable_sub record_reach (.inl rfl) h

/-- The record meets what the theorem needs. -/
theorem record_styleable :
    Styleable (demoEnv demoInfo) record {} true (some camel) camelName := by
  have hattr : ∀ {u w : Val} {m : PyStr}, Reachable (demoEnv demoInfo) record u →
      m ≠ "data".toList → m ≠ "born".toList → (demoEnv demoInfo).getAttr u m ≠ .ok w := by
    intro u w m hu h1 h2 h
    rcases record_mem hu with rfl | rfl | rfl | ⟨s, rfl⟩
    · simp only [record, Env.getAttr, demoEnv, demoInfo, assoc, if_neg (Ne.symm h1),
        if_neg (Ne.symm h2)] at h
      cases h
    · simp [recordData, Env.getAttr, demoEnv] at h
    · simp [Env.getAttr, demoEnv] at h
    · simp [Env.getAttr, demoEnv] at h
  constructor
  · intro w hw
    rcases record_mem hw with rfl | rfl | rfl | ⟨s, rfl⟩ <;> trivial
  · constructor
    · intro c m w _ h
      rcases record_mem h with h | h | h | ⟨s, h⟩ <;> simp [record, recordData] at h
    · intro u w hu _ h
      exact absurd h (hattr hu (by decide) (by decide))
    · intro u w hu h
      exact h.elim (fun h => absurd h (hattr hu (by decide) (by decide)))
        fun h => absurd h (hattr hu (by decide) (by decide))
  · decide
  · intro es g h
    have : es = [(.str "first_name".toList, .str ['A']), (.str "nick_name".toList, .none)] := by
      rcases h with h | h <;> rcases record_mem h with h | h | h | ⟨s, h⟩ <;>
        simp [record, recordData] at h
      exact h
    subst this
    refine ⟨?_, ?_⟩
    · intro e he
      simp only [List.mem_cons, List.not_mem_nil, or_false] at he
      rcases he with rfl | rfl <;> exact ⟨trivial, rfl⟩
    · decide +kernel
  · intro c xs h
    rcases record_mem h with h | h | h | ⟨s, h⟩ <;> simp [record, recordData] at h
  · intro c as h
    rcases record_mem h with h | h | h | ⟨s, h⟩ <;> simp [record, recordData] at h
    obtain ⟨rfl, rfl⟩ := h
    constructor
    · intro a ha
      simp [demoEnv, demoInfo] at ha
      rcases ha with rfl | rfl <;> rfl
    · intro a b ha hb
      simp [demoEnv, demoInfo] at ha hb
      rcases ha with rfl | rfl <;> rcases hb with rfl | rfl <;> decide +kernel
  · intro h; cases h
  · intro w t k
    exact ⟨rfl, fun as h => by cases h; exact ⟨List.nodup_nil, fun p hp => by cases hp⟩⟩

/-- Every class and every size of the stack: the record can be dumped with
`strip_nulls` and camel case, and all that changes is the style. -/
example (n : Nat) (cls : Option Ty) :
    dump (demoEnv demoInfo) n record cls { stripNulls := true, keyTransformer := some camel } =
      after (restyle true camelName) (dump (demoEnv demoInfo) n record cls {}) :=
  dump_style_partial _ n record cls {} true (some camel) camelName (demo_sers 0) record_styleable
    rfl rfl rfl rfl

end Verif.Props.DumpStyle
