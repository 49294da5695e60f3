import Verif.Core.LoadInput
import Verif.Core.LoadLemmas

/-!
# Lemmas about `load` with what it does to its input
-/

set_option autoImplicit false

namespace Verif.Core.LoadInput
open Verif Verif.Core

/-! ## Calls that leave the input alone -/

theorem sof_pure {α : Type} (a : α) : (pure a : SRes α) = .of (pure a) := rfl

theorem spure_bind {α β : Type} (a : α) (f : α → SRes β) : (pure a >>= f) = f a := rfl

theorem rpure_bind {α β : Type} (a : α) (f : α → Res β) : (pure a >>= f) = f a := rfl

theorem sof_raise {α : Type} (e : Err) : (SRes.raise e : SRes α) = .of (Res.raise e) := rfl

theorem sof_at {α : Type} (s : Step) (x : Res α) : (SRes.of x).at s = .of x := rfl

theorem sof_attempt {α : Type} (x : Res α) : (SRes.of x).attempt = .of x.attempt := rfl

theorem sof_bind {α β : Type} (x : Res α) (f : α → SRes β) (g : α → Res β)
    (h : ∀ a, x.val = .ok a → f a = .of (g a)) : (SRes.of x >>= f) = .of (x >>= g) := by
  show SRes.bind _ _ = SRes.of (Res.bind x g)
  unfold SRes.bind
  rcases x with ⟨lx, vx⟩
  cases vx with
  | error e => rfl
  | ok a =>
    show SRes.mk ⟨lx ++ (f a).res.log, (f a).res.val⟩ ([] ++ (f a).dels) = _
    rw [h a rfl]; rfl

theorem sof_ite {α : Type} (p : Prop) [Decidable p] (x y : Res α) (x' y' : SRes α)
    (hx : p → x' = .of x) (hy : ¬p → y' = .of y) :
    (if p then x' else y') = .of (if p then x else y) := by
  split
  · exact hx ‹_›
  · exact hy ‹_›

/-! ## Values without stored keys -/

/-- `w` is the value itself or lies somewhere in it. -/
inductive Part (w : Val) : Val → Prop
  | self : Part w w
  | elem {k : SeqKind} {xs : List Val} {x : Val} : x ∈ xs → Part w x → Part w (.seq k xs)
  | field {c : Nat} {xs : List Val} {x : Val} : x ∈ xs → Part w x → Part w (.ntuple c xs)
  | key {es : List (Val × Val)} {e : Val × Val} : e ∈ es → Part w e.1 → Part w (.dict es)
  | value {es : List (Val × Val)} {e : Val × Val} : e ∈ es → Part w e.2 → Part w (.dict es)
  | dkey {f : Option Ty} {es : List (Val × Val)} {e : Val × Val} :
      e ∈ es → Part w e.1 → Part w (.ddict f es)
  | dvalue {f : Option Ty} {es : List (Val × Val)} {e : Val × Val} :
      e ∈ es → Part w e.2 → Part w (.ddict f es)

/-- No dict in the value, however deep, has a `'-keys'` entry with something in it. -/
def NoStoredKeys (v : Val) : Prop :=
  ∀ es s, Part (.dict es) v → dictGet es (.str keysKey) = some s →
    s.iter = none ∨ s.iter = some []

theorem noStored_iter {v : Val} (h : NoStoredKeys v) {xs : List Val} (hi : v.iter = some xs)
    {x : Val} (hx : x ∈ xs) : NoStoredKeys x := by
  intro es s hp
  refine h es s ?_
  cases v with
  | seq k ys => cases hi; exact .elem hx hp
  | ntuple c ys => cases hi; exact .field hx hp
  | dict fs =>
    cases hi
    obtain ⟨e, he, rfl⟩ := List.mem_map.1 hx
    exact .key he hp
  | ddict f fs =>
    cases hi
    obtain ⟨e, he, rfl⟩ := List.mem_map.1 hx
    exact .dkey he hp
  | atom a =>
    cases a with
    | str t =>
      simp only [Val.iter, Option.some.injEq] at hi
      subst hi
      obtain ⟨c, _, rfl⟩ := List.mem_map.1 hx
      cases hp
    | _ => cases hi
  | enum _ _ => cases hi
  | obj _ _ => cases hi

theorem noStored_value {es : List (Val × Val)} (h : NoStoredKeys (.dict es)) {e : Val × Val}
    (he : e ∈ es) : NoStoredKeys e.2 := fun fs s hp => h fs s (.value he hp)

theorem dictGet_mem {es : List (Val × Val)} {k v : Val} (h : dictGet es k = some v) :
    ∃ e ∈ es, e.2 = v := by
  induction es with
  | nil => cases h
  | cons e es ih =>
    simp only [dictGet] at h
    split at h
    · cases h; exact ⟨e, List.mem_cons_self, rfl⟩
    · obtain ⟨e', h1, h2⟩ := ih h
      exact ⟨e', List.mem_cons_of_mem _ h1, h2⟩

/-- All values of a dict have no stored keys. -/
def ValuesOk (es : List (Val × Val)) : Prop := ∀ e ∈ es, NoStoredKeys e.2

theorem valuesOk_get {es : List (Val × Val)} (h : ValuesOk es) {k v : Val}
    (hg : dictGet es k = some v) : NoStoredKeys v := by
  obtain ⟨e, he, rfl⟩ := dictGet_mem hg
  exact h e he

theorem valuesOk_set {es : List (Val × Val)} (h : ValuesOk es) {k v : Val}
    (hv : NoStoredKeys v) : ValuesOk (dictSet es k v) := by
  induction es with
  | nil => intro e he; simp only [dictSet, List.mem_singleton] at he; subst he; exact hv
  | cons e es ih =>
    intro e' he'
    simp only [dictSet] at he'
    split at he'
    · rcases List.mem_cons.1 he' with rfl | he'
      · exact hv
      · exact h _ (List.mem_cons_of_mem _ he')
    · rcases List.mem_cons.1 he' with rfl | he'
      · exact h _ List.mem_cons_self
      · exact ih (fun e h' => h e (List.mem_cons_of_mem _ h')) _ he'

theorem valuesOk_transform {info : Nat → ClassInfo} {f : Val → Except Err Val}
    {es acc r : List (Val × Val)} (h : ValuesOk es) (ha : ValuesOk acc)
    (hr : transformKeys info f acc es = .ok r) : ValuesOk r := by
  induction es generalizing acc with
  | nil => cases hr; exact ha
  | cons e es ih =>
    obtain ⟨k, v⟩ := e
    simp only [transformKeys] at hr
    cases hk : f k with
    | error e => rw [hk] at hr; cases hr
    | ok k' =>
      rw [hk] at hr
      simp only [bind, Except.bind] at hr
      split at hr
      · exact ih (fun e h' => h e (List.mem_cons_of_mem _ h'))
          (valuesOk_set ha (h _ List.mem_cons_self)) hr
      · cases hr

/-! ## Without stored keys, the input is left alone -/

/-- The nested calls leave alone what has no stored keys. -/
def Agree (prec : LRec) (srec : SRec) : Prop :=
  ∀ w t kw, NoStoredKeys w → srec w t kw = .of (prec w t kw)

variable {E : LEnv} {prec : LRec} {srec : SRec}

theorem listLoopS_of (ha : Agree prec srec) (cls : Option Ty) (warn : Bool) (kw : LoadKw)
    (i : Nat) (xs : List Val) (h : ∀ x ∈ xs, NoStoredKeys x) :
    listLoopS E srec cls warn kw i xs = .of (listLoop E prec cls warn kw i xs) := by
  induction xs generalizing i with
  | nil => rfl
  | cons x xs ih =>
    have ih := fun i => ih i (fun x hx => h x (List.mem_cons_of_mem _ hx))
    simp only [listLoopS, listLoop]
    rw [ha _ _ _ (h x List.mem_cons_self), sof_at, sof_attempt]
    refine sof_bind _ _ _ fun r _ => ?_
    cases r with
    | ok y => exact ih (i + 1) ▸ sof_bind _ _ _ fun _ _ => rfl
    | error e =>
      refine sof_ite _ _ _ _ _ (fun _ => ?_) (fun _ => rfl)
      refine sof_ite _ _ _ _ _ (fun _ => ?_) (fun _ => rfl)
      exact sof_bind _ _ _ fun _ _ => ih (i + 1)

theorem listDesS_of (ha : Agree prec srec) {v : Val} (h : NoStoredKeys v) (args : List Ty)
    (kw : LoadKw) : listDesS E srec v args kw = .of (listDes E prec v args kw) := by
  unfold listDesS listDes
  cases hi : v.iter with
  | none => rfl
  | some xs => exact listLoopS_of ha _ _ _ _ _ fun x hx => noStored_iter h hi hx

theorem iterableDesS_of (ha : Agree prec srec) {v : Val} (h : NoStoredKeys v) (t : Ty)
    (kw : LoadKw) : iterableDesS E srec v t kw = .of (iterableDes E prec v t kw) := by
  unfold iterableDesS iterableDes
  rw [listDesS_of ha h]
  refine sof_bind _ _ _ fun ys _ => ?_
  cases t.naked? <;> rfl

theorem ntupleField_ok {I : ClassInfo} {v x : Val} {tfm : Option (List (Val × Val))}
    {len i : Nat} {name : PyStr} (h : NoStoredKeys v) (ht : ∀ es, tfm = some es → ValuesOk es)
    (hf : ntupleField I v tfm len i name = .ok x) (hi : i < len) : NoStoredKeys x := by
  unfold ntupleField at hf
  rw [if_pos hi] at hf
  cases tfm with
  | some es =>
    simp only [subscript] at hf
    cases hg : dictGet es (.str name) with
    | none => rw [hg] at hf; cases hf
    | some y => rw [hg] at hf; cases hf; exact valuesOk_get (ht es rfl) hg
  | none =>
    simp only [index] at hf
    have aux : ∀ (xs : List Val), v.iter = some xs →
        (match xs[i]? with | some x => Except.ok x | none => Except.error ErrKind.indexError)
          = .ok x → NoStoredKeys x := by
      intro xs hx hf
      cases hg : xs[i]? with
      | none => rw [hg] at hf; cases hf
      | some y =>
        rw [hg] at hf; cases hf
        exact noStored_iter h hx (List.mem_of_getElem? hg)
    split at hf
    · exact aux _ rfl hf
    · exact aux _ rfl hf
    · exact aux _ rfl hf
    · exact aux _ rfl hf
    · rename_i s
      cases hg : s[i]? with
      | none => rw [hg] at hf; cases hf
      | some c =>
        rw [hg] at hf; cases hf
        exact noStored_iter h (x := .str [c]) (xs := s.map fun c => .str [c]) rfl
          (List.mem_map.2 ⟨c, List.mem_of_getElem? hg, rfl⟩)
    · cases hf

theorem liftK_val {α : Type} {x : Except ErrKind α} {a : α} (h : (Res.liftK x).val = .ok a) :
    x = .ok a := by
  cases x with
  | error e => cases h
  | ok b => cases h; rfl

theorem lift_ok {α : Type} {x : Except Err α} {a : α} (h : (Res.lift x).val = .ok a) :
    x = .ok a := by
  cases x with
  | error e => cases h
  | ok b => cases h; rfl

theorem ntupleLoopS_of (ha : Agree prec srec) (c : Nat) {v : Val} (h : NoStoredKeys v)
    {tfm : Option (List (Val × Val))} (ht : ∀ es, tfm = some es → ValuesOk es) (len : Nat)
    (kw : LoadKw) (i : Nat) (names : List PyStr) :
    ntupleLoopS E prec srec c v tfm len kw i names
      = .of (ntupleLoop E prec c v tfm len kw i names) := by
  induction names generalizing i with
  | nil => rfl
  | cons name names ih =>
    simp only [ntupleLoopS, ntupleLoop]
    refine sof_bind _ _ _ fun field hf => ?_
    refine sof_ite _ _ _ _ _ (fun _ => rfl) (fun _ => ?_)
    have hl : ∀ hint, ntupleLoadS prec srec v tfm len i name field hint kw
        = .of (prec field hint kw) := by
      intro hint
      unfold ntupleLoadS
      by_cases hi : i < len
      · have hk := ntupleField_ok h ht (liftK_val hf) hi
        rw [if_pos hi, ha _ _ _ hk]
        split <;> rfl
      · rw [if_neg hi]
    rw [hl]
    refine sof_bind _ _ _ fun y _ => ?_
    rw [ih]
    exact sof_bind _ _ _ fun _ _ => rfl

theorem ntupleDesS_of (ha : Agree prec srec) {v : Val} (h : NoStoredKeys v) (c : Nat)
    (kw : LoadKw) : ntupleDesS E prec srec v c kw = .of (ntupleDes E prec v c kw) := by
  unfold ntupleDesS ntupleDes
  refine sof_bind _ _ _ fun tfm ht => ?_
  have ht : ∀ es, tfm = some es → ValuesOk es := by
    intro es he
    subst he
    have ht := lift_ok ht
    unfold ntupleTfm at ht
    split at ht
    · rename_i fs _
      cases hr : transformKeys E.info (kw.keyTransformer.getD .ok) [] fs with
      | error e => rw [hr] at ht; cases ht
      | ok r =>
        rw [hr] at ht; cases ht
        exact valuesOk_transform (fun e he => noStored_value h he) (by intro e he; cases he) hr
    · cases ht
  cases v.iter with
  | none => rfl
  | some xs =>
    simp only [ntupleLoopS_of ha c h ht]
    exact sof_bind _ _ _ fun _ _ => rfl

theorem tupleLoopS_of (ha : Agree prec srec) (kw : LoadKw) (i : Nat) (ts : List Ty)
    (xs : List Val) (h : ∀ x ∈ xs, NoStoredKeys x) :
    tupleLoopS srec kw i ts xs = .of (tupleLoop prec kw ts xs) := by
  induction xs generalizing i ts with
  | nil => cases ts <;> rfl
  | cons x xs ih =>
    cases ts with
    | nil => rfl
    | cons t ts =>
      simp only [tupleLoopS, tupleLoop]
      rw [ha _ _ _ (h x List.mem_cons_self), sof_at]
      refine sof_bind _ _ _ fun y _ => ?_
      rw [ih _ _ (fun x hx => h x (List.mem_cons_of_mem _ hx))]
      exact sof_bind _ _ _ fun _ _ => rfl

theorem tupleAnyS_of (ha : Agree prec srec) (kw : LoadKw) (i : Nat)
    (xs : List Val) (h : ∀ x ∈ xs, NoStoredKeys x) :
    tupleAnyS srec kw i xs = .of (mapRes (fun x => prec x none kw) xs) := by
  induction xs generalizing i with
  | nil => rfl
  | cons x xs ih =>
    simp only [tupleAnyS, mapRes]
    rw [ha _ _ _ (h x List.mem_cons_self), sof_at]
    refine sof_bind _ _ _ fun y _ => ?_
    rw [ih _ (fun x hx => h x (List.mem_cons_of_mem _ hx))]
    exact sof_bind _ _ _ fun _ _ => rfl

theorem tupleDesS_of (ha : Agree prec srec) {v : Val} (h : NoStoredKeys v) (t : Ty)
    (kw : LoadKw) : tupleDesS E prec srec v t kw = .of (tupleDes E prec v t kw) := by
  unfold tupleDesS tupleDes
  have hp : plainTupleDesS srec v t kw = .of (
      let kw' := { kw with keyTransformer := none }
      match v.iter with
      | none => Res.raise { kind := .typeError }
      | some xs => do
        let ys ← match t, t.getArgs with
          | .gen .tupleEll _, a :: _ => tupleLoop prec kw' (List.replicate xs.length a) xs
          | _, a :: as => tupleLoop prec kw' (a :: as) xs
          | _, [] => mapRes (fun x => prec x none kw') xs
        pure (.tuple ys)) := by
    unfold plainTupleDesS
    cases hi : v.iter with
    | none => rfl
    | some xs =>
      have hx : ∀ x ∈ xs, NoStoredKeys x := fun x hx => noStored_iter h hi hx
      simp only [tupleLoopS_of ha _ _ _ _ hx, tupleAnyS_of ha _ _ _ hx]
      generalize t.getArgs = as
      cases as <;> cases t with
      | gen g _ => cases g <;> exact sof_bind _ _ _ fun _ _ => rfl
      | _ => exact sof_bind _ _ _ fun _ _ => rfl
  cases t with
  | cls c => cases c with
    | user c => exact sof_ite _ _ _ _ _ (fun _ => ntupleDesS_of ha h _ _) (fun _ => hp)
    | _ => exact hp
  | _ => exact hp

theorem loadHashedKeysS_of {v : Val} (h : NoStoredKeys v) (args : List Ty) (kw : LoadKw) :
    (∃ e, loadHashedKeysS E srec v args kw = .raise e ∧
      loadHashedKeys E prec v args kw = Res.raise e) ∨
    ∃ es, v = .dict es ∧ loadHashedKeysS E srec v args kw = pure ((es, []), false) ∧
      loadHashedKeys E prec v args kw = pure (es, false) := by
  unfold loadHashedKeysS loadHashedKeys
  cases v with
  | dict es =>
    cases hg : dictGet es (.str keysKey) with
    | none => simp only [hg]; exact .inr ⟨es, rfl, rfl, rfl⟩
    | some s =>
      rcases h es s .self hg with hs | hs
      · simp only [hg, hs]; exact .inl ⟨_, rfl, rfl⟩
      · simp only [hg, hs]; exact .inr ⟨es, rfl, rfl, rfl⟩
  | _ => exact .inl ⟨_, rfl, rfl⟩

theorem dictCompS_of (info : Nat → ClassInfo) (o : Origins) (keyFn : Val → Res Val)
    {valFn : Val → SRes Val} {valFn' : Val → Res Val}
    (hv : ∀ w, NoStoredKeys w → valFn w = .of (valFn' w)) (acc es : List (Val × Val))
    (h : ValuesOk es) :
    dictCompS info o keyFn valFn acc es = .of (dictComp info keyFn valFn' acc es) := by
  induction es generalizing acc with
  | nil => rfl
  | cons e es ih =>
    obtain ⟨k, v⟩ := e
    simp only [dictCompS, dictComp]
    refine sof_bind _ _ _ fun k' _ => ?_
    rw [hv _ (h _ List.mem_cons_self), sof_at]
    refine sof_bind _ _ _ fun v' _ => ?_
    exact sof_ite _ _ _ _ _ (fun _ => ih _ fun e h' => h e (List.mem_cons_of_mem _ h'))
      (fun _ => rfl)

theorem dictDesS_of (ha : Agree prec srec) {v : Val} (h : NoStoredKeys v) (args : List Ty)
    (kw : LoadKw) : dictDesS E prec srec v args kw = .of (dictDes E prec v args kw) := by
  unfold dictDesS dictDes
  rcases loadHashedKeysS_of (E := E) (prec := prec) (srec := srec) h args kw with
    ⟨e, h1, h2⟩ | ⟨es, rfl, h1, h2⟩
  · rw [h1, h2]; rfl
  · rw [h1, h2]
    have hv : ValuesOk es := fun e he => noStored_value h he
    rw [spure_bind, rpure_bind]
    rcases args with _ | ⟨a, _ | ⟨b, _ | ⟨c, args⟩⟩⟩ <;>
      exact dictCompS_of _ _ _ (fun w hw => ha w _ _ hw) _ _ hv

theorem mappingDesS_of (ha : Agree prec srec) {v : Val} (h : NoStoredKeys v) (t : Ty)
    (kw : LoadKw) : mappingDesS E prec srec v t kw = .of (mappingDes E prec v t kw) := by
  unfold mappingDesS mappingDes
  rw [dictDesS_of ha h]
  exact sof_bind _ _ _ fun _ _ => rfl

theorem defaultdictDesS_of (ha : Agree prec srec) {v : Val} (h : NoStoredKeys v) (t : Ty)
    (kw : LoadKw) : defaultdictDesS srec v t kw = .of (defaultdictDes prec v t kw) := by
  unfold defaultdictDesS defaultdictDes
  refine sof_bind _ _ _ fun c _ => ?_
  rw [ha _ _ _ h]
  refine sof_bind _ _ _ fun r _ => ?_
  cases r <;> rfl

theorem unionLoadLoopS_of (ha : Agree prec srec) {v : Val} (h : NoStoredKeys v) (t : Ty)
    (kw : LoadKw) (ts : List Ty) :
    unionLoadLoopS srec v t kw v ts = .of (unionLoadLoop prec v t kw ts) := by
  induction ts with
  | nil => rfl
  | cons a as ih =>
    simp only [unionLoadLoopS, unionLoadLoop]
    rw [ha _ _ _ h, sof_attempt]
    refine sof_bind _ _ _ fun r _ => ?_
    cases r with
    | ok y => rfl
    | error e => exact sof_ite _ _ _ _ _ (fun _ => ih) (fun _ => rfl)

theorem unionDesS_of (ha : Agree prec srec) {v : Val} (h : NoStoredKeys v) (t : Ty)
    (kw : LoadKw) : unionDesS srec v t kw = .of (unionDes prec v t kw) := by
  unfold unionDesS unionDes
  cases t.unionParams with
  | none => rfl
  | some ts => exact unionLoadLoopS_of ha h _ _ _

theorem subscript_ok {obj x : Val} {name : PyStr} (h : ∀ es, obj = .dict es → ValuesOk es)
    (hs : subscript obj name = .ok x) : NoStoredKeys x := by
  unfold subscript at hs
  split at hs
  · rename_i es
    cases hg : dictGet es (.str name) with
    | none => rw [hg] at hs; cases hs
    | some y => rw [hg] at hs; cases hs; exact valuesOk_get (h es rfl) hg
  all_goals cases hs

theorem valueFromObjS_of (ha : Agree prec srec) (s : Step) {obj : Val}
    (h : ∀ es, obj = .dict es → ValuesOk es) (name : PyStr) (hint : Option Ty) (kw : LoadKw) :
    valueFromObjS E srec s obj name hint kw = .of (valueFromObj E prec obj name hint kw) := by
  unfold valueFromObjS valueFromObj
  refine sof_bind _ _ _ fun m _ => ?_
  refine sof_bind _ _ _ fun x hx => ?_
  rw [ha _ _ _ (subscript_ok h (liftK_val hx)), sof_at]

theorem valueForAttrS_of (ha : Agree prec srec) (v : Val) {obj : Val}
    (h : ∀ es, obj = .dict es → ValuesOk es) (c : Nat) (kw : LoadKw) (p : Param) :
    valueForAttrS E srec v obj c kw p = .of (valueForAttr E prec obj c kw p) := by
  unfold valueForAttrS valueForAttr
  refine sof_bind _ _ _ fun b _ => ?_
  refine sof_ite _ _ _ _ _ (fun _ => ?_) (fun _ => ?_)
  · rw [valueFromObjS_of ha _ h]
    exact sof_bind _ _ _ fun _ _ => rfl
  · cases assoc kw.attrGetters p.name with
    | some g => exact sof_bind _ _ _ fun _ _ => rfl
    | none => cases p.default with
      | some d => rfl
      | none =>
        refine sof_ite _ _ _ _ _ (fun _ => rfl) (fun _ => ?_)
        refine sof_bind _ _ _ fun b _ => ?_
        exact sof_ite _ _ _ _ _ (fun _ => rfl) (fun _ => rfl)

theorem ctorArgsS_of (ha : Agree prec srec) (v : Val) {obj : Val}
    (h : ∀ es, obj = .dict es → ValuesOk es) (c : Nat) (kw : LoadKw) (ps : List Param) :
    ctorArgsS E srec v obj c kw ps = .of (ctorArgs E prec obj c kw ps) := by
  induction ps with
  | nil => rfl
  | cons p ps ih =>
    simp only [ctorArgsS, ctorArgs]
    rw [valueForAttrS_of ha v h]
    refine sof_bind _ _ _ fun x _ => ?_
    rw [ih]
    refine sof_bind _ _ _ fun r _ => ?_
    cases x <;> rfl

theorem setRemainingS_of (ha : Agree prec srec) (v : Val) (c : Nat) (kw : LoadKw)
    (es : List (Val × Val)) (h : ValuesOk es) (as : List (PyStr × Val)) :
    setRemainingS E srec v c kw es as = .of (setRemaining E prec c kw es as) := by
  induction es generalizing as with
  | nil => rfl
  | cons e es ih =>
    obtain ⟨k, x⟩ := e
    simp only [setRemainingS, setRemaining]
    refine sof_bind _ _ _ fun _ _ => ?_
    rw [ha _ _ _ (h _ List.mem_cons_self), sof_at]
    refine sof_bind _ _ _ fun y _ => ?_
    refine sof_bind _ _ _ fun as _ => ?_
    exact ih (fun e h' => h e (List.mem_cons_of_mem _ h')) _

theorem getRemainingArgs_ok {obj : Val} {c : Nat} {args : List (PyStr × Val)} {strict : Bool}
    {r : List (Val × Val)} (h : ∀ es, obj = .dict es → ValuesOk es)
    (hr : (getRemainingArgs obj c args strict).val = .ok r) : ValuesOk r := by
  simp only [getRemainingArgs, Core.bind_ok] at hr
  obtain ⟨rest, h1, h2⟩ := hr
  have hok : ValuesOk rest := by
    have h1 := liftK_val h1
    unfold remainingAttrs at h1
    split at h1
    · cases h1
      intro e he
      exact h _ rfl e (List.mem_of_mem_filter he)
    · split at h1
      · cases h1; intro e he; cases he
      · cases h1
  cases rest with
  | nil => cases h2; exact hok
  | cons e es =>
    obtain ⟨k, x⟩ := e
    simp only at h2
    split at h2
    · cases h2
    · cases h2; exact hok

theorem objectDesS_of (ha : Agree prec srec) {v : Val} (h : NoStoredKeys v) (t : Ty)
    (kw : LoadKw) : objectDesS E prec srec v t kw = .of (objectDes E prec v t kw) := by
  have key : ∀ c, objectDesS E prec srec v (.cls (.user c)) kw
      = .of (objectDes E prec v (.cls (.user c)) kw) := by
    intro c
    simp only [objectDesS, objectDes]
    refine sof_bind _ _ _ fun obj ho => ?_
    have ho : ∀ es, obj = .dict es → ValuesOk es := by
      intro es he
      subst he
      have ho := lift_ok ho
      unfold transformObj at ho
      split at ho
      · cases ho; exact fun e he => noStored_value h he
      · split at ho
        · rename_i f _ _ fs _
          cases hr : transformKeys E.info f [] fs with
          | error e => rw [hr] at ho; cases ho
          | ok r =>
            rw [hr] at ho; cases ho
            exact valuesOk_transform (fun e he => noStored_value h he) (by intro e he; cases he) hr
        · split at ho
          · cases ho; intro e he; cases he
          · cases ho
    rw [ctorArgsS_of ha v ho]
    refine sof_bind _ _ _ fun args _ => ?_
    refine sof_bind _ _ _ fun rest hr => ?_
    refine sof_bind _ _ _ fun as _ => ?_
    rw [setRemainingS_of ha v c kw rest (getRemainingArgs_ok ho hr)]
    refine sof_bind _ _ _ fun as _ => ?_
    exact sof_bind _ _ _ fun _ _ => rfl
  cases t with
  | cls c => cases c with
    | user c => exact key c
    | _ => rfl
  | _ => rfl

theorem callDesS_of (ha : Agree prec srec) (f : DesFn) {v : Val} (h : NoStoredKeys v) (t : Ty)
    (kw : LoadKw) : callDesS E prec srec f v t kw = .of (callDes E prec f v t kw) := by
  cases f with
  | list =>
    simp only [callDesS, callDes]
    rw [listDesS_of ha h]
    exact sof_bind _ _ _ fun _ _ => rfl
  | tuple => exact tupleDesS_of ha h t kw
  | union => exact unionDesS_of ha h t kw
  | defaultdict => exact defaultdictDesS_of ha h t kw
  | mapping => exact mappingDesS_of ha h t kw
  | iterable => exact iterableDesS_of ha h t kw
  | object => exact objectDesS_of ha h t kw
  | _ => rfl

theorem doLoadS_of (ha : Agree prec srec) (fn : Option DesFn) {v : Val} (h : NoStoredKeys v)
    (t : Ty) (kw : LoadKw) : doLoadS E prec srec fn v t kw = .of (doLoad E prec fn v t kw) := by
  cases fn with
  | none => rfl
  | some f =>
    simp only [doLoadS, doLoad]
    have hb : (do
        let r ← callDesS E prec srec f v t kw
        SRes.of (validate E r t kw.fork)
        pure r : SRes Val) = .of (do
        let r ← callDes E prec f v t kw
        validate E r t kw.fork
        pure r) := by
      rw [callDesS_of ha f h]
      refine sof_bind _ _ _ fun r _ => ?_
      exact sof_bind _ _ _ fun _ _ => rfl
    rw [hb, sof_attempt]
    refine sof_bind _ _ _ fun r _ => ?_
    cases r with
    | ok y => rfl
    | error e => exact sof_ite _ _ _ _ _ (fun _ => rfl) (fun _ => rfl)

theorem loadWithS_of (ha : Agree prec srec) {v : Val} (h : NoStoredKeys v) (cls : Option Ty)
    (kw : LoadKw) : loadWithS E prec srec v cls kw = .of (loadWith E prec v cls kw) := by
  unfold loadWithS loadWith
  refine sof_bind _ _ _ fun _ _ => ?_
  refine sof_ite _ _ _ _ _ (fun _ => ?_) (fun _ => ?_)
  · exact sof_bind _ _ _ fun _ _ => rfl
  · unfold loadFromS loadFrom
    refine sof_ite _ _ _ _ _ (fun _ => rfl) (fun _ => ?_)
    refine sof_bind _ _ _ fun m _ => ?_
    refine sof_bind _ _ _ fun fn _ => ?_
    exact doLoadS_of ha fn h _ _

theorem loadS_of (E : LEnv) (n : Nat) : Agree (loadRec E n) (loadRecS E n) := by
  induction n with
  | zero => intro w t kw _; rfl
  | succ n ih => intro w t kw h; exact loadWithS_of ih h t kw

end Verif.Core.LoadInput
