import Verif.Core.HeapLoad
import Verif.Core.LoadLemmas
import Verif.Props.SharingSim

/-! # Identities change nothing for load (C105, first part) -/

set_option autoImplicit false

namespace Verif.Props.LoadSharing

open Verif Verif.Core Verif.Datetime
open Verif.Props.Sharing (ExRel eraseList_eq eraseEntries_eq eraseAttrs_eq fresh_erase iter_erase hget_erase hset_erase
  exRel_refl)

/-! ## Results -/

/-- The same warnings, related outcomes. -/
structure RSim {α β : Type} (S : α → β → Prop) (x : Res α) (y : Res β) : Prop where
  log : x.log = y.log
  val : ExRel S x.val y.val

section
variable {α β γ δ : Type} {S : α → β → Prop} {S' : γ → δ → Prop}

theorem rs_pure {a : α} {b : β} (h : S a b) : RSim S (pure a) (pure b) := ⟨rfl, .ok h⟩

theorem rs_raise (e : Err) : RSim S (Res.raise e) (Res.raise e) := ⟨rfl, .err e⟩

theorem rs_same (x : Res α) : RSim Eq x x := ⟨rfl, exRel_refl⟩

theorem rs_lift {x : Except Err α} {y : Except Err β} (h : ExRel S x y) : RSim S (Res.lift x) (Res.lift y) := by
  refine ⟨by rw [lift_log, lift_log], ?_⟩
  rw [lift_val, lift_val]
  exact h

theorem rs_liftK_ok {a : α} {b : β} (h : S a b) : RSim S (Res.liftK (.ok a)) (Res.liftK (.ok b)) := ⟨rfl, .ok h⟩

theorem rs_liftK_err (k : ErrKind) : RSim S (Res.liftK (.error k)) (Res.liftK (.error k)) := ⟨rfl, .err _⟩

theorem rs_bind {x : Res α} {y : Res β} {f : α → Res γ} {g : β → Res δ} (h : RSim S x y)
    (hf : ∀ a b, S a b → RSim S' (f a) (g b)) : RSim S' (x >>= f) (y >>= g) := by
  obtain ⟨hl, hv⟩ := h
  show RSim S' (Res.bind x f) (Res.bind y g)
  unfold Res.bind
  cases hx : x.val with
  | ok a =>
    rw [hx] at hv
    cases hy : y.val with
    | ok b =>
      rw [hy] at hv
      cases hv with
      | ok h =>
        have := hf a b h
        exact ⟨by show x.log ++ (f a).log = y.log ++ (g b).log; rw [hl, this.log], this.val⟩
    | error e => rw [hy] at hv; cases hv
  | error e =>
    rw [hx] at hv
    cases hy : y.val with
    | ok b => rw [hy] at hv; cases hv
    | error e' =>
      rw [hy] at hv
      cases hv
      exact ⟨hl, .err e⟩

theorem rs_bind_same (x : Res α) {f : α → Res γ} {g : α → Res δ} (hf : ∀ a, RSim S' (f a) (g a)) :
    RSim S' (x >>= f) (x >>= g) :=
  rs_bind (rs_same x) fun a b h => by subst h; exact hf a

theorem rs_attempt {x : Res α} {y : Res β} (h : RSim S x y) : RSim (ExRel S) x.attempt y.attempt :=
  ⟨by rw [attempt_log, attempt_log]; exact h.log, by rw [attempt_val, attempt_val]; exact .ok h.val⟩

theorem rs_map (f : γ → Res α) (g : δ → Res β) : ∀ (xs : List γ) (ys : List δ),
    List.Forall₂ (fun x y => RSim S (f x) (g y)) xs ys → RSim (List.Forall₂ S) (mapRes f xs) (mapRes g ys)
  | _, _, .nil => rs_pure .nil
  | _, _, .cons h hs => by
    unfold mapRes
    exact rs_bind h fun a b hab => rs_bind (rs_map f g _ _ hs) fun as bs has => rs_pure (.cons hab has)

end

/-- The same value. -/
def Er (a : HVal) (b : Val) : Prop := a.erase = b

/-- The same entries. -/
def ErE (a : List (HVal × HVal)) (b : List (Val × Val)) : Prop := HVal.eraseEntries a = b

/-- The same attributes. -/
def ErA (a : List (PyStr × HVal)) (b : List (PyStr × Val)) : Prop := HVal.eraseAttrs a = b

theorem er_list {ys : List HVal} {zs : List Val} (h : List.Forall₂ Er ys zs) : HVal.eraseList ys = zs := by
  rw [eraseList_eq]
  induction h with
  | nil => rfl
  | cons h _ ih => rw [List.map_cons, ih]; rw [show _ = _ from h]

theorem rs_madeL (x : Res Val) : RSim Er (madeL x) x := by
  have h := rs_bind (S' := Er) (rs_same x) (f := fun v => pure (HVal.fresh v)) (g := fun v => pure v)
    fun a b h => rs_pure (by subst h; exact fresh_erase a)
  have e : (x >>= fun v => pure v) = x := by
    apply Core.res_ext
    · rw [bind_log]; cases x.val <;> simp [Pure.pure, Res.ret]
    · rw [bind_val]; cases x.val <;> rfl
  rw [e] at h
  exact h

/-- The same keyword arguments. -/
structure KwRel (a : HLoadKw) (b : LoadKw) : Prop where
  strict : a.strict = b.strict
  fork : a.fork = b.fork
  metaHints : a.metaHints = b.metaHints
  inferred : a.inferred = b.inferred
  warnOnFail : a.warnOnFail = b.warnOnFail
  useEnumName : a.useEnumName = b.useEnumName
  getters : List.Forall₂ (fun g g' => g.1 = g'.1 ∧ ExRel Er g.2 g'.2) a.attrGetters b.attrGetters
  transformer : Option.Rel (fun f g => ∀ x : HVal, ExRel Er (f x) (g x.erase)) a.keyTransformer b.keyTransformer

theorem kwRel_default : KwRel {} {} :=
  ⟨rfl, rfl, rfl, rfl, rfl, rfl, .nil, .none⟩

/-- Two functions for the nested calls that do the same. -/
def RecSim (hrec : HLRec) (rec : LRec) : Prop :=
  ∀ v cls kw kw', KwRel kw kw' → RSim Er (hrec v cls kw) (rec v.erase cls kw')

/-- The surroundings with identities are those without. -/
structure Faithful (H : HLEnv) : Prop where
  paramDefault : ∀ c p, p ∈ (H.info c).params → (H.paramDefault c p.name).map HVal.erase = p.default
  fieldDefault : ∀ c n, (H.fieldDefault c n).map HVal.erase = assoc (H.info c).fieldDefaults n
  construct : ∀ c as, ExRel ErA (H.constructH c as) (H.construct c (HVal.eraseAttrs as))
  setAttr : ∀ c as n v, ExRel ErA (H.setAttrH c as n v) (H.setAttr c (HVal.eraseAttrs as) n v.erase)
  foreign : ∀ hrec rec v t kw kw', RecSim hrec rec → KwRel kw kw' →
    RSim Er (H.foreignDesH hrec v t kw) (H.foreignDes rec v.erase t kw')
  custom : ∀ id hrec rec v t kw kw', RecSim hrec rec → KwRel kw kw' →
    RSim Er (H.customDesH id hrec v t kw) (H.customDes id rec v.erase t kw')

/-! ## Deserializers of values without parts -/

section
variable {H : HLEnv} {hrec : HLRec} {rec : LRec}

theorem subscript_sim (v : HVal) (k : PyStr) : RSim Er (Res.liftK (subscriptH v k)) (Res.liftK (subscript v.erase k)) := by
  unfold subscriptH subscript
  cases v with
  | dict l es =>
    simp only [HVal.erase, hget_erase]
    cases hget es (.str k) with
    | none => exact rs_liftK_err _
    | some w => exact rs_liftK_ok rfl
  | _ => exact rs_liftK_err _

theorem primitive_sim (v : HVal) (t : Ty) : RSim Er (primitiveDesH H v t) (primitiveDes H.toLEnv v.erase t) := by
  unfold primitiveDesH primitiveDes
  split
  · exact rs_pure rfl
  · cases H.isInstance v.erase t with
    | error k => exact rs_raise _
    | ok b =>
      cases b with
      | true => exact rs_pure rfl
      | false =>
        dsimp only
        cases H.cast v.erase t with
        | ok r => exact rs_pure (fresh_erase _)
        | error k =>
          dsimp only
          split
          · exact rs_raise _
          · exact rs_raise _

theorem string_sim (hr : RecSim hrec rec) (v : HVal) (t : Ty) {kw : HLoadKw} {kw' : LoadKw} (hk : KwRel kw kw') :
    RSim Er (stringDesH H hrec v t kw) (stringDes H.toLEnv rec v.erase t kw') := by
  unfold stringDesH stringDes
  rw [hk.inferred]
  split
  · exact rs_pure rfl
  · refine rs_bind (rs_attempt (hr v _ kw kw' hk)) fun a b h => ?_
    cases h with
    | ok h => exact rs_pure h
    | err e =>
      dsimp only
      split
      · exact primitive_sim v _
      · exact rs_raise _

theorem timezone_sim (hr : RecSim hrec rec) (v : HVal) :
    RSim Er (timezoneDesH hrec v) (timezoneDes rec v.erase) := by
  unfold timezoneDesH timezoneDes
  refine rs_bind (subscript_sim v _) fun o o' ho => ?_
  cases ho
  refine rs_bind (hr o _ _ _ kwRel_default) fun a b h => ?_
  cases h
  refine rs_bind (subscript_sim v _) fun n n' hn => ?_
  cases hn
  exact rs_madeL _

theorem complex_sim (hr : RecSim hrec rec) (v : HVal) :
    RSim Er (complexDesH hrec v) (complexDes rec v.erase) := by
  unfold complexDesH complexDes
  refine rs_bind (S := ExRel Er) (rs_attempt ?_) fun a b h => ?_
  · refine rs_bind (subscript_sim v _) fun re re' hre => ?_
    refine rs_bind (subscript_sim v _) fun im im' him => ?_
    cases hre
    cases him
    refine rs_bind (hr _ _ _ _ kwRel_default) fun c c' hc => ?_
    cases hc
    refine rs_bind (subscript_sim c _) fun re re' hre => ?_
    refine rs_bind (subscript_sim c _) fun im im' him => ?_
    cases hre
    cases him
    exact rs_madeL _
  · cases h with
    | ok h => exact rs_pure h
    | err e =>
      dsimp only
      split
      · exact rs_raise _
      · exact rs_raise _

/-! ## Collections -/

theorem listLoop_sim (hr : RecSim hrec rec) (cls : Option Ty) (warn : Bool) {kw : HLoadKw} {kw' : LoadKw}
    (hk : KwRel kw kw') : ∀ (i : Nat) (xs : List HVal),
    RSim (List.Forall₂ Er) (listLoopH H hrec cls warn kw i xs) (listLoop H.toLEnv rec cls warn kw' i (xs.map HVal.erase))
  | _, [] => rs_pure .nil
  | i, x :: xs => by
    simp only [List.map_cons]
    unfold listLoopH listLoop
    refine rs_bind (rs_attempt (hr x _ kw kw' hk)) fun a b h => ?_
    cases h with
    | ok h =>
      exact rs_bind (listLoop_sim hr cls warn hk (i + 1) xs) fun ys zs hyz => rs_pure (.cons h hyz)
    | err e =>
      dsimp only
      split
      · split
        · rw [hk.fork]
          exact rs_bind_same _ fun _ => listLoop_sim hr cls warn hk (i + 1) xs
        · exact rs_raise _
      · exact rs_raise _

theorem list_sim (hr : RecSim hrec rec) (v : HVal) (args : List Ty) {kw : HLoadKw} {kw' : LoadKw} (hk : KwRel kw kw') :
    RSim (List.Forall₂ Er) (listDesH H hrec v args kw) (listDes H.toLEnv rec v.erase args kw') := by
  unfold listDesH listDes
  rw [iter_erase]
  cases v.iter with
  | none => exact rs_raise _
  | some xs =>
    simp only [Option.map_some]
    rw [hk.warnOnFail]
    refine listLoop_sim (kw := { kw with warnOnFail := false, inferred := kw.inferred || !args.isEmpty })
      (kw' := { kw' with warnOnFail := false, inferred := kw'.inferred || !args.isEmpty }) hr _ _ ⟨hk.strict, hk.fork, hk.metaHints, by simp only [hk.inferred], rfl, hk.useEnumName, hk.getters, hk.transformer⟩ 0 xs

theorem dedup_erase : ∀ (acc xs : List HVal), HVal.eraseList (dedupH acc xs) = dedup (HVal.eraseList acc) (HVal.eraseList xs)
  | acc, [] => by simp [dedupH, dedup, eraseList_eq]
  | acc, x :: xs => by
    simp only [dedupH, HVal.eraseList, dedup]
    have e : (HVal.eraseList acc).any (fun y => pyEq y x.erase) = acc.any (fun y => pyEq y.erase x.erase) := by
      rw [eraseList_eq, List.any_map]
      rfl
    rw [e]
    split
    · exact dedup_erase acc xs
    · exact dedup_erase (x :: acc) xs

theorem castSeq_sim (info : Nat → ClassInfo) (c : Cls) {ys : List HVal} {zs : List Val} (h : List.Forall₂ Er ys zs) :
    RSim Er (Res.liftK (castSeqH info c ys)) (Res.liftK (castSeq info c zs)) := by
  have e := er_list h
  subst e
  unfold castSeqH castSeq
  cases c
  case set => 
    dsimp only
    split
    · exact rs_liftK_ok (by simp [Er, HVal.erase, dedup_erase, HVal.eraseList])
    · exact rs_liftK_err _
  case frozenset => 
    dsimp only
    split
    · exact rs_liftK_ok (by simp [Er, HVal.erase, dedup_erase, HVal.eraseList])
    · exact rs_liftK_err _
  all_goals first | exact rs_liftK_err _ | exact rs_liftK_ok rfl

theorem iterable_sim (hr : RecSim hrec rec) (v : HVal) (t : Ty) {kw : HLoadKw} {kw' : LoadKw} (hk : KwRel kw kw') :
    RSim Er (iterableDesH H hrec v t kw) (iterableDes H.toLEnv rec v.erase t kw') := by
  unfold iterableDesH iterableDes
  refine rs_bind (list_sim hr v _ hk) fun ys zs h => ?_
  cases t.naked? with
  | none => exact rs_raise _
  | some c => exact castSeq_sim _ c h

theorem transformKeys_sim (info : Nat → ClassInfo) {f : HVal → Except Err HVal} {g : Val → Except Err Val}
    (hf : ∀ x : HVal, ExRel Er (f x) (g x.erase)) : ∀ (es acc : List (HVal × HVal)),
    ExRel ErE (transformKeysH info f acc es) (transformKeys info g (HVal.eraseEntries acc) (HVal.eraseEntries es))
  | [], acc => .ok rfl
  | (k, v) :: es, acc => by
    simp only [transformKeysH, HVal.eraseEntries, transformKeys]
    have hk := hf k
    generalize f k = a at hk
    generalize g k.erase = b at hk
    cases hk with
    | err e => exact .err e
    | @ok a b h =>
      cases h
      show ExRel ErE (if _ then _ else _) (if _ then _ else _)
      split
      · have := transformKeys_sim info hf es (hset acc a v)
        rw [hset_erase] at this
        exact this
      · exact .err _

theorem index_sim (v : HVal) (i : Nat) : RSim Er (Res.liftK (indexH v i)) (Res.liftK (index v.erase i)) := by
  have hlist : ∀ xs : List HVal, RSim Er
      (Res.liftK (match xs[i]? with | some x => .ok x | none => .error .indexError))
      (Res.liftK (match (HVal.eraseList xs)[i]? with | some x => .ok x | none => .error .indexError)) := by
    intro xs
    rw [eraseList_eq, List.getElem?_map]
    cases xs[i]? with
    | none => exact rs_liftK_err _
    | some x => exact rs_liftK_ok rfl
  unfold indexH index
  cases v with
  | atom a =>
    cases a
    case str s =>
      simp only [HVal.erase]
      cases s[i]? with
      | none => exact rs_liftK_err _
      | some x => exact rs_liftK_ok rfl
    all_goals exact rs_liftK_err _
  | seq l k xs => cases k <;> first | exact hlist xs | exact rs_liftK_err _
  | ntuple l c xs => exact hlist xs
  | _ => exact rs_liftK_err _

/-- The same transformed entries. -/
def ErO : Option (List (HVal × HVal)) → Option (List (Val × Val)) → Prop := Option.Rel ErE

theorem ntupleField_sim (hF : Faithful H) (c : Nat) (v : HVal) {tfm : Option (List (HVal × HVal))}
    {tfm' : Option (List (Val × Val))} (ht : ErO tfm tfm') (len i : Nat) (name : PyStr) :
    RSim Er (Res.liftK (ntupleFieldH H c v tfm len i name)) (Res.liftK (ntupleField (H.info c) v.erase tfm' len i name)) := by
  unfold ntupleFieldH ntupleField
  split
  · cases ht with
    | none => exact index_sim v i
    | some h =>
      cases h
      exact subscript_sim (.dict none _) name
  · rw [← hF.fieldDefault c name]
    cases H.fieldDefault c name with
    | none => exact rs_liftK_ok rfl
    | some d => exact rs_liftK_ok rfl

theorem ntupleLoop_sim (hF : Faithful H) (hr : RecSim hrec rec) (c : Nat) (v : HVal) {tfm : Option (List (HVal × HVal))}
    {tfm' : Option (List (Val × Val))} (ht : ErO tfm tfm') (len : Nat) {kw : HLoadKw} {kw' : LoadKw} (hk : KwRel kw kw') :
    ∀ (i : Nat) (names : List PyStr), RSim (List.Forall₂ Er) (ntupleLoopH H hrec c v tfm len kw i names)
      (ntupleLoop H.toLEnv rec c v.erase tfm' len kw' i names)
  | _, [] => rs_pure .nil
  | i, name :: names => by
    unfold ntupleLoopH ntupleLoop
    dsimp only
    refine rs_bind (ntupleField_sim hF c v ht len i name) fun f f' hf => ?_
    cases hf
    generalize (if (H.info c).hasAnnotations = true then assoc (H.info c).hints name else none) = hint
    split
    · exact rs_raise _
    · exact rs_bind (hr f _ kw kw' hk) fun y y' hy =>
        rs_bind (ntupleLoop_sim hF hr c v ht len hk (i + 1) names) fun ys zs h => rs_pure (.cons hy h)

/-- The function that is used if there is no transformer. -/
theorem kt_getD {kw : HLoadKw} {kw' : LoadKw} (hk : KwRel kw kw') (x : HVal) :
    ExRel Er (kw.keyTransformer.getD .ok x) (kw'.keyTransformer.getD .ok x.erase) := by
  have h := hk.transformer
  generalize kw.keyTransformer = a at h
  generalize kw'.keyTransformer = b at h
  cases h with
  | none => exact .ok rfl
  | some h => exact h x

theorem exRel_map {α β γ δ : Type} {S : α → β → Prop} {S' : γ → δ → Prop} {x : Except Err α} {y : Except Err β}
    (h : ExRel S x y) {f : α → γ} {g : β → δ} (hf : ∀ a b, S a b → S' (f a) (g b)) : ExRel S' (x.map f) (y.map g) := by
  cases h with
  | ok h => exact .ok (hf _ _ h)
  | err e => exact .err e

theorem ntuple_sim (hF : Faithful H) (hr : RecSim hrec rec) (v : HVal) (c : Nat) {kw : HLoadKw} {kw' : LoadKw}
    (hk : KwRel kw kw') : RSim Er (ntupleDesH H hrec v c kw) (ntupleDes H.toLEnv rec v.erase c kw') := by
  unfold ntupleDesH ntupleDes
  have h : ExRel ErO (ntupleTfmH H.info (kw.keyTransformer.getD .ok) v)
      (ntupleTfm H.info (kw'.keyTransformer.getD .ok) v.erase) := by
    unfold ntupleTfmH ntupleTfm
    cases v with
    | dict l es => exact exRel_map (transformKeys_sim H.info (kt_getD hk) es []) fun a b h => .some h
    | _ => exact .ok .none
  refine rs_bind (rs_lift h) fun t t' ht => ?_
  rw [iter_erase]
  cases v.iter with
  | none => exact rs_raise _
  | some xs =>
    simp only [Option.map_some, List.length_map]
    refine rs_bind (ntupleLoop_sim hF hr c v ht _ hk 0 _) fun ys zs h => rs_pure ?_
    simp only [Er, HVal.erase, er_list h]

theorem tupleLoop_sim (hr : RecSim hrec rec) {kw : HLoadKw} {kw' : LoadKw} (hk : KwRel kw kw') :
    ∀ (ts : List Ty) (xs : List HVal), RSim (List.Forall₂ Er) (tupleLoopH hrec kw ts xs)
      (tupleLoop rec kw' ts (xs.map HVal.erase))
  | [], [] => rs_pure .nil
  | _ :: _, [] => rs_pure .nil
  | [], _ :: _ => rs_raise _
  | t :: ts, x :: xs => by
    simp only [List.map_cons]
    unfold tupleLoopH tupleLoop
    exact rs_bind (hr x _ kw kw' hk) fun y y' hy => rs_bind (tupleLoop_sim hr hk ts xs) fun ys zs h => rs_pure (.cons hy h)

/-- The elements of a tuple without identities. -/
def tupleElems (rec : LRec) (t : Ty) (kw : LoadKw) (xs : List Val) : Res (List Val) :=
  match tupleTypes t xs.length with
  | some ts => tupleLoop rec kw ts xs
  | none => mapRes (fun x => rec x none kw) xs

theorem tupleElems_sim (hr : RecSim hrec rec) (t : Ty) {kw : HLoadKw} {kw' : LoadKw} (hk : KwRel kw kw') (xs : List HVal) :
    RSim (List.Forall₂ Er) (tupleElemsH hrec t kw xs) (tupleElems rec t kw' (xs.map HVal.erase)) := by
  unfold tupleElemsH tupleElems
  rw [List.length_map]
  cases tupleTypes t xs.length with
  | some ts => exact tupleLoop_sim hr hk _ xs
  | none =>
    refine rs_map _ _ _ _ ?_
    induction xs with
    | nil => exact .nil
    | cons x xs ih => exact .cons (hr x none kw kw' hk) ih

/-- The deserializer of tuples without identities. -/
def plainTuple (rec : LRec) (v : Val) (t : Ty) (kw : LoadKw) : Res Val :=
  match v.iter with
  | none => Res.raise { kind := .typeError }
  | some xs => do
    let ys ← tupleElems rec t { kw with keyTransformer := none } xs
    pure (.tuple ys)

theorem tupleDes_eq (E : LEnv) (rec : LRec) (v : Val) (t : Ty) (kw : LoadKw) :
    tupleDes E rec v t kw = match t with
      | .cls (.user c) => if (E.info c).kind = .ntuple then ntupleDes E rec v c kw else plainTuple rec v t kw
      | _ => plainTuple rec v t kw := by
  unfold tupleDes plainTuple tupleElems tupleTypes
  cases t with
  | gen g args =>
    cases v.iter with
    | none => rfl
    | some xs => cases g <;> cases args <;> rfl
  | cls c =>
    cases v.iter with
    | none => cases c <;> rfl
    | some xs => cases c <;> rfl
  | union args =>
    cases v.iter with
    | none => rfl
    | some xs => cases args <;> rfl
  | _ =>
    cases v.iter with
    | none => rfl
    | some xs => rfl

theorem kwRel_noTransformer {kw : HLoadKw} {kw' : LoadKw} (hk : KwRel kw kw') :
    KwRel { kw with keyTransformer := none } { kw' with keyTransformer := none } :=
  ⟨hk.strict, hk.fork, hk.metaHints, hk.inferred, hk.warnOnFail, hk.useEnumName, hk.getters, .none⟩

theorem plainTuple_sim (hr : RecSim hrec rec) (v : HVal) (t : Ty) {kw : HLoadKw} {kw' : LoadKw} (hk : KwRel kw kw') :
    RSim Er (plainTupleH hrec v t kw) (plainTuple rec v.erase t kw') := by
  unfold plainTupleH plainTuple
  rw [iter_erase]
  cases v.iter with
  | none => exact rs_raise _
  | some xs =>
    refine rs_bind (tupleElems_sim hr t (kwRel_noTransformer hk) xs) fun ys zs h => rs_pure ?_
    simp only [Er, HVal.erase, er_list h]

theorem tuple_sim (hF : Faithful H) (hr : RecSim hrec rec) (v : HVal) (t : Ty) {kw : HLoadKw} {kw' : LoadKw}
    (hk : KwRel kw kw') : RSim Er (tupleDesH H hrec v t kw) (tupleDes H.toLEnv rec v.erase t kw') := by
  rw [tupleDes_eq]
  unfold tupleDesH
  cases t with
  | cls c =>
    cases c with
    | user c =>
      dsimp only
      split
      · exact ntuple_sim hF hr v _ hk
      · exact plainTuple_sim hr v _ hk
    | _ => exact plainTuple_sim hr v _ hk
  | _ => exact plainTuple_sim hr v _ hk

theorem hdel_erase (es : List (HVal × HVal)) (k : Val) : HVal.eraseEntries (hdel es k) = dictDel (HVal.eraseEntries es) k := by
  induction es with
  | nil => rfl
  | cons e es ih =>
    obtain ⟨k', v⟩ := e
    simp only [HVal.eraseEntries, dictDel, hdel]
    split
    · rfl
    · simp only [HVal.eraseEntries, ih]

/-- The stored key without identities. -/
def storedKey (es : List (Val × Val)) (h : Val) : Except ErrKind Val :=
  match dictGet es (.str keysKey) with
  | some (.dict ks) => match dictGet ks h with
    | some k => .ok k
    | none => .error .keyError
  | _ => .error .typeError

/-- The rest of a round without identities. -/
def putLoaded (info : Nat → ClassInfo) (es : List (Val × Val)) (h : Val) (loaded : Val) : Res (List (Val × Val)) :=
  match dictGet es h with
  | none => Res.raise { kind := .keyError }
  | some v =>
    if loaded.hashable info then
      match dictGet (dictSet es loaded v) (.str keysKey) with
      | some (.dict ks) =>
        if (dictGet ks h).isSome then
          pure (dictDel (dictSet (dictSet es loaded v) (.str keysKey) (.dict (dictDel ks h))) h)
        else Res.raise { kind := .keyError }
      | _ => Res.raise { kind := .typeError }
    else Res.raise { kind := .typeError }

theorem unhashKey_eq (E : LEnv) (rec : LRec) (keyTy : Ty) (kw : LoadKw) (es : List (Val × Val)) (h : Val) :
    unhashKey E rec keyTy kw es h = (do
      let original ← Res.liftK (storedKey es h)
      let loaded ← rec original (some keyTy) kw
      putLoaded E.info es h loaded) := rfl

theorem storedKey_sim (es : List (HVal × HVal)) (h : Val) :
    RSim Er (Res.liftK (storedKeyH es h)) (Res.liftK (storedKey (HVal.eraseEntries es) h)) := by
  unfold storedKeyH storedKey
  rw [hget_erase]
  cases hget es (.str keysKey) with
  | none => exact rs_liftK_err _
  | some s =>
    cases s with
    | dict l ks =>
      simp only [Option.map_some, HVal.erase, hget_erase]
      cases hget ks h with
      | none => exact rs_liftK_err _
      | some w => exact rs_liftK_ok rfl
    | _ => exact rs_liftK_err _

theorem putLoaded_sim (info : Nat → ClassInfo) (es : List (HVal × HVal)) (h : Val) (x : HVal) :
    RSim ErE (putLoadedH info es h x) (putLoaded info (HVal.eraseEntries es) h x.erase) := by
  unfold putLoadedH putLoaded
  rw [hget_erase]
  cases hget es h with
  | none => exact rs_raise _
  | some v =>
    simp only [Option.map_some]
    split
    · rw [← hset_erase, hget_erase]
      cases hget (hset es x v) (.str keysKey) with
      | none => exact rs_raise _
      | some s =>
        cases s with
        | dict l ks =>
          simp only [Option.map_some, HVal.erase, hget_erase, Option.isSome_map]
          split
          · refine rs_pure ?_
            simp only [ErE, hdel_erase, hset_erase, HVal.erase]
          · exact rs_raise _
        | _ => exact rs_raise _
    · exact rs_raise _

theorem unhashLoop_sim (hr : RecSim hrec rec) (keyTy : Ty) {kw : HLoadKw} {kw' : LoadKw} (hk : KwRel kw kw') :
    ∀ (hs : List Val) (es : List (HVal × HVal)), RSim ErE (unhashLoopH H hrec keyTy kw hs es)
      (unhashLoop H.toLEnv rec keyTy kw' hs (HVal.eraseEntries es))
  | [], _ => rs_pure rfl
  | h :: hs, es => by
    unfold unhashLoopH unhashLoop
    refine rs_bind (S := ErE) ?_ fun es' _ he => ?_
    · rw [unhashKey_eq]
      unfold unhashKeyH
      refine rs_bind (storedKey_sim es h) fun o o' ho => ?_
      cases ho
      refine rs_bind (hr o _ kw kw' hk) fun x x' hx => ?_
      cases hx
      exact putLoaded_sim _ es h x
    · cases he
      exact unhashLoop_sim hr keyTy hk hs es'

/-- The same entries and the same mark. -/
def ErH (a : List (HVal × HVal) × Bool) (b : List (Val × Val) × Bool) : Prop := ErE a.1 b.1 ∧ a.2 = b.2

theorem loadHashedKeys_sim (hr : RecSim hrec rec) (v : HVal) (args : List Ty) {kw : HLoadKw} {kw' : LoadKw}
    (hk : KwRel kw kw') :
    RSim ErH (loadHashedKeysH H hrec v args kw) (loadHashedKeys H.toLEnv rec v.erase args kw') := by
  unfold loadHashedKeysH loadHashedKeys
  cases v with
  | dict l es =>
    simp only [HVal.erase, hget_erase]
    cases hget es (.str keysKey) with
    | none => exact rs_pure ⟨rfl, rfl⟩
    | some s =>
      simp only [Option.map_some]
      cases s.erase.iter with
      | none => exact rs_raise _
      | some hs =>
        cases hs with
        | nil => exact rs_pure ⟨rfl, rfl⟩
        | cons h hs =>
          match args with
          | [] => exact rs_raise _
          | [_] => exact rs_raise _
          | [k, t] =>
            refine rs_bind (unhashLoop_sim hr k hk _ es) fun a b h => rs_pure ⟨?_, rfl⟩
            cases h
            exact hdel_erase _ _
          | _ :: _ :: _ :: _ => exact rs_raise _
  | _ => exact rs_raise _

theorem dictComp_sim (info : Nat → ClassInfo) {kf vf : HVal → Res HVal} {kf' vf' : Val → Res Val}
    (hkf : ∀ x, RSim Er (kf x) (kf' x.erase)) (hvf : ∀ x, RSim Er (vf x) (vf' x.erase)) :
    ∀ (es acc : List (HVal × HVal)), RSim ErE (dictCompH info kf vf acc es)
      (dictComp info kf' vf' (HVal.eraseEntries acc) (HVal.eraseEntries es))
  | [], acc => rs_pure rfl
  | (k, v) :: es, acc => by
    simp only [dictCompH, HVal.eraseEntries, dictComp]
    refine rs_bind (hkf k) fun a a' ha => ?_
    refine rs_bind (hvf v) fun b b' hb => ?_
    cases ha
    cases hb
    split
    · have := dictComp_sim info hkf hvf es (hset acc a b)
      rw [hset_erase] at this
      exact this
    · exact rs_raise _

theorem kwRel_transformer {kw : HLoadKw} {kw' : LoadKw} (hk : KwRel kw kw') :
    KwRel { kw with keyTransformer := some (kw.keyTransformer.getD .ok) }
      { kw' with keyTransformer := some (kw'.keyTransformer.getD .ok) } :=
  ⟨hk.strict, hk.fork, hk.metaHints, hk.inferred, hk.warnOnFail, hk.useEnumName, hk.getters, .some (kt_getD hk)⟩

theorem keyFn_sim (hr : RecSim hrec rec) (hashed : Bool) (k : Ty) {kw : HLoadKw} {kw' : LoadKw} (hk : KwRel kw kw') (x : HVal) :
    RSim Er (keyFnH hrec (kw.keyTransformer.getD .ok) hashed k kw x)
      ((if hashed then fun x => Res.lift (kw'.keyTransformer.getD .ok x)
        else fun x => do
          let y ← Res.lift (kw'.keyTransformer.getD .ok x)
          rec y (some k) { kw' with keyTransformer := none } : Val → Res Val) x.erase) := by
  unfold keyFnH
  cases hashed with
  | true => exact rs_lift (kt_getD hk x)
  | false =>
    refine rs_bind (rs_lift (kt_getD hk x)) fun y y' hy => ?_
    cases hy
    exact hr y _ _ _ (kwRel_noTransformer hk)

theorem dict_sim (hr : RecSim hrec rec) (v : HVal) (args : List Ty) {kw : HLoadKw} {kw' : LoadKw} (hk : KwRel kw kw') :
    RSim ErE (dictDesH H hrec v args kw) (dictDes H.toLEnv rec v.erase args kw') := by
  unfold dictDesH dictDes
  refine rs_bind (loadHashedKeys_sim hr v args hk) fun a b h => ?_
  obtain ⟨es, hashed⟩ := a
  obtain ⟨es', hashed'⟩ := b
  obtain ⟨h1, h2⟩ := h
  cases h1
  cases h2
  have hplain : RSim ErE (dictCompH H.info (fun x => Res.lift (kw.keyTransformer.getD .ok x))
      (fun x => hrec x none { kw with keyTransformer := some (kw.keyTransformer.getD .ok) }) [] es)
      (dictComp H.info (fun x => Res.lift (kw'.keyTransformer.getD .ok x))
      (fun x => rec x none { kw' with keyTransformer := some (kw'.keyTransformer.getD .ok) }) [] (HVal.eraseEntries es)) :=
    dictComp_sim H.info (fun x => rs_lift (kt_getD hk x)) (fun x => hr x none _ _ (kwRel_transformer hk)) es []
  match args with
  | [] => exact hplain
  | [_] => exact hplain
  | [k, t] => exact dictComp_sim H.info (keyFn_sim hr hashed k hk) (fun x => hr x _ _ _ (kwRel_transformer hk)) es []
  | _ :: _ :: _ :: _ => exact hplain

theorem mapping_sim (hr : RecSim hrec rec) (v : HVal) (t : Ty) {kw : HLoadKw} {kw' : LoadKw} (hk : KwRel kw kw') :
    RSim Er (mappingDesH H hrec v t kw) (mappingDes H.toLEnv rec v.erase t kw') := by
  unfold mappingDesH mappingDes
  refine rs_bind (dict_sim hr v _ hk) fun es es' h => rs_pure ?_
  cases h
  rfl

theorem defaultdict_sim (hr : RecSim hrec rec) (v : HVal) (t : Ty) {kw : HLoadKw} {kw' : LoadKw} (hk : KwRel kw kw') :
    RSim Er (defaultdictDesH hrec v t kw) (defaultdictDes rec v.erase t kw') := by
  unfold defaultdictDesH defaultdictDes
  refine rs_bind (rs_same (defaultdictTy t.getArgs)) fun a b h => ?_
  cases h
  obtain ⟨c, f⟩ := a
  refine rs_bind (hr v _ kw kw' hk) fun a b h => ?_
  cases h
  cases a with
  | dict l es => exact rs_pure rfl
  | _ => exact rs_raise _

theorem unionLoop_sim (hr : RecSim hrec rec) (v : HVal) (t : Ty) {kw : HLoadKw} {kw' : LoadKw} (hk : KwRel kw kw') :
    ∀ ts : List Ty, RSim Er (unionLoadLoopH hrec v t kw ts) (unionLoadLoop rec v.erase t kw' ts)
  | [] => rs_raise _
  | a :: as => by
    unfold unionLoadLoopH unionLoadLoop
    refine rs_bind (rs_attempt (hr v _ kw kw' hk)) fun a b h => ?_
    cases h with
    | ok h => exact rs_pure h
    | err e =>
      dsimp only
      split
      · exact unionLoop_sim hr v t hk as
      · exact rs_raise _

theorem union_sim (hr : RecSim hrec rec) (v : HVal) (t : Ty) {kw : HLoadKw} {kw' : LoadKw} (hk : KwRel kw kw') :
    RSim Er (unionDesH hrec v t kw) (unionDes rec v.erase t kw') := by
  unfold unionDesH unionDes
  cases t.unionParams with
  | none => exact rs_raise _
  | some ts => exact unionLoop_sim hr v t hk _

/-! ## Objects -/

theorem metaFor_eq {kw : HLoadKw} {kw' : LoadKw} (hk : KwRel kw kw') (name : PyStr) :
    metaForH H kw name = metaFor H.toLEnv kw' name := by
  unfold metaForH metaFor
  rw [hk.metaHints, hk.fork]

theorem valueFromObj_sim (hr : RecSim hrec rec) (obj : HVal) (name : PyStr) (hint : Option Ty) {kw : HLoadKw} {kw' : LoadKw}
    (hk : KwRel kw kw') :
    RSim Er (valueFromObjH H hrec obj name hint kw) (valueFromObj H.toLEnv rec obj.erase name hint kw') := by
  unfold valueFromObjH valueFromObj
  rw [metaFor_eq hk]
  refine rs_bind_same _ fun m => ?_
  dsimp only
  refine rs_bind (subscript_sim obj name) fun x x' hx => ?_
  cases hx
  exact hr x _ _ _ ⟨hk.strict, hk.fork, rfl, hk.inferred, hk.warnOnFail, hk.useEnumName, .nil, hk.transformer⟩

theorem assoc_rel {α β : Type} {S : α → β → Prop} {l : List (PyStr × α)} {l' : List (PyStr × β)}
    (h : List.Forall₂ (fun g g' => g.1 = g'.1 ∧ S g.2 g'.2) l l') (n : PyStr) : Option.Rel S (assoc l n) (assoc l' n) := by
  induction h with
  | nil => exact .none
  | @cons a b _ _ h _ ih =>
    obtain ⟨m, x⟩ := a
    obtain ⟨m', y⟩ := b
    obtain ⟨h1, h2⟩ := h
    dsimp only at h1 h2
    subst h1
    unfold assoc
    split
    · exact .some h2
    · exact ih

/-- The same value, or none. -/
def ErV : Option HVal → Option Val → Prop := Option.Rel Er

theorem valueForAttr_sim (hF : Faithful H) (hr : RecSim hrec rec) (obj : HVal) (c : Nat) {kw : HLoadKw} {kw' : LoadKw}
    (hk : KwRel kw kw') (p : Param) (hp : p ∈ (H.info c).params) :
    RSim ErV (valueForAttrH H hrec obj c kw p) (valueForAttr H.toLEnv rec obj.erase c kw' p) := by
  unfold valueForAttrH valueForAttr
  dsimp only
  refine rs_bind_same _ fun b => ?_
  cases b with
  | true => exact rs_bind (valueFromObj_sim hr obj p.name _ hk) fun v v' h => rs_pure (.some h)
  | false =>
    simp only [Bool.false_eq_true, ↓reduceIte]
    unfold valueElseH
    have hg := assoc_rel hk.getters p.name
    generalize assoc kw.attrGetters p.name = a at hg
    generalize assoc kw'.attrGetters p.name = b at hg
    cases hg with
    | some h => exact rs_bind (rs_lift h) fun v v' h => rs_pure (.some h)
    | none =>
      have hd := hF.paramDefault c p hp
      dsimp only
      rw [← hd]
      cases H.paramDefault c p.name with
      | some d => exact rs_pure (.some rfl)
      | none =>
        simp only [Option.map_none]
        split
        · exact rs_pure .none
        · refine rs_bind_same _ fun b => ?_
          cases b with
          | true => exact rs_pure (.some rfl)
          | false => exact rs_raise _

theorem ctorArgs_sim (hF : Faithful H) (hr : RecSim hrec rec) (obj : HVal) (c : Nat) {kw : HLoadKw} {kw' : LoadKw}
    (hk : KwRel kw kw') : ∀ ps : List Param, (∀ p ∈ ps, p ∈ (H.info c).params) →
    RSim ErA (ctorArgsH H hrec obj c kw ps) (ctorArgs H.toLEnv rec obj.erase c kw' ps)
  | [], _ => rs_pure rfl
  | p :: ps, h => by
    unfold ctorArgsH ctorArgs
    refine rs_bind (valueForAttr_sim hF hr obj c hk p (h p List.mem_cons_self)) fun v v' hv => ?_
    refine rs_bind (ctorArgs_sim hF hr obj c hk ps fun q hq => h q (List.mem_cons_of_mem _ hq)) fun r r' hr => ?_
    cases hr
    cases hv with
    | none => exact rs_pure rfl
    | some hv =>
      cases hv
      exact rs_pure rfl

theorem assoc_eraseAttrs (as : List (PyStr × HVal)) (n : PyStr) : assoc (HVal.eraseAttrs as) n = (assoc as n).map HVal.erase := by
  induction as with
  | nil => rfl
  | cons a as ih =>
    obtain ⟨m, v⟩ := a
    simp only [HVal.eraseAttrs, assoc]
    split
    · rfl
    · exact ih

/-- Whether an entry remains, without identities. -/
def remains (args : List (PyStr × Val)) (k : Val) : Bool :=
  match k with
  | .str s => (assoc args s).isNone && decide (s ≠ metaKey)
  | _ => true

/-- Whether an entry remains. -/
def remainsH (args : List (PyStr × HVal)) (k : HVal) : Bool :=
  match k with
  | .atom (.str s) => (assoc args s).isNone && decide (s ≠ metaKey)
  | _ => true

theorem remains_eq (args : List (PyStr × HVal)) (k : HVal) : remains (HVal.eraseAttrs args) k.erase = remainsH args k := by
  unfold remains remainsH
  cases k with
  | atom a =>
    cases a
    case str s => simp only [HVal.erase, assoc_eraseAttrs, Option.isNone_map]
    all_goals rfl
  | _ => rfl

theorem filter_erase (args : List (PyStr × HVal)) (es : List (HVal × HVal)) :
    HVal.eraseEntries (es.filter fun e => remainsH args e.1) =
      (HVal.eraseEntries es).filter fun e => remains (HVal.eraseAttrs args) e.1 := by
  induction es with
  | nil => rfl
  | cons e es ih =>
    obtain ⟨k, v⟩ := e
    simp only [HVal.eraseEntries, List.filter_cons, remains_eq]
    split
    · simp only [HVal.eraseEntries, ih]
    · exact ih

theorem remainingAttrs_sim (obj : HVal) (args : List (PyStr × HVal)) :
    RSim ErE (Res.liftK (remainingAttrsH obj args)) (Res.liftK (remainingAttrs obj.erase (HVal.eraseAttrs args))) := by
  have hother : RSim ErE
      (Res.liftK (match obj.iter with | some [] => .ok [] | _ => .error .typeError))
      (Res.liftK (match obj.erase.iter with | some [] => .ok [] | _ => .error .typeError)) := by
    rw [iter_erase]
    match obj.iter with
    | none => exact rs_liftK_err _
    | some [] => exact rs_liftK_ok rfl
    | some (_ :: _) => exact rs_liftK_err _
  cases obj with
  | dict l es => exact rs_liftK_ok (filter_erase args es)
  | _ => exact hother

theorem getRemainingArgs_sim (obj : HVal) (c : Nat) (args : List (PyStr × HVal)) (strict : Bool) :
    RSim ErE (getRemainingArgsH obj c args strict) (getRemainingArgs obj.erase c (HVal.eraseAttrs args) strict) := by
  unfold getRemainingArgsH getRemainingArgs
  refine rs_bind (remainingAttrs_sim obj args) fun r r' h => ?_
  cases h
  match r with
  | [] => exact rs_pure rfl
  | (k, v) :: r =>
    simp only [HVal.eraseEntries]
    split
    · exact rs_raise _
    · exact rs_pure rfl

theorem setOne_sim (hF : Faithful H) (c : Nat) (as : List (PyStr × HVal)) (k y : HVal) :
    ExRel ErA (setOneH H c as k y) (setOne H.toLEnv c (HVal.eraseAttrs as) k.erase y.erase) := by
  unfold setOneH setOne
  cases k with
  | atom a =>
    cases a
    case str s =>
      simp only [HVal.erase]
      have h := hF.setAttr c as s y
      generalize H.setAttrH c as s y = a at h
      generalize H.setAttr c (HVal.eraseAttrs as) s y.erase = b at h
      cases h with
      | ok h => exact .ok h
      | err e =>
        dsimp only
        split
        · exact .ok rfl
        · exact .err e
    all_goals exact .err _
  | _ => exact .err _

theorem setRemaining_sim (hF : Faithful H) (hr : RecSim hrec rec) (c : Nat) {kw : HLoadKw} {kw' : LoadKw} (hk : KwRel kw kw') :
    ∀ (es : List (HVal × HVal)) (as : List (PyStr × HVal)), RSim ErA (setRemainingH H hrec c kw es as)
      (setRemaining H.toLEnv rec c kw' (HVal.eraseEntries es) (HVal.eraseAttrs as))
  | [], _ => rs_pure rfl
  | (k, v) :: es, as => by
    simp only [HVal.eraseEntries]
    unfold setRemainingH setRemaining
    dsimp only
    rw [hk.fork]
    refine rs_bind_same _ fun _ => ?_
    refine rs_bind (hr v _ _ _ ⟨hk.strict, rfl, hk.metaHints, hk.inferred, hk.warnOnFail, hk.useEnumName, .nil, hk.transformer⟩)
      fun y y' hy => ?_
    cases hy
    refine rs_bind (rs_lift (setOne_sim hF c as k y)) fun a a' ha => ?_
    cases ha
    exact setRemaining_sim hF hr c hk es a

theorem setGetters_sim (hF : Faithful H) (c : Nat) {gs : List (PyStr × Except Err HVal)} {gs' : List (PyStr × Except Err Val)}
    (h : List.Forall₂ (fun g g' => g.1 = g'.1 ∧ ExRel Er g.2 g'.2) gs gs') : ∀ as : List (PyStr × HVal),
    ExRel ErA (setGettersH H c gs as) (setGetters H.toLEnv c gs' (HVal.eraseAttrs as)) := by
  induction h with
  | nil => exact fun as => .ok rfl
  | @cons a b _ _ h _ ih =>
    intro as
    obtain ⟨n, g⟩ := a
    obtain ⟨n', g'⟩ := b
    obtain ⟨h1, h2⟩ := h
    dsimp only at h1 h2
    subst h1
    simp only [setGettersH, setGetters]
    cases h2 with
    | err e => exact .err e
    | @ok v v' h =>
      cases h
      have hs := hF.setAttr c as n v
      show ExRel ErA (Except.bind (H.setAttrH c as n v) _) (Except.bind (H.setAttr c (HVal.eraseAttrs as) n v.erase) _)
      generalize H.setAttrH c as n v = a at hs
      generalize H.setAttr c (HVal.eraseAttrs as) n v.erase = b at hs
      cases hs with
      | err e => exact .err e
      | @ok a _ h =>
        cases h
        exact ih a

theorem transformObj_sim (info : Nat → ClassInfo) (v : HVal) {f : Option (HVal → Except Err HVal)} {g : Option (Val → Except Err Val)}
    (h : Option.Rel (fun f g => ∀ x : HVal, ExRel Er (f x) (g x.erase)) f g) :
    ExRel Er (transformObjH info v f) (transformObj info v.erase g) := by
  cases h with
  | none => exact .ok rfl
  | @some f g h =>
    have hother : ExRel Er
        (match v.iter with | some [] => .ok (.dict none []) | _ => .error { kind := .typeError })
        (match v.erase.iter with | some [] => .ok (.dict []) | _ => .error { kind := .typeError }) := by
      rw [iter_erase]
      match v.iter with
      | none => exact .err _
      | some [] => exact .ok rfl
      | some (_ :: _) => exact .err _
    cases v with
    | dict l es =>
      exact exRel_map (transformKeys_sim info h es []) fun a b hab => by cases hab; rfl
    | _ => exact hother

theorem object_sim (hF : Faithful H) (hr : RecSim hrec rec) (v : HVal) (t : Ty) {kw : HLoadKw} {kw' : LoadKw}
    (hk : KwRel kw kw') : RSim Er (objectDesH H hrec v t kw) (objectDes H.toLEnv rec v.erase t kw') := by
  have hf := hF.foreign _ _ v t _ _ hr hk
  unfold objectDesH objectDes
  cases t with
  | cls c =>
    cases c with
    | user c =>
      refine rs_bind (rs_lift (transformObj_sim _ v hk.transformer)) fun o o' ho => ?_
      cases ho
      refine rs_bind (ctorArgs_sim hF hr o c hk _ fun p hp => hp) fun a a' ha => ?_
      cases ha
      rw [hk.strict]
      refine rs_bind (getRemainingArgs_sim o c a _) fun r r' hrest => ?_
      cases hrest
      refine rs_bind (rs_lift (hF.construct c a)) fun as as' has => ?_
      cases has
      refine rs_bind (setRemaining_sim hF hr c hk r as) fun bs bs' hbs => ?_
      cases hbs
      refine rs_bind (rs_lift (setGetters_sim hF c hk.getters bs)) fun cs cs' hcs => rs_pure ?_
      cases hcs
      rfl
    | _ => exact hf
  | _ => exact hf

/-! ## `load` -/

theorem enumDes_eq (E : LEnv) (v : Val) (t : Ty) {kw : HLoadKw} {kw' : LoadKw} (hk : KwRel kw kw') :
    enumDes E v t { useEnumName := kw.useEnumName } = enumDes E v t kw' := by
  unfold enumDes
  rw [hk.useEnumName]

theorem callDes_sim (hF : Faithful H) (hr : RecSim hrec rec) (f : DesFn) (v : HVal) (t : Ty) {kw : HLoadKw} {kw' : LoadKw}
    (hk : KwRel kw kw') : RSim Er (callDesH H hrec f v t kw) (callDes H.toLEnv rec f v.erase t kw') := by
  cases f with
  | list =>
    refine rs_bind (list_sim hr v _ hk) fun ys zs h => rs_pure ?_
    simp only [Er, HVal.erase, er_list h]
  | tuple => exact tuple_sim hF hr v t hk
  | union => exact union_sim hr v t hk
  | defaultdict => exact defaultdict_sim hr v t hk
  | datetime => exact rs_madeL _
  | date => exact rs_madeL _
  | time => exact rs_madeL _
  | timezone => exact timezone_sim hr v
  | timedelta => exact rs_madeL _
  | string => exact string_sim hr v t hk
  | noneType => exact rs_madeL _
  | primitive => exact primitive_sim v t
  | enum =>
    show RSim Er (madeL (enumDes H.toLEnv v.erase t _)) (enumDes H.toLEnv v.erase t kw')
    rw [enumDes_eq _ _ _ hk]
    exact rs_madeL _
  | mapping => exact mapping_sim hr v t hk
  | iterable => exact iterable_sim hr v t hk
  | object => exact object_sim hF hr v t hk
  | uuid => exact rs_madeL _
  | complex => exact complex_sim hr v
  | decimal => exact rs_madeL _
  | path => exact rs_madeL _
  | zoneinfo => exact rs_madeL _
  | custom id => exact hF.custom _ _ _ _ _ _ _ hr hk

theorem doLoad_sim (hF : Faithful H) (hr : RecSim hrec rec) (fn : Option DesFn) (v : HVal) (t : Ty) {kw : HLoadKw} {kw' : LoadKw}
    (hk : KwRel kw kw') : RSim Er (doLoadH H hrec fn v t kw) (doLoad H.toLEnv rec fn v.erase t kw') := by
  unfold doLoadH doLoad
  cases fn with
  | none => exact rs_raise _
  | some f =>
    refine rs_bind (S := ExRel Er) (rs_attempt ?_) fun a b h => ?_
    · refine rs_bind (callDes_sim hF hr f v t hk) fun r r' h => ?_
      cases h
      rw [hk.fork]
      exact rs_bind_same _ fun _ => rs_pure rfl
    · cases h with
      | ok h => exact rs_pure h
      | err e =>
        dsimp only
        split
        · exact rs_raise _
        · exact rs_raise _

theorem loadFrom_sim (hF : Faithful H) (hr : RecSim hrec rec) (v : HVal) (cls : Option Ty) {kw : HLoadKw} {kw' : LoadKw}
    (hk : KwRel kw kw') : RSim Er (loadFromH H hrec v cls kw) (loadFrom H.toLEnv rec v.erase cls kw') := by
  unfold loadFromH loadFrom
  split
  · exact rs_raise _
  · rw [hk.fork, hk.inferred]
    refine rs_bind_same _ fun m => ?_
    dsimp only
    refine rs_bind_same _ fun fn => ?_
    exact doLoad_sim hF hr fn v _ ⟨hk.strict, rfl, by rw [hk.metaHints], rfl, hk.warnOnFail, hk.useEnumName, hk.getters, hk.transformer⟩

theorem loadWith_sim (hF : Faithful H) (hr : RecSim hrec rec) : RecSim (loadWithH H hrec) (loadWith H.toLEnv rec) := by
  intro v cls kw kw' hk
  unfold loadWithH loadWith
  refine rs_bind_same _ fun _ => ?_
  rw [hk.strict, hk.fork]
  split
  · exact rs_bind_same _ fun _ => rs_pure rfl
  · exact loadFrom_sim hF hr v cls hk

end

theorem loadRec_sim {H : HLEnv} (hF : Faithful H) : ∀ n, RecSim (loadRecH H n) (loadRec H.toLEnv n)
  | 0 => fun _ _ _ _ _ => rs_raise _
  | n + 1 => loadWith_sim hF (loadRec_sim hF n)

end Verif.Props.LoadSharing
