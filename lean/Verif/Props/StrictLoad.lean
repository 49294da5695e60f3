import Verif.Props.Depth

/-! # Strict mode of `load` only refuses more (C89) -/

set_option autoImplicit false

namespace Verif.Props.StrictLoad

open Verif Verif.Core Verif.Datetime
open Verif.Props.Depth (assoc_mem bind_congr_ok dictDel_mem iter_parts children transformKeys_values)

/-! ## Types, documents and programs -/

/-- The types of values without parts: texts, numbers, `bool`, `None`, dates and times, enums,
`UUID`, `Decimal`, `complex`, paths, zones, and `NewType`s of them. -/
def Scalar (E : LEnv) (t : Ty) : Prop :=
  ∃ f ∈ [DesFn.noneType, .primitive, .string, .datetime, .date, .time, .timedelta, .timezone, .complex,
    .uuid, .decimal, .path, .zoneinfo, .enum], t.desFn E.info = some f

mutual
/-- Types with the bare `list`, `dict` and `object` nowhere in them.  (`List[...]`, `Dict[...]`,
`List`, `Dict` are no bare classes.)  Of the members of a union, only the last one is a class with
a constructor, or the last one besides `None`. -/
inductive Plain (E : LEnv) : Ty → Prop where
  | any : Plain E .any
  | scalar (t : Ty) : Scalar E t → Plain E t
  | cls (c : Cls) : c ≠ .list → c ≠ .dict → c ≠ .object → Plain E (.cls c)
  | gen (g : Gen) (args : List Ty) : (∀ a ∈ args, Plain E a) → Plain E (.gen g args)
  | union (ts : List Ty) : Members E ts → Plain E (.union ts)
/-- The members of a union. -/
inductive Members (E : LEnv) : List Ty → Prop where
  | last (t : Ty) : Plain E t → Members E [t]
  | optional (t : Ty) : Plain E t → canMatchWithNone E (some t) = .ok false →
      Members E [t, .cls .noneType]
  | cons (t : Ty) (ts : List Ty) : Scalar E t → Members E ts → Members E (t :: ts)
end

/-- The texts in class hints (`'-meta'`) name types of that kind, if they name types. -/
def HintsPlain (E : LEnv) (hs : List (Val × Val)) : Prop :=
  ∀ h ∈ hs, ∀ s, h.2 = .str s → ∀ i t, E.clsFromStr i s = .ok t → Plain E t

/-- JSON documents; a `'-meta'` in them names types of that kind, and a class that is neither
`str` nor a union (nothing else is written by `dump`). -/
inductive Doc (E : LEnv) : Val → Prop where
  | none : Doc E .none
  | bool (b : Bool) : Doc E (.bool b)
  | int (n : Int) : Doc E (.int n)
  | float (x : ℚ) : Doc E (.float x)
  | str (s : PyStr) : Doc E (.str s)
  | list (xs : List Val) : (∀ x ∈ xs, Doc E x) → Doc E (.list xs)
  | dict (es : List (Val × Val)) : (∀ e ∈ es, Doc E e.1) → (∀ e ∈ es, Doc E e.2) →
      (∀ ms hs, (.str metaKey, .dict ms) ∈ es →
        dictGet ms (.str "classes".toList) = some (.dict hs) → HintsPlain E hs ∧
        ∀ s, dictGet hs (.str "/".toList) = some (.str s) → ∀ i t, E.clsFromStr i s = .ok t →
          t.desFn E.info ≠ some .union ∧ t.desFn E.info ≠ some .string) →
      Doc E (.dict es)

/-- The keyword arguments: no `warn_on_fail`, the key transformer gives texts (or leaves a key as
it is). -/
structure KwOk (E : LEnv) (kw : LoadKw) : Prop where
  warn : kw.warnOnFail = false
  kt : ∀ f, kw.keyTransformer = some f → ∀ x y, f x = .ok y → y = x ∨ ∃ s, y = .str s
  hints : ∀ hs, kw.metaHints = some hs → HintsPlain E hs

/-- A given class is of that kind. -/
def OPlain (E : LEnv) (o : Option Ty) : Prop := ∀ t, o = some t → Plain E t

/-- What is known of the program: no deserializers of its own, the lookup of validators does not
fail, the hints are of that kind, the default values of the fields of named tuples are documents. -/
structure Prog (E : LEnv) : Prop where
  desers : ∀ i, DefaultDesers E i
  vals : ∀ i t, ∃ o, E.getVal i t = .ok o
  hints : ∀ c, ∀ p ∈ (E.info c).hints, Plain E p.2
  initHints : ∀ c, ∀ p ∈ (E.info c).initHints, Plain E p.2
  defaults : ∀ c, ∀ p ∈ (E.info c).fieldDefaults, Doc E p.2

/-! ## Outcomes -/

/-- Whatever the one returns, the other returns too. -/
def Imp {α : Type} (x y : Res α) : Prop := ∀ r, x.val = .ok r → y.val = .ok r

theorem Imp.refl {α : Type} (x : Res α) : Imp x x := fun _ h => h

theorem Imp.bind {α β : Type} {x y : Res α} {f g : α → Res β} (h : Imp x y)
    (hf : ∀ a, x.val = .ok a → Imp (f a) (g a)) : Imp (x >>= f) (y >>= g) := by
  intro r hr
  rw [Core.bind_ok] at hr ⊢
  obtain ⟨a, ha, hr⟩ := hr
  exact ⟨a, h a ha, hf a ha r hr⟩

theorem Imp.same {α β : Type} {x : Res α} {f g : α → Res β}
    (hf : ∀ a, x.val = .ok a → Imp (f a) (g a)) : Imp (x >>= f) (x >>= g) := (Imp.refl x).bind hf

theorem liftK_ok {α : Type} {x : Except ErrKind α} {a : α} (h : (Res.liftK x).val = .ok a) : x = .ok a := by
  cases x with
  | error e => cases h
  | ok b => cases h; rfl

theorem lift_ok {α : Type} {x : Except Err α} {a : α} (h : (Res.lift x).val = .ok a) : x = .ok a := by
  cases x with
  | error e => cases h
  | ok b => cases h; rfl

/-- And where the one raises an error of jsons, the other one does. -/
def Weak (x y : Res Val) : Prop :=
  Imp x y ∧ ∀ e, x.val = .error e → e.kind.isJsonsError = true →
    ∃ e', y.val = .error e' ∧ e'.kind.isJsonsError = true

theorem Weak.refl (x : Res Val) : Weak x x := ⟨Imp.refl x, fun e h h' => ⟨e, h, h'⟩⟩

/-- The keyword arguments with `strict=True`. -/
def st (kw : LoadKw) : LoadKw := { kw with strict := true }

/-- The keyword arguments with `strict=False`. -/
def lx (kw : LoadKw) : LoadKw := { kw with strict := false }

section
variable {E : LEnv}

theorem Doc.atom_str (s : PyStr) : Doc E (.str s) := .str s

theorem Doc.child {v x : Val} (h : Doc E v) (hx : x ∈ children v) : Doc E x := by
  cases h with
  | list xs hs => exact hs x hx
  | dict es hk hv _ =>
    simp only [children, List.mem_append, List.mem_map] at hx
    rcases hx with ⟨e, he, rfl⟩ | ⟨e, he, rfl⟩
    · exact hk e he
    · exact hv e he
  | _ => cases hx

theorem Doc.iter {v x : Val} {xs : List Val} (h : Doc E v) (hi : v.iter = some xs) (hx : x ∈ xs) : Doc E x := by
  rcases iter_parts hi hx with hc | ⟨s, c, rfl, rfl⟩
  · exact h.child hc
  · exact .str _

theorem oplain_none : OPlain E none := fun _ h => by cases h

theorem oplain_some {t : Ty} (h : Plain E t) : OPlain E (some t) := fun _ h' => by cases h'; exact h

theorem plain_args {t a : Ty} (h : Plain E t) (ha : a ∈ t.getArgs) (hu : ∀ ts, t ≠ .union ts) : Plain E a := by
  cases h with
  | gen g args hs => exact hs a ha
  | union ts _ => exact absurd rfl (hu ts)
  | any => cases ha
  | cls c _ _ _ => cases ha
  | scalar t hs =>
    cases t with
    | gen g args =>
      obtain ⟨f, hf, h⟩ := hs
      cases g <;> simp [Ty.desFn, Gen.naked, Cls.desFn] at h <;> subst h <;> simp at hf
    | union ts => exact absurd rfl (hu ts)
    | _ => cases ha

/-- The nested calls. -/
def Mono (E : LEnv) (rec : LRec) : Prop :=
  ∀ x o kw, OPlain E o → KwOk E kw → Doc E x → Imp (rec x o (st kw)) (rec x o (lx kw))

/-! ## Collections -/

theorem listDes_imp {rec : LRec} (hr : Mono E rec) {v : Val} (hv : Doc E v) {args : List Ty}
    (ha : OPlain E args.head?) {kw : LoadKw} (hk : KwOk E kw) :
    Imp (listDes E rec v args (st kw)) (listDes E rec v args (lx kw)) := by
  unfold listDes
  cases hi : v.iter with
  | none => exact Imp.refl _
  | some xs =>
    have hx : ∀ x ∈ xs, Doc E x := fun x => hv.iter hi
    have hk' : KwOk E { kw with warnOnFail := false, inferred := kw.inferred || !args.isEmpty } :=
      ⟨rfl, hk.kt, hk.hints⟩
    have : ∀ i, Imp (listLoop E rec args.head? false
        (st { kw with warnOnFail := false, inferred := kw.inferred || !args.isEmpty }) i xs)
      (listLoop E rec args.head? false
        (lx { kw with warnOnFail := false, inferred := kw.inferred || !args.isEmpty }) i xs) := by
      clear hi
      induction xs with
      | nil => intro i; exact Imp.refl _
      | cons x xs ih =>
        intro i r h
        simp only [listLoop, Core.bind_ok, attempt_val, Except.ok.injEq, exists_eq_left'] at h ⊢
        split at h
        · next y hy =>
          rw [hr x _ _ ha hk' (hx x List.mem_cons_self) y hy]
          exact (Imp.bind (ih (fun x h => hx x (List.mem_cons_of_mem _ h)) _) fun _ _ => Imp.refl _) r h
        · split at h <;> cases h
    have hw := hk.warn
    show Imp (listLoop E rec args.head? kw.warnOnFail _ 0 xs) (listLoop E rec args.head? kw.warnOnFail _ 0 xs)
    rw [hw]
    exact this 0

theorem iterableDes_imp {rec : LRec} (hr : Mono E rec) {v : Val} (hv : Doc E v) {t : Ty}
    (ha : OPlain E t.getArgs.head?) {kw : LoadKw} (hk : KwOk E kw) :
    Imp (iterableDes E rec v t (st kw)) (iterableDes E rec v t (lx kw)) :=
  Imp.bind (listDes_imp hr hv ha hk) fun _ _ => Imp.refl _

theorem mapRes_imp {f g : Val → Res Val} {xs : List Val} (h : ∀ x ∈ xs, Imp (f x) (g x)) :
    Imp (mapRes f xs) (mapRes g xs) := by
  induction xs with
  | nil => exact Imp.refl _
  | cons x xs ih =>
    simp only [mapRes]
    exact Imp.bind (h x List.mem_cons_self) fun _ _ =>
      Imp.bind (ih fun y hy => h y (List.mem_cons_of_mem _ hy)) fun _ _ => Imp.refl _

theorem tupleLoop_imp {rec : LRec} {kw kw' : LoadKw} : ∀ (ts : List Ty) (xs : List Val),
    (∀ t ∈ ts, ∀ x ∈ xs, Imp (rec x (some t) kw) (rec x (some t) kw')) →
    Imp (tupleLoop rec kw ts xs) (tupleLoop rec kw' ts xs)
  | _, [], _ => by simp only [tupleLoop]; exact Imp.refl _
  | [], _ :: _, _ => Imp.refl _
  | t :: ts, x :: xs, h => by
    simp only [tupleLoop]
    exact Imp.bind (h t List.mem_cons_self x List.mem_cons_self) fun _ _ =>
      Imp.bind (tupleLoop_imp ts xs fun t ht x hx => h t (List.mem_cons_of_mem _ ht) x (List.mem_cons_of_mem _ hx))
        fun _ _ => Imp.refl _

theorem ntupleDes_imp (P : Prog E) {rec : LRec} (hr : Mono E rec) {v : Val} (hv : Doc E v) (c : Nat)
    {kw : LoadKw} (hk : KwOk E kw) :
    Imp (ntupleDes E rec v c (st kw)) (ntupleDes E rec v c (lx kw)) := by
  unfold ntupleDes
  refine Imp.same fun tfm htfm' => ?_
  have htfm : ntupleTfm E.info (kw.keyTransformer.getD .ok) v = .ok tfm := lift_ok htfm'
  clear htfm'
  cases hi : v.iter with
  | none => exact Imp.refl _
  | some xs =>
    have hint : ∀ name o, (if (E.info c).hasAnnotations then assoc (E.info c).hints name else none) = o →
        OPlain E o := by
      intro name o ho
      cases o with
      | none => exact oplain_none
      | some t =>
        have : assoc (E.info c).hints name = some t := by
          split at ho
          · exact ho
          · cases ho
        exact oplain_some (P.hints c _ (assoc_mem this))
    have field : ∀ i name x, ntupleField (E.info c) v tfm xs.length i name = .ok x → Doc E x := by
      intro i name x hx
      unfold ntupleField at hx
      split at hx
      · cases tfm with
        | some es =>
          simp only [subscript] at hx
          split at hx
          · next w hg =>
            cases hx
            obtain ⟨e, he, rfl, _⟩ := dictGet_mem hg
            cases v with
            | dict fs =>
              simp only [ntupleTfm] at htfm
              cases ht : transformKeys E.info (kw.keyTransformer.getD .ok) [] fs with
              | error _ => rw [ht] at htfm; cases htfm
              | ok r =>
                rw [ht] at htfm
                cases htfm
                exact transformKeys_values (P := Doc E) (fun _ h => by cases h)
                  (fun e he => hv.child (List.mem_append_right _ (List.mem_map_of_mem he))) ht e he
            | _ => cases htfm
          · cases hx
        | none =>
          simp only [index] at hx
          split at hx
          case h_6 => cases hx
          case h_5 =>
            split at hx
            · cases hx; exact .str _
            · cases hx
          all_goals
            split at hx
            · next h' => cases hx; exact hv.child (List.mem_of_getElem? h')
            · cases hx
      · cases hx
        cases ha : assoc (E.info c).fieldDefaults name with
        | none => exact .none
        | some d => exact P.defaults c _ (assoc_mem ha)
    have loop : ∀ names i, Imp (ntupleLoop E rec c v tfm xs.length (st kw) i names)
        (ntupleLoop E rec c v tfm xs.length (lx kw) i names) := by
      intro names
      induction names with
      | nil => intro i; exact Imp.refl _
      | cons n names ih =>
        intro i
        simp only [ntupleLoop]
        refine Imp.same fun x hx => ?_
        have hx' : ntupleField (E.info c) v tfm xs.length i n = .ok x := by
          cases hf : ntupleField (E.info c) v tfm xs.length i n with
          | error e => rw [hf] at hx; cases hx
          | ok y => rw [hf] at hx; cases hx; rfl
        have hh := hint n _ rfl
        revert hh
        generalize (if (E.info c).hasAnnotations then assoc (E.info c).hints n else none) = o
        intro hh
        split
        · exact Imp.refl _
        · exact Imp.bind (hr x _ kw hh hk (field i n x hx')) fun _ _ =>
            Imp.bind (ih _) fun _ _ => Imp.refl _
    exact Imp.bind (loop _ _) fun _ _ => Imp.refl _

theorem tupleDes_imp (P : Prog E) {rec : LRec} (hr : Mono E rec) {v : Val} (hv : Doc E v) {t : Ty}
    (ht : ∀ a ∈ t.getArgs, Plain E a) {kw : LoadKw} (hk : KwOk E kw) :
    Imp (tupleDes E rec v t (st kw)) (tupleDes E rec v t (lx kw)) := by
  have hk' : KwOk E { kw with keyTransformer := none } := ⟨hk.warn, fun _ h => (by cases h), hk.hints⟩
  have nil : ∀ xs, v.iter = some xs →
      Imp (do let ys ← mapRes (fun x => rec x none (st { kw with keyTransformer := none })) xs
              pure (.tuple ys) : Res Val)
      (do let ys ← mapRes (fun x => rec x none (lx { kw with keyTransformer := none })) xs
          pure (.tuple ys)) := fun xs hi =>
    Imp.bind (mapRes_imp fun x hx => hr x _ _ oplain_none hk' (hv.iter hi hx)) fun _ _ => Imp.refl _
  have cons : ∀ xs, v.iter = some xs → ∀ ts : List Ty, (∀ a ∈ ts, a ∈ t.getArgs) →
      Imp (do let ys ← tupleLoop rec (st { kw with keyTransformer := none }) ts xs
              pure (.tuple ys) : Res Val)
      (do let ys ← tupleLoop rec (lx { kw with keyTransformer := none }) ts xs
          pure (.tuple ys)) := fun xs hi ts hts =>
    Imp.bind (tupleLoop_imp ts xs fun a ha x hx =>
      hr x _ _ (oplain_some (ht a (hts a ha))) hk' (hv.iter hi hx)) fun _ _ => Imp.refl _
  unfold tupleDes
  cases hi : v.iter with
  | none =>
    cases t with
    | cls c =>
      cases c with
      | user c =>
        dsimp only
        split
        · exact ntupleDes_imp P hr hv c hk
        · exact Imp.refl _
      | _ => exact Imp.refl _
    | _ => exact Imp.refl _
  | some xs =>
    cases t with
    | cls c =>
      cases c with
      | user c =>
        dsimp only
        split
        · exact ntupleDes_imp P hr hv c hk
        · exact nil xs hi
      | _ => exact nil xs hi
    | gen g args =>
      cases args with
      | nil => cases g <;> exact nil xs hi
      | cons a as =>
        cases g with
        | tupleEll =>
          refine cons xs hi (List.replicate xs.length a) fun b hb => ?_
          rw [(List.mem_replicate.1 hb).2]
          exact List.mem_cons_self
        | _ => exact cons xs hi (a :: as) fun b hb => hb
    | union ts =>
      cases ts with
      | nil => exact nil xs hi
      | cons a as => exact cons xs hi (a :: as) fun b hb => hb
    | _ => exact nil xs hi

/-- The values of the dict with the stored keys stay documents. -/
def Values (E : LEnv) (es : List (Val × Val)) : Prop := ∀ e ∈ es, Doc E e.2

theorem values_get {es : List (Val × Val)} (h : Values E es) {k x : Val}
    (hg : dictGet es k = some x) : Doc E x := by
  obtain ⟨e, he, rfl, _⟩ := dictGet_mem hg
  exact h e he

theorem values_set {es : List (Val × Val)} (h : Values E es) {k x : Val} (hx : Doc E x) :
    Values E (dictSet es k x) := by
  intro e he
  rcases dictSet_mem he with he | rfl | ⟨h2, _⟩
  · exact h e he
  · exact hx
  · rw [h2]; exact hx

theorem Doc.del {ks : List (Val × Val)} (h : Doc E (.dict ks)) (k : Val) : Doc E (.dict (dictDel ks k)) := by
  cases h with
  | dict _ h1 h2 h3 =>
    exact .dict _ (fun e he => h1 e (dictDel_mem he)) (fun e he => h2 e (dictDel_mem he))
      fun ms hs hm => h3 ms hs (dictDel_mem hm)

theorem unhashKey_imp {rec : LRec} (hr : Mono E rec) {keyTy : Ty} (hkey : Plain E keyTy) {kw : LoadKw}
    (hk : KwOk E kw) {es : List (Val × Val)} (hes : Values E es) (h : Val) :
    Imp (unhashKey E rec keyTy (st kw) es h) (unhashKey E rec keyTy (lx kw) es h) ∧
    ∀ r, (unhashKey E rec keyTy (st kw) es h).val = .ok r → Values E r := by
  unfold unhashKey
  constructor
  · refine Imp.same fun original ho => Imp.bind (hr original _ kw (oplain_some hkey) hk ?_) fun _ _ => Imp.refl _
    split at ho
    · next ks hks =>
      split at ho
      · next k hg =>
        cases ho
        obtain ⟨e, he, rfl, _⟩ := dictGet_mem hg
        exact (values_get hes hks).child (List.mem_append_right _ (List.mem_map_of_mem he))
      · cases ho
    · cases ho
  · intro r hres
    rw [Core.bind_ok] at hres
    obtain ⟨original, _, hres⟩ := hres
    rw [Core.bind_ok] at hres
    obtain ⟨loaded, _, hres⟩ := hres
    split at hres
    · cases hres
    · next x hx =>
      split at hres
      · have hset : Values E (dictSet es loaded x) := values_set hes (values_get hes hx)
        dsimp only at hres
        split at hres
        · next ks hks =>
          split at hres
          · cases hres
            exact fun e he => values_set hset ((values_get hset hks).del h) e (dictDel_mem he)
          · cases hres
        · cases hres
      · cases hres

theorem unhashLoop_imp {rec : LRec} (hr : Mono E rec) {keyTy : Ty} (hkey : Plain E keyTy) {kw : LoadKw}
    (hk : KwOk E kw) (hs : List Val) : ∀ {es : List (Val × Val)}, Values E es →
    Imp (unhashLoop E rec keyTy (st kw) hs es) (unhashLoop E rec keyTy (lx kw) hs es) ∧
    ∀ r, (unhashLoop E rec keyTy (st kw) hs es).val = .ok r → Values E r := by
  induction hs with
  | nil => exact fun hes => ⟨Imp.refl _, fun r h => by cases h; exact hes⟩
  | cons h hs ih =>
    intro es hes
    obtain ⟨h1, h2⟩ := unhashKey_imp hr hkey hk hes h
    simp only [unhashLoop]
    refine ⟨Imp.bind h1 fun es' he => (ih (h2 _ he)).1, ?_⟩
    intro r hres
    rw [Core.bind_ok] at hres
    obtain ⟨es', he, hres⟩ := hres
    exact (ih (h2 _ he)).2 r hres

theorem loadHashedKeys_imp {rec : LRec} (hr : Mono E rec) {v : Val} (hv : Doc E v) {args : List Ty}
    (ha : ∀ a ∈ args, Plain E a) {kw : LoadKw} (hk : KwOk E kw) :
    Imp (loadHashedKeys E rec v args (st kw)) (loadHashedKeys E rec v args (lx kw)) ∧
    ∀ r, (loadHashedKeys E rec v args (st kw)).val = .ok r →
      Values E r.1 ∧ (r.2 = false → v = .dict r.1) := by
  unfold loadHashedKeys
  cases v with
  | dict es =>
    have hes : Values E es := fun e he => hv.child (List.mem_append_right _ (List.mem_map_of_mem he))
    dsimp only
    split
    · exact ⟨Imp.refl _, fun r h => by cases h; exact ⟨hes, fun _ => rfl⟩⟩
    · split
      · exact ⟨Imp.refl _, fun r h => by cases h⟩
      · exact ⟨Imp.refl _, fun r h => by cases h; exact ⟨hes, fun _ => rfl⟩⟩
      · next hs _ _ =>
        split
        · next keyTy vt =>
          obtain ⟨h1, h2⟩ := unhashLoop_imp hr (ha keyTy List.mem_cons_self) hk (E.setOrder hs) hes
          refine ⟨Imp.bind h1 fun _ _ => Imp.refl _, fun r h => ?_⟩
          rw [Core.bind_ok] at h
          obtain ⟨es', he, h⟩ := h
          cases h
          exact ⟨fun e he' => h2 _ he e (dictDel_mem he'), fun h => by cases h⟩
        · exact ⟨Imp.refl _, fun r h => by cases h⟩
  | _ => exact ⟨Imp.refl _, fun r h => by cases h⟩

theorem dictComp_imp {info : Nat → ClassInfo} {k k' f f' : Val → Res Val} (es : List (Val × Val))
    (hk : ∀ e ∈ es, Imp (k e.1) (k' e.1)) (hf : ∀ e ∈ es, Imp (f e.2) (f' e.2)) (acc : List (Val × Val)) :
    Imp (dictComp info k f acc es) (dictComp info k' f' acc es) := by
  induction es generalizing acc with
  | nil => exact Imp.refl _
  | cons e es ih =>
    obtain ⟨x, y⟩ := e
    simp only [dictComp]
    refine Imp.bind (hk _ List.mem_cons_self) fun _ _ => Imp.bind (hf _ List.mem_cons_self) fun _ _ => ?_
    split
    · exact ih (fun e he => hk e (List.mem_cons_of_mem _ he)) (fun e he => hf e (List.mem_cons_of_mem _ he)) _
    · exact Imp.refl _

theorem kt_ok {kw : LoadKw} (hk : KwOk E kw) {x y : Val} (h : kw.keyTransformer.getD .ok x = .ok y) :
    y = x ∨ ∃ s, y = .str s := by
  cases hkt : kw.keyTransformer with
  | none => rw [hkt] at h; cases h; exact .inl rfl
  | some f => rw [hkt] at h; exact hk.kt f hkt x y h

theorem dictDes_imp {rec : LRec} (hr : Mono E rec) {v : Val} (hv : Doc E v) {args : List Ty}
    (ha : ∀ a ∈ args, Plain E a) {kw : LoadKw} (hk : KwOk E kw) :
    Imp (dictDes E rec v args (st kw)) (dictDes E rec v args (lx kw)) := by
  obtain ⟨h1, h2⟩ := loadHashedKeys_imp hr hv ha hk
  unfold dictDes
  refine Imp.bind h1 fun r hres => ?_
  obtain ⟨es, hashed⟩ := r
  obtain ⟨hvals, hsame⟩ := h2 _ hres
  dsimp only
  have hkV : KwOk E { kw with keyTransformer := some (kw.keyTransformer.getD .ok) } :=
    ⟨hk.warn, fun f hf x y hxy => by cases hf; exact kt_ok hk hxy, hk.hints⟩
  have hkK : KwOk E { kw with keyTransformer := none } := ⟨hk.warn, fun _ h => (by cases h), hk.hints⟩
  have hval : ∀ o, OPlain E o → ∀ e ∈ es,
      Imp (rec e.2 o (st { kw with keyTransformer := some (kw.keyTransformer.getD .ok) }))
        (rec e.2 o (lx { kw with keyTransformer := some (kw.keyTransformer.getD .ok) })) := fun o ho e he =>
    hr _ o _ ho hkV (hvals e he)
  split
  · next k u =>
    have hkf := oplain_some (ha k (by simp))
    have huf := oplain_some (ha u (by simp))
    refine dictComp_imp es ?_ (hval _ huf) []
    intro e he
    cases hashed with
    | true => exact Imp.refl _
    | false =>
      have hvd : v = .dict es := hsame rfl
      subst hvd
      simp only [Bool.false_eq_true, if_false]
      refine Imp.same fun y hy => ?_
      replace hy : kw.keyTransformer.getD .ok e.1 = .ok y := lift_ok hy
      refine hr y _ _ hkf hkK ?_
      rcases kt_ok hk hy with rfl | ⟨s, rfl⟩
      · exact hv.child (List.mem_append_left _ (List.mem_map_of_mem he))
      · exact .str _
  · exact dictComp_imp es (fun _ _ => Imp.refl _) (hval _ oplain_none) []

/-! ## Objects -/

theorem rebase_plain {pre : PyStr} {hs acc r : List (Val × Val)} (ha : HintsPlain E acc)
    (hh : HintsPlain E hs) (h : rebase pre acc hs = .ok r) : HintsPlain E r := by
  induction hs generalizing acc with
  | nil => cases h; exact ha
  | cons p hs ih =>
    obtain ⟨k, v⟩ := p
    simp only [rebase] at h
    have hv : ∀ s, v = .str s → ∀ i t, E.clsFromStr i s = .ok t → Plain E t :=
      fun s hs' => hh (k, v) List.mem_cons_self s hs'
    split at h
    · refine ih ?_ (fun x hx => hh x (List.mem_cons_of_mem _ hx)) h
      intro x hx s hs'
      rcases dictSet_mem hx with hx | rfl | ⟨h2, _⟩
      · exact ha x hx s hs'
      · exact hv s hs'
      · rw [h2] at hs'; exact hv s hs'
    · cases h

theorem metaFor_plain {kw : LoadKw} (hk : KwOk E kw) {name : PyStr} {m : Option Ty × List (Val × Val)}
    (h : metaFor E kw name = .ok m) : OPlain E m.1 ∧ HintsPlain E m.2 := by
  have hh : HintsPlain E (kw.metaHints.getD []) := by
    cases hm : kw.metaHints with
    | none => intro _ h; cases h
    | some hs => exact hk.hints hs hm
  unfold metaFor at h
  dsimp only at h
  split at h
  · cases h; exact ⟨oplain_none, hh⟩
  · next w hw =>
    split at h
    · cases h; exact ⟨oplain_none, hh⟩
    · split at h
      · next s _ =>
        cases ht : E.clsFromStr kw.fork s with
        | error e => rw [ht] at h; cases h
        | ok t =>
          rw [ht] at h
          change (do let hs ← rebase ('/' :: name) [] (kw.metaHints.getD []); return (some t, hs) :
              Except ErrKind (Option Ty × List (Val × Val))) = _ at h
          cases hr : rebase ('/' :: name) [] (kw.metaHints.getD []) with
          | error e => rw [hr] at h; cases h
          | ok hs =>
            rw [hr] at h
            cases h
            obtain ⟨e, he, h2, _⟩ := dictGet_mem hw
            exact ⟨oplain_some (hh e he s h2 _ t ht), rebase_plain (fun _ h => by cases h) hh hr⟩
      · cases h

theorem objectDes_imp (P : Prog E) {rec : LRec} (hr : Mono E rec) {v : Val} (hv : Doc E v) {c : Nat}
    {kw : LoadKw} (hk : KwOk E kw) :
    Imp (objectDes E rec v (.cls (.user c)) (st kw)) (objectDes E rec v (.cls (.user c)) (lx kw)) := by
  unfold objectDes
  dsimp only
  refine Imp.same fun obj htr => ?_
  replace htr : transformObj E.info v kw.keyTransformer = .ok obj := lift_ok htr
  have hobj : ∀ es, obj = .dict es → ∀ e ∈ es, Doc E e.2 := by
    rintro es rfl
    cases hkt : kw.keyTransformer with
    | none =>
      rw [hkt] at htr
      cases htr
      exact fun e he => hv.child (List.mem_append_right _ (List.mem_map_of_mem he))
    | some f =>
      rw [hkt] at htr
      simp only [transformObj] at htr
      split at htr
      · next fs =>
        cases ht : transformKeys E.info f [] fs with
        | error _ => rw [ht] at htr; cases htr
        | ok r =>
          rw [ht] at htr
          cases htr
          exact transformKeys_values (P := Doc E) (fun _ h => by cases h)
            (fun e he => hv.child (List.mem_append_right _ (List.mem_map_of_mem he))) ht
      · split at htr
        · cases htr; intro e he; cases he
        · cases htr
  have hval : ∀ name, Imp (valueFromObj E rec obj name (assoc (E.info c).initHints name) (st kw))
      (valueFromObj E rec obj name (assoc (E.info c).initHints name) (lx kw)) := by
    intro name
    unfold valueFromObj
    refine Imp.same fun m hm => ?_
    obtain ⟨hm1, hm2⟩ := metaFor_plain (kw := kw) hk (liftS_ok.1 hm)
    refine Imp.same fun x hx => ?_
    have hs := liftK_ok hx
    have hx : Doc E x := by
      unfold subscript at hs
      split at hs
      · next es =>
        split at hs
        · next w hw =>
          cases hs
          obtain ⟨e, he, rfl, _⟩ := dictGet_mem hw
          exact hobj es rfl e he
        · cases hs
      · cases hs
    refine hr x _ { kw with metaHints := some m.2, attrGetters := [] } ?_
      ⟨hk.warn, hk.kt, fun hs h => by cases h; exact hm2⟩ hx
    unfold determinePrecedence
    simp only [if_true]
    cases h1 : m.1 with
    | some t => simp only [List.findSome?, id]; exact oplain_some (hm1 t h1)
    | none =>
      cases h2 : assoc (E.info c).initHints name with
      | none => simp only [List.findSome?, id]; exact oplain_none
      | some t =>
        simp only [List.findSome?, id]
        exact oplain_some (P.initHints c _ (assoc_mem h2))
  have hargs : ∀ ps, Imp (ctorArgs E rec obj c (st kw) ps) (ctorArgs E rec obj c (lx kw) ps) := by
    intro ps
    induction ps with
    | nil => exact Imp.refl _
    | cons p ps ih =>
      simp only [ctorArgs]
      refine Imp.bind ?_ fun _ _ => Imp.bind ih fun _ _ => Imp.refl _
      unfold valueForAttr
      refine Imp.same fun b _ => ?_
      split
      · exact Imp.bind (hval p.name) fun _ _ => Imp.refl _
      · exact Imp.refl _
  refine Imp.bind (hargs _) fun args _ => ?_
  intro r h
  rw [Core.bind_ok] at h ⊢
  obtain ⟨rest, hrest, h⟩ := h
  have hnil : rest = [] ∧ (getRemainingArgs obj c args (lx kw).strict).val = .ok [] := by
    unfold getRemainingArgs at hrest ⊢
    rw [Core.bind_ok] at hrest
    obtain ⟨r', hrem, hrest⟩ := hrest
    split at hrest
    · rw [if_pos (show (st kw).strict = true from rfl)] at hrest; cases hrest
    · cases hrest
      refine ⟨rfl, ?_⟩
      rw [Core.bind_ok]
      exact ⟨[], hrem, rfl⟩
  obtain ⟨rfl, h'⟩ := hnil
  exact ⟨[], h', h⟩

/-! ## Values without parts -/

/-- The class that was given is the one that is used. -/
def Fixed (E : LEnv) (v : Val) (kw : LoadKw) : Prop :=
  kw.inferred = false ∨ getClsAndMeta E v kw.fork = .ok none

theorem loadFrom_same (P : Prog E) {rec : LRec} {v : Val} {cls : Option Ty} {kw : LoadKw}
    (h : ∀ m, getClsAndMeta E v kw.fork = .ok m → ∀ f, (target v cls kw m).desFn E.info = some f →
      callDes E rec f v (target v cls kw m) (st (calleeKw v cls kw m)) =
        callDes E rec f v (target v cls kw m) (lx (calleeKw v cls kw m))) :
    loadFrom E rec v cls (st kw) = loadFrom E rec v cls (lx kw) := by
  by_cases hv : v.cls ∈ validTypes
  · cases hm : getClsAndMeta E v kw.fork with
    | error e =>
      unfold loadFrom
      rw [if_neg (by simpa using hv), if_neg (by simpa using hv)]
      show (Res.liftS v (getClsAndMeta E v kw.fork) >>= _) = (Res.liftS v (getClsAndMeta E v kw.fork) >>= _)
      rw [hm]
      rfl
    | ok m =>
      rw [loadFrom_eq hv (kw := st kw) hm (P.desers _), loadFrom_eq hv (kw := lx kw) hm (P.desers _)]
      show doLoad E rec ((target v cls kw m).desFn E.info) v (target v cls kw m) (st (calleeKw v cls kw m)) =
        doLoad E rec ((target v cls kw m).desFn E.info) v (target v cls kw m) (lx (calleeKw v cls kw m))
      cases hf : (target v cls kw m).desFn E.info with
      | none => rfl
      | some f =>
        unfold doLoad
        simp only [h m hm f hf]
        rfl
  · unfold loadFrom
    rw [if_pos hv, if_pos hv]

theorem target_fixed {v : Val} {t : Ty} {kw : LoadKw} (hf : Fixed E v kw) {m : Option (Ty × List (Val × Val))}
    (hm : getClsAndMeta E v kw.fork = .ok m) :
    target v (some t) kw m = t ∧ (calleeKw v (some t) kw m).inferred = false := by
  have h : kw.inferred = false ∨ m = none := by
    rcases hf with h | h
    · exact .inl h
    · rw [h] at hm; cases hm; exact .inr rfl
  exact ⟨target_explicit h, by rw [calleeKw_explicit h]⟩

theorem Doc.cls {v : Val} (h : Doc E v) :
    v.cls ∈ [.noneType, .bool, .int, .float, .str, .list, .dict] := by
  cases h <;> simp [Val.cls, Atom.cls, SeqKind.cls]

theorem load_same_of {n : Nat} {v : Val} {cls : Option Ty} {kw : LoadKw} (hs : cls ≠ some (.cls v.cls))
    (h : loadFrom E (load E n) v cls (st kw) = loadFrom E (load E n) v cls (lx kw)) :
    load E (n + 1) v cls (st kw) = load E (n + 1) v cls (lx kw) := by
  rw [load_succ, load_succ]
  unfold loadWith
  refine bind_congr_ok fun _ _ => ?_
  by_cases ha : cls = some .any
  · rw [if_pos (.inr ha), if_pos (.inr ha)]; rfl
  · rw [if_neg (by rintro (⟨_, h⟩ | h); exacts [hs h, ha h]), if_neg (by rintro (⟨_, h⟩ | h); exacts [hs h, ha h])]
    exact h

theorem datetime_same (P : Prog E) {n : Nat} {v : Val} (hv : Doc E v) {kw : LoadKw} (hf : Fixed E v kw) :
    load E n v (some (.cls .datetime)) (st kw) = load E n v (some (.cls .datetime)) (lx kw) := by
  cases n with
  | zero => rfl
  | succ n =>
    refine load_same_of ?_ (loadFrom_same P fun m hm f hd => ?_)
    · intro h
      have := hv.cls
      simp only [Option.some.injEq, Ty.cls.injEq] at h
      rw [← h] at this
      simp at this
    · rw [(target_fixed hf hm).1] at hd ⊢
      cases hd
      rfl

theorem callDes_scalar (P : Prog E) {n : Nat} {f : DesFn} {v : Val} (hv : Doc E v) {t : Ty} {kw : LoadKw}
    (hf : f ∈ [DesFn.noneType, .primitive, .string, .datetime, .date, .time, .timedelta, .timezone, .complex,
      .uuid, .decimal, .path, .zoneinfo, .enum]) (hx : f = .string → Fixed E v kw) :
    callDes E (load E n) f v t (st kw) = callDes E (load E n) f v t (lx kw) := by
  cases f with
  | string =>
    simp only [callDes, stringDes]
    rw [datetime_same P hv (hx rfl)]
    rfl
  | list | tuple | union | defaultdict | mapping | iterable | object | custom id => simp at hf
  | _ => rfl

theorem scalar_own {v : Val} (hv : Doc E v) (hs : Scalar E (.cls v.cls)) {rec : LRec} {kw : LoadKw}
    (hi : kw.inferred = false) :
    NoMeta v ∧ (v = .none → canMatchWithNone E (some (.cls v.cls)) = .ok true) ∧ v.cls ∈ validTypes ∧
    ∃ f, (Ty.cls v.cls).desFn E.info = some f ∧ callDes E rec f v (.cls v.cls) kw = pure v := by
  cases hv with
  | list xs _ =>
    obtain ⟨f, hf, h⟩ := hs
    change some DesFn.list = some f at h
    cases h
    simp at hf
  | dict es _ _ _ =>
    obtain ⟨f, hf, h⟩ := hs
    change some DesFn.mapping = some f at h
    cases h
    simp at hf
  | str s =>
    refine ⟨noMeta_of_not_dict (by simp [Val.cls, Atom.cls]), fun h => (by cases h), by simp [validTypes, Val.cls, Atom.cls], _, rfl, ?_⟩
    simp only [Val.cls, Atom.cls, Cls.desFn, callDes, stringDes, hi, and_self, if_true]
    rfl
  | none => exact ⟨noMeta_of_not_dict (by simp [Val.cls, Atom.cls]), fun _ => rfl, by simp [validTypes, Val.cls, Atom.cls], _, rfl, rfl⟩
  | bool b => exact ⟨noMeta_of_not_dict (by simp [Val.cls, Atom.cls]), fun h => (by cases h), by simp [validTypes, Val.cls, Atom.cls], _, rfl, rfl⟩
  | int b => exact ⟨noMeta_of_not_dict (by simp [Val.cls, Atom.cls]), fun h => (by cases h), by simp [validTypes, Val.cls, Atom.cls], _, rfl, rfl⟩
  | float b => exact ⟨noMeta_of_not_dict (by simp [Val.cls, Atom.cls]), fun h => (by cases h), by simp [validTypes, Val.cls, Atom.cls], _, rfl, rfl⟩

/-- A value of just the class that was given. -/
theorem own_weak (P : Prog E) {n : Nat} {v : Val} (hv : Doc E v) (hs : Scalar E (.cls v.cls)) {kw : LoadKw} :
    Weak (load E (n + 1) v (some (.cls v.cls)) (st kw)) (load E (n + 1) v (some (.cls v.cls)) (lx kw)) := by
  obtain ⟨hm, h0, h1, f, hf, hc⟩ := scalar_own hv hs (rec := load E n)
    (kw := st (calleeKw v (some (.cls v.cls)) kw none)) (by
      show (calleeKw v (some (.cls v.cls)) kw none).inferred = false
      rw [calleeKw_explicit (.inr rfl)])
  have e1 : load E (n + 1) v (some (.cls v.cls)) (st kw) = doLoad E (load E n) (some f) v (.cls v.cls)
      (st (calleeKw v (some (.cls v.cls)) kw none)) := by
    rw [load_enter (m := none) h0 (by rintro (⟨h, _⟩ | h) <;> cases h) h1 (noMeta_get hm _) (P.desers _),
      target_explicit (.inr rfl), hf]
    rfl
  have e2 : load E (n + 1) v (some (.cls v.cls)) (lx kw) =
      (do validate E v (.cls v.cls) kw.fork; pure v) := load_skip h0 (.inl ⟨rfl, rfl⟩)
  have hok : ∀ r, (load E (n + 1) v (some (.cls v.cls)) (st kw)).val = .ok r ↔
      (load E (n + 1) v (some (.cls v.cls)) (lx kw)).val = .ok r := by
    intro r
    rw [e1, e2, doLoad_ok, hc, Core.bind_ok]
    constructor
    · rintro ⟨h, h'⟩
      cases h
      exact ⟨(), h', rfl⟩
    · rintro ⟨_, h', h⟩
      cases h
      exact ⟨rfl, h'⟩
  refine ⟨fun r => (hok r).1, fun e he _ => ?_⟩
  cases hl : (load E (n + 1) v (some (.cls v.cls)) (lx kw)).val with
  | ok r => rw [(hok r).2 hl] at he; cases he
  | error e' =>
    refine ⟨e', rfl, ?_⟩
    rw [e2, Core.bind_err] at hl
    rcases hl with hl | ⟨_, _, hl⟩
    · rw [validate_err ⟨fun t => ⟨_, P.desers kw.fork t⟩, P.vals kw.fork⟩ hl]; rfl
    · cases hl

theorem scalar_weak (P : Prog E) {n : Nat} {v : Val} (hv : Doc E v) {t : Ty} (hs : Scalar E t) {kw : LoadKw}
    (hf : Fixed E v kw) :
    Weak (load E n v (some t) (st kw)) (load E n v (some t) (lx kw)) := by
  cases n with
  | zero => exact Weak.refl _
  | succ n =>
    by_cases hsk : t = .cls v.cls
    · subst hsk; exact own_weak P hv hs
    · rw [load_same_of (by simpa using hsk) (loadFrom_same P fun m hm f hd => ?_)]
      · exact Weak.refl _
      · rw [(target_fixed hf hm).1] at hd ⊢
        obtain ⟨g, hg, hg'⟩ := hs
        rw [hg'] at hd
        cases hd
        exact callDes_scalar P hv hg fun _ => .inl (target_fixed hf hm).2

/-! ## Unions -/

theorem strict_ok {n : Nat} {v r : Val} {o : Option Ty} {kw : LoadKw} (P : Prog E) (ha : o ≠ some .any)
    (h : (load E (n + 1) v o (st kw)).val = .ok r) :
    (checkForNone E v o).val = .ok () ∧ v.cls ∈ validTypes ∧ ∃ m, getClsAndMeta E v kw.fork = .ok m ∧
    ∃ f, (target v o kw m).desFn E.info = some f ∧
      (callDes E (load E n) f v (target v o kw m) (st (calleeKw v o kw m))).val = .ok r ∧
      (validate E r (target v o kw m) kw.fork).val = .ok () := by
  rw [load_succ] at h
  unfold loadWith at h
  rw [Core.bind_ok] at h
  obtain ⟨_, hn, h⟩ := h
  rw [if_neg (by rintro (⟨h, _⟩ | h); · cases h
                 · exact ha h)] at h
  have hv : v.cls ∈ validTypes := by
    by_contra hv
    unfold loadFrom at h
    rw [if_pos hv] at h
    cases h
  cases hm : getClsAndMeta E v kw.fork with
  | error e =>
    unfold loadFrom at h
    rw [if_neg (by simpa using hv), show (st kw).fork = kw.fork from rfl, hm] at h
    cases h
  | ok m =>
    refine ⟨hn, hv, m, rfl, ?_⟩
    rw [loadFrom_eq hv (kw := st kw) hm (P.desers _)] at h
    change (doLoad E (load E n) ((target v o kw m).desFn E.info) v (target v o kw m) (st (calleeKw v o kw m))).val = _ at h
    cases hf : (target v o kw m).desFn E.info with
    | none => rw [hf] at h; cases h
    | some f =>
      rw [hf] at h
      exact ⟨f, rfl, doLoad_ok.1 h⟩

theorem unionLoop_imp (P : Prog E) {n : Nat} (hr : Mono E (load E n)) {v : Val} (hv : Doc E v) {u : Ty}
    {kw : LoadKw} (hk : KwOk E kw) (hf : Fixed E v kw) (ts : List Ty) (hm : Members E ts) :
    Imp (unionLoadLoop (load E n) v u (st kw) ts) (unionLoadLoop (load E n) v u (lx kw) ts) := by
  induction ts with
  | nil => exact Imp.refl _
  | cons t ts ih =>
    intro r h
    simp only [unionLoadLoop, Core.bind_ok, attempt_val, Except.ok.injEq, exists_eq_left'] at h ⊢
    cases hm with
    | last _ ht =>
      split at h
      · next y hy =>
        rw [hr v _ kw (oplain_some ht) hk hv y hy]
        exact h
      · split at h <;> cases h
    | optional _ ht hno =>
      split at h
      · next y hy =>
        rw [hr v _ kw (oplain_some ht) hk hv y hy]
        exact h
      · next e he =>
        split at h
        · simp only [unionLoadLoop, Core.bind_ok, attempt_val, Except.ok.injEq, exists_eq_left'] at h
          split at h
          · next y hy =>
            cases h
            have hnone : v = .none := by
              cases n with
              | zero => cases hy
              | succ n =>
                obtain ⟨_, _, m, hm, f, hf', hc, _⟩ := strict_ok P (by simp) hy
                rw [(target_fixed hf hm).1] at hf' hc
                have hf'' : f = .noneType := by cases hf'; rfl
                subst hf''
                simp only [callDes, noneTypeDes] at hc
                split at hc
                · next h => exact h
                · cases hc
            subst hnone
            have hw := (scalar_weak P (n := n) (v := .none) (t := .cls .noneType) .none
              ⟨.noneType, by simp, rfl⟩ hf).1 r hy
            cases n with
            | zero => cases hy
            | succ n =>
              have hx : (load E (n + 1) .none (some t) (lx kw)).val =
                  .error { kind := .deserializationError, source := some .none, target := some t } := by
                rw [load_succ]
                unfold loadWith checkForNone
                rw [if_pos rfl, hno]
                rfl
              rw [hx]
              simp only [unionLoadLoop]
              rw [if_pos (show ErrKind.deserializationError.isJsonsError = true from rfl), Core.bind_ok]
              refine ⟨.ok r, ?_, rfl⟩
              rw [attempt_val, hw]
          · split at h <;> cases h
        · cases h
    | cons _ _ hs hm =>
      have hw := scalar_weak P (n := n) hv hs hf
      split at h
      · next y hy =>
        rw [hw.1 y hy]
        exact h
      · next e he =>
        split at h
        · next hj =>
          obtain ⟨e', h1, h2⟩ := hw.2 e he hj
          rw [h1]
          simp only [h2, if_true]
          exact ih hm r h
        · cases h

/-! ## The induction -/

/-- The types with which deserializers are called: also the classes of lists and dicts, for values
without a given class. -/
def Target (E : LEnv) (t : Ty) : Prop := Plain E t ∨ t = .cls .list ∨ t = .cls .dict

theorem target_args {t a : Ty} (h : Target E t) (ha : a ∈ t.getArgs) (hu : ∀ ts, t ≠ .union ts) : Plain E a := by
  rcases h with h | rfl | rfl
  · exact plain_args h ha hu
  · cases ha
  · cases ha

theorem not_union {t : Ty} {f : DesFn} (h : t.desFn E.info = some f) (hf : f ≠ .union) (ts : List Ty) :
    t ≠ .union ts := by
  rintro rfl
  cases h
  exact hf rfl

theorem head_plain {t : Ty} (h : Target E t) (hu : ∀ ts, t ≠ .union ts) : OPlain E t.getArgs.head? :=
  fun _ ha => target_args h (List.mem_of_mem_head? ha) hu

theorem callDes_imp (P : Prog E) {n : Nat} (hr : Mono E (load E n)) {v : Val} (hv : Doc E v) {t : Ty}
    (ht : Target E t) {kw : LoadKw} (hk : KwOk E kw) {f : DesFn} (hf : t.desFn E.info = some f)
    (hx : f = .union ∨ f = .string → Fixed E v kw) :
    Imp (callDes E (load E n) f v t (st kw)) (callDes E (load E n) f v t (lx kw)) := by
  by_cases hs : f ∈ [DesFn.noneType, .primitive, .string, .datetime, .date, .time, .timedelta, .timezone, .complex,
      .uuid, .decimal, .path, .zoneinfo, .enum]
  · rw [callDes_scalar P hv hs fun h => hx (.inr h)]
    exact Imp.refl _
  · have ht' : t = .cls .list ∨ t = .cls .dict ∨ t = .any ∨
        (∃ c : Cls, t = .cls c ∧ c ≠ .list ∧ c ≠ .dict ∧ c ≠ .object) ∨
        (∃ g args, t = .gen g args ∧ ∀ a ∈ args, Plain E a) ∨ ∃ ts, t = .union ts ∧ Members E ts := by
      rcases ht with h | h | h
      · cases h with
        | any => exact .inr (.inr (.inl rfl))
        | scalar _ h =>
          obtain ⟨g, hg, hg'⟩ := h
          rw [hf] at hg'
          cases hg'
          exact absurd hg hs
        | cls c h1 h2 h3 => exact .inr (.inr (.inr (.inl ⟨c, rfl, h1, h2, h3⟩)))
        | gen g args h => exact .inr (.inr (.inr (.inr (.inl ⟨g, args, rfl, h⟩))))
        | union ts h => exact .inr (.inr (.inr (.inr (.inr ⟨ts, rfl, h⟩))))
      · exact .inl h
      · exact .inr (.inl h)
    cases f with
    | list =>
      exact Imp.bind (listDes_imp hr hv (head_plain ht (not_union hf (by simp))) hk) fun _ _ => Imp.refl _
    | iterable => exact iterableDes_imp hr hv (head_plain ht (not_union hf (by simp))) hk
    | tuple => exact tupleDes_imp P hr hv (fun a ha => target_args ht ha (not_union hf (by simp))) hk
    | mapping =>
      exact Imp.bind (dictDes_imp hr hv (fun a ha => target_args ht ha (not_union hf (by simp))) hk)
        fun _ _ => Imp.refl _
    | defaultdict =>
      have hu := not_union hf (f := .defaultdict) (by simp)
      have hargs : ∀ a ∈ t.getArgs, Plain E a := fun a ha => target_args ht ha hu
      show Imp (defaultdictDes (load E n) v t (st kw)) (defaultdictDes (load E n) v t (lx kw))
      unfold defaultdictDes
      refine Imp.same fun p hp => ?_
      refine Imp.bind (hr v _ kw (oplain_some ?_) hk hv) fun _ _ => Imp.refl _
      split at hp
      · cases hp; exact .gen _ _ fun _ h => by cases h
      · next k w hkw =>
        cases hp
        refine .gen _ _ fun a ha => hargs a ?_
        rw [hkw]; exact ha
      · cases hp
    | union =>
      rcases ht' with rfl | rfl | rfl | ⟨c, rfl, -⟩ | ⟨g, args, rfl, -⟩ | ⟨ts, rfl, hm⟩
      · cases hf
      · cases hf
      · cases hf
      · cases c with
        | user c =>
          simp only [Ty.desFn, Cls.desFn] at hf
          split at hf <;> cases hf
        | _ => cases hf
      · cases g <;> cases hf
      · exact unionLoop_imp P hr hv hk (hx (.inl rfl)) ts hm
    | object =>
      rcases ht' with rfl | rfl | rfl | ⟨c, rfl, -, -, ho⟩ | ⟨g, args, rfl, -⟩ | ⟨ts, rfl, hm⟩
      · cases hf
      · cases hf
      · cases hf
      · cases c with
        | user c => exact objectDes_imp P hr hv hk
        | object => exact absurd rfl ho
        | _ => cases hf
      · cases g <;> cases hf
      · cases hf
    | custom id => exact absurd hf (Depth.desFn_not_custom _ _ _)
    | _ => exact absurd (by simp) hs

/-- What a `'-meta'` names. -/
theorem meta_plain {v : Val} (hv : Doc E v) {i : Nat} {t : Ty} {hs : List (Val × Val)}
    (h : getClsAndMeta E v i = .ok (some (t, hs))) :
    Plain E t ∧ HintsPlain E hs ∧ t.desFn E.info ≠ some .union ∧ t.desFn E.info ≠ some .string := by
  cases v with
  | dict es =>
    simp only [getClsAndMeta] at h
    split at h
    · cases h
    · next m hm =>
      obtain ⟨e, he, rfl, heq⟩ := dictGet_mem hm
      have hk := Depth.pyEq_str heq
      cases h1 : subscript e.2 "classes".toList with
      | error k => rw [h1] at h; cases h
      | ok classes =>
        rw [h1] at h
        cases h2 : subscript classes "/".toList with
        | error k => simp only [bind, Except.bind, h2] at h; cases h
        | ok name =>
          simp only [bind, Except.bind, h2] at h
          split at h
          · next s hints =>
            cases h3 : E.clsFromStr i s with
            | error k => rw [h3] at h; cases h
            | ok t' =>
              rw [h3] at h
              cases h
              obtain ⟨k, m⟩ := e
              cases hk
              cases m with
              | dict ms =>
                have g1 : dictGet ms (.str "classes".toList) = some (.dict hs) := by
                  simp only [subscript] at h1
                  split at h1
                  · next hg => cases h1; exact hg
                  · cases h1
                have g2 : dictGet hs (.str "/".toList) = some (.str s) := by
                  simp only [subscript] at h2
                  split at h2
                  · next hg => cases h2; exact hg
                  · cases h2
                cases hv with
                | dict _ _ _ hfm =>
                  obtain ⟨f1, f2⟩ := hfm ms hs he g1
                  obtain ⟨e', he', h2', _⟩ := dictGet_mem g2
                  exact ⟨f1 e' he' s h2' i t h3, f1, f2 s g2 i t h3⟩
              | _ => cases h1
          · cases h
  | _ => cases h

theorem mono (P : Prog E) (n : Nat) : Mono E (load E n) := by
  induction n with
  | zero => exact fun _ _ _ _ _ _ => Imp.refl _
  | succ n ih =>
    intro v o kw ho hk hv r h
    by_cases ha : o = some .any
    · subst ha
      rw [load_succ] at h ⊢
      unfold loadWith at h ⊢
      rw [if_pos (.inr rfl)] at h ⊢
      exact h
    by_cases hs : o = some (.cls v.cls)
    · subst hs
      refine (own_weak P hv ?_).1 r h
      have hp := ho _ rfl
      have hc := hv.cls
      simp only [List.mem_cons, List.not_mem_nil, or_false] at hc
      have hl : Plain E (.cls .list) → False := by
        intro h
        cases h with
        | cls _ h _ _ => exact h rfl
        | scalar _ h => obtain ⟨g, hg, hg'⟩ := h; cases hg'; simp [Cls.desFn] at hg
      have hd : Plain E (.cls .dict) → False := by
        intro h
        cases h with
        | cls _ _ h _ => exact h rfl
        | scalar _ h => obtain ⟨g, hg, hg'⟩ := h; cases hg'; simp [Cls.desFn] at hg
      rcases hc with h | h | h | h | h | h | h <;> rw [h] at hp ⊢
      · exact ⟨_, by simp [Cls.desFn], rfl⟩
      · exact ⟨_, by simp [Cls.desFn], rfl⟩
      · exact ⟨_, by simp [Cls.desFn], rfl⟩
      · exact ⟨_, by simp [Cls.desFn], rfl⟩
      · exact ⟨_, by simp [Cls.desFn], rfl⟩
      · exact (hl hp).elim
      · exact (hd hp).elim
    · obtain ⟨hn, hval, m, hm, f, hf, hc, hvd⟩ := strict_ok P ha h
      rw [load_succ]
      unfold loadWith
      rw [Core.bind_ok]
      refine ⟨(), hn, ?_⟩
      rw [if_neg (by rintro (⟨_, h⟩ | h); exacts [hs h, ha h]), loadFrom_eq hval (kw := lx kw) hm (P.desers _)]
      show (doLoad E (load E n) ((target v o kw m).desFn E.info) v (target v o kw m) (lx (calleeKw v o kw m))).val = _
      rw [hf, doLoad_ok]
      refine ⟨callDes_imp P ih hv ?_ ?_ hf ?_ r hc, hvd⟩
      · rcases Depth.target_cases v o kw m with h | ⟨hs, h⟩ | ⟨_, _, h⟩
        · exact .inl (ho _ h.symm)
        · rw [h] at hm; exact .inl (meta_plain hv hm).1
        · rw [h]
          have hc := hv.cls
          simp only [List.mem_cons, List.not_mem_nil, or_false] at hc
          rcases hc with h | h | h | h | h | h | h <;> rw [h]
          · exact .inl (.cls _ (by simp) (by simp) (by simp))
          · exact .inl (.cls _ (by simp) (by simp) (by simp))
          · exact .inl (.cls _ (by simp) (by simp) (by simp))
          · exact .inl (.cls _ (by simp) (by simp) (by simp))
          · exact .inl (.cls _ (by simp) (by simp) (by simp))
          · exact .inr (.inl rfl)
          · exact .inr (.inr rfl)
      · refine ⟨hk.warn, hk.kt, ?_⟩
        intro hs h
        cases h
        cases hh : kw.metaHints with
        | some hs => exact hk.hints hs hh
        | none =>
          cases m with
          | none => intro _ h; cases h
          | some m => exact (meta_plain hv hm).2.1
      · intro hus
        rcases Depth.target_cases v o kw m with h | ⟨hs, h⟩ | ⟨_, h', _⟩
        · exact .inl (by simp [calleeKw, h])
        · rw [h] at hm
          obtain ⟨_, _, h1, h2⟩ := meta_plain hv hm
          rcases hus with rfl | rfl
          · exact absurd hf h1
          · exact absurd hf h2
        · rw [h'] at hm; exact .inr hm

end

/-! ## The property -/

/-- **C89.**  What `load` returns in strict mode, it returns without strict mode too: strict mode
only refuses more.  Partial: for types with the bare classes `list`, `dict` and `object` nowhere in
them and with unions of which only the last member (besides `None`) has a constructor, for
documents of which the `'-meta'` names such types, and without `warn_on_fail` and deserializers of
the program; see the theorems below for what happens otherwise. -/
theorem strict_refuses_partial {E : LEnv} (P : Prog E) (n : Nat) {doc r : Val} {T : Ty} (hT : Plain E T)
    (hd : Doc E doc) {kw : LoadKw} (hk : KwOk E kw)
    (h : (load E n doc (some T) { kw with strict := true }).val = .ok r) :
    (load E n doc (some T) { kw with strict := false }).val = .ok r :=
  mono P n doc (some T) kw (oplain_some hT) hk hd r h

/-- Without a given class. -/
theorem strict_refuses_free_partial {E : LEnv} (P : Prog E) (n : Nat) {doc r : Val}
    (hd : Doc E doc) {kw : LoadKw} (hk : KwOk E kw)
    (h : (load E n doc none { kw with strict := true }).val = .ok r) :
    (load E n doc none { kw with strict := false }).val = .ok r :=
  mono P n doc none kw oplain_none hk hd r h

theorem demo_prog : Prog (demoLEnv demoInfo) where
  desers := demo_desers
  vals := fun i t => ⟨_, demo_novals i t⟩
  hints := by
    intro c p hp
    have hi : (demoLEnv demoInfo).info = demoInfo := rfl
    rw [hi] at *
    match c with
    | 0 =>
      rcases List.mem_cons.1 hp with rfl | hp
      · exact .cls _ (by simp) (by simp) (by simp)
      · rw [List.mem_singleton.1 hp]; exact .cls _ (by simp) (by simp) (by simp)
    | 1 | 2 | 3 | 4 | 5 => cases hp
    | n + 6 => cases hp
  initHints := by
    intro c p hp
    have hi : (demoLEnv demoInfo).info = demoInfo := rfl
    rw [hi] at *
    match c with
    | 0 =>
      rcases List.mem_cons.1 hp with rfl | hp
      · exact .cls _ (by simp) (by simp) (by simp)
      · rw [List.mem_singleton.1 hp]; exact .cls _ (by simp) (by simp) (by simp)
    | 1 | 2 | 3 | 4 | 5 => cases hp
    | n + 6 => cases hp
  defaults := by
    intro c p hp
    have hi : (demoLEnv demoInfo).info = demoInfo := rfl
    rw [hi] at *
    match c with
    | 0 | 1 | 2 | 3 | 4 | 5 => cases hp
    | n + 6 => cases hp

/-- `Dict[str, List[Union[int, Point, None]]]` -/
def demoTy : Ty :=
  .gen .dict [.cls .str, .gen .list [.union [.cls .int, .cls (.user 0), .cls .noneType]]]

/-- `{'a': [{'x': 1, 'y': 2}, None, 3]}` -/
def demoDoc : Val :=
  .dict [(.str "a".toList, .list [.dict [(.str "x".toList, .int 1), (.str "y".toList, .int 2)], .none, .int 3])]

/-- The hypotheses can be met: a document with an object, a number and `None` in a list, for a type
with a union. -/
example : Prog (demoLEnv demoInfo) ∧ Plain (demoLEnv demoInfo) demoTy ∧ Doc (demoLEnv demoInfo) demoDoc ∧
    KwOk (demoLEnv demoInfo) {} ∧
    (load (demoLEnv demoInfo) 9 demoDoc (some demoTy) { strict := true }).val =
      .ok (.dict [(.str "a".toList,
        .list [.obj 0 [("x".toList, .int 1), ("y".toList, .int 2)], .none, .int 3])]) ∧
    (load (demoLEnv demoInfo) 9 demoDoc (some demoTy) {}).val =
      .ok (.dict [(.str "a".toList,
        .list [.obj 0 [("x".toList, .int 1), ("y".toList, .int 2)], .none, .int 3])]) := by
  refine ⟨demo_prog, ?_, ?_, ⟨rfl, fun _ h => (by cases h), fun _ h => by cases h⟩, by decide +kernel, by decide +kernel⟩
  · refine .gen _ _ fun a ha => ?_
    rcases List.mem_cons.1 ha with rfl | ha
    · exact .cls _ (by simp) (by simp) (by simp)
    · rw [List.mem_singleton.1 ha]
      refine .gen _ _ fun a ha => ?_
      rw [List.mem_singleton.1 ha]
      exact .union _ (.cons _ _ ⟨_, by simp [Cls.desFn], rfl⟩
        (.optional _ (.cls _ (by simp) (by simp) (by simp)) (by rfl)))
  · simp only [demoDoc]
    refine .dict _ (fun e he => ?_) (fun e he => ?_) (fun ms hs h => ?_)
    · rw [List.mem_singleton.1 he]; exact .str _
    · rw [List.mem_singleton.1 he]
      refine .list _ fun x hx => ?_
      simp only [List.mem_cons, List.not_mem_nil, or_false] at hx
      rcases hx with rfl | rfl | rfl
      · refine .dict _ (fun e he => ?_) (fun e he => ?_) (fun ms hs h => ?_)
        · simp only [List.mem_cons, List.not_mem_nil, or_false] at he
          rcases he with rfl | rfl <;> exact .str _
        · simp only [List.mem_cons, List.not_mem_nil, or_false] at he
          rcases he with rfl | rfl <;> exact .int _
        · simp at h
      · exact .none
      · exact .int _
    · simp at h

/-- A text that is a point in time. -/
def timeText : Val := .str "2020-01-01T00:00:00Z".toList

/-- **The property is false for the bare classes:** without strict mode a dict that is loaded as
`dict` is returned as it is, in strict mode the texts in it are parsed. -/
theorem strict_parses_more :
    ∃ doc r, (load (demoLEnv demoInfo) 9 doc (some (.cls .dict)) { strict := true }).val = .ok r ∧
      (load (demoLEnv demoInfo) 9 doc (some (.cls .dict)) {}).val = .ok doc ∧ r ≠ doc := by
  refine ⟨.dict [(.str "a".toList, timeText)],
    .dict [(.str "a".toList, .atom (.datetime ⟨2020, 1, 1, 0, 0, 0, 0, some Tz.utc⟩))], by rfl, by rfl, by simp [timeText]⟩

/-- **and for unions:** the first member refuses in strict mode because of the further key, so
that the second one is taken. -/
theorem strict_picks_other_member :
    ∃ doc r r', (load (demoLEnv demoInfo) 9 doc
        (some (.union [.cls (.user 0), .gen .dict [.cls .str, .cls .int]])) { strict := true }).val = .ok r ∧
      (load (demoLEnv demoInfo) 9 doc
        (some (.union [.cls (.user 0), .gen .dict [.cls .str, .cls .int]])) {}).val = .ok r' ∧
      r.cls = .dict ∧ r'.cls = .user 0 := by
  exact ⟨.dict [(.str "x".toList, .int 1), (.str "z".toList, .int 2)], _, _, by rfl, by rfl, rfl, rfl⟩

/-- **and with `warn_on_fail`:** what is refused is left out of the list. -/
theorem strict_drops_elements :
    ∃ doc x, (load (demoLEnv demoInfo) 9 doc (some (.gen .list [.cls (.user 0)])) { strict := true, warnOnFail := true }).val =
        .ok (.list []) ∧
      (load (demoLEnv demoInfo) 9 doc (some (.gen .list [.cls (.user 0)])) { warnOnFail := true }).val =
        .ok (.list [x]) := by
  exact ⟨.list [.dict [(.str "x".toList, .int 1), (.str "z".toList, .int 2)]], _, by rfl, by rfl⟩

end Verif.Props.StrictLoad
