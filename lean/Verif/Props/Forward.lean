import Verif.Props.Hidden
import Verif.Core.LoadLemmas
import Verif.Core.LoadDemo

/-!
# Further keys in a document

C93: keys that a class does not know can be added to the documents of its objects, at
whatever depth, without an influence on what `load` makes of the rest of the document.
-/

set_option autoImplicit false

namespace Verif.Props.Forward
open Verif Verif.Core Verif.Props.Hidden

/-! ## The specification -/

/-- The same exception, but for the value that it points to. -/
def SameErr (e e' : Err) : Prop := { e with source := none } = { e' with source := none }

/-- Outcomes without events: the same exception, or values that are related. -/
inductive ExBoth {α : Type} (R : α → α → Prop) : Except Err α → Except Err α → Prop where
  | ok {a b : α} (h : R a b) : ExBoth R (.ok a) (.ok b)
  | error {e e' : Err} (h : SameErr e e') : ExBoth R (.error e) (.error e')

/-- Results: the same events, and related outcomes. -/
structure Both {α : Type} (R : α → α → Prop) (x y : Res α) : Prop where
  log : x.log = y.log
  val : ExBoth R x.val y.val

/-- An entry that class `c` does not know: there is neither a parameter nor an annotation of this
name; the value has no hashed keys, and there is no validator for its class. -/
structure Unknown (E : LEnv) (H : Nat → PyStr → Prop) (fork c : Nat) (s : PyStr) (x : Val) :
    Prop where
  name : H c s
  keys : hasKeysEntry x = false
  vals : E.getVal fork (.cls x.cls) = .ok none

/-- The entries that are not for parameters: those that differ are unknown to the class. -/
inductive Further (E : LEnv) (H : Nat → PyStr → Prop) (fork c : Nat) :
    List (Val × Val) → List (Val × Val) → Prop where
  | nil : Further E H fork c [] []
  | same (e : Val × Val) {es gs : List (Val × Val)} (h : Further E H fork c es gs) :
      Further E H fork c (e :: es) (e :: gs)
  | left (s : PyStr) (x : Val) {es gs : List (Val × Val)}
      (hs : Unknown E H fork c s x ∨ s ∈ (E.info c).params.map (·.name))
      (h : Further E H fork c es gs) : Further E H fork c ((.str s, x) :: es) gs
  | right (s : PyStr) (x : Val) {es gs : List (Val × Val)}
      (hs : Unknown E H fork c s x ∨ s ∈ (E.info c).params.map (·.name))
      (h : Further E H fork c es gs) : Further E H fork c es ((.str s, x) :: gs)

/-- Two lists, or two dicts without class info. -/
inductive Containers : Val → Val → Prop where
  | list (xs ys : List Val) : Containers (.list xs) (.list ys)
  | dict (es gs : List (Val × Val)) (h : dictGet es (.str metaKey) = none)
      (h' : dictGet gs (.str metaKey) = none) : Containers (.dict es) (.dict gs)

/-- Types as which no list and no dict can be loaded. -/
inductive Scalar (E : LEnv) : DesFn → Ty → Prop where
  | noneType : Scalar E .noneType (.cls .noneType)
  | int : Scalar E .primitive (.cls .int)
  | float : Scalar E .primitive (.cls .float)
  | datetime : Scalar E .datetime (.cls .datetime)
  | date : Scalar E .date (.cls .date)
  | time : Scalar E .time (.cls .time)
  | timedelta : Scalar E .timedelta (.cls .timedelta)
  | enum (c : Nat) (h : ∀ p ∈ (E.info c).enumMembers, ∃ a, p.2 = .atom a) :
      Scalar E .enum (.cls (.user c))

/-- The type of a field of a named tuple. -/
def fieldTy (I : ClassInfo) (n : PyStr) : Option Ty := if I.hasAnnotations then assoc I.hints n else none

/-- The documents differ only in entries, of dicts that are loaded as objects, that the classes of
these objects do not know.  `kt` is the key transformer, `H` are the names that are unknown. -/
inductive Added (E : LEnv) (H : Nat → PyStr → Prop) (fork : Nat) :
    Option (Val → Except Err Val) → Option Ty → Val → Val → Prop where
  | same (kt : Option (Val → Except Err Val)) (o : Option Ty) (v : Val) : Added E H fork kt o v v
  | scalar (kt : Option (Val → Except Err Val)) (t : Ty) (f : DesFn) (v w : Val)
      (hf : E.getDes fork t = .ok (some f)) (ht : Scalar E f t) (h : Containers v w) :
      Added E H fork kt (some t) v w
  | list (kt : Option (Val → Except Err Val)) (t a : Ty) (xs ys : List Val)
      (hf : E.getDes fork t = .ok (some .list)) (ha : t.getArgs.head? = some a)
      (hl : xs.length = ys.length) (h : ∀ x y, (x, y) ∈ xs.zip ys → Added E H fork kt (some a) x y) :
      Added E H fork kt (some t) (.list xs) (.list ys)
  | iterable (kt : Option (Val → Except Err Val)) (t a : Ty) (xs ys : List Val)
      (hf : E.getDes fork t = .ok (some .iterable)) (ha : t.getArgs.head? = some a)
      (hc : t.naked? ≠ some .set ∧ t.naked? ≠ some .frozenset)
      (hl : xs.length = ys.length) (h : ∀ x y, (x, y) ∈ xs.zip ys → Added E H fork kt (some a) x y) :
      Added E H fork kt (some t) (.list xs) (.list ys)
  | tuple (kt : Option (Val → Except Err Val)) (ts : List Ty) (xs ys : List Val)
      (hf : E.getDes fork (.gen .tuple ts) = .ok (some .tuple)) (hts : ts ≠ [])
      (hl : xs.length = ys.length)
      (h : ∀ (i : Nat) t x y, ts[i]? = some t → xs[i]? = some x → ys[i]? = some y →
        Added E H fork none (some t) x y) :
      Added E H fork kt (some (.gen .tuple ts)) (.list xs) (.list ys)
  | ellipsis (kt : Option (Val → Except Err Val)) (a : Ty) (r : List Ty) (xs ys : List Val)
      (hf : E.getDes fork (.gen .tupleEll (a :: r)) = .ok (some .tuple))
      (hl : xs.length = ys.length)
      (h : ∀ x y, (x, y) ∈ xs.zip ys → Added E H fork none (some a) x y) :
      Added E H fork kt (some (.gen .tupleEll (a :: r))) (.list xs) (.list ys)
  | mapping (kt : Option (Val → Except Err Val)) (t k a : Ty) (es gs : List (Val × Val))
      (hf : E.getDes fork t = .ok (some .mapping)) (ha : t.getArgs = [k, a])
      (hm : dictGet es (.str metaKey) = none) (hh : dictGet es (.str keysKey) = none)
      (hk : es.map (·.1) = gs.map (·.1))
      (h : ∀ x y, (x, y) ∈ (es.map (·.2)).zip (gs.map (·.2)) →
        Added E H fork (some (kt.getD .ok)) (some a) x y) :
      Added E H fork kt (some t) (.dict es) (.dict gs)
  | defaultdict (kt : Option (Val → Except Err Val)) (t k a : Ty) (v w : Val)
      (hf : E.getDes fork t = .ok (some .defaultdict)) (ha : t.getArgs = [k, a])
      (h : Added E H fork kt (some (.gen .dict [k, a])) v w) : Added E H fork kt (some t) v w
  | union (kt : Option (Val → Except Err Val)) (t : Ty) (ts : List Ty) (v w : Val)
      (hf : E.getDes fork t = .ok (some .union)) (hu : t.unionParams = some ts) (ht : ts ≠ [])
      (h : ∀ a ∈ ts, Added E H fork kt (some a) v w) : Added E H fork kt (some t) v w
  | obj (kt : Option (Val → Except Err Val)) (c : Nat) (es gs ts us : List (Val × Val))
      (hf : E.getDes fork (.cls (.user c)) = .ok (some .object))
      (hm : dictGet es (.str metaKey) = none) (hm' : dictGet gs (.str metaKey) = none)
      (ht : transformObj E.info (.dict es) kt = .ok (.dict ts))
      (hu : transformObj E.info (.dict gs) kt = .ok (.dict us))
      (hp : ∀ p ∈ (E.info c).params, (dictGet ts (.str p.name)).isSome = (dictGet us (.str p.name)).isSome)
      (h : ∀ p ∈ (E.info c).params, ∀ x y, dictGet ts (.str p.name) = some x →
        dictGet us (.str p.name) = some y → Added E H fork kt (assoc (E.info c).initHints p.name) x y)
      (hr : Further E H fork c ts us) :
      Added E H fork kt (some (.cls (.user c))) (.dict es) (.dict gs)
  | ntupleList (kt : Option (Val → Except Err Val)) (c : Nat) (xs ys : List Val)
      (hf : E.getDes fork (.cls (.user c)) = .ok (some .tuple)) (hc : (E.info c).kind = .ntuple)
      (hl : xs.length = ys.length)
      (h : ∀ (i : Nat) n x y, (E.info c).fields[i]? = some n → xs[i]? = some x → ys[i]? = some y →
        Added E H fork kt (fieldTy (E.info c) n) x y) :
      Added E H fork kt (some (.cls (.user c))) (.list xs) (.list ys)
  | ntupleDict (kt : Option (Val → Except Err Val)) (c : Nat) (es gs ts us : List (Val × Val))
      (hf : E.getDes fork (.cls (.user c)) = .ok (some .tuple)) (hc : (E.info c).kind = .ntuple)
      (hm : dictGet es (.str metaKey) = none) (hm' : dictGet gs (.str metaKey) = none)
      (hl : es.length = gs.length)
      (ht : transformKeys E.info (kt.getD .ok) [] es = .ok ts)
      (hu : transformKeys E.info (kt.getD .ok) [] gs = .ok us)
      (hp : ∀ n ∈ (E.info c).fields, (dictGet ts (.str n)).isSome = (dictGet us (.str n)).isSome)
      (h : ∀ n ∈ (E.info c).fields, ∀ x y, dictGet ts (.str n) = some x →
        dictGet us (.str n) = some y → Added E H fork kt (fieldTy (E.info c) n) x y) :
      Added E H fork kt (some (.cls (.user c))) (.dict es) (.dict gs)

/-- What is known of the program: `H` are names for which the classes have neither parameters nor
annotations, and setting such an attribute does not change others; constructors, setters and
validators do not look at attributes that are unknown. -/
structure Receptive (E : LEnv) (H : Nat → PyStr → Prop) : Prop where
  params : ∀ c s, H c s → s ∉ (E.info c).params.map (·.name)
  hints : ∀ c s, H c s → assoc (E.info c).hints s = none
  extra : ∀ c as bs s y, H c s → Alike H (.obj c as) (.obj c bs) →
    (∃ bs', E.setAttr c bs s y = .ok bs' ∧ Alike H (.obj c as) (.obj c bs')) ∨
      ∃ e, E.setAttr c bs s y = .error e ∧ e.kind = .attributeError
  extra' : ∀ c as bs s y, H c s → Alike H (.obj c as) (.obj c bs) →
    (∃ as', E.setAttr c as s y = .ok as' ∧ Alike H (.obj c as') (.obj c bs)) ∨
      ∃ e, E.setAttr c as s y = .error e ∧ e.kind = .attributeError
  set : ∀ c as bs s y, Alike H (.obj c as) (.obj c bs) →
    ExBoth (fun a b => Alike H (.obj c a) (.obj c b)) (E.setAttr c as s y) (E.setAttr c bs s y)
  ctor : ∀ c args args', List.Forall₂ (fun a b => a.1 = b.1 ∧ Alike H a.2 b.2) args args' →
    ExBoth (fun a b => Alike H (.obj c a) (.obj c b)) (E.construct c args) (E.construct c args')
  vals : ∀ f v w, Alike H v w → E.validator f v = E.validator f w

/-- The keyword arguments: non-strict mode, no class hints given by hand. -/
structure KwOk (fork : Nat) (kt : Option (Val → Except Err Val)) (kw : LoadKw) : Prop where
  fork : kw.fork = fork
  kt : kw.keyTransformer = kt
  strict : kw.strict = false
  hints : kw.metaHints.getD [] = []

/-! ## Lemmas -/

section
variable {α β : Type} {R : α → α → Prop} {S : β → β → Prop}

theorem SameErr.refl (e : Err) : SameErr e e := rfl

theorem SameErr.kind {e e' : Err} (h : SameErr e e') : e.kind = e'.kind := by
  have : Err.kind { e with source := none } = Err.kind { e' with source := none } := congrArg Err.kind h
  exact this
theorem SameErr.msg {e e' : Err} (h : SameErr e e') : e.msg = e'.msg := by
  have : Err.msg { e with source := none } = Err.msg { e' with source := none } := congrArg Err.msg h
  exact this
theorem SameErr.target {e e' : Err} (h : SameErr e e') : e.target = e'.target := by
  have : Err.target { e with source := none } = Err.target { e' with source := none } := congrArg Err.target h
  exact this

theorem ExBoth.refl (hR : ∀ a, R a a) (x : Except Err α) : ExBoth R x x := by
  cases x with
  | ok a => exact .ok (hR a)
  | error e => exact .error rfl

theorem Both.refl (hR : ∀ a, R a a) (x : Res α) : Both R x x := ⟨rfl, .refl hR _⟩

theorem Both.pure {a b : α} (h : R a b) : Both R (Pure.pure a) (Pure.pure b) := ⟨rfl, .ok h⟩

theorem Both.raise {e e' : Err} (h : SameErr e e') : Both (α := α) R (Res.raise e) (Res.raise e') :=
  ⟨rfl, .error h⟩

theorem Both.lift {x y : Except Err α} (h : ExBoth R x y) : Both R (Res.lift x) (Res.lift y) :=
  ⟨by simp, by simpa using h⟩

theorem Both.bind {x y : Res α} {f g : α → Res β} (h : Both R x y)
    (hf : ∀ a b, x.val = .ok a → y.val = .ok b → R a b → Both S (f a) (g b)) :
    Both S (x >>= f) (y >>= g) := by
  obtain ⟨hl, hv⟩ := h
  constructor
  · rw [bind_log, bind_log, hl]
    generalize hx : x.val = a at hv
    generalize hy : y.val = b at hv
    cases hv with
    | ok h => simp only [(hf _ _ hx hy h).log]
    | error e => rfl
  · rw [bind_val, bind_val]
    generalize hx : x.val = a at hv
    generalize hy : y.val = b at hv
    cases hv with
    | ok h => exact (hf _ _ hx hy h).val
    | error e => exact .error e

theorem Both.bind_same {x : Res α} {f g : α → Res β}
    (hf : ∀ a, x.val = .ok a → Both S (f a) (g a)) : Both S (x >>= f) (x >>= g) := by
  refine Both.bind (R := Eq) (.refl (fun _ => rfl) x) ?_
  rintro a _ ha _ rfl
  exact hf a ha

theorem Both.attempt {x y : Res α} (h : Both R x y) : Both (ExBoth R) x.attempt y.attempt :=
  ⟨h.log, .ok h.val⟩

theorem Both.mono {R' : α → α → Prop} {x y : Res α} (h : Both R x y) (hR : ∀ a b, R a b → R' a b) :
    Both R' x y := by
  obtain ⟨hl, hv⟩ := h
  refine ⟨hl, ?_⟩
  generalize x.val = a at hv
  generalize y.val = b at hv
  cases hv with
  | ok h => exact .ok (hR _ _ h)
  | error h => exact .error h

end

section
variable {E : LEnv} {H : Nat → PyStr → Prop} {fork : Nat}

theorem get_none {es : List (Val × Val)} {k : Val} : dictGet es k = none ↔ ∀ e ∈ es, pyEq e.1 k = false := by
  induction es with
  | nil => simp [dictGet]
  | cons e es ih =>
    obtain ⟨a, b⟩ := e
    simp only [dictGet, List.mem_cons, forall_eq_or_imp]
    split
    · next h => simp [h]
    · next h => rw [ih]; simp [h]

/-- Documents that differ are lists or dicts without class info. -/
theorem Added.shape {kt : Option (Val → Except Err Val)} {o : Option Ty} {v w : Val}
    (h : Added E H fork kt o v w) : v = w ∨ Containers v w := by
  induction h with
  | same kt o v => exact .inl rfl
  | scalar kt t f v w hf ht h => exact .inr h
  | list => exact .inr (.list _ _)
  | iterable => exact .inr (.list _ _)
  | tuple => exact .inr (.list _ _)
  | ellipsis => exact .inr (.list _ _)
  | mapping kt t k a es gs hf ha hm hh hk h =>
    refine .inr (.dict _ _ hm ?_)
    rw [get_none] at hm ⊢
    intro e he
    have : e.1 ∈ es.map (·.1) := by rw [hk]; exact List.mem_map_of_mem he
    obtain ⟨e', he', h1⟩ := List.mem_map.1 this
    rw [← h1]
    exact hm e' he'
  | defaultdict kt t k a v w hf ha h ih => exact ih
  | union kt t ts v w hf hu ht h ih =>
    cases ts with
    | nil => exact absurd rfl ht
    | cons a ts => exact ih a List.mem_cons_self
  | obj kt c es gs ts us hf hm hm' => exact .inr (.dict _ _ hm hm')
  | ntupleList => exact .inr (.list _ _)
  | ntupleDict kt c es gs ts us hf hc hm hm' => exact .inr (.dict _ _ hm hm')

theorem Added.isNone {kt : Option (Val → Except Err Val)} {o : Option Ty} {v w : Val}
    (h : Added E H fork kt o v w) : v = .none ↔ w = .none := by
  rcases h.shape with rfl | h
  · rfl
  · cases h <;> simp

theorem Containers.cls {v w : Val} (h : Containers v w) : v.cls = w.cls := by cases h <;> rfl
theorem Containers.left {v w : Val} (h : Containers v w) : v ≠ .none := by
  cases h <;> intro h <;> cases h
theorem Containers.right {v w : Val} (h : Containers v w) : w ≠ .none := by
  cases h <;> intro h <;> cases h
theorem Containers.meta_left {v w : Val} (h : Containers v w) (i : Nat) : getClsAndMeta E v i = .ok none := by
  cases h with
  | list => rfl
  | dict es gs h h' => simp only [getClsAndMeta, h]
theorem Containers.meta_right {v w : Val} (h : Containers v w) (i : Nat) : getClsAndMeta E w i = .ok none := by
  cases h with
  | list => rfl
  | dict es gs h h' => simp only [getClsAndMeta, h']

theorem validate_both (R : Receptive E H) {v w : Val} (h : Alike H v w) (t : Ty) (i : Nat) :
    Both Eq (validate E v t i) (validate E w t i) := by
  have : validate E v t i = validate E w t i := by
    unfold validate
    refine congrArg _ ?_
    funext o
    cases o with
    | none => rfl
    | some f => simp only [R.vals f v w h]
  rw [this]
  exact .refl (fun _ => rfl) _

/-- `load` as a type with a deserializer. -/
theorem step (R : Receptive E H) {rec : LRec} {kt : Option (Val → Except Err Val)} {v w : Val} {t : Ty} {f : DesFn}
    {kw : LoadKw} (hk : KwOk fork kt kw) (hs : Containers v w) (ht : t ≠ .cls v.cls) (hany : t ≠ .any)
    (hf : E.getDes fork t = .ok (some f))
    (hc : ∀ kw', KwOk fork kt kw' → Both (Alike H) (callDes E rec f v t kw') (callDes E rec f w t kw')) :
    Both (Alike H) (loadWith E rec v (some t) kw) (loadWith E rec w (some t) kw) := by
  have key : ∀ u, u ≠ Val.none → v.cls = u.cls → getClsAndMeta E u kw.fork = .ok none →
      loadWith E rec u (some t) kw =
        if u.cls ∉ validTypes then
          Res.raise { kind := .deserializationError, source := some u, target := some t }
        else doLoad E rec (some f) u t { kw with
          metaHints := some (kw.metaHints.getD []), inferred := false } := by
    intro u hu hcls hmu
    unfold loadWith checkForNone
    rw [if_neg hu, pure_bind', if_neg]
    · unfold loadFrom
      by_cases hv : u.cls ∉ validTypes
      · rw [if_pos hv, if_pos hv]
      · rw [if_neg hv, if_neg hv, hmu, liftS_of_ok, pure_bind']
        have h1 : (determinePrecedence (some t) (Option.map (·.1) (none : Option (Ty × List (Val × Val))))
            (some (.cls u.cls)) kw.inferred).getD (.cls u.cls) = t := by
          unfold determinePrecedence
          cases kw.inferred <;> rfl
        simp only [h1, hk.fork, hf, liftK_of_ok, pure_bind']
        simp
    · rintro (⟨_, h⟩ | h)
      · cases h; exact ht (by rw [hcls])
      · cases h; exact hany rfl
  rw [key v hs.left rfl (hs.meta_left _), key w hs.right hs.cls (hs.meta_right _), hs.cls]
  split
  · exact .raise rfl
  · refine Both.bind (R := ExBoth (Alike H)) (Both.attempt ?_) ?_
    · refine Both.bind (hc _ ⟨hk.fork, hk.kt, hk.strict, hk.hints⟩) fun a b _ _ hab => ?_
      refine Both.bind (validate_both R hab t _) fun _ _ _ _ _ => .pure hab
    · intro a b _ _ hab
      cases hab with
      | ok h => exact .pure h
      | error h =>
        dsimp only
        rw [h.kind]
        split
        · exact .raise h
        · exact .raise (by unfold SameErr; simp only [h.msg])

theorem scalar_step {rec : LRec} {f : DesFn} {t : Ty} (ht : Scalar E f t) {v w : Val} (h : Containers v w)
    (kw : LoadKw) : Both (Alike H) (callDes E rec f v t kw) (callDes E rec f w t kw) := by
  cases ht with
  | noneType =>
    simp only [callDes, noneTypeDes, if_neg h.left, if_neg h.right]
    exact .raise rfl
  | int =>
    simp only [callDes, primitiveDes, if_neg h.left, if_neg h.right]
    cases h <;> exact .raise rfl
  | float =>
    simp only [callDes, primitiveDes, if_neg h.left, if_neg h.right]
    cases h <;> exact .raise rfl
  | datetime | date | time | timedelta => cases h <;> exact .raise rfl
  | enum c hm =>
    have h1 : ∀ u, (∀ a : Atom, u ≠ .atom a) → enumByName (E.info c) c u = .error .keyError ∧
        enumByValue (E.info c) c u = .error .valueError := by
      intro u hu
      constructor
      · unfold enumByName
        split
        · exact absurd rfl (hu _)
        · rfl
      · unfold enumByValue
        have : (E.info c).enumMembers.find? (fun p => pyEq p.2 u) = none := by
          rw [List.find?_eq_none]
          intro p hp
          obtain ⟨a, ha⟩ := hm p hp
          rw [ha]
          cases u with
          | atom b => exact absurd rfl (hu b)
          | _ => simp [pyEq]
        rw [this]
    have hv := h1 v (by cases h <;> intro a h <;> cases h)
    have hw := h1 w (by cases h <;> intro a h <;> cases h)
    simp only [callDes, enumDes, hv.1, hv.2, hw.1, hw.2]
    exact .refl (fun _ => .refl _) _

theorem zip_cons {x y : Val} {xs ys : List Val} {P : Val → Val → Prop}
    (h : ∀ a b, (a, b) ∈ (x :: xs).zip (y :: ys) → P a b) :
    P x y ∧ ∀ a b, (a, b) ∈ xs.zip ys → P a b :=
  ⟨h x y (by rw [List.zip_cons_cons]; exact List.mem_cons_self),
   fun a b hab => h a b (by rw [List.zip_cons_cons]; exact List.mem_cons_of_mem _ hab)⟩

theorem listLoop_both {rec : LRec} {cls : Option Ty} {kw : LoadKw} (warn : Bool) (xs ys : List Val)
    (hl : xs.length = ys.length)
    (h : ∀ x y, (x, y) ∈ xs.zip ys → Both (Alike H) (rec x cls kw) (rec y cls kw)) (i : Nat) :
    Both (List.Forall₂ (Alike H)) (listLoop E rec cls warn kw i xs) (listLoop E rec cls warn kw i ys) := by
  induction xs generalizing ys i with
  | nil =>
    cases ys with
    | nil => exact .pure .nil
    | cons => cases hl
  | cons x xs ih =>
    cases ys with
    | nil => cases hl
    | cons y ys =>
      obtain ⟨hx, hxs⟩ := zip_cons h
      have hxs := ih ys (by simpa using hl) hxs (i + 1)
      rw [listLoop, listLoop]
      refine Both.bind hx.attempt fun a b _ _ hab => ?_
      cases hab with
      | ok hab => exact hxs.bind fun as bs _ _ h => .pure (.cons hab h)
      | error he =>
        dsimp only
        rw [he.kind, he.msg, he.target]
        split
        · split
          · exact .bind_same fun _ _ => hxs
          · exact .raise rfl
        · exact .raise he

theorem tupleLoop_both {rec : LRec} {kw : LoadKw} (ts : List Ty) (xs ys : List Val)
    (hl : xs.length = ys.length)
    (h : ∀ (i : Nat) t x y, ts[i]? = some t → xs[i]? = some x → ys[i]? = some y →
      Both (Alike H) (rec x (some t) kw) (rec y (some t) kw)) :
    Both (List.Forall₂ (Alike H)) (tupleLoop rec kw ts xs) (tupleLoop rec kw ts ys) := by
  induction xs generalizing ys ts with
  | nil =>
    cases ys with
    | nil => rw [tupleLoop]; exact .pure .nil
    | cons => cases hl
  | cons x xs ih =>
    cases ys with
    | nil => cases hl
    | cons y ys =>
      cases ts with
      | nil => exact .raise rfl
      | cons t ts =>
        rw [tupleLoop, tupleLoop]
        refine (h 0 t x y rfl rfl rfl).bind fun a b _ _ hab => ?_
        refine (ih ts ys (by simpa using hl) (fun i t x y h1 h2 h3 => h (i + 1) t x y h1 h2 h3)).bind ?_
        exact fun as bs _ _ h => .pure (.cons hab h)

theorem unionLoop_both {rec : LRec} {v w : Val} {t : Ty} {kw : LoadKw} (ts : List Ty)
    (h : ∀ a ∈ ts, Both (Alike H) (rec v (some a) kw) (rec w (some a) kw)) :
    Both (Alike H) (unionLoadLoop rec v t kw ts) (unionLoadLoop rec w t kw ts) := by
  induction ts with
  | nil => exact .raise rfl
  | cons a ts ih =>
    have ih := ih fun b hb => h b (List.mem_cons_of_mem _ hb)
    rw [unionLoadLoop, unionLoadLoop]
    refine Both.bind (h a List.mem_cons_self).attempt fun x y _ _ hxy => ?_
    cases hxy with
    | ok h => exact .pure h
    | error he =>
      dsimp only
      rw [he.kind]
      split
      · exact ih
      · exact .raise he

theorem castSeq_both {c : Cls} (hc : c ≠ .set ∧ c ≠ .frozenset) {xs ys : List Val}
    (h : List.Forall₂ (Alike H) xs ys) :
    Both (Alike H) (Res.liftK (castSeq E.info c xs)) (Res.liftK (castSeq E.info c ys)) := by
  cases c <;> first
    | exact absurd rfl hc.1
    | exact absurd rfl hc.2
    | exact .pure (.seq _ h)
    | exact .raise rfl

theorem dictComp_both {info : Nat → ClassInfo} {keyFn valFn : Val → Res Val} (es gs : List (Val × Val))
    (hk : es.map (·.1) = gs.map (·.1))
    (hv : ∀ x y, (x, y) ∈ (es.map (·.2)).zip (gs.map (·.2)) → Both (Alike H) (valFn x) (valFn y))
    {acc acc' : List (Val × Val)} (ha : AlikeD H acc acc') :
    Both (AlikeD H) (dictComp info keyFn valFn acc es) (dictComp info keyFn valFn acc' gs) := by
  induction es generalizing gs acc acc' with
  | nil =>
    cases gs with
    | nil => exact .pure ha
    | cons => cases hk
  | cons e es ih =>
    cases gs with
    | nil => cases hk
    | cons g gs =>
      obtain ⟨k, x⟩ := e
      obtain ⟨k', y⟩ := g
      simp only [List.map_cons, List.cons.injEq] at hk
      obtain ⟨rfl, hk⟩ := hk
      obtain ⟨hx, hxs⟩ := zip_cons hv
      rw [dictComp, dictComp]
      refine .bind_same fun k' _ => ?_
      refine hx.bind fun a b _ _ hab => ?_
      split
      · exact ih gs hk hxs (ha.set k' hab)
      · exact .raise rfl

/-- What is known of the calls for the parts. -/
def Parts (H : Nat → PyStr → Prop) (fork : Nat) (rec : LRec)
    (kt : Option (Val → Except Err Val)) (o : Option Ty) (x y : Val) : Prop :=
  ∀ kw, KwOk fork kt kw → Both (Alike H) (rec x o kw) (rec y o kw)

theorem listDes_both {rec : LRec} {kt : Option (Val → Except Err Val)} {args : List Ty} {a : Ty} {kw : LoadKw}
    (hk : KwOk fork kt kw) (ha : args.head? = some a) {xs ys : List Val} (hl : xs.length = ys.length)
    (h : ∀ x y, (x, y) ∈ xs.zip ys → Parts H fork rec kt (some a) x y) :
    Both (List.Forall₂ (Alike H)) (listDes E rec (.list xs) args kw) (listDes E rec (.list ys) args kw) := by
  show Both _ (listLoop E rec args.head? kw.warnOnFail _ 0 xs) (listLoop E rec args.head? kw.warnOnFail _ 0 ys)
  rw [ha]
  exact listLoop_both _ xs ys hl (fun x y hxy => h x y hxy { kw with warnOnFail := false, inferred := kw.inferred || !args.isEmpty }
    ⟨hk.fork, hk.kt, hk.strict, hk.hints⟩) 0

/-! ## Objects -/

theorem keyIn_dict (ts : List (Val × Val)) (n : PyStr) :
    keyIn (.dict ts) n = .ok (dictGet ts (.str n)).isSome := by
  unfold keyIn
  cases ts with
  | nil => rfl
  | cons p ps => rw [if_neg (by simp [Val.falsy])]

/-- Optional values. -/
def AlikeO (H : Nat → PyStr → Prop) : Option Val → Option Val → Prop
  | some x, some y => Alike H x y
  | none, none => True
  | _, _ => False

theorem AlikeO.refl (o : Option Val) : AlikeO H o o := by
  cases o with
  | none => trivial
  | some v => exact Alike.refl v

theorem metaFor_none {kt : Option (Val → Except Err Val)} {kw : LoadKw} (hk : KwOk fork kt kw) (n : PyStr) :
    metaFor E kw n = .ok (none, []) := by
  unfold metaFor
  rw [hk.hints]
  rfl

theorem valueForAttr_both {rec : LRec} {kt : Option (Val → Except Err Val)} {kw : LoadKw} (hk : KwOk fork kt kw)
    {c : Nat} {ts us : List (Val × Val)} {p : Param}
    (hp : (dictGet ts (.str p.name)).isSome = (dictGet us (.str p.name)).isSome)
    (h : ∀ x y, dictGet ts (.str p.name) = some x → dictGet us (.str p.name) = some y →
      Parts H fork rec kt (assoc (E.info c).initHints p.name) x y) :
    Both (AlikeO H) (valueForAttr E rec (.dict ts) c kw p) (valueForAttr E rec (.dict us) c kw p) := by
  unfold valueForAttr
  dsimp only
  rw [keyIn_dict, keyIn_dict, ← hp]
  refine .bind_same fun b hb => ?_
  have hb : (dictGet ts (.str p.name)).isSome = b := by cases hb; rfl
  split
  · next hbt =>
    subst hbt
    cases hx : dictGet ts (.str p.name) with
    | none => rw [hx] at hb; cases hb
    | some x =>
      cases hy : dictGet us (.str p.name) with
      | none => rw [hx, hy] at hp; cases hp
      | some y =>
        refine Both.bind (R := Alike H) ?_ fun a b _ _ h => .pure h
        unfold valueFromObj
        rw [metaFor_none hk, liftS_of_ok, liftS_of_ok, pure_bind', pure_bind']
        have h3 : ∀ (rs : List (Val × Val)) z, dictGet rs (.str p.name) = some z →
            subscript (.dict rs) p.name = .ok z := by
          intro rs z hz
          simp only [subscript, hz]
        rw [h3 ts x hx, h3 us y hy, liftK_of_ok, liftK_of_ok, pure_bind', pure_bind']
        have h4 : determinePrecedence (assoc (E.info c).initHints p.name) none none true =
            assoc (E.info c).initHints p.name := by
          unfold determinePrecedence
          cases assoc (E.info c).initHints p.name <;> rfl
        rw [h4]
        exact h x y hx hy _ ⟨hk.fork, hk.kt, hk.strict, rfl⟩
  · split
    · exact .refl AlikeO.refl _
    · split
      · exact .refl AlikeO.refl _
      · split
        · exact .refl AlikeO.refl _
        · refine .bind_same fun b _ => ?_
          split
          · exact .refl AlikeO.refl _
          · exact .raise rfl

/-- Arguments for a constructor. -/
def AlikeA (H : Nat → PyStr → Prop) (args args' : List (PyStr × Val)) : Prop :=
  List.Forall₂ (fun a b => a.1 = b.1 ∧ Alike H a.2 b.2) args args'

theorem ctorArgs_both {rec : LRec} {kt : Option (Val → Except Err Val)} {kw : LoadKw} (hk : KwOk fork kt kw)
    {c : Nat} {ts us : List (Val × Val)} (l : List Param)
    (hp : ∀ p ∈ l, (dictGet ts (.str p.name)).isSome = (dictGet us (.str p.name)).isSome)
    (h : ∀ p ∈ l, ∀ x y, dictGet ts (.str p.name) = some x → dictGet us (.str p.name) = some y →
      Parts H fork rec kt (assoc (E.info c).initHints p.name) x y) :
    Both (AlikeA H) (ctorArgs E rec (.dict ts) c kw l) (ctorArgs E rec (.dict us) c kw l) := by
  induction l with
  | nil => exact .pure .nil
  | cons p l ih =>
    rw [ctorArgs, ctorArgs]
    refine (valueForAttr_both hk (hp p List.mem_cons_self) (h p List.mem_cons_self)).bind
      fun a b _ _ hab => ?_
    refine (ih (fun p hm => hp p (List.mem_cons_of_mem _ hm))
      fun p hm => h p (List.mem_cons_of_mem _ hm)).bind fun as bs _ _ h => ?_
    cases a with
    | none =>
      cases b with
      | none => exact .pure h
      | some b => cases hab
    | some a =>
      cases b with
      | none => cases hab
      | some b => exact .pure (.cons ⟨rfl, hab⟩ h)

theorem AlikeA.isNone {args args' : List (PyStr × Val)} (h : AlikeA H args args') (s : PyStr) :
    (assoc args s).isNone = (assoc args' s).isNone := by
  induction h with
  | nil => rfl
  | @cons a b _ _ hab _ ih =>
    obtain ⟨n, x⟩ := a
    obtain ⟨m, y⟩ := b
    obtain ⟨rfl, _⟩ := hab
    simp only [assoc]
    split
    · rfl
    · exact ih

/-- A parameter for which the document has an entry gets a value. -/
theorem ctorArgs_has {rec : LRec} {kw : LoadKw} {c : Nat} {ts : List (Val × Val)} {l : List Param}
    {args : List (PyStr × Val)} (h : (ctorArgs E rec (.dict ts) c kw l).val = .ok args)
    {p : Param} (hp : p ∈ l) (hs : (dictGet ts (.str p.name)).isSome) : (assoc args p.name).isSome := by
  induction l generalizing args with
  | nil => cases hp
  | cons q l ih =>
    rw [ctorArgs, Core.bind_ok] at h
    obtain ⟨o, ho, h⟩ := h
    rw [Core.bind_ok] at h
    obtain ⟨as, has, h⟩ := h
    rcases List.mem_cons.1 hp with rfl | hp
    · unfold valueForAttr at ho
      dsimp only at ho
      rw [keyIn_dict, hs, liftK_of_ok, pure_bind', if_pos rfl, Core.bind_ok] at ho
      obtain ⟨y, _, ho⟩ := ho
      cases ho
      cases h
      simp [assoc]
    · have ih := ih has hp
      cases o with
      | none => cases h; exact ih
      | some y =>
        cases h
        simp only [assoc]
        split
        · rfl
        · exact ih

/-- What is set of the further entries. -/
def keep (args : List (PyStr × Val)) (e : Val × Val) : Bool :=
  match e.1 with
  | .str s => (assoc args s).isNone && decide (s ≠ metaKey)
  | _ => true

/-- The entries that differ are unknown to the class. -/
inductive Loose (E : LEnv) (H : Nat → PyStr → Prop) (fork c : Nat) :
    List (Val × Val) → List (Val × Val) → Prop where
  | nil : Loose E H fork c [] []
  | same (e : Val × Val) {es gs : List (Val × Val)} (h : Loose E H fork c es gs) :
      Loose E H fork c (e :: es) (e :: gs)
  | left (s : PyStr) (x : Val) {es gs : List (Val × Val)} (hs : Unknown E H fork c s x)
      (h : Loose E H fork c es gs) : Loose E H fork c ((.str s, x) :: es) gs
  | right (s : PyStr) (x : Val) {es gs : List (Val × Val)} (hs : Unknown E H fork c s x)
      (h : Loose E H fork c es gs) : Loose E H fork c es ((.str s, x) :: gs)

theorem Further.filter {c : Nat} {es gs : List (Val × Val)} (h : Further E H fork c es gs)
    {args : List (PyStr × Val)}
    (hl : ∀ s x, (.str s, x) ∈ es → s ∈ (E.info c).params.map (·.name) → (assoc args s).isSome)
    (hr : ∀ s x, (.str s, x) ∈ gs → s ∈ (E.info c).params.map (·.name) → (assoc args s).isSome) :
    Loose E H fork c (es.filter (keep args)) (gs.filter (keep args)) := by
  induction h with
  | nil => exact .nil
  | same e h ih =>
    have ih := ih (fun s x hm => hl s x (List.mem_cons_of_mem _ hm))
      (fun s x hm => hr s x (List.mem_cons_of_mem _ hm))
    rw [List.filter_cons, List.filter_cons]
    split
    · exact .same e ih
    · exact ih
  | left s x hs h ih =>
    have ih := ih (fun s x hm => hl s x (List.mem_cons_of_mem _ hm)) hr
    rw [List.filter_cons]
    split
    · next hk =>
      rcases hs with hs | hs
      · exact .left s x hs ih
      · have h1 := hl s x List.mem_cons_self hs
        simp only [keep, Bool.and_eq_true] at hk
        rw [Option.isNone_iff_eq_none] at hk
        rw [hk.1] at h1
        cases h1
    · exact ih
  | right s x hs h ih =>
    have ih := ih hl (fun s x hm => hr s x (List.mem_cons_of_mem _ hm))
    rw [List.filter_cons]
    split
    · next hk =>
      rcases hs with hs | hs
      · exact .right s x hs ih
      · have h1 := hr s x List.mem_cons_self hs
        simp only [keep, Bool.and_eq_true] at hk
        rw [Option.isNone_iff_eq_none] at hk
        rw [hk.1] at h1
        cases h1
    · exact ih

/-- The attributes of an object. -/
def AlikeAt (H : Nat → PyStr → Prop) (c : Nat) (as bs : List (PyStr × Val)) : Prop :=
  Alike H (.obj c as) (.obj c bs)

theorem setOne_both (R : Receptive E H) {c : Nat} {as bs : List (PyStr × Val)} (h : AlikeAt H c as bs) (k y : Val) :
    ExBoth (AlikeAt H c) (setOne E c as k y) (setOne E c bs k y) := by
  unfold setOne
  split
  · next s =>
    have := R.set c as bs s y h
    generalize E.setAttr c as s y = p at this
    generalize E.setAttr c bs s y = q at this
    cases this with
    | ok h => exact .ok h
    | error he =>
      dsimp only
      rw [he.kind]
      split
      · exact .ok h
      · exact .error he
  · exact .error rfl

/-- A value is loaded as its own class. -/
theorem load_own {m : Nat} {kt : Option (Val → Except Err Val)} {kw : LoadKw} (hk : KwOk fork kt kw) {x : Val}
    (hv : E.getVal fork (.cls x.cls) = .ok none) :
    loadRec E (m + 1) x (some (.cls x.cls)) kw = pure x := by
  show loadWith E (loadRec E m) x (some (.cls x.cls)) kw = pure x
  have h1 : checkForNone E x (some (.cls x.cls)) = pure () := by
    unfold checkForNone
    split
    · next h => subst h; rfl
    · rfl
  unfold loadWith
  rw [h1, pure_bind', if_pos (.inl ⟨hk.strict, rfl⟩)]
  unfold validate
  simp only [Option.getD_some, hk.fork, hv, liftK_of_ok, pure_bind']

theorem unknown_step (R : Receptive E H) {m : Nat} {kt : Option (Val → Except Err Val)} {kw : LoadKw}
    (hk : KwOk fork kt kw) {c : Nat} {s : PyStr} {x : Val} (hs : Unknown E H fork c s x)
    (es : List (Val × Val)) (as : List (PyStr × Val)) :
    setRemaining E (loadRec E (m + 1)) c kw ((.str s, x) :: es) as =
      (Res.lift (setOne E c as (.str s) x) >>= fun as => setRemaining E (loadRec E (m + 1)) c kw es as) := by
  rw [setRemaining]
  have h1 : annotation (E.info c) (.str s) = none := R.hints c s hs.name
  have h2 : ∀ o, warnHashed E.toEnv kw.fork x o = pure () := by
    intro o
    unfold warnHashed
    rw [hs.keys]
    rfl
  simp only [h1, h2, pure_bind', Option.getD_none]
  rw [load_own (fork := fork) (kt := kt) (kw := { kw with attrGetters := [] })
    ⟨hk.fork, hk.kt, hk.strict, hk.hints⟩ hs.vals, pure_bind']

theorem remaining_both (R : Receptive E H) {m : Nat} {kt : Option (Val → Except Err Val)} {kw : LoadKw}
    (hk : KwOk fork kt kw) {c : Nat} {es gs : List (Val × Val)} (h : Loose E H fork c es gs)
    {as bs : List (PyStr × Val)} (hab : AlikeAt H c as bs) :
    Both (AlikeAt H c) (setRemaining E (loadRec E (m + 1)) c kw es as)
      (setRemaining E (loadRec E (m + 1)) c kw gs bs) := by
  induction h generalizing as bs with
  | nil => exact .pure hab
  | same e h ih =>
    obtain ⟨k, x⟩ := e
    rw [setRemaining, setRemaining]
    refine .bind_same fun _ _ => .bind_same fun y _ => ?_
    exact Both.bind (Both.lift (setOne_both R hab k y)) fun a b _ _ h => ih h
  | left s x hs h ih =>
    rw [unknown_step R hk hs]
    rcases R.extra' c as bs s x hs.name hab with ⟨as', h1, h2⟩ | ⟨e, h1, h2⟩
    · have : setOne E c as (.str s) x = .ok as' := by simp only [setOne, h1]
      rw [this]
      exact (congrArg (fun z => Both (AlikeAt H c) z _) (pure_bind' _ _)).mpr (ih h2)
    · have : setOne E c as (.str s) x = .ok as := by simp only [setOne, h1, h2, if_true]
      rw [this]
      exact (congrArg (fun z => Both (AlikeAt H c) z _) (pure_bind' _ _)).mpr (ih hab)
  | right s x hs h ih =>
    rw [unknown_step R hk hs]
    rcases R.extra c as bs s x hs.name hab with ⟨as', h1, h2⟩ | ⟨e, h1, h2⟩
    · have : setOne E c bs (.str s) x = .ok as' := by simp only [setOne, h1]
      rw [this]
      exact (congrArg (fun z => Both (AlikeAt H c) _ z) (pure_bind' _ _)).mpr (ih h2)
    · have : setOne E c bs (.str s) x = .ok bs := by simp only [setOne, h1, h2, if_true]
      rw [this]
      exact (congrArg (fun z => Both (AlikeAt H c) _ z) (pure_bind' _ _)).mpr (ih hab)

theorem getters_both (R : Receptive E H) {c : Nat} (gs : List (PyStr × Except Err Val))
    {as bs : List (PyStr × Val)} (h : AlikeAt H c as bs) :
    ExBoth (AlikeAt H c) (setGetters E c gs as) (setGetters E c gs bs) := by
  induction gs generalizing as bs with
  | nil => exact .ok h
  | cons g gs ih =>
    obtain ⟨n, g⟩ := g
    rw [setGetters, setGetters]
    cases g with
    | error e => exact .error rfl
    | ok v =>
      have := R.set c as bs n v h
      show ExBoth (AlikeAt H c) (E.setAttr c as n v >>= _) (E.setAttr c bs n v >>= _)
      generalize E.setAttr c as n v = p at this
      generalize E.setAttr c bs n v = q at this
      cases this with
      | ok h => exact ih h
      | error he => exact .error he

theorem dictGet_str_mem {ts : List (Val × Val)} {s : PyStr} {x : Val} (h : (.str s, x) ∈ ts) :
    (dictGet ts (.str s)).isSome := by
  cases hd : dictGet ts (.str s) with
  | some y => rfl
  | none =>
    have h1 := get_none.1 hd _ h
    dsimp only at h1
    rw [Core.pyEq_str] at h1
    simp at h1

theorem objectDes_both (R : Receptive E H) {m : Nat} {kt : Option (Val → Except Err Val)} {kw : LoadKw}
    (hk : KwOk fork kt kw) {c : Nat} {es gs ts us : List (Val × Val)}
    (ht : transformObj E.info (.dict es) kt = .ok (.dict ts))
    (hu : transformObj E.info (.dict gs) kt = .ok (.dict us))
    (hp : ∀ p ∈ (E.info c).params, (dictGet ts (.str p.name)).isSome = (dictGet us (.str p.name)).isSome)
    (h : ∀ p ∈ (E.info c).params, ∀ x y, dictGet ts (.str p.name) = some x →
      dictGet us (.str p.name) = some y →
      Parts H fork (loadRec E (m + 1)) kt (assoc (E.info c).initHints p.name) x y)
    (hr : Further E H fork c ts us) :
    Both (Alike H) (objectDes E (loadRec E (m + 1)) (.dict es) (.cls (.user c)) kw)
      (objectDes E (loadRec E (m + 1)) (.dict gs) (.cls (.user c)) kw) := by
  simp only [objectDes, hk.kt, ht, hu]
  have hl : ∀ (x : Val) (f : Val → Res Val), (Res.lift (.ok x) >>= f) = f x := fun x f => pure_bind' _ _
  rw [hl, hl]
  refine (ctorArgs_both hk _ hp h).bind fun args args' ha ha' haa => ?_
  have hrem : ∀ rs : List (Val × Val), ∀ as, getRemainingArgs (.dict rs) c as kw.strict =
      pure (rs.filter (keep as)) := by
    intro rs as
    have h1 : remainingAttrs (.dict rs) as = .ok (rs.filter (keep as)) := rfl
    unfold getRemainingArgs
    rw [h1, liftK_of_ok, pure_bind', hk.strict]
    split
    · simp_all
    · simp_all
  rw [hrem, hrem, pure_bind', pure_bind']
  have hkeep : keep args' = keep args := by
    funext e
    unfold keep
    split
    · rw [haa.isNone]
    · rfl
  rw [hkeep]
  refine Both.bind (Both.lift (R.ctor c args args' haa)) fun as bs _ _ hab => ?_
  have hloose : Loose E H fork c (ts.filter (keep args)) (us.filter (keep args)) := by
    refine hr.filter ?_ ?_
    · intro s x hm hs
      obtain ⟨p, hpm, rfl⟩ := List.mem_map.1 hs
      exact ctorArgs_has ha hpm (dictGet_str_mem hm)
    · intro s x hm hs
      obtain ⟨p, hpm, rfl⟩ := List.mem_map.1 hs
      have h1 := ctorArgs_has ha' hpm (dictGet_str_mem hm)
      have h2 := haa.isNone p.name
      cases h3 : assoc args p.name with
      | some _ => rfl
      | none =>
        rw [h3] at h2
        rw [← Option.not_isNone, ← h2] at h1
        cases h1
  refine (remaining_both R hk hloose hab).bind fun as bs _ _ hab => ?_
  exact Both.bind (Both.lift (getters_both R _ hab)) fun as bs _ _ hab => .pure hab

/-! ## Named tuples -/

/-- What is found for a field. -/
def FieldRel (H : Nat → PyStr → Prop) (fork : Nat) (rec : LRec) (kt : Option (Val → Except Err Val))
    (o : Option Ty) (p q : Except ErrKind Val) : Prop :=
  (∃ k, p = .error k ∧ q = .error k) ∨
    ∃ x y, p = .ok x ∧ q = .ok y ∧ (x = .none ↔ y = .none) ∧ Parts H fork rec kt o x y

theorem ntupleLoop_both {rec : LRec} {kt : Option (Val → Except Err Val)} {kw : LoadKw} (hk : KwOk fork kt kw)
    {c : Nat} {v w : Val} {tv tw : Option (List (Val × Val))} {len : Nat} (names : List PyStr) (i : Nat)
    (h : ∀ (j : Nat) n, names[j]? = some n → FieldRel H fork rec kt (fieldTy (E.info c) n)
      (ntupleField (E.info c) v tv len (i + j) n) (ntupleField (E.info c) w tw len (i + j) n)) :
    Both (List.Forall₂ (Alike H)) (ntupleLoop E rec c v tv len kw i names)
      (ntupleLoop E rec c w tw len kw i names) := by
  induction names generalizing i with
  | nil => exact .pure .nil
  | cons n names ih =>
    have ih := ih (i + 1) fun j m hm => by
      have := h (j + 1) m hm
      rwa [show i + 1 + j = i + (j + 1) by omega]
    rw [ntupleLoop, ntupleLoop]
    dsimp only
    rcases h 0 n rfl with ⟨k, h1, h2⟩ | ⟨x, y, h1, h2, hn, hxy⟩
    · rw [Nat.add_zero] at h1 h2
      rw [h1, h2]
      exact .raise rfl
    · rw [Nat.add_zero] at h1 h2
      rw [h1, h2, liftK_of_ok, liftK_of_ok, pure_bind', pure_bind']
      have h3 : ∀ P : Prop, (x = .none ∧ P) ↔ (y = .none ∧ P) := fun P => and_congr_left' hn
      have h4 : (if (E.info c).hasAnnotations then assoc (E.info c).hints n else none) =
        fieldTy (E.info c) n := rfl
      rw [h4]
      simp only [h3]
      split
      · exact .raise rfl
      · refine Both.bind (hxy kw hk) fun a b _ _ hab => ?_
        exact ih.bind fun as bs _ _ h => .pure (.cons hab h)

/-! ## The theorem -/

/-- Finitely many bounds have a common one. -/
theorem bound_all {α : Type} {P : α → Nat → Prop} (hP : ∀ a n m, n ≤ m → P a n → P a m) (l : List α)
    (h : ∀ a ∈ l, ∃ n, P a n) : ∃ n, ∀ a ∈ l, P a n := by
  induction l with
  | nil => exact ⟨0, fun _ h => by cases h⟩
  | cons a l ih =>
    obtain ⟨n, hn⟩ := ih fun b hb => h b (List.mem_cons_of_mem _ hb)
    obtain ⟨m, hm⟩ := h a List.mem_cons_self
    refine ⟨max n m, fun b hb => ?_⟩
    rcases List.mem_cons.1 hb with rfl | hb
    · exact hP _ _ _ (Nat.le_max_right _ _) hm
    · exact hP _ _ _ (Nat.le_max_left _ _) (hn b hb)

/-- The calls with a stack for at least `N` nested calls. -/
def From (E : LEnv) (H : Nat → PyStr → Prop) (fork : Nat) (kt : Option (Val → Except Err Val)) (o : Option Ty)
    (x y : Val) (N : Nat) : Prop :=
  ∀ n, N ≤ n → Parts H fork (loadRec E n) kt o x y

theorem From.mono {kt : Option (Val → Except Err Val)} {o : Option Ty} {x y : Val} {n m : Nat} (h : n ≤ m)
    (hn : From E H fork kt o x y n) : From E H fork kt o x y m := fun k hk => hn k (Nat.le_trans h hk)

theorem from_zip {kt : Option (Val → Except Err Val)} {o : Option Ty} (l : List (Val × Val))
    (h : ∀ x y, (x, y) ∈ l → ∃ N, From E H fork kt o x y N) :
    ∃ N, ∀ x y, (x, y) ∈ l → From E H fork kt o x y N := by
  obtain ⟨N, hN⟩ := bound_all (P := fun (p : Val × Val) N => From E H fork kt o p.1 p.2 N)
    (fun p n m hnm hn k hk => hn k (Nat.le_trans hnm hk)) l fun p hp => h p.1 p.2 hp
  exact ⟨N, fun x y hxy => hN (x, y) hxy⟩

theorem not_cls_of_args {t a : Ty} (h : t.getArgs.head? = some a) (c : Cls) : t ≠ .cls c ∧ t ≠ .any := by
  constructor <;> rintro rfl <;> cases h

theorem forward (R : Receptive E H) {kt : Option (Val → Except Err Val)} {o : Option Ty} {v w : Val}
    (h : Added E H fork kt o v w) : ∃ N, From E H fork kt o v w N := by
  have low : ∀ {kt : Option (Val → Except Err Val)} {v w : Val} {t : Ty} {f : DesFn} (N : Nat),
      Containers v w → t ≠ .cls v.cls → t ≠ .any → E.getDes fork t = .ok (some f) →
      (∀ n, N ≤ n → ∀ kw, KwOk fork kt kw →
        Both (Alike H) (callDes E (loadRec E n) f v t kw) (callDes E (loadRec E n) f w t kw)) →
      ∃ N, From E H fork kt (some t) v w N := by
    intro kt v w t f N hs h1 h2 hf hc
    refine ⟨N + 1, fun n hn kw hk => ?_⟩
    cases n with
    | zero => omega
    | succ n =>
      exact step R hk hs h1 h2 hf fun kw' hk' => hc n (by omega) kw' hk'
  induction h with
  | same kt o v => exact ⟨0, fun n _ kw _ => .refl (fun _ => .refl _) _⟩
  | scalar kt t f v w hf ht h =>
    by_cases hne : v = w
    · subst hne; exact ⟨0, fun n _ kw _ => .refl (fun _ => .refl _) _⟩
    refine low 0 h ?_ ?_ hf fun n _ kw _ => scalar_step ht h kw
    · cases h <;> cases ht <;> intro h <;> cases h
    · cases ht <;> intro h <;> cases h
  | list kt t a xs ys hf ha hl h ih =>
    obtain ⟨N, hN⟩ := from_zip _ ih
    refine low N (.list _ _) (not_cls_of_args ha _).1 (not_cls_of_args ha .list).2 hf fun n hn kw hk => ?_
    exact (listDes_both hk ha hl fun x y hxy => hN x y hxy n hn).bind fun as bs _ _ h => .pure (.seq _ h)
  | iterable kt t a xs ys hf ha hc hl h ih =>
    obtain ⟨N, hN⟩ := from_zip _ ih
    refine low N (.list _ _) (not_cls_of_args ha _).1 (not_cls_of_args ha .list).2 hf fun n hn kw hk => ?_
    refine (listDes_both hk ha hl fun x y hxy => hN x y hxy n hn).bind fun as bs _ _ h => ?_
    split
    · next c he =>
      rw [he] at hc
      exact castSeq_both ⟨fun h => hc.1 (by rw [h]), fun h => hc.2 (by rw [h])⟩ h
    · exact .raise rfl
  | tuple kt ts xs ys hf hts hl h ih =>
    obtain ⟨N, hN⟩ := bound_all (P := fun (q : Ty × Val × Val) N => From E H fork none (some q.1) q.2.1 q.2.2 N)
      (fun p n m hnm hn k hk => hn k (Nat.le_trans hnm hk)) (ts.zip (xs.zip ys)) (by
        rintro ⟨t, x, y⟩ hq
        obtain ⟨i, hi⟩ := List.mem_iff_getElem?.1 hq
        rw [List.getElem?_zip_eq_some, List.getElem?_zip_eq_some] at hi
        exact ih i t x y hi.1 hi.2.1 hi.2.2)
    refine low N (.list _ _) (by intro h; cases h) (by intro h; cases h) hf fun n hn kw hk => ?_
    cases ts with
    | nil => exact absurd rfl hts
    | cons t ts =>
      show Both _ (tupleLoop _ _ (t :: ts) xs >>= _) (tupleLoop _ _ (t :: ts) ys >>= _)
      refine (tupleLoop_both _ xs ys hl fun i t x y h1 h2 h3 => ?_).bind fun as bs _ _ h => .pure (.seq _ h)
      refine hN (t, x, y) ?_ n hn _ ⟨hk.fork, rfl, hk.strict, hk.hints⟩
      refine List.mem_iff_getElem?.2 ⟨i, ?_⟩
      rw [List.getElem?_zip_eq_some, List.getElem?_zip_eq_some]
      exact ⟨h1, h2, h3⟩
  | ellipsis kt a r xs ys hf hl h ih =>
    obtain ⟨N, hN⟩ := from_zip _ ih
    refine low N (.list _ _) (by intro h; cases h) (by intro h; cases h) hf fun n hn kw hk => ?_
    show Both _ (tupleLoop _ _ (List.replicate xs.length a) xs >>= _)
      (tupleLoop _ _ (List.replicate ys.length a) ys >>= _)
    rw [← hl]
    refine (tupleLoop_both _ xs ys hl fun i t x y h1 h2 h3 => ?_).bind fun as bs _ _ h => .pure (.seq _ h)
    have : t = a := by
      obtain ⟨_, ht⟩ := List.getElem?_eq_some_iff.1 h1
      rw [← ht, List.getElem_replicate]
    subst this
    refine hN x y ?_ n hn _ ⟨hk.fork, rfl, hk.strict, hk.hints⟩
    refine List.mem_iff_getElem?.2 ⟨i, ?_⟩
    rw [List.getElem?_zip_eq_some]
    exact ⟨h2, h3⟩
  | mapping kt t k a es gs hf ha hm hh hk' h ih =>
    obtain ⟨N, hN⟩ := from_zip _ ih
    have hcon : Containers (.dict es) (.dict gs) := by
      rcases (Added.mapping (H := H) kt t k a es gs hf ha hm hh hk' h).shape with h | h
      · rw [← h]; exact .dict _ _ hm hm
      · exact h
    have hh' : dictGet gs (.str keysKey) = none := by
      rw [get_none] at hh ⊢
      intro e he
      have : e.1 ∈ es.map (·.1) := by rw [hk']; exact List.mem_map_of_mem he
      obtain ⟨e', he', h1⟩ := List.mem_map.1 this
      rw [← h1]
      exact hh e' he'
    have hargs : t.getArgs.head? = some k := by rw [ha]; rfl
    refine low N hcon (not_cls_of_args hargs _).1 (not_cls_of_args hargs .list).2 hf fun n hn kw hk => ?_
    show Both _ (dictDes E _ (.dict es) t.getArgs kw >>= _) (dictDes E _ (.dict gs) t.getArgs kw >>= _)
    refine Both.bind (R := AlikeD H) ?_ fun as bs _ _ h => .pure h.val
    unfold dictDes
    simp only [loadHashedKeys, hh, hh', pure_bind', ha]
    refine dictComp_both es gs hk' (fun x y hxy => ?_) .nil
    exact hN x y hxy n hn _ ⟨hk.fork, by rw [hk.kt], hk.strict, hk.hints⟩
  | defaultdict kt t k a v w hf ha h ih =>
    obtain ⟨N, hN⟩ := ih
    rcases h.shape with rfl | hcon
    · exact ⟨0, fun n _ kw _ => .refl (fun _ => .refl _) _⟩
    have hargs : t.getArgs.head? = some k := by rw [ha]; rfl
    refine low N hcon (not_cls_of_args hargs _).1 (not_cls_of_args hargs .list).2 hf fun n hn kw hk => ?_
    simp only [callDes, defaultdictDes, ha, pure_bind']
    refine (hN n hn kw hk).bind fun x y _ _ hxy => ?_
    cases hxy with
    | dict hk h => exact .pure (.ddict _ hk h)
    | _ => exact .raise rfl
  | union kt t ts v w hf hu ht h ih =>
    obtain ⟨N, hN⟩ := bound_all (P := fun a N => From E H fork kt (some a) v w N)
      (fun p n m hnm hn k hk => hn k (Nat.le_trans hnm hk)) ts ih
    rcases (Added.union (H := H) kt t ts v w hf hu ht h).shape with rfl | hcon
    · exact ⟨0, fun n _ kw _ => .refl (fun _ => .refl _) _⟩
    refine low N hcon (by rintro rfl; cases hu) (by rintro rfl; cases hu) hf fun n hn kw hk => ?_
    simp only [callDes, unionDes, hu]
    exact unionLoop_both ts fun a ha => hN a ha n hn kw hk
  | obj kt c es gs ts us hf hm hm' ht hu hp h hr ih =>
    obtain ⟨N, hN⟩ := bound_all (P := fun (p : Param) N => ∀ x y, dictGet ts (.str p.name) = some x →
        dictGet us (.str p.name) = some y → From E H fork kt (assoc (E.info c).initHints p.name) x y N)
      (fun p n m hnm hn x y hx hy => (hn x y hx hy).mono hnm) (E.info c).params (by
        intro p hpm
        cases hx : dictGet ts (.str p.name) with
        | none => exact ⟨0, fun _ _ h => by cases h⟩
        | some x =>
          cases hy : dictGet us (.str p.name) with
          | none => exact ⟨0, fun _ _ _ h => by cases h⟩
          | some y =>
            obtain ⟨N, hN⟩ := ih p hpm x y hx hy
            exact ⟨N, fun x' y' hx' hy' => by cases hx'; cases hy'; exact hN⟩)
    refine low (N + 1) (.dict _ _ hm hm') (by intro h; cases h) (by intro h; cases h) hf fun n hn kw hk => ?_
    cases n with
    | zero => omega
    | succ n =>
      exact objectDes_both R hk ht hu hp (fun p hpm x y hx hy => hN p hpm x y hx hy _ (by omega)) hr
  | ntupleList kt c xs ys hf hc hl h ih =>
    obtain ⟨N, hN⟩ := bound_all
      (P := fun (q : PyStr × Val × Val) N => From E H fork kt (fieldTy (E.info c) q.1) q.2.1 q.2.2 N)
      (fun p n m hnm hn k hk => hn k (Nat.le_trans hnm hk)) ((E.info c).fields.zip (xs.zip ys)) (by
        rintro ⟨t, x, y⟩ hq
        obtain ⟨i, hi⟩ := List.mem_iff_getElem?.1 hq
        rw [List.getElem?_zip_eq_some, List.getElem?_zip_eq_some] at hi
        exact ih i t x y hi.1 hi.2.1 hi.2.2)
    refine low N (.list _ _) (by intro h; cases h) (by intro h; cases h) hf fun n hn kw hk => ?_
    simp only [callDes, tupleDes, hc, if_true, ntupleDes]
    show Both (Alike H) (ntupleLoop E _ c (.list xs) none xs.length kw 0 _ >>= _)
      (ntupleLoop E _ c (.list ys) none ys.length kw 0 _ >>= _)
    rw [← hl]
    refine Both.bind (R := List.Forall₂ (Alike H)) (ntupleLoop_both hk _ _ fun j m hm => ?_)
      fun as bs _ _ h => .pure (.ntuple c h)
    rw [Nat.zero_add]
    unfold ntupleField
    split
    · next hj =>
      have hj' : j < ys.length := by rw [← hl]; exact hj
      refine .inr ⟨xs[j], ys[j], ?_, ?_, ?_, ?_⟩
      · simp only [index, List.getElem?_eq_getElem hj]
      · simp only [index, List.getElem?_eq_getElem hj']
      · exact (h j m _ _ hm (List.getElem?_eq_getElem hj) (List.getElem?_eq_getElem hj')).isNone
      · refine hN (m, xs[j], ys[j]) ?_ n hn
        refine List.mem_iff_getElem?.2 ⟨j, ?_⟩
        rw [List.getElem?_zip_eq_some, List.getElem?_zip_eq_some]
        exact ⟨hm, List.getElem?_eq_getElem hj, List.getElem?_eq_getElem hj'⟩
    · exact .inr ⟨_, _, rfl, rfl, Iff.rfl, fun kw _ => .refl (fun _ => .refl _) _⟩
  | ntupleDict kt c es gs ts us hf hc hm hm' hl ht hu hp h ih =>
    obtain ⟨N, hN⟩ := bound_all (P := fun (p : PyStr) N => ∀ x y, dictGet ts (.str p) = some x →
        dictGet us (.str p) = some y → From E H fork kt (fieldTy (E.info c) p) x y N)
      (fun p n m hnm hn x y hx hy => (hn x y hx hy).mono hnm) (E.info c).fields (by
        intro p hpm
        cases hx : dictGet ts (.str p) with
        | none => exact ⟨0, fun _ _ h => by cases h⟩
        | some x =>
          cases hy : dictGet us (.str p) with
          | none => exact ⟨0, fun _ _ _ h => by cases h⟩
          | some y =>
            obtain ⟨N, hN⟩ := ih p hpm x y hx hy
            exact ⟨N, fun x' y' hx' hy' => by cases hx'; cases hy'; exact hN⟩)
    refine low N (.dict _ _ hm hm') (by intro h; cases h) (by intro h; cases h) hf fun n hn kw hk => ?_
    simp only [callDes, tupleDes, hc, if_true, ntupleDes, ntupleTfm, hk.kt, ht, hu]
    show Both (Alike H) (ntupleLoop E _ c (.dict es) (some ts) (es.map (·.1)).length kw 0 _ >>= _)
      (ntupleLoop E _ c (.dict gs) (some us) (gs.map (·.1)).length kw 0 _ >>= _)
    rw [List.length_map, List.length_map, ← hl]
    refine Both.bind (R := List.Forall₂ (Alike H)) (ntupleLoop_both hk _ _ fun j m hjm => ?_)
      fun as bs _ _ h => .pure (.ntuple c h)
    have hmem : m ∈ (E.info c).fields := List.mem_of_getElem? hjm
    unfold ntupleField
    split
    · simp only [subscript]
      have h1 := hp m hmem
      cases hx : dictGet ts (.str m) with
      | none =>
        cases hy : dictGet us (.str m) with
        | none => exact .inl ⟨_, rfl, rfl⟩
        | some y => rw [hx, hy] at h1; cases h1
      | some x =>
        cases hy : dictGet us (.str m) with
        | none => rw [hx, hy] at h1; cases h1
        | some y =>
          exact .inr ⟨x, y, rfl, rfl, (h m hmem x y hx hy).isNone, hN m hmem x y hx hy n hn⟩
    · exact .inr ⟨_, _, rfl, rfl, Iff.rfl, fun kw _ => .refl (fun _ => .refl _) _⟩

end

/-- **C93** (what is missing: sets, further keys for named tuples, documents that are loaded without a class,
texts and lists as members of unions, strict mode, in which further keys are refused, and
stacks that are too small): keys that classes do not know, in the documents of their objects at
whatever depth, do not change what `load` makes of a document, but for the attributes of these
names; nor do they change the exception or the warnings. -/
theorem further_keys_ignored_partial (E : LEnv) (H : Nat → PyStr → Prop) (v w : Val) (cls : Option Ty)
    (kw : LoadKw) (R : Receptive E H) (hs : kw.strict = false) (hh : kw.metaHints.getD [] = [])
    (h : Added E H kw.fork kw.keyTransformer cls v w) :
    ∃ N, ∀ n, N ≤ n → Both (Alike H) (load E n v cls kw) (load E n w cls kw) := by
  obtain ⟨N, hN⟩ := forward R h
  exact ⟨N, fun n hn => hN n hn kw ⟨rfl, rfl, hs, hh⟩⟩

/-! ## One object -/

theorem dictGet_append_str (es : List (Val × Val)) (xs : List (PyStr × Val)) (s : PyStr)
    (h : s ∉ xs.map (·.1)) :
    dictGet (es ++ xs.map fun p => (.str p.1, p.2)) (.str s) = dictGet es (.str s) := by
  induction es with
  | nil =>
    rw [List.nil_append]
    show _ = none
    rw [get_none]
    intro e he
    obtain ⟨p, hp, rfl⟩ := List.mem_map.1 he
    dsimp only
    rw [Core.pyEq_str, beq_eq_false_iff_ne]
    rintro rfl
    exact h (List.mem_map_of_mem hp)
  | cons e es ih =>
    obtain ⟨k, x⟩ := e
    simp only [List.cons_append, dictGet, ih]

/-- **C93**, for further entries `xs` in the document of one object: the object that is made has
the same attributes, except for those of the names of these entries. -/
theorem further_keys_object (E : LEnv) (H : Nat → PyStr → Prop) (c : Nat) (es : List (Val × Val))
    (xs : List (PyStr × Val)) (kw : LoadKw) (R : Receptive E H)
    (hf : E.getDes kw.fork (.cls (.user c)) = .ok (some .object)) (hs : kw.strict = false)
    (hh : kw.metaHints.getD [] = []) (hkt : kw.keyTransformer = none)
    (hm : dictGet es (.str metaKey) = none) (hx : ∀ p ∈ xs, Unknown E H kw.fork c p.1 p.2)
    (hxm : metaKey ∉ xs.map (·.1)) :
    ∃ N, ∀ n, N ≤ n → Both (Alike H) (load E n (.dict es) (some (.cls (.user c))) kw)
      (load E n (.dict (es ++ xs.map fun p => (.str p.1, p.2))) (some (.cls (.user c))) kw) := by
  have hg : ∀ p ∈ (E.info c).params,
      dictGet (es ++ xs.map fun p => (.str p.1, p.2)) (.str p.name) = dictGet es (.str p.name) := by
    intro p hp
    refine dictGet_append_str es xs _ fun hmem => ?_
    obtain ⟨q, hq, hqp⟩ := List.mem_map.1 hmem
    refine R.params c q.1 (hx q hq).name ?_
    rw [hqp]
    exact List.mem_map_of_mem hp
  refine further_keys_ignored_partial E H _ _ _ kw R hs hh ?_
  rw [hkt]
  refine .obj none c es _ es _ hf hm ?_ rfl rfl (fun p hp => by rw [hg p hp]) ?_ ?_
  · rw [dictGet_append_str es xs _ hxm]; exact hm
  · intro p hp x y h1 h2
    rw [hg p hp, h1] at h2
    cases h2
    exact .same _ _ _
  · clear hg hm
    induction es with
    | nil =>
      induction xs with
      | nil => exact .nil
      | cons p xs ih =>
        refine .right _ _ (.inl (hx p List.mem_cons_self)) (ih ?_ ?_)
        · exact fun q hq => hx q (List.mem_cons_of_mem _ hq)
        · exact fun h => hxm (List.mem_cons_of_mem _ h)
    | cons e es ih => exact .same e ih

/-! ## Programs that store what they get -/

theorem alike_args {H : Nat → PyStr → Prop} {c : Nat} {args args' : List (PyStr × Val)}
    (h : List.Forall₂ (fun a b => a.1 = b.1 ∧ Alike H a.2 b.2) args args') :
    Alike H (.obj c args) (.obj c args') := by
  have h1 : ∀ n, (assoc args n).isSome = (assoc args' n).isSome ∧
      ∀ a b, assoc args n = some a → assoc args' n = some b → Alike H a b := by
    intro n
    induction h with
    | nil => exact ⟨rfl, fun _ _ h => by cases h⟩
    | @cons a b _ _ hab _ ih =>
      obtain ⟨k, x⟩ := a
      obtain ⟨k', y⟩ := b
      obtain ⟨rfl, hxy⟩ := hab
      simp only [assoc]
      by_cases hk : k = n
      · rw [if_pos hk, if_pos hk]
        exact ⟨rfl, fun a b ha hb => by cases ha; cases hb; exact hxy⟩
      · rw [if_neg hk, if_neg hk]
        exact ih
  exact .obj c (fun n _ => (h1 n).1) fun n a b _ => (h1 n).2 a b

/-- If constructors store their arguments, and attributes can be set, then the names that are
neither parameters nor annotations are unknown. -/
theorem receptive_of_storing (E : LEnv) (hc : ∀ c args, E.construct c args = .ok args)
    (hs : ∀ c as n v, E.setAttr c as n v = .ok (assocSet as n v)) (hv : ∀ f v w, E.validator f v = E.validator f w) :
    Receptive E fun c n => n ∉ (E.info c).params.map (·.name) ∧ assoc (E.info c).hints n = none where
  params := fun c s h => h.1
  hints := fun c s h => h.2
  extra := by
    intro c as bs s y h hab
    refine .inl ⟨_, hs _ _ _ _, ?_⟩
    cases hab with
    | obj _ h1 h2 =>
      refine .obj c (fun n hn => ?_) fun n a b hn => ?_
      · rw [assoc_set, if_neg (fun e : s = n => hn (e ▸ h))]; exact h1 n hn
      · rw [assoc_set, if_neg (fun e : s = n => hn (e ▸ h))]; exact h2 n a b hn
  extra' := by
    intro c as bs s y h hab
    refine .inl ⟨_, hs _ _ _ _, ?_⟩
    cases hab with
    | obj _ h1 h2 =>
      refine .obj c (fun n hn => ?_) fun n a b hn => ?_
      · rw [assoc_set, if_neg (fun e : s = n => hn (e ▸ h))]; exact h1 n hn
      · rw [assoc_set, if_neg (fun e : s = n => hn (e ▸ h))]; exact h2 n a b hn
  set := by
    intro c as bs s y hab
    rw [hs, hs]
    cases hab with
    | obj _ h1 h2 =>
      refine .ok (.obj c (fun n hn => ?_) fun n a b hn => ?_)
      · rw [assoc_set, assoc_set]
        split
        · rfl
        · exact h1 n hn
      · rw [assoc_set, assoc_set]
        split
        · intro ha hb; cases ha; cases hb; exact .refl _
        · exact h2 n a b hn
  ctor := by
    intro c args args' h
    rw [hc, hc]
    exact .ok (alike_args h)
  vals := fun f v w _ => hv f v w

/-- The names that the classes of the example do not know. -/
def demoUnknown (c : Nat) (n : PyStr) : Prop :=
  n ∉ (demoInfo c).params.map (·.name) ∧ assoc (demoInfo c).hints n = none

theorem demo_receptive : Receptive (demoLEnv demoInfo) demoUnknown :=
  receptive_of_storing (demoLEnv demoInfo) (fun _ _ => rfl) (fun _ _ _ _ => rfl) fun _ _ _ => rfl

theorem red_unknown : Unknown (demoLEnv demoInfo) demoUnknown 0 0 "color".toList (.str "red".toList) :=
  ⟨⟨by decide, by decide⟩, rfl, demo_novals 0 _⟩

theorem point_added (kt : Option (Val → Except Err Val)) (hkt : kt = none ∨ kt = some .ok) (x : Val) :
    Added (demoLEnv demoInfo) demoUnknown 0 kt (some (.cls (.user 0)))
    (.dict [(.str "x".toList, x)]) (.dict [(.str "color".toList, .str "red".toList), (.str "x".toList, x)]) := by
  refine .obj kt 0 _ _ [(.str "x".toList, x)] [(.str "color".toList, .str "red".toList), (.str "x".toList, x)]
    (demo_desers 0 _) rfl rfl (by rcases hkt with rfl | rfl <;> rfl) (by rcases hkt with rfl | rfl <;> rfl) ?_ ?_ ?_
  · intro p hp
    rcases List.mem_cons.1 hp with rfl | hp
    · rfl
    · rcases List.mem_cons.1 hp with rfl | hp
      · rfl
      · cases hp
  · intro p hp a b ha hb
    rcases List.mem_cons.1 hp with rfl | hp
    · cases ha; cases hb; exact .same _ _ _
    · rcases List.mem_cons.1 hp with rfl | hp
      · cases ha
      · cases hp
  · exact .right _ _ (.inl red_unknown) (.same _ .nil)

/-- `{'points': [{'x': '1'}, {'color': 'red', 'x': 2}]}` as `Dict[str, List[Optional[Point]]]`:
the further key has no influence. -/
example : ∃ N, ∀ n, N ≤ n → Both (Alike demoUnknown)
    (load (demoLEnv demoInfo) n
      (.dict [(.str "points".toList, .list [.dict [(.str "x".toList, .str "1".toList)], .dict [(.str "x".toList, .int 2)]])])
      (some (.gen .dict [.cls .str, .gen .list [.union [.cls (.user 0), .cls .noneType]]])) {})
    (load (demoLEnv demoInfo) n
      (.dict [(.str "points".toList, .list [.dict [(.str "x".toList, .str "1".toList)],
        .dict [(.str "color".toList, .str "red".toList), (.str "x".toList, .int 2)]])])
      (some (.gen .dict [.cls .str, .gen .list [.union [.cls (.user 0), .cls .noneType]]])) {}) := by
  refine further_keys_ignored_partial _ _ _ _ _ _ demo_receptive rfl rfl ?_
  refine .mapping none _ _ _ _ _ (demo_desers 0 _) rfl rfl rfl rfl ?_
  intro a b hab
  rcases List.mem_cons.1 hab with h | h
  · cases h
    refine .list _ _ _ _ _ (demo_desers 0 _) rfl rfl ?_
    intro a b hab
    rcases List.mem_cons.1 hab with h | h
    · cases h; exact .same _ _ _
    · rcases List.mem_cons.1 h with h | h
      · cases h
        refine .union _ _ _ _ _ (demo_desers 0 _) rfl (by simp) ?_
        intro t ht
        rcases List.mem_cons.1 ht with rfl | ht
        · exact point_added _ (.inr rfl) _
        · rcases List.mem_cons.1 ht with rfl | ht
          · exact .scalar _ _ _ _ _ (demo_desers 0 _) .noneType (.dict _ _ rfl rfl)
          · cases ht
      · cases h
  · cases h

/-- The document of a `Point`, with and without a further key, and what is made of it. -/
example : (∃ N, ∀ n, N ≤ n → Both (Alike demoUnknown)
      (load (demoLEnv demoInfo) n (.dict [(.str "x".toList, .int 1)]) (some (.cls (.user 0))) {})
      (load (demoLEnv demoInfo) n (.dict [(.str "x".toList, .int 1), (.str "color".toList, .str "red".toList)])
        (some (.cls (.user 0))) {})) ∧
    (load (demoLEnv demoInfo) 9 (.dict [(.str "x".toList, .int 1)]) (some (.cls (.user 0))) {}).val
      = .ok (.obj 0 [("x".toList, .int 1), ("y".toList, .int 0)]) ∧
    (load (demoLEnv demoInfo) 9 (.dict [(.str "x".toList, .int 1), (.str "color".toList, .str "red".toList)])
      (some (.cls (.user 0))) {}).val
      = .ok (.obj 0 [("x".toList, .int 1), ("y".toList, .int 0), ("color".toList, .str "red".toList)]) := by
  refine ⟨?_, by rfl, by rfl⟩
  exact further_keys_object (demoLEnv demoInfo) demoUnknown 0 _ [("color".toList, .str "red".toList)] {}
    demo_receptive (demo_desers 0 _) rfl rfl rfl rfl
    (fun p hp => by rcases List.mem_cons.1 hp with rfl | hp; exact red_unknown; cases hp) (by decide)

/-! ## Where further keys matter -/

/-- `class Pair(NamedTuple): first: Any; second: Any = 0` (without the annotations). -/
def pairInfo (c : Nat) : ClassInfo :=
  { demoInfo 1 with fieldDefaults := [("second".toList, .int 0)], attrs := (demoInfo c).attrs }

/-- C93 fails for named tuples: `{'first': 1}` is loaded as `Pair(1, 0)`, but
`{'first': 1, 'third': 3}` is refused, since there are now as many keys as fields. -/
theorem further_keys_fail_named_tuple :
    (load (demoLEnv pairInfo) 9 (.dict [(.str "first".toList, .int 1)]) (some (.cls (.user 1))) {}).val
      = .ok (.ntuple 1 [.int 1, .int 0]) ∧
    ∃ e, (load (demoLEnv pairInfo) 9 (.dict [(.str "first".toList, .int 1), (.str "third".toList, .int 3)])
      (some (.cls (.user 1))) {}).val = .error e ∧ e.kind = .deserializationError := by
  refine ⟨by decide +kernel, ?_⟩
  exact ⟨_, by rfl, by rfl⟩

/-- C93 fails for unions with a member that takes the keys for entries: `{'x': 1}` as
`Union[Dict[str, int], Point]` is a dict, `{'x': 1, 'color': 'red'}` is a `Point`. -/
theorem further_keys_fail_union :
    (load (demoLEnv demoInfo) 9 (.dict [(.str "x".toList, .int 1)])
      (some (.union [.gen .dict [.cls .str, .cls .int], .cls (.user 0)])) {}).val
      = .ok (.dict [(.str "x".toList, .int 1)]) ∧
    (load (demoLEnv demoInfo) 9 (.dict [(.str "x".toList, .int 1), (.str "color".toList, .str "red".toList)])
      (some (.union [.gen .dict [.cls .str, .cls .int], .cls (.user 0)])) {}).val
      = .ok (.obj 0 [("x".toList, .int 1), ("y".toList, .int 0), ("color".toList, .str "red".toList)]) := by
  exact ⟨by decide +kernel, by decide +kernel⟩

/-- A key transformer that makes keys lower case. -/
def lowerKeys : Val → Except Err Val
  | .str s => .ok (.str s.lower)
  | v => .ok v

/-- C93 fails for keys that are known after the key transformer: `{'x': 1, 'X': 2}`. -/
theorem further_keys_fail_transformer :
    (load (demoLEnv demoInfo) 9 (.dict [(.str "x".toList, .int 1)]) (some (.cls (.user 0)))
      { keyTransformer := some lowerKeys }).val = .ok (.obj 0 [("x".toList, .int 1), ("y".toList, .int 0)]) ∧
    (load (demoLEnv demoInfo) 9 (.dict [(.str "x".toList, .int 1), (.str "X".toList, .int 2)])
      (some (.cls (.user 0))) { keyTransformer := some lowerKeys }).val
      = .ok (.obj 0 [("x".toList, .int 2), ("y".toList, .int 0)]) := by
  exact ⟨by decide +kernel, by decide +kernel⟩

end Verif.Props.Forward
