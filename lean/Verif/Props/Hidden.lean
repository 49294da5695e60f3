import Verif.Props.DumpShape
import Verif.Core.AttrLemmas
import Verif.Core.DumpLemmas
import Verif.Core.ResLemmas
import Verif.Core.Demo

/-!
# What is stripped does not show

C92: attributes that `strip_privates` or `strip_attr` keep out of a dump have no influence
on it, at whatever depth they are found: objects that differ only in them are dumped to the
same result, with the same exceptions and the same warnings.
-/

set_option autoImplicit false

namespace Verif.Props.Hidden
open Verif Verif.Core Verif.Registry

/-! ## The specification -/

/-- The names that `strip_attr` keeps out; a set of names is not one of them (see C74). -/
def stripNames : StripAttr → List PyStr
  | .name (c :: s) => [c :: s]
  | .tuple l | .list l => l
  | _ => []

/-- The options keep attributes of this name out of the dump. -/
inductive Stripped (kw : DumpKw) (n : PyStr) : Prop where
  | privates (h : kw.stripPrivates = true) (hn : n.head? = some '_')
  | name (h : n ∈ stripNames kw.stripAttr)
  | dunder (hn : "__".toList <+: n)

/-- The values are the same, except for attributes of objects of class `c` with names that
are in `H c`; the keys of dicts are the same. The order in which an object got its
attributes does not matter. -/
inductive Alike (H : Nat → PyStr → Prop) : Val → Val → Prop where
  | atom (a : Atom) : Alike H (.atom a) (.atom a)
  | enum (c : Nat) (m : PyStr) : Alike H (.enum c m) (.enum c m)
  | seq (k : SeqKind) {xs ys : List Val} (h : List.Forall₂ (Alike H) xs ys) :
      Alike H (.seq k xs) (.seq k ys)
  | ntuple (c : Nat) {xs ys : List Val} (h : List.Forall₂ (Alike H) xs ys) :
      Alike H (.ntuple c xs) (.ntuple c ys)
  | dict {es gs : List (Val × Val)} (hk : es.map (·.1) = gs.map (·.1))
      (h : List.Forall₂ (Alike H) (es.map (·.2)) (gs.map (·.2))) : Alike H (.dict es) (.dict gs)
  | ddict (f : Option Ty) {es gs : List (Val × Val)} (hk : es.map (·.1) = gs.map (·.1))
      (h : List.Forall₂ (Alike H) (es.map (·.2)) (gs.map (·.2))) :
      Alike H (.ddict f es) (.ddict f gs)
  | obj (c : Nat) {as bs : List (PyStr × Val)}
      (hs : ∀ n, ¬ H c n → (assoc as n).isSome = (assoc bs n).isSome)
      (h : ∀ n a b, ¬ H c n → assoc as n = some a → assoc bs n = some b → Alike H a b) :
      Alike H (.obj c as) (.obj c bs)

/-- Outcomes without events: the same exception, or values that are related. -/
inductive ExRel {α : Type} (R : α → α → Prop) : Except Err α → Except Err α → Prop where
  | ok {a b : α} (h : R a b) : ExRel R (.ok a) (.ok b)
  | error (e : Err) : ExRel R (.error e) (.error e)

/-- Results: the same events, and related outcomes. -/
structure RelRes {α : Type} (R : α → α → Prop) (x y : Res α) : Prop where
  log : x.log = y.log
  val : ExRel R x.val y.val

/-- The attribute is not one of the hidden ones of the value. -/
def Shown (H : Nat → PyStr → Prop) (v : Val) (n : PyStr) : Prop :=
  ∀ c as, v = .obj c as → ¬ H c n

/-- Options for which the attributes in `H` are stripped, in the fork and the mode of the
first call. -/
structure Opts (H : Nat → PyStr → Prop) (T : Ty → Prop) (fork : Nat) (strict : Bool)
    (kw : DumpKw) : Prop where
  hides : ∀ c n, H c n → Stripped kw n
  fork : kw.fork = fork
  strict : kw.strict = strict
  types : ∀ p ∈ kw.types, T p.2

/-- What a recursive call does is the same for values that are alike. -/
structure Blind (E : Env) (H : Nat → PyStr → Prop) (T : Ty → Prop) (fork : Nat) (strict : Bool)
    (rec : Rec) : Prop where
  dump : ∀ {v w : Val} {cls : Option Ty} {kw : DumpKw}, Alike H v w → Opts H T fork strict kw →
    (∀ t, cls = some t → T t) → RelRes (Alike H) (rec.dump v cls kw) (rec.dump w cls kw)
  call : ∀ {f : SerFn} {v w : Val} {cls : Option Ty} {kw : DumpKw}, Alike H v w →
    Opts H T fork strict kw → (∀ t, cls = some t → T t) →
    E.getSer fork (cls.getD (.cls v.cls)) = .ok (some f) →
    RelRes (Alike H) (rec.call f v cls kw) (rec.call f w cls kw)

/-- The functions of the program - properties, `str(obj)`, `int(obj)`, `float(obj)`, custom
serializers - do not tell what is hidden; nor do the names of types. -/
structure Discreet (E : Env) (H : Nat → PyStr → Prop) (T : Ty → Prop) (fork : Nat) (strict : Bool) :
    Prop where
  prop : ∀ c n v w, ¬ H c n → Alike H v w → ExRel (Alike H) (E.prop c n v) (E.prop c n w)
  str : ∀ v w, Alike H v w → E.strOther v = E.strOther w
  int : ∀ v w, Alike H v w → E.intOther v = E.intOther w
  float : ∀ v w, Alike H v w → E.floatOther v = E.floatOther w
  getType : ∀ v w, Alike H v w → E.getTypeOther v = E.getTypeOther w
  typeName : ∀ v w, Alike H v w → E.typeName v = E.typeName w
  attr : ∀ v w n, Alike H v w → ExRel (Alike H) (E.attrOther v n) (E.attrOther w n)
  foreign : ∀ v w t kw, Alike H v w → E.foreignAttrs v t kw = E.foreignAttrs w t kw ∧
    ∀ as, E.foreignAttrs v t kw = .ok as → ∀ p ∈ as, Shown H v p.1 ∧ ∀ u, p.2 = some u → T u
  custom : ∀ id rec v w cls kw, Blind E H T fork strict rec → Alike H v w →
    Opts H T fork strict kw → (∀ t, cls = some t → T t) →
    RelRes (Alike H) (E.customSer id rec v cls kw) (E.customSer id rec w cls kw)

/-- The names that the serializers of enums and of complex numbers read. -/
def readNames : List PyStr := ["name", "value", "real", "imag"].map String.toList

/-- `T` has the types that can be met: the hints of the classes and what they are made of,
and in strict mode the classes of all values.  Objects are not taken for enum members or
for complex numbers, or they hide none of the attributes of these. -/
structure Met (E : Env) (H : Nat → PyStr → Prop) (T : Ty → Prop) (fork : Nat) (strict : Bool) :
    Prop where
  args : ∀ t, T t → ∀ a ∈ t.getArgs, T a
  ellipsis : ∀ a l, T (.gen .tupleEll l) → l.headD .any = a → ∀ n, T (.gen .tuple (List.replicate n a))
  hints : ∀ c, ∀ p ∈ (E.info c).hints ++ (E.info c).initHints, T p.2
  first : strict = true → ∀ v : Val, T (.cls v.cls) ∧ T (.gen .list [E.getType v]) ∧
    T (.gen .tuple [E.getType v])
  look : ∀ t c f, (T t ∨ t = .cls (.user c)) → E.getSer fork t = .ok (some f) →
    f = .enum ∨ f = .complex → ∀ n ∈ readNames, ¬ H c n

/-! ## Lemmas -/

section
variable {H : Nat → PyStr → Prop}

theorem assoc_mem {β : Type} {l : List (PyStr × β)} {n : PyStr} {b : β} (h : assoc l n = some b) :
    (n, b) ∈ l := by
  induction l with
  | nil => cases h
  | cons p l ih =>
    obtain ⟨m, c⟩ := p
    simp only [assoc] at h
    split at h
    · next e => cases h; subst e; exact List.mem_cons_self
    · exact List.mem_cons_of_mem _ (ih h)

theorem forall₂_self {α : Type} {R : α → α → Prop} {xs : List α} (h : ∀ x ∈ xs, R x x) :
    List.Forall₂ R xs xs := by
  induction xs with
  | nil => exact .nil
  | cons x xs ih =>
    exact .cons (h x List.mem_cons_self) (ih fun y hy => h y (List.mem_cons_of_mem _ hy))

theorem Alike.refl (v : Val) : Alike H v v := by
  match v with
  | .atom a => exact .atom a
  | .enum c m => exact .enum c m
  | .seq k xs => exact .seq k (forall₂_self fun x hx => Alike.refl x)
  | .ntuple c xs => exact .ntuple c (forall₂_self fun x hx => Alike.refl x)
  | .dict es =>
    refine .dict rfl (forall₂_self fun x hx => ?_)
    have : sizeOf x < 1 + sizeOf es := by
      obtain ⟨e, he, rfl⟩ := List.mem_map.1 hx
      have := List.sizeOf_lt_of_mem he
      obtain ⟨a, b⟩ := e
      simp only [Prod.mk.sizeOf_spec] at this ⊢
      omega
    exact Alike.refl x
  | .ddict f es =>
    refine .ddict f rfl (forall₂_self fun x hx => ?_)
    have : sizeOf x < 1 + sizeOf f + sizeOf es := by
      obtain ⟨e, he, rfl⟩ := List.mem_map.1 hx
      have := List.sizeOf_lt_of_mem he
      obtain ⟨a, b⟩ := e
      simp only [Prod.mk.sizeOf_spec] at this ⊢
      omega
    exact Alike.refl x
  | .obj c as =>
    refine .obj c (fun _ _ => rfl) fun n a b _ ha hb => ?_
    have : sizeOf a < 1 + sizeOf c + sizeOf as := by
      have := List.sizeOf_lt_of_mem (assoc_mem ha)
      simp only [Prod.mk.sizeOf_spec] at this
      omega
    rw [ha] at hb
    cases hb
    exact Alike.refl a
termination_by sizeOf v
decreasing_by
  all_goals simp only [Val.seq.sizeOf_spec, Val.ntuple.sizeOf_spec, Val.dict.sizeOf_spec,
    Val.ddict.sizeOf_spec, Val.obj.sizeOf_spec]
  all_goals first | omega | (have := List.sizeOf_lt_of_mem hx; omega)

/-- Entries: the same keys, values that are alike. -/
def AlikeD (H : Nat → PyStr → Prop) (es gs : List (Val × Val)) : Prop :=
  List.Forall₂ (fun e g => e.1 = g.1 ∧ Alike H e.2 g.2) es gs

theorem alikeD_iff {es gs : List (Val × Val)} : AlikeD H es gs ↔
    es.map (·.1) = gs.map (·.1) ∧ List.Forall₂ (Alike H) (es.map (·.2)) (gs.map (·.2)) := by
  constructor
  · intro h
    induction h with
    | nil => exact ⟨rfl, .nil⟩
    | cons h _ ih => exact ⟨by simp [h.1, ih.1], .cons h.2 ih.2⟩
  · rintro ⟨h1, h2⟩
    induction es generalizing gs with
    | nil => cases gs with
      | nil => exact .nil
      | cons g gs => cases h1
    | cons e es ih => cases gs with
      | nil => cases h1
      | cons g gs =>
        simp only [List.map_cons, List.cons.injEq] at h1
        cases h2 with
        | cons h h2 => exact .cons ⟨h1.1, h⟩ (ih h1.2 h2)

theorem AlikeD.val {es gs : List (Val × Val)} (h : AlikeD H es gs) : Alike H (.dict es) (.dict gs) :=
  .dict (alikeD_iff.1 h).1 (alikeD_iff.1 h).2

theorem AlikeD.refl (es : List (Val × Val)) : AlikeD H es es :=
  forall₂_self fun e _ => ⟨rfl, .refl e.2⟩

theorem Alike.cls {v w : Val} (h : Alike H v w) : v.cls = w.cls := by
  cases h <;> rfl

theorem Alike.isNone {v w : Val} (h : Alike H v w) : v = .none ↔ w = .none := by
  cases h <;> simp

theorem forall₂_isEmpty {α : Type} {R : α → α → Prop} {xs ys : List α} (h : List.Forall₂ R xs ys) :
    xs.isEmpty = ys.isEmpty := by cases h <;> rfl

theorem Alike.falsy {v w : Val} (h : Alike H v w) : v.falsy = w.falsy := by
  cases h with
  | seq k h => simp only [Val.falsy]; exact forall₂_isEmpty h
  | ntuple k h => simp only [Val.falsy]; exact forall₂_isEmpty h
  | dict hk h => simp only [Val.falsy]; exact forall₂_isEmpty (alikeD_iff.2 ⟨hk, h⟩)
  | ddict f hk h => simp only [Val.falsy]; exact forall₂_isEmpty (alikeD_iff.2 ⟨hk, h⟩)
  | _ => rfl

/-- What can be iterated. -/
theorem Alike.iter {v w : Val} (h : Alike H v w) :
    (v.iter = none ∧ w.iter = none) ∨
    ∃ xs ys, v.iter = some xs ∧ w.iter = some ys ∧ List.Forall₂ (Alike H) xs ys := by
  cases h with
  | seq k h => exact .inr ⟨_, _, rfl, rfl, h⟩
  | ntuple k h => exact .inr ⟨_, _, rfl, rfl, h⟩
  | dict hk h => exact .inr ⟨_, _, rfl, rfl, by rw [hk]; exact forall₂_self fun x _ => .refl x⟩
  | ddict f hk h => exact .inr ⟨_, _, rfl, rfl, by rw [hk]; exact forall₂_self fun x _ => .refl x⟩
  | atom a =>
    cases hi : (Val.atom a).iter with
    | none => exact .inl ⟨rfl, rfl⟩
    | some xs => exact .inr ⟨xs, xs, rfl, rfl, forall₂_self fun x _ => .refl x⟩
  | enum c m => exact .inl ⟨rfl, rfl⟩
  | obj c _ _ => exact .inl ⟨rfl, rfl⟩

end

section
variable {α β : Type} {R : α → α → Prop} {S : β → β → Prop}

theorem ExRel.refl (hR : ∀ a, R a a) (x : Except Err α) : ExRel R x x := by
  cases x with
  | ok a => exact .ok (hR a)
  | error e => exact .error e

theorem RelRes.refl (hR : ∀ a, R a a) (x : Res α) : RelRes R x x := ⟨rfl, .refl hR _⟩

theorem RelRes.eq {x y : Res α} (h : RelRes Eq x y) : x = y := by
  refine res_ext h.log ?_
  have h := h.val
  generalize x.val = a at h
  generalize y.val = b at h
  cases h with
  | ok h => rw [h]
  | error e => rfl

theorem RelRes.pure {a b : α} (h : R a b) : RelRes R (Pure.pure a) (Pure.pure b) := ⟨rfl, .ok h⟩

theorem RelRes.raise (e : Err) : RelRes (α := α) R (Res.raise e) (Res.raise e) := ⟨rfl, .error e⟩

theorem RelRes.lift {x y : Except Err α} (h : ExRel R x y) : RelRes R (Res.lift x) (Res.lift y) :=
  ⟨by simp, by simpa using h⟩

theorem RelRes.bind {x y : Res α} {f g : α → Res β} (h : RelRes R x y)
    (hf : ∀ a b, x.val = .ok a → y.val = .ok b → R a b → RelRes S (f a) (g b)) :
    RelRes S (x >>= f) (y >>= g) := by
  obtain ⟨hl, hv⟩ := h
  constructor
  · rw [bind_log, bind_log, hl]
    generalize hx : x.val = a at hv
    generalize hy : y.val = b at hv
    cases hv with
    | ok h => simp only [(hf _ _ hx hy h).log]
    | error e => rfl
  · rw [bind_val, bind_val]
    generalize hx : x.val = a at hv
    generalize hy : y.val = b at hv
    cases hv with
    | ok h => exact (hf _ _ hx hy h).val
    | error e => exact .error e

theorem RelRes.bind_same {x : Res α} {f g : α → Res β}
    (hf : ∀ a, x.val = .ok a → RelRes S (f a) (g a)) : RelRes S (x >>= f) (x >>= g) := by
  refine RelRes.bind (R := Eq) (.refl (fun _ => rfl) x) ?_
  rintro a _ ha _ rfl
  exact hf a ha

theorem RelRes.attempt {x y : Res α} (h : RelRes R x y) : RelRes (ExRel R) x.attempt y.attempt :=
  ⟨h.log, .ok h.val⟩

theorem RelRes.mapRes {γ δ : Type} {P : γ → γ → Prop} {R : δ → δ → Prop} {f g : γ → Res δ} {xs ys : List γ}
    (h : List.Forall₂ P xs ys) (hf : ∀ x y, x ∈ xs → P x y → RelRes R (f x) (g y)) :
    RelRes (List.Forall₂ R) (Core.mapRes f xs) (Core.mapRes g ys) := by
  induction h with
  | nil => exact .pure .nil
  | cons h _ ih =>
    refine .bind (hf _ _ List.mem_cons_self h) fun a b _ _ hab => ?_
    refine .bind (ih fun x y hx => hf x y (List.mem_cons_of_mem _ hx)) fun as bs _ _ habs => ?_
    exact .pure (.cons hab habs)

end

section
variable {E : Env} {H : Nat → PyStr → Prop} {T : Ty → Prop} {fork : Nat} {strict : Bool}

theorem strOf_eq (D : Discreet E H T fork strict) {v w : Val} (h : Alike H v w) :
    E.strOf v = E.strOf w := by
  have := D.str _ _ h
  cases h with
  | atom a => rfl
  | _ => exact this

theorem intOf_eq (D : Discreet E H T fork strict) {v w : Val} (h : Alike H v w) :
    E.intOf v = E.intOf w := by
  have := D.int _ _ h
  cases h with
  | obj c _ _ => exact this
  | _ => rfl

theorem floatOf_eq (D : Discreet E H T fork strict) {v w : Val} (h : Alike H v w) :
    E.floatOf v = E.floatOf w := by
  have := D.float _ _ h
  cases h with
  | obj c _ _ => exact this
  | _ => rfl

theorem cast_eq (D : Discreet E H T fork strict) {v w : Val} (h : Alike H v w) (t : Ty) :
    E.cast v t = E.cast w t := by
  unfold Env.cast
  split
  · rw [strOf_eq D h]
  · rw [h.falsy]
  · rw [intOf_eq D h]
  · rw [floatOf_eq D h]
  · rfl

theorem isInstance_eq {v w : Val} (h : Alike H v w) (t : Ty) : E.isInstance v t = E.isInstance w t := by
  unfold Env.isInstance
  rw [h.cls]

theorem getType_eq (D : Discreet E H T fork strict) {v w : Val} (h : Alike H v w) :
    E.getType v = E.getType w := by
  have := D.getType _ _ h
  cases h with
  | atom a => rfl
  | enum c m => rfl
  | obj c _ _ => rfl
  | _ => exact this

theorem clsNameOf_eq (D : Discreet E H T fork strict) {v w : Val} (h : Alike H v w) :
    E.clsNameOf v = E.clsNameOf w := by
  have := D.typeName _ _ h
  cases h with
  | obj c _ _ => rfl
  | _ => exact this

theorem getAttr_rel (D : Discreet E H T fork strict) {v w : Val} (h : Alike H v w) {n : PyStr}
    (hn : Shown H v n) : ExRel (Alike H) (E.getAttr v n) (E.getAttr w n) := by
  have h0 := h
  have := D.attr _ _ n h
  cases h with
  | @obj c as bs hs h =>
    have hn := hn _ _ rfl
    simp only [Env.getAttr]
    split
    · exact D.prop _ _ _ _ hn h0
    · have hs := hs n hn
      have h := h n
      cases ha : assoc as n with
      | some a =>
        rw [ha] at hs
        cases hb : assoc bs n with
        | none => rw [hb] at hs; cases hs
        | some b => exact .ok (h a b hn ha hb)
      | none =>
        rw [ha] at hs
        cases hb : assoc bs n with
        | some b => rw [hb] at hs; cases hs
        | none => exact .refl Alike.refl _
  | _ => exact this

theorem primitiveSer_rel (D : Discreet E H T fork strict) {v w : Val} (h : Alike H v w)
    (cls : Option Ty) : RelRes (Alike H) (primitiveSer E v cls) (primitiveSer E w cls) := by
  unfold primitiveSer
  dsimp only
  split
  · exact .pure h
  · next t _ =>
    by_cases hv : v = .none
    · rw [if_pos hv, if_pos (h.isNone.1 hv)]
      exact .pure h
    · rw [if_neg hv, if_neg (fun e => hv (h.isNone.2 e)), isInstance_eq h]
      split
      · exact .raise _
      · exact .pure h
      · rw [cast_eq D h]
        exact .refl Alike.refl _

/-- The serializers of enums and complex numbers read attributes that are shown. -/
theorem look_shown (M : Met E H T fork strict) {v : Val} {cls : Option Ty} {f : SerFn}
    (hc : ∀ t, cls = some t → T t) (hg : E.getSer fork (cls.getD (.cls v.cls)) = .ok (some f))
    (hf : f = .enum ∨ f = .complex) {n : PyStr} (hn : n ∈ readNames) : Shown H v n := by
  intro c as e
  subst e
  refine M.look _ c f ?_ hg hf n hn
  cases cls with
  | none => exact .inr rfl
  | some t => exact .inl (hc t rfl)

theorem enumSer_rel (D : Discreet E H T fork strict) {v w : Val} (h : Alike H v w)
    (hs : ∀ n ∈ readNames, Shown H v n) (kw : DumpKw) :
    RelRes (Alike H) (enumSer E v kw) (enumSer E w kw) := by
  have hg := getAttr_rel D h (n := if kw.useEnumName then "name".toList else "value".toList)
    (hs _ (by unfold readNames; split <;> simp))
  cases h with
  | enum c m => exact .refl Alike.refl _
  | _ => exact .lift hg

theorem complexSer_rel (D : Discreet E H T fork strict) {v w : Val} (h : Alike H v w)
    (hs : ∀ n ∈ readNames, Shown H v n) :
    RelRes (Alike H) (complexSer E v) (complexSer E w) := by
  have h1 := getAttr_rel D h (n := "real".toList) (hs _ (by unfold readNames; simp))
  have h2 := getAttr_rel D h (n := "imag".toList) (hs _ (by unfold readNames; simp))
  cases h with
  | atom a => exact .refl Alike.refl _
  | _ =>
    refine .bind (.lift h1) fun a b _ _ hab => ?_
    refine .bind (.lift h2) fun c d _ _ hcd => ?_
    exact .pure (AlikeD.val (.cons ⟨rfl, hab⟩ (.cons ⟨rfl, hcd⟩ .nil)))

theorem toStr_rel {v w : Val} (h : Alike H v w) (strip : Bool) (fk : Nat) (p : StrfPattern) :
    RelRes (Alike H) (toStr E v strip fk p) (toStr E w strip fk p) := by
  cases h with
  | atom a => exact .refl Alike.refl _
  | _ => exact .raise _

theorem timedeltaSer_rel {v w : Val} (h : Alike H v w) :
    RelRes (Alike H) (timedeltaSer E v) (timedeltaSer E w) := by
  cases h with
  | atom a => exact .refl Alike.refl _
  | _ => exact .raise _

theorem pathSer_rel {v w : Val} (h : Alike H v w) :
    RelRes (Alike H) (pathSer v) (pathSer w) := by
  cases h with
  | atom a => exact .refl Alike.refl _
  | _ => exact .raise _

theorem zoneinfoSer_rel {v w : Val} (h : Alike H v w) :
    RelRes (Alike H) (zoneinfoSer v) (zoneinfoSer w) := by
  cases h with
  | atom a => exact .refl Alike.refl _
  | _ => exact .raise _

theorem timezoneSer_rel {rec : Rec} {v w : Val} (h : Alike H v w)
    (cls : Option Ty) (kw : DumpKw) :
    RelRes (Alike H) (timezoneSer rec v cls kw) (timezoneSer rec w cls kw) := by
  cases h with
  | atom a => exact .refl Alike.refl _
  | _ => exact .raise _

theorem Opts.store {kw : DumpKw} (ho : Opts H T fork strict kw) (b : Bool) :
    Opts H T fork strict { kw with storeCls := b } :=
  ⟨fun c n h => by
    cases ho.hides c n h with
    | privates h hn => exact .privates h hn
    | name h => exact .name h
    | dunder h => exact .dunder h, ho.fork, ho.strict, ho.types⟩

theorem Opts.untyped {kw : DumpKw} (ho : Opts H T fork strict kw) :
    Opts H T fork strict { kw with types := [] } :=
  ⟨fun c n h => by
    cases ho.hides c n h with
    | privates h hn => exact .privates h hn
    | name h => exact .name h
    | dunder h => exact .dunder h, ho.fork, ho.strict, fun p hp => by cases hp⟩

theorem stripNames_normalize (s : StripAttr) : stripNames (normalizeStripAttr s) = stripNames s := by
  unfold normalizeStripAttr
  split <;> try rfl
  next s h =>
  cases s with
  | nil => exact absurd rfl (h)
  | cons c s => rfl

theorem Opts.attr {kw : DumpKw} (ho : Opts H T fork strict kw) (b : Bool) :
    Opts H T fork strict { kw with stripAttr := normalizeStripAttr kw.stripAttr, storeCls := b } :=
  ⟨fun c n h => by
    cases ho.hides c n h with
    | privates h hn => exact .privates h hn
    | name h => exact .name (by simp only [stripNames_normalize]; exact h)
    | dunder h => exact .dunder h, ho.fork, ho.strict, ho.types⟩

/-! ## Collections -/

theorem listTyped_rel {rec : Rec} (hrec : Blind E H T fork strict rec) {xs ys : List Val}
    (h : List.Forall₂ (Alike H) xs ys) {t : Ty} (ht : T t) {kw kw' : DumpKw}
    (hf : kw.fork = fork) (ho' : Opts H T fork strict kw') :
    RelRes (Alike H) (listSer.typed E rec kw xs t kw') (listSer.typed E rec kw ys t kw') := by
  unfold listSer.typed
  refine .bind_same fun fn hfn => ?_
  rw [liftK_ok, hf] at hfn
  refine .bind (R := List.Forall₂ (Alike H)) ?_ fun as bs _ _ hab => .pure (.seq .list hab)
  refine .mapRes h fun x y _ hxy => ?_
  cases fn with
  | none => exact .raise _
  | some f => exact hrec.call hxy ho' (fun u hu => by cases hu; exact ht) hfn

theorem listSer_rel (M : Met E H T fork strict) {rec : Rec} (hrec : Blind E H T fork strict rec)
    {v w : Val} (h : Alike H v w) {cls : Option Ty} (hc : ∀ t, cls = some t → T t) {kw : DumpKw}
    (ho : Opts H T fork strict kw) :
    RelRes (Alike H) (listSer E rec v cls kw) (listSer E rec w cls kw) := by
  unfold listSer
  rw [h.falsy]
  by_cases hfal : w.falsy = true
  · rw [if_pos hfal, if_pos hfal]
    exact .refl Alike.refl _
  rw [if_neg hfal, if_neg hfal]
  dsimp only
  have ho' := ho.store false
  rcases h.iter with ⟨h1, h2⟩ | ⟨xs, ys, h1, h2, hxy⟩
  · rw [h1, h2]
    exact .raise _
  · rw [h1, h2]
    dsimp only
    cases ha : (cls.map Ty.getArgs).getD [] with
    | cons t ts =>
      refine listTyped_rel hrec hxy ?_ ho.fork ho'
      cases cls with
      | none => cases ha
      | some u =>
        refine M.args u (hc u rfl) t ?_
        have ha : u.getArgs = t :: ts := ha
        rw [ha]
        exact List.mem_cons_self
    | nil =>
      dsimp only
      by_cases hst : kw.strict = true
      · rw [if_pos hst, if_pos hst]
        have hst' : strict = true := by rw [← ho.strict]; exact hst
        have key : RelRes (Alike H)
            (match xs with
              | x :: _ => listSer.typed E rec kw xs (.cls x.cls) { kw with storeCls := false }
              | [] => pure (.list []))
            (match ys with
              | y :: _ => listSer.typed E rec kw ys (.cls y.cls) { kw with storeCls := false }
              | [] => pure (.list [])) := by
          cases hxy with
          | nil => exact .refl Alike.refl _
          | cons hx hxs =>
            dsimp only
            rw [← hx.cls]
            exact listTyped_rel hrec (.cons hx hxs) (M.first hst' _).1 ho.fork ho'
        cases h with
        | seq k hh =>
          cases h1; cases h2
          cases k
          case set => exact .raise _
          case frozenset => exact .raise _
          all_goals (cases hh <;> exact key)
        | dict _ _ => exact .raise _
        | ddict _ _ _ => exact .raise _
        | ntuple c hh => cases h1; cases h2; cases hh <;> exact key
        | atom a =>
          rw [h1] at h2; cases h2
          cases xs <;> exact key
        | enum c m => cases h1
        | obj c _ _ => cases h1
      · rw [if_neg hst, if_neg hst]
        refine .bind (R := List.Forall₂ (Alike H)) ?_ fun as bs _ _ hab => .pure (.seq .list hab)
        exact .mapRes hxy fun x y _ h => hrec.dump h ho' (fun t ht => by cases ht)

theorem determineCls_eq (D : Discreet E H T fork strict) {v w : Val} (h : Alike H v w) (cls : Option Ty) :
    determineCls E v cls = determineCls E w cls := by
  cases cls with
  | some t => rfl
  | none =>
    cases h with
    | atom a => rfl
    | enum c m => rfl
    | obj c _ _ => rfl
    | seq k h =>
      cases h with
      | nil => rfl
      | cons hx _ => cases k <;> simp only [determineCls, getType_eq D hx]
    | ntuple c h =>
      cases h with
      | nil => rfl
      | cons hx _ => simp only [determineCls, getType_eq D hx]
    | dict hk h =>
      have := alikeD_iff.2 ⟨hk, h⟩
      cases this <;> rfl
    | ddict f hk h =>
      have := alikeD_iff.2 ⟨hk, h⟩
      cases this <;> rfl

theorem determineCls_met (M : Met E H T fork strict) (hst : strict = true) {v : Val} {cls cls' : Option Ty}
    (hc : ∀ t, cls = some t → T t) (h : determineCls E v cls = .ok cls') :
    ∀ t, cls' = some t → T t := by
  intro t ht
  subst ht
  unfold determineCls at h
  split at h
  · cases h; exact hc t rfl
  · split at h <;> cases h
    · exact (M.first hst _).2.1
    · exact (M.first hst _).2.2
    · exact (M.first hst _).2.2
    · exact (M.first hst (.str [])).1

theorem getSubclasses_met (M : Met E H T fork strict) {n : Nat} {cls : Option Ty}
    (hc : ∀ t, cls = some t → T t) {l : List (Option Ty)} (h : getSubclasses n cls = .ok l) :
    ∀ o ∈ l, ∀ t, o = some t → T t := by
  have hargs : ∀ t ∈ (cls.map Ty.getArgs).getD [], T t := by
    intro t ht
    cases cls with
    | none => cases ht
    | some u => exact M.args u (hc u rfl) t ht
  unfold getSubclasses at h
  dsimp only at h
  generalize (cls.map Ty.getArgs).getD [] = ts at h hargs
  have key : ∀ sc : List (Option Ty), (∀ o ∈ sc, ∀ t, o = some t → T t) →
      (if sc.length ≠ n then Except.error { kind := .serializationError } else .ok sc :
        Except Err (List (Option Ty))) = .ok l → ∀ o ∈ l, ∀ t, o = some t → T t := by
    intro sc hsc h
    by_cases hlen : sc.length ≠ n
    · rw [if_pos hlen] at h
      cases h
    · rw [if_neg hlen] at h
      cases h
      exact hsc
  split at h
  · refine key _ ?_ h
    intro o ho t ht
    subst ht
    rw [List.mem_replicate] at ho; cases ho.2
  · refine key _ ?_ h
    intro o ho t ht
    subst ht
    rw [List.mem_replicate] at ho; cases ho.2; exact hargs _ List.mem_cons_self
  · refine key _ ?_ h
    intro o ho t ht
    subst ht
    obtain ⟨u, hu, e⟩ := List.mem_map.1 ho
    cases e
    exact hargs _ hu

theorem iterableSer_rel (D : Discreet E H T fork strict) (M : Met E H T fork strict) {rec : Rec}
    (hrec : Blind E H T fork strict rec)
    {v w : Val} (h : Alike H v w) {cls : Option Ty} (hc : ∀ t, cls = some t → T t) {kw : DumpKw}
    (ho : Opts H T fork strict kw) :
    RelRes (Alike H) (iterableSer E rec v cls kw) (iterableSer E rec w cls kw) := by
  unfold iterableSer
  dsimp only
  have ho' := ho.store false
  rcases h.iter with ⟨h1, h2⟩ | ⟨xs, ys, h1, h2, hxy⟩
  · rw [h1, h2]
    exact .raise _
  · rw [h1, h2]
    dsimp only
    have he : elementTypes E v xs.length cls kw.strict = elementTypes E w ys.length cls kw.strict := by
      unfold elementTypes
      rw [determineCls_eq D h, hxy.length_eq]
    rw [he]
    refine .bind_same fun l hl0 => ?_
    refine .bind (R := List.Forall₂ (Alike H)) ?_ fun as bs _ _ hab => .pure (.seq .list hab)
    have hl : ∀ o ∈ l, ∀ t, o = some t → T t := by
      unfold elementTypes at hl0
      split at hl0
      · next hst =>
        obtain ⟨c', hc', hl⟩ := Core.bind_ok.1 hl0
        rw [liftK_ok] at hc'
        rw [lift_val] at hl
        exact getSubclasses_met M (determineCls_met M (by rw [← ho.strict]; exact hst) hc hc') hl
      · rw [lift_val] at hl0
        exact getSubclasses_met M (fun t ht => by cases ht) hl0
    have hz : List.Forall₂ (fun p q => Alike H p.1 q.1 ∧ p.2 = q.2 ∧ p.2 ∈ l) (xs.zip l) (ys.zip l) := by
      clear he hl hl0 h1 h2 h hc
      induction hxy generalizing l with
      | nil => exact .nil
      | cons hx _ ih =>
        cases l with
        | nil => exact .nil
        | cons o l =>
          refine .cons ⟨hx, rfl, List.mem_cons_self⟩ ?_
          exact List.Forall₂.imp (fun p q hpq => ⟨hpq.1, hpq.2.1, List.mem_cons_of_mem _ hpq.2.2⟩) (ih l)
    refine .mapRes hz ?_
    rintro p q _ ⟨hpq, he2, hp⟩
    rw [← he2]
    exact hrec.dump hpq ho' (hl _ hp)

theorem namedtupleSer_rel {rec : Rec} (hrec : Blind E H T fork strict rec) (fields : List PyStr)
    {xs ys : List Val} (h : List.Forall₂ (Alike H) xs ys) {kw : DumpKw} (ho : Opts H T fork strict kw) :
    RelRes (Alike H) (namedtupleSer rec fields xs kw) (namedtupleSer rec fields ys kw) := by
  unfold namedtupleSer
  refine .bind (R := AlikeD H) ?_ fun as bs _ _ hab => .pure hab.val
  have hz : List.Forall₂ (fun p q => p.1 = q.1 ∧ Alike H p.2 q.2) (fields.zip xs) (fields.zip ys) := by
    induction h generalizing fields with
    | nil => cases fields <;> exact .nil
    | cons hx _ ih =>
      cases fields with
      | nil => exact .nil
      | cons f fs => exact .cons ⟨rfl, hx⟩ (ih fs)
  refine .mapRes hz ?_
  rintro p q _ ⟨h1, h2⟩
  refine .bind (hrec.dump h2 ho (fun t ht => by cases ht)) fun a b _ _ hab => ?_
  exact .pure ⟨by rw [h1], hab⟩

theorem tupleSer_rel (D : Discreet E H T fork strict) (M : Met E H T fork strict) {rec : Rec}
    (hrec : Blind E H T fork strict rec)
    {v w : Val} (h : Alike H v w) {cls : Option Ty} (hc : ∀ t, cls = some t → T t) {kw : DumpKw}
    (ho : Opts H T fork strict kw) :
    RelRes (Alike H) (tupleSer E rec v cls kw) (tupleSer E rec w cls kw) := by
  have key : RelRes (Alike H) (tupleCls v cls >>= fun c => iterableSer E rec v c kw)
      (tupleCls w cls >>= fun c => iterableSer E rec w c kw) := by
    have he : tupleCls v cls = tupleCls w cls := by
      unfold tupleCls
      cases cls with
      | none => rfl
      | some t =>
        dsimp only
        rcases h.iter with ⟨h1, h2⟩ | ⟨xs, ys, h1, h2, hxy⟩
        · rw [h1, h2]
        · rw [h1, h2]; dsimp only; rw [hxy.length_eq]
    rw [he]
    refine .bind_same fun c hcc => iterableSer_rel D M hrec h ?_ ho
    unfold tupleCls at hcc
    cases cls with
    | none => cases hcc; intro t ht; cases ht
    | some t =>
      dsimp only at hcc
      split at hcc
      · cases hcc
      · cases hcc; exact hc
      · next hell =>
        split at hcc
        · cases hcc
        · cases hcc
          intro u hu
          cases hu
          have : ∃ l, t = .gen .tupleEll l := by
            unfold tupleWithEllipsis at hell
            split at hell <;> first | exact ⟨_, rfl⟩ | cases hell
          obtain ⟨l, rfl⟩ := this
          exact M.ellipsis _ l (hc _ rfl) rfl _
  cases h with
  | ntuple c h => exact namedtupleSer_rel hrec _ h ho
  | _ => exact key

/-! ## Dicts -/

theorem AlikeD.set {es gs : List (Val × Val)} (h : AlikeD H es gs) (k : Val) {v w : Val}
    (hv : Alike H v w) : AlikeD H (dictSet es k v) (dictSet gs k w) := by
  induction h with
  | nil => exact .cons ⟨rfl, hv⟩ .nil
  | @cons e g es gs hh ht ih =>
    obtain ⟨k1, v1⟩ := e
    obtain ⟨k2, v2⟩ := g
    obtain ⟨h1, h2⟩ := hh
    dsimp only at h1 h2
    subst h1
    simp only [dictSet]
    split
    · exact .cons ⟨rfl, hv⟩ ht
    · exact .cons ⟨rfl, h2⟩ ih

theorem AlikeD.get {es gs : List (Val × Val)} (h : AlikeD H es gs) (k : Val) :
    (dictGet es k = none ∧ dictGet gs k = none) ∨
    ∃ v w, dictGet es k = some v ∧ dictGet gs k = some w ∧ Alike H v w := by
  induction h with
  | nil => exact .inl ⟨rfl, rfl⟩
  | @cons e g es gs hh ht ih =>
    obtain ⟨k1, v1⟩ := e
    obtain ⟨k2, v2⟩ := g
    obtain ⟨h1, h2⟩ := hh
    dsimp only at h1 h2
    subst h1
    simp only [dictGet]
    split
    · exact .inr ⟨_, _, rfl, rfl, h2⟩
    · exact ih

theorem AlikeD.append {es gs es' gs' : List (Val × Val)} (h : AlikeD H es gs) (h' : AlikeD H es' gs') :
    AlikeD H (es ++ es') (gs ++ gs') := by
  induction h with
  | nil => exact h'
  | cons hh _ ih => exact .cons hh ih

theorem storeAndHash_rel {rec : Rec} {acc acc' : List (Val × Val)} (h : AlikeD H acc acc') (k : Val)
    (kw : DumpKw) : RelRes (fun p q => AlikeD H p.1 q.1 ∧ p.2 = q.2)
      (storeAndHash E rec acc k kw) (storeAndHash E rec acc' k kw) := by
  unfold storeAndHash
  split
  · exact .pure ⟨h, rfl⟩
  · refine .bind_same fun d _ => ?_
    split
    · exact .pure ⟨h, rfl⟩
    · dsimp only
      rcases h.get (.str keysKey) with ⟨h1, h2⟩ | ⟨x, y, h1, h2, hxy⟩
      · rw [h1, h2]
        exact .pure ⟨h.append (AlikeD.refl _), rfl⟩
      · rw [h1, h2]
        cases hxy with
        | dict hk hh =>
          exact .pure ⟨h.set _ ((alikeD_iff.2 ⟨hk, hh⟩).set _ (.refl d)).val, rfl⟩
        | _ => exact .raise _

theorem addDumped_rel (kw : DumpKw) {acc acc' : List (Val × Val)} (h : AlikeD H acc acc') (k : Val)
    {d d' : Val} (hd : Alike H d d') :
    ExRel (AlikeD H) (addDumped kw acc k d) (addDumped kw acc' k d') := by
  unfold addDumped
  have he : (d == .none) = (d' == .none) := by
    cases hd <;> simp
  rw [he]
  split
  · exact .ok h
  · cases transformKey kw.keyTransformer k with
    | error e => exact .error e
    | ok k' => exact .ok (h.set _ hd)

theorem dictLoop_rel {rec : Rec} (hrec : Blind E H T fork strict rec) {kw : DumpKw}
    (ho : Opts H T fork strict kw) {es gs : List (Val × Val)} (h : AlikeD H es gs) :
    ∀ {acc acc' : List (Val × Val)}, AlikeD H acc acc' →
      RelRes (AlikeD H) (dictLoop E rec kw es acc) (dictLoop E rec kw gs acc') := by
  induction h with
  | nil => intro acc acc' ha; exact .pure ha
  | @cons e g es gs hh ht ih =>
    intro acc acc' ha
    obtain ⟨k1, v1⟩ := e
    obtain ⟨k2, v2⟩ := g
    obtain ⟨h1, h2⟩ := hh
    dsimp only at h1 h2
    subst h1
    simp only [dictLoop]
    refine .bind (storeAndHash_rel ha k1 kw) ?_
    rintro ⟨r, k⟩ ⟨r', k'⟩ _ _ ⟨hr, hk⟩
    dsimp only at hr hk
    subst hk
    dsimp only
    refine .bind (hrec.dump h2 ho.untyped ?_) fun d d' _ _ hd => ?_
    · intro t ht
      split at ht
      · exact ho.types _ (assoc_mem ht)
      · cases ht
    · refine .bind (.lift (addDumped_rel kw hr k hd)) fun r r' _ _ hr => ih hr

theorem dictSer_rel {rec : Rec} (hrec : Blind E H T fork strict rec) {v w : Val} (h : Alike H v w)
    {kw : DumpKw} (ho : Opts H T fork strict kw) :
    RelRes (Alike H) (dictSer E rec v kw) (dictSer E rec w kw) := by
  cases h with
  | dict hk hh =>
    exact .bind (dictLoop_rel hrec ho (alikeD_iff.2 ⟨hk, hh⟩) .nil) fun a b _ _ hab => .pure hab.val
  | ddict f hk hh =>
    exact .bind (dictLoop_rel hrec ho (alikeD_iff.2 ⟨hk, hh⟩) .nil) fun a b _ _ hab => .pure hab.val
  | atom a => exact .refl Alike.refl _
  | enum c m => exact .refl Alike.refl _
  | obj c _ _ => exact .refl Alike.refl _
  | seq k hh => cases hh <;> exact .refl Alike.refl _
  | ntuple c hh => cases hh <;> exact .refl Alike.refl _

/-! ## Unions -/

theorem unionLoop_rel {rec : Rec} (hrec : Blind E H T fork strict rec) {v w : Val} (h : Alike H v w)
    {kw : DumpKw} (ho : Opts H T fork strict kw) : ∀ (ts : List Ty), (∀ t ∈ ts, T t) →
    RelRes (Alike H) (unionLoop rec v kw ts) (unionLoop rec w kw ts) := by
  intro ts
  induction ts with
  | nil => intro _; exact .raise _
  | cons t ts ih =>
    intro ht
    simp only [unionLoop]
    refine .bind (hrec.dump h ho (fun u hu => by cases hu; exact ht _ List.mem_cons_self)).attempt ?_
    intro a b _ _ hab
    cases hab with
    | ok hab => exact .pure hab
    | error e =>
      dsimp only
      split
      · exact ih fun u hu => ht u (List.mem_cons_of_mem _ hu)
      · exact .raise _

theorem unionSer_rel (M : Met E H T fork strict) {rec : Rec} (hrec : Blind E H T fork strict rec)
    {v w : Val} (h : Alike H v w) {cls : Option Ty} (hc : ∀ t, cls = some t → T t)
    {kw : DumpKw} (ho : Opts H T fork strict kw) :
    RelRes (Alike H) (unionSer rec v cls kw) (unionSer rec w cls kw) := by
  unfold unionSer
  cases hp : cls.bind Ty.unionParams with
  | none => exact .raise _
  | some ts =>
    dsimp only
    have hts : ∀ t ∈ ts, T t := by
      cases cls with
      | none => cases hp
      | some u =>
        have hp : u.unionParams = some ts := hp
        have : u.getArgs = ts := by
          unfold Ty.unionParams at hp
          split at hp <;> cases hp <;> rfl
        intro t ht
        exact M.args u (hc u rfl) t (by rw [this]; exact ht)
    by_cases hn : v = .none ∧ .cls .noneType ∈ ts
    · rw [if_pos hn, if_pos ⟨h.isNone.1 hn.1, hn.2⟩]
      exact .pure h
    · rw [if_neg hn, if_neg fun e => hn ⟨h.isNone.2 e.1, e.2⟩]
      exact unionLoop_rel hrec h ho ts hts

/-! ## Objects -/

theorem storeClsInfo_rel (D : Discreet E H T fork strict) (b : Bool) {d d' a a' : Val} (hd : Alike H d d')
    (ha : Alike H a a') : Alike H (storeClsInfo E b d a) (storeClsInfo E b d' a') := by
  cases hd with
  | dict hk hh =>
    simp only [storeClsInfo]
    rw [clsNameOf_eq D ha]
    split
    · exact ((alikeD_iff.2 ⟨hk, hh⟩).set _ (.refl _)).val
    · exact .dict hk hh
  | atom a => exact .atom a
  | enum c m => exact .enum c m
  | seq k h => exact .seq k h
  | ntuple c h => exact .ntuple c h
  | ddict f hk h => exact .ddict f hk h
  | obj c hs h => exact .obj c hs h

theorem attrLoop_rel (D : Discreet E H T fork strict) {rec : Rec} (hrec : Blind E H T fork strict rec)
    {v w : Val} (h : Alike H v w) {kw : DumpKw} (ho : Opts H T fork strict kw) (pub : Bool)
    (cn : PyStr) : ∀ (as : List (PyStr × Option Ty)) {acc acc' : List (Val × Val)},
      (∀ p ∈ as, Shown H v p.1 ∧ ∀ u, p.2 = some u → T u) → AlikeD H acc acc' →
      RelRes (AlikeD H) (attrLoop E rec kw pub v cn as acc) (attrLoop E rec kw pub w cn as acc') := by
  intro as
  induction as with
  | nil => intro acc acc' _ ha; exact .pure ha
  | cons p as ih =>
    intro acc acc' hp ha
    obtain ⟨name, hint⟩ := p
    obtain ⟨hs, ht⟩ := hp _ List.mem_cons_self
    dsimp only at hs ht
    simp only [attrLoop]
    refine .bind (.lift (getAttr_rel D h hs)) fun a b _ _ hab => ?_
    rw [← hab.cls]
    refine .bind_same fun _ _ => ?_
    refine .bind_same fun fn hfn => ?_
    rw [liftK_ok, ho.fork] at hfn
    have hda : RelRes (Alike H) (dumpAttr E rec kw fn a hint) (dumpAttr E rec kw fn b hint) := by
      cases fn with
      | none => exact .raise _
      | some f =>
        refine .bind (hrec.call hab ho ht hfn) fun d d' _ _ hd => ?_
        exact .pure (storeClsInfo_rel D _ hd hab)
    refine .bind hda.attempt fun d d' _ _ hd => ?_
    cases hd with
    | error e =>
      dsimp only
      split
      · exact .raise _
      · split
        · exact .raise _
        · exact .bind_same fun _ _ => .pure ha
    | ok hd =>
      dsimp only
      refine .bind (.lift (addDumped_rel kw ha _ hd)) fun r r' _ _ hr => ?_
      exact ih (fun p hp' => hp p (List.mem_cons_of_mem _ hp')) hr

mutual
theorem fillVal_rel : ∀ (v w : Val) (pre : PyStr) (coll coll' : List (Val × Val)), Alike H v w →
    AlikeD H coll coll' →
    (∃ k, fillVal v pre coll = .error k ∧ fillVal w pre coll' = .error k) ∨
    ∃ a n c a' n' c', fillVal v pre coll = .ok (a, n, c) ∧ fillVal w pre coll' = .ok (a', n', c') ∧
      Alike H a a' ∧ Alike H n n' ∧ AlikeD H c c'
  | .dict es, .dict gs, pre, coll, coll', h, hc => by
    have h : AlikeD H es gs := by cases h with | dict hk hh => exact alikeD_iff.2 ⟨hk, hh⟩
    have hn : Alike H ((dictGet es (.str clsKey)).getD .none) ((dictGet gs (.str clsKey)).getD .none) := by
      rcases h.get (.str clsKey) with ⟨h1, h2⟩ | ⟨x, y, h1, h2, hxy⟩
      · rw [h1, h2]; exact .refl _
      · rw [h1, h2]; exact hxy
    rcases fillEntries_rel es gs pre coll coll' h hc with ⟨k, h1, h2⟩ | ⟨a, c, a', c', h1, h2, ha, hc⟩
    · exact .inl ⟨k, by simp only [fillVal, h1]; rfl, by simp only [fillVal, h2]; rfl⟩
    · exact .inr ⟨_, _, _, _, _, _, by simp only [fillVal, h1]; rfl, by simp only [fillVal, h2]; rfl,
        ha.val, hn, hc⟩
  | .atom a, w, pre, coll, coll', h, hc => by
    cases h; exact .inr ⟨_, _, _, _, _, _, rfl, rfl, .refl _, .refl _, hc⟩
  | .enum c m, w, pre, coll, coll', h, hc => by
    cases h; exact .inr ⟨_, _, _, _, _, _, rfl, rfl, .refl _, .refl _, hc⟩
  | .seq k xs, w, pre, coll, coll', h, hc => by
    cases h with
    | seq k h => exact .inr ⟨_, _, _, _, _, _, rfl, rfl, .seq k h, .refl _, hc⟩
  | .ntuple k xs, w, pre, coll, coll', h, hc => by
    cases h with
    | ntuple k h => exact .inr ⟨_, _, _, _, _, _, rfl, rfl, .ntuple k h, .refl _, hc⟩
  | .ddict f es, w, pre, coll, coll', h, hc => by
    cases h with
    | ddict f hk h => exact .inr ⟨_, _, _, _, _, _, rfl, rfl, .ddict f hk h, .refl _, hc⟩
  | .obj c as, w, pre, coll, coll', h, hc => by
    cases h with
    | obj c hs h => exact .inr ⟨_, _, _, _, _, _, rfl, rfl, .obj c hs h, .refl _, hc⟩
  | .dict es, .atom _, _, _, _, h, _ => by cases h
  | .dict es, .enum _ _, _, _, _, h, _ => by cases h
  | .dict es, .seq _ _, _, _, _, h, _ => by cases h
  | .dict es, .ntuple _ _, _, _, _, h, _ => by cases h
  | .dict es, .ddict _ _, _, _, _, h, _ => by cases h
  | .dict es, .obj _ _, _, _, _, h, _ => by cases h
termination_by x => sizeOf x
theorem fillEntries_rel : ∀ (es gs : List (Val × Val)) (pre : PyStr) (coll coll' : List (Val × Val)),
    AlikeD H es gs → AlikeD H coll coll' →
    (∃ k, fillEntries es pre coll = .error k ∧ fillEntries gs pre coll' = .error k) ∨
    ∃ a c a' c', fillEntries es pre coll = .ok (a, c) ∧ fillEntries gs pre coll' = .ok (a', c') ∧
      AlikeD H a a' ∧ AlikeD H c c'
  | [], gs, pre, coll, coll', h, hc => by
    cases h
    exact .inr ⟨_, _, _, _, rfl, rfl, .nil, hc⟩
  | (k, v) :: es, [], pre, coll, coll', h, hc => by cases h
  | (k, v) :: es, (k', v') :: gs, pre, coll, coll', h, hc => by
    obtain ⟨hk, hv, hes⟩ : k = k' ∧ Alike H v v' ∧ AlikeD H es gs := by
      cases h with | cons h1 h2 => exact ⟨h1.1, h1.2, h2⟩
    subst hk
    have plain : ∀ (f : List (Val × Val) → PyStr → List (Val × Val) →
        Except ErrKind (List (Val × Val) × List (Val × Val))), f = fillEntries →
        (∃ e, (f es pre coll >>= fun p => Except.ok ((k, v) :: p.1, p.2)) = .error e ∧
          (f gs pre coll' >>= fun p => Except.ok ((k, v') :: p.1, p.2)) = .error e) ∨
        ∃ a c a' c', (f es pre coll >>= fun p => Except.ok ((k, v) :: p.1, p.2)) = .ok (a, c) ∧
          (f gs pre coll' >>= fun p => Except.ok ((k, v') :: p.1, p.2)) = .ok (a', c') ∧
          AlikeD H a a' ∧ AlikeD H c c' := by
      rintro f rfl
      rcases fillEntries_rel es gs pre coll coll' hes hc with ⟨e, h1, h2⟩ | ⟨a, c, a', c', h1, h2, ha, hc⟩
      · exact .inl ⟨e, by rw [h1]; rfl, by rw [h2]; rfl⟩
      · exact .inr ⟨(k, v) :: a, c, (k, v') :: a', c', by rw [h1]; rfl, by rw [h2]; rfl, .cons ⟨rfl, hv⟩ ha, hc⟩
    by_cases hcls : k = .str clsKey
    · have step : ∀ (v : Val) es coll, fillEntries ((k, v) :: es) pre coll = fillEntries es pre coll := by
        intro v es coll
        cases v <;> simp [fillEntries, hcls]
      rw [step, step]
      exact fillEntries_rel es gs pre coll coll' hes hc
    · cases v with
      | dict ds =>
        cases v' with
        | dict ds' =>
          rw [fillEntries.eq_def, fillEntries.eq_def (_ :: gs)]
          dsimp only
          rw [if_neg hcls, if_neg hcls]
          by_cases hmeta : k = .str metaKey
          · simp only [if_pos hmeta]
            exact plain _ rfl
          · simp only [if_neg hmeta]
            by_cases hstr : ∃ s, k = .str s
            · obtain ⟨s, rfl⟩ := hstr
              dsimp only
              rcases fillVal_rel (.dict ds) (.dict ds') (pre ++ s ++ ['/']) coll coll' hv hc with
                ⟨e, h1, h2⟩ | ⟨a, n, c, a', n', c', h1, h2, ha, hn, hc⟩
              · exact .inl ⟨e, by rw [h1]; rfl, by rw [h2]; rfl⟩
              · rw [h1, h2]
                rcases fillEntries_rel es gs pre _ _ hes (hc.set (.str (pre ++ s)) hn) with
                  ⟨e, h3, h4⟩ | ⟨b, d, b', d', h3, h4, hb, hd⟩
                · exact .inl ⟨e, by simp only [bind, Except.bind, h3],
                    by simp only [bind, Except.bind, h4]⟩
                · exact .inr ⟨(.str s, a) :: b, d, (.str s, a') :: b', d', by simp only [bind, Except.bind, h3],
                    by simp only [bind, Except.bind, h4], .cons ⟨rfl, ha⟩ hb, hd⟩
            · refine .inl ⟨.typeError, ?_, ?_⟩
              · split
                · exact absurd ⟨_, rfl⟩ hstr
                · rfl
              · split
                · exact absurd ⟨_, rfl⟩ hstr
                · rfl
        | _ => cases hv
      | atom a => cases hv <;> (simp only [fillEntries]; rw [if_neg hcls, if_neg hcls]; exact plain _ rfl)
      | enum c m => cases hv <;> (simp only [fillEntries]; rw [if_neg hcls, if_neg hcls]; exact plain _ rfl)
      | seq c m => cases hv <;> (simp only [fillEntries]; rw [if_neg hcls, if_neg hcls]; exact plain _ rfl)
      | ntuple c m => cases hv <;> (simp only [fillEntries]; rw [if_neg hcls, if_neg hcls]; exact plain _ rfl)
      | ddict c m => cases hv <;> (simp only [fillEntries]; rw [if_neg hcls, if_neg hcls]; exact plain _ rfl)
      | obj c m => cases hv <;> (simp only [fillEntries]; rw [if_neg hcls, if_neg hcls]; exact plain _ rfl)
termination_by x => sizeOf x
end

theorem dictWithMeta_rel (cn : PyStr) (vb : Verbosity) {es gs : List (Val × Val)} (h : AlikeD H es gs) :
    RelRes (AlikeD H) (Res.liftK (dictWithMeta E es cn vb)) (Res.liftK (dictWithMeta E gs cn vb)) := by
  unfold dictWithMeta
  split
  · exact .pure h
  · have h1 := h.set (.str metaKey) (.refl (.dict []))
    cases hci : vb.classInfo with
    | true =>
      simp only [if_true]
      rcases fillEntries_rel _ _ ['/'] [] [] h1 .nil with ⟨k, h2, h3⟩ | ⟨a, c, a', c', h2, h3, ha, hc⟩
      · rw [h2, h3]
        exact .raise _
      · rw [h2, h3]
        refine .pure (ha.set _ ?_)
        refine AlikeD.val (AlikeD.append (.cons ⟨rfl, ?_⟩ .nil) (.refl _))
        exact (hc.set _ (.refl _)).val
    | false =>
      simp only [Bool.false_eq_true, if_false]
      exact .pure (h1.set _ (.refl _))

theorem sorted_ext {l m : List PyStr} (hl : l.Pairwise Before) (hm : m.Pairwise Before)
    (h : ∀ n, n ∈ l ↔ n ∈ m) : l = m := by
  induction l generalizing m with
  | nil =>
    cases m with
    | nil => rfl
    | cons b m => exact absurd ((h b).2 List.mem_cons_self) (by simp)
  | cons a l ih =>
    cases m with
    | nil => exact absurd ((h a).1 List.mem_cons_self) (by simp)
    | cons b m =>
      have hl' := List.pairwise_cons.1 hl
      have hm' := List.pairwise_cons.1 hm
      have hab : a = b := by
        by_contra hne
        have h1 : b ∈ l := by
          rcases List.mem_cons.1 ((h b).2 List.mem_cons_self) with e | e
          · exact absurd e.symm hne
          · exact e
        have h2 : a ∈ m := by
          rcases List.mem_cons.1 ((h a).1 List.mem_cons_self) with e | e
          · exact absurd e hne
          · exact e
        exact hne (strLe_antisymm (hl'.1 b h1).1 (hm'.1 a h2).1)
      subst hab
      rw [ih hl'.2 hm'.2]
      intro n
      have := h n
      simp only [List.mem_cons] at this
      constructor
      · intro hn
        rcases this.1 (.inr hn) with e | e
        · subst e; exact absurd rfl (hl'.1 _ hn).2
        · exact e
      · intro hn
        rcases this.2 (.inr hn) with e | e
        · subst e; exact absurd rfl (hm'.1 _ hn).2
        · exact e

theorem go_filter (I : ClassInfo) (kw : DumpKw) (strip : List PyStr) (f : PyStr → Option Ty) (l : List PyStr) :
    filterAttributes.go I kw strip (l.map fun n => (n, f n)) =
      filterAttributes.go I kw strip
        ((l.filter fun n => decide (keepAttr I kw strip n ≠ .ok false)).map fun n => (n, f n)) := by
  induction l with
  | nil => rfl
  | cons n l ih =>
    by_cases hk : keepAttr I kw strip n = .ok false
    · rw [List.filter_cons_of_neg (by simp [hk]), ← ih]
      simp only [List.map_cons, filterAttributes.go, hk]
      cases filterAttributes.go I kw strip (l.map fun n => (n, f n)) <;> rfl
    · rw [List.filter_cons_of_pos (by simp [hk])]
      simp only [List.map_cons, filterAttributes.go, ih]

theorem keep_stripped {I : ClassInfo} {kw : DumpKw} {n : PyStr} (h : Stripped kw n) {strip : List PyStr}
    (hs : n ∈ stripNames kw.stripAttr → n ∈ strip) : keepAttr I kw strip n = .ok false := by
  unfold keepAttr
  dsimp only
  cases h with
  | privates hp hn =>
    cases n with
    | nil => cases hn
    | cons c n =>
      cases hn
      split
      · rfl
      · rw [if_pos]
        rw [hp]
        simp
  | dunder hn =>
    rw [if_pos]
    rw [List.isPrefixOf_iff_prefix]
    exact hn
  | name hn =>
    have : strip.contains n = true := by simpa using hs hn
    split
    · rfl
    · split
      · rfl
      · split
        · rfl
        · split
          · rfl
          · first | rfl | rw [if_pos this]

/-- Which names the loops of objects get to see. -/
theorem kept_shown {kw : DumpKw} (ho : Opts H T fork strict kw) {I : ClassInfo}
    {ps r : List (PyStr × Option Ty)}
    (h : filterAttributes I kw (normalizeStripAttr kw.stripAttr) ps = .ok r) :
    (∀ p ∈ r, p ∈ ps) ∧ ∀ p ∈ r, ∀ c, ¬ H c p.1 := by
  have hsn := stripNames_normalize kw.stripAttr
  have key : ∀ l, (∀ n, n ∈ stripNames kw.stripAttr → n ∈ l) →
      filterAttributes.go I kw l ps = .ok r → (∀ p ∈ r, p ∈ ps) ∧ ∀ p ∈ r, ∀ c, ¬ H c p.1 := by
    intro l hl h
    have h := go_spec h
    refine ⟨fun p hp => ((h.2 p).1 hp).1, fun p hp c hc => ?_⟩
    have h1 := ((h.2 p).1 hp).2
    rw [keep_stripped (ho.hides c _ hc) (hl _)] at h1
    cases h1
  unfold filterAttributes at h
  cases hn : normalizeStripAttr kw.stripAttr with
  | tuple l =>
    rw [hn] at h hsn
    exact key _ (fun n hx => by rw [← hsn] at hx; exact List.mem_append_left _ hx) h
  | tupleOfSet =>
    rw [hn] at h hsn
    exact key _ (fun n hx => by rw [← hsn] at hx; cases hx) h
  | none => rw [hn] at h; cases h
  | name s => rw [hn] at h; cases h
  | list l => rw [hn] at h; cases h
  | set l => rw [hn] at h; cases h

theorem assoc_isSome {β : Type} {l : List (PyStr × β)} {n : PyStr} :
    (assoc l n).isSome = true ↔ n ∈ l.map (·.1) := by
  induction l with
  | nil => simp [assoc]
  | cons p l ih =>
    obtain ⟨m, b⟩ := p
    simp only [assoc, List.map_cons, List.mem_cons]
    split
    · next e => subst e; simp
    · next e =>
      rw [ih]
      constructor
      · exact .inr
      · rintro (h | h)
        · exact absurd h.symm e
        · exact h

theorem fromObject_eq {kw : DumpKw} (ho : Opts H T fork strict kw) {I : ClassInfo} {c : Nat}
    {as bs : List (PyStr × Val)}
    (hs : ∀ n, ¬ H c n → (assoc as n).isSome = (assoc bs n).isSome) :
    attributesFromObject I as kw (normalizeStripAttr kw.stripAttr) =
      attributesFromObject I bs kw (normalizeStripAttr kw.stripAttr) := by
  have hsn := stripNames_normalize kw.stripAttr
  have key : ∀ l, (∀ n, n ∈ stripNames kw.stripAttr → n ∈ l) → ∀ f : PyStr → Option Ty,
      filterAttributes.go I kw l ((dirNames I as).map fun n => (n, f n)) =
      filterAttributes.go I kw l ((dirNames I bs).map fun n => (n, f n)) := by
    intro l hl f
    rw [go_filter, go_filter I kw l f (dirNames I bs)]
    have : ((dirNames I as).filter fun n => decide (keepAttr I kw l n ≠ .ok false)) =
        (dirNames I bs).filter fun n => decide (keepAttr I kw l n ≠ .ok false) := by
      refine sorted_ext ((dirNames_sorted I as).filter _) ((dirNames_sorted I bs).filter _) ?_
      intro n
      simp only [List.mem_filter, mem_dirNames, decide_eq_true_eq]
      refine and_congr_left fun hk => or_congr_left ?_
      have hn : ¬ H c n := fun hh => hk (keep_stripped (ho.hides c n hh) (hl n))
      rw [← assoc_isSome, ← assoc_isSome, hs n hn]
    rw [this]
  unfold attributesFromObject filterAttributes
  cases hn : normalizeStripAttr kw.stripAttr with
  | tuple l =>
    rw [hn] at hsn
    exact key _ (fun n hx => by rw [← hsn] at hx; exact List.mem_append_left _ hx) _
  | tupleOfSet =>
    rw [hn] at hsn
    exact key _ (fun n hx => by rw [← hsn] at hx; cases hx) _
  | none => rfl
  | name s => rfl
  | list l => rfl
  | set l => rfl

theorem assocSet_mem {β : Type} {l : List (PyStr × β)} {n : PyStr} {b : β} {p : PyStr × β}
    (h : p ∈ assocSet l n b) : p ∈ l ∨ p.2 = b := by
  induction l with
  | nil => simp only [assocSet, List.mem_singleton] at h; subst h; exact .inr rfl
  | cons q l ih =>
    obtain ⟨m, c⟩ := q
    simp only [assocSet] at h
    split at h
    · rcases List.mem_cons.1 h with rfl | h
      · exact .inr rfl
      · exact .inl (List.mem_cons_of_mem _ h)
    · rcases List.mem_cons.1 h with rfl | h
      · exact .inl List.mem_cons_self
      · rcases ih h with h | h
        · exact .inl (List.mem_cons_of_mem _ h)
        · exact .inr h

theorem known_hints (I : ClassInfo) (st : Bool) {p : PyStr × Option Ty}
    (hp : p ∈ attributesAndTypes I st) {t : Ty} (ht : p.2 = some t) :
    ∃ q ∈ I.hints ++ I.initHints, q.2 = t := by
  have fold : ∀ (ms : List (PyStr × Member)) (l : List (PyStr × Option Ty)),
      p ∈ ms.foldl (fun as p => assocSet as p.1 none) l → p ∈ l := by
    intro ms
    induction ms with
    | nil => intro l h; exact h
    | cons m ms ih =>
      intro l h
      rcases assocSet_mem (ih _ h) with h' | h'
      · exact h'
      · rw [h'] at ht; cases ht
  unfold attributesAndTypes at hp
  have hp := fold _ _ hp
  split at hp
  · obtain ⟨n, _, rfl⟩ := List.mem_map.1 hp
    cases ht
  · split at hp
    · obtain ⟨q, hq, rfl⟩ := List.mem_map.1 hp
      cases ht
      exact ⟨q, List.mem_append_left _ hq, rfl⟩
    · split at hp
      · obtain ⟨q, hq, rfl⟩ := List.mem_map.1 hp
        cases ht
        exact ⟨q, List.mem_append_right _ (List.mem_filter.1 hq).1, rfl⟩
      · cases hp

theorem fromObject_fine (M : Met E H T fork strict) {kw : DumpKw} (ho : Opts H T fork strict kw) {c : Nat}
    {as : List (PyStr × Val)} {r : List (PyStr × Option Ty)}
    (h : attributesFromObject (E.info c) as kw (normalizeStripAttr kw.stripAttr) = .ok r) (v : Val) :
    ∀ p ∈ r, Shown H v p.1 ∧ ∀ u, p.2 = some u → T u := by
  have hk := kept_shown ho h
  intro p hp
  refine ⟨fun d _ _ => hk.2 p hp d, fun u hu => ?_⟩
  obtain ⟨n, _, rfl⟩ := List.mem_map.1 (hk.1 p hp)
  dsimp only at hu
  cases ha : assoc (attributesAndTypes (E.info c) kw.strict) n with
  | none => rw [ha] at hu; cases hu
  | some o =>
    rw [ha] at hu
    obtain ⟨q, hq, e⟩ := known_hints _ _ (assoc_mem ha) (p := (n, o)) hu
    rw [← e]
    exact M.hints c q hq

theorem fromClass_fine {kw : DumpKw} (ho : Opts H T fork strict kw) {I : ClassInfo}
    (hI : ∀ p ∈ I.hints ++ I.initHints, T p.2) {r : List (PyStr × Option Ty)}
    (h : attributesFromClass I kw (normalizeStripAttr kw.stripAttr) = .ok r) (v : Val) :
    ∀ p ∈ r, Shown H v p.1 ∧ ∀ u, p.2 = some u → T u := by
  have h : filterAttributes I kw (normalizeStripAttr kw.stripAttr) (attributesAndTypes I kw.strict) = .ok r := by
    unfold attributesFromClass at h
    split at h
    · exact h
    · cases h
  have hk := kept_shown ho h
  intro p hp
  refine ⟨fun d _ _ => hk.2 p hp d, fun u hu => ?_⟩
  obtain ⟨q, hq, e⟩ := known_hints _ _ (hk.1 p hp) hu
  rw [← e]
  exact hI q hq

theorem objectSerWith_rel (D : Discreet E H T fork strict) {rec : Rec} (hrec : Blind E H T fork strict rec)
    {v w : Val} (h : Alike H v w) {kw : DumpKw} (ho : Opts H T fork strict kw) (t : Ty) (I : ClassInfo)
    (attrs : Except Err (List (PyStr × Option Ty)))
    (ha : ∀ r, attrs = .ok r → ∀ p ∈ r, Shown H v p.1 ∧ ∀ u, p.2 = some u → T u) :
    RelRes (Alike H) (objectSerWith E rec v kw (normalizeStripAttr kw.stripAttr) t I attrs)
      (objectSerWith E rec w kw (normalizeStripAttr kw.stripAttr) t I attrs) := by
  unfold objectSerWith
  refine .bind_same fun as has => ?_
  rw [lift_val] at has
  refine .bind (attrLoop_rel D hrec h (ho.attr _) _ _ as (ha as has) .nil) fun r r' _ _ hr => ?_
  split
  · exact .pure hr.val
  · exact .bind (dictWithMeta_rel _ _ hr) fun a b _ _ hab => .pure hab.val

theorem objectSer_rel (D : Discreet E H T fork strict) (M : Met E H T fork strict) {rec : Rec}
    (hrec : Blind E H T fork strict rec)
    {v w : Val} (h : Alike H v w) {kw : DumpKw} (ho : Opts H T fork strict kw) (cls : Option Ty) :
    RelRes (Alike H) (objectSer E rec v cls kw) (objectSer E rec w cls kw) := by
  have hobj : RelRes (Alike H) (objectSer E rec v none kw) (objectSer E rec w none kw) := by
    have hforeign : RelRes (Alike H)
        (objectSerWith E rec v kw (normalizeStripAttr kw.stripAttr) (.cls v.cls) ClassInfo.object
          (E.foreignAttrs v none kw))
        (objectSerWith E rec w kw (normalizeStripAttr kw.stripAttr) (.cls w.cls) ClassInfo.object
          (E.foreignAttrs w none kw)) := by
      obtain ⟨h1, h2⟩ := D.foreign v w none kw h
      rw [← h1, ← h.cls]
      exact objectSerWith_rel D hrec h ho _ _ _ h2
    have h0 := h
    cases h with
    | obj c hs _ =>
      unfold objectSer
      dsimp only
      rw [← fromObject_eq ho hs]
      exact objectSerWith_rel D hrec h0 ho _ _ _ fun r hr => fromObject_fine M ho hr _
    | _ => exact hforeign
  cases cls with
  | none => exact hobj
  | some t =>
    by_cases hst : kw.strict = true
    · unfold objectSer
      dsimp only
      rw [if_pos hst, if_pos hst]
      have hforeign : RelRes (Alike H)
          (objectSerWith E rec v kw (normalizeStripAttr kw.stripAttr) t ClassInfo.object
            (E.foreignAttrs v (some t) kw))
          (objectSerWith E rec w kw (normalizeStripAttr kw.stripAttr) t ClassInfo.object
            (E.foreignAttrs w (some t) kw)) := by
        obtain ⟨h1, h2⟩ := D.foreign v w (some t) kw h
        rw [← h1]
        exact objectSerWith_rel D hrec h ho _ _ _ h2
      split
      · next c => exact objectSerWith_rel D hrec h ho _ _ _ fun r hr => fromClass_fine ho (M.hints c) hr _
      · exact objectSerWith_rel D hrec h ho _ _ _ fun r hr =>
          fromClass_fine ho (fun p hp => by simp [ClassInfo.object] at hp) hr _
      · exact hforeign
    · have e : ∀ x, objectSer E rec x (some t) kw = objectSer E rec x none kw := by
        intro x
        unfold objectSer
        dsimp only
        rw [if_neg hst]
      rw [e, e]
      exact hobj

/-! ## The recursion -/

theorem callSer_rel (D : Discreet E H T fork strict) (M : Met E H T fork strict) {rec : Rec}
    (hrec : Blind E H T fork strict rec) {f : SerFn}
    {v w : Val} (h : Alike H v w) {cls : Option Ty} {kw : DumpKw} (ho : Opts H T fork strict kw)
    (hc : ∀ t, cls = some t → T t) (hg : E.getSer fork (cls.getD (.cls v.cls)) = .ok (some f)) :
    RelRes (Alike H) (callSer E rec f v cls kw) (callSer E rec f w cls kw) := by
  have hl := look_shown M hc hg
  cases f with
  | tuple => exact tupleSer_rel D M hrec h hc ho
  | complex => exact complexSer_rel D h fun n hn => hl (.inr rfl) hn
  | datetime => exact toStr_rel h _ _ _
  | date => exact toStr_rel h _ _ _
  | time => exact toStr_rel h _ _ _
  | timezone => exact timezoneSer_rel h _ _
  | timedelta => exact timedeltaSer_rel h
  | primitive => exact primitiveSer_rel D h _
  | enum => exact enumSer_rel D h (fun n hn => hl (.inl rfl) hn) _
  | dict => exact dictSer_rel hrec h ho
  | list => exact listSer_rel M hrec h hc ho
  | iterable => exact iterableSer_rel D M hrec h hc ho
  | object => exact objectSer_rel D M hrec h ho _
  | uuid => simp only [callSer, strSer]; rw [strOf_eq D h]; exact .refl Alike.refl _
  | decimal => simp only [callSer, strSer]; rw [strOf_eq D h]; exact .refl Alike.refl _
  | union => exact unionSer_rel M hrec h hc ho
  | path => exact pathSer_rel h
  | zoneinfo => exact zoneinfoSer_rel h
  | custom id => exact D.custom id rec v w cls kw hrec h ho hc

theorem dumpWith_rel {rec : Rec} (hrec : Blind E H T fork strict rec)
    {v w : Val} (h : Alike H v w) {cls : Option Ty} {kw : DumpKw} (ho : Opts H T fork strict kw)
    (hc : ∀ t, cls = some t → T t) :
    RelRes (Alike H) (dumpWith E rec v cls kw) (dumpWith E rec w cls kw) := by
  unfold dumpWith
  dsimp only
  rw [← h.cls]
  refine .bind_same fun fn hfn => ?_
  rw [liftK_ok, ho.fork] at hfn
  refine .bind_same fun _ _ => ?_
  have key : RelRes (Alike H)
      (match (generalizing := false) fn with
        | some f => rec.call f v cls kw
        | none => Res.raise { kind := .typeError })
      (match (generalizing := false) fn with
        | some f => rec.call f w cls kw
        | none => Res.raise { kind := .typeError }) := by
    cases fn with
    | none => exact .raise _
    | some f => exact hrec.call h ho hc hfn
  refine .bind key.attempt fun a b _ _ hab => ?_
  cases hab with
  | ok hab => exact .pure hab
  | error e => exact .raise _

theorem blind (D : Discreet E H T fork strict) (M : Met E H T fork strict) (n : Nat) :
    Blind E H T fork strict (recOf E n) := by
  induction n with
  | zero => exact ⟨fun _ _ _ => .raise _, fun _ _ _ _ => .raise _⟩
  | succ n ih =>
    exact ⟨fun h ho hc => dumpWith_rel ih h ho hc, fun h ho hc hg => callSer_rel D M ih h ho hc hg⟩

mutual
/-- There are no objects in the value. -/
def noObj : Val → Bool
  | .obj _ _ => false
  | .seq _ xs | .ntuple _ xs => noObjs xs
  | .dict es | .ddict _ es => noObjEntries es
  | _ => true
/-- The elements. -/
def noObjs : List Val → Bool
  | [] => true
  | x :: xs => noObj x && noObjs xs
/-- The values of entries. -/
def noObjEntries : List (Val × Val) → Bool
  | [] => true
  | (_, v) :: es => noObj v && noObjEntries es
end

mutual
theorem alike_eq : ∀ (v w : Val), Alike H v w → noObj v = true → v = w
  | .atom a, w, h, _ => by cases h; rfl
  | .enum c m, w, h, _ => by cases h; rfl
  | .obj c as, w, h, hn => by cases hn
  | .seq k xs, w, h, hn => by
    cases h with
    | seq k h => rw [alikes_eq xs _ h hn]
  | .ntuple k xs, w, h, hn => by
    cases h with
    | ntuple k h => rw [alikes_eq xs _ h hn]
  | .dict es, w, h, hn => by
    cases h with
    | dict hk h => rw [alikeD_eq es _ (alikeD_iff.2 ⟨hk, h⟩) hn]
  | .ddict f es, w, h, hn => by
    cases h with
    | ddict f hk h => rw [alikeD_eq es _ (alikeD_iff.2 ⟨hk, h⟩) hn]
termination_by structural x => x
theorem alikes_eq : ∀ (xs ys : List Val), List.Forall₂ (Alike H) xs ys → noObjs xs = true → xs = ys
  | [], _, h, _ => by cases h; rfl
  | x :: xs, ys, h, hn => by
    simp only [noObjs, Bool.and_eq_true] at hn
    cases h with
    | cons h1 h2 => rw [alike_eq x _ h1 hn.1, alikes_eq xs _ h2 hn.2]
termination_by structural x => x
theorem alikeD_eq : ∀ (es gs : List (Val × Val)), AlikeD H es gs → noObjEntries es = true → es = gs
  | [], _, h, _ => by cases h; rfl
  | (k, v) :: es, gs, h, hn => by
    simp only [noObjEntries, Bool.and_eq_true] at hn
    cases h with
    | @cons _ g _ gs h1 h2 =>
      obtain ⟨k', v'⟩ := g
      obtain ⟨e1, e2⟩ := h1
      dsimp only at e1 e2
      rw [e1, alike_eq v _ e2 hn.1, alikeD_eq es _ h2 hn.2]
termination_by structural x => x
end

end

/-! ## C92 -/

/-- What two calls have in common if they cannot be told apart: the same warnings and
announcements, the same exception, and the same result if there are no objects in it. -/
structure Undistinguished (x y : Res Val) : Prop where
  log : x.log = y.log
  error : ∀ e, x.val = .error e ↔ y.val = .error e
  ok : ∀ r, noObj r = true → (x.val = .ok r ↔ y.val = .ok r)

theorem ExRel.symm_cases {H : Nat → PyStr → Prop} {x y : Res Val} (h : RelRes (Alike H) x y) :
    (∃ a b, x.val = .ok a ∧ y.val = .ok b ∧ Alike H a b) ∨ ∃ e, x.val = .error e ∧ y.val = .error e := by
  have h := h.val
  generalize x.val = a at h
  generalize y.val = b at h
  cases h with
  | ok h => exact .inl ⟨_, _, rfl, rfl, h⟩
  | error e => exact .inr ⟨e, rfl, rfl⟩

mutual
theorem alike_noObj {H : Nat → PyStr → Prop} : ∀ (v w : Val), Alike H v w → noObj w = true → noObj v = true
  | .atom a, w, h, hn => by cases h; exact hn
  | .enum c m, w, h, hn => by cases h; exact hn
  | .obj c as, w, h, hn => by cases h; cases hn
  | .seq k xs, w, h, hn => by
    cases h with
    | seq k h => exact alikes_noObj xs _ h hn
  | .ntuple k xs, w, h, hn => by
    cases h with
    | ntuple k h => exact alikes_noObj xs _ h hn
  | .dict es, w, h, hn => by
    cases h with
    | dict hk h => exact alikeD_noObj es _ (alikeD_iff.2 ⟨hk, h⟩) hn
  | .ddict f es, w, h, hn => by
    cases h with
    | ddict f hk h => exact alikeD_noObj es _ (alikeD_iff.2 ⟨hk, h⟩) hn
termination_by structural x => x
theorem alikes_noObj {H : Nat → PyStr → Prop} : ∀ (xs ys : List Val), List.Forall₂ (Alike H) xs ys →
    noObjs ys = true → noObjs xs = true
  | [], _, h, _ => rfl
  | x :: xs, ys, h, hn => by
    cases h with
    | cons h1 h2 =>
      simp only [noObjs, Bool.and_eq_true] at hn ⊢
      exact ⟨alike_noObj x _ h1 hn.1, alikes_noObj xs _ h2 hn.2⟩
termination_by structural x => x
theorem alikeD_noObj {H : Nat → PyStr → Prop} : ∀ (es gs : List (Val × Val)), AlikeD H es gs →
    noObjEntries gs = true → noObjEntries es = true
  | [], _, h, _ => rfl
  | (k, v) :: es, gs, h, hn => by
    cases h with
    | @cons _ g _ gs h1 h2 =>
      obtain ⟨k', v'⟩ := g
      simp only [noObjEntries, Bool.and_eq_true] at hn ⊢
      exact ⟨alike_noObj v _ h1.2 hn.1, alikeD_noObj es _ h2 hn.2⟩
termination_by structural x => x
end

theorem RelRes.undistinguished {H : Nat → PyStr → Prop} {x y : Res Val} (h : RelRes (Alike H) x y) :
    Undistinguished x y := by
  refine ⟨h.log, ?_, ?_⟩
  · intro e
    rcases ExRel.symm_cases h with ⟨a, b, h1, h2, _⟩ | ⟨e', h1, h2⟩
    · rw [h1, h2]; simp
    · rw [h1, h2]
  · intro r hr
    rcases ExRel.symm_cases h with ⟨a, b, h1, h2, hab⟩ | ⟨e', h1, h2⟩
    · rw [h1, h2]
      constructor
      · intro e
        cases e
        rw [alike_eq _ _ hab hr]
      · intro e
        cases e
        rw [alike_eq _ _ hab (alike_noObj _ _ hab hr)]
    · rw [h1, h2]

/-- C92 (partial): values that differ only in stripped attributes, at whatever depth, cannot
be told apart by what `dump` does with them: it gives the same result, raises the same
exception and emits the same warnings; in any mode, with any other options, with any
serializers, and however deep the stack is.  It is needed that the functions of the program
do not tell what is hidden, and that no object that hides one of the attributes `name`,
`value`, `real` and `imag` is taken for an enum member or a complex number.  Missing: keys of
dicts have to be the same. -/
theorem hidden_stays_hidden_partial (E : Env) (H : Nat → PyStr → Prop) (T : Ty → Prop) (n : Nat)
    (v w : Val) (cls : Option Ty) (kw : DumpKw)
    (hs : ∀ c a, H c a → Stripped kw a)
    (hD : Discreet E H T kw.fork kw.strict) (hM : Met E H T kw.fork kw.strict)
    (hc : ∀ t, cls = some t → T t) (ht : ∀ p ∈ kw.types, T p.2) (h : Alike H v w) :
    Undistinguished (dump E n v cls kw) (dump E n w cls kw) :=
  ((blind hD hM n).dump h ⟨hs, rfl, rfl, ht⟩ hc).undistinguished

/-- The private attributes: those that start with an underscore. -/
def Private (_ : Nat) (n : PyStr) : Prop := n.head? = some '_'

/-- C92 for private attributes (partial): with `strip_privates` they do not influence the dump,
whatever the types of the values and attributes are. -/
theorem privates_hidden_partial (E : Env) (n : Nat) (v w : Val) (cls : Option Ty) (kw : DumpKw)
    (hp : kw.stripPrivates = true) (hD : Discreet E Private (fun _ => True) kw.fork kw.strict)
    (h : Alike Private v w) : Undistinguished (dump E n v cls kw) (dump E n w cls kw) := by
  refine hidden_stays_hidden_partial E Private (fun _ => True) n v w cls kw
    (fun c a ha => .privates hp ha) hD ?_ (fun _ _ => trivial) (fun _ _ => trivial) h
  refine ⟨fun _ _ _ _ => trivial, fun _ _ _ _ _ => trivial, fun _ _ _ => trivial,
    fun _ _ => ⟨trivial, trivial, trivial⟩, ?_⟩
  intro t c f _ _ _ a ha hh
  unfold Private at hh
  simp only [readNames, List.map_cons, List.map_nil, List.mem_cons, List.not_mem_nil, or_false] at ha
  rcases ha with rfl | rfl | rfl | rfl <;> exact absurd hh (by decide)

theorem json_noObj {info : Nat → ClassInfo} {r : Val} (h : Json info r) : noObj r = true := by
  have hl : ∀ xs : List Val, (∀ x ∈ xs, noObj x = true) → noObjs xs = true := by
    intro xs
    induction xs with
    | nil => intro _; rfl
    | cons x xs ih =>
      intro h
      simp only [noObjs, Bool.and_eq_true]
      exact ⟨h x List.mem_cons_self, ih fun y hy => h y (List.mem_cons_of_mem _ hy)⟩
  have hd : ∀ es : List (Val × Val), (∀ e ∈ es, noObj e.2 = true) → noObjEntries es = true := by
    intro es
    induction es with
    | nil => intro _; rfl
    | cons e es ih =>
      obtain ⟨k, x⟩ := e
      intro h
      simp only [noObjEntries, Bool.and_eq_true]
      exact ⟨h _ List.mem_cons_self, ih fun y hy => h y (List.mem_cons_of_mem _ hy)⟩
  induction h with
  | leaf h => rename_i x; cases x <;> first | rfl | exact absurd h (by simp [JsonLeaf])
  | list _ ih => exact hl _ ih
  | dict _ _ ih => exact hd _ ih

/-- C92 and C30 together: where `dump` makes JSON types only, stripped attributes do not
influence the dump at all. -/
theorem hidden_dump_equal_partial (E : Env) (n : Nat) (v w : Val) (cls : Option Ty) (kw : DumpKw)
    (hp : kw.stripPrivates = true) (hD : Discreet E Private (fun _ => True) kw.fork kw.strict)
    (hds : DefaultSers E kw.fork) (hkind : ∀ x, Reachable E v x → RightKind E x)
    (hraw : Props.DumpShape.RawOk E v kw.useEnumName (Json E.info)) (hst : kw.storeCls = false)
    (h : Alike Private v w) : dump E n v cls kw = dump E n w cls kw := by
  have hu := privates_hidden_partial E n v w cls kw hp hD h
  refine res_ext hu.log ?_
  cases hr : (dump E n v cls kw).val with
  | error e => exact ((hu.error e).1 hr).symm
  | ok r =>
    have hj := Props.DumpShape.dump_json_partial E n v cls kw r hds hkind hraw hst hr
    exact ((hu.ok r (json_noObj hj)).1 hr).symm

/-! ## Examples and negations -/

theorem demo_discreet (H : Nat → PyStr → Prop) (T : Ty → Prop) (fork : Nat) (strict : Bool) :
    Discreet (demoEnv demoInfo) H T fork strict where
  prop := fun _ _ _ _ _ h => .ok h
  str := fun _ _ _ => rfl
  int := fun _ _ _ => rfl
  float := fun _ _ _ => rfl
  getType := fun _ _ h => by show Ty.cls _ = Ty.cls _; rw [h.cls]
  typeName := fun _ _ _ => rfl
  attr := fun _ _ _ _ => .error _
  foreign := fun _ _ _ _ _ => ⟨rfl, fun as h => by cases h; intro p hp; cases hp⟩
  custom := fun _ _ _ _ _ _ _ _ _ _ => .raise _

/-- A person with a secret, in a list, in an attribute of another person. -/
def withSecret (x : Val) : Val :=
  .obj 5 [("_pin".toList, x), ("name".toList, .str "Ann".toList),
    ("born".toList, .list [.obj 5 [("name".toList, .str "Bob".toList), ("_pin".toList, x)]])]

/-- The same with other secrets, and with the attributes in another order. -/
def otherSecret : Val :=
  .obj 5 [("born".toList, .list [.obj 5 [("name".toList, .str "Bob".toList)]]),
    ("name".toList, .str "Ann".toList), ("_pin".toList, .set [.int 3]), ("_log".toList, .none)]

theorem secrets_alike (x : Val) : Alike Private (withSecret x) otherSecret := by
  have inner : Alike Private (.list [.obj 5 [("name".toList, .str "Bob".toList), ("_pin".toList, x)]])
      (.list [.obj 5 [("name".toList, .str "Bob".toList)]]) := by
    refine .seq _ (.cons (.obj 5 ?_ ?_) .nil)
    · intro n hn
      have : "_pin".toList ≠ n := by rintro rfl; exact hn rfl
      simp only [assoc]
      by_cases h1 : "name".toList = n
      · simp [h1]
      · rw [if_neg h1, if_neg h1, if_neg this]
    · intro n a b hn ha hb
      have : "_pin".toList ≠ n := by rintro rfl; exact hn rfl
      simp only [assoc] at ha hb
      by_cases h1 : "name".toList = n
      · rw [if_pos h1] at ha hb; cases ha; cases hb; exact .atom _
      · rw [if_neg h1] at hb; cases hb
  refine .obj 5 ?_ ?_
  · intro n hn
    have h1 : "_pin".toList ≠ n := by rintro rfl; exact hn rfl
    have h2 : "_log".toList ≠ n := by rintro rfl; exact hn rfl
    simp only [assoc, if_neg h1, if_neg h2]
    by_cases h3 : "name".toList = n
    · have : "born".toList ≠ n := by rintro rfl; exact absurd h3 (by decide)
      simp only [if_neg this, if_pos h3]
    · by_cases h4 : "born".toList = n <;> simp only [if_neg h3, if_pos, h4] <;> rfl
  · intro n a b hn ha hb
    have h1 : "_pin".toList ≠ n := by rintro rfl; exact hn rfl
    have h2 : "_log".toList ≠ n := by rintro rfl; exact hn rfl
    simp only [assoc, if_neg h1, if_neg h2] at ha hb
    by_cases h3 : "name".toList = n
    · have : "born".toList ≠ n := by rintro rfl; exact absurd h3 (by decide)
      rw [if_pos h3] at ha
      rw [if_neg this, if_pos h3] at hb
      cases ha; cases hb
      exact .atom _
    · rw [if_neg h3] at ha hb
      by_cases h4 : "born".toList = n
      · rw [if_pos h4] at ha hb
        cases ha; cases hb
        exact inner
      · rw [if_neg h4] at hb
        cases hb

/-- The theorem at work: whatever the secret is, the dump is that of the other one. -/
example (x : Val) (n : Nat) (strict : Bool) :
    Undistinguished (dump (demoEnv demoInfo) n (withSecret x) none { stripPrivates := true, strict := strict })
      (dump (demoEnv demoInfo) n otherSecret none { stripPrivates := true, strict := strict }) :=
  privates_hidden_partial _ n _ _ none _ rfl (demo_discreet _ _ _ _) (secrets_alike x)

/-- What it is. -/
example : (dump (demoEnv demoInfo) 9 otherSecret none { stripPrivates := true }).val =
    .ok (.dict [(.str "born".toList, .list [.dict [(.str "name".toList, .str "Bob".toList)]]),
      (.str "name".toList, .str "Ann".toList)]) := by rfl

/-- Without the option the secret shows. -/
example : (dump (demoEnv demoInfo) 9 (withSecret (.int 1)) none {}).val ≠
    (dump (demoEnv demoInfo) 9 (withSecret (.int 2)) none {}).val := by decide +kernel

/-- The attribute `name` of persons, and nothing else, is hidden. -/
def Name (c : Nat) (n : PyStr) : Prop := c = 5 ∧ n = "name".toList

theorem names_alike (s t : PyStr) :
    Alike Name (.obj 5 [("name".toList, .str s)]) (.obj 5 [("name".toList, .str t)]) := by
  refine .obj 5 ?_ ?_
  · intro n hn
    have : "name".toList ≠ n := by rintro rfl; exact hn ⟨rfl, rfl⟩
    simp only [assoc, if_neg this]
  · intro n a b hn ha hb
    have : "name".toList ≠ n := by rintro rfl; exact hn ⟨rfl, rfl⟩
    simp only [assoc, if_neg this] at ha
    cases ha

/-- With `strip_attr='name'`, without types and not in strict mode, the theorem applies to
names, too. -/
example (s t : PyStr) (n : Nat) :
    Undistinguished
      (dump (demoEnv demoInfo) n (.list [.enum 2 "RED".toList, .obj 5 [("name".toList, .str s)]]) none
        { stripAttr := .name "name".toList })
      (dump (demoEnv demoInfo) n (.list [.enum 2 "RED".toList, .obj 5 [("name".toList, .str t)]]) none
        { stripAttr := .name "name".toList }) := by
  refine hidden_stays_hidden_partial _ Name (fun t => t ∈ [.cls .int]) n _ _ none _ ?_
    (demo_discreet _ _ _ _) ?_ (fun t ht => by cases ht) (fun p hp => by cases hp)
    (.seq _ (.cons (.enum _ _) (.cons (names_alike s t) .nil)))
  · rintro c a ⟨-, rfl⟩
    exact .name List.mem_cons_self
  · refine ⟨?_, ?_, ?_, (fun h => by cases h), ?_⟩
    · intro t ht a ha
      simp only [List.mem_singleton] at ht
      subst ht
      cases ha
    · intro a l ht
      simp at ht
    · intro c p hp
      match c with
      | 0 =>
        have hp : p ∈ [("x".toList, Ty.cls .int), ("y".toList, .cls .int), ("x".toList, .cls .int),
          ("y".toList, .cls .int)] := hp
        simp only [List.mem_cons, List.not_mem_nil, or_false] at hp
        rcases hp with rfl | rfl | rfl | rfl <;> simp
      | 1 | 2 | 3 | 4 | 5 => cases hp
      | n + 6 => cases hp
    · rintro t c f ht hg hf a ha ⟨rfl, -⟩
      rcases ht with ht | rfl
      · simp only [List.mem_singleton] at ht
        subst ht
        rw [demo_sers] at hg
        cases hg
        rcases hf with hf | hf <;> cases hf
      · rw [demo_sers] at hg
        cases hg
        rcases hf with hf | hf <;> cases hf

/-- C92 is false: in strict mode all elements of a list are dumped like the first one; if
that is an enum member then the name of a person shows, although it is stripped:
`dump([Color.RED, Person('Ann')], strict=True, strip_attr='name')` is `['RED', 'Ann']`. -/
theorem hidden_fails_strict_list : ∃ v w, Alike Name v w ∧
    (dump (demoEnv demoInfo) 9 v none { strict := true, stripAttr := .name "name".toList }).val =
      .ok (.list [.str "RED".toList, .str "Ann".toList]) ∧
    (dump (demoEnv demoInfo) 9 w none { strict := true, stripAttr := .name "name".toList }).val =
      .ok (.list [.str "RED".toList, .str "Bob".toList]) :=
  ⟨_, _, .seq .list (.cons (.enum 2 "RED".toList) (.cons (names_alike "Ann".toList "Bob".toList) .nil)),
    by rfl, by rfl⟩

/-- C92 is false: so does the name of a person that is dumped as `Union[Color, Person]`. -/
theorem hidden_fails_union : ∃ v w, Alike Name v w ∧
    (dump (demoEnv demoInfo) 9 v (some (.union [.cls (.user 2), .cls (.user 5)]))
      { stripAttr := .name "name".toList }).val = .ok (.str "Ann".toList) ∧
    (dump (demoEnv demoInfo) 9 w (some (.union [.cls (.user 2), .cls (.user 5)]))
      { stripAttr := .name "name".toList }).val = .ok (.str "Bob".toList) :=
  ⟨_, _, names_alike "Ann".toList "Bob".toList, by rfl, by rfl⟩

/-- A hash that depends on private attributes, as that of a frozen dataclass does. -/
def hashEnv : Env :=
  { demoEnv demoInfo with
    hash := fun v => match v with
      | .obj _ [(_, .atom (.int i))] => i
      | _ => 0 }

/-- C92 is false for keys: the hash of an object that is a key of a dict shows what is in its
private attributes. -/
theorem hidden_fails_keys : ∃ v w, Alike Private v w ∧
    (dump hashEnv 9 (.dict [(v, .none)]) none { stripPrivates := true }).val ≠
    (dump hashEnv 9 (.dict [(w, .none)]) none { stripPrivates := true }).val := by
  refine ⟨.obj 5 [("_pin".toList, .int 1)], .obj 5 [("_pin".toList, .int 2)], .obj 5 ?_ ?_, by decide +kernel⟩
  · intro n hn
    have : "_pin".toList ≠ n := by rintro rfl; exact hn rfl
    simp only [assoc, if_neg this]
  · intro n a b hn ha hb
    have : "_pin".toList ≠ n := by rintro rfl; exact hn rfl
    simp only [assoc, if_neg this] at ha
    cases ha

/-- C92 is false for named tuples: `strip_attr` does not keep their fields out of the dump. -/
theorem hidden_fails_named_tuple :
    (dump (demoEnv demoInfo) 9 (.ntuple 1 [.int 1, .int 2]) none
      { stripAttr := .name "first".toList }).val =
    .ok (.dict [(.str "first".toList, .int 1), (.str "second".toList, .int 2)]) := by rfl

end Verif.Props.Hidden
