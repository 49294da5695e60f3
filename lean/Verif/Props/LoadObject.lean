import Verif.Props.LoadCollections
import Verif.Props.LoadBasics
import Verif.Core.AttrLemmas
import Verif.Core.DumpClosure
import Verif.Core.MetaLemmas

/-!
# Properties of `load` for classes of the program

C48, C49, C50, C51.
-/

set_option autoImplicit false

namespace Verif.Props.LoadObject
open Verif Verif.Core Verif.Props.LoadBasics Verif.Props.LoadCollections

/-! ## Specification -/

/-- The entries of the input, after the key transformer if there is one; of equal
results the last one wins. -/
def Transformed (E : LEnv) (kw : LoadKw) (es es' : List (Val × Val)) : Prop :=
  match kw.keyTransformer with
  | none => es' = es
  | some f => ∃ ps : List (Val × Val), List.Forall₂ (fun e p => f e.1 = .ok p.1 ∧ p.2 = e.2 ∧
      p.1.hashable E.info = true) es ps ∧ es' = entries ps

/-- `None` is fine for a parameter with this hint. -/
def MayBeNone (hint : Option Ty) : Prop := ∀ t, hint = some t → AllowsNone t

/-- The sources of the argument for a parameter: the entry of the input, loaded with
the hint; else the getter; else the default value; nothing for `*args` and `**kwargs`;
else `None`. -/
inductive ArgOf (I : ClassInfo) (ld : PyStr → Option Ty → Val → Val → Prop)
    (getters : List (PyStr × Except Err Val)) (es : List (Val × Val)) (p : Param) :
    Option Val → Prop
  | given {x y : Val} : dictGet es (.str p.name) = some x → ld p.name (assoc I.initHints p.name) x y →
      ArgOf I ld getters es p (some y)
  | getter {y : Val} : dictGet es (.str p.name) = none → assoc getters p.name = some (.ok y) →
      ArgOf I ld getters es p (some y)
  | default {y : Val} : dictGet es (.str p.name) = none → assoc getters p.name = none →
      p.default = some y → ArgOf I ld getters es p (some y)
  | variadic : dictGet es (.str p.name) = none → assoc getters p.name = none →
      p.default = none → p.variadic = true → ArgOf I ld getters es p none
  | omitted : dictGet es (.str p.name) = none → assoc getters p.name = none →
      p.default = none → p.variadic = false → MayBeNone (assoc I.initHints p.name) →
      ArgOf I ld getters es p (some .none)

/-- The arguments for a list of parameters. -/
inductive ArgsOf (I : ClassInfo) (ld : PyStr → Option Ty → Val → Val → Prop)
    (getters : List (PyStr × Except Err Val)) (es : List (Val × Val)) :
    List Param → List (PyStr × Val) → Prop
  | nil : ArgsOf I ld getters es [] []
  | arg {p : Param} {y : Val} {ps : List Param} {r : List (PyStr × Val)} :
      ArgOf I ld getters es p (some y) → ArgsOf I ld getters es ps r →
      ArgsOf I ld getters es (p :: ps) ((p.name, y) :: r)
  | noarg {p : Param} {ps : List Param} {r : List (PyStr × Val)} :
      ArgOf I ld getters es p none → ArgsOf I ld getters es ps r →
      ArgsOf I ld getters es (p :: ps) r

/-- The key is the name of a parameter of the constructor, or '-meta'. -/
def Known (I : ClassInfo) (k : Val) : Prop :=
  k = .str metaKey ∨ ∃ p ∈ I.params, k = .str p.name

/-- From the attributes `a` to the attributes `b` by setting an attribute for every
entry with an unknown key; the value is loaded with the annotation or with its own
type; what the class refuses to have set is left out. -/
inductive AttrsSet (E : LEnv) (c : Nat) (ld : Option Ty → Val → Val → Prop) :
    List (Val × Val) → List (PyStr × Val) → List (PyStr × Val) → Prop
  | nil {a : List (PyStr × Val)} : AttrsSet E c ld [] a a
  | known {k v : Val} {es : List (Val × Val)} {a b : List (PyStr × Val)} :
      Known (E.info c) k → AttrsSet E c ld es a b → AttrsSet E c ld ((k, v) :: es) a b
  | set {s : PyStr} {v y : Val} {es : List (Val × Val)} {a a' b : List (PyStr × Val)} :
      ¬ Known (E.info c) (.str s) →
      ld (some ((assoc (E.info c).hints s).getD (.cls v.cls))) v y →
      E.setAttr c a s y = .ok a' → AttrsSet E c ld es a' b → AttrsSet E c ld ((.str s, v) :: es) a b
  | refused {s : PyStr} {v y : Val} {es : List (Val × Val)} {a b : List (PyStr × Val)} {e : Err} :
      ¬ Known (E.info c) (.str s) →
      ld (some ((assoc (E.info c).hints s).getD (.cls v.cls))) v y →
      E.setAttr c a s y = .error e → e.kind = .attributeError →
      AttrsSet E c ld es a b → AttrsSet E c ld ((.str s, v) :: es) a b

/-- From the attributes `a` to the attributes `b` by setting what the getters return. -/
inductive GettersSet (E : LEnv) (c : Nat) :
    List (PyStr × Except Err Val) → List (PyStr × Val) → List (PyStr × Val) → Prop
  | nil {a : List (PyStr × Val)} : GettersSet E c [] a a
  | cons {s : PyStr} {y : Val} {gs : List (PyStr × Except Err Val)} {a a' b : List (PyStr × Val)} :
      E.setAttr c a s y = .ok a' → GettersSet E c gs a' b → GettersSet E c ((s, .ok y) :: gs) a b

/-! ## Lemmas -/

theorem canMatch_user (E : LEnv) (c : Nat) : canMatchWithNone E (some (.cls (.user c))) =
    if PyStr.hasSub (E.className false (.cls (.user c))).lower "union".toList ||
      PyStr.hasSub (E.className false (.cls (.user c))).lower "optional".toList then .error .typeError
    else .ok false := rfl

theorem canMatch_newtype (E : LEnv) (m : PyStr) (t : Ty) : canMatchWithNone E (some (.newtype m t)) =
    if PyStr.hasSub (E.className false (.newtype m t)).lower "union".toList ||
      PyStr.hasSub (E.className false (.newtype m t)).lower "optional".toList then .error .typeError
    else .ok false := rfl

theorem canMatch_iff (E : LEnv) (hint : Option Ty) :
    canMatchWithNone E hint = .ok true ↔ MayBeNone hint := by
  unfold MayBeNone
  cases hint with
  | none =>
    constructor
    · intro _ t h; cases h
    · intro _; rfl
  | some t =>
    constructor
    · intro h t' ht
      cases ht
      by_contra hn
      by_cases ho : OddName E t
      · cases t with
        | any => exact hn .any
        | cls k =>
          cases k with
          | user c => rw [canMatch_user] at h; split at h <;> cases h
          | _ => exact ho
        | newtype m t => rw [canMatch_newtype] at h; split at h <;> cases h
        | special b => cases b <;> cases h
        | gen g a => exact ho
        | union ts => exact ho
      · rw [canMatch_false E t hn ho] at h
        cases h
    · intro h
      exact canMatch_true E t (h t rfl)

theorem dictGet_self {es : List (Val × Val)} {k : Val} {e : Val × Val} (he : e ∈ es) (hk : e.1 = k) :
    ∃ x, dictGet es k = some x := by
  induction es with
  | nil => cases he
  | cons p es ih =>
    obtain ⟨k', v'⟩ := p
    simp only [dictGet]
    split
    · exact ⟨_, rfl⟩
    · next h =>
      rcases List.mem_cons.1 he with rfl | he
      · subst hk
        exact absurd (pyEq_refl _) h
      · exact ih he

theorem transformKeys_ok {info : Nat → ClassInfo} {f : Val → Except Err Val} :
    ∀ (es acc r : List (Val × Val)), transformKeys info f acc es = .ok r ↔
      ∃ ps : List (Val × Val), List.Forall₂ (fun e p => f e.1 = .ok p.1 ∧ p.2 = e.2 ∧
          p.1.hashable info = true) es ps ∧
        r = ps.foldl (fun es p => dictSet es p.1 p.2) acc := by
  intro es
  induction es with
  | nil =>
    intro acc r
    simp only [transformKeys, Except.ok.injEq]
    constructor
    · rintro rfl; exact ⟨[], .nil, rfl⟩
    · rintro ⟨ps, h, rfl⟩; cases h; rfl
  | cons e es ih =>
    obtain ⟨k, v⟩ := e
    intro acc r
    have heq : transformKeys info f acc ((k, v) :: es) = match f k with
        | .ok k' => if k'.hashable info then transformKeys info f (dictSet acc k' v) es
            else .error { kind := .typeError }
        | .error e => .error e := by
      show (do let k' ← f k; _ : Except Err _) = _
      cases f k <;> rfl
    rw [heq]
    cases hf : f k with
    | error e =>
      constructor
      · intro h; cases h
      · rintro ⟨ps, h, _⟩
        cases h with
        | cons h1 _ =>
          have := h1.1
          rw [hf] at this
          cases this
    | ok k' =>
      simp only
      constructor
      · intro h
        split at h
        · next hh =>
          obtain ⟨ps, h1, rfl⟩ := (ih _ _).1 h
          exact ⟨(k', v) :: ps, .cons ⟨hf, rfl, hh⟩ h1, rfl⟩
        · cases h
      · rintro ⟨ps, h, rfl⟩
        cases h with
        | @cons _ p _ ps h1 h2 =>
          obtain ⟨hk, hv, hh⟩ := h1
          rw [hf] at hk
          cases hk
          rw [if_pos hh, ih]
          refine ⟨ps, h2, ?_⟩
          simp only [List.foldl_cons, hv]

theorem transformObj_ok {E : LEnv} {kw : LoadKw} {es : List (Val × Val)} {w : Val} :
    transformObj E.info (.dict es) kw.keyTransformer = .ok w ↔
      ∃ es', Transformed E kw es es' ∧ w = .dict es' := by
  unfold transformObj Transformed
  cases kw.keyTransformer with
  | none =>
    simp only [Except.ok.injEq, exists_eq_left]
    exact eq_comm
  | some f =>
    show (transformKeys E.info f [] es).map Val.dict = .ok w ↔ _
    cases h : transformKeys E.info f [] es with
    | error e =>
      constructor
      · intro h'; cases h'
      · rintro ⟨es', ⟨ps, h1, h2⟩, _⟩
        have := (transformKeys_ok (info := E.info) (f := f) es [] es').2 ⟨ps, h1, h2⟩
        rw [h] at this
        cases this
    | ok r =>
      obtain ⟨ps, h1, h2⟩ := (transformKeys_ok _ _ _).1 h
      constructor
      · intro h'; cases h'; exact ⟨r, ⟨ps, h1, h2⟩, rfl⟩
      · rintro ⟨es', ⟨ps', h1', h2'⟩, rfl⟩
        have := (transformKeys_ok (info := E.info) (f := f) es [] es').2 ⟨ps', h1', h2'⟩
        rw [h] at this
        cases this
        rfl

/-- The key transformer does not touch the values. -/
theorem transformed_values {E : LEnv} {kw : LoadKw} {es es' : List (Val × Val)}
    (h : Transformed E kw es es') : ∀ e' ∈ es', ∃ e ∈ es, e'.2 = e.2 := by
  unfold Transformed at h
  cases hk : kw.keyTransformer with
  | none => rw [hk] at h; simp only at h; subst h; exact fun e he => ⟨e, he, rfl⟩
  | some f =>
    rw [hk] at h
    obtain ⟨ps, h1, rfl⟩ := h
    have h2 : ∀ p ∈ ps, ∃ e ∈ es, p.2 = e.2 := by
      clear hk
      induction h1 with
      | nil => intro p hp; cases hp
      | cons h1 _ ih =>
        intro p hp
        rcases List.mem_cons.1 hp with rfl | hp
        · exact ⟨_, List.mem_cons_self, h1.2.1⟩
        · obtain ⟨e, he, h⟩ := ih p hp
          exact ⟨e, List.mem_cons_of_mem _ he, h⟩
    have h3 : ∀ (ps acc : List (Val × Val)), (∀ p ∈ ps, ∃ e ∈ es, p.2 = e.2) →
        (∀ p ∈ acc, ∃ e ∈ es, p.2 = e.2) →
        ∀ p ∈ ps.foldl (fun es p => dictSet es p.1 p.2) acc, ∃ e ∈ es, p.2 = e.2 := by
      intro ps
      induction ps with
      | nil => intro acc _ h; exact h
      | cons q ps ih =>
        intro acc hps hacc
        rw [List.foldl_cons]
        refine ih _ (fun p hp => hps p (List.mem_cons_of_mem _ hp)) ?_
        intro p hp
        rcases dictSet_mem hp with h | h | ⟨h, _⟩
        · exact hacc p h
        · subst h; exact hps q List.mem_cons_self
        · rw [h]; exact hps q List.mem_cons_self
    exact h3 ps [] h2 (by simp)

/-- Inputs that are treated without '-meta': no '-meta' in the dict and its values, and
no hints from outside. -/
structure Plain (kw : LoadKw) (es : List (Val × Val)) : Prop where
  noMeta : dictGet es (.str metaKey) = none
  parts : ∀ e ∈ es, NoMeta e.2
  hints : kw.metaHints.getD [] = []

/-- How the parts are loaded. -/
def partKw (kw : LoadKw) : LoadKw := { kw with attrGetters := [] }

theorem keyIn_dict (es : List (Val × Val)) (name : PyStr) :
    keyIn (.dict es) name = .ok (dictGet es (.str name)).isSome := by
  unfold keyIn
  cases es with
  | nil => rfl
  | cons e es => rfl

/-- How an entry is loaded for a parameter. -/
def partLoad (E : LEnv) (rec : LRec) (kw : LoadKw) (name : PyStr) (hint : Option Ty) (x : Val) :
    Res Val := do
  let m ← Res.liftK (metaFor E kw name)
  rec x (determinePrecedence hint m.1 none true) { kw with metaHints := some m.2, attrGetters := [] }

theorem valueFromObj_dict {E : LEnv} {rec : LRec} {es : List (Val × Val)} {name : PyStr} {x : Val}
    {hint : Option Ty} {kw : LoadKw} (h : dictGet es (.str name) = some x) :
    ∀ y, (valueFromObj E rec (.dict es) name hint kw).val = .ok y ↔
      (partLoad E rec kw name hint x).val = .ok y := by
  intro y
  unfold valueFromObj partLoad
  simp only [subscript, h, liftK_of_ok, pure_bind', bind_ok, liftS_ok, liftK_ok]

theorem partLoad_plain {E : LEnv} {n : Nat} {name : PyStr} {x : Val} {hint : Option Ty} {kw : LoadKw}
    (hh : kw.metaHints.getD [] = []) (hx : NoMeta x) :
    partLoad E (load E n) (kwOf kw none) name hint x = load E n x hint (partKw kw) := by
  unfold partLoad metaFor
  have : (kwOf kw none).metaHints.getD [] = [] := hh
  simp only [this, dictGet, liftK_of_ok, pure_bind']
  have hp : determinePrecedence hint none none true = hint := by cases hint <;> rfl
  rw [hp, ← load_part (kw := partKw kw) hx]
  congr 1
  simp only [kwOf, partKw, hh, Option.map_none, Option.getD_none]

theorem valueForAttr_ok {E : LEnv} {rec : LRec} {c : Nat} {es : List (Val × Val)} {kw : LoadKw} {p : Param}
    {r : Option Val} :
    (valueForAttr E rec (.dict es) c kw p).val = .ok r ↔
      ArgOf (E.info c) (fun name hint x y => (partLoad E rec kw name hint x).val = .ok y) kw.attrGetters es p r := by
  unfold valueForAttr
  rw [keyIn_dict, liftK_of_ok, pure_bind']
  cases hx : dictGet es (.str p.name) with
  | some x =>
    rw [if_pos (by rfl), bind_ok]
    simp only [valueFromObj_dict hx, pure_val, Except.ok.injEq]
    constructor
    · rintro ⟨y, hy, rfl⟩; exact .given hx hy
    · intro h
      cases h with
      | given h1 h2 => rw [hx] at h1; cases h1; exact ⟨_, h2, rfl⟩
      | getter h1 _ | default h1 _ _ | variadic h1 _ _ _ | omitted h1 _ _ _ _ => rw [hx] at h1; cases h1
  | none =>
    rw [if_neg (by simp)]
    cases hgt : assoc kw.attrGetters p.name with
    | some g =>
      simp only [bind_ok, lift_val, pure_val, Except.ok.injEq]
      constructor
      · rintro ⟨y, rfl, rfl⟩; exact .getter hx hgt
      · intro h
        cases h with
        | given h1 _ => rw [hx] at h1; cases h1
        | getter h1 h2 => rw [hgt] at h2; cases h2; exact ⟨_, rfl, rfl⟩
        | default _ h2 _ | variadic _ h2 _ _ | omitted _ h2 _ _ _ => rw [hgt] at h2; cases h2
    | none =>
      simp only
      cases hd : p.default with
      | some d =>
        simp only [pure_val, Except.ok.injEq]
        constructor
        · rintro rfl; exact .default hx hgt hd
        · intro h
          cases h with
          | given h1 _ => rw [hx] at h1; cases h1
          | getter _ h2 => rw [hgt] at h2; cases h2
          | default _ _ h3 => rw [hd] at h3; cases h3; rfl
          | variadic _ _ h3 _ | omitted _ _ h3 _ _ => rw [hd] at h3; cases h3
      | none =>
        simp only
        cases hv : p.variadic with
        | true =>
          simp only [if_true, pure_val, Except.ok.injEq]
          constructor
          · rintro rfl; exact .variadic hx hgt hd hv
          · intro h
            cases h with
            | given h1 _ => rw [hx] at h1; cases h1
            | getter _ h2 => rw [hgt] at h2; cases h2
            | default _ _ h3 => rw [hd] at h3; cases h3
            | variadic => rfl
            | omitted _ _ _ h4 _ => rw [hv] at h4; cases h4
        | false =>
          simp only [Bool.false_eq_true, if_false, bind_ok, liftK_ok]
          constructor
          · rintro ⟨b, hb, h⟩
            cases b with
            | false => cases h
            | true =>
              simp only [if_true, pure_val, Except.ok.injEq] at h
              subst h
              exact .omitted hx hgt hd hv ((canMatch_iff E _).1 hb)
          · intro h
            cases h with
            | given h1 _ => rw [hx] at h1; cases h1
            | getter _ h2 => rw [hgt] at h2; cases h2
            | default _ _ h3 => rw [hd] at h3; cases h3
            | variadic _ _ _ h4 => rw [hv] at h4; cases h4
            | omitted _ _ _ _ h5 => exact ⟨true, (canMatch_iff E _).2 h5, rfl⟩

theorem ctorArgs_ok {E : LEnv} {rec : LRec} {c : Nat} {es : List (Val × Val)} {kw : LoadKw} :
    ∀ (ps : List Param) (r : List (PyStr × Val)),
      (ctorArgs E rec (.dict es) c kw ps).val = .ok r ↔
        ArgsOf (E.info c) (fun name hint x y => (partLoad E rec kw name hint x).val = .ok y) kw.attrGetters es
          ps r := by
  intro ps
  induction ps with
  | nil =>
    intro r
    simp only [ctorArgs, pure_val, Except.ok.injEq]
    constructor
    · rintro rfl; exact .nil
    · intro h; cases h; rfl
  | cons p ps ih =>
    intro r
    simp only [ctorArgs, bind_ok, valueForAttr_ok, ih]
    constructor
    · rintro ⟨v, hv, r', hr, h⟩
      cases v with
      | some v =>
        simp only [pure_val, Except.ok.injEq] at h
        subst h
        exact .arg hv hr
      | none =>
        simp only [pure_val, Except.ok.injEq] at h
        subst h
        exact .noarg hv hr
    · intro h
      cases h with
      | arg h1 h2 => exact ⟨_, h1, _, h2, rfl⟩
      | noarg h1 h2 => exact ⟨_, h1, _, h2, rfl⟩

theorem argsOf_names {I : ClassInfo} {ld : PyStr → Option Ty → Val → Val → Prop}
    {gs : List (PyStr × Except Err Val)} {es : List (Val × Val)} {ps : List Param}
    {args : List (PyStr × Val)} (h : ArgsOf I ld gs es ps args) (s : PyStr)
    (hs : ∃ x, dictGet es (.str s) = some x) :
    (assoc args s).isSome = true ↔ ∃ p ∈ ps, s = p.name := by
  induction h with
  | nil => simp [assoc]
  | @arg p y ps r h1 _ ih =>
    by_cases hp : p.name = s
    · simp [assoc, hp]
    · simp only [assoc, hp, if_false, ih, List.mem_cons, exists_eq_or_imp]
      constructor
      · exact .inr
      · rintro (h | h)
        · exact absurd h.symm hp
        · exact h
  | @noarg p ps r h1 _ ih =>
    rw [ih]
    constructor
    · rintro ⟨q, hq, h⟩; exact ⟨q, List.mem_cons_of_mem _ hq, h⟩
    · rintro ⟨q, hq, rfl⟩
      rcases List.mem_cons.1 hq with rfl | hq
      · obtain ⟨x, hx⟩ := hs
        cases h1 with
        | variadic h1 _ _ _ => rw [hx] at h1; cases h1
      · exact ⟨q, hq, rfl⟩

/-- The keys that remain are the unknown ones. -/
theorem remaining_iff {I : ClassInfo} {ld : PyStr → Option Ty → Val → Val → Prop}
    {gs : List (PyStr × Except Err Val)} {es : List (Val × Val)}
    {args : List (PyStr × Val)} (h : ArgsOf I ld gs es I.params args) {e : Val × Val} (he : e ∈ es) :
    (match e.1 with
      | .str s => (assoc args s).isNone && decide (s ≠ metaKey)
      | _ => true) = true ↔ ¬ Known I e.1 := by
  obtain ⟨k, v⟩ := e
  have hstr : ∀ s : PyStr, k = .str s →
      (((assoc args s).isNone && decide (s ≠ metaKey)) = true ↔ ¬ Known I k) := by
    intro s hk
    subst hk
    have := argsOf_names h s (dictGet_self he rfl)
    simp only [Bool.and_eq_true, decide_eq_true_eq, Option.isNone_iff_eq_none, Known, not_or]
    constructor
    · rintro ⟨h1, h2⟩
      refine ⟨fun hc => h2 (by cases hc; rfl), ?_⟩
      rintro ⟨p, hp, hc⟩
      have hs : s = p.name := by cases hc; rfl
      have := this.2 ⟨p, hp, hs⟩
      rw [h1] at this
      cases this
    · rintro ⟨h1, h2⟩
      refine ⟨?_, fun hc => h1 (by rw [hc])⟩
      cases ha : assoc args s with
      | none => rfl
      | some y =>
        rw [ha] at this
        obtain ⟨p, hp, rfl⟩ := this.1 rfl
        exact absurd ⟨p, hp, rfl⟩ h2
  by_cases hk : ∃ s, k = .str s
  · obtain ⟨s, rfl⟩ := hk
    exact hstr s rfl
  · have h1 : ¬ Known I k := by
      rintro (h | ⟨p, _, h⟩)
      · exact hk ⟨_, h⟩
      · exact hk ⟨_, h⟩
    simp only [h1, not_false_iff, iff_true]
    split
    · exact absurd ⟨_, rfl⟩ hk
    · rfl

theorem setRemaining_cons {E : LEnv} {rec : LRec} {c : Nat} {kw : LoadKw} {k v : Val}
    {es : List (Val × Val)} {a b : List (PyStr × Val)} :
    (setRemaining E rec c kw ((k, v) :: es) a).val = .ok b ↔
      ∃ s y, k = .str s ∧
        (rec v (some ((assoc (E.info c).hints s).getD (.cls v.cls))) { kw with attrGetters := [] }).val
          = .ok y ∧
        ((∃ a', E.setAttr c a s y = .ok a' ∧ (setRemaining E rec c kw es a').val = .ok b) ∨
         ∃ e, E.setAttr c a s y = .error e ∧ e.kind = .attributeError ∧
          (setRemaining E rec c kw es a).val = .ok b) := by
  have hw : ∀ (hint : Option Ty), (warnHashed E.toEnv kw.fork v hint).val = .ok () := by
    intro hint
    unfold warnHashed
    split
    · unfold Env.warn; split <;> rfl
    · rfl
  rw [setRemaining, bind_ok]
  simp only [hw, bind_ok, lift_val]
  constructor
  · rintro ⟨_, _, y, hy, a', ha, h⟩
    unfold setOne at ha
    split at ha
    · next _ s =>
      refine ⟨s, y, rfl, hy, ?_⟩
      cases hs : E.setAttr c a s y with
      | ok a'' => rw [hs] at ha; cases ha; exact .inl ⟨a', rfl, h⟩
      | error e =>
        rw [hs] at ha
        simp only at ha
        split at ha
        · next he => cases ha; exact .inr ⟨e, rfl, he, h⟩
        · cases ha
    · cases ha
  · rintro ⟨s, y, rfl, hy, h⟩
    rcases h with ⟨a', h1, h2⟩ | ⟨e, h1, h2, h3⟩
    · exact ⟨(), trivial, y, hy, a', by simp only [setOne, h1], h2⟩
    · exact ⟨(), trivial, y, hy, a, by simp only [setOne, h1, h2, if_true], h3⟩

theorem setRemaining_ok {E : LEnv} {rec : LRec} {c : Nat} {kw : LoadKw} (P : Val → Bool) :
    ∀ (es : List (Val × Val)) (a b : List (PyStr × Val)),
      (∀ e ∈ es, P e.1 = true ↔ ¬ Known (E.info c) e.1) →
      ((setRemaining E rec c kw (es.filter fun e => P e.1) a).val = .ok b ↔
        AttrsSet E c (fun hint x y => (rec x hint (partKw kw)).val = .ok y) es a b) := by
  intro es
  induction es with
  | nil =>
    intro a b _
    simp only [List.filter_nil, setRemaining, pure_val, Except.ok.injEq]
    constructor
    · rintro rfl; exact .nil
    · intro h; cases h; rfl
  | cons e es ih =>
    obtain ⟨k, v⟩ := e
    intro a b hP
    have ih := fun a b => ih a b (fun e he => hP e (List.mem_cons_of_mem _ he))
    have hk := hP _ List.mem_cons_self
    simp only at hk
    by_cases hkn : Known (E.info c) k
    · have : P k = false := by
        cases hp : P k
        · rfl
        · exact absurd hkn (hk.1 hp)
      rw [List.filter_cons_of_neg (by simp [this]), ih]
      constructor
      · intro h; exact .known hkn h
      · intro h
        cases h with
        | known _ h => exact h
        | set h _ _ _ | refused h _ _ _ _ => exact absurd hkn h
    · rw [List.filter_cons_of_pos (p := fun e : Val × Val => P e.1) (a := (k, v)) (hk.2 hkn), setRemaining_cons]
      constructor
      · rintro ⟨s, y, rfl, hy, h⟩
        rcases h with ⟨a', h1, h2⟩ | ⟨e, h1, h2, h3⟩
        · exact .set hkn hy h1 ((ih _ _).1 h2)
        · exact .refused hkn hy h1 h2 ((ih _ _).1 h3)
      · intro h
        cases h with
        | known h _ => exact absurd h hkn
        | @set s _ y _ _ a' _ h0 hy h1 h2 =>
          exact ⟨s, y, rfl, hy, .inl ⟨a', h1, (ih _ _).2 h2⟩⟩
        | @refused s _ y _ _ _ e h0 hy h1 h2 h3 =>
          exact ⟨s, y, rfl, hy, .inr ⟨e, h1, h2, (ih _ _).2 h3⟩⟩

theorem setGetters_ok {E : LEnv} {c : Nat} : ∀ (gs : List (PyStr × Except Err Val))
    (a b : List (PyStr × Val)), setGetters E c gs a = .ok b ↔ GettersSet E c gs a b := by
  intro gs
  induction gs with
  | nil =>
    intro a b
    simp only [setGetters, Except.ok.injEq]
    constructor
    · rintro rfl; exact .nil
    · intro h; cases h; rfl
  | cons g gs ih =>
    obtain ⟨s, g⟩ := g
    intro a b
    cases g with
    | error e =>
      constructor
      · intro h; cases h
      · intro h; cases h
    | ok y =>
      show (E.setAttr c a s y >>= fun a' => setGetters E c gs a') = _ ↔ _
      cases hs : E.setAttr c a s y with
      | error e =>
        constructor
        · intro h; cases h
        · intro h; cases h with | cons h1 _ => rw [hs] at h1; cases h1
      | ok a' =>
        show setGetters E c gs a' = _ ↔ _
        rw [ih]
        constructor
        · intro h; exact .cons hs h
        · intro h; cases h with | cons h1 h2 => rw [hs] at h1; cases h1; exact h2

/-- The way into the deserializer of a class. -/
theorem object_step {E : LEnv} {n c : Nat} {v : Val} {kw : LoadKw}
    {m : Option (Ty × List (Val × Val))}
    (hd : DefaultDesers E kw.fork) (hv : E.getVal kw.fork (.cls (.user c)) = .ok none)
    (hc : (E.info c).kind = .plain) (h1 : v.cls ∈ validTypes) (h0 : v ≠ .none)
    (hm : getClsAndMeta E v kw.fork = .ok m) (hi : kw.inferred = false ∨ m = none) :
    (load E (n + 1) v (some (.cls (.user c))) kw).val = wrapRes v (.cls (.user c))
      (objectDes E (load E n) v (.cls (.user c)) (kwOf kw m)).val := by
  have hcls : v.cls ≠ .user c := by intro h; rw [h] at h1; simp [validTypes] at h1
  have hf : (Ty.cls (.user c)).desFn E.info = some .object := by
    simp only [Ty.desFn, Cls.desFn, hc]
  exact (load_via (n := n) (t := .cls (.user c)) (kw := kw) (fun h => absurd h h0)
    (by
      rintro (⟨_, h⟩ | h)
      · simp only [Option.some.injEq, Ty.cls.injEq] at h; exact hcls h.symm
      · cases h) h1 hm hi hd hf hv).1

theorem getRemaining_ok {obj : Val} {c : Nat} {args : List (PyStr × Val)} {strict : Bool}
    {rest : List (Val × Val)} :
    (getRemainingArgs obj c args strict).val = .ok rest ↔
      remainingAttrs obj args = .ok rest ∧ (strict = true → rest = []) := by
  unfold getRemainingArgs
  simp only [bind_ok, liftK_ok]
  constructor
  · rintro ⟨r, hr, h⟩
    cases r with
    | nil => simp only [pure_val, Except.ok.injEq] at h; subst h; exact ⟨hr, fun _ => rfl⟩
    | cons e r =>
      cases strict with
      | true => cases h
      | false =>
        simp only [Bool.false_eq_true, if_false, pure_val, Except.ok.injEq] at h
        subst h
        exact ⟨hr, fun h => by cases h⟩
  · rintro ⟨h1, h2⟩
    refine ⟨rest, h1, ?_⟩
    cases rest with
    | nil => rfl
    | cons e r =>
      cases strict with
      | true => cases h2 rfl
      | false => rfl

theorem objectDes_ok {E : LEnv} {rec : LRec} {c : Nat} {es : List (Val × Val)} {r : Val} {kw : LoadKw} :
    (objectDes E rec (.dict es) (.cls (.user c)) kw).val = .ok r ↔
      ∃ es' args as0 as1 as2, Transformed E kw es es' ∧
        ArgsOf (E.info c) (fun name hint x y => (partLoad E rec kw name hint x).val = .ok y) kw.attrGetters es'
          (E.info c).params args ∧
        (kw.strict = true → ∀ e ∈ es', Known (E.info c) e.1) ∧
        E.construct c args = .ok as0 ∧
        AttrsSet E c (fun hint x y => (rec x hint (partKw kw)).val = .ok y) es' as0 as1 ∧
        GettersSet E c kw.attrGetters as1 as2 ∧ r = .obj c as2 := by
  unfold objectDes
  simp only [bind_ok, lift_val, pure_val, Except.ok.injEq, transformObj_ok, setGetters_ok, getRemaining_ok]
  have key : ∀ es' args rest,
      ArgsOf (E.info c) (fun name hint x y => (partLoad E rec kw name hint x).val = .ok y) kw.attrGetters es'
          (E.info c).params args → remainingAttrs (.dict es') args = .ok rest →
      (rest = [] ↔ ∀ e ∈ es', Known (E.info c) e.1) ∧
      ∀ a b, (setRemaining E rec c kw rest a).val = .ok b ↔
        AttrsSet E c (fun hint x y => (rec x hint (partKw kw)).val = .ok y) es' a b := by
    intro es' args rest ha hr
    simp only [remainingAttrs, Except.ok.injEq] at hr
    subst hr
    refine ⟨?_, ?_⟩
    · rw [List.filter_eq_nil_iff]
      constructor
      · intro h e he
        by_contra hk
        exact h e he ((remaining_iff ha he).2 hk)
      · intro h e he hk
        exact (remaining_iff ha he).1 hk (h e he)
    · intro a b
      apply setRemaining_ok (fun k => match k with
        | .str s => (assoc args s).isNone && decide (s ≠ metaKey)
        | _ => true)
      intro e he; exact remaining_iff ha he
  constructor
  · rintro ⟨w, ⟨es', ht, rfl⟩, args, ha, rest, ⟨hr, hs⟩, as0, h0, as1, h1, as2, h2, rfl⟩
    rw [ctorArgs_ok] at ha
    obtain ⟨k1, k2⟩ := key es' args rest ha hr
    exact ⟨es', args, as0, as1, as2, ht, ha, fun h => k1.1 (hs h), h0, (k2 _ _).1 h1, h2, rfl⟩
  · rintro ⟨es', args, as0, as1, as2, ht, ha, hs, h0, h1, h2, rfl⟩
    obtain ⟨k1, k2⟩ := key es' args _ ha rfl
    exact ⟨.dict es', ⟨es', ht, rfl⟩, args, (ctorArgs_ok _ _).2 ha, _, ⟨rfl, fun h => k1.2 (hs h)⟩, as0,
      h0, as1, (k2 _ _).2 h1, as2, h2, rfl⟩

theorem argOf_congr {I : ClassInfo} {ld ld' : PyStr → Option Ty → Val → Val → Prop}
    {gs : List (PyStr × Except Err Val)} {es : List (Val × Val)} {p : Param} {r : Option Val}
    (h : ∀ e ∈ es, ∀ name hint y, ld name hint e.2 y → ld' name hint e.2 y)
    (ha : ArgOf I ld gs es p r) : ArgOf I ld' gs es p r := by
  cases ha with
  | given h1 h2 =>
    obtain ⟨e, he, hx, _⟩ := dictGet_mem h1
    refine .given h1 ?_
    rw [← hx] at h2 ⊢
    exact h e he _ _ _ h2
  | getter h1 h2 => exact .getter h1 h2
  | default h1 h2 h3 => exact .default h1 h2 h3
  | variadic h1 h2 h3 h4 => exact .variadic h1 h2 h3 h4
  | omitted h1 h2 h3 h4 h5 => exact .omitted h1 h2 h3 h4 h5

theorem argsOf_congr {I : ClassInfo} {ld ld' : PyStr → Option Ty → Val → Val → Prop}
    {gs : List (PyStr × Except Err Val)} {es : List (Val × Val)} {ps : List Param}
    {r : List (PyStr × Val)} (h : ∀ e ∈ es, ∀ name hint y, ld name hint e.2 y → ld' name hint e.2 y)
    (ha : ArgsOf I ld gs es ps r) : ArgsOf I ld' gs es ps r := by
  induction ha with
  | nil => exact .nil
  | arg h1 _ ih => exact .arg (argOf_congr h h1) ih
  | noarg h1 _ ih => exact .noarg (argOf_congr h h1) ih

theorem attrsSet_congr {E : LEnv} {c : Nat} {ld ld' : Option Ty → Val → Val → Prop}
    {es : List (Val × Val)} {a b : List (PyStr × Val)}
    (h : ∀ e ∈ es, ∀ hint y, ld hint e.2 y → ld' hint e.2 y)
    (ha : AttrsSet E c ld es a b) : AttrsSet E c ld' es a b := by
  induction ha with
  | nil => exact .nil
  | known h1 _ ih => exact .known h1 (ih fun e he => h e (List.mem_cons_of_mem _ he))
  | set h1 h2 h3 _ ih =>
    exact .set h1 (h _ List.mem_cons_self _ _ h2) h3 (ih fun e he => h e (List.mem_cons_of_mem _ he))
  | refused h1 h2 h3 h4 _ ih =>
    exact .refused h1 (h _ List.mem_cons_self _ _ h2) h3 h4
      (ih fun e he => h e (List.mem_cons_of_mem _ he))

/-! ## '-meta' -/

/-- The dict of class names that is in force: the one from outside, else that of the
'-meta' section, else none. -/
def HintsOf (kw : LoadKw) (es H : List (Val × Val)) : Prop :=
  match kw.metaHints with
  | some H' => H = H'
  | none => match dictGet es (.str metaKey) with
    | none => H = []
    | some m => ∃ ms, m = .dict ms ∧ dictGet ms (.str "classes".toList) = some (.dict H)

/-- The path `s`, seen from the path `pre`; other paths are kept. -/
def below (pre s : PyStr) : PyStr :=
  if pre <+: s then (if s = pre then "/".toList else s.drop pre.length) else s

/-- The dict of class names, seen from the path `pre`. -/
inductive HintsBelow (pre : PyStr) : List (Val × Val) → List (Val × Val) → Prop
  | nil : HintsBelow pre [] []
  | cons {s : PyStr} {v : Val} {H H' : List (Val × Val)} : HintsBelow pre H H' →
      HintsBelow pre ((.str s, v) :: H) ((.str (below pre s), v) :: H')

/-- How the entry `x` of the parameter `name` is loaded: if the class names have one
for it, as this class and with the class names below; else with the hint. -/
inductive PartLoads (E : LEnv) (n : Nat) (kw : LoadKw) (H : List (Val × Val)) (name : PyStr)
    (hint : Option Ty) (x y : Val) : Prop
  | hint : (∀ w, dictGet H (.str ('/' :: name)) = some w → w.falsy = true) →
      (load E n x hint { kw with metaHints := some H, inferred := false, attrGetters := [] }).val = .ok y →
      PartLoads E n kw H name hint x y
  | named {s : PyStr} {t : Ty} {H' : List (Val × Val)} :
      dictGet H (.str ('/' :: name)) = some (.str s) → s ≠ [] → E.clsFromStr kw.fork s = .ok t →
      HintsBelow ('/' :: name) H H' →
      (load E n x (some t)
        { kw with metaHints := some (entries H'), inferred := false, attrGetters := [] }).val = .ok y →
      PartLoads E n kw H name hint x y

theorem removePrefix_eq (pre s : PyStr) : removePrefix pre s = below pre s := by
  unfold removePrefix below
  by_cases h : pre <+: s
  · have h' : pre.isPrefixOf s = true := List.isPrefixOf_iff_prefix.2 h
    rw [if_pos h', if_pos h]
    obtain ⟨r, rfl⟩ := h
    simp only [List.drop_left]
    cases r with
    | nil => simp
    | cons a r => simp
  · have h' : ¬ pre.isPrefixOf s = true := fun hc => h (List.isPrefixOf_iff_prefix.1 hc)
    rw [if_neg h', if_neg h]

theorem rebase_ok {pre : PyStr} : ∀ (H acc r : List (Val × Val)), rebase pre acc H = .ok r ↔
    ∃ H', HintsBelow pre H H' ∧ r = H'.foldl (fun es p => dictSet es p.1 p.2) acc := by
  intro H
  induction H with
  | nil =>
    intro acc r
    simp only [rebase, Except.ok.injEq]
    constructor
    · rintro rfl; exact ⟨[], .nil, rfl⟩
    · rintro ⟨H', h, rfl⟩; cases h; rfl
  | cons e H ih =>
    obtain ⟨k, v⟩ := e
    intro acc r
    constructor
    · intro h
      unfold rebase at h
      split at h
      · next _ s =>
        obtain ⟨H', h1, rfl⟩ := (ih _ _).1 h
        refine ⟨_, .cons h1, ?_⟩
        rw [List.foldl_cons, removePrefix_eq]
      · cases h
    · rintro ⟨H', h, rfl⟩
      cases h with
      | @cons s _ _ H' h1 =>
        show rebase pre (dictSet acc (.str (removePrefix pre s)) v) H = _
        rw [ih]
        exact ⟨H', h1, by rw [List.foldl_cons, removePrefix_eq]⟩

theorem partLoad_iff {E : LEnv} {n : Nat} {kw : LoadKw} {m : Option (Ty × List (Val × Val))}
    {name : PyStr} {hint : Option Ty} {x y : Val} :
    (partLoad E (load E n) (kwOf kw m) name hint x).val = .ok y ↔
      PartLoads E n kw (kw.metaHints.getD ((m.map (·.2)).getD [])) name hint x y := by
  generalize hH : kw.metaHints.getD ((m.map (·.2)).getD []) = H
  have hH' : (kwOf kw m).metaHints.getD [] = H := hH
  have hk : ∀ L, ({ kwOf kw m with metaHints := some L, attrGetters := [] } : LoadKw)
      = { kw with metaHints := some L, inferred := false, attrGetters := [] } := fun _ => rfl
  unfold partLoad metaFor
  simp only [bind_ok, liftK_ok, hH', hk]
  have hp : determinePrecedence hint none none true = hint := by cases hint <;> rfl
  cases hg : dictGet H (.str ('/' :: name)) with
  | none =>
    simp only [Except.ok.injEq, exists_eq_left', hp]
    constructor
    · intro h; exact .hint (by intro w hw; rw [hg] at hw; cases hw) h
    · intro h
      cases h with
      | hint _ h => exact h
      | named h1 _ _ _ _ => rw [hg] at h1; cases h1
  | some w =>
    cases hf : w.falsy with
    | true =>
      simp only [hf, if_true, Except.ok.injEq, exists_eq_left', hp]
      constructor
      · intro h; exact .hint (by intro w' hw; rw [hg] at hw; cases hw; exact hf) h
      · intro h
        cases h with
        | hint _ h => exact h
        | @named s _ _ h1 h2 _ _ _ =>
          rw [hg] at h1
          cases h1
          cases s with
          | nil => exact absurd rfl h2
          | cons a s => cases hf
    | false =>
      simp only [hf, Bool.false_eq_true, if_false]
      constructor
      · rintro ⟨m', hm', h⟩
        split at hm'
        · next _ s =>
          cases ht : E.clsFromStr (kwOf kw m).fork s with
          | error k => rw [ht] at hm'; cases hm'
          | ok t =>
            rw [ht] at hm'
            cases hr : rebase ('/' :: name) [] H with
            | error k =>
              have : (do let hs ← rebase ('/' :: name) [] H; pure (some t, hs) : Except ErrKind _)
                  = .ok m' := hm'
              rw [hr] at this
              cases this
            | ok hs =>
              have : (do let hs ← rebase ('/' :: name) [] H; pure (some t, hs) : Except ErrKind _)
                  = .ok m' := hm'
              rw [hr] at this
              cases this
              obtain ⟨H', h1, h2⟩ := (rebase_ok _ _ _).1 hr
              refine .named hg ?_ ht h1 ?_
              · rintro rfl; cases hf
              · have h2 : hs = entries H' := h2
                rw [← h2]
                exact h
        · cases hm'
      · intro h
        cases h with
        | hint h1 _ => rw [h1 w hg] at hf; cases hf
        | @named s t H' h1 h2 h3 h4 h5 =>
          rw [hg] at h1
          cases h1
          refine ⟨(some t, entries H'), ?_, h5⟩
          have hr : rebase ('/' :: name) [] H = .ok (entries H') := (rebase_ok _ _ _).2 ⟨H', h4, rfl⟩
          show (do let t ← E.clsFromStr kw.fork s; let hs ← rebase ('/' :: name) [] H
                   pure (some t, hs) : Except ErrKind _) = _
          rw [h3, hr]
          rfl

theorem hintsOf_iff {E : LEnv} {kw : LoadKw} {es H : List (Val × Val)}
    {m : Option (Ty × List (Val × Val))} (h : getClsAndMeta E (.dict es) kw.fork = .ok m) :
    HintsOf kw es H ↔ H = kw.metaHints.getD ((m.map (·.2)).getD []) := by
  unfold HintsOf
  cases kw.metaHints with
  | some H' => rfl
  | none =>
    simp only [Option.getD_none]
    unfold getClsAndMeta at h
    simp only at h
    cases hg : dictGet es (.str metaKey) with
    | none => rw [hg] at h; cases h; rfl
    | some mv =>
      rw [hg] at h
      simp only at h
      have hcl : ∃ ms, mv = .dict ms ∧ ∃ cl, dictGet ms (.str "classes".toList) = some cl := by
        cases mv with
        | dict ms =>
          refine ⟨ms, rfl, ?_⟩
          simp only [subscript] at h
          cases hc : dictGet ms (.str "classes".toList) with
          | none => rw [hc] at h; cases h
          | some cl => exact ⟨cl, rfl⟩
        | _ => cases h
      obtain ⟨ms, rfl, cl, hcl⟩ := hcl
      simp only [subscript, hcl] at h
      cases cl with
      | dict cs =>
        have h : (do let name ← (match dictGet cs (.str "/".toList) with
            | some w => Except.ok w | none => Except.error ErrKind.keyError)
                     match name, Val.dict cs with
                      | .str s, .dict hints => do
                        let t ← E.clsFromStr kw.fork s
                        return some (t, hints)
                      | _, _ => .error .typeError) = Except.ok m := h
        cases hn : dictGet cs (.str "/".toList) with
        | none => rw [hn] at h; cases h
        | some nm =>
          rw [hn] at h
          have h : (match nm, Val.dict cs with
                      | .str s, .dict hints => do
                        let t ← E.clsFromStr kw.fork s
                        return some (t, hints)
                      | _, _ => Except.error ErrKind.typeError) = Except.ok m := h
          split at h
          · next _ _ s hints heq _ =>
            cases heq
            cases ht : E.clsFromStr kw.fork s with
            | error k => rw [ht] at h; cases h
            | ok t =>
              rw [ht] at h
              cases h
              simp only [Option.map_some, Option.getD_some]
              constructor
              · rintro ⟨ms', h1, h2⟩
                cases h1
                rw [hcl] at h2
                cases h2
                rfl
              · rintro rfl
                exact ⟨ms, rfl, hcl⟩
          · cases h
      | _ => cases h

/-! ## The whole -/

/-- What loading a dict as a class does, completely: C48, C49, C50 and C51 follow. -/
theorem object_load (E : LEnv) (n c : Nat) (es : List (Val × Val)) (r : Val) (kw : LoadKw)
    (hd : DefaultDesers E kw.fork) (hv : E.getVal kw.fork (.cls (.user c)) = .ok none)
    (hc : (E.info c).kind = .plain) (hm : MetaOk E kw.fork (.dict es)) (hi : kw.inferred = false) :
    (load E (n + 1) (.dict es) (some (.cls (.user c))) kw).val = .ok r ↔
      ∃ H es' args as0 as1 as2, HintsOf kw es H ∧ Transformed E kw es es' ∧
        ArgsOf (E.info c) (PartLoads E n kw H) kw.attrGetters es' (E.info c).params args ∧
        (kw.strict = true → ∀ e ∈ es', Known (E.info c) e.1) ∧
        E.construct c args = .ok as0 ∧
        AttrsSet E c (fun hint x y => (load E n x hint
          { kw with metaHints := some H, inferred := false, attrGetters := [] }).val = .ok y) es' as0 as1 ∧
        GettersSet E c kw.attrGetters as1 as2 ∧ r = .obj c as2 := by
  obtain ⟨m, hm⟩ := metaOk_get hm
  rw [object_step hd hv hc (by simp [Val.cls, validTypes]) (by intro h; cases h) hm (.inl hi),
    wrapRes_ok, objectDes_ok]
  simp only [hintsOf_iff hm]
  constructor
  · rintro ⟨es', args, as0, as1, as2, ht, ha, hs, h0, h3, h4, rfl⟩
    exact ⟨_, es', args, as0, as1, as2, rfl, ht,
      argsOf_congr (fun e he name hint y h => partLoad_iff.1 h) ha, hs, h0, h3, h4, rfl⟩
  · rintro ⟨_, es', args, as0, as1, as2, rfl, ht, ha, hs, h0, h3, h4, rfl⟩
    exact ⟨es', args, as0, as1, as2, ht,
      argsOf_congr (fun e he name hint y h => partLoad_iff.2 h) ha, hs, h0, h3, h4, rfl⟩

/-- The same without '-meta'. -/
theorem object_load_plain (E : LEnv) (n c : Nat) (es : List (Val × Val)) (r : Val) (kw : LoadKw)
    (hd : DefaultDesers E kw.fork) (hv : E.getVal kw.fork (.cls (.user c)) = .ok none)
    (hc : (E.info c).kind = .plain) (hp : Plain kw es) :
    (load E (n + 1) (.dict es) (some (.cls (.user c))) kw).val = .ok r ↔
      ∃ es' args as0 as1 as2, Transformed E kw es es' ∧
        ArgsOf (E.info c) (fun _ hint x y => (load E n x hint (partKw kw)).val = .ok y) kw.attrGetters es'
          (E.info c).params args ∧
        (kw.strict = true → ∀ e ∈ es', Known (E.info c) e.1) ∧
        E.construct c args = .ok as0 ∧
        AttrsSet E c (fun hint x y => (load E n x hint (partKw kw)).val = .ok y) es' as0 as1 ∧
        GettersSet E c kw.attrGetters as1 as2 ∧ r = .obj c as2 := by
  have hm : NoMeta (.dict es) := by intro es' h; cases h; exact hp.noMeta
  rw [object_step hd hv hc (by simp [Val.cls, validTypes]) (by intro h; cases h) (noMeta_get hm _)
    (.inr rfl), wrapRes_ok, objectDes_ok]
  have hpart : ∀ es', Transformed E kw es es' → ∀ e ∈ es', NoMeta e.2 := by
    intro es' ht e he
    obtain ⟨e', he', h⟩ := transformed_values ht e he
    rw [h]; exact hp.parts e' he'
  have h1 : ∀ es', Transformed E kw es es' → ∀ e ∈ es', ∀ name hint,
      (partLoad E (load E n) (kwOf kw none) name hint e.2).val = (load E n e.2 hint (partKw kw)).val := by
    intro es' ht e he name hint
    rw [partLoad_plain hp.hints (hpart es' ht e he)]
  have h2 : ∀ es', Transformed E kw es es' → ∀ e ∈ es', ∀ hint,
      (load E n e.2 hint (partKw (kwOf kw none))).val = (load E n e.2 hint (partKw kw)).val := by
    intro es' ht e he hint
    exact congrArg Res.val (load_part (kw := partKw kw) (hpart es' ht e he))
  constructor
  · rintro ⟨es', args, as0, as1, as2, ht, ha, hs, h0, h3, h4, rfl⟩
    exact ⟨es', args, as0, as1, as2, ht,
      argsOf_congr (fun e he name hint y h => by rw [h1 es' ht e he] at h; exact h) ha, hs, h0,
      attrsSet_congr (fun e he hint y h => by rw [h2 es' ht e he] at h; exact h) h3, h4, rfl⟩
  · rintro ⟨es', args, as0, as1, as2, ht, ha, hs, h0, h3, h4, rfl⟩
    exact ⟨es', args, as0, as1, as2, ht,
      argsOf_congr (fun e he name hint y h => by rw [h1 es' ht e he]; exact h) ha, hs, h0,
      attrsSet_congr (fun e he hint y h => by rw [h2 es' ht e he]; exact h) h3, h4, rfl⟩

/-! ## C48: the arguments of the constructor -/

theorem argsOf_assoc {I : ClassInfo} {ld : PyStr → Option Ty → Val → Val → Prop}
    {gs : List (PyStr × Except Err Val)} {es : List (Val × Val)} {ps : List Param}
    {args : List (PyStr × Val)} (h : ArgsOf I ld gs es ps args) (hn : (ps.map (·.name)).Nodup) :
    (∀ p ∈ ps, ArgOf I ld gs es p (assoc args p.name)) ∧ ∀ a ∈ args, a.1 ∈ ps.map (·.name) := by
  induction h with
  | nil => exact ⟨(by intro p hp; cases hp), (by intro a ha; cases ha)⟩
  | @arg p y ps r h1 _ ih =>
    rw [List.map_cons, List.nodup_cons] at hn
    obtain ⟨ih1, ih2⟩ := ih hn.2
    refine ⟨?_, ?_⟩
    · intro q hq
      rcases List.mem_cons.1 hq with rfl | hq
      · simpa only [assoc, if_true] using h1
      · have : p.name ≠ q.name := fun h => hn.1 (h ▸ List.mem_map.2 ⟨q, hq, rfl⟩)
        simp only [assoc, this, if_false]
        exact ih1 q hq
    · intro a ha
      rcases List.mem_cons.1 ha with rfl | ha
      · exact List.mem_cons_self
      · exact List.mem_cons_of_mem _ (ih2 a ha)
  | @noarg p ps r h1 _ ih =>
    rw [List.map_cons, List.nodup_cons] at hn
    obtain ⟨ih1, ih2⟩ := ih hn.2
    refine ⟨?_, fun a ha => List.mem_cons_of_mem _ (ih2 a ha)⟩
    intro q hq
    rcases List.mem_cons.1 hq with rfl | hq
    · have : assoc r q.name = none := by
        rw [assoc_none]
        intro hc
        obtain ⟨a, ha, h⟩ := List.mem_map.1 hc
        exact hn.1 (h ▸ ih2 a ha)
      rw [this]
      exact h1
    · exact ih1 q hq

/-- C48: if a dict is loaded as a class, then the constructor was called with the right
arguments: every parameter got the entry of the input, else what its getter returned,
else its default, else nothing if it is `*args` or `**kwargs`, else `None`, which is then
fine for its hint; and there were no other arguments. -/
theorem constructor_arguments (E : LEnv) (n c : Nat) (es : List (Val × Val)) (r : Val) (kw : LoadKw)
    (hd : DefaultDesers E kw.fork) (hv : E.getVal kw.fork (.cls (.user c)) = .ok none)
    (hc : (E.info c).kind = .plain) (hn : ((E.info c).params.map (·.name)).Nodup)
    (hm : MetaOk E kw.fork (.dict es)) (hi : kw.inferred = false)
    (h : (load E (n + 1) (.dict es) (some (.cls (.user c))) kw).val = .ok r) :
    ∃ H es' args as, HintsOf kw es H ∧ Transformed E kw es es' ∧ E.construct c args = .ok as ∧
      (∀ p ∈ (E.info c).params,
        ArgOf (E.info c) (PartLoads E n kw H) kw.attrGetters es' p (assoc args p.name)) ∧
      ∀ a ∈ args, a.1 ∈ (E.info c).params.map (·.name) := by
  rw [object_load E n c es r kw hd hv hc hm hi] at h
  obtain ⟨H, es', args, as0, as1, as2, hH, ht, ha, _, h0, _, _, _⟩ := h
  obtain ⟨h1, h2⟩ := argsOf_assoc ha hn
  exact ⟨H, es', args, as0, hH, ht, h0, h1, h2⟩

theorem ctorArgs_unfulfilled {E : LEnv} {rec : LRec} {c : Nat} {es : List (Val × Val)} {kw : LoadKw}
    {p : Param} {post : List Param} {t : Ty}
    (h1 : dictGet es (.str p.name) = none) (h2 : assoc kw.attrGetters p.name = none)
    (h3 : p.default = none) (h4 : p.variadic = false) (h5 : assoc (E.info c).initHints p.name = some t)
    (h6 : ¬ AllowsNone t) (h7 : ¬ OddName E t) :
    ∀ (pre : List Param) (args : List (PyStr × Val)),
      (ctorArgs E rec (.dict es) c kw pre).val = .ok args →
      (ctorArgs E rec (.dict es) c kw (pre ++ p :: post)).val = .error
        { kind := .unfulfilledArgument, source := some (.dict es), target := some (.cls (.user c)),
          argument := some p.name } := by
  intro pre
  induction pre with
  | nil =>
    intro args _
    have : valueForAttr E rec (.dict es) c kw p = Res.raise
        { kind := .unfulfilledArgument, source := some (.dict es), target := some (.cls (.user c)),
          argument := some p.name } := by
      unfold valueForAttr
      rw [keyIn_dict, liftK_of_ok, pure_bind', h1, if_neg (by simp), h2]
      simp only [h3, h4, h5, canMatch_false E t h6 h7, liftK_of_ok, pure_bind']
      rfl
    rw [List.nil_append, ctorArgs, this]
    rfl
  | cons q pre ih =>
    intro args h
    simp only [ctorArgs, bind_ok] at h
    obtain ⟨v, hv, r, hr, _⟩ := h
    rw [List.cons_append, ctorArgs, bind_val, hv]
    show (_ >>= _ : Res _).val = _
    rw [bind_val, ih r hr]

theorem transformed_eq {E : LEnv} {kw : LoadKw} {es es' : List (Val × Val)} (h : Transformed E kw es es') :
    transformObj E.info (.dict es) kw.keyTransformer = .ok (.dict es') :=
  transformObj_ok.2 ⟨es', h, rfl⟩

/-- C48: if the parameters `pre` get their arguments and the next parameter gets none,
then there is an `UnfulfilledArgumentError` that names it.  The part that is missing: the
hint must not be a class called like `Reunion`, see `constructor_unfulfilled_fails`. -/
theorem constructor_unfulfilled_partial (E : LEnv) (n c : Nat) (es es' H : List (Val × Val)) (kw : LoadKw)
    (pre post : List Param) (p : Param) (args : List (PyStr × Val)) (t : Ty)
    (hd : DefaultDesers E kw.fork) (hv : E.getVal kw.fork (.cls (.user c)) = .ok none)
    (hc : (E.info c).kind = .plain) (hm : MetaOk E kw.fork (.dict es)) (hi : kw.inferred = false)
    (hps : (E.info c).params = pre ++ p :: post) (hH : HintsOf kw es H) (ht : Transformed E kw es es')
    (ha : ArgsOf (E.info c) (PartLoads E n kw H) kw.attrGetters es' pre args)
    (h1 : dictGet es' (.str p.name) = none) (h2 : assoc kw.attrGetters p.name = none)
    (h3 : p.default = none) (h4 : p.variadic = false) (h5 : assoc (E.info c).initHints p.name = some t)
    (h6 : ¬ AllowsNone t) (h7 : ¬ OddName E t) :
    (load E (n + 1) (.dict es) (some (.cls (.user c))) kw).val = .error
      { kind := .unfulfilledArgument, source := some (.dict es'), target := some (.cls (.user c)),
        argument := some p.name } := by
  obtain ⟨m, hm⟩ := metaOk_get hm
  rw [object_step hd hv hc (by simp [Val.cls, validTypes]) (by intro h; cases h) hm (.inl hi)]
  have hH := (hintsOf_iff hm).1 hH
  subst hH
  have hargs : (ctorArgs E (load E n) (.dict es') c (kwOf kw m) pre).val = .ok args :=
    (ctorArgs_ok _ _).2 (argsOf_congr (fun e he name hint y h => partLoad_iff.2 h) ha)
  have ht' : transformObj E.info (.dict es) (kwOf kw m).keyTransformer = .ok (.dict es') :=
    transformed_eq ht
  have : (objectDes E (load E n) (.dict es) (.cls (.user c)) (kwOf kw m)).val = .error
      { kind := .unfulfilledArgument, source := some (.dict es'), target := some (.cls (.user c)),
        argument := some p.name } := by
    simp only [objectDes, ht']
    show (_ >>= _ : Res _).val = _
    rw [show (Res.lift (.ok (Val.dict es')) : Res Val) = pure (.dict es') from rfl, pure_bind', bind_val, hps]
    rw [ctorArgs_unfulfilled (kw := kwOf kw m) h1 h2 h3 h4 h5 h6 h7 pre args hargs]
  rw [this]
  rfl

/-- A class with a parameter of the class `Reunion`. -/
def eventInfo : Nat → ClassInfo
  | 0 => { attrs := mainAttrs "Event"
           initHints := [("of".toList, .cls (.user 1))]
           params := [{ name := "of".toList }] }
  | _ => { attrs := mainAttrs "Reunion" }

/-- C48 fails for a parameter of a class called `Reunion`: the error is a plain
`DeserializationError`, which does not name the parameter. -/
theorem constructor_unfulfilled_fails : ∃ (E : LEnv) (c : Nat) (p : Param) (t : Ty),
    (E.info c).params = [p] ∧ assoc (E.info c).initHints p.name = some t ∧ ¬ AllowsNone t ∧
    p.default = none ∧ p.variadic = false ∧ ∀ n, ∃ e,
      (load E (n + 1) (.dict []) (some (.cls (.user c))) {}).val = .error e ∧
      e.kind = .deserializationError ∧ e.argument = none := by
  refine ⟨demoLEnv eventInfo, 0, { name := "of".toList }, .cls (.user 1), rfl, rfl, ?_, rfl, rfl, ?_⟩
  · intro h; cases h
  · intro n
    exact ⟨_, rfl, rfl, rfl⟩

/-! ## C49: strict mode -/

/-- C49: in strict mode, a dict with an unknown key (other than '-meta') is never
loaded; and if there are arguments for all the parameters then there is a
`SignatureMismatchError` that names the first unknown key. -/
theorem strict_rejects_unknown (E : LEnv) (n c : Nat) (es es' pre post : List (Val × Val)) (k x : Val)
    (kw : LoadKw) (hd : DefaultDesers E kw.fork) (hv : E.getVal kw.fork (.cls (.user c)) = .ok none)
    (hc : (E.info c).kind = .plain) (hm : MetaOk E kw.fork (.dict es)) (hi : kw.inferred = false)
    (hs : kw.strict = true) (ht : Transformed E kw es es') (he : es' = pre ++ (k, x) :: post)
    (hpre : ∀ e ∈ pre, Known (E.info c) e.1) (hk : ¬ Known (E.info c) k) :
    (∀ r, (load E (n + 1) (.dict es) (some (.cls (.user c))) kw).val ≠ .ok r) ∧
    ∀ H args, HintsOf kw es H →
      ArgsOf (E.info c) (PartLoads E n kw H) kw.attrGetters es' (E.info c).params args →
      ∃ e, (load E (n + 1) (.dict es) (some (.cls (.user c))) kw).val = .error e ∧
        e.kind = .signatureMismatch ∧ e.target = some (.cls (.user c)) ∧
        e.source = some (.dict es') ∧ ∀ s, k = .str s → e.argument = some s := by
  refine ⟨?_, ?_⟩
  · intro r h
    rw [object_load E n c es r kw hd hv hc hm hi] at h
    obtain ⟨H, es'', args, as0, as1, as2, _, ht', _, hs', _⟩ := h
    have h1 := transformed_eq ht
    rw [transformed_eq ht'] at h1
    cases h1
    exact hk (hs' hs (k, x) (by simp [he]))
  · intro H args hH ha
    obtain ⟨m, hm⟩ := metaOk_get hm
    rw [object_step hd hv hc (by simp [Val.cls, validTypes]) (by intro h; cases h) hm (.inl hi)]
    have hH := (hintsOf_iff hm).1 hH
    subst hH
    have ha' := argsOf_congr (ld' := fun name hint x y =>
      (partLoad E (load E n) (kwOf kw m) name hint x).val = .ok y)
      (fun e he name hint y h => partLoad_iff.2 h) ha
    have hargs := (ctorArgs_ok (E := E) (rec := load E n) (c := c) (kw := kwOf kw m) _ _).2 ha'
    have ht' : transformObj E.info (.dict es) (kwOf kw m).keyTransformer = .ok (.dict es') :=
      transformed_eq ht
    have hrem : ∃ rest, remainingAttrs (.dict es') args = .ok ((k, x) :: rest) := by
      simp only [remainingAttrs, Except.ok.injEq]
      rw [he, List.filter_append, List.filter_eq_nil_iff.2, List.nil_append,
        List.filter_cons_of_pos]
      · exact ⟨_, rfl⟩
      · exact (remaining_iff ha (e := (k, x)) (by simp [he])).2 hk
      · intro e he' hc
        exact (remaining_iff ha (e := e) (by simp [he, he'])).1 hc (hpre e he')
    obtain ⟨rest, hrem⟩ := hrem
    have : (objectDes E (load E n) (.dict es) (.cls (.user c)) (kwOf kw m)).val = .error
        (signatureMismatch (.dict es') c k) := by
      simp only [objectDes, ht']
      show (_ >>= _ : Res _).val = _
      rw [show (Res.lift (.ok (Val.dict es')) : Res Val) = pure (.dict es') from rfl, pure_bind', bind_val, hargs]
      show (_ >>= _ : Res _).val = _
      rw [bind_val]
      have hst : (kwOf kw m).strict = true := hs
      simp only [getRemainingArgs, hrem, liftK_of_ok, pure_bind', hst, if_true, raise_val]
    rw [this]
    refine ⟨_, rfl, rfl, rfl, rfl, ?_⟩
    rintro s rfl
    rfl

/-- C49, the other direction: if all keys are known and there are arguments for all the
parameters, then strict mode does not refuse the dict; the constructor is called. -/
theorem strict_accepts_known (E : LEnv) (n c : Nat) (es es' H : List (Val × Val)) (kw : LoadKw)
    (args as0 as1 : List (PyStr × Val))
    (hd : DefaultDesers E kw.fork) (hv : E.getVal kw.fork (.cls (.user c)) = .ok none)
    (hc : (E.info c).kind = .plain) (hm : MetaOk E kw.fork (.dict es)) (hi : kw.inferred = false)
    (ht : Transformed E kw es es') (hk : ∀ e ∈ es', Known (E.info c) e.1) (hH : HintsOf kw es H)
    (ha : ArgsOf (E.info c) (PartLoads E n kw H) kw.attrGetters es' (E.info c).params args)
    (h0 : E.construct c args = .ok as0) (h1 : GettersSet E c kw.attrGetters as0 as1) :
    (load E (n + 1) (.dict es) (some (.cls (.user c))) kw).val = .ok (.obj c as1) := by
  rw [object_load E n c es _ kw hd hv hc hm hi]
  refine ⟨H, es', args, as0, as0, as1, hH, ht, ha, fun _ => hk, h0, ?_, h1, rfl⟩
  clear ha ht
  induction es' with
  | nil => exact .nil
  | cons e es' ih => exact .known (hk e List.mem_cons_self) (ih fun e' h => hk e' (List.mem_cons_of_mem _ h))

/-! ## C50 and C51: other attributes and getters -/

/-- Setting an attribute, if the class does not refuse it, gives it this value and
leaves the others alone. -/
def SetAttrLaw (E : LEnv) (c : Nat) : Prop :=
  ∀ a s y a', E.setAttr c a s y = .ok a' →
    assoc a' s = some y ∧ ∀ s', s' ≠ s → assoc a' s' = assoc a s'

theorem demo_setAttrLaw (info : Nat → ClassInfo) (c : Nat) : SetAttrLaw (demoLEnv info) c := by
  intro a s y a' h
  have h : assocSet a s y = a' := Except.ok.inj h
  subst h
  refine ⟨by rw [assoc_set]; simp, ?_⟩
  intro s' hs
  rw [assoc_set, if_neg (fun h => hs h.symm)]

theorem gettersSet_other {E : LEnv} {c : Nat} (hl : SetAttrLaw E c)
    {gs : List (PyStr × Except Err Val)} {a b : List (PyStr × Val)} (h : GettersSet E c gs a b)
    (s : PyStr) (hs : s ∉ gs.map (·.1)) : assoc b s = assoc a s := by
  induction h with
  | nil => rfl
  | @cons s' y gs a a' b h1 _ ih =>
    simp only [List.map_cons, List.mem_cons, not_or] at hs
    rw [ih hs.2, (hl _ _ _ _ h1).2 s hs.1]

theorem gettersSet_get {E : LEnv} {c : Nat} (hl : SetAttrLaw E c)
    {gs : List (PyStr × Except Err Val)} {a b : List (PyStr × Val)} (h : GettersSet E c gs a b)
    (hn : (gs.map (·.1)).Nodup) : ∀ g ∈ gs, ∃ y, g.2 = .ok y ∧ assoc b g.1 = some y := by
  induction h with
  | nil => intro g hg; cases hg
  | @cons s' y gs a a' b h1 h2 ih =>
    rw [List.map_cons, List.nodup_cons] at hn
    intro g hg
    rcases List.mem_cons.1 hg with rfl | hg
    · exact ⟨y, rfl, by rw [gettersSet_other hl h2 _ hn.1]; exact (hl _ _ _ _ h1).1⟩
    · exact ih hn.2 g hg

/-- C51: after loading with `attr_getters`, every named attribute has the value that its
getter returned, whatever the input says. -/
theorem getters_have_the_last_word (E : LEnv) (n c : Nat) (es : List (Val × Val)) (r : Val)
    (kw : LoadKw) (hd : DefaultDesers E kw.fork)
    (hv : E.getVal kw.fork (.cls (.user c)) = .ok none) (hc : (E.info c).kind = .plain)
    (hl : SetAttrLaw E c) (hm : MetaOk E kw.fork (.dict es)) (hi : kw.inferred = false)
    (hn : (kw.attrGetters.map (·.1)).Nodup)
    (h : (load E (n + 1) (.dict es) (some (.cls (.user c))) kw).val = .ok r) :
    ∃ as, r = .obj c as ∧ ∀ g ∈ kw.attrGetters, ∃ y, g.2 = .ok y ∧ assoc as g.1 = some y := by
  rw [object_load E n c es r kw hd hv hc hm hi] at h
  obtain ⟨H, es', args, as0, as1, as2, _, _, _, _, _, _, h1, rfl⟩ := h
  exact ⟨as2, rfl, gettersSet_get hl h1 hn⟩

theorem attrsSet_other {E : LEnv} {c : Nat} (hl : SetAttrLaw E c)
    {ld : Option Ty → Val → Val → Prop} {es : List (Val × Val)} {a b : List (PyStr × Val)}
    (h : AttrsSet E c ld es a b) (s : PyStr)
    (hs : Known (E.info c) (.str s) ∨ ∀ e ∈ es, e.1 ≠ .str s) : assoc b s = assoc a s := by
  induction h with
  | nil => rfl
  | known _ _ ih =>
    exact ih (hs.imp id fun h e he => h e (List.mem_cons_of_mem _ he))
  | @set s' v y es a a' b h1 _ h3 _ ih =>
    rw [ih (hs.imp id fun h e he => h e (List.mem_cons_of_mem _ he))]
    refine (hl _ _ _ _ h3).2 s ?_
    intro h
    rcases hs with hs | hs
    · exact h1 (h ▸ hs)
    · exact hs _ List.mem_cons_self (h ▸ rfl)
  | refused _ _ _ _ _ ih =>
    exact ih (hs.imp id fun h e he => h e (List.mem_cons_of_mem _ he))

theorem attrsSet_get {E : LEnv} {c : Nat} (hl : SetAttrLaw E c)
    {ld : Option Ty → Val → Val → Prop} {es : List (Val × Val)} {a b : List (PyStr × Val)}
    (h : AttrsSet E c ld es a b) (hd : es.Pairwise fun e e' => e.1 ≠ e'.1) :
    ∀ s v, (.str s, v) ∈ es → ¬ Known (E.info c) (.str s) →
      ∃ y, ld (some ((assoc (E.info c).hints s).getD (.cls v.cls))) v y ∧
        (assoc b s = some y ∨ ∃ a' e, E.setAttr c a' s y = .error e ∧ e.kind = .attributeError) := by
  induction h with
  | nil => intro s v hv; cases hv
  | known h1 _ ih =>
    intro s v hv hk
    rcases List.mem_cons.1 hv with h | hv
    · cases h; exact absurd h1 hk
    · exact ih (List.pairwise_cons.1 hd).2 s v hv hk
  | @set s' v' y es a a' b h1 h2 h3 h4 ih =>
    intro s v hv hk
    rcases List.mem_cons.1 hv with h | hv
    · cases h
      refine ⟨y, h2, .inl ?_⟩
      rw [attrsSet_other hl h4 s' (.inr fun e he h => (List.pairwise_cons.1 hd).1 e he h.symm)]
      exact (hl _ _ _ _ h3).1
    · exact ih (List.pairwise_cons.1 hd).2 s v hv hk
  | @refused s' v' y es a b e h1 h2 h3 h4 _ ih =>
    intro s v hv hk
    rcases List.mem_cons.1 hv with h | hv
    · cases h
      exact ⟨y, h2, .inr ⟨a, e, h3, h4⟩⟩
    · exact ih (List.pairwise_cons.1 hd).2 s v hv hk

/-- C50: in non-strict mode every other entry of the input becomes an attribute of the
instance, loaded with its annotation, or unchanged if it has none, unless the class
refuses to have it set; all other attributes (without getters) are what the constructor
made them. -/
theorem remaining_attributes (E : LEnv) (n c : Nat) (es : List (Val × Val)) (r : Val) (kw : LoadKw)
    (hd : DefaultDesers E kw.fork) (hv : NoValidators E kw.fork) (hc : (E.info c).kind = .plain)
    (hl : SetAttrLaw E c) (hm : MetaOk E kw.fork (.dict es)) (hi : kw.inferred = false)
    (hs : kw.strict = false)
    (h : (load E (n + 1) (.dict es) (some (.cls (.user c))) kw).val = .ok r) :
    ∃ H es' args as0 as, HintsOf kw es H ∧ Transformed E kw es es' ∧
      ArgsOf (E.info c) (PartLoads E n kw H) kw.attrGetters es' (E.info c).params args ∧
      E.construct c args = .ok as0 ∧ r = .obj c as ∧
      (es'.Pairwise (fun e e' => e.1 ≠ e'.1) →
        ∀ s v, (.str s, v) ∈ es' → ¬ Known (E.info c) (.str s) → s ∉ kw.attrGetters.map (·.1) →
        ∃ y, (match assoc (E.info c).hints s with
            | some t => (load E n v (some t)
                { kw with metaHints := some H, inferred := false, attrGetters := [] }).val = .ok y
            | none => y = v) ∧
          (assoc as s = some y ∨ ∃ a e, E.setAttr c a s y = .error e ∧ e.kind = .attributeError)) ∧
      ∀ s, s ∉ kw.attrGetters.map (·.1) → (Known (E.info c) (.str s) ∨ ∀ e ∈ es', e.1 ≠ .str s) →
        assoc as s = assoc as0 s := by
  rw [object_load E n c es r kw hd (hv _) hc hm hi] at h
  obtain ⟨H, es', args, as0, as1, as2, hH, ht, ha, _, h0, h1, h2, rfl⟩ := h
  refine ⟨H, es', args, as0, as2, hH, ht, ha, h0, rfl, ?_, ?_⟩
  · intro hd' s v hmem hk hg
    obtain ⟨y, h3, h4⟩ := attrsSet_get hl h1 hd' s v hmem hk
    refine ⟨y, ?_, ?_⟩
    · cases hh : assoc (E.info c).hints s with
      | some t => rw [hh] at h3; exact h3
      | none =>
        rw [hh] at h3
        simp only [Option.getD_none] at h3 ⊢
        cases n with
        | zero => cases h3
        | succ n =>
          have hno : NoneOk E v (some (.cls v.cls)) := by
            rintro rfl
            rfl
          have hsk : Skips v (some (.cls v.cls)) { kw with metaHints := some H, inferred := false, attrGetters := [] } := .inl ⟨hs, rfl⟩
          have hvk : E.getVal kw.fork (.cls v.cls) = .ok none := hv _
          rw [load_skip hno hsk, Option.getD_some, validate_none (fork := kw.fork) hvk] at h3
          cases h3
          rfl
    · rcases h4 with h4 | h4
      · left; rw [gettersSet_other hl h2 s hg]; exact h4
      · exact .inr h4
  · intro s hg hk
    rw [gettersSet_other hl h2 s hg, attrsSet_other hl h1 s hk]

/-! ## Examples -/

section Examples

/-- `{'y': 5, 'z': 'a'}` with a getter for `x` that returns 7 -/
def exEntries : List (Val × Val) := [(.str "y".toList, .int 5), (.str "z".toList, .str "a".toList)]

/-- `attr_getters={'x': lambda: 7}` -/
def exKw : LoadKw := { attrGetters := [("x".toList, .ok (.int 7))] }

theorem ex_meta (fork : Nat) : MetaOk (demoLEnv demoInfo) fork (.dict exEntries) := by
  refine noMeta_metaOk ?_
  intro es h
  cases h
  rfl

example : (load (demoLEnv demoInfo) 3 (.dict exEntries) (some (.cls (.user 0))) exKw).val
    = .ok (.obj 0 [("x".toList, .int 7), ("y".toList, .int 5), ("z".toList, .str "a".toList)]) := by rfl

/-- `x` is from the getter, `y` from the input. -/
example : ∃ H es' args as, HintsOf exKw exEntries H ∧ Transformed (demoLEnv demoInfo) exKw exEntries es' ∧
    (demoLEnv demoInfo).construct 0 args = .ok as ∧
      (∀ p ∈ (demoInfo 0).params,
        ArgOf (demoInfo 0) (PartLoads (demoLEnv demoInfo) 2 exKw H) exKw.attrGetters es' p
          (assoc args p.name)) ∧
      ∀ a ∈ args, a.1 ∈ (demoInfo 0).params.map (·.name) :=
  constructor_arguments (demoLEnv demoInfo) 2 0 exEntries
    (.obj 0 [("x".toList, .int 7), ("y".toList, .int 5), ("z".toList, .str "a".toList)]) exKw
    (demo_desers 0) (demo_novals 0 _) rfl (by decide) (ex_meta 0) rfl rfl

/-- Without the getter there is nothing for `x`. -/
example : (load (demoLEnv demoInfo) 3 (.dict exEntries) (some (.cls (.user 0))) {}).val
    = .error { kind := .unfulfilledArgument, source := some (.dict exEntries),
               target := some (.cls (.user 0)), argument := some "x".toList } :=
  constructor_unfulfilled_partial (demoLEnv demoInfo) 2 0 exEntries exEntries [] {} []
    [{ name := "y".toList, default := some (.int 0) }] { name := "x".toList } [] (.cls .int)
    (demo_desers 0) (demo_novals 0 _) rfl (ex_meta 0) rfl rfl rfl rfl .nil rfl rfl rfl rfl rfl
    (by intro h; cases h) (by intro h; exact h)

/-- In strict mode `z` is refused. -/
example : ∃ e, (load (demoLEnv demoInfo) 3 (.dict exEntries) (some (.cls (.user 0)))
      { exKw with strict := true }).val = .error e ∧
    e.kind = .signatureMismatch ∧ e.target = some (.cls (.user 0)) ∧
    e.source = some (.dict exEntries) ∧ ∀ s, Val.str "z".toList = .str s → e.argument = some s := by
  refine (strict_rejects_unknown (demoLEnv demoInfo) 2 0 exEntries exEntries
    [(.str "y".toList, .int 5)] [] (.str "z".toList) (.str "a".toList) { exKw with strict := true }
    (demo_desers 0) (demo_novals 0 _) rfl (ex_meta 0) rfl rfl rfl rfl ?_ ?_).2 []
    [("x".toList, .int 7), ("y".toList, .int 5)] rfl
    (.arg (.getter rfl rfl) (.arg (.given (x := .int 5) rfl (.hint ?_ rfl)) .nil))
  · intro e he
    rcases List.mem_singleton.1 he with rfl
    exact .inr ⟨_, List.mem_cons_of_mem _ List.mem_cons_self, rfl⟩
  · rintro (h | ⟨p, hp, h⟩)
    · cases h
    · have hp : p ∈ [({ name := "x".toList } : Param), { name := "y".toList, default := some (.int 0) }] := hp
      rcases List.mem_cons.1 hp with rfl | hp
      · cases h
      · rcases List.mem_singleton.1 hp with rfl
        cases h
  · intro w h; cases h

/-- `{'x': 1}` is fine in strict mode. -/
example : (load (demoLEnv demoInfo) 3 (.dict [(.str "x".toList, .int 1)]) (some (.cls (.user 0)))
    { strict := true }).val = .ok (.obj 0 [("x".toList, .int 1), ("y".toList, .int 0)]) := by
  refine strict_accepts_known (demoLEnv demoInfo) 2 0 _ _ [] { strict := true }
    [("x".toList, .int 1), ("y".toList, .int 0)] _ _
    (demo_desers 0) (demo_novals 0 _) rfl (noMeta_metaOk (by intro es h; cases h; rfl)) rfl rfl ?_ rfl
    (.arg (.given (x := .int 1) rfl (.hint (by intro w h; cases h) rfl)) (.arg (.default rfl rfl rfl) .nil))
    rfl .nil
  intro e he
  rcases List.mem_singleton.1 he with rfl
  exact .inr ⟨_, List.mem_cons_self, rfl⟩

/-- The getter wins over the input. -/
example : ∃ as, (Val.obj 0 [("x".toList, .int 7), ("y".toList, .int 0)]) = .obj 0 as ∧
    ∀ g ∈ exKw.attrGetters, ∃ y, g.2 = .ok y ∧ assoc as g.1 = some y :=
  getters_have_the_last_word (demoLEnv demoInfo) 2 0 [(.str "x".toList, .int 1)] _ exKw
    (demo_desers 0) (demo_novals 0 _) rfl (demo_setAttrLaw demoInfo 0)
    (noMeta_metaOk (by intro es h; cases h; rfl)) rfl (by decide) rfl

/-- `z` becomes an attribute. -/
example := remaining_attributes (demoLEnv demoInfo) 2 0 exEntries
    (.obj 0 [("x".toList, .int 7), ("y".toList, .int 5), ("z".toList, .str "a".toList)]) exKw
    (demo_desers 0) (demo_novals 0) rfl (demo_setAttrLaw demoInfo 0) (ex_meta 0) rfl rfl rfl

end Examples

end Verif.Props.LoadObject
