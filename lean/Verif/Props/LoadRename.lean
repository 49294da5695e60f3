import Verif.Core.LoadLemmas
import Verif.Core.LoadDemo
import Verif.Core.FillLemmas
import Verif.KeyTransformers
import Mathlib.Logic.Relation

/-!
# `key_transformer` of `load`

C86: with this option `load` does the same as without it for a document of which the
keys were renamed before.
-/

set_option autoImplicit false

namespace Verif.Props.LoadRename
open Verif Verif.Core Verif.Registry

/-! ## The specification -/

mutual
/-- The document with all keys renamed by `f`, at every depth. -/
def rename (f : PyStr → PyStr) : Val → Val
  | .seq .list xs => .list (renameAll f xs)
  | .dict es => .dict (renameEntries f es)
  | v => v
/-- The elements of a list. -/
def renameAll (f : PyStr → PyStr) : List Val → List Val
  | [] => []
  | x :: xs => rename f x :: renameAll f xs
/-- The entries of a dict. -/
def renameEntries (f : PyStr → PyStr) : List (Val × Val) → List (Val × Val)
  | [] => []
  | (k, v) :: es => (match k with
      | .str s => .str (f s)
      | k => k, rename f v) :: renameEntries f es
end

/-- The entries of a dict of which the keys are texts. -/
def texts (ps : List (PyStr × Val)) : List (Val × Val) := ps.map fun e => (.str e.1, e.2)

/-- Documents: the keys of the dicts are texts other than those that mean something to
jsons, the transformer `F` makes `f s` of the key `s`, and the new keys are different. -/
inductive Doc (F : Val → Except Err Val) (f : PyStr → PyStr) : Val → Prop
  | atom (a : Atom) : Doc F f (.atom a)
  | list {xs : List Val} : (∀ x ∈ xs, Doc F f x) → Doc F f (.list xs)
  | dict {ps : List (PyStr × Val)} :
      (∀ e ∈ ps, F (.str e.1) = .ok (.str (f e.1)) ∧
        e.1 ∉ [metaKey, keysKey] ∧ f e.1 ∉ [metaKey, keysKey]) →
      (∀ e ∈ ps, Doc F f e.2) → (ps.map fun e => f e.1).Nodup → Doc F f (.dict (texts ps))

/-- The type as which the document is loaded. -/
def asTy (v : Val) (t : Option Ty) : Ty := t.getD (.cls v.cls)

/-- The type of the values of a dict. -/
def valueTy : List Ty → Option Ty
  | [_, w] => some w
  | _ => none

/-- `x` can be the input for the field `name` of a named tuple: a value of a dict under that
name, an element of something else, or a default value. -/
def FieldInput (I : ClassInfo) (f : PyStr → PyStr) (v : Val) (name : PyStr) (x : Val) : Prop :=
  (∃ ps s, v = .dict (texts ps) ∧ (s, x) ∈ ps ∧ f s = name) ∨
  (∃ xs, (∀ es, v ≠ .dict es) ∧ v.iter = some xs ∧ x ∈ xs) ∨
  x ∈ I.fieldDefaults.map (·.2) ∨ x = .none

/-- To load the document `p.1` as `p.2`, the part `q.1` can be loaded as `q.2`. -/
inductive Step (E : LEnv) (strict : Bool) (f : PyStr → PyStr) : Val × Option Ty → Val × Option Ty → Prop
  | element {v : Val} {t : Option Ty} {xs : List Val} {x : Val} : v.iter = some xs →
      ((asTy v t).desFn E.info = some .list ∨ (asTy v t).desFn E.info = some .iterable) → x ∈ xs →
      Step E strict f (v, t) (x, (asTy v t).getArgs.head?)
  | value {es : List (Val × Val)} {t : Option Ty} {e : Val × Val} :
      (asTy (.dict es) t).desFn E.info = some .mapping → e ∈ es →
      Step E strict f (.dict es, t) (e.2, valueTy (asTy (.dict es) t).getArgs)
  | ddict {v : Val} {t : Option Ty} : (asTy v t).desFn E.info = some .defaultdict →
      Step E strict f (v, t) (v, some (.gen .dict (asTy v t).getArgs))
  | member {v : Val} {t : Option Ty} {ts : List Ty} {a : Ty} :
      (asTy v t).desFn E.info = some .union → (asTy v t).unionParams = some ts → a ∈ ts →
      Step E strict f (v, t) (v, some a)
  | argument {ps : List (PyStr × Val)} {t : Option Ty} {c : Nat} {p : Param} {e : PyStr × Val} :
      asTy (.dict (texts ps)) t = .cls (.user c) → (E.info c).kind = .plain → e ∈ ps →
      p ∈ (E.info c).params → f e.1 = p.name →
      Step E strict f (.dict (texts ps), t) (e.2, assoc (E.info c).initHints p.name)
  | attribute {ps : List (PyStr × Val)} {t : Option Ty} {c : Nat} {e : PyStr × Val} :
      asTy (.dict (texts ps)) t = .cls (.user c) → (E.info c).kind = .plain → strict = false →
      e ∈ ps → (∀ p ∈ (E.info c).params, p.name ≠ f e.1) →
      Step E strict f (.dict (texts ps), t)
        (e.2, some ((assoc (E.info c).hints (f e.1)).getD (.cls e.2.cls)))
  | field {v : Val} {t : Option Ty} {c : Nat} {name : PyStr} {x : Val} :
      asTy v t = .cls (.user c) → (E.info c).kind = .ntuple → name ∈ (E.info c).fields →
      FieldInput (E.info c) f v name x →
      Step E strict f (v, t)
        (x, if (E.info c).hasAnnotations then assoc (E.info c).hints name else none)

/-- The document is used as a whole: there are deserializers that never look at
`key_transformer`, and `tuple` does not pass it on. -/
def Whole (info : Nat → ClassInfo) (v : Val) (t : Ty) : Prop :=
  match t.desFn info with
  | some .tuple => ∀ c, t = .cls (.user c) → (info c).kind ≠ .ntuple
  | some .list | some .iterable => ∃ es, v = .dict es
  | some .timezone | some .string | some .enum | some .uuid | some .complex | some .decimal
  | some .path | some .zoneinfo => True
  | _ => False

/-- What is needed of a part `v` that is loaded as `t`. -/
structure Fine (E : LEnv) (strict : Bool) (F : Val → Except Err Val) (f : PyStr → PyStr) (v : Val)
    (t : Option Ty) : Prop where
  doc : Doc F f v
  /-- what is returned as it is has nothing to rename -/
  raw : (strict = false ∧ t = some (.cls v.cls)) ∨ t = some .any → rename f v = v
  /-- what is used as a whole has nothing to rename -/
  whole : Whole E.info v (asTy v t) → rename f v = v
  /-- objects are made of classes of the program -/
  object : (asTy v t).desFn E.info = some .object → ∃ c, asTy v t = .cls (.user c)
  /-- the default values of named tuples have no parts -/
  defaults : ∀ c, asTy v t = .cls (.user c) → (E.info c).kind = .ntuple →
    ∀ d ∈ (E.info c).fieldDefaults, ∃ a, d.2 = .atom a

/-- All parts are fine, as what they are loaded. -/
def AllFine (E : LEnv) (strict : Bool) (F : Val → Except Err Val) (f : PyStr → PyStr) (v : Val)
    (t : Option Ty) : Prop :=
  ∀ q, Relation.ReflTransGen (Step E strict f) (v, t) q → Fine E strict F f q.1 q.2

/-! ## Lemmas about the specification -/

theorem renameAll_eq (f : PyStr → PyStr) (xs : List Val) : renameAll f xs = xs.map (rename f) := by
  induction xs with
  | nil => rfl
  | cons x xs ih => simp [renameAll, ih]

theorem rename_list (f : PyStr → PyStr) (xs : List Val) :
    rename f (.list xs) = .list (xs.map (rename f)) := by
  rw [← renameAll_eq]; rfl

/-- The entries with the keys renamed, and something done to the values. -/
def moved (f : PyStr → PyStr) (u : Val → Val) (ps : List (PyStr × Val)) : List (Val × Val) :=
  ps.map fun e => (.str (f e.1), u e.2)

theorem rename_dict (f : PyStr → PyStr) (ps : List (PyStr × Val)) :
    rename f (.dict (texts ps)) = .dict (moved f (rename f) ps) := by
  have : renameEntries f (texts ps) = moved f (rename f) ps := by
    induction ps with
    | nil => rfl
    | cons e ps ih =>
      show _ :: renameEntries f (texts ps) = _ :: moved f (rename f) ps
      rw [ih]
  rw [← this]; rfl

theorem rename_cls (f : PyStr → PyStr) (v : Val) : (rename f v).cls = v.cls := by
  cases v with
  | seq k xs => cases k <;> rfl
  | _ => rfl

theorem rename_none (f : PyStr → PyStr) (v : Val) : rename f v = .none ↔ v = .none := by
  cases v with
  | seq k xs => cases k <;> simp [rename]
  | _ => simp [rename]

theorem asTy_rename (f : PyStr → PyStr) (v : Val) (t : Option Ty) :
    asTy (rename f v) t = asTy v t := by
  unfold asTy; rw [rename_cls]

theorem get_moved {f : PyStr → PyStr} {u : Val → Val} {ps : List (PyStr × Val)} {s : PyStr} :
    dictGet (moved f u ps) (.str s) = (ps.find? fun e => f e.1 = s).map fun e => u e.2 := by
  induction ps with
  | nil => rfl
  | cons e ps ih =>
    show (if pyEq (.str (f e.1)) (.str s) then _ else _) = _
    rw [pyEq_str, List.find?_cons]
    by_cases h : f e.1 = s
    · simp [h]
    · have h' : (f e.1 == s) = false := by simpa using h
      rw [h', decide_eq_false h]
      exact ih

theorem texts_eq (ps : List (PyStr × Val)) : texts ps = moved id id ps := rfl

theorem doc_noMeta {F : Val → Except Err Val} {f : PyStr → PyStr} {v : Val} (h : Doc F f v) :
    NoMeta v ∧ NoMeta (rename f v) := by
  cases h with
  | atom a => exact ⟨fun _ h => (by cases h), fun _ h => (by cases h)⟩
  | list h => exact ⟨fun _ h => (by cases h), fun _ h => (by cases h)⟩
  | @dict ps h1 h2 h3 =>
    refine ⟨?_, ?_⟩
    · intro es he
      cases he
      rw [texts_eq, get_moved, Option.map_eq_none_iff, List.find?_eq_none]
      intro e he
      simp only [decide_eq_true_eq]
      exact fun hk => (h1 e he).2.1 (by rw [← hk]; exact List.mem_cons_self)
    · rw [rename_dict]
      intro es he
      cases he
      rw [get_moved, Option.map_eq_none_iff, List.find?_eq_none]
      intro e he
      simp only [decide_eq_true_eq]
      exact fun hk => (h1 e he).2.2 (by rw [← hk]; exact List.mem_cons_self)

theorem allFine_self {E : LEnv} {strict : Bool} {F : Val → Except Err Val} {f : PyStr → PyStr}
    {v : Val} {t : Option Ty} (h : AllFine E strict F f v t) : Fine E strict F f v t :=
  h (v, t) .refl

theorem allFine_step {E : LEnv} {strict : Bool} {F : Val → Except Err Val} {f : PyStr → PyStr}
    {v x : Val} {t u : Option Ty} (h : AllFine E strict F f v t)
    (hs : Step E strict f (v, t) (x, u)) : AllFine E strict F f x u :=
  fun q hq => h q (.head hs hq)

/-! ## The same outcome -/

/-- Both return the same, or both fail. -/
def Eqv {α : Type} (x y : Res α) : Prop := ∀ a, x.val = .ok a ↔ y.val = .ok a

theorem Eqv.rfl' {α : Type} (x : Res α) : Eqv x x := fun _ => Iff.rfl

theorem Eqv.of_eq {α : Type} {x y : Res α} (h : x = y) : Eqv x y := h ▸ Eqv.rfl' x

theorem Eqv.bind {α β : Type} {x y : Res α} {f g : α → Res β} (h : Eqv x y)
    (hf : ∀ a, x.val = .ok a → Eqv (f a) (g a)) : Eqv (x >>= f) (y >>= g) := by
  intro b
  simp only [Core.bind_ok]
  constructor
  · rintro ⟨a, h1, h2⟩; exact ⟨a, (h a).1 h1, (hf a h1 b).1 h2⟩
  · rintro ⟨a, h1, h2⟩; exact ⟨a, (h a).2 h1, (hf a ((h a).2 h1) b).2 h2⟩

/-- The value that is used next may be another one. -/
theorem Eqv.bind' {α α' β : Type} {x : Res α} {y : Res α'} {f : α → Res β} {g : α' → Res β}
    (R : α → α' → Prop) (h1 : ∀ a, x.val = .ok a → ∃ a', y.val = .ok a' ∧ R a a')
    (h2 : ∀ a', y.val = .ok a' → ∃ a, x.val = .ok a ∧ R a a')
    (hf : ∀ a a', x.val = .ok a → R a a' → Eqv (f a) (g a')) : Eqv (x >>= f) (y >>= g) := by
  intro b
  simp only [Core.bind_ok]
  constructor
  · rintro ⟨a, ha, hb⟩
    obtain ⟨a', ha', hr⟩ := h1 a ha
    exact ⟨a', ha', (hf a a' ha hr b).1 hb⟩
  · rintro ⟨a', ha', hb⟩
    obtain ⟨a, ha, hr⟩ := h2 a' ha'
    exact ⟨a, ha, (hf a a' ha hr b).2 hb⟩

theorem Eqv.fail {α : Type} {x y : Res α} (hx : ∀ a, x.val ≠ .ok a) (hy : ∀ a, y.val ≠ .ok a) :
    Eqv x y := fun a => ⟨fun h => absurd h (hx a), fun h => absurd h (hy a)⟩

theorem raise_fails {α : Type} (e : Err) (a : α) : (Res.raise e : Res α).val ≠ .ok a := by
  intro h; cases h

theorem bind_fails {α β : Type} {x : Res α} (h : ∀ a, x.val ≠ .ok a) (f : α → Res β) (b : β) :
    (x >>= f).val ≠ .ok b := by
  intro hb
  obtain ⟨a, ha, _⟩ := Core.bind_ok.1 hb
  exact h a ha

/-- The same outcome, and if both fail, then both or none of them with a `JsonsError`. -/
structure Same (x y : Res Val) : Prop where
  eqv : Eqv x y
  kind : ∀ e e', x.val = .error e → y.val = .error e' → e.kind.isJsonsError = e'.kind.isJsonsError

theorem Same.of_eq {x y : Res Val} (h : x.val = y.val) : Same x y :=
  ⟨fun a => by rw [h], fun e e' h1 h2 => by
    rw [h, h2] at h1; cases h1; rfl⟩

/-! ## The deserializers -/

/-- The keyword arguments that are considered, apart from `key_transformer`. -/
structure KwOk (strict : Bool) (fork : Nat) (kw : LoadKw) : Prop where
  strict : kw.strict = strict
  fork : kw.fork = fork
  warn : kw.warnOnFail = false
  hints : kw.metaHints.getD [] = []

/-- The transformers of the other call: none, or one that changes nothing (which the dict
deserializer passes on). -/
def NoTfr (g : Option (Val → Except Err Val)) : Prop := g = none ∨ g = some .ok

section
variable {E : LEnv} {strict : Bool} {fork : Nat} {F : Val → Except Err Val} {f : PyStr → PyStr}
  {rec : LRec} {v : Val} {t : Option Ty} {kw : LoadKw} {g : Option (Val → Except Err Val)}

/-- What is known about the nested calls for the parts. -/
def RecOk (E : LEnv) (strict : Bool) (fork : Nat) (F : Val → Except Err Val) (f : PyStr → PyStr)
    (rec : LRec) (v : Val) (t : Option Ty) : Prop :=
  ∀ x u kw g, Step E strict f (v, t) (x, u) → KwOk strict fork kw → NoTfr g →
    Same (rec x u { kw with keyTransformer := some F })
      (rec (rename f x) u { kw with keyTransformer := g })

theorem listLoop_eqv {cls : Option Ty} {kw1 kw2 : LoadKw} (xs : List Val)
    (h : ∀ x ∈ xs, Eqv (rec x cls kw1) (rec (rename f x) cls kw2)) (i : Nat) :
    Eqv (listLoop E rec cls false kw1 i xs) (listLoop E rec cls false kw2 i (xs.map (rename f))) := by
  induction xs generalizing i with
  | nil => exact Eqv.rfl' _
  | cons x xs ih =>
    have hx := h x List.mem_cons_self
    have ih := ih (fun y hy => h y (List.mem_cons_of_mem _ hy)) (i + 1)
    have key : ∀ (y : Val) (kw : LoadKw) (ys : List Val) (r : List Val),
        (listLoop E rec cls false kw i (y :: ys)).val = .ok r ↔
          ((rec y cls kw) >>= fun z => listLoop E rec cls false kw (i + 1) ys >>= fun zs =>
            pure (z :: zs)).val = .ok r := by
      intro y kw ys r
      simp only [listLoop, Core.bind_ok, attempt_val, Except.ok.injEq, exists_eq_left', pure_val]
      cases hy : (rec y cls kw).val with
      | ok z =>
        simp only [Core.bind_ok, pure_val, Except.ok.injEq, exists_eq_left']
      | error e =>
        simp only [Bool.false_eq_true, if_false, reduceCtorEq, false_and, exists_false, iff_false]
        split <;> exact raise_fails _ _
    intro r
    rw [List.map_cons, key, key]
    exact (Eqv.bind hx fun z _ => Eqv.bind ih fun zs _ => Eqv.rfl' _) r

/-- The elements of the renamed document. -/
theorem iter_rename (hd : Doc F f v) (hw : (∃ es, v = .dict es) → rename f v = v) :
    (rename f v).iter = v.iter.map (List.map (rename f)) := by
  cases hd with
  | atom a =>
    cases a <;> try rfl
    next s =>
    show some _ = some _
    rw [List.map_map]
    rfl
  | list h => rw [rename_list]; rfl
  | @dict ps h1 h2 h3 =>
    rw [hw ⟨_, rfl⟩]
    show some _ = some _
    unfold texts
    rw [List.map_map, List.map_map]
    rfl

theorem listDes_eqv (hkw : KwOk strict fork kw) (hg : NoTfr g)
    (hrec : RecOk E strict fork F f rec v t) (hd : Doc F f v)
    (hw : (∃ es, v = .dict es) → rename f v = v)
    (ht : (asTy v t).desFn E.info = some .list ∨ (asTy v t).desFn E.info = some .iterable) :
    Eqv (listDes E rec v (asTy v t).getArgs { kw with keyTransformer := some F })
      (listDes E rec (rename f v) (asTy v t).getArgs { kw with keyTransformer := g }) := by
  unfold listDes
  rw [iter_rename hd hw]
  cases hi : v.iter with
  | none => exact Eqv.rfl' _
  | some xs =>
    simp only [Option.map_some, hkw.warn]
    refine listLoop_eqv xs (fun x hx => ?_) 0
    exact (hrec x _ { kw with warnOnFail := false, inferred := kw.inferred || !(asTy v t).getArgs.isEmpty }
      g (.element hi ht hx) ⟨hkw.strict, hkw.fork, rfl, hkw.hints⟩ hg).eqv

theorem dictComp_eqv {info : Nat → ClassInfo} {k1 k2 v1 v2 : Val → Res Val} (ps : List (PyStr × Val))
    (hk : ∀ e ∈ ps, Eqv (k1 (.str e.1)) (k2 (.str (f e.1))))
    (hv : ∀ e ∈ ps, Eqv (v1 e.2) (v2 (rename f e.2))) (acc : List (Val × Val)) :
    Eqv (dictComp info k1 v1 acc (texts ps)) (dictComp info k2 v2 acc (moved f (rename f) ps)) := by
  induction ps generalizing acc with
  | nil => exact Eqv.rfl' _
  | cons e ps ih =>
    refine Eqv.bind (hk e List.mem_cons_self) fun k' _ =>
      Eqv.bind (hv e List.mem_cons_self) fun v' _ => ?_
    split
    · exact ih (fun e he => hk e (List.mem_cons_of_mem _ he)) (fun e he => hv e (List.mem_cons_of_mem _ he)) _
    · exact Eqv.rfl' _

theorem noKeys {ps : List (PyStr × Val)} {h : PyStr → PyStr} {u : Val → Val}
    (hk : ∀ e ∈ ps, h e.1 ≠ keysKey) : dictGet (moved h u ps) (.str keysKey) = none := by
  rw [get_moved, Option.map_eq_none_iff, List.find?_eq_none]
  intro e he
  simpa using hk e he

theorem noTfr_getD (hg : NoTfr g) : g.getD .ok = .ok := by
  rcases hg with rfl | rfl <;> rfl

theorem dictDes_eqv (hkw : KwOk strict fork kw) (hg : NoTfr g)
    (hrec : RecOk E strict fork F f rec v t) (hd : Doc F f v)
    (ht : (asTy v t).desFn E.info = some .mapping) :
    Eqv (dictDes E rec v (asTy v t).getArgs { kw with keyTransformer := some F })
      (dictDes E rec (rename f v) (asTy v t).getArgs { kw with keyTransformer := g }) := by
  cases hd with
  | atom a => exact Eqv.rfl' _
  | list h => exact Eqv.fail (bind_fails (raise_fails _) _) (bind_fails (raise_fails _) _)
  | @dict ps h1 h2 h3 =>
    rw [rename_dict]
    have e1 : ∀ kw', loadHashedKeys E rec (.dict (texts ps)) (asTy (.dict (texts ps)) t).getArgs kw'
        = pure (texts ps, false) := by
      intro kw'
      unfold loadHashedKeys
      simp only
      rw [texts_eq, noKeys fun e he hk => (h1 e he).2.1 (by
        simp only [id] at hk; rw [hk]; exact List.mem_cons_of_mem _ List.mem_cons_self)]
    have e2 : ∀ kw', loadHashedKeys E rec (.dict (moved f (rename f) ps))
        (asTy (.dict (texts ps)) t).getArgs kw' = pure (moved f (rename f) ps, false) := by
      intro kw'
      unfold loadHashedKeys
      simp only
      rw [noKeys fun e he hk => (h1 e he).2.2 (by
        rw [hk]; exact List.mem_cons_of_mem _ List.mem_cons_self)]
    have hval : ∀ e ∈ ps, Eqv
        (rec e.2 (valueTy (asTy (.dict (texts ps)) t).getArgs) { kw with keyTransformer := some F })
        (rec (rename f e.2) (valueTy (asTy (.dict (texts ps)) t).getArgs)
          { kw with keyTransformer := some .ok }) := fun e he =>
      (hrec e.2 _ kw (some .ok) (.value (e := (.str e.1, e.2)) ht (List.mem_map_of_mem he)) hkw
        (.inr rfl)).eqv
    have hF : ∀ e ∈ ps, (Res.lift (F (.str e.1)) : Res Val) = Res.lift (.ok (.str (f e.1))) :=
      fun e he => by rw [(h1 e he).1]
    unfold dictDes
    rw [e1, e2, pure_bind', pure_bind']
    simp only [Option.getD_some, noTfr_getD hg, Bool.false_eq_true, if_false]
    generalize ha : (asTy (.dict (texts ps)) t).getArgs = args at hval
    match args, hval with
    | [], hval => exact dictComp_eqv ps (fun e he => .of_eq (hF e he)) hval []
    | [_], hval => exact dictComp_eqv ps (fun e he => .of_eq (hF e he)) hval []
    | [k, w], hval =>
      refine dictComp_eqv ps (fun e he => ?_) hval []
      rw [hF e he]
      exact Eqv.rfl' _
    | _ :: _ :: _ :: _, hval => exact dictComp_eqv ps (fun e he => .of_eq (hF e he)) hval []

theorem union_eqv {T : Ty} {kw1 kw2 : LoadKw} (ts : List Ty)
    (h : ∀ a ∈ ts, Same (rec v (some a) kw1) (rec (rename f v) (some a) kw2)) :
    Eqv (unionLoadLoop rec v T kw1 ts) (unionLoadLoop rec (rename f v) T kw2 ts) := by
  induction ts with
  | nil => exact Eqv.fail (raise_fails _) (raise_fails _)
  | cons a ts ih =>
    have ha := h a List.mem_cons_self
    have ih := ih fun b hb => h b (List.mem_cons_of_mem _ hb)
    intro r
    simp only [unionLoadLoop, Core.bind_ok, attempt_val, Except.ok.injEq, exists_eq_left']
    cases h1 : (rec v (some a) kw1).val with
    | ok x =>
      rw [(ha.eqv x).1 h1]
    | error e =>
      cases h2 : (rec (rename f v) (some a) kw2).val with
      | ok x => rw [(ha.eqv x).2 h2] at h1; cases h1
      | error e' =>
        simp only
        rw [ha.kind e e' h1 h2]
        split
        · exact ih r
        · exact ⟨fun h => (by cases h), fun h => (by cases h)⟩

/-! ### Objects -/

theorem transform_moved {info : Nat → ClassInfo} {G : Val → Except Err Val} {h : PyStr → PyStr}
    {k : PyStr → PyStr} {u : Val → Val} (ps : List (PyStr × Val))
    (hG : ∀ e ∈ ps, G (.str (k e.1)) = .ok (.str (h e.1))) (acc : List (Val × Val))
    (hn : (ps.map fun e => h e.1).Nodup) (hacc : ∀ e ∈ ps, ∀ a ∈ acc, pyEq a.1 (.str (h e.1)) = false) :
    transformKeys info G acc (moved k u ps) = .ok (acc ++ moved h u ps) := by
  induction ps generalizing acc with
  | nil => simp [moved, transformKeys]
  | cons e ps ih =>
    rw [List.map_cons, List.nodup_cons] at hn
    have hGe := hG e List.mem_cons_self
    simp only [moved, List.map_cons, transformKeys, hGe]
    show (if Val.hashable info (.str (h e.1)) then
      transformKeys info G (dictSet acc (.str (h e.1)) (u e.2)) (moved k u ps)
      else .error { kind := .typeError }) = _
    rw [if_pos (by simp [Val.hashable]), dictSet_new (fun a ha => hacc e List.mem_cons_self a ha),
      ih (fun e he => hG e (List.mem_cons_of_mem _ he)) _ hn.2]
    · simp [moved]
    · intro e' he' a ha
      rcases List.mem_append.1 ha with ha | ha
      · exact hacc e' (List.mem_cons_of_mem _ he') a ha
      · rw [List.mem_singleton] at ha
        subst ha
        rw [pyEq_str]
        rw [beq_eq_false_iff_ne]
        intro hh
        exact hn.1 (List.mem_map.2 ⟨e', he', hh.symm⟩)

theorem transform_doc {info : Nat → ClassInfo} {ps : List (PyStr × Val)}
    (h1 : ∀ e ∈ ps, F (.str e.1) = .ok (.str (f e.1)) ∧
        e.1 ∉ [metaKey, keysKey] ∧ f e.1 ∉ [metaKey, keysKey])
    (h3 : (ps.map fun e => f e.1).Nodup) :
    transformKeys info F [] (texts ps) = .ok (moved f id ps) ∧
    transformKeys info .ok [] (moved f (rename f) ps) = .ok (moved f (rename f) ps) := by
  refine ⟨?_, ?_⟩
  · exact transform_moved (k := id) (u := id) ps (fun e he => (h1 e he).1) [] h3
      (fun _ _ _ h => by cases h)
  · exact transform_moved (k := f) (h := f) (u := rename f) ps (fun e he => rfl) [] h3
      (fun _ _ _ h => by cases h)

theorem moved_empty {u w : Val → Val} {ps : List (PyStr × Val)} :
    (moved f u ps).isEmpty = (moved f w ps).isEmpty := by cases ps <;> rfl

theorem metaFor_none {name : PyStr} (h : kw.metaHints.getD [] = []) :
    metaFor E kw name = .ok (none, []) := by
  unfold metaFor
  rw [h]
  rfl

theorem find_mem {ps : List (PyStr × Val)} {s : PyStr} {e : PyStr × Val}
    (h : ps.find? (fun e => f e.1 = s) = some e) : e ∈ ps ∧ f e.1 = s :=
  ⟨List.mem_of_find?_eq_some h, by simpa using List.find?_some h⟩

theorem precedence_hint (h : Option Ty) : determinePrecedence h none none true = h := by
  cases h <;> rfl

theorem valueForAttr_eqv {ps : List (PyStr × Val)} {c : Nat} {p : Param} (hkw : KwOk strict fork kw)
    (hg : NoTfr g) (hrec : RecOk E strict fork F f rec (.dict (texts ps)) t)
    (hc : asTy (.dict (texts ps)) t = .cls (.user c)) (hk : (E.info c).kind = .plain)
    (hp : p ∈ (E.info c).params) :
    Eqv (valueForAttr E rec (.dict (moved f id ps)) c { kw with keyTransformer := some F } p)
      (valueForAttr E rec (.dict (moved f (rename f) ps)) c { kw with keyTransformer := g } p) := by
  have hin : keyIn (.dict (moved f id ps)) p.name = keyIn (.dict (moved f (rename f) ps)) p.name := by
    unfold keyIn
    simp only [Val.falsy, get_moved, moved_empty (u := id) (w := rename f), Option.isSome_map]
  have hout : ∀ kw' : LoadKw, KwOk strict fork kw' → ∀ b, keyIn (.dict (moved f (rename f) ps)) p.name = .ok b →
      b = true → ∃ e ∈ ps, f e.1 = p.name ∧ ps.find? (fun e => f e.1 = p.name) = some e := by
    intro kw' hkw' b hb ht
    subst ht
    unfold keyIn at hb
    split at hb
    · cases hb
    · simp only [get_moved, Option.isSome_map, Except.ok.injEq] at hb
      obtain ⟨e, he⟩ := Option.isSome_iff_exists.1 hb
      exact ⟨e, (find_mem he).1, (find_mem he).2, he⟩
  unfold valueForAttr
  rw [hin]
  refine Eqv.bind (Eqv.rfl' _) fun b hb => ?_
  cases b with
  | true =>
    simp only [if_true]
    obtain ⟨e, he, hn, hf⟩ := hout kw hkw true (liftK_ok.1 hb) rfl
    refine Eqv.bind ?_ fun x _ => Eqv.rfl' _
    unfold valueFromObj
    rw [metaFor_none (E := E) (kw := { kw with keyTransformer := some F }) hkw.hints,
      metaFor_none (E := E) (kw := { kw with keyTransformer := g }) hkw.hints, liftS_of_ok, liftS_of_ok, pure_bind',
      pure_bind']
    have s1 : subscript (.dict (moved f id ps)) p.name = .ok e.2 := by
      unfold subscript; simp only; rw [get_moved, hf]; rfl
    have s2 : subscript (.dict (moved f (rename f) ps)) p.name = .ok (rename f e.2) := by
      unfold subscript; simp only; rw [get_moved, hf]; rfl
    rw [s1, s2, liftK_of_ok, liftK_of_ok, pure_bind', pure_bind']
    simp only [precedence_hint]
    exact (hrec e.2 _ { kw with metaHints := some [], attrGetters := [] } g
      (.argument hc hk he hp hn) ⟨hkw.strict, hkw.fork, hkw.warn, rfl⟩ hg).eqv
  | false =>
    simp only [Bool.false_eq_true, if_false]
    cases assoc kw.attrGetters p.name with
    | some getter => exact Eqv.rfl' _
    | none =>
      cases p.default with
      | some d => exact Eqv.rfl' _
      | none =>
        simp only
        split
        · exact Eqv.rfl' _
        · refine Eqv.bind (Eqv.rfl' _) fun b _ => ?_
          split
          · exact Eqv.rfl' _
          · exact Eqv.fail (raise_fails _) (raise_fails _)

theorem ctorArgs_eqv {obj1 obj2 : Val} {c : Nat} {kw1 kw2 : LoadKw} (params : List Param)
    (h : ∀ p ∈ params, Eqv (valueForAttr E rec obj1 c kw1 p) (valueForAttr E rec obj2 c kw2 p)) :
    Eqv (ctorArgs E rec obj1 c kw1 params) (ctorArgs E rec obj2 c kw2 params) := by
  induction params with
  | nil => exact Eqv.rfl' _
  | cons p params ih =>
    refine Eqv.bind (h p List.mem_cons_self) fun x _ =>
      Eqv.bind (ih fun q hq => h q (List.mem_cons_of_mem _ hq)) fun r _ => Eqv.rfl' _

/-- A parameter that is in the input has got a value. -/
theorem ctorArgs_given {obj : Val} {c : Nat} {params : List Param} {args : List (PyStr × Val)}
    (h : (ctorArgs E rec obj c kw params).val = .ok args) {p : Param} (hp : p ∈ params)
    (hi : keyIn obj p.name = .ok true) : (assoc args p.name).isSome := by
  induction params generalizing args with
  | nil => cases hp
  | cons q params ih =>
    simp only [ctorArgs, Core.bind_ok] at h
    obtain ⟨x, hx, r, hr, h⟩ := h
    rcases List.mem_cons.1 hp with rfl | hp
    · have : ∃ y, x = some y := by
        simp only [valueForAttr, hi, Core.bind_ok, liftK_ok, Except.ok.injEq, exists_eq_left', if_true,
          pure_val] at hx
        obtain ⟨y, _, hy⟩ := hx
        exact ⟨y, hy.symm⟩
      obtain ⟨y, rfl⟩ := this
      simp only [pure_val, Except.ok.injEq] at h
      subst h
      simp [assoc]
    · have := ih hr hp
      cases x with
      | none => simp only [pure_val, Except.ok.injEq] at h; subst h; exact this
      | some y =>
        simp only [pure_val, Except.ok.injEq] at h
        subst h
        simp only [assoc]
        split
        · rfl
        · exact this

theorem setRemaining_eqv {ps qs : List (PyStr × Val)} {c : Nat} (hkw : KwOk strict fork kw)
    (hg : NoTfr g) (hrec : RecOk E strict fork F f rec (.dict (texts ps)) t)
    (hst : qs ≠ [] → strict = false)
    (hc : asTy (.dict (texts ps)) t = .cls (.user c)) (hk : (E.info c).kind = .plain)
    (hq : ∀ e ∈ qs, e ∈ ps ∧ ∀ p ∈ (E.info c).params, p.name ≠ f e.1) (as : List (PyStr × Val)) :
    Eqv (setRemaining E rec c { kw with keyTransformer := some F } (moved f id qs) as)
      (setRemaining E rec c { kw with keyTransformer := g } (moved f (rename f) qs) as) := by
  induction qs generalizing as with
  | nil => exact Eqv.rfl' _
  | cons e qs ih =>
    have he := hq e List.mem_cons_self
    have hs : strict = false := hst (by simp)
    show Eqv (setRemaining E rec c _ ((.str (f e.1), e.2) :: moved f id qs) as)
      (setRemaining E rec c _ ((.str (f e.1), rename f e.2) :: moved f (rename f) qs) as)
    unfold setRemaining
    refine Eqv.bind' (fun _ _ => True) ?_ ?_ fun _ _ _ _ => ?_
    · intro a _
      refine ⟨(), ?_, trivial⟩
      unfold warnHashed Env.warn
      split
      · split <;> rfl
      · rfl
    · intro a _
      refine ⟨(), ?_, trivial⟩
      unfold warnHashed Env.warn
      split
      · split <;> rfl
      · rfl
    · refine Eqv.bind ?_ fun y _ => Eqv.bind (Eqv.rfl' _) fun as' _ =>
        ih (fun _ => hs) (fun e he => hq e (List.mem_cons_of_mem _ he)) as'
      have := (hrec e.2 _ { kw with attrGetters := [] } g (.attribute hc hk hs he.1 he.2)
        ⟨hkw.strict, hkw.fork, hkw.warn, hkw.hints⟩ hg).eqv
      rw [rename_cls]
      exact this

theorem objectDes_dict {ps : List (PyStr × Val)} {c : Nat} (hkw : KwOk strict fork kw) (hg : NoTfr g)
    (hrec : RecOk E strict fork F f rec (.dict (texts ps)) t)
    (h1 : ∀ e ∈ ps, F (.str e.1) = .ok (.str (f e.1)) ∧
        e.1 ∉ [metaKey, keysKey] ∧ f e.1 ∉ [metaKey, keysKey])
    (h3 : (ps.map fun e => f e.1).Nodup)
    (hc : asTy (.dict (texts ps)) t = .cls (.user c)) (hk : (E.info c).kind = .plain) :
    Eqv (objectDes E rec (.dict (texts ps)) (.cls (.user c)) { kw with keyTransformer := some F })
      (objectDes E rec (.dict (moved f (rename f) ps)) (.cls (.user c)) { kw with keyTransformer := g }) := by
  have t1 : transformObj E.info (.dict (texts ps)) (some F) = .ok (.dict (moved f id ps)) := by
    unfold transformObj; simp only; rw [(transform_doc h1 h3).1]; rfl
  have t2 : transformObj E.info (.dict (moved f (rename f) ps)) g = .ok (.dict (moved f (rename f) ps)) := by
    rcases hg with rfl | rfl
    · rfl
    · unfold transformObj; simp only; rw [(transform_doc (F := F) h1 h3).2]; rfl
  unfold objectDes
  simp only [t1, t2]
  rw [show (Res.lift (.ok (.dict (moved f id ps)) : Except Err Val)) = pure (.dict (moved f id ps)) from rfl,
    show (Res.lift (.ok (.dict (moved f (rename f) ps)) : Except Err Val))
      = pure (.dict (moved f (rename f) ps)) from rfl, pure_bind', pure_bind']
  refine Eqv.bind (ctorArgs_eqv _ fun p hp => valueForAttr_eqv hkw hg hrec hc hk hp) fun args hargs => ?_
  have hrest : ∀ u : Val → Val, remainingAttrs (.dict (moved f u ps)) args = .ok (moved f u
      (ps.filter fun e => (assoc args (f e.1)).isNone && decide (f e.1 ≠ metaKey))) := by
    intro u
    unfold remainingAttrs moved
    simp only
    rw [List.filter_map]
    rfl
  generalize hqs : (ps.filter fun e => (assoc args (f e.1)).isNone && decide (f e.1 ≠ metaKey)) = qs
    at hrest
  have hq : ∀ e ∈ qs, e ∈ ps ∧ ∀ p ∈ (E.info c).params, p.name ≠ f e.1 := by
    intro e he
    subst hqs
    rw [List.mem_filter, Bool.and_eq_true] at he
    refine ⟨he.1, fun p hp hn => ?_⟩
    have hin : keyIn (.dict (moved f id ps)) p.name = .ok true := by
      unfold keyIn
      rw [if_neg]
      · simp only [get_moved, Option.isSome_map, Except.ok.injEq, List.find?_isSome]
        exact ⟨e, he.1, by simp [hn]⟩
      · cases ps with
        | nil => cases he.1
        | cons _ _ => simp [Val.falsy, moved]
    have := ctorArgs_given hargs hp hin
    rw [hn] at this
    rw [Option.isNone_iff_eq_none.1 he.2.1] at this
    cases this
  refine Eqv.bind' (fun a a' => a = moved f id qs ∧ a' = moved f (rename f) qs ∧ (qs ≠ [] → strict = false))
    ?_ ?_ fun a a' _ hr => ?_
  · intro a ha
    simp only [getRemainingArgs, hrest, Core.bind_ok, liftK_ok, Except.ok.injEq, exists_eq_left'] at ha ⊢
    have hks := hkw.strict
    cases qs with
    | nil => cases ha; exact ⟨[], rfl, rfl, rfl, fun h => absurd rfl h⟩
    | cons q qs =>
      cases strict with
      | true =>
        simp only [moved, List.map_cons, hks, if_true] at ha
        exact absurd ha (raise_fails _ _)
      | false =>
        simp only [moved, List.map_cons, hks, Bool.false_eq_true, if_false, pure_val, Except.ok.injEq] at ha ⊢
        exact ⟨_, rfl, ha.symm, rfl, fun _ => trivial⟩
  · intro a ha
    simp only [getRemainingArgs, hrest, Core.bind_ok, liftK_ok, Except.ok.injEq, exists_eq_left'] at ha ⊢
    have hks := hkw.strict
    cases qs with
    | nil => cases ha; exact ⟨[], rfl, rfl, rfl, fun h => absurd rfl h⟩
    | cons q qs =>
      cases strict with
      | true =>
        simp only [moved, List.map_cons, hks, if_true] at ha
        exact absurd ha (raise_fails _ _)
      | false =>
        simp only [moved, List.map_cons, hks, Bool.false_eq_true, if_false, pure_val, Except.ok.injEq] at ha ⊢
        exact ⟨_, rfl, rfl, ha.symm, fun _ => trivial⟩
  · obtain ⟨rfl, rfl, hst⟩ := hr
    refine Eqv.bind (Eqv.rfl' _) fun as _ =>
      Eqv.bind (setRemaining_eqv hkw hg hrec hst hc hk hq as) fun as' _ => Eqv.rfl' _

/-- What is not a dict and not empty is refused. -/
theorem objectDes_fails {c : Nat} {w : Val} {kw' : LoadKw} (hw : ∀ es, w ≠ .dict es)
    (hi : w.iter ≠ some []) (r : Val) :
    (objectDes E rec w (.cls (.user c)) kw').val ≠ .ok r := by
  unfold objectDes
  simp only
  intro h
  simp only [Core.bind_ok] at h
  obtain ⟨obj, hobj, args, _, rest, hrest, _⟩ := h
  have : obj = w := by
    unfold transformObj at hobj
    split at hobj
    · cases hobj; rfl
    · split at hobj
      · next es => exact absurd rfl (hw es)
      · split at hobj
        · next h => exact absurd h hi
        · cases hobj
  subst this
  unfold getRemainingArgs remainingAttrs at hrest
  split at hrest
  · next es _ => exact absurd rfl (hw es)
  · simp only [Core.bind_ok, liftK_ok] at hrest
    obtain ⟨x, hx, _⟩ := hrest
    cases hx

/-- What is empty is taken for an empty dict. -/
theorem objectDes_empty {c : Nat} {w : Val} {kw1 : LoadKw}
    (hw : ∀ es, w ≠ .dict es) (hi : w.iter = some []) (hf : w.falsy = true) :
    Eqv (objectDes E rec w (.cls (.user c)) kw1)
      (objectDes E rec (.dict []) (.cls (.user c)) { kw1 with keyTransformer := none }) := by
  have hval : ∀ (o1 : Val) p, o1.falsy = true → Eqv (valueForAttr E rec o1 c kw1 p)
      (valueForAttr E rec (.dict []) c { kw1 with keyTransformer := none } p) := by
    intro o1 p ho
    unfold valueForAttr keyIn
    rw [if_pos ho, show (Val.dict []).falsy = true from rfl, if_pos rfl]
    simp only [liftK_of_ok, pure_bind', Bool.false_eq_true, if_false]
    cases assoc kw1.attrGetters p.name with
    | some getter => exact Eqv.rfl' _
    | none =>
      cases p.default with
      | some d => exact Eqv.rfl' _
      | none =>
        simp only
        split
        · exact Eqv.rfl' _
        · refine Eqv.bind (Eqv.rfl' _) fun b _ => ?_
          split
          · exact Eqv.rfl' _
          · exact Eqv.fail (raise_fails _) (raise_fails _)
  have hobj : ∃ o, transformObj E.info w kw1.keyTransformer = .ok o ∧ o.falsy = true ∧
      ∀ args, remainingAttrs o args = .ok [] := by
    unfold transformObj
    cases kw1.keyTransformer with
    | none =>
      refine ⟨w, rfl, hf, fun args => ?_⟩
      unfold remainingAttrs
      split
      · next es => exact absurd rfl (hw es)
      · rw [hi]
    | some G =>
      refine ⟨.dict [], ?_, rfl, fun args => rfl⟩
      simp only
      cases w <;> first | exact absurd rfl (hw _) | (simp only [hi])
  obtain ⟨o, ho, hof, hor⟩ := hobj
  unfold objectDes
  simp only
  rw [ho]
  rw [show (Res.lift (.ok o : Except Err Val)) = pure o from rfl,
    show Res.lift (transformObj E.info (.dict []) none) = pure (.dict []) from rfl, pure_bind', pure_bind']
  refine Eqv.bind (ctorArgs_eqv _ fun p _ => hval o p hof) fun args _ => ?_
  unfold getRemainingArgs
  rw [hor args, show remainingAttrs (.dict []) args = .ok [] from rfl]
  exact Eqv.rfl' _

theorem objectDes_eqv {c : Nat} (hkw : KwOk strict fork kw) (hg : NoTfr g)
    (hrec : RecOk E strict fork F f rec v t) (hd : Doc F f v) (hc : asTy v t = .cls (.user c))
    (hk : (E.info c).kind = .plain) :
    Eqv (objectDes E rec v (.cls (.user c)) { kw with keyTransformer := some F })
      (objectDes E rec (rename f v) (.cls (.user c)) { kw with keyTransformer := g }) := by
  have main : ∀ w w' : Val, (∀ es, w ≠ .dict es) → (∀ es, w' ≠ .dict es) →
      (w.iter = some [] ↔ w'.iter = some []) → (w.iter = some [] → w.falsy = true ∧ w'.falsy = true) →
      Eqv (objectDes E rec w (.cls (.user c)) { kw with keyTransformer := some F })
        (objectDes E rec w' (.cls (.user c)) { kw with keyTransformer := g }) := by
    intro w w' h1 h2 h3 h4
    by_cases hi : w.iter = some []
    · have e1 := objectDes_empty (E := E) (rec := rec) (c := c)
        (kw1 := { kw with keyTransformer := some F }) h1 hi (h4 hi).1
      have e2 := objectDes_empty (E := E) (rec := rec) (c := c)
        (kw1 := { kw with keyTransformer := g }) h2 (h3.1 hi) (h4 hi).2
      exact fun r => (e1 r).trans (e2 r).symm
    · exact Eqv.fail (objectDes_fails h1 hi) (objectDes_fails h2 fun h => hi (h3.2 h))
  cases hd with
  | atom a =>
    refine main _ _ (fun _ h => by cases h) (fun _ h => by cases h) Iff.rfl ?_
    intro h
    have : (Val.atom a).falsy = true := by
      cases a <;> simp [Val.iter] at h
      subst h
      rfl
    exact ⟨this, this⟩
  | @list xs h =>
    rw [rename_list]
    refine main _ _ (fun _ h => by cases h) (fun _ h => by cases h) ?_ ?_
    · simp [Val.iter]
    · intro h
      simp only [Val.iter, Option.some.injEq] at h
      subst h
      exact ⟨rfl, rfl⟩
  | @dict ps h1 h2 h3 =>
    rw [rename_dict]
    exact objectDes_dict hkw hg hrec h1 h3 hc hk

/-! ### Named tuples -/

theorem ntupleLoop_eqv {c : Nat} {w : Val} {tfm1 tfm2 : Option (List (Val × Val))} {len : Nat}
    (hkw : KwOk strict fork kw) (hg : NoTfr g)
    (hrec : RecOk E strict fork F f rec v t) (hc : asTy v t = .cls (.user c))
    (hk : (E.info c).kind = .ntuple)
    (hfield : ∀ i name, (∃ k, ntupleField (E.info c) v tfm1 len i name = .error k ∧
        ∃ k', ntupleField (E.info c) w tfm2 len i name = .error k') ∨
      ∃ x, ntupleField (E.info c) v tfm1 len i name = .ok x ∧
        ntupleField (E.info c) w tfm2 len i name = .ok (rename f x) ∧
        FieldInput (E.info c) f v name x)
    (names : List PyStr) (hn : ∀ a ∈ names, a ∈ (E.info c).fields) (i : Nat) :
    Eqv (ntupleLoop E rec c v tfm1 len { kw with keyTransformer := some F } i names)
      (ntupleLoop E rec c w tfm2 len { kw with keyTransformer := g } i names) := by
  induction names generalizing i with
  | nil => exact Eqv.rfl' _
  | cons name names ih =>
    simp only [ntupleLoop]
    rcases hfield i name with ⟨k, h1, k', h2⟩ | ⟨x, h1, h2, h3⟩
    · rw [h1, h2]
      exact Eqv.fail (bind_fails (fun a h => by cases h) _) (bind_fails (fun a h => by cases h) _)
    · rw [h1, h2, liftK_of_ok, liftK_of_ok, pure_bind', pure_bind']
      simp only [rename_none]
      generalize hh : (if (E.info c).hasAnnotations = true then assoc (E.info c).hints name else none) = hint
      by_cases hx : x = .none ∧ .cls .noneType ∉ (hint.bind Ty.unionParams).getD []
      · rw [if_pos hx, if_pos hx]
        exact Eqv.fail (raise_fails _) (raise_fails _)
      · rw [if_neg hx, if_neg hx]
        subst hh
        refine Eqv.bind (hrec x _ kw g (.field hc hk (hn name List.mem_cons_self) h3) hkw hg).eqv
          fun y _ => Eqv.bind (ih (fun a ha => hn a (List.mem_cons_of_mem _ ha)) (i + 1))
          fun ys _ => Eqv.rfl' _

theorem assoc_mem {β : Type} {l : List (PyStr × β)} {n : PyStr} {b : β} (h : assoc l n = some b) :
    b ∈ l.map (·.2) := by
  induction l with
  | nil => cases h
  | cons p l ih =>
    obtain ⟨m, c⟩ := p
    simp only [assoc] at h
    split at h
    · cases h; exact List.mem_cons_self
    · exact List.mem_cons_of_mem _ (ih h)

theorem ntupleDes_eqv {c : Nat} (hkw : KwOk strict fork kw) (hg : NoTfr g)
    (hrec : RecOk E strict fork F f rec v t) (hd : Doc F f v) (hc : asTy v t = .cls (.user c))
    (hk : (E.info c).kind = .ntuple) (hdef : ∀ d ∈ (E.info c).fieldDefaults, ∃ a, d.2 = .atom a) :
    Eqv (ntupleDes E rec v c { kw with keyTransformer := some F })
      (ntupleDes E rec (rename f v) c { kw with keyTransformer := g }) := by
  have hdflt : ∀ name, ∃ x, (assoc (E.info c).fieldDefaults name).getD .none = x ∧
      rename f x = x ∧ (x ∈ (E.info c).fieldDefaults.map (·.2) ∨ x = .none) := by
    intro name
    cases ha : assoc (E.info c).fieldDefaults name with
    | none => exact ⟨_, rfl, rfl, .inr rfl⟩
    | some x =>
      have hm := assoc_mem ha
      obtain ⟨d, hd, rfl⟩ := List.mem_map.1 hm
      obtain ⟨a, hx⟩ := hdef d hd
      refine ⟨d.2, rfl, ?_, .inl hm⟩
      rw [hx]; rfl
  unfold ntupleDes
  simp only [Option.getD_some, noTfr_getD hg]
  have nondict : ∀ (u : Val), (∀ es, v ≠ .dict es) → (∀ es, u ≠ .dict es) →
      u.iter = v.iter.map (List.map (rename f)) →
      (∀ xs, v.iter = some xs → ∀ i, index v i = (match xs[i]? with
        | some x => .ok x | none => .error .indexError)) →
      (∀ xs, u.iter = some xs → ∀ i, index u i = (match xs[i]? with
        | some x => .ok x | none => .error .indexError)) →
      Eqv (do
        let tfm ← Res.lift (ntupleTfm E.info F v)
        match v.iter with
        | none => Res.raise { kind := .typeError }
        | some xs => do
          let ys ← ntupleLoop E rec c v tfm xs.length { kw with keyTransformer := some F } 0 (E.info c).fields
          pure (Val.ntuple c ys))
      (do
        let tfm ← Res.lift (ntupleTfm E.info .ok u)
        match u.iter with
        | none => Res.raise { kind := .typeError }
        | some xs => do
          let ys ← ntupleLoop E rec c u tfm xs.length { kw with keyTransformer := g } 0 (E.info c).fields
          pure (Val.ntuple c ys)) := by
    intro u h1 h2 h3 h4 h5
    have e1 : ntupleTfm E.info F v = .ok none := by
      unfold ntupleTfm; split
      · next es => exact absurd rfl (h1 es)
      · rfl
    have e2 : ntupleTfm E.info .ok u = .ok none := by
      unfold ntupleTfm; split
      · next es => exact absurd rfl (h2 es)
      · rfl
    rw [e1, e2]
    refine Eqv.bind (Eqv.rfl' _) fun tfm htfm => ?_
    cases htfm
    cases hi : v.iter with
    | none => rw [h3, hi]; exact Eqv.rfl' _
    | some xs =>
      have hu : u.iter = some (xs.map (rename f)) := by rw [h3, hi]; rfl
      rw [hu]
      simp only [List.length_map]
      refine Eqv.bind (ntupleLoop_eqv hkw hg hrec hc hk ?_ _ (fun _ h => h) 0) fun ys _ => Eqv.rfl' _
      intro i name
      unfold ntupleField
      by_cases hl : i < xs.length
      · right
        refine ⟨xs[i], ?_, ?_, .inr (.inl ⟨xs, h1, hi, List.getElem_mem hl⟩)⟩
        · rw [if_pos hl]; simp only; rw [h4 xs hi]; simp [hl]
        · rw [if_pos hl]; simp only; rw [h5 _ hu]; simp [hl]
      · right
        obtain ⟨x, hx, hr, hm⟩ := hdflt name
        refine ⟨x, ?_, ?_, .inr (.inr hm)⟩
        · rw [if_neg hl, hx]
        · rw [if_neg hl, hx, hr]
  cases hd with
  | atom a =>
    refine nondict _ (fun _ h => by cases h) (fun _ h => by cases h)
      (iter_rename (F := F) (.atom a) (by rintro ⟨_, h⟩; cases h)) ?_ ?_
    all_goals
      intro xs hi i
      cases a <;> simp [Val.iter, rename] at hi
      next s =>
      subst hi
      simp only [rename, index, List.getElem?_map]
      cases s[i]? <;> rfl
  | @list xs h =>
    refine nondict _ (fun _ h => by cases h) (fun _ h => by cases h)
      (iter_rename (F := F) (.list h) (by rintro ⟨_, h⟩; cases h)) ?_ ?_
    · intro ys hi i
      cases hi
      rfl
    · rw [rename_list]
      intro ys hi i
      cases hi
      rfl
  | @dict ps h1 h2 h3 =>
    rw [rename_dict]
    have e1 : ntupleTfm E.info F (.dict (texts ps)) = .ok (some (moved f id ps)) := by
      unfold ntupleTfm; simp only; rw [(transform_doc h1 h3).1]; rfl
    have e2 : ntupleTfm E.info .ok (.dict (moved f (rename f) ps)) =
        .ok (some (moved f (rename f) ps)) := by
      unfold ntupleTfm; simp only; rw [(transform_doc (F := F) h1 h3).2]; rfl
    rw [e1, e2]
    refine Eqv.bind' (fun a a' => a = some (moved f id ps) ∧ a' = some (moved f (rename f) ps))
      (fun a ha => ⟨_, rfl, (by cases ha; rfl), rfl⟩) (fun a ha => ⟨_, rfl, rfl, (by cases ha; rfl)⟩) ?_
    rintro a a' _ ⟨rfl, rfl⟩
    simp only [Val.iter, texts, moved, List.length_map]
    refine Eqv.bind (ntupleLoop_eqv hkw hg hrec hc hk ?_ _ (fun _ h => h) 0) fun ys _ => Eqv.rfl' _
    intro i name
    unfold ntupleField
    by_cases hl : i < ps.length
    · rw [if_pos hl, if_pos hl]
      simp only
      unfold subscript
      simp only
      have g1 := get_moved (f := f) (u := id) (ps := ps) (s := name)
      have g2 := get_moved (f := f) (u := rename f) (ps := ps) (s := name)
      unfold moved at g1 g2
      rw [g1, g2]
      cases hf : ps.find? (fun e => f e.1 = name) with
      | none => exact .inl ⟨_, rfl, _, rfl⟩
      | some e =>
        exact .inr ⟨e.2, rfl, rfl, .inl ⟨ps, e.1, rfl, (find_mem hf).1, (find_mem hf).2⟩⟩
    · right
      obtain ⟨x, hx, hr, hm⟩ := hdflt name
      refine ⟨x, ?_, ?_, .inr (.inr hm)⟩
      · rw [if_neg hl, hx]
      · rw [if_neg hl, hx, hr]

/-! ### The others -/

theorem primitive_eqv {T : Ty} (hd : Doc F f v) (hT : T.desFn E.info = some .primitive) :
    Eqv (primitiveDes E v T) (primitiveDes E (rename f v) T) := by
  have key : ∀ w w' : Val, w.cls = w'.cls → (w.cls = .list ∨ w.cls = .dict) → w.falsy = w'.falsy →
      (∀ a, w ≠ .atom a) → (∀ a, w' ≠ .atom a) → E.intOf w = .error .typeError →
      E.intOf w' = .error .typeError → E.floatOf w = .error .typeError →
      E.floatOf w' = .error .typeError →
      Eqv (primitiveDes E w T) (primitiveDes E w' T) := by
    intro w w' h1 h2 h3 h4 h5 i1 i2 f1 f2
    unfold primitiveDes
    rw [if_neg (fun h => h4 _ h), if_neg (fun h => h5 _ h)]
    cases T with
    | cls c =>
      cases c <;> simp [Ty.desFn, Cls.desFn] at hT
      case user => split at hT <;> cases hT
      all_goals
        simp only [Env.isInstance, Env.cast, ← h1, h3, i1, i2, f1, f2]
        rcases h2 with h2 | h2 <;> rw [h2] <;> simp [Cls.sub, Except.map, ErrKind.isValueError] <;>
          exact Eqv.rfl' _
    | gen g args =>
      cases g <;> simp [Ty.desFn, Gen.naked, Cls.desFn] at hT
    | newtype n u => exact Eqv.fail (raise_fails _) (raise_fails _)
    | union ts => cases hT
    | special b => cases hT
    | any => cases hT
  cases hd with
  | atom a => exact Eqv.rfl' _
  | @list xs h =>
    rw [rename_list]
    refine key _ _ rfl (.inl rfl) ?_ (fun _ h => by cases h) (fun _ h => by cases h) rfl rfl rfl rfl
    cases xs <;> rfl
  | @dict ps h1 h2 h3 =>
    rw [rename_dict]
    refine key _ _ rfl (.inr rfl) ?_ (fun _ h => by cases h) (fun _ h => by cases h) rfl rfl rfl rfl
    cases ps <;> rfl

/-- What is only made of atoms. -/
theorem atomic_eqv (d : Val → Res Val) (h : ∀ w r, (∀ a, w ≠ .atom a) → (d w).val ≠ .ok r)
    (hd : Doc F f v) : Eqv (d v) (d (rename f v)) := by
  cases hd with
  | atom a => exact Eqv.rfl' _
  | list _ => exact Eqv.fail (fun r => h _ r fun _ h => by cases h) (fun r => h _ r fun _ h => by cases h)
  | dict _ _ _ => exact Eqv.fail (fun r => h _ r fun _ h => by cases h) (fun r => h _ r fun _ h => by cases h)

theorem load_datetime_kt {n : Nat} {kw : LoadKw} (hd : DefaultDesers E kw.fork) (hv : NoMeta v)
    (a b : Option (Val → Except Err Val)) :
    load E n v (some (.cls .datetime)) { kw with keyTransformer := a } =
      load E n v (some (.cls .datetime)) { kw with keyTransformer := b } := by
  cases n with
  | zero => rfl
  | succ n =>
    rw [load_succ, load_succ]
    unfold loadWith
    congr 1
    funext _
    split
    · rfl
    · unfold loadFrom
      split
      · rfl
      · have hp : ∀ i, determinePrecedence (some (.cls .datetime)) none (some (.cls v.cls)) i
            = some (.cls .datetime) := by intro i; cases i <;> rfl
        have hdes : E.getDes kw.fork (.cls .datetime) = .ok (some .datetime) := hd _
        simp only [noMeta_get hv, liftS_of_ok, liftK_of_ok, pure_bind', Option.map_none, hp, Option.getD_some, hdes]
        rfl

theorem callDes_eqv {n : Nat} {fn : DesFn} (hdes : DefaultDesers E fork) (hkw : KwOk strict fork kw)
    (hg : NoTfr g) (hrec : RecOk E strict fork F f (load E n) v t) (hfine : Fine E strict F f v t)
    (hfn : (asTy v t).desFn E.info = some fn) :
    Eqv (callDes E (load E n) fn v (asTy v t) { kw with keyTransformer := some F })
      (callDes E (load E n) fn (rename f v) (asTy v t) { kw with keyTransformer := g }) := by
  have hd := hfine.doc
  have hwhole := hfine.whole
  unfold Whole at hwhole
  rw [hfn] at hwhole
  cases fn with
  | list =>
    exact Eqv.bind (listDes_eqv hkw hg hrec hd hwhole (.inl hfn)) fun _ _ => Eqv.rfl' _
  | iterable =>
    exact Eqv.bind (listDes_eqv hkw hg hrec hd hwhole (.inr hfn)) fun _ _ => Eqv.rfl' _
  | mapping => exact Eqv.bind (dictDes_eqv hkw hg hrec hd hfn) fun _ _ => Eqv.rfl' _
  | defaultdict =>
    show Eqv (defaultdictDes _ _ _ _) (defaultdictDes _ _ _ _)
    have hr := (hrec v _ kw g (.ddict hfn) hkw hg).eqv
    unfold defaultdictDes
    refine Eqv.bind (Eqv.rfl' _) fun p hp => ?_
    have : p.1 = .gen .dict (asTy v t).getArgs := by
      revert hp
      split
      · next h => intro hp; cases hp; rw [h]
      · next h => intro hp; cases hp; rw [h]
      · intro hp; cases hp
    rw [← this] at hr
    exact Eqv.bind hr fun _ _ => Eqv.rfl' _
  | union =>
    show Eqv (unionDes _ _ _ _) (unionDes _ _ _ _)
    unfold unionDes
    cases hp : (asTy v t).unionParams with
    | none => exact Eqv.rfl' _
    | some ts => exact union_eqv ts fun a ha => hrec v _ kw g (.member hfn hp ha) hkw hg
  | object =>
    obtain ⟨c, hc⟩ := hfine.object hfn
    have hk : (E.info c).kind = .plain := by
      rw [hc] at hfn
      simp only [Ty.desFn, Cls.desFn] at hfn
      split at hfn
      · assumption
      · cases hfn
      · cases hfn
    show Eqv (objectDes _ _ _ _ _) (objectDes _ _ _ _ _)
    rw [hc]
    exact objectDes_eqv hkw hg hrec hd hc hk
  | tuple =>
    show Eqv (tupleDes _ _ _ _ _) (tupleDes _ _ _ _ _)
    by_cases hn : ∃ c, asTy v t = .cls (.user c) ∧ (E.info c).kind = .ntuple
    · obtain ⟨c, hc, hk⟩ := hn
      have := ntupleDes_eqv hkw hg hrec hd hc hk (hfine.defaults c hc hk)
      rw [hc]
      unfold tupleDes
      simp only [hk, if_true]
      exact this
    · rw [hwhole fun c hc hk => hn ⟨c, hc, hk⟩]
      generalize asTy v t = T at hn
      cases T with
      | cls c =>
        cases c with
        | user c =>
          unfold tupleDes
          simp only
          rw [if_neg fun hk => hn ⟨c, rfl, hk⟩, if_neg fun hk => hn ⟨c, rfl, hk⟩]
          exact Eqv.rfl' _
        | _ => exact Eqv.rfl' _
      | _ => exact Eqv.rfl' _
  | primitive => exact primitive_eqv hd hfn
  | noneType =>
    refine atomic_eqv (fun w => noneTypeDes w (asTy v t)) (fun w r hw h => ?_) hd
    unfold noneTypeDes at h
    split at h
    · next e => exact hw _ e
    · cases h
  | datetime =>
    refine atomic_eqv datetimeDes (fun w r hw h => ?_) hd
    unfold datetimeDes at h
    split at h
    · exact hw _ rfl
    · cases h
  | date =>
    refine atomic_eqv dateDes (fun w r hw h => ?_) hd
    unfold dateDes at h
    split at h
    · exact hw _ rfl
    · cases h
  | time =>
    refine atomic_eqv timeDes (fun w r hw h => ?_) hd
    unfold timeDes at h
    split at h
    · exact hw _ rfl
    · cases h
  | timedelta =>
    refine atomic_eqv (timedeltaDes E) (fun w r hw h => ?_) hd
    unfold timedeltaDes at h
    split at h
    · exact hw _ rfl
    · exact hw _ rfl
    · exact hw _ rfl
    · cases h
  | string =>
    rw [hwhole trivial]
    show Eqv (stringDes _ _ _ _ _) (stringDes _ _ _ _ _)
    unfold stringDes
    simp only
    rw [load_datetime_kt (kw := kw) (by rw [hkw.fork]; exact hdes) (doc_noMeta hd).1 (some F) g]
    exact Eqv.rfl' _
  | timezone => rw [hwhole trivial]; exact Eqv.rfl' _
  | enum => rw [hwhole trivial]; exact Eqv.rfl' _
  | uuid => rw [hwhole trivial]; exact Eqv.rfl' _
  | complex => rw [hwhole trivial]; exact Eqv.rfl' _
  | decimal => rw [hwhole trivial]; exact Eqv.rfl' _
  | path => rw [hwhole trivial]; exact Eqv.rfl' _
  | zoneinfo => rw [hwhole trivial]; exact Eqv.rfl' _
  | custom id =>
    exfalso
    generalize asTy v t = T at hfn
    have hcls : ∀ c : Cls, c.desFn E.info ≠ .custom id := by
      intro c h
      cases c <;> simp [Cls.desFn] at h
      split at h <;> cases h
    cases T with
    | cls c => exact hcls c (by simpa [Ty.desFn] using hfn)
    | gen g args => exact hcls g.naked (by simpa [Ty.desFn] using hfn)
    | newtype n u =>
      cases u <;> simp [Ty.desFn] at hfn <;> exact hcls _ hfn
    | union ts => simp [Ty.desFn] at hfn
    | special b => simp [Ty.desFn] at hfn
    | any => simp [Ty.desFn] at hfn

theorem load_same_aux (hdes : DefaultDesers E fork) (n : Nat) :
    ∀ (v : Val) (t : Option Ty) (kw : LoadKw) (g : Option (Val → Except Err Val)),
      KwOk strict fork kw → NoTfr g → AllFine E strict F f v t →
      Same (load E n v t { kw with keyTransformer := some F })
        (load E n (rename f v) t { kw with keyTransformer := g }) := by
  induction n with
  | zero => intro v t kw g _ _ _; exact Same.of_eq rfl
  | succ n ih =>
    intro v t kw g hkw hg hf
    have hfine := allFine_self hf
    obtain ⟨hm1, hm2⟩ := doc_noMeta hfine.doc
    have hrec : RecOk E strict fork F f (load E n) v t := fun x u kw g hs hkw hg =>
      ih x u kw g hkw hg (allFine_step hf hs)
    rw [load_succ, load_succ]
    by_cases hraw : (kw.strict = false ∧ t = some (.cls v.cls)) ∨ t = some .any
    · have hr := hfine.raw (by rw [← hkw.strict]; exact hraw)
      rw [hr]
      apply Same.of_eq
      unfold loadWith
      rw [if_pos hraw, if_pos hraw]
    · have e0 : ∀ w : Val, (w = .none ↔ v = .none) → checkForNone E w t = pure () ∨
          ∃ k, ∃ e : Err, e.kind = k ∧ checkForNone E w t = Res.raise e ∧
            ∃ e' : Err, e'.kind = k ∧ checkForNone E v t = Res.raise e' := by
        intro w hw
        unfold checkForNone
        simp only [hw]
        by_cases hv : v = .none
        · rw [if_pos hv, if_pos hv]
          cases hc : canMatchWithNone E t with
          | ok b =>
            cases b with
            | true => exact .inl rfl
            | false =>
              exact .inr ⟨.deserializationError,
                { kind := .deserializationError, source := some w, target := t }, rfl, rfl,
                { kind := .deserializationError, source := some v, target := t }, rfl, rfl⟩
          | error k => exact .inr ⟨k, { kind := k }, rfl, rfl, { kind := k }, rfl, rfl⟩
        · rw [if_neg hv]; exact .inl rfl
      rcases e0 (rename f v) (rename_none f v) with h0 | ⟨k, e, hk, h0, e', hk', h0'⟩
      swap
      · unfold loadWith
        rw [h0, h0']
        refine ⟨Eqv.fail (bind_fails (raise_fails _) _) (bind_fails (raise_fails _) _), ?_⟩
        intro a b ha hb
        cases ha
        cases hb
        rw [hk, hk']
      · have h0' : checkForNone E v t = pure () := by
          rcases e0 v Iff.rfl with h | ⟨k, e, hk, h, e', hk', h'⟩
          · exact h
          · exfalso
            unfold checkForNone at h0 h
            simp only [rename_none] at h0
            split at h
            · next hv =>
              rw [if_pos hv] at h0
              cases hc : canMatchWithNone E t with
              | ok b =>
                rw [hc] at h0 h
                cases b with
                | true => cases h
                | false => cases h0
              | error k => rw [hc] at h0; cases h0
            · cases h
        have hraw' : ¬ ((kw.strict = false ∧ t = some (.cls (rename f v).cls)) ∨ t = some .any) := by
          rw [rename_cls]; exact hraw
        unfold loadWith
        rw [h0, h0', pure_bind', pure_bind', if_neg hraw, if_neg hraw']
        unfold loadFrom
        rw [rename_cls]
        by_cases hval : v.cls ∉ validTypes
        · rw [if_pos hval, if_pos hval]
          exact ⟨Eqv.fail (raise_fails _) (raise_fails _), fun e e' h1 h2 => by cases h1; cases h2; rfl⟩
        · rw [if_neg hval, if_neg hval]
          have hp : (determinePrecedence t none (some (.cls v.cls)) kw.inferred).getD (.cls v.cls) = asTy v t := by
            unfold determinePrecedence asTy
            cases t <;> cases kw.inferred <;> rfl
          have hdes' : E.getDes kw.fork (asTy v t) = .ok ((asTy v t).desFn E.info) := by
            rw [hkw.fork]; exact hdes _
          simp only [noMeta_get hm1, noMeta_get hm2, liftS_of_ok, liftK_of_ok, pure_bind', Option.map_none, hp, hdes']
          cases hfn : (asTy v t).desFn E.info with
          | none =>
            exact ⟨Eqv.fail (raise_fails _) (raise_fails _), fun e e' h1 h2 => by cases h1; cases h2; rfl⟩
          | some fn =>
            refine ⟨?_, fun e e' h1 h2 => by rw [doLoad_err h1, doLoad_err h2]⟩
            intro r
            rw [doLoad_ok, doLoad_ok]
            have := callDes_eqv (n := n) hdes (kw := { kw with
                metaHints := some (kw.metaHints.getD ((Option.map (fun x : Ty × List (Val × Val) => x.2) none).getD []))
                inferred := decide (some (asTy v t) ≠ t) })
              ⟨hkw.strict, hkw.fork, hkw.warn, hkw.hints⟩ hg hrec hfine hfn r
            exact and_congr this Iff.rfl

end

/-! ## The theorem -/

/-- C86: `load` with a `key_transformer` returns what `load` without it returns for the document
with the keys renamed, and fails if that fails. -/
theorem key_transformer_renames_partial (E : LEnv) (n : Nat) (v : Val) (t : Option Ty) (kw : LoadKw)
    (F : Val → Except Err Val) (f : PyStr → PyStr) (hdes : DefaultDesers E kw.fork)
    (hw : kw.warnOnFail = false) (hm : kw.metaHints = none) (h : AllFine E kw.strict F f v t) (r : Val) :
    (load E n v t { kw with keyTransformer := some F }).val = .ok r ↔
      (load E n (rename f v) t { kw with keyTransformer := none }).val = .ok r :=
  (load_same_aux hdes n v t kw none ⟨rfl, rfl, hw, by rw [hm]; rfl⟩ (.inl rfl) h).eqv r

/-! ## A case -/

/-- A transformer of jsons as a function on keys. -/
def tfr (k : PyStr → Except ErrKind PyStr) : Val → Except Err Val
  | .str s => match k s with
    | .ok s => .ok (.str s)
    | .error e => .error { kind := e }
  | _ => .error { kind := .attributeError }

/-- `KEY_TRANSFORMER_SNAKECASE` -/
def snake : Val → Except Err Val := tfr KeyTransformers.snakecase

/-- The new name. -/
def snaked (s : PyStr) : PyStr := (KeyTransformers.snakecase s).toOption.getD []

/-- `{'X': 1, 'Y': 2}` -/
def exPoint : List (PyStr × Val) := [("X".toList, .int 1), ("Y".toList, .int 2)]

/-- `{'myPoints': [{'X': 1, 'Y': 2}]}` -/
def exDoc : List (PyStr × Val) := [("myPoints".toList, .list [.dict (texts exPoint)])]

/-- `Dict[str, List[Point]]` -/
def exTy : Ty := .gen .dict [.cls .str, .gen .list [.cls (.user 0)]]

example : (match (load (demoLEnv demoInfo) 9 (.dict (texts exDoc)) (some exTy)
      { keyTransformer := some snake }).val with
    | .ok r => decide (r = .dict [(.str "my_points".toList,
        .list [.obj 0 [("x".toList, .int 1), ("y".toList, .int 2)]])])
    | .error _ => false) = true := by decide +kernel

theorem exPoint_doc : Doc snake snaked (.dict (texts exPoint)) := by
  refine .dict (fun e he => ?_) (fun e he => ?_) (by decide)
  · simp only [exPoint, List.mem_cons, List.not_mem_nil, or_false] at he
    rcases he with rfl | rfl <;> exact ⟨rfl, by decide, by decide⟩
  · simp only [exPoint, List.mem_cons, List.not_mem_nil, or_false] at he
    rcases he with rfl | rfl <;> exact .atom _

/-- The parts of the document and their types. -/
def exParts : List (Val × Option Ty) :=
  [(.dict (texts exDoc), some exTy), (.list [.dict (texts exPoint)], some (.gen .list [.cls (.user 0)])),
   (.dict (texts exPoint), some (.cls (.user 0))), (.int 1, some (.cls .int)), (.int 2, some (.cls .int))]

theorem exParts_step {p q : Val × Option Ty} (hs : Step (demoLEnv demoInfo) false snaked p q)
    (hp : p ∈ exParts) : q ∈ exParts := by
  simp only [exParts, List.mem_cons, List.not_mem_nil, or_false] at hp
  cases hs with
  | element h1 h2 h3 =>
    simp only [Prod.mk.injEq] at hp
    rcases hp with ⟨rfl, rfl⟩ | ⟨rfl, rfl⟩ | ⟨rfl, rfl⟩ | ⟨rfl, rfl⟩ | ⟨rfl, rfl⟩
    · rcases h2 with h | h <;> cases h
    · cases h1
      rw [List.mem_singleton] at h3
      subst h3
      decide
    · rcases h2 with h | h <;> cases h
    · cases h1
    · cases h1
  | value h1 h2 =>
    simp only [Prod.mk.injEq] at hp
    rcases hp with ⟨he, rfl⟩ | ⟨he, rfl⟩ | ⟨he, rfl⟩ | ⟨he, rfl⟩ | ⟨he, rfl⟩
    · cases he
      simp only [texts, exDoc, List.map_cons, List.map_nil, List.mem_singleton] at h2
      subst h2
      decide
    · cases he
    · cases h1
    · cases he
    · cases he
  | ddict h1 =>
    simp only [Prod.mk.injEq] at hp
    rcases hp with ⟨rfl, rfl⟩ | ⟨rfl, rfl⟩ | ⟨rfl, rfl⟩ | ⟨rfl, rfl⟩ | ⟨rfl, rfl⟩ <;> cases h1
  | member h1 h2 h3 =>
    simp only [Prod.mk.injEq] at hp
    rcases hp with ⟨rfl, rfl⟩ | ⟨rfl, rfl⟩ | ⟨rfl, rfl⟩ | ⟨rfl, rfl⟩ | ⟨rfl, rfl⟩ <;> cases h1
  | @argument ps t c p e h1 h2 h3 h4 h5 =>
    have hps : ps = exPoint ∧ c = 0 := by
      simp only [Prod.mk.injEq] at hp
      rcases hp with ⟨he, rfl⟩ | ⟨he, rfl⟩ | ⟨he, rfl⟩ | ⟨he, rfl⟩ | ⟨he, rfl⟩
      · cases h1
      · cases he
      · refine ⟨?_, by cases h1; rfl⟩
        simp only [Val.dict.injEq, texts] at he
        exact List.map_injective_iff.2 (fun a b h => by
          simp only [Prod.mk.injEq, Val.atom.injEq, Atom.str.injEq] at h
          exact Prod.ext h.1 h.2) he
      · cases he
      · cases he
    obtain ⟨rfl, rfl⟩ := hps
    have h4' : p.name = "x".toList ∨ p.name = "y".toList := by
      revert h4
      show p ∈ ([{ name := "x".toList }, { name := "y".toList, default := some (.int 0) }] : List Param) → _
      intro h4
      simp only [List.mem_cons, List.not_mem_nil, or_false] at h4
      rcases h4 with rfl | rfl
      · exact .inl rfl
      · exact .inr rfl
    simp only [exPoint, List.mem_cons, List.not_mem_nil, or_false] at h3
    rcases h4' with h | h <;> rw [h] <;> rcases h3 with rfl | rfl <;> decide
  | @«attribute» ps t c e h1 h2 h3 h4 h5 =>
    have hps : ps = exPoint ∧ c = 0 := by
      simp only [Prod.mk.injEq] at hp
      rcases hp with ⟨he, rfl⟩ | ⟨he, rfl⟩ | ⟨he, rfl⟩ | ⟨he, rfl⟩ | ⟨he, rfl⟩
      · cases h1
      · cases he
      · refine ⟨?_, by cases h1; rfl⟩
        simp only [Val.dict.injEq, texts] at he
        exact List.map_injective_iff.2 (fun a b h => by
          simp only [Prod.mk.injEq, Val.atom.injEq, Atom.str.injEq] at h
          exact Prod.ext h.1 h.2) he
      · cases he
      · cases he
    obtain ⟨rfl, rfl⟩ := hps
    exfalso
    simp only [exPoint, List.mem_cons, List.not_mem_nil, or_false] at h4
    rcases h4 with rfl | rfl
    · exact h5 { name := "x".toList } List.mem_cons_self (by decide)
    · exact h5 { name := "y".toList, default := some (.int 0) }
        (List.mem_cons_of_mem _ List.mem_cons_self) (by decide)
  | field h1 h2 h3 h4 =>
    simp only [Prod.mk.injEq] at hp
    rcases hp with ⟨rfl, rfl⟩ | ⟨rfl, rfl⟩ | ⟨rfl, rfl⟩ | ⟨rfl, rfl⟩ | ⟨rfl, rfl⟩ <;> cases h1
    cases h2

theorem exDoc_fine : AllFine (demoLEnv demoInfo) false snake snaked (.dict (texts exDoc)) (some exTy) := by
  intro q hq
  have hmem : q ∈ exParts := by
    induction hq with
    | refl => decide
    | tail _ hs ih => exact exParts_step hs ih
  simp only [exParts, List.mem_cons, List.not_mem_nil, or_false] at hmem
  have hlist : Doc snake snaked (.list [.dict (texts exPoint)]) :=
    .list fun x hx => by rw [List.mem_singleton.1 hx]; exact exPoint_doc
  rcases hmem with rfl | rfl | rfl | rfl | rfl
  · refine ⟨?_, ?_, fun h => absurd h id, fun h => (by cases h), fun c h => (by cases h)⟩
    · refine .dict (fun e he => ?_) (fun e he => ?_) (by decide)
      · rw [exDoc, List.mem_singleton] at he
        subst he
        exact ⟨rfl, by decide, by decide⟩
      · rw [exDoc, List.mem_singleton] at he
        subst he
        exact hlist
    · rintro (⟨_, h⟩ | h) <;> cases h
  · refine ⟨hlist, ?_, ?_, fun h => (by cases h), fun c h => (by cases h)⟩
    · rintro (⟨_, h⟩ | h) <;> cases h
    · rintro ⟨es, h⟩; cases h
  · refine ⟨exPoint_doc, ?_, fun h => absurd h id, fun _ => ⟨0, rfl⟩, fun c h hk => ?_⟩
    · rintro (⟨_, h⟩ | h) <;> cases h
    · cases h; cases hk
  · exact ⟨.atom _, fun _ => rfl, fun _ => rfl, fun h => (by cases h), fun c h => (by cases h)⟩
  · exact ⟨.atom _, fun _ => rfl, fun _ => rfl, fun h => (by cases h), fun c h => (by cases h)⟩

example (n : Nat) (r : Val) :
    (load (demoLEnv demoInfo) n (.dict (texts exDoc)) (some exTy) { keyTransformer := some snake }).val = .ok r ↔
      (load (demoLEnv demoInfo) n (rename snaked (.dict (texts exDoc))) (some exTy) {}).val = .ok r :=
  key_transformer_renames_partial _ n _ _ {} snake snaked (demo_desers 0) rfl rfl exDoc_fine r

/-! ## Where the keys are not renamed -/

/-- C86, the negation: objects in a tuple get the keys as they are. -/
theorem rename_fails_tuple : ∃ (v : Val) (t : Ty) (r : Val),
    (load (demoLEnv demoInfo) 9 (rename snaked v) (some t) {}).val = .ok r ∧
    ∀ r', (load (demoLEnv demoInfo) 9 v (some t) { keyTransformer := some snake }).val ≠ .ok r' := by
  refine ⟨.list [.dict (texts exPoint)], .gen .tuple [.cls (.user 0)],
    .tuple [.obj 0 [("x".toList, .int 1), ("y".toList, .int 2)]], ?_, ?_⟩
  · have : (match (load (demoLEnv demoInfo) 9 (rename snaked (.list [.dict (texts exPoint)]))
        (some (.gen .tuple [.cls (.user 0)])) {}).val with
      | .ok r => decide (r = .tuple [.obj 0 [("x".toList, .int 1), ("y".toList, .int 2)]])
      | .error _ => false) = true := by decide +kernel
    revert this
    split
    · next r hr => intro h; rw [hr, of_decide_eq_true h]
    · intro h; cases h
  · have : (match (load (demoLEnv demoInfo) 9 (.list [.dict (texts exPoint)])
        (some (.gen .tuple [.cls (.user 0)])) { keyTransformer := some snake }).val with
      | .ok _ => false
      | .error _ => true) = true := by decide +kernel
    intro r' h
    rw [h] at this
    cases this

/-- C86, the negation: a `dict` for which `dict` is the type, which it also is if it is the value
of an attribute without a hint, keeps its keys. -/
theorem rename_fails_dict (E : LEnv) (n : Nat) (es : List (Val × Val)) (kw : LoadKw)
    (F : Val → Except Err Val) (hs : kw.strict = false) (hv : NoValidators E kw.fork) :
    (load E (n + 1) (.dict es) (some (.cls .dict)) { kw with keyTransformer := some F }).val =
      .ok (.dict es) := by
  have h := load_skip (E := E) (n := n) (v := .dict es) (cls := some (.cls .dict))
    (kw := { kw with keyTransformer := some F }) (by intro h; cases h) (.inl ⟨hs, rfl⟩)
  rw [h, validate_none (hv _)]
  rfl

example : (load (demoLEnv demoInfo) 9 (.dict [(.str "MyKey".toList, .int 1)]) (some (.cls .dict))
    { keyTransformer := some snake }).val = .ok (.dict [(.str "MyKey".toList, .int 1)]) :=
  rename_fails_dict _ _ _ {} snake rfl (demo_novals _)

/-- C86, the negation: `{'Real': 1.0, 'Imag': 2.0}` is not loaded as a `complex`. -/
theorem rename_fails_complex : ∃ (v : Val) (r : Val),
    (load (demoLEnv demoInfo) 9 (rename snaked v) (some (.cls .complex)) {}).val = .ok r ∧
    ∀ r', (load (demoLEnv demoInfo) 9 v (some (.cls .complex)) { keyTransformer := some snake }).val ≠ .ok r' := by
  refine ⟨.dict [(.str "Real".toList, .float 1), (.str "Imag".toList, .float 2)],
    .atom (.complex 1 2), ?_, ?_⟩
  · have : (match (load (demoLEnv demoInfo) 9 (rename snaked
          (.dict [(.str "Real".toList, .float 1), (.str "Imag".toList, .float 2)]))
        (some (.cls .complex)) {}).val with
      | .ok r => decide (r = .atom (.complex 1 2))
      | .error _ => false) = true := by decide +kernel
    revert this
    split
    · next r hr => intro h; rw [hr, of_decide_eq_true h]
    · intro h; cases h
  · have : (match (load (demoLEnv demoInfo) 9
          (.dict [(.str "Real".toList, .float 1), (.str "Imag".toList, .float 2)])
        (some (.cls .complex)) { keyTransformer := some snake }).val with
      | .ok _ => false
      | .error _ => true) = true := by decide +kernel
    intro r' h
    rw [h] at this
    cases this

/-- `{'X': 1, 'Y': 2, '-meta': {'classes': {'/': '__main__.Point'}}}` -/
def exVerbose : Val := .dict (texts (exPoint ++
  [(metaKey, .dict [(.str "classes".toList, .dict [(.str "/".toList, .str "__main__.Point".toList)])])]))

/-- C86, the negation: the entry '-meta' of a verbose dump is renamed too, and so becomes an
attribute of the object; in strict mode the document is refused. -/
theorem rename_fails_meta :
    (∃ as, (load (demoLEnv demoInfo) 9 exVerbose none { keyTransformer := some snake }).val =
        .ok (.obj 0 as) ∧ "_meta".toList ∈ as.map (·.1)) ∧
    ∀ r, (load (demoLEnv demoInfo) 9 exVerbose none { keyTransformer := some snake, strict := true }).val ≠
        .ok r := by
  constructor
  · have : (match (load (demoLEnv demoInfo) 9 exVerbose none { keyTransformer := some snake }).val with
      | .ok (.obj 0 as) => decide ("_meta".toList ∈ as.map (·.1))
      | _ => false) = true := by decide +kernel
    revert this
    split
    · next as hr => intro h; exact ⟨as, hr, of_decide_eq_true h⟩
    · intro h; cases h
  · have : (match (load (demoLEnv demoInfo) 9 exVerbose none
          { keyTransformer := some snake, strict := true }).val with
      | .ok _ => false
      | .error e => decide (e.kind = .signatureMismatch)) = true := by decide +kernel
    intro r' h
    rw [h] at this
    cases this

end Verif.Props.LoadRename
