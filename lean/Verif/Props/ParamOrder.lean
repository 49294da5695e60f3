import Verif.Props.UnionHints

/-! # The parameters of constructors can be reordered (C122) -/

set_option autoImplicit false

namespace Verif.Props.ParamOrder

open Verif Verif.Core
open Verif.Props.LoadBasics Verif.Props.LoadCollections Verif.Props.LoadObject
open Verif.Props.UnionOrder (NoneFine SameResult)
open Verif.Props.Widening
open Verif.Props.UnionHints

/-! ## The specification -/

/-- What has changed: the order of the parameters of classes the constructors of which do not look
at the order of the keyword arguments.  jsons is used without deserializers and validators of the
program. -/
structure Reordering (E : LEnv) (info : Nat → ClassInfo) (desers : Nat → Registry.Table DesFn Ty) :
    Prop where
  params : ∀ c, SameParams E c (info c).params
  rest : ∀ c, info c = { E.info c with params := (info c).params }
  des : ∀ i, DefaultDesers E i
  des' : ∀ i, DefaultDesers (rehinted E info desers) i
  vals : ∀ i, NoValidators E i
  vals' : ∀ i, NoValidators (rehinted E info desers) i

/-- Documents and types: objects, nested in any way in collections and other objects. -/
inductive Doc (E E' : LEnv) : LoadKw → Val → Option Ty → Prop where
  /-- what has no objects in it, and is loaded alike by both programs -/
  | same (kw : LoadKw) (v : Val) (o : Option Ty)
      (h : ∀ n, (load E n v o kw).val = (load E' n v o kw).val) : Doc E E' kw v o
  | union (kw : LoadKw) (v : Val) (ts : List Ty) (h1 : v.cls ∈ validTypes) (hm : NoMeta v)
      (hn : NoneFine E v ts) (h : ∀ t ∈ ts, Doc E E' kw v (some t)) : Doc E E' kw v (some (.union ts))
  | list (kw : LoadKw) (v : Val) (xs : List Val) (a : Ty) (h1 : v.cls ∈ validTypes)
      (hm : NoMeta v) (hx : v.iter = some xs) (he : ∀ x ∈ xs, NoMeta x)
      (h : ∀ x ∈ xs, Doc E E' kw x (some a)) : Doc E E' kw v (some (.gen .list [a]))
  | tuple (kw : LoadKw) (v : Val) (xs : List Val) (ts : List Ty) (h0 : ts ≠ [])
      (h1 : v.cls ∈ validTypes) (hm : NoMeta v) (hx : v.iter = some xs) (he : ∀ x ∈ xs, NoMeta x)
      (h : ∀ (i : Nat) t x, ts[i]? = some t → xs[i]? = some x →
        Doc E E' { kw with keyTransformer := none } x (some t)) : Doc E E' kw v (some (.gen .tuple ts))
  /-- sets, frozensets, deques and `Iterable[...]` -/
  | each (kw : LoadKw) (v : Val) (xs : List Val) (g : Gen) (a : Ty)
      (hg : g ∈ [Gen.set, .frozenset, .deque, .iterable]) (h1 : v.cls ∈ validTypes)
      (hm : NoMeta v) (hx : v.iter = some xs) (he : ∀ x ∈ xs, NoMeta x)
      (h : ∀ x ∈ xs, Doc E E' kw x (some a)) : Doc E E' kw v (some (.gen g [a]))
  | ellipsis (kw : LoadKw) (v : Val) (xs : List Val) (a : Ty) (h1 : v.cls ∈ validTypes)
      (hm : NoMeta v) (hx : v.iter = some xs) (he : ∀ x ∈ xs, NoMeta x)
      (h : ∀ x ∈ xs, Doc E E' { kw with keyTransformer := none } x (some a)) :
      Doc E E' kw v (some (.gen .tupleEll [a]))
  | dict (kw : LoadKw) (g : Gen) (es : List (Val × Val)) (k a : Ty) (hg : g = .dict ∨ g = .mapping)
      (hm : dictGet es (.str metaKey) = none) (hh : dictGet es (.str keysKey) = none)
      (he : ∀ e ∈ es, NoMeta e.2)
      (hk : ∀ e ∈ es, ∀ q, kw.keyTransformer.getD .ok e.1 = .ok q → NoMeta q)
      (h : ∀ e ∈ es, ∀ q, kw.keyTransformer.getD .ok e.1 = .ok q →
        Doc E E' { kw with keyTransformer := none } q (some k))
      (h' : ∀ e ∈ es, Doc E E' { kw with keyTransformer := some (kw.keyTransformer.getD .ok) } e.2
        (some a)) : Doc E E' kw (.dict es) (some (.gen g [k, a]))
  | ddict (kw : LoadKw) (es : List (Val × Val)) (k a : Ty) (hm : dictGet es (.str metaKey) = none)
      (h : Doc E E' kw (.dict es) (some (.gen .dict [k, a]))) :
      Doc E E' kw (.dict es) (some (.gen .defaultdict [k, a]))
  | obj (kw : LoadKw) (c : Nat) (es : List (Val × Val)) (hc : (E.info c).kind = .plain) (hp : Plain kw es)
      (h : ∀ es', Transformed E kw es es' → ∀ s x, (Val.str s, x) ∈ es' →
        Doc E E' (partKw kw) x (assoc (E.info c).initHints s))
      (h' : ∀ es', Transformed E kw es es' → ∀ s x, (Val.str s, x) ∈ es' → ¬ Known (E.info c) (.str s) →
        Doc E E' (partKw kw) x (some ((assoc (E.info c).hints s).getD (.cls x.cls)))) :
      Doc E E' kw (.dict es) (some (.cls (.user c)))
  /-- a named tuple from a list or a tuple -/
  | named (kw : LoadKw) (c : Nat) (k : SeqKind) (xs : List Val) (hk : k = .list ∨ k = .tuple)
      (hc : (E.info c).kind = .ntuple) (he : ∀ x ∈ xs, NoMeta x)
      (hdef : ∀ p ∈ (E.info c).fieldDefaults, NoMeta p.2)
      (h : ∀ (i : Nat) name, (E.info c).fields[i]? = some name →
        Doc E E' kw (fieldVal (E.info c) xs i name) (fieldHint (E.info c) name)) :
      Doc E E' kw (.seq k xs) (some (.cls (.user c)))
  /-- a named tuple from a dict -/
  | namedDict (kw : LoadKw) (c : Nat) (es : List (Val × Val)) (xs : List Val)
      (hc : (E.info c).kind = .ntuple) (hm : dictGet es (.str metaKey) = none)
      (hx : FieldEntries E kw c es xs) (h : Doc E E' kw (.list xs) (some (.cls (.user c)))) :
      Doc E E' kw (.dict es) (some (.cls (.user c)))

/-! ## Lemmas -/

section
variable {E : LEnv} {info : Nat → ClassInfo} {desers : Nat → Registry.Table DesFn Ty}

theorem Reordering.rehint (R : Reordering E info desers) : Rehint E info desers where
  attrs := fun c => by rw [R.rest c]
  kind := fun c => by rw [R.rest c]
  hashable := fun c => by rw [R.rest c]
  params := R.params
  des := R.des
  des' := R.des'
  vals := R.vals
  vals' := R.vals'

theorem oddName_iff (U : Rehint E info desers) (t : Ty) : OddName (rehinted E info desers) t ↔ OddName E t := by
  have h : ∀ t, (rehinted E info desers).className false t = E.className false t := by
    intro t
    unfold Env.className
    exact congrArg (fun a => Registry.getClassName a id false) (tyAttrs_eq U t)
  cases t with
  | cls c =>
    cases c with
    | user c => simp only [OddName, h]
    | _ => exact Iff.rfl
  | newtype n t => simp only [OddName, h]
  | _ => exact Iff.rfl

theorem doc_reordered (R : Reordering E info desers) {kw : LoadKw} {v : Val} {o : Option Ty}
    (h : Doc E (rehinted E info desers) kw v o) : ReorderedH E (rehinted E info desers) kw v o o := by
  have hi : ∀ c, ((rehinted E info desers).info c).initHints = (E.info c).initHints := fun c => by
    show (info c).initHints = _; rw [R.rest c]
  have hh : ∀ c, ((rehinted E info desers).info c).hints = (E.info c).hints := fun c => by
    show (info c).hints = _; rw [R.rest c]
  have hf : ∀ c, ((rehinted E info desers).info c).fields = (E.info c).fields := fun c => by
    show (info c).fields = _; rw [R.rest c]
  have hd : ∀ c, ((rehinted E info desers).info c).fieldDefaults = (E.info c).fieldDefaults := fun c => by
    show (info c).fieldDefaults = _; rw [R.rest c]
  have ha : ∀ c, ((rehinted E info desers).info c).hasAnnotations = (E.info c).hasAnnotations := fun c => by
    show (info c).hasAnnotations = _; rw [R.rest c]
  have hfh : ∀ c name, fieldHint ((rehinted E info desers).info c) name = fieldHint (E.info c) name := by
    intro c name
    simp only [fieldHint, ha, hh]
  induction h with
  | same kw v o h => exact .same _ _ _ h
  | union kw v ts h1 hm hn _ ih =>
    refine .members _ _ _ _ rfl h1 hm hn (fun hv => ?_) fun i t u ht hu => ?_
    · obtain ⟨a, b⟩ := hn hv
      exact ⟨a, fun t ht => fun h => b t ht ((oddName_iff R.rehint t).1 h)⟩
    · cases ht.symm.trans hu
      exact ih t (List.mem_of_getElem? ht)
  | list kw v xs a h1 hm hx he _ ih => exact .list _ _ _ _ _ h1 hm hx he ih
  | tuple kw v xs ts h0 h1 hm hx he _ ih =>
    refine .tuple _ _ _ _ _ h0 rfl h1 hm hx he fun i t u x ht hu hx => ?_
    cases ht.symm.trans hu
    exact ih i t x ht hx
  | each kw v xs g a hg h1 hm hx he _ ih => exact .each _ _ _ _ _ _ hg h1 hm hx he ih
  | ellipsis kw v xs a h1 hm hx he _ ih => exact .ellipsis _ _ _ _ _ h1 hm hx he ih
  | dict kw g es k a hg hm hk he hq _ _ ih ih' => exact .dict _ _ _ _ _ _ _ hg hm hk he hq ih ih'
  | ddict kw es k a hm _ ih => exact .ddict _ _ _ _ _ hm ih
  | obj kw c es hc hp _ _ ih ih' =>
    refine .obj _ _ _ hc hp (fun p _ => by rw [hi]) (fun es' ht s x hx => ?_) fun es' ht s x hx hk => ?_
    · rw [hi]; exact ih es' ht s x hx
    · rw [hh]; exact ih' es' ht s x hx hk
  | named kw c k xs hk hc he hdef _ ih =>
    refine .named _ _ _ _ hk hc (hf c) (hd c) he hdef (fun name _ => ?_) fun i name hn => ?_
    · simp only [Optional', hfh]
    · rw [hfh]; exact ih i name hn
  | namedDict kw c es xs hc hm hx _ ih => exact .namedDict _ _ _ _ hc (hf c) hm hx ih

end

/-! ## C122 -/

/-- C122, `_partial`: both programs load the document to the same value, or neither does. -/
theorem param_order_partial (E : LEnv) (info : Nat → ClassInfo)
    (desers : Nat → Registry.Table DesFn Ty) (R : Reordering E info desers) (n : Nat) (kw : LoadKw) (v : Val)
    (o : Option Ty) (hw : kw.warnOnFail = false) (hi : kw.inferred = false)
    (h : Doc E (rehinted E info desers) kw v o) :
    SameResult (load E n v o kw).val (load (rehinted E info desers) n v o kw).val :=
  union_order_hints_partial E info desers R.rehint n kw v o o hw hi (doc_reordered R h)

/-! ## Examples -/

/-- `Point` with the parameters `ps`. -/
def swapInfo (ps : List Param) : Nat → ClassInfo
  | 0 => { demoInfo 0 with params := ps }
  | c => demoInfo c

/-- The constructor of `Point`: `self.x = x; self.y = y`. -/
def makePoint (args : List (PyStr × Val)) : List (PyStr × Val) :=
  [("x".toList, (assoc args "x".toList).getD .none), ("y".toList, (assoc args "y".toList).getD .none)]

/-- The program with this class. -/
abbrev swapEnv (ps : List Param) : LEnv :=
  { demoLEnv (swapInfo ps) with
    construct := fun c args => match c with
      | 0 => .ok (makePoint args)
      | _ => .ok args }

/-- `__init__(self, x: int, y: int)` -/
def xy : List Param := [{ name := "x".toList }, { name := "y".toList }]

/-- `__init__(self, y: int, x: int)` -/
def yx : List Param := [{ name := "y".toList }, { name := "x".toList }]

theorem swap_names (ps : List Param) : NamesOk (swapInfo ps) desNames := by
  intro c
  have : (swapInfo ps c).attrs = (demoInfo c).attrs := by match c with | 0 | n + 1 => rfl
  rw [this]
  exact demo_desNames c

theorem assoc_perm {args args' : List (PyStr × Val)} (h : (args.map (·.1)).Nodup) (hp : args.Perm args')
    (s : PyStr) : assoc args s = assoc args' s := by
  induction hp with
  | nil => rfl
  | cons p _ ih =>
    simp only [assoc]
    rw [ih (by simpa using (List.nodup_cons.1 h).2)]
  | swap p q l =>
    have hne : p.1 ≠ q.1 := by
      intro h'
      simp [h'] at h
    simp only [assoc]
    split
    · next h1 =>
      split
      · next h2 => exact absurd (h2.trans h1.symm) hne
      · rfl
    · rfl
  | trans h1 _ ih ih' => exact (ih h).trans (ih' ((h1.map _).nodup_iff.1 h))

theorem swap_reordering : Reordering (swapEnv xy) (swapInfo yx) (fun _ => initialDesers (swapInfo yx)) where
  params := fun c => by
    match c with
    | 0 =>
      refine .inr ⟨.swap _ _ _, by decide, fun args args' hd hp => ?_⟩
      show Except.ok (makePoint args) = .ok (makePoint args')
      unfold makePoint
      rw [assoc_perm hd hp, assoc_perm hd hp]
    | n + 1 => exact .inl rfl
  rest := fun c => by match c with | 0 | n + 1 => rfl
  des := fun _ t => getLizer_desFn (swapInfo xy) (swap_names xy) t
  des' := fun _ t => getLizer_desFn (swapInfo yx) (swap_names yx) t
  vals := fun _ t => getLizer_empty (swapInfo xy) t
  vals' := fun _ t => getLizer_empty (swapInfo yx) t

/-- `{'x': 1, 'y': 2}` -/
def pointDoc : List (Val × Val) := [(.str "x".toList, .int 1), (.str "y".toList, .int 2)]

/-- `[{'x': 1, 'y': 2}]` as `List[Point]` -/
example : Doc (swapEnv xy) (rehinted (swapEnv xy) (swapInfo yx) fun _ => initialDesers (swapInfo yx)) {}
    (.list [.dict pointDoc]) (some (.gen .list [.cls (.user 0)])) := by
  have hm : NoMeta (.dict pointDoc) := by intro es h; cases h; rfl
  refine .list _ _ [.dict pointDoc] _ (by simp [Val.cls, SeqKind.cls, validTypes])
    (noMeta_of_not_dict (by simp [Val.cls, SeqKind.cls])) rfl (fun x hx => ?_) fun x hx => ?_
  · rw [List.mem_singleton.1 hx]; exact hm
  · rw [List.mem_singleton.1 hx]
    refine .obj _ 0 _ rfl ⟨rfl, ?_, rfl⟩ ?_ ?_
    · intro e he
      simp only [pointDoc, List.mem_cons, List.not_mem_nil, or_false] at he
      rcases he with rfl | rfl <;> exact noMeta_of_not_dict (by simp [Val.cls, Atom.cls])
    · intro es' ht s x hx
      obtain rfl : es' = pointDoc := ht
      simp only [pointDoc, List.mem_cons, Prod.mk.injEq, List.not_mem_nil, or_false] at hx
      rcases hx with ⟨h, rfl⟩ | ⟨h, rfl⟩ <;> cases h <;>
        exact .same _ _ _ fun n => congrArg Res.val
          (scalar_eq swap_reordering.rehint n (.int _) (by simp [SchemaGrowth.scalars]) _)
    · intro es' ht s x hx hk
      obtain rfl : es' = pointDoc := ht
      refine absurd ?_ hk
      simp only [pointDoc, List.mem_cons, Prod.mk.injEq, List.not_mem_nil, or_false] at hx
      rcases hx with ⟨h, rfl⟩ | ⟨h, rfl⟩ <;> rw [h]
      · exact .inr ⟨_, List.mem_cons_self, rfl⟩
      · exact .inr ⟨_, List.mem_cons_of_mem _ List.mem_cons_self, rfl⟩

example : (load (swapEnv xy) 9 (.list [.dict pointDoc]) (some (.gen .list [.cls (.user 0)])) {}).val =
    .ok (.list [.obj 0 [("x".toList, .int 1), ("y".toList, .int 2)]]) ∧
    (load (swapEnv yx) 9 (.list [.dict pointDoc]) (some (.gen .list [.cls (.user 0)])) {}).val =
    .ok (.list [.obj 0 [("x".toList, .int 1), ("y".toList, .int 2)]]) := by
  constructor <;> decide +kernel

/-! ## What does not hold -/

/-- The exceptions may differ: if both arguments are missing, the `UnfulfilledArgumentError` names the
first one. -/
theorem param_order_fails_error : ∃ (v : Val) (o : Option Ty) (e e' : Err),
    (load (swapEnv xy) 9 v o {}).val = .error e ∧ (load (swapEnv yx) 9 v o {}).val = .error e' ∧
    e.argument = some "x".toList ∧ e'.argument = some "y".toList :=
  ⟨.dict [], some (.cls (.user 0)), _, _, by rfl, by rfl, by rfl, by rfl⟩

/-- The order of the fields of a named tuple does matter: with the fields of `Pair` in the other order
the first element of a list becomes `second`. -/
theorem param_order_fails_named_tuple : ∃ (xs ys zs : List Val),
    (load (demoLEnv demoInfo) 9 (.list xs) (some (.cls (.user 1))) {}).val = .ok (.ntuple 1 ys) ∧
    (load (demoLEnv fun c => { demoInfo c with fields := (demoInfo c).fields.reverse }) 9 (.list xs)
      (some (.cls (.user 1))) {}).val = .ok (.ntuple 1 zs) ∧
    assoc ((demoInfo 1).fields.zip ys) "first".toList = some (.int 1) ∧
    assoc ((demoInfo 1).fields.reverse.zip zs) "first".toList = some (.int 2) :=
  ⟨[.int 1, .int 2], [.int 1, .int 2], [.int 1, .int 2], by rfl, by rfl, by rfl, by rfl⟩

end Verif.Props.ParamOrder
