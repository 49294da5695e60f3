import Verif.Props.ParamOrder
import Verif.Props.Annotations

/-! # An enum can get more members without making stored documents useless (C123) -/

set_option autoImplicit false

namespace Verif.Props.EnumGrowth

open Verif Verif.Core
open Verif.Props.LoadBasics Verif.Props.LoadCollections Verif.Props.LoadObject
open Verif.Props.UnionOrder (NoneFine)
open Verif.Props.Widening
open Verif.Props.ParamOrder (oddName_iff)

/-! ## The specification -/

/-- What has changed: enums have got more members, after the ones they had.  jsons is used without
deserializers and validators of the program. -/
structure Growth (E : LEnv) (info : Nat → ClassInfo) (desers : Nat → Registry.Table DesFn Ty) :
    Prop where
  members : ∀ c, (E.info c).enumMembers <+: (info c).enumMembers
  rest : ∀ c, info c = { E.info c with enumMembers := (info c).enumMembers }
  des : ∀ i, DefaultDesers E i
  des' : ∀ i, DefaultDesers (rehinted E info desers) i
  vals : ∀ i, NoValidators E i
  vals' : ∀ i, NoValidators (rehinted E info desers) i

/-- Documents and types: enums, nested in any way in collections and objects. -/
inductive Doc (E E' : LEnv) : LoadKw → Val → Option Ty → Prop where
  /-- what has no enums in it, and is loaded alike by both programs -/
  | same (kw : LoadKw) (v : Val) (o : Option Ty)
      (h : ∀ n, (load E n v o kw).val = (load E' n v o kw).val) : Doc E E' kw v o
  /-- an enum, from a text or something else; without `use_enum_name` the text is not the name of a new
  member -/
  | enum (kw : LoadKw) (v : Val) (c : Nat) (hc : ∃ i, (E.info c).kind = .enum i)
      (h1 : v.cls ∈ validTypes) (hm : NoMeta v)
      (hnew : ∀ s, v = .str s → kw.useEnumName = none → assoc (E.info c).enumMembers s = none →
        assoc (E'.info c).enumMembers s = none) : Doc E E' kw v (some (.cls (.user c)))
  /-- the member `t` of the union is the first one that accepts the document, in both programs -/
  | union (kw : LoadKw) (v : Val) (pre post : List Ty) (t : Ty) (h1 : v.cls ∈ validTypes) (hm : NoMeta v)
      (hn : NoneFine E v (pre ++ t :: post)) (ha : Accepts E kw v (some t))
      (hp : ∀ p ∈ pre, Refuses E kw v p ∧ Refuses E' kw v p) (h : Doc E E' kw v (some t)) :
      Doc E E' kw v (some (.union (pre ++ t :: post)))
  | list (kw : LoadKw) (v : Val) (xs : List Val) (a : Ty) (h1 : v.cls ∈ validTypes)
      (hm : NoMeta v) (hx : v.iter = some xs) (he : ∀ x ∈ xs, NoMeta x)
      (h : ∀ x ∈ xs, Doc E E' kw x (some a)) : Doc E E' kw v (some (.gen .list [a]))
  | tuple (kw : LoadKw) (v : Val) (xs : List Val) (ts : List Ty) (h0 : ts ≠ [])
      (h1 : v.cls ∈ validTypes) (hm : NoMeta v) (hx : v.iter = some xs) (he : ∀ x ∈ xs, NoMeta x)
      (h : ∀ (i : Nat) t x, ts[i]? = some t → xs[i]? = some x →
        Doc E E' { kw with keyTransformer := none } x (some t)) : Doc E E' kw v (some (.gen .tuple ts))
  /-- sets, frozensets, deques and `Iterable[...]` -/
  | each (kw : LoadKw) (v : Val) (xs : List Val) (g : Gen) (a : Ty)
      (hg : g ∈ [Gen.set, .frozenset, .deque, .iterable]) (h1 : v.cls ∈ validTypes)
      (hm : NoMeta v) (hx : v.iter = some xs) (he : ∀ x ∈ xs, NoMeta x)
      (h : ∀ x ∈ xs, Doc E E' kw x (some a)) : Doc E E' kw v (some (.gen g [a]))
  | ellipsis (kw : LoadKw) (v : Val) (xs : List Val) (a : Ty) (h1 : v.cls ∈ validTypes)
      (hm : NoMeta v) (hx : v.iter = some xs) (he : ∀ x ∈ xs, NoMeta x)
      (h : ∀ x ∈ xs, Doc E E' { kw with keyTransformer := none } x (some a)) :
      Doc E E' kw v (some (.gen .tupleEll [a]))
  | dict (kw : LoadKw) (g : Gen) (es : List (Val × Val)) (k a : Ty) (hg : g = .dict ∨ g = .mapping)
      (hm : dictGet es (.str metaKey) = none) (hh : dictGet es (.str keysKey) = none)
      (he : ∀ e ∈ es, NoMeta e.2)
      (hk : ∀ e ∈ es, ∀ q, kw.keyTransformer.getD .ok e.1 = .ok q → NoMeta q)
      (h : ∀ e ∈ es, ∀ q, kw.keyTransformer.getD .ok e.1 = .ok q →
        Doc E E' { kw with keyTransformer := none } q (some k))
      (h' : ∀ e ∈ es, Doc E E' { kw with keyTransformer := some (kw.keyTransformer.getD .ok) } e.2
        (some a)) : Doc E E' kw (.dict es) (some (.gen g [k, a]))
  | ddict (kw : LoadKw) (es : List (Val × Val)) (k a : Ty) (hm : dictGet es (.str metaKey) = none)
      (h : Doc E E' kw (.dict es) (some (.gen .dict [k, a]))) :
      Doc E E' kw (.dict es) (some (.gen .defaultdict [k, a]))
  | obj (kw : LoadKw) (c : Nat) (es : List (Val × Val)) (hc : (E.info c).kind = .plain) (hp : Plain kw es)
      (h : ∀ es', Transformed E kw es es' → ∀ s x, (Val.str s, x) ∈ es' →
        Doc E E' (partKw kw) x (assoc (E.info c).initHints s))
      (h' : ∀ es', Transformed E kw es es' → ∀ s x, (Val.str s, x) ∈ es' → ¬ Known (E.info c) (.str s) →
        Doc E E' (partKw kw) x (some ((assoc (E.info c).hints s).getD (.cls x.cls)))) :
      Doc E E' kw (.dict es) (some (.cls (.user c)))
  /-- a named tuple from a list or a tuple -/
  | named (kw : LoadKw) (c : Nat) (k : SeqKind) (xs : List Val) (hk : k = .list ∨ k = .tuple)
      (hc : (E.info c).kind = .ntuple) (he : ∀ x ∈ xs, NoMeta x)
      (hdef : ∀ p ∈ (E.info c).fieldDefaults, NoMeta p.2)
      (h : ∀ (i : Nat) name, (E.info c).fields[i]? = some name →
        Doc E E' kw (fieldVal (E.info c) xs i name) (fieldHint (E.info c) name)) :
      Doc E E' kw (.seq k xs) (some (.cls (.user c)))
  /-- a named tuple from a dict -/
  | namedDict (kw : LoadKw) (c : Nat) (es : List (Val × Val)) (xs : List Val)
      (hc : (E.info c).kind = .ntuple) (hm : dictGet es (.str metaKey) = none)
      (hx : FieldEntries E kw c es xs) (h : Doc E E' kw (.list xs) (some (.cls (.user c)))) :
      Doc E E' kw (.dict es) (some (.cls (.user c)))

/-! ## Lemmas -/

section
variable {E : LEnv} {info : Nat → ClassInfo} {desers : Nat → Registry.Table DesFn Ty}

theorem Growth.rehint (R : Growth E info desers) : Rehint E info desers where
  attrs := fun c => by rw [R.rest c]
  kind := fun c => by rw [R.rest c]
  hashable := fun c => by rw [R.rest c]
  params := fun c => .inl (by rw [R.rest c])
  des := R.des
  des' := R.des'
  vals := R.vals
  vals' := R.vals'

theorem assoc_append_none {l l' : List (PyStr × Val)} {s : PyStr} (h : assoc l s = none) :
    assoc (l ++ l') s = assoc l' s := by
  induction l with
  | nil => rfl
  | cons p l ih =>
    obtain ⟨a, b⟩ := p
    by_cases ha : a = s
    · simp [assoc, ha] at h
    · simp only [assoc, ha, if_false, List.cons_append] at h ⊢
      exact ih h

theorem doc_widened (R : Growth E info desers) {kw : LoadKw} {v : Val} {o : Option Ty}
    (h : Doc E (rehinted E info desers) kw v o) : Widened E (rehinted E info desers) kw v o o := by
  have hi : ∀ c, ((rehinted E info desers).info c).initHints = (E.info c).initHints := fun c => by
    show (info c).initHints = _; rw [R.rest c]
  have hh : ∀ c, ((rehinted E info desers).info c).hints = (E.info c).hints := fun c => by
    show (info c).hints = _; rw [R.rest c]
  have hf : ∀ c, ((rehinted E info desers).info c).fields = (E.info c).fields := fun c => by
    show (info c).fields = _; rw [R.rest c]
  have hd : ∀ c, ((rehinted E info desers).info c).fieldDefaults = (E.info c).fieldDefaults := fun c => by
    show (info c).fieldDefaults = _; rw [R.rest c]
  have ha : ∀ c, ((rehinted E info desers).info c).hasAnnotations = (E.info c).hasAnnotations := fun c => by
    show (info c).hasAnnotations = _; rw [R.rest c]
  have hfh : ∀ c name, fieldHint ((rehinted E info desers).info c) name = fieldHint (E.info c) name := by
    intro c name
    simp only [fieldHint, ha, hh]
  induction h with
  | same kw v o h => exact .same _ _ _ h
  | enum kw v c hc h1 hm hnew =>
    obtain ⟨more, hmore⟩ := R.members c
    refine .enum _ _ _ more hc h1 hm hmore.symm fun s hs hu hn => ?_
    have := hnew s hs hu hn
    rw [← assoc_append_none hn, hmore]
    exact this
  | union kw v pre post t h1 hm hn ha hp _ ih =>
    refine .union _ _ _ _ _ _ _ _ h1 hm hn (fun hv => ?_) ha (fun p h => (hp p h).1) (fun p h => (hp p h).2) ih
    obtain ⟨a, b⟩ := hn hv
    exact ⟨a, fun t ht => fun h => b t ht ((oddName_iff R.rehint t).1 h)⟩
  | list kw v xs a h1 hm hx he _ ih => exact .list _ _ _ _ _ h1 hm hx he ih
  | tuple kw v xs ts h0 h1 hm hx he _ ih =>
    refine .tuple _ _ _ _ _ h0 rfl h1 hm hx he fun i t u x ht hu hx => ?_
    cases ht.symm.trans hu
    exact ih i t x ht hx
  | each kw v xs g a hg h1 hm hx he _ ih => exact .each _ _ _ _ _ _ hg h1 hm hx he ih
  | ellipsis kw v xs a h1 hm hx he _ ih => exact .ellipsis _ _ _ _ _ h1 hm hx he ih
  | dict kw g es k a hg hm hk he hq _ _ ih ih' => exact .dict _ _ _ _ _ _ _ hg hm hk he hq ih ih'
  | ddict kw es k a hm _ ih => exact .ddict _ _ _ _ _ hm ih
  | obj kw c es hc hp _ _ ih ih' =>
    refine .obj _ _ _ hc hp (fun p _ => by rw [hi]; exact id) (fun es' ht s x hx => ?_) fun es' ht s x hx hk => ?_
    · rw [hi]; exact ih es' ht s x hx
    · rw [hh]; exact ih' es' ht s x hx hk
  | named kw c k xs hk hc he hdef _ ih =>
    refine .named _ _ _ _ hk hc (hf c) (hd c) he hdef (fun name _ => ?_) fun i name hn => ?_
    · simp only [Optional', hfh]; exact id
    · rw [hfh]; exact ih i name hn
  | namedDict kw c es xs hc hm hx _ ih => exact .namedDict _ _ _ _ hc (hf c) hm hx ih

end

/-! ## C123 -/

/-- C123, `_partial`: what the old program loads, given enough stack, is loaded by the new program to the
same value. -/
theorem enum_growth_partial (E : LEnv) (info : Nat → ClassInfo)
    (desers : Nat → Registry.Table DesFn Ty) (R : Growth E info desers) (kw : LoadKw) (v : Val)
    (o : Option Ty) (hw : kw.warnOnFail = false) (hi : kw.inferred = false)
    (h : Doc E (rehinted E info desers) kw v o) :
    ∃ N, ∀ n, N ≤ n → ∀ r, (load E n v o kw).val = .ok r →
      (load (rehinted E info desers) n v o kw).val = .ok r :=
  widening_partial E info desers R.rehint kw v o o hw hi (doc_widened R h)

/-! ## Dump -/

section
open Verif.Props.Annotations (Hints hinted JsonKey TransformsKey Transforms Annotated annotations_partial)
open Verif.Props.DumpTyped (Returns Fits)
open Verif.Props.DumpObject

/-- Values with members that the enums had, nested in any way; the attributes of objects have hints that
fit (C84), or none. -/
inductive Value (E E' : Env) : DumpKw → Val → Prop where
  /-- what both programs dump alike, such as texts and numbers -/
  | leaf (kw : DumpKw) (v j : Val) (h : Returns E v none kw j) (h' : Returns E' v none kw j) :
      Value E E' kw v
  /-- a member that the enum had -/
  | enum (kw : DumpKw) (c : Nat) (m : PyStr) (hk : ∃ i, (E.info c).kind = .enum i)
      (h : (assoc (E.info c).enumMembers m).isSome) : Value E E' kw (.enum c m)
  | list (kw : DumpKw) (xs : List Val) (h : ∀ x ∈ xs, Value E E' { kw with storeCls := false } x) :
      Value E E' kw (.list xs)
  /-- tuples, sets, frozensets and deques -/
  | collection (kw : DumpKw) (k : SeqKind) (xs : List Val) (hk : k ≠ .list)
      (h : ∀ x ∈ xs, Value E E' { kw with storeCls := false } x) : Value E E' kw (.seq k xs)
  /-- dicts with keys that JSON has -/
  | dict (kw : DumpKw) (ps : List (Val × Val)) (ht : kw.types = [])
      (hk : ∀ p ∈ ps, JsonKey p.1 ∧ TransformsKey kw p.1)
      (h : ∀ p ∈ ps, Value E E' { kw with types := [] } p.2) : Value E E' kw (.dict ps)
  | named (kw : DumpKw) (c : Nat) (xs : List Val) (hk : (E.info c).kind = .ntuple)
      (h : ∀ x ∈ xs, Value E E' kw x) : Value E E' kw (.ntuple c xs)
  | obj (kw : DumpKw) (c : Nat) (as : List (PyStr × Val)) (l : List PyStr)
      (hk : (E.info c).kind = .plain) (hv : kw.verbose = {}) (hl : stripNames kw.stripAttr = some l)
      (hns : ∀ m, assoc (E.info c).members m ≠ some .noSource)
      (hg : ∀ m, Selected (E.info c) as kw l m → ∃ a, E.getAttr (.obj c as) m = .ok a)
      (hn : ∀ m a, Selected (E.info c) as kw l m → E.getAttr (.obj c as) m = .ok a →
        ∀ t, hintOf (E.info c) false m = some t → Fits E a t)
      (hf : ∀ m a, Selected (E.info c) as kw l m → E.getAttr (.obj c as) m = .ok a →
        ∀ t, hintOf (E'.info c) false m = some t → Fits E' a t)
      (h : ∀ m a, Selected (E.info c) as kw l m → E.getAttr (.obj c as) m = .ok a →
        Value E E' (attrKw kw l) a) : Value E E' kw (.obj c as)

theorem assoc_prefix {l l' : List (PyStr × Val)} {s : PyStr} {w : Val} (hp : l <+: l') (h : assoc l s = some w) :
    assoc l' s = some w := by
  obtain ⟨more, rfl⟩ := hp
  induction l with
  | nil => cases h
  | cons p l ih =>
    obtain ⟨a, b⟩ := p
    by_cases ha : a = s
    · simpa only [assoc, ha, if_true, List.cons_append] using h
    · simp only [assoc, ha, if_false, List.cons_append] at h ⊢
      exact ih h

theorem member_returns {E : Env} {c : Nat} {m : PyStr} {w : Val} {kw : DumpKw} (hs : DefaultSers E kw.fork)
    (hk : ∃ i, (E.info c).kind = .enum i) (h : assoc (E.info c).enumMembers m = some w) :
    Returns E (.enum c m) none kw (if kw.useEnumName then .str m else w) := by
  refine ⟨2, fun n hn => ?_⟩
  obtain ⟨n, rfl⟩ : ∃ m, n = m + 2 := ⟨n - 2, by omega⟩
  have hf : (Ty.cls (.user c)).serFn E.info = some .enum := by
    obtain ⟨i, hk⟩ := hk
    simp only [Ty.serFn, Cls.serFn, hk]
  refine (dump_via (v := .enum c m) (cls := none) (f := .enum) hs hf).2 ?_
  simp only [callSer, enumSer, h]
  cases kw.useEnumName <;> rfl

/-- C123 for dump, `_partial`: outside strict mode both programs dump the value, and to the same. -/
theorem enum_growth_dump_partial (E : Env) (info : Nat → ClassInfo) (sers : Nat → Registry.Table SerFn Ty)
    (hmem : ∀ c, (E.info c).enumMembers <+: (info c).enumMembers)
    (hrest : ∀ c, info c = { E.info c with enumMembers := (info c).enumMembers })
    (hs : ∀ i, DefaultSers E i) (hs' : ∀ i, DefaultSers (hinted E info sers) i) (kw : DumpKw) (v : Val)
    (hst : kw.strict = false) (hkt : Transforms kw) (h : Value E (hinted E info sers) kw v) :
    ∃ j, Returns E v none kw j ∧ Returns (hinted E info sers) v none kw j := by
  have U : Hints E info sers := {
    members := fun c => by rw [hrest c]
    kind := fun c => by rw [hrest c]
    fields := fun c => by rw [hrest c]
    isAttrs := fun c => by rw [hrest c]
    defaults := hs
    defaults' := hs' }
  refine annotations_partial E info sers U kw v hst hkt ?_
  clear hst hkt
  induction h with
  | leaf kw v j h h' => exact .leaf _ _ j h h'
  | enum kw c m hk h =>
    obtain ⟨w, hw⟩ := Option.isSome_iff_exists.1 h
    refine .leaf _ _ _ (member_returns (hs _) hk hw) (member_returns (hs' _) ?_ (assoc_prefix (hmem c) hw))
    obtain ⟨i, hk⟩ := hk
    exact ⟨i, (U.kind c).trans hk⟩
  | list kw xs _ ih => exact .list _ _ ih
  | collection kw k xs hk _ ih => exact .collection _ _ _ hk ih
  | dict kw ps ht hk _ ih => exact .dict _ _ ht hk ih
  | named kw c xs hk _ ih => exact .named _ _ _ hk ih
  | obj kw c as l hk hv hl hns hg hn hf _ ih => exact .obj _ _ _ l hk hv hl hns hg hn hf ih

end

/-! ## Examples -/

/-- `Color` with one more member, `BLUE = 7`. -/
def blueInfo : Nat → ClassInfo
  | 2 => { demoInfo 2 with enumMembers := (demoInfo 2).enumMembers ++ [("BLUE".toList, .int 7)] }
  | c => demoInfo c

theorem blue_names : NamesOk blueInfo desNames := by
  intro c
  have : (blueInfo c).attrs = (demoInfo c).attrs := by match c with | 0 | 1 | 2 | n + 3 => rfl
  rw [this]
  exact demo_desNames c

theorem blue_growth : Growth (demoLEnv demoInfo) blueInfo (fun _ => initialDesers blueInfo) where
  members := fun c => by
    match c with
    | 2 => exact List.prefix_append _ _
    | 0 | 1 | n + 3 => exact List.prefix_refl _
  rest := fun c => by match c with | 0 | 1 | 2 | n + 3 => rfl
  des := demo_desers
  des' := fun _ t => getLizer_desFn blueInfo blue_names t
  vals := demo_novals
  vals' := fun _ t => getLizer_empty blueInfo t

/-- `['RED', 1]` as `List[Color]` -/
example : Doc (demoLEnv demoInfo) (rehinted (demoLEnv demoInfo) blueInfo fun _ => initialDesers blueInfo) {}
    (.list [.str "RED".toList, .int 1]) (some (.gen .list [.cls (.user 2)])) := by
  refine .list _ _ [.str "RED".toList, .int 1] _ (by simp [Val.cls, SeqKind.cls, validTypes])
    (noMeta_of_not_dict (by simp [Val.cls, SeqKind.cls])) rfl (fun x hx => ?_) fun x hx => ?_
  · simp only [List.mem_cons, List.not_mem_nil, or_false] at hx
    rcases hx with rfl | rfl <;> exact noMeta_of_not_dict (by simp [Val.cls, Atom.cls])
  · simp only [List.mem_cons, List.not_mem_nil, or_false] at hx
    rcases hx with rfl | rfl
    · refine .enum _ _ _ ⟨_, rfl⟩ (by simp [Val.cls, Atom.cls, validTypes])
        (noMeta_of_not_dict (by simp [Val.cls, Atom.cls])) fun s hs _ h => ?_
      cases hs
      cases h
    · exact .enum _ _ _ ⟨_, rfl⟩ (by simp [Val.cls, Atom.cls, validTypes])
        (noMeta_of_not_dict (by simp [Val.cls, Atom.cls])) nofun

example : (load (demoLEnv blueInfo) 9 (.list [.str "RED".toList, .int 1, .int 7])
    (some (.gen .list [.cls (.user 2)])) {}).val =
    .ok (.list [.enum 2 "RED".toList, .enum 2 "RED".toList, .enum 2 "BLUE".toList]) := by decide +kernel

/-- `{'a': 'RED'}` as `DefaultDict[str, Color]` -/
example : Doc (demoLEnv demoInfo) (rehinted (demoLEnv demoInfo) blueInfo fun _ => initialDesers blueInfo) {}
    (.dict [(.str "a".toList, .str "RED".toList)]) (some (.gen .defaultdict [.cls .str, .cls (.user 2)])) := by
  refine .ddict _ _ _ _ rfl (.dict _ _ _ _ _ (.inl rfl) rfl rfl (fun e he => ?_) (fun e he q hq => ?_)
    (fun e he q hq => ?_) fun e he => ?_) <;> rw [List.mem_singleton.1 he] at *
  · exact noMeta_of_not_dict (by simp [Val.cls, Atom.cls])
  · cases hq
    exact noMeta_of_not_dict (by simp [Val.cls, Atom.cls])
  · cases hq
    exact .same _ _ _ fun n => congrArg Res.val
      (scalar_eq blue_growth.rehint n (.str _) (by simp [SchemaGrowth.scalars]) _)
  · refine .enum _ _ _ ⟨_, rfl⟩ (by simp [Val.cls, Atom.cls, validTypes])
      (noMeta_of_not_dict (by simp [Val.cls, Atom.cls])) fun s hs _ h => ?_
    cases hs
    cases h

example : (load (demoLEnv blueInfo) 9 (.dict [(.str "a".toList, .str "RED".toList)])
    (some (.gen .defaultdict [.cls .str, .cls (.user 2)])) {}).val =
    .ok (.ddict (some (.cls (.user 2))) [(.str "a".toList, .enum 2 "RED".toList)]) := by decide +kernel

/-- `[Color.RED]` -/
example : Value (demoEnv demoInfo) (Annotations.hinted (demoEnv demoInfo) blueInfo fun _ => initialSers blueInfo) {}
    (.list [.enum 2 "RED".toList]) := by
  refine .list _ _ fun x hx => ?_
  rw [List.mem_singleton.1 hx]
  exact .enum _ _ _ ⟨_, rfl⟩ (by rfl)

example : (dump (demoEnv blueInfo) 9 (.list [.enum 2 "RED".toList]) none {}).val =
    .ok (.list [.str "RED".toList]) := by rfl

/-! ## What does not hold -/

/-- An enum with `A = 'B'`, and with the members `more`. -/
def letters (more : List (PyStr × Val)) : Nat → ClassInfo := fun _ =>
  { attrs := mainAttrs "Letter", kind := .enum false, enumMembers := ("A".toList, .str "B".toList) :: more }

/-- C123 fails for a member that has the value of another one for a name: with `A = 'B'`, the document
`'B'` is loaded to `A`; when there is `B = 'C'`, too, it is loaded to `B`. -/
theorem enum_growth_fails_name : ∃ (v r r' : Val),
    (load (demoLEnv (letters [])) 9 v (some (.cls (.user 6))) {}).val = .ok r ∧
    (load (demoLEnv (letters [("B".toList, .str "C".toList)])) 9 v (some (.cls (.user 6))) {}).val = .ok r' ∧
    r ≠ r' :=
  ⟨.str "B".toList, .enum 6 "A".toList, .enum 6 "B".toList, by rfl, by rfl, by simp⟩

/-- C123 fails for members of unions that come first: as `Union[Color, str]`, `'BLUE'` is a text for the
old program and a `Color` for the new one. -/
theorem enum_growth_fails_union : ∃ (v r r' : Val),
    (load (demoLEnv demoInfo) 9 v (some (.union [.cls (.user 2), .cls .str])) {}).val = .ok r ∧
    (load (demoLEnv blueInfo) 9 v (some (.union [.cls (.user 2), .cls .str])) {}).val = .ok r' ∧ r ≠ r' :=
  ⟨.str "BLUE".toList, .str "BLUE".toList, .enum 2 "BLUE".toList, by rfl, by rfl, by simp⟩

end Verif.Props.EnumGrowth
