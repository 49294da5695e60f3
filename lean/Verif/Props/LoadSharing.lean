import Verif.Props.LoadSharingWithin
import Verif.Core.LoadDemo

/-!
# What a loaded value shares with the document (C105)

`Verif.Core.HeapLoad` gives every container and object an identity and follows the identities through the
deserializers; what a deserializer builds has none.  The theorems say which of the identities that were there
before the call come out of it.
-/

set_option autoImplicit false

namespace Verif.Props.LoadSharing

open Verif Verif.Core Verif.Datetime
open Verif.Props.Sharing (Within WithinE labelsList_mem labelsEntries_mem within_list within_dict dict_within within_atom
  within_fresh hget_within hset_within ExRel)

/-! ## The surroundings -/

/-- What the surroundings do with identities: default values of parameters have identities among `L`, a constructor
stores what it got, as does the setting of an attribute, and deserializers of the user and of classes from elsewhere
give what they got from `load`, or something new. -/
structure Honest (H : HLEnv) (F : Frame) : Prop where
  paramDefault : ∀ c n v, H.paramDefault c n = some v → Within F.L v
  construct : ∀ c as bs, (∀ a ∈ as, Within F.L a.2) → H.constructH c as = .ok bs → ∀ b ∈ bs, Within F.L b.2
  setAttr : ∀ c as n v bs, (∀ a ∈ as, Within F.L a.2) → Within F.L v → H.setAttrH c as n v = .ok bs →
    ∀ b ∈ bs, Within F.L b.2
  foreign : ∀ hrec v t kw, RecOk F hrec → F.Q t v → KwOk F kw → Post (Within F.L) (H.foreignDesH hrec v t kw)
  custom : ∀ id hrec v t kw, RecOk F hrec → F.Q t v → KwOk F kw → H.getDes F.fork t = .ok (some (.custom id)) →
    Post (Within F.L) (H.customDesH id hrec v t kw)

theorem iter_within {L : Nat → Prop} {v : HVal} {xs : List HVal} (hv : Within L v) (h : v.iter = some xs) :
    ∀ x ∈ xs, Within L x := by
  intro x hx i hi
  cases v with
  | atom a =>
    cases a <;> simp only [HVal.iter, Option.some.injEq, reduceCtorEq] at h
    subst h
    obtain ⟨c, _, rfl⟩ := List.mem_map.1 hx
    cases hi
  | seq l k ys =>
    cases h
    exact hv i (by simp only [HVal.labels, List.mem_append, labelsList_mem]; exact .inr ⟨x, hx, hi⟩)
  | ntuple l c ys =>
    cases h
    exact hv i (by simp only [HVal.labels, List.mem_append, labelsList_mem]; exact .inr ⟨x, hx, hi⟩)
  | dict l es =>
    cases h
    obtain ⟨e, he, rfl⟩ := List.mem_map.1 hx
    exact hv i (by simp only [HVal.labels, List.mem_append, labelsEntries_mem]; exact .inr ⟨e, he, .inl hi⟩)
  | ddict l f es =>
    cases h
    obtain ⟨e, he, rfl⟩ := List.mem_map.1 hx
    exact hv i (by simp only [HVal.labels, List.mem_append, labelsEntries_mem]; exact .inr ⟨e, he, .inl hi⟩)
  | enum c m => cases h
  | obj l c as => cases h

theorem entries_within {L : Nat → Prop} {v : HVal} (hv : Within L v) : WithinE L (entries v) := by
  cases v with
  | dict l es => exact (dict_within hv).2
  | _ => exact fun e he => by cases he

/-! ## Parts of the document, default values and results of getters -/

/-- Whatever the document is: identities among `L`. -/
def partsFrame (strict : Bool) (fork : Nat) (L : Nat → Prop) : Frame where
  strict := strict
  fork := fork
  withMeta := true
  L := L
  P := fun _ v => Within L v
  Q := fun _ v => Within L v
  Key := fun k k' => Within L k → Within L k'

theorem parts_closed {H : HLEnv} {strict : Bool} {fork : Nat} {L : Nat → Prop} (hH : Honest H (partsFrame strict fork L))
    (hf : ∀ c n d, H.fieldDefault c n = some d → Within L d) : Closed H (partsFrame strict fork L) where
  skip := fun _ _ h _ => h
  given := fun _ _ h _ => h
  fromMeta := fun _ _ _ _ h _ => ⟨rfl, h⟩
  fromType := fun _ h _ => h
  primitive := fun _ _ h _ _ _ => h
  string := fun _ _ h _ => h
  elem := fun _ _ _ _ x h _ _ hi hx => ⟨fun _ => iter_within h hi x hx, fun _ _ => iter_within h hi x hx⟩
  field := fun c v name x h _ hx => by
    rcases hx with ⟨k, k', hm, _, _⟩ | ⟨_, xs, hi, hx⟩ | hd | rfl
    · exact (entries_within h _ hm).2
    · exact iter_within h hi x hx
    · exact hf c name x hd
    · exact within_atom _
  keyHere := fun _ _ _ _ h _ hm => (entries_within h _ hm).1
  key := fun _ _ _ _ _ _ _ h _ _ hm hk => hk (entries_within h _ hm).1
  value := fun _ _ _ _ _ _ h _ _ hm => (entries_within h _ hm).2
  valueFree := fun _ _ _ _ h _ _ hm => (entries_within h _ hm).2
  stored := fun _ _ _ _ _ _ _ _ h _ _ _ hm ho => (entries_within (entries_within h _ hm).2 _ ho).2
  trim := fun _ l ks h hv => by
    have := dict_within hv
    exact within_dict this.1 fun e he => this.2 e (hdel_mem he)
  defaultdict := fun _ _ h _ => h
  union := fun _ _ _ _ h _ _ _ => h
  param := fun _ _ _ _ h _ _ ⟨_, _, hm, _, _⟩ => ⟨(entries_within h _ hm).2, fun _ _ _ _ => (entries_within h _ hm).2⟩
  rest := fun _ _ _ _ h _ _ ⟨_, _, hm, _, _⟩ _ _ => (entries_within h _ hm).2
  keySelf := fun _ h => h
  keyWithin := fun _ _ h hk => hk h
  paramDefault := hH.paramDefault
  construct := hH.construct
  setAttr := hH.setAttr
  foreign := hH.foreign
  custom := hH.custom

/-! ## Strict loading -/

/-- Types in which `Any` does not occur. -/
inductive NoAny : Ty → Prop where
  | cls (c : Cls) : NoAny (.cls c)
  | gen (g : Gen) (args : List Ty) : (∀ a ∈ args, NoAny a) → NoAny (.gen g args)
  | union (args : List Ty) : (∀ a ∈ args, NoAny a) → NoAny (.union args)
  | newtype (n : PyStr) (t : Ty) : NoAny (.newtype n t)
  | special (b : Bool) : NoAny (.special b)

/-- Documents of which the dicts have texts as keys, as those that come from JSON texts; and objects that `load` does
not take. -/
inductive Doc : HVal → Prop where
  | atom (a : Atom) : Doc (.atom a)
  | seq (l : Option Nat) (k : SeqKind) (xs : List HVal) : (∀ x ∈ xs, Doc x) → Doc (.seq l k xs)
  | dict (l : Option Nat) (es : List (HVal × HVal)) : (∀ e ∈ es, ∃ s, e.1 = .atom (.str s)) → (∀ e ∈ es, Doc e.2) →
    Doc (.dict l es)
  | other (v : HVal) : v.erase.cls ∉ validTypes → Doc v

theorem doc_entries {v : HVal} (hv : Doc v) (hc : v.erase.cls ∈ validTypes) :
    ∀ e ∈ entries v, (∃ s, e.1 = .atom (.str s)) ∧ Doc e.2 := by
  intro e he
  cases hv with
  | dict l es hk hx => exact ⟨hk e he, hx e he⟩
  | other _ h => exact absurd hc h
  | _ => cases he

theorem doc_entries' {v : HVal} (hv : Doc v) : ∀ e ∈ entries v, (∃ s, e.1 = .atom (.str s)) ∧ Doc e.2 := by
  intro e he
  cases hv with
  | dict l es hk hx => exact ⟨hk e he, hx e he⟩
  | other _ h =>
    cases v with
    | dict l es => exact absurd (by simp [HVal.erase, Val.cls, validTypes]) h
    | _ => cases he
  | _ => cases he

theorem doc_iter {v : HVal} (hv : Doc v) (hc : v.erase.cls ∈ validTypes) {xs : List HVal} (h : v.iter = some xs) :
    ∀ x ∈ xs, Doc x := by
  intro x hx
  cases hv with
  | atom a =>
    cases a <;> simp only [HVal.iter, Option.some.injEq, reduceCtorEq] at h
    subst h
    obtain ⟨c, _, rfl⟩ := List.mem_map.1 hx
    exact .atom _
  | seq l k ys hy =>
    cases h
    exact hy x hx
  | dict l es hk hd =>
    cases h
    obtain ⟨e, he, rfl⟩ := List.mem_map.1 hx
    obtain ⟨s, hs⟩ := hk e he
    rw [hs]
    exact .atom _
  | other _ h => exact absurd hc h

/-- Strict loading of documents; class hints in `-meta` are allowed. -/
def strictFrame (fork : Nat) (L : Nat → Prop) : Frame where
  strict := true
  fork := fork
  withMeta := true
  L := L
  P := fun cls v => (∀ t ∈ cls, NoAny t) ∧ Doc v
  Q := fun t v => NoAny t ∧ Doc v ∧ v.erase.cls ∈ validTypes
  Key := fun k k' => ((∃ s, k = .atom (.str s)) → ∃ s, k' = .atom (.str s)) ∧ (Within L k → Within L k')

/-- The deserializer for primitives is that of `bool`, `int` and `float`. -/
theorem primitive_atom {H : HLEnv} {fork : Nat} (hd : DefaultDesers H.toLEnv fork) {t : Ty}
    (ht : H.getDes fork t = .ok (some .primitive)) {v : HVal} (hc : v.erase.cls ∈ validTypes)
    (hi : H.isInstance v.erase t = .ok true) : ∃ a, v = .atom a := by
  have hg : ∀ g : Gen, g.naked.desFn H.info ≠ .primitive := by intro g; cases g <;> simp [Gen.naked, Cls.desFn]
  rw [hd t] at ht
  simp only [Except.ok.injEq] at ht
  cases t with
  | cls c =>
    simp only [Ty.desFn, Option.some.injEq] at ht
    have hp : c = .bool ∨ c = .int ∨ c = .float := by
      cases c <;> simp [Cls.desFn] at ht ⊢
      split at ht <;> cases ht
    cases v with
    | atom a => exact ⟨a, rfl⟩
    | seq l k xs =>
      exfalso
      rcases hp with rfl | rfl | rfl <;> cases k <;> cases hi
    | dict l es =>
      exfalso
      rcases hp with rfl | rfl | rfl <;> cases hi
    | ddict l f es => simp [HVal.erase, Val.cls, validTypes] at hc
    | ntuple l c xs => simp [HVal.erase, Val.cls, validTypes] at hc
    | enum c m => simp [HVal.erase, Val.cls, validTypes] at hc
    | obj l c as => simp [HVal.erase, Val.cls, validTypes] at hc
  | gen g args => exact absurd (by simpa [Ty.desFn] using ht) (hg g)
  | newtype n t => cases hi
  | any => cases hi
  | union args => cases hi
  | special b => cases hi

/-- Hints in which `Any` does not occur. -/
structure NoAnyHints (H : HLEnv) (fork : Nat) : Prop where
  init : ∀ c, ∀ p ∈ (H.info c).initHints, NoAny p.2
  hints : ∀ c, ∀ p ∈ (H.info c).hints, NoAny p.2
  fromStr : ∀ s t, H.clsFromStr fork s = .ok t → NoAny t

theorem noAny_args {t : Ty} (h : NoAny t) : ∀ a ∈ t.getArgs, NoAny a := by
  cases h with
  | gen g args h => exact h
  | union args h => exact h
  | _ => exact fun a ha => by cases ha

theorem noAny_union {t : Ty} (h : NoAny t) {ts : List Ty} (hu : t.unionParams = some ts) : ∀ a ∈ ts, NoAny a := by
  cases h with
  | gen g args h =>
    cases args with
    | nil => cases hu
    | cons a as => cases hu; exact h
  | union args h => cases hu; exact h
  | _ => cases hu

theorem assoc_noAny {l : List (PyStr × Ty)} (h : ∀ p ∈ l, NoAny p.2) {n : PyStr} : ∀ t ∈ assoc l n, NoAny t := by
  intro t ht
  exact h _ (assoc_mem' (by simpa using ht))

theorem getCls_dict {H : HLEnv} {fork : Nat} {v : HVal} {t : Ty} {hs : List (Val × Val)}
    (h : getClsAndMeta H.toLEnv v.erase fork = .ok (some (t, hs))) :
    v.erase.cls ∈ validTypes ∧ ∃ s, H.clsFromStr fork s = .ok t := by
  unfold getClsAndMeta at h
  split at h
  · next es he =>
    refine ⟨by rw [he]; simp [Val.cls, validTypes], ?_⟩
    split at h
    · cases h
    · next m _ =>
      cases h1 : subscript m "classes".toList with
      | error e => rw [h1] at h; cases h
      | ok classes =>
        rw [h1] at h
        change Except.bind (subscript classes _) _ = _ at h
        cases h2 : subscript classes "/".toList with
        | error e => rw [h2] at h; cases h
        | ok name =>
          rw [h2] at h
          dsimp only [Except.bind] at h
          split at h
          · next s _ =>
            cases h3 : H.clsFromStr fork s with
            | error e => rw [h3] at h; cases h
            | ok t' =>
              rw [h3] at h
              cases h
              exact ⟨s, h3⟩
          · cases h
  · cases h

theorem strict_closed {H : HLEnv} {fork : Nat} {L : Nat → Prop} (hd : DefaultDesers H.toLEnv fork) (hn : NoAnyHints H fork)
    (hH : Honest H (strictFrame fork L)) (hf : ∀ c n d, H.fieldDefault c n = some d → Doc d) :
    Closed H (strictFrame fork L) where
  skip := by
    intro t v h hs
    rcases hs with ⟨hs, _⟩ | rfl
    · cases hs
    · cases h.1 .any rfl
  given := fun t v h hc => ⟨h.1 t rfl, h.2, hc⟩
  fromMeta := fun cls v t hs h hm => by
    obtain ⟨hc, s, hs⟩ := getCls_dict hm
    exact ⟨rfl, hn.fromStr s t hs, h.2, hc⟩
  fromType := fun v h hc => ⟨.cls _, h.2, hc⟩
  primitive := fun t v h ht hc hi => by
    obtain ⟨a, rfl⟩ := primitive_atom hd ht hc hi
    exact within_atom a
  string := fun t v h _ => ⟨fun t ht => by cases ht; exact .cls _, h.2.1⟩
  elem := fun t v f xs x h _ _ hi hx =>
    ⟨fun _ => ⟨fun t ht => (by cases ht), doc_iter h.2.1 h.2.2 hi x hx⟩,
      fun a ha => ⟨fun t ht => by cases ht; exact noAny_args h.1 a ha, doc_iter h.2.1 h.2.2 hi x hx⟩⟩
  field := fun c v name x h _ hx => by
    refine ⟨fun t ht => ?_, ?_⟩
    · unfold fieldHint at ht
      split at ht
      · exact assoc_noAny (hn.hints c) t ht
      · cases ht
    · rcases hx with ⟨k, k', hm, _, _⟩ | ⟨_, xs, hi, hx⟩ | hd | rfl
      · exact (doc_entries' h.2.1 _ hm).2
      · exact doc_iter h.2.1 h.2.2 hi x hx
      · exact hf c name x hd
      · exact .atom _
  keyHere := fun t v k x h _ hm => by
    obtain ⟨⟨s, rfl⟩, _⟩ := doc_entries' h.2.1 _ hm
    exact within_atom _
  key := fun t v a b k k' x h _ ha hm hk => by
    refine ⟨fun t ht => ?_, ?_⟩
    · cases ht
      exact noAny_args h.1 a (by rw [ha]; exact List.mem_cons_self)
    · obtain ⟨s, rfl⟩ := hk.1 (doc_entries' h.2.1 _ hm).1
      exact .atom _
  value := fun t v a b k x h _ ha hm => by
    refine ⟨fun t ht => ?_, (doc_entries' h.2.1 _ hm).2⟩
    cases ht
    exact noAny_args h.1 b (by rw [ha]; exact List.mem_cons_of_mem _ List.mem_cons_self)
  valueFree := fun t v k x h _ _ hm => ⟨fun t ht => (by cases ht), (doc_entries' h.2.1 _ hm).2⟩
  stored := fun t v a b k x o w h _ ha _ hm ho => by
    refine ⟨fun t ht => ?_, (doc_entries' (doc_entries' h.2.1 _ hm).2 _ ho).2⟩
    cases ht
    exact noAny_args h.1 a (by rw [ha]; exact List.mem_cons_self)
  trim := fun cls l ks h hv => ⟨hv.1, .dict _ _ (fun e he => (doc_entries' hv.2 e (hdel_mem he)).1)
    fun e he => (doc_entries' hv.2 e (hdel_mem he)).2⟩
  defaultdict := fun t v h _ => ⟨fun t' ht => by cases ht; exact .gen _ _ (noAny_args h.1), h.2.1⟩
  union := fun t v ts a h _ hu ha => ⟨fun t' ht => by cases ht; exact noAny_union h.1 hu a ha, h.2.1⟩
  param := fun c v p x h _ _ ⟨k, k', hm, _, _⟩ =>
    ⟨⟨assoc_noAny (hn.init c), (doc_entries' h.2.1 _ hm).2⟩,
      fun _ s t hs => ⟨fun t' ht => by cases ht; exact hn.fromStr s t hs, (doc_entries' h.2.1 _ hm).2⟩⟩
  rest := fun c v s x _ _ hs => by cases hs
  keySelf := fun k => ⟨id, id⟩
  keyWithin := fun k k' hk h => h.2 hk
  paramDefault := hH.paramDefault
  construct := hH.construct
  setAttr := hH.setAttr
  foreign := hH.foreign
  custom := hH.custom

/-! ## Documents that are copied -/

/-- Without `strict`: documents of which nothing comes out.  The dicts and lists are loaded without a class, or as
`List[...]`, `Dict[...]` or an object; keys that are no parameters of the constructor have a hint, or a scalar as
value. -/
inductive Copied (H : HLEnv) (fork : Nat) : Option Ty → HVal → Prop where
  | scalar (cls : Option Ty) (a : Atom) : Copied H fork cls (.atom a)
  | list (l : Option Nat) (xs : List HVal) : (∀ x ∈ xs, Copied H fork none x) → Copied H fork none (.seq l .list xs)
  | listOf (a : Ty) (l : Option Nat) (xs : List HVal) : (∀ x ∈ xs, Copied H fork (some a) x) →
    Copied H fork (some (.gen .list [a])) (.seq l .list xs)
  | dict (l : Option Nat) (es : List (HVal × HVal)) : (∀ e ∈ es, ∃ s, e.1 = .atom (.str s) ∧ s ≠ metaKey) →
    (∀ e ∈ es, Copied H fork none e.2) → Copied H fork none (.dict l es)
  | dictOf (a b : Ty) (l : Option Nat) (es : List (HVal × HVal)) :
    (∀ e ∈ es, ∃ s, e.1 = .atom (.str s) ∧ s ≠ metaKey ∧ s ≠ keysKey) → (∀ e ∈ es, Copied H fork (some b) e.2) →
    Copied H fork (some (.gen .dict [a, b])) (.dict l es)
  | union (ts : List Ty) (v : HVal) : (∀ e ∈ entries v, ∃ s, e.1 = .atom (.str s) ∧ s ≠ metaKey) →
    (∀ t ∈ ts, Copied H fork (some t) v) → Copied H fork (some (.union ts)) v
  | none (l : Option Nat) (es : List (HVal × HVal)) : (∀ e ∈ es, ∃ s, e.1 = .atom (.str s) ∧ s ≠ metaKey) →
    Copied H fork (some (.cls .noneType)) (.dict l es)
  | object (c : Nat) (l : Option Nat) (es : List (HVal × HVal)) : (H.info c).kind = .plain →
    (∀ e ∈ es, ∃ s, e.1 = .atom (.str s) ∧ s ≠ metaKey) →
    (∀ s x, (HVal.atom (.str s), x) ∈ es → (∃ p ∈ (H.info c).params, p.name = s) →
      Copied H fork (assoc (H.info c).initHints s) x) →
    (∀ s x t, (HVal.atom (.str s), x) ∈ es → (∀ p ∈ (H.info c).params, p.name ≠ s) → assoc (H.info c).hints s = some t →
      Copied H fork (some t) x) →
    (∀ s x, (HVal.atom (.str s), x) ∈ es → (∀ p ∈ (H.info c).params, p.name ≠ s) → assoc (H.info c).hints s = none →
      ∃ a, x = .atom a) →
    Copied H fork (some (.cls (.user c))) (.dict l es)

section
variable {H : HLEnv} {fork : Nat}

theorem copied_keys {cls : Option Ty} {v : HVal} (h : Copied H fork cls v) :
    ∀ e ∈ entries v, ∃ s, e.1 = .atom (.str s) ∧ s ≠ metaKey := by
  cases h with
  | dict l es hk _ => exact hk
  | dictOf a b l es hk _ =>
    intro e he
    obtain ⟨s, hs, h1, _⟩ := hk e he
    exact ⟨s, hs, h1⟩
  | union ts v hk _ => exact hk
  | none l es hk => exact hk
  | object c l es _ hk _ _ _ => exact hk
  | _ => exact fun e he => by cases he

theorem hget_absent {es : List (HVal × HVal)} {n : PyStr} (h : ∀ e ∈ es, ∃ s, e.1 = .atom (.str s) ∧ s ≠ n) :
    hget es (.str n) = none := by
  cases hg : hget es (.str n) with
  | none => rfl
  | some x =>
    obtain ⟨k, hm, hk⟩ := hget_mem hg
    obtain ⟨s, rfl, hs⟩ := h _ hm
    have := pyEq_eq_str hk
    simp only [HVal.erase] at this
    cases this
    exact absurd rfl hs

theorem copied_noMeta {cls : Option Ty} {v : HVal} (h : Copied H fork cls v) :
    getClsAndMeta H.toLEnv v.erase fork = .ok none := by
  have hk := copied_keys h
  cases v with
  | dict l es =>
    have : dictGet (HVal.eraseEntries es) (.str metaKey) = none := by
      rw [Verif.Props.Sharing.hget_erase, hget_absent (es := es) hk]
      rfl
    unfold getClsAndMeta
    simp only [HVal.erase, this]
  | _ => rfl

theorem copied_trim {cls : Option Ty} {v : HVal} (h : Copied H fork cls v) (k : Val) :
    ∀ l ks, v = .dict l ks → Copied H fork cls (.dict l (hdel ks k)) := by
  induction h with
  | dict l es hk hx ih =>
    intro l ks e
    cases e
    exact .dict _ _ (fun e he => hk e (hdel_mem he)) fun e he => hx e (hdel_mem he)
  | dictOf a b l es hk hx ih =>
    intro l ks e
    cases e
    exact .dictOf _ _ _ _ (fun e he => hk e (hdel_mem he)) fun e he => hx e (hdel_mem he)
  | union ts v hk hx ih =>
    intro l ks e
    subst e
    exact .union _ _ (fun e he => hk e (hdel_mem he)) fun t ht => ih t ht l ks rfl
  | none l es hk =>
    intro l ks e
    cases e
    exact .none _ _ fun e he => hk e (hdel_mem he)
  | object c l es hc hk h1 h2 h3 _ _ =>
    intro l ks e
    cases e
    exact .object c _ _ hc (fun e he => hk e (hdel_mem he)) (fun s x hm => h1 s x (hdel_mem hm))
      (fun s x t hm => h2 s x t (hdel_mem hm)) fun s x hm => h3 s x (hdel_mem hm)
  | _ => exact fun l ks e => by cases e

/-- Loading of documents that are copied, without `strict`, without class hints in `-meta`, and without a key
transformer. -/
def copiedFrame (H : HLEnv) (fork : Nat) (L : Nat → Prop) : Frame where
  strict := false
  fork := fork
  withMeta := false
  L := L
  P := Copied H fork
  Q := fun t v => Copied H fork (some t) v ∨ (Copied H fork none v ∧ t = .cls v.erase.cls)
  Key := fun k k' => k = k'

theorem atom_iter {a : Atom} {xs : List HVal} (h : (HVal.atom a).iter = some xs) {x : HVal} (hx : x ∈ xs) : ∃ b, x = .atom b := by
  cases a <;> simp only [HVal.iter, Option.some.injEq, reduceCtorEq] at h
  subst h
  obtain ⟨c, _, rfl⟩ := List.mem_map.1 hx
  exact ⟨_, rfl⟩

theorem erase_str {k : HVal} {s : PyStr} (h : k.erase = .str s) : k = .atom (.str s) := by
  cases k <;> simp_all [HVal.erase]

/-- What a deserializer may get. -/
theorem copied_what (hd : DefaultDesers H.toLEnv fork) {L : Nat → Prop} {t : Ty} {v : HVal}
    (h : (copiedFrame H fork L).Q t v) :
    (∃ a, v = .atom a) ∨
    (H.getDes fork t = .ok (some .list) ∧ ∃ l xs, v = .seq l .list xs ∧ ∀ x ∈ xs, (t.getArgs = [] → Copied H fork none x) ∧
      ∀ a ∈ t.getArgs, Copied H fork (some a) x) ∨
    (H.getDes fork t = .ok (some .mapping) ∧ (t.getArgs = [] ∨ (∃ a b, t.getArgs = [a, b]) ∧ hget (entries v) (.str keysKey) = none) ∧
      ∀ e ∈ entries v, (t.getArgs = [] → Copied H fork none e.2) ∧ ∀ a b, t.getArgs = [a, b] → Copied H fork (some b) e.2) ∨
    (H.getDes fork t = .ok (some .union) ∧ ∀ ts, t.unionParams = some ts → ∀ a ∈ ts, Copied H fork (some a) v) ∨
    H.getDes fork t = .ok (some .noneType) ∨
    (∃ c l es, t = .cls (.user c) ∧ (H.info c).kind = .plain ∧ v = .dict l es ∧
    (∀ s x, (HVal.atom (.str s), x) ∈ es → (∃ p ∈ (H.info c).params, p.name = s) →
      Copied H fork (assoc (H.info c).initHints s) x) ∧
    (∀ s x t, (HVal.atom (.str s), x) ∈ es → (∀ p ∈ (H.info c).params, p.name ≠ s) → assoc (H.info c).hints s = some t →
      Copied H fork (some t) x) ∧
    (∀ s x, (HVal.atom (.str s), x) ∈ es → (∀ p ∈ (H.info c).params, p.name ≠ s) → assoc (H.info c).hints s = none →
      ∃ a, x = .atom a)) := by
  rcases h with h | ⟨h, rfl⟩
  · cases h with
    | scalar _ a => exact .inl ⟨a, rfl⟩
    | listOf a l xs hx =>
      refine .inr (.inl ⟨hd _, l, xs, rfl, fun x hm => ⟨fun h => (by cases h), fun b hb => ?_⟩⟩)
      simp only [Ty.getArgs, List.mem_singleton] at hb
      subst hb
      exact hx x hm
    | dictOf a b l es hk hx =>
      refine .inr (.inr (.inl ⟨hd _, .inr ⟨⟨a, b, rfl⟩, ?_⟩, fun e he => ⟨fun h => (by cases h), fun a' b' hb => ?_⟩⟩))
      · exact hget_absent fun e he => by
          obtain ⟨s, hs, _, h2⟩ := hk e he
          exact ⟨s, hs, h2⟩
      · cases hb
        exact hx e he
    | union ts v hk hx =>
      refine .inr (.inr (.inr (.inl ⟨hd _, fun ts' hu a ha => ?_⟩)))
      cases hu
      exact hx a ha
    | none l es hk => exact .inr (.inr (.inr (.inr (.inl (hd _)))))
    | object c l es hc hk h1 h2 h3 => exact .inr (.inr (.inr (.inr (.inr ⟨c, l, es, rfl, hc, rfl, h1, h2, h3⟩))))
  · cases h with
    | scalar _ a => exact .inl ⟨a, rfl⟩
    | list l xs hx =>
      exact .inr (.inl ⟨hd _, l, xs, rfl, fun x hm => ⟨fun _ => hx x hm, fun a ha => by cases ha⟩⟩)
    | dict l es hk hx =>
      exact .inr (.inr (.inl ⟨hd _, .inl rfl, fun e he => ⟨fun _ => hx e he, fun a b h => by cases h⟩⟩))

theorem copied_closed {L : Nat → Prop} (hd : DefaultDesers H.toLEnv fork) (hH : Honest H (copiedFrame H fork L))
    (hf : ∀ c n d, H.fieldDefault c n = some d → ∃ a, d = .atom a) : Closed H (copiedFrame H fork L) where
  skip := by
    intro t v h hs
    cases h with
    | scalar _ a => exact within_atom a
    | none l es hk => rcases hs with ⟨_, hs⟩ | hs <;> cases hs
    | object c l es hc hk h1 h2 h3 => rcases hs with ⟨_, hs⟩ | hs <;> cases hs
    | _ => rcases hs with ⟨_, hs⟩ | hs <;> cases hs
  given := fun t v h _ => .inl h
  fromMeta := fun cls v t hs h hm => by
    have hm := (copied_noMeta h).symm.trans hm
    cases hm
  fromType := fun v h _ => .inr ⟨h, rfl⟩
  primitive := fun t v h ht hc hi => by
    obtain ⟨a, rfl⟩ := primitive_atom hd ht hc hi
    exact within_atom a
  string := fun t v h ht => by
    rcases copied_what hd h with ⟨a, rfl⟩ | ⟨h1, _⟩ | ⟨h1, _⟩ | ⟨h1, _⟩ | h1 | ⟨c, l, es, rfl, hc, _⟩
    · exact .scalar _ _
    all_goals first
      | (have ht := h1.symm.trans ht; cases ht; done)
      | (have ht := (hd _).symm.trans ht; simp [Ty.desFn, Cls.desFn, hc] at ht)
  elem := fun t v f xs x h ht hf hi hx => by
    rcases copied_what hd h with ⟨a, rfl⟩ | ⟨h1, l, ys, rfl, hy⟩ | ⟨h1, _⟩ | ⟨h1, _⟩ | h1 | ⟨c, l, es, rfl, hc, _⟩
    · obtain ⟨b, rfl⟩ := atom_iter hi hx
      exact ⟨fun _ => .scalar _ _, fun _ _ => .scalar _ _⟩
    · cases hi
      exact hy x hx
    all_goals first
      | (have ht := h1.symm.trans ht; cases ht; rcases hf with hf | hf | hf <;> cases hf; done)
      | (have ht := (hd _).symm.trans ht
         simp [Ty.desFn, Cls.desFn, hc] at ht
         subst ht
         rcases hf with hf | hf | hf <;> cases hf)
  field := fun c v name x h ht hx => by
    rcases copied_what hd h with ⟨a, rfl⟩ | ⟨h1, _⟩ | ⟨h1, _⟩ | ⟨h1, _⟩ | h1 | ⟨c', l, es, he, hc, _⟩
    · rcases hx with ⟨k, k', hm, _, _⟩ | ⟨_, xs, hi, hx⟩ | hdf | rfl
      · cases hm
      · obtain ⟨b, rfl⟩ := atom_iter hi hx
        exact .scalar _ _
      · obtain ⟨b, rfl⟩ := hf c name x hdf
        exact .scalar _ _
      · exact .scalar _ _
    all_goals first
      | (have ht := h1.symm.trans ht; cases ht; done)
      | (cases he; have ht := (hd _).symm.trans ht; simp [Ty.desFn, Cls.desFn, hc] at ht)
  keyHere := fun t v k x h _ hm => by
    have hk : ∀ e ∈ entries v, ∃ s, e.1 = .atom (.str s) ∧ s ≠ metaKey := by
      rcases h with h | ⟨h, _⟩ <;> exact copied_keys h
    obtain ⟨s, hs, _⟩ := hk _ hm
    dsimp only at hs
    rw [hs]
    exact within_atom _
  key := fun t v a b k k' x h _ ha hm hk => by
    have hk' : ∀ e ∈ entries v, ∃ s, e.1 = .atom (.str s) ∧ s ≠ metaKey := by
      rcases h with h | ⟨h, _⟩ <;> exact copied_keys h
    obtain ⟨s, hs, _⟩ := hk' _ hm
    have hk : k = k' := hk
    dsimp only at hs
    rw [← hk, hs]
    exact .scalar _ _
  value := fun t v a b k x h ht ha hm => by
    rcases copied_what hd h with ⟨a, rfl⟩ | ⟨h1, _⟩ | ⟨h1, _, h2⟩ | ⟨h1, _⟩ | h1 | ⟨c, l, es, rfl, hc, _⟩
    · cases hm
    · have ht := h1.symm.trans ht; cases ht
    · exact (h2 _ hm).2 a b ha
    all_goals first
      | (have ht := h1.symm.trans ht; cases ht; done)
      | cases ha
  valueFree := fun t v k x h ht ha hm => by
    rcases copied_what hd h with ⟨a, rfl⟩ | ⟨h1, _⟩ | ⟨h1, h3, h2⟩ | ⟨h1, _⟩ | h1 | ⟨c, l, es, rfl, hc, _⟩
    · cases hm
    · have ht := h1.symm.trans ht; cases ht
    · rcases h3 with h3 | ⟨⟨a, b, h3⟩, _⟩
      · exact (h2 _ hm).1 h3
      · exact absurd h3 (ha a b)
    all_goals first
      | (have ht := h1.symm.trans ht; cases ht; done)
      | (have ht := (hd _).symm.trans ht; simp [Ty.desFn, Cls.desFn, hc] at ht)
  stored := fun t v a b k x o w h ht ha hk hm ho => by
    rcases copied_what hd h with ⟨a, rfl⟩ | ⟨h1, _⟩ | ⟨h1, h3, h2⟩ | ⟨h1, _⟩ | h1 | ⟨c, l, es, rfl, hc, _⟩
    · cases hm
    · have ht := h1.symm.trans ht; cases ht
    · rcases h3 with h3 | ⟨_, h3⟩
      · rw [h3] at ha; cases ha
      · rw [h3] at hk; cases hk
    all_goals first
      | (have ht := h1.symm.trans ht; cases ht; done)
      | cases ha
  trim := fun cls l ks k h => copied_trim h k l ks rfl
  defaultdict := fun t v h ht => by
    rcases copied_what hd h with ⟨a, rfl⟩ | ⟨h1, _⟩ | ⟨h1, _⟩ | ⟨h1, _⟩ | h1 | ⟨c, l, es, rfl, hc, _⟩
    · exact .scalar _ _
    all_goals first
      | (have ht := h1.symm.trans ht; cases ht; done)
      | (have ht := (hd _).symm.trans ht; simp [Ty.desFn, Cls.desFn, hc] at ht)
  union := fun t v ts a h ht hu ha => by
    rcases copied_what hd h with ⟨a, rfl⟩ | ⟨h1, _⟩ | ⟨h1, _⟩ | ⟨h1, h2⟩ | h1 | ⟨c, l, es, rfl, hc, _⟩
    · exact .scalar _ _
    · have ht := h1.symm.trans ht; cases ht
    · have ht := h1.symm.trans ht; cases ht
    · exact h2 ts hu a ha
    · have ht := h1.symm.trans ht; cases ht
    · cases hu
  param := fun c v p x h ht hp hx => by
    obtain ⟨k, k', hm, hk, hs⟩ := hx
    have hk : k = k' := hk
    subst hk
    have := erase_str hs
    subst this
    refine ⟨?_, fun h => by cases h⟩
    rcases copied_what hd h with ⟨a, rfl⟩ | ⟨h1, _⟩ | ⟨h1, _⟩ | ⟨h1, _⟩ | h1 | ⟨c', l, es, he, hc, rfl, h1, h2, h3⟩
    · cases hm
    · have ht := h1.symm.trans ht; cases ht
    · have ht := h1.symm.trans ht; cases ht
    · have ht := h1.symm.trans ht; cases ht
    · have ht := h1.symm.trans ht; cases ht
    · cases he
      exact h1 p.name x hm ⟨p, hp, rfl⟩
  rest := fun c v s x h ht _ hx hne hp => by
    obtain ⟨k, k', hm, hk, hs⟩ := hx
    have hk : k = k' := hk
    subst hk
    have := erase_str hs
    subst this
    rcases copied_what hd h with ⟨a, rfl⟩ | ⟨h1, _⟩ | ⟨h1, _⟩ | ⟨h1, _⟩ | h1 | ⟨c', l, es, he, hc, rfl, h1, h2, h3⟩
    · cases hm
    · have ht := h1.symm.trans ht; cases ht
    · have ht := h1.symm.trans ht; cases ht
    · have ht := h1.symm.trans ht; cases ht
    · have ht := h1.symm.trans ht; cases ht
    · cases he
      cases ha : assoc (H.info c).hints s with
      | none =>
        obtain ⟨a, rfl⟩ := h3 s x hm hp ha
        exact .scalar _ _
      | some t => exact h2 s x t hm hp ha
  keySelf := fun k => rfl
  keyWithin := fun k k' hk h => by
    have h : k = k' := h
    rw [← h]
    exact hk
  paramDefault := hH.paramDefault
  construct := hH.construct
  setAttr := hH.setAttr
  foreign := hH.foreign
  custom := hH.custom

end

/-! ## The properties -/

section
variable {H : HLEnv}

/-- Identities change nothing: the result, the warnings and the exceptions are those of the model without
identities. -/
theorem load_identities_change_nothing (hF : Faithful H) (n : Nat) (v : HVal) (cls : Option Ty) {kw : HLoadKw} {kw' : LoadKw}
    (hk : KwRel kw kw') :
    (loadH H n v cls kw).log = (load H.toLEnv n v.erase cls kw').log ∧
      (loadH H n v cls kw).val.map HVal.erase = (load H.toLEnv n v.erase cls kw').val := by
  have h := loadRec_sim hF n v cls kw kw' hk
  refine ⟨h.log, ?_⟩
  have hx := h.val
  unfold loadH Core.load
  generalize (loadRecH H n v cls kw).val = x at hx
  generalize (loadRec H.toLEnv n v.erase cls kw').val = y at hx
  cases hx with
  | ok hab => exact congrArg Except.ok hab
  | err e => rfl

/-- Whatever the document and the class are: what the result shares with what was there before is part of the document, or
has an identity among `D`: those of default values of parameters and fields, of results of attribute getters, and of
keys made by the key transformer. -/
theorem load_shares_only (D : Nat → Prop) (n : Nat) (doc : HVal) (cls : Option Ty) (kw : HLoadKw)
    (hH : Honest H (partsFrame kw.strict kw.fork fun i => i ∈ doc.labels ∨ D i))
    (hf : ∀ c n d, H.fieldDefault c n = some d → Within D d)
    (hg : ∀ g ∈ kw.attrGetters, ∀ v, g.2 = .ok v → Within D v)
    (ht : ∀ f ∈ kw.keyTransformer, ∀ k k', f k = .ok k' → ∀ i ∈ k'.labels, i ∈ k.labels ∨ D i) :
    ∀ r, (loadH H n doc cls kw).val = .ok r → ∀ i ∈ r.labels, i ∈ doc.labels ∨ D i := by
  have hC := parts_closed hH fun c n d h i hi => .inr (hf c n d h i hi)
  refine loadRec_ok hC n doc cls kw (fun i hi => .inl hi) ⟨rfl, rfl, fun h => (by cases h), fun g h v hv i hi =>
    .inr (hg g h v hv i hi), fun k k' h hk i hi => ?_⟩
  cases hkt : kw.keyTransformer with
  | none =>
    rw [hkt] at h
    cases h
    exact hk i hi
  | some f =>
    rw [hkt] at h
    rcases ht f (by simp [hkt]) k k' h i hi with hi | hi
    · exact hk i hi
    · exact .inr hi

/-- With `strict`, if `Any` does not occur in the class or in hints: nothing of a document that came from a JSON text is
shared. -/
theorem strict_load_shares_nothing (D : Nat → Prop) (n : Nat) (doc : HVal) (cls : Option Ty) (kw : HLoadKw)
    (hs : kw.strict = true) (hd : DefaultDesers H.toLEnv kw.fork) (hn : NoAnyHints H kw.fork)
    (hH : Honest H (strictFrame kw.fork D)) (hf : ∀ c n d, H.fieldDefault c n = some d → Doc d)
    (hg : ∀ g ∈ kw.attrGetters, ∀ v, g.2 = .ok v → Within D v)
    (ht : ∀ f ∈ kw.keyTransformer, ∀ k k', f k = .ok k' →
      ((∃ s, k = .atom (.str s)) → ∃ s, k' = .atom (.str s)) ∧ (Within D k → Within D k'))
    (hcls : ∀ t ∈ cls, NoAny t) (hdoc : Doc doc) :
    ∀ r, (loadH H n doc cls kw).val = .ok r → ∀ i ∈ r.labels, D i := by
  have hC := strict_closed hd hn hH hf
  refine loadRec_ok hC n doc cls kw ⟨hcls, hdoc⟩ ⟨hs, rfl, fun h => (by cases h), hg, fun k k' h => ?_⟩
  cases hkt : kw.keyTransformer with
  | none =>
    rw [hkt] at h
    cases h
    exact ⟨id, id⟩
  | some f =>
    rw [hkt] at h
    exact ht f (by simp [hkt]) k k' h

/-- Without `strict`: nothing of a document is shared, if the document is copied, see `Copied`. -/
theorem load_copies (D : Nat → Prop) (n : Nat) (doc : HVal) (cls : Option Ty) (kw : HLoadKw)
    (hs : kw.strict = false) (hd : DefaultDesers H.toLEnv kw.fork) (hH : Honest H (copiedFrame H kw.fork D))
    (hf : ∀ c n d, H.fieldDefault c n = some d → ∃ a, d = .atom a)
    (hm : kw.metaHints.getD [] = []) (hg : ∀ g ∈ kw.attrGetters, ∀ v, g.2 = .ok v → Within D v)
    (ht : kw.keyTransformer = none) (hdoc : Copied H kw.fork cls doc) :
    ∀ r, (loadH H n doc cls kw).val = .ok r → ∀ i ∈ r.labels, D i := by
  have hC := copied_closed hd hH hf
  refine loadRec_ok hC n doc cls kw hdoc ⟨hs, rfl, fun _ => hm, hg, fun k k' h => ?_⟩
  rw [ht] at h
  cases h
  rfl

/-- The claim of the title is false: without `strict`, a container that is loaded with its own class is returned itself
(`load(d, dict)`, `load(l, list)`), and with `Any` also with `strict`. -/
theorem load_returns_the_document (n : Nat) (doc : HVal) (t : Ty) (kw : HLoadKw) (hv : NoValidators H.toLEnv kw.fork)
    (hdoc : doc.erase ≠ .none) (ht : (kw.strict = false ∧ t = .cls doc.erase.cls) ∨ t = .any) :
    (loadH H (n + 1) doc (some t) kw).val = .ok doc := by
  have h1 : checkForNone H.toLEnv doc.erase (some t) = pure () := by
    unfold checkForNone
    rw [if_neg hdoc]
  have h2 : (kw.strict = false ∧ (some t : Option Ty) = some (.cls doc.erase.cls)) ∨ (some t : Option Ty) = some .any := by
    rcases ht with ⟨h, rfl⟩ | rfl
    · exact .inl ⟨h, rfl⟩
    · exact .inr rfl
  show (loadWithH H (loadRecH H n) doc (some t) kw).val = .ok doc
  unfold loadWithH
  rw [h1, pure_bind', if_pos h2, validate_none (hv _), pure_bind', pure_val]

end

/-! ## A program -/

/-- `Team` (`name: str`, `members: List[str] = []`), `League` (`teams: List[Team]`,
`points: Optional[Dict[str, int]] = None`), `Box` (`content: dict`), and `Empty` without parameters. -/
def leagueInfo : Nat → ClassInfo
  | 0 => { attrs := mainAttrs "Team"
           hints := [("name".toList, .cls .str), ("members".toList, .gen .list [.cls .str])]
           initHints := [("name".toList, .cls .str), ("members".toList, .gen .list [.cls .str])]
           params := [{ name := "name".toList }, { name := "members".toList, default := some (.list []) }] }
  | 1 => { attrs := mainAttrs "League"
           hints := [("teams".toList, .gen .list [.cls (.user 0)]),
             ("points".toList, .union [.gen .dict [.cls .str, .cls .int], .cls .noneType])]
           initHints := [("teams".toList, .gen .list [.cls (.user 0)]),
             ("points".toList, .union [.gen .dict [.cls .str, .cls .int], .cls .noneType])]
           params := [{ name := "teams".toList }, { name := "points".toList, default := some .none }] }
  | 2 => { attrs := mainAttrs "Box"
           hints := [("content".toList, .cls .dict)]
           initHints := [("content".toList, .cls .dict)]
           params := [{ name := "content".toList }] }
  | _ => { attrs := mainAttrs "Empty" }

theorem league_names : NamesOk leagueInfo desNames := by
  intro c
  match c with
  | 0 | 1 | 2 => decide
  | n + 3 =>
    have : (leagueInfo (n + 3)).attrs = mainAttrs "Empty" := rfl
    rw [this]
    decide

/-- The program with identities: 300 is the list that is the default value of `members`. -/
def leagueH : HLEnv :=
  { demoLEnv leagueInfo with
    paramDefault := fun c n =>
      if c = 0 ∧ n = "members".toList then some (.seq (some 300) .list [])
      else if c = 1 ∧ n = "points".toList then some (.atom .none) else none
    fieldDefault := fun _ _ => none
    constructH := fun _ as => .ok as
    setAttrH := fun _ as n v => .ok (assocSet as n v)
    foreignDesH := fun _ _ _ _ => Res.raise { kind := .typeError }
    customDesH := fun _ _ _ _ _ => Res.raise { kind := .other } }

theorem league_desers (fork : Nat) : DefaultDesers leagueH.toLEnv fork := fun t => getLizer_desFn leagueInfo league_names t

theorem league_novals (fork : Nat) : NoValidators leagueH.toLEnv fork := fun t => getLizer_empty leagueInfo t

theorem eraseAttrs_set (as : List (PyStr × HVal)) (n : PyStr) (v : HVal) :
    HVal.eraseAttrs (assocSet as n v) = assocSet (HVal.eraseAttrs as) n v.erase := by
  induction as with
  | nil => rfl
  | cons a as ih =>
    obtain ⟨m, w⟩ := a
    simp only [assocSet, HVal.eraseAttrs]
    split
    · simp only [HVal.eraseAttrs]
    · simp only [HVal.eraseAttrs, ih]

theorem league_faithful : Faithful leagueH where
  paramDefault := by
    intro c p hp
    match c with
    | 0 =>
      simp only [leagueH, demoLEnv, demoEnv, leagueInfo, List.mem_cons, List.not_mem_nil, or_false] at hp
      rcases hp with rfl | rfl <;> rfl
    | 1 =>
      simp only [leagueH, demoLEnv, demoEnv, leagueInfo, List.mem_cons, List.not_mem_nil, or_false] at hp
      rcases hp with rfl | rfl <;> rfl
    | 2 =>
      simp only [leagueH, demoLEnv, demoEnv, leagueInfo, List.mem_cons, List.not_mem_nil, or_false] at hp
      subst hp
      rfl
    | n + 3 => cases hp
  fieldDefault := by
    intro c n
    match c with
    | 0 | 1 | 2 => rfl
    | n + 3 => rfl
  construct := fun c as => .ok rfl
  setAttr := fun c as n v => .ok (eraseAttrs_set as n v)
  foreign := fun _ _ _ _ _ _ _ _ => rs_raise _
  custom := fun _ _ _ _ _ _ _ _ _ => rs_raise _

theorem assocSet_within {L : Nat → Prop} {as : List (PyStr × HVal)} {n : PyStr} {v : HVal} (ha : ∀ a ∈ as, Within L a.2)
    (hv : Within L v) : ∀ b ∈ assocSet as n v, Within L b.2 := by
  induction as with
  | nil =>
    intro b hb
    simp only [assocSet, List.mem_singleton] at hb
    subst hb
    exact hv
  | cons a as ih =>
    obtain ⟨m, w⟩ := a
    intro b hb
    simp only [assocSet] at hb
    split at hb
    · rcases List.mem_cons.1 hb with rfl | hb
      · exact hv
      · exact ha b (List.mem_cons_of_mem _ hb)
    · rcases List.mem_cons.1 hb with rfl | hb
      · exact ha _ List.mem_cons_self
      · exact ih (fun a h => ha a (List.mem_cons_of_mem _ h)) b hb

theorem league_honest (F : Frame) (hL : F.L 300) : Honest leagueH F where
  paramDefault := by
    intro c n v h
    simp only [leagueH] at h
    split at h
    · cases h
      intro i hi
      simp only [HVal.labels, HVal.labelsList, Option.toList_some, List.append_nil, List.mem_singleton] at hi
      subst hi
      exact hL
    · split at h
      · cases h
        exact within_atom _
      · cases h
  construct := by
    intro c as bs ha h
    cases h
    exact ha
  setAttr := by
    intro c as n v bs ha hv h
    cases h
    exact assocSet_within ha hv
  foreign := fun _ _ _ _ _ _ _ => po_raise _
  custom := fun _ _ _ _ _ _ _ _ _ => po_raise _

theorem league_noAny (fork : Nat) : NoAnyHints leagueH fork where
  init := by
    intro c p hp
    match c with
    | 0 =>
      simp only [leagueH, demoLEnv, demoEnv, leagueInfo, List.mem_cons, List.not_mem_nil, or_false] at hp
      rcases hp with rfl | rfl
      · exact .cls _
      · exact .gen _ _ fun a ha => by cases ha with | head => exact .cls _ | tail _ h => cases h
    | 1 =>
      simp only [leagueH, demoLEnv, demoEnv, leagueInfo, List.mem_cons, List.not_mem_nil, or_false] at hp
      rcases hp with rfl | rfl
      · exact .gen _ _ fun a ha => by cases ha with | head => exact .cls _ | tail _ h => cases h
      · refine .union _ fun a ha => ?_
        simp only [List.mem_cons, List.not_mem_nil, or_false] at ha
        rcases ha with rfl | rfl
        · refine .gen _ _ fun a ha => ?_
          simp only [List.mem_cons, List.not_mem_nil, or_false] at ha
          rcases ha with rfl | rfl <;> exact .cls _
        · exact .cls _
    | 2 =>
      simp only [leagueH, demoLEnv, demoEnv, leagueInfo, List.mem_cons, List.not_mem_nil, or_false] at hp
      subst hp
      exact .cls _
    | n + 3 => cases hp
  hints := by
    intro c p hp
    match c with
    | 0 =>
      simp only [leagueH, demoLEnv, demoEnv, leagueInfo, List.mem_cons, List.not_mem_nil, or_false] at hp
      rcases hp with rfl | rfl
      · exact .cls _
      · exact .gen _ _ fun a ha => by cases ha with | head => exact .cls _ | tail _ h => cases h
    | 1 =>
      simp only [leagueH, demoLEnv, demoEnv, leagueInfo, List.mem_cons, List.not_mem_nil, or_false] at hp
      rcases hp with rfl | rfl
      · exact .gen _ _ fun a ha => by cases ha with | head => exact .cls _ | tail _ h => cases h
      · refine .union _ fun a ha => ?_
        simp only [List.mem_cons, List.not_mem_nil, or_false] at ha
        rcases ha with rfl | rfl
        · refine .gen _ _ fun a ha => ?_
          simp only [List.mem_cons, List.not_mem_nil, or_false] at ha
          rcases ha with rfl | rfl <;> exact .cls _
        · exact .cls _
    | 2 =>
      simp only [leagueH, demoLEnv, demoEnv, leagueInfo, List.mem_cons, List.not_mem_nil, or_false] at hp
      subst hp
      exact .cls _
    | n + 3 => cases hp
  fromStr := by
    intro s t h
    simp only [leagueH, demoLEnv] at h
    repeat' split at h
    all_goals cases h
    all_goals exact .cls _

/-- `{'teams': [{'name': 'A', 'members': ['x', 'y']}, {'name': 'B'}], 'points': {'A': 3}}` with identities 1 to 6 -/
def season : HVal :=
  .dict (some 1) [
    (.atom (.str "teams".toList), .seq (some 2) .list [
      .dict (some 3) [(.atom (.str "name".toList), .atom (.str "A".toList)),
        (.atom (.str "members".toList), .seq (some 4) .list [.atom (.str "x".toList), .atom (.str "y".toList)])],
      .dict (some 5) [(.atom (.str "name".toList), .atom (.str "B".toList))]]),
    (.atom (.str "points".toList), .dict (some 6) [(.atom (.str "A".toList), .atom (.int 3))])]

theorem season_doc : Doc season := by
  refine .dict _ _ (fun e he => ?_) fun e he => ?_
  · simp only [List.mem_cons, List.not_mem_nil, or_false] at he
    rcases he with rfl | rfl <;> exact ⟨_, rfl⟩
  · simp only [List.mem_cons, List.not_mem_nil, or_false] at he
    rcases he with rfl | rfl
    · refine .seq _ _ _ fun x hx => ?_
      simp only [List.mem_cons, List.not_mem_nil, or_false] at hx
      rcases hx with rfl | rfl
      · refine .dict _ _ (fun e he => ?_) fun e he => ?_
        · simp only [List.mem_cons, List.not_mem_nil, or_false] at he
          rcases he with rfl | rfl <;> exact ⟨_, rfl⟩
        · simp only [List.mem_cons, List.not_mem_nil, or_false] at he
          rcases he with rfl | rfl
          · exact .atom _
          · refine .seq _ _ _ fun x hx => ?_
            simp only [List.mem_cons, List.not_mem_nil, or_false] at hx
            rcases hx with rfl | rfl <;> exact .atom _
      · refine .dict _ _ (fun e he => ?_) fun e he => ?_
        · simp only [List.mem_cons, List.not_mem_nil, or_false] at he
          subst he
          exact ⟨_, rfl⟩
        · simp only [List.mem_cons, List.not_mem_nil, or_false] at he
          subst he
          exact .atom _
    · refine .dict _ _ (fun e he => ?_) fun e he => ?_
      · simp only [List.mem_cons, List.not_mem_nil, or_false] at he
        subst he
        exact ⟨_, rfl⟩
      · simp only [List.mem_cons, List.not_mem_nil, or_false] at he
        subst he
        exact .atom _

/-- What comes out for `season`: everything is new but the list of members of the second team, which is the default
value. -/
theorem season_labels :
    (loadH leagueH 9 season (some (.cls (.user 1))) { strict := true }).val.toOption.map HVal.labels = some [300] ∧
      (loadH leagueH 9 season (some (.cls (.user 1))) {}).val.toOption.map HVal.labels = some [300] := by
  decide +kernel

/-- The hypotheses of `load_identities_change_nothing`. -/
example : (loadH leagueH 9 season (some (.cls (.user 1))) {}).val.map HVal.erase
    = (load leagueH.toLEnv 9 season.erase (some (.cls (.user 1))) {}).val :=
  (load_identities_change_nothing league_faithful 9 season _ kwRel_default).2

/-- The hypotheses of `load_shares_only`, whatever the document and the class are. -/
example (doc : HVal) (cls : Option Ty) (r : HVal) (h : (loadH leagueH 9 doc cls {}).val = .ok r) :
    ∀ i ∈ r.labels, i ∈ doc.labels ∨ i = 300 :=
  load_shares_only (fun i => i = 300) 9 doc cls {} (league_honest _ (.inr rfl)) (fun _ _ _ h => by cases h)
    (fun _ h => by cases h) (fun _ h => by cases h) r h

/-- The hypotheses of `strict_load_shares_nothing`. -/
example (r : HVal) (h : (loadH leagueH 9 season (some (.cls (.user 1))) { strict := true }).val = .ok r) :
    ∀ i ∈ r.labels, i = 300 :=
  strict_load_shares_nothing (fun i => i = 300) 9 season _ { strict := true } rfl (league_desers 0) (league_noAny 0)
    (league_honest _ rfl) (fun _ _ _ h => by cases h) (fun _ h => by cases h) (fun _ h => by cases h)
    (fun t ht => by cases ht; exact .cls _) season_doc r h

/-- `['x', 'y']` -/
theorem members_copied : Copied leagueH 0 (some (.gen .list [.cls .str]))
    (.seq (some 4) .list [.atom (.str "x".toList), .atom (.str "y".toList)]) := by
  refine .listOf _ _ _ fun x hx => ?_
  simp only [List.mem_cons, List.not_mem_nil, or_false] at hx
  rcases hx with rfl | rfl <;> exact .scalar _ _

/-- `{'name': 'A', 'members': ['x', 'y']}` -/
theorem team_copied : Copied leagueH 0 (some (.cls (.user 0)))
    (.dict (some 3) [(.atom (.str "name".toList), .atom (.str "A".toList)),
        (.atom (.str "members".toList), .seq (some 4) .list [.atom (.str "x".toList), .atom (.str "y".toList)])]) := by
  refine .object 0 _ _ rfl (fun e he => ?_) (fun s x hm hp => ?_) (fun s x t hm hp => ?_) (fun s x hm hp => ?_)
  · simp only [List.mem_cons, List.not_mem_nil, or_false] at he
    rcases he with rfl | rfl
    · exact ⟨_, rfl, by decide⟩
    · exact ⟨_, rfl, by decide⟩
  · simp only [List.mem_cons, List.not_mem_nil, or_false, Prod.mk.injEq, HVal.atom.injEq, Atom.str.injEq] at hm
    rcases hm with ⟨rfl, rfl⟩ | ⟨rfl, rfl⟩
    · exact .scalar _ _
    · exact members_copied
  all_goals
    exfalso
    simp only [List.mem_cons, List.not_mem_nil, or_false, Prod.mk.injEq, HVal.atom.injEq, Atom.str.injEq] at hm
    rcases hm with ⟨rfl, rfl⟩ | ⟨rfl, rfl⟩
    · exact hp { name := "name".toList } List.mem_cons_self rfl
    · exact hp { name := "members".toList, default := some (.list []) } (List.mem_cons_of_mem _ List.mem_cons_self) rfl

/-- `{'name': 'B', 'founded': 1900}`: a scalar under a key that is no parameter. -/
theorem small_copied : Copied leagueH 0 (some (.cls (.user 0)))
    (.dict (some 5) [(.atom (.str "name".toList), .atom (.str "B".toList)),
      (.atom (.str "founded".toList), .atom (.int 1900))]) := by
  refine .object 0 _ _ rfl (fun e he => ?_) (fun s x hm hp => ?_) (fun s x t hm hp => ?_) (fun s x hm hp => ?_)
  · simp only [List.mem_cons, List.not_mem_nil, or_false] at he
    rcases he with rfl | rfl
    · exact ⟨_, rfl, by decide⟩
    · exact ⟨_, rfl, by decide⟩
  all_goals
    simp only [List.mem_cons, List.not_mem_nil, or_false, Prod.mk.injEq, HVal.atom.injEq, Atom.str.injEq] at hm
  · rcases hm with ⟨rfl, rfl⟩ | ⟨rfl, rfl⟩ <;> exact .scalar _ _
  · intro _
    rcases hm with ⟨rfl, rfl⟩ | ⟨rfl, rfl⟩ <;> exact .scalar _ _
  · intro _
    rcases hm with ⟨rfl, rfl⟩ | ⟨rfl, rfl⟩ <;> exact ⟨_, rfl⟩

/-- `{'A': 3}` -/
theorem points_copied : Copied leagueH 0 (some (.union [.gen .dict [.cls .str, .cls .int], .cls .noneType]))
    (.dict (some 6) [(.atom (.str "A".toList), .atom (.int 3))]) := by
  refine .union _ _ (fun e he => ?_) fun t ht => ?_
  · simp only [entries, List.mem_singleton] at he
    subst he
    exact ⟨_, rfl, by decide⟩
  · simp only [List.mem_cons, List.not_mem_nil, or_false] at ht
    rcases ht with rfl | rfl
    · refine .dictOf _ _ _ _ (fun e he => ?_) fun e he => ?_
      · simp only [List.mem_singleton] at he
        subst he
        exact ⟨_, rfl, by decide, by decide⟩
      · simp only [List.mem_singleton] at he
        subst he
        exact .scalar _ _
    · refine .none _ _ fun e he => ?_
      simp only [List.mem_singleton] at he
      subst he
      exact ⟨_, rfl, by decide⟩

/-- The season above, with a key that is no parameter. -/
def season2 : HVal :=
  .dict (some 1) [
    (.atom (.str "teams".toList), .seq (some 2) .list [
      .dict (some 3) [(.atom (.str "name".toList), .atom (.str "A".toList)),
        (.atom (.str "members".toList), .seq (some 4) .list [.atom (.str "x".toList), .atom (.str "y".toList)])],
      .dict (some 5) [(.atom (.str "name".toList), .atom (.str "B".toList)),
        (.atom (.str "founded".toList), .atom (.int 1900))]]),
    (.atom (.str "points".toList), .dict (some 6) [(.atom (.str "A".toList), .atom (.int 3))])]

theorem season2_copied : Copied leagueH 0 (some (.cls (.user 1))) season2 := by
  refine .object 1 _ _ rfl (fun e he => ?_) (fun s x hm hp => ?_) (fun s x t hm hp => ?_) (fun s x hm hp => ?_)
  · simp only [List.mem_cons, List.not_mem_nil, or_false] at he
    rcases he with rfl | rfl
    · exact ⟨_, rfl, by decide⟩
    · exact ⟨_, rfl, by decide⟩
  · simp only [List.mem_cons, List.not_mem_nil, or_false, Prod.mk.injEq, HVal.atom.injEq, Atom.str.injEq] at hm
    rcases hm with ⟨rfl, rfl⟩ | ⟨rfl, rfl⟩
    · refine .listOf _ _ _ fun x hx => ?_
      simp only [List.mem_cons, List.not_mem_nil, or_false] at hx
      rcases hx with rfl | rfl
      · exact team_copied
      · exact small_copied
    · exact points_copied
  all_goals
    exfalso
    simp only [List.mem_cons, List.not_mem_nil, or_false, Prod.mk.injEq, HVal.atom.injEq, Atom.str.injEq] at hm
    rcases hm with ⟨rfl, rfl⟩ | ⟨rfl, rfl⟩
    · exact hp { name := "teams".toList } List.mem_cons_self rfl
    · exact hp { name := "points".toList, default := some .none } (List.mem_cons_of_mem _ List.mem_cons_self) rfl

/-- The hypotheses of `load_copies`. -/
example (r : HVal) (h : (loadH leagueH 9 season2 (some (.cls (.user 1))) {}).val = .ok r) : ∀ i ∈ r.labels, i = 300 :=
  load_copies (fun i => i = 300) 9 season2 _ {} rfl (league_desers 0) (league_honest _ rfl) (fun _ _ _ h => by cases h) rfl
    (fun _ h => by cases h) rfl season2_copied r h

/-- The call gives a result. -/
example : (loadH leagueH 9 season2 (some (.cls (.user 1))) {}).val.toOption.isSome = true := by decide +kernel

/-! ## What is shared -/

/-- The default value of a parameter is shared by all objects that are loaded without it. -/
theorem default_is_shared :
    (loadH leagueH 9 (.dict (some 1) [(.atom (.str "name".toList), .atom (.str "B".toList))]) (some (.cls (.user 0)))
      { strict := true }).val
      = .ok (.obj none 0 [("name".toList, .atom (.str "B".toList)), ("members".toList, .seq (some 300) .list [])]) := by rfl

/-- Without `strict`, a list under a key that is no parameter becomes the attribute itself: `load({'x': [1]}, Empty).x` is
the list of the document. -/
theorem unknown_key_is_shared :
    (loadH leagueH 9 (.dict (some 1) [(.atom (.str "x".toList), .seq (some 2) .list [.atom (.int 1)])])
      (some (.cls (.user 3))) {}).val
      = .ok (.obj none 3 [("x".toList, .seq (some 2) .list [.atom (.int 1)])]) := by rfl

/-- Without `strict`, the hint `dict` gives the dict of the document: `load({'content': {}}, Box).content`. -/
theorem bare_hint_is_shared :
    (loadH leagueH 9 (.dict (some 1) [(.atom (.str "content".toList), .dict (some 2) [])]) (some (.cls (.user 2))) {}).val
      = .ok (.obj none 2 [("content".toList, .dict (some 2) [])]) := by rfl

/-- With `strict`, it does not. -/
example :
    (loadH leagueH 9 (.dict (some 1) [(.atom (.str "content".toList), .dict (some 2) [])]) (some (.cls (.user 2)))
      { strict := true }).val = .ok (.obj none 2 [("content".toList, .dict none [])]) := by rfl

/-- `load([[1]], list)` is the list itself; `load([[1]])` is a new one. -/
example : (loadH leagueH 9 (.seq (some 1) .list [.seq (some 2) .list [.atom (.int 1)]]) (some (.cls .list)) {}).val
      = .ok (.seq (some 1) .list [.seq (some 2) .list [.atom (.int 1)]]) ∧
    (loadH leagueH 9 (.seq (some 1) .list [.seq (some 2) .list [.atom (.int 1)]]) none {}).val
      = .ok (.seq none .list [.seq none .list [.atom (.int 1)]]) :=
  ⟨load_returns_the_document 8 _ _ {} (league_novals 0) (by simp [HVal.erase]) (.inl ⟨rfl, rfl⟩), by rfl⟩

end Verif.Props.LoadSharing
