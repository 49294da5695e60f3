import Verif.Core.FillLemmas
import Verif.Props.DumpObject
import Verif.Props.DumpCollections

/-!
# Properties of verbose dumps

C59.
-/

set_option autoImplicit false

namespace Verif.Props.DumpVerbose
open Verif Verif.Core
open Verif.Props.DumpObject (Selected stripNames hintOf attrKw selected_list normalize_names object_eq)
open Verif.Props.DumpCollections (optional_dump_partial)

/-! ## Specification -/

/-- The options that the attributes are dumped with if class info is asked for. -/
abbrev innerKw (kw : DumpKw) (l : List PyStr) : DumpKw :=
  { kw with stripAttr := .tuple l, storeCls := true }

mutual
/-- Dicts in the value have different texts as keys, without slashes and other than
the internal `-cls`.  What is in lists is not looked at. -/
def CleanVal : Val → Prop
  | .dict es => CleanEntries es
  | _ => True
/-- The same for the entries of a dict. -/
def CleanEntries : List (Val × Val) → Prop
  | [] => True
  | (k, v) :: es => (∃ a, k = .str a ∧ '/' ∉ a ∧ a ≠ clsKey) ∧ (∀ e ∈ es, e.1 ≠ k) ∧
      CleanVal v ∧ CleanEntries es
end

/-- An attribute that is not an object and that is dumped to the same thing whether the
surrounding object is dumped verbosely or not. -/
structure Leaf (E : Env) (kw : DumpKw) (l : List PyStr) (N : Nat) (a : Val) (hint : Option Ty) :
    Prop where
  noObj : ∀ c as, a ≠ .obj c as
  same : ∃ d, CleanVal d ∧ ∀ n, N ≤ n → (dump E (n + 1) a hint (attrKw kw l)).val = .ok d ∧
    (dump E (n + 1) a hint (innerKw kw l)).val = .ok d

/-- The hint of an attribute that is an object: none, a type that is dumped by its
attributes, or an `Optional` of that. -/
def ObjectHint (E : Env) (hint : Option Ty) : Prop :=
  hint = none ∨ ∃ t : Ty, t.serFn E.info = some .object ∧ (hint = some t ∨
    hint = some (.union [t, .cls .noneType]) ∨ hint = some (.union [.cls .noneType, t]))

/-- An object tree of at most the given depth: the attributes have values which are
leaves or object trees, and names without slashes. -/
def Tree (E : Env) (kw : DumpKw) (l : List PyStr) (N : Nat) : Nat → Val → Prop
  | 0, _ => False
  | d + 1, v => ∃ c as, v = .obj c as ∧ (E.info c).kind = .plain ∧ (E.info c).isAttrs = false ∧
      (∀ m, assoc (E.info c).members m ≠ some .noSource) ∧
      ∀ m, Selected (E.info c) as kw l m → '/' ∉ m ∧ m ≠ [] ∧ m ≠ clsKey ∧ m ≠ metaKey ∧
        ∃ a, E.getAttr v m = .ok a ∧
          (Leaf E kw l N a (hintOf (E.info c) kw.strict m) ∨
            ObjectHint E (hintOf (E.info c) kw.strict m) ∧ Tree E kw l N d a)

/-- There is an object of the class at the end of the path of dumped attributes. -/
inductive ObjAt (E : Env) (kw : DumpKw) (l : List PyStr) : Val → List PyStr → Nat → Prop
  | here {c : Nat} {as : List (PyStr × Val)} : ObjAt E kw l (.obj c as) [] c
  | step {c c' : Nat} {as : List (PyStr × Val)} {m : PyStr} {a : Val} {p : List PyStr} :
      Selected (E.info c) as kw l m → E.getAttr (.obj c as) m = .ok a → ObjAt E kw l a p c' →
      ObjAt E kw l (.obj c as) (m :: p) c'

/-- How a path is written in the `-meta` section: the names with slashes before them,
just a slash for the object itself. -/
def metaPath : List PyStr → PyStr
  | [] => ['/']
  | [a] => '/' :: a
  | a :: b :: p => '/' :: a ++ metaPath (b :: p)

/-! ## Lemmas -/

theorem metaPath_eq {p : List PyStr} : metaPath p = '/' :: pathStr p := by
  induction p with
  | nil => rfl
  | cons a p ih =>
    cases p with
    | nil => rfl
    | cons b p => simp only [metaPath, ih, pathStr, List.cons_append]

/-- The attribute is dumped to this, with a marker for its class if wanted. -/
def AttrOk (E : Env) (n : Nat) (v : Val) (kw : DumpKw) (p : PyStr × Option Ty) (x : Val) : Prop :=
  ∃ a d, E.getAttr v p.1 = .ok a ∧ (dump E (n + 1) a p.2 kw).val = .ok d ∧
    x = storeClsInfo E kw.storeCls d a

theorem attrLoop_ok {E : Env} {n : Nat} {kw : DumpKw} {v : Val} {cn : PyStr}
    (hds : DefaultSers E kw.fork) (hkt : kw.keyTransformer = none)
    (hsn : kw.stripNulls = false) (g : PyStr × Option Ty → Val) :
    ∀ (ps : List (PyStr × Option Ty)) (acc : List (Val × Val)),
      (∀ p ∈ ps, AttrOk E n v kw p (g p)) → (ps.map (·.1)).Nodup →
      (∀ e ∈ acc, ∀ p ∈ ps, pyEq e.1 (.str p.1) = false) →
      (attrLoop E (recOf E n) kw false v cn ps acc).val =
        .ok (acc ++ ps.map fun p => (.str p.1, g p)) := by
  intro ps
  induction ps with
  | nil => intro acc _ _ _; simp [attrLoop]
  | cons p ps ih =>
    intro acc h1 h2 h3
    have hadd : addDumped kw acc (.str (if false = true then lstrip_ p.1 else p.1)) (g p) =
        .ok (acc ++ [(.str p.1, g p)]) := by
      simp only [addDumped, hsn, Bool.false_and, transformKey, hkt, Except.map,
        Bool.false_eq_true, if_false]
      rw [dictSet_new (fun a ha => h3 a ha _ List.mem_cons_self)]
    rw [List.map_cons, List.nodup_cons] at h2
    have ih1 := ih (acc ++ [(.str p.1, g p)])
      (fun q hq => h1 q (List.mem_cons_of_mem _ hq)) h2.2 (by
        intro e he q hq
        rcases List.mem_append.1 he with he | he
        · exact h3 e he q (List.mem_cons_of_mem _ hq)
        · rw [List.mem_singleton] at he
          subst he
          simp only [pyEq_str, beq_eq_false_iff_ne, ne_eq]
          intro e
          exact h2.1 (e ▸ List.mem_map_of_mem (f := (·.1)) hq))
    rw [List.append_assoc, List.singleton_append] at ih1
    obtain ⟨a, d, ha, hd, hx⟩ := h1 p List.mem_cons_self
    obtain ⟨name, hint⟩ := p
    obtain ⟨f, hf, hd⟩ := (dump_ok_iff hds).1 hd
    have hda : (dumpAttr E (recOf E n) kw ((hint.getD (.cls a.cls)).serFn E.info) a hint).val =
        .ok (g (name, hint)) := by
      simp only at hf
      rw [hf, hx]
      simp only [dumpAttr, bind_ok, pure_val, Except.ok.injEq]
      exact ⟨d, hd, rfl⟩
    simp only at ha
    simp only [attrLoop, bind_val, lift_val, ha, emit_val, hds _, liftK_of_ok, pure_val, attempt_val,
      hda]
    simp only at hadd
    rw [hadd]
    exact ih1

theorem object_hint_dump {E : Env} {n : Nat} {v r : Val} {kw : DumpKw} {t : Ty}
    (hds : DefaultSers E kw.fork) (hst : kw.strict = false) (ht : t.serFn E.info = some .object)
    (hv : (Ty.cls v.cls).serFn E.info = some .object)
    (h : (dump E (n + 2) v none kw).val = .ok r) : (dump E (n + 2) v (some t) kw).val = .ok r := by
  rw [dump_via (cls := none) hds (f := .object) hv] at h
  rw [dump_via (cls := some t) hds (f := .object) ht, ← h]
  simp only [callSer, objectSer, hst, Bool.false_eq_true, if_false]

theorem objectHint_dump {E : Env} {n : Nat} {v r : Val} {kw : DumpKw} {hint : Option Ty}
    (hds : DefaultSers E kw.fork) (hst : kw.strict = false) (hh : ObjectHint E hint)
    (hv : (Ty.cls v.cls).serFn E.info = some .object) (hn : v ≠ .none)
    (h : ∀ m, n ≤ m → (dump E (m + 2) v none kw).val = .ok r) :
    ∀ m, n + 2 ≤ m → (dump E (m + 2) v hint kw).val = .ok r := by
  intro m hm
  rcases hh with rfl | ⟨t, ht, rfl | rfl | rfl⟩
  · exact h m (by omega)
  · exact object_hint_dump hds hst ht hv (h m (by omega))
  · obtain ⟨k, rfl⟩ : ∃ k, m = k + 2 := ⟨m - 2, by omega⟩
    exact (optional_dump_partial E (k + 1) v t kw hds hn r).1.2
      (object_hint_dump hds hst ht hv (h k (by omega)))
  · obtain ⟨k, rfl⟩ : ∃ k, m = k + 2 := ⟨m - 2, by omega⟩
    exact (optional_dump_partial E (k + 1) v t kw hds hn r).2.2
      (object_hint_dump hds hst ht hv (h k (by omega)))

mutual
theorem clean_nice : ∀ v : Val, CleanVal v → NiceVal v ∧ unmark v = v
  | .dict es, h => by
    obtain ⟨h1, h2⟩ := cleanEntries_nice es h
    exact ⟨h1, by simp only [unmark, h2]⟩
  | .atom _, _ | .seq _ _, _ | .ddict _ _, _ | .ntuple _ _, _ | .enum _ _, _ | .obj _ _, _ =>
    ⟨trivial, rfl⟩
theorem cleanEntries_nice : ∀ es : List (Val × Val), CleanEntries es →
    NiceEntries es ∧ unmarkEntries es = es
  | [], _ => ⟨trivial, rfl⟩
  | (k, v) :: es, h => by
    simp only [CleanEntries] at h
    obtain ⟨⟨a, rfl, h1, h2⟩, h3, h4, h5⟩ := h
    obtain ⟨h6, h7⟩ := clean_nice v h4
    obtain ⟨h8, h9⟩ := cleanEntries_nice es h5
    refine ⟨⟨⟨a, rfl, h1⟩, h3, h6, h8⟩, ?_⟩
    have : Val.str a ≠ .str clsKey := by simpa using h2
    simp only [unmarkEntries, this, if_false, h7, h9, ite_self]
end

theorem clean_no_cls {es : List (Val × Val)} (h : CleanEntries es) :
    ∀ e ∈ es, e.1 ≠ .str clsKey := by
  induction es with
  | nil => simp
  | cons e es ih =>
    obtain ⟨k, v⟩ := e
    simp only [CleanEntries] at h
    obtain ⟨⟨a, rfl, h1, h2⟩, h3, h4, h5⟩ := h
    intro e he
    rcases List.mem_cons.1 he with rfl | he
    · simpa using h2
    · exact ih h5 e he

theorem nice_append {es : List (Val × Val)} {a : PyStr} {v : Val} (h : NiceEntries es)
    (ha : '/' ∉ a) (hn : ∀ e ∈ es, e.1 ≠ .str a) (hv : NiceVal v) :
    NiceEntries (es ++ [(.str a, v)]) := by
  induction es with
  | nil => exact ⟨⟨a, rfl, ha⟩, by simp, hv, trivial⟩
  | cons e es ih =>
    obtain ⟨k, w⟩ := e
    simp only [NiceEntries] at h
    simp only [List.cons_append, NiceEntries]
    refine ⟨h.1, ?_, h.2.2.1, ih h.2.2.2 fun e he => hn e (List.mem_cons_of_mem _ he)⟩
    intro e he
    rcases List.mem_append.1 he with he | he
    · exact h.2.1 e he
    · rw [List.mem_singleton] at he
      subst he
      exact fun e => hn _ List.mem_cons_self e.symm

theorem unmark_append {es fs : List (Val × Val)} :
    unmarkEntries (es ++ fs) = unmarkEntries es ++ unmarkEntries fs := by
  induction es with
  | nil => rfl
  | cons e es ih =>
    obtain ⟨k, w⟩ := e
    simp only [List.cons_append, unmarkEntries, ih]
    split
    · rfl
    · split <;> rfl

theorem dictSet_absent {es : List (Val × Val)} {a : PyStr} {v : Val}
    (hn : ∀ e ∈ es, e.1 ≠ .str a) : dictSet es (.str a) v = es ++ [(.str a, v)] :=
  dictSet_new fun e he => by
    cases hp : pyEq e.1 (.str a)
    · rfl
    · exact absurd (pyEq_eq_str hp) (hn e he)

theorem unmark_mem {es ds : List (Val × Val)} {a : PyStr} (h : (.str a, .dict ds) ∈ es)
    (h1 : a ≠ metaKey) (h2 : a ≠ clsKey) :
    (.str a, .dict (unmarkEntries ds)) ∈ unmarkEntries es := by
  induction es with
  | nil => cases h
  | cons e es ih =>
    obtain ⟨k, w⟩ := e
    simp only [unmarkEntries]
    rcases List.mem_cons.1 h with h | h
    · cases h
      have e1 : Val.str a ≠ .str clsKey := by simpa using h2
      have e2 : Val.str a ≠ .str metaKey := by simpa using h1
      simp only [e1, e2, if_false, unmark, List.mem_cons, true_or]
    · have ih := ih h
      split
      · exact ih
      · split <;> exact List.mem_cons_of_mem _ ih

theorem DictAt.unmark {es ds : List (Val × Val)} {p : List PyStr} (h : DictAt es p ds) :
    DictAt (unmarkEntries es) p (unmarkEntries ds) := by
  induction h with
  | here h1 h2 h3 => exact .here (unmark_mem h1 h2 h3) h2 h3
  | step h1 h2 h3 _ ih => exact .step (unmark_mem h1 h2 h3) h2 h3 ih

theorem DictAt.no_meta {es ds : List (Val × Val)} {w : Val} {p : List PyStr}
    (h : DictAt (es ++ [(.str metaKey, w)]) p ds) : DictAt es p ds := by
  have hm : ∀ {a : PyStr} {x : Val}, (Val.str a, x) ∈ es ++ [(.str metaKey, w)] → a ≠ metaKey →
      (Val.str a, x) ∈ es := by
    intro a x h ha
    rcases List.mem_append.1 h with h | h
    · exact h
    · rw [List.mem_singleton] at h
      cases h
      exact absurd rfl ha
  cases h with
  | here h1 h2 h3 => exact .here (hm h1 h2) h2 h3
  | step h1 h2 h3 h4 => exact .step (hm h1 h2) h2 h3 h4

theorem nice_map {α : Type} (f : α → PyStr) (g : α → Val) {ps : List α}
    (hd : (ps.map f).Nodup) (h : ∀ p ∈ ps, '/' ∉ f p ∧ NiceVal (g p)) :
    NiceEntries (ps.map fun p => (.str (f p), g p)) := by
  induction ps with
  | nil => trivial
  | cons p ps ih =>
    rw [List.map_cons, List.nodup_cons] at hd
    simp only [List.map_cons, NiceEntries]
    obtain ⟨h1, h2⟩ := h p List.mem_cons_self
    refine ⟨⟨_, rfl, h1⟩, ?_, h2, ih hd.2 fun q hq => h q (List.mem_cons_of_mem _ hq)⟩
    intro e he
    obtain ⟨q, hq, rfl⟩ := List.mem_map.1 he
    simp only [ne_eq, Val.atom.injEq, Atom.str.injEq]
    intro e
    exact hd.1 (e ▸ List.mem_map_of_mem (f := f) hq)

theorem unmark_map {α : Type} (f : α → PyStr) (g g' : α → Val) {ps : List α}
    (h : ∀ p ∈ ps, f p ≠ clsKey ∧ f p ≠ metaKey ∧ unmark (g' p) = g p) :
    unmarkEntries (ps.map fun p => (.str (f p), g' p)) = ps.map fun p => (.str (f p), g p) := by
  induction ps with
  | nil => rfl
  | cons p ps ih =>
    obtain ⟨h1, h2, h3⟩ := h p List.mem_cons_self
    have e1 : Val.str (f p) ≠ .str clsKey := by simpa using h1
    have e2 : Val.str (f p) ≠ .str metaKey := by simpa using h2
    simp only [List.map_cons, unmarkEntries, e1, e2, if_false, h3,
      ih fun q hq => h q (List.mem_cons_of_mem _ hq)]

/-- The dict of an object dumped plainly, and the one with markers in it. -/
structure Marked (E : Env) (kw : DumpKw) (l : List PyStr) (v : Val) (es es' : List (Val × Val)) :
    Prop where
  nice : NiceEntries es'
  noCls : ∀ e ∈ es', e.1 ≠ .str clsKey
  noMeta : ∀ e ∈ es', e.1 ≠ .str metaKey
  unmarked : unmarkEntries es' = es
  marks : ∀ p c, ObjAt E kw l v p c → p ≠ [] → ∃ ds, DictAt es' p ds ∧
    dictGet ds (.str clsKey) = some (.str (E.className true (.cls (.user c))))
  paths : ∀ p c, ObjAt E kw l v p c → p ≠ [] → pathStr p ≠ []

theorem attributes_congr {I : ClassInfo} {as : List (PyStr × Val)} {kw kw' : DumpKw}
    {s : StripAttr} (h1 : kw'.stripPrivates = kw.stripPrivates)
    (h2 : kw'.stripProperties = kw.stripProperties)
    (h3 : kw'.stripClassVariables = kw.stripClassVariables) (h4 : kw'.strict = kw.strict) :
    attributesFromObject I as kw' s = attributesFromObject I as kw s := by
  have hgo : ∀ (l : List PyStr) (ps : List (PyStr × Option Ty)),
      filterAttributes.go I kw' l ps = filterAttributes.go I kw l ps := by
    intro l ps
    induction ps with
    | nil => rfl
    | cons p ps ih => simp only [filterAttributes.go, ih, keepAttr, h1, h2, h3]
  unfold attributesFromObject filterAttributes
  rw [h4]
  cases s <;> simp only [hgo]

/-- An object with the given loop, dumped plainly. -/
theorem plain_eq {E : Env} {n c : Nat} {as : List (PyStr × Val)} {kw : DumpKw} {l : List PyStr}
    {ps : List (PyStr × Option Ty)} {es : List (Val × Val)}
    (hds : DefaultSers E kw.fork) (hk : (E.info c).kind = .plain) (hat : (E.info c).isAttrs = false)
    (hps : attributesFromObject (E.info c) as kw (.tuple l) = .ok ps)
    (h : (attrLoop E (recOf E n) (attrKw kw l) false (.obj c as)
      (E.className false (.cls (.user c))) ps []).val = .ok es) :
    (dump E (n + 2) (.obj c as) none (attrKw kw l)).val = .ok (.dict es) := by
  refine (object_eq (kw := attrKw kw l) hds hk rfl rfl
    (by rw [attributes_congr (kw' := attrKw kw l) (kw := kw) rfl rfl rfl rfl]; exact hps)).2 ⟨es, ?_, rfl⟩
  rw [hat]
  exact h

/-- An object with the given loop, dumped as a part of a verbose dump. -/
theorem inner_eq {E : Env} {n c : Nat} {as : List (PyStr × Val)} {kw : DumpKw} {l : List PyStr}
    {ps : List (PyStr × Option Ty)} {es : List (Val × Val)}
    (hds : DefaultSers E kw.fork) (hk : (E.info c).kind = .plain) (hat : (E.info c).isAttrs = false)
    (hci : kw.verbose.classInfo = true)
    (hps : attributesFromObject (E.info c) as kw (.tuple l) = .ok ps)
    (h : (attrLoop E (recOf E n) (innerKw kw l) false (.obj c as)
      (E.className false (.cls (.user c))) ps []).val = .ok es) :
    (dump E (n + 2) (.obj c as) none (innerKw kw l)).val = .ok (.dict es) := by
  have hf : ((none : Option Ty).getD (.cls (Val.obj c as).cls)).serFn E.info = some .object := by
    simp [Ty.serFn, Cls.serFn, Val.cls, hk]
  rw [dump_via (kw := innerKw kw l) hds hf]
  have hps' : attributesFromObject (E.info c) as (innerKw kw l) (.tuple l) = .ok ps := by
    rw [attributes_congr (kw' := innerKw kw l) (kw := kw) rfl rfl rfl rfl]; exact hps
  have hn : normalizeStripAttr (.tuple l) = .tuple l := normalize_names rfl
  simp only [callSer, objectSer, hn, objectSerWith, hps', bind_ok, lift_val, Except.ok.injEq,
    exists_eq_left', hat, Bool.false_and, hci]
  exact ⟨es, h, rfl⟩

/-- The loop over the attributes of an object tree, for both ways to dump. -/
theorem tree_loop {E : Env} {kw : DumpKw} {l : List PyStr} {N : Nat}
    (hds : DefaultSers E kw.fork) (hkt : kw.keyTransformer = none)
    (hsn : kw.stripNulls = false) (hst : kw.strict = false) (hci : kw.verbose.classInfo = true) :
    ∀ (d : Nat) (v : Val), Tree E kw l N d v → ∃ c as ps es es', v = .obj c as ∧
      (E.info c).kind = .plain ∧ (E.info c).isAttrs = false ∧
      attributesFromObject (E.info c) as kw (.tuple l) = .ok ps ∧
      Marked E kw l v es es' ∧
      ∀ n, N + 3 * d ≤ n →
        (attrLoop E (recOf E n) (attrKw kw l) false v (E.className false (.cls (.user c))) ps []).val
          = .ok es ∧
        (attrLoop E (recOf E n) (innerKw kw l) false v (E.className false (.cls (.user c))) ps []).val
          = .ok es' := by
  intro d
  induction d with
  | zero => intro v h; exact h.elim
  | succ d ih =>
    rintro v ⟨c, as, rfl, hk, hat, hns, hsel⟩
    obtain ⟨ps, hps, hsorted, hmem⟩ := selected_list (as := as) (kw := kw) (l := l) hns
    -- what is known of every attribute
    have hex : ∀ p : PyStr × Option Ty, ∃ xx : Val × Val, p ∈ ps →
        NiceVal xx.2 ∧ unmark xx.2 = xx.1 ∧
        (∀ n, N + 3 * (d + 1) ≤ n → AttrOk E n (.obj c as) (attrKw kw l) p xx.1 ∧
          AttrOk E n (.obj c as) (innerKw kw l) p xx.2) ∧
        ∀ a q c', E.getAttr (.obj c as) p.1 = .ok a → ObjAt E kw l a q c' →
          (q = [] → ∃ ds, xx.2 = .dict ds ∧
            dictGet ds (.str clsKey) = some (.str (E.className true (.cls (.user c'))))) ∧
          (q ≠ [] → pathStr q ≠ [] ∧ ∃ fs ds, xx.2 = .dict fs ∧ DictAt fs q ds ∧
            dictGet ds (.str clsKey) = some (.str (E.className true (.cls (.user c'))))) := by
      intro p
      by_cases hp : p ∈ ps
      · obtain ⟨h1, h2⟩ := (hmem p).1 hp
        obtain ⟨_, _, _, _, a, ha, hl | ⟨hh, ht⟩⟩ := hsel _ h1
        · obtain ⟨x, hx, hd⟩ := hl.same
          obtain ⟨hc1, hc2⟩ := clean_nice x hx
          have hnx : NiceVal (storeClsInfo E true x a) ∧ unmark (storeClsInfo E true x a) = x := by
            cases x with
            | dict es =>
              have hno := clean_no_cls hx
              simp only [storeClsInfo, if_true]
              rw [dictSet_absent hno]
              refine ⟨nice_append hc1 (by decide) hno trivial, ?_⟩
              simp only [unmark, Val.dict.injEq] at hc2 ⊢
              rw [unmark_append, hc2]
              simp [unmarkEntries]
            | _ => exact ⟨hc1, hc2⟩
          refine ⟨(x, storeClsInfo E true x a), fun _ => ⟨hnx.1, hnx.2, ?_, ?_⟩⟩
          · intro n hn
            obtain ⟨h3, h4⟩ := hd n (by omega)
            rw [← h2] at h3 h4
            refine ⟨⟨a, x, ha, h3, ?_⟩, ⟨a, x, ha, h4, rfl⟩⟩
            unfold storeClsInfo; split <;> simp
          · intro a' q c' ha' ho
            rw [ha] at ha'
            cases ha'
            cases ho with
            | here => exact absurd rfl (hl.noObj _ _)
            | step => exact absurd rfl (hl.noObj _ _)
        · obtain ⟨c1, as1, ps1, es1, es1', rfl, hk1, hat1, hps1, hM, hloop⟩ := ih a ht
          have hno := hM.noCls
          have hv1 : (Ty.cls (Val.obj c1 as1).cls).serFn E.info = some .object := by
            simp [Ty.serFn, Cls.serFn, Val.cls, hk1]
          have hd1 := objectHint_dump (n := N + 3 * d) (kw := attrKw kw l) (r := .dict es1) hds hst hh
            hv1 (by simp) (fun m hm => plain_eq hds hk1 hat1 hps1 (hloop m hm).1)
          have hd2 := objectHint_dump (n := N + 3 * d) (kw := innerKw kw l) (r := .dict es1') hds hst hh
            hv1 (by simp) (fun m hm => inner_eq hds hk1 hat1 hci hps1 (hloop m hm).2)
          have hset := dictSet_absent (v := .str (E.className true (.cls (.user c1)))) hno
          refine ⟨(.dict es1, .dict (es1' ++ [(.str clsKey,
            .str (E.className true (.cls (.user c1))))])), fun _ => ⟨?_, ?_, ?_, ?_⟩⟩
          · exact nice_append hM.nice (by decide) hno trivial
          · simp only [unmark, Val.dict.injEq]
            rw [unmark_append, hM.unmarked]
            simp [unmarkEntries]
          · intro n hn
            obtain ⟨k, rfl⟩ : ∃ k, n = k + 1 := ⟨n - 1, by omega⟩
            have h3 := hd1 k (by omega)
            have h4 := hd2 k (by omega)
            rw [← h2] at h3 h4
            refine ⟨⟨_, _, ha, h3, rfl⟩, ⟨_, _, ha, h4, ?_⟩⟩
            simp only [storeClsInfo, if_true, Env.clsNameOf, hset]
          · intro a' q c' ha' ho
            rw [ha] at ha'
            cases ha'
            constructor
            · rintro rfl
              cases ho
              refine ⟨_, rfl, ?_⟩
              rw [← hset, dictGet_set_str, if_pos rfl]
            · intro hq
              obtain ⟨ds, h5, h6⟩ := hM.marks q c' ho hq
              exact ⟨hM.paths q c' ho hq, _, ds, rfl,
                DictAt.mono h5 fun e he => List.mem_append_left _ he, h6⟩
      · exact ⟨(.none, .none), fun h => absurd h hp⟩
    obtain ⟨g, hg⟩ := Classical.axiomOfChoice hex
    have hnames : ∀ p ∈ ps, '/' ∉ p.1 ∧ p.1 ≠ [] ∧ p.1 ≠ clsKey ∧ p.1 ≠ metaKey := by
      intro p hp
      obtain ⟨h1, h2, h3, h4, _⟩ := hsel _ ((hmem p).1 hp).1
      exact ⟨h1, h2, h3, h4⟩
    have hnd := DumpObject.Before.nodup hsorted
    refine ⟨c, as, ps, ps.map fun p => (.str p.1, (g p).1), ps.map fun p => (.str p.1, (g p).2),
      rfl, hk, hat, hps, ?_, ?_⟩
    · refine ⟨nice_map (·.1) _ hnd fun p hp => ⟨(hnames p hp).1, (hg p hp).1⟩, ?_, ?_,
        unmark_map (·.1) _ _ fun p hp => ⟨(hnames p hp).2.2.1, (hnames p hp).2.2.2, (hg p hp).2.1⟩,
        ?_, ?_⟩
      · intro e he
        obtain ⟨p, hp, rfl⟩ := List.mem_map.1 he
        simpa using (hnames p hp).2.2.1
      · intro e he
        obtain ⟨p, hp, rfl⟩ := List.mem_map.1 he
        simpa using (hnames p hp).2.2.2
      · intro q c' ho hq
        cases ho with
        | here => exact absurd rfl hq
        | @step _ _ _ m a q hs ha ho =>
          have hp := (hmem (m, hintOf (E.info c) kw.strict m)).2 ⟨hs, rfl⟩
          obtain ⟨_, _, _, h4⟩ := hg _ hp
          obtain ⟨h5, h6⟩ := h4 a q c' ha ho
          obtain ⟨_, _, h9, h10⟩ := hnames _ hp
          by_cases hq : q = []
          · subst hq
            obtain ⟨ds, h7, h8⟩ := h5 rfl
            exact ⟨ds, .here (List.mem_map.2 ⟨_, hp, by rw [h7]⟩) h10 h9, h8⟩
          · obtain ⟨_, fs, ds, h7, h8, h8'⟩ := h6 hq
            exact ⟨ds, .step (List.mem_map.2 ⟨_, hp, by rw [h7]⟩) h10 h9 h8, h8'⟩
      · intro q c' ho hq
        cases ho with
        | here => exact absurd rfl hq
        | @step _ _ _ m a q hs ha ho =>
          have hp := (hmem (m, hintOf (E.info c) kw.strict m)).2 ⟨hs, rfl⟩
          have h1 := (hnames _ hp).2.1
          cases q with
          | nil => exact h1
          | cons b q => simp [pathStr]
    · intro n hn
      exact ⟨attrLoop_ok (kw := attrKw kw l) hds hkt hsn (fun p => (g p).1) ps []
          (fun p hp => ((hg p hp).2.2.1 n hn).1) hnd (by simp),
        attrLoop_ok (kw := innerKw kw l) hds hkt hsn (fun p => (g p).2) ps []
          (fun p hp => ((hg p hp).2.2.1 n hn).2) hnd (by simp)⟩

/-! ## C59 -/

/-- The `-meta` section. -/
def metaSection (E : Env) (kw : DumpKw) (classes : List (Val × Val)) : Val :=
  .dict ((.str "classes".toList, .dict classes) ::
    if kw.verbose.dumpTime then [(.str "dump_time".toList, .str E.now)] else [])

theorem withMeta_eq {E : Env} {obj obj' coll : List (Val × Val)} {cn : PyStr} {kw : DumpKw}
    (hci : kw.verbose.classInfo = true)
    (h : fillEntries (dictSet obj (.str metaKey) (.dict [])) ['/'] [] = .ok (obj', coll)) :
    dictWithMeta E obj cn kw.verbose = .ok (dictSet obj' (.str metaKey)
      (metaSection E kw (dictSet coll (.str ['/']) (.str cn)))) := by
  have hvb : kw.verbose ≠ {} := by intro e; rw [e] at hci; cases hci
  simp only [dictWithMeta, hvb, if_false, hci, if_true, bind, Except.bind, h, pure, Except.pure,
    metaSection]
  rfl

theorem dictSet_last {es : List (Val × Val)} {a : PyStr} {v w : Val}
    (hn : ∀ e ∈ es, e.1 ≠ .str a) :
    dictSet (es ++ [(.str a, v)]) (.str a) w = es ++ [(.str a, w)] := by
  induction es with
  | nil => simp [dictSet, pyEq_str]
  | cons e es ih =>
    obtain ⟨k, x⟩ := e
    have hk : pyEq k (.str a) = false := by
      cases hp : pyEq k (.str a)
      · rfl
      · exact absurd (pyEq_eq_str hp) (hn _ List.mem_cons_self)
    simp only [List.cons_append, dictSet, hk, Bool.false_eq_true, if_false,
      ih fun e he => hn e (List.mem_cons_of_mem _ he)]

/-- C59, `_partial`: the dump of an object tree with class info is the plain dump with a
`-meta` section at its end, where every nested object is listed with its path and the
name of its class; so there is no `-cls` that the plain dump does not have.  No path is
listed twice, and none that does not lead to the object itself or to a dict in the plain
dump.  Missing: objects in dicts and named tuples, for which
the claim is false (`objects_in_dicts_unnamed`); lists of objects, for which see
`verbose_list_dump`; for key transformers, `strip_nulls` and `strict` see
`VerboseStyled.verbose_styled_partial`. -/
theorem verbose_dump_partial (E : Env) (kw : DumpKw) (l : List PyStr) (N d : Nat) (v : Val)
    (hds : DefaultSers E kw.fork) (hl : stripNames kw.stripAttr = some l)
    (hkt : kw.keyTransformer = none) (hsn : kw.stripNulls = false) (hst : kw.strict = false)
    (hsc : kw.storeCls = false) (hci : kw.verbose.classInfo = true)
    (hv : Tree E kw l N d v) :
    ∃ es cs, (∀ n, N + 3 * d ≤ n →
        (dump E (n + 2) v none { kw with verbose := {} }).val = .ok (.dict es) ∧
        (dump E (n + 2) v none kw).val =
          .ok (.dict (es ++ [(.str metaKey, metaSection E kw cs)]))) ∧
      (∀ p c, ObjAt E kw l v p c →
        dictGet cs (.str (metaPath p)) = some (.str (E.className true (.cls (.user c))))) ∧
      (cs.map (·.1)).Nodup ∧
      ∀ k ∈ cs.map (·.1), ∃ p, k = .str (metaPath p) ∧ (p = [] ∨ ∃ ds, DictAt es p ds) := by
  obtain ⟨c, as, ps, es, es', rfl, hk, hat, hps, hM, hloop⟩ :=
    tree_loop hds hkt hsn hst hci d v hv
  have hnice : NiceEntries (es' ++ [(.str metaKey, .dict [])]) :=
    nice_append hM.nice (by decide) hM.noMeta trivial
  obtain ⟨coll, hfill, hF⟩ := fillEntries_spec _ ['/'] [] hnice
  have hun : unmarkEntries (es' ++ [(.str metaKey, .dict [])]) = es ++ [(.str metaKey, .dict [])] := by
    rw [unmark_append, hM.unmarked]
    have : Val.str metaKey ≠ .str clsKey := by decide
    simp only [unmarkEntries, this, if_false, if_true]
  have hnoes : ∀ e ∈ es, e.1 ≠ .str metaKey := by
    rw [← hM.unmarked]
    have : ∀ xs : List (Val × Val), (∀ e ∈ xs, e.1 ≠ .str metaKey) →
        ∀ e ∈ unmarkEntries xs, e.1 ≠ .str metaKey := by
      intro xs
      induction xs with
      | nil => intro _ e he; exact absurd he List.not_mem_nil
      | cons x xs ih =>
        obtain ⟨k, w⟩ := x
        intro h e he
        have ih' := ih fun e he => h e (List.mem_cons_of_mem _ he)
        have hk := h _ List.mem_cons_self
        simp only [unmarkEntries] at he
        split at he
        · exact ih' e he
        · rcases List.mem_cons.1 he with rfl | he
          · exact hk
          · exact ih' e he
    exact this es' hM.noMeta
  refine ⟨es, dictSet coll (.str ['/']) (.str (E.className true (.cls (.user c)))), fun n hn => ⟨?_, ?_⟩, ?_, ?_, ?_⟩
  · refine (object_eq (kw := { kw with verbose := {} }) hds hk rfl hl
      (by rw [attributes_congr (kw' := { kw with verbose := {} }) (kw := kw) rfl rfl rfl rfl]; exact hps)).2 ⟨es, ?_, rfl⟩
    rw [hat]
    exact (hloop n hn).1
  · have hf : ((none : Option Ty).getD (.cls (Val.obj c as).cls)).serFn E.info = some .object := by
      simp [Ty.serFn, Cls.serFn, Val.cls, hk]
    rw [dump_via hds hf]
    have hvb : kw.verbose ≠ {} := by intro e; rw [e] at hci; cases hci
    simp only [callSer, objectSer, normalize_names hl, objectSerWith, hps, bind_ok, lift_val,
      Except.ok.injEq, exists_eq_left', hat, Bool.false_and, hci, hsc, Bool.false_eq_true, if_false]
    refine ⟨es', (hloop n hn).2, ?_⟩
    simp only [liftK_ok, pure_val, Except.ok.injEq, Val.dict.injEq]
    refine ⟨_, ?_, rfl⟩
    rw [withMeta_eq hci (by rw [dictSet_absent hM.noMeta, hfill, hun]), dictSet_last hnoes]
  · intro p c' ho
    rw [metaPath_eq, dictGet_set_str]
    by_cases hp : p = []
    · subst hp
      cases ho
      exact if_pos rfl
    · obtain ⟨ds, h1, h2⟩ := hM.marks p c' ho hp
      rw [if_neg (by simpa using (hM.paths p c' ho hp).symm)]
      have := hF.found p ds (DictAt.mono h1 fun e he => List.mem_append_left _ he)
      rw [h2] at this
      exact this
  · have := hF.nodup (by simp)
    rw [dictSet_keys_str]
    split
    · exact this
    · next hk =>
      rw [List.nodup_append]
      refine ⟨this, by simp, ?_⟩
      rintro x hx y hy rfl
      rw [List.mem_singleton] at hy
      exact hk (hy ▸ hx)
  · intro k hk
    have hk' : k ∈ coll.map (·.1) ∨ k = .str ['/'] := by
      rw [dictSet_keys_str] at hk
      split at hk
      · exact .inl hk
      · simpa using hk
    rcases hk' with hk' | rfl
    · rcases hF.onlyKeys k hk' with hk' | ⟨p, ds, h, rfl⟩
      · cases hk'
      · refine ⟨p, by rw [metaPath_eq]; rfl, .inr ⟨unmarkEntries ds, ?_⟩⟩
        have := DictAt.unmark (DictAt.no_meta h)
        rwa [hM.unmarked] at this
    · exact ⟨[], rfl, .inl rfl⟩

/-- C59 for what is in lists: in a verbose dump the elements of a list are dumped by
themselves, verbosely and without markers, so that every object among them has a
`-meta` section of its own. -/
theorem verbose_list_dump (E : Env) (kw : DumpKw) (l : List PyStr) (n : Nat) (xs ys : List Val)
    (hds : DefaultSers E kw.fork) (hst : kw.strict = false) (hsc : kw.storeCls = false) :
    (dump E (n + 2) (.list xs) none (innerKw kw l)).val = .ok (.list ys) ↔
      List.Forall₂ (fun x y => (dump E n x none { kw with stripAttr := .tuple l }).val = .ok y)
        xs ys := by
  have hf : ((none : Option Ty).getD (.cls (Val.list xs).cls)).serFn E.info = some .list := rfl
  have hkw : ({ innerKw kw l with storeCls := false } : DumpKw) = { kw with stripAttr := .tuple l } := by
    simp only [hsc]
  rw [dump_via (kw := innerKw kw l) hds hf]
  cases xs with
  | nil =>
    have : (callSer E (recOf E n) .list (.list []) none (innerKw kw l)).val = .ok (.list []) := rfl
    rw [this]
    simp [eq_comm]
  | cons x xs =>
    have he : callSer E (recOf E n) .list (.list (x :: xs)) none (innerKw kw l) =
        mapRes (fun x => dump E n x none { innerKw kw l with storeCls := false }) (x :: xs) >>=
          fun ys => pure (.list ys) := by
      simp only [callSer, listSer, hst]
      rfl
    rw [he, hkw]
    simp only [bind_ok, mapRes_ok, pure_val, Except.ok.injEq, Val.seq.injEq, true_and]
    constructor
    · rintro ⟨zs, h, rfl⟩; exact h
    · intro h; exact ⟨ys, h, rfl⟩

/-- `Person([Point(1, 2)], None)`: the point has its own `-meta`. -/
example : (dump (demoEnv demoInfo) 12 (.obj 5 [("name".toList, .list [.obj 0 [("x".toList, .int 1),
      ("y".toList, .int 2)]]), ("born".toList, .none)]) none { verbose := { classInfo := true } }).val =
    .ok (.dict [(.str "born".toList, .none),
      (.str "name".toList, .list [.dict [(.str "x".toList, .int 1), (.str "y".toList, .int 2),
        (.str metaKey, .dict [(.str "classes".toList, .dict [
          (.str "/".toList, .str "__main__.Point".toList)])])]]),
      (.str metaKey, .dict [(.str "classes".toList, .dict [
        (.str "/".toList, .str "__main__.Person".toList)])])]) := by rfl

/-! ### An example -/

/-- `dict(verbose=Verbosity.WITH_CLASS_INFO)` -/
def verboseKw : DumpKw := { verbose := { classInfo := true } }

/-- `Point(1, 2)` -/
def point : Val := .obj 0 [("x".toList, .int 1), ("y".toList, .int 2)]

/-- `Person(a, b)` -/
def person (a b : Val) : Val := .obj 5 [("name".toList, a), ("born".toList, b)]

theorem demo_int_leaf (x : Int) (hint : Option Ty) (h : hint = none ∨ hint = some (.cls .int)) :
    Leaf (demoEnv demoInfo) verboseKw [] 1 (.int x) hint := by
  refine ⟨by simp, .int x, trivial, fun n hn => ?_⟩
  obtain ⟨k, rfl⟩ : ∃ k, n = k + 1 := ⟨n - 1, by omega⟩
  rcases h with rfl | rfl
  · exact ⟨rfl, rfl⟩
  · exact ⟨rfl, rfl⟩

theorem demo_point_tree : Tree (demoEnv demoInfo) verboseKw [] 1 1 point := by
  refine ⟨0, _, rfl, rfl, rfl, (by intro m h; cases h), ?_⟩
  intro m hm
  have ha := hm.attr
  have : m = "x".toList ∨ m = "y".toList := by
    rcases ha with ha | ha
    · simpa using ha
    · exact absurd ha List.not_mem_nil
  rcases this with rfl | rfl
  · exact ⟨by decide, by decide, by decide, by decide, .int 1, rfl,
      .inl (demo_int_leaf 1 _ (.inr rfl))⟩
  · exact ⟨by decide, by decide, by decide, by decide, .int 2, rfl,
      .inl (demo_int_leaf 2 _ (.inr rfl))⟩

/-- `Person(Person(Point(1, 2), 7), Point(1, 2))` -/
theorem demo_tree :
    Tree (demoEnv demoInfo) verboseKw [] 1 3 (person (person point (.int 7)) point) := by
  have hp : ∀ (as : List (PyStr × Val)) m, as.map (·.1) = ["name".toList, "born".toList] →
      Selected (demoInfo 5) as verboseKw [] m → m = "name".toList ∨ m = "born".toList := by
    intro as m has hm
    rcases hm.attr with ha | ha
    · rw [has] at ha; simpa using ha
    · exact absurd ha List.not_mem_nil
  have h1 : Tree (demoEnv demoInfo) verboseKw [] 1 2 (person point (.int 7)) := by
    refine ⟨5, _, rfl, rfl, rfl, (by intro m h; cases h), ?_⟩
    intro m hm
    rcases hp _ m rfl hm with rfl | rfl
    · exact ⟨by decide, by decide, by decide, by decide, point, rfl,
        .inr ⟨.inl rfl, demo_point_tree⟩⟩
    · exact ⟨by decide, by decide, by decide, by decide, .int 7, rfl,
        .inl (demo_int_leaf 7 _ (.inl rfl))⟩
  have h2 : Tree (demoEnv demoInfo) verboseKw [] 1 2 point := by
    obtain ⟨c, as, h1, h2, h3, h4, h5⟩ := demo_point_tree
    refine ⟨c, as, h1, h2, h3, h4, fun m hm => ?_⟩
    obtain ⟨h6, h7, h8, h9, a, h10, h11⟩ := h5 m hm
    rcases h11 with h11 | ⟨_, h11⟩
    · exact ⟨h6, h7, h8, h9, a, h10, .inl h11⟩
    · exact h11.elim
  refine ⟨5, _, rfl, rfl, rfl, (by intro m h; cases h), ?_⟩
  intro m hm
  rcases hp _ m rfl hm with rfl | rfl
  · exact ⟨by decide, by decide, by decide, by decide, _, rfl, .inr ⟨.inl rfl, h1⟩⟩
  · exact ⟨by decide, by decide, by decide, by decide, point, rfl, .inr ⟨.inl rfl, h2⟩⟩

/-- The class of `obj.name.name` is found in the dump of
`Person(Person(Point(1, 2), 7), Point(1, 2))`. -/
example : ∃ es cs, (dump (demoEnv demoInfo) 12 (person (person point (.int 7)) point) none
      verboseKw).val = .ok (.dict (es ++ [(.str metaKey, metaSection (demoEnv demoInfo) verboseKw cs)])) ∧
    dictGet cs (.str "/name/name".toList) = some (.str "__main__.Point".toList) := by
  obtain ⟨es, cs, h, h3, _⟩ := verbose_dump_partial (demoEnv demoInfo) verboseKw [] 1 3 _ (demo_sers 0) rfl rfl
    rfl rfl rfl rfl demo_tree
  obtain ⟨_, h2⟩ := h 10 (by omega)
  have hs : ∀ (as : List (PyStr × Val)), as.map (·.1) = ["name".toList, "born".toList] →
      Selected (demoInfo 5) as verboseKw [] "name".toList := fun as has =>
    ⟨.inl (by rw [has]; simp), by decide, by decide, by decide, by decide, by decide, by decide,
      by decide, by decide, by decide, by decide⟩
  exact ⟨es, cs, h2, h3 ["name".toList, "name".toList] 0
    (.step (hs _ rfl) rfl (.step (hs _ rfl) rfl .here))⟩

/-- The whole dump. -/
example : (dump (demoEnv demoInfo) 12 (person (person point (.int 7)) point) none verboseKw).val =
    .ok (.dict [
      (.str "born".toList, .dict [(.str "x".toList, .int 1), (.str "y".toList, .int 2)]),
      (.str "name".toList, .dict [(.str "born".toList, .int 7),
        (.str "name".toList, .dict [(.str "x".toList, .int 1), (.str "y".toList, .int 2)])]),
      (.str metaKey, .dict [(.str "classes".toList, .dict [
        (.str "/born".toList, .str "__main__.Point".toList),
        (.str "/name/name".toList, .str "__main__.Point".toList),
        (.str "/name".toList, .str "__main__.Person".toList),
        (.str "/".toList, .str "__main__.Person".toList)])])]) := by rfl

/-! ### Where C59 is false -/

/-- C59 is false for objects in dicts: they are listed with the class `None`. -/
theorem objects_in_dicts_unnamed : ∃ es cs,
    (dump (demoEnv demoInfo) 12 (person (.dict [(.str "k".toList, point)]) .none) none verboseKw).val =
      .ok (.dict (es ++ [(.str metaKey, metaSection (demoEnv demoInfo) verboseKw cs)])) ∧
    dictGet cs (.str "/name/k".toList) = some .none :=
  ⟨[(.str "born".toList, .none), (.str "name".toList, .dict [(.str "k".toList,
      .dict [(.str "x".toList, .int 1), (.str "y".toList, .int 2)])])],
    [(.str "/name/k".toList, .none), (.str "/name".toList, .str "?".toList),
      (.str "/".toList, .str "__main__.Person".toList)], by rfl, by rfl⟩

/-- The same for the fields of a named tuple. -/
theorem objects_in_named_tuples_unnamed : ∃ es cs,
    (dump (demoEnv demoInfo) 12 (person (.ntuple 1 [point, .int 1]) .none) none verboseKw).val =
      .ok (.dict (es ++ [(.str metaKey, metaSection (demoEnv demoInfo) verboseKw cs)])) ∧
    dictGet cs (.str "/name/first".toList) = some .none :=
  ⟨[(.str "born".toList, .none), (.str "name".toList, .dict [(.str "first".toList,
      .dict [(.str "x".toList, .int 1), (.str "y".toList, .int 2)]), (.str "second".toList, .int 1)])],
    [(.str "/name/first".toList, .none), (.str "/name".toList, .str "?".toList),
      (.str "/".toList, .str "__main__.Person".toList)], by rfl, by rfl⟩

/-- A dict in a dict under a key that is not a text makes the verbose dump fail, while
the plain dump returns. -/
theorem verbose_dump_fails_key :
    (∃ e, (dump (demoEnv demoInfo) 12 (person (.dict [(.int 1, .dict [])]) .none) none
      verboseKw).val = .error e ∧ e.kind = .serializationError) ∧
    (dump (demoEnv demoInfo) 12 (person (.dict [(.int 1, .dict [])]) .none) none {}).val =
      .ok (.dict [(.str "born".toList, .none), (.str "name".toList, .dict [(.int 1, .dict [])])]) :=
  ⟨⟨_, by rfl, rfl⟩, by rfl⟩

end Verif.Props.DumpVerbose
