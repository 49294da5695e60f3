import Verif.Core.AttrLemmas
import Verif.Core.Demo

/-!
# Properties of dumping objects

C52, C55, C56, C57, C74.
-/

set_option autoImplicit false

namespace Verif.Props.DumpObject
open Verif Verif.Core

/-! ## Specification: which attributes are selected -/

/-- The names that `strip_attr` stands for, if it is a name or a tuple of names. -/
def stripNames : StripAttr → Option (List PyStr)
  | .none => some []
  | .name s => some (if s = [] then [] else [s])
  | .tuple l => some l
  | _ => none

/-- What a class that derives from `JsonSerializable` has: its methods and its state. -/
def mixinNames : List PyStr :=
  (["fork", "with_dump", "with_load", "json", "from_json", "dump", "load", "dumps", "loads", "dumpb",
    "loadb", "set_serializer", "set_deserializer"] ++
   ["_fork_counter", "_classes_serializers", "_classes_deserializers", "_serializers",
    "_deserializers", "_validators", "_classes_validators", "_announced_classes",
    "_suppress_warnings", "_suppressed_warnings", "_warn"]).map String.toList

/-- What `abc.ABCMeta` adds to a class. -/
def abcNames : List PyStr :=
  ["_abc_impl", "_abc_registry", "_abc_cache", "_abc_negative_cache",
   "_abc_negative_cache_version"].map String.toList

theorem mem_mixinNames (n : PyStr) : n ∈ excludedElems ↔ n ∈ mixinNames := by
  have h1 : ∀ n ∈ excludedElems, n ∈ mixinNames := by decide
  have h2 : ∀ n ∈ mixinNames, n ∈ excludedElems := by decide
  exact ⟨h1 n, h2 n⟩

theorem mem_abcNames (n : PyStr) : n ∈ abcAttrs ↔ n ∈ abcNames := by
  have h1 : ∀ n ∈ abcAttrs, n ∈ abcNames := by decide
  have h2 : ∀ n ∈ abcNames, n ∈ abcAttrs := by decide
  exact ⟨h1 n, h2 n⟩

/-- An attribute of the object or of its class that is not a dunder, not called `json`,
no method and no inner class, not a part of `JsonSerializable` or of the machinery of
`abc`, and not stripped by one of the options. -/
structure Selected (I : ClassInfo) (as : List (PyStr × Val)) (kw : DumpKw) (strip : List PyStr)
    (n : PyStr) : Prop where
  attr : n ∈ as.map (·.1) ∨ n ∈ I.members.map (·.1)
  noDunder : ¬ "__".toList <+: n
  privates : kw.stripPrivates = true → ¬ "_".toList <+: n
  properties : kw.stripProperties = true → assoc I.members n ≠ some .prop
  classVars : kw.stripClassVariables = true →
    assoc I.members n = none ∨ assoc I.members n = some .prop
  stripped : n ∉ strip
  abc : n ∉ abcNames
  json : n ≠ "json".toList
  noFunc : assoc I.members n ≠ some .func
  noInner : assoc I.members n ≠ some .inner
  noMixin : n ∉ mixinNames

/-- The type hint with which an attribute is dumped: that of the class, unless the name
is a slot or is found in the class itself. -/
def hintOf (I : ClassInfo) (strict : Bool) (n : PyStr) : Option Ty :=
  if I.slots.isSome ∨ n ∈ I.members.map (·.1) then none
  else if I.hasAnnotations then assoc I.hints n
  else if strict ∧ n ≠ "self".toList then assoc I.initHints n
  else none

theorem assoc_filter_self (l : List (PyStr × Ty)) (n : PyStr) :
    assoc (l.filter fun p => p.1 ≠ "self".toList) n =
      if n = "self".toList then none else assoc l n := by
  induction l with
  | nil => simp [assoc]
  | cons p l ih =>
    obtain ⟨x, t⟩ := p
    rw [List.filter_cons]
    by_cases hx : x = "self".toList
    · simp only [hx, ne_eq, not_true_eq_false, decide_false, Bool.false_eq_true, if_false, assoc]
      simp only [ne_eq] at ih
      rw [ih]
      by_cases hn : n = "self".toList
      · simp [hn]
      · have : "self".toList ≠ n := fun e => hn e.symm
        rw [if_neg hn, if_neg hn, if_neg this]
    · simp only [hx, ne_eq, not_false_eq_true, decide_true, if_true, assoc]
      by_cases hxn : x = n
      · subst hxn; rw [if_neg hx]; simp
      · rw [if_neg hxn, if_neg hxn]; exact ih

theorem hint_eq (I : ClassInfo) (strict : Bool) (n : PyStr) :
    (assoc (attributesAndTypes I strict) n).getD none = hintOf I strict n := by
  have hperm : n ∈ ((I.members.filter fun p => p.2 == .prop) ++
      (I.members.filter fun p => p.2 != .prop)).map (·.1) ↔ n ∈ I.members.map (·.1) := by
    simp only [List.mem_map, List.mem_append, List.mem_filter, bne]
    constructor
    · rintro ⟨a, h | h, e⟩ <;> exact ⟨a, h.1, e⟩
    · rintro ⟨a, h, e⟩
      refine ⟨a, ?_, e⟩
      cases hb : (a.2 == Member.prop)
      · exact .inr ⟨h, by simp⟩
      · exact .inl ⟨h, rfl⟩
  unfold attributesAndTypes hintOf
  simp only
  rw [foldl_assocSet_none]
  by_cases hm : n ∈ I.members.map (·.1)
  · rw [if_pos (hperm.2 hm), if_pos (Or.inr hm)]; rfl
  · rw [if_neg (fun h => hm (hperm.1 h))]
    cases hsl : I.slots with
    | some l =>
      simp only [Option.isSome_some, true_or, if_true]
      have : ∀ l : List PyStr, (assoc (l.map fun n => (n, (none : Option Ty))) n).getD none = none := by
        intro l
        induction l with
        | nil => rfl
        | cons x l ih => simp only [List.map_cons, assoc]; split <;> simp_all
      exact this l
    | none =>
      simp only [Option.isSome_none, Bool.false_eq_true, hm, or_self, if_false]
      have hj : ∀ o : Option Ty, (o.map some).getD none = o := by intro o; cases o <;> rfl
      cases I.hasAnnotations with
      | true => simp only [if_true]; rw [assoc_map, hj]
      | false =>
        simp only [Bool.false_eq_true, if_false]
        cases strict with
        | false => simp [assoc]
        | true =>
          simp only [if_true, true_and]
          rw [assoc_map, hj, assoc_filter_self]
          by_cases hn : n = "self".toList
          · simp [hn]
          · rw [if_neg hn, if_pos hn]

theorem keep_iff {I : ClassInfo} {kw : DumpKw} {as : List (PyStr × Val)} {l : List PyStr}
    {n : PyStr} (hns : assoc I.members n ≠ some .noSource)
    (ha : n ∈ as.map (·.1) ∨ n ∈ I.members.map (·.1)) :
    keepAttr I kw (l ++ abcAttrs) n = .ok true ↔ Selected I as kw l n := by
  have e1 : ∀ p : PyStr, (p.isPrefixOf n = true) ↔ p <+: n := fun p => List.isPrefixOf_iff_prefix
  unfold keepAttr
  simp only
  constructor
  · intro h
    split at h
    · cases h
    next h1 =>
    split at h
    · cases h
    next h2 =>
    split at h
    · cases h
    next h3 =>
    split at h
    · cases h
    next h4 =>
    split at h
    · cases h
    next h5 =>
    split at h
    · cases h
    next h6 =>
    split at h
    · cases h
    next h7 =>
    split at h
    · cases h
    next h8 =>
    rw [e1] at h1
    simp only [Bool.and_eq_true, not_and, e1, beq_iff_eq] at h2 h3
    simp only [List.contains_eq_mem, List.mem_append, decide_eq_true_eq, not_or, mem_mixinNames,
      mem_abcNames] at h5 h8
    refine ⟨ha, h1, h2, h3, ?_, h5.1, h5.2, h6, h7, ?_, h8⟩
    · intro hk
      rw [hk] at h4
      cases hm : assoc I.members n with
      | none => exact .inl rfl
      | some m =>
        right
        rw [hm] at h4
        simpa using h4
    · intro hi; rw [hi] at h; cases h
  · intro h
    rw [if_neg (by rw [e1]; exact h.noDunder),
      if_neg (by simp only [Bool.and_eq_true, not_and, e1]; exact h.privates),
      if_neg (by simp only [Bool.and_eq_true, not_and, beq_iff_eq]; exact h.properties),
      if_neg (by
        simp only [Bool.and_eq_true, not_and]
        intro hk
        rcases h.classVars hk with e | e <;> simp [e]),
      if_neg (by
        simp only [List.contains_eq_mem, List.mem_append, decide_eq_true_eq, not_or, mem_abcNames]
        exact ⟨h.stripped, h.abc⟩),
      if_neg h.json, if_neg h.noFunc,
      if_neg (by simp only [List.contains_eq_mem, decide_eq_true_eq, mem_mixinNames]; exact h.noMixin)]
    split
    · next hi => exact absurd hi h.noInner
    · next hi => exact absurd hi hns
    · rfl

/-- What is selected, with its hints, in the order of the names. -/
theorem selected_list {I : ClassInfo} {as : List (PyStr × Val)} {kw : DumpKw} {l : List PyStr}
    (hns : ∀ n, assoc I.members n ≠ some .noSource) :
    ∃ ps, attributesFromObject I as kw (.tuple l) = .ok ps ∧
      (ps.map (·.1)).Pairwise Before ∧
      ∀ p, p ∈ ps ↔ Selected I as kw l p.1 ∧ p.2 = hintOf I kw.strict p.1 := by
  unfold attributesFromObject
  simp only [filterAttributes]
  obtain ⟨ps, hps⟩ := go_total (kw := kw) (strip := l ++ abcAttrs) hns
    ((dirNames I as).map fun n => (n, (assoc (attributesAndTypes I kw.strict) n).getD none))
  obtain ⟨h1, h2⟩ := go_spec hps
  refine ⟨ps, hps, ?_, ?_⟩
  · have := (h1.map (·.1))
    rw [List.map_map] at this
    have hid : (dirNames I as).map ((fun x => x.1) ∘ fun n =>
      (n, (assoc (attributesAndTypes I kw.strict) n).getD none)) = dirNames I as := by
      simp [Function.comp_def]
    rw [hid] at this
    exact (dirNames_sorted I as).sublist this
  · intro p
    rw [h2]
    simp only [List.mem_map]
    constructor
    · rintro ⟨⟨n, hn, rfl⟩, hk⟩
      exact ⟨(keep_iff (hns _) (mem_dirNames.1 hn)).1 hk, hint_eq _ _ _⟩
    · rintro ⟨hs, hp⟩
      refine ⟨⟨p.1, mem_dirNames.2 hs.attr, ?_⟩, (keep_iff (hns _) hs.attr).2 hs⟩
      rw [hint_eq, ← hp]

theorem normalize_names {s : StripAttr} {l : List PyStr} (h : stripNames s = some l) :
    normalizeStripAttr s = .tuple l := by
  cases s with
  | none => simp [stripNames] at h; subst h; rfl
  | name s =>
    cases s with
    | nil => simp [stripNames] at h; subst h; rfl
    | cons c s => simp [stripNames] at h; subst h; rfl
  | tuple l' =>
    simp [stripNames] at h; subst h
    cases l' <;> rfl
  | _ => simp [stripNames] at h

theorem Before.nodup {l : List PyStr} (h : l.Pairwise Before) : l.Nodup :=
  h.imp fun hb => hb.2

/-- The options for the attributes of an object that is not dumped verbosely. -/
abbrev attrKw (kw : DumpKw) (l : List PyStr) : DumpKw :=
  { kw with stripAttr := .tuple l, storeCls := false, verbose := {} }

/-- The object serializer as a loop over the selected attributes. -/
theorem object_eq {E : Env} {n c : Nat} {as : List (PyStr × Val)} {kw : DumpKw} {l : List PyStr}
    {ps : List (PyStr × Option Ty)} {r : Val}
    (hds : DefaultSers E kw.fork) (hk : (E.info c).kind = .plain) (hv : kw.verbose = {})
    (hl : stripNames kw.stripAttr = some l)
    (hps : attributesFromObject (E.info c) as kw (.tuple l) = .ok ps) :
    (dump E (n + 2) (.obj c as) none kw).val = .ok r ↔
      ∃ es, (attrLoop E (recOf E n) (attrKw kw l) ((E.info c).isAttrs && !kw.stripPrivates)
        (.obj c as) (E.className false (.cls (.user c))) ps []).val = .ok es ∧ r = .dict es := by
  have hf : ((none : Option Ty).getD (.cls (Val.obj c as).cls)).serFn E.info = some .object := by
    simp [Ty.serFn, Cls.serFn, Val.cls, hk]
  rw [dump_via hds hf]
  simp only [callSer, objectSer, normalize_names hl, objectSerWith, hps, bind_ok, lift_val,
    Except.ok.injEq, exists_eq_left', hv]
  constructor
  · rintro ⟨es, h1, h2⟩
    refine ⟨es, h1, ?_⟩
    split at h2
    · simpa [eq_comm] using h2
    · simpa [bind_ok, dictWithMeta, liftK_ok, eq_comm] using h2
  · rintro ⟨es, h1, rfl⟩
    refine ⟨es, h1, ?_⟩
    split
    · rfl
    · simp [dictWithMeta]

/-- What happens in the loop is in the log of the dump. -/
theorem object_log {E : Env} {n c : Nat} {as : List (PyStr × Val)} {kw : DumpKw} {l : List PyStr}
    {ps : List (PyStr × Option Ty)} {ev : Event}
    (hds : DefaultSers E kw.fork) (hk : (E.info c).kind = .plain) (hv : kw.verbose = {})
    (hl : stripNames kw.stripAttr = some l)
    (hps : attributesFromObject (E.info c) as kw (.tuple l) = .ok ps)
    (he : ev ∈ (attrLoop E (recOf E n) (attrKw kw l) ((E.info c).isAttrs && !kw.stripPrivates)
        (.obj c as) (E.className false (.cls (.user c))) ps []).log) :
    ev ∈ (dump E (n + 2) (.obj c as) none kw).log := by
  have hf : ((none : Option Ty).getD (.cls (Val.obj c as).cls)).serFn E.info = some .object := by
    simp [Ty.serFn, Cls.serFn, Val.cls, hk]
  show ev ∈ (dumpWith E (recOf E (n + 1)) (.obj c as) none kw).log
  unfold dumpWith
  refine mem_bind_log (a := some .object) (by rw [liftK_ok, hds, hf]) ?_
  refine mem_bind_log (a := ()) rfl ?_
  refine mem_bind_log_left ?_
  rw [attempt_log]
  simp only [recOf_call, callSer, objectSer, normalize_names hl, objectSerWith, hps]
  refine mem_bind_log (a := ps) (by rw [lift_val]) ?_
  refine mem_bind_log_left ?_
  rw [hv]
  exact he

/-! ## C52: exactly the selected attributes -/

/-- C52: if every selected attribute can be dumped then the dump of an object has
exactly one entry per selected attribute: its name with the dump of its value. -/
theorem object_dump_selected (E : Env) (n c : Nat) (as : List (PyStr × Val)) (kw : DumpKw)
    (l : List PyStr) (hds : DefaultSers E kw.fork) (hk : (E.info c).kind = .plain)
    (hv : kw.verbose = {}) (hl : stripNames kw.stripAttr = some l)
    (hkt : kw.keyTransformer = none) (hsn : kw.stripNulls = false)
    (hat : (E.info c).isAttrs = false)
    (hns : ∀ m, assoc (E.info c).members m ≠ some .noSource)
    (hall : ∀ m, Selected (E.info c) as kw l m → ∃ a d, E.getAttr (.obj c as) m = .ok a ∧
      (dump E (n + 1) a (hintOf (E.info c) kw.strict m) (attrKw kw l)).val = .ok d) :
    ∃ es, (dump E (n + 2) (.obj c as) none kw).val = .ok (.dict es) ∧
      (es.map (·.1)).Nodup ∧
      ∀ k d, (k, d) ∈ es ↔ ∃ m a, k = .str m ∧ Selected (E.info c) as kw l m ∧
        E.getAttr (.obj c as) m = .ok a ∧
        (dump E (n + 1) a (hintOf (E.info c) kw.strict m) (attrKw kw l)).val = .ok d := by
  obtain ⟨ps, hps, hsorted, hmem⟩ := selected_list (as := as) (kw := kw) (l := l) hns
  have hex : ∀ p : PyStr × Option Ty, ∃ d, p ∈ ps → AttrDump E n (.obj c as) (attrKw kw l) p d := by
    intro p
    by_cases hp : p ∈ ps
    · obtain ⟨h1, h2⟩ := (hmem p).1 hp
      obtain ⟨a, d, h3, h4⟩ := hall _ h1
      exact ⟨d, fun _ => ⟨a, h3, by rw [h2]; exact h4⟩⟩
    · exact ⟨.none, fun h => absurd h hp⟩
  obtain ⟨g, hg⟩ := Classical.axiomOfChoice hex
  have hloop := attrLoop_all (E := E) (n := n) (v := .obj c as)
    (cn := E.className false (.cls (.user c))) (kw := attrKw kw l) hds rfl hkt hsn g [] ps []
    (fun p hp => hg p hp) (Before.nodup hsorted) (by simp)
  replace hloop := hloop.1
  simp only [List.append_nil, List.nil_append, attrLoop, pure_val] at hloop
  refine ⟨_, (object_eq hds hk hv hl hps).2 ⟨_, by rw [hat]; exact hloop, rfl⟩, ?_, ?_⟩
  · rw [List.map_map]
    have : (ps.map ((fun x => x.1) ∘ fun p => ((Val.str p.1, g p) : Val × Val))) =
        (ps.map (·.1)).map Val.str := by simp [Function.comp_def]
    rw [this]
    exact (Before.nodup hsorted).map fun a b h => by simpa using h
  · intro k d
    rw [List.mem_map]
    constructor
    · rintro ⟨p, hp, he⟩
      cases he
      obtain ⟨h1, h2⟩ := (hmem p).1 hp
      obtain ⟨a, h3, h4⟩ := hg p hp
      exact ⟨p.1, a, rfl, h1, h3, by rw [← h2]; exact h4⟩
    · rintro ⟨m, a, rfl, h1, h2, h3⟩
      refine ⟨(m, hintOf (E.info c) kw.strict m), (hmem _).2 ⟨h1, rfl⟩, ?_⟩
      obtain ⟨a', h4, h5⟩ := hg _ ((hmem (m, hintOf (E.info c) kw.strict m)).2 ⟨h1, rfl⟩)
      simp only at h4 h5
      rw [h2] at h4
      cases h4
      rw [h3] at h5
      cases h5
      rfl

/-! ## C55: a failing attribute -/

/-- C55 is false: the attributes after a failing one are lost, too.
`dump(Point('a', 2))` is `{}`. -/
theorem failing_attribute_drops_others :
    (dump (demoEnv demoInfo) 9 (.obj 0 [("x".toList, .str ['a']), ("y".toList, .int 2)])
      none {}).val = .ok (.dict []) ∧
    (dump (demoEnv demoInfo) 9 (.obj 0 [("x".toList, .int 1), ("y".toList, .int 2)])
      none {}).val = .ok (.dict [(.str "x".toList, .int 1), (.str "y".toList, .int 2)]) :=
  ⟨by rfl, by rfl⟩

/-- The serializer of an attribute raises an exception that has arguments. -/
def AttrFails (E : Env) (n : Nat) (a : Val) (hint : Option Ty) (kw : DumpKw) : Prop :=
  ∃ f e, (hint.getD (.cls a.cls)).serFn E.info = some f ∧
    ((recOf E n).call f a hint kw).val = .error e ∧ e.hasArgs = true

theorem attrLoop_fail {E : Env} {n : Nat} {kw : DumpKw} {v a : Val} {cn : PyStr} {b : Bool}
    {p : PyStr × Option Ty} {tl : List (PyStr × Option Ty)} {acc : List (Val × Val)}
    (hds : DefaultSers E kw.fork) (hs : kw.strict = false) (ha : E.getAttr v p.1 = .ok a)
    (hf : AttrFails E n a p.2 kw) :
    (attrLoop E (recOf E n) kw b v cn (p :: tl) acc).val = .ok acc ∧
    (E.warns kw.fork "attribute-not-serialized".toList = true →
      .warn "attribute-not-serialized".toList cn ∈
        (attrLoop E (recOf E n) kw b v cn (p :: tl) acc).log) := by
  obtain ⟨name, hint⟩ := p
  obtain ⟨f, e, h1, h2, h3⟩ := hf
  have hd : (dumpAttr E (recOf E n) kw (some f) a hint).val = .error e := by
    simp [dumpAttr, bind_val, h2]
  simp only at h1 ha
  constructor
  · simp only [attrLoop, bind_val, lift_val, ha, emit_val, hds _, h1, liftK_of_ok, pure_val,
      attempt_val, hd, h3, hs, Bool.not_true, Bool.false_eq_true, if_false, warn_val]
  · intro hw
    simp only [attrLoop]
    refine mem_bind_log (a := a) (by rw [lift_val]; exact ha) ?_
    refine mem_bind_log (a := ()) rfl ?_
    refine mem_bind_log (a := some f) (by rw [liftK_ok, hds, h1]) ?_
    refine mem_bind_log (a := .error e) (by rw [attempt_val, hd]) ?_
    dsimp only
    rw [h3, hs, if_neg (by decide), if_neg (by decide)]
    refine mem_bind_log_left ?_
    unfold Env.warn
    rw [if_pos hw]
    exact List.mem_singleton.2 rfl

/-- C55, `_partial`: if an attribute cannot be dumped then the result has exactly the
selected attributes whose names come before it in alphabetical order, and a warning is
emitted (unless it is suppressed).  Missing: those that come after it. -/
theorem failing_attribute_partial (E : Env) (n c : Nat) (as : List (PyStr × Val)) (kw : DumpKw)
    (l : List PyStr) (hds : DefaultSers E kw.fork) (hk : (E.info c).kind = .plain)
    (hv : kw.verbose = {}) (hl : stripNames kw.stripAttr = some l)
    (hkt : kw.keyTransformer = none) (hsn : kw.stripNulls = false) (hs : kw.strict = false)
    (hat : (E.info c).isAttrs = false)
    (hns : ∀ m, assoc (E.info c).members m ≠ some .noSource)
    (bad : PyStr) (a0 : Val) (hbad : Selected (E.info c) as kw l bad)
    (hget : E.getAttr (.obj c as) bad = .ok a0)
    (hfail : AttrFails E n a0 (hintOf (E.info c) kw.strict bad) (attrKw kw l))
    (hall : ∀ m, Selected (E.info c) as kw l m → Before m bad →
      ∃ a d, E.getAttr (.obj c as) m = .ok a ∧
      (dump E (n + 1) a (hintOf (E.info c) kw.strict m) (attrKw kw l)).val = .ok d) :
    ∃ es, (dump E (n + 2) (.obj c as) none kw).val = .ok (.dict es) ∧
      (E.warns kw.fork "attribute-not-serialized".toList = true →
        ∃ msg, .warn "attribute-not-serialized".toList msg ∈
          (dump E (n + 2) (.obj c as) none kw).log) ∧
      ∀ k d, (k, d) ∈ es ↔ ∃ m a, k = .str m ∧ Selected (E.info c) as kw l m ∧ Before m bad ∧
        E.getAttr (.obj c as) m = .ok a ∧
        (dump E (n + 1) a (hintOf (E.info c) kw.strict m) (attrKw kw l)).val = .ok d := by
  obtain ⟨ps, hps, hsorted, hmem⟩ := selected_list (as := as) (kw := kw) (l := l) hns
  obtain ⟨pre, tl, hsplit⟩ := List.append_of_mem ((hmem (bad, hintOf (E.info c) kw.strict bad)).2 ⟨hbad, rfl⟩)
  have hpre : ∀ p, p ∈ pre ↔ p ∈ ps ∧ Before p.1 bad := by
    intro p
    rw [hsplit, List.map_append, List.map_cons, List.pairwise_append] at hsorted
    obtain ⟨_, hs2, hs3⟩ := hsorted
    constructor
    · intro hp
      exact ⟨by rw [hsplit]; exact List.mem_append_left _ hp,
        hs3 _ (List.mem_map_of_mem (f := (·.1)) hp) _ List.mem_cons_self⟩
    · rintro ⟨hp, hb⟩
      rw [hsplit] at hp
      rcases List.mem_append.1 hp with hp | hp
      · exact hp
      · rcases List.mem_cons.1 hp with rfl | hp
        · exact absurd rfl hb.2
        · have := (List.pairwise_cons.1 hs2).1 _ (List.mem_map_of_mem (f := (·.1)) hp)
          exact absurd (strLe_antisymm hb.1 this.1) hb.2
  have hex : ∀ p : PyStr × Option Ty, ∃ d, p ∈ pre → AttrDump E n (.obj c as) (attrKw kw l) p d := by
    intro p
    by_cases hp : p ∈ pre
    · obtain ⟨h0, hb⟩ := (hpre p).1 hp
      obtain ⟨h1, h2⟩ := (hmem p).1 h0
      obtain ⟨a, d, h3, h4⟩ := hall _ h1 hb
      exact ⟨d, fun _ => ⟨a, h3, by rw [h2]; exact h4⟩⟩
    · exact ⟨.none, fun h => absurd h hp⟩
  obtain ⟨g, hg⟩ := Classical.axiomOfChoice hex
  have hnd : (pre.map (·.1)).Nodup := by
    rw [hsplit, List.map_append] at hsorted
    exact (List.nodup_append.1 (Before.nodup hsorted)).1
  have hloop := attrLoop_all (E := E) (n := n) (v := .obj c as)
    (cn := E.className false (.cls (.user c))) (kw := attrKw kw l) hds rfl hkt hsn g
    ((bad, hintOf (E.info c) kw.strict bad) :: tl) pre []
    (fun p hp => hg p hp) hnd (by simp)
  obtain ⟨hloop, hlog⟩ := hloop
  have hff : ∀ acc, _ := fun acc => attrLoop_fail (kw := attrKw kw l) (b := false) (tl := tl)
    (acc := acc) (cn := E.className false (.cls (.user c)))
    (p := (bad, hintOf (E.info c) kw.strict bad)) hds hs hget hfail
  rw [(hff _).1, List.nil_append, ← hsplit] at hloop
  refine ⟨_, (object_eq hds hk hv hl hps).2 ⟨_, by rw [hat]; exact hloop, rfl⟩, ?_, ?_⟩
  · intro hw
    have hin := hlog _ ((hff _).2 hw)
    rw [← hsplit] at hin
    exact ⟨_, object_log hds hk hv hl hps (by rw [hat]; exact hin)⟩
  intro k d
  rw [List.mem_map]
  constructor
  · rintro ⟨p, hp, he⟩
    cases he
    obtain ⟨h0, hb⟩ := (hpre p).1 hp
    obtain ⟨h1, h2⟩ := (hmem p).1 h0
    obtain ⟨a, h3, h4⟩ := hg p hp
    exact ⟨p.1, a, rfl, h1, hb, h3, by rw [← h2]; exact h4⟩
  · rintro ⟨m, a, rfl, h1, hb, h2, h3⟩
    have hp : (m, hintOf (E.info c) kw.strict m) ∈ pre := (hpre _).2 ⟨(hmem _).2 ⟨h1, rfl⟩, hb⟩
    refine ⟨_, hp, ?_⟩
    obtain ⟨a', h4, h5⟩ := hg _ hp
    simp only at h4 h5
    rw [h2] at h4
    cases h4
    rw [h3] at h5
    cases h5
    rfl

/-! ## C56: strict mode reports it -/

/-- C56: in strict mode an attribute that is selected and cannot be dumped makes the
dump fail with a `SerializationError`. -/
theorem strict_reports_failing (E : Env) (n c : Nat) (as : List (PyStr × Val)) (kw : DumpKw)
    (l : List PyStr) (hds : DefaultSers E kw.fork) (hk : (E.info c).kind = .plain)
    (hv : kw.verbose = {}) (hl : stripNames kw.stripAttr = some l) (hs : kw.strict = true)
    (hns : ∀ m, assoc (E.info c).members m ≠ some .noSource)
    (bad : PyStr) (hbad : Selected (E.info c) as kw l bad)
    (hfail : ∀ a d, E.getAttr (.obj c as) bad = .ok a →
      (dump E (n + 1) a (hintOf (E.info c) kw.strict bad) (attrKw kw l)).val ≠ .ok d) :
    ∃ e, (dump E (n + 2) (.obj c as) none kw).val = .error e ∧ e.kind = .serializationError := by
  obtain ⟨ps, hps, hsorted, hmem⟩ := selected_list (as := as) (kw := kw) (l := l) hns
  rcases except_cases (dump E (n + 2) (.obj c as) none kw).val with ⟨r, h⟩ | ⟨e, h⟩
  · exfalso
    obtain ⟨es, h1, _⟩ := (object_eq hds hk hv hl hps).1 h
    obtain ⟨d, a, h3, h4⟩ := attrLoop_strict (kw := attrKw kw l) hds hs _ _ _ h1 _
      ((hmem (bad, hintOf (E.info c) kw.strict bad)).2 ⟨hbad, rfl⟩)
    exact hfail a d h3 h4
  · exact ⟨e, h, dump_err_kind hds h⟩

/-! ## C57: strict mode with a class -/

/-- The class knows the name: a slot, an annotation, a hint of the constructor, or
something that is found in the class. -/
def Known (I : ClassInfo) (n : PyStr) : Prop :=
  (∃ sl, I.slots = some sl ∧ n ∈ sl) ∨ n ∈ I.hints.map (·.1) ∨ n ∈ I.initHints.map (·.1) ∨
    n ∈ I.members.map (·.1)

theorem assocSet_names {β γ : Type} (ms : List (PyStr × β)) (x : γ) (l : List (PyStr × γ))
    (p : PyStr × γ) (h : p ∈ ms.foldl (fun as q => assocSet as q.1 x) l) :
    p.1 ∈ l.map (·.1) ∨ p.1 ∈ ms.map (·.1) := by
  have hset : ∀ (l : List (PyStr × γ)) (n : PyStr), p.1 ∈ (assocSet l n x).map (·.1) →
      p.1 ∈ l.map (·.1) ∨ p.1 = n := by
    intro l n
    induction l with
    | nil => simp [assocSet]
    | cons q l ih =>
      obtain ⟨y, b⟩ := q
      simp only [assocSet]
      split
      · intro h; left; simpa using h
      · intro h
        simp only [List.map_cons, List.mem_cons] at h ⊢
        rcases h with h | h
        · exact .inl (.inl h)
        · rcases ih h with h | h
          · exact .inl (.inr h)
          · exact .inr h
  have h' : p.1 ∈ (ms.foldl (fun as q => assocSet as q.1 x) l).map (·.1) :=
    List.mem_map_of_mem (f := (·.1)) h
  clear h
  induction ms generalizing l with
  | nil => exact .inl h'
  | cons q ms ih =>
    rw [List.foldl_cons] at h'
    rcases ih _ h' with h | h
    · rcases hset _ _ h with h | h
      · exact .inl h
      · exact .inr (by rw [h]; simp)
    · exact .inr (List.mem_cons_of_mem _ h)

theorem known_of_mem {I : ClassInfo} {strict : Bool} {p : PyStr × Option Ty}
    (h : p ∈ attributesAndTypes I strict) : Known I p.1 := by
  unfold attributesAndTypes at h
  simp only at h
  rcases assocSet_names _ _ _ _ h with h | h
  · cases hsl : I.slots with
    | some sl =>
      rw [hsl] at h
      refine .inl ⟨sl, hsl, ?_⟩
      simpa using h
    | none =>
      rw [hsl] at h
      simp only at h
      split at h
      · right; left; simpa using h
      · split at h
        · right; right; left
          simp only [List.map_map, List.mem_map, List.mem_filter] at h
          obtain ⟨q, hq, e⟩ := h
          exact List.mem_map.2 ⟨q, hq.1, e⟩
        · simp at h
  · right; right; right
    simp only [List.map_append, List.mem_append, List.mem_map, List.mem_filter] at h
    rcases h with ⟨q, hq, e⟩ | ⟨q, hq, e⟩ <;> exact List.mem_map.2 ⟨q, hq.1, e⟩

/-- C57: `dump(obj, cls=C, strict=True)` has only keys that `C` knows; for classes of
the library `attrs` without their leading underscores. -/
theorem strict_cls_keys (E : Env) (n c : Nat) (v : Val) (kw : DumpKw) (es : List (Val × Val))
    (hds : DefaultSers E kw.fork) (hk : (E.info c).kind = .plain) (hv : kw.verbose = {})
    (hkt : kw.keyTransformer = none) (hs : kw.strict = true)
    (h : (dump E (n + 2) v (some (.cls (.user c))) kw).val = .ok (.dict es)) :
    ∀ e ∈ es, ∃ m, Known (E.info c) m ∧
      (e.1 = .str m ∨ (E.info c).isAttrs = true ∧ e.1 = .str (lstrip_ m)) := by
  have hf : ((some (Ty.cls (.user c))).getD (.cls v.cls)).serFn E.info = some .object := by
    simp [Ty.serFn, Cls.serFn, hk]
  rw [dump_via hds hf] at h
  simp only [callSer, objectSer, hs, if_true, objectSerWith, bind_ok, lift_val, hv] at h
  obtain ⟨ps, hps, r, hr, h2⟩ := h
  have hre : r = es := by
    split at h2
    · simpa using h2
    · simpa [bind_ok, dictWithMeta, liftK_ok] using h2
  subst hre
  have hps' : ∀ p ∈ ps, Known (E.info c) p.1 := by
    intro p hp
    unfold attributesFromClass at hps
    split at hps
    · next l hl =>
      rw [hl] at hps
      simp only [filterAttributes] at hps
      exact known_of_mem (((go_spec hps).2 p).1 hp).1
    · cases hps
  intro e he
  rcases attrLoop_keys (kw := { kw with strict := true, stripAttr := normalizeStripAttr kw.stripAttr, storeCls := false, verbose := {} }) hkt _ _ _ hr e he with h3 | ⟨p, hp, h3⟩
  · simp at h3
  · refine ⟨p.1, hps' p hp, ?_⟩
    cases hb : ((E.info c).isAttrs && !kw.stripPrivates) with
    | false => rw [hb] at h3; exact .inl h3
    | true =>
      rw [hb] at h3
      simp only [Bool.and_eq_true] at hb
      exact .inr ⟨hb.1, h3⟩

/-! ## C74: collections as `strip_attr` -/

/-- C74 is false: with a non-empty list as `strip_attr` no object can be dumped. -/
theorem strip_attr_list_fails (E : Env) (n c : Nat) (as : List (PyStr × Val)) (kw : DumpKw)
    (hds : DefaultSers E kw.fork) (hk : (E.info c).kind = .plain)
    (x : PyStr) (l : List PyStr) (hl : kw.stripAttr = .list (x :: l)) :
    ∃ e, (dump E (n + 1) (.obj c as) none kw).val = .error e ∧ e.kind = .serializationError := by
  rcases except_cases (dump E (n + 1) (.obj c as) none kw).val with ⟨r, h⟩ | ⟨e, h⟩
  · exfalso
    have hf : ((none : Option Ty).getD (.cls (Val.obj c as).cls)).serFn E.info = some .object := by
      simp [Ty.serFn, Cls.serFn, Val.cls, hk]
    cases n with
    | zero =>
      rw [dump_ok_iff hds] at h
      obtain ⟨f, _, h⟩ := h
      simp [recOf] at h
    | succ n =>
      rw [dump_via hds hf] at h
      simp [callSer, objectSer, hl, normalizeStripAttr, objectSerWith, attributesFromObject,
        filterAttributes, bind_ok] at h
  · exact ⟨e, h, dump_err_kind hds h⟩

/-- C74 is false: a set as `strip_attr` strips nothing. -/
theorem strip_attr_set_ignored :
    (dump (demoEnv demoInfo) 9 (.obj 0 [("x".toList, .int 1), ("y".toList, .int 2)]) none
      { stripAttr := .set ["x".toList] }).val =
      .ok (.dict [(.str "x".toList, .int 1), (.str "y".toList, .int 2)]) := by rfl

/-- C74, `_partial`: if `strip_attr` is a name or a tuple of names then none of them is
a key of the result, in both modes, whatever happens to the attributes.  Missing: lists
and sets (see above). -/
theorem strip_attr_partial (E : Env) (n c : Nat) (as : List (PyStr × Val)) (kw : DumpKw)
    (l : List PyStr) (hds : DefaultSers E kw.fork) (hk : (E.info c).kind = .plain)
    (hv : kw.verbose = {}) (hl : stripNames kw.stripAttr = some l)
    (hkt : kw.keyTransformer = none) (hat : (E.info c).isAttrs = false)
    (hns : ∀ m, assoc (E.info c).members m ≠ some .noSource) (es : List (Val × Val))
    (h : (dump E (n + 2) (.obj c as) none kw).val = .ok (.dict es)) :
    ∀ m ∈ l, ∀ e ∈ es, e.1 ≠ .str m := by
  obtain ⟨ps, hps, hsorted, hmem⟩ := selected_list (as := as) (kw := kw) (l := l) hns
  obtain ⟨es', h1, h2⟩ := (object_eq hds hk hv hl hps).1 h
  cases h2
  intro m hm e he hem
  rcases attrLoop_keys (kw := attrKw kw l) hkt _ _ _ h1 e he with h3 | ⟨p, hp, h3⟩
  · simp at h3
  · rw [hat, hem] at h3
    simp at h3
    have := ((hmem p).1 hp).1.stripped
    rw [← h3] at this
    exact this hm

/-! ## Examples -/

section Examples

/-- `Point(1, 2)` -/
abbrev pt : List (PyStr × Val) := [("x".toList, .int 1), ("y".toList, .int 2)]

theorem pt_nosource (m : PyStr) : assoc (demoInfo 0).members m ≠ some .noSource := by
  simp [demoInfo, assoc]

theorem pt_selected (m : PyStr) (h : m = "x".toList ∨ m = "y".toList) (kw : DumpKw)
    (as : List (PyStr × Val)) (ha : m ∈ as.map (·.1)) : Selected (demoInfo 0) as kw [] m := by
  rcases h with rfl | rfl
  all_goals exact ⟨.inl ha, by decide, fun _ => by decide, fun _ => by decide,
    fun _ => .inl (by decide), by decide, by decide, by decide, by decide, by decide, by decide⟩

/-- C52 for `Point(1, 2)`. -/
example : ∃ es, (dump (demoEnv demoInfo) 6 (.obj 0 pt) none {}).val = .ok (.dict es) ∧
    (.str "x".toList, .int 1) ∈ es := by
  obtain ⟨es, h1, _, h3⟩ := object_dump_selected (demoEnv demoInfo) 4 0 pt {} [] (demo_sers 0)
    rfl rfl rfl rfl rfl rfl pt_nosource (by
      intro m hm
      have := hm.attr
      simp [demoEnv, demoInfo] at this
      rcases this with rfl | rfl
      · exact ⟨.int 1, .int 1, rfl, by rfl⟩
      · exact ⟨.int 2, .int 2, rfl, by rfl⟩)
  exact ⟨es, h1, (h3 _ _).2 ⟨"x".toList, .int 1, rfl, pt_selected _ (.inl rfl) _ _ (by simp), rfl,
    by rfl⟩⟩

/-- C55 for `Point(1, 'a')`: `y` fails, `x` is kept. -/
example : ∃ es, (dump (demoEnv demoInfo) 6 (.obj 0 [("x".toList, .int 1), ("y".toList, .str ['a'])])
      none {}).val = .ok (.dict es) ∧ (.str "x".toList, .int 1) ∈ es := by
  obtain ⟨es, h1, _, h3⟩ := failing_attribute_partial (demoEnv demoInfo) 4 0
    [("x".toList, .int 1), ("y".toList, .str ['a'])] {} [] (demo_sers 0)
    rfl rfl rfl rfl rfl rfl rfl pt_nosource "y".toList (.str ['a'])
    (pt_selected _ (.inr rfl) _ _ (by simp)) rfl ⟨.primitive, _, rfl, rfl, rfl⟩ (by
      intro m hm hb
      have := hm.attr
      simp [demoEnv, demoInfo] at this
      rcases this with rfl | rfl
      · exact ⟨.int 1, .int 1, rfl, by rfl⟩
      · exact absurd rfl hb.2)
  exact ⟨es, h1, (h3 _ _).2 ⟨"x".toList, .int 1, rfl, pt_selected _ (.inl rfl) _ _ (by simp),
    ⟨by decide, by decide⟩, rfl, by rfl⟩⟩

/-- C56 for `Point(1, 'a')`. -/
example : ∃ e, (dump (demoEnv demoInfo) 6 (.obj 0 [("x".toList, .int 1), ("y".toList, .str ['a'])])
      none { strict := true }).val = .error e ∧ e.kind = .serializationError :=
  strict_reports_failing (demoEnv demoInfo) 4 0
    [("x".toList, .int 1), ("y".toList, .str ['a'])] { strict := true } [] (demo_sers 0)
    rfl rfl rfl rfl pt_nosource "y".toList (pt_selected _ (.inr rfl) _ _ (by simp)) (by
      intro a d ha
      cases ha
      intro h
      cases h)

/-- C57: an attribute that `Point` does not know is left out. -/
example : (dump (demoEnv demoInfo) 6 (.obj 0 (("z".toList, .int 3) :: pt)) (some (.cls (.user 0)))
    { strict := true }).val = .ok (.dict [(.str "x".toList, .int 1), (.str "y".toList, .int 2)]) := by
  rfl

/-- C74: `strip_attr=('x',)` -/
example : (dump (demoEnv demoInfo) 6 (.obj 0 pt) none { stripAttr := .tuple ["x".toList] }).val =
    .ok (.dict [(.str "y".toList, .int 2)]) := by rfl

end Examples

end Verif.Props.DumpObject
