import Verif.Props.DumpStyle

/-!
# `verbose` only adds `-meta` sections to a dump

C111: with `verbose`, `dump` does the same as without it, and adds `-meta` sections to
what it returns.
-/

set_option autoImplicit false

namespace Verif.Props.VerboseAdds
open Verif Verif.Core Verif.Registry
open Verif.Props.DumpStyle (after shownName declared validKey_of_leaf filter_sublist
  foldl_assocSet_mem)

/-! ## The specification -/

mutual
/-- The result without the entries `'-meta'` of dicts, at every depth. -/
def unmeta : Val → Val
  | .seq .list xs => .seq .list (unmetaList xs)
  | .dict es => .dict (unmetaEntries es)
  | v => v
/-- The elements of a list. -/
def unmetaList : List Val → List Val
  | [] => []
  | x :: xs => unmeta x :: unmetaList xs
/-- The entries of a dict. -/
def unmetaEntries : List (Val × Val) → List (Val × Val)
  | [] => []
  | (k, v) :: es =>
    if k = .str "-meta".toList then unmetaEntries es else (k, unmeta v) :: unmetaEntries es
end

/-- A key that jsons does not use itself in verbose dumps. -/
def NotReserved (k : Val) : Prop := k ≠ .str "-meta".toList ∧ k ≠ .str "-cls".toList

/-- The key transformer, if there is one, makes no reserved key of this one. -/
def KeyFree (kt : Option (PyStr → Except Err PyStr)) : Val → Prop
  | .atom (.str s) => match kt with
    | none => NotReserved (.str s)
    | some g => ∀ s', g s = .ok s' → NotReserved (.str s')
  | _ => True

/-- Values of which the dump is not a dict: those that JSON has, and lists, tuples,
sets. -/
def Flat : Val → Prop
  | .seq _ _ => True
  | .atom .none | .atom (.bool _) | .atom (.int _) | .atom (.float _) | .atom (.str _) => True
  | _ => False

/-- What has to be known about what can be reached from the value. -/
structure Markable (E : Env) (v : Val) (kw : DumpKw) : Prop where
  /-- classes are of the kind that their instances have -/
  kind : ∀ w, Reachable E v w → RightKind E w
  /-- values that are taken over as they are are neither lists nor dicts -/
  raw : Props.DumpShape.RawOk E v kw.useEnumName fun w =>
    (∀ xs, w ≠ .list xs) ∧ ∀ es, w ≠ .dict es
  /-- the keys of dicts are JSON keys and not reserved; under a key that is not a text
  there is nothing that is dumped as a dict -/
  key : ∀ es g, (Reachable E v (.dict es) ∨ Reachable E v (.ddict g es)) →
    ∀ e ∈ es, JsonLeaf E.info e.1 ∧ KeyFree kw.keyTransformer e.1 ∧
      ((∃ s, e.1 = .str s) ∨ Flat e.2)
  /-- no field of a named tuple is reserved -/
  ntuple : ∀ c xs, Reachable E v (.ntuple c xs) → ∀ s ∈ (E.info c).fields, NotReserved (.str s)
  /-- no attribute of an object is reserved -/
  attrs : ∀ c as, Reachable E v (.obj c as) → ∀ a ∈ as.map (·.1) ++ (E.info c).members.map (·.1),
    KeyFree kw.keyTransformer (.str (shownName (E.info c) kw a))
  /-- in strict mode: nor is one that a class declares -/
  classes : kw.strict = true → ∀ c, ∀ a ∈ declared (E.info c),
    KeyFree kw.keyTransformer (.str (shownName (E.info c) kw a))
  /-- the attributes of values that are not objects do not depend on `verbose`, and are
  not reserved -/
  foreign : ∀ w t (k : DumpKw), E.foreignAttrs w t k =
      E.foreignAttrs w t { k with verbose := {}, storeCls := false } ∧
    ∀ as, E.foreignAttrs w t k = .ok as → ∀ p ∈ as, KeyFree kw.keyTransformer (.str p.1)

/-! ## Verbose results, also unfinished ones with `-cls` marks -/

mutual
/-- The result without the entries `'-meta'` and `'-cls'`. -/
def bare : Val → Val
  | .seq .list xs => .seq .list (bareList xs)
  | .dict es => .dict (bareEntries es)
  | v => v
/-- The elements of a list. -/
def bareList : List Val → List Val
  | [] => []
  | x :: xs => bare x :: bareList xs
/-- The entries of a dict. -/
def bareEntries : List (Val × Val) → List (Val × Val)
  | [] => []
  | (k, v) :: es =>
    if k = .str metaKey ∨ k = .str clsKey then bareEntries es
    else (k, bare v) :: bareEntries es
end

/-- `d` is not a dict. -/
def NotDict (d : Val) : Prop := ∀ es, d ≠ .dict es

mutual
/-- `Ok false`: there are no `-cls` marks.  `Ok true`: there may be, outside lists, and
all dicts can be given a name. -/
def Ok : Bool → Val → Prop
  | _, .seq .list xs => OkList xs
  | s, .dict es => OkEntries s es
  | _, _ => True
/-- The elements of a list. -/
def OkList : List Val → Prop
  | [] => True
  | x :: xs => Ok false x ∧ OkList xs
/-- The entries of a dict. -/
def OkEntries : Bool → List (Val × Val) → Prop
  | _, [] => True
  | true, (k, v) :: es => (k = .str metaKey ∨ k = .str clsKey ∨
      (((∃ a, k = .str a) ∨ NotDict v) ∧ Ok true v)) ∧ OkEntries true es
  | false, (k, v) :: es => (k = .str metaKey ∨ (k ≠ .str clsKey ∧ Ok false v)) ∧
      OkEntries false es
end

theorem bareList_eq (xs : List Val) : bareList xs = xs.map bare := by
  induction xs with
  | nil => rfl
  | cons x xs ih => simp [bareList, ih]

theorem okList_iff {xs : List Val} : OkList xs ↔ ∀ x ∈ xs, Ok false x := by
  induction xs with
  | nil => simp [OkList]
  | cons x xs ih => simp [OkList, ih]

theorem bare_none (d : Val) : (bare d == .none) = (d == .none) := by
  cases d with
  | seq k xs => cases k <;> simp [bare]
  | dict es => simp [bare]
  | _ => simp [bare]

theorem bare_other {w : Val} (h1 : ∀ xs, w ≠ .list xs) (h2 : ∀ es, w ≠ .dict es) (s : Bool) :
    bare w = w ∧ Ok s w := by
  cases w with
  | seq k xs => cases k <;> first | exact absurd rfl (h1 xs) | simp [bare, Ok]
  | dict es => exact absurd rfl (h2 es)
  | _ => simp [bare, Ok]

theorem leaf_other {info : Nat → ClassInfo} {w : Val} (h : JsonLeaf info w) :
    (∀ xs, w ≠ .list xs) ∧ ∀ es, w ≠ .dict es := by
  constructor
  · rintro xs rfl; simp [JsonLeaf] at h
  · rintro es rfl; simp [JsonLeaf] at h

theorem pyEq_str_left {s : PyStr} {k : Val} (h : pyEq (.str s) k = true) : k = .str s := by
  have : pyEq k (.str s) = true := by
    cases k with
    | atom x => cases x <;> simp_all [pyEq, Atom.num?]
    | _ => simp [pyEq] at h
  exact pyEq_eq_str this

/-- An entry that is not reserved. -/
theorem bareEntries_set {k d : Val} (hk : NotReserved k) (es : List (Val × Val)) :
    bareEntries (dictSet es k d) = dictSet (bareEntries es) k (bare d) := by
  have hk' : ¬ (k = .str metaKey ∨ k = .str clsKey) := fun h => h.elim hk.1 hk.2
  induction es with
  | nil => simp [dictSet, bareEntries, hk']
  | cons e es ih =>
    obtain ⟨k', v'⟩ := e
    simp only [dictSet]
    by_cases h : pyEq k' k = true
    · have hn : ¬ (k' = .str metaKey ∨ k' = .str clsKey) := by
        rintro (rfl | rfl)
        · exact hk.1 (pyEq_str_left h)
        · exact hk.2 (pyEq_str_left h)
      simp [h, bareEntries, hn, dictSet]
    · by_cases hn : k' = .str metaKey ∨ k' = .str clsKey
      · simp [h, bareEntries, hn, ih]
      · simp [h, bareEntries, hn, dictSet, ih]

/-- A reserved entry. -/
theorem bareEntries_mark {k d : Val} (hk : k = .str metaKey ∨ k = .str clsKey)
    (es : List (Val × Val)) : bareEntries (dictSet es k d) = bareEntries es := by
  induction es with
  | nil => simp [dictSet, bareEntries, hk]
  | cons e es ih =>
    obtain ⟨k', v'⟩ := e
    simp only [dictSet]
    by_cases h : pyEq k' k = true
    · have : k' = k := by rcases hk with rfl | rfl <;> exact pyEq_eq_str h
      subst this
      simp [h, bareEntries, hk]
    · by_cases hn : k' = .str metaKey ∨ k' = .str clsKey
      · simp [h, bareEntries, hn, ih]
      · simp [h, bareEntries, hn, ih]

theorem okEntries_set {s : Bool} {k d : Val} (hk : NotReserved k) (hd : Ok s d)
    (ht : (∃ a, k = .str a) ∨ NotDict d) {es : List (Val × Val)} (h : OkEntries s es) :
    OkEntries s (dictSet es k d) := by
  induction es with
  | nil =>
    cases s
    · exact ⟨.inr ⟨hk.2, hd⟩, trivial⟩
    · exact ⟨.inr (.inr ⟨ht, hd⟩), trivial⟩
  | cons e es ih =>
    obtain ⟨k', v'⟩ := e
    simp only [dictSet]
    split
    · next hp =>
      have ht' : (∃ a, k' = .str a) ∨ NotDict d := by
        rcases ht with ⟨a, rfl⟩ | h
        · exact .inl ⟨a, pyEq_eq_str hp⟩
        · exact .inr h
      cases s
      · refine ⟨?_, h.2⟩
        rcases h.1 with h | h
        · exact .inl h
        · exact .inr ⟨h.1, hd⟩
      · exact ⟨.inr (.inr ⟨ht', hd⟩), h.2⟩
    · cases s
      · exact ⟨h.1, ih h.2⟩
      · exact ⟨h.1, ih h.2⟩

theorem okEntries_meta {s : Bool} {d : Val} {es : List (Val × Val)} (h : OkEntries s es) :
    OkEntries s (dictSet es (.str metaKey) d) := by
  induction es with
  | nil => cases s <;> exact ⟨.inl rfl, trivial⟩
  | cons e es ih =>
    obtain ⟨k', v'⟩ := e
    simp only [dictSet]
    split
    · next hp =>
      have := pyEq_eq_str hp
      subst this
      cases s <;> exact ⟨.inl rfl, h.2⟩
    · cases s <;> exact ⟨h.1, ih h.2⟩

theorem okEntries_cls {d : Val} {es : List (Val × Val)} (h : OkEntries true es) :
    OkEntries true (dictSet es (.str clsKey) d) := by
  induction es with
  | nil => exact ⟨.inr (.inl rfl), trivial⟩
  | cons e es ih =>
    obtain ⟨k', v'⟩ := e
    simp only [dictSet]
    split
    · next hp =>
      have := pyEq_eq_str hp
      subst this
      exact ⟨.inr (.inl rfl), h.2⟩
    · exact ⟨h.1, ih h.2⟩

mutual
/-- Naming the dicts always works, and removes the marks only. -/
theorem fillVal_bare : ∀ (v : Val) (pre : PyStr) (coll : List (Val × Val)), Ok true v →
    ∃ v' name coll', fillVal v pre coll = .ok (v', name, coll') ∧ bare v' = bare v ∧ Ok false v'
  | .dict es, pre, coll, h => by
    obtain ⟨es', coll', h1, h2, h3⟩ := fillEntries_bare es pre coll h
    refine ⟨.dict es', (dictGet es (.str clsKey)).getD .none, coll', ?_, ?_, h3⟩
    · rw [fillVal, h1]; rfl
    · rw [bare, bare, h2]
  | .seq k xs, pre, coll, h => by
    refine ⟨.seq k xs, .none, coll, by simp [fillVal], rfl, ?_⟩
    cases k <;> simpa [Ok] using h
  | .atom a, pre, coll, _ => ⟨.atom a, .none, coll, by simp [fillVal], rfl, by simp [Ok]⟩
  | .ddict f es, pre, coll, _ => ⟨.ddict f es, .none, coll, by simp [fillVal], rfl, by simp [Ok]⟩
  | .ntuple c xs, pre, coll, _ => ⟨.ntuple c xs, .none, coll, by simp [fillVal], rfl, by simp [Ok]⟩
  | .enum c m, pre, coll, _ => ⟨.enum c m, .none, coll, by simp [fillVal], rfl, by simp [Ok]⟩
  | .obj c as, pre, coll, _ => ⟨.obj c as, .none, coll, by simp [fillVal], rfl, by simp [Ok]⟩
/-- The same for the entries of a dict. -/
theorem fillEntries_bare : ∀ (es : List (Val × Val)) (pre : PyStr) (coll : List (Val × Val)),
    OkEntries true es → ∃ es' coll', fillEntries es pre coll = .ok (es', coll') ∧
      bareEntries es' = bareEntries es ∧ OkEntries false es'
  | [], pre, coll, _ => ⟨[], coll, by simp [fillEntries], rfl, trivial⟩
  | (k, v) :: es, pre, coll, h => by
    by_cases hc : k = .str clsKey
    · obtain ⟨es', coll', h1, h2, h3⟩ := fillEntries_bare es pre coll h.2
      refine ⟨es', coll', ?_, ?_, h3⟩
      · cases v <;> simp only [fillEntries, if_pos hc] <;> exact h1
      · simp [bareEntries, hc, h2]
    · by_cases hm : k = .str metaKey
      · obtain ⟨es', coll', h1, h2, h3⟩ := fillEntries_bare es pre coll h.2
        refine ⟨(k, v) :: es', coll', ?_, ?_, ⟨.inl hm, h3⟩⟩
        · cases v <;> simp only [fillEntries, if_neg hc, if_pos hm, h1, bind, Except.bind]
        · simp [bareEntries, hm, h2]
      · have hkv : ((∃ a, k = .str a) ∨ NotDict v) ∧ Ok true v := by
          rcases h.1 with h | h | h
          · exact absurd h hm
          · exact absurd h hc
          · exact h
        have hn : ¬ (k = .str metaKey ∨ k = .str clsKey) := fun h => h.elim hm hc
        by_cases hd : ∃ ds, v = .dict ds
        · obtain ⟨ds, rfl⟩ := hd
          obtain ⟨a, rfl⟩ := hkv.1.resolve_right fun h => h ds rfl
          obtain ⟨v', name, coll1, h4, h5, h6⟩ :=
            fillVal_bare (.dict ds) (pre ++ a ++ ['/']) coll hkv.2
          obtain ⟨es', coll', h1, h2, h3⟩ := fillEntries_bare es pre
            (dictSet coll1 (.str (pre ++ a)) name) h.2
          refine ⟨(.str a, v') :: es', coll', ?_, ?_, ⟨.inr ⟨hc, h6⟩, h3⟩⟩
          · rw [fillEntries, if_neg hc]
            simp only [if_neg hm]
            rw [h4]
            simp only [bind, Except.bind]
            rw [h1]
          · simp [bareEntries, hn, h2, h5]
        · obtain ⟨es', coll', h1, h2, h3⟩ := fillEntries_bare es pre coll h.2
          refine ⟨(k, v) :: es', coll', ?_, ?_, ⟨.inr ⟨hc, ?_⟩, h3⟩⟩
          · cases v <;> first
              | exact absurd ⟨_, rfl⟩ hd
              | simp only [fillEntries, if_neg hc, h1, bind, Except.bind]
          · simp [bareEntries, hn, h2]
          · have h0 := hkv.2
            cases v with
            | dict ds => exact absurd ⟨_, rfl⟩ hd
            | seq k xs => cases k <;> simpa [Ok] using h0
            | _ => simp [Ok]
end

mutual
/-- Without marks, only the `-meta` sections are removed. -/
theorem bare_unmeta : ∀ (v : Val), Ok false v → bare v = unmeta v
  | .dict es, h => by
    rw [bare, unmeta, bareEntries_unmeta es h]
  | .seq k xs, h => by
    cases k <;> simp only [bare, unmeta]
    rw [bareList_unmeta xs h]
  | .atom a, _ => by simp [bare, unmeta]
  | .ddict f es, _ => by simp [bare, unmeta]
  | .ntuple c xs, _ => by simp [bare, unmeta]
  | .enum c m, _ => by simp [bare, unmeta]
  | .obj c as, _ => by simp [bare, unmeta]
theorem bareList_unmeta : ∀ (xs : List Val), OkList xs → bareList xs = unmetaList xs
  | [], _ => rfl
  | x :: xs, h => by
    rw [bareList, unmetaList, bare_unmeta x h.1, bareList_unmeta xs h.2]
theorem bareEntries_unmeta : ∀ (es : List (Val × Val)), OkEntries false es →
    bareEntries es = unmetaEntries es
  | [], _ => rfl
  | (k, v) :: es, h => by
    have ih := bareEntries_unmeta es h.2
    have hm : "-meta".toList = metaKey := rfl
    rw [bareEntries, unmetaEntries, hm]
    by_cases hk : k = .str metaKey
    · rw [if_pos (.inl hk), if_pos hk, ih]
    · have h1 := h.1.resolve_left hk
      rw [if_neg (fun h => h.elim hk h1.1), if_neg hk, ih, bare_unmeta v h1.2]
end

/-! ## Calls that do the same -/

section
variable {α β γ δ : Type}

/-- The same log; the same exception, or results that are related. -/
def Sim (R : α → β → Prop) (x : Res α) (y : Res β) : Prop :=
  x.log = y.log ∧ ((∃ a b, x.val = .ok a ∧ y.val = .ok b ∧ R a b) ∨
    ∃ e, x.val = .error e ∧ y.val = .error e)

theorem Sim.pure {R : α → β → Prop} {a : α} {b : β} (h : R a b) :
    Sim R (Pure.pure a : Res α) (Pure.pure b : Res β) := ⟨rfl, .inl ⟨a, b, rfl, rfl, h⟩⟩

theorem Sim.raise {R : α → β → Prop} (e : Err) : Sim R (Res.raise e) (Res.raise e) :=
  ⟨rfl, .inr ⟨e, rfl, rfl⟩⟩

theorem Sim.same {R : α → α → Prop} {x : Res α} (h : ∀ a, x.val = .ok a → R a a) : Sim R x x := by
  refine ⟨rfl, ?_⟩
  cases hx : x.val with
  | ok a => exact .inl ⟨a, a, rfl, rfl, h a hx⟩
  | error e => exact .inr ⟨e, rfl, rfl⟩

theorem Sim.bind {R : α → β → Prop} {S : γ → δ → Prop} {x : Res α} {y : Res β} {f : α → Res γ}
    {g : β → Res δ} (h : Sim R x y)
    (hf : ∀ a b, x.val = .ok a → y.val = .ok b → R a b → Sim S (f a) (g b)) :
    Sim S (x >>= f) (y >>= g) := by
  obtain ⟨hl, ⟨a, b, h1, h2, h3⟩ | ⟨e, h1, h2⟩⟩ := h
  · have := hf a b h1 h2 h3
    refine ⟨?_, ?_⟩
    · rw [bind_log, bind_log, h1, h2]
      simp only
      rw [hl, this.1]
    · rw [bind_val, bind_val, h1, h2]
      exact this.2
  · refine ⟨?_, .inr ⟨e, ?_, ?_⟩⟩
    · rw [bind_log, bind_log, h1, h2]; exact hl
    · rw [bind_val, h1]
    · rw [bind_val, h2]

/-- The same call first. -/
theorem Sim.bindSame {S : γ → δ → Prop} {x : Res α} {f : α → Res γ} {g : α → Res δ}
    (hf : ∀ a, x.val = .ok a → Sim S (f a) (g a)) : Sim S (x >>= f) (x >>= g) :=
  Sim.bind (R := Eq) (Sim.same fun _ _ => rfl) fun a b h1 _ h3 => by subst h3; exact hf a h1

/-- The outcomes of two calls. -/
def Outcome (R : α → β → Prop) (a : Except Err α) (b : Except Err β) : Prop :=
  (∃ u v, a = .ok u ∧ b = .ok v ∧ R u v) ∨ ∃ e, a = .error e ∧ b = .error e

theorem Sim.attempt {R : α → β → Prop} {x : Res α} {y : Res β} (h : Sim R x y) :
    Sim (Outcome R) x.attempt y.attempt := by
  refine ⟨?_, .inl ⟨x.val, y.val, by rw [attempt_val], by rw [attempt_val], ?_⟩⟩
  · rw [attempt_log, attempt_log]; exact h.1
  · exact h.2

theorem Sim.mapRes {R : β → γ → Prop} {F : α → Res β} {G : α → Res γ} {xs : List α}
    (h : ∀ x ∈ xs, Sim R (F x) (G x)) :
    Sim (List.Forall₂ R) (mapRes F xs) (mapRes G xs) := by
  induction xs with
  | nil => exact Sim.pure .nil
  | cons x xs ih =>
    simp only [Core.mapRes]
    refine Sim.bind (h x List.mem_cons_self) fun a b _ _ hab => ?_
    refine Sim.bind (ih fun y hy => h y (List.mem_cons_of_mem _ hy)) fun as bs _ _ hs => ?_
    exact Sim.pure (.cons hab hs)

end

/-! ## The recursion -/

section
variable {E : Env} {v0 : Val} {kw0 : DumpKw}

/-- The options without `verbose`. -/
def off (kw : DumpKw) : DumpKw := { kw with verbose := {}, storeCls := false }

/-- The options of the calls: like those of the first call as far as it matters. -/
structure Opts (kw kw0 : DumpKw) : Prop where
  fork : kw.fork = kw0.fork
  enumName : kw.useEnumName = kw0.useEnumName
  strict : kw.strict = kw0.strict
  privates : kw.stripPrivates = kw0.stripPrivates
  kt : kw.keyTransformer = kw0.keyTransformer
  store : kw.storeCls = true → kw.verbose.classInfo = true

/-- The verbose result and the plain one. -/
def Rel (s : Bool) (d d' : Val) : Prop := d' = bare d ∧ Ok s d

/-- The same for entries. -/
def RelEntries (s : Bool) (es es' : List (Val × Val)) : Prop :=
  es' = bareEntries es ∧ OkEntries s es

/-- The recursive calls do the same, up to `-meta` and `-cls`. -/
structure RecSim (E : Env) (v0 : Val) (kw0 : DumpKw) (rec : Rec) : Prop where
  dump : ∀ {v : Val} {cls : Option Ty} {kw : DumpKw}, Reachable E v0 v → Opts kw kw0 →
    Sim (Rel kw.storeCls) (rec.dump v cls kw) (rec.dump v cls (off kw))
  call : ∀ {g : SerFn} {v : Val} {cls : Option Ty} {kw : DumpKw}, Reachable E v0 v →
    Opts kw kw0 → (cls.getD (.cls v.cls)).serFn E.info = some g →
    Sim (Rel kw.storeCls) (rec.call g v cls kw) (rec.call g v cls (off kw))
  flat : ∀ {v : Val} {kw : DumpKw} {d : Val}, Reachable E v0 v → Opts kw kw0 → Flat v →
    (rec.dump v none kw).val = .ok d → NotDict d
  flatCall : ∀ {g : SerFn} {v : Val} {kw : DumpKw} {d : Val}, Reachable E v0 v → Flat v →
    (Ty.cls v.cls).serFn E.info = some g → (rec.call g v none kw).val = .ok d → NotDict d

/-- A call whose result is neither a list nor a dict. -/
theorem sim_other {s : Bool} {x : Res Val}
    (h : ∀ r, x.val = .ok r → (∀ xs, r ≠ .list xs) ∧ ∀ es, r ≠ .dict es) : Sim (Rel s) x x :=
  Sim.same fun r hr => by
    have := bare_other (h r hr).1 (h r hr).2 s
    exact ⟨this.1.symm, this.2⟩

theorem rel_list {s : Bool} {xs ys : List Val} (h : List.Forall₂ (Rel false) xs ys) :
    Rel s (.list xs) (.list ys) := by
  have : ys = bareList xs ∧ OkList xs := by
    induction h with
    | nil => exact ⟨rfl, trivial⟩
    | cons h _ ih =>
      rw [bareList, ← h.1, ← ih.1]
      exact ⟨rfl, h.2, ih.2⟩
  refine ⟨?_, ?_⟩
  · show Val.list ys = bare (.seq .list xs)
    rw [bare, ← this.1]
  · simpa [Ok] using this.2

/-- A result for which nothing has to be done. -/
theorem rel_text {s : Bool} {k : PyStr} {d d' : Val} {es es' : List (Val × Val)}
    (hk : NotReserved (.str k)) (h : Rel s d d') (hs : RelEntries s es es') :
    RelEntries s ((.str k, d) :: es) ((.str k, d') :: es') := by
  have hn : ¬ (Val.str k = .str metaKey ∨ Val.str k = .str clsKey) := fun h => h.elim hk.1 hk.2
  refine ⟨?_, ?_⟩
  · rw [bareEntries, if_neg hn, ← h.1, ← hs.1]
  · cases s
    · exact ⟨.inr ⟨hk.2, h.2⟩, hs.2⟩
    · exact ⟨.inr (.inr ⟨.inl ⟨k, rfl⟩, h.2⟩), hs.2⟩

theorem rel_dict {s : Bool} {es es' : List (Val × Val)} (h : RelEntries s es es') :
    Rel s (.dict es) (.dict es') := ⟨by rw [bare, ← h.1], h.2⟩

/-- One entry. -/
theorem addDumped_sim {kw : DumpKw} {s : Bool} {acc acc' : List (Val × Val)} {k d d' : Val}
    (ha : RelEntries s acc acc') (hd : Rel s d d') (hk : KeyFree kw.keyTransformer k)
    (ht : (∃ a, k = .str a) ∨ NotDict d) :
    Sim (RelEntries s) (Res.lift (addDumped kw acc k d))
      (Res.lift (addDumped (off kw) acc' k d')) := by
  unfold addDumped
  rw [hd.1, bare_none]
  show Sim _ (Res.lift (if kw.stripNulls && d == .none then _ else _))
    (Res.lift (if kw.stripNulls && d == .none then _ else _))
  split
  · exact Sim.pure ha
  · show Sim _ (Res.lift ((transformKey kw.keyTransformer k).map _))
      (Res.lift ((transformKey kw.keyTransformer k).map _))
    cases htk : transformKey kw.keyTransformer k with
    | error e => exact Sim.raise e
    | ok k' =>
      have hk' : NotReserved k' ∧ ((∃ a, k' = .str a) ∨ NotDict d) := by
        unfold transformKey at htk
        unfold KeyFree at hk
        split at htk
        · next hkt =>
          cases htk
          refine ⟨?_, ht⟩
          split at hk
          · rw [hkt] at hk; exact hk
          · next hns =>
            exact ⟨fun h => hns _ h, fun h => hns _ h⟩
        · next g hkt =>
          split at htk
          · next s' =>
            rw [hkt] at hk
            cases hg : g s' with
            | error e => rw [hg] at htk; cases htk
            | ok r =>
              rw [hg] at htk
              cases htk
              exact ⟨hk r hg, .inl ⟨r, rfl⟩⟩
          · cases htk
      refine Sim.pure ⟨?_, okEntries_set hk'.1 hd.2 hk'.2 ha.2⟩
      rw [bareEntries_set hk'.1, ha.1]

theorem dictLoop_sim {rec : Rec} (hrec : RecSim E v0 kw0 rec) {kw : DumpKw} (ho : Opts kw kw0) :
    ∀ (es acc acc' : List (Val × Val)),
      (∀ e ∈ es, Reachable E v0 e.2 ∧ JsonLeaf E.info e.1 ∧ KeyFree kw0.keyTransformer e.1 ∧
        ((∃ s, e.1 = .str s) ∨ Flat e.2)) →
      RelEntries kw.storeCls acc acc' →
      Sim (RelEntries kw.storeCls) (dictLoop E rec kw es acc) (dictLoop E rec (off kw) es acc') := by
  intro es
  induction es with
  | nil => intro acc acc' _ h; exact Sim.pure h
  | cons e es ih =>
    obtain ⟨k, v⟩ := e
    intro acc acc' hs ha
    obtain ⟨hv, hleaf, hfree, hflat⟩ := hs _ List.mem_cons_self
    have hvalid := validKey_of_leaf (E := E) hleaf
    have ho' : Opts { kw with types := [] } kw0 := ⟨ho.1, ho.2, ho.3, ho.4, ho.5, ho.6⟩
    simp only [dictLoop, storeAndHash, hvalid, if_true, pure_bind']
    refine Sim.bind (hrec.dump hv ho') fun d d' hd _ hdd => ?_
    refine Sim.bind (addDumped_sim ha hdd (by rw [ho.kt]; exact hfree) ?_)
      fun r r' _ _ hr => ih r r' (fun e he => hs e (List.mem_cons_of_mem _ he)) hr
    rcases hflat with h | h
    · exact .inl h
    · by_cases hk : ∃ s, k = .str s
      · exact .inl hk
      · refine .inr (hrec.flat hv ho' h (d := d) ?_)
        rw [← hd]
        congr 2
        cases k with
        | atom a => cases a <;> first | exact absurd ⟨_, rfl⟩ hk | rfl
        | _ => rfl

theorem unionLoop_sim {rec : Rec} (hrec : RecSim E v0 kw0 rec) {kw : DumpKw}
    (ho : Opts kw kw0) {v : Val} (hv : Reachable E v0 v) : ∀ (ts : List Ty),
    Sim (Rel kw.storeCls) (unionLoop rec v kw ts) (unionLoop rec v (off kw) ts) := by
  intro ts
  induction ts with
  | nil => exact Sim.raise _
  | cons t ts ih =>
    simp only [unionLoop]
    refine Sim.bind (hrec.dump hv ho).attempt fun x y _ _ hxy => ?_
    rcases hxy with ⟨u, w, rfl, rfl, h⟩ | ⟨e, rfl, rfl⟩
    · exact Sim.pure h
    · simp only
      split
      · exact ih
      · exact Sim.raise _

theorem storeClsInfo_rel {kw : DumpKw} {d d' attr : Val} (h : Rel kw.storeCls d d') :
    Rel kw.storeCls (storeClsInfo E kw.storeCls d attr) (storeClsInfo E (off kw).storeCls d' attr) := by
  have h' : storeClsInfo E (off kw).storeCls d' attr = d' := by
    show storeClsInfo E false d' attr = d'
    unfold storeClsInfo
    split <;> rfl
  rw [h']
  unfold storeClsInfo
  split
  · next es =>
    split
    · next hs =>
      rw [hs] at h ⊢
      refine ⟨?_, okEntries_cls h.2⟩
      rw [h.1, bare, bare, bareEntries_mark (.inr rfl)]
    · exact h
  · exact h

theorem attrLoop_sim (hds : DefaultSers E kw0.fork) {rec : Rec}
    (hrec : RecSim E v0 kw0 rec) {kw : DumpKw} (ho : Opts kw kw0)
    {v : Val} (hv : Reachable E v0 v) (pub : Bool) (cn : PyStr) :
    ∀ (as : List (PyStr × Option Ty)) (acc acc' : List (Val × Val)),
      (∀ p ∈ as, KeyFree kw0.keyTransformer (.str (if pub then lstrip_ p.1 else p.1))) →
      RelEntries kw.storeCls acc acc' →
      Sim (RelEntries kw.storeCls) (attrLoop E rec kw pub v cn as acc)
        (attrLoop E rec (off kw) pub v cn as acc') := by
  intro as
  induction as with
  | nil => intro acc acc' _ h; exact Sim.pure h
  | cons p as ih =>
    obtain ⟨name, hint⟩ := p
    intro acc acc' hf ha
    simp only [attrLoop]
    refine Sim.bindSame fun attr hattr => ?_
    rw [lift_val] at hattr
    have hfk : (off kw).fork = kw.fork := rfl
    rw [hfk]
    refine Sim.bindSame fun _ _ => ?_
    refine Sim.bindSame fun fn hfn => ?_
    rw [liftK_ok, ho.fork, hds] at hfn
    have hfn := Except.ok.inj hfn
    have hd : Sim (Rel kw.storeCls) (dumpAttr E rec kw fn attr hint)
        (dumpAttr E rec (off kw) fn attr hint) := by
      unfold dumpAttr
      cases fn with
      | none => exact Sim.raise _
      | some g =>
        simp only
        exact Sim.bind (hrec.call (Reachable.attr hv hattr) ho hfn) fun d d' _ _ h =>
          Sim.pure (storeClsInfo_rel h)
    refine Sim.bind hd.attempt fun x y _ _ hxy => ?_
    rcases hxy with ⟨d, d', rfl, rfl, h⟩ | ⟨e, rfl, rfl⟩
    · simp only
      exact Sim.bind (addDumped_sim ha h (by rw [ho.kt]; exact hf _ List.mem_cons_self)
        (.inl ⟨_, rfl⟩)) fun r r' _ _ hr =>
        ih r r' (fun p hp => hf p (List.mem_cons_of_mem _ hp)) hr
    · simp only
      split
      · exact Sim.raise _
      · have hst : (off kw).strict = kw.strict := rfl
        rw [hst]
        split
        · exact Sim.raise _
        · exact Sim.bindSame fun _ _ => Sim.pure ha

/-- The `-meta` section always can be added. -/
theorem dictWithMeta_sim {verbose : Verbosity} {es : List (Val × Val)} {cn : PyStr}
    (h : OkEntries verbose.classInfo es) :
    ∃ r, dictWithMeta E es cn verbose = .ok r ∧ bareEntries r = bareEntries es ∧
      OkEntries false r := by
  by_cases hv : verbose = {}
  · subst hv
    exact ⟨es, rfl, rfl, h⟩
  · have h1 := okEntries_meta (d := .dict []) h
    have h2 : bareEntries (dictSet es (.str metaKey) (.dict [])) = bareEntries es :=
      bareEntries_mark (.inl rfl) es
    cases hc : verbose.classInfo with
    | false =>
      rw [hc] at h1
      refine ⟨dictSet (dictSet es (.str metaKey) (.dict [])) (.str metaKey)
          (.dict (if verbose.dumpTime then [(Val.str "dump_time".toList, Val.str E.now)] else [])),
        ?_, ?_, ?_⟩
      · simp only [dictWithMeta, hv, hc]
        rfl
      · rw [bareEntries_mark (.inl rfl), h2]
      · exact okEntries_meta h1
    | true =>
      rw [hc] at h1
      obtain ⟨es', coll, h3, h4, h5⟩ := fillEntries_bare _ ['/'] [] h1
      refine ⟨dictSet es' (.str metaKey) (.dict
          ([(Val.str "classes".toList, Val.dict (dictSet coll (.str ['/']) (.str cn)))] ++
          (if verbose.dumpTime then [(Val.str "dump_time".toList, Val.str E.now)] else []))),
        ?_, ?_, ?_⟩
      · simp only [dictWithMeta, hv, hc]
        simp only [if_false, if_true, h3]
        rfl
      · rw [bareEntries_mark (.inl rfl), h4, h2]
      · exact okEntries_meta h5

theorem objectSerWith_sim (hds : DefaultSers E kw0.fork) {rec : Rec}
    (hrec : RecSim E v0 kw0 rec) {kw : DumpKw} (ho : Opts kw kw0)
    {v : Val} (hv : Reachable E v0 v) {strip : StripAttr} {t : Ty} {I : ClassInfo}
    {attributes : Except Err (List (PyStr × Option Ty))}
    (ha : ∀ as, attributes = .ok as → ∀ p ∈ as,
      KeyFree kw0.keyTransformer (.str (shownName I kw p.1))) :
    Sim (Rel kw.storeCls) (objectSerWith E rec v kw strip t I attributes)
      (objectSerWith E rec v (off kw) strip t I attributes) := by
  unfold objectSerWith
  refine Sim.bindSame fun as has => ?_
  rw [lift_val] at has
  have ho' : Opts { kw with stripAttr := strip, storeCls := kw.verbose.classInfo } kw0 :=
    ⟨ho.1, ho.2, ho.3, ho.4, ho.5, fun h => h⟩
  have hloop := attrLoop_sim hds hrec ho' hv (I.isAttrs && !kw.stripPrivates)
    (E.className false t) as [] [] (ha as has) ⟨rfl, by cases kw.verbose.classInfo <;> trivial⟩
  refine Sim.bind hloop fun es es' _ _ hes => ?_
  obtain ⟨h1, h2⟩ := hes
  simp only at h2
  have e1 : (off kw).storeCls = false := rfl
  have e2 : (off kw).verbose = {} := rfl
  rw [e1, e2]
  simp only [Bool.false_eq_true, if_false, dictWithMeta, if_true, liftK_of_ok, pure_bind']
  cases hst : kw.storeCls with
  | true =>
    rw [ho.store hst] at h2
    exact Sim.pure (rel_dict ⟨h1, h2⟩)
  | false =>
    obtain ⟨r, h3, h4, h5⟩ := dictWithMeta_sim (E := E) (cn := E.className true t) h2
    simp only [Bool.false_eq_true, if_false]
    have h3' := h3
    unfold dictWithMeta at h3'
    rw [h3', liftK_of_ok, pure_bind']
    exact Sim.pure (rel_dict ⟨by rw [h4, h1], h5⟩)

theorem iterableSer_sim {rec : Rec} (hrec : RecSim E v0 kw0 rec) {kw : DumpKw}
    (ho : Opts kw kw0) {v : Val} (hv : Reachable E v0 v) (cls : Option Ty) :
    Sim (Rel kw.storeCls) (iterableSer E rec v cls kw) (iterableSer E rec v cls (off kw)) := by
  unfold iterableSer
  simp only
  cases hi : v.iter with
  | none => exact Sim.raise _
  | some xs =>
    simp only
    refine Sim.bindSame fun sub _ => ?_
    refine Sim.bind (R := List.Forall₂ (Rel false)) (Sim.mapRes fun p hp =>
      hrec.dump (kw := { kw with storeCls := false })
        (Reachable.elem hv hi (List.of_mem_zip hp).1)
        ⟨ho.1, ho.2, ho.3, ho.4, ho.5, nofun⟩) fun ys ys' _ _ h => ?_
    exact Sim.pure (rel_list h)

theorem filter_off {I : ClassInfo} {kw : DumpKw} {strip : StripAttr} (ps : List (PyStr × Option Ty)) :
    filterAttributes I (off kw) strip ps = filterAttributes I kw strip ps := by
  have go : ∀ l (ps : List (PyStr × Option Ty)), filterAttributes.go I (off kw) l ps =
      filterAttributes.go I kw l ps := by
    intro l ps
    induction ps with
    | nil => rfl
    | cons p ps ih =>
      simp only [filterAttributes.go, ih]
      rfl
  cases strip <;> simp only [filterAttributes, go]

theorem attributesAndTypes_declared {I : ClassInfo} :
    ∀ p ∈ attributesAndTypes I true, p.1 ∈ declared I := by
  unfold attributesAndTypes
  simp only
  intro p hp
  rcases foldl_assocSet_mem _ _ p.1 (List.mem_map_of_mem hp) with hn | h
  · simp only [declared, List.mem_append]
    split at hn
    · next l hl =>
      left; left; left
      rw [hl]
      simpa [List.map_map, Function.comp_def] using hn
    · split at hn
      · left; left; right
        simpa [List.map_map, Function.comp_def] using hn
      · left; right
        rw [if_pos trivial, List.map_map] at hn
        obtain ⟨q, hq, e⟩ := List.mem_map.1 hn
        rw [← e]
        exact List.mem_map_of_mem (f := (·.1)) (List.mem_of_mem_filter hq)
  · simp only [declared, List.mem_append]
    right
    obtain ⟨q, hq, e⟩ := List.mem_map.1 h
    rw [← e]
    rcases List.mem_append.1 hq with hq | hq <;>
      exact List.mem_map_of_mem (List.mem_of_mem_filter hq)

theorem objectSer_sim (hds : DefaultSers E kw0.fork) (hS : Markable E v0 kw0) {rec : Rec}
    (hrec : RecSim E v0 kw0 rec) {kw : DumpKw} (ho : Opts kw kw0)
    {v : Val} (hv : Reachable E v0 v) (cls : Option Ty) :
    Sim (Rel kw.storeCls) (objectSer E rec v cls kw) (objectSer E rec v cls (off kw)) := by
  have hshown : ∀ I n, shownName I kw n = shownName I kw0 n := by
    intro I n; unfold shownName; rw [ho.privates]
  have hobject : ∀ n, shownName ClassInfo.object kw n = n := fun n => rfl
  -- values that are not objects
  have foreign : ∀ {w : Val} {s : StripAttr} {t : Ty} {o : Option Ty}, Reachable E v0 w →
      Sim (Rel kw.storeCls) (objectSerWith E rec w kw s t ClassInfo.object (E.foreignAttrs w o kw))
      (objectSerWith E rec w (off kw) s t ClassInfo.object (E.foreignAttrs w o (off kw))) := by
    intro w s t o hw
    have := (hS.foreign w o kw).1
    rw [show E.foreignAttrs w o (off kw) = E.foreignAttrs w o kw from this.symm]
    refine objectSerWith_sim hds hrec ho hw ?_
    intro as has
    simp only [hobject]
    exact (hS.foreign w o kw).2 as has
  -- the attributes of the object
  have fromObject : Sim (Rel kw.storeCls) (objectSer E rec v none kw)
      (objectSer E rec v none (off kw)) := by
    cases v with
    | obj c as =>
      have : attributesFromObject (E.info c) as (off kw) (normalizeStripAttr kw.stripAttr) =
          attributesFromObject (E.info c) as kw (normalizeStripAttr kw.stripAttr) := by
        unfold attributesFromObject
        simp only
        rw [filter_off]
        rfl
      show Sim _ _ (objectSerWith E rec (.obj c as) (off kw) (normalizeStripAttr kw.stripAttr)
        (.cls (.user c)) (E.info c)
        (attributesFromObject (E.info c) as (off kw) (normalizeStripAttr kw.stripAttr)))
      rw [this]
      refine objectSerWith_sim hds hrec ho hv ?_
      intro r hr' p hp
      simp only [hshown]
      unfold attributesFromObject at hr'
      obtain ⟨n, hn, rfl⟩ := List.mem_map.1 ((filter_sublist hr').subset hp)
      exact hS.attrs c as hv _ (List.mem_append.2 (mem_dirNames.1 hn))
    | _ => exact foreign hv
  cases cls with
  | none => exact fromObject
  | some t =>
    cases hst : kw.strict with
    | false =>
      have e : ∀ k : DumpKw, k.strict = false → objectSer E rec v (some t) k =
          objectSer E rec v none k := by
        intro k hk; unfold objectSer; rw [hk]; rfl
      rw [e _ hst, e _ (show (off kw).strict = false from hst)]
      exact fromObject
    | true =>
      unfold objectSer
      have hst' : (off kw).strict = true := hst
      simp only [hst, hst', if_true]
      have hcl := hS.classes (by rw [← ho.strict]; exact hst)
      have fromClass : ∀ (I : ClassInfo) (s : StripAttr),
          attributesFromClass I (off kw) s = attributesFromClass I kw s := by
        intro I s
        unfold attributesFromClass
        split
        · rw [filter_off]; rfl
        · rfl
      have free : ∀ {I : ClassInfo} {s : StripAttr} {as : List (PyStr × Option Ty)},
          (∀ a ∈ declared I, KeyFree kw0.keyTransformer (.str (shownName I kw0 a))) →
          attributesFromClass I kw s = .ok as →
          ∀ p ∈ as, KeyFree kw0.keyTransformer (.str (shownName I kw p.1)) := by
        intro I s as hI has p hp
        unfold attributesFromClass at has
        split at has
        · rw [hst] at has
          simp only [hshown]
          exact hI _ (attributesAndTypes_declared p ((filter_sublist has).subset hp))
        · cases has
      cases t with
      | cls c =>
        cases c with
        | user c =>
          simp only
          rw [fromClass]
          exact objectSerWith_sim hds hrec ho hv fun as has => free (hcl c) has
        | object =>
          simp only
          rw [fromClass]
          exact objectSerWith_sim hds hrec ho hv fun as has => free (fun a h => by cases h) has
        | _ => exact foreign hv
      | _ => exact foreign hv

theorem complexSer_sim (hS : Markable E v0 kw0) {v : Val} (hv : Reachable E v0 v) (s : Bool) :
    Sim (Rel s) (complexSer E v) (complexSer E v) := by
  have hre : NotReserved (.str "real".toList) := ⟨by decide, by decide⟩
  have him : NotReserved (.str "imag".toList) := ⟨by decide, by decide⟩
  refine Sim.same fun r h => ?_
  have mk : ∀ {re im : Val}, Rel s re re → Rel s im im →
      Rel s (.dict [(.str "real".toList, re), (.str "imag".toList, im)])
        (.dict [(.str "real".toList, re), (.str "imag".toList, im)]) := by
    intro re im h1 h2
    exact rel_dict (rel_text hre h1 (rel_text him h2 ⟨rfl, by cases s <;> trivial⟩))
  have hnum : ∀ a : Atom, Rel s (.atom a) (.atom a) := by
    intro a; exact ⟨by simp [bare], by simp [Ok]⟩
  have hraw : ∀ {w : Val}, ((∀ xs, w ≠ .list xs) ∧ ∀ es, w ≠ .dict es) → Rel s w w := by
    intro w h
    have := bare_other h.1 h.2 s
    exact ⟨this.1.symm, this.2⟩
  unfold complexSer at h
  simp only at h
  split at h
  · cases h; exact mk (hnum _) (hnum _)
  · cases h; exact mk (hnum _) (hnum _)
  · cases h; exact mk (hnum _) (hnum _)
  · cases h; exact mk (hnum _) (hnum _)
  · simp only [bind_ok, lift_val, pure_val, Except.ok.injEq] at h
    obtain ⟨re, h1, im, h2, rfl⟩ := h
    exact mk (hraw (hS.raw.complexAttr hv (.inl h1))) (hraw (hS.raw.complexAttr hv (.inr h2)))

theorem rel_nil_entries (s : Bool) : RelEntries s [] [] := ⟨rfl, by cases s <;> trivial⟩

theorem callSer_sim (hds : DefaultSers E kw0.fork) (hS : Markable E v0 kw0) {rec : Rec}
    (hrec : RecSim E v0 kw0 rec) {kw : DumpKw} (ho : Opts kw kw0)
    {g : SerFn} {v : Val} {cls : Option Ty} (hv : Reachable E v0 v)
    (hf : (cls.getD (.cls v.cls)).serFn E.info = some g) :
    Sim (Rel kw.storeCls) (callSer E rec g v cls kw) (callSer E rec g v cls (off kw)) := by
  have leaf : ∀ {x : Res Val}, (∀ r, x.val = .ok r → JsonLeaf E.info r) →
      Sim (Rel kw.storeCls) x x := fun h => sim_other fun r hx => leaf_other (h r hx)
  have hreach := reach_of_reachable hS.kind
  cases g with
  | tuple =>
    simp only [callSer, tupleSer]
    split
    · next c xs =>
      have hfields := hS.ntuple c xs hv
      unfold namedtupleSer
      refine Sim.bind (R := List.Forall₂ fun (e e' : Val × Val) => ∃ s ∈ (E.info c).fields,
          e.1 = .str s ∧ e'.1 = .str s ∧ Rel kw.storeCls e.2 e'.2) (Sim.mapRes fun p hp => ?_)
        fun ys ys' h1 h2 h => Sim.pure (rel_dict ?_)
      · exact Sim.bind (hrec.dump (Reachable.elem hv rfl (List.of_mem_zip hp).2) ho)
          fun d d' _ _ h => Sim.pure ⟨p.1, (List.of_mem_zip hp).1, rfl, rfl, h⟩
      · clear h1 h2
        induction h with
        | nil => exact rel_nil_entries _
        | @cons e e' es es' h _ ih =>
          obtain ⟨k, d⟩ := e
          obtain ⟨k', d'⟩ := e'
          obtain ⟨s, hs, h1, h2, h3⟩ := h
          simp only at h1 h2 h3
          subst h1 h2
          exact rel_text (hfields s hs) h3 ih
    · exact Sim.bindSame fun c _ => iterableSer_sim hrec ho hv c
  | complex => exact complexSer_sim hS hv _
  | datetime => exact leaf fun r h => toStr_leaf h
  | date => exact leaf fun r h => toStr_leaf h
  | time => exact leaf fun r h => toStr_leaf h
  | timezone =>
    simp only [callSer, timezoneSer]
    split
    · refine Sim.bind (hrec.dump (Reachable.offset hv) ho) fun d d' _ _ h => Sim.pure (rel_dict ?_)
      refine rel_text ⟨by decide, by decide⟩ ⟨by simp [bare], by simp [Ok]⟩
        (rel_text ⟨by decide, by decide⟩ h (rel_nil_entries _))
    · exact Sim.raise _
  | timedelta =>
    refine leaf fun r h => ?_
    simp only [callSer, timedeltaSer] at h
    split at h
    · cases h; trivial
    · simp at h
  | primitive => exact leaf fun r h => primitive_json hreach hv hf h
  | enum =>
    have : enumSer E v (off kw) = enumSer E v kw := by unfold enumSer; rfl
    simp only [callSer]
    rw [this]
    refine sim_other fun r h => ?_
    refine DumpShape.enumSer_raw (kw := kw)
      (P := fun w => (∀ xs, w ≠ .list xs) ∧ ∀ es, w ≠ .dict es) ?_
      (fun s => ⟨by simp, by simp⟩) hv h
    rw [ho.enumName]
    exact hS.raw
  | dict =>
    have loop : ∀ (es : List (Val × Val)) (g : Option Ty),
        (Reachable E v0 (.dict es) ∨ Reachable E v0 (.ddict g es)) →
        Sim (Rel kw.storeCls) (dictLoop E rec kw es [] >>= fun r => pure (Val.dict r))
        (dictLoop E rec (off kw) es [] >>= fun r => pure (Val.dict r)) := by
      intro es g hes
      exact Sim.bind (dictLoop_sim hrec ho es [] [] (fun e he => ⟨hes.elim (fun h => .value h he)
        (fun h => .valueD h he), hS.key es g hes e he⟩) (rel_nil_entries _))
        fun r r' _ _ h => Sim.pure (rel_dict h)
    simp only [callSer, dictSer]
    split
    · exact loop _ none (.inl hv)
    · exact loop _ _ (.inr hv)
    · split
      · exact Sim.pure (rel_dict (rel_nil_entries _))
      · exact Sim.raise _
  | list =>
    have hkw' : Opts { kw with storeCls := false } kw0 :=
      ⟨ho.1, ho.2, ho.3, ho.4, ho.5, nofun⟩
    have finish : ∀ {x y : Res (List Val)}, Sim (List.Forall₂ (Rel false)) x y →
        Sim (Rel kw.storeCls) (x >>= fun ys => pure (Val.list ys))
          (y >>= fun ys => pure (Val.list ys)) := fun h =>
      Sim.bind h fun ys ys' _ _ h => Sim.pure (rel_list h)
    have typed : ∀ (xs : List Val), v.iter = some xs → ∀ (t : Ty),
        Sim (Rel kw.storeCls) (listSer.typed E rec kw xs t { kw with storeCls := false })
        (listSer.typed E rec (off kw) xs t { off kw with storeCls := false }) := by
      intro xs hxs t
      unfold listSer.typed
      refine Sim.bindSame fun fn hfn => ?_
      rw [liftK_ok, ho.fork, hds] at hfn
      have hfn := Except.ok.inj hfn
      cases fn with
      | none => exact finish (Sim.mapRes fun x _ => Sim.raise _)
      | some g =>
        exact finish (Sim.mapRes fun x hx => hrec.call (kw := { kw with storeCls := false })
          (Reachable.elem hv hxs hx) hkw' hfn)
    have nil : Sim (Rel kw.storeCls) (pure (Val.list []) : Res Val) (pure (Val.list [])) :=
      Sim.pure (rel_list .nil)
    simp only [callSer, listSer]
    split
    · exact nil
    · cases hxs : v.iter with
      | none => exact Sim.raise _
      | some xs =>
        simp only
        split
        · exact typed xs hxs _
        · have e : (off kw).strict = kw.strict := rfl
          rcases Bool.eq_false_or_eq_true kw.strict with hst | hst
          · rw [if_pos hst, if_pos (e.trans hst)]
            split
            · exact Sim.raise _
            · exact Sim.raise _
            · exact Sim.raise _
            · exact Sim.raise _
            · exact typed _ hxs _
            · exact nil
          · have hst' : ¬ kw.strict = true := by rw [hst]; simp
            rw [if_neg hst', if_neg (by rw [e]; exact hst')]
            exact finish (Sim.mapRes fun x hx => hrec.dump (kw := { kw with storeCls := false })
              (Reachable.elem hv hxs hx) hkw')
  | iterable => exact iterableSer_sim hrec ho hv cls
  | object => exact objectSer_sim hds hS hrec ho hv cls
  | uuid => exact leaf fun r h => by simp only [callSer, strSer] at h; cases h; trivial
  | decimal => exact leaf fun r h => by simp only [callSer, strSer] at h; cases h; trivial
  | union =>
    simp only [callSer, unionSer]
    split
    · exact Sim.raise _
    · split
      · next hn =>
        rw [hn.1]
        exact Sim.pure ⟨by simp [bare], by simp [Ok]⟩
      · exact unionLoop_sim hrec ho hv _
  | path =>
    refine leaf fun r h => ?_
    simp only [callSer, pathSer] at h
    split at h
    · cases h; trivial
    · simp at h
  | zoneinfo =>
    refine Sim.same fun r h => ?_
    simp only [callSer, zoneinfoSer] at h
    split at h
    · cases h
      exact rel_dict (rel_text ⟨by decide, by decide⟩ ⟨by simp [bare], by simp [Ok]⟩
        (rel_nil_entries _))
    · simp at h
  | custom id =>
    exfalso
    revert hf
    generalize cls.getD (.cls v.cls) = t
    have hc : ∀ c : Cls, c.serFn E.info ≠ .custom id := by
      intro c; cases c <;> simp [Cls.serFn]
      split <;> simp
    intro hf
    cases t with
    | newtype n t => cases t <;> simp_all [Ty.serFn]
    | _ => simp_all [Ty.serFn]

theorem iterableSer_list {rec : Rec} {v d : Val} {cls : Option Ty} {kw : DumpKw}
    (h : (iterableSer E rec v cls kw).val = .ok d) : NotDict d := by
  unfold iterableSer at h
  simp only at h
  split at h
  · simp at h
  · simp only [bind_ok, pure_val, Except.ok.injEq] at h
    obtain ⟨_, _, _, _, rfl⟩ := h
    nofun

theorem listSer_list {rec : Rec} {v d : Val} {cls : Option Ty} {kw : DumpKw}
    (h : (listSer E rec v cls kw).val = .ok d) : NotDict d := by
  have typed : ∀ {xs : List Val} {t : Ty} {kw' : DumpKw},
      (listSer.typed E rec kw xs t kw').val = .ok d → NotDict d := by
    intro xs t kw' h
    unfold listSer.typed at h
    simp only [bind_ok, pure_val, Except.ok.injEq] at h
    obtain ⟨_, _, _, _, rfl⟩ := h
    nofun
  unfold listSer at h
  split at h
  · cases h; nofun
  · simp only at h
    split at h
    · simp at h
    · split at h
      · exact typed h
      · split at h
        · split at h
          · simp at h
          · simp at h
          · simp at h
          · simp at h
          · exact typed h
          · cases h; nofun
        · simp only [bind_ok, pure_val, Except.ok.injEq] at h
          obtain ⟨_, _, rfl⟩ := h
          nofun

theorem callSer_flat (hS : Markable E v0 kw0) {rec : Rec} {g : SerFn} {v d : Val} {kw : DumpKw}
    (hv : Reachable E v0 v) (hf : Flat v) (hg : (Ty.cls v.cls).serFn E.info = some g)
    (h : (callSer E rec g v none kw).val = .ok d) : NotDict d := by
  have hreach := reach_of_reachable hS.kind
  cases v with
  | seq k xs =>
    cases k <;> simp only [Ty.serFn, Val.cls, Cls.serFn, Option.some.injEq, SeqKind.cls] at hg <;>
      subst hg
    all_goals simp only [callSer, tupleSer, tupleCls, pure_bind'] at h
    all_goals first
      | exact iterableSer_list h
      | exact listSer_list h
  | atom a =>
    cases a <;> simp only [Flat] at hf <;>
      simp only [Ty.serFn, Val.cls, Atom.cls, Cls.serFn, Option.some.injEq] at hg <;> subst hg <;>
      exact (leaf_other (primitive_json (cls := none) hreach hv rfl h)).2
  | _ => simp [Flat] at hf

theorem dumpWith_sim (hds : DefaultSers E kw0.fork) {rec : Rec}
    (hrec : RecSim E v0 kw0 rec) {v : Val} {cls : Option Ty} {kw : DumpKw}
    (hv : Reachable E v0 v) (ho : Opts kw kw0) :
    Sim (Rel kw.storeCls) (dumpWith E rec v cls kw) (dumpWith E rec v cls (off kw)) := by
  unfold dumpWith
  refine Sim.bindSame fun fn hfn => ?_
  rw [liftK_ok, ho.fork, hds] at hfn
  have hfn := Except.ok.inj hfn
  refine Sim.bindSame fun _ _ => ?_
  cases fn with
  | none => exact Sim.raise _
  | some g =>
    simp only
    refine Sim.bind (hrec.call hv ho hfn).attempt fun x y _ _ hxy => ?_
    rcases hxy with ⟨d, d', rfl, rfl, h⟩ | ⟨e, rfl, rfl⟩
    · exact Sim.pure h
    · exact Sim.raise _

theorem dumpWith_flat (hds : DefaultSers E kw0.fork) {rec : Rec} (hrec : RecSim E v0 kw0 rec)
    {v d : Val} {kw : DumpKw} (hv : Reachable E v0 v) (ho : Opts kw kw0) (hf : Flat v)
    (h : (dumpWith E rec v none kw).val = .ok d) : NotDict d := by
  unfold dumpWith at h
  simp only [bind_ok, emit_val, attempt_val, Except.ok.injEq] at h
  obtain ⟨fn, h1, _, _, x, h2, h3⟩ := h
  rw [liftK_ok, ho.fork, hds] at h1
  simp only [Except.ok.injEq, Option.getD_none] at h1
  cases x with
  | error e => simp at h3
  | ok d' =>
    cases h3
    cases fn with
    | none => simp at h2
    | some g => exact hrec.flatCall hv hf h1 h2

theorem recSim (hds : DefaultSers E kw0.fork) (hS : Markable E v0 kw0) (n : Nat) :
    RecSim E v0 kw0 (recOf E n) := by
  induction n with
  | zero =>
    exact ⟨fun _ _ => Sim.raise _, fun _ _ _ => Sim.raise _, fun _ _ _ h => by simp [recOf] at h,
      fun _ _ _ h => by simp [recOf] at h⟩
  | succ n ih =>
    exact ⟨fun hv ho => dumpWith_sim hds ih hv ho,
      fun hv ho hf => callSer_sim hds hS ih ho hv hf,
      fun hv ho hf h => dumpWith_flat hds ih hv ho hf h,
      fun hv hf hg h => callSer_flat hS hv hf hg h⟩

end

/-! ## The theorems -/

/-- C111, `_partial`: with `verbose`, `dump` makes the same announcements, gives the
same warnings and raises the same exceptions as without it, and returns the same result
plus `-meta` sections; for every class and all other options, in strict mode as well.
Missing: values that are not `Markable`: dicts with keys that are not JSON keys, dicts
under keys that are not texts (see `verbose_fails_key`), keys or attributes with the
names that verbose dumps use themselves (see `verbose_fails_cls`). -/
theorem verbose_adds_partial (E : Env) (n : Nat) (v : Val) (cls : Option Ty) (kw : DumpKw)
    (hds : DefaultSers E kw.fork) (hv : Markable E v kw) (hst : kw.storeCls = false) :
    dump E n v cls { kw with verbose := {} } = after unmeta (dump E n v cls kw) := by
  have e : off kw = { kw with verbose := {} } := by
    cases kw; simp only at hst; subst hst; rfl
  have h : Sim (Rel kw.storeCls) (dump E n v cls kw) (dump E n v cls { kw with verbose := {} }) := by
    rw [← e]
    exact (recSim hds hv n).dump .self
      ⟨rfl, rfl, rfl, rfl, rfl, fun h => by rw [hst] at h; cases h⟩
  obtain ⟨hl, ⟨a, b, h1, h2, h3, h4⟩ | ⟨e, h1, h2⟩⟩ := h
  · refine res_ext hl.symm ?_
    rw [hst] at h4
    simp only [after]
    rw [h1, h2, h3, bare_unmeta a h4]
    rfl
  · refine res_ext hl.symm ?_
    simp only [after]
    rw [h1, h2]
    rfl

/-- C83 and C111 together, `_partial`: whatever `verbose`, `strip_nulls` and
`key_transformer` are, leaving out the `-meta` sections gives the plain dump without the
`None` entries and with the keys renamed.  Missing: as in `verbose_adds_partial` and
`DumpStyle.dump_style_partial`. -/
theorem verbose_style_partial (E : Env) (n : Nat) (v : Val) (cls : Option Ty) (kw : DumpKw)
    (vb : Verbosity) (sn : Bool) (kt : Option (PyStr → Except Err PyStr)) (f : PyStr → PyStr)
    (hds : DefaultSers E kw.fork)
    (hm : Markable E v { kw with verbose := vb, stripNulls := sn, keyTransformer := kt })
    (hv : DumpStyle.Styleable E v kw sn kt f)
    (hn : kw.stripNulls = false) (hk : kw.keyTransformer = none) (hvb : kw.verbose = {})
    (hst : kw.storeCls = false) :
    after unmeta (dump E n v cls
      { kw with verbose := vb, stripNulls := sn, keyTransformer := kt }) =
      after (DumpStyle.restyle sn f) (dump E n v cls kw) := by
  rw [← verbose_adds_partial E n v cls
    { kw with verbose := vb, stripNulls := sn, keyTransformer := kt } hds hm hst,
    ← DumpStyle.dump_style_partial E n v cls kw sn kt f hds hv hn hk hvb hst]
  have e : ({ kw with verbose := {}, stripNulls := sn, keyTransformer := kt } : DumpKw) =
      { kw with stripNulls := sn, keyTransformer := kt } := by
    cases kw; simp only at hvb; subst hvb; rfl
  rw [← e]

/-- `Point(x=1)` -/
def point : Val := .obj 0 [("x".toList, .int 1)]

/-- C111 is false for dicts under keys that are not texts: the object with the attribute
`{1: {}}` can be dumped, but not with `verbose`. -/
theorem verbose_fails_key :
    (dump (demoEnv demoInfo) 9 (.obj 6 [("d".toList, .dict [(.int 1, .dict [])])]) none {}).val =
      .ok (.dict [(.str "d".toList, .dict [(.int 1, .dict [])])]) ∧
    (match (dump (demoEnv demoInfo) 9 (.obj 6 [("d".toList, .dict [(.int 1, .dict [])])]) none
        { verbose := { classInfo := true } }).val with
      | .error e => decide (e.kind = .serializationError)
      | .ok _ => false) = true := by decide +kernel

/-- C111 is false for an own entry `'-cls'`: the verbose dump loses it. -/
theorem verbose_fails_cls :
    (dump (demoEnv demoInfo) 9 (.obj 6 [("d".toList, .dict [(.str "-cls".toList, .int 1)])]) none
      {}).val = .ok (.dict [(.str "d".toList, .dict [(.str "-cls".toList, .int 1)])]) ∧
    ((dump (demoEnv demoInfo) 9 (.obj 6 [("d".toList, .dict [(.str "-cls".toList, .int 1)])]) none
      { verbose := { classInfo := true } }).val.map unmeta) =
        .ok (.dict [(.str "d".toList, .dict [])]) := by decide +kernel

/-! ## Examples -/

/-- An object with the attributes `[Point(x=1)]` and `Point(x=1)`. -/
def figure : Val := .obj 6 [("all".toList, .list [point]), ("main".toList, point)]

/-- Without `verbose`, and with it: the object in the list has its own section. -/
example :
    (dump (demoEnv demoInfo) 9 figure none {}).val = .ok (.dict [
      (.str "all".toList, .list [.dict [(.str "x".toList, .int 1)]]),
      (.str "main".toList, .dict [(.str "x".toList, .int 1)])]) ∧
    (dump (demoEnv demoInfo) 9 figure none { verbose := { classInfo := true } }).val =
      .ok (.dict [
        (.str "all".toList, .list [.dict [(.str "x".toList, .int 1),
          (.str "-meta".toList, .dict [(.str "classes".toList, .dict [
            (.str "/".toList, .str ((demoEnv demoInfo).className true (.cls (.user 0))))])])]]),
        (.str "main".toList, .dict [(.str "x".toList, .int 1)]),
        (.str "-meta".toList, .dict [(.str "classes".toList, .dict [
          (.str "/main".toList, .str ((demoEnv demoInfo).clsNameOf point)),
          (.str "/".toList, .str ((demoEnv demoInfo).className true (.cls (.user 6))))])])]) := by
  decide +kernel

/-- What can be reached from the figure. -/
def FigurePart (w : Val) : Prop :=
  w = figure ∨ w = .list [point] ∨ w = point ∨ ∃ n, w = .int n

theorem figurePart_attr {v w : Val} {n : PyStr} (hv : FigurePart v)
    (h : (demoEnv demoInfo).getAttr v n = .ok w) :
    (w = .list [point] ∧ n = "all".toList) ∨ (w = point ∧ n = "main".toList) ∨
      (w = .int 1 ∧ n = "x".toList) := by
  rcases hv with rfl | rfl | rfl | ⟨m, rfl⟩
  · simp only [figure, Env.getAttr, demoEnv, demoInfo, assoc] at h
    split at h
    · next h' =>
      cases h
      split at h'
      · next e => left; cases h'; exact ⟨rfl, e.symm⟩
      · split at h'
        · next e => right; left; cases h'; exact ⟨rfl, e.symm⟩
        · cases h'
    · cases h
  · simp [Env.getAttr, demoEnv] at h
  · simp only [point, Env.getAttr, demoEnv, demoInfo, assoc] at h
    split at h
    · next h' =>
      cases h
      split at h'
      · next e => right; right; cases h'; exact ⟨rfl, e.symm⟩
      · cases h'
    · cases h
  · simp [Env.getAttr, demoEnv] at h

theorem figure_reach : Reach (demoEnv demoInfo) FigurePart where
  elem := by
    intro v x xs hv hi hx
    rcases hv with rfl | rfl | rfl | ⟨m, rfl⟩
    · simp [figure, Val.iter] at hi
    · simp only [Val.iter, Option.some.injEq] at hi
      subst hi
      rw [List.mem_singleton] at hx
      exact .inr (.inr (.inl hx))
    · simp [point, Val.iter] at hi
    · simp [Val.iter] at hi
  value := by
    intro es e hv
    rcases hv with h | h | h | ⟨m, h⟩ <;> simp [figure, point] at h
  valueD := by
    intro f es e hv
    rcases hv with h | h | h | ⟨m, h⟩ <;> simp [figure, point] at h
  attr := by
    intro v w n hv h
    rcases figurePart_attr hv h with ⟨rfl, _⟩ | ⟨rfl, _⟩ | ⟨rfl, _⟩
    · exact .inr (.inl rfl)
    · exact .inr (.inr (.inl rfl))
    · exact .inr (.inr (.inr ⟨_, rfl⟩))
  offset := by
    intro us n hv
    rcases hv with h | h | h | ⟨m, h⟩ <;> simp [figure, point] at h
  plain := by
    intro c as hv
    rcases hv with h | h | h | ⟨m, h⟩ <;> simp [figure, point] at h
    · obtain ⟨rfl, _⟩ := h; rfl
    · obtain ⟨rfl, _⟩ := h; rfl
  ntuple := by
    intro c xs hv
    rcases hv with h | h | h | ⟨m, h⟩ <;> simp [figure, point] at h
  enum := by
    intro c m hv
    rcases hv with h | h | h | ⟨m, h⟩ <;> simp [figure, point] at h

theorem figure_mem {w : Val} (h : Reachable (demoEnv demoInfo) figure w) : FigurePart w :=
  reachable_sub figure_reach (.inl rfl) h

/-- The figure meets what the theorem needs. -/
theorem figure_markable (vb : Verbosity) : Markable (demoEnv demoInfo) figure { verbose := vb } := by
  have hattr : ∀ {u w : Val} {m : PyStr}, Reachable (demoEnv demoInfo) figure u →
      m ≠ "all".toList → m ≠ "main".toList → m ≠ "x".toList →
      (demoEnv demoInfo).getAttr u m ≠ .ok w := by
    intro u w m hu h1 h2 h3 h
    rcases figurePart_attr (figure_mem hu) h with ⟨_, e⟩ | ⟨_, e⟩ | ⟨_, e⟩
    · exact h1 e
    · exact h2 e
    · exact h3 e
  constructor
  · intro w hw
    rcases figure_mem hw with rfl | rfl | rfl | ⟨m, rfl⟩ <;> trivial
  · constructor
    · intro c m w _ h
      rcases figure_mem h with h | h | h | ⟨m, h⟩ <;> simp [figure, point] at h
    · intro u w hu _ h
      exact absurd h (hattr (m := "name".toList) hu (by decide) (by decide) (by decide))
    · intro u w hu h
      exact h.elim (fun h => absurd h (hattr hu (by decide) (by decide) (by decide)))
        fun h => absurd h (hattr hu (by decide) (by decide) (by decide))
  · intro es g h
    rcases h with h | h <;> rcases figure_mem h with h | h | h | ⟨m, h⟩ <;>
      simp [figure, point] at h
  · intro c xs h
    rcases figure_mem h with h | h | h | ⟨m, h⟩ <;> simp [figure, point] at h
  · intro c as h a ha
    rcases figure_mem h with h | h | h | ⟨m, h⟩ <;> simp [figure, point] at h
    · obtain ⟨rfl, rfl⟩ := h
      simp [demoEnv, demoInfo] at ha
      rcases ha with rfl | rfl
      · exact (⟨by decide, by decide⟩ : NotReserved (.str "all".toList))
      · exact (⟨by decide, by decide⟩ : NotReserved (.str "main".toList))
    · obtain ⟨rfl, rfl⟩ := h
      simp [demoEnv, demoInfo] at ha
      subst ha
      exact (⟨by decide, by decide⟩ : NotReserved (.str "x".toList))
  · intro h; cases h
  · intro w t k
    exact ⟨rfl, fun as h => by cases h; exact fun p hp => by cases hp⟩

/-- Every class, every size of the stack, every kind of verbosity. -/
example (n : Nat) (cls : Option Ty) (vb : Verbosity) :
    dump (demoEnv demoInfo) n figure cls {} =
      after unmeta (dump (demoEnv demoInfo) n figure cls { verbose := vb }) :=
  verbose_adds_partial _ n figure cls { verbose := vb } (demo_sers 0) (figure_markable vb) rfl

/-- A record with a dict and `None`: with `verbose`, `strip_nulls` and camel case. -/
example (n : Nat) (cls : Option Ty) (vb : Verbosity) :
    after unmeta (dump (demoEnv demoInfo) n DumpStyle.record cls
      { verbose := vb, stripNulls := true, keyTransformer := some DumpStyle.camel }) =
    after (DumpStyle.restyle true DumpStyle.camelName)
      (dump (demoEnv demoInfo) n DumpStyle.record cls {}) := by
  have hS := DumpStyle.record_styleable
  have hfree : ∀ s : PyStr, s ∈ ["first_name".toList, "nick_name".toList, "data".toList,
      "born".toList] → KeyFree (some DumpStyle.camel) (.str s) := by
    have mk : ∀ {s t : PyStr}, DumpStyle.camel s = .ok t → NotReserved (.str t) →
        KeyFree (some DumpStyle.camel) (.str s) := by
      intro s t e ht s' h
      rw [e] at h
      cases h
      exact ht
    intro s hs
    simp only [List.mem_cons, List.not_mem_nil, or_false] at hs
    rcases hs with h | h | h | h <;> rw [h]
    · exact mk (t := "firstName".toList) rfl ⟨by decide, by decide⟩
    · exact mk (t := "nickName".toList) rfl ⟨by decide, by decide⟩
    · exact mk (t := "data".toList) rfl ⟨by decide, by decide⟩
    · exact mk (t := "born".toList) rfl ⟨by decide, by decide⟩
  refine verbose_style_partial _ n _ cls {} vb true (some DumpStyle.camel) DumpStyle.camelName
    (demo_sers 0) ?_ hS rfl rfl rfl rfl
  have hattr : ∀ {u w : Val} {m : PyStr}, Reachable (demoEnv demoInfo) DumpStyle.record u →
      m ≠ "data".toList → m ≠ "born".toList → (demoEnv demoInfo).getAttr u m ≠ .ok w := by
    intro u w m hu h1 h2 h
    rcases DumpStyle.record_mem hu with rfl | rfl | rfl | ⟨s, rfl⟩
    · simp only [DumpStyle.record, Env.getAttr, demoEnv, demoInfo, assoc, if_neg (Ne.symm h1),
        if_neg (Ne.symm h2)] at h
      cases h
    · simp [DumpStyle.recordData, Env.getAttr, demoEnv] at h
    · simp [Env.getAttr, demoEnv] at h
    · simp [Env.getAttr, demoEnv] at h
  constructor
  · exact hS.kind
  · constructor
    · intro c m w _ h
      rcases DumpStyle.record_mem h with h | h | h | ⟨s, h⟩ <;>
        simp [DumpStyle.record, DumpStyle.recordData] at h
    · intro u w hu _ h
      exact absurd h (hattr (m := "name".toList) hu (by decide) (by decide))
    · intro u w hu h
      exact h.elim (fun h => absurd h (hattr hu (by decide) (by decide)))
        fun h => absurd h (hattr hu (by decide) (by decide))
  · intro es g h e he
    have : es = [(.str "first_name".toList, .str ['A']), (.str "nick_name".toList, .none)] := by
      rcases h with h | h <;> rcases DumpStyle.record_mem h with h | h | h | ⟨s, h⟩ <;>
        simp [DumpStyle.record, DumpStyle.recordData] at h
      exact h
    subst this
    simp only [List.mem_cons, List.not_mem_nil, or_false] at he
    rcases he with rfl | rfl
    · exact ⟨trivial, hfree _ (by simp), .inl ⟨_, rfl⟩⟩
    · exact ⟨trivial, hfree _ (by simp), .inl ⟨_, rfl⟩⟩
  · intro c xs h
    rcases DumpStyle.record_mem h with h | h | h | ⟨s, h⟩ <;>
      simp [DumpStyle.record, DumpStyle.recordData] at h
  · intro c as h a ha
    rcases DumpStyle.record_mem h with h | h | h | ⟨s, h⟩ <;>
      simp [DumpStyle.record, DumpStyle.recordData] at h
    obtain ⟨rfl, rfl⟩ := h
    simp [demoEnv, demoInfo] at ha
    rcases ha with rfl | rfl
    · exact hfree "data".toList (by simp)
    · exact hfree "born".toList (by simp)
  · intro h; cases h
  · intro w t k
    exact ⟨rfl, fun as h => by cases h; exact fun p hp => by cases hp⟩

end Verif.Props.VerboseAdds
