import Verif.Core.MetaLemmas
import Verif.Core.DumpLemmas

/-!
# Lemmas about the collection of class names of a verbose dump
-/

set_option autoImplicit false

namespace Verif.Core
open Verif

/-! ## Dicts with texts as keys -/

theorem pyEq_eq_str {k : Val} {s : PyStr} (h : pyEq k (.str s) = true) : k = .str s := by
  cases k with
  | atom a => cases a <;> simp_all [pyEq, Atom.num?]
  | _ => simp [pyEq] at h

theorem dictGet_set_str {es : List (Val × Val)} (a b : PyStr) (v : Val) :
    dictGet (dictSet es (.str a) v) (.str b) = if a = b then some v else dictGet es (.str b) := by
  induction es with
  | nil => simp [dictSet, dictGet, pyEq_str]
  | cons e es ih =>
    obtain ⟨k, w⟩ := e
    simp only [dictSet]
    split
    · next h =>
      simp only [dictGet]
      by_cases hab : a = b
      · subst hab; simp [h]
      · have hk : pyEq k (.str b) = false := by
          rw [pyEq_eq_str h, pyEq_str]
          simpa using hab
        simp [hk, hab]
    · next h =>
      simp only [dictGet, ih]
      by_cases hab : a = b
      · subst hab
        simp [h]
      · simp [hab]

theorem dictSet_keys_str {es : List (Val × Val)} (a : PyStr) (v : Val) :
    (dictSet es (.str a) v).map (·.1) =
      if Val.str a ∈ es.map (·.1) then es.map (·.1) else es.map (·.1) ++ [.str a] := by
  induction es with
  | nil => rfl
  | cons e es ih =>
    obtain ⟨k, w⟩ := e
    simp only [dictSet]
    split
    · next h => simp [pyEq_eq_str h]
    · next h =>
      have hk : ¬ Val.str a = k := by
        rintro rfl
        exact h (by rw [pyEq_str]; simp)
      simp only [List.map_cons, ih, List.mem_cons, hk, false_or]
      split <;> simp

/-! ## Paths -/

/-- The names of a path with slashes between them. -/
def pathStr : List PyStr → PyStr
  | [] => []
  | [a] => a
  | a :: p => a ++ '/' :: pathStr p

/-- There is a dict at the end of the path, which goes through dicts. -/
inductive DictAt : List (Val × Val) → List PyStr → List (Val × Val) → Prop
  | here {es ds : List (Val × Val)} {a : PyStr} : (.str a, .dict ds) ∈ es → a ≠ metaKey →
      a ≠ clsKey → DictAt es [a] ds
  | step {es ds fs : List (Val × Val)} {a : PyStr} {p : List PyStr} : (.str a, .dict ds) ∈ es →
      a ≠ metaKey → a ≠ clsKey → DictAt ds p fs → DictAt es (a :: p) fs

theorem DictAt.ne_nil {es ds : List (Val × Val)} {p : List PyStr} (h : DictAt es p ds) : p ≠ [] := by
  cases h <;> simp

theorem pathStr_cons {a : PyStr} {p : List PyStr} (h : p ≠ []) :
    pathStr (a :: p) = a ++ '/' :: pathStr p := by
  cases p with
  | nil => exact absurd rfl h
  | cons b p => rfl

/-! ## Keys -/

mutual
/-- All keys, on all levels, are different texts without slashes. -/
def NiceVal : Val → Prop
  | .dict es => NiceEntries es
  | _ => True
/-- The same for the entries of a dict. -/
def NiceEntries : List (Val × Val) → Prop
  | [] => True
  | (k, v) :: es => (∃ a, k = .str a ∧ '/' ∉ a) ∧ (∀ e ∈ es, e.1 ≠ k) ∧ NiceVal v ∧ NiceEntries es
end

/-- The text begins with one of the keys, and nothing or a slash follows. -/
def Under (pre : PyStr) (es : List (Val × Val)) (q : PyStr) : Prop :=
  ∃ a rest v, (.str a, v) ∈ es ∧ q = pre ++ a ++ rest ∧ (rest = [] ∨ ∃ r, rest = '/' :: r)

theorem slash_unique {a b : PyStr} (ha : '/' ∉ a) (hb : '/' ∉ b) {r s : PyStr}
    (hr : r = [] ∨ ∃ t, r = '/' :: t) (hs : s = [] ∨ ∃ t, s = '/' :: t) (h : a ++ r = b ++ s) :
    a = b ∧ r = s := by
  induction a generalizing b with
  | nil =>
    cases b with
    | nil => exact ⟨rfl, by simpa using h⟩
    | cons c b =>
      simp only [List.nil_append, List.cons_append] at h
      rcases hr with rfl | ⟨t, rfl⟩
      · cases h
      · cases h
        exact absurd List.mem_cons_self hb
  | cons c a ih =>
    cases b with
    | nil =>
      simp only [List.nil_append, List.cons_append] at h
      rcases hs with rfl | ⟨t, rfl⟩
      · cases h
      · cases h
        exact absurd List.mem_cons_self ha
    | cons d b =>
      simp only [List.cons_append, List.cons.injEq] at h
      obtain ⟨rfl, h⟩ := h
      obtain ⟨rfl, rfl⟩ := ih (fun h => ha (List.mem_cons_of_mem _ h))
        (fun h => hb (List.mem_cons_of_mem _ h)) h
      exact ⟨rfl, rfl⟩

mutual
/-- The value without `-cls` entries in its dicts (not in its lists). -/
def unmark : Val → Val
  | .dict es => .dict (unmarkEntries es)
  | v => v
/-- The same for the entries of a dict; what is under `-meta` is left alone. -/
def unmarkEntries : List (Val × Val) → List (Val × Val)
  | [] => []
  | (k, v) :: es =>
    if k = .str clsKey then unmarkEntries es
    else if k = .str metaKey then (k, v) :: unmarkEntries es
    else (k, unmark v) :: unmarkEntries es
end

/-- What the collection has after `fillEntries`. -/
structure Filled (es : List (Val × Val)) (pre : PyStr) (coll coll' : List (Val × Val)) : Prop where
  found : ∀ p ds, DictAt es p ds →
    dictGet coll' (.str (pre ++ pathStr p)) = some ((dictGet ds (.str clsKey)).getD .none)
  frame : ∀ q, ¬ Under pre es q → dictGet coll' (.str q) = dictGet coll (.str q)
  onlyKeys : ∀ k ∈ coll'.map (·.1), k ∈ coll.map (·.1) ∨
    ∃ p ds, DictAt es p ds ∧ k = .str (pre ++ pathStr p)
  nodup : (coll.map (·.1)).Nodup → (coll'.map (·.1)).Nodup

theorem DictAt.cons {k v : Val} {es fs : List (Val × Val)} {p : List PyStr}
    (h : DictAt ((k, v) :: es) p fs) :
    DictAt es p fs ∨ ∃ a ds, k = .str a ∧ v = .dict ds ∧ a ≠ metaKey ∧ a ≠ clsKey ∧
      ((p = [a] ∧ fs = ds) ∨ ∃ p', p = a :: p' ∧ DictAt ds p' fs) := by
  cases h with
  | here h1 h2 h3 =>
    rcases List.mem_cons.mp h1 with h | h
    · cases h
      exact .inr ⟨_, _, rfl, rfl, h2, h3, .inl ⟨rfl, rfl⟩⟩
    · exact .inl (.here h h2 h3)
  | step h1 h2 h3 h4 =>
    rcases List.mem_cons.mp h1 with h | h
    · cases h
      exact .inr ⟨_, _, rfl, rfl, h2, h3, .inr ⟨_, rfl, h4⟩⟩
    · exact .inl (.step h h2 h3 h4)

theorem Under.cons {k v : Val} {pre q : PyStr} {es : List (Val × Val)} (h : Under pre es q) :
    Under pre ((k, v) :: es) q := by
  obtain ⟨a, r, w, h1, h2, h3⟩ := h
  exact ⟨a, r, w, List.mem_cons_of_mem _ h1, h2, h3⟩

theorem DictAt.mono {es fs ds : List (Val × Val)} {p : List PyStr} (h : DictAt es p ds)
    (hs : ∀ e ∈ es, e ∈ fs) : DictAt fs p ds := by
  cases h with
  | here h1 h2 h3 => exact .here (hs _ h1) h2 h3
  | step h1 h2 h3 h4 => exact .step (hs _ h1) h2 h3 h4

theorem Filled.skip {k v : Val} {es coll coll' : List (Val × Val)} {pre : PyStr}
    (h : Filled es pre coll coll')
    (hk : (∀ ds, v ≠ .dict ds) ∨ k = .str clsKey ∨ k = .str metaKey) :
    Filled ((k, v) :: es) pre coll coll' := by
  refine ⟨fun p ds hd => ?_, fun q hq => h.frame q fun hu => hq hu.cons, fun k' hk' => ?_, h.nodup⟩
  rotate_left
  · rcases h.onlyKeys k' hk' with h | ⟨p, ds, hd, h⟩
    · exact .inl h
    · exact .inr ⟨p, ds, hd.mono fun e he => List.mem_cons_of_mem _ he, h⟩
  rcases hd.cons with hd | ⟨a, ds', rfl, rfl, h1, h2, _⟩
  · exact h.found p ds hd
  · rcases hk with hk | hk | hk
    · exact absurd rfl (hk ds')
    · simp at hk; exact absurd hk h2
    · simp at hk; exact absurd hk h1

theorem nice_names {es : List (Val × Val)} (h : NiceEntries es) {a : PyStr} {v : Val}
    (hm : (.str a, v) ∈ es) : '/' ∉ a := by
  induction es with
  | nil => cases hm
  | cons e es ih =>
    obtain ⟨k, w⟩ := e
    simp only [NiceEntries] at h
    rcases List.mem_cons.mp hm with hm | hm
    · cases hm
      obtain ⟨b, hb, hs⟩ := h.1
      simp at hb
      exact hb ▸ hs
    · exact ih h.2.2.2 hm

/-- The steps for an entry that is a dict. -/
theorem Filled.descend {a : PyStr} {ds es coll coll1 coll3 : List (Val × Val)} {pre : PyStr}
    (ha : '/' ∉ a) (hm : a ≠ metaKey) (hc : a ≠ clsKey) (hn : ∀ e ∈ es, e.1 ≠ .str a)
    (hes : NiceEntries es) (h1 : Filled ds (pre ++ a ++ ['/']) coll coll1)
    (h3 : Filled es pre (dictSet coll1 (.str (pre ++ a)) ((dictGet ds (.str clsKey)).getD .none)) coll3) :
    Filled ((.str a, .dict ds) :: es) pre coll coll3 := by
  have hout : ∀ r, (r = [] ∨ ∃ t, r = '/' :: t) → ¬ Under pre es (pre ++ a ++ r) := by
    rintro r hr ⟨b, s, w, hb, he, hs⟩
    rw [List.append_assoc, List.append_assoc] at he
    obtain ⟨rfl, _⟩ := slash_unique ha (nice_names hes hb) hr hs (List.append_cancel_left he)
    exact hn _ hb rfl
  constructor
  · intro p fs hd
    rcases hd.cons with hd | ⟨b, ds', hb, hds, _, _, ⟨rfl, rfl⟩ | ⟨p', rfl, hd'⟩⟩
    · exact h3.found p fs hd
    · cases hds
      simp at hb
      subst hb
      have := h3.frame (pre ++ a) (by simpa using hout [] (.inl rfl))
      rw [show pre ++ pathStr [a] = pre ++ a from rfl, this, dictGet_set_str, if_pos rfl]
    · cases hds
      simp at hb
      subst hb
      have e : pre ++ pathStr (a :: p') = pre ++ a ++ '/' :: pathStr p' := by
        rw [pathStr_cons hd'.ne_nil, List.append_assoc]
      rw [e, h3.frame _ (hout _ (.inr ⟨_, rfl⟩)), dictGet_set_str, if_neg]
      · have := h1.found p' fs hd'
        simpa using this
      · intro e
        have := congrArg List.length e
        simp at this
  · intro q hq
    rw [h3.frame q fun hu => hq hu.cons, dictGet_set_str, if_neg]
    · refine h1.frame q ?_
      rintro ⟨b, r, w, _, rfl, _⟩
      exact hq ⟨a, '/' :: (b ++ r), _, List.mem_cons_self, by simp, .inr ⟨_, rfl⟩⟩
    · rintro rfl
      exact hq ⟨a, [], _, List.mem_cons_self, by simp, .inl rfl⟩
  · intro k hk
    rcases h3.onlyKeys k hk with hk | ⟨p, fs, hd, hk⟩
    · have hk' : k ∈ coll1.map (·.1) ∨ k = .str (pre ++ a) := by
        rw [dictSet_keys_str] at hk
        split at hk
        · exact .inl hk
        · simpa using hk
      rcases hk' with hk' | rfl
      · rcases h1.onlyKeys k hk' with hk' | ⟨p, fs, hd, rfl⟩
        · exact .inl hk'
        · refine .inr ⟨a :: p, fs, .step List.mem_cons_self hm hc hd, ?_⟩
          rw [pathStr_cons hd.ne_nil]
          simp
      · exact .inr ⟨[a], ds, .here List.mem_cons_self hm hc, rfl⟩
    · exact .inr ⟨p, fs, hd.mono fun e he => List.mem_cons_of_mem _ he, hk⟩
  · intro hnd
    refine h3.nodup ?_
    rw [dictSet_keys_str]
    split
    · exact h1.nodup hnd
    · next hk =>
      rw [List.nodup_append]
      refine ⟨h1.nodup hnd, by simp, ?_⟩
      rintro x hx y hy rfl
      rw [List.mem_singleton] at hy
      exact hk (hy ▸ hx)

mutual
theorem fillVal_spec : ∀ (v : Val) (pre : PyStr) (coll : List (Val × Val)), NiceVal v →
    ∃ coll', fillVal v pre coll = .ok (unmark v,
      (match v with | .dict es => (dictGet es (.str clsKey)).getD .none | _ => .none), coll') ∧
      (∀ es, v = .dict es → Filled es pre coll coll') ∧ ((∀ es, v ≠ .dict es) → coll' = coll)
  | .dict es, pre, coll, h => by
    simp only [NiceVal] at h
    obtain ⟨coll', h1, h2⟩ := fillEntries_spec es pre coll h
    refine ⟨coll', ?_, fun es' he => ?_, fun h => absurd rfl (h es)⟩
    · simp only [fillVal, h1, unmark]; rfl
    · cases he; exact h2
  | .atom _, pre, coll, _ | .seq _ _, pre, coll, _ | .ddict _ _, pre, coll, _
  | .ntuple _ _, pre, coll, _ | .enum _ _, pre, coll, _ | .obj _ _, pre, coll, _ =>
    ⟨coll, by simp [fillVal, unmark], fun _ he => (by cases he), fun _ => rfl⟩
theorem fillEntries_spec : ∀ (es : List (Val × Val)) (pre : PyStr) (coll : List (Val × Val)),
    NiceEntries es → ∃ coll', fillEntries es pre coll = .ok (unmarkEntries es, coll') ∧
      Filled es pre coll coll'
  | [], pre, coll, _ => ⟨coll, rfl, ⟨fun p ds h => (by cases h <;> simp_all), fun _ _ => rfl,
      fun _ h => .inl h, fun h => h⟩⟩
  | (k, .dict ds) :: es, pre, coll, h => by
    simp only [NiceEntries] at h
    obtain ⟨⟨a, rfl, ha⟩, hn, hv, hes⟩ := h
    by_cases hc : a = clsKey
    · subst hc
      obtain ⟨coll', h1, h2⟩ := fillEntries_spec es pre coll hes
      exact ⟨coll', by simp [fillEntries, unmarkEntries, h1], h2.skip (.inr (.inl rfl))⟩
    · by_cases hm : a = metaKey
      · subst hm
        obtain ⟨coll', h1, h2⟩ := fillEntries_spec es pre coll hes
        refine ⟨coll', ?_, h2.skip (.inr (.inr rfl))⟩
        simp only [fillEntries, unmarkEntries, h1]
        rfl
      · obtain ⟨coll1, h1, h2, _⟩ := fillVal_spec (.dict ds) (pre ++ a ++ ['/']) coll hv
        obtain ⟨coll3, h3, h4⟩ := fillEntries_spec es pre
          (dictSet coll1 (.str (pre ++ a)) ((dictGet ds (.str clsKey)).getD .none)) hes
        refine ⟨coll3, ?_, Filled.descend ha hm hc hn hes (h2 ds rfl) h4⟩
        have e1 : Val.str a ≠ .str clsKey := by simpa using hc
        have e2 : Val.str a ≠ .str metaKey := by simpa using hm
        simp only [fillEntries, unmarkEntries, e1, e2, if_false, h1]
        simp only [bind, Except.bind, h3]
  | (k, .atom x) :: es, pre, coll, h => by
    simp only [NiceEntries] at h
    obtain ⟨coll', h1, h2⟩ := fillEntries_spec es pre coll h.2.2.2
    refine ⟨coll', ?_, h2.skip (.inl (by intro ds h; cases h))⟩
    simp only [fillEntries, unmarkEntries, h1, unmark, ite_self]
    split <;> rfl
  | (k, .seq x y) :: es, pre, coll, h => by
    simp only [NiceEntries] at h
    obtain ⟨coll', h1, h2⟩ := fillEntries_spec es pre coll h.2.2.2
    refine ⟨coll', ?_, h2.skip (.inl (by intro ds h; cases h))⟩
    simp only [fillEntries, unmarkEntries, h1, unmark, ite_self]
    split <;> rfl
  | (k, .ddict x y) :: es, pre, coll, h => by
    simp only [NiceEntries] at h
    obtain ⟨coll', h1, h2⟩ := fillEntries_spec es pre coll h.2.2.2
    refine ⟨coll', ?_, h2.skip (.inl (by intro ds h; cases h))⟩
    simp only [fillEntries, unmarkEntries, h1, unmark, ite_self]
    split <;> rfl
  | (k, .ntuple x y) :: es, pre, coll, h => by
    simp only [NiceEntries] at h
    obtain ⟨coll', h1, h2⟩ := fillEntries_spec es pre coll h.2.2.2
    refine ⟨coll', ?_, h2.skip (.inl (by intro ds h; cases h))⟩
    simp only [fillEntries, unmarkEntries, h1, unmark, ite_self]
    split <;> rfl
  | (k, .enum x y) :: es, pre, coll, h => by
    simp only [NiceEntries] at h
    obtain ⟨coll', h1, h2⟩ := fillEntries_spec es pre coll h.2.2.2
    refine ⟨coll', ?_, h2.skip (.inl (by intro ds h; cases h))⟩
    simp only [fillEntries, unmarkEntries, h1, unmark, ite_self]
    split <;> rfl
  | (k, .obj x y) :: es, pre, coll, h => by
    simp only [NiceEntries] at h
    obtain ⟨coll', h1, h2⟩ := fillEntries_spec es pre coll h.2.2.2
    refine ⟨coll', ?_, h2.skip (.inl (by intro ds h; cases h))⟩
    simp only [fillEntries, unmarkEntries, h1, unmark, ite_self]
    split <;> rfl
end

end Verif.Core
