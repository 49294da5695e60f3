import Verif.Props.LoadBasics
import Verif.Props.LoadCollections
import Verif.Core.LoadDemo

/-!
# Properties of `load` without a type

C80.
-/

set_option autoImplicit false

namespace Verif.Props.LoadPlain
open Verif Verif.Core
open Verif.Props.LoadBasics (load_datetime text_is_datetime_only_unasked)
open Verif.Props.LoadCollections (dictComp_ok entries_distinct entries)

/-! ## Specification -/

/-- `None`, a `bool`, an `int`, a `float` or a `str`. -/
def Scalar : Val → Prop
  | .atom .none | .atom (.bool _) | .atom (.int _) | .atom (.float _) | .atom (.str _) => True
  | _ => False

/-- A JSON document of at most the given depth, as `json.loads` makes it, without the keys
'-meta' and '-keys', which mean something to jsons.  The keys of each dict are different
texts, and they are still different after they were renamed with `k`. -/
inductive Doc (k : PyStr → PyStr) : Nat → Val → Prop
  | scalar {d : Nat} {v : Val} : Scalar v → Doc k d v
  | list {d : Nat} {xs : List Val} : (∀ x ∈ xs, Doc k d x) → Doc k (d + 1) (.list xs)
  | dict {d : Nat} {es : List (PyStr × Val)} :
      (∀ e ∈ es, e.1 ≠ metaKey ∧ e.1 ≠ keysKey) → (∀ e ∈ es, Doc k d e.2) →
      (es.map fun e => k e.1).Nodup →
      Doc k (d + 1) (.dict (es.map fun e => (.str e.1, e.2)))

mutual
/-- The document with every text (that is not a key) replaced and every key renamed. -/
def rewrite (f : PyStr → Val) (k : PyStr → PyStr) : Val → Val
  | .atom (.str s) => f s
  | .seq .list xs => .list (rewriteAll f k xs)
  | .dict es => .dict (rewriteEntries f k es)
  | v => v
/-- All elements of a list. -/
def rewriteAll (f : PyStr → Val) (k : PyStr → PyStr) : List Val → List Val
  | [] => []
  | x :: xs => rewrite f k x :: rewriteAll f k xs
/-- All entries of a dict. -/
def rewriteEntries (f : PyStr → Val) (k : PyStr → PyStr) : List (Val × Val) → List (Val × Val)
  | [] => []
  | (a, v) :: es => (match a with
      | .str s => .str (k s)
      | a => a, rewrite f k v) :: rewriteEntries f k es
end

/-- The text is in the document, other than as a key. -/
inductive TextIn (s : PyStr) : Val → Prop
  | self : TextIn s (.str s)
  | list {x : Val} {xs : List Val} : x ∈ xs → TextIn s x → TextIn s (.list xs)
  | dict {e : Val × Val} {es : List (Val × Val)} : e ∈ es → TextIn s e.2 → TextIn s (.dict es)

/-- `f s` is the `datetime` as which `s` can be loaded, or `s` itself if it cannot be. -/
def DatetimeOrText (E : LEnv) (kw : LoadKw) (f : PyStr → Val) : Prop :=
  ∀ s, (∀ d, (load E 1 (.str s) (some (.cls .datetime)) kw).val = .ok d → f s = d) ∧
    ((∀ d, (load E 1 (.str s) (some (.cls .datetime)) kw).val ≠ .ok d) → f s = .str s)

/-! ## Lemmas -/

theorem rewriteAll_eq {f : PyStr → Val} {k : PyStr → PyStr} (xs : List Val) :
    rewriteAll f k xs = xs.map (rewrite f k) := by
  induction xs with
  | nil => rfl
  | cons x xs ih => rw [rewriteAll, ih]; rfl

theorem rewriteEntries_eq {f : PyStr → Val} {k : PyStr → PyStr} (es : List (PyStr × Val)) :
    rewriteEntries f k (es.map fun e => (.str e.1, e.2)) =
      es.map fun e => (.str (k e.1), rewrite f k e.2) := by
  induction es with
  | nil => rfl
  | cons e es ih => rw [List.map_cons, rewriteEntries, ih]; rfl

theorem listLoop_all {E : LEnv} {rec : LRec} {cls : Option Ty} {warn : Bool} {kw : LoadKw}
    {g : Val → Val} : ∀ (xs : List Val) (i : Nat), (∀ x ∈ xs, (rec x cls kw).val = .ok (g x)) →
      (listLoop E rec cls warn kw i xs).val = .ok (xs.map g) := by
  intro xs
  induction xs with
  | nil => intro i _; rfl
  | cons x xs ih =>
    intro i h
    simp only [listLoop, bind_val, attempt_val, h x List.mem_cons_self, pure_val,
      ih (i + 1) fun y hy => h y (List.mem_cons_of_mem _ hy), List.map_cons]

theorem dictGet_texts {es : List (PyStr × Val)} {a : PyStr} (h : ∀ e ∈ es, e.1 ≠ a) :
    dictGet (es.map fun e => (Val.str e.1, e.2)) (.str a) = none := by
  induction es with
  | nil => rfl
  | cons e es ih =>
    have he := h e List.mem_cons_self
    rw [List.map_cons, dictGet, if_neg (by rw [pyEq_str]; simpa using he)]
    exact ih fun e he => h e (List.mem_cons_of_mem _ he)

theorem text_load {E : LEnv} {n : Nat} {s : PyStr} {kw kw0 : LoadKw} {f : PyStr → Val}
    (hd : DefaultDesers E kw.fork) (hv : NoValidators E kw.fork) (hk : kw.fork = kw0.fork)
    (hf : DatetimeOrText E kw0 f) : (load E (n + 2) (.str s) none kw).val = .ok (f s) := by
  have e : (load E (n + 1) (.str s) (some (.cls .datetime)) kw).val =
      (load E 1 (.str s) (some (.cls .datetime)) kw0).val := by
    rw [load_datetime hd hv, load_datetime (n := 0) (hk ▸ hd) (hk ▸ hv)]
  obtain ⟨h1, h2, _⟩ := text_is_datetime_only_unasked E n s kw hd hv
  obtain ⟨f1, f2⟩ := hf s
  rw [e] at h1 h2
  cases hx : (load E 1 (.str s) (some (.cls .datetime)) kw0).val with
  | ok d => rw [h1 d hx, f1 d hx]
  | error e =>
    have : ∀ d, (load E 1 (.str s) (some (.cls .datetime)) kw0).val ≠ .ok d := by
      intro d; rw [hx]; intro h; cases h
    rw [h2 this, f2 this]

theorem load_doc {E : LEnv} {kw0 : LoadKw} {f : PyStr → Val} {k : PyStr → PyStr}
    (hd : DefaultDesers E kw0.fork) (hv : NoValidators E kw0.fork) (hf : DatetimeOrText E kw0 f) :
    ∀ {d : Nat} {v : Val}, Doc k d v → ∀ (n : Nat) (kw : LoadKw), d + 2 ≤ n → kw.fork = kw0.fork →
      (∀ s, kw.keyTransformer.getD .ok (.str s) = .ok (.str (k s))) →
      (load E n v none kw).val = .ok (rewrite f k v) := by
  intro d v h
  induction h with
  | @scalar d v hs =>
    intro n kw hn hk hkt
    obtain ⟨n, rfl⟩ : ∃ m, n = m + 2 := ⟨n - 2, by omega⟩
    have hd' : DefaultDesers E kw.fork := hk ▸ hd
    have hv' : NoValidators E kw.fork := hk ▸ hv
    have prim : ∀ {v : Val}, v.cls ∈ validTypes → (v.cls.desFn E.info = .primitive ∨
        v.cls.desFn E.info = .noneType) → (∀ es, v ≠ .dict es) → Scalar v → (∀ s, v ≠ .str s) →
        (load E (n + 2) v none kw).val = .ok v := by
      intro v h1 h2 h3 h4 h5
      have hm : NoMeta v := fun es he => absurd he (h3 es)
      rcases h2 with h2 | h2
      · rw [(load_via_free h1 (noMeta_get hm _) hd' h2 (hv' _)).1, wrapRes_ok]
        match v, h4, h5 with
        | .atom .none, _, _ => rfl
        | .atom (.bool _), _, _ => rfl
        | .atom (.int _), _, _ => rfl
        | .atom (.float _), _, _ => rfl
        | .atom (.str s), _, h5 => exact absurd rfl (h5 s)
      · rw [(load_via_free h1 (noMeta_get hm _) hd' h2 (hv' _)).1, wrapRes_ok]
        match v, h4, h5 with
        | .atom .none, _, _ => rfl
        | .atom (.str s), _, h5 => exact absurd rfl (h5 s)
    match v, hs with
    | .atom .none, _ => exact prim (by simp [Val.cls, Atom.cls, validTypes]) (.inr rfl) (by simp) trivial (by simp)
    | .atom (.bool _), _ => exact prim (by simp [Val.cls, Atom.cls, validTypes]) (.inl rfl) (by simp) trivial (by simp)
    | .atom (.int _), _ => exact prim (by simp [Val.cls, Atom.cls, validTypes]) (.inl rfl) (by simp) trivial (by simp)
    | .atom (.float _), _ => exact prim (by simp [Val.cls, Atom.cls, validTypes]) (.inl rfl) (by simp) trivial (by simp)
    | .atom (.str s), _ => exact text_load hd' hv' hk hf
  | @list d xs h ih =>
    intro n kw hn hk hkt
    obtain ⟨n, rfl⟩ : ∃ m, n = m + 1 := ⟨n - 1, by omega⟩
    have hd' : DefaultDesers E kw.fork := hk ▸ hd
    have hv' : NoValidators E kw.fork := hk ▸ hv
    rw [(load_via_free (v := .list xs) (f := .list) (by simp [Val.cls, SeqKind.cls, validTypes]) rfl hd' rfl (hv' _)).1,
      wrapRes_ok]
    show (do let ys ← listDes E (load E n) (.list xs) [] (kwFree kw); pure (Val.list ys)).val = _
    have hl : (listDes E (load E n) (.list xs) [] (kwFree kw)).val = .ok (xs.map (rewrite f k)) := by
      show (listLoop E (load E n) none _ _ 0 xs).val = _
      exact listLoop_all xs 0 fun x hx => ih x hx n _ (by omega) hk hkt
    rw [bind_val, hl, rewrite, rewriteAll_eq]
    rfl
  | @dict d es h h' hnd ih =>
    intro n kw hn hk hkt
    obtain ⟨n, rfl⟩ : ∃ m, n = m + 1 := ⟨n - 1, by omega⟩
    have hd' : DefaultDesers E kw.fork := hk ▸ hd
    have hv' : NoValidators E kw.fork := hk ▸ hv
    have hm : NoMeta (.dict (es.map fun e => (.str e.1, e.2))) := by
      intro es' he
      cases he
      exact dictGet_texts fun e he => (h e he).1
    have hkeys : dictGet (es.map fun e => (Val.str e.1, e.2)) (.str keysKey) = none :=
      dictGet_texts fun e he => (h e he).2
    rw [(load_via_free (f := .mapping) (by simp [Val.cls, validTypes]) (noMeta_get hm _) hd' rfl (hv' _)).1,
      wrapRes_ok]
    show (do let r ← dictDes E (load E n) (.dict (es.map fun e : PyStr × Val => (.str e.1, e.2))) []
                (kwFree kw)
             pure (Val.dict r)).val = _
    have hdd : (dictDes E (load E n) (.dict (es.map fun e => (.str e.1, e.2))) [] (kwFree kw)).val =
        .ok (es.map fun e => (.str (k e.1), rewrite f k e.2)) := by
      unfold dictDes
      have hh : loadHashedKeys E (load E n) (.dict (es.map fun e => (.str e.1, e.2))) [] (kwFree kw) =
          pure (es.map fun e => (.str e.1, e.2), false) := by
        unfold loadHashedKeys
        simp only [hkeys]
      rw [hh]
      show (dictComp E.info (fun x => Res.lift (kw.keyTransformer.getD .ok x))
        (fun x => load E n x none { kwFree kw with keyTransformer := some (kw.keyTransformer.getD .ok) })
        [] (es.map fun e => (.str e.1, e.2))).val = _
      refine (dictComp_ok _ _ _).2 ⟨es.map fun e => (.str (k e.1), rewrite f k e.2), ?_, ?_⟩
      · clear hm hkeys hnd hh
        induction es with
        | nil => exact .nil
        | cons e es ihs =>
          refine .cons ⟨?_, ?_, rfl⟩ (ihs (fun e he => h e (List.mem_cons_of_mem _ he))
            (fun e he => h' e (List.mem_cons_of_mem _ he)) fun e he => ih e (List.mem_cons_of_mem _ he))
          · show (Res.lift (kw.keyTransformer.getD .ok (.str e.1))).val = _
            rw [lift_val]; exact hkt e.1
          · exact ih e List.mem_cons_self n _ (by omega) hk fun s => hkt s
      · refine (entries_distinct ?_).symm
        rw [List.pairwise_map]
        have hp : es.Pairwise fun a b => k a.1 ≠ k b.1 := by
          have := hnd
          rwa [List.Nodup, List.pairwise_map] at this
        exact hp.imp fun hab => by rw [pyEq_str]; simpa using hab
    rw [bind_val, hdd, rewrite, rewriteEntries_eq]
    rfl

theorem doc_rewrite_same {f : PyStr → Val} {d : Nat} {v : Val} (hv : Doc id d v)
    (h : ∀ s, TextIn s v → f s = .str s) : rewrite f id v = v := by
  induction hv with
  | @scalar d v hs =>
    match v, hs with
    | .atom .none, _ => rfl
    | .atom (.bool _), _ => rfl
    | .atom (.int _), _ => rfl
    | .atom (.float _), _ => rfl
    | .atom (.str s), _ => exact h s .self
  | @list d xs hx ih =>
    rw [rewrite, rewriteAll_eq]
    congr 1
    have : xs.map (rewrite f id) = xs.map id :=
      List.map_congr_left fun x hx => ih x hx fun s hs => h s (.list hx hs)
    rw [this, List.map_id]
  | @dict d es _ _ _ ih =>
    rw [rewrite, rewriteEntries_eq]
    congr 1
    exact List.map_congr_left fun e he => by
      rw [ih e he fun s hs => h s (.dict (List.mem_map_of_mem he) hs)]
      rfl

/-! ## The theorems -/

/-- C80, for documents without the keys '-meta' and '-keys': `load(j)` without a type
gives the document `j` itself, in which every text that can be loaded as a `datetime` is
replaced by that `datetime`; nothing else changes, except that the keys are renamed if
there is a key transformer (`k` is what it does; the identity without one). -/
theorem load_document_partial (E : LEnv) (d n : Nat) (j : Val) (kw : LoadKw) (f : PyStr → Val)
    (k : PyStr → PyStr) (hd : DefaultDesers E kw.fork) (hv : NoValidators E kw.fork)
    (hf : DatetimeOrText E kw f)
    (hk : ∀ s, kw.keyTransformer.getD .ok (.str s) = .ok (.str (k s)))
    (hj : Doc k d j) (hn : d + 2 ≤ n) :
    (load E n j none kw).val = .ok (rewrite f k j) :=
  load_doc hd hv hf hj n kw hn rfl hk

/-- C80: a document in which no text can be loaded as a `datetime` is loaded as it is. -/
theorem load_document_same (E : LEnv) (d n : Nat) (j : Val) (kw : LoadKw)
    (hd : DefaultDesers E kw.fork) (hv : NoValidators E kw.fork) (hk : kw.keyTransformer = none)
    (hj : Doc id d j) (hn : d + 2 ≤ n)
    (ht : ∀ s, TextIn s j → ∀ r, (load E 1 (.str s) (some (.cls .datetime)) kw).val ≠ .ok r) :
    (load E n j none kw).val = .ok j := by
  let f : PyStr → Val := fun s => match (load E 1 (.str s) (some (.cls .datetime)) kw).val with
    | .ok r => r
    | .error _ => .str s
  have hf : DatetimeOrText E kw f := by
    intro s
    refine ⟨fun r h => ?_, fun h => ?_⟩
    · show (match (load E 1 (.str s) (some (.cls .datetime)) kw).val with
        | .ok r => r
        | .error _ => .str s) = _
      rw [h]
    · show (match (load E 1 (.str s) (some (.cls .datetime)) kw).val with
        | .ok r => r
        | .error _ => .str s) = _
      cases hx : (load E 1 (.str s) (some (.cls .datetime)) kw).val with
      | ok r => exact absurd hx (h r)
      | error e => rfl
  rw [load_document_partial E d n j kw f id hd hv hf (fun s => by rw [hk]; rfl) hj hn,
    doc_rewrite_same hj fun s hs => (hf s).2 (ht s hs)]

/-- The documents of `load_document_partial` and `load_document_same`: a nested document
with a text that is a datetime, also as a key, where it stays a text. -/
def exDoc : Val := .dict [
  (.str "2020-01-01T00:00:00Z".toList, .list [.int 1, .none, .str "2020-01-01T00:00:00Z".toList]),
  (.str "b".toList, .dict [(.str "c".toList, .bool true), (.str "d".toList, .float (1 / 2))])]

theorem exDoc_doc : Doc id 2 exDoc := by
  refine .dict (es := [("2020-01-01T00:00:00Z".toList,
      .list [.int 1, .none, .str "2020-01-01T00:00:00Z".toList]),
    ("b".toList, .dict [(.str "c".toList, .bool true), (.str "d".toList, .float (1 / 2))])]) ?_ ?_ (by decide)
  · simp [metaKey, keysKey]
  · simp only [List.forall_mem_cons]
    refine ⟨.list ?_, .dict (es := [("c".toList, .bool true), ("d".toList, .float (1 / 2))]) ?_ ?_
      (by decide), by simp⟩
    · simp only [List.forall_mem_cons]
      exact ⟨.scalar trivial, .scalar trivial, .scalar trivial, by simp⟩
    · simp [metaKey, keysKey]
    · simp only [List.forall_mem_cons]
      exact ⟨.scalar trivial, .scalar trivial, by simp⟩

example (f : PyStr → Val) (hf : DatetimeOrText (demoLEnv demoInfo) {} f) :
    (load (demoLEnv demoInfo) 4 exDoc none {}).val = .ok (.dict [
      (.str "2020-01-01T00:00:00Z".toList, .list [.int 1, .none,
        .atom (.datetime ⟨2020, 1, 1, 0, 0, 0, 0, some Datetime.Tz.utc⟩)]),
      (.str "b".toList, .dict [(.str "c".toList, .bool true), (.str "d".toList, .float (1 / 2))])]) := by
  rw [load_document_partial _ 2 4 exDoc {} f id (demo_desers 0) (demo_novals 0) hf (fun _ => rfl)
    exDoc_doc (by decide)]
  have := (hf "2020-01-01T00:00:00Z".toList).1
    (.atom (.datetime ⟨2020, 1, 1, 0, 0, 0, 0, some Datetime.Tz.utc⟩)) (by rfl)
  simp only [exDoc, rewrite, rewriteAll, rewriteEntries, this]
  rfl

example : (load (demoLEnv demoInfo) 4 (.list [.str "x".toList, .list [.int 1]]) none {}).val =
    .ok (.list [.str "x".toList, .list [.int 1]]) := by
  refine load_document_same _ 2 4 _ {} (demo_desers 0) (demo_novals 0) rfl ?_ (by decide) ?_
  · refine .list ?_
    simp only [List.forall_mem_cons]
    refine ⟨.scalar trivial, .list ?_, by simp⟩
    simp only [List.forall_mem_cons]
    exact ⟨.scalar trivial, by simp⟩
  · intro s hs r h
    cases hs with
    | list hx hs =>
      simp only [List.mem_cons, List.not_mem_nil, or_false] at hx
      rcases hx with rfl | rfl
      · cases hs
        exact absurd h (by rw [show (load (demoLEnv demoInfo) 1 (.str "x".toList)
          (some (.cls .datetime)) {}).val = .error _ from rfl]; simp)
      · cases hs with
        | list hx hs =>
          simp only [List.mem_cons, List.not_mem_nil, or_false] at hx
          subst hx
          cases hs

/-- Why C80 is not true of every document: an entry '-keys' with something in it makes
`load` fail. -/
theorem load_document_fails_keys : ∃ (j : Val), (∀ info, Json info j) ∧
    ∀ (E : LEnv) (n : Nat), DefaultDesers E 0 → NoValidators E 0 →
      ∃ e, (load E (n + 1) j none {}).val = .error e ∧ e.kind = .deserializationError := by
  refine ⟨.dict [(.str keysKey, .list [.int 1])], ?_, ?_⟩
  · refine fun info => .dict (fun e he => ?_) fun e he => ?_
    · rw [List.mem_singleton] at he
      subst he
      exact ⟨trivial, trivial⟩
    · rw [List.mem_singleton] at he
      subst he
      refine .list fun x hx => ?_
      rw [List.mem_singleton] at hx
      subst hx
      exact .leaf trivial
  · intro E n hd hv
    rw [(load_via_free (f := .mapping) (by simp [Val.cls, validTypes]) rfl hd rfl (hv _)).1]
    exact ⟨_, rfl, rfl⟩

end Verif.Props.LoadPlain
