import Verif.Props.VerboseRoundTrip
import Verif.Props.LoadPlain

/-!
# C60: lists and dicts of objects, dumped verbosely and loaded without a class
-/

set_option autoImplicit false

namespace Verif.Props.VerboseCollections
open Verif Verif.Core
open Verif.Props.LoadBasics Verif.Props.LoadCollections Verif.Props.LoadPlain
open Verif.Props.DumpVerbose Verif.Props.RoundTrip Verif.Props.VerboseRoundTrip

/-! ## Specification -/

/-- Objects without objects in them, numbers, texts that are no datetimes, and lists and
dicts of such things, at most `d` deep. -/
inductive Coll (E : LEnv) (fork : Nat) (kw : DumpKw) (N : Nat) : Nat → Val → Prop
  | obj {d : Nat} {v : Val} : ObjTree E fork kw N 1 v → Coll E fork kw N d v
  | scalar {d : Nat} {v : Val} : v.cls ∈ [Cls.int, .float, .bool, .noneType] → Coll E fork kw N d v
  | text {d : Nat} {s : PyStr} :
      (∀ r, (load E 1 (.str s) (some (.cls .datetime)) { fork := fork }).val ≠ .ok r) →
      Coll E fork kw N d (.str s)
  | list {d : Nat} {xs : List Val} : (∀ x ∈ xs, Coll E fork kw N d x) →
      Coll E fork kw N (d + 1) (.list xs)
  | dict {d : Nat} {es : List (PyStr × Val)} : (∀ e ∈ es, e.1 ≠ metaKey ∧ e.1 ≠ keysKey) →
      (es.map (·.1)).Nodup → (∀ e ∈ es, Coll E fork kw N d e.2) →
      Coll E fork kw N (d + 1) (.dict (es.map fun e => (.str e.1, e.2)))

/-! ## Proof -/

section
variable {E : LEnv} {fork N : Nat} {kw : DumpKw}

theorem flat_of_tree {v : Val} (h : ObjTree E fork kw N 1 v) : Flat v := by
  rintro c as m c1 as1 rfl hm
  obtain ⟨c', as', he, _, _, _, _, hp⟩ := h
  cases he
  obtain ⟨_, _, _, hl | ⟨_, ht⟩⟩ := hp _ hm
  · exact hl.noObj _ _ rfl
  · exact ht.elim

theorem apart_of_flat {v : Val} (h : Flat v) : Apart v := by
  intro p c as ha m c1 as1 m' c2 as2 h1 _ _ _ _ _ _
  exfalso
  cases ha with
  | here => exact h _ _ _ _ _ rfl h1
  | step h3 h4 =>
    cases h4 with
    | here => exact h _ _ _ _ _ rfl h3
    | step _ _ => exact h _ _ _ _ _ rfl h3

theorem dictLoop_texts {Ev : Env} {rec : Rec} {kw : DumpKw} (hty : kw.types = [])
    (hnulls : kw.stripNulls = false) (hkeys : kw.keyTransformer = none) :
    ∀ (es : List (PyStr × Val)) (js : List Val) (acc : List (Val × Val)),
      List.Forall₂ (fun e j => (rec.dump e.2 none kw).val = .ok j) es js →
      (es.map (·.1)).Nodup → (∀ a ∈ acc, ∀ b ∈ es, pyEq a.1 (.str b.1) = false) →
      (dictLoop Ev rec kw (es.map fun e => (.str e.1, e.2)) acc).val =
        .ok (acc ++ (es.map (·.1)).zipWith (fun k j => (.str k, j)) js) := by
  intro es
  induction es with
  | nil => intro js acc h _ _; cases h; simp [dictLoop]
  | cons e es ih =>
    obtain ⟨k, v⟩ := e
    intro js acc h1 h2 h3
    cases h1 with
    | @cons _ j _ js hj hjs =>
    have hvalid : isValidJsonKey Ev (.str k) = true := by
      simp [isValidJsonKey, Val.cls, Atom.cls, Cls.sub]
    have hns : ∀ s : PyStr, assoc kw.types s = none := by intro s; rw [hty]; rfl
    have hadd : addDumped kw acc (.str k) j = .ok (acc ++ [(.str k, j)]) := by
      simp only [addDumped, hnulls, Bool.false_and, transformKey, hkeys, Except.map,
        Bool.false_eq_true, if_false]
      rw [dictSet_new (fun a ha => h3 a ha _ List.mem_cons_self)]
    have hkw : ({ kw with types := [] } : DumpKw) = kw := by rw [← hty]
    simp only [List.map_cons, dictLoop, hns, storeAndHash, hvalid, if_true, pure_bind', hkw]
    rw [Core.bind_ok]
    refine ⟨j, hj, ?_⟩
    rw [Core.bind_ok]
    refine ⟨acc ++ [(.str k, j)], by rw [hadd]; rfl, ?_⟩
    rw [List.map_cons, List.nodup_cons] at h2
    rw [ih js (acc ++ [(Val.str k, j)]) hjs h2.2 ?_]
    · simp
    · intro a ha b hb
      rcases List.mem_append.1 ha with ha | ha
      · exact h3 a ha b (List.mem_cons_of_mem _ hb)
      · rw [List.mem_singleton] at ha
        subst ha
        rw [pyEq_str]
        have : k ≠ b.1 := fun h => h2.1 (List.mem_map.2 ⟨b, hb, h.symm⟩)
        simpa using this

theorem scalar_dump (hs : DefaultSers E.toEnv fork) (hf : kw.fork = fork) {v : Val}
    (hc : v.cls ∈ [Cls.str, .int, .float, .bool, .noneType]) (n : Nat) :
    (dump E.toEnv (n + 2) v none kw).val = .ok v := by
  have hser : (Ty.cls v.cls).serFn E.info = some .primitive := by
    simp only [List.mem_cons, List.not_mem_nil, or_false] at hc
    rcases hc with h | h | h | h | h <;> rw [h] <;> rfl
  rw [dump_via (f := .primitive) (by rw [hf]; exact hs) hser]
  rfl

/-- What is known of an element: its dump and what is loaded from it. -/
def ElemBack (E : LEnv) (fork : Nat) (kw : DumpKw) (B : Nat) (v j r : Val) : Prop :=
  Same v r ∧ ∀ n, B ≤ n → (dump E.toEnv (n + 2) v none kw).val = .ok j ∧
    ∀ kw', LoadNeutral fork kw' → (load E (n + 1) j none kw').val = .ok r

theorem elems_back {α : Type} {f : α → Val} {B : Nat} : ∀ (xs : List α),
    (∀ x ∈ xs, ∃ j r, ElemBack E fork kw B (f x) j r) →
    ∃ js rs, List.Forall₂ (fun x j => ∀ n, B ≤ n → (dump E.toEnv (n + 2) (f x) none kw).val = .ok j) xs js ∧
      List.Forall₂ (fun j r => ∀ n, B ≤ n → ∀ kw', LoadNeutral fork kw' →
        (load E (n + 1) j none kw').val = .ok r) js rs ∧
      List.Forall₂ (fun x r => Same (f x) r) xs rs := by
  intro xs
  induction xs with
  | nil => intro _; exact ⟨[], [], .nil, .nil, .nil⟩
  | cons x xs ih =>
    intro h
    obtain ⟨j, r, h1, h2⟩ := h x List.mem_cons_self
    obtain ⟨js, rs, h3, h4, h5⟩ := ih fun y hy => h y (List.mem_cons_of_mem _ hy)
    exact ⟨j :: js, r :: rs, .cons (fun n hn => (h2 n hn).1) h3, .cons (fun n hn => (h2 n hn).2) h4,
      .cons h1 h5⟩

theorem listLoop_rel {rec : LRec} {kw : LoadKw} {warn : Bool} {js rs : List Val}
    (h : List.Forall₂ (fun j r => (rec j none kw).val = .ok r) js rs) : ∀ i,
    (listLoop E rec none warn kw i js).val = .ok rs := by
  induction h with
  | nil => intro i; rfl
  | cons h1 _ ih =>
    intro i
    simp only [listLoop, bind_val, attempt_val, h1, pure_val, ih]

theorem coll_back (hs : DefaultSers E.toEnv fork) (hd : DefaultDesers E fork)
    (hv : NoValidators E fork) (hk : DumpNeutral fork { kw with verbose := {} })
    (hsc : kw.storeCls = false) (hci : kw.verbose.classInfo = true) {d : Nat} {v : Val}
    (h : Coll E fork kw N d v) : ∃ j r, ElemBack E fork kw (N + 3 + 2 * d) v j r := by
  have hkf : kw.fork = fork := hk.fork
  have hs' : DefaultSers E.toEnv kw.fork := by rw [hkf]; exact hs
  induction h with
  | @obj d v h =>
    have hfl := flat_of_tree h
    obtain ⟨j, r, h1, h2⟩ := verbose_back E fork N 1 kw v hs hd hv hk hsc hci h (apart_of_flat hfl)
    exact ⟨j, r, h1, fun n hn => ⟨(h2 n (by omega)).1, fun kw' hk' => (h2 n (by omega)).2 kw' hk' (.inr hfl)⟩⟩
  | @scalar d v h =>
    refine ⟨v, v, .refl _, fun n hn => ⟨scalar_dump hs hkf ?_ n, fun kw' hk' => ?_⟩⟩
    · exact List.mem_cons_of_mem _ h
    · exact prim_free hd hv h (by omega) hk'.fork
  | @text d s h =>
    refine ⟨.str s, .str s, .refl _, fun n hn => ⟨scalar_dump hs hkf (by simp [Val.cls, Atom.cls]) n,
      fun kw' hk' => ?_⟩⟩
    obtain ⟨n, rfl⟩ : ∃ m, n = m + 1 := ⟨n - 1, by omega⟩
    have hd' : DefaultDesers E kw'.fork := by rw [hk'.fork]; exact hd
    have hv' : NoValidators E kw'.fork := by rw [hk'.fork]; exact hv
    refine (text_is_datetime_only_unasked E n s kw' hd' hv').2.1 fun r hr => h r ?_
    rw [load_datetime hd' hv'] at hr
    rw [load_datetime (n := 0) hd hv]
    exact hr
  | @list d xs _ ih =>
    obtain ⟨js, rs, h1, h2, h3⟩ := elems_back (f := id) xs ih
    refine ⟨.list js, .list rs, .seq h3, fun n hn => ⟨?_, fun kw' hk' => ?_⟩⟩
    · refine dump_list_none hs hkf hk.strict (h1.imp fun x j hj => ?_)
      have hkw : ({ kw with storeCls := false } : DumpKw) = kw := by rw [← hsc]
      rw [hkw]
      obtain ⟨n, rfl⟩ : ∃ m, n = m + 2 := ⟨n - 2, by omega⟩
      exact hj n (by omega)
    · have hd' : DefaultDesers E kw'.fork := by rw [hk'.fork]; exact hd
      rw [(load_via_free (v := .list js) (f := .list) (by simp [Val.cls, SeqKind.cls, validTypes]) rfl
        hd' rfl (by rw [hk'.fork]; exact hv _)).1, wrapRes_ok]
      show (do let ys ← listDes E (load E n) (.list js) [] (kwFree kw'); pure (Val.list ys)).val = _
      have hl : (listDes E (load E n) (.list js) [] (kwFree kw')).val = .ok rs := by
        show (listLoop E (load E n) none _ _ 0 js).val = _
        refine listLoop_rel (h2.imp fun j r hjr => ?_) 0
        obtain ⟨n, rfl⟩ : ∃ m, n = m + 1 := ⟨n - 1, by omega⟩
        exact hjr n (by omega) _ ⟨hk'.fork, hk'.getters, hk'.keys, hk'.hints, rfl, hk'.enums⟩
      rw [bind_val, hl]
      rfl
  | @dict d es hkeys hnd _ ih =>
    obtain ⟨js, rs, h1, h2, h3⟩ := elems_back (f := fun e : PyStr × Val => e.2) es ih
    have hl1 : es.length = js.length := h1.length_eq
    have hl2 : js.length = rs.length := h2.length_eq
    have hkm : ∀ (ks : List PyStr) (ws : List Val), ks.length = ws.length →
        (ks.zipWith (fun k j => (Val.str k, j)) ws).map (·.1) = ks.map .str ∧
        (ks.zipWith (fun k j => (Val.str k, j)) ws).map (·.2) = ws := by
      intro ks
      induction ks with
      | nil => intro ws h; cases ws with
        | nil => exact ⟨rfl, rfl⟩
        | cons w ws => cases h
      | cons k ks ihk => intro ws h; cases ws with
        | nil => cases h
        | cons w ws =>
          have := ihk ws (by simpa using h)
          simp only [List.zipWith_cons_cons, List.map_cons, this, and_self]
    have hform : ∀ ws : List Val, es.length = ws.length →
        (es.map (·.1)).zipWith (fun k j => (Val.str k, j)) ws =
          ((es.map (·.1)).zip ws).map fun e => (Val.str e.1, e.2) := by
      intro ws _
      rw [List.zip, List.map_zipWith]
    have hmem : ∀ e ∈ (es.map (·.1)).zip js, e.1 ≠ metaKey ∧ e.1 ≠ keysKey := by
      intro e he
      obtain ⟨e', he', h⟩ := List.mem_map.1 (List.of_mem_zip he).1
      have := hkeys e' he'
      rwa [show e'.1 = e.1 from h] at this
    refine ⟨.dict ((es.map (·.1)).zipWith (fun k j => (.str k, j)) js),
      .dict ((es.map (·.1)).zipWith (fun k j => (.str k, j)) rs), .dict ?_ ?_,
      fun n hn => ⟨?_, fun kw' hk' => ?_⟩⟩
    · rw [(hkm _ rs (by simp only [List.length_map]; omega)).1, List.map_map, List.map_map]
      rfl
    · rw [(hkm _ rs (by simp only [List.length_map]; omega)).2, List.map_map,
        List.forall₂_map_left_iff]
      exact h3
    · rw [dump_via (f := .dict) hs' rfl]
      show (do let r ← dictLoop E.toEnv (recOf E.toEnv n) kw (es.map fun e : PyStr × Val => (.str e.1, e.2)) []
               pure (Val.dict r)).val = _
      rw [bind_val, dictLoop_texts (kw := kw) hk.types hk.nulls hk.keys es js [] (h1.imp fun x j hj => ?_) hnd (by simp)]
      · rfl
      · obtain ⟨n, rfl⟩ : ∃ m, n = m + 2 := ⟨n - 2, by omega⟩
        exact hj n (by omega)
    · have hd' : DefaultDesers E kw'.fork := by rw [hk'.fork]; exact hd
      have hm : NoMeta (.dict ((es.map (·.1)).zipWith (fun k j => (Val.str k, j)) js)) := by
        intro es' he
        cases he
        rw [hform js hl1]
        exact dictGet_texts fun e he => (hmem e he).1
      have hkk : dictGet ((es.map (·.1)).zipWith (fun k j => (Val.str k, j)) js) (.str keysKey) = none := by
        rw [hform js hl1]
        exact dictGet_texts fun e he => (hmem e he).2
      rw [(load_via_free (f := .mapping) (by simp [Val.cls, validTypes]) (noMeta_get hm _) hd' rfl
        (by rw [hk'.fork]; exact hv _)).1, wrapRes_ok]
      show (do let r ← dictDes E (load E n) (.dict ((es.map fun e : PyStr × Val => e.1).zipWith (fun k j => (Val.str k, j)) js)) []
                  (kwFree kw')
               pure (Val.dict r)).val = _
      have hdd : (dictDes E (load E n) (.dict ((es.map (·.1)).zipWith (fun k j => (Val.str k, j)) js)) []
          (kwFree kw')).val = .ok ((es.map (·.1)).zipWith (fun k j => (Val.str k, j)) rs) := by
        unfold dictDes
        have hh : loadHashedKeys E (load E n) (.dict ((es.map (·.1)).zipWith (fun k j => (Val.str k, j)) js)) []
            (kwFree kw') = pure ((es.map (·.1)).zipWith (fun k j => (Val.str k, j)) js, false) := by
          unfold loadHashedKeys
          simp only [hkk]
        rw [hh]
        show (dictComp E.info (fun x => Res.lift (kw'.keyTransformer.getD .ok x))
          (fun x => load E n x none { kwFree kw' with keyTransformer := some (kw'.keyTransformer.getD .ok) })
          [] ((es.map (·.1)).zipWith (fun k j => (Val.str k, j)) js)).val = _
        refine (dictComp_ok _ _ _).2 ⟨(es.map (·.1)).zipWith (fun k j => (Val.str k, j)) rs, ?_, ?_⟩
        · obtain ⟨n, rfl⟩ : ∃ m, n = m + 1 := ⟨n - 1, by omega⟩
          have hload : List.Forall₂ (fun j r => (load E (n + 1) j none
              { kwFree kw' with keyTransformer := some (kw'.keyTransformer.getD .ok) }).val = .ok r) js rs :=
            h2.imp fun j r hjr => hjr n (by omega) _
              ⟨hk'.fork, hk'.getters, hk'.keys, hk'.hints, hk'.warn, hk'.enums⟩
          have : ∀ ks : List PyStr, ks.length = js.length → List.Forall₂ (fun e p : Val × Val =>
              (Res.lift (kw'.keyTransformer.getD .ok e.1)).val = .ok p.1 ∧
              (load E (n + 1) e.2 none
                { kwFree kw' with keyTransformer := some (kw'.keyTransformer.getD .ok) }).val = .ok p.2 ∧
              p.1.hashable E.info = true)
              (ks.zipWith (fun k j => (Val.str k, j)) js) (ks.zipWith (fun k j => (Val.str k, j)) rs) := by
            clear h1 h2 h3 hl1 hl2 hmem hm hkk hh
            induction hload with
            | nil => intro ks _; simp
            | cons h4 _ ih4 =>
              intro ks hks
              cases ks with
              | nil => cases hks
              | cons k ks =>
                refine .cons ⟨?_, h4, rfl⟩ (ih4 ks (by simpa using hks))
                rw [lift_val]
                exact hk'.keys _
          exact this _ (by simpa using hl1)
        · refine (entries_distinct ?_).symm
          have hkk' := (hkm (es.map (·.1)) rs (by simp only [List.length_map]; omega)).1
          have hp : ((es.map (·.1)).map Val.str).Pairwise fun a b => pyEq a b = false := by
            rw [List.pairwise_map]
            exact hnd.imp fun hab => by rw [pyEq_str]; simpa using hab
          rw [← hkk', List.pairwise_map] at hp
          exact hp
      rw [bind_val, hdd]
      rfl

end

/-! ## C60 -/

/-- C60, `_partial`: lists and dicts of objects, nested in any way, that are dumped with
class info can be loaded without a class being given: every object gets its own class.
The objects have no objects as attributes; with such ones the claim is false
(`verbose_collection_fails`), as the class names of the element itself are not used while
a collection is loaded.  Missing: see `VerboseRoundTrip.verbose_round_trip_partial`. -/
theorem verbose_collection_partial (E : LEnv) (fork N d : Nat) (kw : DumpKw) (v : Val)
    (hs : DefaultSers E.toEnv fork) (hd : DefaultDesers E fork) (hv : NoValidators E fork)
    (hk : DumpNeutral fork { kw with verbose := {} }) (hsc : kw.storeCls = false)
    (hci : kw.verbose.classInfo = true) (hT : Coll E fork kw N d v) :
    ∃ j r, Same v r ∧ ∀ n, N + 3 + 2 * d ≤ n →
      (dump E.toEnv (n + 2) v none kw).val = .ok j ∧
      ∀ kw', LoadNeutral fork kw' → (load E (n + 1) j none kw').val = .ok r :=
  coll_back hs hd hv hk hsc hci hT

/-- `{'a': [Point(1, 2), None], 'b': Point(3, 4)}` -/
theorem demo_coll : Coll (demoLEnv demoInfo) 0 verboseKw 2 2
    (.dict ([("a".toList, .list [pt 1 2, .none]), ("b".toList, pt 3 4)].map
      fun e : PyStr × Val => (.str e.1, e.2))) := by
  refine .dict (by decide) (by decide) ?_
  intro e he
  simp only [List.mem_cons, List.not_mem_nil, or_false] at he
  rcases he with rfl | rfl
  · refine .list ?_
    intro x hx
    simp only [List.mem_cons, List.not_mem_nil, or_false] at hx
    rcases hx with rfl | rfl
    · exact .obj (demo_pt 1 2)
    · exact .scalar (by simp [Val.cls, Atom.cls])
  · exact .obj (demo_pt 3 4)

example : ∃ j r, Same (.dict [(.str "a".toList, .list [pt 1 2, .none]), (.str "b".toList, pt 3 4)]) r ∧
    (dump (demoEnv demoInfo) 20 (.dict [(.str "a".toList, .list [pt 1 2, .none]),
      (.str "b".toList, pt 3 4)]) none verboseKw).val = .ok j ∧
    (load (demoLEnv demoInfo) 19 j none {}).val = .ok r := by
  obtain ⟨j, r, h1, h2⟩ := verbose_collection_partial (demoLEnv demoInfo) 0 2 2 verboseKw _ (demo_sers 0)
    (demo_desers 0) (demo_novals 0) demo_verboseKw rfl rfl demo_coll
  obtain ⟨h3, h4⟩ := h2 18 (by omega)
  exact ⟨j, r, h1, h3, h4 {} ⟨rfl, rfl, fun _ => rfl, rfl, rfl, by simp⟩⟩

/-- C60 is false for objects in objects in a list at the top, too: the `Point` of
`[Person(Point(1, 2), 7)]` is loaded as a dict, though by itself the person comes back. -/
theorem verbose_collection_fails : ∃ j,
    (dump (demoEnv demoInfo) 9 (.list [person (pt 1 2) (.int 7)]) none verboseKw).val = .ok (.list [j]) ∧
    (load (demoLEnv demoInfo) 9 (.list [j]) none {}).val = .ok (.list [person
      (.dict [(.str "x".toList, .int 1), (.str "y".toList, .int 2)]) (.int 7)]) ∧
    (load (demoLEnv demoInfo) 9 j none {}).val = .ok (person (pt 1 2) (.int 7)) :=
  ⟨_, rfl, by decide +kernel, by decide +kernel⟩

end Verif.Props.VerboseCollections
