import Verif.Core.DumpClosure

/-! # Lemmas about the `-meta` section -/

set_option autoImplicit false

namespace Verif.Core
open Verif

theorem dictGet_mem {es : List (Val × Val)} {k v : Val} (h : dictGet es k = some v) :
    ∃ e ∈ es, e.2 = v ∧ pyEq e.1 k = true := by
  induction es with
  | nil => cases h
  | cons p es ih =>
    simp only [dictGet] at h
    split at h
    · next he => exact ⟨p, List.mem_cons_self, Option.some.inj h, he⟩
    · obtain ⟨e, he, h⟩ := ih h
      exact ⟨e, List.mem_cons_of_mem _ he, h⟩

section
variable {info : Nat → ClassInfo}

mutual
theorem fillVal_json : ∀ (v : Val) (pre : PyStr) (coll : List (Val × Val)) (v' n : Val)
    (coll' : List (Val × Val)), Json info v → Entries info (JsonLeaf info) (fun _ => True) coll →
    fillVal v pre coll = .ok (v', n, coll') →
    Json info v' ∧ Json info n ∧ Entries info (JsonLeaf info) (fun _ => True) coll'
  | .dict es, pre, coll, v', n, coll', hv, hc, h => by
    rw [fillVal] at h
    cases hf : fillEntries es pre coll with
    | error e => rw [hf] at h; cases h
    | ok p =>
      obtain ⟨es', c'⟩ := p
      rw [hf] at h
      cases h
      have he := JsonWith.entries hv
      obtain ⟨h1, h2⟩ := fillEntries_json es pre coll es' _ he hc hf
      refine ⟨h1.dict, ?_, h2⟩
      cases hg : dictGet es (.str clsKey) with
      | none => exact .leaf trivial
      | some w =>
        obtain ⟨e, he', rfl, _⟩ := dictGet_mem hg
        exact (he e he').2
  | .atom _, pre, coll, v', n, coll', hv, hc, h => by
    rw [fillVal] at h
    · cases h; exact ⟨hv, .leaf trivial, hc⟩
    · intro es h; cases h
  | .seq _ _, pre, coll, v', n, coll', hv, hc, h => by
    rw [fillVal] at h
    · cases h; exact ⟨hv, .leaf trivial, hc⟩
    · intro es h; cases h
  | .ddict _ _, pre, coll, v', n, coll', hv, hc, h => by
    rw [fillVal] at h
    · cases h; exact ⟨hv, .leaf trivial, hc⟩
    · intro es h; cases h
  | .ntuple _ _, pre, coll, v', n, coll', hv, hc, h => by
    rw [fillVal] at h
    · cases h; exact ⟨hv, .leaf trivial, hc⟩
    · intro es h; cases h
  | .enum _ _, pre, coll, v', n, coll', hv, hc, h => by
    rw [fillVal] at h
    · cases h; exact ⟨hv, .leaf trivial, hc⟩
    · intro es h; cases h
  | .obj _ _, pre, coll, v', n, coll', hv, hc, h => by
    rw [fillVal] at h
    · cases h; exact ⟨hv, .leaf trivial, hc⟩
    · intro es h; cases h
theorem fillEntries_json : ∀ (es : List (Val × Val)) (pre : PyStr) (coll es' coll' : List (Val × Val)),
    Entries info (JsonLeaf info) (fun _ => True) es →
    Entries info (JsonLeaf info) (fun _ => True) coll →
    fillEntries es pre coll = .ok (es', coll') →
    Entries info (JsonLeaf info) (fun _ => True) es' ∧
    Entries info (JsonLeaf info) (fun _ => True) coll'
  | [], pre, coll, es', coll', he, hc, h => by
    rw [fillEntries] at h; cases h; exact ⟨he, hc⟩
  | (k, v) :: es, pre, coll, es', coll', he, hc, h => by
    have hes : Entries info (JsonLeaf info) (fun _ => True) es :=
      fun e h => he e (List.mem_cons_of_mem _ h)
    have hkv := he _ List.mem_cons_self
    have rest : ∀ c w, Json info w → Entries info (JsonLeaf info) (fun _ => True) c →
        (do let (es', coll') ← fillEntries es pre c; Except.ok ((k, w) :: es', coll')) =
          .ok (es', coll') →
        Entries info (JsonLeaf info) (fun _ => True) es' ∧
        Entries info (JsonLeaf info) (fun _ => True) coll' := by
      intro c w hw hc h
      cases hf : fillEntries es pre c with
      | error e => rw [hf] at h; cases h
      | ok p =>
        obtain ⟨es1, c1⟩ := p
        rw [hf] at h
        cases h
        obtain ⟨h1, h2⟩ := fillEntries_json es pre c es1 _ hes hc hf
        refine ⟨?_, h2⟩
        intro e h
        rcases List.mem_cons.1 h with rfl | h
        · exact ⟨⟨hkv.1.1, trivial⟩, hw⟩
        · exact h1 e h
    rw [fillEntries.eq_def] at h
    simp only at h
    split at h
    · exact fillEntries_json es pre coll es' coll' hes hc h
    · split at h
      · split at h
        · exact rest coll _ hkv.2 hc h
        · split at h
          · rename_i ds _ a _ _
            cases hf : fillVal (.dict ds) (pre ++ a ++ ['/']) coll with
            | error e => rw [hf] at h; cases h
            | ok p =>
              obtain ⟨w, nm, c1⟩ := p
              rw [hf] at h
              obtain ⟨h1, h2, h3⟩ := fillVal_json (.dict ds) _ coll w nm c1 hkv.2 hc hf
              exact rest _ _ h1 (h3.set (k := .str (pre ++ a)) trivial trivial h2) h
          · cases h
      · exact rest coll _ hkv.2 hc h
end

theorem dictWithMeta_noClass {E : Env} {es : List (Val × Val)} {s : PyStr} {vb : Verbosity}
    (hv : vb.classInfo = false) : dictWithMeta E es s vb = .ok (
      if vb.dumpTime then dictSet (dictSet es (.str metaKey) (.dict [])) (.str metaKey)
        (.dict [(Val.str "dump_time".toList, Val.str E.now)]) else es) := by
  obtain ⟨c, d⟩ := vb
  simp only at hv
  subst hv
  cases d <;> rfl

/-- The `-meta` section keeps a JSON dict a JSON dict. -/
theorem dictWithMeta_json {E : Env} {es r : List (Val × Val)} {s : PyStr} {vb : Verbosity}
    (he : Entries E.info (JsonLeaf E.info) (fun _ => True) es)
    (h : dictWithMeta E es s vb = .ok r) : Entries E.info (JsonLeaf E.info) (fun _ => True) r := by
  unfold dictWithMeta at h
  split at h
  · cases h; exact he
  · have nil : Entries E.info (JsonLeaf E.info) (fun _ => True) [] := fun e he => by cases he
    have h0 : Entries E.info (JsonLeaf E.info) (fun _ => True) (dictSet es (.str metaKey) (.dict [])) :=
      he.set (k := .str metaKey) trivial trivial nil.dict
    have hm : Entries E.info (JsonLeaf E.info) (fun _ => True)
        (if vb.dumpTime then [(Val.str "dump_time".toList, Val.str E.now)] else []) := by
      split
      · intro e he; simp only [List.mem_singleton] at he; subst he
        exact ⟨⟨trivial, trivial⟩, .leaf trivial⟩
      · exact nil
    cases hc : vb.classInfo with
    | false =>
      simp only [hc] at h
      cases h
      exact h0.set (k := .str metaKey) trivial trivial (Entries.dict (by
        intro e he; simp only [List.nil_append] at he; exact hm e he))
    | true =>
      simp only [hc] at h
      cases hf : fillEntries (dictSet es (.str metaKey) (.dict [])) ['/'] [] with
      | error e => rw [hf] at h; cases h
      | ok p =>
        obtain ⟨es1, c1⟩ := p
        rw [hf] at h
        cases h
        obtain ⟨h1, h2⟩ := fillEntries_json _ _ _ _ _ h0 nil hf
        refine h1.set (k := .str metaKey) trivial trivial (Entries.dict ?_)
        intro e he
        rcases List.mem_append.1 he with he | he
        · simp only [List.mem_singleton] at he; subst he
          exact ⟨⟨trivial, trivial⟩, (h2.set (k := .str ['/']) (v := .str s) trivial trivial (.leaf trivial)).dict⟩
        · exact hm e he
end

end Verif.Core
