import Verif.Core.Dispatch

/-! # What is found in the registry after `import jsons` -/

set_option autoImplicit false

namespace Verif.Core
open Verif Verif.Registry

theorem initialSers_none (info : Nat → ClassInfo) (k : PyStr) (h : k ∉ serNames) :
    (initialSers info).lizers k = none := by
  have aux : ∀ (rs : List (SerFn × List (Option Ty) × Bool)) (t : Table SerFn Ty),
      (∀ r ∈ rs, k ∉ r.2.1.map (tyWorld info).key) → t.lizers k = none →
      (rs.foldl (fun t r => setLizer (tyWorld info) r.1 r.2.1 r.2.2 t) t).lizers k = none := by
    intro rs
    induction rs with
    | nil => intro t _ h; exact h
    | cons r rs ih =>
      intro t hr ht
      refine ih _ (fun r' h' => hr r' (List.mem_cons_of_mem _ h')) ?_
      rw [setLizer_lizers, if_neg (hr r (List.mem_cons_self))]
      exact ht
  refine aux _ _ ?_ rfl
  have : serNames = serRegistrations.flatMap fun r => r.2.1.map (tyWorld info).key := by rfl
  rw [this] at h
  intro r hr hk
  exact h (List.mem_flatMap.2 ⟨r, hr, hk⟩)

theorem tableOk_initialSers (info : Nat → ClassInfo) : TableOk (tyWorld info) (initialSers info) := by
  have aux : ∀ (rs : List (SerFn × List (Option Ty) × Bool)) (t : Table SerFn Ty),
      TableOk (tyWorld info) t → TableOk (tyWorld info)
        (rs.foldl (fun t r => setLizer (tyWorld info) r.1 r.2.1 r.2.2 t) t) := by
    intro rs
    induction rs with
    | nil => intro t h; exact h
    | cons r rs ih => intro t h; exact ih _ (tableOk_setLizer _ _ _ h)
  exact aux _ _ (tableOk_empty _)

theorem getLizerRec_serFn (info : Nat → ClassInfo) (hn : NamesOk info serNames) (c : Cls) :
    getLizerRec (tyWorld info) (initialSers info) (.cls c) = .ok (some (c.serFn info)) := by
  cases c with
  | user c =>
    unfold getLizerRec
    have h : (initialSers info).lizers ((tyWorld info).lookupName (.cls (.user c))) = none := by
      rw [lookupName_eq]
      exact initialSers_none info _ (hn c)
    rw [h]
    simp only
    unfold getLizerByParents
    cases hk : (info c).kind with
    | plain =>
      have : getParents (tyWorld info) (.cls (.user c)) (initialSers info).classes
          = [.cls .object] := by
        simp [getParents, initialSers, serRegistrations, setLizer, setLizer1, tyWorld, Ty.sub, Ty.naked?, Gen.naked, Cls.sub, hk, Table.empty]
      rw [this]; simp only [Cls.serFn, hk]; rfl
    | ntuple =>
      have : getParents (tyWorld info) (.cls (.user c)) (initialSers info).classes
          = [.gen .tuple [], .cls .tuple, .gen .iterable [], .cls .object] := by
        simp [getParents, initialSers, serRegistrations, setLizer, setLizer1, tyWorld, Ty.sub, Ty.naked?, Gen.naked, Cls.sub, hk, Table.empty]
      rw [this]; simp only [Cls.serFn, hk]; rfl
    | enum b =>
      cases b with
      | false =>
        have : getParents (tyWorld info) (.cls (.user c)) (initialSers info).classes
            = [.cls .enum, .cls .object] := by
          simp [getParents, initialSers, serRegistrations, setLizer, setLizer1, tyWorld, Ty.sub, Ty.naked?, Gen.naked, Cls.sub, hk, Table.empty]
        rw [this]; simp only [Cls.serFn, hk]; rfl
      | true =>
        have : getParents (tyWorld info) (.cls (.user c)) (initialSers info).classes
            = [.cls .intEnum, .cls .enum, .cls .int, .cls .object] := by
          simp [getParents, initialSers, serRegistrations, setLizer, setLizer1, tyWorld, Ty.sub, Ty.naked?, Gen.naked, Cls.sub, hk, Table.empty]
        rw [this]; simp only [Cls.serFn, hk]; rfl
  | _ => rfl

theorem getLizerRec_gen (info : Nat → ClassInfo) (g : Gen) (args : List Ty) :
    getLizerRec (tyWorld info) (initialSers info) (.gen g args) = .ok (some (g.naked.serFn info)) := by
  cases g <;> rfl

theorem attrs_union (info : Nat → ClassInfo) (args : List Ty) :
    (Ty.union args).attrs info = pyAttrs "typing" "Optional" ∨
    (Ty.union args).attrs info = pyAttrs "typing" "Union" := by
  match args with
  | [a, b] =>
    by_cases h : a = .cls .noneType ∨ b = .cls .noneType
    · exact .inl (if_pos h)
    · exact .inr (if_neg h)
  | [] => exact .inr rfl
  | [_] => exact .inr rfl
  | _ :: _ :: _ :: _ => exact .inr rfl

theorem getLizerRec_union (info : Nat → ClassInfo) (args : List Ty) :
    getLizerRec (tyWorld info) (initialSers info) (.union args) = .ok (some .union) := by
  unfold getLizerRec World.lookupName
  have : (tyWorld info).attrs (.union args) = (Ty.union args).attrs info := rfl
  rw [this]
  rcases attrs_union info args with h | h <;> rw [h] <;> rfl

theorem getLizerRec_special (info : Nat → ClassInfo) (b : Bool) :
    getLizerRec (tyWorld info) (initialSers info) (.special b) = .ok (some .union) := by
  cases b <;> rfl

theorem getLizerRec_any (info : Nat → ClassInfo) :
    getLizerRec (tyWorld info) (initialSers info) .any = .ok none := by rfl

theorem serNames_head : ∀ k ∈ serNames, k.head? ≠ some '_' := by decide

theorem newtype_name (info : Nat → ClassInfo) (n : PyStr) (t : Ty) :
    (tyWorld info).lookupName (.newtype n t) ∉ serNames := by
  by_cases hn : n = "NewType.<locals>.new_type".toList
  · subst hn
    have : (tyWorld info).lookupName (.newtype "NewType.<locals>.new_type".toList t)
        = "newtype.<locals>.new_type".toList := by rfl
    rw [this]
    decide
  · intro h
    refine serNames_head _ h ?_
    unfold World.lookupName getClassName
    have : (some n = some "NewType.<locals>.new_type".toList) = False := by simpa using hn
    simp only [tyWorld, Ty.attrs, this, if_false]
    have hm : ∀ a b r, getModule ⟨some n, a, b, r, some "__main__".toList⟩ = some "__main__".toList := by
      intro a b r; rfl
    rw [hm]
    rfl

/-- A `NewType` has no serializer of its own. -/
theorem getLizerRec_newtype (info : Nat → ClassInfo) (n : PyStr) (t : Ty) :
    getLizerRec (tyWorld info) (initialSers info) (.newtype n t) = .ok none := by
  have h : (initialSers info).lizers ((tyWorld info).lookupName (.newtype n t)) = none := by
    apply initialSers_none
    exact newtype_name info n t
  unfold getLizerRec
  rw [h]
  rfl

theorem getLizer_serFn (info : Nat → ClassInfo) (hn : NamesOk info serNames) (t : Ty) :
    getLizer (tyWorld info) (initialSers info) t = .ok (t.serFn info) := by
  unfold getLizer
  cases t with
  | cls c => rw [getLizerRec_serFn info hn]; rfl
  | gen g a => rw [getLizerRec_gen]; rfl
  | union a => rw [getLizerRec_union]; rfl
  | special b => rw [getLizerRec_special]; rfl
  | any => rw [getLizerRec_any]; rfl
  | newtype n t =>
    rw [getLizerRec_newtype]
    simp only [tyWorld, Ty.supertype]
    cases t with
    | cls c => exact getLizerRec_serFn info hn c
    | gen g a => exact getLizerRec_gen info g a
    | union a => exact getLizerRec_union info a
    | special b => exact getLizerRec_special info b
    | any => exact getLizerRec_any info
    | newtype n t => exact getLizerRec_newtype info n t

end Verif.Core
