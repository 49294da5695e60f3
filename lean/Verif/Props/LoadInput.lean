import Verif.Core.LoadInputLemmas
import Verif.Core.LoadDemo

/-!
# C47: what `load` does to its input
-/

set_option autoImplicit false

namespace Verif.Props.LoadInput
open Verif Verif.Core Verif.Core.LoadInput

/-! ## Specification -/

mutual
/-- The value with the content of all `'-keys'` entries blanked, at every depth. -/
def blank : Val → Val
  | .seq k xs => .seq k (blankList xs)
  | .dict es => .dict (blankEntries es)
  | v => v
/-- All elements blanked. -/
def blankList : List Val → List Val
  | [] => []
  | x :: xs => blank x :: blankList xs
/-- All values blanked, and what is under `'-keys'` replaced by `None`. -/
def blankEntries : List (Val × Val) → List (Val × Val)
  | [] => []
  | (k, v) :: es => (k, if pyEq k (.str keysKey) then .none else blank v) :: blankEntries es
end

/-! ## Proofs -/

theorem blankEntries_eq (es : List (Val × Val)) : blankEntries es
    = es.map fun e => (e.1, if pyEq e.1 (.str keysKey) then .none else blank e.2) := by
  induction es with
  | nil => rfl
  | cons e es ih => simp only [blankEntries, ih, List.map_cons]

theorem blankList_eq (xs : List Val) : blankList xs = xs.map blank := by
  induction xs with
  | nil => rfl
  | cons x xs ih => simp only [blankList, ih, List.map_cons]

theorem blank_set {es : List (Val × Val)} {v w : Val} (h : dictGet es (.str keysKey) = some v) :
    blankEntries (dictSet es (.str keysKey) w) = blankEntries es := by
  induction es with
  | nil => cases h
  | cons e es ih =>
    obtain ⟨k, x⟩ := e
    simp only [dictGet] at h
    simp only [dictSet]
    by_cases hk : pyEq k (.str keysKey) = true
    · simp only [hk, if_true, blankEntries]
    · rw [if_neg hk] at h
      rw [if_neg hk]
      simp only [blankEntries, ih h]

theorem blank_drop (h v : Val) : blank (dropStored h v) = blank v := by
  cases v with
  | dict es =>
    simp only [dropStored]
    split
    · rename_i hg
      simp only [blank, blank_set hg]
    · rfl
  | _ => rfl

theorem blank_modAt (f : Val → Val) (hf : ∀ v, blank (f v) = blank v) (p : List Step) (v : Val) :
    blank (modAt f p v) = blank v := by
  induction p generalizing v with
  | nil => exact hf v
  | cons s p ih =>
    cases s with
    | elem i =>
      cases v with
      | seq k xs =>
        simp only [modAt, blank, blankList_eq, Val.seq.injEq, true_and]
        apply List.ext_getElem?
        intro j
        simp only [List.getElem?_map, List.getElem?_modify]
        cases xs[j]? with
        | none => rfl
        | some x =>
          split
          · exact congrArg some (ih x)
          · rfl
      | _ => rfl
    | key k =>
      cases v with
      | dict es =>
        simp only [modAt, blank, blankEntries_eq, List.map_map, Val.dict.injEq]
        apply List.map_congr_left
        intro e _
        simp only [Function.comp]
        split
        · simp only [ih]
        · rfl
      | _ => rfl

/-- C47, the part that holds for every input: `load`, with any types, options and
registrations, changes nothing in its input but the content of `'-keys'` entries (the
places in which `dump` stores hashed keys). -/
theorem load_changes_only_stored_keys (E : LEnv) (n : Nat) (v : Val) (cls : Option Ty)
    (kw : LoadKw) : blank (inputAfter E n v cls kw) = blank v := by
  unfold inputAfter applyDels
  generalize (loadS E n v cls kw).dels = ds
  induction ds generalizing v with
  | nil => rfl
  | cons d ds ih => rw [List.foldl_cons, ih, blank_modAt _ (blank_drop d.key)]

/-- Without stored keys, `load` with what it does to its input is `load` as a function of
values: all theorems about the latter hold for the program also where the parts of the
input are shared. -/
theorem load_as_function (E : LEnv) (n : Nat) (v : Val) (cls : Option Ty) (kw : LoadKw)
    (h : NoStoredKeys v) : (loadS E n v cls kw).res = load E n v cls kw := by
  show (loadRecS E n v cls kw).res = _
  rw [loadS_of E n v cls kw h]; rfl

/-- C47 for the inputs without stored keys: `load` leaves the input as it is, and loading
it again, with the same or another type and options, gives what it would have given
without the first `load`. -/
theorem load_input_kept_partial (E : LEnv) (n : Nat) (v : Val) (cls : Option Ty) (kw : LoadKw)
    (h : NoStoredKeys v) :
    inputAfter E n v cls kw = v ∧
    ∀ m cls' kw', (loadS E m (inputAfter E n v cls kw) cls' kw').res
      = (loadS E m v cls' kw').res := by
  have : inputAfter E n v cls kw = v := by
    show applyDels v (loadRecS E n v cls kw).dels = v
    rw [loadS_of E n v cls kw h]; rfl
  exact ⟨this, fun m cls' kw' => by rw [this]⟩

/-! ## Examples -/

/-- `[{'x': 1, '-keys': {}}]` has no stored keys. -/
def plainInput : Val :=
  .list [.dict [(.str "x".toList, .int 1), (.str keysKey, .dict [])]]

theorem plain_noStored : NoStoredKeys plainInput := by
  intro es s hp hg
  cases hp with
  | elem hx hp =>
    rw [List.mem_singleton] at hx
    subst hx
    cases hp with
    | self => right; cases hg; rfl
    | key he hp =>
      rcases List.mem_cons.1 he with rfl | he
      · cases hp
      · rw [List.mem_singleton] at he; subst he; cases hp
    | value he hp =>
      rcases List.mem_cons.1 he with rfl | he
      · cases hp
      · rw [List.mem_singleton] at he
        subst he
        cases hp with
        | self => cases hg
        | key he _ => cases he
        | value he _ => cases he

example : inputAfter (demoLEnv demoInfo) 9 plainInput (some (.gen .list [.cls (.user 0)])) {}
    = plainInput := (load_input_kept_partial _ _ _ _ _ plain_noStored).1

/-! ## Where it fails -/

/-- `{'-keys': {'7': [1]}, '7': 'b'}`: a dump of `{(1,): 'b'}` -/
def hashedInput : Val :=
  .dict [(.str keysKey, .dict [(.str "7".toList, .list [.int 1])]),
         (.str "7".toList, .str "b".toList)]

/-- `Dict[Tuple[int], str]` -/
def tupleKeyed : Ty := .gen .dict [.gen .tuple [.cls .int], .cls .str]

/-- C47 fails for a dict with stored keys: they are deleted from the input, and loading it
again with the same type is an error. -/
theorem load_input_changed : ∃ (E : LEnv) (v r : Val) (t : Ty),
    (loadS E 9 v (some t) {}).res.val = .ok r ∧
    inputAfter E 9 v (some t) {} ≠ v ∧
    ∃ e, (loadS E 9 (inputAfter E 9 v (some t) {}) (some t) {}).res.val = .error e := by
  refine ⟨demoLEnv demoInfo, hashedInput,
    .dict [(.tuple [.int 1], .str "b".toList)], tupleKeyed, by rfl, ?_, ⟨_, by rfl⟩⟩
  have : inputAfter (demoLEnv demoInfo) 9 hashedInput (some tupleKeyed) {}
    = .dict [(.str keysKey, .dict []), (.str "7".toList, .str "b".toList)] := by rfl
  rw [this]
  intro h
  cases h

/-- C38 fails for a dict with stored keys: a member of the union that cannot be loaded may
have deleted them, so that a later member that could be loaded is refused. -/
theorem union_load_fails_stored_keys : ∃ (E : LEnv) (v r : Val) (a b : Ty),
    (∃ e, (loadS E 8 v (some a) {}).res.val = .error e ∧ e.kind.isJsonsError = true) ∧
    (loadS E 8 v (some b) {}).res.val = .ok r ∧
    ∃ e, (loadS E 9 v (some (.union [a, b])) {}).res.val = .error e :=
  ⟨demoLEnv demoInfo, hashedInput, .dict [(.tuple [.int 1], .str "b".toList)],
    .gen .dict [.gen .tuple [.cls .int], .cls .int], tupleKeyed, ⟨_, by rfl, by rfl⟩, by rfl,
    ⟨_, by rfl⟩⟩

end Verif.Props.LoadInput
