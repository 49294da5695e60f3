import Verif.Props.ClassNames
import Verif.Props.NamedClass

/-! # The name of a parameterised type leads back to the type (C109) -/

set_option autoImplicit false

namespace Verif.Props.GenericNames

open Verif Verif.Registry

variable {F C : Type}

/-! ## Specification -/

/-- The written form of a type: a name, or a generic class with arguments. -/
inductive TName where
  | plain (s : PyStr)
  | app (origin : PyStr) (args : List TName)

mutual
/-- As `repr` writes it: `typing.Dict[int, float]`. -/
def TName.text : TName → PyStr
  | .plain s => s
  | .app o args => o ++ '[' :: (TName.texts args ++ [']'])
/-- The arguments with commas and blanks between them. -/
def TName.texts : List TName → PyStr
  | [] => []
  | [a] => a.text
  | a :: as => a.text ++ ',' :: ' ' :: TName.texts as
end

/-- A name as classes have it: without brackets, commas and blanks, and not empty. -/
structure Simple (s : PyStr) : Prop where
  ne : s ≠ []
  noOpen : '[' ∉ s
  noComma : ',' ∉ s
  noBlank : ' ' ∉ s

/-- No attribute of `builtins` has a bracket in its name. -/
def NoBracketBuiltins (M : Modules C) : Prop := ∀ s, '[' ∈ s → M.builtin s = none

/-! ## Lemmas -/

theorem strip_simple {s : PyStr} (h : ' ' ∉ s) : strip s = s := by
  have aux : ∀ t : PyStr, ' ' ∉ t → t.dropWhile (· == ' ') = t := by
    intro t ht
    cases t with
    | nil => rfl
    | cons c t =>
      have : (c == ' ') = false := by
        simp only [List.mem_cons, not_or] at ht
        simpa using fun h => ht.1 h.symm
      rw [List.dropWhile_cons, this]; rfl
  unfold strip
  rw [aux s h, aux s.reverse (by simpa using h), List.reverse_reverse]

theorem strip_blank {s : PyStr} (h : ' ' ∉ s) : strip (' ' :: s) = s := by
  have : strip (' ' :: s) = strip s := by
    unfold strip
    rw [List.dropWhile_cons]
    rfl
  rw [this, strip_simple h]

/-- The pieces between the commas. -/
theorem split_texts {names : List PyStr} (hne : names ≠ []) (hs : ∀ s ∈ names, Simple s) (b : Bool) :
    ((PyStr.split ',' ((if b then [' '] else []) ++ TName.texts (names.map .plain))).map strip) = names := by
  induction names generalizing b with
  | nil => exact absurd rfl hne
  | cons s names ih =>
    have h0 := hs s List.mem_cons_self
    have hpre : ',' ∉ (if b then [' '] else []) ++ s := by
      cases b <;> simp [h0.noComma]
    have hst : strip ((if b then [' '] else []) ++ s) = s := by
      cases b
      · exact strip_simple h0.noBlank
      · exact strip_blank h0.noBlank
    cases names with
    | nil =>
      have : TName.texts (List.map TName.plain [s]) = s := by simp [TName.texts, TName.text]
      rw [this, PyStr.split_of_not_mem hpre]
      simp [hst]
    | cons t names =>
      have : (if b then [' '] else []) ++ TName.texts (List.map TName.plain (s :: t :: names))
          = ((if b then [' '] else []) ++ s) ++ ',' :: ((if true then [' '] else []) ++ TName.texts (List.map TName.plain (t :: names))) := by
        simp [TName.texts, TName.text]
      rw [this, PyStr.split_append hpre, List.map_cons, hst,
        ih (by simp) (fun x hx => hs x (List.mem_cons_of_mem _ hx)) true]

theorem mem_texts {c : Char} {names : List PyStr} (h : c ∈ TName.texts (names.map .plain)) :
    c = ',' ∨ c = ' ' ∨ ∃ s ∈ names, c ∈ s := by
  induction names with
  | nil => simp [TName.texts] at h
  | cons s names ih =>
    cases names with
    | nil =>
      right; right
      exact ⟨s, List.mem_cons_self, by simpa [TName.texts, TName.text] using h⟩
    | cons t names =>
      simp only [List.map_cons, TName.texts, TName.text, List.mem_append, List.mem_cons] at h
      rcases h with h | h | h | h
      · exact .inr (.inr ⟨s, List.mem_cons_self, h⟩)
      · exact .inl h
      · exact .inr (.inl h)
      · rcases ih (by simpa using h) with h | h | ⟨x, hx, h⟩
        · exact .inl h
        · exact .inr (.inl h)
        · exact .inr (.inr ⟨x, List.mem_cons_of_mem _ hx, h⟩)

/-- How often a character occurs decides how many pieces there are. -/
theorem split_length (c : Char) (s : PyStr) : (PyStr.split c s).length = s.count c + 1 := by
  induction s with
  | nil => rfl
  | cons d s ih =>
    unfold PyStr.split
    split
    · next h => subst h; simp [ih]
    · next h =>
      have hne := PyStr.split_ne_nil c s
      cases hx : PyStr.split c s with
      | nil => exact absurd hx hne
      | cons w ws =>
        rw [hx] at ih
        simp only [List.length_cons] at ih ⊢
        rw [ih, List.count_cons_of_ne h]

/-- An argument with a bracket is seen in the whole. -/
theorem texts_open {args : List TName} {a : TName} (ha : a ∈ args) (h : '[' ∈ a.text) : '[' ∈ TName.texts args := by
  induction args with
  | nil => cases ha
  | cons b args ih =>
    cases args with
    | nil =>
      simp only [List.mem_singleton] at ha
      subst ha
      simpa [TName.texts] using h
    | cons c args =>
      simp only [TName.texts, List.mem_append, List.mem_cons]
      rcases List.mem_cons.mp ha with rfl | ha
      · exact .inl h
      · exact .inr (.inr (.inr (ih ha)))

/-! ## Theorems -/

/-- **C109**.  The written form of a generic class with arguments that are classes leads to the generic class with
these arguments, in every state and from every fork. -/
theorem generic_found_partial (M : Modules C) (h : Heap F C) (i : Nat) (o : PyStr) (names : List PyStr) (c : C) (cs : List C)
    (ho : '[' ∉ o) (hs : ∀ s ∈ names, Simple s) (hne : names ≠ []) (hb : NoBracketBuiltins M)
    (hc : getClsFromStr M h i o = .ok c) (hcs : List.Forall₂ (fun s d => getClsFromStr M h i s = .ok d) names cs) :
    getClsFromStr M h i (TName.app o (names.map .plain)).text = M.subscript c cs := by
  have plain : ∀ s : PyStr, '[' ∉ s → getClsFromStr M h i s = getClsPlain M h i s := by
    intro s hs
    unfold getClsFromStr
    split
    · next d hd => unfold getClsPlain; rw [hd]
    · rw [if_neg (fun h => hs h.1)]
  have htexts : '[' ∉ TName.texts (names.map .plain) ++ [']'] := by
    simp only [List.mem_append, List.mem_singleton, not_or]
    refine ⟨fun hx => ?_, by decide⟩
    rcases mem_texts hx with h | h | ⟨s, hs', h⟩
    · exact absurd h (by decide)
    · exact absurd h (by decide)
    · exact (hs s hs').noOpen h
  unfold getClsFromStr
  rw [hb _ (by simp [TName.text])]
  have hif : '[' ∈ (TName.app o (names.map .plain)).text ∧ ']' ∈ (TName.app o (names.map .plain)).text := by
    simp [TName.text]
  simp only [hif, and_self, if_true]
  have hsplit : PyStr.split '[' (TName.app o (names.map .plain)).text = [o, TName.texts (names.map .plain) ++ [']']] := by
    rw [TName.text, PyStr.split_append ho, PyStr.split_of_not_mem htexts]
  rw [hsplit]
  simp only [List.dropLast_concat]
  rw [plain o ho] at hc
  have hm : (PyStr.split ',' (TName.texts (names.map .plain))).mapM (fun x => getClsPlain M h i (strip x)) = .ok cs := by
    have h1 := split_texts hne hs false
    simp only [Bool.false_eq_true, if_false, List.nil_append] at h1
    have h2 : ∀ (xs : List PyStr) (ns : List PyStr) (cs : List C), xs.map strip = ns →
        List.Forall₂ (fun s d => getClsPlain M h i s = .ok d) ns cs →
        xs.mapM (fun x => getClsPlain M h i (strip x)) = Except.ok cs := by
      intro xs ns cs hx hf
      subst hx
      induction xs generalizing cs with
      | nil => cases hf; rfl
      | cons x xs ih =>
        cases hf with
        | cons h1 h2 =>
          rw [List.mapM_cons, h1, ih _ h2]
          rfl
    refine h2 _ names cs h1 ?_
    clear h1 h2 hif hsplit htexts hne
    induction hcs with
    | nil => exact .nil
    | cons h1 h2 ih =>
      exact .cons (by rw [← plain _ (hs _ List.mem_cons_self).noOpen]; exact h1)
        (ih fun s hs' => hs s (List.mem_cons_of_mem _ hs'))
  rw [hc, hm]
  rfl

/-- C109 is false of a generic class with an argument that is itself one with arguments: its written form is always
refused, with a raw `ValueError`, whatever the classes are. -/
theorem generic_nested_refused (M : Modules C) (h : Heap F C) (i : Nat) (o o' : PyStr) (args args' : List TName)
    (ha : TName.app o' args' ∈ args) (hb : NoBracketBuiltins M) :
    getClsFromStr M h i (TName.app o args).text = .error .valueError := by
  unfold getClsFromStr
  rw [hb _ (by simp [TName.text])]
  have hif : '[' ∈ (TName.app o args).text ∧ ']' ∈ (TName.app o args).text := by simp [TName.text]
  simp only [hif, and_self, if_true]
  have hl : 2 < (PyStr.split '[' (TName.app o args).text).length := by
    rw [split_length]
    have h1 : '[' ∈ TName.texts args := texts_open ha (by simp [TName.text])
    have h2 := List.count_pos_iff.mpr h1
    simp only [TName.text, List.count_append, List.count_cons_self]
    omega
  match hx : PyStr.split '[' (TName.app o args).text with
  | [] => rfl
  | [_] => rfl
  | [_, _] => rw [hx] at hl; simp at hl
  | _ :: _ :: _ :: _ => rfl

/-! ## The consequence for dump and load -/

open Verif.Core

/-- `str`, `int` and the classes of `typing`; the class `Point` of the program. -/
def genModules : Modules Ty where
  builtin := fun s => if s = "int".toList then some (.cls .int) else if s = "str".toList then some (.cls .str) else none
  importModule := fun m =>
    if m = "typing".toList then
      some (fun n => if n = "Dict".toList then some (.gen .dict []) else if n = "List".toList then some (.gen .list []) else none)
    else if m = "__main__".toList then some (fun n => if n = "Box".toList then some (.cls (.user 0)) else none)
    else none
  subscript := fun c as => match c with
    | .gen g _ => .ok (.gen g as)
    | _ => .error .typeError

/-- A class with an attribute `d`. -/
def boxInfo (_ : Nat) : ClassInfo :=
  { attrs := mainAttrs "Box", params := [{ name := "d".toList }] }

/-- The surroundings with the model of `get_cls_from_str` for the state `h`; the written forms of the types of two
dicts, as `repr(get_type(..))` gives them. -/
def boxEnv (h : Heap DesFn Ty) : LEnv := { demoLEnv boxInfo with
  clsFromStr := fun i s => getClsFromStr genModules h i s
  typeName := fun v => match v with
    | .dict [(_, .seq _ _)] => "typing.Dict[str, typing.List[int]]".toList
    | _ => "typing.Dict[str, int]".toList }

theorem gen_noBracket : NoBracketBuiltins genModules := by
  intro s hs
  show (if _ then _ else _) = none
  rw [if_neg (by rintro rfl; exact absurd hs (by decide)), if_neg (by rintro rfl; exact absurd hs (by decide))]

/-- A verbose dump of an object with the attribute `{'a': 1}` is loaded again; that of one with `{'a': [1]}` is refused
because of the name that is written for the type of the attribute. -/
theorem nested_generic_round_trip_fails (h : Heap DesFn Ty) :
    (∃ j, (dump (boxEnv h).toEnv 9 (.obj 0 [("d".toList, .dict [(.str ['a'], .int 1)])]) none
        { verbose := { classInfo := true } }).val = .ok j ∧
      (load (boxEnv h) 9 j none {}).val = .ok (.obj 0 [("d".toList, .dict [(.str ['a'], .int 1)])])) ∧
    ∃ j, (dump (boxEnv h).toEnv 9 (.obj 0 [("d".toList, .dict [(.str ['a'], .list [.int 1])])]) none
        { verbose := { classInfo := true } }).val = .ok j ∧
      (load (boxEnv h) 9 j none {}).val.toOption = none := by
  refine ⟨⟨.dict [(.str "d".toList, .dict [(.str ['a'], .int 1)]), (.str metaKey, .dict [(.str "classes".toList, .dict
    [(.str "/d".toList, .str "typing.Dict[str, int]".toList), (.str "/".toList, .str "__main__.Box".toList)])])], by rfl, by rfl⟩,
   ⟨.dict [(.str "d".toList, .dict [(.str ['a'], .list [.int 1])]), (.str metaKey, .dict [(.str "classes".toList, .dict
    [(.str "/d".toList, .str "typing.Dict[str, typing.List[int]]".toList), (.str "/".toList, .str "__main__.Box".toList)])])], by rfl, by rfl⟩⟩

/-- `load(obj, 'typing.Dict[str, typing.List[int]]')` raises a `ValueError`, which is no `JsonsError`, for every
`obj` that is not `None` and every such name. -/
theorem named_nested_escapes (E : LEnv) (M : Modules Ty) (h : Heap DesFn Ty) (n : Nat) (v : Val) (o o' : PyStr)
    (args args' : List TName) (kw : LoadKw) (he : ∀ s, E.clsFromStr kw.fork s = getClsFromStr M h kw.fork s)
    (ha : TName.app o' args' ∈ args) (hb : NoBracketBuiltins M) (hv : v ≠ .none) :
    ∃ e, (loadByName E n v (TName.app o args).text kw).val = .error e ∧ e.kind = .valueError := by
  unfold loadByName
  rw [if_neg hv, he, generic_nested_refused M h _ o o' args args' ha hb]
  exact ⟨_, rfl, rfl⟩

/-- `load(obj, 'typing.Dict[str, int]')`: by its written form, a generic class with classes as arguments does what it
does itself. -/
theorem generic_by_name_partial (E : LEnv) (M : Modules Ty) (h : Heap DesFn Ty) (n : Nat) (v : Val) (o : PyStr)
    (names : List PyStr) (c t : Ty) (cs : List Ty) (kw : LoadKw) (he : ∀ s, E.clsFromStr kw.fork s = getClsFromStr M h kw.fork s)
    (ho : '[' ∉ o) (hs : ∀ s ∈ names, Simple s) (hne : names ≠ []) (hb : NoBracketBuiltins M)
    (hc : getClsFromStr M h kw.fork o = .ok c)
    (hcs : List.Forall₂ (fun s d => getClsFromStr M h kw.fork s = .ok d) names cs) (ht : M.subscript c cs = .ok t)
    (hv : v ≠ .none) (hr : ¬ NamedClass.Returned v t kw.strict) :
    loadByName E n v (TName.app o (names.map .plain)).text kw = load E (n + 1) v (some t) kw :=
  NamedClass.named_class_partial E n v _ t kw
    (by rw [he, generic_found_partial M h _ o names c cs ho hs hne hb hc hcs, ht]) hv hr

/-- A dict with an integer in a text. -/
example (h : Heap DesFn Ty) :
    (loadByName (boxEnv h) 8 (.dict [(.str ['a'], .str ['1'])]) "typing.Dict[str, int]".toList {}).val
      = .ok (.dict [(.str ['a'], .int 1)]) := by
  have hs : ∀ s ∈ ["str".toList, "int".toList], Simple s := by
    intro s hs
    simp only [List.mem_cons, List.not_mem_nil, or_false] at hs
    rcases hs with rfl | rfl <;> exact ⟨by decide, by decide, by decide, by decide⟩
  have := generic_by_name_partial (boxEnv h) genModules h 8 (.dict [(.str ['a'], .str ['1'])]) "typing.Dict".toList
    ["str".toList, "int".toList] (.gen .dict []) (.gen .dict [.cls .str, .cls .int]) [.cls .str, .cls .int] {}
    (fun _ => rfl) (by decide) hs (by simp) gen_noBracket (by rfl) (.cons (by rfl) (.cons (by rfl) .nil)) rfl (by simp)
    (by rintro (h | ⟨_, h⟩) <;> cases h)
  refine (congrArg Res.val this).trans ?_
  rfl

/-- `typing.Dict[str, int]`. -/
example (h : Heap DesFn Ty) (i : Nat) :
    getClsFromStr genModules h i "typing.Dict[str, int]".toList = .ok (.gen .dict [.cls .str, .cls .int]) := by
  refine generic_found_partial genModules h i "typing.Dict".toList ["str".toList, "int".toList] (.gen .dict []) [.cls .str, .cls .int]
    (by decide) ?_ (by simp) gen_noBracket (by rfl) (.cons (by rfl) (.cons (by rfl) .nil))
  intro s hs
  simp only [List.mem_cons, List.not_mem_nil, or_false] at hs
  rcases hs with rfl | rfl <;> exact ⟨by decide, by decide, by decide, by decide⟩

/-- `typing.Dict[str, typing.List[int]]`. -/
example (h : Heap DesFn Ty) (i : Nat) :
    getClsFromStr genModules h i "typing.Dict[str, typing.List[int]]".toList = .error .valueError :=
  generic_nested_refused genModules h i "typing.Dict".toList "typing.List".toList
    [.plain "str".toList, .app "typing.List".toList [.plain "int".toList]] [.plain "int".toList] (by simp) gen_noBracket

end Verif.Props.GenericNames
