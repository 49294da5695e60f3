import Verif.Api.JsonSerializable
import Verif.Core.ResLemmas
import Verif.Core.LoadDemo
import Verif.Props.Functions

/-!
# C68: `JsonSerializable`
-/

set_option autoImplicit false

namespace Verif.Props.JsonSerializable
open Verif Verif.Core Verif.Api

/-! ## Which method a class has -/

/-- The nearest class that has the attribute, going up from a class. -/
inductive Nearest {A : Type} (get : JsClass → Option A) (S : List JsClass) : Nat → A → Prop
  | own {i : Nat} {c : JsClass} {a : A} : S[i]? = some c → get c = some a → Nearest get S i a
  | base {i p : Nat} {c : JsClass} {a : A} : S[i]? = some c → get c = none → c.parent = some p →
      Nearest get S p a → Nearest get S i a

/-- Base classes are made before the classes derived from them. -/
def Ordered (S : List JsClass) : Prop := ∀ (i : Nat) (c : JsClass) (p : Nat), S[i]? = some c →
  c.parent = some p → p < i

theorem nearest_lookup {A : Type} {get : JsClass → Option A} {S : List JsClass} (hS : Ordered S)
    {i : Nat} {a : A} (h : Nearest get S i a) : ∀ n, i < n → lookup get S n i = some a := by
  induction h with
  | own h1 h2 =>
    intro n hn
    cases n with
    | zero => omega
    | succ n => simp [lookup, h1, h2]
  | @base i p c a h1 h2 h3 _ ih =>
    intro n hn
    cases n with
    | zero => omega
    | succ n =>
      have := hS i c p h1 h3
      simp only [lookup, h1, h2, h3]
      exact ih n (by omega)

theorem nearest_lt {A : Type} {get : JsClass → Option A} {S : List JsClass} {i : Nat} {a : A}
    (h : Nearest get S i a) : i < S.length := by
  cases h with
  | own h1 _ | base h1 _ _ _ => exact (List.getElem?_eq_some_iff.mp h1).1

theorem nearest_unique {A : Type} {get : JsClass → Option A} {S : List JsClass} {i : Nat} {a b : A}
    (h : Nearest get S i a) (h' : Nearest get S i b) : a = b := by
  induction h with
  | own h1 h2 =>
    cases h' with
    | own h3 h4 => simp_all
    | base h3 h4 _ _ => simp_all
  | base h1 h2 h3 _ ih =>
    cases h' with
    | own h4 h5 => simp_all
    | base h4 h5 h6 h7 =>
      rw [h1] at h4
      cases h4
      rw [h3] at h6
      cases h6
      exact ih h7

/-! ## Keyword arguments -/

/-- A dict of keyword arguments: no name twice. -/
def Kwargs {A : Type} (name : A → String) (l : List A) : Prop := (l.map name).Nodup

/-- The value that an option has: the one of `with_dump` or `with_load` if it is given
there, else that of the call, else the default. -/
def Chosen {A α : Type} (p : α → A) (dflt : α) (given call : List A) (val : α) : Prop :=
  p val ∈ given ∨ ((∀ a, p a ∉ given) ∧ p val ∈ call) ∨
    ((∀ a, p a ∉ given) ∧ (∀ a, p a ∉ call) ∧ val = dflt)

/-- All options of `dump`. -/
structure DumpSettings (given call : List DumpArg) (cls : Option Ty) (kw : DumpKw) : Prop where
  cls : Chosen .cls none given call cls
  strict : Chosen .strict false given call kw.strict
  fork : Chosen .forkInst 0 given call kw.fork
  keyTransformer : Chosen .keyTransformer none given call kw.keyTransformer
  stripNulls : Chosen .stripNulls false given call kw.stripNulls
  stripPrivates : Chosen .stripPrivates false given call kw.stripPrivates
  stripProperties : Chosen .stripProperties false given call kw.stripProperties
  stripClassVariables : Chosen .stripClassVariables false given call kw.stripClassVariables
  stripAttr : Chosen .stripAttr .none given call kw.stripAttr
  verbose : Chosen .verbose {} given call kw.verbose
  useEnumName : Chosen .useEnumName true given call kw.useEnumName
  stripMicroseconds : Chosen .stripMicroseconds false given call kw.stripMicroseconds
  storeCls : kw.storeCls = false
  types : kw.types = []

/-- All options of `load`; the class and the fork are given by the class. -/
structure LoadSettings (given call : List LoadArg) (i : Nat) (kw : LoadKw) : Prop where
  strict : Chosen .strict false given call kw.strict
  fork : kw.fork = i
  attrGetters : Chosen .attrGetters [] given call kw.attrGetters
  keyTransformer : Chosen .keyTransformer none given call kw.keyTransformer
  useEnumName : Chosen .useEnumName none given call kw.useEnumName
  metaHints : kw.metaHints = none
  inferred : kw.inferred = false
  warnOnFail : kw.warnOnFail = false

section merge
variable {A : Type} {name : A → String}

theorem putArg_mem (l : List A) (x : A) (hl : Kwargs name l) (y : A) :
    y ∈ putArg name l x ↔ y = x ∨ (y ∈ l ∧ name y ≠ name x) := by
  induction l with
  | nil => simp [putArg]
  | cons z l ih =>
    have hl' := hl
    simp only [Kwargs, List.map_cons, List.nodup_cons, List.mem_map, not_exists, not_and] at hl'
    simp only [putArg]
    split
    · next h =>
      simp only [List.mem_cons]
      constructor
      · rintro (rfl | hy)
        · exact .inl rfl
        · exact .inr ⟨.inr hy, fun e => hl'.1 y hy (by rw [e, h])⟩
      · rintro (rfl | ⟨rfl | hy, hn⟩)
        · exact .inl rfl
        · exact absurd h hn
        · exact .inr hy
    · next h =>
      simp only [List.mem_cons, ih hl'.2]
      constructor
      · rintro (rfl | rfl | ⟨hy, hn⟩)
        · exact .inr ⟨.inl rfl, h⟩
        · exact .inl rfl
        · exact .inr ⟨.inr hy, hn⟩
      · rintro (rfl | ⟨rfl | hy, hn⟩)
        · exact .inr (.inl rfl)
        · exact .inl rfl
        · exact .inr (.inr ⟨hy, hn⟩)

theorem putArg_kwargs (l : List A) (x : A) (hl : Kwargs name l) : Kwargs name (putArg name l x) := by
  induction l with
  | nil => simp [putArg, Kwargs]
  | cons z l ih =>
    have hl' := hl
    simp only [Kwargs, List.map_cons, List.nodup_cons, List.mem_map, not_exists, not_and] at hl'
    simp only [putArg]
    split
    · next h =>
      simp only [Kwargs, List.map_cons, List.nodup_cons, List.mem_map, not_exists, not_and]
      exact ⟨fun y hy e => hl'.1 y hy (by rw [e, h]), hl'.2⟩
    · next h =>
      have hi := ih hl'.2
      simp only [Kwargs, List.map_cons, List.nodup_cons, List.mem_map, not_exists, not_and] at hi ⊢
      refine ⟨fun y hy e => ?_, hi⟩
      rcases (putArg_mem l x hl'.2 y).mp hy with rfl | ⟨hy, _⟩
      · exact h e.symm
      · exact hl'.1 y hy e

theorem merge_spec (given call : List A) (hg : Kwargs name given) (hc : Kwargs name call) :
    Kwargs name (mergeArgs name call given) ∧ ∀ y, y ∈ mergeArgs name call given ↔
      y ∈ given ∨ (y ∈ call ∧ ∀ x ∈ given, name y ≠ name x) := by
  induction given generalizing call with
  | nil => exact ⟨hc, fun y => by simp [mergeArgs]⟩
  | cons x given ih =>
    have hg' := hg
    simp only [Kwargs, List.map_cons, List.nodup_cons, List.mem_map, not_exists, not_and] at hg'
    obtain ⟨h1, h2⟩ := ih (putArg name call x) hg'.2 (putArg_kwargs call x hc)
    refine ⟨h1, fun y => ?_⟩
    show y ∈ mergeArgs name (putArg name call x) given ↔ _
    rw [h2, putArg_mem call x hc]
    simp only [List.mem_cons, forall_eq_or_imp]
    constructor
    · rintro (h | ⟨rfl | ⟨h, hn⟩, hy⟩)
      · exact .inl (.inr h)
      · exact .inl (.inl rfl)
      · exact .inr ⟨h, hn, hy⟩
    · rintro ((rfl | h) | ⟨h, hn, hy⟩)
      · exact .inr ⟨.inl rfl, fun z hz e => hg'.1 z hz e.symm⟩
      · exact .inl h
      · exact .inr ⟨.inr ⟨h, hn⟩, hy⟩

/-- One option after setting all arguments. -/
theorem fold_get {σ α : Type} {set : σ → A → σ} {p : α → A} {g : σ → α} {nm : String}
    (h1 : ∀ s a, g (set s (p a)) = a) (h2 : ∀ s x, name x ≠ nm → g (set s x) = g s)
    (h3 : ∀ x, name x = nm → ∃ a, x = p a) (h4 : ∀ a, name (p a) = nm) (l : List A)
    (hl : Kwargs name l) (s : σ) :
    p (g (l.foldl set s)) ∈ l ∨ ((∀ a, p a ∉ l) ∧ g (l.foldl set s) = g s) := by
  induction l generalizing s with
  | nil => exact .inr ⟨fun _ h => by simp at h, rfl⟩
  | cons x l ih =>
    have hl' := hl
    simp only [Kwargs, List.map_cons, List.nodup_cons, List.mem_map, not_exists, not_and] at hl'
    rcases ih hl'.2 (set s x) with h | ⟨h, e⟩
    · exact .inl (List.mem_cons_of_mem _ h)
    · simp only [List.foldl_cons]
      rw [e]
      by_cases hx : name x = nm
      · obtain ⟨a, rfl⟩ := h3 x hx
        rw [h1]
        exact .inl List.mem_cons_self
      · rw [h2 s x hx]
        refine .inr ⟨fun a ha => ?_, rfl⟩
        rcases List.mem_cons.mp ha with rfl | ha
        · exact hx (h4 a)
        · exact h a ha

theorem chosen_of {σ α : Type} {set : σ → A → σ} {p : α → A} {g : σ → α} {nm : String} {s : σ}
    {dflt : α} (h1 : ∀ s a, g (set s (p a)) = a) (h2 : ∀ s x, name x ≠ nm → g (set s x) = g s)
    (h3 : ∀ x, name x = nm → ∃ a, x = p a) (h4 : ∀ a, name (p a) = nm) (hd : g s = dflt)
    (given call : List A) (hg : Kwargs name given) (hc : Kwargs name call) :
    Chosen p dflt given call (g ((mergeArgs name call given).foldl set s)) := by
  obtain ⟨hk, hm⟩ := merge_spec given call hg hc
  rcases fold_get h1 h2 h3 h4 _ hk s with h | ⟨h, e⟩
  · rcases (hm _).mp h with h | ⟨h, hn⟩
    · exact .inl h
    · exact .inr (.inl ⟨fun a ha => hn _ ha (by rw [h4, h4]), h⟩)
  · refine .inr (.inr ⟨fun a ha => h a ((hm _).mpr (.inl ha)), fun a ha => ?_, by rw [e, hd]⟩)
    refine h a ((hm _).mpr (.inr ⟨ha, fun x hx e' => ?_⟩))
    obtain ⟨b, rfl⟩ := h3 x (by rw [← e', h4])
    exact h b ((hm _).mpr (.inl hx))

theorem fold_keep {σ β : Type} {set : σ → A → σ} {g : σ → β} (h : ∀ s x, g (set s x) = g s)
    (l : List A) (s : σ) : g (l.foldl set s) = g s := by
  induction l generalizing s with
  | nil => rfl
  | cons x l ih => rw [List.foldl_cons, ih, h]

end merge

theorem dumpSettings_spec (given call : List DumpArg) (hg : Kwargs DumpArg.name given)
    (hc : Kwargs DumpArg.name call) :
    DumpSettings given call (dumpSettings (mergeArgs DumpArg.name call given)).1
      (dumpSettings (mergeArgs DumpArg.name call given)).2 := by
  have key : ∀ {α : Type} (p : α → DumpArg) (g : Option Ty × DumpKw → α) (nm : String) (dflt : α),
      (∀ s a, g (DumpArg.set s (p a)) = a) →
      (∀ s x, x.name ≠ nm → g (DumpArg.set s x) = g s) → (∀ x, x.name = nm → ∃ a, x = p a) →
      (∀ a, (p a).name = nm) → g (none, {}) = dflt →
      Chosen p dflt given call (g (dumpSettings (mergeArgs DumpArg.name call given))) :=
    fun p g nm dflt h1 h2 h3 h4 hd => chosen_of h1 h2 h3 h4 hd given call hg hc
  constructor
  case cls =>
    refine key .cls (·.1) "cls" none ?_ ?_ ?_ ?_ rfl
    · intros; rfl
    · intro s x h; cases x <;> first | rfl | exact absurd rfl h
    · intro x h; cases x <;> first | exact ⟨_, rfl⟩ | simp [DumpArg.name] at h
    · intro; rfl
  case strict =>
    refine key .strict (·.2.strict) "strict" false ?_ ?_ ?_ ?_ rfl
    · intros; rfl
    · intro s x h; cases x <;> first | rfl | exact absurd rfl h
    · intro x h; cases x <;> first | exact ⟨_, rfl⟩ | simp [DumpArg.name] at h
    · intro; rfl
  case fork =>
    refine key .forkInst (·.2.fork) "fork_inst" 0 ?_ ?_ ?_ ?_ rfl
    · intros; rfl
    · intro s x h; cases x <;> first | rfl | exact absurd rfl h
    · intro x h; cases x <;> first | exact ⟨_, rfl⟩ | simp [DumpArg.name] at h
    · intro; rfl
  case keyTransformer =>
    refine key .keyTransformer (·.2.keyTransformer) "key_transformer" none ?_ ?_ ?_ ?_ rfl
    · intros; rfl
    · intro s x h; cases x <;> first | rfl | exact absurd rfl h
    · intro x h; cases x <;> first | exact ⟨_, rfl⟩ | simp [DumpArg.name] at h
    · intro; rfl
  case stripNulls =>
    refine key .stripNulls (·.2.stripNulls) "strip_nulls" false ?_ ?_ ?_ ?_ rfl
    · intros; rfl
    · intro s x h; cases x <;> first | rfl | exact absurd rfl h
    · intro x h; cases x <;> first | exact ⟨_, rfl⟩ | simp [DumpArg.name] at h
    · intro; rfl
  case stripPrivates =>
    refine key .stripPrivates (·.2.stripPrivates) "strip_privates" false ?_ ?_ ?_ ?_ rfl
    · intros; rfl
    · intro s x h; cases x <;> first | rfl | exact absurd rfl h
    · intro x h; cases x <;> first | exact ⟨_, rfl⟩ | simp [DumpArg.name] at h
    · intro; rfl
  case stripProperties =>
    refine key .stripProperties (·.2.stripProperties) "strip_properties" false ?_ ?_ ?_ ?_ rfl
    · intros; rfl
    · intro s x h; cases x <;> first | rfl | exact absurd rfl h
    · intro x h; cases x <;> first | exact ⟨_, rfl⟩ | simp [DumpArg.name] at h
    · intro; rfl
  case stripClassVariables =>
    refine key .stripClassVariables (·.2.stripClassVariables) "strip_class_variables" false
      ?_ ?_ ?_ ?_ rfl
    · intros; rfl
    · intro s x h; cases x <;> first | rfl | exact absurd rfl h
    · intro x h; cases x <;> first | exact ⟨_, rfl⟩ | simp [DumpArg.name] at h
    · intro; rfl
  case stripAttr =>
    refine key .stripAttr (·.2.stripAttr) "strip_attr" .none ?_ ?_ ?_ ?_ rfl
    · intros; rfl
    · intro s x h; cases x <;> first | rfl | exact absurd rfl h
    · intro x h; cases x <;> first | exact ⟨_, rfl⟩ | simp [DumpArg.name] at h
    · intro; rfl
  case verbose =>
    refine key .verbose (·.2.verbose) "verbose" {} ?_ ?_ ?_ ?_ rfl
    · intros; rfl
    · intro s x h; cases x <;> first | rfl | exact absurd rfl h
    · intro x h; cases x <;> first | exact ⟨_, rfl⟩ | simp [DumpArg.name] at h
    · intro; rfl
  case useEnumName =>
    refine key .useEnumName (·.2.useEnumName) "use_enum_name" true ?_ ?_ ?_ ?_ rfl
    · intros; rfl
    · intro s x h; cases x <;> first | rfl | exact absurd rfl h
    · intro x h; cases x <;> first | exact ⟨_, rfl⟩ | simp [DumpArg.name] at h
    · intro; rfl
  case stripMicroseconds =>
    refine key .stripMicroseconds (·.2.stripMicroseconds) "strip_microseconds" false ?_ ?_ ?_ ?_ rfl
    · intros; rfl
    · intro s x h; cases x <;> first | rfl | exact absurd rfl h
    · intro x h; cases x <;> first | exact ⟨_, rfl⟩ | simp [DumpArg.name] at h
    · intro; rfl
  case storeCls =>
    exact fold_keep (set := DumpArg.set) (g := fun s : Option Ty × DumpKw => s.2.storeCls)
      (by intro s x; cases x <;> rfl) _ _
  case types =>
    exact fold_keep (set := DumpArg.set) (g := fun s : Option Ty × DumpKw => s.2.types)
      (by intro s x; cases x <;> rfl) _ _

theorem loadSettings_spec (given call : List LoadArg) (i : Nat) (hg : Kwargs LoadArg.name given)
    (hc : Kwargs LoadArg.name call) :
    LoadSettings given call i
      { (loadSettings (mergeArgs LoadArg.name call given)).2 with fork := i } := by
  have key : ∀ {α : Type} (p : α → LoadArg) (g : Option Ty × LoadKw → α) (nm : String) (dflt : α),
      (∀ s a, g (LoadArg.set s (p a)) = a) →
      (∀ s x, x.name ≠ nm → g (LoadArg.set s x) = g s) → (∀ x, x.name = nm → ∃ a, x = p a) →
      (∀ a, (p a).name = nm) → g (none, {}) = dflt →
      Chosen p dflt given call (g (loadSettings (mergeArgs LoadArg.name call given))) :=
    fun p g nm dflt h1 h2 h3 h4 hd => chosen_of h1 h2 h3 h4 hd given call hg hc
  constructor
  case strict =>
    refine key .strict (·.2.strict) "strict" false ?_ ?_ ?_ ?_ rfl
    · intros; rfl
    · intro s x h; cases x <;> first | rfl | exact absurd rfl h
    · intro x h; cases x <;> first | exact ⟨_, rfl⟩ | simp [LoadArg.name] at h
    · intro; rfl
  case attrGetters =>
    refine key .attrGetters (·.2.attrGetters) "attr_getters" [] ?_ ?_ ?_ ?_ rfl
    · intros; rfl
    · intro s x h; cases x <;> first | rfl | exact absurd rfl h
    · intro x h; cases x <;> first | exact ⟨_, rfl⟩ | simp [LoadArg.name] at h
    · intro; rfl
  case keyTransformer =>
    refine key .keyTransformer (·.2.keyTransformer) "key_transformer" none ?_ ?_ ?_ ?_ rfl
    · intros; rfl
    · intro s x h; cases x <;> first | rfl | exact absurd rfl h
    · intro x h; cases x <;> first | exact ⟨_, rfl⟩ | simp [LoadArg.name] at h
    · intro; rfl
  case useEnumName =>
    refine key .useEnumName (·.2.useEnumName) "use_enum_name" none ?_ ?_ ?_ ?_ rfl
    · intros; rfl
    · intro s x h; cases x <;> first | rfl | exact absurd rfl h
    · intro x h; cases x <;> first | exact ⟨_, rfl⟩ | simp [LoadArg.name] at h
    · intro; rfl
  case fork => rfl
  case metaHints =>
    exact fold_keep (set := LoadArg.set) (g := fun s : Option Ty × LoadKw => s.2.metaHints)
      (by intro s x; cases x <;> rfl) _ (none, {})
  case inferred =>
    exact fold_keep (set := LoadArg.set) (g := fun s : Option Ty × LoadKw => s.2.inferred)
      (by intro s x; cases x <;> rfl) _ (none, {})
  case warnOnFail =>
    exact fold_keep (set := LoadArg.set) (g := fun s : Option Ty × LoadKw => s.2.warnOnFail)
      (by intro s x; cases x <;> rfl) _ (none, {})

theorem putArg_new {A : Type} (name : A → String) (l : List A) (x : A)
    (h : ∀ y ∈ l, name y ≠ name x) : putArg name l x = l ++ [x] := by
  induction l with
  | nil => rfl
  | cons y l ih =>
    simp only [List.mem_cons, forall_eq_or_imp] at h
    simp [putArg, h.1, ih h.2]

theorem dumpSettings_fork (call : List DumpArg) (i : Nat)
    (h : ∀ x ∈ call, x.name ≠ "fork_inst") :
    ((dumpSettings call).1, { (dumpSettings call).2 with fork := i })
      = dumpSettings (mergeArgs DumpArg.name call [.forkInst i]) := by
  have e : mergeArgs DumpArg.name call [.forkInst i] = call ++ [.forkInst i] :=
    putArg_new _ _ _ h
  rw [e]
  simp only [dumpSettings, List.foldl_append, List.foldl_cons, List.foldl_nil]
  rfl

theorem noneOf_ok {A : Type} {name : A → String} {given : List String} {kwargs : List A}
    (h : ∀ x ∈ kwargs, name x ∉ given) : noneOf name given kwargs = pure () := by
  unfold noneOf
  rw [if_neg]
  simp only [List.any_eq_true, List.contains_iff_mem, not_exists, not_and]
  exact h

theorem noneOf_err {A : Type} {name : A → String} {given : List String} {kwargs : List A}
    (h : ∃ x ∈ kwargs, name x ∈ given) :
    noneOf name given kwargs = Res.raise { kind := .typeError } := by
  unfold noneOf
  rw [if_pos]
  simp only [List.any_eq_true, List.contains_iff_mem]
  exact h

theorem raise_bind {α β : Type} (e : Err) (f : α → Res β) :
    (Res.raise e >>= f) = Res.raise e := rfl

/-! ## Histories -/

theorem ordered_add {S : List JsClass} (hS : Ordered S) {c : JsClass}
    (hc : ∀ p, c.parent = some p → p < S.length) : Ordered (S ++ [c]) := by
  intro i c' p hi hp
  rcases Nat.lt_trichotomy i S.length with h | rfl | h
  · rw [List.getElem?_append_left h] at hi
    exact hS i c' p hi hp
  · simp at hi
    subst hi
    exact hc p hp
  · rw [List.getElem?_eq_none (by simp; omega)] at hi
    cases hi

theorem ordered_modify {S : List JsClass} (hS : Ordered S) (j : Nat) {f : JsClass → JsClass}
    (hf : ∀ c, (f c).parent = c.parent) : Ordered (S.modify j f) := by
  intro i c p hi hp
  rw [List.getElem?_modify] at hi
  simp only [Option.map_eq_map, Option.map_eq_some_iff] at hi
  obtain ⟨c', hc', rfl⟩ := hi
  refine hS i c' p hc' ?_
  split at hp
  · rwa [hf] at hp
  · exact hp

theorem step_ordered {S : List JsClass} (hS : Ordered S) (op : JsOp) : Ordered (jsStep S op) := by
  unfold jsStep
  split
  · exact hS
  · next h =>
    have ha : Ordered (S ++ [{ parent := some op.target }]) :=
      ordered_add hS (by rintro p ⟨⟩; omega)
    cases op with
    | subclass i | fork i => exact ha
    | withDump i fork kwargs | withLoad i fork kwargs =>
      cases fork with
      | true => exact ordered_modify ha _ fun _ => rfl
      | false => exact ordered_modify hS _ fun _ => rfl

theorem run_ordered (ops : List JsOp) : Ordered (jsRun jsInit ops) := by
  suffices ∀ S, Ordered S → Ordered (jsRun S ops) by
    refine this _ ?_
    intro i c p hi hp
    match i, hi with
    | 0, hi => cases hi; cases hp
    | 1, hi => cases hi; cases hp; decide
    | i + 2, hi => simp [jsInit] at hi
  induction ops with
  | nil => exact fun _ h => h
  | cons op ops ih => exact fun S h => ih _ (step_ordered h op)

theorem lookup_of {A : Type} {get : JsClass → Option A} {ops : List JsOp} {S : List JsClass}
    (hS : S = jsRun jsInit ops) {i : Nat} {a : A} (h : Nearest get S i a) :
    lookup get S S.length i = some a :=
  nearest_lookup (hS ▸ run_ordered ops) h _ (nearest_lt h)

/-! ## C68: dump -/

variable (J : JsEnv) (ops : List JsOp)

/-- C68: if no class from `i` upwards has been changed by `with_dump`, `x.dump(**kwargs)`
is `jsons.dump(x, fork_inst=type(x), **kwargs)`. -/
theorem dump_plain (hS : J.S = jsRun jsInit ops) (i : Nat) (v : Val) (call : List DumpArg)
    (hm : Nearest JsClass.dump J.S i none) (hc : Kwargs DumpArg.name call)
    (hf : ∀ x ∈ call, x.name ≠ "fork_inst") :
    ∃ cls kw, DumpSettings [.forkInst i] call cls kw ∧
      jsDump J i v call = dump J.E.toEnv J.n v cls kw := by
  refine ⟨_, _, dumpSettings_spec [.forkInst i] call (by simp [Kwargs]) hc, ?_⟩
  unfold jsDump
  rw [lookup_of hS hm, ← dumpSettings_fork call i hf]
  simp only [noneOf_ok (name := DumpArg.name) (given := ["fork_inst"]) (kwargs := call)
    (by simpa using hf)]
  rfl

/-- C68: `x.json` is `jsons.dump(x, fork_inst=type(x))`. -/
theorem json_plain (hS : J.S = jsRun jsInit ops) (i : Nat) (v : Val)
    (hm : Nearest JsClass.dump J.S i none) :
    jsJson J i v = dump J.E.toEnv J.n v none { fork := i } := by
  unfold jsJson jsDump
  rw [lookup_of hS hm]
  rfl

/-- C68: after `with_dump(**given)`, `x.dump(**kwargs)` is `jsons.dump(x, **kwargs)` where
what was given to `with_dump` takes precedence.  What is missing: that the class is used
as the fork, see `with_dump_fails_fork`. -/
theorem with_dump_partial (hS : J.S = jsRun jsInit ops) (i : Nat) (v : Val)
    (given call : List DumpArg) (hm : Nearest JsClass.dump J.S i (some given))
    (hg : Kwargs DumpArg.name given) (hc : Kwargs DumpArg.name call) :
    ∃ cls kw, DumpSettings given call cls kw ∧
      jsDump J i v call = dump J.E.toEnv J.n v cls kw := by
  refine ⟨_, _, dumpSettings_spec given call hg hc, ?_⟩
  unfold jsDump
  rw [lookup_of hS hm]

/-- C68: `x.json` is `x.dump()`, with and without `with_dump`. -/
theorem with_dump_json_partial (hS : J.S = jsRun jsInit ops) (i : Nat) (v : Val)
    (given : List DumpArg) (hm : Nearest JsClass.dump J.S i (some given))
    (hg : Kwargs DumpArg.name given) :
    ∃ cls kw, DumpSettings given [] cls kw ∧ jsJson J i v = dump J.E.toEnv J.n v cls kw :=
  with_dump_partial J ops hS i v given [] hm hg (by simp [Kwargs])

/-- C68: `x.dumps`, `x.dumpb` and `str(x)` are `jsons.dumps` and `jsons.dumpb` with the
class as the fork. -/
theorem dumps_method (i : Nat) (v : Val) (call : List DumpArg) (hc : Kwargs DumpArg.name call)
    (hf : ∀ x ∈ call, x.name ≠ "fork_inst") :
    ∃ cls kw, DumpSettings [.forkInst i] call cls kw ∧
      jsDumps J i v call = dumps J.E.toEnv J.F J.n v cls kw ∧
      jsDumpb J i v call = dumpb J.E.toEnv J.F J.n v cls kw ∧
      jsStr J i v = dumps J.E.toEnv J.F J.n v none { fork := i } := by
  have hn := noneOf_ok (name := DumpArg.name) (given := ["fork_inst"]) (kwargs := call)
    (by simpa using hf)
  refine ⟨_, _, dumpSettings_spec [.forkInst i] call (by simp [Kwargs]) hc, ?_, ?_, rfl⟩
  · unfold jsDumps
    rw [hn, ← dumpSettings_fork call i hf]
    rfl
  · unfold jsDumpb
    rw [hn, ← dumpSettings_fork call i hf]
    rfl

/-- C68: the fork cannot be given in the call. -/
theorem fork_given_twice (hS : J.S = jsRun jsInit ops) (i : Nat) (v : Val) (call : List DumpArg)
    (hf : ∃ x ∈ call, x.name = "fork_inst") :
    (Nearest JsClass.dump J.S i none → (jsDump J i v call).val = .error { kind := .typeError }) ∧
      (jsDumps J i v call).val = .error { kind := .typeError } ∧
      (jsDumpb J i v call).val = .error { kind := .typeError } := by
  have hn := noneOf_err (name := DumpArg.name) (given := ["fork_inst"]) (kwargs := call)
    (by simpa using hf)
  refine ⟨fun hm => ?_, ?_, ?_⟩
  · unfold jsDump
    rw [lookup_of hS hm]
    simp only [hn]
    rfl
  · unfold jsDumps
    rw [hn]
    rfl
  · unfold jsDumpb
    rw [hn]
    rfl

/-! ## C68: load -/

/-- C68: `C.load(obj, **kwargs)` and `C.from_json(obj, **kwargs)` are
`jsons.load(obj, C, fork_inst=C, **kwargs)`, where what was given to `with_load`, if it was
called, takes precedence. -/
theorem load_method (hS : J.S = jsRun jsInit ops) (i : Nat) (v : Val) (call : List LoadArg)
    (m : Option (List LoadArg)) (hm : Nearest JsClass.load J.S i m)
    (hg : Kwargs LoadArg.name (m.getD [])) (hc : Kwargs LoadArg.name call)
    (hf : ∀ x ∈ m.getD [] ++ call, x.name ∉ ["cls", "fork_inst"]) :
    ∃ kw, LoadSettings (m.getD []) call i kw ∧
      jsLoad J i v call = load J.E J.n v (some (J.ty i)) kw ∧
      jsFromJson J i v call = load J.E J.n v (some (J.ty i)) kw := by
  have hload : jsLoad J i v call = load J.E J.n v (some (J.ty i))
      { (loadSettings (mergeArgs LoadArg.name call (m.getD []))).2 with fork := i } := by
    unfold jsLoad
    rw [lookup_of hS hm]
    have hn : noneOf LoadArg.name ["cls", "fork_inst"] (mergeArgs LoadArg.name call (m.getD []))
        = pure () := by
      refine noneOf_ok fun x hx => ?_
      rcases ((merge_spec (m.getD []) call hg hc).2 x).mp hx with h | h
      · exact hf x (List.mem_append_left _ h)
      · exact hf x (List.mem_append_right _ h.1)
    cases m with
    | none =>
      simp only [Option.getD_none] at hn ⊢
      have e : mergeArgs LoadArg.name call [] = call := rfl
      rw [e] at hn ⊢
      simp only [hn]
      rfl
    | some given =>
      simp only [Option.getD_some] at hn ⊢
      simp only [hn]
      rfl
  refine ⟨_, loadSettings_spec (m.getD []) call i hg hc, hload, ?_⟩
  unfold jsFromJson
  rw [noneOf_ok (name := LoadArg.name) (given := ["cls"]) (kwargs := call), hload]
  · rfl
  · intro x hx h
    refine hf x (List.mem_append_right _ hx) ?_
    simp only [List.mem_singleton] at h
    simp [h]

/-- C68: `C.loads(text, **kwargs)` and `C.loadb(bytes, **kwargs)` are `jsons.loads` and
`jsons.loadb` with the class as the type and as the fork. -/
theorem loads_method (i : Nat) (s : PyStr) (b : PyObj) (call : List LoadArg)
    (hc : Kwargs LoadArg.name call) (hf : ∀ x ∈ call, x.name ∉ ["cls", "fork_inst"]) :
    ∃ kw, LoadSettings [] call i kw ∧
      jsLoads J i s call = loads J.E J.F J.n s (some (J.ty i)) kw ∧
      jsLoadb J i b call = loadb J.E J.F J.n b (some (J.ty i)) kw := by
  have h := loadSettings_spec [] call i (by simp [Kwargs]) hc
  rw [show mergeArgs LoadArg.name call [] = call from rfl] at h
  refine ⟨_, h, ?_, ?_⟩
  · unfold jsLoads
    rw [noneOf_ok hf, pure_bind']
  · unfold jsLoadb
    rw [noneOf_ok hf, pure_bind']

/-! ## C68: which classes an operation changes -/

/-- From class `i` up to class `c`, no class before `c` has the attribute. -/
inductive Via {A : Type} (get : JsClass → Option A) (S : List JsClass) (c : Nat) : Nat → Prop
  | here : Via get S c c
  | base {i p : Nat} {x : JsClass} : i ≠ c → S[i]? = some x → get x = none → x.parent = some p →
      Via get S c p → Via get S c i

section scope
variable {A : Type} {get : JsClass → Option A} {S : List JsClass} {c : Nat} {f : JsClass → JsClass}

theorem nearest_modify {a : A}
    (hg : ∀ x, get (f x) = some a) (hc : c < S.length) (i : Nat) (b : A) :
    Nearest get (S.modify c f) i b ↔
      (Via get S c i ∧ b = a) ∨ (¬ Via get S c i ∧ Nearest get S i b) := by
  have hat : ∀ j, (S.modify c f)[j]? = if c = j then S[j]?.map f else S[j]? := by
    intro j
    rw [List.getElem?_modify]
    split <;> simp
  obtain ⟨y, hy⟩ : ∃ y, S[c]? = some y := ⟨S[c], List.getElem?_eq_getElem hc⟩
  have hcc : Nearest get (S.modify c f) c a := .own (by rw [hat, if_pos rfl, hy]; rfl) (hg y)
  have via_near : ∀ j, Via get S c j → Nearest get (S.modify c f) j a := by
    intro j h
    induction h with
    | here => exact hcc
    | base hj h1 h2 h3 _ ih =>
      exact .base (by rw [hat, if_neg (Ne.symm hj)]; exact h1) h2 h3 ih
  constructor
  · intro h
    by_cases hv : Via get S c i
    · exact .inl ⟨hv, nearest_unique h (via_near i hv)⟩
    · refine .inr ⟨hv, ?_⟩
      induction h with
      | @own j x b h1 h2 =>
        have hj : c ≠ j := fun e => hv (e ▸ .here)
        rw [hat, if_neg hj] at h1
        exact .own h1 h2
      | @base j p x b h1 h2 h3 _ ih =>
        have hj : c ≠ j := fun e => hv (e ▸ .here)
        rw [hat, if_neg hj] at h1
        exact .base h1 h2 h3 (ih fun h => hv (.base (Ne.symm hj) h1 h2 h3 h))
  · rintro (⟨hv, rfl⟩ | ⟨hv, h⟩)
    · exact via_near i hv
    · induction h with
      | @own j x b h1 h2 =>
        have hj : c ≠ j := fun e => hv (e ▸ .here)
        exact .own (by rw [hat, if_neg hj]; exact h1) h2
      | @base j p x b h1 h2 h3 _ ih =>
        have hj : c ≠ j := fun e => hv (e ▸ .here)
        exact .base (by rw [hat, if_neg hj]; exact h1) h2 h3
          (ih fun h => hv (.base (Ne.symm hj) h1 h2 h3 h))

theorem nearest_modify_other (hf : ∀ x, (f x).parent = x.parent) (hg : ∀ x, get (f x) = get x)
    (i : Nat) (b : A) : Nearest get (S.modify c f) i b ↔ Nearest get S i b := by
  constructor
  · intro h
    induction h with
    | @own j x b h1 h2 =>
      rw [List.getElem?_modify] at h1
      simp only [Option.map_eq_map, Option.map_eq_some_iff] at h1
      obtain ⟨y, hy, rfl⟩ := h1
      refine .own hy ?_
      split at h2
      · rwa [hg] at h2
      · exact h2
    | @base j p x b h1 h2 h3 _ ih =>
      rw [List.getElem?_modify] at h1
      simp only [Option.map_eq_map, Option.map_eq_some_iff] at h1
      obtain ⟨y, hy, rfl⟩ := h1
      refine .base hy ?_ ?_ ih
      · split at h2
        · rwa [hg] at h2
        · exact h2
      · split at h3
        · rwa [hf] at h3
        · exact h3
  · intro h
    induction h with
    | @own j x b h1 h2 =>
      refine .own (c := if c = j then f x else x) ?_ ?_
      · rw [List.getElem?_modify, h1]
        split <;> rfl
      · split
        · rw [hg]; exact h2
        · exact h2
    | @base j p x b h1 h2 h3 _ ih =>
      refine .base (c := if c = j then f x else x) ?_ ?_ ?_ ih
      · rw [List.getElem?_modify, h1]
        split <;> rfl
      · split
        · rw [hg]; exact h2
        · exact h2
      · split
        · rw [hf]; exact h3
        · exact h3

theorem nearest_add (hS : Ordered S) {y : JsClass} (i : Nat) (hi : i < S.length) (b : A) :
    Nearest get (S ++ [y]) i b ↔ Nearest get S i b := by
  constructor
  · intro h
    induction h with
    | own h1 h2 =>
      rw [List.getElem?_append_left hi] at h1
      exact .own h1 h2
    | base h1 h2 h3 _ ih =>
      rw [List.getElem?_append_left hi] at h1
      exact .base h1 h2 h3 (ih (Nat.lt_trans (hS _ _ _ h1 h3) hi))
  · intro h
    clear hS hi
    induction h with
    | own h1 h2 => exact .own (by rw [List.getElem?_append_left (List.getElem?_eq_some_iff.mp h1).1]; exact h1) h2
    | base h1 h2 h3 _ ih =>
      exact .base (by rw [List.getElem?_append_left (List.getElem?_eq_some_iff.mp h1).1]; exact h1) h2 h3 ih

end scope

/-- C68: `C.with_dump(**given)` changes `dump` of `C` and of the classes derived from it
(that have no nearer `with_dump`), of no others, and it changes no `load`. -/
theorem with_dump_scope (S : List JsClass) (c : Nat) (given : List DumpArg) (hc : c < S.length)
    (i : Nat) :
    (∀ m, Nearest JsClass.dump (jsStep S (.withDump c false given)) i m ↔
      (Via JsClass.dump S c i ∧ m = some given) ∨
        (¬ Via JsClass.dump S c i ∧ Nearest JsClass.dump S i m)) ∧
    (∀ m, Nearest JsClass.load (jsStep S (.withDump c false given)) i m ↔
      Nearest JsClass.load S i m) := by
  have e : jsStep S (.withDump c false given) = setDump S c given := by
    simp [jsStep, JsOp.target, Nat.not_le.mpr hc]
  rw [e]
  exact ⟨nearest_modify (f := fun x => { x with dump := some (some given) }) (fun _ => rfl) hc i,
    nearest_modify_other (f := fun x => { x with dump := some (some given) }) (fun _ => rfl)
      (fun _ => rfl) i⟩

/-- C68: `C.with_load(**given)` likewise. -/
theorem with_load_scope (S : List JsClass) (c : Nat) (given : List LoadArg) (hc : c < S.length)
    (i : Nat) :
    (∀ m, Nearest JsClass.load (jsStep S (.withLoad c false given)) i m ↔
      (Via JsClass.load S c i ∧ m = some given) ∨
        (¬ Via JsClass.load S c i ∧ Nearest JsClass.load S i m)) ∧
    (∀ m, Nearest JsClass.dump (jsStep S (.withLoad c false given)) i m ↔
      Nearest JsClass.dump S i m) := by
  have e : jsStep S (.withLoad c false given) = setLoad S c given := by
    simp [jsStep, JsOp.target, Nat.not_le.mpr hc]
  rw [e]
  exact ⟨nearest_modify (f := fun x => { x with load := some (some given) }) (fun _ => rfl) hc i,
    nearest_modify_other (f := fun x => { x with load := some (some given) }) (fun _ => rfl)
      (fun _ => rfl) i⟩

theorem modify_last (S : List JsClass) (y : JsClass) (f : JsClass → JsClass) :
    (S ++ [y]).modify S.length f = S ++ [f y] := by
  induction S with
  | nil => rfl
  | cons x S ih => simp [ih]

theorem nearest_new {A : Type} {get : JsClass → Option A} {S : List JsClass} (hS : Ordered S)
    {y : JsClass} {c : Nat} (hc : c < S.length) (hp : y.parent = some c) (m : A) :
    Nearest get (S ++ [y]) S.length m ↔ get y = some m ∨ (get y = none ∧ Nearest get S c m) := by
  have hy : (S ++ [y])[S.length]? = some y := by simp
  constructor
  · intro h
    generalize hi : S.length = i at h
    cases h with
    | own h1 h2 =>
      rw [← hi, hy] at h1
      cases h1
      exact .inl h2
    | base h1 h2 h3 h4 =>
      rw [← hi, hy] at h1
      cases h1
      rw [hp] at h3
      cases h3
      exact .inr ⟨h2, (nearest_add hS c hc m).mp h4⟩
  · rintro (h | ⟨h, h'⟩)
    · exact .own hy h
    · exact .base hy h hp ((nearest_add hS c hc m).mpr h')

/-- C68: with `fork=True` (and for `fork`, and for a class statement), no existing class
is changed, in any history. -/
theorem fork_changes_nothing (c : Nat) (given : List DumpArg) (given' : List LoadArg)
    (hc : c < (jsRun jsInit ops).length) (op : JsOp)
    (hop : op ∈ [JsOp.withDump c true given, .withLoad c true given', .fork c, .subclass c])
    (i : Nat) (hi : i < (jsRun jsInit ops).length) :
    (∀ m, Nearest JsClass.dump (jsRun jsInit (ops ++ [op])) i m ↔
      Nearest JsClass.dump (jsRun jsInit ops) i m) ∧
    (∀ m, Nearest JsClass.load (jsRun jsInit (ops ++ [op])) i m ↔
      Nearest JsClass.load (jsRun jsInit ops) i m) := by
  have hS := run_ordered ops
  have e : jsRun jsInit (ops ++ [op]) = jsStep (jsRun jsInit ops) op := by simp [jsRun]
  rw [e]
  generalize jsRun jsInit ops = S at *
  simp only [List.mem_cons, List.not_mem_nil, or_false] at hop
  rcases hop with rfl | rfl | rfl | rfl <;>
    simp only [jsStep, JsOp.target, Nat.not_le.mpr hc, if_false, if_true, setDump, setLoad, modify_last] <;>
    exact ⟨fun m => nearest_add hS i hi m, fun m => nearest_add hS i hi m⟩

/-- C68: the class that `with_dump(fork=True, **given)` returns has the given method, and
the `load` of `C`. -/
theorem with_dump_fork (c : Nat) (given : List DumpArg) (hc : c < (jsRun jsInit ops).length) :
    Nearest JsClass.dump (jsRun jsInit (ops ++ [.withDump c true given]))
      (jsRun jsInit ops).length (some given) ∧
    ∀ m, Nearest JsClass.load (jsRun jsInit (ops ++ [.withDump c true given]))
      (jsRun jsInit ops).length m ↔ Nearest JsClass.load (jsRun jsInit ops) c m := by
  have hS := run_ordered ops
  have e : jsRun jsInit (ops ++ [.withDump c true given])
      = jsStep (jsRun jsInit ops) (.withDump c true given) := by simp [jsRun]
  rw [e]
  generalize jsRun jsInit ops = S at *
  simp only [jsStep, JsOp.target, Nat.not_le.mpr hc, if_false, if_true, setDump, modify_last]
  refine ⟨(nearest_new hS hc rfl _).mpr (.inl rfl), fun m => ?_⟩
  rw [nearest_new hS hc rfl]
  simp

/-- C68: the class that `with_load(fork=True, **given)` returns has the given method, and
the `dump` of `C`. -/
theorem with_load_fork (c : Nat) (given : List LoadArg) (hc : c < (jsRun jsInit ops).length) :
    Nearest JsClass.load (jsRun jsInit (ops ++ [.withLoad c true given]))
      (jsRun jsInit ops).length (some given) ∧
    ∀ m, Nearest JsClass.dump (jsRun jsInit (ops ++ [.withLoad c true given]))
      (jsRun jsInit ops).length m ↔ Nearest JsClass.dump (jsRun jsInit ops) c m := by
  have hS := run_ordered ops
  have e : jsRun jsInit (ops ++ [.withLoad c true given])
      = jsStep (jsRun jsInit ops) (.withLoad c true given) := by simp [jsRun]
  rw [e]
  generalize jsRun jsInit ops = S at *
  simp only [jsStep, JsOp.target, Nat.not_le.mpr hc, if_false, if_true, setLoad, modify_last]
  refine ⟨(nearest_new hS hc rfl _).mpr (.inl rfl), fun m => ?_⟩
  rw [nearest_new hS hc rfl]
  simp

/-- C68: a new class has the methods of its base class. -/
theorem subclass_inherits (c : Nat) (hc : c < (jsRun jsInit ops).length) (op : JsOp)
    (hop : op = .fork c ∨ op = .subclass c) :
    (∀ m, Nearest JsClass.dump (jsRun jsInit (ops ++ [op])) (jsRun jsInit ops).length m ↔
      Nearest JsClass.dump (jsRun jsInit ops) c m) ∧
    (∀ m, Nearest JsClass.load (jsRun jsInit (ops ++ [op])) (jsRun jsInit ops).length m ↔
      Nearest JsClass.load (jsRun jsInit ops) c m) := by
  have hS := run_ordered ops
  have e : jsRun jsInit (ops ++ [op]) = jsStep (jsRun jsInit ops) op := by simp [jsRun]
  rw [e]
  generalize jsRun jsInit ops = S at *
  rcases hop with rfl | rfl <;>
    simp only [jsStep, JsOp.target, Nat.not_le.mpr hc, if_false] <;>
    refine ⟨fun m => ?_, fun m => ?_⟩ <;> rw [nearest_new hS hc rfl] <;> simp

/-! ## Examples -/

/-- A program with a class `Point(JsonSerializable)`, number 2, and after that the given
operations.  For the class, a serializer has been registered with
`Point.set_serializer(lambda obj, **kw: 'P', Point, fork=False)`, but on the fork that is
number 2. -/
def demoJs (ops : List JsOp) : JsEnv where
  E := { demoLEnv demoInfo with
    sers := fun f => if f = 2 then
        Registry.setLizer (tyWorld demoInfo) (.custom 0) [some (.cls (.user 0))] true
          (initialSers demoInfo)
      else initialSers demoInfo
    customSer := fun _ _ _ _ _ => pure (.str ['P']) }
  F := Functions.demoFloat
  n := 9
  S := jsRun jsInit (.subclass 1 :: ops)
  ty := fun _ => .cls (.user 0)

/-- `Point(1, None)` -/
def somePoint : Val := .obj 0 [("x".toList, .int 1), ("y".toList, .none)]

/-- The class has the methods of `JsonSerializable`. -/
example : Nearest JsClass.dump (demoJs []).S 2 none ∧ Nearest JsClass.load (demoJs []).S 2 none :=
  ⟨.base rfl rfl rfl (.own rfl rfl), .base rfl rfl rfl (.own rfl rfl)⟩

/-- After `JsonSerializable.with_dump(strip_nulls=True)`, also this class has the new
`dump`, and what is given in a call does not count. -/
example : Nearest JsClass.dump (demoJs [.withDump 1 false [.stripNulls true]]).S 2
    (some [.stripNulls true]) :=
  .base rfl rfl rfl (.own rfl rfl)

example : (jsDump (demoJs [.withDump 1 false [.stripNulls true]]) 2 somePoint
    [.stripNulls false]).val = .ok (.dict [(.str ['x'], .int 1)]) := by
  rfl

/-- `Point.from_json({'x': 1})` -/
example : (jsFromJson (demoJs []) 2 (.dict [(.str ['x'], .int 1)]) [.strict false]).val
    = .ok (.obj 0 [("x".toList, .int 1), ("y".toList, .int 0)]) := by
  rfl

/-- Keyword arguments that meet the hypotheses. -/
example : Kwargs DumpArg.name [.stripNulls true, .strict true] ∧
    ∀ x ∈ [DumpArg.stripNulls true, .strict true], x.name ≠ "fork_inst" := by
  unfold Kwargs
  decide

/-! ## Where C68 fails -/

/-- C68 fails for `with_dump`: the class is not used as the fork any more, so that its own
serializers are not used. -/
theorem with_dump_fails_fork :
    (jsJson (demoJs []) 2 somePoint).val = .ok (.str ['P']) ∧
    (jsJson (demoJs [.withDump 2 false []]) 2 somePoint).val
      = .ok (.dict [(.str ['x'], .int 1), (.str ['y'], .none)]) := by
  constructor <;> rfl

/-- C68 fails for `with_dump` and texts: `str(x)` is not the text of `x.json`. -/
theorem str_fails_with_dump :
    let J : JsEnv := { demoJs [.withDump 2 false [.stripNulls true]] with E := demoLEnv demoInfo }
    (jsJson J 2 somePoint).val = .ok (.dict [(.str ['x'], .int 1)]) ∧
    (jsStr J 2 somePoint).val = .ok "{\"x\": 1, \"y\": null}".toList := by
  constructor <;> rfl

/-- C68 fails for `with_load` and texts: `C.loads(text)` is not `C.load` of what is in the
text. -/
theorem loads_fails_with_load :
    let J := demoJs [.withLoad 2 false [.strict true]]
    let text := "{\"x\": 1, \"z\": 2}".toList
    let obj := Val.dict [(.str ['x'], .int 1), (.str ['z'], .int 2)]
    jsonLoads J.F text = some obj ∧
    (∃ e, (jsLoad J 2 obj []).val = .error e ∧ e.kind = .signatureMismatch) ∧
    (jsLoads J 2 text []).val
      = .ok (.obj 0 [("x".toList, .int 1), ("y".toList, .int 0), ("z".toList, .int 2)]) := by
  refine ⟨by decide +kernel, ⟨_, rfl, rfl⟩, by decide +kernel⟩

end Verif.Props.JsonSerializable
