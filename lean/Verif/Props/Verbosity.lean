import Verif.Api.Verbosity

/-!
# Properties of `Verbosity`

C69.
-/

set_option autoImplicit false

namespace Verif.Api
open Verif Verif.Core

/-! ## What the flags are meant to be -/

/-- The two single flags. -/
inductive Single where
  | classInfo | dumpTime
  deriving DecidableEq

/-- Expressions that a user can write: the four names, combined with `|` and `&`. -/
inductive FlagExpr where
  | nothing | classInfo | dumpTime | everything
  | or (a b : FlagExpr)
  | and (a b : FlagExpr)

/-- The flags that an expression stands for, as a set. -/
def FlagExpr.flags : FlagExpr → Single → Prop
  | .nothing, _ => False
  | .classInfo, s => s = .classInfo
  | .dumpTime, s => s = .dumpTime
  | .everything, _ => True
  | .or a b, s => a.flags s ∨ b.flags s
  | .and a b, s => a.flags s ∧ b.flags s

/-- The value of an expression. -/
def FlagExpr.eval : FlagExpr → Nat
  | .nothing => Flag.withNothing
  | .classInfo => Flag.withClassInfo
  | .dumpTime => Flag.withDumpTime
  | .everything => Flag.withEverything
  | .or a b => Flag.or a.eval b.eval
  | .and a b => Flag.and a.eval b.eval

/-- The value of a single flag. -/
def Single.value : Single → Nat
  | .classInfo => Flag.withClassInfo
  | .dumpTime => Flag.withDumpTime

/-! ## Lemmas -/

/-- The number that encodes a pair of flags. -/
def code (a b : Bool) : Nat := (if a then 10 else 0) + (if b then 20 else 0)

theorem eval_code (e : FlagExpr) : ∃ a b, e.eval = code a b ∧
    (a = true ↔ e.flags .classInfo) ∧ (b = true ↔ e.flags .dumpTime) := by
  induction e with
  | nothing => exact ⟨false, false, rfl, by simp [FlagExpr.flags], by simp [FlagExpr.flags]⟩
  | classInfo => exact ⟨true, false, rfl, by simp [FlagExpr.flags], by simp [FlagExpr.flags]⟩
  | dumpTime => exact ⟨false, true, rfl, by simp [FlagExpr.flags], by simp [FlagExpr.flags]⟩
  | everything => exact ⟨true, true, rfl, by simp [FlagExpr.flags], by simp [FlagExpr.flags]⟩
  | or x y ihx ihy =>
    obtain ⟨a, b, h, ha, hb⟩ := ihx
    obtain ⟨c, d, h', hc, hd⟩ := ihy
    refine ⟨a || c, b || d, ?_, ?_, ?_⟩
    · show Flag.or x.eval y.eval = _
      rw [h, h']
      cases a <;> cases b <;> cases c <;> cases d <;> rfl
    · rw [Bool.or_eq_true, ha, hc]; rfl
    · rw [Bool.or_eq_true, hb, hd]; rfl
  | and x y ihx ihy =>
    obtain ⟨a, b, h, ha, hb⟩ := ihx
    obtain ⟨c, d, h', hc, hd⟩ := ihy
    refine ⟨a && c, b && d, ?_, ?_, ?_⟩
    · show Flag.and x.eval y.eval = _
      rw [h, h']
      cases a <;> cases b <;> cases c <;> cases d <;> rfl
    · rw [Bool.and_eq_true, ha, hc]; rfl
    · rw [Bool.and_eq_true, hb, hd]; rfl

/-! ## The properties -/

/-- C69: `flag in expression` holds for exactly the flags that the expression stands
for. -/
theorem verbosity_contains (e : FlagExpr) (s : Single) :
    Flag.contains e.eval s.value = true ↔ e.flags s := by
  obtain ⟨a, b, h, ha, hb⟩ := eval_code e
  rw [h]
  cases s with
  | classInfo =>
    rw [← ha]
    cases a <;> cases b <;> decide
  | dumpTime =>
    rw [← hb]
    cases a <;> cases b <;> decide

/-- C69: a combination of flags is in an expression if and only if all of its flags
are. -/
theorem verbosity_contains_all (e d : FlagExpr) :
    Flag.contains e.eval d.eval = true ↔ ∀ s, d.flags s → e.flags s := by
  obtain ⟨a, b, h, ha, hb⟩ := eval_code e
  obtain ⟨a', b', h', ha', hb'⟩ := eval_code d
  have key : (∀ s, d.flags s → e.flags s) ↔ ((a' = true → a = true) ∧ (b' = true → b = true)) := by
    rw [ha, hb, ha', hb']
    constructor
    · intro k
      exact ⟨k _, k _⟩
    · rintro ⟨k1, k2⟩ s
      cases s with
      | classInfo => exact k1
      | dumpTime => exact k2
  rw [key, h, h']
  cases a <;> cases b <;> cases a' <;> cases b' <;> decide

/-- C69: two expressions have the same value if and only if they stand for the same
flags. -/
theorem verbosity_eq (e d : FlagExpr) : e.eval = d.eval ↔ ∀ s, e.flags s ↔ d.flags s := by
  obtain ⟨a, b, h, ha, hb⟩ := eval_code e
  obtain ⟨a', b', h', ha', hb'⟩ := eval_code d
  have key : (∀ s, e.flags s ↔ d.flags s) ↔ ((a = true ↔ a' = true) ∧ (b = true ↔ b' = true)) := by
    rw [ha, hb, ha', hb']
    constructor
    · intro k
      exact ⟨k _, k _⟩
    · rintro ⟨k1, k2⟩ s
      cases s with
      | classInfo => exact k1
      | dumpTime => exact k2
  rw [key, h, h']
  cases a <;> cases b <;> cases a' <;> cases b' <;> decide

/-- C69: what `dump(obj, verbose=e)` asks of the value: class info and dump time are
in it if and only if they are among the flags, and it is nothing (the dump gets no
'-meta') if and only if there are no flags. -/
theorem verbosity_asked (e : FlagExpr) :
    ((toVerbosity e.eval).classInfo = true ↔ e.flags .classInfo) ∧
    ((toVerbosity e.eval).dumpTime = true ↔ e.flags .dumpTime) ∧
    (toVerbosity e.eval = {} ↔ e.eval = Flag.withNothing) := by
  refine ⟨verbosity_contains e .classInfo, verbosity_contains e .dumpTime, ?_⟩
  obtain ⟨a, b, h, -, -⟩ := eval_code e
  rw [h]
  cases a <;> cases b <;> decide

/-- C69: `from_value` leaves a `Verbosity` as it is, makes nothing of `False`, `None`
and every other falsy value, and everything of every truthy value. -/
theorem verbosity_from_value :
    (∀ n, fromValue (.flag n) = n) ∧
    (∀ v : Val, v.falsy = true → fromValue (.val v) = Flag.withNothing) ∧
    (∀ v : Val, v.falsy = false → ∀ s : Single, Flag.contains (fromValue (.val v)) s.value = true) := by
  have none_eq : ∀ v : Val, pyEq v .none = true → v = .none := by
    intro v h
    match v with
    | .atom a => cases a <;> first | rfl | (simp [pyEq, Atom.num?] at h)
    | .seq _ _ | .dict _ | .ddict _ _ | .ntuple _ _ | .enum _ _ | .obj _ _ => simp [pyEq] at h
  have false_eq : ∀ v : Val, pyEq v (.bool false) = true → v.falsy = true := by
    intro v h
    match v with
    | .atom a =>
      cases a with
      | complex re im =>
        by_cases him : im = 0
        · subst him; simpa [pyEq, Atom.num?, Val.falsy] using h
        · simp [pyEq, Atom.num?, him] at h
      | _ => simp_all [pyEq, Atom.num?, Val.falsy]
    | .seq _ _ | .dict _ | .ddict _ _ | .ntuple _ _ | .enum _ _ | .obj _ _ => simp [pyEq] at h
  refine ⟨fun _ => rfl, ?_, ?_⟩
  · intro v hv
    have ht : v ≠ .bool true := by rintro rfl; cases hv
    unfold fromValue
    simp [hv, ht]
  · intro v hv s
    have h1 : pyEq v (.bool false) = false := by
      cases h : pyEq v (.bool false)
      · rfl
      · rw [false_eq v h] at hv; cases hv
    have h2 : pyEq v .none = false := by
      cases h : pyEq v .none
      · rfl
      · rw [none_eq v h] at hv; cases hv
    have : fromValue (.val v) = Flag.withEverything := by
      unfold fromValue
      simp [hv, h1, h2]
    rw [this]
    cases s <;> decide

/-- `(WITH_DUMP_TIME | WITH_NOTHING | WITH_CLASS_INFO) & WITH_DUMP_TIME` has the dump
time only, and `verbose=1` is everything. -/
example :
    (FlagExpr.and (.or (.or .dumpTime .nothing) .classInfo) .dumpTime).eval = 20 ∧
    toVerbosity (FlagExpr.and (.or (.or .dumpTime .nothing) .classInfo) .dumpTime).eval
      = ⟨false, true⟩ ∧
    fromValue (.val (.int 1)) = 30 ∧ fromValue (.val (.str [])) = 0 := by decide

end Verif.Api
