import Verif.Core.Dump

/-! # Lemmas about results -/

set_option autoImplicit false

namespace Verif.Core
open Verif

variable {α β γ : Type}

theorem bind_val (x : Res α) (f : α → Res β) :
    (x >>= f).val = match x.val with | .ok a => (f a).val | .error e => .error e := by
  show (Res.bind x f).val = _
  unfold Res.bind
  split <;> simp_all

theorem bind_ok {x : Res α} {f : α → Res β} {b : β} :
    (x >>= f).val = .ok b ↔ ∃ a, x.val = .ok a ∧ (f a).val = .ok b := by
  rw [bind_val]
  cases x.val <;> simp

theorem bind_err {x : Res α} {f : α → Res β} {e : Err} :
    (x >>= f).val = .error e ↔ x.val = .error e ∨ ∃ a, x.val = .ok a ∧ (f a).val = .error e := by
  rw [bind_val]
  cases x.val <;> simp

theorem bind_log (x : Res α) (f : α → Res β) :
    (x >>= f).log = match x.val with | .ok a => x.log ++ (f a).log | .error _ => x.log := by
  show (Res.bind x f).log = _
  unfold Res.bind
  split <;> simp_all

@[simp] theorem pure_val (a : α) : (pure a : Res α).val = .ok a := rfl
@[simp] theorem pure_log (a : α) : (pure a : Res α).log = [] := rfl
@[simp] theorem ret_val (a : α) : (Res.ret a : Res α).val = .ok a := rfl
@[simp] theorem raise_val (e : Err) : (Res.raise e : Res α).val = .error e := rfl
@[simp] theorem raise_log (e : Err) : (Res.raise e : Res α).log = [] := rfl
@[simp] theorem emit_val (e : Event) : (Res.emit e).val = .ok () := rfl
@[simp] theorem emit_log (e : Event) : (Res.emit e).log = [e] := rfl
@[simp] theorem attempt_val (x : Res α) : x.attempt.val = .ok x.val := rfl
@[simp] theorem attempt_log (x : Res α) : x.attempt.log = x.log := rfl
@[simp] theorem lift_val (x : Except Err α) : (Res.lift x).val = x := by cases x <;> rfl
@[simp] theorem lift_log (x : Except Err α) : (Res.lift x).log = [] := by cases x <;> rfl

theorem liftK_ok {x : Except ErrKind α} {a : α} : (Res.liftK x).val = .ok a ↔ x = .ok a := by
  cases x <;> simp [Res.liftK]

@[simp] theorem liftK_of_ok (a : α) : (Res.liftK (.ok a) : Res α) = pure a := rfl

theorem liftK_err {x : Except ErrKind α} {e : Err} :
    (Res.liftK x).val = .error e ↔ ∃ k, x = .error k ∧ e = { kind := k } := by
  cases x with
  | ok a => simp [Res.liftK]
  | error k => simp [Res.liftK, eq_comm]

theorem liftS_ok {s : Val} {x : Except ErrKind α} {a : α} : (Res.liftS s x).val = .ok a ↔ x = .ok a := by
  cases x <;> simp [Res.liftS]

@[simp] theorem liftS_of_ok (s : Val) (a : α) : (Res.liftS s (.ok a) : Res α) = pure a := rfl

theorem liftS_err {s : Val} {x : Except ErrKind α} {e : Err} :
    (Res.liftS s x).val = .error e ↔
      ∃ k, x = .error k ∧ e = { kind := k, source := if k = .unknownClass then some s else none } := by
  cases x with
  | ok a => simp [Res.liftS]
  | error k => simp [Res.liftS, eq_comm]

@[simp] theorem liftS_log (s : Val) (x : Except ErrKind α) : (Res.liftS s x).log = [] := by cases x <;> rfl

@[simp] theorem liftK_log (x : Except ErrKind α) : (Res.liftK x).log = [] := by cases x <;> rfl

@[simp] theorem pure_bind' (a : α) (f : α → Res β) : (pure a >>= f) = f a := by
  show Res.bind (Res.ret a) f = f a
  simp [Res.bind, Res.ret]

theorem res_ext {x y : Res α} (h1 : x.log = y.log) (h2 : x.val = y.val) : x = y := by
  cases x; cases y; simp_all

theorem mapRes_ok {f : α → Res β} {xs : List α} {ys : List β} :
    (mapRes f xs).val = .ok ys ↔ List.Forall₂ (fun x y => (f x).val = .ok y) xs ys := by
  induction xs generalizing ys with
  | nil =>
    simp only [mapRes, pure_val, Except.ok.injEq]
    constructor
    · intro h; subst h; exact .nil
    · intro h; cases h; rfl
  | cons x xs ih =>
    simp only [mapRes, bind_ok, pure_val, Except.ok.injEq, ih]
    constructor
    · rintro ⟨y, hy, zs, hz, rfl⟩
      exact .cons hy hz
    · intro h
      cases h with
      | cons hy hz => exact ⟨_, hy, _, hz, rfl⟩

/-- Everything that `mapRes` returns is the image of an element. -/
theorem mapRes_mem {f : α → Res β} {xs : List α} {ys : List β} (h : (mapRes f xs).val = .ok ys)
    {y : β} (hy : y ∈ ys) : ∃ x ∈ xs, (f x).val = .ok y := by
  rw [mapRes_ok] at h
  induction h with
  | nil => cases hy
  | cons h1 h2 ih =>
    rcases List.mem_cons.1 hy with rfl | hy
    · exact ⟨_, List.mem_cons_self, h1⟩
    · obtain ⟨x, hx, e⟩ := ih hy
      exact ⟨x, List.mem_cons_of_mem _ hx, e⟩

theorem mapRes_err {f : α → Res β} {xs : List α} {e : Err} (h : (mapRes f xs).val = .error e) :
    ∃ x ∈ xs, (f x).val = .error e := by
  induction xs with
  | nil => simp [mapRes] at h
  | cons x xs ih =>
    simp only [mapRes, bind_err, pure_val] at h
    rcases h with h | ⟨y, hy, h | ⟨_, _, h⟩⟩
    · exact ⟨x, List.mem_cons_self, h⟩
    · obtain ⟨x', hx, e'⟩ := ih h
      exact ⟨x', List.mem_cons_of_mem _ hx, e'⟩
    · simp at h

/-- If every element succeeds then so does the list. -/
theorem mapRes_total {f : α → Res β} {g : α → β} {xs : List α}
    (h : ∀ x ∈ xs, (f x).val = .ok (g x)) : (mapRes f xs).val = .ok (xs.map g) := by
  rw [mapRes_ok]
  induction xs with
  | nil => exact .nil
  | cons x xs ih =>
    exact .cons (h x List.mem_cons_self) (ih fun y hy => h y (List.mem_cons_of_mem _ hy))

/-- What happens after a step that succeeds is in the log. -/
theorem mem_bind_log {x : Res α} {f : α → Res β} {a : α} {ev : Event} (h : x.val = .ok a)
    (he : ev ∈ (f a).log) : ev ∈ (x >>= f).log := by
  rw [bind_log, h]
  exact List.mem_append_right _ he

/-- What happens in the first step is in the log. -/
theorem mem_bind_log_left {x : Res α} {f : α → Res β} {ev : Event} (he : ev ∈ x.log) :
    ev ∈ (x >>= f).log := by
  rw [bind_log]
  split
  · exact List.mem_append_left _ he
  · exact he

@[simp] theorem warn_val (E : Env) (fork : Nat) (c m : PyStr) : (E.warn fork c m).val = .ok () := by
  unfold Env.warn
  split <;> rfl

end Verif.Core
