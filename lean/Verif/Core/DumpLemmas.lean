import Verif.Core.Json
import Verif.Core.ResLemmas

/-! # Lemmas about single calls of `dump` -/

set_option autoImplicit false

namespace Verif.Core
open Verif Verif.Datetime

variable {E : Env}

/-- `dump` succeeds exactly if the serializer of the class succeeds. -/
theorem dump_ok_iff {n : Nat} {v r : Val} {cls : Option Ty} {kw : DumpKw}
    (hds : DefaultSers E kw.fork) :
    (dump E (n + 1) v cls kw).val = .ok r ↔
      ∃ f, (cls.getD (.cls v.cls)).serFn E.info = some f ∧
        ((recOf E n).call f v cls kw).val = .ok r := by
  simp only [dump, recOf, dumpWith, bind_ok, emit_val, attempt_val, Except.ok.injEq, liftK_ok]
  rw [hds]
  constructor
  · rintro ⟨fn, h1, _, _, x, h2, h3⟩
    simp only [Except.ok.injEq] at h1
    cases x with
    | error e => simp at h3
    | ok d =>
      simp only [pure_val, Except.ok.injEq] at h3
      subst h3
      cases fn with
      | none => simp at h2
      | some f => exact ⟨f, h1, h2⟩
  · rintro ⟨f, h1, h2⟩
    refine ⟨some f, by rw [h1], (), trivial, _, rfl, ?_⟩
    simp only [h2, pure_val]

/-- `dump` with a known serializer. -/
theorem dump_via {n : Nat} {v r : Val} {cls : Option Ty} {kw : DumpKw} {f : SerFn}
    (hds : DefaultSers E kw.fork) (hf : (cls.getD (.cls v.cls)).serFn E.info = some f) :
    (dump E (n + 2) v cls kw).val = .ok r ↔ (callSer E (recOf E n) f v cls kw).val = .ok r := by
  rw [dump_ok_iff hds, hf]
  simp only [Option.some.injEq, exists_eq_left']
  rfl

/-- What `dump` raises is a `SerializationError`. -/
theorem dump_err_kind {n : Nat} {v : Val} {cls : Option Ty} {kw : DumpKw} {e : Err}
    (hds : DefaultSers E kw.fork) (h : (dump E (n + 1) v cls kw).val = .error e) :
    e.kind = .serializationError := by
  simp only [dump, recOf, dumpWith, bind_err, liftK_err, emit_val, attempt_val, Except.ok.injEq,
    liftK_ok] at h
  rw [hds] at h
  rcases h with ⟨k, h, _⟩ | ⟨fn, h1, h | ⟨_, _, h | ⟨x, h2, h3⟩⟩⟩
  · cases h
  · cases h
  · cases h
  · cases x with
    | ok r => simp at h3
    | error e' => simp only [raise_val, Except.error.injEq] at h3; rw [← h3]

theorem except_cases {α : Type} (x : Except Err α) : (∃ a, x = .ok a) ∨ ∃ e, x = .error e := by
  cases x with
  | ok a => exact .inl ⟨a, rfl⟩
  | error e => exact .inr ⟨e, rfl⟩

/-- One more level. -/
theorem recOf_call (n : Nat) : (recOf E (n + 1)).call = callSer E (recOf E n) := rfl

theorem recOf_dump (n : Nat) : (recOf E n).dump = dump E n := rfl

theorem mapRes_congr {α β : Type} {f g : α → Res β} {xs : List α} (h : ∀ x ∈ xs, f x = g x) :
    mapRes f xs = mapRes g xs := by
  induction xs with
  | nil => rfl
  | cons x xs ih =>
    simp only [mapRes]
    rw [h x List.mem_cons_self, ih fun y hy => h y (List.mem_cons_of_mem _ hy)]

/-- Setting a key that is not there adds an entry. -/
theorem dictSet_new {es : List (Val × Val)} {k v : Val} (h : ∀ e ∈ es, pyEq e.1 k = false) :
    dictSet es k v = es ++ [(k, v)] := by
  induction es with
  | nil => rfl
  | cons p es ih =>
    obtain ⟨k', v'⟩ := p
    simp only [dictSet, h (k', v') List.mem_cons_self, List.cons_append]
    rw [ih fun e he => h e (List.mem_cons_of_mem _ he)]
    rfl

theorem pyEq_str (a b : PyStr) : pyEq (.str a) (.str b) = (a == b) := by
  simp only [pyEq, Atom.num?]
  by_cases h : a = b
  · subst h; simp
  · have : (Atom.str a == Atom.str b) = false := by simp [h]
    rw [this]; simp [h]

end Verif.Core
