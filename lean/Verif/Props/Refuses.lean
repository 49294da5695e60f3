import Verif.Props.DumpCollections

/-! # The members of a union that refuse a value (for C33 and C84) -/

set_option autoImplicit false

namespace Verif.Props.DumpTyped

open Verif Verif.Core Verif.Datetime

variable {E : Env}

/-- The members of a union that are passed over for a value, since it cannot be dumped
as one of them. -/
inductive Refuses (E : Env) (v : Val) : Ty → Prop
  /-- `None` is the only value of its class. -/
  | noneType : v ≠ .none → Refuses E v (.cls .noneType)
  /-- A text that is no number. -/
  | int {k : ErrKind} : v ≠ .none → v.cls.sub E.info .int = false → E.intOf v = .error k →
      Refuses E v (.cls .int)
  | float {k : ErrKind} : v ≠ .none → v.cls.sub E.info .float = false → E.floatOf v = .error k →
      Refuses E v (.cls .float)
  | moment {c : Cls} : c ∈ [Cls.datetime, .date, .time] → v.cls ∉ [Cls.datetime, .date, .time] →
      Refuses E v (.cls c)
  | timedelta : v.cls ≠ .timedelta → Refuses E v (.cls .timedelta)
  | path : v.cls ≠ .path → Refuses E v (.cls .path)
  /-- What is not a collection; numbers that are zero are taken for an empty list. -/
  | list {a : List Ty} : v.iter = none → v.falsy = false → Refuses E v (.gen .list a)
  /-- What is neither a dict nor an empty collection. -/
  | dict {a : List Ty} {g : Gen} : g ∈ [Gen.dict, .mapping, .defaultdict] →
      v.cls ∉ [Cls.dict, .defaultdict] → v.iter ≠ some [] → Refuses E v (.gen g a)

theorem refuses_error {v : Val} {t : Ty} {kw : DumpKw} (hs : DefaultSers E kw.fork)
    (h : Refuses E v t) (n : Nat) : ∃ e, (dump E (n + 2) v (some t) kw).val = .error e := by
  rcases except_cases (dump E (n + 2) v (some t) kw).val with ⟨r, hr⟩ | h'
  · exfalso
    cases h with
    | noneType h1 =>
      obtain ⟨e, he⟩ := DumpCollections.dump_noneType_error (n := n + 1) (kw := kw) hs h1
      rw [he] at hr; cases hr
    | int h1 h2 h3 =>
      rw [dump_via (f := .primitive) hs rfl] at hr
      simp only [callSer, primitiveSer, h1, if_false, Env.isInstance, h2, Env.cast, h3, Except.map] at hr
      split at hr <;> cases hr
    | float h1 h2 h3 =>
      rw [dump_via (f := .primitive) hs rfl] at hr
      simp only [callSer, primitiveSer, h1, if_false, Env.isInstance, h2, Env.cast, h3, Except.map] at hr
      split at hr <;> cases hr
    | @moment c h1 h2 =>
      have key : ∀ b p, (toStr E v b kw.fork p).val ≠ .ok r := by
        intro b p hv
        unfold toStr at hv
        split at hv
        · exact h2 (by simp [Val.cls, Atom.cls])
        · exact h2 (by simp [Val.cls, Atom.cls])
        · exact h2 (by simp [Val.cls, Atom.cls])
        · cases hv
      simp only [List.mem_cons, List.not_mem_nil, or_false] at h1
      rcases h1 with rfl | rfl | rfl
      · rw [dump_via (f := .datetime) hs rfl] at hr; exact key _ _ hr
      · rw [dump_via (f := .date) hs rfl] at hr; exact key _ _ hr
      · rw [dump_via (f := .time) hs rfl] at hr; exact key _ _ hr
    | timedelta h1 =>
      rw [dump_via (f := .timedelta) hs rfl] at hr
      simp only [callSer, timedeltaSer] at hr
      split at hr
      · exact h1 rfl
      · cases hr
    | path h1 =>
      rw [dump_via (f := .path) hs rfl] at hr
      simp only [callSer, pathSer] at hr
      split at hr
      · exact h1 rfl
      · cases hr
    | list h1 h2 =>
      rw [dump_via (f := .list) hs rfl] at hr
      simp only [callSer, listSer, h1, h2, Bool.false_eq_true, if_false] at hr
      cases hr
    | @dict a g h1 h2 h3 =>
      have hd : (Ty.gen g a).serFn E.info = some .dict := by
        simp only [List.mem_cons, List.not_mem_nil, or_false] at h1
        rcases h1 with rfl | rfl | rfl <;> rfl
      rw [dump_via (f := .dict) (cls := some (.gen g a)) hs hd] at hr
      simp only [callSer, dictSer] at hr
      split at hr
      · exact h2 (by simp [Val.cls])
      · exact h2 (by simp [Val.cls])
      · split at hr
        · next h => exact h3 h
        · cases hr
  · exact h'

end Verif.Props.DumpTyped
