import Verif.Props.StripAttr
import Verif.Props.Hidden

/-!
# A changed attribute shows only in its own entry

C119: values that differ only in attributes with certain names have dumps that differ only in
the entries with these names.
-/

set_option autoImplicit false

namespace Verif.Props.OneAttr
open Verif Verif.Core Verif.Registry
open Verif.Props.StripAttr (Quiet Clean Strippable Strips without)
open Verif.Props.Hidden (Alike Discreet readNames)

/-- The names that may differ, in all classes. -/
def In (K : List PyStr) (_ : Nat) (a : PyStr) : Prop := a ∈ K

/-- C119: `v` and `w` are the same but for attributes of objects, at whatever depth, with the
names `K` (which may be missing from one of them): the dumps are the same but for entries with
these names, or there is the same exception. -/
theorem changed_attr_partial (E : Env) (n : Nat) (v w : Val) (cls : Option Ty) (kw : DumpKw)
    (K l : List PyStr) (hds : DefaultSers E kw.fork)
    (hw : E.warns kw.fork "attribute-not-serialized".toList = true)
    (hSv : Strippable E v K kw) (hSw : Strippable E w K kw) (hCv : Clean E v K kw) (hCw : Clean E w K kw)
    (hraw : Props.DumpShape.RawOk E v kw.useEnumName (Json E.info))
    (hread : ∀ a ∈ readNames, a ∉ K) (hD : Discreet E (In K) (fun _ => True) kw.fork kw.strict)
    (hst : kw.strict = false) (hkt : kw.keyTransformer = none) (hvb : kw.verbose = {})
    (hsc : kw.storeCls = false) (hl : Strips kw.stripAttr l)
    (hqv : Quiet (dump E n v cls kw)) (hqw : Quiet (dump E n w cls kw)) (h : Alike (In K) v w) :
    (dump E n v cls kw).val.map (without K) = (dump E n w cls kw).val.map (without K) := by
  have hK : ∀ a, a ∈ l ++ K ↔ a ∈ l ∨ a ∈ K := fun a => List.mem_append
  rw [← StripAttr.strip_attr_partial E n v cls kw (.tuple (l ++ K)) l (l ++ K) K hds hw hSv hCv hst hkt hvb hsc
      hl (.tuple _) hK hqv,
    ← StripAttr.strip_attr_partial E n w cls kw (.tuple (l ++ K)) l (l ++ K) K hds hw hSw hCw hst hkt hvb hsc
      hl (.tuple _) hK hqw]
  have hu := Hidden.hidden_stays_hidden_partial E (In K) (fun _ => True) n v w cls
    { kw with stripAttr := .tuple (l ++ K) } (fun c a ha => .name (List.mem_append_right _ ha)) hD
    ⟨fun _ _ _ _ => trivial, fun _ _ _ _ _ => trivial, fun _ _ _ => trivial,
      fun hs => (by rw [show kw.strict = false from hst] at hs; cases hs),
      fun t c f _ _ _ a ha => hread a ha⟩ (fun _ _ => trivial) (fun _ _ => trivial) h
  cases hr : (dump E n v cls { kw with stripAttr := .tuple (l ++ K) }).val with
  | error e => exact ((hu.error e).1 hr).symm
  | ok r =>
    have hj := Props.DumpShape.dump_json_partial E n v cls { kw with stripAttr := .tuple (l ++ K) } r hds
      hSv.kind hraw hsc hr
    exact ((hu.ok r (Hidden.json_noObj hj)).1 hr).symm

/-- C119 is false if the attribute cannot be dumped: it takes later ones with it.
`Point(1, 2)` and `Point('a', 2)` differ in `x`, and only the first one is dumped with `y`. -/
theorem changed_attr_fails_dropped :
    Alike (In ["x".toList]) (.obj 0 [("x".toList, .int 1), ("y".toList, .int 2)])
      (.obj 0 [("x".toList, .str ['a']), ("y".toList, .int 2)]) ∧
    (dump (demoEnv demoInfo) 9 (.obj 0 [("x".toList, .int 1), ("y".toList, .int 2)]) none {}).val =
      .ok (.dict [(.str "x".toList, .int 1), (.str "y".toList, .int 2)]) ∧
    (dump (demoEnv demoInfo) 9 (.obj 0 [("x".toList, .str ['a']), ("y".toList, .int 2)]) none {}).val =
      .ok (.dict []) := by
  refine ⟨.obj 0 ?_ ?_, by decide +kernel, by decide +kernel⟩
  · intro n hn
    have : "x".toList ≠ n := by rintro rfl; exact hn (by simp [In])
    simp only [assoc, if_neg this]
  · intro n a b hn ha hb
    have : "x".toList ≠ n := by rintro rfl; exact hn (by simp [In])
    simp only [assoc, if_neg this] at ha hb
    rw [ha] at hb
    cases hb
    split at ha
    · cases ha; exact .atom _
    · cases ha

/-! ## Example -/

/-- `Point(x=n)` -/
def dot (n : Int) : Val := .obj 0 [("x".toList, .int n)]

/-- An object with the attributes `[Point(x=n)]` and `m`. -/
def plot (n m : Int) : Val := .obj 6 [("all".toList, .list [dot n]), ("size".toList, .int m)]

/-- What can be reached from it. -/
def PlotPart (n m : Int) (w : Val) : Prop :=
  w = plot n m ∨ w = .list [dot n] ∨ w = dot n ∨ ∃ k, w = .int k

theorem plot_attr {n m : Int} {v w : Val} {a : PyStr} (hv : PlotPart n m v)
    (h : (demoEnv demoInfo).getAttr v a = .ok w) :
    (w = .list [dot n] ∧ a = "all".toList) ∨ (w = .int m ∧ a = "size".toList) ∨
      (w = .int n ∧ a = "x".toList) := by
  rcases hv with rfl | rfl | rfl | ⟨k, rfl⟩
  · simp only [plot, Env.getAttr, demoEnv, demoInfo, assoc] at h
    split at h
    · next h' =>
      cases h
      split at h'
      · next e => left; cases h'; exact ⟨rfl, e.symm⟩
      · split at h'
        · next e => right; left; cases h'; exact ⟨rfl, e.symm⟩
        · cases h'
    · cases h
  · simp [Env.getAttr, demoEnv] at h
  · simp only [dot, Env.getAttr, demoEnv, demoInfo, assoc] at h
    split at h
    · next h' =>
      cases h
      split at h'
      · next e => right; right; cases h'; exact ⟨rfl, e.symm⟩
      · cases h'
    · cases h
  · simp [Env.getAttr, demoEnv] at h

theorem plot_reach (n m : Int) : Reach (demoEnv demoInfo) (PlotPart n m) where
  elem := by
    intro v x xs hv hi hx
    rcases hv with rfl | rfl | rfl | ⟨m, rfl⟩
    · simp [plot, Val.iter] at hi
    · simp only [Val.iter, Option.some.injEq] at hi
      subst hi
      rw [List.mem_singleton] at hx
      exact .inr (.inr (.inl hx))
    · simp [dot, Val.iter] at hi
    · simp [Val.iter] at hi
  value := by
    intro es e hv
    rcases hv with h | h | h | ⟨m, h⟩ <;> simp [plot, dot] at h
  valueD := by
    intro f es e hv
    rcases hv with h | h | h | ⟨m, h⟩ <;> simp [plot, dot] at h
  attr := by
    intro v w n hv h
    rcases plot_attr hv h with ⟨rfl, _⟩ | ⟨rfl, _⟩ | ⟨rfl, _⟩
    · exact .inr (.inl rfl)
    · exact .inr (.inr (.inr ⟨_, rfl⟩))
    · exact .inr (.inr (.inr ⟨_, rfl⟩))
  offset := by
    intro us n hv
    rcases hv with h | h | h | ⟨m, h⟩ <;> simp [plot, dot] at h
  plain := by
    intro c as hv
    rcases hv with h | h | h | ⟨m, h⟩ <;> simp [plot, dot] at h
    · obtain ⟨rfl, _⟩ := h; rfl
    · obtain ⟨rfl, _⟩ := h; rfl
  ntuple := by
    intro c xs hv
    rcases hv with h | h | h | ⟨m, h⟩ <;> simp [plot, dot] at h
  enum := by
    intro c m hv
    rcases hv with h | h | h | ⟨m, h⟩ <;> simp [plot, dot] at h

theorem plot_mem {n m : Int} {w : Val} (h : Reachable (demoEnv demoInfo) (plot n m) w) : PlotPart n m w :=
  reachable_sub (plot_reach n m) (.inl rfl) h

theorem plot_raw (n m : Int) (b : Bool) (P : Val → Prop) :
    DumpShape.RawOk (demoEnv demoInfo) (plot n m) b P := by
  have hattr : ∀ {u w : Val} {a : PyStr}, Reachable (demoEnv demoInfo) (plot n m) u →
      a ≠ "all".toList → a ≠ "size".toList → a ≠ "x".toList →
      (demoEnv demoInfo).getAttr u a ≠ .ok w := by
    intro u w m hu h1 h2 h3 h
    rcases plot_attr (plot_mem hu) h with ⟨_, e⟩ | ⟨_, e⟩ | ⟨_, e⟩
    · exact h1 e
    · exact h2 e
    · exact h3 e
  constructor
  · intro c m w _ h
    rcases plot_mem h with h | h | h | ⟨m, h⟩ <;> simp [plot, dot] at h
  · intro u w hu _ h
    cases b with
    | true => exact absurd h (hattr (a := "name".toList) hu (by decide) (by decide) (by decide))
    | false => exact absurd h (hattr (a := "value".toList) hu (by decide) (by decide) (by decide))
  · intro u w hu h
    exact h.elim (fun h => absurd h (hattr hu (by decide) (by decide) (by decide)))
      fun h => absurd h (hattr hu (by decide) (by decide) (by decide))

theorem plot_strippable (n m : Int) (K : List PyStr) : Strippable (demoEnv demoInfo) (plot n m) K {} := by
  constructor
  · intro w hw
    rcases plot_mem hw with rfl | rfl | rfl | ⟨m, rfl⟩ <;> trivial
  · intro es g h
    rcases h with h | h <;> rcases plot_mem h with h | h | h | ⟨m, h⟩ <;> simp [plot, dot] at h
  · intro c as h a _ ha
    rcases plot_mem h with h | h | h | ⟨m, h⟩ <;> simp [plot, dot] at h
    · obtain ⟨rfl, rfl⟩ := h
      simp [demoEnv, demoInfo] at ha
      rcases ha with rfl | rfl
      · exact ⟨⟨_, rfl⟩, by simp [demoEnv, demoInfo, assoc]⟩
      · exact ⟨⟨_, rfl⟩, by simp [demoEnv, demoInfo, assoc]⟩
    · obtain ⟨rfl, rfl⟩ := h
      simp [demoEnv, demoInfo] at ha
      subst ha
      exact ⟨⟨_, rfl⟩, by simp [demoEnv, demoInfo, assoc]⟩
  · intro c as h
    rcases plot_mem h with h | h | h | ⟨m, h⟩ <;> simp [plot, dot] at h
    · obtain ⟨rfl, rfl⟩ := h; exact .inl rfl
    · obtain ⟨rfl, rfl⟩ := h; exact .inl rfl
  · exact (StripAttr.figure_strippable K).foreign
  · exact (StripAttr.figure_strippable K).args

theorem plot_clean (n m : Int) (K : List PyStr)
    (hK : ∀ s ∈ ["name".toList, "offset".toList, "key".toList, "real".toList, "imag".toList], s ∉ K) :
    Clean (demoEnv demoInfo) (plot n m) K {} := by
  constructor
  · exact plot_raw n m _ _
  · intro es g h
    rcases h with h | h <;> rcases plot_mem h with h | h | h | ⟨m, h⟩ <;> simp [plot, dot] at h
  · intro c xs h
    rcases plot_mem h with h | h | h | ⟨m, h⟩ <;> simp [plot, dot] at h
  · exact hK

theorem plot_dump (n m : Int) : (dump (demoEnv demoInfo) 9 (plot n m) none {}).val = .ok (.dict [
    (.str "all".toList, .list [.dict [(.str "x".toList, .int n)]]), (.str "size".toList, .int m)]) := by rfl

theorem plot_alike (n n' m : Int) : Alike (In ["x".toList]) (plot n m) (plot n' m) := by
  have inner : Alike (In ["x".toList]) (dot n) (dot n') := by
    refine .obj 0 ?_ ?_
    · intro a ha
      have : "x".toList ≠ a := by rintro rfl; exact ha (by simp [In])
      simp only [assoc, if_neg this]
    · intro a u w ha hu hw
      have : "x".toList ≠ a := by rintro rfl; exact ha (by simp [In])
      simp only [assoc, if_neg this] at hu
      cases hu
  refine .obj 6 ?_ ?_
  · intro a _
    simp only [assoc]
    split
    · rfl
    · rfl
  · intro a u w _ hu hw
    simp only [assoc] at hu hw
    split at hu
    · next e =>
      rw [if_pos e] at hw
      cases hu; cases hw
      exact .seq _ (.cons inner .nil)
    · next e =>
      rw [if_neg e, hu] at hw
      cases hw
      split at hu
      · cases hu; exact .atom _
      · cases hu

/-- Only the entries `'x'` differ. -/
example : (dump (demoEnv demoInfo) 9 (plot 1 5) none {}).val.map (without ["x".toList]) =
    (dump (demoEnv demoInfo) 9 (plot 2 5) none {}).val.map (without ["x".toList]) :=
  changed_attr_partial _ 9 _ _ none {} ["x".toList] [] (demo_sers 0) rfl (plot_strippable _ _ _)
    (plot_strippable _ _ _) (plot_clean _ _ _ (by decide)) (plot_clean _ _ _ (by decide)) (plot_raw _ _ _ _)
    (by decide) (Hidden.demo_discreet _ _ _ _) rfl rfl rfl rfl .none
    (StripAttr.quiet_of_all (by decide +kernel)) (StripAttr.quiet_of_all (by decide +kernel)) (plot_alike 1 2 5)

/-- What is compared. -/
example (n m : Int) : (dump (demoEnv demoInfo) 9 (plot n m) none {}).val.map (without ["x".toList]) =
    .ok (.dict [(.str "all".toList, .list [.dict []]), (.str "size".toList, .int m)]) := by rfl

end Verif.Props.OneAttr
