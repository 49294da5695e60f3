import Verif.Props.SharingSim
import Verif.Core.Demo
import Verif.Core.DispatchLemmas

/-!
# What a dump shares with the object (C104)

A dump is new: writing to it does not change the object, and later changes of the object do not change it.
`Verif.Core.Heap` gives every container and object an identity and follows the identities through the
serializers.  `Setting` says that the surroundings with identities are those without, and which identities
may come out: those of the values of enum members (if they are dumped by value), and those of attributes
that a serializer passes on because the hint is an enum class or `complex` but the value is not.
-/

set_option autoImplicit false

namespace Verif.Props.Sharing

open Verif Verif.Core Verif.Datetime

section
variable {H : HEnv} {F : Frame}

/-- Identities change nothing: the dump, the warnings and the exceptions are those of the model without
identities. -/
theorem identities_change_nothing (hS : Setting H F) (n : Nat) (v : HVal) (cls : Option Ty) (kw : DumpKw) (hv : Calm H F v)
    (ht : ∀ t ∈ cls, F.T t) (hk : KwOk F kw) :
    (dumpH H n v cls kw).res.log = (dump H.toEnv n v.erase cls kw).log ∧
      (dumpH H n v cls kw).res.val.map HVal.erase = (dump H.toEnv n v.erase cls kw).val := by
  have h := (recOf_sim hS n).dump v cls kw hv ht hk
  refine ⟨h.log, ?_⟩
  have hx := h.val
  unfold dumpH Core.dump
  generalize ((recOfH H n).dump v cls kw).res.val = x at hx
  generalize ((recOf H.toEnv n).dump v.erase cls kw).val = y at hx
  cases hx with
  | ok hab => simp only [Except.map, hab.1]
  | err e => rfl

/-- What a dump shares with what was there before, and what it writes to, is among the identities `F.L`. -/
theorem dump_shares_only (hS : Setting H F) (n : Nat) (v : HVal) (cls : Option Ty) (kw : DumpKw) (hv : Calm H F v)
    (ht : ∀ t ∈ cls, F.T t) (hk : KwOk F kw) :
    (∀ r, (dumpH H n v cls kw).res.val = .ok r → ∀ i ∈ r.labels, F.L i) ∧ ∀ i ∈ (dumpH H n v cls kw).writes, F.L i := by
  have h := (recOf_sim hS n).dump v cls kw hv ht hk
  refine ⟨fun r hr => ?_, h.writes⟩
  have hx := h.val
  unfold dumpH at hr
  rw [hr] at hx
  generalize ((recOf H.toEnv n).dump v.erase cls kw).val = y at hx
  cases hx with
  | ok hab => exact hab.2

/-- If no enum member is dumped by a value that is a container, and no attribute is passed on as it is, then
everything in the dump is new, and nothing that was there before is written to, also if the dump fails. -/
theorem dump_shares_nothing (hS : Setting H F) (hL : ∀ i, ¬ F.L i) (n : Nat) (v : HVal) (cls : Option Ty) (kw : DumpKw)
    (hv : Calm H F v) (ht : ∀ t ∈ cls, F.T t) (hk : KwOk F kw) :
    (∀ r, (dumpH H n v cls kw).res.val = .ok r → r.labels = []) ∧ (dumpH H n v cls kw).writes = [] := by
  obtain ⟨h1, h2⟩ := dump_shares_only hS n v cls kw hv ht hk
  refine ⟨fun r hr => ?_, ?_⟩
  · exact List.eq_nil_iff_forall_not_mem.2 fun i hi => hL i (h1 r hr i hi)
  · exact List.eq_nil_iff_forall_not_mem.2 fun i hi => hL i (h2 i hi)

end

/-! ## A program -/

/-- `Dress` (`color: Palette`, `sizes: List[int]`, and a class variable `brands = ['A']`), the enum `Palette`
with `LIGHT = 1`, `DARK = {'r': 0}` and `MIXED = [1, 2]`, and `Tag` without hints. -/
def paletteInfo : Nat → ClassInfo
  | 0 => { attrs := mainAttrs "Dress"
           hints := [("color".toList, .cls (.user 1)), ("sizes".toList, .gen .list [.cls .int])]
           members := [("brands".toList, .var (.list [.str "A".toList]))] }
  | 1 => { attrs := mainAttrs "Palette", kind := .enum false
           enumMembers := [("LIGHT".toList, .int 1), ("DARK".toList, .dict [(.str "r".toList, .int 0)]),
             ("MIXED".toList, .list [.int 1, .int 2])] }
  | _ => { attrs := mainAttrs "Tag" }

theorem palette_names : NamesOk paletteInfo serNames := by
  intro c
  match c with
  | 0 | 1 => decide
  | n + 2 =>
    have : (paletteInfo (n + 2)).attrs = mainAttrs "Tag" := rfl
    rw [this]
    decide

/-- The values of the members, with identities. -/
def paletteValue (m : PyStr) : Option HVal :=
  if m = "LIGHT".toList then some (.atom (.int 1))
  else if m = "DARK".toList then some (.dict (some 100) [(.str "r".toList, .atom (.int 0))])
  else if m = "MIXED".toList then some (.seq (some 101) .list [.atom (.int 1), .atom (.int 2)])
  else none

/-- The program with identities: 100 and 101 are the values of `DARK` and `MIXED`, 200 is the list of
brands. -/
def paletteH : HEnv :=
  { demoEnv paletteInfo with
    enumValue := fun c m => if c = 1 then paletteValue m else none
    classVar := fun c n =>
      if c = 0 ∧ n = "brands".toList then some (.seq (some 200) .list [.str "A".toList]) else none
    propH := fun _ _ v => .ok v
    attrOtherH := fun _ _ => .error { kind := .attributeError }
    customSerH := fun _ _ _ _ _ => .raise { kind := .other } }

/-- The circumstances: `name` is asked for, as there is a hint that is an enum class; `value`, too, and the
values of the enum members may be shared, if members are dumped by value. -/
def paletteFrame (byValue : Bool) : Frame where
  strict := true
  byValue := byValue
  Asked := fun n => n = "name".toList ∨ (byValue = true ∧ n = "value".toList)
  L := fun i => byValue = true ∧ (i = 100 ∨ i = 101)
  T := fun t => t ∈ [Ty.any, .cls .int, .cls .str, .cls .timedelta, .cls .list, .cls (.user 0), .cls (.user 1),
    .gen .list [.cls .int]]

theorem palette_none (m : PyStr) (h : assoc (paletteInfo 1).enumMembers m = none) : paletteH.enumValue 1 m = none := by
  have h1 : m ≠ "LIGHT".toList := fun e => by subst e; cases h
  have h2 : m ≠ "DARK".toList := fun e => by subst e; cases h
  have h3 : m ≠ "MIXED".toList := fun e => by subst e; cases h
  show paletteValue m = none
  unfold paletteValue
  rw [if_neg h1, if_neg h2, if_neg h3]

theorem palette_setting (b : Bool) : Setting paletteH (paletteFrame b) where
  sers := fun _ t => getLizer_serFn paletteInfo palette_names t
  args := by
    intro t ht u hu
    simp only [paletteFrame, List.mem_cons, List.not_mem_nil, or_false] at ht ⊢
    rcases ht with rfl | rfl | rfl | rfl | rfl | rfl | rfl | rfl <;> simp [Ty.getArgs] at hu
    simp [hu]
  params := by
    intro t ht ts hts u hu
    simp only [paletteFrame, List.mem_cons, List.not_mem_nil, or_false] at ht ⊢
    rcases ht with rfl | rfl | rfl | rfl | rfl | rfl | rfl | rfl <;> simp [Ty.unionParams] at hts
    all_goals
      subst hts
      simp at hu
      try simp [hu]
  any := by simp [paletteFrame]
  text := by intro s _; exact ⟨by simp [paletteFrame, HVal.erase, Val.cls, Atom.cls], by simp [paletteFrame, HVal.erase, Env.getType, Atom.cls]⟩
  delta := by intro s _; exact ⟨by simp [paletteFrame, HVal.erase, Val.cls, Atom.cls], by simp [paletteFrame, HVal.erase, Env.getType, Atom.cls]⟩
  hints := by
    intro c p hp
    match c with
    | 0 =>
      simp only [paletteH, demoEnv, paletteInfo, List.mem_cons, List.not_mem_nil, or_false] at hp
      rcases hp with rfl | rfl <;> simp [paletteFrame]
    | 1 => cases hp
    | n + 2 => cases hp
  init := by
    intro _ c p hp
    match c with
    | 0 => cases hp
    | 1 => cases hp
    | n + 2 => cases hp
  foreign := by
    intro v cls kw l hl a ha
    cases hl
    cases ha
  askEnum := fun t _ _ => ⟨.inl rfl, fun h => .inr ⟨h, rfl⟩⟩
  askComplex := by
    intro t ht hc
    simp only [paletteFrame, List.mem_cons, List.not_mem_nil, or_false] at ht
    rcases ht with rfl | rfl | rfl | rfl | rfl | rfl | rfl | rfl <;> simp [Ty.serFn, Cls.serFn, Gen.naked, paletteH, demoEnv, paletteInfo] at hc
  enumSome := by
    intro c m w hw
    match c with
    | 0 => cases hw
    | 1 =>
      simp only [paletteH, demoEnv, paletteInfo, assoc] at hw
      split at hw
      · next h => subst h; cases hw; exact ⟨_, rfl, rfl, fun _ i hi => by cases hi⟩
      · split at hw
        · next h => subst h; cases hw; exact ⟨_, rfl, rfl, fun hb i hi => ⟨hb, .inl (by simpa [HVal.labels, HVal.labelsEntries] using hi)⟩⟩
        · split at hw
          · next h => subst h; cases hw; exact ⟨_, rfl, rfl, fun hb i hi => ⟨hb, .inr (by simpa [HVal.labels, HVal.labelsList] using hi)⟩⟩
          · cases hw
    | n + 2 => cases hw
  enumNone := by
    intro c m hw
    match c with
    | 0 => rfl
    | 1 => exact palette_none m hw
    | n + 2 => rfl
  var := by
    intro c n a ha
    match c with
    | 0 =>
      simp only [paletteH, demoEnv, paletteInfo, assoc] at ha
      split at ha
      · next h =>
        subst h
        cases ha
        refine ⟨_, rfl, rfl, ?_, ?_⟩
        · refine .seq _ _ _ (fun _ => ⟨?_, ?_⟩) ?_
          · simp [paletteFrame, HVal.erase, Val.cls, SeqKind.cls]
          · simp [paletteFrame, HVal.erase, Env.getType, paletteH, demoEnv, Val.cls, SeqKind.cls]
          · intro x hx
            simp only [List.mem_singleton] at hx
            subst hx
            exact .atom _ fun _ => ⟨by simp [paletteFrame, HVal.erase, Val.cls, Atom.cls], by simp [paletteFrame, HVal.erase, Env.getType, Atom.cls]⟩
        · rintro (h | ⟨_, h⟩) <;> exact absurd h (by decide)
      · cases ha
    | 1 => cases ha
    | n + 2 => cases ha
  prop := by
    intro l c as n hv hm
    match c with
    | 0 =>
      simp only [paletteH, demoEnv, paletteInfo, assoc] at hm
      split at hm <;> cases hm
    | 1 => cases hm
    | n + 2 => cases hm
  other := fun v n _ _ => .err _

/-- `Dress(Palette.DARK, [38, 40])`; 1 is the object, 2 the list. -/
def dress : HVal :=
  .obj (some 1) 0 [("color".toList, .enum 1 "DARK".toList), ("sizes".toList, .seq (some 2) .list [.atom (.int 38), .atom (.int 40)])]

theorem dress_calm (b : Bool) : Calm paletteH (paletteFrame b) dress := by
  have hint : ∀ n : Int, Calm paletteH (paletteFrame b) (.atom (.int n)) := fun n =>
    .atom _ fun _ => ⟨by simp [paletteFrame, HVal.erase, Val.cls, Atom.cls], by simp [paletteFrame, HVal.erase, Env.getType, Atom.cls]⟩
  refine .obj _ _ _ (fun _ => ⟨by simp [paletteFrame, HVal.erase, Val.cls], by simp [paletteFrame, HVal.erase, Env.getType]⟩) rfl ?_ ?_
  · intro a ha
    simp only [List.mem_cons, List.not_mem_nil, or_false] at ha
    rcases ha with rfl | rfl
    · exact .enum _ _ (fun _ => ⟨by simp [paletteFrame, HVal.erase, Val.cls], by simp [paletteFrame, HVal.erase, Env.getType]⟩) ⟨false, rfl⟩
    · refine .seq _ _ _ (fun _ => ⟨?_, ?_⟩) ?_
      · simp [paletteFrame, HVal.erase, Val.cls, SeqKind.cls]
      · simp [paletteFrame, HVal.erase, Env.getType, paletteH, demoEnv, Val.cls, SeqKind.cls]
      · intro x hx
        simp only [List.mem_cons, List.not_mem_nil, or_false] at hx
        rcases hx with rfl | rfl <;> exact hint _
  · intro a ha h
    simp only [List.mem_cons, List.not_mem_nil, or_false] at ha
    rcases ha with rfl | rfl <;> rcases h with h | ⟨_, h⟩ <;> exact absurd h (by decide)

/-- Dumping the dress (verbose, strict, with any key transformer) is making everything anew: the list of the
sizes and the class variable are copied. -/
example (n : Nat) (kw : DumpKw) (h1 : kw.useEnumName = true) (h2 : kw.types = []) :
    (∀ r, (dumpH paletteH n dress none kw).res.val = .ok r → r.labels = []) ∧ (dumpH paletteH n dress none kw).writes = [] :=
  dump_shares_nothing (palette_setting false) (fun _ h => by cases h.1) n dress none kw (dress_calm false) (fun _ h => by cases h)
    ⟨(fun p hp => by rw [h2] at hp; cases hp), (fun _ => rfl), (fun h => by rw [h1] at h; cases h)⟩

example : (dumpH paletteH 9 dress none {}).res.val.map HVal.erase = .ok (.dict [
    (.str "brands".toList, .list [.str "A".toList]), (.str "color".toList, .str "DARK".toList),
    (.str "sizes".toList, .list [.int 38, .int 40])]) := by rfl

/-- The same with members by value: only the values of members can come out. -/
example (n : Nat) (kw : DumpKw) (h2 : kw.types = []) :
    ∀ r, (dumpH paletteH n dress none kw).res.val = .ok r → ∀ i ∈ r.labels, i = 100 ∨ i = 101 := fun r hr i hi =>
  ((dump_shares_only (palette_setting true) n dress none kw (dress_calm true) (fun _ h => by cases h)
    ⟨(fun p hp => by rw [h2] at hp; cases hp), (fun _ => rfl), (fun _ => rfl)⟩).1 r hr i hi).2

/-! ## What is shared -/

/-- With `use_enum_name=False` the dump contains the very dict that is the value of the member: who writes
to the dump writes to the enum. -/
theorem enum_value_is_shared :
    (dumpH paletteH 9 dress none { useEnumName := false }).res.val.map HVal.labels = .ok [100] := by rfl

/-- A verbose dump writes to that dict: it puts `-cls` into it and takes it out again. -/
theorem verbose_dump_writes_to_the_enum :
    (dumpH paletteH 9 dress none { useEnumName := false, verbose := { classInfo := true } }).writes = [100, 100] := by rfl

/-- If the dump fails in between, then `-cls` stays in the value of the member: `size` of an object that has
no such attribute. -/
theorem failing_dump_leaves_a_mark :
    (dumpH paletteH 9 (.obj (some 1) 0 [("color".toList, .enum 1 "DARK".toList)]) (some (.cls (.user 0)))
      { useEnumName := false, strict := true, verbose := { classInfo := true } }).writes = [100] ∧
    (dumpH paletteH 9 (.obj (some 1) 0 [("color".toList, .enum 1 "DARK".toList)]) (some (.cls (.user 0)))
      { useEnumName := false, strict := true, verbose := { classInfo := true } }).res.val.isOk = false := by
  exact ⟨by rfl, by rfl⟩

/-- If the hint is an enum class but the value is an object with a `name`, then the dump is that very
attribute. -/
theorem wrong_hint_shares_an_attribute :
    (dumpH paletteH 9 (.obj (some 1) 2 [("name".toList, .seq (some 2) .list [.atom (.int 1)])]) (some (.cls (.user 1)))
      {}).res.val.map HVal.labels = .ok [2] := by rfl

/-- `wrong_hint_shares_an_attribute` is what `Calm` excludes: the attribute is asked for. -/
example : ¬ Calm paletteH (paletteFrame false) (.obj (some 1) 2 [("name".toList, .seq (some 2) .list [.atom (.int 1)])]) := by
  intro h
  cases h with
  | obj _ _ _ _ _ _ h => exact absurd ((h _ List.mem_cons_self (.inl rfl)) 2 (by decide)).1 (by decide)

end Verif.Props.Sharing
