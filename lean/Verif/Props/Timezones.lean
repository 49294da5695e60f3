import Verif.Props.RoundTrip
import Verif.Props.DumpCollections

/-! # C71: time zones survive dump and load

`Verif.Props.DumpCollections` has the dump, and that it fails with a class. -/

set_option autoImplicit false

namespace Verif.Props.Timezones

open Verif Verif.Core Verif.Datetime Verif.Props.LoadBasics Verif.Props.LoadCollections
  Verif.Props.RoundTrip

variable {E : LEnv} {fork : Nat}

/-- The name that a time zone has, `tz.tzname(None)`: the one that it was given, or
that of its offset. -/
def tzName (us : Int) (name : Option PyStr) : PyStr := name.getD (fixedName us)

/-- What `load` makes of a dumped time zone. -/
theorem timezone_load (E : LEnv) (n : Nat) (us : Int) (s : PyStr) (kw : LoadKw)
    (hd : DefaultDesers E kw.fork) (hv : NoValidators E kw.fork) (hd0 : DefaultDesers E 0)
    (hv0 : NoValidators E 0) (h : |us| < 86400000000) :
    (load E (n + 2) (.dict [(.str "name".toList, .str s),
        (.str "offset".toList, .float (Timedelta.timedeltaSerializer E.R us))])
      (some (.cls .timezone)) kw).val = .ok (.atom (.timezone us (some s))) := by
  have hnm : NoMeta (.dict [(.str "name".toList, .str s),
      (.str "offset".toList, .float (Timedelta.timedeltaSerializer E.R us))]) := by
    intro es' h; cases h; rfl
  rw [(load_via (n := n + 1) (t := .cls .timezone) (kw := kw) (f := .timezone) (m := none)
    (by intro h; cases h) (by rintro (⟨_, h⟩ | h) <;> cases h) (by simp [Val.cls, validTypes])
    (noMeta_get hnm _) (.inr rfl) hd rfl (hv _)).1, wrapRes_ok]
  show (timezoneDes _ _).val = _
  have ho : ∀ a b : Val, subscript (.dict [(.str "name".toList, a), (.str "offset".toList, b)]) "offset".toList
      = .ok b := fun _ _ => rfl
  have hn : ∀ a b : Val, subscript (.dict [(.str "name".toList, a), (.str "offset".toList, b)]) "name".toList
      = .ok a := fun _ _ => rfl
  have htd : (load E (n + 1) (.float (Timedelta.timedeltaSerializer E.R us)) (some (.cls .timedelta)) {}).val
      = .ok (.atom (.timedelta us)) := by
    rw [(load_via (n := n) (t := .cls .timedelta) (kw := {}) (f := .timedelta) (m := none)
      (by intro h; cases h) (by rintro (⟨_, h⟩ | h) <;> cases h) (by simp [Val.cls, Atom.cls, validTypes])
      (noMeta_get (noMeta_of_not_dict (by simp [Val.cls, Atom.cls])) _) (.inr rfl) hd0 rfl (hv0 _)).1, wrapRes_ok]
    show (timedeltaDes E (.float _)).val = _
    simp only [timedeltaDes, Verif.Props.Timedelta.timedelta_roundtrip E.R us
      (Int.le_trans (Int.le_of_lt h) (by norm_num))]
    rfl
  unfold timezoneDes
  simp only [ho, hn, liftK_of_ok, pure_bind']
  rw [Core.bind_ok]
  refine ⟨_, htd, ?_⟩
  rw [abs_lt] at h
  simp only [h, and_self, if_true]
  rfl

/-- C71, `_partial` (dump without a class): every `datetime.timezone` comes back with its
offset (so it is equal) and its name. -/
theorem timezone_round_trip_partial (E : LEnv) (us : Int) (name : Option PyStr) (kw : DumpKw)
    (kw' : LoadKw) (hs : DefaultSers E.toEnv kw.fork) (hd : DefaultDesers E kw'.fork)
    (hv : NoValidators E kw'.fork) (hd0 : DefaultDesers E 0) (hv0 : NoValidators E 0)
    (h : |us| < 86400000000) (n m : Nat) :
    ∃ j, (dump E.toEnv (n + 4) (.atom (.timezone us name)) none kw).val = .ok j ∧
      (load E (m + 2) j (some (.cls .timezone)) kw').val
        = .ok (.atom (.timezone us (some (tzName us name)))) :=
  ⟨_, DumpCollections.timezone_dump_partial E.toEnv n us name kw hs,
    timezone_load E m us _ kw' hd hv hd0 hv0 h⟩

/-- C71: a time zone without a name and the one that comes back have the same name in
all texts, and the same offset: nothing in a `datetime` can tell them apart. -/
theorem timezone_same_dump (E : Env) (us : Int) (name : Option PyStr) (kw : DumpKw)
    (hs : DefaultSers E kw.fork) (n : Nat) :
    (dump E (n + 4) (.atom (.timezone us (some (tzName us name)))) none kw).val
      = (dump E (n + 4) (.atom (.timezone us name)) none kw).val := by
  rw [DumpCollections.timezone_dump_partial E n _ _ kw hs, DumpCollections.timezone_dump_partial E n _ _ kw hs]
  rfl

/-- C71 in a list: the elements are dumped without a class, so a list of time zones
comes back, element by element. -/
theorem timezones_round_trip_partial (E : LEnv) (tzs : List (Int × Option PyStr))
    (hs : DefaultSers E.toEnv fork) (hd : DefaultDesers E fork) (hv : NoValidators E fork)
    (hd0 : DefaultDesers E 0) (hv0 : NoValidators E 0) (h : ∀ z ∈ tzs, |z.1| < 86400000000)
    (n m : Nat) (kw : DumpKw) (kw' : LoadKw) (hk : DumpNeutral fork kw) (hk' : LoadNeutral fork kw') :
    ∃ j, (dump E.toEnv (n + 6) (.list (tzs.map fun z => .atom (.timezone z.1 z.2))) none kw).val = .ok j ∧
      (load E (m + 3) j (some (.gen .list [.cls .timezone])) kw').val
        = .ok (.list (tzs.map fun z => .atom (.timezone z.1 (some (tzName z.1 z.2))))) := by
  refine ⟨.list (tzs.map fun z => .dict [(.str "name".toList, .str (tzName z.1 z.2)),
      (.str "offset".toList, .float (Timedelta.timedeltaSerializer E.R z.1))]), ?_, ?_⟩
  · refine dump_list_none hs hk.fork hk.strict ?_
    rw [List.forall₂_map_left_iff, List.forall₂_map_right_iff, List.forall₂_same]
    intro z _
    exact DumpCollections.timezone_dump_partial E.toEnv n z.1 z.2 _ (by rw [hk.fork]; exact hs)
  · have hf : List.Forall₂ (fun j r => NoMeta j ∧ (load E (m + 2) j (some (.cls .timezone)) kw').val = .ok r)
        (tzs.map fun z => .dict [(.str "name".toList, .str (tzName z.1 z.2)),
          (.str "offset".toList, .float (Timedelta.timedeltaSerializer E.R z.1))])
        (tzs.map fun z => .atom (.timezone z.1 (some (tzName z.1 z.2)))) := by
      rw [List.forall₂_map_left_iff, List.forall₂_map_right_iff, List.forall₂_same]
      intro z hz
      refine ⟨by intro es' h; cases h; rfl, timezone_load E m z.1 _ kw' (by rw [hk'.fork]; exact hd)
        (by rw [hk'.fork]; exact hv) hd0 hv0 (h z hz)⟩
    rw [list_load E (m + 2) _ _ _ (.cls .timezone) kw' (by rw [hk'.fork]; exact hd)
      (by rw [hk'.fork]; exact hv) list_valid list_noMeta rfl (forall₂_left hf fun _ _ h => h.1) hk'.warn]
    exact ⟨_, rfl, hf.imp fun _ _ h => h.2⟩

/-- `timezone(timedelta(hours=1))` and `timezone(timedelta(hours=-5), 'EST')` -/
example : ∃ j, (dump (demoEnv demoInfo) 6 (.list [.atom (.timezone 3600000000 none),
      .atom (.timezone (-18000000000) (some "EST".toList))]) none {}).val = .ok j ∧
    (load (demoLEnv demoInfo) 3 j (some (.gen .list [.cls .timezone])) {}).val
      = .ok (.list [.atom (.timezone 3600000000 (some "UTC+01:00".toList)),
          .atom (.timezone (-18000000000) (some "EST".toList))]) := by
  refine timezones_round_trip_partial (fork := 0) (demoLEnv demoInfo)
    [(3600000000, none), (-18000000000, some "EST".toList)]
    (demo_sers 0) (demo_desers 0) (demo_novals 0) (demo_desers 0) (demo_novals 0) ?_ 0 0 {} {}
    ⟨rfl, rfl, rfl, rfl, rfl, rfl, rfl, rfl, rfl, rfl, rfl⟩ ⟨rfl, rfl, fun _ => rfl, rfl, rfl, by decide⟩
  intro z hz
  simp only [List.mem_cons, List.not_mem_nil, or_false] at hz
  rcases hz with rfl | rfl <;> norm_num [abs_lt]

/-- `class Clock: def __init__(self, tz: timezone, name: str)`, with the hints also on
the class, as for a dataclass. -/
def clockInfo : Nat → ClassInfo := fun _ =>
  { attrs := mainAttrs "Clock"
    hints := [("tz".toList, .cls .timezone), ("name".toList, .cls .str)]
    initHints := [("tz".toList, .cls .timezone), ("name".toList, .cls .str)]
    params := [{ name := "tz".toList }, { name := "name".toList }] }

/-- C71 is false for an attribute with the hint `timezone`: the attribute is left out of
the dump (with a warning), and so the dump cannot be loaded. -/
theorem hinted_timezone_lost :
    (dump (demoEnv clockInfo) 9 (.obj 0 [("tz".toList, .atom (.timezone 0 none)),
      ("name".toList, .str "a".toList)]) none {}).val = .ok (.dict [(.str "name".toList, .str "a".toList)]) ∧
    ∃ e, (load (demoLEnv clockInfo) 9 (.dict [(.str "name".toList, .str "a".toList)]) (some (.cls (.user 0))) {}).val = .error e ∧
      e.kind = .unfulfilledArgument ∧ e.argument = some "tz".toList := by
  refine ⟨by rfl, _, by rfl, by rfl, by rfl⟩

end Verif.Props.Timezones
