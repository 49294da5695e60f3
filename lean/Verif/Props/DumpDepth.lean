import Verif.Props.Depth
import Verif.Core.Demo

/-! # How deep the stack has to be for `dump` (C88) -/

set_option autoImplicit false

namespace Verif.Props.DumpDepth

open Verif Verif.Core Verif.Datetime Verif.Props.Depth

/-- How deeply a type is nested. -/
abbrev nest : Ty → Nat := tyDepth fun _ => 0

/-- A type that is nested at most `D` deep. -/
abbrev TyFine (E : Env) (D : Nat) (t : Ty) : Prop := Fine E.info (fun _ => 0) D t

/-- A given class is nested at most `D` deep. -/
def ClsFine (E : Env) (D : Nat) (o : Option Ty) : Prop := ∀ t, o = some t → TyFine E D t

/-- `w` is below `v`: it is an atom (and `v` is not), or has a lower rank. -/
def Lower (rank : Val → Nat) (v w : Val) : Prop :=
  (∀ a, v ≠ .atom a) ∧ ((∃ a, w = .atom a) ∨ rank w < rank v)

/-- What is known of the program: the serializers of jsons are used (in the fork `f`), the hints
are nested at most `D` deep, and there is a rank that is lower for the parts of collections and
for the attributes of objects (so no object is reached from itself, through attributes or
properties).  What is not an object, but is dumped as one (`foreign`, `others`), may also have
attributes that are atoms, like the `year` of a `date`.  If `S` (for strict dumps without a
class), then the types of parts of rank below `R` are nested at most `D` deep. -/
structure Bounded (E : Env) (f D : Nat) (rank : Val → Nat) (S : Bool) (R : Nat) : Prop where
  two : 2 ≤ D
  sers : DefaultSers E f
  hints : ∀ c, ∀ p ∈ (E.info c).hints, TyFine E D p.2
  initHints : ∀ c, ∀ p ∈ (E.info c).initHints, TyFine E D p.2
  parts : ∀ v, (∀ c as, v ≠ .obj c as) → ∀ x ∈ children v, Lower rank v x
  attrs : ∀ c as name w, E.getAttr (.obj c as) name = .ok w → Lower rank (.obj c as) w
  foreign : ∀ v cls kw l, E.foreignAttrs v cls kw = .ok l → ∀ p ∈ l, ClsFine E D p.2 ∧
    ((∀ c as, v ≠ .obj c as) → ∀ w, E.getAttr v p.1 = .ok w →
      Lower rank v w ∨ (p.2 = none ∧ ∃ a, w = .atom a))
  others : ∀ v, (∀ c as, v ≠ .obj c as) → ∀ c, ∀ p ∈ attributesAndTypes (E.info c) true, ∀ w,
    E.getAttr v p.1 = .ok w → Lower rank v w
  types : S = true → ∀ x, ((∃ a, x = .atom a) ∨ rank x < R) → TyFine E D (E.getType x)

/-- The keyword arguments: the fork, and `types` that are nested at most `D` deep. -/
structure KwFine (E : Env) (f D : Nat) (S : Bool) (kw : DumpKw) : Prop where
  fork : kw.fork = f
  types : ∀ p ∈ kw.types, TyFine E D p.2
  strict : kw.strict = true → S = true

/-- A value of rank at most `R`, if that matters. -/
def Low (rank : Val → Nat) (S : Bool) (R : Nat) (v : Val) : Prop :=
  S = true → (∃ a, v = .atom a) ∨ rank v ≤ R

/-- The calls that are possible with a stack for `n` nested calls, if a further call does
`bot`. -/
def recOn (E : Env) (bot : Rec) : Nat → Rec
  | 0 => bot
  | n + 1 => ⟨dumpWith E (recOn E bot n), callSer E (recOn E bot n)⟩

theorem recOf_eq {E : Env} (n : Nat) : recOf E n = recOn E (recOf E 0) n := by
  induction n with
  | zero => rfl
  | succ n ih =>
    show Rec.mk (dumpWith E (recOf E n)) (callSer E (recOf E n)) =
      Rec.mk (dumpWith E (recOn E (recOf E 0) n)) (callSer E (recOn E (recOf E 0) n))
    rw [ih]

/-! ## The measure -/

/-- The nesting of a given class. -/
abbrev oNest : Option Ty → Nat := oDepth fun _ => 0

/-- What decreases from a call to the calls for the parts. -/
def weight (D : Nat) (rank : Val → Nat) (v : Val) (o : Option Ty) : Nat :=
  match v with
  | .atom (.timezone _ _) => 2 * oNest o + 1
  | .atom _ => 2 * oNest o
  | v => rank v + 2 * D + 2

section
variable {E : Env} {f D : Nat} {rank : Val → Nat} {S : Bool} {R : Nat}

theorem weight_atom (a : Atom) (o : Option Ty) :
    weight D rank (.atom a) o = 2 * oNest o ∨ weight D rank (.atom a) o = 2 * oNest o + 1 := by
  cases a <;> first | exact .inl rfl | exact .inr rfl

theorem weight_other {v : Val} (h : ∀ a, v ≠ .atom a) (o : Option Ty) :
    weight D rank v o = rank v + 2 * D + 2 := by
  cases v with
  | atom a => exact absurd rfl (h a)
  | _ => rfl

theorem oNest_le (hD : 2 ≤ D) {o : Option Ty} (h : ClsFine E D o) : oNest o ≤ D := by
  cases o with
  | none => show 1 ≤ D; omega
  | some t => exact (h t rfl).depth

theorem weight_le (hD : 2 ≤ D) {v : Val} {o : Option Ty} (h : ClsFine E D o) :
    weight D rank v o ≤ rank v + 2 * D + 2 := by
  have := oNest_le hD h
  by_cases hv : ∃ a, v = .atom a
  · obtain ⟨a, rfl⟩ := hv
    rcases weight_atom (D := D) (rank := rank) a o with h | h <;> omega
  · exact (weight_other (fun a ha => hv ⟨a, ha⟩) o).le

theorem weight_lower (hD : 2 ≤ D) {v x : Val} {o o' : Option Ty} (h : ClsFine E D o) (hx : Lower rank v x) :
    weight D rank x o < weight D rank v o' := by
  rw [weight_other hx.1]
  have := oNest_le hD h
  rcases hx.2 with ⟨a, rfl⟩ | hlt
  · rcases weight_atom (D := D) (rank := rank) a o with h | h <;> omega
  · have := weight_le (rank := rank) hD (v := x) h
    omega

theorem low_lower {v x : Val} (hx : Lower rank v x) (h : Low rank S R v) : Low rank S R x := by
  intro hS
  rcases h hS with ⟨a, rfl⟩ | h
  · exact absurd rfl (hx.1 a)
  · rcases hx.2 with h' | h'
    · exact .inl h'
    · exact .inr (by omega)

theorem low_atom (a : Atom) : Low rank S R (.atom a) := fun _ => .inl ⟨a, rfl⟩

theorem fine_cls (hD : 2 ≤ D) (c : Cls) : TyFine E D (.cls c) := by
  refine ⟨.cls c, ?_⟩
  cases c <;> simp only [tyDepth] <;> omega

theorem clsFine_none : ClsFine E D none := fun _ h => by cases h

theorem clsFine_some {t : Ty} (h : TyFine E D t) : ClsFine E D (some t) := fun _ h' => by cases h'; exact h

theorem args_fine {t a : Ty} (ht : TyFine E D t) (ha : a ∈ t.getArgs) :
    TyFine E D a ∧ nest a ≤ nest t ∧ ((∀ ts, t ≠ .union ts) → nest a < nest t) := by
  cases t with
  | gen g args =>
    have h1 : nest a ≤ tyDepths (fun _ => 0) args := tyDepths_mem ha
    have h2 := ht.depth
    simp only [nest, tyDepth] at h1 h2 ⊢
    cases ht.flat with
    | gen _ _ hfl => exact ⟨⟨hfl a ha, by omega⟩, by omega, fun _ => by omega⟩
  | union args =>
    have h1 : nest a ≤ tyDepths (fun _ => 0) args := tyDepths_mem ha
    have h2 := ht.depth
    simp only [nest, tyDepth] at h1 h2 ⊢
    cases ht.flat with
    | union _ hfl _ => exact ⟨⟨hfl a ha, by omega⟩, by omega, fun h => absurd rfl (h args)⟩
  | _ => cases ha

/-- An atom is dumped as a collection or as an object only if a class says so. -/
theorem coll_atom {a : Atom} {cls : Option Ty} {g : SerFn}
    (h : (cls.getD (.cls (Val.atom a).cls)).serFn E.info = some g)
    (hg : g = .list ∨ g = .tuple ∨ g = .iterable ∨ g = .object) :
    ∃ t, cls = some t ∧ 2 ≤ nest t ∧ ∀ ts, t ≠ .union ts := by
  cases cls with
  | none =>
    exfalso
    rw [Option.getD_none] at h
    cases a <;> (cases h; rcases hg with h | h | h | h <;> cases h)
  | some t =>
    refine ⟨t, rfl, ?_⟩
    rw [Option.getD_some] at h
    cases t with
    | cls c =>
      refine ⟨?_, fun _ h => by cases h⟩
      cases c with
      | user c => simp only [nest, tyDepth]; omega
      | _ =>
        first
        | (simp only [nest, tyDepth]; omega)
        | (exfalso; cases h; rcases hg with h | h | h | h <;> cases h)
    | gen g args => exact ⟨by simp only [nest, tyDepth]; omega, fun _ h => by cases h⟩
    | newtype n t => exact ⟨by simp only [nest, tyDepth]; omega, fun _ h => by cases h⟩
    | any => cases h
    | special b => exfalso; cases h; rcases hg with h | h | h | h <;> cases h
    | union ts => exfalso; cases h; rcases hg with h | h | h | h <;> cases h

/-! ## The calls that are made for parts -/

/-- The calls for less than `w` have the same outcome. -/
def Agree (E : Env) (f D : Nat) (rank : Val → Nat) (S : Bool) (R w : Nat) (rec rec' : Rec) : Prop :=
  ∀ v cls kw, Low rank S R v → ClsFine E D cls → KwFine E f D S kw → weight D rank v cls < w →
    rec'.dump v cls kw = rec.dump v cls kw ∧
    ∀ g, (cls.getD (.cls v.cls)).serFn E.info = some g → rec'.call g v cls kw = rec.call g v cls kw

theorem iter_lower (B : Bounded E f D rank S R) {v x : Val} {xs : List Val} (h : v.iter = some xs) (hx : x ∈ xs) :
    Lower rank v x ∨ ∃ s c, v = .str s ∧ x = .str [c] := by
  rcases iter_parts h hx with h' | h'
  · exact .inl (B.parts v (fun c as hv => by subst hv; cases h) x h')
  · exact .inr h'

/-- The elements of what is iterated over. -/
theorem iter_weight (B : Bounded E f D rank S R) {v x : Val} {xs : List Val} {cls o : Option Ty}
    (h : v.iter = some xs) (hx : x ∈ xs) (hv : Low rank S R v) (ho : ClsFine E D o)
    (hlt : ∀ a, v = .atom a → oNest o < oNest cls) :
    Low rank S R x ∧ weight D rank x o < weight D rank v cls := by
  rcases iter_lower B h hx with hl | ⟨s, c, rfl, rfl⟩
  · exact ⟨low_lower hl hv, weight_lower B.two ho hl⟩
  · refine ⟨low_atom _, ?_⟩
    have := hlt _ rfl
    show 2 * oNest o < 2 * oNest cls
    omega

theorem listSer_eq (B : Bounded E f D rank S R) {rec rec' : Rec} {v : Val} {cls : Option Ty} {kw : DumpKw}
    (hv : Low rank S R v) (hc : ClsFine E D cls) (hk : KwFine E f D S kw)
    (hd : (cls.getD (.cls v.cls)).serFn E.info = some .list)
    (hr : Agree E f D rank S R (weight D rank v cls) rec rec') :
    listSer E rec' v cls kw = listSer E rec v cls kw := by
  have hk' : KwFine E f D S { kw with storeCls := false } := ⟨hk.fork, hk.types, hk.strict⟩
  have ht : ∀ xs, v.iter = some xs → ∀ t, TyFine E D t → (∀ a, v = .atom a → nest t < oNest cls) →
      listSer.typed E rec' kw xs t { kw with storeCls := false } =
      listSer.typed E rec kw xs t { kw with storeCls := false } := by
    intro xs hi t htf hlt
    unfold listSer.typed
    have hser : E.getSer kw.fork t = .ok (t.serFn E.info) := hk.fork ▸ B.sers t
    rw [hser, liftK_of_ok, pure_bind', pure_bind']
    refine congrArg (· >>= _) (mapRes_congr fun x hx => ?_)
    cases hs : t.serFn E.info with
    | none => rfl
    | some g =>
      obtain ⟨h1, h2⟩ := iter_weight B hi hx hv (clsFine_some htf) (cls := cls) hlt
      exact (hr x (some t) _ h1 (clsFine_some htf) hk' h2).2 g hs
  unfold listSer
  by_cases hf : v.falsy = true
  · rw [if_pos hf, if_pos hf]
  rw [if_neg hf, if_neg hf]
  dsimp only
  cases hi : v.iter with
  | none => rfl
  | some xs =>
    cases ha : (cls.map Ty.getArgs).getD [] with
    | cons t ts =>
      cases cls with
      | none => cases ha
      | some u =>
        have hmem : t ∈ u.getArgs := by
          rw [show u.getArgs = t :: ts from ha]; exact List.mem_cons_self
        obtain ⟨h1, _, h3⟩ := args_fine (hc u rfl) hmem
        refine ht xs hi t h1 ?_
        rintro a rfl
        obtain ⟨t', h', _, hu⟩ := coll_atom hd (.inl rfl)
        cases h'
        exact h3 hu
    | nil =>
      dsimp only
      by_cases hs : kw.strict = true
      · rw [if_pos hs, if_pos hs]
        split
        · rfl
        · rfl
        · rfl
        · rfl
        · next x ys _ _ _ _ =>
          refine ht _ hi _ (fine_cls B.two _) ?_
          rintro a rfl
          obtain ⟨t', rfl, h2, hu⟩ := coll_atom hd (.inl rfl)
          rcases iter_lower B hi List.mem_cons_self with hl | ⟨s, c, _, rfl⟩
          · exact absurd rfl (hl.1 a)
          · exact h2
        · rfl
      · rw [if_neg hs, if_neg hs]
        refine congrArg (· >>= _) (mapRes_congr fun x hx => ?_)
        obtain ⟨h1, h2⟩ := iter_weight B hi hx hv (clsFine_none) (cls := cls) (by
          rintro a rfl
          obtain ⟨t', rfl, h2, hu⟩ := coll_atom hd (.inl rfl)
          exact h2)
        exact (hr x none _ h1 clsFine_none hk' h2).1

theorem lift_val {α : Type} {x : Except Err α} {a : α} (h : (Res.lift x).val = .ok a) : x = .ok a := by
  cases x with
  | error e => cases h
  | ok b => exact h

/-- The types of the elements that are found are nested less deep. -/
theorem elementTypes_fine (B : Bounded E f D rank S R) {v : Val} {n : Nat} {cls c : Option Ty} {strict : Bool}
    {os : List (Option Ty)}
    (hv : Low rank S R v) (hS : strict = true → S = true)
    (hc : ∀ t, c = some t → ∀ a ∈ t.getArgs, TyFine E D a ∧ ((∃ b, v = .atom b) → nest a < oNest cls))
    (hat : (∃ a, v = .atom a) → 2 ≤ oNest cls)
    (h : (elementTypes E v n c strict).val = .ok os) : ∀ o ∈ os, ClsFine E D o ∧
      ((∃ a, v = .atom a) → oNest o < oNest cls) := by
  have hnone : ClsFine E D none ∧ ((∃ a, v = .atom a) → oNest none < oNest cls) :=
    ⟨clsFine_none, fun h => hat h⟩
  have sub : ∀ c', (∀ t, c' = some t → ∀ a ∈ t.getArgs, TyFine E D a ∧ ((∃ b, v = .atom b) → nest a < oNest cls)) →
      getSubclasses n c' = .ok os → ∀ o ∈ os, ClsFine E D o ∧ ((∃ a, v = .atom a) → oNest o < oNest cls) := by
    intro c' hc' hs o ho
    unfold getSubclasses at hs
    dsimp only at hs
    split at hs
    · split at hs <;> cases hs
      rw [(List.mem_replicate.1 ho).2]; exact hnone
    · next t ht =>
      split at hs <;> cases hs
      rw [(List.mem_replicate.1 ho).2]
      cases c' with
      | none => cases ht
      | some u =>
        have := hc' u rfl t (by rw [show u.getArgs = [t] from ht]; exact List.mem_cons_self)
        exact ⟨clsFine_some this.1, this.2⟩
    · split at hs <;> cases hs
      obtain ⟨t, ht', rfl⟩ := List.mem_map.1 ho
      cases c' with
      | none => cases ht'
      | some u =>
        have := hc' u rfl t ht'
        exact ⟨clsFine_some this.1, this.2⟩
  unfold elementTypes at h
  cases strict with
  | false => exact sub none (fun _ h => by cases h) (lift_val h)
  | true =>
    rw [if_pos rfl] at h
    cases hd : determineCls E v c with
    | error e => rw [hd] at h; cases h
    | ok c' =>
      rw [hd, liftK_of_ok, pure_bind'] at h
      refine sub c' ?_ (lift_val h)
      cases c with
      | some t => cases hd; exact hc
      | none =>
        have child : ∀ x, x ∈ children v → (∀ c as, v ≠ .obj c as) → TyFine E D (E.getType x) := by
          intro x hx hno
          refine B.types (hS rfl) x ?_
          have hl := B.parts v hno x hx
          rcases hl.2 with h | h
          · exact .inl h
          · rcases hv (hS rfl) with ⟨a, rfl⟩ | h'
            · exact absurd rfl (hl.1 a)
            · exact .inr (by omega)
        intro t ht a ha
        subst ht
        unfold determineCls at hd
        dsimp only at hd
        split at hd
        · cases hd
          rw [List.mem_singleton.1 ha]
          exact ⟨child _ List.mem_cons_self (fun _ _ h => by cases h), fun ⟨b, hb⟩ => by cases hb⟩
        · cases hd
          rw [List.mem_singleton.1 ha]
          exact ⟨child _ List.mem_cons_self (fun _ _ h => by cases h), fun ⟨b, hb⟩ => by cases hb⟩
        · cases hd
          rw [List.mem_singleton.1 ha]
          exact ⟨child _ List.mem_cons_self (fun _ _ h => by cases h), fun ⟨b, hb⟩ => by cases hb⟩
        · cases hd
        · cases hd
        · cases hd
        · cases hd; cases ha
        · cases hd

theorem iterableSer_eq (B : Bounded E f D rank S R) {rec rec' : Rec} {v : Val} {cls c : Option Ty} {kw : DumpKw}
    (hv : Low rank S R v) (hk : KwFine E f D S kw)
    (hc : ∀ t, c = some t → ∀ a ∈ t.getArgs, TyFine E D a ∧ ((∃ b, v = .atom b) → nest a < oNest cls))
    (hat : (∃ a, v = .atom a) → 2 ≤ oNest cls)
    (hr : Agree E f D rank S R (weight D rank v cls) rec rec') :
    iterableSer E rec' v c kw = iterableSer E rec v c kw := by
  have hk' : KwFine E f D S { kw with storeCls := false } := ⟨hk.fork, hk.types, hk.strict⟩
  unfold iterableSer
  dsimp only
  cases hi : v.iter with
  | none => rfl
  | some xs =>
    refine bind_congr_ok fun os hos => congrArg (· >>= _) (mapRes_congr fun p hp => ?_)
    obtain ⟨x, o⟩ := p
    obtain ⟨h1, h2⟩ := elementTypes_fine B hv hk.strict hc hat hos o (List.of_mem_zip hp).2
    obtain ⟨h3, h4⟩ := iter_weight B hi (List.of_mem_zip hp).1 hv h1 (cls := cls) (fun a ha => h2 ⟨a, ha⟩)
    exact (hr x o _ h3 h1 hk' h4).1

theorem coll_args {v : Val} {cls : Option Ty} (hc : ClsFine E D cls) {g : SerFn}
    (hd : (cls.getD (.cls v.cls)).serFn E.info = some g)
    (hg : g = .list ∨ g = .tuple ∨ g = .iterable ∨ g = .object) :
    (∀ t, cls = some t → ∀ a ∈ t.getArgs, TyFine E D a ∧ ((∃ b, v = .atom b) → nest a < oNest cls)) ∧
    ((∃ a, v = .atom a) → 2 ≤ oNest cls) := by
  constructor
  · rintro t rfl a ha
    obtain ⟨h1, _, h3⟩ := args_fine (hc t rfl) ha
    refine ⟨h1, ?_⟩
    rintro ⟨b, rfl⟩
    obtain ⟨t', h', _, hu⟩ := coll_atom hd hg
    cases h'
    exact h3 hu
  · rintro ⟨a, rfl⟩
    obtain ⟨t', rfl, h2, _⟩ := coll_atom hd hg
    exact h2

theorem tupleSer_eq (B : Bounded E f D rank S R) {rec rec' : Rec} {v : Val} {cls : Option Ty} {kw : DumpKw}
    (hv : Low rank S R v) (hc : ClsFine E D cls) (hk : KwFine E f D S kw)
    (hd : (cls.getD (.cls v.cls)).serFn E.info = some .tuple)
    (hr : Agree E f D rank S R (weight D rank v cls) rec rec') :
    tupleSer E rec' v cls kw = tupleSer E rec v cls kw := by
  obtain ⟨ha, hat⟩ := coll_args hc hd (.inr (.inl rfl))
  have main : (do let c ← tupleCls v cls; iterableSer E rec' v c kw) =
      (do let c ← tupleCls v cls; iterableSer E rec v c kw) := by
    refine bind_congr_ok fun c hcc => iterableSer_eq B hv hk (cls := cls) ?_ hat hr
    unfold tupleCls at hcc
    split at hcc
    · cases hcc; exact fun _ h => by cases h
    · next t =>
      split at hcc
      · cases hcc
      · cases hcc; exact ha
      · next he =>
        split at hcc
        · cases hcc
        · next xs hxs =>
          cases hcc
          intro t' ht' a hmem
          cases ht'
          rw [(List.mem_replicate.1 (show a ∈ List.replicate _ _ from hmem)).2]
          cases hargs : t.getArgs with
          | nil =>
            refine ⟨⟨.any, ?_⟩, fun hb => ?_⟩
            · have := B.two; show 1 ≤ D; omega
            · exact hat hb
          | cons b bs =>
            exact ha t rfl b (by rw [hargs]; exact List.mem_cons_self)
  cases v with
  | ntuple c xs =>
    show namedtupleSer rec' (E.info c).fields xs kw = namedtupleSer rec (E.info c).fields xs kw
    unfold namedtupleSer
    refine congrArg (· >>= _) (mapRes_congr fun p hp => ?_)
    obtain ⟨n, x⟩ := p
    have hl := B.parts (.ntuple c xs) (fun _ _ h => by cases h) x (List.of_mem_zip hp).2
    dsimp only
    rw [(hr x none kw (low_lower hl hv) clsFine_none hk (weight_lower B.two (clsFine_none (E := E)) hl)).1]
  | _ => exact main

theorem dictSer_eq (B : Bounded E f D rank S R) {rec rec' : Rec} {v : Val} {cls : Option Ty} {kw : DumpKw}
    (hv : Low rank S R v) (hk : KwFine E f D S kw)
    (hr : Agree E f D rank S R (weight D rank v cls) rec rec') :
    dictSer E rec' v kw = dictSer E rec v kw := by
  have hk' : KwFine E f D S { kw with types := [] } := ⟨hk.fork, fun _ h => (by cases h), hk.strict⟩
  have loop : ∀ es, (∀ e ∈ es, Lower rank v e.1 ∧ Lower rank v e.2) → ∀ acc,
      dictLoop E rec' kw es acc = dictLoop E rec kw es acc := by
    intro es hes
    induction es with
    | nil => intro acc; rfl
    | cons e es ih =>
      intro acc
      obtain ⟨k, x⟩ := e
      obtain ⟨hl1, hl2⟩ := hes (k, x) List.mem_cons_self
      have hkey : storeAndHash E rec' acc k kw = storeAndHash E rec acc k kw := by
        unfold storeAndHash
        rw [(hr k none kw (low_lower hl1 hv) clsFine_none hk (weight_lower B.two (clsFine_none (E := E)) hl1)).1]
      have hdump : ∀ o, ClsFine E D o →
          rec'.dump x o { kw with types := [] } = rec.dump x o { kw with types := [] } :=
        fun o ho => (hr x o _ (low_lower hl2 hv) ho hk' (weight_lower B.two ho hl2)).1
      simp only [dictLoop, hkey, ih fun e he => hes e (List.mem_cons_of_mem _ he)]
      refine bind_congr_ok fun _ _ => congrArg (· >>= _) (hdump _ ?_)
      intro t ht
      cases k with
      | atom a =>
        cases a with
        | str s => exact hk.types _ (assoc_mem ht)
        | _ => cases ht
      | _ => cases ht
  unfold dictSer
  cases v with
  | dict es =>
    dsimp only
    rw [loop es fun e he => ⟨B.parts _ (fun _ _ h => by cases h) _ (List.mem_append_left _ (List.mem_map_of_mem he)),
      B.parts _ (fun _ _ h => by cases h) _ (List.mem_append_right _ (List.mem_map_of_mem he))⟩]
  | ddict g es =>
    dsimp only
    rw [loop es fun e he => ⟨B.parts _ (fun _ _ h => by cases h) _ (List.mem_append_left _ (List.mem_map_of_mem he)),
      B.parts _ (fun _ _ h => by cases h) _ (List.mem_append_right _ (List.mem_map_of_mem he))⟩]
  | _ => rfl

/-! ### Objects -/

theorem filter_mem {I : ClassInfo} {kw : DumpKw} {strip : StripAttr} {l l' : List (PyStr × Option Ty)}
    (h : filterAttributes I kw strip l = .ok l') {p : PyStr × Option Ty} (hp : p ∈ l') : p ∈ l := by
  have go : ∀ s l l', filterAttributes.go I kw s l = .ok l' → p ∈ l' → p ∈ l := by
    intro s l
    induction l with
    | nil => intro l' h hp; cases h; exact hp
    | cons q l ih =>
      intro l' h hp
      simp only [filterAttributes.go] at h
      cases hb : keepAttr I kw s q.1 with
      | error e => rw [hb] at h; cases h
      | ok b =>
        cases hg : filterAttributes.go I kw s l with
        | error e => rw [hb, hg] at h; cases h
        | ok r =>
          rw [hb, hg] at h
          cases h
          cases b with
          | false => exact List.mem_cons_of_mem _ (ih r hg hp)
          | true =>
            rcases List.mem_cons.1 hp with rfl | hp
            · exact List.mem_cons_self
            · exact List.mem_cons_of_mem _ (ih r hg hp)
  unfold filterAttributes at h
  split at h
  · exact go _ _ _ h hp
  · exact go _ _ _ h hp
  · cases h

theorem assocSet_mem {β : Type} {l : List (PyStr × β)} {n : PyStr} {b : β} {p : PyStr × β}
    (h : p ∈ assocSet l n b) : p ∈ l ∨ p.2 = b := by
  induction l with
  | nil => simp only [assocSet, List.mem_singleton] at h; subst h; exact .inr rfl
  | cons q l ih =>
    obtain ⟨m, c⟩ := q
    simp only [assocSet] at h
    split at h
    · rcases List.mem_cons.1 h with rfl | h
      · exact .inr rfl
      · exact .inl (List.mem_cons_of_mem _ h)
    · rcases List.mem_cons.1 h with rfl | h
      · exact .inl List.mem_cons_self
      · rcases ih h with h | h
        · exact .inl (List.mem_cons_of_mem _ h)
        · exact .inr h

theorem known_fine (B : Bounded E f D rank S R) (c : Nat) (strict : Bool) :
    ∀ p ∈ attributesAndTypes (E.info c) strict, ClsFine E D p.2 := by
  have fold : ∀ (ms : List (PyStr × Member)) (l : List (PyStr × Option Ty)), (∀ p ∈ l, ClsFine E D p.2) →
      ∀ p ∈ ms.foldl (fun as p => assocSet as p.1 none) l, ClsFine E D p.2 := by
    intro ms
    induction ms with
    | nil => intro l h; exact h
    | cons m ms ih =>
      intro l h
      refine ih _ fun p hp => ?_
      rcases assocSet_mem hp with h' | h'
      · exact h p h'
      · rw [h']; exact clsFine_none
  unfold attributesAndTypes
  refine fold _ _ ?_
  intro p hp
  split at hp
  · obtain ⟨n, _, rfl⟩ := List.mem_map.1 hp
    exact clsFine_none
  · split at hp
    · obtain ⟨q, hq, rfl⟩ := List.mem_map.1 hp
      exact clsFine_some (B.hints c q hq)
    · split at hp
      · obtain ⟨q, hq, rfl⟩ := List.mem_map.1 hp
        exact clsFine_some (B.initHints c q (List.mem_filter.1 hq).1)
      · cases hp

/-- What a list of attributes is to satisfy: the values are lower, or without parts and dumped
as what they are. -/
def AttrsFine (E : Env) (D : Nat) (rank : Val → Nat) (v : Val) (cls : Option Ty)
    (as : List (PyStr × Option Ty)) : Prop :=
  ∀ p ∈ as, ClsFine E D p.2 ∧ ∀ w, E.getAttr v p.1 = .ok w →
    Lower rank v w ∨ (p.2 = none ∧ (∃ a, w = .atom a) ∧ ((∃ a, v = .atom a) → 2 ≤ oNest cls))

theorem attr_weight (B : Bounded E f D rank S R) {v w : Val} {cls hint : Option Ty} (hv : Low rank S R v)
    (hh : ClsFine E D hint)
    (h : Lower rank v w ∨ (hint = none ∧ (∃ a, w = .atom a) ∧ ((∃ a, v = .atom a) → 2 ≤ oNest cls))) :
    Low rank S R w ∧ weight D rank w hint < weight D rank v cls := by
  rcases h with h | ⟨rfl, ⟨a, rfl⟩, h⟩
  · exact ⟨low_lower h hv, weight_lower B.two hh h⟩
  · refine ⟨low_atom _, ?_⟩
    have h1 : oNest none = 1 := rfl
    by_cases ha : ∃ a, v = .atom a
    · have := h ha
      obtain ⟨b, rfl⟩ := ha
      rcases weight_atom (D := D) (rank := rank) a none with h | h <;>
        rcases weight_atom (D := D) (rank := rank) b cls with h' | h' <;> omega
    · rw [weight_other (v := v) fun a h' => ha ⟨a, h'⟩]
      have := B.two
      rcases weight_atom (D := D) (rank := rank) a none with h | h <;> omega

theorem attrLoop_eq (B : Bounded E f D rank S R) {rec rec' : Rec} {v : Val} {cls : Option Ty} {kw : DumpKw}
    (hv : Low rank S R v) (hk : KwFine E f D S kw)
    (hr : Agree E f D rank S R (weight D rank v cls) rec rec') (b : Bool) (name : PyStr) :
    ∀ as, AttrsFine E D rank v cls as → ∀ acc,
      attrLoop E rec' kw b v name as acc = attrLoop E rec kw b v name as acc := by
  intro as
  induction as with
  | nil => intro _ acc; rfl
  | cons p as ih =>
    intro has acc
    obtain ⟨n, hint⟩ := p
    obtain ⟨hh, hw⟩ := has (n, hint) List.mem_cons_self
    simp only [attrLoop, ih fun q hq => has q (List.mem_cons_of_mem _ hq)]
    refine bind_congr_ok fun w hwv => ?_
    have hget : E.getAttr v n = .ok w := lift_val hwv
    obtain ⟨h1, h2⟩ := attr_weight B hv hh (hw w hget)
    refine bind_congr_ok fun _ _ => ?_
    rw [hk.fork, B.sers, liftK_of_ok, pure_bind', pure_bind']
    have hd : dumpAttr E rec' kw ((hint.getD (.cls w.cls)).serFn E.info) w hint =
        dumpAttr E rec kw ((hint.getD (.cls w.cls)).serFn E.info) w hint := by
      unfold dumpAttr
      cases hg : (hint.getD (.cls w.cls)).serFn E.info with
      | none => rfl
      | some g =>
        dsimp only
        rw [(hr w hint kw h1 hh hk h2).2 g hg]
    rw [hd]

theorem objectSer_eq (B : Bounded E f D rank S R) {rec rec' : Rec} {v : Val} {cls : Option Ty} {kw : DumpKw}
    (hv : Low rank S R v) (hk : KwFine E f D S kw)
    (hd : (cls.getD (.cls v.cls)).serFn E.info = some .object)
    (hr : Agree E f D rank S R (weight D rank v cls) rec rec') :
    objectSer E rec' v cls kw = objectSer E rec v cls kw := by
  have hat : (∃ a, v = .atom a) → 2 ≤ oNest cls := by
    rintro ⟨a, rfl⟩
    obtain ⟨t', rfl, h2, _⟩ := coll_atom hd (.inr (.inr (.inr rfl)))
    exact h2
  have hw : ∀ strip t I attributes, (∀ l, attributes = .ok l → AttrsFine E D rank v cls l) →
      objectSerWith E rec' v kw strip t I attributes = objectSerWith E rec v kw strip t I attributes := by
    intro strip t I attributes h
    unfold objectSerWith
    cases attributes with
    | error e => rfl
    | ok l =>
      have hl := attrLoop_eq B hv (kw := { kw with stripAttr := strip, storeCls := kw.verbose.classInfo })
        ⟨hk.fork, hk.types, hk.strict⟩ hr (I.isAttrs && !kw.stripPrivates) (E.className false t) l (h l rfl) []
      dsimp only
      show (do let result ← attrLoop E rec' _ _ v _ l []; _) = (do let result ← attrLoop E rec _ _ v _ l []; _)
      rw [hl]
  have hfor : ∀ o l, E.foreignAttrs v o kw = .ok l → AttrsFine E D rank v cls l := by
    intro o l hl p hp
    obtain ⟨h1, h2⟩ := B.foreign v o kw l hl p hp
    refine ⟨h1, fun w hg => ?_⟩
    by_cases ho : ∃ c as, v = .obj c as
    · obtain ⟨c, as, rfl⟩ := ho
      exact .inl (B.attrs c as p.1 w hg)
    · rcases h2 (fun c as h => ho ⟨c, as, h⟩) w hg with h | ⟨h, h'⟩
      · exact .inl h
      · exact .inr ⟨h, h', hat⟩
  have hobj : ∀ c as l, v = .obj c as → (∀ p ∈ l, ClsFine E D p.2) → AttrsFine E D rank v cls l := by
    rintro c as l rfl hl p hp
    exact ⟨hl p hp, fun w hg => .inl (B.attrs c as p.1 w hg)⟩
  have hcls : ∀ c strip l, kw.strict = true → attributesFromClass (E.info c) kw strip = .ok l →
      AttrsFine E D rank v cls l := by
    intro c strip l hs hl p hp
    have hmem : p ∈ attributesAndTypes (E.info c) kw.strict := by
      unfold attributesFromClass at hl
      split at hl
      · exact filter_mem hl hp
      · cases hl
    refine ⟨known_fine B c _ p hmem, fun w hg => .inl ?_⟩
    by_cases ho : ∃ c as, v = .obj c as
    · obtain ⟨c, as, rfl⟩ := ho
      exact B.attrs c as p.1 w hg
    · rw [hs] at hmem
      exact B.others v (fun c as h => ho ⟨c, as, h⟩) c p hmem w hg
  have hnil : ∀ strip l, attributesFromClass ClassInfo.object kw strip = .ok l → AttrsFine E D rank v cls l := by
    intro strip l hl p hp
    exfalso
    unfold attributesFromClass at hl
    split at hl
    · have := filter_mem hl hp
      cases hs : kw.strict <;> rw [hs] at this <;> cases this
    · cases hl
  have hfrom : (match v with
      | .obj c as => objectSerWith E rec' v kw (normalizeStripAttr kw.stripAttr) (.cls (.user c)) (E.info c)
          (attributesFromObject (E.info c) as kw (normalizeStripAttr kw.stripAttr))
      | v => objectSerWith E rec' v kw (normalizeStripAttr kw.stripAttr) (.cls v.cls) ClassInfo.object
          (E.foreignAttrs v none kw)) =
      (match v with
      | .obj c as => objectSerWith E rec v kw (normalizeStripAttr kw.stripAttr) (.cls (.user c)) (E.info c)
          (attributesFromObject (E.info c) as kw (normalizeStripAttr kw.stripAttr))
      | v => objectSerWith E rec v kw (normalizeStripAttr kw.stripAttr) (.cls v.cls) ClassInfo.object
          (E.foreignAttrs v none kw)) := by
    cases v with
    | obj c as =>
      refine hw _ _ _ _ fun l hl => hobj c as l rfl fun p hp => ?_
      have hmem := filter_mem hl hp
      obtain ⟨n, _, rfl⟩ := List.mem_map.1 hmem
      dsimp only
      cases ha : assoc (attributesAndTypes (E.info c) kw.strict) n with
      | none => exact clsFine_none
      | some o => exact known_fine B c _ _ (assoc_mem ha)
    | _ => exact hw _ _ _ _ (hfor none)
  unfold objectSer
  cases cls with
  | none => exact hfrom
  | some t =>
    dsimp only
    by_cases hs : kw.strict = true
    · rw [if_pos hs, if_pos hs]
      split
      · next c => exact hw _ _ _ _ fun l hl => hcls c _ l hs hl
      · exact hw _ _ _ _ (hnil _)
      · exact hw _ _ _ _ (hfor _)
    · rw [if_neg hs, if_neg hs]
      exact hfrom

/-! ## All serializers -/

theorem serFn_not_custom (info : Nat → ClassInfo) (t : Ty) (id : Nat) : t.serFn info ≠ some (.custom id) := by
  have hcls : ∀ c : Cls, c.serFn info ≠ .custom id := by
    intro c h
    cases c with
    | user c =>
      simp only [Cls.serFn] at h
      split at h <;> cases h
    | _ => cases h
  intro h
  cases t with
  | cls c => exact hcls c (Option.some.inj h)
  | gen g args => exact hcls _ (Option.some.inj h)
  | newtype n t =>
    cases t with
    | cls c => exact hcls c (Option.some.inj h)
    | gen g args => exact hcls _ (Option.some.inj h)
    | _ => cases h
  | _ => cases h

/-- A call of a serializer makes the calls for the parts, and a union calls `dump` for the same
value with its members. -/
theorem callSer_eq (B : Bounded E f D rank S R) {rec rec' : Rec} {v : Val} {cls : Option Ty} {kw : DumpKw}
    (hv : Low rank S R v) (hc : ClsFine E D cls) (hk : KwFine E f D S kw) {g : SerFn}
    (hd : (cls.getD (.cls v.cls)).serFn E.info = some g)
    (hr : Agree E f D rank S R (weight D rank v cls) rec rec')
    (hu : g = .union → ∀ ts, cls = some (.union ts) → ∀ t ∈ ts, rec'.dump v (some t) kw = rec.dump v (some t) kw) :
    callSer E rec' g v cls kw = callSer E rec g v cls kw := by
  cases g with
  | tuple => exact tupleSer_eq B hv hc hk hd hr
  | list => exact listSer_eq B hv hc hk hd hr
  | dict => exact dictSer_eq B hv hk hr
  | object => exact objectSer_eq B hv hk hd hr
  | iterable =>
    obtain ⟨ha, hat⟩ := coll_args hc hd (.inr (.inr (.inl rfl)))
    exact iterableSer_eq B hv hk ha hat hr
  | timezone =>
    show timezoneSer rec' v cls kw = timezoneSer rec v cls kw
    unfold timezoneSer
    split
    · next us name =>
      have h := (hr (.atom (.timedelta us)) cls kw (low_atom _) hc hk (by
        show 2 * oNest cls < 2 * oNest cls + 1; omega)).1
      rw [h]
    · rfl
  | union =>
    show unionSer rec' v cls kw = unionSer rec v cls kw
    unfold unionSer
    cases cls with
    | none => rfl
    | some t =>
      cases t with
      | union ts =>
        dsimp only [Option.bind_some, Ty.unionParams]
        have hloop : ∀ l, (∀ t ∈ l, t ∈ ts) → unionLoop rec' v kw l = unionLoop rec v kw l := by
          intro l
          induction l with
          | nil => intro _; rfl
          | cons t l ih =>
            intro hl
            simp only [unionLoop]
            rw [hu rfl ts rfl t (hl t List.mem_cons_self), ih fun t ht => hl t (List.mem_cons_of_mem _ ht)]
        rw [hloop ts fun _ h => h]
      | gen g args =>
        exfalso
        cases g <;> cases hd
      | _ => rfl
  | custom id => exact absurd hd (serFn_not_custom _ _ _)
  | _ => rfl

/-! ## The induction -/

/-- With a stack for `n` calls, it does not matter what a further call does. -/
def StableAt (E : Env) (n : Nat) (v : Val) (cls : Option Ty) (kw : DumpKw) : Prop :=
  ∀ m, n ≤ m → ∀ bot bot', (recOn E bot' m).dump v cls kw = (recOn E bot m).dump v cls kw ∧
    ∀ g, (cls.getD (.cls v.cls)).serFn E.info = some g →
      (recOn E bot' m).call g v cls kw = (recOn E bot m).call g v cls kw

/-- The same for all calls for less than `w`. -/
def StableBelow (E : Env) (f D : Nat) (rank : Val → Nat) (S : Bool) (R w n : Nat) : Prop :=
  ∀ v cls kw, Low rank S R v → ClsFine E D cls → KwFine E f D S kw → weight D rank v cls < w →
    StableAt E n v cls kw

theorem dump_of_call {bot bot' : Rec} {j : Nat} {v : Val} {cls : Option Ty} {kw : DumpKw} (hs : DefaultSers E kw.fork)
    (h : ∀ g, (cls.getD (.cls v.cls)).serFn E.info = some g →
      (recOn E bot' j).call g v cls kw = (recOn E bot j).call g v cls kw) :
    (recOn E bot' (j + 1)).dump v cls kw = (recOn E bot (j + 1)).dump v cls kw := by
  show dumpWith E (recOn E bot' j) v cls kw = dumpWith E (recOn E bot j) v cls kw
  unfold dumpWith
  dsimp only
  rw [hs, liftK_of_ok, pure_bind', pure_bind']
  cases hg : (cls.getD (.cls v.cls)).serFn E.info with
  | none => rfl
  | some g => dsimp only; rw [h g hg]

theorem serFn_desFn {info : Nat → ClassInfo} {t : Ty} (h : t.serFn info = some .union) :
    t.desFn info = some .union := by
  have hcls : ∀ c : Cls, c.serFn info ≠ .union := by
    intro c h
    cases c with
    | user c =>
      simp only [Cls.serFn] at h
      split at h <;> cases h
    | _ => cases h
  cases t with
  | cls c => exact absurd (Option.some.inj h) (hcls c)
  | gen g args => exact absurd (Option.some.inj h) (hcls _)
  | newtype n t =>
    cases t with
    | cls c => exact absurd (Option.some.inj h) (hcls c)
    | gen g args => exact absurd (Option.some.inj h) (hcls _)
    | union _ => rfl
    | special _ => rfl
    | _ => cases h
  | union _ => rfl
  | special _ => rfl
  | any => cases h

/-- What is dumped by another serializer than that of unions. -/
theorem plain_level (B : Bounded E f D rank S R) {w n : Nat} (hb : StableBelow E f D rank S R w n) {v : Val}
    {cls : Option Ty} {kw : DumpKw} (hv : Low rank S R v) (hc : ClsFine E D cls) (hk : KwFine E f D S kw)
    (hw : weight D rank v cls ≤ w) (hn : (cls.getD (.cls v.cls)).serFn E.info ≠ some .union) :
    StableAt E (n + 2) v cls kw := by
  have call : ∀ m, n + 1 ≤ m → ∀ bot bot' g, (cls.getD (.cls v.cls)).serFn E.info = some g →
      (recOn E bot' m).call g v cls kw = (recOn E bot m).call g v cls kw := by
    intro m hm bot bot' g hg
    obtain ⟨j, rfl⟩ : ∃ j, m = j + 1 := ⟨m - 1, by omega⟩
    refine callSer_eq B hv hc hk hg ?_ ?_
    · intro x o kw' hx ho hk' hlt
      exact hb x o kw' hx ho hk' (by omega) j (by omega) bot bot'
    · rintro rfl
      exact absurd hg hn
  intro m hm bot bot'
  obtain ⟨j, rfl⟩ : ∃ j, m = j + 1 := ⟨m - 1, by omega⟩
  exact ⟨dump_of_call (hk.fork ▸ B.sers) (call j (by omega) bot bot'), call (j + 1) (by omega) bot bot'⟩

theorem weight_member {v : Val} {t : Ty} {ts : List Ty} (h : t ∈ ts) :
    weight D rank v (some t) ≤ weight D rank v (some (.union ts)) := by
  have : nest t ≤ nest (.union ts) := by
    have h1 : nest t ≤ tyDepths (fun _ => 0) ts := tyDepths_mem h
    simp only [nest, tyDepth] at h1 ⊢
    omega
  cases v with
  | atom a =>
    cases a with
    | timezone us n => show 2 * nest t + 1 ≤ 2 * nest (.union ts) + 1; omega
    | _ => show 2 * nest t ≤ 2 * nest (.union ts); omega
  | _ => exact le_refl _

theorem level (B : Bounded E f D rank S R) {w n : Nat} (hb : StableBelow E f D rank S R w n) {v : Val}
    {cls : Option Ty} {kw : DumpKw} (hv : Low rank S R v) (hc : ClsFine E D cls) (hk : KwFine E f D S kw)
    (hw : weight D rank v cls ≤ w) : StableAt E (n + 4) v cls kw := by
  have call : ∀ m, n + 3 ≤ m → ∀ bot bot' g, (cls.getD (.cls v.cls)).serFn E.info = some g →
      (recOn E bot' m).call g v cls kw = (recOn E bot m).call g v cls kw := by
    intro m hm bot bot' g hg
    obtain ⟨j, rfl⟩ : ∃ j, m = j + 1 := ⟨m - 1, by omega⟩
    refine callSer_eq B hv hc hk hg ?_ ?_
    · intro x o kw' hx ho hk' hlt
      exact hb x o kw' hx ho hk' (by omega) j (by omega) bot bot'
    · rintro rfl ts rfl t ht
      have hm := weight_member (D := D) (rank := rank) (v := v) ht
      have htf := (args_fine (hc _ rfl) (show t ∈ Ty.getArgs (.union ts) from ht)).1
      refine (plain_level B hb hv (clsFine_some htf) hk (by omega) ?_ j (by omega) bot bot').1
      intro hser
      cases (hc _ rfl).flat with
      | union _ _ hflat => exact hflat t ht (serFn_desFn hser)
  intro m hm bot bot'
  obtain ⟨j, rfl⟩ : ∃ j, m = j + 1 := ⟨m - 1, by omega⟩
  exact ⟨dump_of_call (hk.fork ▸ B.sers) (call j (by omega) bot bot'), call (j + 1) (by omega) bot bot'⟩

theorem stable (B : Bounded E f D rank S R) (w : Nat) : StableBelow E f D rank S R w (4 * w) := by
  induction w with
  | zero => intro v cls kw _ _ _ h; omega
  | succ w ih =>
    intro v cls kw hv hc hk hw m hm
    exact level B ih hv hc hk (Nat.lt_succ_iff.1 hw) m (by omega)

end

/-- C88 for `dump`: if the stack has room for four calls for every rank below that of the object
and for every level of nesting of the types (twice), then no further call is made: it does not
matter what a further call (`bot`) would return, raise or warn of. -/
theorem dump_stack_partial (E : Env) (f D : Nat) (rank : Val → Nat) (S : Bool) (R : Nat)
    (B : Bounded E f D rank S R) (v : Val) (cls : Option Ty) (kw : DumpKw)
    (hcls : ∀ t, cls = some t → TyFine E D t) (hk : KwFine E f D S kw) (hv : S = true → rank v ≤ R)
    (n : Nat) (hn : 4 * (rank v + 2 * D + 3) ≤ n) (bot bot' : Rec) :
    (recOn E bot' n).dump v cls kw = (recOn E bot n).dump v cls kw :=
  (stable B (rank v + 2 * D + 3) v cls kw (fun h => .inr (hv h)) hcls hk
    (Nat.lt_succ_of_le (weight_le B.two hcls)) n hn bot bot').1

/-- Therefore, the outcome of such a call does not depend on the size of the stack. -/
theorem dump_stack_size_partial (E : Env) (f D : Nat) (rank : Val → Nat) (S : Bool) (R : Nat)
    (B : Bounded E f D rank S R) (v : Val) (cls : Option Ty) (kw : DumpKw)
    (hcls : ∀ t, cls = some t → TyFine E D t) (hk : KwFine E f D S kw) (hv : S = true → rank v ≤ R)
    (n m : Nat) (hn : 4 * (rank v + 2 * D + 3) ≤ n) (hm : n ≤ m) :
    dump E m v cls kw = dump E n v cls kw := by
  obtain ⟨k, rfl⟩ := Nat.exists_eq_add_of_le hm
  have h : ∀ n, recOf E (n + k) = recOn E (recOf E k) n := by
    intro n
    induction n with
    | zero => rw [Nat.zero_add]; rfl
    | succ n ih =>
      rw [Nat.succ_add]
      show Rec.mk (dumpWith E (recOf E (n + k))) (callSer E (recOf E (n + k))) =
        Rec.mk (dumpWith E (recOn E (recOf E k) n)) (callSer E (recOn E (recOf E k) n))
      rw [ih]
  show (recOf E (n + k)).dump v cls kw = (recOf E n).dump v cls kw
  rw [h n, recOf_eq n]
  exact dump_stack_partial E f D rank S R B v cls kw hcls hk hv n hn _ _

/-- The surroundings of the examples, but with properties that give 1. -/
def calmEnv : Env := { demoEnv demoInfo with prop := fun _ _ _ => .ok (.int 1) }

theorem calm_vars (c : Nat) : ∀ p ∈ (demoInfo c).members, p.2 = .prop := by
  match c with
  | 0 | 1 | 2 | 3 | 4 | 5 => decide
  | n + 6 => intro p hp; cases hp

theorem calm_hints (c : Nat) : (∀ p ∈ (demoInfo c).hints, p.2 = .cls .int) ∧
    ∀ p ∈ (demoInfo c).initHints, p.2 = .cls .int := by
  match c with
  | 0 | 1 | 2 | 3 | 4 | 5 => decide
  | n + 6 => exact ⟨fun p hp => (by cases hp), fun p hp => (by cases hp)⟩

theorem calm_bounded (f R : Nat) : Bounded calmEnv f 2 depth true R where
  two := le_refl _
  sers := demo_sers f
  hints := fun c p hp => by
    rw [(calm_hints c).1 p hp]; exact fine_cls (le_refl _) _
  initHints := fun c p hp => by
    rw [(calm_hints c).2 p hp]; exact fine_cls (le_refl _) _
  parts := fun v _ x hx => ⟨fun a ha => (by subst ha; cases hx), .inr (depth_child hx)⟩
  attrs := by
    intro c as name w h
    refine ⟨fun _ h => (by cases h), ?_⟩
    unfold Env.getAttr at h
    dsimp only at h
    split at h
    · cases h; exact .inl ⟨_, rfl⟩
    · split at h
      · next a ha =>
        cases h
        exact .inr (depth_child (List.mem_map_of_mem (f := (·.2)) (assoc_mem ha)))
      · split at h
        · next a ha =>
          have := calm_vars c _ (assoc_mem ha)
          cases this
        · cases h
  foreign := fun v cls kw l h p hp => by cases h; cases hp
  others := by
    intro v hv c p hp w h
    cases v with
    | obj c as => exact absurd rfl (hv c as)
    | _ => cases h
  types := by
    intro _ x _
    cases x <;> exact fine_cls (le_refl _) _

/-- `dump([Node(), {'a': (1, 'bc')}], strict=True)`; three levels, and types of two levels. -/
example : Bounded calmEnv 0 2 depth true 3 ∧ KwFine calmEnv 0 2 true { strict := true } ∧
    depth (.list [.obj 4 [], .dict [(.str "a".toList, .tuple [.int 1, .str "bc".toList])]]) = 3 ∧
    (dump calmEnv 40 (.list [.obj 4 [], .dict [(.str "a".toList, .tuple [.int 1, .str "bc".toList])]]) none {}).val =
      .ok (.list [.dict [(.str "me".toList, .int 1)],
        .dict [(.str "a".toList, .list [.int 1, .str "bc".toList])]]) :=
  ⟨calm_bounded 0 3, ⟨rfl, fun _ h => (by cases h), fun _ => rfl⟩, by rfl, by rfl⟩

/-- The size of the stack does matter if it is small, and not only because `dump` fails:
`dump(Person(name=[1], born=2))` is `{'born': 2, 'name': [1]}`, but `{'born': 2}` (with a
warning) if the stack is exhausted while the name is dumped. -/
theorem dump_stack_matters :
    ∃ (v r r' : Val), r ≠ r' ∧ (dump (demoEnv demoInfo) 4 v none {}).val = .ok r ∧
      ∀ n, 4 < n → (dump (demoEnv demoInfo) n v none {}).val = .ok r' := by
  refine ⟨.obj 5 [("name".toList, .list [.int 1]), ("born".toList, .int 2)],
    .dict [(.str "born".toList, .int 2)],
    .dict [(.str "born".toList, .int 2), (.str "name".toList, .list [.int 1])], (by intro h; cases h), by rfl, ?_⟩
  intro n hn
  obtain ⟨k, rfl⟩ : ∃ k, n = k + 5 := ⟨n - 5, by omega⟩
  rfl

/-- The negation of C88 for objects with a property that gives the object itself: `dump(Node())`
calls itself with the same object, however big the stack is. -/
theorem dump_endless : ∃ v : Val, ∀ n, ∃ bot bot' : Rec,
    (recOn (demoEnv demoInfo) bot' n).dump v none {} ≠ (recOn (demoEnv demoInfo) bot n).dump v none {} := by
  let bot (i : Int) : Rec := ⟨fun _ _ _ => pure (.int i), fun _ _ _ _ => pure (.int i)⟩
  refine ⟨.obj 4 [], fun n => ⟨bot 1, bot 2, ?_⟩⟩
  have one : ∀ (rec : Rec) (kw : DumpKw) (y : Val), kw = {} ∨ kw = { stripAttr := .tuple [] } →
      (rec.call .object (.obj 4 []) none { stripAttr := .tuple [] }).val = .ok y →
      (objectSer (demoEnv demoInfo) rec (.obj 4 []) none kw).val = .ok (.dict [(.str "me".toList, y)]) := by
    intro rec kw y hk hy
    cases hr : rec.call .object (.obj 4 []) none { stripAttr := .tuple [] } with
    | mk log val =>
      rw [hr] at hy
      obtain rfl : val = .ok y := hy
      have h1 : objectSer (demoEnv demoInfo) rec (.obj 4 []) none kw =
          objectSerWith (demoEnv demoInfo) rec (.obj 4 []) {} (.tuple []) (.cls (.user 4)) (demoInfo 4)
            (.ok [("me".toList, none)]) := by
        rcases hk with rfl | rfl <;> rfl
      rw [h1]
      unfold objectSerWith
      have hs : (demoEnv demoInfo).getSer 0 (.cls (.user 4)) = .ok (some .object) := demo_sers 0 _
      have hg : (demoEnv demoInfo).getAttr (.obj 4 []) "me".toList = .ok (.obj 4 []) := rfl
      rw [show Res.lift (Except.ok [("me".toList, (none : Option Ty))] : Except Err _) = pure [("me".toList, none)] from rfl,
        pure_bind']
      simp only [attrLoop, dumpAttr]
      rw [hg, show Res.lift (Except.ok (Val.obj 4 []) : Except Err _) = pure (Val.obj 4 []) from rfl, pure_bind']
      simp only [Option.getD_none, Val.cls]
      rw [hs, liftK_of_ok, pure_bind']
      dsimp only
      rw [show ({ stripAttr := .tuple [], storeCls := ({} : DumpKw).verbose.classInfo } : DumpKw) = { stripAttr := .tuple [] } from rfl, hr]
      cases y <;> rfl
  have inj : ∀ n, ∀ kw : DumpKw, kw = {} ∨ kw = { stripAttr := .tuple [] } → ∃ y y', y ≠ y' ∧
      ((recOn (demoEnv demoInfo) (bot 1) n).call .object (.obj 4 []) none kw).val = .ok y ∧
      ((recOn (demoEnv demoInfo) (bot 2) n).call .object (.obj 4 []) none kw).val = .ok y' := by
    intro n
    induction n with
    | zero => intro kw _; exact ⟨.int 1, .int 2, (by decide), rfl, rfl⟩
    | succ n ih =>
      intro kw hk
      obtain ⟨y, y', hne, h1, h2⟩ := ih _ (.inr rfl)
      refine ⟨_, _, ?_, one _ kw y hk h1, one _ kw y' hk h2⟩
      intro h
      apply hne
      simpa using h
  cases n with
  | zero =>
    intro h
    have := congrArg Res.val h
    cases this
  | succ n =>
    obtain ⟨y, y', hne, h1, h2⟩ := inj n {} (.inl rfl)
    have top : ∀ i y, ((recOn (demoEnv demoInfo) (bot i) n).call .object (.obj 4 []) none {}).val = .ok y →
        ((recOn (demoEnv demoInfo) (bot i) (n + 1)).dump (.obj 4 []) none {}).val = .ok y := by
      intro i y hy
      show (dumpWith (demoEnv demoInfo) (recOn (demoEnv demoInfo) (bot i) n) (.obj 4 []) none {}).val = .ok y
      unfold dumpWith
      have hs : (demoEnv demoInfo).getSer 0 (.cls (.user 4)) = .ok (some .object) := demo_sers 0 _
      dsimp only [Option.getD_none, Val.cls]
      rw [hs, liftK_of_ok, pure_bind']
      cases hr : (recOn (demoEnv demoInfo) (bot i) n).call .object (.obj 4 []) none {} with
      | mk log val =>
        rw [hr] at hy
        obtain rfl : val = .ok y := hy
        dsimp only
        rw [hr]
        rfl
    intro h
    have := congrArg Res.val h
    rw [top 1 y h1, top 2 y' h2] at this
    exact hne (Except.ok.inj this).symm

end Verif.Props.DumpDepth
