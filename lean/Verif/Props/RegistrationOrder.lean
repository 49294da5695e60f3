import Verif.Props.Registrations
import Mathlib.Data.List.Perm.Basic

/-! # The order of registrations (C100) -/

set_option autoImplicit false

namespace Verif.Props.RegistrationOrder

open Verif Verif.Core
open Verif.Props.Registrations

/-- A call `set_serializer(f, cls, high_prio)` or `set_deserializer(f, cls, high_prio)`; `none` for
`None`. -/
structure Reg (F : Type) where
  f : F
  cls : Option Ty
  hp : Bool

section
variable {F : Type} (W : Verif.Registry.World Ty)

/-- The calls, one after the other. -/
def perform (rs : List (Reg F)) (tab : Verif.Registry.Table F Ty) : Verif.Registry.Table F Ty :=
  rs.foldl (fun tab r => Verif.Registry.setLizer1 W r.f r.hp tab r.cls) tab

/-- Two calls for the same name have the same function. -/
def Consistent (rs : List (Reg F)) : Prop :=
  ∀ r ∈ rs, ∀ r' ∈ rs, nameOf W r.cls = nameOf W r'.cls → r.f = r'.f

/-- There is no doubt which of the calls is meant for `u`: a function is registered for `u` itself, or
all calls of one priority for superclasses of `u` have the same function.  Calls of low priority do not
matter if there already was a function for a superclass of `u`. -/
def Clear (tab : Verif.Registry.Table F Ty) (rs : List (Reg F)) (u : Ty) : Prop :=
  tab.lizers (W.regName u) ≠ none ∨ (∃ r ∈ rs, nameOf W r.cls = W.regName u) ∨
  ∀ r ∈ rs, ∀ r' ∈ rs, ∀ c c', r.cls = some c → r'.cls = some c' → W.sub u c = some true →
    W.sub u c' = some true → r.hp = r'.hp → (r.hp = false → ∀ p ∈ tab.classes, W.sub u p ≠ some true) → r.f = r'.f

/-! ## What the calls make of a registry -/

theorem perform_lizers (rs : List (Reg F)) : ∀ tab : Verif.Registry.Table F Ty,
    (perform W rs tab).lizers = rs.foldl (fun d r => Verif.Registry.update d (nameOf W r.cls) r.f) tab.lizers := by
  induction rs with
  | nil => exact fun _ => rfl
  | cons r rs ih =>
    intro tab
    refine (ih _).trans ?_
    rw [List.foldl_cons]
    congr 1
    obtain ⟨f, c, hp⟩ := r
    cases c <;> rfl

/-- The classes of the calls of one priority. -/
def ofPrio (rs : List (Reg F)) (hp : Bool) : List Ty := (rs.filter (·.hp == hp)).filterMap (·.cls)

theorem perform_classes (rs : List (Reg F)) : ∀ tab : Verif.Registry.Table F Ty,
    (perform W rs tab).classes = (ofPrio rs true).reverse ++ tab.classes ++ ofPrio rs false := by
  induction rs with
  | nil => intro tab; simp [perform, ofPrio]
  | cons r rs ih =>
    intro tab
    refine (ih _).trans ?_
    obtain ⟨f, c, hp⟩ := r
    cases c <;> cases hp <;> simp [Verif.Registry.setLizer1, ofPrio]

theorem fold_none (rs : List (Reg F)) (n : PyStr) (h : ∀ r ∈ rs, nameOf W r.cls ≠ n) :
    ∀ d : PyStr → Option F, rs.foldl (fun d r => Verif.Registry.update d (nameOf W r.cls) r.f) d n = d n := by
  induction rs with
  | nil => exact fun _ => rfl
  | cons r rs ih =>
    intro d
    rw [List.foldl_cons, ih fun r hr => h r (List.mem_cons_of_mem _ hr)]
    exact if_neg (h r List.mem_cons_self).symm

/-- What is registered for a name is the last function that was given for it. -/
theorem fold_some (rs : List (Reg F)) (n : PyStr) (h : ∃ r ∈ rs, nameOf W r.cls = n) :
    ∃ r ∈ rs, nameOf W r.cls = n ∧
    ∀ d : PyStr → Option F, rs.foldl (fun d r => Verif.Registry.update d (nameOf W r.cls) r.f) d n = some r.f := by
  induction rs with
  | nil => obtain ⟨r, hr, _⟩ := h; cases hr
  | cons r rs ih =>
    by_cases hs : ∃ r ∈ rs, nameOf W r.cls = n
    · obtain ⟨r', hr', hn, he⟩ := ih hs
      exact ⟨r', List.mem_cons_of_mem _ hr', hn, fun d => he _⟩
    · obtain ⟨r', hr', hn⟩ := h
      rcases List.mem_cons.mp hr' with rfl | hr'
      · refine ⟨r', List.mem_cons_self, hn, fun d => ?_⟩
        rw [List.foldl_cons, fold_none W rs n fun r hr hrn => hs ⟨r, hr, hrn⟩]
        exact if_pos hn.symm
      · exact absurd ⟨r', hr', hn⟩ hs

/-- The functions that are registered for names do not depend on the order. -/
theorem lizers_perm {rs rs' : List (Reg F)} (hp : rs.Perm rs') (hc : Consistent W rs) (tab : Verif.Registry.Table F Ty) :
    (perform W rs' tab).lizers = (perform W rs tab).lizers := by
  rw [perform_lizers, perform_lizers]
  refine (hp.foldl_eq' (fun x hx y hy d => ?_) _).symm
  funext n
  show (if n = _ then _ else if n = _ then _ else _) = (if n = _ then _ else if n = _ then _ else _)
  by_cases h1 : n = nameOf W x.cls <;> by_cases h2 : n = nameOf W y.cls
  · rw [if_pos h2, if_pos h1, hc x hx y hy (h1.symm.trans h2)]
  · rw [if_neg h2, if_pos h1, if_pos h1]
  · rw [if_pos h2, if_neg h1, if_pos h2]
  · rw [if_neg h2, if_neg h1, if_neg h1, if_neg h2]

theorem mem_ofPrio {rs : List (Reg F)} {hp : Bool} {c : Ty} (h : c ∈ ofPrio rs hp) :
    ∃ r ∈ rs, r.cls = some c ∧ r.hp = hp := by
  obtain ⟨r, hr, hc⟩ := List.mem_filterMap.mp h
  obtain ⟨hr, hp⟩ := List.mem_filter.mp hr
  exact ⟨r, hr, hc, eq_of_beq hp⟩

/-- What is found by way of the first superclass in a list. -/
def found (l : PyStr → Option F) : List Ty → Except ErrKind (Option F)
  | [] => .ok none
  | p :: _ => match l (W.lookupName p) with
    | some f => .ok (some f)
    | none => .error .keyError

theorem byParents_eq (tab : Verif.Registry.Table F Ty) (u : Ty) :
    Verif.Registry.getLizerByParents W tab u = found W tab.lizers (tab.classes.filter fun p => W.sub u p == some true) := by
  unfold Verif.Registry.getLizerByParents Verif.Registry.getParents
  cases tab.classes.filter fun p => W.sub u p == some true <;> rfl

/-- Lists of which all members have one function can be exchanged. -/
theorem found_append (l : PyStr → Option F) {xs ys : List Ty} (hp : xs.Perm ys) (g : F)
    (h : ∀ p ∈ xs, l (W.lookupName p) = some g) (rest rest' : List Ty) (hr : found W l rest = found W l rest') :
    found W l (xs ++ rest) = found W l (ys ++ rest') := by
  cases xs with
  | nil => rw [← hp.nil_eq]; exact hr
  | cons x xs =>
    cases ys with
    | nil => exact absurd hp.length_eq (by simp)
    | cons y ys =>
      have h1 := h x List.mem_cons_self
      have h2 := h y (hp.mem_iff.mpr List.mem_cons_self)
      simp only [List.cons_append, found, h1, h2]

theorem perm_ofPrio {rs rs' : List (Reg F)} (hp : rs.Perm rs') (b : Bool) : (ofPrio rs b).Perm (ofPrio rs' b) :=
  (hp.filter _).filterMap _

/-- The superclasses among the classes of one priority. -/
theorem prio_found {rs : List (Reg F)} (hc : Consistent W rs) (tab : Verif.Registry.Table F Ty) (u : Ty)
    (b : Bool) (h : ∀ r ∈ rs, ∀ r' ∈ rs, ∀ c c', r.cls = some c → r'.cls = some c' → W.sub u c = some true →
      W.sub u c' = some true → r.hp = b → r'.hp = b → r.f = r'.f) :
    (ofPrio rs b).filter (fun p => W.sub u p == some true) = [] ∨
    ∃ g, ∀ p ∈ (ofPrio rs b).filter (fun p => W.sub u p == some true),
      (perform W rs tab).lizers (W.lookupName p) = some g := by
  have key : ∀ p ∈ (ofPrio rs b).filter (fun p => W.sub u p == some true),
      ∃ r ∈ rs, r.cls = some p ∧ r.hp = b ∧ W.sub u p = some true := by
    intro p hp
    obtain ⟨hp, hs⟩ := List.mem_filter.mp hp
    obtain ⟨r, hr, hc, hb⟩ := mem_ofPrio hp
    exact ⟨r, hr, hc, hb, eq_of_beq hs⟩
  cases hl : (ofPrio rs b).filter (fun p => W.sub u p == some true) with
  | nil => exact .inl rfl
  | cons q qs =>
    refine .inr ?_
    rw [← hl]
    obtain ⟨r, hr, hrc, hrb, hrs⟩ := key q (by rw [hl]; exact List.mem_cons_self)
    refine ⟨r.f, fun p hp => ?_⟩
    obtain ⟨r', hr', hrc', hrb', hrs'⟩ := key p hp
    obtain ⟨r'', hr'', hn, he⟩ := fold_some W rs (W.lookupName p)
      ⟨r', hr', by rw [hrc', Verif.Registry.lookupName_eq]; rfl⟩
    rw [perform_lizers, he, hc r'' hr'' r' hr' (by rw [hn, hrc', Verif.Registry.lookupName_eq]; rfl),
      h r' hr' r hr p q hrc' hrc hrs' hrs hrb' hrb]

theorem rec_perm {rs rs' : List (Reg F)} (hp : rs.Perm rs') (hc : Consistent W rs) (tab : Verif.Registry.Table F Ty)
    (u : Ty) (h : Clear W tab rs u) :
    Verif.Registry.getLizerRec W (perform W rs' tab) u = Verif.Registry.getLizerRec W (perform W rs tab) u := by
  have hl := lizers_perm W hp hc tab
  unfold Verif.Registry.getLizerRec
  rw [hl]
  have own : (perform W rs tab).lizers (W.lookupName u) ≠ none ∨
      ∀ r ∈ rs, ∀ r' ∈ rs, ∀ c c', r.cls = some c → r'.cls = some c' → W.sub u c = some true →
        W.sub u c' = some true → r.hp = r'.hp →
        (r.hp = false → ∀ p ∈ tab.classes, W.sub u p ≠ some true) → r.f = r'.f := by
    rw [Verif.Registry.lookupName_eq]
    by_cases hs : ∃ r ∈ rs, nameOf W r.cls = W.regName u
    · obtain ⟨r, hr, hn, he⟩ := fold_some W rs _ hs
      exact .inl (by rw [perform_lizers, he]; exact Option.some_ne_none _)
    · rcases h with h | h | h
      · refine .inl ?_
        rwa [perform_lizers, fold_none W rs _ fun r hr hn => hs ⟨r, hr, hn⟩]
      · exact absurd h hs
      · exact .inr h
  cases hx : (perform W rs tab).lizers (W.lookupName u) with
  | some f => rfl
  | none =>
    rcases own with own | own
    · exact absurd hx own
    show Verif.Registry.getLizerByParents W (perform W rs' tab) u = Verif.Registry.getLizerByParents W (perform W rs tab) u
    rw [byParents_eq, byParents_eq, hl, perform_classes, perform_classes, List.filter_append, List.filter_append,
      List.filter_append, List.filter_append, List.append_assoc, List.append_assoc]
    have low : (∀ p ∈ tab.classes, W.sub u p ≠ some true) →
        found W (perform W rs tab).lizers ((ofPrio rs' false).filter fun p => W.sub u p == some true) =
        found W (perform W rs tab).lizers ((ofPrio rs false).filter fun p => W.sub u p == some true) := by
      intro hno
      have hpf := (perm_ofPrio hp false).filter fun p => W.sub u p == some true
      rcases prio_found W hc tab u false fun r hr r' hr' c c' h1 h2 h3 h4 h5 h6 =>
        own r hr r' hr' c c' h1 h2 h3 h4 (h5.trans h6.symm) fun _ => hno with h0 | ⟨g, hg⟩
      · rw [h0] at hpf
        rw [h0, ← hpf.nil_eq]
      · have := found_append W _ hpf g hg [] [] rfl
        rw [List.append_nil, List.append_nil] at this
        exact this.symm
    have mid : found W (perform W rs tab).lizers ((tab.classes.filter fun p => W.sub u p == some true) ++
          ((ofPrio rs' false).filter fun p => W.sub u p == some true)) =
        found W (perform W rs tab).lizers ((tab.classes.filter fun p => W.sub u p == some true) ++
          ((ofPrio rs false).filter fun p => W.sub u p == some true)) := by
      cases hm : tab.classes.filter fun p => W.sub u p == some true with
      | nil =>
        refine low fun p hp h => ?_
        have := List.filter_eq_nil_iff.mp hm p hp
        rw [h] at this
        exact this rfl
      | cons p l => rfl
    have hpt := ((List.reverse_perm (ofPrio rs true)).trans
      ((perm_ofPrio hp true).trans (List.reverse_perm (ofPrio rs' true)).symm)).filter fun p => W.sub u p == some true
    rcases prio_found W hc tab u true fun r hr r' hr' c c' h1 h2 h3 h4 h5 h6 =>
        own r hr r' hr' c c' h1 h2 h3 h4 (h5.trans h6.symm) fun h => absurd (h5.symm.trans h) (by decide) with h0 | ⟨g, hg⟩
    · have h1 : (ofPrio rs true).reverse.filter (fun p => W.sub u p == some true) = [] := by
        rw [List.filter_reverse, h0]; rfl
      rw [h1] at hpt
      rw [h1, ← hpt.nil_eq]
      exact mid
    · refine (found_append W _ hpt g (fun p hp => hg p ?_) _ _ mid.symm).symm
      rw [List.filter_reverse] at hp
      exact List.mem_reverse.mp hp

/-- C100 for one class: whatever the order of the calls, the same function is found for a class `t`
for which it is clear which call is meant, and so is what `t` is a `NewType` of. -/
theorem lookup_order {rs rs' : List (Reg F)} (hp : rs.Perm rs') (hc : Consistent W rs)
    (tab : Verif.Registry.Table F Ty) (t : Ty) (h : ∀ u, (u = t ∨ W.supertype t = some u) → Clear W tab rs u) :
    Verif.Registry.getLizer W (perform W rs' tab) t = Verif.Registry.getLizer W (perform W rs tab) t := by
  unfold Verif.Registry.getLizer
  rw [rec_perm W hp hc tab t (h t (.inl rfl))]
  cases hs : W.supertype t with
  | none => rfl
  | some u => simp only [rec_perm W hp hc tab u (h u (.inr hs))]

/-! ## Doing it again -/

theorem lizers_again (rs : List (Reg F)) (tab : Verif.Registry.Table F Ty) :
    (perform W rs (perform W rs tab)).lizers = (perform W rs tab).lizers := by
  rw [perform_lizers]
  funext n
  by_cases hs : ∃ r ∈ rs, nameOf W r.cls = n
  · obtain ⟨r, _, _, he⟩ := fold_some W rs n hs
    rw [he, perform_lizers, he]
  · rw [fold_none W rs n fun r hr hn => hs ⟨r, hr, hn⟩]

/-- C100: doing the same calls again changes nothing, for any class. -/
theorem lookup_again (rs : List (Reg F)) (tab : Verif.Registry.Table F Ty) (t : Ty) :
    Verif.Registry.getLizer W (perform W rs (perform W rs tab)) t = Verif.Registry.getLizer W (perform W rs tab) t := by
  have hrec : ∀ u, Verif.Registry.getLizerRec W (perform W rs (perform W rs tab)) u =
      Verif.Registry.getLizerRec W (perform W rs tab) u := by
    intro u
    unfold Verif.Registry.getLizerRec
    rw [lizers_again]
    cases (perform W rs tab).lizers (W.lookupName u) with
    | some f => rfl
    | none =>
      show Verif.Registry.getLizerByParents W (perform W rs (perform W rs tab)) u =
        Verif.Registry.getLizerByParents W (perform W rs tab) u
      rw [byParents_eq, byParents_eq, lizers_again, perform_classes W rs (perform W rs tab), perform_classes]
      simp only [List.filter_append]
      generalize (ofPrio rs true).reverse.filter _ = a
      generalize tab.classes.filter _ = b
      generalize (ofPrio rs false).filter _ = c
      cases a with
      | cons p a => rfl
      | nil =>
        cases b with
        | cons p b => rfl
        | nil =>
          cases c with
          | cons p c => rfl
          | nil => rfl
  unfold Verif.Registry.getLizer
  rw [hrec t]
  cases W.supertype t with
  | none => rfl
  | some u => simp only [hrec u]

end

/-! ## Dump and load -/

/-- C100 for `dump`: the serializers of a program can be registered in another order if for every type
that occurs in the dump it is clear which serializer is meant. -/
theorem dump_registration_order (E : Env) (s : Nat → Verif.Registry.Table SerFn Ty)
    (tab : Verif.Registry.Table SerFn Ty) (rs rs' : List (Reg SerFn)) (n : Nat) (v : Val) (cls : Option Ty) (kw : DumpKw)
    (he : E.sers kw.fork = perform (tyWorld E.info) rs tab) (hs : s kw.fork = perform (tyWorld E.info) rs' tab)
    (hp : rs.Perm rs') (hc : Consistent (tyWorld E.info) rs)
    (hcu : SersStay E kw.fork kw.strict (Given v cls kw))
    (hocc : ∀ t, Occurs E kw.strict (Given v cls kw) (.ty t) →
      ∀ u, (u = t ∨ t.supertype = some u) → Clear (tyWorld E.info) tab rs u) :
    dump { E with sers := s } n v cls kw = dump E n v cls kw := by
  refine (recOf_agree (s := s) (S := Given v cls kw) ?_ hcu n).dump v cls kw
    ⟨rfl, rfl, fun p hp => .given _ (.inr ⟨p, hp, rfl⟩)⟩ (.given _ rfl) fun t ht => .given _ (.inl ht)
  intro t ht
  show Verif.Registry.getLizer (tyWorld E.info) (s kw.fork) t = Verif.Registry.getLizer (tyWorld E.info) (E.sers kw.fork) t
  rw [hs, he]
  exact lookup_order _ hp hc tab t (hocc t ht)

/-- C100 for `dump`: registering serializers again as before does not matter. -/
theorem dump_registered_again (E : Env) (s : Nat → Verif.Registry.Table SerFn Ty)
    (tab : Verif.Registry.Table SerFn Ty) (rs : List (Reg SerFn)) (n : Nat) (v : Val) (cls : Option Ty) (kw : DumpKw)
    (he : E.sers kw.fork = perform (tyWorld E.info) rs tab) (hs : s kw.fork = perform (tyWorld E.info) rs (E.sers kw.fork))
    (hcu : SersStay E kw.fork kw.strict (Given v cls kw)) :
    dump { E with sers := s } n v cls kw = dump E n v cls kw := by
  refine (recOf_agree (s := s) (S := Given v cls kw) ?_ hcu n).dump v cls kw
    ⟨rfl, rfl, fun p hp => .given _ (.inr ⟨p, hp, rfl⟩)⟩ (.given _ rfl) fun t ht => .given _ (.inl ht)
  intro t _
  show Verif.Registry.getLizer (tyWorld E.info) (s kw.fork) t = Verif.Registry.getLizer (tyWorld E.info) (E.sers kw.fork) t
  rw [hs, he]
  exact lookup_again _ rs tab t

theorem load_same (E : LEnv) (d : Nat → Verif.Registry.Table DesFn Ty) (n : Nat) (v : Val) (cls : Option Ty) (kw : LoadKw)
    (hcu : DesersStay E kw.fork (kw.keyTransformer.getD .ok) (LGiven E v cls kw))
    (h : ∀ i, i = kw.fork ∨ i = 0 → ∀ t, LOccurs E kw.fork (kw.keyTransformer.getD .ok) (LGiven E v cls kw) (.ty t) →
      Verif.Registry.getLizer (tyWorld E.info) (d i) t = Verif.Registry.getLizer (tyWorld E.info) (E.desers i) t) :
    load { E with desers := d } n v cls kw = load E n v cls kw := by
  refine loadRec_agree (d := d) (l := E.vals) (f := kw.fork) (kt := kw.keyTransformer.getD .ok)
    (S := LGiven E v cls kw) ⟨h, fun _ _ _ _ => rfl⟩ hcu n v cls kw ⟨.inl rfl, ?_, ?_⟩ (.given _ rfl)
    fun t ht => .given _ (.inl ht)
  · cases kw.keyTransformer with
    | none => exact .inl rfl
    | some f => exact .inr (.inr rfl)
  · intro hs hhs e hm s he i hi t ht
    exact .given _ (.inr ⟨hs, hhs, e.1, s, i, by rw [← he]; exact hm, hi, ht⟩)

/-- C100 for `load`: the deserializers of a program can be registered in another order (in the fork
that is used, in the module itself, or in both) if for every type that occurs in the load it is clear
which deserializer is meant. -/
theorem load_registration_order (E : LEnv) (d : Nat → Verif.Registry.Table DesFn Ty)
    (tab : Nat → Verif.Registry.Table DesFn Ty) (rs rs' : Nat → List (Reg DesFn)) (n : Nat) (v : Val) (cls : Option Ty)
    (kw : LoadKw) (he : ∀ i, E.desers i = perform (tyWorld E.info) (rs i) (tab i))
    (hd : ∀ i, d i = perform (tyWorld E.info) (rs' i) (tab i))
    (hp : ∀ i, (rs i).Perm (rs' i)) (hc : ∀ i, Consistent (tyWorld E.info) (rs i))
    (hcu : DesersStay E kw.fork (kw.keyTransformer.getD .ok) (LGiven E v cls kw))
    (hocc : ∀ t, LOccurs E kw.fork (kw.keyTransformer.getD .ok) (LGiven E v cls kw) (.ty t) →
      ∀ i, i = kw.fork ∨ i = 0 → ∀ u, (u = t ∨ t.supertype = some u) → Clear (tyWorld E.info) (tab i) (rs i) u) :
    load { E with desers := d } n v cls kw = load E n v cls kw := by
  refine load_same E d n v cls kw hcu fun i hi t ht => ?_
  rw [hd, he]
  exact lookup_order _ (hp i) (hc i) _ t (hocc t ht i hi)

/-- C100 for `load`: registering deserializers again as before does not matter. -/
theorem load_registered_again (E : LEnv) (d : Nat → Verif.Registry.Table DesFn Ty)
    (tab : Nat → Verif.Registry.Table DesFn Ty) (rs : Nat → List (Reg DesFn)) (n : Nat) (v : Val) (cls : Option Ty)
    (kw : LoadKw) (he : ∀ i, E.desers i = perform (tyWorld E.info) (rs i) (tab i))
    (hd : ∀ i, d i = perform (tyWorld E.info) (rs i) (E.desers i))
    (hcu : DesersStay E kw.fork (kw.keyTransformer.getD .ok) (LGiven E v cls kw)) :
    load { E with desers := d } n v cls kw = load E n v cls kw := by
  refine load_same E d n v cls kw hcu fun i hi t _ => ?_
  rw [hd, he]
  exact lookup_again _ (rs i) _ t

/-! ## Examples -/

/-- Serializers for `Person` and `Point`. -/
def two : List (Reg SerFn) := [⟨.custom 0, some (.cls (.user 5)), true⟩, ⟨.custom 1, some (.cls (.user 0)), true⟩]

/-- The same in another order. -/
def two' : List (Reg SerFn) := [⟨.custom 1, some (.cls (.user 0)), true⟩, ⟨.custom 0, some (.cls (.user 5)), true⟩]

/-- The surroundings after the two calls. -/
def withTwo (rs : List (Reg SerFn)) : Env :=
  { demoEnv demoInfo with sers := fun _ => perform (tyWorld demoInfo) rs (initialSers demoInfo) }

theorem two_perm : two.Perm two' ∧ Consistent (tyWorld demoInfo) two := by
  refine ⟨.swap _ _ _, ?_⟩
  intro r hr r' hr' h
  simp only [two, List.mem_cons, List.not_mem_nil, or_false] at hr hr'
  rcases hr with rfl | rfl <;> rcases hr' with rfl | rfl
  · rfl
  · exact absurd h (by decide +kernel)
  · exact absurd h (by decide +kernel)
  · rfl

theorem two_clear {t : Ty} (h : t ∈ [Ty.cls .list, .cls (.user 0), .cls .str, .cls .int]) :
    ∀ u, (u = t ∨ t.supertype = some u) → Clear (tyWorld demoInfo) (initialSers demoInfo) two u := by
  intro u hu
  have hut : u = t := by
    rcases hu with rfl | hu
    · rfl
    · simp only [List.mem_cons, List.not_mem_nil, or_false] at h
      rcases h with rfl | rfl | rfl | rfl <;> cases hu
  subst hut
  simp only [List.mem_cons, List.not_mem_nil, or_false] at h
  rcases h with rfl | rfl | rfl | rfl
  · exact .inl (by decide +kernel)
  · exact .inr (.inl ⟨_, List.mem_cons_of_mem _ List.mem_cons_self, rfl⟩)
  · exact .inl (by decide +kernel)
  · exact .inl (by decide +kernel)

/-- What occurs in `points` after the calls is what occurred before. -/
theorem two_occurs (rs : List (Reg SerFn)) {strict : Bool} {S : Thing → Prop} {x : Thing}
    (h : Occurs (withTwo rs) strict S x) : Occurs (demoEnv demoInfo) strict S x := by
  induction h with
  | given x h => exact .given x h
  | elem v x xs _ h1 h2 ih => exact .elem v x xs ih h1 h2
  | value es e _ h ih => exact .value es e ih h
  | dvalue t es e _ h ih => exact .dvalue t es e ih h
  | attr v a n _ h ih => exact .attr v a n ih h
  | offset us n _ ih => exact .offset us n ih
  | cls v _ ih => exact .cls v ih
  | type v h _ ih => exact .type v h ih
  | arg t a _ h ih => exact .arg t a ih h
  | ell _ ih => exact .ell ih
  | hint c h _ hm ih => exact .hint c h ih hm
  | init c h hs _ hm ih => exact .init c h hs ih hm
  | foreign v cls kw as n t hs _ hf hm ih => exact .foreign v cls kw as n t hs ih hf hm

/-- For `[Point(1, 2), 'a']` the order of the two calls does not matter. -/
example : dump (withTwo two') 9 points none {} = dump (withTwo two) 9 points none {} :=
  dump_registration_order (withTwo two) _ (initialSers demoInfo) two two' 9 points none {} rfl rfl two_perm.1 two_perm.2
    (fun _ _ _ _ _ _ _ _ _ _ => rfl) fun t ht => two_clear (points_occur _ (two_occurs _ ht))

/-- Doing the two calls again does not matter. -/
example : dump { withTwo two with sers := fun i => perform (tyWorld demoInfo) two ((withTwo two).sers i) } 9 points none {} =
    dump (withTwo two) 9 points none {} :=
  dump_registered_again (withTwo two) _ (initialSers demoInfo) two 9 points none {} rfl rfl
    (fun _ _ _ _ _ _ _ _ _ _ => rfl)

/-- Deserializers for `Person` and for `Color`. -/
def dtwo : List (Reg DesFn) := [⟨.custom 0, some (.cls (.user 5)), true⟩, ⟨.custom 1, some (.cls (.user 2)), true⟩]

/-- The surroundings after the calls. -/
def withDes (rs : List (Reg DesFn)) : LEnv :=
  { demoLEnv demoInfo with desers := fun i => perform (tyWorld demoInfo) rs ((demoLEnv demoInfo).desers i) }

theorem dtwo_perm : dtwo.Perm dtwo.reverse ∧ Consistent (tyWorld demoInfo) dtwo := by
  refine ⟨.swap _ _ _, ?_⟩
  intro r hr r' hr' h
  simp only [dtwo, List.mem_cons, List.not_mem_nil, or_false] at hr hr'
  rcases hr with rfl | rfl <;> rcases hr' with rfl | rfl
  · rfl
  · exact absurd h (by decide +kernel)
  · exact absurd h (by decide +kernel)
  · rfl

/-- No type but subclasses of `Person` and `Color` makes a difference. -/
theorem dtwo_clear (tab : Verif.Registry.Table DesFn Ty) (u : Ty)
    (h : ¬ ((tyWorld demoInfo).sub u (.cls (.user 5)) = some true ∧ (tyWorld demoInfo).sub u (.cls (.user 2)) = some true)) :
    Clear (tyWorld demoInfo) tab dtwo u := by
  refine .inr (.inr ?_)
  intro r hr r' hr' c c' h1 h2 h3 h4 _ _
  simp only [dtwo, List.mem_cons, List.not_mem_nil, or_false] at hr hr'
  rcases hr with rfl | rfl <;> rcases hr' with rfl | rfl <;> cases h1 <;> cases h2
  · rfl
  · exact absurd ⟨h3, h4⟩ h
  · exact absurd ⟨h4, h3⟩ h
  · rfl

/-- No class of the demo is derived from both, so every load can do with either order. -/
example (n : Nat) (v : Val) (cls : Option Ty) (kw : LoadKw) :
    load (withDes dtwo.reverse) n v cls kw = load (withDes dtwo) n v cls kw := by
  refine load_registration_order (withDes dtwo) _ (demoLEnv demoInfo).desers (fun _ => dtwo) (fun _ => dtwo.reverse) n v cls kw
    (fun _ => rfl) (fun _ => rfl) (fun _ => dtwo_perm.1) (fun _ => dtwo_perm.2)
    (fun _ _ _ _ _ _ _ _ _ => ⟨fun _ => rfl, rfl⟩) fun t _ i _ u _ => dtwo_clear _ u ?_
  rintro ⟨h1, h2⟩
  have hk : ∀ c : Cls, c.sub demoInfo (.user 5) = true → c.sub demoInfo (.user 2) = true → False := by
    intro c h1 h2
    cases c with
    | user c =>
      match c with
      | 0 | 1 | 2 | 3 | 4 => exact absurd h1 (by decide)
      | 5 => exact absurd h2 (by decide)
      | c + 6 => simp [Cls.sub, demoInfo] at h1
    | _ => exact absurd h1 (by decide)
  simp only [tyWorld, Ty.sub] at h1 h2
  cases hu : u.naked? with
  | none => rw [hu] at h1; cases h1
  | some c =>
    rw [hu] at h1 h2
    exact hk c (Option.some.inj h1) (Option.some.inj h2)

/-- The full statement is false: an `IntEnum` is derived from `Enum` and from `int`, so the order of
`set_serializer(default_enum_serializer, Enum)` and `set_serializer(default_primitive_serializer, int)`
decides how its members are dumped. -/
theorem registration_order_matters :
    let a : Reg SerFn := ⟨.enum, some (.cls .enum), true⟩
    let b : Reg SerFn := ⟨.primitive, some (.cls .int), true⟩
    let E (rs : List (Reg SerFn)) : Env :=
      { demoEnv demoInfo with sers := fun _ => perform (tyWorld demoInfo) rs (initialSers demoInfo) }
    (dump (E [b, a]) 9 (.enum 3 "LOW".toList) none {}).val = .ok (.str "LOW".toList) ∧
    (dump (E [a, b]) 9 (.enum 3 "LOW".toList) none {}).val = .ok (.enum 3 "LOW".toList) := by
  decide +kernel

end Verif.Props.RegistrationOrder
