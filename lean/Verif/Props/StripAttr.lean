import Verif.Props.VerboseAdds

/-!
# `strip_attr` only takes entries away

C118: with `strip_attr`, `dump` returns what it returns without it, but for the entries of
objects that have the given names, at every depth.
-/

set_option autoImplicit false

namespace Verif.Props.StripAttr
open Verif Verif.Core Verif.Registry
open Verif.Props.DumpStyle (validKey_of_leaf filter_sublist after)
open Verif.Props.VerboseAdds (leaf_other)

/-! ## The specification -/

/-- The key is one of the names. -/
def named (K : List PyStr) : Val → Bool
  | .atom (.str s) => K.contains s
  | _ => false

/-- The second result is the first one without entries of objects that have the names `K`: of a
dict that is dumped from an object (`obj`) exactly these entries are missing. -/
inductive Less (K : List PyStr) : Val → Val → Prop where
  | same (d : Val) : Less K d d
  | list (xs ys : List Val) (hl : xs.length = ys.length)
      (h : ∀ x y, (x, y) ∈ xs.zip ys → Less K x y) : Less K (.list xs) (.list ys)
  | dict (es gs : List (Val × Val)) (hl : es.length = gs.length)
      (hk : ∀ e g, (e, g) ∈ es.zip gs → e.1 = g.1)
      (h : ∀ e g, (e, g) ∈ es.zip gs → Less K e.2 g.2) : Less K (.dict es) (.dict gs)
  | obj (es ks gs : List (Val × Val)) (hf : ks = es.filter fun e => !named K e.1)
      (hl : ks.length = gs.length) (hk : ∀ e g, (e, g) ∈ ks.zip gs → e.1 = g.1)
      (h : ∀ e g, (e, g) ∈ ks.zip gs → Less K e.2 g.2) : Less K (.dict es) (.dict gs)

/-- The same for the dump of an object. -/
def LessObj (K : List PyStr) (d d' : Val) : Prop :=
  ∃ es gs, d = .dict es ∧ d' = .dict gs ∧
    List.Forall₂ (fun e g => e.1 = g.1 ∧ Less K e.2 g.2) (es.filter fun e => !named K e.1) gs

mutual
/-- The result without the entries of dicts that have the names `K`, at every depth. -/
def without (K : List PyStr) : Val → Val
  | .seq .list xs => .seq .list (withoutList K xs)
  | .dict es => .dict (withoutEntries K es)
  | v => v
/-- The elements of a list. -/
def withoutList (K : List PyStr) : List Val → List Val
  | [] => []
  | x :: xs => without K x :: withoutList K xs
/-- The entries of a dict. -/
def withoutEntries (K : List PyStr) : List (Val × Val) → List (Val × Val)
  | [] => []
  | (k, v) :: es =>
    if named K k then withoutEntries K es else (k, without K v) :: withoutEntries K es
end

/-- Nothing but attributes of objects has one of the names. -/
structure Clean (E : Env) (v : Val) (K : List PyStr) (kw : DumpKw) : Prop where
  /-- values that are taken over as they are are neither lists nor dicts -/
  raw : Props.DumpShape.RawOk E v kw.useEnumName fun w =>
    (∀ xs, w ≠ .list xs) ∧ ∀ es, w ≠ .dict es
  /-- no key of a dict -/
  key : ∀ es g, (Reachable E v (.dict es) ∨ Reachable E v (.ddict g es)) →
    ∀ e ∈ es, named K e.1 = false
  /-- no field of a named tuple -/
  ntuple : ∀ c xs, Reachable E v (.ntuple c xs) → ∀ s ∈ (E.info c).fields, s ∉ K
  /-- no key that the dump of a time zone or a complex number has -/
  own : ∀ s ∈ ["name".toList, "offset".toList, "key".toList, "real".toList, "imag".toList], s ∉ K

/-- `strip_attr` and the names that it stands for: nothing, one name, a tuple of names. -/
inductive Strips : StripAttr → List PyStr → Prop where
  | none : Strips .none []
  | name (s : PyStr) (h : s ≠ []) : Strips (.name s) [s]
  | tuple (l : List PyStr) : Strips (.tuple l) l

/-- No attribute was dropped with a warning. -/
def Quiet {α : Type} (x : Res α) : Prop :=
  ∀ m, Event.warn "attribute-not-serialized".toList m ∉ x.log

/-- What has to be known about what can be reached from the value. -/
structure Strippable (E : Env) (v : Val) (K : List PyStr) (kw : DumpKw) : Prop where
  /-- classes are of the kind that their instances have -/
  kind : ∀ w, Reachable E v w → RightKind E w
  /-- the keys of dicts are JSON keys -/
  key : ∀ es g, (Reachable E v (.dict es) ∨ Reachable E v (.ddict g es)) →
    ∀ e ∈ es, JsonLeaf E.info e.1
  /-- the attributes that are stripped can be read -/
  read : ∀ c as, Reachable E v (.obj c as) → ∀ s ∈ K, s ∈ as.map (·.1) ++ (E.info c).members.map (·.1) →
    (∃ w, E.getAttr (.obj c as) s = .ok w) ∧ assoc (E.info c).members s ≠ some .noSource
  /-- the names of attributes are shown as they are -/
  shown : ∀ c as, Reachable E v (.obj c as) → (E.info c).isAttrs = false ∨ kw.stripPrivates = true
  /-- the attributes of values that are not objects do not depend on `strip_attr` -/
  foreign : ∀ w t (k : DumpKw) s, E.foreignAttrs w t { k with stripAttr := s } = E.foreignAttrs w t k ∧
    (∀ as, E.foreignAttrs w t k = .ok as → ∀ p ∈ as, p.1 ∉ K) ∧
    ∀ e, E.foreignAttrs w t k = .error e → e.hasArgs = true
  /-- exceptions have arguments -/
  args : ∀ w s e, E.getAttr w s = .error e → e.hasArgs = true

/-! ## Exceptions have arguments -/

/-- If there is an exception, it has arguments. -/
def Argd {α : Type} (x : Res α) : Prop := ∀ e, x.val = .error e → e.hasArgs = true

section
variable {α β : Type}

theorem Argd.pure (a : α) : Argd (Pure.pure a : Res α) := fun _ h => by cases h

theorem Argd.raise {k : ErrKind} : Argd (Res.raise { kind := k } : Res α) := fun _ h => by cases h; rfl

theorem Argd.bind {x : Res α} {f : α → Res β} (h : Argd x) (hf : ∀ a, x.val = .ok a → Argd (f a)) :
    Argd (x >>= f) := by
  intro e he
  rw [bind_val] at he
  cases hx : x.val with
  | ok a => rw [hx] at he; exact hf a hx e he
  | error e' => rw [hx] at he; cases he; exact h e hx

theorem Argd.liftK {x : Except ErrKind α} : Argd (Res.liftK x) := by
  intro e h
  cases x with
  | ok a => cases h
  | error k => cases h; rfl

theorem Argd.mapRes {f : α → Res β} {xs : List α} (h : ∀ x ∈ xs, Argd (f x)) : Argd (mapRes f xs) := by
  induction xs with
  | nil => exact .pure _
  | cons x xs ih =>
    exact .bind (h x List.mem_cons_self) fun _ _ =>
      .bind (ih fun y hy => h y (List.mem_cons_of_mem _ hy)) fun _ _ => .pure _

theorem Argd.attempt {x : Res α} : Argd x.attempt := by
  intro e h
  rw [attempt_val] at h
  cases h

end

section
variable {E : Env}

/-- What the program gives has arguments. -/
structure EnvArgd (E : Env) : Prop where
  get : ∀ w s e, E.getAttr w s = .error e → e.hasArgs = true
  foreign : ∀ w t k e, E.foreignAttrs w t k = .error e → e.hasArgs = true

/-- The recursive calls. -/
structure RecArgd (fork : Nat) (rec : Rec) : Prop where
  dump : ∀ v cls kw, kw.fork = fork → kw.keyTransformer = none → Argd (rec.dump v cls kw)
  call : ∀ g v cls kw, (∀ id, g ≠ .custom id) → kw.fork = fork → kw.keyTransformer = none →
    Argd (rec.call g v cls kw)

theorem not_custom {info : Nat → ClassInfo} {t : Ty} {g : SerFn} (h : t.serFn info = some g) (id : Nat) :
    g ≠ .custom id := by
  rintro rfl
  have hc : ∀ c : Cls, c.serFn info ≠ .custom id := by
    intro c; cases c <;> simp [Cls.serFn]
    split <;> simp
  cases t with
  | newtype n t => cases t <;> simp_all [Ty.serFn]
  | _ => simp_all [Ty.serFn]

theorem get_argd (hE : EnvArgd E) (v : Val) (s : PyStr) : Argd (Res.lift (E.getAttr v s)) := by
  intro e h
  rw [lift_val] at h
  exact hE.get _ _ _ h

theorem warn_argd (fork : Nat) (c m : PyStr) : Argd (E.warn fork c m) := by
  unfold Env.warn
  split
  · intro e h; cases h
  · exact .pure _

theorem emit_argd (ev : Event) : Argd (Res.emit ev) := fun _ h => by cases h

theorem addDumped_argd {kw : DumpKw} (hk : kw.keyTransformer = none) (acc : List (Val × Val)) (k d : Val) :
    Argd (Res.lift (addDumped kw acc k d)) := by
  intro e h
  rw [lift_val] at h
  unfold addDumped transformKey at h
  rw [hk] at h
  split at h <;> cases h

theorem keepAttr_argd {I : ClassInfo} {kw : DumpKw} {l : List PyStr} {s : PyStr} {e : Err}
    (h : keepAttr I kw l s = .error e) : e.hasArgs = true := by
  unfold keepAttr at h
  simp only at h
  repeat' split at h
  all_goals cases h
  rfl

theorem filter_argd {I : ClassInfo} {kw : DumpKw} {strip : StripAttr} {ps : List (PyStr × Option Ty)}
    {e : Err} (h : filterAttributes I kw strip ps = .error e) : e.hasArgs = true := by
  have go : ∀ l ps, filterAttributes.go I kw l ps = .error e → e.hasArgs = true := by
    intro l ps
    induction ps with
    | nil => intro h; cases h
    | cons p ps ih =>
      intro h
      simp only [filterAttributes.go] at h
      cases hk : keepAttr I kw l p.1 with
      | error e' => rw [hk] at h; cases h; exact keepAttr_argd hk
      | ok b =>
        rw [hk] at h
        cases hg : filterAttributes.go I kw l ps with
        | error e' => rw [hg] at h; cases h; exact ih hg
        | ok r => rw [hg] at h; cases h
  unfold filterAttributes at h
  split at h
  · exact go _ _ h
  · exact go _ _ h
  · cases h; rfl

theorem iterableSer_argd {fork : Nat} {rec : Rec} (hrec : RecArgd fork rec) {v : Val} {cls : Option Ty} {kw : DumpKw}
    (hfk : kw.fork = fork) (hk : kw.keyTransformer = none) : Argd (iterableSer E rec v cls kw) := by
  have sub : ∀ n c, Argd (Res.lift (getSubclasses n c)) := by
    intro n c e h
    rw [lift_val] at h
    unfold getSubclasses at h
    dsimp only at h
    split at h <;> (split at h <;> first | (cases h; rfl) | cases h)
  unfold iterableSer
  simp only
  split
  · exact .raise
  · refine .bind ?_ fun _ _ => .bind (.mapRes fun p _ => hrec.dump _ _ _ (by exact hfk) hk) fun _ _ => .pure _
    unfold elementTypes
    split
    · exact .bind .liftK fun _ _ => sub _ _
    · exact sub _ _

theorem dictLoop_argd {fork : Nat} {rec : Rec} (hrec : RecArgd fork rec) {kw : DumpKw} (hfk : kw.fork = fork)
    (hk : kw.keyTransformer = none) : ∀ (es acc : List (Val × Val)), Argd (dictLoop E rec kw es acc) := by
  intro es
  induction es with
  | nil => intro acc; exact .pure _
  | cons e es ih =>
    obtain ⟨k, v⟩ := e
    intro acc
    simp only [dictLoop]
    refine .bind ?_ fun _ _ => .bind (hrec.dump _ _ _ (by exact hfk) hk) fun _ _ =>
      .bind (addDumped_argd hk _ _ _) fun _ _ => ih _
    unfold storeAndHash
    split
    · exact .pure _
    · refine .bind (hrec.dump _ _ _ (by exact hfk) hk) fun d _ => ?_
      split
      · exact .pure _
      · simp only
        split
        · exact .pure _
        · exact .pure _
        · exact .raise

theorem attrLoop_argd (hE : EnvArgd E) {rec : Rec} {kw : DumpKw}
    (hk : kw.keyTransformer = none) {b : Bool} {v : Val} {cn : PyStr} :
    ∀ (as : List (PyStr × Option Ty)) (acc : List (Val × Val)), Argd (attrLoop E rec kw b v cn as acc) := by
  intro as
  induction as with
  | nil => intro acc; exact .pure _
  | cons p as ih =>
    obtain ⟨name, hint⟩ := p
    intro acc
    simp only [attrLoop]
    refine .bind (get_argd hE _ _) fun _ _ => .bind (emit_argd _) fun _ _ => .bind .liftK fun _ _ =>
      .bind .attempt fun x _ => ?_
    cases x with
    | error e =>
      simp only
      split
      · exact .raise
      · split
        · intro e' h; cases h; rfl
        · exact .bind (warn_argd _ _ _) fun _ _ => .pure _
    | ok d => exact .bind (addDumped_argd hk _ _ _) fun _ _ => ih _

theorem objectSerWith_argd (hE : EnvArgd E) {rec : Rec} {v : Val} {kw : DumpKw}
    (hk : kw.keyTransformer = none) {s : StripAttr} {t : Ty} {I : ClassInfo}
    {as : Except Err (List (PyStr × Option Ty))} (ha : ∀ e, as = .error e → e.hasArgs = true) :
    Argd (objectSerWith E rec v kw s t I as) := by
  unfold objectSerWith
  refine .bind (fun e h => ha e (by rwa [lift_val] at h)) fun _ _ =>
    .bind (attrLoop_argd hE (by exact hk) _ _) fun _ _ => ?_
  split
  · exact .pure _
  · exact .bind .liftK fun _ _ => .pure _

theorem fromClass_argd {I : ClassInfo} {kw : DumpKw} {s : StripAttr} {e : Err}
    (h : attributesFromClass I kw s = .error e) : e.hasArgs = true := by
  unfold attributesFromClass at h
  split at h
  · exact filter_argd h
  · cases h; rfl

theorem objectSer_argd (hE : EnvArgd E) {rec : Rec} {v : Val} {cls : Option Ty} {kw : DumpKw}
    (hk : kw.keyTransformer = none) : Argd (objectSer E rec v cls kw) := by
  have h0 : Argd (objectSer E rec v none kw) := by
    cases v with
    | obj c as => exact objectSerWith_argd hE hk fun e h => filter_argd h
    | _ => exact objectSerWith_argd hE hk fun e h => hE.foreign _ _ _ _ h
  cases cls with
  | none => exact h0
  | some t =>
    cases hs : kw.strict with
    | false =>
      have : objectSer E rec v (some t) kw = objectSer E rec v none kw := by
        unfold objectSer; rw [hs]; rfl
      rw [this]; exact h0
    | true =>
      unfold objectSer
      simp only [hs, if_true]
      split
      · exact objectSerWith_argd hE hk fun e h => fromClass_argd h
      · exact objectSerWith_argd hE hk fun e h => fromClass_argd h
      · exact objectSerWith_argd hE hk fun e h => hE.foreign _ _ _ _ h

theorem unionLoop_argd {fork : Nat} {rec : Rec} (hrec : RecArgd fork rec) {v : Val} {kw : DumpKw}
    (hfk : kw.fork = fork) (hk : kw.keyTransformer = none) : ∀ ts, Argd (unionLoop rec v kw ts) := by
  intro ts
  induction ts with
  | nil => exact .raise
  | cons t ts ih =>
    simp only [unionLoop]
    refine .bind .attempt fun x hx => ?_
    rw [attempt_val] at hx
    cases hx
    split
    · exact .pure _
    · next e he =>
      split
      · exact ih
      · intro e' h
        cases h
        exact hrec.dump _ _ _ (by exact hfk) hk _ he

theorem callSer_argd (hE : EnvArgd E) {fork : Nat} (hds : DefaultSers E fork) {rec : Rec}
    (hrec : RecArgd fork rec) (g : SerFn) (v : Val) (cls : Option Ty) (kw : DumpKw)
    (hg : ∀ id, g ≠ .custom id) (hfk : kw.fork = fork) (hk : kw.keyTransformer = none) :
    Argd (callSer E rec g v cls kw) := by
  have hts : ∀ s p, Argd (toStr E v s kw.fork p) := by
    intro s p
    unfold toStr
    split
    · dsimp only
      split
      · exact .bind (warn_argd _ _ _) fun _ _ => .bind .liftK fun _ _ => .pure _
      · exact .bind .liftK fun _ _ => .pure _
    · exact .pure _
    · exact .pure _
    · exact .raise
  cases g with
  | tuple =>
    simp only [callSer, tupleSer]
    split
    · unfold namedtupleSer
      exact .bind (.mapRes fun p _ => .bind (hrec.dump _ _ _ (by exact hfk) hk) fun _ _ => .pure _) fun _ _ => .pure _
    · refine .bind ?_ fun _ _ => iterableSer_argd hrec hfk hk
      unfold tupleCls
      split
      · exact .pure _
      · split
        · exact .raise
        · exact .pure _
        · split
          · exact .raise
          · exact .pure _
  | complex =>
    simp only [callSer, complexSer]
    split
    · exact .pure _
    · exact .pure _
    · exact .pure _
    · exact .pure _
    · exact .bind (get_argd hE _ _) fun _ _ => .bind (get_argd hE _ _) fun _ _ => .pure _
  | datetime => exact hts _ _
  | date => exact hts _ _
  | time => exact hts _ _
  | timezone =>
    simp only [callSer, timezoneSer]
    split
    · exact .bind (hrec.dump _ _ _ (by exact hfk) hk) fun _ _ => .pure _
    · exact .raise
  | timedelta =>
    simp only [callSer, timedeltaSer]
    split
    · exact .pure _
    · exact .raise
  | primitive =>
    simp only [callSer, primitiveSer]
    repeat' split
    all_goals first | exact .pure _ | exact .raise
  | enum =>
    simp only [callSer, enumSer]
    split
    · split
      · exact .pure _
      · split
        · exact .pure _
        · exact .raise
    · exact get_argd hE _ _
  | dict =>
    simp only [callSer, dictSer]
    split
    · exact .bind (dictLoop_argd hrec hfk hk _ _) fun _ _ => .pure _
    · exact .bind (dictLoop_argd hrec hfk hk _ _) fun _ _ => .pure _
    · split
      · exact .pure _
      · exact .raise
  | list =>
    have typed : ∀ xs t, Argd (listSer.typed E rec kw xs t { kw with storeCls := false }) := by
      intro xs t
      unfold listSer.typed
      refine .bind .liftK fun fn hfn => .bind (.mapRes fun x _ => ?_) fun _ _ => .pure _
      rw [liftK_ok, hfk, hds] at hfn
      have hfn := Except.ok.inj hfn
      cases fn with
      | none => exact .raise
      | some g => exact hrec.call _ _ _ _ (not_custom hfn) (by exact hfk) (by exact hk)
    simp only [callSer, listSer]
    split
    · exact .pure _
    · split
      · exact .raise
      · split
        · exact typed _ _
        · split
          · split
            · exact .raise
            · exact .raise
            · exact .raise
            · exact .raise
            · exact typed _ _
            · exact .pure _
          · exact .bind (.mapRes fun x _ => hrec.dump _ _ _ (by exact hfk) hk) fun _ _ => .pure _
  | iterable => exact iterableSer_argd hrec hfk hk
  | object => exact objectSer_argd hE hk
  | uuid => exact .pure _
  | decimal => exact .pure _
  | union =>
    simp only [callSer, unionSer]
    split
    · exact .raise
    · split
      · exact .pure _
      · exact unionLoop_argd hrec hfk hk _
  | path =>
    simp only [callSer, pathSer]
    split
    · exact .pure _
    · exact .raise
  | zoneinfo =>
    simp only [callSer, zoneinfoSer]
    split
    · exact .pure _
    · exact .raise
  | custom id => exact absurd rfl (hg id)

theorem recArgd (hE : EnvArgd E) {fork : Nat} (hds : DefaultSers E fork) (n : Nat) :
    RecArgd fork (recOf E n) := by
  induction n with
  | zero => exact ⟨fun _ _ _ _ _ => .raise, fun _ _ _ _ _ _ _ => .raise⟩
  | succ n ih =>
    refine ⟨fun v cls kw _ _ => ?_, fun g v cls kw hg hfk hk => callSer_argd hE hds ih g v cls kw hg hfk hk⟩
    show Argd (dumpWith E (recOf E n) v cls kw)
    unfold dumpWith
    refine .bind .liftK fun _ _ => .bind (emit_argd _) fun _ _ => .bind .attempt fun x _ => ?_
    split
    · exact .pure _
    · intro e h; cases h; rfl

end

/-! ## Calls that do the same -/

section
variable {α β γ δ : Type}

/-- If no attribute is dropped by the first call: the same exception, or results that are related. -/
def Sim (R : α → β → Prop) (x : Res α) (y : Res β) : Prop :=
  Quiet x → (∃ a b, x.val = .ok a ∧ y.val = .ok b ∧ R a b) ∨
    ∃ e, x.val = .error e ∧ y.val = .error e

theorem Sim.pure {R : α → β → Prop} {a : α} {b : β} (h : R a b) :
    Sim R (Pure.pure a : Res α) (Pure.pure b : Res β) := fun _ => .inl ⟨a, b, rfl, rfl, h⟩

theorem Sim.raise {R : α → β → Prop} (e : Err) : Sim R (Res.raise e) (Res.raise e) :=
  fun _ => .inr ⟨e, rfl, rfl⟩

theorem Sim.same {R : α → α → Prop} {x : Res α} (h : ∀ a, x.val = .ok a → R a a) : Sim R x x := by
  intro _
  cases hx : x.val with
  | ok a => exact .inl ⟨a, a, rfl, rfl, h a hx⟩
  | error e => exact .inr ⟨e, rfl, rfl⟩

theorem Sim.mono {R S : α → β → Prop} {x : Res α} {y : Res β} (h : Sim R x y)
    (hs : ∀ a b, R a b → S a b) : Sim S x y := by
  intro hq
  rcases h hq with ⟨a, b, h1, h2, h3⟩ | h
  · exact .inl ⟨a, b, h1, h2, hs a b h3⟩
  · exact .inr h

theorem quiet_left {x : Res α} {f : α → Res β} (h : Quiet (x >>= f)) : Quiet x := by
  intro m hm
  refine h m ?_
  rw [bind_log]
  cases x.val with
  | ok a => exact List.mem_append_left _ hm
  | error e => exact hm

theorem quiet_right {x : Res α} {f : α → Res β} (h : Quiet (x >>= f)) {a : α} (ha : x.val = .ok a) :
    Quiet (f a) := by
  intro m hm
  refine h m ?_
  rw [bind_log, ha]
  exact List.mem_append_right _ hm

theorem Sim.bind {R : α → β → Prop} {S : γ → δ → Prop} {x : Res α} {y : Res β} {f : α → Res γ}
    {g : β → Res δ} (h : Sim R x y)
    (hf : ∀ a b, x.val = .ok a → R a b → Sim S (f a) (g b)) : Sim S (x >>= f) (y >>= g) := by
  intro hq
  rcases h (quiet_left hq) with ⟨a, b, h1, h2, h3⟩ | ⟨e, h1, h2⟩
  · rw [bind_val, bind_val, h1, h2]
    exact hf a b h1 h3 (quiet_right hq h1)
  · exact .inr ⟨e, by rw [bind_val, h1], by rw [bind_val, h2]⟩

/-- The same call first. -/
theorem Sim.bindSame {S : γ → δ → Prop} {x : Res α} {f : α → Res γ} {g : α → Res δ}
    (hf : ∀ a, x.val = .ok a → Sim S (f a) (g a)) : Sim S (x >>= f) (x >>= g) :=
  Sim.bind (R := Eq) (Sim.same fun _ _ => rfl) fun a b h1 h3 => by subst h3; exact hf a h1

theorem Sim.bindEq {S : γ → δ → Prop} {x y : Res α} {f : α → Res γ} {g : α → Res δ} (hxy : y = x)
    (hf : ∀ a, x.val = .ok a → Sim S (f a) (g a)) : Sim S (x >>= f) (y >>= g) := by
  subst hxy; exact Sim.bindSame hf

/-- A call of the first side only. -/
theorem Sim.bindLeft {S : γ → δ → Prop} {x : Res α} {f : α → Res γ} {y : Res δ} {a : α}
    (hx : x.val = .ok a) (h : Sim S (f a) y) : Sim S (x >>= f) y := by
  intro hq
  rw [bind_val, hx]
  exact h (quiet_right hq hx)

/-- The outcomes of two calls. -/
def Outcome (R : α → β → Prop) (a : Except Err α) (b : Except Err β) : Prop :=
  (∃ u v, a = .ok u ∧ b = .ok v ∧ R u v) ∨ ∃ e, a = .error e ∧ b = .error e

theorem Sim.attempt {R : α → β → Prop} {x : Res α} {y : Res β} (h : Sim R x y) :
    Sim (Outcome R) x.attempt y.attempt := by
  intro hq
  refine .inl ⟨x.val, y.val, by rw [attempt_val], by rw [attempt_val], h ?_⟩
  intro m hm
  exact hq m (by rw [attempt_log]; exact hm)

theorem Sim.mapRes {R : β → γ → Prop} {F : α → Res β} {G : α → Res γ} {xs : List α}
    (h : ∀ x ∈ xs, Sim R (F x) (G x)) :
    Sim (List.Forall₂ R) (mapRes F xs) (mapRes G xs) := by
  induction xs with
  | nil => exact Sim.pure .nil
  | cons x xs ih =>
    simp only [Core.mapRes]
    refine Sim.bind (h x List.mem_cons_self) fun a b _ hab => ?_
    refine Sim.bind (ih fun y hy => h y (List.mem_cons_of_mem _ hy)) fun as bs _ hs => ?_
    exact Sim.pure (.cons hab hs)

end

/-! ## Results -/

section
variable {K : List PyStr} {Q : Prop}

/-- The names do not occur as keys. -/
inductive Free (K : List PyStr) : Val → Prop where
  | flat (d : Val) (h1 : ∀ xs, d ≠ .list xs) (h2 : ∀ es, d ≠ .dict es) : Free K d
  | list (xs : List Val) (h : ∀ x ∈ xs, Free K x) : Free K (.list xs)
  | dict (es : List (Val × Val)) (hk : ∀ e ∈ es, named K e.1 = false)
      (h : ∀ e ∈ es, Free K e.2) : Free K (.dict es)

/-- The results without and with `strip_attr`. -/
def Rel (K : List PyStr) (Q : Prop) (d d' : Val) : Prop := Less K d d' ∧ (Q → Free K d')

/-- Entries with the same keys. -/
def Ents (K : List PyStr) (Q : Prop) (es gs : List (Val × Val)) : Prop :=
  List.Forall₂ (fun e g => e.1 = g.1 ∧ Rel K Q e.2 g.2 ∧ (Q → named K g.1 = false)) es gs

theorem Ents.free {es gs : List (Val × Val)} (h : Ents K Q es gs) (hq : Q) : Free K (.dict gs) := by
  have : ∀ g ∈ gs, named K g.1 = false ∧ Free K g.2 := by
    induction h with
    | nil => intro g hg; cases hg
    | cons h1 h2 ih =>
      intro g hg
      rcases List.mem_cons.1 hg with rfl | hg
      · exact ⟨h1.2.2 hq, h1.2.1.2 hq⟩
      · exact ih g hg
  exact .dict gs (fun g hg => (this g hg).1) fun g hg => (this g hg).2

theorem Ents.dict {es gs : List (Val × Val)} (h : Ents K Q es gs) : Rel K Q (.dict es) (.dict gs) := by
  obtain ⟨h1, h2⟩ := List.forall₂_iff_zip.1 h
  exact ⟨.dict es gs h1 (fun e g he => (h2 he).1) fun e g he => (h2 he).2.1.1, h.free⟩

theorem less_obj {es gs : List (Val × Val)}
    (h : List.Forall₂ (fun e g => e.1 = g.1 ∧ Less K e.2 g.2) (es.filter fun e => !named K e.1) gs) :
    Less K (.dict es) (.dict gs) := by
  obtain ⟨h1, h2⟩ := List.forall₂_iff_zip.1 h
  exact .obj es _ gs rfl h1 (fun e g he => (h2 he).1) fun e g he => (h2 he).2

theorem rel_list {xs ys : List Val} (h : List.Forall₂ (Rel K Q) xs ys) :
    Rel K Q (.list xs) (.list ys) := by
  refine ⟨?_, fun hq => .list ys ?_⟩
  · obtain ⟨h1, h2⟩ := List.forall₂_iff_zip.1 h
    exact .list xs ys h1 fun x y hx => (h2 hx).1
  · induction h with
    | nil => intro y hy; cases hy
    | cons h1 h2 ih =>
      intro y hy
      rcases List.mem_cons.1 hy with rfl | hy
      · exact h1.2 hq
      · exact ih y hy

theorem rel_flat {d : Val} (h : (∀ xs, d ≠ .list xs) ∧ ∀ es, d ≠ .dict es) : Rel K Q d d :=
  ⟨.same d, fun _ => .flat d h.1 h.2⟩

theorem rel_atom (a : Atom) : Rel K Q (.atom a) (.atom a) := rel_flat ⟨by simp, by simp⟩

theorem less_none {d d' : Val} (h : Less K d d') : (d == .none) = (d' == .none) := by
  cases h <;> simp

theorem LessObj.less {d d' : Val} (h : LessObj K d d') : Less K d d' := by
  obtain ⟨es, gs, rfl, rfl, h⟩ := h
  exact less_obj h

/-- An entry in both. -/
theorem Ents.set {es gs : List (Val × Val)} (h : Ents K Q es gs) {k d d' : Val} (hd : Rel K Q d d')
    (hk : Q → named K k = false) : Ents K Q (dictSet es k d) (dictSet gs k d') := by
  induction h with
  | nil => exact .cons ⟨rfl, hd, hk⟩ .nil
  | @cons e g es gs h1 h2 ih =>
    obtain ⟨k1, v1⟩ := e
    obtain ⟨k2, v2⟩ := g
    obtain ⟨rfl, h1, h3⟩ := h1
    simp only [dictSet]
    split
    · exact .cons ⟨rfl, hd, h3⟩ h2
    · exact .cons ⟨rfl, h1, h3⟩ ih

theorem filter_set {es : List (Val × Val)} {s : PyStr} {d : Val} (hs : s ∉ K) :
    (dictSet es (.str s) d).filter (fun e => !named K e.1) =
      dictSet (es.filter fun e => !named K e.1) (.str s) d := by
  have hn : named K (.str s) = false := by
    show K.contains s = false
    simpa using hs
  induction es with
  | nil => simp [dictSet, hn]
  | cons e es ih =>
    obtain ⟨k, v⟩ := e
    simp only [dictSet]
    by_cases h : pyEq k (.str s) = true
    · have := pyEq_eq_str h
      subst this
      simp [h, hn, dictSet]
    · cases hk : named K k <;> simp [h, hk, dictSet, ih]

theorem filter_set_named {es : List (Val × Val)} {s : PyStr} {d : Val} (hs : s ∈ K) :
    (dictSet es (.str s) d).filter (fun e => !named K e.1) = es.filter fun e => !named K e.1 := by
  have hn : named K (.str s) = true := by
    show K.contains s = true
    simpa using hs
  induction es with
  | nil => simp [dictSet, hn]
  | cons e es ih =>
    obtain ⟨k, v⟩ := e
    simp only [dictSet]
    by_cases h : pyEq k (.str s) = true
    · have := pyEq_eq_str h
      subst this
      simp [h, hn]
    · cases hk : named K k <;> simp [h, hk, ih]

end

/-! ## The recursion -/

section
variable {E : Env} {v0 : Val} {K : List PyStr} {kw0 : DumpKw}

/-- The options of the calls without and with `strip_attr`. -/
structure Opts (K : List PyStr) (kw0 k k' : DumpKw) : Prop where
  eq : k' = { k with stripAttr := k'.stripAttr }
  fork : k.fork = kw0.fork
  strict : k.strict = false
  kt : k.keyTransformer = none
  verbose : k.verbose = {}
  store : k.storeCls = false
  privates : k.stripPrivates = kw0.stripPrivates
  enumName : k.useEnumName = kw0.useEnumName
  strip : ∃ l l', normalizeStripAttr k.stripAttr = .tuple l ∧ normalizeStripAttr k'.stripAttr = .tuple l' ∧
    ∀ s, s ∈ l' ↔ s ∈ l ∨ s ∈ K

theorem normalize_tuple (l : List PyStr) : normalizeStripAttr (.tuple l) = .tuple l := by
  cases l <;> rfl

/-- The recursive calls do the same, but for what is stripped. -/
structure RecSim (E : Env) (v0 : Val) (K : List PyStr) (kw0 : DumpKw) (rec : Rec) : Prop where
  dump : ∀ {v : Val} {cls : Option Ty} {k k' : DumpKw}, Reachable E v0 v → Opts K kw0 k k' →
    Sim (Rel K (Clean E v0 K kw0)) (rec.dump v cls k) (rec.dump v cls k')
  call : ∀ {g : SerFn} {v : Val} {cls : Option Ty} {k k' : DumpKw}, Reachable E v0 v →
    Opts K kw0 k k' → (cls.getD (.cls v.cls)).serFn E.info = some g →
    Sim (Rel K (Clean E v0 K kw0)) (rec.call g v cls k) (rec.call g v cls k')
  args : RecArgd kw0.fork rec

theorem Opts.noStore {k k' : DumpKw} (h : Opts K kw0 k k') :
    Opts K kw0 { k with storeCls := false } { k' with storeCls := false } := by
  obtain ⟨h1, h2, h3, h4, h5, h6, h7, h8, h9⟩ := h
  exact ⟨by rw [h1], h2, h3, h4, h5, rfl, h7, h8, h9⟩

theorem Opts.noTypes {k k' : DumpKw} (h : Opts K kw0 k k') :
    Opts K kw0 { k with types := [] } { k' with types := [] } := by
  obtain ⟨h1, h2, h3, h4, h5, h6, h7, h8, h9⟩ := h
  exact ⟨by rw [h1], h2, h3, h4, h5, h6, h7, h8, h9⟩

theorem addDumped_none {kw : DumpKw} (hk : kw.keyTransformer = none) (acc : List (Val × Val)) (k d : Val) :
    addDumped kw acc k d = .ok (if kw.stripNulls && d == .none then acc else dictSet acc k d) := by
  unfold addDumped transformKey
  rw [hk]
  split <;> rfl

theorem dictLoop_sim {rec : Rec} (hrec : RecSim E v0 K kw0 rec) {k k' : DumpKw} (ho : Opts K kw0 k k') :
    ∀ (es acc acc' : List (Val × Val)),
      (∀ e ∈ es, Reachable E v0 e.2 ∧ JsonLeaf E.info e.1 ∧ (Clean E v0 K kw0 → named K e.1 = false)) → Ents K (Clean E v0 K kw0) acc acc' →
      Sim (Ents K (Clean E v0 K kw0)) (dictLoop E rec k es acc) (dictLoop E rec k' es acc') := by
  intro es
  induction es with
  | nil => intro acc acc' _ h; exact Sim.pure h
  | cons e es ih =>
    obtain ⟨key, v⟩ := e
    intro acc acc' hs ha
    obtain ⟨hv, hleaf, hfree⟩ := hs _ List.mem_cons_self
    have hvalid := validKey_of_leaf (E := E) hleaf
    have ht : k'.types = k.types := by rw [ho.eq]
    have hn : k'.stripNulls = k.stripNulls := by rw [ho.eq]
    have hk' : k'.keyTransformer = none := by rw [ho.eq]; exact ho.kt
    simp only [dictLoop, storeAndHash, hvalid, if_true, pure_bind', ht]
    refine Sim.bind (hrec.dump hv ho.noTypes) fun d d' _ hdd => ?_
    rw [addDumped_none ho.kt, addDumped_none hk', hn, ← less_none hdd.1]
    refine Sim.bind (R := Ents K (Clean E v0 K kw0)) (Sim.pure ?_) fun r r' _ hr =>
      ih r r' (fun e he => hs e (List.mem_cons_of_mem _ he)) hr
    split
    · exact ha
    · exact ha.set hdd hfree

theorem unionLoop_sim {rec : Rec} (hrec : RecSim E v0 K kw0 rec) {k k' : DumpKw}
    (ho : Opts K kw0 k k') {v : Val} (hv : Reachable E v0 v) : ∀ (ts : List Ty),
    Sim (Rel K (Clean E v0 K kw0)) (unionLoop rec v k ts) (unionLoop rec v k' ts) := by
  intro ts
  induction ts with
  | nil => exact Sim.raise _
  | cons t ts ih =>
    simp only [unionLoop]
    refine Sim.bind (hrec.dump hv ho).attempt fun x y _ hxy => ?_
    rcases hxy with ⟨u, w, rfl, rfl, h⟩ | ⟨e, rfl, rfl⟩
    · exact Sim.pure h
    · simp only
      split
      · exact ih
      · exact Sim.raise _

theorem storeClsInfo_off (d attr : Val) : storeClsInfo E false d attr = d := by
  unfold storeClsInfo
  split <;> rfl

theorem dumpAttr_off {rec : Rec} {k : DumpKw} (hs : k.storeCls = false) (g : SerFn) (attr : Val)
    (hint : Option Ty) : dumpAttr E rec k (some g) attr hint = rec.call g attr hint k := by
  unfold dumpAttr
  simp only [hs, storeClsInfo_off]
  refine res_ext ?_ ?_
  · rw [bind_log]
    cases (rec.call g attr hint k).val with
    | ok a => simp
    | error e => rfl
  · rw [bind_val]
    cases (rec.call g attr hint k).val with
    | ok a => rfl
    | error e => rfl

theorem attrLoop_sim (hds : DefaultSers E kw0.fork) {rec : Rec}
    (hw : E.warns kw0.fork "attribute-not-serialized".toList = true)
    (hrec : RecSim E v0 K kw0 rec) {k k' : DumpKw} (ho : Opts K kw0 k k')
    {v : Val} (hv : Reachable E v0 v) (cn : PyStr) :
    ∀ (as : List (PyStr × Option Ty)) (acc acc' : List (Val × Val)),
      (∀ p ∈ as, p.1 ∈ K → ∃ w, E.getAttr v p.1 = .ok w) →
      Ents K (Clean E v0 K kw0) (acc.filter fun e => !named K e.1) acc' →
      Sim (fun es gs => Ents K (Clean E v0 K kw0) (es.filter fun e => !named K e.1) gs) (attrLoop E rec k false v cn as acc)
        (attrLoop E rec k' false v cn (as.filter fun p => !K.contains p.1) acc') := by
  have hfk : k'.fork = k.fork := by rw [ho.eq]
  have hst : k'.strict = k.strict := by rw [ho.eq]
  have hss : k'.storeCls = false := by rw [ho.eq]; exact ho.store
  have hn : k'.stripNulls = k.stripNulls := by rw [ho.eq]
  have hk' : k'.keyTransformer = none := by rw [ho.eq]; exact ho.kt
  intro as
  induction as with
  | nil => intro acc acc' _ h; exact Sim.pure h
  | cons p as ih =>
    obtain ⟨name, hint⟩ := p
    intro acc acc' hr ha
    have hr' := fun p hp => hr p (List.mem_cons_of_mem _ hp)
    by_cases hm : name ∈ K
    · -- a stripped attribute
      obtain ⟨attr, hattr⟩ := hr _ List.mem_cons_self hm
      have hfil : ((name, hint) :: as).filter (fun p => !K.contains p.1) =
          as.filter fun p => !K.contains p.1 := by simp [hm]
      rw [hfil]
      have hfn : E.getSer k.fork (hint.getD (.cls attr.cls)) =
          .ok ((hint.getD (.cls attr.cls)).serFn E.info) := by rw [ho.fork, hds]
      simp only [attrLoop]
      refine Sim.bindLeft (a := attr) (by rw [lift_val, hattr]) ?_
      refine Sim.bindLeft (a := ()) rfl ?_
      refine Sim.bindLeft (a := (hint.getD (.cls attr.cls)).serFn E.info) (liftK_ok.2 hfn) ?_
      refine Sim.bindLeft (a := (dumpAttr E rec k ((hint.getD (.cls attr.cls)).serFn E.info) attr hint).val)
        (by rw [attempt_val]) ?_
      cases hd : (dumpAttr E rec k ((hint.getD (.cls attr.cls)).serFn E.info) attr hint).val with
      | ok d =>
        simp only [Bool.false_eq_true, if_false]
        rw [addDumped_none ho.kt]
        refine Sim.bindLeft rfl (ih _ acc' hr' ?_)
        split
        · exact ha
        · rw [filter_set_named hm]
          exact ha
      | error e =>
        have he : e.hasArgs = true := by
          revert hd
          cases hg : (hint.getD (.cls attr.cls)).serFn E.info with
          | none => intro hd; cases hd; rfl
          | some g =>
            rw [dumpAttr_off ho.store]
            intro hd
            exact hrec.args.call g attr hint k (not_custom hg) ho.fork ho.kt e hd
        simp only [he, ho.strict, Bool.not_true, Bool.false_eq_true, if_false]
        intro hq
        exfalso
        refine quiet_left hq cn ?_
        rw [ho.fork]
        unfold Env.warn
        rw [if_pos hw]
        exact List.mem_singleton.2 rfl
    · have hfil : ((name, hint) :: as).filter (fun p => !K.contains p.1) =
          (name, hint) :: as.filter fun p => !K.contains p.1 := by simp [hm]
      rw [hfil]
      simp only [attrLoop, hfk, hst]
      refine Sim.bindSame fun attr hattr => ?_
      rw [lift_val] at hattr
      refine Sim.bindSame fun _ _ => ?_
      refine Sim.bindSame fun fn hfn => ?_
      rw [liftK_ok, ho.fork, hds] at hfn
      have hfn := Except.ok.inj hfn
      have hd : Sim (Rel K (Clean E v0 K kw0)) (dumpAttr E rec k fn attr hint) (dumpAttr E rec k' fn attr hint) := by
        cases fn with
        | none => exact Sim.raise _
        | some g =>
          rw [dumpAttr_off ho.store, dumpAttr_off hss]
          exact hrec.call (Reachable.attr hv hattr) ho hfn
      refine Sim.bind hd.attempt fun x y _ hxy => ?_
      rcases hxy with ⟨d, d', rfl, rfl, h⟩ | ⟨e, rfl, rfl⟩
      · simp only [Bool.false_eq_true, if_false]
        rw [addDumped_none ho.kt, addDumped_none hk', hn, ← less_none h.1]
        refine Sim.bind (R := fun es gs => Ents K (Clean E v0 K kw0) (es.filter fun e => !named K e.1) gs) (Sim.pure ?_)
          fun r r' _ h' => ih r r' hr' h'
        split
        · exact ha
        · rw [filter_set hm]
          exact ha.set h fun _ => by show K.contains name = false; simpa using hm
      · simp only
        split
        · exact Sim.raise _
        · split
          · exact Sim.raise _
          · exact Sim.bindSame fun _ _ => Sim.pure ha

theorem objectSerWith_sim (hds : DefaultSers E kw0.fork) {rec : Rec}
    (hw : E.warns kw0.fork "attribute-not-serialized".toList = true)
    (hrec : RecSim E v0 K kw0 rec) {k k' : DumpKw} (ho : Opts K kw0 k k')
    {v : Val} (hv : Reachable E v0 v) {t : Ty} {I : ClassInfo}
    (hI : I.isAttrs = false ∨ kw0.stripPrivates = true)
    {as as' : Except Err (List (PyStr × Option Ty))}
    (ha : as' = as.map fun l => l.filter fun p => !K.contains p.1)
    (hr : ∀ l, as = .ok l → ∀ p ∈ l, p.1 ∈ K → ∃ w, E.getAttr v p.1 = .ok w) :
    Sim (fun d d' => LessObj K d d' ∧ (Clean E v0 K kw0 → Free K d')) (objectSerWith E rec v k (normalizeStripAttr k.stripAttr) t I as)
      (objectSerWith E rec v k' (normalizeStripAttr k'.stripAttr) t I as') := by
  have hpub : (I.isAttrs && !k.stripPrivates) = false := by
    rw [ho.privates]
    rcases hI with h | h <;> simp [h]
  have hpub' : (I.isAttrs && !k'.stripPrivates) = false := by
    rw [show k'.stripPrivates = k.stripPrivates by rw [ho.eq]]; exact hpub
  have hvb : k'.verbose = {} := by rw [ho.eq]; exact ho.verbose
  have hss : k'.storeCls = false := by rw [ho.eq]; exact ho.store
  have ho' : Opts K kw0
      { k with stripAttr := normalizeStripAttr k.stripAttr, storeCls := k.verbose.classInfo }
      { k' with stripAttr := normalizeStripAttr k'.stripAttr, storeCls := k'.verbose.classInfo } := by
    obtain ⟨l, l', h1, h2, h3⟩ := ho.strip
    refine ⟨?_, ho.fork, ho.strict, ho.kt, ho.verbose, by rw [ho.verbose], ho.privates, ho.enumName,
      ⟨l, l', by rw [h1]; exact normalize_tuple l, by rw [h2]; exact normalize_tuple l', h3⟩⟩
    rw [ho.eq]
  subst ha
  unfold objectSerWith
  cases as with
  | error e => exact Sim.raise e
  | ok l =>
    refine Sim.bindLeft (a := l) rfl ?_
    show Sim _ _ ((Res.lift (.ok (l.filter fun p => !K.contains p.1))) >>= _)
    rw [show (Res.lift (.ok (l.filter fun p => !K.contains p.1)) : Res _) =
      pure (l.filter fun p => !K.contains p.1) from rfl, pure_bind', hpub, hpub']
    refine Sim.bind (attrLoop_sim hds hw hrec ho' hv _ l [] [] (hr l rfl) .nil) fun es gs _ h => ?_
    rw [ho.store, hss, ho.verbose, hvb]
    simp only [Bool.false_eq_true, if_false, dictWithMeta, if_true, liftK_of_ok, pure_bind']
    exact Sim.pure ⟨⟨es, gs, rfl, rfl, h.imp fun _ _ h => ⟨h.1, h.2.1.1⟩⟩, h.free⟩

/-- A name that is stripped is not kept, the others are as before. -/
theorem keep_strip {I : ClassInfo} {k k' : DumpKw} (he : k' = { k with stripAttr := k'.stripAttr })
    {l l' : List PyStr} (hl : ∀ s, s ∈ l' ↔ s ∈ l ∨ s ∈ K) (s : PyStr)
    (hs : s ∈ K → assoc I.members s ≠ some .noSource) :
    keepAttr I k' (l' ++ abcAttrs) s =
      (keepAttr I k (l ++ abcAttrs) s).map fun b => b && !K.contains s := by
  have e1 : k'.stripPrivates = k.stripPrivates := by rw [he]
  have e2 : k'.stripProperties = k.stripProperties := by rw [he]
  have e3 : k'.stripClassVariables = k.stripClassVariables := by rw [he]
  unfold keepAttr
  simp only [e1, e2, e3]
  by_cases hm : s ∈ K
  · have hns := hs hm
    have hc : (l' ++ abcAttrs).contains s = true := by simp [hl, hm]
    have hK : K.contains s = true := by simpa using hm
    rw [if_pos hc, hK]
    repeat' split
    all_goals first
      | rfl
      | (exact absurd (by assumption) hns)
  · have hc : (l' ++ abcAttrs).contains s = (l ++ abcAttrs).contains s := by
      rw [Bool.eq_iff_iff]
      simp [hl, hm]
    have hK : K.contains s = false := by simpa using hm
    rw [hc, hK]
    repeat' split
    all_goals rfl

theorem filter_strip {I : ClassInfo} {k k' : DumpKw} (he : k' = { k with stripAttr := k'.stripAttr })
    {l l' : List PyStr} (hl : ∀ s, s ∈ l' ↔ s ∈ l ∨ s ∈ K) (ps : List (PyStr × Option Ty))
    (hs : ∀ p ∈ ps, p.1 ∈ K → assoc I.members p.1 ≠ some .noSource) :
    filterAttributes I k' (.tuple l') ps =
      (filterAttributes I k (.tuple l) ps).map fun r => r.filter fun p => !K.contains p.1 := by
  show filterAttributes.go I k' (l' ++ abcAttrs) ps =
    (filterAttributes.go I k (l ++ abcAttrs) ps).map _
  induction ps with
  | nil => rfl
  | cons p ps ih =>
    have ih := ih fun q hq => hs q (List.mem_cons_of_mem _ hq)
    simp only [filterAttributes.go, keep_strip he hl p.1 (hs p List.mem_cons_self), ih]
    cases keepAttr I k (l ++ abcAttrs) p.1 with
    | error e => rfl
    | ok b =>
      cases filterAttributes.go I k (l ++ abcAttrs) ps with
      | error e => rfl
      | ok r =>
        clear ih hs hl he
        cases b <;> cases hK : K.contains p.1 <;>
          simp only [Except.map, bind, Except.bind, pure, Except.pure, List.filter_cons, hK, Bool.and_true,
            Bool.and_false, Bool.not_true, Bool.not_false, Bool.false_eq_true, if_true, if_false, Bool.and_self]

theorem objectSer_obj_sim (hds : DefaultSers E kw0.fork) {rec : Rec}
    (hw : E.warns kw0.fork "attribute-not-serialized".toList = true) (hS : Strippable E v0 K kw0)
    (hrec : RecSim E v0 K kw0 rec) {k k' : DumpKw} (ho : Opts K kw0 k k')
    {c : Nat} {as : List (PyStr × Val)} (hv : Reachable E v0 (.obj c as)) :
    Sim (fun d d' => LessObj K d d' ∧ (Clean E v0 K kw0 → Free K d')) (objectSer E rec (.obj c as) none k) (objectSer E rec (.obj c as) none k') := by
  have hnames : ∀ p ∈ (dirNames (E.info c) as).map
      (fun n => (n, (assoc (attributesAndTypes (E.info c) k.strict) n).getD none)),
      p.1 ∈ as.map (·.1) ++ (E.info c).members.map (·.1) := by
    intro p hp
    obtain ⟨n, hn, rfl⟩ := List.mem_map.1 hp
    exact List.mem_append.2 (mem_dirNames.1 hn)
  refine objectSerWith_sim hds hw hrec ho hv (hS.shown c as hv) ?_ ?_
  · obtain ⟨l, l', h1, h2, h3⟩ := ho.strip
    unfold attributesFromObject
    simp only
    rw [h1, h2, show k'.strict = k.strict by rw [ho.eq]]
    exact filter_strip ho.eq h3 _ fun p hp hK => (hS.read c as hv p.1 hK (hnames p hp)).2
  · intro r hr p hp hK
    unfold attributesFromObject at hr
    exact (hS.read c as hv p.1 hK (hnames p ((filter_sublist hr).subset hp))).1

theorem objectSer_sim (hds : DefaultSers E kw0.fork) {rec : Rec}
    (hw : E.warns kw0.fork "attribute-not-serialized".toList = true) (hS : Strippable E v0 K kw0)
    (hrec : RecSim E v0 K kw0 rec) {k k' : DumpKw} (ho : Opts K kw0 k k')
    {v : Val} (hv : Reachable E v0 v) (cls : Option Ty) :
    Sim (Rel K (Clean E v0 K kw0)) (objectSer E rec v cls k) (objectSer E rec v cls k') := by
  have foreign : ∀ {w : Val} {t : Ty} {o : Option Ty}, Reachable E v0 w →
      Sim (fun d d' => LessObj K d d' ∧ (Clean E v0 K kw0 → Free K d'))
        (objectSerWith E rec w k (normalizeStripAttr k.stripAttr) t ClassInfo.object (E.foreignAttrs w o k))
        (objectSerWith E rec w k' (normalizeStripAttr k'.stripAttr) t ClassInfo.object
          (E.foreignAttrs w o k')) := by
    intro w t o hw'
    obtain ⟨h1, h2, _⟩ := hS.foreign w o k k'.stripAttr
    rw [← ho.eq] at h1
    refine objectSerWith_sim hds hw hrec ho hw' (.inl rfl) ?_ ?_
    · rw [h1]
      cases hl : E.foreignAttrs w o k with
      | error e => rfl
      | ok l =>
        show _ = Except.ok _
        congr 1
        refine (List.filter_eq_self.2 fun p hp => ?_).symm
        simpa using h2 l hl p hp
    · intro l hl p hp hK
      exact absurd hK (h2 l hl p hp)
  have e : ∀ j : DumpKw, j.strict = false → objectSer E rec v cls j = objectSer E rec v none j := by
    intro j hj
    cases cls with
    | none => rfl
    | some t => unfold objectSer; rw [hj]; rfl
  rw [e k ho.strict, e k' (by rw [ho.eq]; exact ho.strict)]
  refine Sim.mono (R := fun d d' => LessObj K d d' ∧ (Clean E v0 K kw0 → Free K d')) ?_
    fun _ _ h => ⟨LessObj.less h.1, h.2⟩
  cases v with
  | obj c as => exact objectSer_obj_sim hds hw hS hrec ho hv
  | _ => exact foreign hv

theorem iterableSer_sim {rec : Rec} (hrec : RecSim E v0 K kw0 rec) {k k' : DumpKw}
    (ho : Opts K kw0 k k') {v : Val} (hv : Reachable E v0 v) (cls : Option Ty) :
    Sim (Rel K (Clean E v0 K kw0)) (iterableSer E rec v cls k) (iterableSer E rec v cls k') := by
  unfold iterableSer
  simp only
  cases hi : v.iter with
  | none => exact Sim.raise _
  | some xs =>
    simp only
    refine Sim.bindEq (by rw [show k'.strict = k.strict by rw [ho.eq]]) fun sub _ => ?_
    exact Sim.bind (Sim.mapRes fun p hp => hrec.dump (Reachable.elem hv hi (List.of_mem_zip hp).1)
      ho.noStore) fun ys ys' _ h => Sim.pure (rel_list h)

theorem callSer_sim (hds : DefaultSers E kw0.fork) {rec : Rec}
    (hw : E.warns kw0.fork "attribute-not-serialized".toList = true) (hS : Strippable E v0 K kw0)
    (hrec : RecSim E v0 K kw0 rec) {k k' : DumpKw} (ho : Opts K kw0 k k')
    {g : SerFn} {v : Val} {cls : Option Ty} (hv : Reachable E v0 v)
    (hf : (cls.getD (.cls v.cls)).serFn E.info = some g) :
    Sim (Rel K (Clean E v0 K kw0)) (callSer E rec g v cls k) (callSer E rec g v cls k') := by
  have same : ∀ {x y : Res Val}, y = x → (∀ d, x.val = .ok d → Rel K (Clean E v0 K kw0) d d) →
      Sim (Rel K (Clean E v0 K kw0)) x y := by
    rintro x _ rfl h; exact Sim.same h
  have leaf : ∀ {x y : Res Val}, y = x → (∀ d, x.val = .ok d → JsonLeaf E.info d) →
      Sim (Rel K (Clean E v0 K kw0)) x y := fun h hd => same h fun d hx => rel_flat (leaf_other (hd d hx))
  have hown : ∀ {s : PyStr}, s ∈ ["name".toList, "offset".toList, "key".toList, "real".toList,
      "imag".toList] → Clean E v0 K kw0 → named K (.str s) = false := by
    intro s hs hc
    show K.contains s = false
    simpa using hc.own s hs
  have hreach := reach_of_reachable hS.kind
  have hfk : k'.fork = k.fork := by rw [ho.eq]
  have hst' : k'.strict = k.strict := by rw [ho.eq]
  cases g with
  | tuple =>
    simp only [callSer, tupleSer]
    split
    · next c xs =>
      unfold namedtupleSer
      refine Sim.bind (R := Ents K (Clean E v0 K kw0)) (Sim.mapRes fun p hp => ?_) fun ys ys' h1 h => Sim.pure (Ents.dict h)
      exact Sim.bind (hrec.dump (Reachable.elem hv rfl (List.of_mem_zip hp).2) ho)
        fun d d' _ h => Sim.pure ⟨rfl, h, fun hc => by
          show K.contains p.1 = false
          simpa using hc.ntuple c xs hv p.1 (List.of_mem_zip hp).1⟩
    · exact Sim.bindSame fun c _ => iterableSer_sim hrec ho hv c
  | timezone =>
    simp only [callSer, timezoneSer]
    split
    · refine Sim.bind (hrec.dump (Reachable.offset hv) ho) fun d d' _ h => Sim.pure (Ents.dict ?_)
      exact .cons ⟨rfl, rel_atom _, hown (by simp)⟩ (.cons ⟨rfl, h, hown (by simp)⟩ .nil)
    · exact Sim.raise _
  | dict =>
    have loop : ∀ (es : List (Val × Val)) (g : Option Ty),
        (Reachable E v0 (.dict es) ∨ Reachable E v0 (.ddict g es)) →
        Sim (Rel K (Clean E v0 K kw0)) (dictLoop E rec k es [] >>= fun r => pure (Val.dict r))
        (dictLoop E rec k' es [] >>= fun r => pure (Val.dict r)) := by
      intro es g hes
      exact Sim.bind (dictLoop_sim hrec ho es [] [] (fun e he => ⟨hes.elim (fun h => .value h he)
        (fun h => .valueD h he), hS.key es g hes e he, fun hc => hc.key es g hes e he⟩) .nil)
        fun r r' _ h => Sim.pure (Ents.dict h)
    simp only [callSer, dictSer]
    split
    · exact loop _ none (.inl hv)
    · exact loop _ _ (.inr hv)
    · split
      · exact Sim.pure (Ents.dict .nil)
      · exact Sim.raise _
  | list =>
    have finish : ∀ {x y : Res (List Val)}, Sim (List.Forall₂ (Rel K (Clean E v0 K kw0))) x y →
        Sim (Rel K (Clean E v0 K kw0)) (x >>= fun ys => pure (Val.list ys))
          (y >>= fun ys => pure (Val.list ys)) := fun h =>
      Sim.bind h fun ys ys' _ h => Sim.pure (rel_list h)
    have typed : ∀ (xs : List Val), v.iter = some xs → ∀ (t : Ty),
        Sim (Rel K (Clean E v0 K kw0)) (listSer.typed E rec k xs t { k with storeCls := false })
        (listSer.typed E rec k' xs t { k' with storeCls := false }) := by
      intro xs hxs t
      unfold listSer.typed
      refine Sim.bindEq (by rw [hfk]) fun fn hfn => ?_
      rw [liftK_ok, ho.fork, hds] at hfn
      have hfn := Except.ok.inj hfn
      cases fn with
      | none => exact finish (Sim.mapRes fun x _ => Sim.raise _)
      | some g =>
        exact finish (Sim.mapRes fun x hx => hrec.call (Reachable.elem hv hxs hx) ho.noStore hfn)
    simp only [callSer, listSer]
    split
    · exact Sim.pure (rel_list .nil)
    · cases hxs : v.iter with
      | none => exact Sim.raise _
      | some xs =>
        simp only
        split
        · exact typed xs hxs _
        · rw [if_neg (by rw [ho.strict]; decide), if_neg (by rw [hst', ho.strict]; decide)]
          exact finish (Sim.mapRes fun x hx => hrec.dump (Reachable.elem hv hxs hx) ho.noStore)
  | iterable => exact iterableSer_sim hrec ho hv cls
  | object => exact objectSer_sim hds hw hS hrec ho hv cls
  | union =>
    simp only [callSer, unionSer]
    split
    · exact Sim.raise _
    · split
      · next hn =>
        rw [hn.1]
        exact Sim.pure (rel_atom _)
      · exact unionLoop_sim hrec ho hv _
  | custom id => exact absurd rfl (not_custom hf id)
  | complex =>
    refine Sim.same fun d h => ?_
    have mk : ∀ {re im : Val}, Rel K (Clean E v0 K kw0) re re → Rel K (Clean E v0 K kw0) im im →
        Rel K (Clean E v0 K kw0) (.dict [(.str "real".toList, re), (.str "imag".toList, im)])
          (.dict [(.str "real".toList, re), (.str "imag".toList, im)]) := by
      intro re im h1 h2
      exact Ents.dict (.cons ⟨rfl, h1, hown (by simp)⟩ (.cons ⟨rfl, h2, hown (by simp)⟩ .nil))
    simp only [callSer] at h
    unfold complexSer at h
    simp only at h
    split at h
    · cases h; exact mk (rel_atom _) (rel_atom _)
    · cases h; exact mk (rel_atom _) (rel_atom _)
    · cases h; exact mk (rel_atom _) (rel_atom _)
    · cases h; exact mk (rel_atom _) (rel_atom _)
    · simp only [Core.bind_ok, lift_val, pure_val, Except.ok.injEq] at h
      obtain ⟨re, h1, im, h2, rfl⟩ := h
      have raw : ∀ {w : Val}, (E.getAttr v "real".toList = .ok w ∨ E.getAttr v "imag".toList = .ok w) →
          Rel K (Clean E v0 K kw0) w w := fun h => ⟨.same _, fun hc =>
        have := hc.raw.complexAttr hv h
        .flat _ this.1 this.2⟩
      exact mk (raw (.inl h1)) (raw (.inr h2))
  | enum =>
    refine same (by rw [ho.eq]; rfl) fun d h => ⟨.same _, fun hc => ?_⟩
    have := DumpShape.enumSer_raw (kw := k) (P := fun w => (∀ xs, w ≠ .list xs) ∧ ∀ es, w ≠ .dict es)
      (by rw [ho.enumName]; exact hc.raw) (fun s => ⟨by simp, by simp⟩) hv h
    exact .flat _ this.1 this.2
  | datetime => exact leaf (by rw [ho.eq]; rfl) fun r h => toStr_leaf h
  | date => exact leaf (by rw [ho.eq]; rfl) fun r h => toStr_leaf h
  | time => exact leaf (by rw [ho.eq]; rfl) fun r h => toStr_leaf h
  | timedelta =>
    refine leaf rfl fun r h => ?_
    simp only [callSer, timedeltaSer] at h
    split at h
    · cases h; trivial
    · simp at h
  | primitive => exact leaf rfl fun r h => primitive_json hreach hv hf h
  | uuid => exact leaf rfl fun r h => by simp only [callSer, strSer] at h; cases h; trivial
  | decimal => exact leaf rfl fun r h => by simp only [callSer, strSer] at h; cases h; trivial
  | path =>
    refine leaf rfl fun r h => ?_
    simp only [callSer, pathSer] at h
    split at h
    · cases h; trivial
    · simp at h
  | zoneinfo =>
    refine Sim.same fun r h => ?_
    simp only [callSer, zoneinfoSer] at h
    split at h
    · cases h
      exact Ents.dict (.cons ⟨rfl, rel_atom _, hown (by simp)⟩ .nil)
    · simp at h

theorem dumpWith_sim (hds : DefaultSers E kw0.fork) {rec : Rec} (hrec : RecSim E v0 K kw0 rec)
    {v : Val} {cls : Option Ty} {k k' : DumpKw} (hv : Reachable E v0 v) (ho : Opts K kw0 k k') :
    Sim (Rel K (Clean E v0 K kw0)) (dumpWith E rec v cls k) (dumpWith E rec v cls k') := by
  unfold dumpWith
  rw [show k'.fork = k.fork by rw [ho.eq]]
  refine Sim.bindSame fun fn hfn => ?_
  rw [liftK_ok, ho.fork, hds] at hfn
  have hfn := Except.ok.inj hfn
  refine Sim.bindSame fun _ _ => ?_
  cases fn with
  | none => exact Sim.raise _
  | some g =>
    simp only
    refine Sim.bind (hrec.call hv ho hfn).attempt fun x y _ hxy => ?_
    rcases hxy with ⟨d, d', rfl, rfl, h⟩ | ⟨e, rfl, rfl⟩
    · exact Sim.pure h
    · exact Sim.raise _

theorem Strippable.env (hS : Strippable E v0 K kw0) : EnvArgd E :=
  ⟨hS.args, fun w t k e h => (hS.foreign w t k k.stripAttr).2.2 e h⟩

theorem recSim (hds : DefaultSers E kw0.fork)
    (hw : E.warns kw0.fork "attribute-not-serialized".toList = true) (hS : Strippable E v0 K kw0)
    (n : Nat) : RecSim E v0 K kw0 (recOf E n) := by
  induction n with
  | zero => exact ⟨fun _ _ => Sim.raise _, fun _ _ _ => Sim.raise _, recArgd hS.env hds 0⟩
  | succ n ih =>
    exact ⟨fun hv ho => dumpWith_sim hds ih hv ho, fun hv ho hf => callSer_sim hds hw hS ih ho hv hf,
      recArgd hS.env hds (n + 1)⟩

end

/-! ## The equation -/

section
variable {K : List PyStr}

theorem withoutList_eq (xs : List Val) : withoutList K xs = xs.map (without K) := by
  induction xs with
  | nil => rfl
  | cons x xs ih => simp [withoutList, ih]

theorem withoutEntries_eq (es : List (Val × Val)) : withoutEntries K es =
    (es.filter fun e => !named K e.1).map fun e => (e.1, without K e.2) := by
  induction es with
  | nil => rfl
  | cons e es ih =>
    obtain ⟨k, v⟩ := e
    cases h : named K k <;> simp [withoutEntries, h, ih]

theorem zip_map_eq {α β γ : Type} {f : α → γ} {g : β → γ} : ∀ {xs : List α} {ys : List β},
    xs.length = ys.length → (∀ x y, (x, y) ∈ xs.zip ys → f x = g y) → xs.map f = ys.map g := by
  intro xs
  induction xs with
  | nil =>
    intro ys hl _
    cases ys with
    | nil => rfl
    | cons y ys => cases hl
  | cons x xs ih =>
    intro ys hl h
    cases ys with
    | nil => cases hl
    | cons y ys =>
      simp only [List.map_cons, List.cons.injEq]
      exact ⟨h x y (by simp), ih (by simpa using hl) fun a b hab => h a b (by simp [hab])⟩

theorem zip_filter_eq : ∀ {es gs : List (Val × Val)}, es.length = gs.length →
    (∀ e g, (e, g) ∈ es.zip gs → e.1 = g.1) →
    (∀ e g, (e, g) ∈ es.zip gs → without K e.2 = without K g.2) →
    withoutEntries K es = withoutEntries K gs := by
  intro es
  induction es with
  | nil =>
    intro gs hl _ _
    cases gs with
    | nil => rfl
    | cons y ys => cases hl
  | cons x xs ih =>
    intro gs hl hk h
    cases gs with
    | nil => cases hl
    | cons y ys =>
      obtain ⟨k, v⟩ := x
      obtain ⟨k', v'⟩ := y
      have e1 : k = k' := hk (k, v) (k', v') (by simp)
      have e2 : without K v = without K v' := h (k, v) (k', v') (by simp)
      have e3 := ih (gs := ys) (by simpa using hl) (fun a b hab => hk a b (by simp [hab]))
        fun a b hab => h a b (by simp [hab])
      subst e1
      simp only [withoutEntries, e2, e3]

theorem withoutEntries_filter (es : List (Val × Val)) :
    withoutEntries K (es.filter fun e => !named K e.1) = withoutEntries K es := by
  rw [withoutEntries_eq, withoutEntries_eq, List.filter_filter]
  simp

theorem Less.without {d d' : Val} (h : Less K d d') : without K d = without K d' := by
  induction h with
  | same d => rfl
  | list xs ys hl _ ih =>
    show Val.list (withoutList K xs) = Val.list (withoutList K ys)
    rw [withoutList_eq, withoutList_eq, zip_map_eq hl ih]
  | dict es gs hl hk _ ih =>
    show Val.dict (withoutEntries K es) = Val.dict (withoutEntries K gs)
    rw [zip_filter_eq hl hk ih]
  | obj es ks gs hf hl hk _ ih =>
    show Val.dict (withoutEntries K es) = Val.dict (withoutEntries K gs)
    rw [← zip_filter_eq hl hk ih, hf, withoutEntries_filter]

theorem Free.without {d : Val} (h : Free K d) : without K d = d := by
  induction h with
  | flat d h1 h2 =>
    unfold StripAttr.without
    split
    · next xs => exact absurd rfl (h1 xs)
    · next es => exact absurd rfl (h2 es)
    · rfl
  | list xs _ ih =>
    show Val.list (withoutList K xs) = _
    rw [withoutList_eq]
    congr 1
    exact (List.map_congr_left ih).trans (List.map_id _)
  | dict es hk _ ih =>
    show Val.dict (withoutEntries K es) = _
    rw [withoutEntries_eq, List.filter_eq_self.2 fun e he => by simp [hk e he]]
    congr 1
    refine (List.map_congr_left (g := id) fun e he => ?_).trans (List.map_id _)
    show (e.1, StripAttr.without K e.2) = e
    rw [ih e he]

theorem strips_normalize {s : StripAttr} {l : List PyStr} (h : Strips s l) :
    normalizeStripAttr s = .tuple l := by
  cases h with
  | none => rfl
  | name s h =>
    cases s with
    | nil => exact absurd rfl h
    | cons a s => rfl
  | tuple l => exact normalize_tuple l

end

/-! ## C118 -/

section
variable (E : Env) (n : Nat) (v : Val) (cls : Option Ty) (kw : DumpKw) (s : StripAttr)
  (l l' K : List PyStr)

/-- C118, general: dicts of the program may have keys with the names. -/
theorem strip_attr_less_partial (hds : DefaultSers E kw.fork)
    (hw : E.warns kw.fork "attribute-not-serialized".toList = true) (hS : Strippable E v K kw)
    (hst : kw.strict = false) (hkt : kw.keyTransformer = none) (hvb : kw.verbose = {})
    (hsc : kw.storeCls = false) (hl : Strips kw.stripAttr l) (hl' : Strips s l')
    (hK : ∀ a, a ∈ l' ↔ a ∈ l ∨ a ∈ K) (hq : Quiet (dump E n v cls kw)) :
    (∃ d d', (dump E n v cls kw).val = .ok d ∧
      (dump E n v cls { kw with stripAttr := s }).val = .ok d' ∧ Less K d d' ∧
      (Clean E v K kw → d' = without K d)) ∨
    ∃ e, (dump E n v cls kw).val = .error e ∧
      (dump E n v cls { kw with stripAttr := s }).val = .error e := by
  have ho : Opts K kw kw { kw with stripAttr := s } :=
    ⟨rfl, rfl, hst, hkt, hvb, hsc, rfl, rfl, l, l', strips_normalize hl, strips_normalize hl', hK⟩
  rcases (recSim hds hw hS n).dump (cls := cls) .self ho hq with ⟨d, d', h1, h2, h3, h4⟩ | h
  · refine .inl ⟨d, d', h1, h2, h3, fun hc => ?_⟩
    rw [h3.without, (h4 hc).without]
  · exact .inr h

/-- C118: `dump` with further names in `strip_attr` returns what it returns without them, less
the entries with these names, at every depth; or it raises the same exception. -/
theorem strip_attr_partial (hds : DefaultSers E kw.fork)
    (hw : E.warns kw.fork "attribute-not-serialized".toList = true) (hS : Strippable E v K kw)
    (hC : Clean E v K kw)
    (hst : kw.strict = false) (hkt : kw.keyTransformer = none) (hvb : kw.verbose = {})
    (hsc : kw.storeCls = false) (hl : Strips kw.stripAttr l) (hl' : Strips s l')
    (hK : ∀ a, a ∈ l' ↔ a ∈ l ∨ a ∈ K) (hq : Quiet (dump E n v cls kw)) :
    (dump E n v cls { kw with stripAttr := s }).val = (dump E n v cls kw).val.map (without K) := by
  rcases strip_attr_less_partial E n v cls kw s l l' K hds hw hS hst hkt hvb hsc hl hl' hK hq with
    ⟨d, d', h1, h2, _, h⟩ | ⟨e, h1, h2⟩
  · rw [h1, h2, h hC]; rfl
  · rw [h1, h2]; rfl

/-- C118, C110 and C111 together: `strip_attr`, `strip_nulls`, `key_transformer` and `verbose` in
one call, each does its own to the plain result. -/
theorem strip_attr_style_partial (vb : Verbosity) (sn : Bool) (kt : Option (PyStr → Except Err PyStr))
    (f : PyStr → PyStr) (hds : DefaultSers E kw.fork)
    (hw : E.warns kw.fork "attribute-not-serialized".toList = true) (hS : Strippable E v K kw)
    (hC : Clean E v K kw)
    (hm : VerboseAdds.Markable E v
      { kw with stripAttr := s, verbose := vb, stripNulls := sn, keyTransformer := kt })
    (hy : DumpStyle.Styleable E v { kw with stripAttr := s } sn kt f)
    (hst : kw.strict = false) (hsn : kw.stripNulls = false) (hkt : kw.keyTransformer = none)
    (hvb : kw.verbose = {}) (hsc : kw.storeCls = false) (hl : Strips kw.stripAttr l) (hl' : Strips s l')
    (hK : ∀ a, a ∈ l' ↔ a ∈ l ∨ a ∈ K) (hq : Quiet (dump E n v cls kw)) :
    (dump E n v cls { kw with
      stripAttr := s, verbose := vb, stripNulls := sn, keyTransformer := kt }).val.map VerboseAdds.unmeta =
      (dump E n v cls kw).val.map fun d => DumpStyle.restyle sn f (without K d) := by
  have h1 := strip_attr_partial E n v cls kw s l l' K hds hw hS hC hst hkt hvb hsc hl hl' hK hq
  have h2 := congrArg Res.val (VerboseAdds.verbose_style_partial E n v cls { kw with stripAttr := s } vb sn kt f
    hds hm hy hsn hkt hvb hsc)
  simp only [after] at h2
  rw [h2, h1]
  cases (dump E n v cls kw).val <;> rfl

/-- C118 for an object, also with dicts that have keys with the names: of the entries of the
object itself exactly those with the names are missing. -/
theorem strip_attr_object_partial (c : Nat) (as : List (PyStr × Val)) (hv : v = .obj c as)
    (hplain : (Ty.cls (.user c)).serFn E.info = some .object)
    (hds : DefaultSers E kw.fork)
    (hw : E.warns kw.fork "attribute-not-serialized".toList = true) (hS : Strippable E v K kw)
    (hst : kw.strict = false) (hkt : kw.keyTransformer = none) (hvb : kw.verbose = {})
    (hsc : kw.storeCls = false) (hl : Strips kw.stripAttr l) (hl' : Strips s l')
    (hK : ∀ a, a ∈ l' ↔ a ∈ l ∨ a ∈ K) (hq : Quiet (dump E n v none kw)) {d : Val}
    (hd : (dump E n v none kw).val = .ok d) :
    ∃ d', (dump E n v none { kw with stripAttr := s }).val = .ok d' ∧ LessObj K d d' := by
  subst hv
  have ho : Opts K kw kw { kw with stripAttr := s } :=
    ⟨rfl, rfl, hst, hkt, hvb, hsc, rfl, rfl, l, l', strips_normalize hl, strips_normalize hl', hK⟩
  match n, hq, hd with
  | 0, _, hd => cases hd
  | 1, _, hd =>
    exfalso
    revert hd
    show (dumpWith E (recOf E 0) (.obj c as) none kw).val ≠ .ok d
    unfold dumpWith
    intro hd
    simp only [Core.bind_ok] at hd
    obtain ⟨fn, h1, _, _, x, h2, h3⟩ := hd
    rw [attempt_val] at h2
    cases fn with
    | none => cases h2; cases h3
    | some g => cases h2; cases h3
  | n + 2, hq, hd =>
    have hsim : Sim (fun d d' => LessObj K d d' ∧ (Clean E (.obj c as) K kw → Free K d'))
        (dumpWith E (recOf E (n + 1)) (.obj c as) none kw)
        (dumpWith E (recOf E (n + 1)) (.obj c as) none { kw with stripAttr := s }) := by
      unfold dumpWith
      refine Sim.bindSame fun fn hfn => ?_
      rw [liftK_ok, hds] at hfn
      have hfn := Except.ok.inj hfn
      refine Sim.bindSame fun _ _ => ?_
      have hfn' : fn = some .object := by rw [← hfn]; exact hplain
      subst hfn'
      simp only
      refine Sim.bind (objectSer_obj_sim hds hw hS (recSim hds hw hS n) ho .self).attempt
        fun x y _ hxy => ?_
      rcases hxy with ⟨d, d', rfl, rfl, h⟩ | ⟨e, rfl, rfl⟩
      · exact Sim.pure h
      · exact Sim.raise _
    rcases hsim hq with ⟨a, d', h1, h2, h3⟩ | ⟨e, h1, _⟩
    · have : a = d := Except.ok.inj (h1.symm.trans hd)
      subst this
      exact ⟨d', h2, h3.1⟩
    · cases h1.symm.trans hd

end

/-! ## What is not so -/

/-- C118 is false if an attribute cannot be dumped: jsons stops there with a warning, so with
that attribute stripped there are more entries, not less. -/
theorem strip_attr_fails_dropped :
    (dump (demoEnv demoInfo) 9 (.obj 0 [("x".toList, .str ['a']), ("y".toList, .int 2)]) none {}).val =
      .ok (.dict []) ∧
    (dump (demoEnv demoInfo) 9 (.obj 0 [("x".toList, .str ['a']), ("y".toList, .int 2)]) none
      { stripAttr := .name "x".toList }).val = .ok (.dict [(.str "y".toList, .int 2)]) := by
  decide +kernel

/-- C118 is false in strict mode: the exception goes with the attribute. -/
theorem strip_attr_fails_strict :
    (match (dump (demoEnv demoInfo) 9 (.obj 0 [("x".toList, .str ['a']), ("y".toList, .int 2)]) none
        { strict := true }).val with
      | .error e => decide (e.kind = .serializationError)
      | .ok _ => false) = true ∧
    (dump (demoEnv demoInfo) 9 (.obj 0 [("x".toList, .str ['a']), ("y".toList, .int 2)]) none
      { strict := true, stripAttr := .name "x".toList }).val = .ok (.dict [(.str "y".toList, .int 2)]) := by
  decide +kernel

/-- C118 is false of classes made with `attrs`: the entry that goes has another name. -/
theorem strip_attr_fails_attrs :
    let E := demoEnv fun c => if c = 6 then { demoInfo 6 with isAttrs := true } else demoInfo c
    (dump E 9 (.obj 6 [("_x".toList, .int 1)]) none {}).val = .ok (.dict [(.str "x".toList, .int 1)]) ∧
    (dump E 9 (.obj 6 [("_x".toList, .int 1)]) none { stripAttr := .name "_x".toList }).val =
      .ok (.dict []) ∧
    (dump E 9 (.obj 6 [("_x".toList, .int 1)]) none { stripAttr := .name "x".toList }).val =
      .ok (.dict [(.str "x".toList, .int 1)]) := by
  decide +kernel

/-- Entries of dicts of the program stay: `strip_attr` is about attributes. -/
theorem strip_attr_keeps_dicts :
    (dump (demoEnv demoInfo) 9 (.obj 6 [("d".toList, .dict [(.str "x".toList, .int 1)]), ("x".toList, .int 2)])
      none { stripAttr := .name "x".toList }).val =
      .ok (.dict [(.str "d".toList, .dict [(.str "x".toList, .int 1)])]) := by
  decide +kernel

/-! ## Examples -/

open Verif.Props.VerboseAdds (figure figure_mem figurePart_attr figure_markable)

/-- The names go at every depth. -/
example :
    (dump (demoEnv demoInfo) 9 figure none {}).val = .ok (.dict [
      (.str "all".toList, .list [.dict [(.str "x".toList, .int 1)]]),
      (.str "main".toList, .dict [(.str "x".toList, .int 1)])]) ∧
    (dump (demoEnv demoInfo) 9 figure none { stripAttr := .name "x".toList }).val = .ok (.dict [
      (.str "all".toList, .list [.dict []]), (.str "main".toList, .dict [])]) ∧
    (dump (demoEnv demoInfo) 9 figure none { stripAttr := .tuple ["x".toList, "main".toList] }).val =
      .ok (.dict [(.str "all".toList, .list [.dict []])]) := by
  decide +kernel

theorem figure_strippable (K : List PyStr) : Strippable (demoEnv demoInfo) figure K {} := by
  constructor
  · exact (figure_markable {}).kind
  · intro es g h e he
    exact ((figure_markable {}).key es g h e he).1
  · intro c as h a _ ha
    rcases figure_mem h with h | h | h | ⟨m, h⟩ <;> simp [figure, VerboseAdds.point] at h
    · obtain ⟨rfl, rfl⟩ := h
      simp [demoEnv, demoInfo] at ha
      rcases ha with rfl | rfl
      · exact ⟨⟨_, rfl⟩, by simp [demoEnv, demoInfo, assoc]⟩
      · exact ⟨⟨_, rfl⟩, by simp [demoEnv, demoInfo, assoc]⟩
    · obtain ⟨rfl, rfl⟩ := h
      simp [demoEnv, demoInfo] at ha
      subst ha
      exact ⟨⟨_, rfl⟩, by simp [demoEnv, demoInfo, assoc]⟩
  · intro c as h
    rcases figure_mem h with h | h | h | ⟨m, h⟩ <;> simp [figure, VerboseAdds.point] at h
    · obtain ⟨rfl, rfl⟩ := h; exact .inl rfl
    · obtain ⟨rfl, rfl⟩ := h; exact .inl rfl
  · intro w t k s
    exact ⟨rfl, fun as h => (by cases h; exact fun p hp => (by cases hp)), fun e h => (by cases h)⟩
  · intro w a e h
    unfold Env.getAttr at h
    split at h
    · split at h
      · cases h
      · split at h
        · cases h
        · split at h
          · cases h
          · cases h; rfl
    · cases h; rfl

theorem figure_clean (K : List PyStr)
    (hK : ∀ s ∈ ["name".toList, "offset".toList, "key".toList, "real".toList, "imag".toList], s ∉ K) :
    Clean (demoEnv demoInfo) figure K {} := by
  constructor
  · exact (figure_markable {}).raw
  · intro es g h
    rcases h with h | h <;> rcases figure_mem h with h | h | h | ⟨m, h⟩ <;>
      simp [figure, VerboseAdds.point] at h
  · intro c xs h
    rcases figure_mem h with h | h | h | ⟨m, h⟩ <;> simp [figure, VerboseAdds.point] at h
  · exact hK

theorem quiet_of_all {α : Type} {x : Res α}
    (h : x.log.all (fun ev => match ev with | .warn _ _ => false | _ => true) = true) : Quiet x := by
  intro m hm
  have := List.all_eq_true.1 h _ hm
  cases this

theorem figure_quiet : Quiet (dump (demoEnv demoInfo) 9 figure none {}) :=
  quiet_of_all (by decide +kernel)

/-- The theorem for the figure. -/
example : (dump (demoEnv demoInfo) 9 figure none { stripAttr := .name "x".toList }).val =
    (dump (demoEnv demoInfo) 9 figure none {}).val.map (without ["x".toList]) :=
  strip_attr_partial _ 9 figure none {} (.name "x".toList) [] ["x".toList] ["x".toList] (demo_sers 0) rfl
    (figure_strippable _) (figure_clean _ (by decide)) rfl rfl rfl rfl .none (.name _ (by decide))
    (by simp) figure_quiet

theorem figure_styleable : DumpStyle.Styleable (demoEnv demoInfo) figure { stripAttr := .name "x".toList }
    true (some DumpStyle.camel) DumpStyle.camelName := by
  have hattr : ∀ {u w : Val} {m : PyStr}, Reachable (demoEnv demoInfo) figure u →
      m ≠ "all".toList → m ≠ "main".toList → m ≠ "x".toList →
      (demoEnv demoInfo).getAttr u m ≠ .ok w := by
    intro u w m hu h1 h2 h3 h
    rcases figurePart_attr (figure_mem hu) h with ⟨_, e⟩ | ⟨_, e⟩ | ⟨_, e⟩
    · exact h1 e
    · exact h2 e
    · exact h3 e
  constructor
  · exact (figure_markable {}).kind
  · constructor
    · intro c m w _ h
      rcases figure_mem h with h | h | h | ⟨m, h⟩ <;> simp [figure, VerboseAdds.point] at h
    · intro u w hu _ h
      exact absurd h (hattr (m := "name".toList) hu (by decide) (by decide) (by decide))
    · intro u w hu h
      exact h.elim (fun h => absurd h (hattr hu (by decide) (by decide) (by decide)))
        fun h => absurd h (hattr hu (by decide) (by decide) (by decide))
  · decide
  · intro es g h
    rcases h with h | h <;> rcases figure_mem h with h | h | h | ⟨m, h⟩ <;>
      simp [figure, VerboseAdds.point] at h
  · intro c xs h
    rcases figure_mem h with h | h | h | ⟨m, h⟩ <;> simp [figure, VerboseAdds.point] at h
  · intro c as h
    rcases figure_mem h with h | h | h | ⟨m, h⟩ <;> simp [figure, VerboseAdds.point] at h
    · obtain ⟨rfl, rfl⟩ := h
      constructor
      · intro a ha
        simp [demoEnv, demoInfo] at ha
        rcases ha with rfl | rfl <;> rfl
      · intro a b ha hb
        simp [demoEnv, demoInfo] at ha hb
        rcases ha with rfl | rfl <;> rcases hb with rfl | rfl <;> decide
    · obtain ⟨rfl, rfl⟩ := h
      constructor
      · intro a ha
        simp [demoEnv, demoInfo] at ha
        subst ha; rfl
      · intro a b ha hb
        simp [demoEnv, demoInfo] at ha hb
        rw [ha, hb]
        exact fun _ => rfl
  · intro h; cases h
  · intro w t k
    exact ⟨rfl, fun as h => (by cases h; exact ⟨List.nodup_nil, fun p hp => (by cases hp)⟩)⟩

/-- All options together. -/
example (vb : Verbosity) : (dump (demoEnv demoInfo) 9 figure none
      { stripAttr := .name "x".toList, verbose := vb, stripNulls := true,
        keyTransformer := some DumpStyle.camel }).val.map VerboseAdds.unmeta =
    (dump (demoEnv demoInfo) 9 figure none {}).val.map fun d =>
      DumpStyle.restyle true DumpStyle.camelName (without ["x".toList] d) := by
  have hattrs : ∀ s : PyStr, s ∈ ["all".toList, "main".toList, "x".toList] →
      VerboseAdds.KeyFree (some DumpStyle.camel) (.str s) := by
    have mk : ∀ {s t : PyStr}, DumpStyle.camel s = .ok t → VerboseAdds.NotReserved (.str t) →
        VerboseAdds.KeyFree (some DumpStyle.camel) (.str s) := by
      intro s t e ht s' h
      rw [e] at h
      cases h
      exact ht
    intro s hs
    simp only [List.mem_cons, List.not_mem_nil, or_false] at hs
    rcases hs with h | h | h <;> rw [h]
    · exact mk (t := "all".toList) rfl ⟨by decide, by decide⟩
    · exact mk (t := "main".toList) rfl ⟨by decide, by decide⟩
    · exact mk (t := "x".toList) rfl ⟨by decide, by decide⟩
  refine strip_attr_style_partial _ 9 figure none {} (.name "x".toList) [] ["x".toList] ["x".toList] vb true
    (some DumpStyle.camel) DumpStyle.camelName (demo_sers 0) rfl (figure_strippable _)
    (figure_clean _ (by decide)) ?_ figure_styleable rfl rfl rfl rfl rfl .none (.name _ (by decide))
    (by simp) figure_quiet
  have hM := figure_markable vb
  refine ⟨hM.kind, hM.raw, ?_, hM.ntuple, ?_, (fun h => by cases h), ?_⟩
  · intro es g h
    rcases h with h | h <;> rcases figure_mem h with h | h | h | ⟨m, h⟩ <;>
      simp [figure, VerboseAdds.point] at h
  · intro c as h a ha
    rcases figure_mem h with h | h | h | ⟨m, h⟩ <;> simp [figure, VerboseAdds.point] at h
    · obtain ⟨rfl, rfl⟩ := h
      simp [demoEnv, demoInfo] at ha
      rcases ha with rfl | rfl
      · exact hattrs "all".toList (by simp)
      · exact hattrs "main".toList (by simp)
    · obtain ⟨rfl, rfl⟩ := h
      simp [demoEnv, demoInfo] at ha
      subst ha
      exact hattrs "x".toList (by simp)
  · intro w t k
    exact ⟨rfl, fun as h => (by cases h; exact fun p hp => (by cases hp))⟩

/-- The theorem for the figure as an object. -/
example : ∃ d', (dump (demoEnv demoInfo) 9 figure none { stripAttr := .name "main".toList }).val = .ok d' ∧
    LessObj ["main".toList] (.dict [
      (.str "all".toList, .list [.dict [(.str "x".toList, .int 1)]]),
      (.str "main".toList, .dict [(.str "x".toList, .int 1)])]) d' :=
  strip_attr_object_partial _ 9 figure {} (.name "main".toList) [] ["main".toList] ["main".toList] 6 _ rfl rfl
    (demo_sers 0) rfl (figure_strippable _) rfl rfl rfl rfl .none (.name _ (by decide)) (by simp)
    figure_quiet (by decide +kernel)

end Verif.Props.StripAttr
