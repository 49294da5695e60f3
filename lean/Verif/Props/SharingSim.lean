import Verif.Core.Heap
import Verif.Core.ResLemmas
import Verif.Core.Json
import Verif.Core.Dispatch
import Verif.Props.Registrations

/-! # What a dump shares with the object (C104) -/

set_option autoImplicit false

namespace Verif.Props.Sharing

open Verif Verif.Core Verif.Datetime

/-! ## Values and identities -/

theorem eraseList_eq (xs : List HVal) : HVal.eraseList xs = xs.map HVal.erase := by
  induction xs with
  | nil => rfl
  | cons x xs ih => simp only [HVal.eraseList, List.map_cons, ih]

theorem eraseEntries_eq (es : List (HVal × HVal)) : HVal.eraseEntries es = es.map fun e => (e.1.erase, e.2.erase) := by
  induction es with
  | nil => rfl
  | cons e es ih => obtain ⟨k, v⟩ := e; simp only [HVal.eraseEntries, List.map_cons, ih]

theorem eraseAttrs_eq (as : List (PyStr × HVal)) : HVal.eraseAttrs as = as.map fun e => (e.1, e.2.erase) := by
  induction as with
  | nil => rfl
  | cons e es ih => obtain ⟨k, v⟩ := e; simp only [HVal.eraseAttrs, List.map_cons, ih]

mutual
theorem fresh_erase : ∀ v : Val, (HVal.fresh v).erase = v
  | .atom _ => rfl
  | .seq k xs => by simp only [HVal.fresh, HVal.erase, freshList_erase xs]
  | .dict es => by simp only [HVal.fresh, HVal.erase, freshEntries_erase es]
  | .ddict f es => by simp only [HVal.fresh, HVal.erase, freshEntries_erase es]
  | .ntuple c xs => by simp only [HVal.fresh, HVal.erase, freshList_erase xs]
  | .enum _ _ => rfl
  | .obj c as => by simp only [HVal.fresh, HVal.erase, freshAttrs_erase as]
theorem freshList_erase : ∀ xs : List Val, HVal.eraseList (HVal.freshList xs) = xs
  | [] => rfl
  | x :: xs => by simp only [HVal.freshList, HVal.eraseList, fresh_erase x, freshList_erase xs]
theorem freshEntries_erase : ∀ es : List (Val × Val), HVal.eraseEntries (HVal.freshEntries es) = es
  | [] => rfl
  | (k, v) :: es => by simp only [HVal.freshEntries, HVal.eraseEntries, fresh_erase k, fresh_erase v, freshEntries_erase es]
theorem freshAttrs_erase : ∀ as : List (PyStr × Val), HVal.eraseAttrs (HVal.freshAttrs as) = as
  | [] => rfl
  | (n, v) :: as => by simp only [HVal.freshAttrs, HVal.eraseAttrs, fresh_erase v, freshAttrs_erase as]
end

mutual
theorem fresh_labels : ∀ v : Val, (HVal.fresh v).labels = []
  | .atom _ => rfl
  | .seq k xs => by simp only [HVal.fresh, HVal.labels, freshList_labels xs]; rfl
  | .dict es => by simp only [HVal.fresh, HVal.labels, freshEntries_labels es]; rfl
  | .ddict f es => by simp only [HVal.fresh, HVal.labels, freshEntries_labels es]; rfl
  | .ntuple c xs => by simp only [HVal.fresh, HVal.labels, freshList_labels xs]; rfl
  | .enum _ _ => rfl
  | .obj c as => by simp only [HVal.fresh, HVal.labels, freshAttrs_labels as]; rfl
theorem freshList_labels : ∀ xs : List Val, HVal.labelsList (HVal.freshList xs) = []
  | [] => rfl
  | x :: xs => by simp only [HVal.freshList, HVal.labelsList, fresh_labels x, freshList_labels xs]; rfl
theorem freshEntries_labels : ∀ es : List (Val × Val), HVal.labelsEntries (HVal.freshEntries es) = []
  | [] => rfl
  | (k, v) :: es => by
    simp only [HVal.freshEntries, HVal.labelsEntries, fresh_labels k, fresh_labels v, freshEntries_labels es]; rfl
theorem freshAttrs_labels : ∀ as : List (PyStr × Val), HVal.labelsAttrs (HVal.freshAttrs as) = []
  | [] => rfl
  | (n, v) :: as => by simp only [HVal.freshAttrs, HVal.labelsAttrs, fresh_labels v, freshAttrs_labels as]; rfl
end

theorem iter_erase (v : HVal) : v.erase.iter = v.iter.map fun xs => xs.map HVal.erase := by
  cases v with
  | atom a =>
    cases a with
    | str s => simp [HVal.erase, Val.iter, HVal.iter, HVal.str]
    | _ => rfl
  | seq l k xs => simp [HVal.erase, Val.iter, HVal.iter, eraseList_eq]
  | dict l es => simp [HVal.erase, Val.iter, HVal.iter, eraseEntries_eq]
  | ddict l f es => simp [HVal.erase, Val.iter, HVal.iter, eraseEntries_eq]
  | ntuple l c xs => simp [HVal.erase, Val.iter, HVal.iter, eraseList_eq]
  | enum c m => rfl
  | obj l c as => rfl

theorem hget_erase (es : List (HVal × HVal)) (k : Val) : dictGet (HVal.eraseEntries es) k = (hget es k).map HVal.erase := by
  induction es with
  | nil => rfl
  | cons e es ih =>
    obtain ⟨k', v⟩ := e
    simp only [HVal.eraseEntries, dictGet, hget]
    split
    · rfl
    · exact ih

theorem hset_erase (es : List (HVal × HVal)) (k v : HVal) :
    HVal.eraseEntries (hset es k v) = dictSet (HVal.eraseEntries es) k.erase v.erase := by
  induction es with
  | nil => rfl
  | cons e es ih =>
    obtain ⟨k', v'⟩ := e
    simp only [HVal.eraseEntries, dictSet, hset]
    split
    · simp only [HVal.eraseEntries]
    · simp only [HVal.eraseEntries, ih]

theorem eraseEntries_append (es es' : List (HVal × HVal)) :
    HVal.eraseEntries (es ++ es') = HVal.eraseEntries es ++ HVal.eraseEntries es' := by
  simp [eraseEntries_eq]

section
variable {L : Nat → Prop}

/-- All identities in the value are among `L`. -/
def Within (L : Nat → Prop) (v : HVal) : Prop := ∀ i ∈ v.labels, L i

/-- All identities in the entries are among `L`. -/
def WithinE (L : Nat → Prop) (es : List (HVal × HVal)) : Prop := ∀ e ∈ es, Within L e.1 ∧ Within L e.2

theorem labelsList_mem {i : Nat} (xs : List HVal) : i ∈ HVal.labelsList xs ↔ ∃ x ∈ xs, i ∈ x.labels := by
  induction xs with
  | nil => simp [HVal.labelsList]
  | cons x xs ih => simp [HVal.labelsList, ih]

theorem labelsEntries_mem {i : Nat} (es : List (HVal × HVal)) :
    i ∈ HVal.labelsEntries es ↔ ∃ e ∈ es, i ∈ e.1.labels ∨ i ∈ e.2.labels := by
  induction es with
  | nil => simp [HVal.labelsEntries]
  | cons e es ih => obtain ⟨k, v⟩ := e; simp [HVal.labelsEntries, ih, or_assoc]

theorem within_list {xs : List HVal} (h : ∀ x ∈ xs, Within L x) (k : SeqKind) : Within L (.seq none k xs) := by
  intro i hi
  simp only [HVal.labels, Option.toList_none, List.nil_append, labelsList_mem] at hi
  obtain ⟨x, hx, hi⟩ := hi
  exact h x hx i hi

theorem within_dict {es : List (HVal × HVal)} {l : Option Nat} (hl : ∀ i, l = some i → L i) (h : WithinE L es) :
    Within L (.dict l es) := by
  intro i hi
  simp only [HVal.labels, List.mem_append, Option.mem_toList, labelsEntries_mem] at hi
  rcases hi with hi | ⟨e, he, hi | hi⟩
  · exact hl i hi
  · exact (h e he).1 i hi
  · exact (h e he).2 i hi

theorem dict_within {es : List (HVal × HVal)} {l : Option Nat} (h : Within L (.dict l es)) :
    (∀ i, l = some i → L i) ∧ WithinE L es := by
  refine ⟨fun i hi => h i ?_, fun e he => ⟨fun i hi => h i ?_, fun i hi => h i ?_⟩⟩ <;>
    simp only [HVal.labels, List.mem_append, Option.mem_toList, labelsEntries_mem]
  · exact .inl hi
  · exact .inr ⟨e, he, .inl hi⟩
  · exact .inr ⟨e, he, .inr hi⟩

theorem within_atom (a : Atom) : Within L (.atom a) := fun _ h => by cases h

theorem within_fresh (v : Val) : Within L (HVal.fresh v) := by
  intro i hi
  rw [fresh_labels] at hi
  cases hi

theorem hget_within {es : List (HVal × HVal)} {k : Val} {v : HVal} (h : WithinE L es) (hv : hget es k = some v) :
    Within L v := by
  induction es with
  | nil => cases hv
  | cons e es ih =>
    obtain ⟨k', v'⟩ := e
    simp only [hget] at hv
    split at hv
    · cases hv
      exact (h _ List.mem_cons_self).2
    · exact ih (fun e he => h e (List.mem_cons_of_mem _ he)) hv

theorem hset_within {es : List (HVal × HVal)} {k v : HVal} (h : WithinE L es) (hk : Within L k) (hv : Within L v) :
    WithinE L (hset es k v) := by
  induction es with
  | nil =>
    intro e he
    simp only [hset, List.mem_singleton] at he
    subst he
    exact ⟨hk, hv⟩
  | cons e es ih =>
    obtain ⟨k', v'⟩ := e
    have h1 := h _ List.mem_cons_self
    have h2 : WithinE L es := fun e he => h e (List.mem_cons_of_mem _ he)
    simp only [hset]
    split
    · intro e he
      rcases List.mem_cons.1 he with rfl | he
      · exact ⟨h1.1, hv⟩
      · exact h2 e he
    · intro e he
      rcases List.mem_cons.1 he with rfl | he
      · exact h1
      · exact ih h2 e he

end

/-! ## Results -/

/-- Two outcomes with related values, or the same exception. -/
inductive ExRel {α β : Type} (S : α → β → Prop) : Except Err α → Except Err β → Prop
  | ok {a : α} {b : β} (h : S a b) : ExRel S (.ok a) (.ok b)
  | err (e : Err) : ExRel S (.error e) (.error e)

/-- The same warnings, related outcomes, and no writes outside of `L`. -/
structure Sim {α β : Type} (L : Nat → Prop) (S : α → β → Prop) (x : WRes α) (y : Res β) : Prop where
  log : x.res.log = y.log
  writes : ∀ w ∈ x.writes, L w
  val : ExRel S x.res.val y.val

section
variable {α β γ δ : Type} {L : Nat → Prop} {S : α → β → Prop} {S' : γ → δ → Prop}

theorem sim_pure {a : α} {b : β} (h : S a b) : Sim L S (pure a) (pure b) :=
  ⟨rfl, (fun _ h => by cases h), .ok h⟩

theorem sim_raise (e : Err) : Sim L S (WRes.raise e) (Res.raise e) :=
  ⟨rfl, (fun _ h => by cases h), .err e⟩

theorem sim_of {x : Res α} {y : Res β} (hl : x.log = y.log) (hv : ExRel S x.val y.val) : Sim L S (.of x) y :=
  ⟨hl, (fun _ h => by cases h), hv⟩

theorem exRel_refl {x : Except Err α} : ExRel Eq x x := by
  cases x with
  | ok a => exact .ok rfl
  | error e => exact .err e

theorem sim_same (x : Res α) : Sim L Eq (.of x) x := sim_of rfl exRel_refl

theorem sim_lift {x : Except Err α} {y : Except Err β} (h : ExRel S x y) : Sim L S (.of (Res.lift x)) (Res.lift y) := by
  refine sim_of (by rw [lift_log, lift_log]) ?_
  rw [lift_val, lift_val]
  exact h

theorem sim_bind {x : WRes α} {y : Res β} {f : α → WRes γ} {g : β → Res δ} (h : Sim L S x y)
    (hf : ∀ a b, S a b → Sim L S' (f a) (g b)) : Sim L S' (x >>= f) (y >>= g) := by
  obtain ⟨hl, hw, hv⟩ := h
  show Sim L S' (WRes.bind x f) (Res.bind y g)
  unfold WRes.bind Res.bind
  cases hx : x.res.val with
  | ok a =>
    rw [hx] at hv
    cases hy : y.val with
    | ok b =>
      rw [hy] at hv
      cases hv with
      | ok h =>
        have := hf a b h
        refine ⟨?_, ?_, this.val⟩
        · show x.res.log ++ (f a).res.log = y.log ++ (g b).log
          rw [hl, this.log]
        · intro w hw'
          rcases List.mem_append.1 hw' with h | h
          · exact hw w h
          · exact this.writes w h
    | error e => rw [hy] at hv; cases hv
  | error e =>
    rw [hx] at hv
    cases hy : y.val with
    | ok b => rw [hy] at hv; cases hv
    | error e' =>
      rw [hy] at hv
      cases hv
      exact ⟨hl, hw, .err e⟩

theorem sim_attempt {x : WRes α} {y : Res β} (h : Sim L S x y) : Sim L (ExRel S) x.attempt y.attempt :=
  ⟨h.log, h.writes, .ok h.val⟩

theorem sim_write {l : Option Nat} (h : ∀ i, l = some i → L i) : Sim L Eq (WRes.write l) (pure ()) :=
  ⟨rfl, fun w hw => h w (by simpa [WRes.write] using hw), .ok rfl⟩

/-- A write before the rest. -/
theorem sim_write_then {l : Option Nat} (h : ∀ i, l = some i → L i) {f : Unit → WRes α} {y : Res β}
    (hf : Sim L S (f ()) y) : Sim L S (WRes.write l >>= f) y := by
  have := sim_bind (sim_write h) (f := f) (g := fun _ => y) fun a b _ => hf
  rwa [pure_bind'] at this

theorem sim_map (f : γ → WRes α) (g : δ → Res β) : ∀ (xs : List γ) (ys : List δ), List.Forall₂ (fun x y => Sim L S (f x) (g y)) xs ys →
    Sim L (List.Forall₂ S) (mapW f xs) (mapRes g ys)
  | _, _, .nil => sim_pure .nil
  | _, _, .cons h hs => by
    unfold mapW mapRes
    exact sim_bind h fun a b hab => sim_bind (sim_map f g _ _ hs) fun as bs has => sim_pure (.cons hab has)

end

/-- What comes out: the same value, with identities among `L`. -/
def Out (L : Nat → Prop) (a : HVal) (b : Val) : Prop := a.erase = b ∧ Within L a

/-- The same for entries. -/
def OutE (L : Nat → Prop) (es : List (HVal × HVal)) (es' : List (Val × Val)) : Prop :=
  HVal.eraseEntries es = es' ∧ WithinE L es

section
variable {L : Nat → Prop}

theorem out_list {ys : List HVal} {zs : List Val} (h : List.Forall₂ (Out L) ys zs) :
    Out L (.seq none .list ys) (.list zs) := by
  have he : ys.map HVal.erase = zs := by
    induction h with
    | nil => rfl
    | cons h _ ih => simp only [List.map_cons, ih, h.1]
  refine ⟨by simp only [HVal.erase, eraseList_eq, he], within_list ?_ _⟩
  intro x hx
  induction h with
  | nil => cases hx
  | cons h _ ih =>
    rcases List.mem_cons.1 hx with rfl | hx
    · exact h.2
    · exact ih (by simp only [List.map_cons, List.cons.injEq] at he; exact he.2) hx

theorem out_dict {es : List (HVal × HVal)} {es' : List (Val × Val)} (h : OutE L es es') :
    Out L (.dict none es) (.dict es') :=
  ⟨by simp only [HVal.erase, h.1], within_dict (fun i h => by cases h) h.2⟩

theorem outE_nil : OutE L [] [] := ⟨rfl, fun e he => by cases he⟩

theorem outE_set {es : List (HVal × HVal)} {es' : List (Val × Val)} {k v : HVal} {k' v' : Val} (h : OutE L es es')
    (hk : Out L k k') (hv : Out L v v') : OutE L (hset es k v) (dictSet es' k' v') := by
  obtain ⟨rfl, h⟩ := h
  obtain ⟨rfl, hk⟩ := hk
  obtain ⟨rfl, hv⟩ := hv
  exact ⟨hset_erase _ _ _, hset_within h hk hv⟩

theorem out_atom (a : Atom) : Out L (.atom a) (.atom a) := ⟨rfl, within_atom a⟩

theorem sim_made (x : Res Val) : Sim L (Out L) (made x) x := by
  have h : Sim L (Out L) (.of (x >>= fun v => pure (HVal.fresh v))) (x >>= fun v => pure v) := by
    have hs : ∀ v : Val, Out L (HVal.fresh v) v := fun v => ⟨fresh_erase v, within_fresh v⟩
    refine sim_of ?_ ?_
    · rw [bind_log, bind_log]
      cases x.val <;> rfl
    · rw [bind_val, bind_val]
      cases x.val with
      | ok a => exact .ok (hs a)
      | error e => exact .err e
  have hx : (x >>= fun v => pure v) = x := by
    refine Core.res_ext ?_ ?_
    · rw [bind_log]
      cases x.val <;> simp
    · rw [bind_val]
      cases h : x.val <;> rfl
  rw [hx] at h
  exact h

end


/-! ## Which attributes are passed on -/

/-- The circumstances of a call: is it strict, are enum members dumped by value, the names of the attributes that
are asked for as the name or value of an enum member or as the parts of a complex number, the
identities that may be shared, and the types that occur as hints. -/
structure Frame where
  strict : Bool
  byValue : Bool
  Asked : PyStr → Prop
  L : Nat → Prop
  T : Ty → Prop

/-- In strict mode the class of a value is used as a hint for other values. -/
def Own (H : HEnv) (F : Frame) (v : HVal) : Prop :=
  F.strict = true → F.T (.cls v.erase.cls) ∧ F.T (H.getType v.erase)

/-- Values whose parts may be shared only as far as `F` says: the attributes that are asked for have
identities in `F.L` only.  The objects, named tuples and enum members have classes of that kind. -/
inductive Calm (H : HEnv) (F : Frame) : HVal → Prop
  | atom (a : Atom) : Own H F (.atom a) → Calm H F (.atom a)
  | seq (l : Option Nat) (k : SeqKind) (xs : List HVal) : Own H F (.seq l k xs) → (∀ x ∈ xs, Calm H F x) →
      Calm H F (.seq l k xs)
  | dict (l : Option Nat) (es : List (HVal × HVal)) : Own H F (.dict l es) → (∀ e ∈ es, Calm H F e.1) →
      (∀ e ∈ es, Calm H F e.2) → Calm H F (.dict l es)
  | ddict (l : Option Nat) (f : Option Ty) (es : List (HVal × HVal)) : Own H F (.ddict l f es) →
      (∀ e ∈ es, Calm H F e.1) → (∀ e ∈ es, Calm H F e.2) → Calm H F (.ddict l f es)
  | ntuple (l : Option Nat) (c : Nat) (xs : List HVal) : Own H F (.ntuple l c xs) → (H.info c).kind = .ntuple →
      (∀ x ∈ xs, Calm H F x) → Calm H F (.ntuple l c xs)
  | enum (c : Nat) (m : PyStr) : Own H F (.enum c m) → (∃ b, (H.info c).kind = .enum b) → Calm H F (.enum c m)
  | obj (l : Option Nat) (c : Nat) (as : List (PyStr × HVal)) : Own H F (.obj l c as) → (H.info c).kind = .plain →
      (∀ a ∈ as, Calm H F a.2) → (∀ a ∈ as, F.Asked a.1 → Within F.L a.2) → Calm H F (.obj l c as)

/-- An attribute is what it is without identities, and it is shared only as far as `F` says. -/
def Att (H : HEnv) (F : Frame) (n : PyStr) (a : HVal) (b : Val) : Prop :=
  a.erase = b ∧ Calm H F a ∧ (F.Asked n → Within F.L a)

/-- The surroundings with identities are those without, and `F` covers the types and the attributes. -/
structure Setting (H : HEnv) (F : Frame) : Prop where
  sers : ∀ fork t, H.toEnv.getSer fork t = .ok (t.serFn H.info)
  args : ∀ t, F.T t → ∀ u ∈ t.getArgs, F.T u
  params : ∀ t, F.T t → ∀ ts, t.unionParams = some ts → ∀ u ∈ ts, F.T u
  any : F.T .any
  text : ∀ s, Own H F (.str s)
  delta : ∀ us, Own H F (.atom (.timedelta us))
  hints : ∀ c, ∀ p ∈ (H.info c).hints, F.T p.2
  init : F.strict = true → ∀ c, ∀ p ∈ (H.info c).initHints, F.T p.2
  foreign : ∀ v cls kw l, H.foreignAttrs v cls kw = .ok l → ∀ a ∈ l, ∀ t ∈ a.2, F.T t
  askEnum : ∀ t, F.T t → t.serFn H.info = some .enum →
    F.Asked "name".toList ∧ (F.byValue = true → F.Asked "value".toList)
  askComplex : ∀ t, F.T t → t.serFn H.info = some .complex → F.Asked "real".toList ∧ F.Asked "imag".toList
  enumSome : ∀ c m w, assoc (H.info c).enumMembers m = some w →
    ∃ u, H.enumValue c m = some u ∧ u.erase = w ∧ (F.byValue = true → Within F.L u)
  enumNone : ∀ c m, assoc (H.info c).enumMembers m = none → H.enumValue c m = none
  var : ∀ c n a, assoc (H.info c).members n = some (.var a) → ∃ u, H.classVar c n = some u ∧ Att H F n u a
  prop : ∀ l c as n, Calm H F (.obj l c as) → assoc (H.info c).members n = some .prop →
    ExRel (Att H F n) (H.propH c n (.obj l c as)) (H.prop c n (.obj c (HVal.eraseAttrs as)))
  other : ∀ v n, Calm H F v → (∀ l c as, v ≠ .obj l c as) → ExRel (Att H F n) (H.attrOtherH v n) (H.attrOther v.erase n)

/-- The keyword arguments are those of the circumstances. -/
structure KwOk (F : Frame) (kw : DumpKw) : Prop where
  types : ∀ p ∈ kw.types, F.T p.2
  strict : kw.strict = true → F.strict = true
  byValue : kw.useEnumName = false → F.byValue = true

/-- The calls with identities are the calls without, and share only `F.L`. -/
structure RecSim (H : HEnv) (F : Frame) (R : HRec) (R' : Rec) : Prop where
  dump : ∀ v cls kw, Calm H F v → (∀ t ∈ cls, F.T t) → KwOk F kw →
    Sim F.L (Out F.L) (R.dump v cls kw) (R'.dump v.erase cls kw)
  call : ∀ f v cls kw, Calm H F v → (∀ t ∈ cls, F.T t) → KwOk F kw →
    (cls.getD (.cls v.erase.cls)).serFn H.info = some f →
    Sim F.L (Out F.L) (R.call f v cls kw) (R'.call f v.erase cls kw)

section
variable {H : HEnv} {F : Frame} {R : HRec} {R' : Rec}

theorem assocH_erase (as : List (PyStr × HVal)) (n : PyStr) :
    assoc (HVal.eraseAttrs as) n = (assoc as n).map HVal.erase := by
  induction as with
  | nil => rfl
  | cons a as ih =>
    obtain ⟨m, v⟩ := a
    simp only [HVal.eraseAttrs, assoc]
    split
    · rfl
    · exact ih

theorem getAttr_sim (hS : Setting H F) {v : HVal} (hv : Calm H F v) (n : PyStr) :
    ExRel (Att H F n) (H.getAttrH v n) (H.getAttr v.erase n) := by
  cases v
  case obj l c as =>
    unfold HEnv.getAttrH Env.getAttr
    simp only [HVal.erase]
    have hrest : ∀ m, assoc (H.info c).members n = m → ExRel (Att H F n)
        (match assoc as n with
          | some a => .ok a
          | none => match m with
            | some (.var _) => match H.classVar c n with
              | some a => .ok a
              | none => .error { kind := .attributeError }
            | _ => .error { kind := .attributeError })
        (match assoc (HVal.eraseAttrs as) n with
          | some a => .ok a
          | none => match m with
            | some (.var a) => .ok a
            | _ => .error { kind := .attributeError }) := by
      intro m hm
      rw [assocH_erase]
      cases ha : assoc as n with
      | some a =>
        cases hv with
        | obj _ _ _ h1 h2 h3 h4 => exact .ok ⟨rfl, h3 _ (Core.assoc_mem ha), h4 _ (Core.assoc_mem ha)⟩
      | none =>
        cases m with
        | none => exact .err _
        | some m =>
          cases m with
          | var a =>
            obtain ⟨u, hu, h⟩ := hS.var c n a hm
            simp only [hu, Option.map_none]
            exact .ok h
          | _ => exact .err _
    cases hm : assoc (H.info c).members n with
    | none => exact hrest _ hm
    | some m =>
      cases m with
      | prop => exact hS.prop l c as n hv hm
      | _ => exact hrest _ hm
  all_goals
    exact hS.other _ n hv (fun _ _ _ h => by cases h)

/-- What is an instance of a primitive class has no identity. -/
theorem prim_labels {v : HVal} (hv : Calm H F v) {c : Cls}
    (hc : c = .str ∨ c = .int ∨ c = .float ∨ c = .bool ∨ c = .noneType) (h : v.erase.cls.sub H.info c = true) :
    v.labels = [] := by
  cases hv with
  | atom a _ => rfl
  | enum c m _ _ => rfl
  | seq l k xs _ _ => cases k <;> rcases hc with rfl | rfl | rfl | rfl | rfl <;> simp [HVal.erase, Val.cls, SeqKind.cls, Cls.sub] at h
  | dict l es _ _ _ => rcases hc with rfl | rfl | rfl | rfl | rfl <;> simp [HVal.erase, Val.cls, Cls.sub] at h
  | ddict l f es _ _ _ => rcases hc with rfl | rfl | rfl | rfl | rfl <;> simp [HVal.erase, Val.cls, Cls.sub] at h
  | ntuple l d xs _ hk _ =>
    rcases hc with rfl | rfl | rfl | rfl | rfl <;> simp [HVal.erase, Val.cls, Cls.sub, hk] at h
  | obj l d as _ hk _ _ =>
    rcases hc with rfl | rfl | rfl | rfl | rfl <;> simp [HVal.erase, Val.cls, Cls.sub, hk] at h

theorem within_of {v : HVal} (h : v.labels = []) : Within F.L v := by
  intro i hi
  rw [h] at hi
  cases hi

theorem none_labels {v : HVal} (h : v.erase = .none) : v.labels = [] := by
  cases v with
  | atom a => rfl
  | enum c m => rfl
  | _ => simp [HVal.erase, Val.none] at h

theorem primCls {c : Cls} (h : c.serFn H.info = .primitive) :
    c = .str ∨ c = .int ∨ c = .float ∨ c = .bool ∨ c = .noneType := by
  cases c <;> simp [Cls.serFn] at h ⊢
  split at h <;> cases h

theorem serFn_prim {t : Ty} (h : t.serFn H.info = some .primitive) :
    (∃ c, t = .cls c ∧ c.serFn H.info = .primitive) ∨
    (∃ n c, t = .newtype n (.cls c) ∧ c.serFn H.info = .primitive) := by
  have hg : ∀ g : Gen, g.naked.serFn H.info ≠ .primitive := by intro g; cases g <;> simp [Gen.naked, Cls.serFn]
  unfold Ty.serFn at h
  split at h
  · exact .inl ⟨_, rfl, by simpa using h⟩
  · exact absurd (by simpa using h) (hg _)
  · cases h
  · cases h
  · cases h
  · exact .inr ⟨_, _, rfl, by simpa using h⟩
  · exact absurd (by simpa using h) (hg _)
  · cases h
  · cases h
  · cases h

theorem primitive_sim {v : HVal} (hv : Calm H F v) (cls : Option Ty)
    (hf : (cls.getD (.cls v.erase.cls)).serFn H.info = some .primitive) :
    Sim F.L (Out F.L) (primitiveH H v cls) (primitiveSer H.toEnv v.erase cls) := by
  have key : ∀ c, c.serFn H.info = .primitive → Sim F.L (Out F.L)
      (if v.erase = .none then pure v
        else match H.isInstance v.erase (.cls c) with
          | .error k => .raise { kind := k }
          | .ok true => pure v
          | .ok false => match H.cast v.erase (.cls c) with
            | .ok r => pure (HVal.fresh r)
            | .error k => if k.isValueError then .raise { kind := .serializationError } else .raise { kind := k })
      (if v.erase = .none then pure v.erase
        else match H.isInstance v.erase (.cls c) with
          | .error k => Res.raise { kind := k }
          | .ok true => pure v.erase
          | .ok false => match H.cast v.erase (.cls c) with
            | .ok r => pure r
            | .error k => if k.isValueError then Res.raise { kind := .serializationError } else Res.raise { kind := k }) := by
    intro c hc
    split
    · next h => exact sim_pure ⟨rfl, within_of (none_labels h)⟩
    · simp only [Env.isInstance]
      cases hs : v.erase.cls.sub H.info c with
      | true => exact sim_pure ⟨rfl, within_of (prim_labels hv (primCls hc) hs)⟩
      | false =>
        dsimp only
        cases H.cast v.erase (.cls c) with
        | ok r => exact sim_pure ⟨fresh_erase r, within_fresh r⟩
        | error k =>
          dsimp only
          split
          · exact sim_raise _
          · exact sim_raise _
  cases cls with
  | none =>
    refine sim_pure ⟨rfl, within_of ?_⟩
    simp only [Option.getD_none, Ty.serFn, Option.some.injEq] at hf
    refine prim_labels (c := v.erase.cls) hv (primCls hf) ?_
    simp [Cls.sub]
  | some t =>
    simp only [Option.getD_some] at hf
    rcases serFn_prim hf with ⟨c, rfl, hc⟩ | ⟨n, c, rfl, hc⟩
    · exact key c hc
    · exact key c hc

theorem enum_sim (hS : Setting H F) {v : HVal} (hv : Calm H F v) (cls : Option Ty) (ht : ∀ t ∈ cls, F.T t) {kw : DumpKw}
    (hk : KwOk F kw) (hf : (cls.getD (.cls v.erase.cls)).serFn H.info = some .enum) :
    Sim F.L (Out F.L) (enumH H v kw) (enumSer H.toEnv v.erase kw) := by
  have hattr : (∀ c m, v ≠ .enum c m) → Sim F.L (Out F.L)
      (.of (Res.lift (H.getAttrH v (if kw.useEnumName then "name".toList else "value".toList))))
      (Res.lift (H.getAttr v.erase (if kw.useEnumName then "name".toList else "value".toList))) := by
    intro hne
    have hask : F.Asked (if kw.useEnumName then "name".toList else "value".toList) := by
      cases cls with
      | none =>
        exfalso
        simp only [Option.getD_none, Ty.serFn, Option.some.injEq] at hf
        cases hv with
        | atom a _ => cases a <;> simp [HVal.erase, Val.cls, Atom.cls, Cls.serFn] at hf
        | enum c m _ _ => exact hne c m rfl
        | seq l k xs _ _ => cases k <;> simp [HVal.erase, Val.cls, SeqKind.cls, Cls.serFn] at hf
        | dict l es _ _ _ => simp [HVal.erase, Val.cls, Cls.serFn] at hf
        | ddict l f es _ _ _ => simp [HVal.erase, Val.cls, Cls.serFn] at hf
        | ntuple l d xs _ hk _ => simp [HVal.erase, Val.cls, Cls.serFn, hk] at hf
        | obj l d as _ hk _ _ => simp [HVal.erase, Val.cls, Cls.serFn, hk] at hf
      | some t =>
        have := hS.askEnum t (ht t rfl) hf
        cases hu : kw.useEnumName with
        | true => exact this.1
        | false => exact this.2 (hk.byValue hu)
    refine sim_lift ?_
    have := getAttr_sim hS hv (if kw.useEnumName then "name".toList else "value".toList)
    generalize H.getAttrH v _ = x at this
    generalize H.getAttr v.erase _ = y at this
    cases this with
    | ok h => exact .ok ⟨h.1, h.2.2 hask⟩
    | err e => exact .err e
  cases v
  case enum c m =>
    simp only [enumH, enumSer, HVal.erase]
    split
    · exact sim_pure (out_atom _)
    · next hu =>
      cases hw : assoc (H.info c).enumMembers m with
      | none =>
        simp only [hS.enumNone c m hw]
        exact sim_raise _
      | some w =>
        obtain ⟨u, h1, h2, h3⟩ := hS.enumSome c m w hw
        simp only [h1]
        exact sim_pure ⟨h2, h3 (hk.byValue (by simpa using hu))⟩
  all_goals exact hattr (fun _ _ h => by cases h)

theorem complex_sim (hS : Setting H F) {v : HVal} (hv : Calm H F v) (cls : Option Ty) (ht : ∀ t ∈ cls, F.T t)
    (hf : (cls.getD (.cls v.erase.cls)).serFn H.info = some .complex) :
    Sim F.L (Out F.L) (complexH H v) (complexSer H.toEnv v.erase) := by
  have hattr : (∀ re im, v ≠ .atom (.complex re im)) → Sim F.L (Out F.L)
      (do
        let re ← WRes.of (Res.lift (H.getAttrH v "real".toList))
        let im ← WRes.of (Res.lift (H.getAttrH v "imag".toList))
        pure (.dict none [(.str "real".toList, re), (.str "imag".toList, im)]))
      (do
        let re ← Res.lift (H.getAttr v.erase "real".toList)
        let im ← Res.lift (H.getAttr v.erase "imag".toList)
        pure (.dict [(.str "real".toList, re), (.str "imag".toList, im)])) := by
    intro hne
    have hask : F.Asked "real".toList ∧ F.Asked "imag".toList := by
      cases cls with
      | none =>
        exfalso
        simp only [Option.getD_none, Ty.serFn, Option.some.injEq] at hf
        cases hv with
        | atom a _ =>
          cases a
          case complex re im => exact hne _ _ rfl
          all_goals simp [HVal.erase, Val.cls, Atom.cls, Cls.serFn] at hf
        | enum c m _ hk =>
          obtain ⟨b, hk⟩ := hk
          simp [HVal.erase, Val.cls, Cls.serFn, hk] at hf
        | seq l k xs _ _ => cases k <;> simp [HVal.erase, Val.cls, SeqKind.cls, Cls.serFn] at hf
        | dict l es _ _ _ => simp [HVal.erase, Val.cls, Cls.serFn] at hf
        | ddict l f es _ _ _ => simp [HVal.erase, Val.cls, Cls.serFn] at hf
        | ntuple l d xs _ hk _ => simp [HVal.erase, Val.cls, Cls.serFn, hk] at hf
        | obj l d as _ hk _ _ => simp [HVal.erase, Val.cls, Cls.serFn, hk] at hf
      | some t => exact hS.askComplex t (ht t rfl) hf
    refine sim_bind (sim_lift (getAttr_sim hS hv _)) fun re re' hre => ?_
    refine sim_bind (sim_lift (getAttr_sim hS hv _)) fun im im' him => sim_pure ?_
    refine out_dict ⟨?_, ?_⟩
    · simp only [HVal.eraseEntries, HVal.erase, hre.1, him.1]
    · intro e he
      simp only [List.mem_cons, List.not_mem_nil, or_false] at he
      rcases he with rfl | rfl
      · exact ⟨within_atom _, hre.2.2 hask.1⟩
      · exact ⟨within_atom _, him.2.2 hask.2⟩
  cases v
  case atom a =>
    cases a
    case complex => exact sim_made _
    case float => exact sim_made _
    case int => exact sim_made _
    case bool => exact sim_made _
    all_goals exact hattr (fun _ _ h => by cases h)
  all_goals exact hattr (fun _ _ h => by cases h)

end


section
variable {H : HEnv} {F : Frame} {R : HRec} {R' : Rec}

theorem timezone_sim (hS : Setting H F) (hR : RecSim H F R R') (v : HVal) (cls : Option Ty) (kw : DumpKw)
    (ht : ∀ t ∈ cls, F.T t) (hk : KwOk F kw) : Sim F.L (Out F.L) (timezoneH R v cls kw) (timezoneSer R' v.erase cls kw) := by
  cases v with
  | atom a =>
    cases a with
    | timezone us name =>
      refine sim_bind (hR.dump (.atom (.timedelta us)) cls kw (.atom _ (hS.delta us)) ht hk) fun o o' ho => sim_pure ?_
      refine out_dict ⟨?_, ?_⟩
      · simp only [HVal.eraseEntries, HVal.erase, ho.1]
      · intro e he
        simp only [List.mem_cons, List.not_mem_nil, or_false] at he
        rcases he with rfl | rfl
        · exact ⟨within_atom _, within_atom _⟩
        · exact ⟨within_atom _, ho.2⟩
    | _ => exact sim_raise _
  | _ => exact sim_raise _

theorem iter_calm (hS : Setting H F) {v : HVal} (hv : Calm H F v) {xs : List HVal} (hx : v.iter = some xs) :
    ∀ x ∈ xs, Calm H F x := by
  cases hv with
  | atom a _ =>
    cases a
    case str s =>
      simp only [HVal.iter, Option.some.injEq] at hx
      subst hx
      intro x hx
      rw [List.mem_map] at hx
      obtain ⟨c, _, rfl⟩ := hx
      exact .atom _ (hS.text _)
    all_goals cases hx
  | seq l k xs' _ h => cases hx; exact h
  | dict l es _ h _ =>
    simp only [HVal.iter, Option.some.injEq] at hx
    subst hx
    intro x hx
    rw [List.mem_map] at hx
    obtain ⟨e, he, rfl⟩ := hx
    exact h e he
  | ddict l f es _ h _ =>
    simp only [HVal.iter, Option.some.injEq] at hx
    subst hx
    intro x hx
    rw [List.mem_map] at hx
    obtain ⟨e, he, rfl⟩ := hx
    exact h e he
  | ntuple l c xs' _ _ h => cases hx; exact h
  | enum c m _ _ => cases hx
  | obj l c as _ _ _ _ => cases hx

theorem calm_own {v : HVal} (hv : Calm H F v) : Own H F v := by cases hv <;> assumption

theorem forall₂_map {α γ : Type} {S : α → γ → Prop} (g : α → γ) (xs : List α) (h : ∀ x ∈ xs, S x (g x)) :
    List.Forall₂ S xs (xs.map g) := by
  induction xs with
  | nil => exact .nil
  | cons x xs ih => exact .cons (h x List.mem_cons_self) (ih fun y hy => h y (List.mem_cons_of_mem _ hy))

/-- A step whose outcome is known on both sides. -/
theorem sim_bind_same {α γ δ : Type} {L : Nat → Prop} {S' : γ → δ → Prop} {x : Res α} {f : α → WRes γ} {g : α → Res δ}
    (hf : ∀ a, x.val = .ok a → Sim L S' (f a) (g a)) : Sim L S' (WRes.of x >>= f) (x >>= g) := by
  have h : Sim L (fun a b => a = b ∧ x.val = .ok a) (.of x) x := by
    refine ⟨rfl, (fun _ h => by cases h), ?_⟩
    show ExRel _ x.val x.val
    cases hx : x.val with
    | ok a => exact .ok ⟨rfl, rfl⟩
    | error e => exact .err e
  refine sim_bind h ?_
  rintro a _ ⟨rfl, ha⟩
  exact hf a ha

theorem typed_sim (hS : Setting H F) (hR : RecSim H F R R') (xs : List HVal) (hx : ∀ x ∈ xs, Calm H F x) (t : Ty) (ht : F.T t)
    (kw kw' : DumpKw) (hk' : KwOk F kw') :
    Sim F.L (Out F.L) (listH.typed H R kw xs t kw') (listSer.typed H.toEnv R' kw (xs.map HVal.erase) t kw') := by
  unfold listH.typed listSer.typed
  rw [hS.sers]
  refine sim_bind_same fun fn hfn => ?_
  rw [liftK_ok] at hfn
  cases hfn
  refine sim_bind (sim_map _ _ xs (xs.map HVal.erase) (forall₂_map _ xs fun x hxx => ?_)) fun ys zs h => sim_pure (out_list h)
  cases hf : t.serFn H.info with
  | none => exact sim_raise _
  | some f => exact hR.call f x (some t) kw' (hx x hxx) (fun u hu => by cases hu; exact ht) hk' hf

theorem list_sim (hS : Setting H F) (hR : RecSim H F R R') {v : HVal} (hv : Calm H F v) (cls : Option Ty)
    (ht : ∀ t ∈ cls, F.T t) (kw : DumpKw) (hk : KwOk F kw) :
    Sim F.L (Out F.L) (listH H R v cls kw) (listSer H.toEnv R' v.erase cls kw) := by
  have hk' : KwOk F { kw with storeCls := false } := ⟨hk.types, hk.strict, hk.byValue⟩
  unfold listH listSer
  split
  · exact sim_pure (out_list .nil)
  · dsimp only
    rw [iter_erase]
    cases hx : v.iter with
    | none => exact sim_raise _
    | some xs =>
      have hxs := iter_calm hS hv hx
      simp only [Option.map_some]
      cases ha : (cls.map Ty.getArgs).getD [] with
      | cons t ts =>
        refine typed_sim hS hR xs hxs t ?_ kw _ hk'
        cases cls with
        | none => cases ha
        | some u => exact hS.args u (ht u rfl) t (by simp only [Option.map_some, Option.getD_some] at ha; rw [ha]; exact List.mem_cons_self)
      | nil =>
        dsimp only
        split
        · next hst =>
          have htyped : ∀ x xs', xs = x :: xs' → Sim F.L (Out F.L)
              (listH.typed H R kw (x :: xs') (.cls x.erase.cls) { kw with storeCls := false })
              (listSer.typed H.toEnv R' kw (x.erase :: xs'.map HVal.erase) (.cls x.erase.cls) { kw with storeCls := false }) := by
            rintro x xs' rfl
            exact typed_sim hS hR (x :: xs') hxs _ ((calm_own (hxs x List.mem_cons_self)) (hk.strict hst)).1 kw _ hk'
          cases v with
          | seq l k ys =>
            cases k <;> first | exact sim_raise _ | skip
            all_goals
              cases xs with
              | nil => exact sim_pure (out_list .nil)
              | cons x xs' => exact htyped x xs' rfl
          | dict l es => exact sim_raise _
          | ddict l f es => exact sim_raise _
          | _ =>
            cases xs with
            | nil => exact sim_pure (out_list .nil)
            | cons x xs' => exact htyped x xs' rfl
        · refine sim_bind (sim_map _ _ xs (xs.map HVal.erase) (forall₂_map _ xs fun x hx => hR.dump x none _ (hxs x hx) (fun _ h => by cases h) hk'))
            fun ys zs h => sim_pure (out_list h)

theorem getSubclasses_in {n : Nat} {cls : Option Ty} {l : List (Option Ty)} (hc : ∀ t ∈ cls, ∀ u ∈ t.getArgs, F.T u)
    (h : getSubclasses n cls = .ok l) : ∀ c ∈ l, ∀ t ∈ c, F.T t := by
  have ha : ∀ u ∈ (cls.map Ty.getArgs).getD [], F.T u := by
    cases cls with
    | none => intro u hu; cases hu
    | some t => exact hc t rfl
  unfold getSubclasses at h
  revert ha h
  generalize (cls.map Ty.getArgs).getD [] = args
  intro h ha
  dsimp only at h
  split at h
  · split at h
    · cases h
    · cases h
      intro c hc t htc
      rw [List.mem_replicate] at hc
      rw [hc.2] at htc
      cases htc
  · split at h
    · cases h
    · cases h
      intro c hc t htc
      rw [List.mem_replicate] at hc
      rw [hc.2] at htc
      cases htc
      exact ha _ List.mem_cons_self
  · split at h
    · cases h
    · cases h
      intro c hc t htc
      rw [List.mem_map] at hc
      obtain ⟨u, hu, rfl⟩ := hc
      cases htc
      exact ha _ hu

theorem elementTypes_in {v : HVal} (hv : Calm H F v) {n : Nat} {cls : Option Ty} {kw : DumpKw} (hk : KwOk F kw)
    (hc : ∀ t ∈ cls, ∀ u ∈ t.getArgs, F.T u) {l : List (Option Ty)} (h : (elementTypes H.toEnv v.erase n cls kw.strict).val = .ok l) :
    ∀ c ∈ l, ∀ t ∈ c, F.T t := by
  unfold elementTypes at h
  split at h
  · next hst =>
    have hst := hk.strict hst
    rw [Core.bind_ok] at h
    obtain ⟨c, h1, h2⟩ := h
    rw [lift_val] at h2
    refine getSubclasses_in ?_ h2
    rw [liftK_ok] at h1
    unfold determineCls at h1
    cases cls with
    | some t => cases h1; exact hc
    | none =>
      dsimp only at h1
      have htype : ∀ (x : HVal), Calm H F x → F.T (H.getType x.erase) := fun x hx => ((calm_own hx) hst).2
      intro t ht u hu
      cases hv with
      | atom a ho =>
        clear ho
        cases a
        case str s =>
          cases s with
          | nil => cases h1; cases ht
          | cons c s => cases h1; cases ht; cases hu
        all_goals (cases h1; cases ht)
      | seq l k xs _ hx =>
        cases xs with
        | nil => cases k <;> (cases h1; cases ht)
        | cons x xs =>
          cases k <;> simp only [HVal.erase, HVal.eraseList] at h1 <;> first | (cases h1; done) | skip
          · cases h1; cases ht
            simp only [Ty.getArgs, List.mem_singleton] at hu
            subst hu
            exact htype x (hx x List.mem_cons_self)
          · cases h1; cases ht
            simp only [Ty.getArgs, List.mem_singleton] at hu
            subst hu
            exact htype x (hx x List.mem_cons_self)
          all_goals (cases h1; cases ht)
      | dict l es _ _ _ => cases es <;> (cases h1; try cases ht)
      | ddict l f es _ _ _ => cases es <;> (cases h1; try cases ht)
      | ntuple l d xs _ _ hx =>
        cases xs with
        | nil => cases h1; cases ht
        | cons x xs =>
          simp only [HVal.erase, HVal.eraseList] at h1
          cases h1; cases ht
          simp only [Ty.getArgs, List.mem_singleton] at hu
          subst hu
          exact htype x (hx x List.mem_cons_self)
      | enum c m _ _ => cases h1; cases ht
      | obj l c as _ _ _ _ => cases h1; cases ht
  · rw [lift_val] at h
    exact getSubclasses_in (fun t ht => by cases ht) h

theorem iterable_sim (hS : Setting H F) (hR : RecSim H F R R') {v : HVal} (hv : Calm H F v) (cls : Option Ty)
    (hc : ∀ t ∈ cls, ∀ u ∈ t.getArgs, F.T u) (kw : DumpKw) (hk : KwOk F kw) :
    Sim F.L (Out F.L) (iterableH H R v cls kw) (iterableSer H.toEnv R' v.erase cls kw) := by
  have hk' : KwOk F { kw with storeCls := false } := ⟨hk.types, hk.strict, hk.byValue⟩
  unfold iterableH iterableSer
  dsimp only
  rw [iter_erase]
  cases hx : v.iter with
  | none => exact sim_raise _
  | some xs =>
    have hxs := iter_calm hS hv hx
    simp only [Option.map_some, List.length_map]
    refine sim_bind_same fun l hl => ?_
    have hl := elementTypes_in hv hk hc hl
    refine sim_bind (sim_map _ _ (xs.zip l) ((xs.map HVal.erase).zip l) ?_) fun ys zs h => sim_pure (out_list h)
    rw [List.zip_map_left]
    refine forall₂_map (Prod.map HVal.erase id) _ ?_
    rintro ⟨x, c⟩ hp
    exact hR.dump x c _ (hxs x (List.of_mem_zip hp).1) (hl c (List.of_mem_zip hp).2) hk'

theorem namedtuple_sim (hR : RecSim H F R R') (fields : List PyStr) (xs : List HVal) (hx : ∀ x ∈ xs, Calm H F x) (kw : DumpKw)
    (hk : KwOk F kw) : Sim F.L (Out F.L) (namedtupleH R fields xs kw) (namedtupleSer R' fields (HVal.eraseList xs) kw) := by
  unfold namedtupleH namedtupleSer
  rw [eraseList_eq, List.zip_map_right]
  refine sim_bind (S := List.Forall₂ fun a b => Out F.L a.1 b.1 ∧ Out F.L a.2 b.2)
    (sim_map _ _ _ _ (forall₂_map (Prod.map id HVal.erase) _ ?_)) fun ys zs h => sim_pure (out_dict ?_)
  · rintro ⟨n, x⟩ hp
    refine sim_bind (hR.dump x none kw (hx x (List.of_mem_zip hp).2) (fun _ h => by cases h) hk) fun y z h => sim_pure ⟨out_atom _, h⟩
  · induction h with
    | nil => exact outE_nil
    | cons h hs ih =>
      rename_i a b as bs
      obtain ⟨a1, a2⟩ := a
      obtain ⟨b1, b2⟩ := b
      refine ⟨?_, ?_⟩
      · simp only [HVal.eraseEntries, ih.1, h.1.1, h.2.1]
      · intro e he
        rcases List.mem_cons.1 he with rfl | he
        · exact ⟨h.1.2, h.2.2⟩
        · exact ih.2 e he

theorem tuple_sim (hS : Setting H F) (hR : RecSim H F R R') {v : HVal} (hv : Calm H F v) (cls : Option Ty)
    (ht : ∀ t ∈ cls, F.T t) (kw : DumpKw) (hk : KwOk F kw) :
    Sim F.L (Out F.L) (tupleH H R v cls kw) (tupleSer H.toEnv R' v.erase cls kw) := by
  have hrest : Sim F.L (Out F.L)
      (do let cls_ ← WRes.of (tupleCls v.erase cls); iterableH H R v cls_ kw)
      (do let cls_ ← tupleCls v.erase cls; iterableSer H.toEnv R' v.erase cls_ kw) := by
    refine sim_bind_same fun c hc => iterable_sim hS hR hv c ?_ kw hk
    intro t htc u hu
    unfold tupleCls at hc
    split at hc
    · cases hc; cases htc
    · next t' =>
      have hargs := hS.args t' (ht t' rfl)
      split at hc
      · cases hc
      · cases hc; cases htc; exact hargs u hu
      · split at hc
        · cases hc
        · cases hc; cases htc
          have hmem : u ∈ List.replicate _ (t'.getArgs.headD .any) := hu
          rw [List.mem_replicate] at hmem
          rw [hmem.2]
          cases h : t'.getArgs with
          | nil => exact hS.any
          | cons a as => exact hargs a (by rw [h]; exact List.mem_cons_self)
  cases hv with
  | ntuple l c xs _ _ hx => exact namedtuple_sim hR _ xs hx kw hk
  | _ => exact hrest

end


section
variable {H : HEnv} {F : Frame} {R : HRec} {R' : Rec}

theorem storeAndHash_sim (hR : RecSim H F R R') {result : List (HVal × HVal)} {result' : List (Val × Val)}
    (hr : OutE F.L result result') {key : HVal} (hkey : Calm H F key) (kw : DumpKw) (hk : KwOk F kw) :
    Sim F.L (fun a b => OutE F.L a.1 b.1 ∧ Out F.L a.2 b.2) (storeAndHashH H R result key kw)
      (storeAndHash H.toEnv R' result' key.erase kw) := by
  unfold storeAndHashH storeAndHash
  split
  · next h =>
    refine sim_pure ⟨hr, rfl, within_of ?_⟩
    unfold isValidJsonKey at h
    rw [List.any_eq_true] at h
    obtain ⟨c, hc, h⟩ := h
    refine prim_labels hkey ?_ h
    simpa using hc
  · refine sim_bind (hR.dump key none kw hkey (fun _ h => by cases h) hk) ?_
    rintro d _ ⟨rfl, hd⟩
    split
    · exact sim_pure ⟨hr, rfl, hd⟩
    · dsimp only
      obtain ⟨rfl, hw⟩ := hr
      rw [hget_erase]
      cases hg : hget result (.str keysKey) with
      | none =>
        refine sim_pure ⟨⟨?_, ?_⟩, out_atom _⟩
        · simp only [eraseEntries_append, HVal.eraseEntries, HVal.erase]
        · intro e he
          rcases List.mem_append.1 he with he | he
          · exact hw e he
          · simp only [List.mem_singleton] at he
            subst he
            refine ⟨within_atom _, within_dict (fun _ h => by cases h) ?_⟩
            intro e he
            simp only [List.mem_singleton] at he
            subst he
            exact ⟨within_atom _, hd⟩
      | some x =>
        have hx := hget_within hw hg
        cases x with
        | dict l ks =>
          obtain ⟨h1, h2⟩ := dict_within hx
          refine sim_write_then h1 (sim_pure ⟨?_, out_atom _⟩)
          have hks : WithinE F.L (hset ks (.atom (.int (H.hash key.erase))) d) := hset_within h2 (within_atom _) hd
          have := outE_set (L := F.L) (es := result) ⟨rfl, hw⟩ (out_atom (.str keysKey))
            (v := .dict l (hset ks (.atom (.int (H.hash key.erase))) d)) ⟨rfl, within_dict h1 hks⟩
          simpa only [HVal.erase, hset_erase] using this
        | _ => exact sim_raise _

theorem addDumped_sim (kw : DumpKw) {result : List (HVal × HVal)} {result' : List (Val × Val)}
    (hr : OutE F.L result result') {key dumped : HVal} {key' dumped' : Val} (hkey : Out F.L key key') (hd : Out F.L dumped dumped') :
    ExRel (OutE F.L) (addDumpedH kw result key dumped) (addDumped kw result' key' dumped') := by
  unfold addDumpedH addDumped
  rw [hd.1]
  split
  · exact .ok hr
  · cases hkt : kw.keyTransformer with
    | none => exact .ok (outE_set hr hkey hd)
    | some f =>
      dsimp only
      rw [hkey.1]
      cases transformKey (some f) key' with
      | error e => exact .err e
      | ok k => exact .ok (outE_set hr ⟨fresh_erase k, within_fresh k⟩ hd)

theorem dictLoop_sim (hR : RecSim H F R R') (kw : DumpKw) (hk : KwOk F kw) : ∀ (es : List (HVal × HVal)) (_ : ∀ e ∈ es, Calm H F e.1)
    (_ : ∀ e ∈ es, Calm H F e.2) (result : List (HVal × HVal)) (result' : List (Val × Val)) (_ : OutE F.L result result'),
    Sim F.L (OutE F.L) (dictLoopH H R kw es result) (dictLoop H.toEnv R' kw (HVal.eraseEntries es) result')
  | [], _, _, result, result', hr => sim_pure hr
  | (key, v) :: es, h1, h2, result, result', hr => by
    unfold dictLoopH
    simp only [HVal.eraseEntries]
    unfold dictLoop
    dsimp only
    refine sim_bind (storeAndHash_sim hR hr (h1 _ List.mem_cons_self) kw hk) ?_
    rintro ⟨r1, k1⟩ ⟨r2, k2⟩ ⟨ho, hkk⟩
    have hd : ∀ cls : Option Ty, (∀ t ∈ cls, F.T t) → Sim F.L (Out F.L) (R.dump v cls { kw with types := [] })
        (R'.dump v.erase cls { kw with types := [] }) := fun cls hc =>
      hR.dump v cls _ (h2 _ List.mem_cons_self) hc ⟨(fun p hp => by cases hp), hk.strict, hk.byValue⟩
    refine sim_bind (S := Out F.L) ?_ ?_
    · cases key with
      | atom a =>
        cases a with
        | str s => exact hd _ fun t ht => hk.types _ (Core.assoc_mem ht)
        | _ => exact hd _ (fun _ h => by cases h)
      | _ => exact hd _ (fun _ h => by cases h)
    intro d d' hd
    refine sim_bind (sim_lift (addDumped_sim kw ho hkk hd)) fun r r' hr => ?_
    exact dictLoop_sim hR kw hk es (fun e he => h1 e (List.mem_cons_of_mem _ he)) (fun e he => h2 e (List.mem_cons_of_mem _ he)) r r' hr

theorem dict_sim (hR : RecSim H F R R') {v : HVal} (hv : Calm H F v) (kw : DumpKw) (hk : KwOk F kw) :
    Sim F.L (Out F.L) (dictH H R v kw) (dictSer H.toEnv R' v.erase kw) := by
  have hrest : Sim F.L (Out F.L) (match v.iter with
      | some [] => pure (.dict none [])
      | _ => .raise { kind := .typeError }) (match v.erase.iter with
      | some [] => pure (.dict [])
      | _ => Res.raise { kind := .typeError }) := by
    rw [iter_erase]
    cases v.iter with
    | none => exact sim_raise _
    | some xs =>
      cases xs with
      | nil => exact sim_pure (out_dict outE_nil)
      | cons x xs => exact sim_raise _
  cases hv with
  | dict l es _ h1 h2 =>
    exact sim_bind (dictLoop_sim hR kw hk es h1 h2 [] [] outE_nil) fun r r' hr => sim_pure (out_dict hr)
  | ddict l f es _ h1 h2 =>
    exact sim_bind (dictLoop_sim hR kw hk es h1 h2 [] [] outE_nil) fun r r' hr => sim_pure (out_dict hr)
  | _ => exact hrest

theorem unionLoop_sim (hR : RecSim H F R R') {v : HVal} (hv : Calm H F v) (kw : DumpKw) (hk : KwOk F kw) :
    ∀ (ts : List Ty) (_ : ∀ t ∈ ts, F.T t), Sim F.L (Out F.L) (unionLoopH R v kw ts) (unionLoop R' v.erase kw ts)
  | [], _ => sim_raise _
  | t :: ts, h => by
    unfold unionLoopH unionLoop
    refine sim_bind (sim_attempt (hR.dump v (some t) kw hv (fun u hu => by cases hu; exact h t List.mem_cons_self) hk)) ?_
    intro x y hxy
    cases hxy with
    | ok hab => exact sim_pure hab
    | err e =>
      dsimp only
      split
      · exact unionLoop_sim hR hv kw hk ts fun t ht => h t (List.mem_cons_of_mem _ ht)
      · exact sim_raise _

theorem union_sim (hS : Setting H F) (hR : RecSim H F R R') {v : HVal} (hv : Calm H F v) (cls : Option Ty) (ht : ∀ t ∈ cls, F.T t)
    (kw : DumpKw) (hk : KwOk F kw) : Sim F.L (Out F.L) (unionH R v cls kw) (unionSer R' v.erase cls kw) := by
  unfold unionH unionSer
  cases hc : cls.bind Ty.unionParams with
  | none => exact sim_raise _
  | some ts =>
    dsimp only
    split
    · next h => exact sim_pure ⟨rfl, within_of (none_labels h.1)⟩
    · refine unionLoop_sim hR hv kw hk ts ?_
      cases cls with
      | none => cases hc
      | some t => exact hS.params t (ht t rfl) ts hc

theorem storeClsInfo_sim (b : Bool) {d : HVal} {d' : Val} (hd : Out F.L d d') (attr : HVal) :
    Sim F.L (Out F.L) (storeClsInfoH H b d attr) (pure (storeClsInfo H.toEnv b d' attr.erase)) := by
  obtain ⟨rfl, hw⟩ := hd
  cases d with
  | dict l es =>
    unfold storeClsInfoH storeClsInfo
    simp only [HVal.erase]
    cases b with
    | false => exact sim_pure ⟨rfl, hw⟩
    | true =>
      obtain ⟨h1, h2⟩ := dict_within hw
      refine sim_write_then h1 (sim_pure ⟨?_, within_dict h1 (hset_within h2 (within_atom _) (within_atom _))⟩)
      simp only [HVal.erase, hset_erase]
      rfl
  | _ => exact sim_pure ⟨rfl, hw⟩

theorem attrLoop_sim (hS : Setting H F) (hR : RecSim H F R R') (kw : DumpKw) (hk : KwOk F kw) (isPublic : Bool) {v : HVal}
    (hv : Calm H F v) (clsName : PyStr) : ∀ (as : List (PyStr × Option Ty)) (_ : ∀ a ∈ as, ∀ t ∈ a.2, F.T t)
      (result : List (HVal × HVal)) (result' : List (Val × Val)) (_ : OutE F.L result result'),
    Sim F.L (OutE F.L) (attrLoopH H R kw isPublic v clsName as result)
      (attrLoop H.toEnv R' kw isPublic v.erase clsName as result')
  | [], _, _, _, hr => sim_pure hr
  | (name, hint) :: as, h, result, result', hr => by
    unfold attrLoopH attrLoop
    refine sim_bind (sim_lift (getAttr_sim hS hv name)) ?_
    rintro attr _ ⟨rfl, hattr, _⟩
    dsimp only
    refine sim_bind (sim_same _) fun _ _ _ => ?_
    rw [hS.sers]
    refine sim_bind_same fun fn hfn => ?_
    rw [liftK_ok] at hfn
    have hfn : (hint.getD (.cls attr.erase.cls)).serFn H.info = fn := by cases hfn; rfl
    have hd : Sim F.L (Out F.L) (dumpAttrH H R kw fn attr hint) (dumpAttr H.toEnv R' kw fn attr.erase hint) := by
      cases fn with
      | none => exact sim_raise _
      | some f =>
        exact sim_bind (hR.call f attr hint kw hattr (h _ List.mem_cons_self) hk hfn) fun d d' hd => storeClsInfo_sim _ hd attr
    refine sim_bind (sim_attempt hd) ?_
    intro x y hxy
    cases hxy with
    | err e =>
      dsimp only
      split
      · exact sim_raise _
      · split
        · exact sim_raise _
        · exact sim_bind (sim_same _) fun _ _ _ => sim_pure hr
    | ok hab =>
      dsimp only
      refine sim_bind (sim_lift (addDumped_sim kw hr (out_atom _) hab)) fun r r' hr => ?_
      exact attrLoop_sim hS hR kw hk isPublic hv clsName as (fun a ha => h a (List.mem_cons_of_mem _ ha)) r r' hr

end


section
variable {L : Nat → Prop}

theorem liftK_bind {α β : Type} (x : Except ErrKind α) (f : α → Except ErrKind β) :
    Res.liftK (x >>= f) = Res.liftK x >>= fun a => Res.liftK (f a) := by
  cases x with
  | ok a =>
    rw [liftK_of_ok, pure_bind']
    rfl
  | error k => rfl

/-- The outcome of collecting the types of a dict. -/
abbrev OutP (L : Nat → Prop) (a : List (HVal × HVal) × List (HVal × HVal)) (b : List (Val × Val) × List (Val × Val)) : Prop :=
  OutE L a.1 b.1 ∧ OutE L a.2 b.2

theorem outE_cons {es : List (HVal × HVal)} {es' : List (Val × Val)} {k v : HVal} {k' v' : Val} (h : OutE L es es')
    (hk : Out L k k') (hv : Out L v v') : OutE L ((k, v) :: es) ((k', v') :: es') := by
  refine ⟨?_, ?_⟩
  · simp only [HVal.eraseEntries, h.1, hk.1, hv.1]
  · intro e he
    rcases List.mem_cons.1 he with rfl | he
    · exact ⟨hk.2, hv.2⟩
    · exact h.2 e he

mutual
theorem fillVal_sim (v : HVal) (pre : PyStr) (coll : List (HVal × HVal)) (coll' : List (Val × Val)) (hv : Within L v)
    (hc : OutE L coll coll') : Sim L (fun a b => Out L a.1 b.1 ∧ Out L a.2.1 b.2.1 ∧ OutE L a.2.2 b.2.2) (fillValH v pre coll)
      (Res.liftK (fillVal v.erase pre coll')) := by
  cases v with
  | dict l es =>
    obtain ⟨h1, h2⟩ := dict_within hv
    unfold fillValH
    simp only [HVal.erase]
    unfold fillVal
    rw [liftK_bind]
    have hrest : Sim L (fun a b => Out L a.1 b.1 ∧ Out L a.2.1 b.2.1 ∧ OutE L a.2.2 b.2.2)
        (do
          let (es', coll') ← fillEntriesH es pre coll
          pure (.dict l es', (hget es (.str clsKey)).getD (.atom .none), coll'))
        (do
          let (es', coll') ← Res.liftK (fillEntries (HVal.eraseEntries es) pre coll')
          Res.liftK (.ok (.dict es', (dictGet (HVal.eraseEntries es) (.str clsKey)).getD .none, coll'))) := by
      refine sim_bind (fillEntries_sim es pre coll coll' h2 hc) ?_
      rintro ⟨a1, a2⟩ ⟨b1, b2⟩ ⟨g1, g2⟩
      refine sim_pure ⟨⟨?_, within_dict h1 g1.2⟩, ?_, g2⟩
      · simp only [HVal.erase, g1.1]
      · dsimp only
        rw [hget_erase]
        cases hg : hget es (.str clsKey) with
        | none => exact out_atom _
        | some w => exact ⟨rfl, hget_within h2 hg⟩
    split
    · exact sim_write_then h1 hrest
    · exact hrest
  | _ => exact sim_pure ⟨⟨rfl, hv⟩, out_atom _, hc⟩
theorem fillEntries_sim (es : List (HVal × HVal)) (pre : PyStr) (coll : List (HVal × HVal)) (coll' : List (Val × Val)) (he : WithinE L es)
    (hc : OutE L coll coll') : Sim L (OutP L) (fillEntriesH es pre coll) (Res.liftK (fillEntries (HVal.eraseEntries es) pre coll')) := by
  cases es with
  | nil =>
    unfold fillEntriesH
    simp only [HVal.eraseEntries]
    unfold fillEntries
    exact sim_pure ⟨outE_nil, hc⟩
  | cons e es =>
    obtain ⟨k, v⟩ := e
    have hk : Out L k k.erase := ⟨rfl, (he _ List.mem_cons_self).1⟩
    have hv : Out L v v.erase := ⟨rfl, (he _ List.mem_cons_self).2⟩
    have ht : WithinE L es := fun e h => he e (List.mem_cons_of_mem _ h)
    unfold fillEntriesH
    simp only [HVal.eraseEntries]
    unfold fillEntries
    have hkeep : Sim L (OutP L)
        (do
          let (es', coll') ← fillEntriesH es pre coll
          pure ((k, v) :: es', coll'))
        (Res.liftK (do
          let (es', coll') ← fillEntries (HVal.eraseEntries es) pre coll'
          .ok ((k.erase, v.erase) :: es', coll'))) := by
      rw [liftK_bind]
      refine sim_bind (fillEntries_sim es pre coll coll' ht hc) ?_
      rintro ⟨a1, a2⟩ ⟨b1, b2⟩ ⟨g1, g2⟩
      exact sim_pure ⟨outE_cons g1 hk hv, g2⟩
    split
    · exact fillEntries_sim es pre coll coll' ht hc
    · cases v with
      | dict l ds =>
        simp only [HVal.erase]
        split
        · exact hkeep
        · cases k with
          | atom a =>
            cases a with
            | str a =>
              simp only [HVal.erase]
              rw [liftK_bind]
              have hds := fillVal_sim (.dict l ds) (pre ++ a ++ ['/']) coll coll' hv.2 hc
              simp only [HVal.erase] at hds
              refine sim_bind hds ?_
              rintro ⟨v1, n1, c1⟩ ⟨v2, n2, c2⟩ ⟨g1, g2, g3⟩
              dsimp only
              rw [liftK_bind]
              refine sim_bind (fillEntries_sim es pre _ _ ht (outE_set g3 (out_atom (.str (pre ++ a))) g2)) ?_
              rintro ⟨a1, a2⟩ ⟨b1, b2⟩ ⟨f1, f2⟩
              exact sim_pure ⟨outE_cons f1 hk g1, f2⟩
            | _ => exact sim_raise _
          | _ => exact sim_raise _
      | _ => exact hkeep
end

theorem dictWithMeta_sim (H : HEnv) (obj : List (HVal × HVal)) (obj' : List (Val × Val)) (ho : OutE L obj obj') (clsName : PyStr)
    (verbose : Verbosity) : Sim L (OutE L) (dictWithMetaH H obj clsName verbose) (Res.liftK (dictWithMeta H.toEnv obj' clsName verbose)) := by
  unfold dictWithMetaH dictWithMeta
  split
  · exact sim_pure ho
  · dsimp only
    have h1 : OutE L (hset obj (.str metaKey) (.dict none [])) (dictSet obj' (.str metaKey) (.dict [])) :=
      outE_set ho (out_atom _) (out_dict outE_nil)
    have h2 : OutE L (if verbose.dumpTime then [(HVal.str "dump_time".toList, HVal.str H.now)] else [])
        (if verbose.dumpTime then [(Val.str "dump_time".toList, Val.str H.now)] else []) := by
      split
      · exact outE_cons outE_nil (out_atom _) (out_atom _)
      · exact outE_nil
    have h3 : ∀ {m1 : List (HVal × HVal)} {m1' : List (Val × Val)} {m2 : List (HVal × HVal)} {m2' : List (Val × Val)},
        OutE L m1 m1' → OutE L m2 m2' → OutE L (m1 ++ m2) (m1' ++ m2') := by
      intro m1 m1' m2 m2' g1 g2
      refine ⟨by rw [eraseEntries_append, g1.1, g2.1], fun e he => ?_⟩
      rcases List.mem_append.1 he with he | he
      · exact g1.2 e he
      · exact g2.2 e he
    split
    · rw [liftK_bind]
      refine sim_bind (fillEntries_sim _ _ [] [] h1.2 outE_nil |> fun h => by rw [h1.1] at h; exact h) ?_
      rintro ⟨a1, a2⟩ ⟨b1, b2⟩ ⟨g1, g2⟩
      rw [liftK_bind]
      refine sim_bind (S := OutP L) (sim_pure (a := (a1, [(HVal.str "classes".toList, HVal.dict none (hset a2 (.str ['/']) (.str clsName)))]))
        ⟨g1, outE_cons outE_nil (out_atom _) (out_dict (outE_set g2 (out_atom _) (out_atom _)))⟩) ?_
      rintro ⟨a1, a2⟩ ⟨b1, b2⟩ ⟨g1, g2⟩
      exact sim_pure (outE_set g1 (out_atom _) (out_dict (h3 g2 h2)))
    · rw [liftK_bind]
      refine sim_bind (S := OutP L) (sim_pure (a := (hset obj (.str metaKey) (.dict none []), [])) ⟨h1, outE_nil⟩) ?_
      rintro ⟨a1, a2⟩ ⟨b1, b2⟩ ⟨g1, g2⟩
      exact sim_pure (outE_set g1 (out_atom _) (out_dict (h3 g2 h2)))

end


section
variable {H : HEnv} {F : Frame} {R : HRec} {R' : Rec}

theorem objectWith_sim (hS : Setting H F) (hR : RecSim H F R R') {v : HVal} (hv : Calm H F v) (kw : DumpKw) (hk : KwOk F kw)
    (strip : StripAttr) (t : Ty) (I : ClassInfo) (as : Except Err (List (PyStr × Option Ty)))
    (has : ∀ l, as = .ok l → ∀ a ∈ l, ∀ t ∈ a.2, F.T t) :
    Sim F.L (Out F.L) (objectHWith H R v kw strip t I as) (objectSerWith H.toEnv R' v.erase kw strip t I as) := by
  unfold objectHWith objectSerWith
  refine sim_bind_same fun l hl => ?_
  rw [lift_val] at hl
  dsimp only
  refine sim_bind (attrLoop_sim hS hR { kw with stripAttr := strip, storeCls := kw.verbose.classInfo } ⟨hk.types, hk.strict, hk.byValue⟩
    _ hv _ l (has l hl) [] [] outE_nil) fun r r' hr => ?_
  split
  · exact sim_pure (out_dict hr)
  · exact sim_bind (dictWithMeta_sim H r r' hr _ _) fun r r' hr => sim_pure (out_dict hr)

theorem types_in (I : ClassInfo) (strict : Bool) (hh : ∀ p ∈ I.hints, F.T p.2)
    (hi : strict = true → ∀ p ∈ I.initHints, F.T p.2) : ∀ a ∈ attributesAndTypes I strict, ∀ t ∈ a.2, F.T t := by
  have key : ∀ (ms : List (PyStr × Member)) (base : List (PyStr × Option Ty)),
      (∀ a ∈ base, ∀ t ∈ a.2, F.T t) →
      ∀ a ∈ ms.foldl (fun as p => assocSet as p.1 none) base, ∀ t ∈ a.2, F.T t := by
    intro ms
    induction ms with
    | nil => exact fun base h => h
    | cons m ms ih =>
      intro base h
      refine ih _ fun a ha t ht => ?_
      rcases Registrations.mem_assocSet ha with h' | h'
      · exact h a h' t ht
      · rw [h'] at ht; cases ht
  refine key _ _ ?_
  intro a ha t ht
  split at ha
  · rw [List.mem_map] at ha
    obtain ⟨_, _, rfl⟩ := ha
    cases ht
  · split at ha
    · rw [List.mem_map] at ha
      obtain ⟨p, hp, rfl⟩ := ha
      cases ht
      exact hh p hp
    · split at ha
      · next hst =>
        rw [List.mem_map] at ha
        obtain ⟨p, hp, rfl⟩ := ha
        cases ht
        exact hi hst p (List.mem_filter.mp hp).1
      · cases ha

theorem object_sim (hS : Setting H F) (hR : RecSim H F R R') {v : HVal} (hv : Calm H F v) (cls : Option Ty)
    (kw : DumpKw) (hk : KwOk F kw) : Sim F.L (Out F.L) (objectH H R v cls kw) (objectSer H.toEnv R' v.erase cls kw) := by
  have hcls : ∀ c, ∀ a ∈ attributesAndTypes (H.info c) kw.strict, ∀ t ∈ a.2, F.T t := by
    intro c
    exact types_in _ _ (hS.hints c) (fun h => hS.init (hk.strict h) c)
  have hfrom : Sim F.L (Out F.L) (objectH H R v none kw) (objectSer H.toEnv R' v.erase none kw) := by
    cases v
    case obj l c as =>
      refine objectWith_sim hS hR hv kw hk _ _ _ _ fun l hl a ha t ht => ?_
      have hm := Registrations.filterAttributes_in hl a ha
      rw [List.mem_map] at hm
      obtain ⟨n, _, rfl⟩ := hm
      dsimp only at ht
      cases hn : assoc (attributesAndTypes (H.info c) kw.strict) n with
      | none => rw [hn] at ht; cases ht
      | some x =>
        rw [hn] at ht
        exact hcls c _ (Core.assoc_mem hn) t ht
    all_goals exact objectWith_sim hS hR hv kw hk _ _ _ _ (hS.foreign _ _ _)
  cases cls with
  | none => exact hfrom
  | some t =>
    by_cases hst : kw.strict = true
    · unfold objectH objectSer
      dsimp only
      rw [if_pos hst, if_pos hst]
      split
      · next c =>
        refine objectWith_sim hS hR hv kw hk _ _ _ _ fun l hl => ?_
        unfold attributesFromClass at hl
        split at hl
        · exact fun a ha => hcls c a (Registrations.filterAttributes_in hl a ha)
        · cases hl
      · refine objectWith_sim hS hR hv kw hk _ _ _ _ fun l hl => ?_
        unfold attributesFromClass at hl
        split at hl
        · intro a ha
          have hm := Registrations.filterAttributes_in hl a ha
          rw [show attributesAndTypes ClassInfo.object kw.strict = [] from by cases kw.strict <;> rfl] at hm
          cases hm
        · cases hl
      · next g1 g2 =>
        split
        · exact absurd rfl (g1 _)
        · exact absurd rfl g2
        · exact objectWith_sim hS hR hv kw hk _ _ _ _ (hS.foreign _ _ _)
    · have h1 : objectH H R v (some t) kw = objectH H R v none kw := by
        unfold objectH
        dsimp only
        rw [if_neg hst]
      have h2 : objectSer H.toEnv R' v.erase (some t) kw = objectSer H.toEnv R' v.erase none kw := by
        unfold objectSer
        dsimp only
        rw [if_neg hst]
      rw [h1, h2]
      exact hfrom

theorem noCustom (t : Ty) (id : Nat) : t.serFn H.info ≠ some (.custom id) := by
  have hc : ∀ c : Cls, c.serFn H.info ≠ .custom id := by
    intro c
    cases c <;> simp [Cls.serFn]
    split <;> simp
  unfold Ty.serFn
  split <;> simp [hc]

theorem call_sim (hS : Setting H F) (hR : RecSim H F R R') (f : SerFn) {v : HVal} (hv : Calm H F v) (cls : Option Ty)
    (ht : ∀ t ∈ cls, F.T t) (kw : DumpKw) (hk : KwOk F kw) (hf : (cls.getD (.cls v.erase.cls)).serFn H.info = some f) :
    Sim F.L (Out F.L) (callSerH H R f v cls kw) (callSer H.toEnv R' f v.erase cls kw) := by
  cases f with
  | tuple => exact tuple_sim hS hR hv cls ht kw hk
  | complex => exact complex_sim hS hv cls ht hf
  | timezone => exact timezone_sim hS hR v cls kw ht hk
  | primitive => exact primitive_sim hv cls hf
  | enum => exact enum_sim hS hv cls ht hk hf
  | dict => exact dict_sim hR hv kw hk
  | list => exact list_sim hS hR hv cls ht kw hk
  | iterable => exact iterable_sim hS hR hv cls (fun t h => hS.args t (ht t h)) kw hk
  | object => exact object_sim hS hR hv cls kw hk
  | union => exact union_sim hS hR hv cls ht kw hk
  | custom id => exact absurd hf (noCustom _ id)
  | datetime => exact sim_made _
  | date => exact sim_made _
  | time => exact sim_made _
  | timedelta => exact sim_made _
  | uuid => exact sim_made _
  | decimal => exact sim_made _
  | path => exact sim_made _
  | zoneinfo => exact sim_made _

theorem dumpWith_sim (hS : Setting H F) (hR : RecSim H F R R') {v : HVal} (hv : Calm H F v) (cls : Option Ty)
    (ht : ∀ t ∈ cls, F.T t) (kw : DumpKw) (hk : KwOk F kw) :
    Sim F.L (Out F.L) (dumpHWith H R v cls kw) (dumpWith H.toEnv R' v.erase cls kw) := by
  unfold dumpHWith dumpWith
  dsimp only
  rw [hS.sers]
  refine sim_bind_same fun fn hfn => ?_
  rw [liftK_ok] at hfn
  have hfn : (cls.getD (.cls v.erase.cls)).serFn H.info = fn := by cases hfn; rfl
  refine sim_bind (sim_same _) fun _ _ _ => ?_
  have hc : Sim F.L (Out F.L) (match (generalizing := false) fn with
      | some f => R.call f v cls kw
      | none => .raise { kind := .typeError }) (match (generalizing := false) fn with
      | some f => R'.call f v.erase cls kw
      | none => Res.raise { kind := .typeError }) := by
    cases fn with
    | none => exact sim_raise _
    | some f => exact hR.call f v cls kw hv ht hk hfn
  refine sim_bind (sim_attempt hc) ?_
  intro x y hxy
  cases hxy with
  | ok hab => exact sim_pure hab
  | err e => exact sim_raise _

theorem recOf_sim (hS : Setting H F) : ∀ n, RecSim H F (recOfH H n) (recOf H.toEnv n)
  | 0 => ⟨fun _ _ _ _ _ _ => sim_raise _, fun _ _ _ _ _ _ _ _ => sim_raise _⟩
  | n + 1 => ⟨fun _ cls kw hv ht hk => dumpWith_sim hS (recOf_sim hS n) hv cls ht kw hk,
      fun f _ cls kw hv ht hk hf => call_sim hS (recOf_sim hS n) f hv cls ht kw hk hf⟩

end

end Verif.Props.Sharing
