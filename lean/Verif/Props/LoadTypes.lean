import Verif.Props.LoadObject

/-!
# C35: what `load` returns fits the type
-/

set_option autoImplicit false

namespace Verif.Props.LoadTypes
open Verif Verif.Core Verif.Datetime Verif.Props.LoadBasics Verif.Props.LoadCollections
  Verif.Props.LoadObject

/-! ## Specification -/

/-- The value is one of this type.  With `short`, a value of a tuple type may have
fewer elements than the type. -/
inductive Fits (info : Nat → ClassInfo) (short : Bool) : Val → Ty → Prop
  | any {v : Val} : Fits info short v .any
  | cls {v : Val} {c : Cls} : v.cls.sub info c = true → Fits info short v (.cls c)
  | bare {v : Val} {g : Gen} : v.cls.sub info g.naked = true → Fits info short v (.gen g [])
  | list {xs : List Val} {a : Ty} : (∀ x ∈ xs, Fits info short x a) →
      Fits info short (.list xs) (.gen .list [a])
  | set {xs : List Val} {a : Ty} : (∀ x ∈ xs, Fits info short x a) →
      Fits info short (.set xs) (.gen .set [a])
  | frozenset {xs : List Val} {a : Ty} : (∀ x ∈ xs, Fits info short x a) →
      Fits info short (.seq .frozenset xs) (.gen .frozenset [a])
  | deque {xs : List Val} {a : Ty} : (∀ x ∈ xs, Fits info short x a) →
      Fits info short (.seq .deque xs) (.gen .deque [a])
  | iterable {k : SeqKind} {xs : List Val} {a : Ty} : (∀ x ∈ xs, Fits info short x a) →
      Fits info short (.seq k xs) (.gen .iterable [a])
  | tupleEll {xs : List Val} {a : Ty} : (∀ x ∈ xs, Fits info short x a) →
      Fits info short (.tuple xs) (.gen .tupleEll [a])
  | tuple {xs : List Val} {ts : List Ty} : xs.length ≤ ts.length →
      (short = false → xs.length = ts.length) →
      (∀ (i : Nat) x t, xs[i]? = some x → ts[i]? = some t → Fits info short x t) →
      Fits info short (.tuple xs) (.gen .tuple ts)
  | dict {es : List (Val × Val)} {k t : Ty} : (∀ e ∈ es, Fits info short e.1 k) →
      (∀ e ∈ es, Fits info short e.2 t) → Fits info short (.dict es) (.gen .dict [k, t])
  | mapping {es : List (Val × Val)} {k t : Ty} : (∀ e ∈ es, Fits info short e.1 k) →
      (∀ e ∈ es, Fits info short e.2 t) → Fits info short (.dict es) (.gen .mapping [k, t])
  | defaultdict {f : Option Ty} {es : List (Val × Val)} {k t : Ty} :
      (∀ e ∈ es, Fits info short e.1 k) → (∀ e ∈ es, Fits info short e.2 t) →
      Fits info short (.ddict f es) (.gen .defaultdict [k, t])
  | union {v : Val} {t : Ty} {ts : List Ty} : t ∈ ts → Fits info short v t →
      Fits info short v (.union ts)
  | newtype {v : Val} {n : PyStr} {t : Ty} : Fits info short v t →
      Fits info short v (.newtype n t)

/-- The types of the theorem: classes, `Any`, collections, unions, and a `NewType` of a
class that is neither `str` nor a class of the program.  Tuple types of a fixed length
only with `short`. -/
inductive Typed (short : Bool) : Ty → Prop
  | any : Typed short .any
  | cls (c : Cls) : Typed short (.cls c)
  | bare (g : Gen) : Typed short (.gen g [])
  | elems {g : Gen} {a : Ty} : g ∈ [Gen.list, .set, .frozenset, .deque, .iterable, .tupleEll] →
      Typed short a → Typed short (.gen g [a])
  | tuple {a : Ty} {ts : List Ty} : short = true → (∀ t ∈ a :: ts, Typed short t) →
      Typed short (.gen .tuple (a :: ts))
  | dict {g : Gen} {k t : Ty} : g ∈ [Gen.dict, .mapping, .defaultdict] → Typed short k →
      Typed short t → Typed short (.gen g [k, t])
  | union {ts : List Ty} : (∀ t ∈ ts, Typed short t) → Typed short (.union ts)
  | newtype {n : PyStr} {c : Cls} : c ≠ .str → (∀ u, c ≠ .user u) →
      Typed short (.newtype n (.cls c))

/-- Inputs without '-meta' and '-keys'. -/
inductive Clean : Val → Prop
  | atom (a : Atom) : Clean (.atom a)
  | seq {k : SeqKind} {xs : List Val} : (∀ x ∈ xs, Clean x) → Clean (.seq k xs)
  | dict {es : List (Val × Val)} : dictGet es (.str metaKey) = none →
      dictGet es (.str keysKey) = none → (∀ e ∈ es, Clean e.1) → (∀ e ∈ es, Clean e.2) →
      Clean (.dict es)

/-- The key transformer returns such values, for instance texts. -/
def KtClean (kt : Option (Val → Except Err Val)) : Prop :=
  ∀ f, kt = some f → ∀ k r, Clean k → f k = .ok r → Clean r

/-! ## Lemmas -/

theorem clean_noMeta {v : Val} (h : Clean v) : NoMeta v := by
  intro es he
  subst he
  cases h with
  | dict h _ _ _ => exact h

theorem clean_iter {v : Val} (h : Clean v) {xs : List Val} (hx : v.iter = some xs) :
    ∀ x ∈ xs, Clean x := by
  cases h with
  | atom a =>
    cases a with
    | str s =>
      simp only [Val.iter, Option.some.injEq] at hx
      subst hx
      intro x hx
      obtain ⟨c, _, rfl⟩ := List.mem_map.1 hx
      exact .atom _
    | _ => cases hx
  | seq h => cases hx; exact h
  | dict _ _ h _ =>
    simp only [Val.iter, Option.some.injEq] at hx
    subst hx
    intro x hx
    obtain ⟨e, he, rfl⟩ := List.mem_map.1 hx
    exact h e he

theorem sub_refl (info : Nat → ClassInfo) (c : Cls) : c.sub info c = true := by
  simp [Cls.sub]

theorem sub_object (info : Nat → ClassInfo) (c : Cls) : c.sub info .object = true := by
  simp [Cls.sub]

/-- A call that returns, returns the value itself or what the deserializer made. -/
theorem load_ok_cases {E : LEnv} {n : Nat} {v r : Val} {t : Ty} {kw : LoadKw}
    (hd : DefaultDesers E kw.fork) (hm : NoMeta v)
    (h : (load E (n + 1) v (some t) kw).val = .ok r) :
    NoneOk E v (some t) ∧ ((Skips v (some t) kw ∧ r = v) ∨
      ∃ f, t.desFn E.info = some f ∧ (callDes E (load E n) f v t (kwOf kw none)).val = .ok r) := by
  have h0 : NoneOk E v (some t) := by
    intro hv
    rw [load_succ] at h
    unfold loadWith at h
    rw [bind_ok] at h
    obtain ⟨_, h, _⟩ := h
    unfold checkForNone at h
    rw [if_pos hv, bind_ok] at h
    obtain ⟨b, hb, h⟩ := h
    rw [liftK_ok] at hb
    cases b with
    | true => exact hb
    | false => simp at h
  refine ⟨h0, ?_⟩
  by_cases hs : Skips v (some t) kw
  · left
    rw [load_skip h0 hs, bind_ok] at h
    obtain ⟨_, _, h⟩ := h
    simp only [pure_val, Except.ok.injEq] at h
    exact ⟨hs, h.symm⟩
  · right
    by_cases hv : v.cls ∈ validTypes
    · rw [load_enter h0 hs hv (noMeta_get hm _) hd, target_explicit (.inr rfl),
        calleeKw_explicit (.inr rfl)] at h
      cases hf : t.desFn E.info with
      | none =>
        rw [hf] at h
        cases h
      | some f =>
        rw [hf, doLoad_ok] at h
        exact ⟨f, rfl, h.1⟩
    · rw [load_from h0 hs] at h
      unfold loadFrom at h
      rw [if_pos hv] at h
      cases h

theorem listLoop_mem {E : LEnv} {rec : LRec} {cls : Option Ty} {warn : Bool} {kw : LoadKw} :
    ∀ (xs : List Val) (i : Nat) (ys : List Val), (listLoop E rec cls warn kw i xs).val = .ok ys →
      ∀ y ∈ ys, ∃ x ∈ xs, (rec x cls kw).val = .ok y := by
  intro xs
  induction xs with
  | nil =>
    intro i ys h y hy
    simp only [listLoop, pure_val, Except.ok.injEq] at h
    subst h
    cases hy
  | cons x xs ih =>
    intro i ys h y hy
    simp only [listLoop, bind_ok, attempt_val, Except.ok.injEq, exists_eq_left'] at h
    split at h
    · next z hz =>
      simp only [bind_ok, pure_val, Except.ok.injEq] at h
      obtain ⟨zs, h, rfl⟩ := h
      rcases List.mem_cons.1 hy with rfl | hy
      · exact ⟨x, List.mem_cons_self, hz⟩
      · obtain ⟨x', hx', h'⟩ := ih _ _ h y hy
        exact ⟨x', List.mem_cons_of_mem _ hx', h'⟩
    · split at h
      · split at h
        · simp only [bind_ok] at h
          obtain ⟨_, _, h⟩ := h
          obtain ⟨x', hx', h'⟩ := ih _ _ h y hy
          exact ⟨x', List.mem_cons_of_mem _ hx', h'⟩
        · cases h
      · cases h

theorem tupleLoop_ok {rec : LRec} {kw : LoadKw} :
    ∀ (xs : List Val) (ts : List Ty) (ys : List Val), (tupleLoop rec kw ts xs).val = .ok ys →
      ys.length = xs.length ∧ xs.length ≤ ts.length ∧
      ∀ (i : Nat) y t, ys[i]? = some y → ts[i]? = some t → ∃ x ∈ xs, (rec x (some t) kw).val = .ok y := by
  intro xs
  induction xs with
  | nil =>
    intro ts ys h
    cases ts <;> (simp only [tupleLoop, pure_val, Except.ok.injEq] at h; subst h; simp)
  | cons x xs ih =>
    intro ts ys h
    cases ts with
    | nil => cases h
    | cons t ts =>
      simp only [tupleLoop, bind_ok, pure_val, Except.ok.injEq] at h
      obtain ⟨y, hy, zs, hz, rfl⟩ := h
      obtain ⟨h1, h2, h3⟩ := ih ts zs hz
      refine ⟨by simp [h1], by simp [h2], ?_⟩
      intro i y' t' hy' ht'
      cases i with
      | zero =>
        simp only [List.getElem?_cons_zero, Option.some.injEq] at hy' ht'
        subst hy'; subst ht'
        exact ⟨x, List.mem_cons_self, hy⟩
      | succ i =>
        simp only [List.getElem?_cons_succ] at hy' ht'
        obtain ⟨x', hx', h'⟩ := h3 i y' t' hy' ht'
        exact ⟨x', List.mem_cons_of_mem _ hx', h'⟩

theorem mem_dictSet {es : List (Val × Val)} {k v : Val} {e : Val × Val} (h : e ∈ dictSet es k v) :
    (e.1 = k ∨ ∃ e' ∈ es, e'.1 = e.1) ∧ (e.2 = v ∨ ∃ e' ∈ es, e'.2 = e.2) := by
  induction es with
  | nil =>
    simp only [dictSet, List.mem_singleton] at h
    subst h
    exact ⟨.inl rfl, .inl rfl⟩
  | cons p es ih =>
    obtain ⟨k', v'⟩ := p
    simp only [dictSet] at h
    split at h
    · rcases List.mem_cons.1 h with rfl | h
      · exact ⟨.inr ⟨_, List.mem_cons_self, rfl⟩, .inl rfl⟩
      · exact ⟨.inr ⟨_, List.mem_cons_of_mem _ h, rfl⟩, .inr ⟨_, List.mem_cons_of_mem _ h, rfl⟩⟩
    · rcases List.mem_cons.1 h with rfl | h
      · exact ⟨.inr ⟨_, List.mem_cons_self, rfl⟩, .inr ⟨_, List.mem_cons_self, rfl⟩⟩
      · obtain ⟨h1, h2⟩ := ih h
        exact ⟨h1.imp id fun ⟨e', he, h⟩ => ⟨e', List.mem_cons_of_mem _ he, h⟩,
          h2.imp id fun ⟨e', he, h⟩ => ⟨e', List.mem_cons_of_mem _ he, h⟩⟩

theorem dictComp_mem {info : Nat → ClassInfo} {kf vf : Val → Res Val} {A B : Val → Prop} :
    ∀ (es acc r : List (Val × Val)), (dictComp info kf vf acc es).val = .ok r →
      (∀ e ∈ es, ∀ y, (kf e.1).val = .ok y → A y) → (∀ e ∈ es, ∀ y, (vf e.2).val = .ok y → B y) →
      (∀ e ∈ acc, A e.1) → (∀ e ∈ acc, B e.2) → (∀ e ∈ r, A e.1) ∧ ∀ e ∈ r, B e.2 := by
  intro es
  induction es with
  | nil =>
    intro acc r h _ _ ha hb
    simp only [dictComp, pure_val, Except.ok.injEq] at h
    subst h
    exact ⟨ha, hb⟩
  | cons e es ih =>
    obtain ⟨k, v⟩ := e
    intro acc r h h1 h2 ha hb
    simp only [dictComp, bind_ok] at h
    obtain ⟨k', hk, v', hv, h⟩ := h
    split at h
    · have hA := h1 (k, v) List.mem_cons_self k' hk
      have hB := h2 (k, v) List.mem_cons_self v' hv
      refine ih _ _ h (fun e he => h1 e (List.mem_cons_of_mem _ he))
        (fun e he => h2 e (List.mem_cons_of_mem _ he)) ?_ ?_
      · intro e he
        rcases (mem_dictSet he).1 with h | ⟨e', he', h⟩
        · rw [h]; exact hA
        · rw [← h]; exact ha e' he'
      · intro e he
        rcases (mem_dictSet he).2 with h | ⟨e', he', h⟩
        · rw [h]; exact hB
        · rw [← h]; exact hb e' he'
    · cases h

theorem dedup_mem : ∀ (xs acc : List Val), ∀ y ∈ dedup acc xs, y ∈ acc ∨ y ∈ xs := by
  intro xs
  induction xs with
  | nil => intro acc y hy; exact .inl (List.mem_reverse.1 hy)
  | cons x xs ih =>
    intro acc y hy
    simp only [dedup] at hy
    split at hy
    · exact (ih acc y hy).imp id (List.mem_cons_of_mem _)
    · rcases ih _ y hy with h | h
      · rcases List.mem_cons.1 h with rfl | h
        · exact .inr List.mem_cons_self
        · exact .inl h
      · exact .inr (List.mem_cons_of_mem _ h)

theorem loadHashedKeys_clean {E : LEnv} {rec : LRec} {v : Val} {args : List Ty} {kw : LoadKw}
    {r : List (Val × Val) × Bool} (h : Clean v) (hr : (loadHashedKeys E rec v args kw).val = .ok r) :
    v = .dict r.1 ∧ r.2 = false := by
  cases h with
  | atom a => cases hr
  | seq _ => cases hr
  | dict _ h _ _ =>
    simp only [loadHashedKeys, h, pure_val, Except.ok.injEq] at hr
    subst hr
    exact ⟨rfl, rfl⟩

theorem getD_clean {kt : Option (Val → Except Err Val)} (h : KtClean kt) :
    KtClean (some (kt.getD .ok)) := by
  intro f hf k r hk hr
  cases hf
  cases kt with
  | none => cases hr; exact hk
  | some g => exact h g rfl k r hk hr

theorem ktClean_none : KtClean none := by intro f hf; cases hf

variable {E : LEnv} {short : Bool}

theorem primitive_fits {v r : Val} {c : Cls} (hc : c = .bool ∨ c = .int ∨ c = .float)
    (h0 : NoneOk E v (some (.cls c))) (h : (primitiveDes E v (.cls c)).val = .ok r) :
    Fits E.info short r (.cls c) := by
  unfold primitiveDes at h
  split at h
  · next hv =>
    exfalso
    have := h0 hv
    rcases hc with rfl | rfl | rfl <;> cases this
  · split at h
    · cases h
    · next hi =>
      simp only [pure_val, Except.ok.injEq] at h
      subst h
      exact .cls (Except.ok.inj hi)
    · split at h
      · next r' hr =>
        simp only [pure_val, Except.ok.injEq] at h
        subst h
        refine .cls ?_
        rcases hc with rfl | rfl | rfl
        · cases hr; rfl
        · simp only [Env.cast] at hr
          cases hx : E.intOf v with
          | error k => rw [hx] at hr; cases hr
          | ok x => rw [hx] at hr; cases hr; rfl
        · simp only [Env.cast] at hr
          cases hx : E.floatOf v with
          | error k => rw [hx] at hr; cases hr
          | ok x => rw [hx] at hr; cases hr; rfl
      · split at h <;> cases h

theorem newtype_primitive {v r : Val} {m : PyStr} {c : Cls}
    (h0 : NoneOk E v (some (.newtype m (.cls c)))) (h : (primitiveDes E v (.newtype m (.cls c))).val = .ok r) :
    False := by
  unfold primitiveDes at h
  split at h
  · next hv =>
    have := h0 hv
    rw [canMatch_newtype] at this
    split at this <;> cases this
  · cases h

/-- The classes whose deserializers make one value. -/
theorem atom_fits {rec : LRec} {v r : Val} {t : Ty} {kw : LoadKw} {c : Cls}
    (hc : c ∈ [Cls.noneType, .datetime, .date, .time, .timedelta, .timezone, .uuid, .decimal, .complex,
      .path, .zoneinfo]) (h : (callDes E rec (c.desFn E.info) v t kw).val = .ok r) :
    r.cls = c := by
  simp only [List.mem_cons, List.not_mem_nil, or_false] at hc
  rcases hc with rfl | rfl | rfl | rfl | rfl | rfl | rfl | rfl | rfl | rfl | rfl
  · simp only [Cls.desFn, callDes, noneTypeDes] at h
    split at h
    · next hv => subst hv; cases h; rfl
    · cases h
  · simp only [Cls.desFn, callDes, datetimeDes] at h
    split at h
    · next s =>
      rw [liftK_ok] at h
      cases hx : datetimeDeserializer s with
      | error k => rw [hx] at h; cases h
      | ok x => rw [hx] at h; cases h; rfl
    · cases h
  · simp only [Cls.desFn, callDes, dateDes] at h
    split at h
    · next s =>
      rw [liftK_ok] at h
      cases hx : dateDeserializer s with
      | error k => rw [hx] at h; cases h
      | ok x => rw [hx] at h; cases h; rfl
    · cases h
  · simp only [Cls.desFn, callDes, timeDes] at h
    split at h
    · next s =>
      rw [liftK_ok] at h
      cases hx : timeDeserializer s with
      | error k => rw [hx] at h; cases h
      | ok x => rw [hx] at h; cases h; rfl
    · cases h
  · simp only [Cls.desFn, callDes, timedeltaDes] at h
    split at h <;> cases h <;> rfl
  · simp only [Cls.desFn, callDes, timezoneDes, bind_ok] at h
    obtain ⟨_, _, td, _, nm, _, h⟩ := h
    split at h
    · split at h <;> cases h
      rfl
    · cases h
  · simp only [Cls.desFn, callDes, uuidDes, liftK_ok] at h
    cases hx : E.uuidOf v with
    | error k => rw [hx] at h; cases h
    | ok x => rw [hx] at h; cases h; rfl
  · simp only [Cls.desFn, callDes, decimalDes, liftK_ok] at h
    cases hx : E.decimalOf v with
    | error k => rw [hx] at h; cases h
    | ok x => rw [hx] at h; cases h; rfl
  · simp only [Cls.desFn, callDes, complexDes, bind_ok, attempt_val, Except.ok.injEq,
      exists_eq_left'] at h
    split at h
    · next r' hr =>
      simp only [pure_val, Except.ok.injEq] at h
      subst h
      simp only [bind_ok] at hr
      obtain ⟨_, _, _, _, _, _, _, _, _, _, hr⟩ := hr
      split at hr <;> cases hr
      rfl
    · split at h <;> cases h
  · simp only [Cls.desFn, callDes, pathDes, liftK_ok] at h
    cases hx : E.pathOf v with
    | error k => rw [hx] at h; cases h
    | ok x => rw [hx] at h; cases h; rfl
  · simp only [Cls.desFn, callDes, zoneinfoDes, bind_ok, liftK_ok] at h
    obtain ⟨k, _, h⟩ := h
    cases hx : E.zoneOf k with
    | error k => rw [hx] at h; cases h
    | ok x => rw [hx] at h; cases h; rfl

theorem castSeq_cls {info : Nat → ClassInfo} {c : Cls} {ys : List Val} {r : Val}
    (h : castSeq info c ys = .ok r) : r.cls.sub info c = true := by
  unfold castSeq at h
  split at h
  · cases h; exact sub_refl _ _
  · cases h; rfl
  · cases h; exact sub_object _ _
  · cases h; exact sub_refl _ _
  · cases h; exact sub_refl _ _
  · split at h <;> cases h
    exact sub_refl _ _
  · split at h <;> cases h
    exact sub_refl _ _
  · cases h

theorem enum_fits {v r : Val} {c : Nat} {kw : LoadKw}
    (h : (enumDes E v (.cls (.user c)) kw).val = .ok r) : r.cls = .user c := by
  have h1 : ∀ r, enumByName (E.info c) c v = .ok r → r.cls = .user c := by
    intro r h
    unfold enumByName at h
    split at h
    · split at h <;> cases h
      rfl
    · cases h
  have h2 : ∀ r, enumByValue (E.info c) c v = .ok r → r.cls = .user c := by
    intro r h
    unfold enumByValue at h
    split at h <;> cases h
    rfl
  simp only [enumDes] at h
  split at h
  · exact h1 r (liftK_ok.1 h)
  · exact h2 r (liftK_ok.1 h)
  · split at h
    · next hr => cases h; exact h1 _ hr
    · exact h2 r (liftK_ok.1 h)

/-- The elements of a tuple that is not a named tuple. -/
def tupleElems (rec : LRec) (kw : LoadKw) (t : Ty) (xs : List Val) : Res (List Val) :=
  match t with
  | .gen .tupleEll (a :: _) => tupleLoop rec kw (List.replicate xs.length a) xs
  | .gen _ (a :: as) | .union (a :: as) => tupleLoop rec kw (a :: as) xs
  | _ => mapRes (fun x => rec x none kw) xs

theorem tupleDes_plain {rec : LRec} {v : Val} {t : Ty} {kw : LoadKw} (ht : ∀ c, t ≠ .cls (.user c)) :
    (v.iter = none → tupleDes E rec v t kw = Res.raise { kind := .typeError }) ∧
    ∀ xs, v.iter = some xs → tupleDes E rec v t kw =
      (do let ys ← tupleElems rec { kw with keyTransformer := none } t xs; pure (Val.tuple ys)) := by
  refine ⟨?_, ?_⟩
  · intro h
    unfold tupleDes
    rw [h]
    cases t with
    | cls c => cases c <;> first | rfl | exact absurd rfl (ht _)
    | _ => rfl
  · intro xs h
    unfold tupleDes
    rw [h]
    cases t with
    | cls c => cases c <;> first | rfl | exact absurd rfl (ht _)
    | gen g as => cases as <;> cases g <;> rfl
    | union as => cases as <;> rfl
    | _ => rfl

theorem tuple_cls {rec : LRec} {v r : Val} {t : Ty} {kw : LoadKw}
    (ht : ∀ c, t ≠ .cls (.user c)) (h : (tupleDes E rec v t kw).val = .ok r) : r.cls = .tuple := by
  obtain ⟨h1, h2⟩ := tupleDes_plain (E := E) (rec := rec) (v := v) (kw := kw) ht
  cases hi : v.iter with
  | none => rw [h1 hi] at h; cases h
  | some xs =>
    rw [h2 xs hi] at h
    simp only [bind_ok, pure_val, Except.ok.injEq] at h
    obtain ⟨_, _, rfl⟩ := h
    rfl

theorem ddict_cls {rec : LRec} {v r : Val} {t : Ty} {kw : LoadKw}
    (h : (defaultdictDes rec v t kw).val = .ok r) : r.cls = .defaultdict := by
  simp only [defaultdictDes, bind_ok] at h
  obtain ⟨_, _, _, _, h⟩ := h
  split at h <;> cases h
  rfl

/-- What is loaded as a class is an instance of the class. -/
theorem cls_fits {rec : LRec} {v r : Val} {c : Cls} {kw : LoadKw} (hi : kw.inferred = false)
    (h0 : NoneOk E v (some (.cls c)))
    (h : (callDes E rec (c.desFn E.info) v (.cls c) kw).val = .ok r) :
    Fits E.info short r (.cls c) := by
  have hatom : c ∈ [Cls.noneType, .datetime, .date, .time, .timedelta, .timezone, .uuid, .decimal,
      .complex, .path, .zoneinfo] → Fits E.info short r (.cls c) := by
    intro hc
    refine .cls ?_
    rw [atom_fits hc h]
    exact sub_refl _ _
  have hseq : c ∈ [Cls.set, .frozenset, .deque, .iterable] → Fits E.info short r (.cls c) := by
    intro hc
    have : c.desFn E.info = .iterable := by
      simp only [List.mem_cons, List.not_mem_nil, or_false] at hc
      rcases hc with rfl | rfl | rfl | rfl <;> rfl
    rw [this] at h
    simp only [callDes, iterableDes, bind_ok, Ty.naked?] at h
    obtain ⟨ys, _, h⟩ := h
    exact .cls (castSeq_cls (liftK_ok.1 h))
  cases c with
  | noneType | datetime | date | time | timedelta | timezone | uuid | decimal | complex | path
  | zoneinfo => exact hatom (by decide)
  | set | frozenset | deque | iterable => exact hseq (by decide)
  | bool => exact primitive_fits (.inl rfl) h0 h
  | int => exact primitive_fits (.inr (.inl rfl)) h0 h
  | float => exact primitive_fits (.inr (.inr rfl)) h0 h
  | str =>
    simp only [Cls.desFn, callDes, stringDes, hi, and_self, if_true, pure_val, Except.ok.injEq] at h
    subst h
    exact .cls rfl
  | list =>
    simp only [Cls.desFn, callDes, bind_ok, pure_val, Except.ok.injEq] at h
    obtain ⟨_, _, rfl⟩ := h
    exact .cls rfl
  | tuple =>
    refine .cls ?_
    rw [tuple_cls (by intro c h; cases h) h]
    rfl
  | dict | mapping =>
    simp only [Cls.desFn, callDes, mappingDes, bind_ok, pure_val, Except.ok.injEq] at h
    obtain ⟨_, _, rfl⟩ := h
    exact .cls rfl
  | defaultdict =>
    refine .cls ?_
    rw [ddict_cls h]
    rfl
  | object => exact .cls (sub_object _ _)
  | enum | intEnum => cases h
  | user c =>
    refine .cls ?_
    have : r.cls = .user c := by
      cases hk : (E.info c).kind with
      | plain =>
        simp only [Cls.desFn, hk, callDes, objectDes, bind_ok, pure_val, Except.ok.injEq] at h
        obtain ⟨_, _, _, _, _, _, _, _, _, _, _, _, rfl⟩ := h
        rfl
      | ntuple =>
        simp only [Cls.desFn, hk, callDes, tupleDes, if_true, ntupleDes, bind_ok] at h
        obtain ⟨_, _, h⟩ := h
        split at h
        · cases h
        · simp only [bind_ok, pure_val, Except.ok.injEq] at h
          obtain ⟨_, _, rfl⟩ := h
          rfl
      | enum b =>
        simp only [Cls.desFn, hk, callDes] at h
        exact enum_fits h
    rw [this]
    exact sub_refl _ _

/-- The deserializer of a `NewType`. -/
theorem newtype_fits {rec : LRec} {v r : Val} {m : PyStr} {c : Cls} {kw : LoadKw}
    (h1 : c ≠ .str) (h2 : ∀ u, c ≠ .user u) (h0 : NoneOk E v (some (.newtype m (.cls c))))
    (h : (callDes E rec (c.desFn E.info) v (.newtype m (.cls c)) kw).val = .ok r) :
    Fits E.info short r (.newtype m (.cls c)) := by
  have hatom : c ∈ [Cls.noneType, .datetime, .date, .time, .timedelta, .timezone, .uuid, .decimal,
      .complex, .path, .zoneinfo] → Fits E.info short r (.newtype m (.cls c)) := by
    intro hc
    refine .newtype (.cls ?_)
    rw [atom_fits hc h]
    exact sub_refl _ _
  have hseq : c ∈ [Cls.set, .frozenset, .deque, .iterable] → Fits E.info short r (.newtype m (.cls c)) := by
    intro hc
    have : c.desFn E.info = .iterable := by
      simp only [List.mem_cons, List.not_mem_nil, or_false] at hc
      rcases hc with rfl | rfl | rfl | rfl <;> rfl
    rw [this] at h
    simp only [callDes, iterableDes, bind_ok, Ty.naked?] at h
    obtain ⟨ys, _, h⟩ := h
    cases h
  cases c with
  | noneType | datetime | date | time | timedelta | timezone | uuid | decimal | complex | path
  | zoneinfo => exact hatom (by decide)
  | set | frozenset | deque | iterable => exact hseq (by decide)
  | bool | int | float => exact absurd h fun h => newtype_primitive h0 h
  | str => exact absurd rfl h1
  | list =>
    simp only [Cls.desFn, callDes, bind_ok, pure_val, Except.ok.injEq] at h
    obtain ⟨_, _, rfl⟩ := h
    exact .newtype (.cls rfl)
  | tuple =>
    refine .newtype (.cls ?_)
    rw [tuple_cls (by intro c h; cases h) h]
    rfl
  | dict | mapping =>
    simp only [Cls.desFn, callDes, mappingDes, bind_ok, pure_val, Except.ok.injEq] at h
    obtain ⟨_, _, rfl⟩ := h
    exact .newtype (.cls rfl)
  | defaultdict =>
    refine .newtype (.cls ?_)
    rw [ddict_cls h]
    rfl
  | object => exact .newtype (.cls (sub_object _ _))
  | enum | intEnum => cases h
  | user c => exact absurd rfl (h2 c)

/-- `List`, `Dict`, ... without arguments. -/
theorem bare_fits {rec : LRec} {v r : Val} {g : Gen} {kw : LoadKw}
    (h : (callDes E rec (g.naked.desFn E.info) v (.gen g []) kw).val = .ok r) :
    Fits E.info short r (.gen g []) := by
  have hseq : g ∈ [Gen.set, .frozenset, .deque, .iterable] → Fits E.info short r (.gen g []) := by
    intro hc
    have : g.naked.desFn E.info = .iterable := by
      simp only [List.mem_cons, List.not_mem_nil, or_false] at hc
      rcases hc with rfl | rfl | rfl | rfl <;> rfl
    rw [this] at h
    simp only [callDes, iterableDes, bind_ok, Ty.naked?] at h
    obtain ⟨ys, _, h⟩ := h
    exact .bare (castSeq_cls (liftK_ok.1 h))
  cases g with
  | set | frozenset | deque | iterable => exact hseq (by decide)
  | list =>
    simp only [Gen.naked, Cls.desFn, callDes, bind_ok, pure_val, Except.ok.injEq] at h
    obtain ⟨_, _, rfl⟩ := h
    exact .bare rfl
  | tuple | tupleEll =>
    refine .bare ?_
    rw [tuple_cls (by intro c h; cases h) h]
    rfl
  | dict | mapping =>
    simp only [Gen.naked, Cls.desFn, callDes, mappingDes, bind_ok, pure_val, Except.ok.injEq] at h
    obtain ⟨_, _, rfl⟩ := h
    exact .bare rfl
  | defaultdict =>
    refine .bare ?_
    rw [ddict_cls h]
    rfl

theorem listDes_mem {rec : LRec} {v : Val} {a : Ty} {kw : LoadKw} {ys : List Val} {A : Val → Prop}
    (hc : Clean v) (h : (listDes E rec v [a] kw).val = .ok ys)
    (ih : ∀ x kw' r, Clean x → kw'.fork = kw.fork → kw'.keyTransformer = kw.keyTransformer →
      (rec x (some a) kw').val = .ok r → A r) : ∀ y ∈ ys, A y := by
  unfold listDes at h
  split at h
  · cases h
  · next xs hx =>
    intro y hy
    obtain ⟨x, hx', h'⟩ := listLoop_mem _ _ _ h y hy
    refine ih x { kw with warnOnFail := false, inferred := kw.inferred || ![a].isEmpty } y
      (clean_iter hc hx x hx') rfl rfl h'

theorem dictDes_mem {rec : LRec} {v : Val} {k t : Ty} {kw : LoadKw} {es : List (Val × Val)}
    {A B : Val → Prop} (hc : Clean v) (hk : KtClean kw.keyTransformer)
    (h : (dictDes E rec v [k, t] kw).val = .ok es)
    (ihA : ∀ x kw' r, Clean x → kw'.fork = kw.fork → KtClean kw'.keyTransformer →
      (rec x (some k) kw').val = .ok r → A r)
    (ihB : ∀ x kw' r, Clean x → kw'.fork = kw.fork → KtClean kw'.keyTransformer →
      (rec x (some t) kw').val = .ok r → B r) :
    (∀ e ∈ es, A e.1) ∧ ∀ e ∈ es, B e.2 := by
  unfold dictDes at h
  rw [bind_ok] at h
  obtain ⟨⟨es', b⟩, h1, h⟩ := h
  obtain ⟨rfl, hb⟩ := loadHashedKeys_clean hc h1
  simp only at hb
  subst hb
  cases hc with
  | dict _ _ hck hcv =>
    refine dictComp_mem _ _ _ h ?_ ?_ (by intro e he; cases he) (by intro e he; cases he)
    · intro e he y hy
      simp only [Bool.false_eq_true, if_false, bind_ok, lift_val] at hy
      obtain ⟨z, hz, hy⟩ := hy
      exact ihA z { kw with keyTransformer := none } y (getD_clean hk _ rfl _ _ (hck e he) hz) rfl ktClean_none hy
    · intro e he y hy
      exact ihB e.2 { kw with keyTransformer := some (kw.keyTransformer.getD .ok) } y (hcv e he) rfl
        (getD_clean hk) hy

theorem unionLoop_ok {rec : LRec} {v r : Val} {t : Ty} {kw : LoadKw} : ∀ ts,
    (unionLoadLoop rec v t kw ts).val = .ok r → ∃ a ∈ ts, (rec v (some a) kw).val = .ok r := by
  intro ts
  induction ts with
  | nil => intro h; cases h
  | cons a ts ih =>
    intro h
    simp only [unionLoadLoop, bind_ok, attempt_val, Except.ok.injEq, exists_eq_left'] at h
    split at h
    · next r' hr =>
      simp only [pure_val, Except.ok.injEq] at h
      subst h
      exact ⟨a, List.mem_cons_self, hr⟩
    · split at h
      · obtain ⟨b, hb, h⟩ := ih h
        exact ⟨b, List.mem_cons_of_mem _ hb, h⟩
      · cases h

/-! ## The theorem -/

/-- C35, in general: what `load` returns fits the type. -/
theorem load_fits_aux (E : LEnv) (short : Bool) (fork : Nat) (hd : DefaultDesers E fork) :
    ∀ (n : Nat) (t : Ty), Typed short t → ∀ (v r : Val) (kw : LoadKw), kw.fork = fork → Clean v →
      KtClean kw.keyTransformer → (load E n v (some t) kw).val = .ok r → Fits E.info short r t := by
  intro n
  induction n with
  | zero => intro t _ v r kw _ _ _ h; cases h
  | succ n ih =>
    intro t ht v r kw hf hc hk h
    have hd' : DefaultDesers E kw.fork := hf ▸ hd
    have key := load_ok_cases hd' (clean_noMeta hc) h
    clear h
    obtain ⟨h0, ⟨hs, rfl⟩ | ⟨f, hdes, h⟩⟩ := key
    · rcases hs with ⟨_, hs⟩ | hs
      · cases hs; exact .cls (sub_refl _ _)
      · cases hs; exact .any
    · have ih' : ∀ t, Typed short t → ∀ (x y : Val) (kw' : LoadKw), Clean x → kw'.fork = kw.fork →
          KtClean kw'.keyTransformer → (load E n x (some t) kw').val = .ok y → Fits E.info short y t :=
        fun t ht x y kw' hx hf' hk' h => ih t ht x y kw' (hf'.trans hf) hx hk' h
      cases ht with
      | any => cases hdes
      | cls c =>
        cases hdes
        exact cls_fits rfl h0 h
      | bare g =>
        cases hdes
        exact bare_fits h
      | newtype h1 h2 =>
        cases hdes
        exact newtype_fits h1 h2 h0 h
      | union hts =>
        cases hdes
        simp only [callDes, unionDes, Ty.unionParams] at h
        obtain ⟨a, ha, h⟩ := unionLoop_ok _ h
        exact .union ha (ih' a (hts a ha) v r (kwOf kw none) hc rfl hk h)
      | @elems g a hg ha =>
        have hl : ∀ {ys : List Val} {kw' : LoadKw}, kw'.fork = kw.fork → kw'.keyTransformer = kw.keyTransformer →
            (listDes E (load E n) v [a] kw').val = .ok ys → ∀ y ∈ ys, Fits E.info short y a := by
          intro ys kw' hf' hk' h
          refine listDes_mem hc h ?_
          intro x kw'' r hx h1 h2 h3
          exact ih' a ha x r kw'' hx (h1.trans hf') (by rw [h2, hk']; exact hk) h3
        cases hdes
        simp only [List.mem_cons, List.not_mem_nil, or_false] at hg
        rcases hg with rfl | rfl | rfl | rfl | rfl | rfl
        · simp only [Gen.naked, Cls.desFn, callDes, bind_ok, pure_val, Except.ok.injEq] at h
          obtain ⟨ys, h, rfl⟩ := h
          exact .list (hl (kw' := kwOf kw none) rfl rfl h)
        · simp only [Gen.naked, Cls.desFn, callDes, iterableDes, bind_ok, Ty.naked?, castSeq, liftK_ok] at h
          obtain ⟨ys, h, h'⟩ := h
          split at h' <;> cases h'
          refine .set fun x hx => hl (kw' := kwOf kw none) rfl rfl h x ?_
          exact (dedup_mem _ _ x hx).resolve_left (by intro h; cases h)
        · simp only [Gen.naked, Cls.desFn, callDes, iterableDes, bind_ok, Ty.naked?, castSeq, liftK_ok] at h
          obtain ⟨ys, h, h'⟩ := h
          split at h' <;> cases h'
          refine .frozenset fun x hx => hl (kw' := kwOf kw none) rfl rfl h x ?_
          exact (dedup_mem _ _ x hx).resolve_left (by intro h; cases h)
        · simp only [Gen.naked, Cls.desFn, callDes, iterableDes, bind_ok, Ty.naked?, castSeq, liftK_ok] at h
          obtain ⟨ys, h, h'⟩ := h
          cases h'
          exact .deque (hl (kw' := kwOf kw none) rfl rfl h)
        · simp only [Gen.naked, Cls.desFn, callDes, iterableDes, bind_ok, Ty.naked?, castSeq, liftK_ok] at h
          obtain ⟨ys, h, h'⟩ := h
          cases h'
          exact .iterable (hl (kw' := kwOf kw none) rfl rfl h)
        · simp only [Gen.naked, Cls.desFn, callDes] at h
          obtain ⟨h1, h2⟩ := tupleDes_plain (E := E) (rec := load E n) (v := v) (t := .gen .tupleEll [a])
            (kw := kwOf kw none) (by intro c h; cases h)
          cases hi : v.iter with
          | none => rw [h1 hi] at h; cases h
          | some xs =>
            rw [h2 xs hi] at h
            simp only [tupleElems, bind_ok, pure_val, Except.ok.injEq] at h
            obtain ⟨ys, h, rfl⟩ := h
            obtain ⟨h3, h4, h5⟩ := Verif.Props.LoadTypes.tupleLoop_ok _ _ _ h
            refine .tupleEll fun y hy => ?_
            obtain ⟨i, hi', hy'⟩ := List.getElem_of_mem hy
            obtain ⟨x, hx, hx'⟩ := h5 i y a (by rw [List.getElem?_eq_getElem hi', hy'])
              (by rw [List.getElem?_replicate, if_pos (by omega)])
            exact ih' a ha x y { kwOf kw none with keyTransformer := none } (clean_iter hc hi x hx) rfl ktClean_none hx'
      | @tuple a ts hsh hts =>
        cases hdes
        simp only [Gen.naked, Cls.desFn, callDes] at h
        obtain ⟨h1, h2⟩ := tupleDes_plain (E := E) (rec := load E n) (v := v) (t := .gen .tuple (a :: ts))
          (kw := kwOf kw none) (by intro c h; cases h)
        cases hi : v.iter with
        | none => rw [h1 hi] at h; cases h
        | some xs =>
          rw [h2 xs hi] at h
          simp only [tupleElems, bind_ok, pure_val, Except.ok.injEq] at h
          obtain ⟨ys, h, rfl⟩ := h
          obtain ⟨h3, h4, h5⟩ := Verif.Props.LoadTypes.tupleLoop_ok _ _ _ h
          refine .tuple (by omega) (by rw [hsh]; intro h; cases h) ?_
          intro i y t hy ht
          obtain ⟨x, hx, hx'⟩ := h5 i y t hy ht
          exact ih' t (hts t (List.mem_of_getElem? ht)) x y { kwOf kw none with keyTransformer := none } (clean_iter hc hi x hx) rfl ktClean_none hx'
      | @dict g k t hg hkt htt =>
        have hl : ∀ {es : List (Val × Val)} {kw' : LoadKw}, kw'.fork = kw.fork →
            KtClean kw'.keyTransformer → (dictDes E (load E n) v [k, t] kw').val = .ok es →
            (∀ e ∈ es, Fits E.info short e.1 k) ∧ ∀ e ∈ es, Fits E.info short e.2 t := by
          intro es kw' hf' hk' h
          refine dictDes_mem (A := fun x => Fits E.info short x k) (B := fun x => Fits E.info short x t) hc hk' h ?_ ?_
          · intro x kw'' r hx h1 h2 h3
            exact ih' k hkt x r kw'' hx (h1.trans hf') h2 h3
          · intro x kw'' r hx h1 h2 h3
            exact ih' t htt x r kw'' hx (h1.trans hf') h2 h3
        cases hdes
        simp only [List.mem_cons, List.not_mem_nil, or_false] at hg
        rcases hg with rfl | rfl | rfl
        · simp only [Gen.naked, Cls.desFn, callDes, mappingDes, bind_ok, pure_val, Except.ok.injEq] at h
          obtain ⟨es, h, rfl⟩ := h
          obtain ⟨h1, h2⟩ := hl (kw' := kwOf kw none) rfl hk h
          exact .dict h1 h2
        · simp only [Gen.naked, Cls.desFn, callDes, mappingDes, bind_ok, pure_val, Except.ok.injEq] at h
          obtain ⟨es, h, rfl⟩ := h
          obtain ⟨h1, h2⟩ := hl (kw' := kwOf kw none) rfl hk h
          exact .mapping h1 h2
        · simp only [Gen.naked, Cls.desFn, callDes, defaultdictDes, Ty.getArgs, pure_bind', bind_ok] at h
          obtain ⟨w, h, h'⟩ := h
          split at h'
          · next es =>
            cases h'
            have := ih' (.gen .dict [k, t]) (.dict (by decide) hkt htt) v _ (kwOf kw none) hc rfl hk h
            cases this with
            | dict h1 h2 => exact .defaultdict h1 h2
          · cases h'

/-- C35: what `load` returns fits the type, for every input without '-meta' and '-keys'.
Tuple types of a fixed length are excluded with `short = false`; with `short = true` they
may have lost elements at the end.  What is missing is shown to be wrong below. -/
theorem load_fits_partial (E : LEnv) (short : Bool) (n : Nat) (t : Ty) (v r : Val) (kw : LoadKw)
    (hd : DefaultDesers E kw.fork) (ht : Typed short t) (hc : Clean v) (hk : KtClean kw.keyTransformer)
    (h : (load E n v (some t) kw).val = .ok r) : Fits E.info short r t :=
  load_fits_aux E short kw.fork hd n t ht v r kw rfl hc hk h

theorem transformed_clean {E : LEnv} {kw : LoadKw} {es es' : List (Val × Val)}
    (ht : Transformed E kw es es') (hc : ∀ e ∈ es, Clean e.2) : ∀ e ∈ es', Clean e.2 := by
  intro e he
  obtain ⟨e', he', h⟩ := transformed_values ht e he
  rw [h]
  exact hc e' he'

theorem dictGet_mem {es : List (Val × Val)} {k x : Val} (h : dictGet es k = some x) :
    ∃ e ∈ es, e.2 = x := by
  induction es with
  | nil => cases h
  | cons e es ih =>
    obtain ⟨k', v'⟩ := e
    simp only [dictGet] at h
    split at h
    · cases h; exact ⟨_, List.mem_cons_self, rfl⟩
    · obtain ⟨e, he, hx⟩ := ih h
      exact ⟨e, List.mem_cons_of_mem _ he, hx⟩

/-- C35 for objects: every argument of the constructor that is taken from the input fits
the hint of its parameter. -/
theorem constructor_arguments_fit (E : LEnv) (short : Bool) (n c : Nat) (es : List (Val × Val)) (r : Val)
    (kw : LoadKw) (hd : DefaultDesers E kw.fork) (hv : E.getVal kw.fork (.cls (.user c)) = .ok none)
    (hc : (E.info c).kind = .plain) (hn : ((E.info c).params.map (·.name)).Nodup)
    (hcl : Clean (.dict es)) (hk : KtClean kw.keyTransformer) (hm : kw.metaHints.getD [] = [])
    (h : (load E (n + 1) (.dict es) (some (.cls (.user c))) kw).val = .ok r) :
    ∃ es' args as, Transformed E kw es es' ∧ E.construct c args = .ok as ∧
      ∀ p ∈ (E.info c).params, ∀ x t, dictGet es' (.str p.name) = some x →
        assoc (E.info c).initHints p.name = some t → Typed short t →
        ∃ y, assoc args p.name = some y ∧ Fits E.info short y t := by
  have hparts : ∀ e ∈ es, Clean e.2 := by cases hcl with | dict _ _ _ h => exact h
  have hp : Plain kw es := by
    refine ⟨?_, fun e he => clean_noMeta (hparts e he), hm⟩
    cases hcl with | dict h _ _ _ => exact h
  rw [object_load_plain E n c es r kw hd hv hc hp] at h
  obtain ⟨es', args, as0, as1, as2, ht, ha, _, h0, _, _, rfl⟩ := h
  refine ⟨es', args, as0, ht, h0, ?_⟩
  intro p hp' x t hx hh htt
  have harg := (argsOf_assoc ha hn).1 p hp'
  generalize assoc args p.name = o at harg
  cases harg with
  | @given x' y h1 h2 =>
    rw [hx] at h1
    cases h1
    rw [hh] at h2
    obtain ⟨e, he, rfl⟩ := dictGet_mem hx
    exact ⟨y, rfl, load_fits_partial E short n t e.2 y (partKw kw) hd htt
      (transformed_clean ht hparts e he) hk h2⟩
  | getter h1 _ => rw [hx] at h1; cases h1
  | default h1 _ _ => rw [hx] at h1; cases h1
  | variadic h1 _ _ _ => rw [hx] at h1; cases h1
  | omitted h1 _ _ _ _ => rw [hx] at h1; cases h1

/-! ## Examples -/

/-- `{'a': ['1', None], 'b': []}` -/
def exInput : Val := .dict [(.str "a".toList, .list [.str "1".toList, .none]), (.str "b".toList, .list [])]

/-- `Dict[str, List[Optional[int]]]` -/
def exType : Ty := .gen .dict [.cls .str, .gen .list [.union [.cls .int, .cls .noneType]]]

theorem exInput_clean : Clean exInput := by
  refine .dict rfl rfl ?_ ?_
  · intro e he
    simp only [List.mem_cons, List.not_mem_nil, or_false] at he
    rcases he with rfl | rfl <;> exact .atom _
  · intro e he
    simp only [List.mem_cons, List.not_mem_nil, or_false] at he
    rcases he with rfl | rfl
    · refine .seq fun x hx => ?_
      simp only [List.mem_cons, List.not_mem_nil, or_false] at hx
      rcases hx with rfl | rfl <;> exact .atom _
    · exact .seq (by intro x hx; cases hx)

theorem exType_typed (short : Bool) : Typed short exType := by
  refine .dict (by decide) (.cls _) (.elems (by decide) (.union ?_))
  intro t ht
  simp only [List.mem_cons, List.not_mem_nil, or_false] at ht
  rcases ht with rfl | rfl <;> exact .cls _

example : Fits demoInfo false (.dict [(.str "a".toList, .list [.int 1, .none]), (.str "b".toList, .list [])])
    exType :=
  load_fits_partial (demoLEnv demoInfo) false 5 exType exInput _ {} (demo_desers 0) (exType_typed _)
    exInput_clean ktClean_none rfl

example : ∃ es' args as, Transformed (demoLEnv demoInfo) {} [(.str "x".toList, .str "3".toList)] es' ∧
    (demoLEnv demoInfo).construct 0 args = .ok as ∧
      ∀ p ∈ (demoInfo 0).params, ∀ x t, dictGet es' (.str p.name) = some x →
        assoc (demoInfo 0).initHints p.name = some t → Typed false t →
        ∃ y, assoc args p.name = some y ∧ Fits demoInfo false y t :=
  constructor_arguments_fit (demoLEnv demoInfo) false 2 0 [(.str "x".toList, .str "3".toList)]
    (.obj 0 [("x".toList, .int 3), ("y".toList, .int 0)]) {} (demo_desers 0) (demo_novals 0 _) rfl
    (by decide)
    (.dict rfl rfl (by intro e he; rcases List.mem_singleton.1 he with rfl; exact .atom _)
      (by intro e he; rcases List.mem_singleton.1 he with rfl; exact .atom _))
    ktClean_none rfl rfl

/-! ## Where C35 fails -/

/-- `{'-meta': {'classes': {'/': '__main__.Person'}}, 'name': 'x'}` -/
def confusing : Val := .dict [(.str metaKey, .dict [(.str "classes".toList,
  .dict [(.str "/".toList, .str "__main__.Person".toList)])]), (.str "name".toList, .str "x".toList)]

/-- C35 fails for inputs with '-meta': the input chooses the class of the elements of
`List[Point]`. -/
theorem load_fits_fails_meta : ∃ r, (load (demoLEnv demoInfo) 4 (.list [confusing])
      (some (.gen .list [.cls (.user 0)])) {}).val = .ok r ∧
    ∀ short, ¬ Fits demoInfo short r (.gen .list [.cls (.user 0)]) := by
  refine ⟨.list [.obj 5 [("name".toList, .str "x".toList), ("born".toList, .none)]], rfl, ?_⟩
  intro short h
  cases h with
  | list h =>
    have := h _ List.mem_cons_self
    cases this with
    | cls h => exact absurd h (by decide)

/-- C35 fails for tuples: `load([1], Tuple[int, str])` is `(1,)`. -/
theorem load_fits_fails_short : ∃ r, (load (demoLEnv demoInfo) 3 (.list [.int 1])
      (some (.gen .tuple [.cls .int, .cls .str])) {}).val = .ok r ∧
    ¬ Fits demoInfo false r (.gen .tuple [.cls .int, .cls .str]) := by
  refine ⟨.tuple [.int 1], rfl, ?_⟩
  intro h
  cases h with
  | tuple _ h _ => exact absurd (h rfl) (by decide)

/-- C35 fails for a `NewType` of `str`: a text that looks like a date is loaded as a
`datetime`. -/
theorem load_fits_fails_newtype : ∃ r, (load (demoLEnv demoInfo) 3 (.str "2020-01-01T00:00:00Z".toList)
      (some (.newtype "Name".toList (.cls .str))) {}).val = .ok r ∧
    ∀ short, ¬ Fits demoInfo short r (.newtype "Name".toList (.cls .str)) := by
  refine ⟨.atom (.datetime ⟨2020, 1, 1, 0, 0, 0, 0, some Tz.utc⟩), rfl, ?_⟩
  intro short h
  cases h with
  | newtype h =>
    cases h with
    | cls h => cases h

end Verif.Props.LoadTypes
