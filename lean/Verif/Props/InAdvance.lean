import Verif.Core.FillLemmas
import Verif.Props.LoadTypes
import Verif.Props.RoundTrip

/-! # Parts of a document that are loaded in advance (C114) -/

set_option autoImplicit false

namespace Verif.Props.InAdvance

open Verif Verif.Core
open Verif.Props.LoadBasics Verif.Props.LoadCollections Verif.Props.LoadObject
open Verif.Props.RoundTrip (LoadNeutral)
open Verif.Props.DumpCollections (common_bound)

/-! ## Specification -/

/-- The options: nothing is renamed, skipped or replaced, and the mode is not strict. -/
structure Opts (fork : Nat) (kw : LoadKw) : Prop where
  neutral : LoadNeutral fork kw
  lax : kw.strict = false

/-- The kinds of sequences that `load` accepts as input. -/
def Input (k : SeqKind) : Prop := k = .list ∨ k = .tuple ∨ k = .set

/-- The annotation for the entry of a document with that key: of the parameter with this
name, otherwise of the attribute. -/
def hintFor (I : ClassInfo) : Val → Option Ty
  | .atom (.str s) =>
    if s ∈ I.params.map (·.name) then assoc I.initHints s else assoc I.hints s
  | _ => none

/-- `w` is the document `v`, for the type `t`, with some parts replaced by what `load`
makes of them. -/
inductive Advance (E : LEnv) (fork : Nat) : Val → Val → Ty → Prop
  /-- Nothing is replaced. -/
  | same {v : Val} {t : Ty} : NoMeta v → Advance E fork v v t
  /-- The part of which the type is exactly the class of the result. -/
  | part {v w : Val} {c : Cls} {N : Nat} : NoMeta v → NoMeta w → w.cls = c →
      (∀ n, N ≤ n → ∀ kw, Opts fork kw → (load E n v (some (.cls c)) kw).val = .ok w) →
      Advance E fork v w (.cls c)
  /-- The last member of an `Optional`: neither can be `None`. -/
  | noneType {v w : Val} : NoMeta v → NoMeta w → v ≠ .none → w ≠ .none →
      Advance E fork v w (.cls .noneType)
  /-- Elements; it does not matter either whether they are in a list, a tuple or a set. -/
  | list {k l : SeqKind} {xs ys : List Val} {a : Ty} : Input k → Input l →
      xs.length = ys.length →
      (∀ (i : Nat) (x y : Val), xs[i]? = some x → ys[i]? = some y → Advance E fork x y a) →
      Advance E fork (.seq k xs) (.seq l ys) (.gen .list [a])
  | iter {g : Gen} {k l : SeqKind} {xs ys : List Val} {a : Ty} :
      g ∈ [Gen.set, .frozenset, .deque, .iterable] → Input k → Input l →
      xs.length = ys.length →
      (∀ (i : Nat) (x y : Val), xs[i]? = some x → ys[i]? = some y → Advance E fork x y a) →
      Advance E fork (.seq k xs) (.seq l ys) (.gen g [a])
  | tupleEll {k l : SeqKind} {xs ys : List Val} {a : Ty} : Input k → Input l →
      xs.length = ys.length →
      (∀ (i : Nat) (x y : Val), xs[i]? = some x → ys[i]? = some y → Advance E fork x y a) →
      Advance E fork (.seq k xs) (.seq l ys) (.gen .tupleEll [a])
  | tuple {k l : SeqKind} {xs ys : List Val} {a : Ty} {ts : List Ty} : Input k → Input l →
      xs.length = ys.length → xs.length ≤ (a :: ts).length →
      (∀ (i : Nat) (x y : Val) (b : Ty), xs[i]? = some x → ys[i]? = some y → (a :: ts)[i]? = some b →
        Advance E fork x y b) →
      Advance E fork (.seq k xs) (.seq l ys) (.gen .tuple (a :: ts))
  /-- The values of a dict. -/
  | dict {g : Gen} {es fs : List (Val × Val)} {K V : Ty} : g = .dict ∨ g = .mapping →
      dictGet es (.str metaKey) = none → dictGet es (.str keysKey) = none →
      (∀ e ∈ es, NoMeta e.1) → es.length = fs.length →
      (∀ (i : Nat) (e f : Val × Val), es[i]? = some e → fs[i]? = some f → f.1 = e.1) →
      (∀ (i : Nat) (e f : Val × Val), es[i]? = some e → fs[i]? = some f → Advance E fork e.2 f.2 V) →
      Advance E fork (.dict es) (.dict fs) (.gen g [K, V])
  /-- A union, if the replacement is of a kind that `load` accepts as input. -/
  | union {v w : Val} {ts : List Ty} : v ≠ .none → w ≠ .none → v.cls ∈ validTypes →
      w.cls ∈ validTypes → NoMeta v → NoMeta w → (∀ t ∈ ts, Advance E fork v w t) →
      Advance E fork v w (.union ts)
  /-- The entries of an object that have an annotation. -/
  | obj {c : Nat} {es fs : List (Val × Val)} : (E.info c).kind = .plain →
      dictGet es (.str metaKey) = none → (∀ e ∈ es, ∃ s, e.1 = .str s) → (es.map (·.1)).Nodup →
      es.length = fs.length →
      (∀ (i : Nat) (e f : Val × Val), es[i]? = some e → fs[i]? = some f → f.1 = e.1) →
      (∀ (i : Nat) (e f : Val × Val), es[i]? = some e → fs[i]? = some f →
        hintFor (E.info c) e.1 = none → NoMeta e.2 ∧ f = e) →
      (∀ (i : Nat) (e f : Val × Val) (t : Ty), es[i]? = some e → fs[i]? = some f →
        hintFor (E.info c) e.1 = some t → Advance E fork e.2 f.2 t) →
      Advance E fork (.dict es) (.dict fs) (.cls (.user c))

/-- `load` makes the same of both. -/
def Agree (E : LEnv) (fork : Nat) (t : Ty) (v w : Val) (n : Nat) : Prop :=
  ∀ kw, Opts fork kw → ∀ r,
    (load E n v (some t) kw).val = .ok r ↔ (load E n w (some t) kw).val = .ok r

/-! ## Lemmas -/

theorem Opts.noKeys {fork : Nat} {kw : LoadKw} (h : Opts fork kw) :
    Opts fork { kw with keyTransformer := none } := ⟨h.neutral.noKeys, h.lax⟩

theorem Opts.idKeys {fork : Nat} {kw : LoadKw} (h : Opts fork kw) :
    Opts fork { kw with keyTransformer := some (kw.keyTransformer.getD .ok) } :=
  ⟨h.neutral.idKeys, h.lax⟩

theorem Opts.part {fork : Nat} {kw : LoadKw} (h : Opts fork kw) : Opts fork (partKw kw) :=
  ⟨h.neutral.part, h.lax⟩

theorem Opts.elem {fork : Nat} {kw : LoadKw} (h : Opts fork kw) :
    Opts fork { kw with warnOnFail := false } := ⟨h.neutral.elem, h.lax⟩

theorem Opts.kwOf {fork : Nat} {kw : LoadKw} (h : Opts fork kw) : Opts fork (kwOf kw none) :=
  ⟨⟨h.neutral.fork, h.neutral.getters, h.neutral.keys, h.neutral.hints, h.neutral.warn, h.neutral.enums⟩,
    h.lax⟩

theorem forall₂_of_get {α β : Type} {R : α → β → Prop} : ∀ (xs : List α) (ys : List β),
    xs.length = ys.length → (∀ (i : Nat) x y, xs[i]? = some x → ys[i]? = some y → R x y) →
    List.Forall₂ R xs ys := by
  intro xs
  induction xs with
  | nil =>
    intro ys h _
    cases ys with
    | nil => exact .nil
    | cons y ys => cases h
  | cons x xs ih =>
    intro ys h hr
    cases ys with
    | nil => cases h
    | cons y ys =>
      exact .cons (hr 0 x y rfl rfl) (ih ys (by simpa using h) fun i a b ha hb => hr (i + 1) a b ha hb)

theorem forall₂_transfer {α β : Type} {R R' : α → β → Prop} {S : α → α → Prop} {xs xs' : List α}
    (h : List.Forall₂ S xs xs') (hs : ∀ x x', S x x' → ∀ y, R x y ↔ R' x' y) (ys : List β) :
    List.Forall₂ R xs ys ↔ List.Forall₂ R' xs' ys := by
  induction h generalizing ys with
  | nil => constructor <;> (intro h; cases h; exact .nil)
  | cons h1 _ ih =>
    constructor
    · intro h
      cases h with
      | cons a b => exact .cons ((hs _ _ h1 _).1 a) ((ih _).1 b)
    · intro h
      cases h with
      | cons a b => exact .cons ((hs _ _ h1 _).2 a) ((ih _).2 b)

/-- A common bound for the parts. -/
theorem common {α β : Type} {R : α → β → Nat → Prop} {xs : List α} {ys : List β}
    (h : List.Forall₂ (fun x y => ∃ N, ∀ n, N ≤ n → R x y n) xs ys) :
    ∃ N, ∀ n, N ≤ n → List.Forall₂ (fun x y => R x y n) xs ys := by
  induction h with
  | nil => exact ⟨0, fun _ _ => .nil⟩
  | cons h1 _ ih =>
    obtain ⟨N, h1⟩ := h1
    obtain ⟨M, ih⟩ := ih
    exact ⟨max N M, fun n hn => .cons (h1 n (by omega)) (ih n (by omega))⟩

theorem input_valid {k : SeqKind} {xs : List Val} (h : Input k) : (Val.seq k xs).cls ∈ validTypes := by
  rcases h with rfl | rfl | rfl <;> simp [Val.cls, SeqKind.cls, validTypes]

theorem seq_noMeta {k : SeqKind} {xs : List Val} : NoMeta (.seq k xs) := by
  intro es h; cases h

theorem forall₂_left {α β : Type} {R : α → β → Prop} {P : α → Prop} {xs : List α} {ys : List β}
    (h : List.Forall₂ R xs ys) (hp : ∀ x y, R x y → P x) : ∀ x ∈ xs, P x := by
  induction h with
  | nil => intro x hx; cases hx
  | cons h1 _ ih =>
    intro x hx
    rcases List.mem_cons.1 hx with rfl | hx
    · exact hp _ _ h1
    · exact ih x hx

theorem forall₂_right {α β : Type} {R : α → β → Prop} {P : β → Prop} {xs : List α} {ys : List β}
    (h : List.Forall₂ R xs ys) (hp : ∀ x y, R x y → P y) : ∀ y ∈ ys, P y := by
  induction h with
  | nil => intro x hx; cases hx
  | cons h1 _ ih =>
    intro x hx
    rcases List.mem_cons.1 hx with rfl | hx
    · exact hp _ _ h1
    · exact ih x hx

theorem dictGet_same {es fs : List (Val × Val)} {R : Val × Val → Val × Val → Prop}
    (h : List.Forall₂ R es fs) (hk : ∀ e f, R e f → f.1 = e.1) (k : Val) :
    (dictGet es k = none ∧ dictGet fs k = none) ∨
      ∃ e f, R e f ∧ pyEq e.1 k = true ∧ dictGet es k = some e.2 ∧ dictGet fs k = some f.2 := by
  induction h with
  | nil => exact .inl ⟨rfl, rfl⟩
  | @cons e f es fs h1 _ ih =>
    obtain ⟨k1, v1⟩ := e
    obtain ⟨k2, v2⟩ := f
    have hkk : k2 = k1 := hk _ _ h1
    subst hkk
    by_cases hp : pyEq k2 k = true
    · exact .inr ⟨_, _, h1, hp, by unfold dictGet; rw [if_pos hp], by unfold dictGet; rw [if_pos hp]⟩
    · rcases ih with ⟨a, b⟩ | ⟨e, f, a, b, c, d⟩
      · exact .inl ⟨by unfold dictGet; rw [if_neg hp]; exact a, by unfold dictGet; rw [if_neg hp]; exact b⟩
      · exact .inr ⟨e, f, a, b, by unfold dictGet; rw [if_neg hp]; exact c,
          by unfold dictGet; rw [if_neg hp]; exact d⟩

theorem keys_same {es fs : List (Val × Val)} {R : Val × Val → Val × Val → Prop}
    (h : List.Forall₂ R es fs) (hk : ∀ e f, R e f → f.1 = e.1) : fs.map (·.1) = es.map (·.1) := by
  induction h with
  | nil => rfl
  | cons h1 _ ih => rw [List.map_cons, List.map_cons, ih, hk _ _ h1]

/-- Nothing in a replacement is taken for a '-meta' section. -/
theorem advance_noMeta {E : LEnv} {fork : Nat} {v w : Val} {t : Ty} (h : Advance E fork v w t) :
    NoMeta v ∧ NoMeta w := by
  cases h with
  | same h => exact ⟨h, h⟩
  | part h1 h2 => exact ⟨h1, h2⟩
  | noneType h1 h2 => exact ⟨h1, h2⟩
  | list => exact ⟨seq_noMeta, seq_noMeta⟩
  | iter => exact ⟨seq_noMeta, seq_noMeta⟩
  | tupleEll => exact ⟨seq_noMeta, seq_noMeta⟩
  | tuple => exact ⟨seq_noMeta, seq_noMeta⟩
  | union _ _ _ _ h1 h2 => exact ⟨h1, h2⟩
  | dict _ h1 _ _ hl hk _ =>
    refine ⟨fun es h => by cases h; exact h1, fun es h => ?_⟩
    cases h
    rcases dictGet_same (forall₂_of_get _ _ hl hk) (fun _ _ h => h) (.str metaKey) with h | ⟨e, f, _, _, h, _⟩
    · exact h.2
    · rw [h1] at h; cases h
  | obj _ h1 _ _ hl hk _ _ =>
    refine ⟨fun es h => by cases h; exact h1, fun es h => ?_⟩
    cases h
    rcases dictGet_same (forall₂_of_get _ _ hl hk) (fun _ _ h => h) (.str metaKey) with h | ⟨e, f, _, _, h, _⟩
    · exact h.2
    · rw [h1] at h; cases h

/-- What is not `None` is not loaded as `NoneType`. -/
theorem noneType_refused {E : LEnv} {v : Val} {n : Nat} {kw : LoadKw} (hd : DefaultDesers E kw.fork)
    (hm : NoMeta v) (h : v ≠ .none) (r : Val) :
    (load E (n + 1) v (some (.cls .noneType)) kw).val ≠ .ok r := by
  intro hr
  rcases (LoadTypes.load_ok_cases hd hm hr).2 with ⟨hs, _⟩ | ⟨f, hf, hr⟩
  · rcases hs with ⟨_, hs⟩ | hs
    · refine h ?_
      cases v with
      | atom a => cases a <;> simp [Val.cls, Atom.cls] at hs ⊢
      | seq k xs => cases k <;> simp [Val.cls, SeqKind.cls] at hs
      | _ => simp [Val.cls] at hs
    · cases hs
  · cases hf
    change (noneTypeDes v (.cls .noneType)).val = _ at hr
    unfold noneTypeDes at hr
    rw [if_neg h] at hr
    cases hr

/-- Sets, frozensets, deques and iterables. -/
theorem iter_load {E : LEnv} {n : Nat} {k : SeqKind} {xs : List Val} {r : Val} {g : Gen} {a : Ty} {kw : LoadKw}
    (hg : g ∈ [Gen.set, .frozenset, .deque, .iterable]) (hk : Input k)
    (hd : DefaultDesers E kw.fork) (hv : NoValidators E kw.fork) (he : ∀ x ∈ xs, NoMeta x)
    (hw : kw.warnOnFail = false) :
    (load E (n + 1) (.seq k xs) (some (.gen g [a])) kw).val = .ok r ↔
      ∃ ys, List.Forall₂ (fun x y => (load E n x (some a) kw).val = .ok y) xs ys ∧
        castSeq E.info g.naked ys = .ok r := by
  have hgf : (Ty.gen g [a]).desFn E.info = some .iterable ∧ (Ty.gen g [a]).naked? = some g.naked := by
    simp only [List.mem_cons, List.not_mem_nil, or_false] at hg
    rcases hg with rfl | rfl | rfl | rfl <;> exact ⟨rfl, rfl⟩
  have hkw : ({ kw with warnOnFail := false } : LoadKw) = kw := by cases kw; cases hw; rfl
  have hx : ∀ m, (listLoop E (load E m) (some a) kw.warnOnFail (elemKw kw) 0 xs) =
      listDes E (load E m) (.seq k xs) (Ty.gen g [a]).getArgs (kwOf kw none) := by
    intro m
    rcases hk with rfl | rfl | rfl <;> rfl
  rw [(load_via (n := n) (v := .seq k xs) (t := .gen g [a]) (kw := kw) (f := .iterable) (m := none)
      (fun h => by cases h) gen_not_skip (input_valid hk) (noMeta_get seq_noMeta _) (.inr rfl)
      hd hgf.1 (hv _)).1, wrapRes_ok]
  show (iterableDes E _ _ _ _).val = _ ↔ _
  unfold iterableDes
  rw [Core.bind_ok, hgf.2, ← hx, hw]
  constructor
  · rintro ⟨ys, h1, h2⟩
    rw [listLoop_ok] at h1
    refine ⟨ys, ?_, liftK_ok.1 h2⟩
    refine (forall₂_transfer (S := fun x y => x = y ∧ NoMeta x) (xs' := xs) ?_ ?_ ys).1 h1
    · exact forall₂_of_get _ _ rfl fun i x y h1 h2 => by
        rw [h1] at h2; cases h2; exact ⟨rfl, he _ (List.mem_of_getElem? h1)⟩
    · rintro x _ ⟨rfl, hm⟩ y
      rw [elem_load hm, hkw]
  · rintro ⟨ys, h1, h2⟩
    refine ⟨ys, ?_, liftK_ok.2 h2⟩
    rw [listLoop_ok]
    refine (forall₂_transfer (S := fun x y => x = y ∧ NoMeta x) (xs' := xs) ?_ ?_ ys).2 h1
    · exact forall₂_of_get _ _ rfl fun i x y h1 h2 => by
        rw [h1] at h2; cases h2; exact ⟨rfl, he _ (List.mem_of_getElem? h1)⟩
    · rintro x _ ⟨rfl, hm⟩ y
      rw [elem_load hm, hkw]

theorem elementwise_transfer {f f' : Ty → Val → Except Err Val} : ∀ (ts : List Ty) (xs ys zs : List Val),
    xs.length = ys.length →
    (∀ (i : Nat) (x y : Val) (b : Ty), xs[i]? = some x → ys[i]? = some y → ts[i]? = some b →
      ∀ r, f b x = .ok r ↔ f' b y = .ok r) →
    (Elementwise f ts xs zs ↔ Elementwise f' ts ys zs) := by
  intro ts
  induction ts with
  | nil =>
    intro xs ys zs hl _
    cases xs with
    | nil =>
      cases ys with
      | nil => constructor <;> (intro h; cases h; exact .nil)
      | cons y ys => cases hl
    | cons x xs =>
      cases ys with
      | nil => cases hl
      | cons y ys => constructor <;> (intro h; cases h)
  | cons t ts ih =>
    intro xs ys zs hl h
    cases xs with
    | nil =>
      cases ys with
      | nil => constructor <;> (intro h; cases h; exact .nil)
      | cons y ys => cases hl
    | cons x xs =>
      cases ys with
      | nil => cases hl
      | cons y ys =>
        have ih := fun zs => ih xs ys zs (by simpa using hl) fun i a b c h1 h2 h3 => h (i + 1) a b c h1 h2 h3
        have h0 := h 0 x y t rfl rfl rfl
        constructor
        · intro h
          cases h with
          | cons a b => exact .cons ((h0 _).1 a) ((ih _).1 b)
        · intro h
          cases h with
          | cons a b => exact .cons ((h0 _).2 a) ((ih _).2 b)

theorem dictGet_none_ne {es : List (Val × Val)} {k : PyStr} (h : dictGet es (.str k) = none) :
    ∀ e ∈ es, e.1 ≠ .str k := by
  induction es with
  | nil => intro e he; cases he
  | cons a es ih =>
    obtain ⟨k', v⟩ := a
    unfold dictGet at h
    by_cases hp : pyEq k' (.str k) = true
    · rw [if_pos hp] at h; cases h
    · rw [if_neg hp] at h
      intro e he
      rcases List.mem_cons.1 he with rfl | he
      · rintro (rfl : k' = _)
        exact hp (by simp [pyEq, Atom.num?])
      · exact ih h e he

section
variable {E : LEnv} {fork : Nat}

theorem agree_union {n : Nat} {v w : Val} {ts : List Ty} (hd : DefaultDesers E fork) (hv : NoValidators E fork)
    (h0 : v ≠ .none) (h0' : w ≠ .none) (h1 : v.cls ∈ validTypes) (h1' : w.cls ∈ validTypes)
    (hm : NoMeta v) (hm' : NoMeta w) (h : ∀ t ∈ ts, Agree E fork t v w (n + 1)) :
    Agree E fork (.union ts) v w (n + 2) := by
  intro kw hk r
  have hl : LookupsOk E (kwOf kw none).fork := by
    rw [hk.kwOf.neutral.fork]; exact lookupsOk_of_default hd hv
  have hdd : E.getDes (kwOf kw none).fork (.union ts) = .ok (some .union) := by
    rw [hk.kwOf.neutral.fork]; exact hd _
  have hvv : E.getVal (kwOf kw none).fork (.union ts) = .ok none := by
    rw [hk.kwOf.neutral.fork]; exact hv _
  have a := (union_load_partial E n v ts (kwOf kw none) hl hdd hvv h1 (noMeta_metaOk hm) rfl
    (fun h => absurd h h0)).1 r
  have b := (union_load_partial E n w ts (kwOf kw none) hl hdd hvv h1' (noMeta_metaOk hm') rfl
    (fun h => absurd h h0')).1 r
  rw [load_part hm] at a
  rw [load_part hm'] at b
  rw [a, b]
  constructor
  · rintro ⟨pre, t, post, rfl, hp, ht⟩
    exact ⟨pre, t, post, rfl, fun b hb x hx => hp b hb x ((h b (by simp [hb]) _ hk.kwOf x).2 hx),
      (h t (by simp) _ hk.kwOf r).1 ht⟩
  · rintro ⟨pre, t, post, rfl, hp, ht⟩
    exact ⟨pre, t, post, rfl, fun b hb x hx => hp b hb x ((h b (by simp [hb]) _ hk.kwOf x).1 hx),
      (h t (by simp) _ hk.kwOf r).2 ht⟩

theorem agree_dict {n : Nat} {g : Gen} {es fs : List (Val × Val)} {K V : Ty} (hd : DefaultDesers E fork)
    (hv : NoValidators E fork) (hg : g = .dict ∨ g = .mapping)
    (h1 : dictGet es (.str metaKey) = none) (h2 : dictGet es (.str keysKey) = none)
    (h3 : ∀ e ∈ es, NoMeta e.1)
    (h : List.Forall₂ (fun e f => f.1 = e.1 ∧ (NoMeta e.2 ∧ NoMeta f.2) ∧ Agree E fork V e.2 f.2 n) es fs) :
    Agree E fork (.gen g [K, V]) (.dict es) (.dict fs) (n + 1) := by
  intro kw hk r
  have hdk : DefaultDesers E kw.fork := by rw [hk.neutral.fork]; exact hd
  have hvk : NoValidators E kw.fork := by rw [hk.neutral.fork]; exact hv
  have hget : ∀ k, dictGet es k = none → dictGet fs k = none := by
    intro k hk0
    rcases dictGet_same h (fun _ _ h => h.1) k with h | ⟨e, f, _, _, h, _⟩
    · exact h.2
    · rw [hk0] at h; cases h
  have h3' : ∀ f ∈ fs, NoMeta f.1 := by
    intro f hf
    have : f.1 ∈ es.map (·.1) := by
      rw [← keys_same h (fun _ _ h => h.1)]; exact List.mem_map_of_mem hf
    obtain ⟨e, he, hh⟩ := List.mem_map.1 this
    rw [← hh]; exact h3 e he
  have hid : ∀ v k, kw.keyTransformer.getD .ok v = .ok k → k = v := by
    intro v k h
    rw [hk.neutral.keys] at h; cases h; rfl
  rw [dict_load_partial E n g es r K V kw hg hdk hvk h1 h2 (forall₂_left h fun _ _ h => h.2.1.1)
      (fun e he k h => by rw [hid _ _ h]; exact h3 e he),
    dict_load_partial E n g fs r K V kw hg hdk hvk (hget _ h1) (hget _ h2)
      (forall₂_right h fun _ _ h => h.2.1.2) (fun e he k h => by rw [hid _ _ h]; exact h3' e he)]
  have key := forall₂_transfer (R := fun (e p : Val × Val) => (∃ k, kw.keyTransformer.getD .ok e.1 = .ok k ∧
            (load E n k (some K) { kw with keyTransformer := none }).val = .ok p.1) ∧
          (load E n e.2 (some V) { kw with keyTransformer := some (kw.keyTransformer.getD .ok) }).val
            = .ok p.2 ∧
          p.1.hashable E.info = true) (R' := fun (e p : Val × Val) => (∃ k, kw.keyTransformer.getD .ok e.1 = .ok k ∧
            (load E n k (some K) { kw with keyTransformer := none }).val = .ok p.1) ∧
          (load E n e.2 (some V) { kw with keyTransformer := some (kw.keyTransformer.getD .ok) }).val
            = .ok p.2 ∧
          p.1.hashable E.info = true) h (by
    rintro e f ⟨h1, _, h2⟩ p
    rw [h1, h2 _ hk.idKeys p.2])
  constructor
  · rintro ⟨ps, h1, h2⟩
    exact ⟨ps, (key ps).1 h1, h2⟩
  · rintro ⟨ps, h1, h2⟩
    exact ⟨ps, (key ps).2 h1, h2⟩

/-- The entries of an object that agree, given the calls for the parts. -/
def EntryAgree (I : ClassInfo) (ld : Option Ty → Val → Val → Prop) (e f : Val × Val) : Prop :=
  f.1 = e.1 ∧ (∃ s, e.1 = .str s) ∧ e.1 ≠ .str metaKey ∧ (NoMeta e.2 ∧ NoMeta f.2) ∧
    ((hintFor I e.1 = none ∧ f = e) ∨
      ∃ t, hintFor I e.1 = some t ∧ ∀ y, ld (some t) e.2 y ↔ ld (some t) f.2 y)

theorem EntryAgree.symm {I : ClassInfo} {ld : Option Ty → Val → Val → Prop} {e f : Val × Val}
    (h : EntryAgree I ld e f) : EntryAgree I ld f e := by
  obtain ⟨h1, h2, h3, h4, h5⟩ := h
  refine ⟨h1.symm, by rw [h1]; exact h2, by rw [h1]; exact h3, ⟨h4.2, h4.1⟩, ?_⟩
  rcases h5 with ⟨a, b⟩ | ⟨t, a, b⟩
  · exact .inl ⟨by rw [h1]; exact a, b.symm⟩
  · exact .inr ⟨t, by rw [h1]; exact a, fun y => (b y).symm⟩

theorem argsOf_advance {I : ClassInfo} {ld : Option Ty → Val → Val → Prop} {es fs : List (Val × Val)}
    (h : List.Forall₂ (EntryAgree I ld) es fs) {ps : List Param} {args : List (PyStr × Val)}
    (hp : ∀ p ∈ ps, p ∈ I.params) (ha : ArgsOf I (fun _ => ld) [] es ps args) :
    ArgsOf I (fun _ => ld) [] fs ps args := by
  have key : ∀ p ∈ I.params, ∀ o, ArgOf I (fun _ => ld) [] es p o → ArgOf I (fun _ => ld) [] fs p o := by
    intro p hp o ho
    rcases dictGet_same h (fun _ _ h => h.1) (.str p.name) with ⟨h1, h2⟩ | ⟨e, f, h0, hpe, h1, h2⟩
    · cases ho with
      | given a => rw [h1] at a; cases a
      | getter _ b => cases b
      | default _ b c => exact .default h2 b c
      | variadic _ b c d => exact .variadic h2 b c d
      | omitted _ b c d e => exact .omitted h2 b c d e
    · have hname : e.1 = .str p.name := pyEq_eq_str hpe
      have hint : hintFor I e.1 = assoc I.initHints p.name := by
        rw [hname]
        show (if _ then _ else _) = _
        rw [if_pos (List.mem_map_of_mem hp)]
      cases ho with
      | @given x y a b =>
        rw [h1] at a
        cases a
        refine .given h2 ?_
        rw [← hint] at b ⊢
        rcases h0.2.2.2.2 with ⟨_, c⟩ | ⟨t, c, d⟩
        · rw [c]; exact b
        · rw [c] at b ⊢; exact (d y).1 b
      | getter a => rw [h1] at a; cases a
      | default a => rw [h1] at a; cases a
      | variadic a => rw [h1] at a; cases a
      | omitted a => rw [h1] at a; cases a
  induction ha with
  | nil => exact .nil
  | arg h1 _ ih =>
    exact .arg (key _ (hp _ List.mem_cons_self) _ h1) (ih fun p h => hp p (List.mem_cons_of_mem _ h))
  | noarg h1 _ ih =>
    exact .noarg (key _ (hp _ List.mem_cons_self) _ h1) (ih fun p h => hp p (List.mem_cons_of_mem _ h))

theorem attrsSet_advance {c : Nat} {ld : Option Ty → Val → Val → Prop} {es fs : List (Val × Val)}
    (h : List.Forall₂ (EntryAgree (E.info c) ld) es fs) {a b : List (PyStr × Val)}
    (ha : AttrsSet E c ld es a b) : AttrsSet E c ld fs a b := by
  have key : ∀ (s : PyStr) (v y : Val) (f : Val × Val), EntryAgree (E.info c) ld (.str s, v) f →
      ¬ Known (E.info c) (.str s) → ld (some ((assoc (E.info c).hints s).getD (.cls v.cls))) v y →
      ∃ w, f = (.str s, w) ∧ ld (some ((assoc (E.info c).hints s).getD (.cls w.cls))) w y := by
    rintro s v y ⟨k, w⟩ ⟨h1, _, _, _, h5⟩ hn hl
    have h1 : k = .str s := h1
    subst h1
    have hint : hintFor (E.info c) (.str s) = assoc (E.info c).hints s := by
      show (if _ then _ else _) = _
      rw [if_neg]
      intro hm
      obtain ⟨p, hp, rfl⟩ := List.mem_map.1 hm
      exact hn (.inr ⟨p, hp, rfl⟩)
    refine ⟨w, rfl, ?_⟩
    rcases h5 with ⟨_, h5⟩ | ⟨t, h5, h6⟩
    · cases h5; exact hl
    · change hintFor _ (.str s) = _ at h5
      rw [hint] at h5
      rw [h5] at hl ⊢
      exact (h6 y).1 hl
  induction ha generalizing fs with
  | nil => cases h; exact .nil
  | @known k v es a b h1 _ ih =>
    cases h with
    | @cons _ f _ fs h2 h3 =>
      obtain ⟨k', w⟩ := f
      have hk : k' = k := h2.1
      subst hk
      exact .known h1 (ih h3)
  | set h1 h2 h3 _ ih =>
    cases h with
    | cons h4 h5 =>
      obtain ⟨w, rfl, hw⟩ := key _ _ _ _ h4 h1 h2
      exact .set h1 hw h3 (ih h5)
  | refused h1 h2 h3 h3' _ ih =>
    cases h with
    | cons h4 h5 =>
      obtain ⟨w, rfl, hw⟩ := key _ _ _ _ h4 h1 h2
      exact .refused h1 hw h3 h3' (ih h5)

theorem transformed_unique {kw : LoadKw} (hk : ∀ v, kw.keyTransformer.getD .ok v = .ok v)
    {es es' es'' : List (Val × Val)} (h : Transformed E kw es es') (h' : Transformed E kw es es'') :
    es' = es'' := by
  unfold Transformed at h h'
  cases hkt : kw.keyTransformer with
  | none => rw [hkt] at h h'; exact h.trans h'.symm
  | some f =>
    rw [hkt] at h h' hk
    have key : ∀ es ps : List (Val × Val), List.Forall₂ (fun e p => f e.1 = .ok p.1 ∧ p.2 = e.2 ∧
        p.1.hashable E.info = true) es ps → ps = es := by
      intro es ps h
      induction h with
      | nil => rfl
      | @cons e p es ps h1 _ ih =>
        have h2 : f e.1 = .ok e.1 := hk e.1
        rw [h1.1] at h2
        obtain ⟨k, x⟩ := e
        obtain ⟨k', x'⟩ := p
        cases h2
        rw [ih, show x' = x from h1.2.1]
    obtain ⟨ps, h1, rfl⟩ := h
    obtain ⟨qs, h2, rfl⟩ := h'
    rw [key _ _ h1, key _ _ h2]

theorem obj_half {n c : Nat} {es fs : List (Val × Val)} (hd : DefaultDesers E fork)
    (hv : NoValidators E fork) (hc : (E.info c).kind = .plain)
    (h1 : dictGet es (.str metaKey) = none) (hn : (es.map (·.1)).Nodup) {kw : LoadKw} (hk : Opts fork kw)
    (h : List.Forall₂ (EntryAgree (E.info c) fun hint x y => (load E n x hint (partKw kw)).val = .ok y) es fs)
    {r : Val} (hr : (load E (n + 1) (.dict es) (some (.cls (.user c))) kw).val = .ok r) :
    (load E (n + 1) (.dict fs) (some (.cls (.user c))) kw).val = .ok r := by
  have hdk : DefaultDesers E kw.fork := by rw [hk.neutral.fork]; exact hd
  have hvk : NoValidators E kw.fork := by rw [hk.neutral.fork]; exact hv
  have hmeta : dictGet fs (.str metaKey) = none := by
    rcases dictGet_same h (fun _ _ h => h.1) (.str metaKey) with h | ⟨e, f, _, _, h, _⟩
    · exact h.2
    · rw [h1] at h; cases h
  have hs := forall₂_left h fun _ _ h => h.2.1
  have hs' : ∀ f ∈ fs, ∃ s, f.1 = .str s := forall₂_right h fun _ _ h => by rw [h.1]; exact h.2.1
  have hn' : (fs.map (·.1)).Nodup := by rw [keys_same h (fun _ _ h => h.1)]; exact hn
  rw [object_load_plain E n c es r kw hdk (hvk _) hc ⟨h1, forall₂_left h fun _ _ h => h.2.2.2.1.1,
    hk.neutral.hints⟩] at hr
  rw [object_load_plain E n c fs r kw hdk (hvk _) hc ⟨hmeta, forall₂_right h fun _ _ h => h.2.2.2.1.2,
    hk.neutral.hints⟩]
  obtain ⟨es', args, as0, as1, as2, ht, ha, _, h2, h3, h4, h5⟩ := hr
  obtain rfl : es' = es := transformed_unique hk.neutral.keys ht (RoundTrip.transformed_id hk.neutral hs hn)
  rw [hk.neutral.getters] at ha h4 ⊢
  exact ⟨fs, args, as0, as1, as2, RoundTrip.transformed_id hk.neutral hs' hn',
    argsOf_advance h (fun _ h => h) ha, (fun h => by rw [hk.lax] at h; cases h),
    h2, attrsSet_advance h h3, h4, h5⟩

theorem agree_obj {n c : Nat} {es fs : List (Val × Val)} (hd : DefaultDesers E fork)
    (hv : NoValidators E fork) (hc : (E.info c).kind = .plain)
    (h1 : dictGet es (.str metaKey) = none) (hn : (es.map (·.1)).Nodup)
    (h : List.Forall₂ (fun e f => f.1 = e.1 ∧ (∃ s, e.1 = .str s) ∧ e.1 ≠ .str metaKey ∧
      (NoMeta e.2 ∧ NoMeta f.2) ∧ ((hintFor (E.info c) e.1 = none ∧ f = e) ∨
        ∃ t, hintFor (E.info c) e.1 = some t ∧ Agree E fork t e.2 f.2 n)) es fs) :
    Agree E fork (.cls (.user c)) (.dict es) (.dict fs) (n + 1) := by
  intro kw hk r
  have h' : List.Forall₂ (EntryAgree (E.info c) fun hint x y => (load E n x hint (partKw kw)).val = .ok y)
      es fs := h.imp fun e f ⟨a, b, c, d, x⟩ => ⟨a, b, c, d, x.imp id fun ⟨t, h1, h2⟩ =>
        ⟨t, h1, fun y => h2 _ hk.part y⟩⟩
  have hb : List.Forall₂ (EntryAgree (E.info c) fun hint x y => (load E n x hint (partKw kw)).val = .ok y)
      fs es := (List.Forall₂.flip (h'.imp fun _ _ h => h.symm))
  have hmeta : dictGet fs (.str metaKey) = none := by
    rcases dictGet_same h (fun _ _ h => h.1) (.str metaKey) with h | ⟨e, f, _, _, h, _⟩
    · exact h.2
    · rw [h1] at h; cases h
  exact ⟨obj_half hd hv hc h1 hn hk h', obj_half hd hv hc hmeta
    (by rw [keys_same h (fun _ _ h => h.1)]; exact hn) hk hb⟩

/-! ## The theorem -/

/-- C114: `load` makes the same of a document and of the document of which parts are
already loaded: the one succeeds exactly if the other does, with the same result. -/
theorem load_in_advance_partial (hd : DefaultDesers E fork) (hv : NoValidators E fork) {v w : Val} {t : Ty}
    (h : Advance E fork v w t) : ∃ N, ∀ n, N ≤ n → ∀ kw, Opts fork kw → ∀ r,
      (load E n v (some t) kw).val = .ok r ↔ (load E n w (some t) kw).val = .ok r := by
  show ∃ N, ∀ n, N ≤ n → Agree E fork t v w n
  induction h with
  | same => exact ⟨0, fun _ _ _ _ _ => Iff.rfl⟩
  | @part v w c N h1 h2 h3 h4 =>
    subst h3
    refine ⟨N + 1, fun n hn kw hk r => ?_⟩
    rw [h4 n (by omega) kw hk]
    obtain ⟨n, rfl⟩ : ∃ m, n = m + 1 := ⟨n - 1, by omega⟩
    rw [(exact_type E n w kw).1 hk.lax (by rw [hk.neutral.fork]; exact hv _)]
    rfl
  | noneType h1 h2 h3 h4 =>
    refine ⟨1, fun n hn kw hk r => ?_⟩
    obtain ⟨n, rfl⟩ : ∃ m, n = m + 1 := ⟨n - 1, by omega⟩
    have hdk : DefaultDesers E kw.fork := by rw [hk.neutral.fork]; exact hd
    exact ⟨fun h => absurd h (noneType_refused hdk h1 h3 r), fun h => absurd h (noneType_refused hdk h2 h4 r)⟩
  | @list k l xs ys a hk hl hlen he ih =>
    obtain ⟨N, hN⟩ := common (forall₂_of_get xs ys hlen fun i x y h1 h2 => ih i x y h1 h2)
    have hm := forall₂_of_get xs ys hlen fun i x y h1 h2 => advance_noMeta (he i x y h1 h2)
    refine ⟨N + 1, fun n hn kw hkw r => ?_⟩
    obtain ⟨n, rfl⟩ : ∃ m, n = m + 1 := ⟨n - 1, by omega⟩
    have hdk : DefaultDesers E kw.fork := by rw [hkw.neutral.fork]; exact hd
    have hvk : NoValidators E kw.fork := by rw [hkw.neutral.fork]; exact hv
    rw [list_load E n (.seq k xs) r xs a kw hdk hvk (input_valid hk) seq_noMeta rfl
        (forall₂_left hm fun _ _ h => h.1) hkw.neutral.warn,
      list_load E n (.seq l ys) r ys a kw hdk hvk (input_valid hl) seq_noMeta rfl
        (forall₂_right hm fun _ _ h => h.2) hkw.neutral.warn]
    exact exists_congr fun zs => and_congr Iff.rfl
      (forall₂_transfer (hN n (by omega)) (fun x y h z => h kw hkw z) zs)
  | @iter g k l xs ys a hg hk hl hlen he ih =>
    obtain ⟨N, hN⟩ := common (forall₂_of_get xs ys hlen fun i x y h1 h2 => ih i x y h1 h2)
    have hm := forall₂_of_get xs ys hlen fun i x y h1 h2 => advance_noMeta (he i x y h1 h2)
    refine ⟨N + 1, fun n hn kw hkw r => ?_⟩
    obtain ⟨n, rfl⟩ : ∃ m, n = m + 1 := ⟨n - 1, by omega⟩
    have hdk : DefaultDesers E kw.fork := by rw [hkw.neutral.fork]; exact hd
    have hvk : NoValidators E kw.fork := by rw [hkw.neutral.fork]; exact hv
    rw [iter_load hg hk hdk hvk (forall₂_left hm fun _ _ h => h.1) hkw.neutral.warn,
      iter_load hg hl hdk hvk (forall₂_right hm fun _ _ h => h.2) hkw.neutral.warn]
    exact exists_congr fun zs => and_congr
      (forall₂_transfer (hN n (by omega)) (fun x y h z => h kw hkw z) zs) Iff.rfl
  | @tupleEll k l xs ys a hk hl hlen he ih =>
    obtain ⟨N, hN⟩ := common (forall₂_of_get xs ys hlen fun i x y h1 h2 => ih i x y h1 h2)
    have hm := forall₂_of_get xs ys hlen fun i x y h1 h2 => advance_noMeta (he i x y h1 h2)
    refine ⟨N + 1, fun n hn kw hkw r => ?_⟩
    obtain ⟨n, rfl⟩ : ∃ m, n = m + 1 := ⟨n - 1, by omega⟩
    have hdk : DefaultDesers E kw.fork := by rw [hkw.neutral.fork]; exact hd
    have hvk : NoValidators E kw.fork := by rw [hkw.neutral.fork]; exact hv
    rw [tuple_ellipsis_load E n (.seq k xs) r xs a kw hdk hvk (input_valid hk) seq_noMeta rfl
        (forall₂_left hm fun _ _ h => h.1),
      tuple_ellipsis_load E n (.seq l ys) r ys a kw hdk hvk (input_valid hl) seq_noMeta rfl
        (forall₂_right hm fun _ _ h => h.2)]
    exact exists_congr fun zs => and_congr Iff.rfl
      (forall₂_transfer (hN n (by omega)) (fun x y h z => h _ hkw.noKeys z) zs)
  | @tuple k l xs ys a ts hk hl hlen hle he ih =>
    have hget : ∀ (i : Nat) (x : Val), xs[i]? = some x → ∃ b, (a :: ts)[i]? = some b := by
      intro i x h
      obtain ⟨hi, _⟩ := List.getElem?_eq_some_iff.1 h
      exact ⟨_, List.getElem?_eq_getElem (by omega)⟩
    obtain ⟨N, hN⟩ := common_bound (P := fun (i : Nat) n => ∀ (x y : Val) (b : Ty), xs[i]? = some x →
        ys[i]? = some y → (a :: ts)[i]? = some b → Agree E fork b x y n) (List.range xs.length) (by
      intro i hi
      have hi := List.mem_range.1 hi
      obtain ⟨M, hM⟩ := ih i xs[i] ys[i] _ (List.getElem?_eq_getElem (by omega))
        (List.getElem?_eq_getElem (by omega)) (List.getElem?_eq_getElem (l := a :: ts) (by omega))
      refine ⟨M, fun n hn x y b h1 h2 h3 => ?_⟩
      rw [List.getElem?_eq_getElem (by omega)] at h1 h2 h3
      cases h1; cases h2; cases h3
      exact hM n hn)
    have hm := forall₂_of_get xs ys hlen (R := fun x y => NoMeta x ∧ NoMeta y) fun i x y h1 h2 => by
      obtain ⟨b, hb⟩ := hget i x h1
      exact advance_noMeta (he i x y b h1 h2 hb)
    refine ⟨N + 1, fun n hn kw hkw r => ?_⟩
    obtain ⟨n, rfl⟩ : ∃ m, n = m + 1 := ⟨n - 1, by omega⟩
    have hdk : DefaultDesers E kw.fork := by rw [hkw.neutral.fork]; exact hd
    have hvk : NoValidators E kw.fork := by rw [hkw.neutral.fork]; exact hv
    rw [tuple_load_partial E n (.seq k xs) r xs a ts kw hdk hvk (input_valid hk) seq_noMeta rfl
        (forall₂_left hm fun _ _ h => h.1),
      tuple_load_partial E n (.seq l ys) r ys a ts kw hdk hvk (input_valid hl) seq_noMeta rfl
        (forall₂_right hm fun _ _ h => h.2), hlen]
    refine exists_congr fun zs => and_congr Iff.rfl (and_congr Iff.rfl
      (elementwise_transfer (a :: ts) xs ys zs hlen ?_))
    intro i x y b h1 h2 h3 z
    obtain ⟨hi, _⟩ := List.getElem?_eq_some_iff.1 h1
    exact hN i (List.mem_range.2 hi) n (by omega) x y b h1 h2 h3 _ hkw.noKeys z
  | @dict g es fs K V hg h1 h2 h3 hlen hkeys he ih =>
    obtain ⟨N, hN⟩ := common (R := fun e f n => f.1 = e.1 ∧ (NoMeta e.2 ∧ NoMeta f.2) ∧
        Agree E fork V e.2 f.2 n) (forall₂_of_get es fs hlen fun i e f h1 h2 => by
      obtain ⟨N, h⟩ := ih i e f h1 h2
      exact ⟨N, fun n hn => ⟨hkeys i e f h1 h2, advance_noMeta (he i e f h1 h2), h n hn⟩⟩)
    refine ⟨N + 1, fun n hn => ?_⟩
    obtain ⟨n, rfl⟩ : ∃ m, n = m + 1 := ⟨n - 1, by omega⟩
    exact agree_dict hd hv hg h1 h2 h3 (hN n (by omega))
  | @union v w ts h0 h0' h1 h1' hm hm' he ih =>
    obtain ⟨N, hN⟩ := common_bound (P := fun t n => Agree E fork t v w n) ts ih
    refine ⟨N + 2, fun n hn => ?_⟩
    obtain ⟨n, rfl⟩ : ∃ m, n = m + 2 := ⟨n - 2, by omega⟩
    exact agree_union hd hv h0 h0' h1 h1' hm hm' fun t ht => hN t ht _ (by omega)
  | @obj c es fs hc h1 hs hnd hlen hkeys hsame he ih =>
    obtain ⟨N, hN⟩ := common (R := fun e f n => f.1 = e.1 ∧ (∃ s, e.1 = .str s) ∧ e.1 ≠ .str metaKey ∧
        (NoMeta e.2 ∧ NoMeta f.2) ∧ ((hintFor (E.info c) e.1 = none ∧ f = e) ∨
          ∃ t, hintFor (E.info c) e.1 = some t ∧ Agree E fork t e.2 f.2 n))
        (forall₂_of_get es fs hlen fun i e f h2 h3 => by
      have hmem := List.mem_of_getElem? h2
      have hne : e.1 ≠ .str metaKey := dictGet_none_ne h1 e hmem
      cases hh : hintFor (E.info c) e.1 with
      | none =>
        obtain ⟨a, b⟩ := hsame i e f h2 h3 hh
        exact ⟨0, fun n _ => ⟨hkeys i e f h2 h3, hs e hmem, hne, ⟨a, by rw [b]; exact a⟩, .inl ⟨rfl, b⟩⟩⟩
      | some t =>
        obtain ⟨N, h⟩ := ih i e f t h2 h3 hh
        exact ⟨N, fun n hn => ⟨hkeys i e f h2 h3, hs e hmem, hne, advance_noMeta (he i e f t h2 h3 hh),
          .inr ⟨t, rfl, h n hn⟩⟩⟩)
    refine ⟨N + 1, fun n hn => ?_⟩
    obtain ⟨n, rfl⟩ : ∃ m, n = m + 1 := ⟨n - 1, by omega⟩
    exact agree_obj hd hv hc h1 hnd (hN n (by omega))

end

/-! ## Examples -/

/-- `class Point` as in `demoInfo`, and `class Line` with the constructor
`(start: Point, points: List[Point], name)`. -/
def lineInfo : Nat → ClassInfo
  | 0 => demoInfo 0
  | 1 => { attrs := mainAttrs "Line"
           initHints := [("start".toList, .cls (.user 0)), ("points".toList, .gen .list [.cls (.user 0)])]
           params := [{ name := "start".toList }, { name := "points".toList }, { name := "name".toList }] }
  | _ => { attrs := mainAttrs "Other" }

theorem line_names : NamesOk lineInfo desNames := by
  intro c
  match c with
  | 0 | 1 => decide
  | n + 2 =>
    have : (lineInfo (n + 2)).attrs = mainAttrs "Other" := rfl
    rw [this]
    decide

theorem line_desers (fork : Nat) : DefaultDesers (demoLEnv lineInfo) fork :=
  fun t => getLizer_desFn lineInfo line_names t

theorem line_novals (fork : Nat) : NoValidators (demoLEnv lineInfo) fork :=
  fun t => getLizer_empty lineInfo t

/-- The document of a point, and the point. -/
def pointDoc (x : Int) : Val := .dict [(.str "x".toList, .int x)]

def point (x : Int) : Val := .obj 0 [("x".toList, .int x), ("y".toList, .int 0)]

theorem point_advance (x : Int) : Advance (demoLEnv lineInfo) 0 (pointDoc x) (point x) (.cls (.user 0)) := by
  have hm : NoMeta (pointDoc x) := by intro es h; cases h; rfl
  refine .part (N := 2) hm (noMeta_of_not_dict (by simp [point, Val.cls])) rfl ?_
  intro n hn kw hk
  obtain ⟨n, rfl⟩ : ∃ m, n = m + 2 := ⟨n - 2, by omega⟩
  refine (object_load_plain (demoLEnv lineInfo) (n + 1) 0 _ _ kw (by rw [hk.neutral.fork]; exact line_desers 0)
    (by rw [hk.neutral.fork]; exact line_novals 0 _) rfl ⟨rfl, ?_, hk.neutral.hints⟩).2
    ⟨_, [("x".toList, .int x), ("y".toList, .int 0)], [("x".toList, .int x), ("y".toList, .int 0)],
      [("x".toList, .int x), ("y".toList, .int 0)], _,
      RoundTrip.transformed_id hk.neutral ?_ (by simp), ?_, (fun h => by rw [hk.lax] at h; cases h), rfl,
      .known (.inr ⟨{ name := "x".toList }, List.mem_cons_self, rfl⟩) .nil, ?_, rfl⟩
  · intro e he
    rw [List.mem_singleton] at he
    subst he
    exact noMeta_of_not_dict (by simp [Val.cls, Atom.cls])
  · intro e he
    rw [List.mem_singleton] at he
    subst he
    exact ⟨_, rfl⟩
  · rw [hk.neutral.getters]
    refine .arg (p := { name := "x".toList }) (.given (x := .int x) rfl ?_)
      (.arg (p := { name := "y".toList, default := some (.int 0) }) (.default rfl rfl rfl) .nil)
    show (load _ _ _ (some (.cls (Val.int x).cls)) _).val = _
    rw [(exact_type (demoLEnv lineInfo) n (.int x) (partKw kw)).1 hk.part.lax
      (by rw [hk.part.neutral.fork]; exact line_novals 0 _)]
    rfl
  · rw [hk.neutral.getters]
    exact .nil

/-- The document of a line with two points, and with one point and the start loaded in advance. -/
def lineDoc : Val := .dict [(.str "start".toList, pointDoc 1),
  (.str "points".toList, .list [pointDoc 2, pointDoc 3]), (.str "name".toList, .str "l".toList)]

def lineHalf : Val := .dict [(.str "start".toList, point 1),
  (.str "points".toList, .tuple [pointDoc 2, point 3]), (.str "name".toList, .str "l".toList)]

theorem line_advance : Advance (demoLEnv lineInfo) 0 lineDoc lineHalf (.cls (.user 1)) := by
  have hm : ∀ x, NoMeta (pointDoc x) := by intro x es h; cases h; rfl
  refine .obj rfl rfl ?_ (by decide) rfl ?_ ?_ ?_
  · intro e he
    simp only [List.mem_cons, List.not_mem_nil, or_false] at he
    rcases he with rfl | rfl | rfl <;> exact ⟨_, rfl⟩
  · intro i e f h1 h2
    match i with
    | 0 | 1 | 2 => cases h1; cases h2; rfl
    | n + 3 => cases h1
  · intro i e f h1 h2 h
    match i with
    | 0 | 1 => cases h1; cases h2; cases h
    | 2 => cases h1; cases h2; exact ⟨noMeta_of_not_dict (by decide), rfl⟩
    | n + 3 => cases h1
  · intro i e f t h1 h2 h
    match i with
    | 0 => cases h1; cases h2; cases h; exact point_advance 1
    | 1 =>
      cases h1; cases h2; cases h
      refine .list (.inl rfl) (.inr (.inl rfl)) rfl ?_
      intro i x y h1 h2
      match i with
      | 0 => cases h1; cases h2; exact .same (hm 2)
      | 1 => cases h1; cases h2; exact point_advance 3
      | n + 2 => cases h1
    | 2 => cases h1; cases h2; cases h
    | n + 3 => cases h1

/-- What comes of the second. -/
example : (load (demoLEnv lineInfo) 9 lineHalf (some (.cls (.user 1))) {}).val =
      .ok (.obj 1 [("start".toList, point 1), ("points".toList, .list [point 2, point 3]),
        ("name".toList, .str "l".toList)]) := by decide +kernel

theorem opts_default : Opts 0 {} := ⟨⟨rfl, rfl, fun _ => rfl, rfl, rfl, by simp⟩, rfl⟩

/-- `Dict[str, Optional[Set[int]]]`: a set in place of a list. -/
example : Advance (demoLEnv lineInfo) 0
    (.dict [(.str "a".toList, .list [.int 1, .int 2]), (.str "b".toList, .none)])
    (.dict [(.str "a".toList, .set [.int 1, .int 2]), (.str "b".toList, .none)])
    (.gen .dict [.cls .str, .union [.gen .set [.cls .int], .cls .noneType]]) := by
  refine .dict (.inl rfl) rfl rfl ?_ rfl ?_ ?_
  · intro e he
    simp only [List.mem_cons, List.not_mem_nil, or_false] at he
    rcases he with rfl | rfl <;> exact noMeta_of_not_dict (by decide)
  · intro i e f h1 h2
    match i with
    | 0 | 1 => cases h1; cases h2; rfl
    | n + 2 => cases h1
  · intro i e f h1 h2
    match i with
    | 0 =>
      cases h1; cases h2
      refine .union (by simp) (by simp) (by decide) (by decide) seq_noMeta seq_noMeta ?_
      intro t ht
      simp only [List.mem_cons, List.not_mem_nil, or_false] at ht
      rcases ht with rfl | rfl
      · refine .iter (by simp) (.inl rfl) (.inr (.inr rfl)) rfl ?_
        intro i x y h1 h2
        have h3 : x = y := Option.some.inj (h1.symm.trans h2)
        subst h3
        refine .same (noMeta_of_not_dict ?_)
        match i with
        | 0 | 1 => cases h1; decide
        | n + 2 => cases h1
      · exact .noneType seq_noMeta seq_noMeta (by simp) (by simp)
    | 1 => cases h1; cases h2; exact .same (noMeta_of_not_dict (by decide))
    | n + 2 => cases h1

/-! ## Where it fails -/

/-- A point that is loaded in advance is refused where the annotation is `Optional[Point]`. -/
theorem in_advance_fails_optional :
    (load (demoLEnv lineInfo) 9 (.list [pointDoc 1])
      (some (.gen .list [.union [.cls (.user 0), .cls .noneType]])) {}).val = .ok (.list [point 1]) ∧
    ¬ ∃ r, (load (demoLEnv lineInfo) 9 (.list [point 1])
      (some (.gen .list [.union [.cls (.user 0), .cls .noneType]])) {}).val = .ok r := by
  refine ⟨by rfl, ?_⟩
  rintro ⟨r, h⟩
  cases h

/-- Deques and frozensets are not accepted again, though `load` made them. -/
theorem in_advance_fails_deque :
    (load (demoLEnv lineInfo) 9 (.list [.int 1]) (some (.gen .deque [.cls .int])) {}).val =
      .ok (.seq .deque [.int 1]) ∧
    (¬ ∃ r, (load (demoLEnv lineInfo) 9 (.seq .deque [.int 1]) (some (.gen .deque [.cls .int])) {}).val =
      .ok r) ∧
    (load (demoLEnv lineInfo) 9 (.list [.int 1]) (some (.gen .frozenset [.cls .int])) {}).val =
      .ok (.seq .frozenset [.int 1]) ∧
    ¬ ∃ r, (load (demoLEnv lineInfo) 9 (.seq .frozenset [.int 1])
      (some (.gen .frozenset [.cls .int])) {}).val = .ok r := by
  refine ⟨by rfl, ?_, by rfl, ?_⟩ <;> (rintro ⟨r, h⟩; cases h)

/-- In strict mode nothing that is loaded in advance is accepted. -/
theorem in_advance_fails_strict :
    (load (demoLEnv lineInfo) 9 (.list [pointDoc 1]) (some (.gen .list [.cls (.user 0)]))
      { strict := true }).val = .ok (.list [point 1]) ∧
    ¬ ∃ r, (load (demoLEnv lineInfo) 9 (.list [point 1]) (some (.gen .list [.cls (.user 0)]))
      { strict := true }).val = .ok r := by
  refine ⟨by rfl, ?_⟩
  rintro ⟨r, h⟩
  cases h

/-- An environment in which `float('5.5')` is known. -/
def floatEnv : LEnv :=
  { demoLEnv lineInfo with
    floatOther := fun v => if v = .str "5.5".toList then .ok (11 / 2) else .error .valueError }

/-- With `Union[int, float]` the text `'5.5'` is the float `5.5`, but the float `5.5` is the int `5`. -/
theorem in_advance_fails_union :
    (load floatEnv 9 (.str "5.5".toList) (some (.union [.cls .int, .cls .float])) {}).val =
      .ok (.float (11 / 2)) ∧
    (load floatEnv 9 (.float (11 / 2)) (some (.union [.cls .int, .cls .float])) {}).val =
      .ok (.int 5) := ⟨by decide +kernel, by decide +kernel⟩

end Verif.Props.InAdvance
