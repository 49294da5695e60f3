import Verif.Props.DumpTyped
import Verif.Props.DumpObject
import Verif.Props.StripAttr

/-! # C121: hints that fit do not change what is dumped -/

set_option autoImplicit false

namespace Verif.Props.Annotations

open Verif Verif.Core
open Verif.Props.DumpTyped (Returns Fits Refuses dump_typed_partial forall₂_bound)
open Verif.Props.DumpObject

/-! ## The specification -/

/-- The program with other hints: the classes are described by `info`. -/
def hinted (E : Env) (info : Nat → ClassInfo) (sers : Nat → Registry.Table SerFn Ty) : Env :=
  { E with info := info, sers := sers }

/-- What may have changed: hints of classes.  jsons is used without serializers of the program. -/
structure Hints (E : Env) (info : Nat → ClassInfo) (sers : Nat → Registry.Table SerFn Ty) : Prop where
  members : ∀ c, (info c).members = (E.info c).members
  kind : ∀ c, (info c).kind = (E.info c).kind
  fields : ∀ c, (info c).fields = (E.info c).fields
  isAttrs : ∀ c, (info c).isAttrs = (E.info c).isAttrs
  defaults : ∀ i, DefaultSers E i
  defaults' : ∀ i, DefaultSers (hinted E info sers) i

/-- The keys of JSON: texts, numbers, booleans and `None`. -/
inductive JsonKey : Val → Prop where
  | str (s : PyStr) : JsonKey (.str s)
  | int (k : Int) : JsonKey (.int k)
  | float (x : ℚ) : JsonKey (.float x)
  | bool (b : Bool) : JsonKey (.bool b)
  | none : JsonKey .none

/-- The key transformer, if there is one, transforms the key. -/
def TransformsKey (kw : DumpKw) (k : Val) : Prop := ∃ k', transformKey kw.keyTransformer k = .ok k'

/-- In both programs the attributes of the objects in the value have hints that fit (C84), or none. -/
inductive Annotated (E E' : Env) : DumpKw → Val → Prop where
  /-- what both programs dump alike, such as texts and numbers -/
  | leaf (kw : DumpKw) (v j : Val) (h : Returns E v none kw j) (h' : Returns E' v none kw j) :
      Annotated E E' kw v
  | list (kw : DumpKw) (xs : List Val) (h : ∀ x ∈ xs, Annotated E E' { kw with storeCls := false } x) :
      Annotated E E' kw (.list xs)
  /-- tuples, sets, frozensets and deques -/
  | collection (kw : DumpKw) (k : SeqKind) (xs : List Val) (hk : k ≠ .list)
      (h : ∀ x ∈ xs, Annotated E E' { kw with storeCls := false } x) : Annotated E E' kw (.seq k xs)
  /-- dicts with keys that JSON has -/
  | dict (kw : DumpKw) (ps : List (Val × Val)) (ht : kw.types = [])
      (hk : ∀ p ∈ ps, JsonKey p.1 ∧ TransformsKey kw p.1)
      (h : ∀ p ∈ ps, Annotated E E' { kw with types := [] } p.2) : Annotated E E' kw (.dict ps)
  | named (kw : DumpKw) (c : Nat) (xs : List Val) (hk : (E.info c).kind = .ntuple)
      (h : ∀ x ∈ xs, Annotated E E' kw x) : Annotated E E' kw (.ntuple c xs)
  | obj (kw : DumpKw) (c : Nat) (as : List (PyStr × Val)) (l : List PyStr)
      (hk : (E.info c).kind = .plain) (hv : kw.verbose = {}) (hl : stripNames kw.stripAttr = some l)
      (hns : ∀ m, assoc (E.info c).members m ≠ some .noSource)
      (hg : ∀ m, Selected (E.info c) as kw l m → ∃ a, E.getAttr (.obj c as) m = .ok a)
      (hn : ∀ m a, Selected (E.info c) as kw l m → E.getAttr (.obj c as) m = .ok a →
        ∀ t, hintOf (E.info c) false m = some t → Fits E a t)
      (hf : ∀ m a, Selected (E.info c) as kw l m → E.getAttr (.obj c as) m = .ok a →
        ∀ t, hintOf (E'.info c) false m = some t → Fits E' a t)
      (h : ∀ m a, Selected (E.info c) as kw l m → E.getAttr (.obj c as) m = .ok a →
        Annotated E E' (attrKw kw l) a) : Annotated E E' kw (.obj c as)

/-- The key transformer, if there is one, transforms every text. -/
def Transforms (kw : DumpKw) : Prop := ∀ s, TransformsKey kw (.str s)

/-! ## Collections -/

section
variable {E E' : Env}

theorem list_back {xs ys : List Val} {kw : DumpKw} (hs : DefaultSers E kw.fork) (hk : kw.strict = false)
    (h : List.Forall₂ (fun x y => Returns E x none { kw with storeCls := false } y) xs ys) :
    Returns E (.list xs) none kw (.list ys) := by
  obtain ⟨N, h⟩ := forall₂_bound h
  refine ⟨N + 2, fun n hn => ?_⟩
  obtain ⟨n, rfl⟩ : ∃ m, n = m + 2 := ⟨n - 2, by omega⟩
  rw [dump_via (f := .list) hs rfl]
  have h' := h n (by omega)
  cases xs with
  | nil => cases h'; rfl
  | cons x xs =>
    simp only [callSer, listSer, Val.falsy, Val.iter, List.isEmpty_cons, Bool.false_eq_true,
      if_false, Option.map_none, Option.getD_none, hk, Core.bind_ok, pure_val, Except.ok.injEq,
      mapRes_ok]
    refine ⟨ys, h'.imp fun a b hab => ?_, rfl⟩
    have hkw : ({ kw with storeCls := false } : DumpKw) =
        { kw with storeCls := false, strict := false } := by simp only [hk]
    rw [hkw] at hab
    exact hab

theorem collection_back {k : SeqKind} {xs ys : List Val} {kw : DumpKw} (hs : DefaultSers E kw.fork)
    (hk : kw.strict = false) (hl : k ≠ .list)
    (h : List.Forall₂ (fun x y => Returns E x none { kw with storeCls := false } y) xs ys) :
    Returns E (.seq k xs) none kw (.list ys) := by
  obtain ⟨N, h⟩ := forall₂_bound h
  refine ⟨N + 2, fun n hn => ?_⟩
  obtain ⟨n, rfl⟩ : ∃ m, n = m + 2 := ⟨n - 2, by omega⟩
  exact (DumpCollections.collection_dump_partial E n k xs ys kw hs hl (.inl hk)).2 (h n (by omega))

theorem forall₂_zip {P : Val → Val → Prop} {xs ys : List Val} (h : List.Forall₂ P xs ys) :
    ∀ fs : List PyStr, List.Forall₂ (fun p q => p.1 = q.1 ∧ P p.2 q.2) (fs.zip xs) (fs.zip ys) := by
  induction h with
  | nil => intro fs; simp
  | cons h _ ih =>
    intro fs
    cases fs with
    | nil => exact .nil
    | cons f fs => exact .cons ⟨rfl, h⟩ (ih fs)

theorem named_back {c : Nat} {xs ys : List Val} {kw : DumpKw} (hs : DefaultSers E kw.fork)
    (hc : (E.info c).kind = .ntuple) (h : List.Forall₂ (fun x y => Returns E x none kw y) xs ys) :
    Returns E (.ntuple c xs) none kw (.dict (((E.info c).fields.zip ys).map fun q => (.str q.1, q.2))) := by
  obtain ⟨N, h⟩ := forall₂_bound h
  refine ⟨N + 2, fun n hn => ?_⟩
  obtain ⟨n, rfl⟩ : ∃ m, n = m + 2 := ⟨n - 2, by omega⟩
  rw [dump_via (v := .ntuple c xs) (f := .tuple) hs (by simp [Ty.serFn, Val.cls, Cls.serFn, hc])]
  show (namedtupleSer (recOf E n) (E.info c).fields xs kw).val = _
  unfold namedtupleSer
  rw [Core.bind_ok]
  refine ⟨_, ?_, rfl⟩
  rw [mapRes_ok, List.forall₂_map_right_iff]
  refine (forall₂_zip (h n (by omega)) _).imp fun p q hpq => ?_
  rw [Core.bind_ok]
  exact ⟨q.2, hpq.2, by rw [hpq.1]; rfl⟩

theorem choose_all {kw : DumpKw} : ∀ {xs : List Val},
    (∀ x ∈ xs, ∃ j, Returns E x none kw j ∧ Returns E' x none kw j) →
    ∃ ys, List.Forall₂ (fun x y => Returns E x none kw y) xs ys ∧
      List.Forall₂ (fun x y => Returns E' x none kw y) xs ys
  | [], _ => ⟨[], .nil, .nil⟩
  | x :: xs, h => by
    obtain ⟨y, h1, h2⟩ := h x (by simp)
    obtain ⟨ys, h3, h4⟩ := choose_all (xs := xs) fun z hz => h z (by simp [hz])
    exact ⟨y :: ys, .cons h1 h3, .cons h2 h4⟩

theorem addDumped_eq {kw : DumpKw} {s k : Val} (hk : transformKey kw.keyTransformer s = .ok k)
    (acc : List (Val × Val)) (d : Val) : addDumped kw acc s d =
      .ok (if kw.stripNulls && d == .none then acc else dictSet acc k d) := by
  unfold addDumped
  rw [hk]
  split <;> rfl

theorem jsonKey_valid {k : Val} (F : Env) (h : JsonKey k) : isValidJsonKey F k = true := by
  cases h <;> rfl

/-- The loop over the entries of a dict gives the same for both programs. -/
theorem dictLoop_hinted {kw : DumpKw} (ht : kw.types = [])
    (D : Val × Val → Val) : ∀ (ps : List (Val × Val)) (acc : List (Val × Val)),
    (∀ p ∈ ps, JsonKey p.1 ∧ TransformsKey kw p.1) → ∃ r, ∀ n,
    (∀ p ∈ ps, (dump E n p.2 none { kw with types := [] }).val = .ok (D p) ∧
      (dump E' n p.2 none { kw with types := [] }).val = .ok (D p)) →
    (dictLoop E (recOf E n) kw ps acc).val = .ok r ∧ (dictLoop E' (recOf E' n) kw ps acc).val = .ok r
  | [], acc, _ => ⟨acc, fun _ _ => ⟨rfl, rfl⟩⟩
  | p :: ps, acc, hkt => by
    obtain ⟨hj, k, hk⟩ := hkt p (by simp)
    obtain ⟨r, hr⟩ := dictLoop_hinted ht D ps
      (if kw.stripNulls && D p == .none then acc else dictSet acc k (D p)) fun q hq => hkt q (by simp [hq])
    have step : ∀ (F : Env) n, (dump F n p.2 none { kw with types := [] }).val = .ok (D p) →
        (dictLoop F (recOf F n) kw (p :: ps) acc).val = (dictLoop F (recOf F n) kw ps
          (if kw.stripNulls && D p == .none then acc else dictSet acc k (D p))).val := by
      intro F n h
      have hst : storeAndHash F (recOf F n) acc p.1 kw = pure (acc, p.1) := by
        simp only [storeAndHash, jsonKey_valid F hj, if_true]
      have h' : ((recOf F n).dump p.2 none { kw with types := [] }).val = .ok (D p) := h
      obtain ⟨q, v⟩ := p
      have ha := addDumped_eq hk acc (D (q, v))
      dsimp only at hj hst h' ha
      cases hj <;> simp only [dictLoop, ht, assoc, hst, bind_val, pure_val, h', lift_val, ha]
    refine ⟨r, fun n h => ?_⟩
    obtain ⟨h1, h2⟩ := h p (by simp)
    rw [step E n h1, step E' n h2]
    exact hr n fun q hq => h q (by simp [hq])

/-! ## Objects -/

/-- The selected attributes are the same with other hints. -/
theorem go_hints {I J : ClassInfo} (hm : J.members = I.members) {kw : DumpKw} {strip : List PyStr}
    (f g : PyStr → Option Ty) : ∀ (ns : List PyStr) (ps : List (PyStr × Option Ty)),
    filterAttributes.go I kw strip (ns.map fun n => (n, f n)) = .ok ps →
    filterAttributes.go J kw strip (ns.map fun n => (n, g n)) = .ok (ps.map fun p => (p.1, g p.1))
  | [], ps, h => by cases h; rfl
  | n :: ns, ps, h => by
    have hk : keepAttr J kw strip n = keepAttr I kw strip n := by simp only [keepAttr, hm]
    simp only [List.map_cons, filterAttributes.go, hk] at h ⊢
    cases hb : keepAttr I kw strip n with
    | error e => rw [hb] at h; cases h
    | ok b =>
      cases hr : filterAttributes.go I kw strip (ns.map fun n => (n, f n)) with
      | error e => rw [hb, hr] at h; cases h
      | ok r =>
        rw [hb, hr] at h
        rw [go_hints hm f g ns r hr]
        cases h
        cases b <;> rfl

theorem attributes_hints {I J : ClassInfo} (hm : J.members = I.members) {as : List (PyStr × Val)}
    {kw : DumpKw} {l : List PyStr} {ps : List (PyStr × Option Ty)}
    (h : attributesFromObject I as kw (.tuple l) = .ok ps) :
    attributesFromObject J as kw (.tuple l) = .ok (ps.map fun p => (p.1, hintOf J kw.strict p.1)) := by
  unfold attributesFromObject at h ⊢
  simp only [filterAttributes, hint_eq] at h ⊢
  have hd : dirNames J as = dirNames I as := by simp only [dirNames, hm]
  rw [hd]
  exact go_hints hm _ _ _ _ h

/-- The loop over the attributes gives the same for both programs. -/
theorem attrLoop_hinted {kw : DumpKw} (hs : DefaultSers E kw.fork) (hs' : DefaultSers E' kw.fork)
    (hst : kw.storeCls = false) (hkt : Transforms kw) (v : Val) (b : Bool) (cn cn' : PyStr)
    (g : PyStr → Option Ty) (D : PyStr × Option Ty → Val) :
    ∀ (ps : List (PyStr × Option Ty)) (acc : List (Val × Val)), ∃ r, ∀ n,
      (∀ p ∈ ps, AttrDump E n v kw p (D p) ∧ AttrDump E' n v kw (p.1, g p.1) (D p)) →
      (attrLoop E (recOf E n) kw b v cn ps acc).val = .ok r ∧
      (attrLoop E' (recOf E' n) kw b v cn' (ps.map fun p => (p.1, g p.1)) acc).val = .ok r
  | [], acc => ⟨acc, fun _ _ => ⟨rfl, rfl⟩⟩
  | p :: ps, acc => by
    obtain ⟨k, hk⟩ := hkt (if b then lstrip_ p.1 else p.1)
    obtain ⟨r, hr⟩ := attrLoop_hinted hs hs' hst hkt v b cn cn' g D ps
      (if kw.stripNulls && D p == .none then acc else dictSet acc k (D p))
    refine ⟨r, fun n h => ?_⟩
    obtain ⟨h1, h2⟩ := h p (by simp)
    rw [List.map_cons, attrLoop_step hs hst h1, attrLoop_step hs' hst h2]
    simp only [addDumped_eq hk]
    exact hr n fun q hq => h q (by simp [hq])

end

theorem getAttr_hints {E : Env} {info : Nat → ClassInfo} {sers : Nat → Registry.Table SerFn Ty}
    (U : Hints E info sers) (v : Val) (m : PyStr) : (hinted E info sers).getAttr v m = E.getAttr v m := by
  unfold Env.getAttr
  cases v with
  | obj c as =>
    have : ((hinted E info sers).info c).members = (E.info c).members := U.members c
    dsimp only
    rw [this]
    rfl
  | _ => rfl

/-! ## C121 -/

/-- C121, `_partial`: outside strict mode both programs dump the value, and to the same. -/
theorem annotations_partial (E : Env) (info : Nat → ClassInfo) (sers : Nat → Registry.Table SerFn Ty)
    (U : Hints E info sers) (kw : DumpKw) (v : Val) (hst : kw.strict = false)
    (hkt : Transforms kw) (h : Annotated E (hinted E info sers) kw v) :
    ∃ j, Returns E v none kw j ∧ Returns (hinted E info sers) v none kw j := by
  induction h with
  | leaf kw v j h h' => exact ⟨j, h, h'⟩
  | list kw xs _ ih =>
    obtain ⟨ys, h1, h2⟩ := choose_all fun x hx => ih x hx hst hkt
    exact ⟨.list ys, list_back (U.defaults _) hst h1, list_back (U.defaults' _) hst h2⟩
  | collection kw k xs hk _ ih =>
    obtain ⟨ys, h1, h2⟩ := choose_all fun x hx => ih x hx hst hkt
    exact ⟨.list ys, collection_back (U.defaults _) hst hk h1, collection_back (U.defaults' _) hst hk h2⟩
  | named kw c xs hk _ ih =>
    obtain ⟨ys, h1, h2⟩ := choose_all fun x hx => ih x hx hst hkt
    have h3 := named_back (E := hinted E info sers) (U.defaults' _) ((U.kind c).trans hk) h2
    have hf : ((hinted E info sers).info c).fields = (E.info c).fields := U.fields c
    rw [hf] at h3
    exact ⟨_, named_back (U.defaults _) hk h1, h3⟩
  | dict kw ps ht hk _ ih =>
    have hex : ∀ p : Val × Val, ∃ j, p ∈ ps → Returns E p.2 none { kw with types := [] } j ∧
        Returns (hinted E info sers) p.2 none { kw with types := [] } j := by
      intro p
      by_cases hp : p ∈ ps
      · obtain ⟨j, hj⟩ := ih p hp hst hkt
        exact ⟨j, fun _ => hj⟩
      · exact ⟨.none, fun h => absurd h hp⟩
    obtain ⟨D, hD⟩ := Classical.axiomOfChoice hex
    obtain ⟨N, hN⟩ := DumpCollections.common_bound ps (P := fun p n =>
        (dump E n p.2 none { kw with types := [] }).val = .ok (D p) ∧
        (dump (hinted E info sers) n p.2 none { kw with types := [] }).val = .ok (D p)) (by
      intro p hp
      obtain ⟨⟨N, hN⟩, M, hM⟩ := hD p hp
      exact ⟨max N M, fun n hn => ⟨hN n (by omega), hM n (by omega)⟩⟩)
    obtain ⟨r, hr⟩ := dictLoop_hinted (E := E) (E' := hinted E info sers) ht D ps [] hk
    refine ⟨.dict r, ⟨N + 2, fun n hn => ?_⟩, ⟨N + 2, fun n hn => ?_⟩⟩
    · obtain ⟨n, rfl⟩ : ∃ m, n = m + 2 := ⟨n - 2, by omega⟩
      rw [dump_via (f := .dict) (U.defaults _) rfl]
      simp only [callSer, dictSer, Core.bind_ok, pure_val, Except.ok.injEq]
      exact ⟨r, (hr n fun p hp => hN p hp n (by omega)).1, rfl⟩
    · obtain ⟨n, rfl⟩ : ∃ m, n = m + 2 := ⟨n - 2, by omega⟩
      rw [dump_via (f := .dict) (U.defaults' _) rfl]
      simp only [callSer, dictSer, Core.bind_ok, pure_val, Except.ok.injEq]
      exact ⟨r, (hr n fun p hp => hN p hp n (by omega)).2, rfl⟩
  | obj kw c as l hk hv hl hns hg hn hf _ ih =>
    obtain ⟨ps, hps, _, hmem⟩ := selected_list (as := as) (kw := kw) (l := l) hns
    have hps' := attributes_hints (J := info c) (U.members c) hps
    rw [hst] at hps'
    have hex : ∀ p : PyStr × Option Ty, ∃ d, p ∈ ps → ∃ N, ∀ n, N ≤ n →
        AttrDump E n (.obj c as) (attrKw kw l) p d ∧
        AttrDump (hinted E info sers) n (.obj c as) (attrKw kw l) (p.1, hintOf (info c) false p.1) d := by
      intro p
      by_cases hp : p ∈ ps
      · obtain ⟨h1, h2⟩ := (hmem p).1 hp
        obtain ⟨a, ha⟩ := hg _ h1
        obtain ⟨j, h3, h4⟩ := ih _ _ h1 ha hst hkt
        have h3 : Returns E a p.2 (attrKw kw l) j := by
          rw [h2, hst]
          cases ht : hintOf (E.info c) false p.1 with
          | none => exact h3
          | some t => exact dump_typed_partial _ _ _ _ _ (U.defaults _) hst (hn _ _ h1 ha t ht) h3
        have h5 : Returns (hinted E info sers) a (hintOf (info c) false p.1) (attrKw kw l) j := by
          cases ht : hintOf (info c) false p.1 with
          | none => exact h4
          | some t => exact dump_typed_partial _ _ _ _ _ (U.defaults' _) hst (hf _ _ h1 ha t ht) h4
        obtain ⟨N, hN⟩ := h3
        obtain ⟨M, hM⟩ := h5
        refine ⟨j, fun _ => ⟨max N M, fun n hn' => ⟨⟨a, ha, ?_⟩, a, ?_, hM _ (by omega)⟩⟩⟩
        · exact hN _ (by omega)
        · rw [getAttr_hints U]; exact ha
      · exact ⟨.none, fun h => absurd h hp⟩
    obtain ⟨D, hD⟩ := Classical.axiomOfChoice hex
    obtain ⟨N, hN⟩ := DumpCollections.common_bound ps (P := fun p n =>
        AttrDump E n (.obj c as) (attrKw kw l) p (D p) ∧
        AttrDump (hinted E info sers) n (.obj c as) (attrKw kw l) (p.1, hintOf (info c) false p.1) (D p))
      fun p hp => hD p hp
    obtain ⟨r, hr⟩ := attrLoop_hinted (E := E) (E' := hinted E info sers) (kw := attrKw kw l) (U.defaults _)
      (U.defaults' _) rfl hkt (.obj c as) ((E.info c).isAttrs && !kw.stripPrivates)
      (E.className false (.cls (.user c))) ((hinted E info sers).className false (.cls (.user c)))
      (hintOf (info c) false) D ps []
    refine ⟨.dict r, ⟨N + 2, fun n hn => ?_⟩, ⟨N + 2, fun n hn => ?_⟩⟩
    · obtain ⟨n, rfl⟩ : ∃ m, n = m + 2 := ⟨n - 2, by omega⟩
      exact (object_eq (U.defaults _) hk hv hl hps).2 ⟨r, (hr n fun p hp => hN p hp n (by omega)).1, rfl⟩
    · obtain ⟨n, rfl⟩ : ∃ m, n = m + 2 := ⟨n - 2, by omega⟩
      refine (object_eq (U.defaults' _) ((U.kind c).trans hk) hv hl hps').2 ⟨r, ?_, rfl⟩
      have : ((hinted E info sers).info c).isAttrs = (E.info c).isAttrs := U.isAttrs c
      rw [this]
      exact (hr n fun p hp => hN p hp n (by omega)).2

/-! ## Unions in the hints (C117) -/

/-- One member of the union is right, all others refuse the value. -/
def OnlyOne (E : Env) (v : Val) (ts : List Ty) : Prop :=
  v = .none ∧ .cls .noneType ∈ ts ∨
    v ≠ .none ∧ ∃ t ∈ ts, Fits E v t ∧ ∀ u ∈ ts, u = t ∨ Refuses E v u

theorem fits_onlyOne {E : Env} {v : Val} {ts : List Ty} (h : OnlyOne E v ts) : Fits E v (.union ts) := by
  rcases h with ⟨rfl, h⟩ | ⟨hv, t, ht, hf, hr⟩
  · exact .none h
  · obtain ⟨before, after, rfl, hb⟩ := List.eq_append_cons_of_mem ht
    exact .union hv (fun u hu => (hr u (by simp [hu])).resolve_left fun h => hb (h ▸ hu)) hf

theorem OnlyOne.perm {E : Env} {v : Val} {ts us : List Ty} (hp : ts.Perm us) (h : OnlyOne E v ts) :
    OnlyOne E v us := by
  rcases h with ⟨rfl, h⟩ | ⟨hv, t, ht, hf, hr⟩
  · exact .inl ⟨rfl, hp.mem_iff.1 h⟩
  · exact .inr ⟨hv, t, hp.mem_iff.1 ht, hf, fun u hu => hr u (hp.mem_iff.2 hu)⟩

/-- The hints of an attribute in the two programs are the same and fit the value, or unions that
differ in the order of the members, of which only one accepts the value. -/
def SwappedHint (E E' : Env) (a : Val) (o o' : Option Ty) : Prop :=
  o = none ∧ o' = none ∨ (∃ t, o = some t ∧ o' = some t ∧ Fits E a t ∧ Fits E' a t) ∨
    ∃ ts us, o = some (.union ts) ∧ o' = some (.union us) ∧ ts.Perm us ∧ OnlyOne E a ts ∧ OnlyOne E' a ts

/-- C117 for dump and the hints of classes, `_partial`: outside strict mode the order of the members
of a union in a hint plays no role.  The values of the attributes may have objects in them for which
the same holds. -/
theorem union_order_dump_hints_partial (E : Env) (info : Nat → ClassInfo)
    (sers : Nat → Registry.Table SerFn Ty) (U : Hints E info sers) (kw : DumpKw) (c : Nat)
    (as : List (PyStr × Val)) (l : List PyStr) (hst : kw.strict = false) (hkt : Transforms kw)
    (hk : (E.info c).kind = .plain) (hv : kw.verbose = {}) (hl : stripNames kw.stripAttr = some l)
    (hns : ∀ m, assoc (E.info c).members m ≠ some .noSource)
    (hg : ∀ m, Selected (E.info c) as kw l m → ∃ a, E.getAttr (.obj c as) m = .ok a)
    (hh : ∀ m a, Selected (E.info c) as kw l m → E.getAttr (.obj c as) m = .ok a →
      SwappedHint E (hinted E info sers) a (hintOf (E.info c) false m) (hintOf (info c) false m))
    (h : ∀ m a, Selected (E.info c) as kw l m → E.getAttr (.obj c as) m = .ok a →
      Annotated E (hinted E info sers) (attrKw kw l) a) :
    ∃ j, Returns E (.obj c as) none kw j ∧ Returns (hinted E info sers) (.obj c as) none kw j := by
  refine annotations_partial E info sers U kw _ hst hkt
    (.obj kw c as l hk hv hl hns hg (fun m a hm ha t ht => ?_) (fun m a hm ha t ht => ?_) h)
  · rcases hh m a hm ha with ⟨h1, _⟩ | ⟨u, h1, _, hf, _⟩ | ⟨ts, us, h1, _, _, ho, _⟩
    · rw [h1] at ht; cases ht
    · rw [h1] at ht; cases ht; exact hf
    · rw [h1] at ht; cases ht; exact fits_onlyOne ho
  · replace ht : hintOf (info c) false m = some t := ht
    rcases hh m a hm ha with ⟨_, h1⟩ | ⟨u, _, h1, _, hf⟩ | ⟨ts, us, _, h1, hp, _, ho⟩
    · rw [h1] at ht; cases ht
    · rw [h1] at ht; cases ht; exact hf
    · rw [h1] at ht; cases ht; exact fits_onlyOne (ho.perm hp)

/-! ## Examples -/

/-- The classes of `demoInfo`, without hints. -/
def bareInfo (c : Nat) : ClassInfo := { demoInfo c with hints := [], initHints := [] }

theorem bare_names : NamesOk bareInfo serNames := fun c => demo_names c

/-- `Point` without hints, and with the hints `x: int` and `y: int`. -/
theorem demo_hints : Hints (demoEnv bareInfo) demoInfo (fun _ => initialSers demoInfo) where
  members := fun _ => rfl
  kind := fun _ => rfl
  fields := fun _ => rfl
  isAttrs := fun _ => rfl
  defaults := fun _ t => getLizer_serFn bareInfo bare_names t
  defaults' := fun _ t => getLizer_serFn demoInfo demo_names t

/-- The program with hints. -/
abbrev hintedEnv : Env := hinted (demoEnv bareInfo) demoInfo fun _ => initialSers demoInfo

theorem int_returns (info : Nat → ClassInfo) (hn : NamesOk info serNames) (k : Int) (kw : DumpKw) :
    Returns (demoEnv info) (.int k) none kw (.int k) := by
  refine ⟨2, fun n hn' => ?_⟩
  obtain ⟨n, rfl⟩ : ∃ m, n = m + 2 := ⟨n - 2, by omega⟩
  have hs : DefaultSers (demoEnv info) kw.fork := fun t => getLizer_serFn info hn t
  rw [dump_via (f := .primitive) hs rfl]
  rfl

/-- `[Point(1, 2)]` -/
example : Annotated (demoEnv bareInfo) hintedEnv {}
    (.list [.obj 0 [("x".toList, .int 1), ("y".toList, .int 2)]]) := by
  refine .list {} _ ?_
  intro v hv
  rw [List.mem_singleton.1 hv]
  have hsel : ∀ m, Selected ((demoEnv bareInfo).info 0) [("x".toList, .int 1), ("y".toList, .int 2)]
      { storeCls := false } [] m → m = "x".toList ∨ m = "y".toList := by
    intro m h
    have := h.attr
    simpa [demoEnv, bareInfo, demoInfo] using this
  have hget : ∀ m a, (m = "x".toList ∨ m = "y".toList) →
      (demoEnv bareInfo).getAttr (.obj 0 [("x".toList, .int 1), ("y".toList, .int 2)]) m = .ok a →
      ∃ k, a = .int k := by
    rintro m a (rfl | rfl) h
    · exact ⟨1, by cases h; rfl⟩
    · exact ⟨2, by cases h; rfl⟩
  refine .obj _ 0 _ [] rfl rfl rfl nofun ?_ ?_ ?_ ?_
  · intro m h
    rcases hsel m h with rfl | rfl
    · exact ⟨.int 1, rfl⟩
    · exact ⟨.int 2, rfl⟩
  · intro m a _ _ t ht
    have : hintOf ((demoEnv bareInfo).info 0) false m = none := by
      simp only [hintOf, demoEnv, bareInfo, assoc]
      split <;> rfl
    rw [this] at ht
    cases ht
  · intro m a h ha t ht
    obtain ⟨k, rfl⟩ := hget m a (hsel m h) ha
    have : t = .cls .int := by
      rcases hsel m h with rfl | rfl <;> (cases ht; rfl)
    rw [this]
    exact .own trivial nofun nofun
  · intro m a h ha
    obtain ⟨k, rfl⟩ := hget m a (hsel m h) ha
    exact .leaf _ _ (.int k) (int_returns _ bare_names k _) (int_returns _ demo_names k _)

example : (dump (demoEnv bareInfo) 9 (.list [.obj 0 [("x".toList, .int 1), ("y".toList, .int 2)]]) none {}).val =
    .ok (.list [.dict [(.str "x".toList, .int 1), (.str "y".toList, .int 2)]]) ∧
    (dump hintedEnv 9 (.list [.obj 0 [("x".toList, .int 1), ("y".toList, .int 2)]]) none {}).val =
    .ok (.list [.dict [(.str "x".toList, .int 1), (.str "y".toList, .int 2)]]) := ⟨by rfl, by rfl⟩

/-- `Pair(1, [2])`, a named tuple -/
example : Annotated (demoEnv bareInfo) hintedEnv {} (.ntuple 1 [.int 1, .list [.int 2]]) := by
  have hi : ∀ k kw, Annotated (demoEnv bareInfo) hintedEnv kw (.int k) := fun k kw =>
    .leaf _ _ (.int k) (int_returns _ bare_names k _) (int_returns _ demo_names k _)
  refine .named _ _ _ rfl fun x hx => ?_
  simp only [List.mem_cons, List.not_mem_nil, or_false] at hx
  rcases hx with rfl | rfl
  · exact hi _ _
  · refine .list _ _ fun x hx => ?_
    rw [List.mem_singleton.1 hx]
    exact hi _ _

/-- `1` as `Union[int, datetime]` and as `Union[datetime, int]` -/
example : SwappedHint (demoEnv bareInfo) hintedEnv (.int 1) (some (.union [.cls .int, .cls .datetime]))
    (some (.union [.cls .datetime, .cls .int])) := by
  have h : ∀ E : Env, OnlyOne E (.int 1) [.cls .int, .cls .datetime] := by
    intro E
    refine .inr ⟨by simp, .cls .int, by simp, .own trivial (by decide) (by decide), fun u hu => ?_⟩
    simp only [List.mem_cons, List.not_mem_nil, or_false] at hu
    rcases hu with rfl | rfl
    · exact .inl rfl
    · exact .inr (.moment (by simp) (by simp [Val.cls, Atom.cls]))
  exact .inr (.inr ⟨_, _, rfl, rfl, .swap _ _ _, h _, h _⟩)

/-- `{'a': 1, 2: 1}` -/
example : Annotated (demoEnv bareInfo) hintedEnv {} (.dict [(.str ['a'], .int 1), (.int 2, .int 1)]) := by
  refine .dict _ _ rfl (fun p hp => ?_) fun p hp => ?_
  · refine ⟨?_, p.1, rfl⟩
    simp only [List.mem_cons, List.not_mem_nil, or_false] at hp
    rcases hp with rfl | rfl
    · exact .str _
    · exact .int _
  · have : p.2 = .int 1 := by
      simp only [List.mem_cons, List.not_mem_nil, or_false] at hp
      rcases hp with rfl | rfl <;> rfl
    rw [this]
    exact .leaf _ _ (.int 1) (int_returns _ bare_names 1 _) (int_returns _ demo_names 1 _)

/-- `key_transformer=lambda key: 'X' + key` -/
example : Transforms { keyTransformer := some fun s => .ok ('X' :: s) } := fun s => ⟨.str ('X' :: s), rfl⟩

/-! ## What does not hold -/

/-- C121 fails for a hint that does not fit: with the hints `x: int` and `y: int` the point
`Point('a', 2)` is dumped to `{}`, without them to `{'x': 'a', 'y': 2}`. -/
theorem annotations_fail_unfit : ∃ (v r r' : Val), (dump (demoEnv bareInfo) 9 v none {}).val = .ok r ∧
    (dump hintedEnv 9 v none {}).val = .ok r' ∧ r ≠ r' :=
  ⟨.obj 0 [("x".toList, .str ['a']), ("y".toList, .int 2)],
    .dict [(.str "x".toList, .str ['a']), (.str "y".toList, .int 2)], .dict [], by rfl, by rfl, by simp⟩

/-- C121 fails for the bare hint `tuple`, although it is right: the attribute and those after it
are lost. -/
theorem annotations_fail_tuple : ∃ (v r r' : Val),
    (dump (demoEnv fun c => { DumpTyped.boxInfo c with hints := [], initHints := [] }) 9 v none {}).val = .ok r ∧
    (dump (demoEnv DumpTyped.boxInfo) 9 v none {}).val = .ok r' ∧ r ≠ r' :=
  ⟨.obj 0 [("pair".toList, .seq .tuple [.int 1, .int 2]), ("size".toList, .int 3)],
    .dict [(.str "pair".toList, .list [.int 1, .int 2]), (.str "size".toList, .int 3)], .dict [],
    by rfl, by rfl, by simp⟩

end Verif.Props.Annotations
