import Verif.Core.Json
import Verif.Core.ResLemmas

/-!
# What dumps are built from

One induction over the depth of the calls for all properties of the form "every dict
in the result has keys like this and values like that".
-/

set_option autoImplicit false

namespace Verif.Core
open Verif Verif.Datetime

theorem dictSet_mem {es : List (Val × Val)} {k v : Val} {e : Val × Val}
    (h : e ∈ dictSet es k v) : e ∈ es ∨ e = (k, v) ∨ (e.2 = v ∧ ∃ e' ∈ es, e'.1 = e.1) := by
  induction es with
  | nil => simp only [dictSet, List.mem_singleton] at h; exact .inr (.inl h)
  | cons p es ih =>
    obtain ⟨k', v'⟩ := p
    simp only [dictSet] at h
    split at h
    · rcases List.mem_cons.1 h with rfl | h
      · exact .inr (.inr ⟨rfl, _, List.mem_cons_self, rfl⟩)
      · exact .inl (List.mem_cons_of_mem _ h)
    · rcases List.mem_cons.1 h with rfl | h
      · exact .inl List.mem_cons_self
      · rcases ih h with h | h | ⟨h, e', he, h'⟩
        · exact .inl (List.mem_cons_of_mem _ h)
        · exact .inr (.inl h)
        · exact .inr (.inr ⟨h, e', List.mem_cons_of_mem _ he, h'⟩)

/-- All entries are good. -/
def Entries (info : Nat → ClassInfo) (A B : Val → Prop) (es : List (Val × Val)) : Prop :=
  ∀ e ∈ es, (A e.1 ∧ B e.2) ∧ JsonWith info A B e.2

theorem Entries.dict {info : Nat → ClassInfo} {A B : Val → Prop} {es : List (Val × Val)}
    (h : Entries info A B es) : JsonWith info A B (.dict es) :=
  .dict (fun e he => (h e he).1) (fun e he => (h e he).2)

theorem JsonWith.entries {info : Nat → ClassInfo} {A B : Val → Prop} {es : List (Val × Val)}
    (h : JsonWith info A B (.dict es)) : Entries info A B es := by
  cases h with
  | leaf h => exact absurd h (by simp [JsonLeaf])
  | dict h1 h2 => exact fun e he => ⟨h1 e he, h2 e he⟩

theorem Entries.set {info : Nat → ClassInfo} {A B : Val → Prop} {es : List (Val × Val)}
    (h : Entries info A B es) {k v : Val} (hk : A k) (hv : B v) (hj : JsonWith info A B v) :
    Entries info A B (dictSet es k v) := by
  intro e he
  rcases dictSet_mem he with he | rfl | ⟨h2, e', he', h1⟩
  · exact h e he
  · exact ⟨⟨hk, hv⟩, hj⟩
  · rw [h2, ← h1]
    exact ⟨⟨(h e' he').1.1, hv⟩, hj⟩

/-- Two calls with the same options as far as they matter for the shape of the
result. -/
structure SameOpts (kw kw0 : DumpKw) : Prop where
  fork : kw.fork = kw0.fork
  nulls : kw.stripNulls = kw0.stripNulls
  kt : kw.keyTransformer = kw0.keyTransformer
  verbose : kw.verbose = kw0.verbose
  enumName : kw.useEnumName = kw0.useEnumName
  store : kw.storeCls = true → kw0.verbose.classInfo = true

/-- What has to be known about the entries that jsons makes itself, about the values
that it returns as they are, and about the keys that it passes to the key
transformer. -/
structure EntryOk (E : Env) (S : Val → Prop) (A B : Val → Prop) (kw : DumpKw) : Prop where
  key : ∀ {k k' : Val}, JsonLeaf E.info k → transformKey kw.keyTransformer k = .ok k' → A k'
  nonNull : ∀ {v : Val}, ¬ (kw.stripNulls = true ∧ v = .none) → B v
  complex : ∀ {v r : Val}, S v → (complexSer E v).val = .ok r → JsonWith E.info A B r
  enum : ∀ {v r : Val}, S v → (enumSer E v kw).val = .ok r → JsonWith E.info A B r
  zoneinfo : ∀ {v r : Val}, S v → (zoneinfoSer v).val = .ok r → JsonWith E.info A B r
  timezone : ∀ {us : Int} {n : Option PyStr}, S (.atom (.timezone us n)) →
    A (.str "name".toList) ∧ A (.str "offset".toList) ∧ (∀ s, B (.str s)) ∧ ∀ x, B (.float x)
  ntuple : ∀ {c : Nat} {xs : List Val}, S (.ntuple c xs) →
    (∀ n ∈ (E.info c).fields, A (.str n)) ∧ ∀ v, B v
  hashed : ∀ {es : List (Val × Val)} {e : Val × Val} {f : Option Ty},
    (S (.dict es) ∨ S (.ddict f es)) → e ∈ es → isValidJsonKey E e.1 = false →
    A (.str keysKey) ∧ (∀ n, A (.int n)) ∧ (∀ v, isValidJsonKey E v = false → B v) ∧
      ∀ es, B (.dict es)
  cls : kw.verbose.classInfo = true → A (.str clsKey) ∧ ∀ s, B (.str s)
  withMeta : ∀ {es r : List (Val × Val)} {s : PyStr}, Entries E.info A B es →
    dictWithMeta E es s kw.verbose = .ok r → Entries E.info A B r

variable {E : Env} {S A B : Val → Prop} {kw0 : DumpKw}

/-- The recursive calls give good results. -/
structure RecOk (E : Env) (S A B : Val → Prop) (kw0 : DumpKw) (rec : Rec) : Prop where
  dump : ∀ {v : Val} {cls : Option Ty} {kw : DumpKw} {r : Val}, S v → SameOpts kw kw0 →
    (rec.dump v cls kw).val = .ok r → JsonWith E.info A B r
  call : ∀ {f : SerFn} {v : Val} {cls : Option Ty} {kw : DumpKw} {r : Val}, S v →
    SameOpts kw kw0 → (cls.getD (.cls v.cls)).serFn E.info = some f →
    (rec.call f v cls kw).val = .ok r → JsonWith E.info A B r
  /-- the offset of a time zone is a float -/
  offset : ∀ {us : Int} {cls : Option Ty} {kw : DumpKw} {r : Val}, SameOpts kw kw0 →
    (cls.getD (.cls .timezone)).serFn E.info = some .timezone →
    (rec.dump (.atom (.timedelta us)) cls kw).val = .ok r → ∃ x, r = .float x
  callTz : ∀ {us : Int} {cls : Option Ty} {kw : DumpKw} {r : Val},
    (rec.call .timezone (.atom (.timedelta us)) cls kw).val ≠ .ok r
  callTd : ∀ {us : Int} {cls : Option Ty} {kw : DumpKw} {r : Val},
    (rec.call .timedelta (.atom (.timedelta us)) cls kw).val = .ok r → ∃ x, r = .float x

theorem leaf_of_prim (hS : Reach E S) {v : Val} (hv : S v) {c : Cls}
    (hc : c = .noneType ∨ c = .bool ∨ c = .int ∨ c = .float ∨ c = .str)
    (h : v.cls.sub E.info c = true) : JsonLeaf E.info v := by
  cases v with
  | atom a => cases a <;> rcases hc with rfl | rfl | rfl | rfl | rfl <;>
      simp_all [JsonLeaf, Val.cls, Atom.cls, Cls.sub]
  | seq k xs => cases k <;> rcases hc with rfl | rfl | rfl | rfl | rfl <;>
      simp_all [Val.cls, SeqKind.cls, Cls.sub]
  | dict es => rcases hc with rfl | rfl | rfl | rfl | rfl <;> simp_all [Val.cls, Cls.sub]
  | ddict f es => rcases hc with rfl | rfl | rfl | rfl | rfl <;> simp_all [Val.cls, Cls.sub]
  | ntuple k xs =>
    have := hS.ntuple hv
    rcases hc with rfl | rfl | rfl | rfl | rfl <;> simp_all [Val.cls, Cls.sub]
  | enum k m =>
    rcases hc with rfl | rfl | rfl | rfl | rfl <;> simp_all [Val.cls, Cls.sub, JsonLeaf]
  | obj k as =>
    have := hS.plain hv
    rcases hc with rfl | rfl | rfl | rfl | rfl <;> simp_all [Val.cls, Cls.sub]

theorem prim_of_serFn {info : Nat → ClassInfo} {c : Cls} (h : c.serFn info = .primitive) :
    c = .noneType ∨ c = .bool ∨ c = .int ∨ c = .float ∨ c = .str := by
  cases c <;> simp_all [Cls.serFn]
  split at h <;> simp at h

theorem leaf_cast {v r : Val} {t : Ty} (h : E.cast v t = .ok r) : JsonLeaf E.info r := by
  unfold Env.cast at h
  split at h
  · cases h; trivial
  · cases h; trivial
  · cases hi : E.intOf v <;> rw [hi] at h <;> simp [Except.map] at h
    subst h; trivial
  · cases hi : E.floatOf v <;> rw [hi] at h <;> simp [Except.map] at h
    subst h; trivial
  · cases h

theorem primitive_json (hS : Reach E S) {v r : Val} {cls : Option Ty} (hv : S v)
    (hf : (cls.getD (.cls v.cls)).serFn E.info = some .primitive)
    (h : (primitiveSer E v cls).val = .ok r) : JsonLeaf E.info r := by
  -- the class that is left after `NewType`
  have key : ∀ c : Cls, c.serFn E.info = .primitive →
      ((if v = .none then (pure v : Res Val)
        else match E.isInstance v (.cls c) with
          | .error k => Res.raise { kind := k }
          | .ok true => pure v
          | .ok false => match E.cast v (.cls c) with
            | .ok r => pure r
            | .error k =>
              if k.isValueError then Res.raise { kind := .serializationError }
              else Res.raise { kind := k }).val = .ok r) → JsonLeaf E.info r := by
    intro c hc h
    have hp := prim_of_serFn hc
    split at h
    · next hn => cases h; rw [hn]; trivial
    · simp only [Env.isInstance] at h
      split at h
      · simp at h
      · next hi => cases h; exact leaf_of_prim hS hv hp (by simpa using hi)
      · split at h
        · next hc' => cases h; exact leaf_cast hc'
        · split at h <;> simp at h
  cases cls with
  | none =>
    simp only [primitiveSer, pure_val, Except.ok.injEq] at h
    subst h
    simp only [Option.getD_none, Ty.serFn, Option.some.injEq] at hf
    exact leaf_of_prim hS hv (prim_of_serFn hf) (by simp [Cls.sub])
  | some t =>
    simp only [Option.getD_some] at hf
    cases t with
    | cls c => exact key c (by simpa [Ty.serFn] using hf) h
    | gen g a => cases g <;> simp [Ty.serFn, Gen.naked, Cls.serFn] at hf
    | newtype n t =>
      cases t with
      | cls c => exact key c (by simpa [Ty.serFn] using hf) h
      | gen g a => cases g <;> simp [Ty.serFn, Gen.naked, Cls.serFn] at hf
      | _ => simp [Ty.serFn] at hf
    | _ => simp [Ty.serFn] at hf

theorem leaf_of_validKey (hS : Reach E S) {k : Val} (hk : S k) (h : isValidJsonKey E k = true) :
    JsonLeaf E.info k := by
  simp only [isValidJsonKey, List.any_cons, List.any_nil, Bool.or_false, Bool.or_eq_true] at h
  rcases h with h | h | h | h | h
  · exact leaf_of_prim hS hk (by simp) h
  · exact leaf_of_prim hS hk (by simp) h
  · exact leaf_of_prim hS hk (by simp) h
  · exact leaf_of_prim hS hk (by simp) h
  · exact leaf_of_prim hS hk (by simp) h

theorem leaf_of_json_validKey {k : Val} (hk : JsonWith E.info A B k)
    (h : isValidJsonKey E k = true) : JsonLeaf E.info k := by
  cases hk with
  | leaf h => exact h
  | list _ => simp [isValidJsonKey, Val.cls, SeqKind.cls, Cls.sub] at h
  | dict _ _ => simp [isValidJsonKey, Val.cls, Cls.sub] at h

theorem transformKey_ok {kt : Option (PyStr → Except Err PyStr)} {k k' : Val}
    (h : transformKey kt k = .ok k') :
    (kt = none ∧ k' = k) ∨ ∃ f s t, kt = some f ∧ k = .str s ∧ f s = .ok t ∧ k' = .str t := by
  unfold transformKey at h
  split at h
  · cases h; exact .inl ⟨rfl, rfl⟩
  · next f =>
    split at h
    · next s =>
      cases hf : f s with
      | error e => rw [hf] at h; cases h
      | ok t => rw [hf] at h; cases h; exact .inr ⟨f, s, t, rfl, rfl, hf, rfl⟩
    · cases h

theorem addDumped_entries (ho : EntryOk E S A B kw0) {kw : DumpKw} (hkw : SameOpts kw kw0)
    {es r : List (Val × Val)} {k d : Val} (hes : Entries E.info A B es)
    (hk : JsonLeaf E.info k) (hd : JsonWith E.info A B d)
    (h : addDumped kw es k d = .ok r) : Entries E.info A B r := by
  unfold addDumped at h
  split at h
  · cases h; exact hes
  · next hn =>
    cases hk' : transformKey kw.keyTransformer k with
    | error e => rw [hk'] at h; simp [Except.map] at h
    | ok k' =>
      rw [hk'] at h
      simp only [Except.map, Except.ok.injEq] at h
      subst h
      rw [hkw.kt] at hk'
      refine hes.set (ho.key hk hk') (ho.nonNull ?_) hd
      rintro ⟨h1, h2⟩
      apply hn
      simp [hkw.nulls, h1, h2]

theorem dictLoop_entries (hS : Reach E S) (ho : EntryOk E S A B kw0) {rec : Rec}
    (hr : RecOk E S A B kw0 rec) {kw : DumpKw} (hkw : SameOpts kw kw0) :
    ∀ (es acc : List (Val × Val)) {r : List (Val × Val)},
      (∀ e ∈ es, S e.1 ∧ S e.2) →
      (∀ e ∈ es, isValidJsonKey E e.1 = false →
        A (.str keysKey) ∧ (∀ n, A (.int n)) ∧ (∀ v, isValidJsonKey E v = false → B v) ∧
          ∀ es, B (.dict es)) →
      Entries E.info A B acc → (dictLoop E rec kw es acc).val = .ok r → Entries E.info A B r := by
  intro es
  induction es with
  | nil => intro acc r _ _ ha h; simp [dictLoop] at h; subst h; exact ha
  | cons e es ih =>
    obtain ⟨k, v⟩ := e
    intro acc r hs hh ha h
    simp only [dictLoop, bind_ok] at h
    obtain ⟨⟨acc', k'⟩, h1, d, h2, acc'', h3, h4⟩ := h
    rw [lift_val] at h3
    have hkv := hs _ List.mem_cons_self
    have hd : JsonWith E.info A B d := hr.dump (kw := { kw with types := [] }) hkv.2
      ⟨hkw.1, hkw.2, hkw.3, hkw.4, hkw.5, hkw.6⟩ h2
    have hka : Entries E.info A B acc' ∧ JsonLeaf E.info k' := by
      unfold storeAndHash at h1
      split at h1
      · next hv =>
        simp only [pure_val, Except.ok.injEq, Prod.mk.injEq] at h1
        obtain ⟨rfl, rfl⟩ := h1
        exact ⟨ha, leaf_of_validKey hS hkv.1 hv⟩
      · next hv =>
        rw [bind_ok] at h1
        obtain ⟨dk, hdk, h1⟩ := h1
        have hdkj := hr.dump hkv.1 hkw hdk
        split at h1
        · next hv' =>
          simp only [pure_val, Except.ok.injEq, Prod.mk.injEq] at h1
          obtain ⟨rfl, rfl⟩ := h1
          exact ⟨ha, leaf_of_json_validKey hdkj hv'⟩
        · next hv' =>
          obtain ⟨q1, q2, q3, q4⟩ := hh _ List.mem_cons_self (by simpa using hv)
          have hnew : ∀ ks, Entries E.info A B ks →
              Entries E.info A B (dictSet ks (.int (E.hash k)) dk) :=
            fun ks hks => hks.set (q2 _) (q3 _ (by simpa using hv')) hdkj
          simp only at h1
          split at h1
          · simp only [pure_val, Except.ok.injEq, Prod.mk.injEq] at h1
            obtain ⟨rfl, rfl⟩ := h1
            refine ⟨?_, trivial⟩
            intro e he
            rcases List.mem_append.1 he with he | he
            · exact ha e he
            · simp only [List.mem_singleton] at he
              subst he
              exact ⟨⟨q1, q4 _⟩, Entries.dict (hnew [] (by intro e he; cases he))⟩
          · next ks hg =>
            simp only [pure_val, Except.ok.injEq, Prod.mk.injEq] at h1
            obtain ⟨rfl, rfl⟩ := h1
            refine ⟨ha.set q1 (q4 _) (Entries.dict (hnew ks ?_)), trivial⟩
            have : ∀ l : List (Val × Val), dictGet l (.str keysKey) = some (.dict ks) →
                ∃ e ∈ l, e.2 = .dict ks := by
              intro l
              induction l with
              | nil => intro h; cases h
              | cons p l ih =>
                intro h
                simp only [dictGet] at h
                split at h
                · exact ⟨p, List.mem_cons_self, Option.some.inj h⟩
                · obtain ⟨e, he, h⟩ := ih h
                  exact ⟨e, List.mem_cons_of_mem _ he, h⟩
            obtain ⟨e, he, h⟩ := this acc hg
            have := (ha e he).2
            rw [h] at this
            exact this.entries
          · simp at h1
    exact ih acc'' (fun e he => hs e (List.mem_cons_of_mem _ he))
      (fun e he => hh e (List.mem_cons_of_mem _ he))
      (addDumped_entries ho hkw hka.1 hka.2 hd h3) h4

theorem unionLoop_json {rec : Rec} (hr : RecOk E S A B kw0 rec) {kw : DumpKw}
    (hkw : SameOpts kw kw0) {v r : Val} (hv : S v) : ∀ (ts : List Ty),
    (unionLoop rec v kw ts).val = .ok r → JsonWith E.info A B r := by
  intro ts
  induction ts with
  | nil => intro h; simp [unionLoop] at h
  | cons t ts ih =>
    intro h
    simp only [unionLoop, bind_ok, attempt_val, Except.ok.injEq] at h
    obtain ⟨x, hx, h⟩ := h
    split at h
    · cases h; exact hr.dump hv hkw hx
    · split at h
      · exact ih h
      · simp at h

theorem storeClsInfo_json (ho : EntryOk E S A B kw0) {d attr : Val} {b : Bool}
    (hb : b = true → kw0.verbose.classInfo = true) (hd : JsonWith E.info A B d) :
    JsonWith E.info A B (storeClsInfo E b d attr) := by
  unfold storeClsInfo
  split
  · split
    · next hb' =>
      have := ho.cls (hb hb')
      exact (hd.entries.set this.1 (this.2 _) (.leaf trivial)).dict
    · exact hd
  · exact hd

theorem attrLoop_entries (hS : Reach E S) (hds : DefaultSers E kw0.fork)
    (ho : EntryOk E S A B kw0) {rec : Rec} (hr : RecOk E S A B kw0 rec) {kw : DumpKw}
    (hkw : SameOpts kw kw0) {v : Val} (hv : S v) (pub : Bool) (cn : PyStr) :
    ∀ (as : List (PyStr × Option Ty)) (acc : List (Val × Val)) {r : List (Val × Val)},
      Entries E.info A B acc → (attrLoop E rec kw pub v cn as acc).val = .ok r →
      Entries E.info A B r := by
  intro as
  induction as with
  | nil => intro acc r ha h; simp [attrLoop] at h; subst h; exact ha
  | cons p as ih =>
    obtain ⟨name, hint⟩ := p
    intro acc r ha h
    simp only [attrLoop, bind_ok, lift_val, emit_val, attempt_val, Except.ok.injEq] at h
    obtain ⟨attr, h1, _, _, fn, h3, x, h4, h5⟩ := h
    rw [liftK_ok, hkw.fork, hds] at h3
    simp only [Except.ok.injEq] at h3
    cases x with
    | error e =>
      simp only at h5
      split at h5
      · simp at h5
      · split at h5
        · simp at h5
        · simp only [bind_ok, warn_val, pure_val, Except.ok.injEq] at h5
          obtain ⟨_, _, rfl⟩ := h5
          exact ha
    | ok d =>
      simp only [bind_ok, lift_val] at h5
      obtain ⟨acc', h5, h6⟩ := h5
      refine ih acc' (addDumped_entries ho hkw ha (k := .str _) trivial ?_ h5) h6
      unfold dumpAttr at h4
      split at h4
      · simp at h4
      · next f =>
        simp only [bind_ok, pure_val, Except.ok.injEq] at h4
        obtain ⟨d', h4, rfl⟩ := h4
        refine storeClsInfo_json ho hkw.store (hr.call (hS.attr hv h1) hkw ?_ h4)
        rw [h3]

theorem objectSerWith_json (hS : Reach E S) (hds : DefaultSers E kw0.fork)
    (ho : EntryOk E S A B kw0) {rec : Rec} (hr : RecOk E S A B kw0 rec) {kw : DumpKw}
    (hkw : SameOpts kw kw0) {v : Val} (hv : S v) {strip : StripAttr} {t : Ty} {I : ClassInfo}
    {attributes : Except Err (List (PyStr × Option Ty))} {r : Val}
    (h : (objectSerWith E rec v kw strip t I attributes).val = .ok r) :
    JsonWith E.info A B r := by
  unfold objectSerWith at h
  simp only [bind_ok, lift_val] at h
  obtain ⟨as, _, es, h1, h2⟩ := h
  have he := attrLoop_entries hS hds ho hr
    (kw := { kw with stripAttr := strip, storeCls := kw.verbose.classInfo })
    ⟨hkw.1, hkw.2, hkw.3, hkw.4, hkw.5, fun h => by rw [← hkw.verbose]; exact h⟩ hv _ _ as []
    (fun e he => by cases he) h1
  split at h2
  · cases h2; exact he.dict
  · simp only [bind_ok, liftK_ok, pure_val, Except.ok.injEq] at h2
    obtain ⟨es', h2, rfl⟩ := h2
    rw [hkw.verbose] at h2
    exact (ho.withMeta he h2).dict

theorem toStr_leaf {v r : Val} {b : Bool} {fork : Nat} {p : StrfPattern}
    (h : (toStr E v b fork p).val = .ok r) : JsonLeaf E.info r := by
  unfold toStr at h
  split at h
  · split at h
    · simp only [bind_ok] at h
      obtain ⟨_, _, _, _, h⟩ := h
      cases h; trivial
    · simp only [bind_ok] at h
      obtain ⟨_, _, h⟩ := h
      cases h; trivial
  · cases h; trivial
  · cases h; trivial
  · simp at h

theorem iterableSer_json (hS : Reach E S) {rec : Rec} (hr : RecOk E S A B kw0 rec) {kw : DumpKw}
    (hkw : SameOpts kw kw0) {v r : Val} (hv : S v) {cls : Option Ty}
    (h : (iterableSer E rec v cls kw).val = .ok r) : JsonWith E.info A B r := by
  unfold iterableSer at h
  simp only at h
  split at h
  · simp at h
  · next xs hxs =>
    simp only [bind_ok, pure_val, Except.ok.injEq] at h
    obtain ⟨sub, _, ys, h, rfl⟩ := h
    refine .list fun y hy => ?_
    obtain ⟨p, hp, hy⟩ := mapRes_mem h hy
    exact hr.dump (kw := { kw with storeCls := false }) (hS.elem hv hxs (List.of_mem_zip hp).1)
      ⟨hkw.1, hkw.2, hkw.3, hkw.4, hkw.5, fun h => by cases h⟩ hy

theorem callSer_json (hS : Reach E S) (hds : DefaultSers E kw0.fork)
    (ho : EntryOk E S A B kw0) {rec : Rec} (hr : RecOk E S A B kw0 rec)
    {f : SerFn} {v : Val} {cls : Option Ty} {kw : DumpKw} {r : Val} (hv : S v)
    (hkw : SameOpts kw kw0) (hf : (cls.getD (.cls v.cls)).serFn E.info = some f)
    (h : (callSer E rec f v cls kw).val = .ok r) : JsonWith E.info A B r := by
  cases f with
  | tuple =>
    simp only [callSer, tupleSer] at h
    split at h
    · next c xs =>
      unfold namedtupleSer at h
      simp only [bind_ok, pure_val, Except.ok.injEq] at h
      obtain ⟨ys, h, rfl⟩ := h
      have hq := ho.ntuple hv
      refine Entries.dict fun e he => ?_
      obtain ⟨p, hp, he⟩ := mapRes_mem h he
      simp only [bind_ok, pure_val, Except.ok.injEq] at he
      obtain ⟨y, hy, rfl⟩ := he
      have hp := List.of_mem_zip hp
      exact ⟨⟨hq.1 _ hp.1, hq.2 _⟩, hr.dump (hS.elem hv rfl hp.2) hkw hy⟩
    · simp only [bind_ok] at h
      obtain ⟨_, _, h⟩ := h
      exact iterableSer_json hS hr hkw hv h
  | complex => exact ho.complex hv h
  | datetime => exact .leaf (toStr_leaf h)
  | date => exact .leaf (toStr_leaf h)
  | time => exact .leaf (toStr_leaf h)
  | timezone =>
    simp only [callSer, timezoneSer] at h
    split at h
    · simp only [bind_ok, pure_val, Except.ok.injEq] at h
      obtain ⟨o, h, rfl⟩ := h
      have hq := ho.timezone hv
      have hj := hr.dump (hS.offset hv) hkw h
      obtain ⟨x, rfl⟩ := hr.offset hkw hf h
      refine Entries.dict fun e he => ?_
      simp only [List.mem_cons, List.not_mem_nil, or_false] at he
      rcases he with rfl | rfl
      · exact ⟨⟨hq.1, hq.2.2.1 _⟩, .leaf trivial⟩
      · exact ⟨⟨hq.2.1, hq.2.2.2 _⟩, hj⟩
    · simp at h
  | timedelta =>
    simp only [callSer, timedeltaSer] at h
    split at h
    · cases h; exact .leaf trivial
    · simp at h
  | primitive => exact .leaf (primitive_json hS hv hf h)
  | enum =>
    refine ho.enum hv (r := r) ?_
    simp only [callSer, enumSer] at h ⊢
    rw [hkw.enumName] at h
    exact h
  | dict =>
    simp only [callSer, dictSer] at h
    split at h
    · next es =>
      simp only [bind_ok, pure_val, Except.ok.injEq] at h
      obtain ⟨es', h, rfl⟩ := h
      refine (dictLoop_entries hS ho hr hkw es [] ?_ ?_ (fun e he => by cases he) h).dict
      · exact fun e he => ⟨hS.elem hv rfl (List.mem_map_of_mem he), hS.value hv he⟩
      · exact fun e he => ho.hashed (f := none) (.inl hv) he
    · next f es =>
      simp only [bind_ok, pure_val, Except.ok.injEq] at h
      obtain ⟨es', h, rfl⟩ := h
      refine (dictLoop_entries hS ho hr hkw es [] ?_ ?_ (fun e he => by cases he) h).dict
      · exact fun e he => ⟨hS.elem hv rfl (List.mem_map_of_mem he), hS.valueD hv he⟩
      · exact fun e he => ho.hashed (.inr hv) he
    · split at h
      · cases h; exact Entries.dict fun e he => by cases he
      · simp at h
  | list =>
    simp only [callSer, listSer] at h
    split at h
    · cases h; exact .list fun x hx => by cases hx
    · have typed : ∀ (xs : List Val), v.iter = some xs → ∀ (t : Ty) {r : Val},
          (listSer.typed E rec kw xs t { kw with storeCls := false }).val = .ok r →
          JsonWith E.info A B r := by
        intro xs hxs t r h
        unfold listSer.typed at h
        simp only [bind_ok, liftK_ok, pure_val, Except.ok.injEq] at h
        obtain ⟨fn, hfn, ys, h, rfl⟩ := h
        rw [hkw.fork, hds] at hfn
        simp only [Except.ok.injEq] at hfn
        refine .list fun y hy => ?_
        obtain ⟨x, hx, hy⟩ := mapRes_mem h hy
        split at hy
        · next f =>
          refine hr.call (kw := { kw with storeCls := false }) (hS.elem hv hxs hx) ⟨hkw.1, hkw.2, hkw.3, hkw.4, hkw.5, fun h => by cases h⟩ ?_ hy
          rw [Option.getD_some, hfn]
        · simp at hy
      split at h
      · simp at h
      · next xs hxs =>
        split at h
        · exact typed xs hxs _ h
        · split at h
          · split at h <;> first
              | (simp at h; done)
              | exact typed _ hxs _ h
              | (cases h; exact .list fun x hx => by cases hx)
          · simp only [bind_ok, pure_val, Except.ok.injEq] at h
            obtain ⟨ys, h, rfl⟩ := h
            refine .list fun y hy => ?_
            obtain ⟨x, hx, hy⟩ := mapRes_mem h hy
            exact hr.dump (kw := { kw with storeCls := false }) (hS.elem hv hxs hx)
              ⟨hkw.1, hkw.2, hkw.3, hkw.4, hkw.5, fun h => by cases h⟩ hy
  | iterable => exact iterableSer_json hS hr hkw hv h
  | object =>
    simp only [callSer, objectSer] at h
    split at h
    · split at h <;> exact objectSerWith_json hS hds ho hr hkw hv h
    · split at h
      · split at h <;> exact objectSerWith_json hS hds ho hr hkw hv h
      · split at h <;> exact objectSerWith_json hS hds ho hr hkw hv h
  | uuid => simp only [callSer, strSer] at h; cases h; exact .leaf trivial
  | decimal => simp only [callSer, strSer] at h; cases h; exact .leaf trivial
  | union =>
    simp only [callSer, unionSer] at h
    split at h
    · simp at h
    · split at h
      · next hn => cases h; rw [hn.1]; exact .leaf trivial
      · exact unionLoop_json hr hkw hv _ h
  | path =>
    simp only [callSer, pathSer] at h
    split at h
    · cases h; exact .leaf trivial
    · simp at h
  | zoneinfo => exact ho.zoneinfo hv h
  | custom id =>
    exfalso
    revert hf
    generalize cls.getD (.cls v.cls) = t
    have hc : ∀ c : Cls, c.serFn E.info ≠ .custom id := by
      intro c; cases c <;> simp [Cls.serFn]
      split <;> simp
    intro hf
    cases t with
    | newtype n t => cases t <;> simp_all [Ty.serFn]
    | _ => simp_all [Ty.serFn]

theorem dumpWith_json (hds : DefaultSers E kw0.fork) {rec : Rec}
    (hr : RecOk E S A B kw0 rec) {v : Val} {cls : Option Ty} {kw : DumpKw} {r : Val} (hv : S v)
    (hkw : SameOpts kw kw0) (h : (dumpWith E rec v cls kw).val = .ok r) :
    JsonWith E.info A B r := by
  unfold dumpWith at h
  simp only [bind_ok, emit_val, attempt_val, Except.ok.injEq] at h
  obtain ⟨fn, h1, _, _, x, h2, h3⟩ := h
  rw [liftK_ok, hkw.fork, hds] at h1
  simp only [Except.ok.injEq] at h1
  cases x with
  | error e => simp at h3
  | ok d =>
    cases h3
    split at h2
    · exact hr.call hv hkw h1 h2
    · simp at h2

theorem dumpWith_offset (hds : DefaultSers E kw0.fork) {rec : Rec}
    (hr : RecOk E S A B kw0 rec) {us : Int} {cls : Option Ty} {kw : DumpKw} {r : Val}
    (hkw : SameOpts kw kw0) (hf : (cls.getD (.cls .timezone)).serFn E.info = some .timezone)
    (h : (dumpWith E rec (.atom (.timedelta us)) cls kw).val = .ok r) : ∃ x, r = .float x := by
  unfold dumpWith at h
  simp only [bind_ok, emit_val, attempt_val, Except.ok.injEq] at h
  obtain ⟨fn, h1, _, _, x, h2, h3⟩ := h
  rw [liftK_ok, hkw.fork, hds] at h1
  simp only [Except.ok.injEq] at h1
  cases x with
  | error e => simp at h3
  | ok d =>
    cases h3
    cases cls with
    | none =>
      simp only [Option.getD_none, Ty.serFn, Val.cls, Atom.cls, Cls.serFn] at h1
      subst h1
      exact hr.callTd h2
    | some t =>
      simp only [Option.getD_some] at h1 hf
      rw [hf] at h1
      subst h1
      exact absurd h2 hr.callTz

/-- The calls of any depth give good results. -/
theorem recOk (hS : Reach E S) (hds : DefaultSers E kw0.fork) (ho : EntryOk E S A B kw0) (n : Nat) :
    RecOk E S A B kw0 (recOf E n) := by
  induction n with
  | zero =>
    exact ⟨fun _ _ h => by simp [recOf] at h, fun _ _ _ h => by simp [recOf] at h,
      fun _ _ h => by simp [recOf] at h, fun h => by simp [recOf] at h,
      fun h => by simp [recOf] at h⟩
  | succ n ih =>
    exact ⟨fun hv hkw h => dumpWith_json hds ih hv hkw h,
      fun hv hkw hf h => callSer_json hS hds ho ih hv hkw hf h,
      fun hkw hf h => dumpWith_offset hds ih hkw hf h,
      fun h => by simp [recOf, callSer, timezoneSer] at h,
      fun h => by simp [recOf, callSer, timedeltaSer] at h; exact ⟨_, h.symm⟩⟩

end Verif.Core
