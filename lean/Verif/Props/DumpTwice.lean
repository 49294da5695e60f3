import Verif.Props.DumpCollections
import Verif.Props.DumpStyle
import Verif.Props.Stability
import Verif.Api.Functions

/-!
# Dumping twice

C113: what `dump` returns is a JSON value of which all dicts have different keys, and
`dump` leaves it as it is.
-/

set_option autoImplicit false

namespace Verif.Props.DumpTwice
open Verif Verif.Core Verif.Datetime Verif.Props.DumpCollections
open Verif.Props.Stability (dictSet_pairwise)

/-! ## Entries -/

/-- The entries of a dict that is a JSON value. -/
def Ents (es : List (Val × Val)) : Prop :=
  (∀ e ∈ es, Prim e.1 ∧ JsonVal e.2) ∧ es.Pairwise fun a b => pyEq a.1 b.1 = false

theorem Ents.nil : Ents [] := ⟨nofun, .nil⟩

theorem Ents.dict {es : List (Val × Val)} (h : Ents es) : JsonVal (.dict es) :=
  .dict (fun e he => (h.1 e he).1) h.2 fun e he => (h.1 e he).2

theorem entsOf {es : List (Val × Val)} (h : JsonVal (.dict es)) : Ents es := by
  cases h with
  | prim h => exact absurd h (by simp [Prim])
  | dict h1 h2 h3 => exact ⟨fun e he => ⟨h1 e he, h3 e he⟩, h2⟩

theorem Ents.set {es : List (Val × Val)} (h : Ents es) {k v : Val} (hk : Prim k)
    (hj : JsonVal v) : Ents (dictSet es k v) := by
  refine ⟨fun e he => ?_, dictSet_pairwise h.2⟩
  rcases dictSet_mem he with he | rfl | ⟨h2, e', he', h1⟩
  · exact h.1 e he
  · exact ⟨hk, hj⟩
  · rw [h2, ← h1]
    exact ⟨(h.1 e' he').1, hj⟩

theorem pair_ents {a b : PyStr} {v w : Val} (hab : a ≠ b) (hv : JsonVal v) (hw : JsonVal w) :
    Ents [(.str a, v), (.str b, w)] := by
  refine ⟨fun e he => ?_, ?_⟩
  · simp only [List.mem_cons, List.not_mem_nil, or_false] at he
    rcases he with rfl | rfl
    · exact ⟨trivial, hv⟩
    · exact ⟨trivial, hw⟩
  · simp [pyEq_str, hab]

theorem dictSet_of_get_none {es : List (Val × Val)} {k v : Val} (h : dictGet es k = none) :
    dictSet es k v = es ++ [(k, v)] := by
  induction es with
  | nil => rfl
  | cons e es ih =>
    obtain ⟨k', v'⟩ := e
    simp only [dictGet] at h
    split at h
    · cases h
    · next hne => simp [dictSet, hne, ih h]

/-! ## The `-meta` section -/

mutual
theorem fillVal_ents : ∀ (v : Val) (pre : PyStr) (coll : List (Val × Val)) (v' n : Val)
    (coll' : List (Val × Val)), JsonVal v → Ents coll →
    fillVal v pre coll = .ok (v', n, coll') → JsonVal v' ∧ JsonVal n ∧ Ents coll'
  | .dict es, pre, coll, v', n, coll', hv, hc, h => by
    rw [fillVal] at h
    cases hf : fillEntries es pre coll with
    | error e => rw [hf] at h; cases h
    | ok p =>
      obtain ⟨es', c'⟩ := p
      rw [hf] at h
      cases h
      have he := entsOf hv
      obtain ⟨h1, h2, _⟩ := fillEntries_ents es pre coll es' _ he hc hf
      refine ⟨h1.dict, ?_, h2⟩
      cases hg : dictGet es (.str clsKey) with
      | none => exact .prim trivial
      | some w =>
        obtain ⟨e, he', rfl, _⟩ := dictGet_mem hg
        exact (he.1 e he').2
  | .atom _, pre, coll, v', n, coll', hv, hc, h => by
    rw [fillVal] at h
    · cases h; exact ⟨hv, .prim trivial, hc⟩
    · intro es h; cases h
  | .seq _ _, pre, coll, v', n, coll', hv, hc, h => by
    rw [fillVal] at h
    · cases h; exact ⟨hv, .prim trivial, hc⟩
    · intro es h; cases h
  | .ddict _ _, pre, coll, v', n, coll', hv, hc, h => by
    rw [fillVal] at h
    · cases h; exact ⟨hv, .prim trivial, hc⟩
    · intro es h; cases h
  | .ntuple _ _, pre, coll, v', n, coll', hv, hc, h => by
    rw [fillVal] at h
    · cases h; exact ⟨hv, .prim trivial, hc⟩
    · intro es h; cases h
  | .enum _ _, pre, coll, v', n, coll', hv, hc, h => by
    rw [fillVal] at h
    · cases h; exact ⟨hv, .prim trivial, hc⟩
    · intro es h; cases h
  | .obj _ _, pre, coll, v', n, coll', hv, hc, h => by
    rw [fillVal] at h
    · cases h; exact ⟨hv, .prim trivial, hc⟩
    · intro es h; cases h
theorem fillEntries_ents : ∀ (es : List (Val × Val)) (pre : PyStr) (coll es' coll' : List (Val × Val)),
    Ents es → Ents coll → fillEntries es pre coll = .ok (es', coll') →
    Ents es' ∧ Ents coll' ∧ ∀ e ∈ es', ∃ e' ∈ es, e.1 = e'.1
  | [], pre, coll, es', coll', he, hc, h => by
    rw [fillEntries] at h; cases h; exact ⟨he, hc, nofun⟩
  | (k, v) :: es, pre, coll, es', coll', he, hc, h => by
    obtain ⟨hall, hp⟩ := he
    obtain ⟨hp1, hp2⟩ := List.pairwise_cons.1 hp
    have hes : Ents es := ⟨fun e h => hall e (List.mem_cons_of_mem _ h), hp2⟩
    have hkv := hall _ List.mem_cons_self
    have rest : ∀ c w, JsonVal w → Ents c →
        (do let (es', coll') ← fillEntries es pre c; Except.ok ((k, w) :: es', coll')) =
          .ok (es', coll') →
        Ents es' ∧ Ents coll' ∧ ∀ e ∈ es', ∃ e' ∈ (k, v) :: es, e.1 = e'.1 := by
      intro c w hw hc h
      cases hf : fillEntries es pre c with
      | error e => rw [hf] at h; cases h
      | ok p =>
        obtain ⟨es1, c1⟩ := p
        rw [hf] at h
        cases h
        obtain ⟨h1, h2, h3⟩ := fillEntries_ents es pre c es1 _ hes hc hf
        refine ⟨⟨?_, List.pairwise_cons.2 ⟨?_, h1.2⟩⟩, h2, ?_⟩
        · intro e h
          rcases List.mem_cons.1 h with rfl | h
          · exact ⟨hkv.1, hw⟩
          · exact h1.1 e h
        · intro e h
          obtain ⟨e', he', heq⟩ := h3 e h
          simpa [heq] using hp1 e' he'
        · intro e h
          rcases List.mem_cons.1 h with rfl | h
          · exact ⟨_, List.mem_cons_self, rfl⟩
          · obtain ⟨e', he', heq⟩ := h3 e h
            exact ⟨e', List.mem_cons_of_mem _ he', heq⟩
    rw [fillEntries.eq_def] at h
    simp only at h
    split at h
    · obtain ⟨h1, h2, h3⟩ := fillEntries_ents es pre coll es' coll' hes hc h
      refine ⟨h1, h2, fun e h => ?_⟩
      obtain ⟨e', he', heq⟩ := h3 e h
      exact ⟨e', List.mem_cons_of_mem _ he', heq⟩
    · split at h
      · split at h
        · exact rest coll _ hkv.2 hc h
        · split at h
          · rename_i ds _ a _ _
            cases hf : fillVal (.dict ds) (pre ++ a ++ ['/']) coll with
            | error e => rw [hf] at h; cases h
            | ok p =>
              obtain ⟨w, nm, c1⟩ := p
              rw [hf] at h
              obtain ⟨h1, h2, h3⟩ := fillVal_ents (.dict ds) _ coll w nm c1 hkv.2 hc hf
              exact rest _ _ h1 (h3.set (k := .str (pre ++ a)) trivial h2) h
          · cases h
      · exact rest coll _ hkv.2 hc h
end

theorem dictWithMeta_ents {E : Env} {es r : List (Val × Val)} {s : PyStr} {vb : Verbosity}
    (he : Ents es) (h : dictWithMeta E es s vb = .ok r) : Ents r := by
  unfold dictWithMeta at h
  split at h
  · cases h; exact he
  · have h0 : Ents (dictSet es (.str metaKey) (.dict [])) :=
      he.set (k := .str metaKey) trivial Ents.nil.dict
    have hm : Ents (if vb.dumpTime then [(Val.str "dump_time".toList, Val.str E.now)] else []) := by
      split
      · exact Ents.nil.set (k := .str "dump_time".toList) trivial (.prim trivial)
      · exact Ents.nil
    cases hc : vb.classInfo with
    | false =>
      simp only [hc] at h
      cases h
      exact h0.set (k := .str metaKey) trivial (Ents.dict (by
        simp only [List.nil_append]; exact hm))
    | true =>
      simp only [hc] at h
      cases hf : fillEntries (dictSet es (.str metaKey) (.dict [])) ['/'] [] with
      | error e => rw [hf] at h; cases h
      | ok p =>
        obtain ⟨es1, c1⟩ := p
        rw [hf] at h
        cases h
        obtain ⟨h1, h2, _⟩ := fillEntries_ents _ _ _ _ _ h0 Ents.nil hf
        have hcl := (h2.set (k := .str ['/']) (v := .str s) trivial (.prim trivial)).dict
        refine h1.set (k := .str metaKey) trivial (Ents.dict ?_)
        cases hd : vb.dumpTime with
        | false => simpa [dictSet] using Ents.nil.set (k := .str "classes".toList) trivial hcl
        | true =>
          exact pair_ents (a := "classes".toList) (b := "dump_time".toList)
            (by decide) hcl (.prim (v := .str E.now) trivial)

/-! ## The serializers -/

/-- What has to be known about the values that a dump reaches. -/
structure Once (E : Env) (S : Val → Prop) (kw : DumpKw) : Prop where
  intEnum : ∀ {c : Nat} {m : PyStr}, S (.enum c m) → (E.info c).kind ≠ .enum true
  fields : ∀ {c : Nat} {xs : List Val}, S (.ntuple c xs) → (E.info c).fields.Nodup
  complex : ∀ {v r : Val}, S v → (complexSer E v).val = .ok r → JsonVal r
  enum : ∀ {v r : Val}, S v → (enumSer E v kw).val = .ok r → JsonVal r

variable {E : Env} {S : Val → Prop} {kw0 : DumpKw}

/-- The recursive calls give JSON values. -/
structure RecTwice (E : Env) (S : Val → Prop) (kw0 : DumpKw) (rec : Rec) : Prop where
  dump : ∀ {v : Val} {cls : Option Ty} {kw : DumpKw} {r : Val}, S v → SameOpts kw kw0 →
    (rec.dump v cls kw).val = .ok r → JsonVal r
  call : ∀ {f : SerFn} {v : Val} {cls : Option Ty} {kw : DumpKw} {r : Val}, S v →
    SameOpts kw kw0 → (cls.getD (.cls v.cls)).serFn E.info = some f →
    (rec.call f v cls kw).val = .ok r → JsonVal r

theorem prim_of_leaf (ho : Once E S kw0) {v : Val} (hv : S v) (h : JsonLeaf E.info v) : Prim v := by
  cases v with
  | atom a => cases a <;> simp_all [JsonLeaf, Prim]
  | enum c m => exact absurd h (ho.intEnum hv)
  | _ => simp [JsonLeaf] at h

theorem prim_of_validKey (hS : Reach E S) (ho : Once E S kw0) {k : Val} (hk : S k)
    (h : isValidJsonKey E k = true) : Prim k := prim_of_leaf ho hk (leaf_of_validKey hS hk h)

theorem prim_of_json_validKey {k : Val} (hk : JsonVal k) (h : isValidJsonKey E k = true) :
    Prim k := by
  cases hk with
  | prim h => exact h
  | list _ => simp [isValidJsonKey, Val.cls, SeqKind.cls, Cls.sub] at h
  | dict _ _ _ => simp [isValidJsonKey, Val.cls, Cls.sub] at h

theorem prim_cast {v r : Val} {t : Ty} (h : E.cast v t = .ok r) : Prim r := by
  unfold Env.cast at h
  split at h
  · cases h; trivial
  · cases h; trivial
  · cases hi : E.intOf v <;> rw [hi] at h <;> simp [Except.map] at h
    subst h; trivial
  · cases hi : E.floatOf v <;> rw [hi] at h <;> simp [Except.map] at h
    subst h; trivial
  · cases h

theorem primitive_same {v r : Val} {cls : Option Ty} (h : (primitiveSer E v cls).val = .ok r) :
    r = v ∨ Prim r := by
  unfold primitiveSer at h
  simp only at h
  split at h
  · cases h; exact .inl rfl
  · split at h
    · cases h; exact .inl rfl
    · split at h
      · simp at h
      · cases h; exact .inl rfl
      · split at h
        · next hc => cases h; exact .inr (prim_cast hc)
        · split at h <;> simp at h

theorem primitive_prim (hS : Reach E S) (ho : Once E S kw0) {v r : Val} {cls : Option Ty} (hv : S v)
    (hf : (cls.getD (.cls v.cls)).serFn E.info = some .primitive)
    (h : (primitiveSer E v cls).val = .ok r) : Prim r := by
  rcases primitive_same h with rfl | hp
  · exact prim_of_leaf ho hv (primitive_json hS hv hf h)
  · exact hp

theorem toStr_prim {v r : Val} {b : Bool} {fork : Nat} {p : StrfPattern}
    (h : (toStr E v b fork p).val = .ok r) : Prim r := by
  unfold toStr at h
  split at h
  · split at h
    · simp only [Core.bind_ok] at h
      obtain ⟨_, _, _, _, h⟩ := h
      cases h; trivial
    · simp only [Core.bind_ok] at h
      obtain ⟨_, _, h⟩ := h
      cases h; trivial
  · cases h; trivial
  · cases h; trivial
  · simp at h

/-- The fields of a named tuple are different, so the keys of its dump are. -/
theorem fields_apart {g : PyStr × Val → Res Val} :
    ∀ {ns : List PyStr} {xs : List Val} {r : List (Val × Val)}, ns.Nodup →
      (mapRes (fun p => do let y ← g p; pure (Val.str p.1, y)) (ns.zip xs)).val = .ok r →
      r.Pairwise fun a b => pyEq a.1 b.1 = false := by
  intro ns
  induction ns with
  | nil => intro xs r _ h; simp [mapRes] at h; subst h; exact .nil
  | cons n ns ih =>
    intro xs r hn h
    obtain ⟨h1, h2⟩ := List.nodup_cons.1 hn
    cases xs with
    | nil => simp [mapRes] at h; subst h; exact .nil
    | cons x xs =>
      simp only [List.zip_cons_cons, mapRes, Core.bind_ok, pure_val, Except.ok.injEq] at h
      obtain ⟨e, ⟨y, _, rfl⟩, rs, h4, rfl⟩ := h
      refine List.pairwise_cons.2 ⟨fun e he => ?_, ih h2 h4⟩
      obtain ⟨p, hp, hq⟩ := mapRes_mem h4 he
      simp only [Core.bind_ok, pure_val, Except.ok.injEq] at hq
      obtain ⟨z, _, rfl⟩ := hq
      rw [pyEq_str]
      simp only [beq_eq_false_iff_ne]
      rintro rfl
      exact h1 (List.of_mem_zip hp).1

theorem addDumped_entries {kw : DumpKw} {es r : List (Val × Val)} {k d : Val} (hes : Ents es)
    (hk : Prim k) (hd : JsonVal d)
    (h : addDumped kw es k d = .ok r) : Ents r := by
  unfold addDumped at h
  split at h
  · cases h; exact hes
  · next hn =>
    cases hk' : transformKey kw.keyTransformer k with
    | error e => rw [hk'] at h; simp [Except.map] at h
    | ok k' =>
      rw [hk'] at h
      simp only [Except.map, Except.ok.injEq] at h
      subst h
      refine hes.set ?_ hd
      rcases transformKey_ok hk' with ⟨_, rfl⟩ | ⟨_, _, _, _, _, _, rfl⟩
      · exact hk
      · trivial

theorem dictLoop_entries (hS : Reach E S) (ho : Once E S kw0) {rec : Rec}
    (hr : RecTwice E S kw0 rec) {kw : DumpKw} (hkw : SameOpts kw kw0) :
    ∀ (es acc : List (Val × Val)) {r : List (Val × Val)},
      (∀ e ∈ es, S e.1 ∧ S e.2) →
      Ents acc → (dictLoop E rec kw es acc).val = .ok r → Ents r := by
  intro es
  induction es with
  | nil => intro acc r _ ha h; simp [dictLoop] at h; subst h; exact ha
  | cons e es ih =>
    obtain ⟨k, v⟩ := e
    intro acc r hs ha h
    simp only [dictLoop, Core.bind_ok] at h
    obtain ⟨⟨acc', k'⟩, h1, d, h2, acc'', h3, h4⟩ := h
    rw [lift_val] at h3
    have hkv := hs _ List.mem_cons_self
    have hd : JsonVal d := hr.dump (kw := { kw with types := [] }) hkv.2
      ⟨hkw.1, hkw.2, hkw.3, hkw.4, hkw.5, hkw.6⟩ h2
    have hka : Ents acc' ∧ Prim k' := by
      unfold storeAndHash at h1
      split at h1
      · next hv =>
        simp only [pure_val, Except.ok.injEq, Prod.mk.injEq] at h1
        obtain ⟨rfl, rfl⟩ := h1
        exact ⟨ha, prim_of_validKey hS ho hkv.1 hv⟩
      · next hv =>
        rw [Core.bind_ok] at h1
        obtain ⟨dk, hdk, h1⟩ := h1
        have hdkj := hr.dump hkv.1 hkw hdk
        split at h1
        · next hv' =>
          simp only [pure_val, Except.ok.injEq, Prod.mk.injEq] at h1
          obtain ⟨rfl, rfl⟩ := h1
          exact ⟨ha, prim_of_json_validKey (E := E) hdkj hv'⟩
        · next hv' =>
          have hnew : ∀ ks, Ents ks →
              Ents (dictSet ks (.int (E.hash k)) dk) :=
            fun ks hks => hks.set trivial hdkj
          simp only at h1
          split at h1
          · simp only [pure_val, Except.ok.injEq, Prod.mk.injEq] at h1
            obtain ⟨rfl, rfl⟩ := h1
            refine ⟨?_, trivial⟩
            rw [← dictSet_of_get_none (by assumption)]
            exact ha.set trivial (hnew [] Ents.nil).dict
          · next ks hg =>
            simp only [pure_val, Except.ok.injEq, Prod.mk.injEq] at h1
            obtain ⟨rfl, rfl⟩ := h1
            refine ⟨ha.set trivial (hnew ks ?_).dict, trivial⟩
            have : ∀ l : List (Val × Val), dictGet l (.str keysKey) = some (.dict ks) →
                ∃ e ∈ l, e.2 = .dict ks := by
              intro l
              induction l with
              | nil => intro h; cases h
              | cons p l ih =>
                intro h
                simp only [dictGet] at h
                split at h
                · exact ⟨p, List.mem_cons_self, Option.some.inj h⟩
                · obtain ⟨e, he, h⟩ := ih h
                  exact ⟨e, List.mem_cons_of_mem _ he, h⟩
            obtain ⟨e, he, h⟩ := this acc hg
            have := (ha.1 e he).2
            rw [h] at this
            exact entsOf this
          · simp at h1
    exact ih acc'' (fun e he => hs e (List.mem_cons_of_mem _ he))
      (addDumped_entries hka.1 hka.2 hd h3) h4

theorem unionLoop_json {rec : Rec} (hr : RecTwice E S kw0 rec) {kw : DumpKw}
    (hkw : SameOpts kw kw0) {v r : Val} (hv : S v) : ∀ (ts : List Ty),
    (unionLoop rec v kw ts).val = .ok r → JsonVal r := by
  intro ts
  induction ts with
  | nil => intro h; simp [unionLoop] at h
  | cons t ts ih =>
    intro h
    simp only [unionLoop, Core.bind_ok, attempt_val, Except.ok.injEq] at h
    obtain ⟨x, hx, h⟩ := h
    split at h
    · cases h; exact hr.dump hv hkw hx
    · split at h
      · exact ih h
      · simp at h

theorem storeClsInfo_json {d attr : Val} {b : Bool} (hd : JsonVal d) :
    JsonVal (storeClsInfo E b d attr) := by
  unfold storeClsInfo
  split
  · split
    · exact ((entsOf hd).set (k := .str _) trivial (.prim (v := .str _) trivial)).dict
    · exact hd
  · exact hd

theorem attrLoop_entries (hS : Reach E S) (hds : DefaultSers E kw0.fork)
    {rec : Rec} (hr : RecTwice E S kw0 rec) {kw : DumpKw}
    (hkw : SameOpts kw kw0) {v : Val} (hv : S v) (pub : Bool) (cn : PyStr) :
    ∀ (as : List (PyStr × Option Ty)) (acc : List (Val × Val)) {r : List (Val × Val)},
      Ents acc → (attrLoop E rec kw pub v cn as acc).val = .ok r →
      Ents r := by
  intro as
  induction as with
  | nil => intro acc r ha h; simp [attrLoop] at h; subst h; exact ha
  | cons p as ih =>
    obtain ⟨name, hint⟩ := p
    intro acc r ha h
    simp only [attrLoop, Core.bind_ok, lift_val, emit_val, attempt_val, Except.ok.injEq] at h
    obtain ⟨attr, h1, _, _, fn, h3, x, h4, h5⟩ := h
    rw [liftK_ok, hkw.fork, hds] at h3
    simp only [Except.ok.injEq] at h3
    cases x with
    | error e =>
      simp only at h5
      split at h5
      · simp at h5
      · split at h5
        · simp at h5
        · simp only [Core.bind_ok, warn_val, pure_val, Except.ok.injEq] at h5
          obtain ⟨_, _, rfl⟩ := h5
          exact ha
    | ok d =>
      simp only [Core.bind_ok, lift_val] at h5
      obtain ⟨acc', h5, h6⟩ := h5
      refine ih acc' (addDumped_entries ha (k := .str _) trivial ?_ h5) h6
      unfold dumpAttr at h4
      split at h4
      · simp at h4
      · next f =>
        simp only [Core.bind_ok, pure_val, Except.ok.injEq] at h4
        obtain ⟨d', h4, rfl⟩ := h4
        refine storeClsInfo_json (hr.call (hS.attr hv h1) hkw ?_ h4)
        rw [h3]

theorem objectSerWith_json (hS : Reach E S) (hds : DefaultSers E kw0.fork)
    {rec : Rec} (hr : RecTwice E S kw0 rec) {kw : DumpKw}
    (hkw : SameOpts kw kw0) {v : Val} (hv : S v) {strip : StripAttr} {t : Ty} {I : ClassInfo}
    {attributes : Except Err (List (PyStr × Option Ty))} {r : Val}
    (h : (objectSerWith E rec v kw strip t I attributes).val = .ok r) :
    JsonVal r := by
  unfold objectSerWith at h
  simp only [Core.bind_ok, lift_val] at h
  obtain ⟨as, _, es, h1, h2⟩ := h
  have he := attrLoop_entries hS hds hr
    (kw := { kw with stripAttr := strip, storeCls := kw.verbose.classInfo })
    ⟨hkw.1, hkw.2, hkw.3, hkw.4, hkw.5, fun h => by rw [← hkw.verbose]; exact h⟩ hv _ _ as []
    Ents.nil h1
  split at h2
  · cases h2; exact he.dict
  · simp only [Core.bind_ok, liftK_ok, pure_val, Except.ok.injEq] at h2
    obtain ⟨es', h2, rfl⟩ := h2
    exact (dictWithMeta_ents he h2).dict

theorem iterableSer_json (hS : Reach E S) {rec : Rec} (hr : RecTwice E S kw0 rec) {kw : DumpKw}
    (hkw : SameOpts kw kw0) {v r : Val} (hv : S v) {cls : Option Ty}
    (h : (iterableSer E rec v cls kw).val = .ok r) : JsonVal r := by
  unfold iterableSer at h
  simp only at h
  split at h
  · simp at h
  · next xs hxs =>
    simp only [Core.bind_ok, pure_val, Except.ok.injEq] at h
    obtain ⟨sub, _, ys, h, rfl⟩ := h
    refine .list fun y hy => ?_
    obtain ⟨p, hp, hy⟩ := mapRes_mem h hy
    exact hr.dump (kw := { kw with storeCls := false }) (hS.elem hv hxs (List.of_mem_zip hp).1)
      ⟨hkw.1, hkw.2, hkw.3, hkw.4, hkw.5, fun h => by cases h⟩ hy

theorem callSer_json (hS : Reach E S) (hds : DefaultSers E kw0.fork)
    (ho : Once E S kw0) {rec : Rec} (hr : RecTwice E S kw0 rec)
    {f : SerFn} {v : Val} {cls : Option Ty} {kw : DumpKw} {r : Val} (hv : S v)
    (hkw : SameOpts kw kw0) (hf : (cls.getD (.cls v.cls)).serFn E.info = some f)
    (h : (callSer E rec f v cls kw).val = .ok r) : JsonVal r := by
  cases f with
  | tuple =>
    simp only [callSer, tupleSer] at h
    split at h
    · next c xs =>
      unfold namedtupleSer at h
      simp only [Core.bind_ok, pure_val, Except.ok.injEq] at h
      obtain ⟨ys, h, rfl⟩ := h
      refine Ents.dict ⟨fun e he => ?_, fields_apart (ho.fields hv) h⟩
      obtain ⟨p, hp, he⟩ := mapRes_mem h he
      simp only [Core.bind_ok, pure_val, Except.ok.injEq] at he
      obtain ⟨y, hy, rfl⟩ := he
      have hp := List.of_mem_zip hp
      exact ⟨trivial, hr.dump (hS.elem hv rfl hp.2) hkw hy⟩
    · simp only [Core.bind_ok] at h
      obtain ⟨_, _, h⟩ := h
      exact iterableSer_json hS hr hkw hv h
  | complex => exact ho.complex hv h
  | datetime => exact .prim (toStr_prim h)
  | date => exact .prim (toStr_prim h)
  | time => exact .prim (toStr_prim h)
  | timezone =>
    simp only [callSer, timezoneSer] at h
    split at h
    · simp only [Core.bind_ok, pure_val, Except.ok.injEq] at h
      obtain ⟨o, h, rfl⟩ := h
      have hj := hr.dump (hS.offset hv) hkw h
      exact (pair_ents (by decide) (.prim (v := .str _) trivial) hj).dict
    · simp at h
  | timedelta =>
    simp only [callSer, timedeltaSer] at h
    split at h
    · cases h; exact .prim trivial
    · simp at h
  | primitive => exact .prim (primitive_prim hS ho hv hf h)
  | enum =>
    refine ho.enum hv (r := r) ?_
    simp only [callSer, enumSer] at h ⊢
    rw [hkw.enumName] at h
    exact h
  | dict =>
    simp only [callSer, dictSer] at h
    split at h
    · next es =>
      simp only [Core.bind_ok, pure_val, Except.ok.injEq] at h
      obtain ⟨es', h, rfl⟩ := h
      refine (dictLoop_entries hS ho hr hkw es [] ?_ Ents.nil h).dict
      exact fun e he => ⟨hS.elem hv rfl (List.mem_map_of_mem he), hS.value hv he⟩
    · next f es =>
      simp only [Core.bind_ok, pure_val, Except.ok.injEq] at h
      obtain ⟨es', h, rfl⟩ := h
      refine (dictLoop_entries hS ho hr hkw es [] ?_ Ents.nil h).dict
      exact fun e he => ⟨hS.elem hv rfl (List.mem_map_of_mem he), hS.valueD hv he⟩
    · split at h
      · cases h; exact Ents.nil.dict
      · simp at h
  | list =>
    simp only [callSer, listSer] at h
    split at h
    · cases h; exact .list fun x hx => by cases hx
    · have typed : ∀ (xs : List Val), v.iter = some xs → ∀ (t : Ty) {r : Val},
          (listSer.typed E rec kw xs t { kw with storeCls := false }).val = .ok r →
          JsonVal r := by
        intro xs hxs t r h
        unfold listSer.typed at h
        simp only [Core.bind_ok, liftK_ok, pure_val, Except.ok.injEq] at h
        obtain ⟨fn, hfn, ys, h, rfl⟩ := h
        rw [hkw.fork, hds] at hfn
        simp only [Except.ok.injEq] at hfn
        refine .list fun y hy => ?_
        obtain ⟨x, hx, hy⟩ := mapRes_mem h hy
        split at hy
        · next f =>
          refine hr.call (kw := { kw with storeCls := false }) (hS.elem hv hxs hx) ⟨hkw.1, hkw.2, hkw.3, hkw.4, hkw.5, fun h => by cases h⟩ ?_ hy
          rw [Option.getD_some, hfn]
        · simp at hy
      split at h
      · simp at h
      · next xs hxs =>
        split at h
        · exact typed xs hxs _ h
        · split at h
          · split at h <;> first
              | (simp at h; done)
              | exact typed _ hxs _ h
              | (cases h; exact .list fun x hx => by cases hx)
          · simp only [Core.bind_ok, pure_val, Except.ok.injEq] at h
            obtain ⟨ys, h, rfl⟩ := h
            refine .list fun y hy => ?_
            obtain ⟨x, hx, hy⟩ := mapRes_mem h hy
            exact hr.dump (kw := { kw with storeCls := false }) (hS.elem hv hxs hx)
              ⟨hkw.1, hkw.2, hkw.3, hkw.4, hkw.5, fun h => by cases h⟩ hy
  | iterable => exact iterableSer_json hS hr hkw hv h
  | object =>
    simp only [callSer, objectSer] at h
    split at h
    · split at h <;> exact objectSerWith_json hS hds hr hkw hv h
    · split at h
      · split at h <;> exact objectSerWith_json hS hds hr hkw hv h
      · split at h <;> exact objectSerWith_json hS hds hr hkw hv h
  | uuid => simp only [callSer, strSer] at h; cases h; exact .prim trivial
  | decimal => simp only [callSer, strSer] at h; cases h; exact .prim trivial
  | union =>
    simp only [callSer, unionSer] at h
    split at h
    · simp at h
    · split at h
      · next hn => cases h; rw [hn.1]; exact .prim trivial
      · exact unionLoop_json hr hkw hv _ h
  | path =>
    simp only [callSer, pathSer] at h
    split at h
    · cases h; exact .prim trivial
    · simp at h
  | zoneinfo =>
    simp only [callSer, zoneinfoSer] at h
    split at h
    · cases h
      exact (Ents.nil.set (k := .str "key".toList) trivial (.prim (v := .str _) trivial)).dict
    · simp at h
  | custom id =>
    exfalso
    revert hf
    generalize cls.getD (.cls v.cls) = t
    have hc : ∀ c : Cls, c.serFn E.info ≠ .custom id := by
      intro c; cases c <;> simp [Cls.serFn]
      split <;> simp
    intro hf
    cases t with
    | newtype n t => cases t <;> simp_all [Ty.serFn]
    | _ => simp_all [Ty.serFn]

theorem dumpWith_json (hds : DefaultSers E kw0.fork) {rec : Rec}
    (hr : RecTwice E S kw0 rec) {v : Val} {cls : Option Ty} {kw : DumpKw} {r : Val} (hv : S v)
    (hkw : SameOpts kw kw0) (h : (dumpWith E rec v cls kw).val = .ok r) :
    JsonVal r := by
  unfold dumpWith at h
  simp only [Core.bind_ok, emit_val, attempt_val, Except.ok.injEq] at h
  obtain ⟨fn, h1, _, _, x, h2, h3⟩ := h
  rw [liftK_ok, hkw.fork, hds] at h1
  simp only [Except.ok.injEq] at h1
  cases x with
  | error e => simp at h3
  | ok d =>
    cases h3
    split at h2
    · exact hr.call hv hkw h1 h2
    · simp at h2

/-- The calls of any depth give good results. -/
theorem recTwice (hS : Reach E S) (hds : DefaultSers E kw0.fork) (ho : Once E S kw0) (n : Nat) :
    RecTwice E S kw0 (recOf E n) := by
  induction n with
  | zero =>
    exact ⟨fun _ _ h => by simp [recOf] at h, fun _ _ _ h => by simp [recOf] at h⟩
  | succ n ih =>
    exact ⟨fun hv hkw h => dumpWith_json hds ih hv hkw h,
      fun hv hkw hf h => callSer_json hS hds ho ih hv hkw hf h⟩

/-! ## C113: dumping what was dumped -/

/-- C30, C113, `_partial`: what `dump` returns is a JSON value of which all dicts have
different keys, for any class, options (`verbose`, `strict`, `key_transformer`, ...) and
depth.  Missing: members of an `IntEnum` (see `dump_twice_fails_intEnum`), and values
that are taken over as they are and are not JSON (see `dump_twice_fails_enum`). -/
theorem dump_distinct_partial (E : Env) (n : Nat) (v : Val) (cls : Option Ty) (kw : DumpKw)
    (r : Val) (hds : DefaultSers E kw.fork) (hkind : ∀ w, Reachable E v w → RightKind E w)
    (hraw : DumpShape.RawOk E v kw.useEnumName JsonVal)
    (hint : ∀ c m, Reachable E v (.enum c m) → (E.info c).kind ≠ .enum true)
    (hfields : ∀ c xs, Reachable E v (.ntuple c xs) → (E.info c).fields.Nodup)
    (hst : kw.storeCls = false) (h : (dump E n v cls kw).val = .ok r) : JsonVal r := by
  have ho : Once E (Reachable E v) kw := {
    intEnum := fun h => hint _ _ h
    fields := fun h => hfields _ _ h
    complex := by
      intro u r hu h
      unfold complexSer at h
      simp only at h
      have mk : ∀ {re im : Val}, JsonVal re → JsonVal im →
          JsonVal (.dict [(.str "real".toList, re), (.str "imag".toList, im)]) :=
        fun h1 h2 => (pair_ents (by decide) h1 h2).dict
      split at h
      · cases h; exact mk (.prim trivial) (.prim trivial)
      · cases h; exact mk (.prim trivial) (.prim trivial)
      · cases h; exact mk (.prim trivial) (.prim trivial)
      · cases h; exact mk (.prim trivial) (.prim trivial)
      · simp only [Core.bind_ok, lift_val, pure_val, Except.ok.injEq] at h
        obtain ⟨re, h1, im, h2, rfl⟩ := h
        exact mk (hraw.complexAttr hu (.inl h1)) (hraw.complexAttr hu (.inr h2))
    enum := fun hv h => DumpShape.enumSer_raw hraw (fun _ => .prim trivial) hv h }
  exact (recTwice (reach_of_reachable hkind) hds ho n).dump .self
    ⟨rfl, rfl, rfl, rfl, rfl, fun h => by rw [hst] at h; cases h⟩ h

/-- C113, `_partial`: what `dump` has returned, whatever the class and the options were,
is dumped to itself from then on, if the stack is large enough.  Missing: as in
`dump_distinct_partial`. -/
theorem dump_twice_partial (E : Env) (n : Nat) (v : Val) (cls : Option Ty) (kw : DumpKw)
    (r : Val) (hds : DefaultSers E kw.fork) (hkind : ∀ w, Reachable E v w → RightKind E w)
    (hraw : DumpShape.RawOk E v kw.useEnumName JsonVal)
    (hint : ∀ c m, Reachable E v (.enum c m) → (E.info c).kind ≠ .enum true)
    (hfields : ∀ c xs, Reachable E v (.ntuple c xs) → (E.info c).fields.Nodup)
    (hst : kw.storeCls = false) (h : (dump E n v cls kw).val = .ok r) :
    ∃ N, ∀ m, N ≤ m → ∀ kw', Neutral kw.fork kw' → (dump E m r none kw').val = .ok r :=
  dump_json_id E kw.fork hds r (dump_distinct_partial E n v cls kw r hds hkind hraw hint hfields hst h)

/-- C113 for the text, `_partial`: `dumps` makes of what `dump` has returned the same text
as of the value itself.  Missing: as in `dump_distinct_partial`. -/
theorem dumps_dumped_partial (E : Env) (F : Api.FloatText) (n : Nat) (v : Val) (cls : Option Ty)
    (kw : DumpKw) (r : Val) (hds : DefaultSers E kw.fork)
    (hkind : ∀ w, Reachable E v w → RightKind E w)
    (hraw : DumpShape.RawOk E v kw.useEnumName JsonVal)
    (hint : ∀ c m, Reachable E v (.enum c m) → (E.info c).kind ≠ .enum true)
    (hfields : ∀ c xs, Reachable E v (.ntuple c xs) → (E.info c).fields.Nodup)
    (hst : kw.storeCls = false) (h : (dump E n v cls kw).val = .ok r) :
    ∃ N, ∀ m, N ≤ m → ∀ kw', Neutral kw.fork kw' →
      (Api.dumps E F m r none kw').val = (Api.dumps E F n v cls kw).val := by
  obtain ⟨N, hN⟩ := dump_twice_partial E n v cls kw r hds hkind hraw hint hfields hst h
  refine ⟨N, fun m hm kw' hkw => ?_⟩
  simp only [Api.dumps, bind_val, hN m hm kw' hkw, h]

/-! ## The style afterwards -/

open DumpStyle (renameKey restyle restyleEntries Renames RenamesKey Styleable)

/-- A JSON value of which the keys can be renamed and stay apart. -/
inductive Renamable (kt : Option (PyStr → Except Err PyStr)) (f : PyStr → PyStr) : Val → Prop
  | prim {v : Val} : Prim v → Renamable kt f v
  | list {xs : List Val} : (∀ x ∈ xs, Renamable kt f x) → Renamable kt f (.list xs)
  | dict {es : List (Val × Val)} : (∀ e ∈ es, Prim e.1 ∧ RenamesKey kt f e.1) →
      es.Pairwise (fun a b => pyEq (renameKey f a.1) (renameKey f b.1) = false) →
      (∀ e ∈ es, Renamable kt f e.2) → Renamable kt f (.dict es)

/-- The two options; not strict. -/
structure Style (fork : Nat) (sn : Bool) (kt : Option (PyStr → Except Err PyStr)) (kw : DumpKw) :
    Prop where
  fork : kw.fork = fork
  strict : kw.strict = false
  kt : kw.keyTransformer = kt
  nulls : kw.stripNulls = sn
  types : kw.types = []

theorem restyle_none {sn : Bool} {f : PyStr → PyStr} {v : Val} :
    (restyle sn f v == Val.none) = (v == Val.none) := by
  cases v with
  | atom a => rfl
  | seq k xs => cases k <;> rfl
  | _ => rfl

theorem transformKey_renames {kt : Option (PyStr → Except Err PyStr)} {f : PyStr → PyStr} {k : Val}
    (h : RenamesKey kt f k) : transformKey kt k = .ok (renameKey f k) := by
  cases kt with
  | none =>
    cases k with
    | atom a =>
      cases a with
      | str s =>
        have h : f s = s := h
        simp [transformKey, renameKey, h]
      | _ => rfl
    | _ => rfl
  | some g =>
    cases k with
    | atom a =>
      cases a with
      | str s =>
        have h : g s = .ok (f s) := h
        simp only [transformKey, h, renameKey]
        rfl
      | _ => cases (show some g = none from h)
    | _ => cases (show some g = none from h)

theorem dictLoop_restyle {E : Env} {fork : Nat} {sn : Bool}
    {kt : Option (PyStr → Except Err PyStr)} {f : PyStr → PyStr} {rec : Rec} {kw : DumpKw}
    (hkw : Style fork sn kt kw) :
    ∀ (es acc : List (Val × Val)),
      (∀ e ∈ es, Prim e.1 ∧ RenamesKey kt f e.1) →
      (∀ e ∈ es, (rec.dump e.2 none { kw with types := [] }).val = .ok (restyle sn f e.2)) →
      es.Pairwise (fun a b => pyEq (renameKey f a.1) (renameKey f b.1) = false) →
      (∀ a ∈ acc, ∀ b ∈ es, pyEq a.1 (renameKey f b.1) = false) →
      (dictLoop E rec kw es acc).val = .ok (acc ++ restyleEntries sn f es) := by
  intro es
  induction es with
  | nil => intro acc _ _ _ _; simp [dictLoop, restyleEntries]
  | cons e es ih =>
    obtain ⟨k, v⟩ := e
    intro acc h1 h1' h2 h3
    have hk := h1 _ List.mem_cons_self
    have hvalid : isValidJsonKey E k = true := by
      have := hk.1
      cases k with
      | atom a => cases a <;> simp_all [Prim, isValidJsonKey, Val.cls, Atom.cls, Cls.sub]
      | _ => simp [Prim] at this
    have hd := h1' _ List.mem_cons_self
    have hns : ∀ s : PyStr, assoc kw.types s = none := by intro s; rw [hkw.types]; rfl
    have hcls : (dictLoop E rec kw ((k, v) :: es) acc) = (do
        let (result, key) ← storeAndHash E rec acc k kw
        let dumped ← rec.dump v none { kw with types := [] }
        let result ← Res.lift (addDumped kw result key dumped)
        dictLoop E rec kw es result) := by
      simp only [dictLoop]
      split
      · simp only [hns]
      · rfl
    rw [hcls]
    simp only [storeAndHash, hvalid, if_true, pure_bind']
    rw [bind_val, hd]
    simp only
    have ih' := fun acc' h => ih acc' (fun e he => h1 e (List.mem_cons_of_mem _ he))
      (fun e he => h1' e (List.mem_cons_of_mem _ he)) (List.Pairwise.of_cons h2) h
    by_cases hn : (sn && v == .none) = true
    · have hadd : addDumped kw acc k (restyle sn f v) = .ok acc := by
        simp only [addDumped, hkw.nulls, restyle_none, hn, if_true]
      rw [hadd, bind_val, lift_val]
      simp only
      rw [ih' acc fun a ha b hb => h3 a ha b (List.mem_cons_of_mem _ hb)]
      simp only [restyleEntries, hn, if_true]
    · have hadd : addDumped kw acc k (restyle sn f v) =
          .ok (acc ++ [(renameKey f k, restyle sn f v)]) := by
        simp only [addDumped, hkw.nulls, restyle_none, hn, hkw.kt, transformKey_renames hk.2,
          Except.map]
        rw [dictSet_new (fun a ha => h3 a ha _ List.mem_cons_self)]
        rfl
      rw [hadd, bind_val, lift_val]
      simp only
      rw [ih' _ ?_]
      · simp only [restyleEntries, hn, List.append_assoc]
        rfl
      · intro a ha b hb
        rcases List.mem_append.1 ha with ha | ha
        · exact h3 a ha b (List.mem_cons_of_mem _ hb)
        · rw [List.mem_singleton] at ha
          subst ha
          exact (List.pairwise_cons.1 h2).1 b hb

/-- A JSON value is dumped to itself in the other style, whatever its size. -/
theorem dump_json_restyle (E : Env) (fork : Nat) (sn : Bool)
    (kt : Option (PyStr → Except Err PyStr)) (f : PyStr → PyStr) (hds : DefaultSers E fork)
    (v : Val) (hv : Renamable kt f v) :
    ∃ N, ∀ n, N ≤ n → ∀ kw, Style fork sn kt kw →
      (dump E n v none kw).val = .ok (restyle sn f v) := by
  induction hv with
  | @prim v h =>
    refine ⟨2, fun n hn kw hkw => ?_⟩
    obtain ⟨n, rfl⟩ : ∃ m, n = m + 2 := ⟨n - 2, by omega⟩
    rw [dump_ok_iff (by rw [hkw.fork]; exact hds)]
    refine ⟨.primitive, ?_, ?_⟩
    · cases v with
      | atom a => cases a <;> simp_all [Prim, Ty.serFn, Cls.serFn, Val.cls, Atom.cls]
      | _ => simp [Prim] at h
    · cases v with
      | atom a => rfl
      | _ => simp [Prim] at h
  | @list xs _ ih =>
    obtain ⟨N, hN⟩ := common_bound xs ih
    refine ⟨N + 2, fun n hn kw hkw => ?_⟩
    obtain ⟨n, rfl⟩ : ∃ m, n = m + 2 := ⟨n - 2, by omega⟩
    rw [dump_ok_iff (by rw [hkw.fork]; exact hds)]
    refine ⟨.list, rfl, ?_⟩
    rw [recOf_call]
    simp only [callSer, listSer, Val.falsy, Val.iter]
    cases xs with
    | nil => rfl
    | cons x xs =>
      simp only [List.isEmpty_cons, Bool.false_eq_true, if_false, Option.map_none,
        Option.getD_none, hkw.strict]
      rw [Core.bind_ok]
      refine ⟨(x :: xs).map (restyle sn f), ?_, by
        rw [← DumpStyle.restyleList_eq]; rfl⟩
      exact mapRes_total (f := fun x => (recOf E n).dump x none
        { kw with storeCls := false, strict := false }) (g := restyle sn f) (xs := x :: xs)
        fun y hy => hN y hy n (by omega) _ ⟨hkw.1, rfl, hkw.3, hkw.4, hkw.5⟩
  | @dict es h1 h2 _ ih =>
    obtain ⟨N, hN⟩ := common_bound es ih
    refine ⟨N + 2, fun n hn kw hkw => ?_⟩
    obtain ⟨n, rfl⟩ : ∃ m, n = m + 2 := ⟨n - 2, by omega⟩
    rw [dump_ok_iff (by rw [hkw.fork]; exact hds)]
    refine ⟨.dict, rfl, ?_⟩
    rw [recOf_call]
    simp only [callSer, dictSer, Core.bind_ok, pure_val, Except.ok.injEq]
    refine ⟨restyleEntries sn f es, ?_, rfl⟩
    have := dictLoop_restyle (E := E) (rec := recOf E n) hkw es [] h1
      (fun e he => hN e he n (by omega) _ ⟨hkw.1, hkw.2, hkw.3, hkw.4, rfl⟩) h2
      (fun a ha => by cases ha)
    simpa using this

/-- C113 for the style, `_partial`: dumping first and asking for `strip_nulls` and
`key_transformer` in a second dump gives what one dump with these options gives.
Missing: values that are not `Styleable` (see C83), results with keys that the
transformer refuses or makes equal. -/
theorem style_afterwards_partial (E : Env) (n : Nat) (v : Val) (cls : Option Ty) (kw : DumpKw)
    (sn : Bool) (kt : Option (PyStr → Except Err PyStr)) (f : PyStr → PyStr) (r : Val)
    (hds : DefaultSers E kw.fork) (hv : Styleable E v kw sn kt f)
    (hn : kw.stripNulls = false) (hk : kw.keyTransformer = none) (hvb : kw.verbose = {})
    (hst : kw.storeCls = false) (h : (dump E n v cls kw).val = .ok r) (hr : Renamable kt f r) :
    ∃ N, ∀ m, N ≤ m → ∀ kw', Style kw.fork sn kt kw' →
      (dump E m r none kw').val =
        (dump E n v cls { kw with stripNulls := sn, keyTransformer := kt }).val := by
  obtain ⟨N, hN⟩ := dump_json_restyle E kw.fork sn kt f hds r hr
  refine ⟨N, fun m hm kw' hkw => ?_⟩
  rw [hN m hm kw' hkw, DumpStyle.dump_style_partial E n v cls kw sn kt f hds hv hn hk hvb hst]
  simp only [DumpStyle.after, h, Except.map]

/-! ## Where it is false -/

/-- C113 is false for members of an `IntEnum`: `dump(Level.LOW, int)` is `Level.LOW`
itself, and that is dumped as `'LOW'`. -/
theorem dump_twice_fails_intEnum :
    (dump (demoEnv demoInfo) 9 (.enum 3 "LOW".toList) (some (.cls .int)) {}).val =
      .ok (.enum 3 "LOW".toList) ∧
    (dump (demoEnv demoInfo) 9 (.enum 3 "LOW".toList) none {}).val = .ok (.str "LOW".toList) :=
  ⟨rfl, rfl⟩

/-- C113 is false for the values of enum members that are not JSON: with
`use_enum_name=False`, `Color.GREEN` gives a set, and that is dumped as a list. -/
theorem dump_twice_fails_enum :
    (dump (demoEnv demoInfo) 9 (.enum 2 "GREEN".toList) none { useEnumName := false }).val =
      .ok (.set [.int 2]) ∧
    (dump (demoEnv demoInfo) 9 (.set [.int 2]) none {}).val = .ok (.list [.int 2]) := ⟨rfl, rfl⟩

/-- C113 is false for the style of named tuples: `dump(Pair(1, None), strip_nulls=True)`
keeps the `None`, the second dump leaves it out. -/
theorem style_afterwards_fails_namedtuple :
    (dump (demoEnv demoInfo) 9 (.ntuple 1 [.int 1, .none]) none {}).val =
      .ok (.dict [(.str "first".toList, .int 1), (.str "second".toList, .none)]) ∧
    (dump (demoEnv demoInfo) 9 (.dict [(.str "first".toList, .int 1), (.str "second".toList, .none)])
      none { stripNulls := true }).val = .ok (.dict [(.str "first".toList, .int 1)]) ∧
    (dump (demoEnv demoInfo) 9 (.ntuple 1 [.int 1, .none]) none { stripNulls := true }).val =
      .ok (.dict [(.str "first".toList, .int 1), (.str "second".toList, .none)]) := by
  decide +kernel

/-! ## Examples -/

theorem recordData_json : JsonVal DumpStyle.recordData := by
  refine (pair_ents (a := "first_name".toList) (b := "nick_name".toList) (by decide)
    (.prim (v := .str ['A']) trivial) (.prim (v := .none) trivial)).dict

theorem record_raw (b : Bool) : DumpShape.RawOk (demoEnv demoInfo) DumpStyle.record b JsonVal := by
  have hj : ∀ {u w : Val} {m : PyStr}, Reachable (demoEnv demoInfo) DumpStyle.record u →
      (demoEnv demoInfo).getAttr u m = .ok w → JsonVal w := by
    intro u w m hu h
    rcases DumpStyle.recordPart_attr (DumpStyle.record_mem hu) h with rfl | rfl
    · exact recordData_json
    · exact .prim trivial
  refine ⟨fun _ h _ => ?_, fun hu _ h => hj hu h, fun hu h => h.elim (hj hu) (hj hu)⟩
  rcases DumpStyle.record_mem h with h | h | h | ⟨s, h⟩ <;>
    simp [DumpStyle.record, DumpStyle.recordData] at h

/-- The record, dumped with any class, options and size of the stack, is dumped to itself
from then on. -/
example (n : Nat) (cls : Option Ty) (kw : DumpKw) (r : Val) (hst : kw.storeCls = false)
    (h : (dump (demoEnv demoInfo) n DumpStyle.record cls kw).val = .ok r) :
    ∃ N, ∀ m, N ≤ m → ∀ kw', Neutral kw.fork kw' →
      (dump (demoEnv demoInfo) m r none kw').val = .ok r := by
  refine dump_twice_partial _ n DumpStyle.record cls kw r (demo_sers _) ?_ (record_raw _) ?_ ?_ hst h
  · intro w hw
    rcases DumpStyle.record_mem hw with rfl | rfl | rfl | ⟨s, rfl⟩ <;> trivial
  · intro c m h
    rcases DumpStyle.record_mem h with h | h | h | ⟨s, h⟩ <;>
      simp [DumpStyle.record, DumpStyle.recordData] at h
  · intro c m h
    rcases DumpStyle.record_mem h with h | h | h | ⟨s, h⟩ <;>
      simp [DumpStyle.record, DumpStyle.recordData] at h

/-- For example with `verbose`: the second dump adds no second `-meta`. -/
example : (dump (demoEnv demoInfo) 9 DumpStyle.record none { verbose := ⟨true, true⟩ }).val ≠
      (dump (demoEnv demoInfo) 9 DumpStyle.record none {}).val ∧
    ((dump (demoEnv demoInfo) 9 DumpStyle.record none { verbose := ⟨true, true⟩ }).bind fun r =>
      dump (demoEnv demoInfo) 9 r none { verbose := ⟨true, true⟩ }).val =
    (dump (demoEnv demoInfo) 9 DumpStyle.record none { verbose := ⟨true, true⟩ }).val := by
  decide +kernel

/-- The record, dumped as it is and then without the `None`s and in camel case. -/
example : ∃ N, ∀ m, N ≤ m →
    (dump (demoEnv demoInfo) m (.dict [(.str "born".toList, .none),
        (.str "data".toList, DumpStyle.recordData)]) none
      { stripNulls := true, keyTransformer := some DumpStyle.camel }).val =
    (dump (demoEnv demoInfo) 9 DumpStyle.record none
      { stripNulls := true, keyTransformer := some DumpStyle.camel }).val := by
  have hd : Renamable (some DumpStyle.camel) DumpStyle.camelName DumpStyle.recordData := by
    refine .dict ?_ (by decide +kernel) ?_
    · intro e he
      simp only [List.mem_cons, List.not_mem_nil, or_false] at he
      rcases he with rfl | rfl <;> exact ⟨trivial, rfl⟩
    · intro e he
      simp only [List.mem_cons, List.not_mem_nil, or_false] at he
      rcases he with rfl | rfl <;> exact .prim trivial
  obtain ⟨N, hN⟩ := style_afterwards_partial (demoEnv demoInfo) 9 DumpStyle.record none {} true
    (some DumpStyle.camel) DumpStyle.camelName (.dict [(.str "born".toList, .none),
      (.str "data".toList, DumpStyle.recordData)]) (demo_sers 0) DumpStyle.record_styleable rfl rfl
    rfl rfl (by rfl) (by
      refine .dict ?_ (by decide +kernel) ?_
      · intro e he
        simp only [List.mem_cons, List.not_mem_nil, or_false] at he
        rcases he with rfl | rfl <;> exact ⟨trivial, rfl⟩
      · intro e he
        simp only [List.mem_cons, List.not_mem_nil, or_false] at he
        rcases he with rfl | rfl
        · exact .prim trivial
        · exact hd)
  exact ⟨N, fun m hm => hN m hm _ ⟨rfl, rfl, rfl, rfl, rfl⟩⟩

end Verif.Props.DumpTwice
