import Verif.Props.VerboseCollections

/-!
# C60: objects that have lists of objects as attributes
-/

set_option autoImplicit false

namespace Verif.Props.VerboseLists
open Verif Verif.Core
open Verif.Props.LoadBasics Verif.Props.LoadCollections Verif.Props.LoadObject
open Verif.Props.DumpObject (Selected stripNames hintOf attrKw selected_list normalize_names)
open Verif.Props.DumpVerbose Verif.Props.RoundTrip Verif.Props.VerboseRoundTrip

/-! ## Specification -/

/-- How a list of objects may be hinted: not at all, or as a list of a class that the
objects need not be of, for instance an abstract base class. -/
def ListHint (E : LEnv) (h : Option Ty) : Prop :=
  h = none ∨ ∃ t : Ty, t.serFn E.info = some .object ∧ h = some (.gen .list [t])

/-- The same for the hint of the constructor. -/
def ListArg (h : Option Ty) : Prop :=
  h = none ∨ ∃ t : Ty, t ≠ .any ∧ t ≠ .cls .dict ∧ h = some (.gen .list [t])

/-- An object whose attributes are leaves or lists of such objects, at most `d` levels
deep: a league of teams of players. -/
def Roster (E : LEnv) (fork : Nat) (kw : DumpKw) (N : Nat) : Nat → Val → Prop
  | 0, _ => False
  | d + 1, v => ∃ c as, v = .obj c as ∧ Keeps E c ∧
      E.className true (.cls (.user c)) ≠ [] ∧
      E.clsFromStr fork (E.className true (.cls (.user c))) = .ok (.cls (.user c)) ∧
      as.map (·.1) = (E.info c).params.map (·.name) ∧
      ∀ a ∈ as, '/' ∉ a.1 ∧ a.1 ≠ [] ∧ a.1 ≠ clsKey ∧
        (LeafBack E fork kw N a.2 (hintOf (E.info c) kw.strict a.1) (assoc (E.info c).initHints a.1) ∨
          ListHint E (hintOf (E.info c) kw.strict a.1) ∧ ListArg (assoc (E.info c).initHints a.1) ∧
          ∃ xs, a.2 = .list xs ∧ ∀ x ∈ xs, Roster E fork kw N d x)

/-! ## Proof -/

/-- The class names in force have nothing but the name of the outermost object. -/
def OnlyRoot (kw : LoadKw) : Prop := ∀ H, kw.metaHints = some H → ∀ e ∈ H, e.1 = .str ['/']

/-- The class of an element: that of the hint, if it may be overruled. -/
def Overruled (cls : Option Ty) (kw : LoadKw) : Prop :=
  cls = none ∨ ∃ t : Ty, cls = some t ∧ t ≠ .any ∧ t ≠ .cls .dict ∧ kw.inferred = true

section
variable {E : LEnv} {fork N : Nat} {kw : DumpKw}

/-- What is known of a dumped object. -/
structure ObjBack (E : LEnv) (fork : Nat) (kw : DumpKw) (B : Nat) (v j r : Val) : Prop where
  same : Same v r
  dump : ∀ k0 : DumpKw, DumpNeutral fork { k0 with verbose := {} } → k0.storeCls = false →
    innerKw k0 [] = innerKw kw [] → ∀ n, B ≤ n → (dump E.toEnv (n + 2) v none k0).val = .ok j
  load : ∀ (kw' : LoadKw) (cls : Option Ty), Neutral fork kw' → OnlyRoot kw' → Overruled cls kw' →
    ∀ n, B ≤ n → (load E (n + 1) j cls kw').val = .ok r

/-- What is known of an attribute. -/
structure PartBack (E : LEnv) (fork : Nat) (kw : DumpKw) (B : Nat) (a : Val) (hint ihint : Option Ty)
    (j r : Val) : Prop where
  same : Same a r
  noDict : ∀ es, j ≠ .dict es
  dump : ∀ n, B ≤ n → (dump E.toEnv (n + 1) a hint (innerKw kw [])).val = .ok j
  load : ∀ kw' : LoadKw, Neutral fork kw' → OnlyRoot kw' → ∀ n, B ≤ n →
    (load E n j ihint kw').val = .ok r

theorem forall₂_imp_mem {α β : Type} {R S : α → β → Prop} {xs : List α} {ys : List β}
    (h : List.Forall₂ R xs ys) : (∀ x ∈ xs, ∀ y, R x y → S x y) → List.Forall₂ S xs ys := by
  induction h with
  | nil => intro _; exact .nil
  | cons h1 _ ih =>
    intro h
    exact .cons (h _ List.mem_cons_self _ h1) (ih fun x hx => h x (List.mem_cons_of_mem _ hx))

theorem objBacks {B : Nat} : ∀ (xs : List Val), (∀ x ∈ xs, ∃ j r, ObjBack E fork kw B x j r) →
    ∃ js rs, List.Forall₂ (fun x j => ∃ r, ObjBack E fork kw B x j r) xs js ∧
      List.Forall₂ (fun j r => ∃ x, ObjBack E fork kw B x j r) js rs ∧
      List.Forall₂ (fun x r => Same x r) xs rs := by
  intro xs
  induction xs with
  | nil => intro _; exact ⟨[], [], .nil, .nil, .nil⟩
  | cons x xs ih =>
    intro h
    obtain ⟨j, r, h1⟩ := h x List.mem_cons_self
    obtain ⟨js, rs, h3, h4, h5⟩ := ih fun y hy => h y (List.mem_cons_of_mem _ hy)
    exact ⟨j :: js, r :: rs, .cons ⟨r, h1⟩ h3, .cons ⟨x, h1⟩ h4, .cons h1.same h5⟩

/-- A list of objects as an attribute. -/
theorem list_part (hs : DefaultSers E.toEnv fork) (hd : DefaultDesers E fork)
    (hv : NoValidators E fork) (hk : DumpNeutral fork { kw with verbose := {} })
    {B : Nat} {xs : List Val} {hint ihint : Option Ty}
    (hh : ListHint E hint) (hi : ListArg ihint)
    (hobj : ∀ x ∈ xs, (Ty.cls x.cls).serFn E.info = some .object)
    (h : ∀ x ∈ xs, ∃ j r, ObjBack E fork kw B x j r) :
    ∃ j r, PartBack E fork kw (B + 3) (.list xs) hint ihint j r := by
  obtain ⟨js, rs, h1, h2, h3⟩ := objBacks xs h
  have hkf : kw.fork = fork := hk.fork
  have hk1 : DumpNeutral fork { ({ innerKw kw [] with storeCls := false } : DumpKw) with verbose := {} } :=
    ⟨hk.fork, hk.strict, hk.keys, hk.nulls, hk.privates, hk.classVars, rfl, rfl, hk.enums, hk.micros, hk.types⟩
  refine ⟨.list js, .list rs, .seq h3, nofun, ?_, ?_⟩
  · intro n hn
    obtain ⟨n, rfl⟩ : ∃ k, n = k + 3 := ⟨n - 3, by omega⟩
    have hel : List.Forall₂ (fun x j => (dump E.toEnv (n + 2) x none
        { innerKw kw [] with storeCls := false }).val = .ok j) xs js :=
      h1.imp fun x j ⟨r, hx⟩ => hx.dump _ hk1 rfl rfl n (by omega)
    rcases hh with rfl | ⟨t, ht, rfl⟩
    · exact dump_list_none hs (kw := innerKw kw []) hkf hk.strict hel
    · rw [dump_via (f := .list) (by rw [show (innerKw kw []).fork = fork from hkf]; exact hs) rfl]
      show (listSer _ _ _ _ _).val = _
      unfold listSer
      by_cases hx : xs = []
      · subst hx
        cases hel
        rfl
      · rw [if_neg (by simpa [Val.falsy] using hx)]
        show (listSer.typed E.toEnv (recOf E.toEnv (n + 2)) (innerKw kw []) xs t
          { innerKw kw [] with storeCls := false }).val = _
        unfold listSer.typed
        have hg : E.getSer (innerKw kw []).fork t = .ok (some .object) := by
          rw [show (innerKw kw []).fork = fork from hkf, hs, ht]
        rw [hg, liftK_of_ok, pure_bind', Core.bind_ok]
        refine ⟨js, mapRes_ok.2 (forall₂_imp_mem h1 ?_), rfl⟩
        rintro y hy j ⟨r, hb⟩
        have hz := hb.dump _ hk1 rfl rfl (n + 1) (by omega)
        rw [dump_via (f := .object) (kw := { innerKw kw [] with storeCls := false })
          (by rw [show ({ innerKw kw [] with storeCls := false } : DumpKw).fork = fork from hkf]; exact hs)
          (hobj y hy)] at hz
        have hst : kw.strict = false := hk.strict
        show (objectSer E.toEnv (recOf E.toEnv (n + 1)) y (some t) _).val = _
        have hz' : (objectSer E.toEnv (recOf E.toEnv (n + 1)) y none
          { innerKw kw [] with storeCls := false }).val = .ok j := hz
        rw [← hz']
        simp only [objectSer, hst, Bool.false_eq_true, if_false]
  · intro kw' hk' hr n hn
    obtain ⟨n, rfl⟩ : ∃ k, n = k + 2 := ⟨n - 2, by omega⟩
    have hfork : kw'.fork = fork := hk'.fork
    have hw : kw'.warnOnFail = false := hk'.warn
    have hd' : DefaultDesers E kw'.fork := by rw [hfork]; exact hd
    have hv' : NoValidators E kw'.fork := by rw [hfork]; exact hv
    have hroot : ∀ k1 : LoadKw, k1.metaHints = some (kw'.metaHints.getD []) → OnlyRoot k1 := by
      intro k1 hk1 H hH e he
      rw [hk1] at hH
      cases hH
      cases hm : kw'.metaHints with
      | none => rw [hm] at he; cases he
      | some H => rw [hm] at he; exact hr H hm e he
    rcases hi with rfl | ⟨t, ht1, ht2, rfl⟩
    · rw [(load_via_free (v := .list js) (f := .list) (by simp [Val.cls, SeqKind.cls, validTypes]) rfl
        hd' rfl (hv' _)).1, wrapRes_ok]
      show (do let ys ← listDes E (load E (n + 1)) (.list js) [] (kwFree kw'); pure (Val.list ys)).val = _
      have hl : (listDes E (load E (n + 1)) (.list js) [] (kwFree kw')).val = .ok rs := by
        show (listLoop E (load E (n + 1)) none kw'.warnOnFail _ 0 js).val = _
        rw [hw]
        refine (listLoop_ok _ _ _).2 (h2.imp fun j r ⟨x, hx⟩ => ?_)
        refine hx.load _ _ ?_ (hroot _ ?_) (.inl rfl) n (by omega)
        · exact ⟨hk'.fork, hk'.getters, hk'.keys, rfl, rfl, hk'.enums⟩
        · rfl
      rw [bind_val, hl]
      rfl
    · rw [(list_step hd' hv' (v := .list js) (by simp [Val.cls, SeqKind.cls, validTypes])
        (noMeta_of_not_dict (by simp [Val.cls, SeqKind.cls])) rfl).1, wrapRes_ok, bind_val, hw,
        (listLoop_ok _ _ _).2 (h2.imp fun j r ⟨x, hx⟩ => ?_)]
      · rfl
      · refine hx.load _ _ ?_ (hroot _ ?_) (.inr ⟨t, rfl, ht1, ht2, ?_⟩) n (by omega)
        · exact ⟨hk'.fork, hk'.getters, hk'.keys, rfl, rfl, hk'.enums⟩
        · rfl
        · rfl
/-- A leaf as an attribute. -/
theorem leaf_part {a : Val} {hint ihint : Option Ty} (h : LeafBack E fork kw N a hint ihint) :
    ∃ j r, PartBack E fork kw N a hint ihint j r := by
  obtain ⟨j, r, h1, h2, h3, h4⟩ := h.back
  exact ⟨j, r, h2, h1, fun n hn => (h3 n hn).2, fun kw' hk' _ n hn => h4 n hn kw' hk'⟩

theorem PartBack.mono {a : Val} {hint ihint : Option Ty} {j r : Val} {B B' : Nat} (hB : B ≤ B')
    (h : PartBack E fork kw B a hint ihint j r) : PartBack E fork kw B' a hint ihint j r :=
  ⟨h.same, h.noDict, fun n hn => h.dump n (by omega), fun kw' h1 h2 n hn => h.load kw' h1 h2 n (by omega)⟩

/-- Nothing is listed but the object itself, if no attribute is dumped to a dict. -/
theorem fill_flat {es : List (Val × Val)} (hn : NiceEntries es) (h : ∀ e ∈ es, ∀ ds, e.2 ≠ .dict ds)
    (hm : ∀ e ∈ es, e.1 ≠ .str metaKey) (hc : ∀ e ∈ es, e.1 ≠ .str clsKey) :
    fillEntries (dictSet es (.str metaKey) (.dict [])) ['/'] [] =
      .ok (es ++ [(.str metaKey, .dict [])], []) := by
  rw [dictSet_absent hm]
  obtain ⟨coll, hf, hF⟩ := fillEntries_spec (es ++ [(.str metaKey, .dict [])]) ['/'] []
    (nice_append (v := .dict []) hn (by decide) hm trivial)
  have hu : unmarkEntries es = es := by
    clear hn hf hF
    induction es with
    | nil => rfl
    | cons e es ih =>
      obtain ⟨k, w⟩ := e
      have h1 := hc _ List.mem_cons_self
      have h2 := hm _ List.mem_cons_self
      have h3 := h _ List.mem_cons_self
      simp only at h1 h2 h3
      simp only [unmarkEntries, h1, h2, if_false]
      rw [ih (fun e he => h e (List.mem_cons_of_mem _ he)) (fun e he => hm e (List.mem_cons_of_mem _ he))
        (fun e he => hc e (List.mem_cons_of_mem _ he))]
      cases w with
      | dict ds => exact absurd rfl (h3 ds)
      | _ => rfl
  rw [unmark_append, hu] at hf
  have hmk : Val.str metaKey ≠ .str clsKey := by decide
  rw [hf]
  simp only [unmarkEntries, hmk, if_false, if_true]
  have : coll = [] := by
    cases coll with
    | nil => rfl
    | cons e coll =>
      exfalso
      rcases hF.onlyKeys e.1 (by simp) with h1 | ⟨p, ds, h1, _⟩
      · cases h1
      · have h2 := DictAt.no_meta h1
        cases h2 with
        | here h3 _ _ => exact h _ h3 _ rfl
        | step h3 _ _ _ => exact h _ h3 _ rfl
  rw [this]

theorem onlyRoot_get {H : List (Val × Val)} (h : ∀ e ∈ H, e.1 = .str ['/']) {m : PyStr} (hm : m ≠ []) :
    dictGet H (.str ('/' :: m)) = none := by
  refine dictGet_absent fun e he e1 => ?_
  rw [h e he] at e1
  simp only [Val.atom.injEq, Atom.str.injEq, List.cons.injEq, true_and] at e1
  exact hm e1.symm

/-- The class that a verbose dump names. -/
theorem meta_found {es cs : List (Val × Val)} {cn : PyStr} {t : Ty} (hnm : ∀ e ∈ es, e.1 ≠ .str metaKey)
    (hroot : dictGet cs (.str "/".toList) = some (.str cn)) (ht : E.clsFromStr fork cn = .ok t) :
    getClsAndMeta E (.dict (es ++ [(.str metaKey, metaSection E.toEnv kw cs)])) fork =
      .ok (some (t, cs)) := by
  have h1 : dictGet (es ++ [(.str metaKey, metaSection E.toEnv kw cs)]) (.str metaKey) =
      some (metaSection E.toEnv kw cs) := by
    rw [← dictSet_absent hnm, dictGet_set_str, if_pos rfl]
  have h2 : subscript (metaSection E.toEnv kw cs) "classes".toList = .ok (.dict cs) := rfl
  simp only [getClsAndMeta, h1, h2]
  show (do let name ← (match dictGet cs (.str "/".toList) with
        | some w => .ok w
        | none => .error .keyError : Except ErrKind Val)
           match name, Val.dict cs with
           | .str s, .dict hints => do
             let t ← E.clsFromStr fork s
             return some (t, hints)
           | _, _ => .error .typeError) = _
  rw [hroot]
  show (do let t ← E.clsFromStr fork _; return some (t, cs)) = _
  rw [ht]
  rfl

theorem roster_back (hs : DefaultSers E.toEnv fork) (hd : DefaultDesers E fork)
    (hv : NoValidators E fork) (hk : DumpNeutral fork { kw with verbose := {} })
    (hci : kw.verbose.classInfo = true) :
    ∀ (d : Nat) (v : Val), Roster E fork kw N d v →
      ∃ j r, ObjBack E fork kw (N + 3 * d) v j r := by
  intro d
  induction d with
  | zero => intro v h; exact h.elim
  | succ d ih =>
    rintro v ⟨c, as, rfl, hst, hne, hfind, hn, hp⟩
    have hs' : DefaultSers E.toEnv kw.fork := by rw [show kw.fork = fork from hk.fork]; exact hs
    have hex : ∀ a ∈ as, ∃ j r, PartBack E fork kw (N + 3 * (d + 1)) a.2
        (hintOf (E.info c) kw.strict a.1) (assoc (E.info c).initHints a.1) j r := by
      intro a ha
      obtain ⟨_, _, _, hl | ⟨h1, h2, xs, h3, h4⟩⟩ := hp a ha
      · obtain ⟨j, r, h⟩ := leaf_part hl
        exact ⟨j, r, h.mono (by omega)⟩
      · rw [h3]
        refine list_part hs hd hv hk h1 h2 ?_ fun x hx => ih x (h4 x hx)
        intro x hx
        cases d with
        | zero => exact (h4 x hx).elim
        | succ d =>
          obtain ⟨c1, as1, rfl, hst1, _⟩ := h4 x hx
          simp [Ty.serFn, Cls.serFn, Val.cls, hst1.kind]
    obtain ⟨ps, hps, hsorted, hmem⟩ := selected_list (as := as) (kw := kw) (l := []) (keeps_noSource hst)
    have hparam : ∀ a ∈ as, ∃ p ∈ (E.info c).params, a.1 = p.name := by
      intro a ha
      have : a.1 ∈ (E.info c).params.map (·.name) := by rw [← hn]; exact List.mem_map_of_mem ha
      obtain ⟨p, hp, h⟩ := List.mem_map.1 this
      exact ⟨p, hp, h.symm⟩
    have hsel : ∀ m, Selected (E.info c) as kw [] m ↔ ∃ a ∈ as, a.1 = m := by
      intro m
      rw [hst.selected (kw := kw) hk.privates hk.classVars hn]
      constructor
      · rintro ⟨p, hp, rfl⟩
        have : p.name ∈ as.map (·.1) := by rw [hn]; exact List.mem_map_of_mem hp
        exact List.mem_map.1 this
      · rintro ⟨a, ha, rfl⟩
        exact hparam a ha
    have hex' : ∀ p : PyStr × Option Ty, ∃ x : Val, p ∈ ps → ∃ a ∈ as, a.1 = p.1 ∧ ∃ r,
        PartBack E fork kw (N + 3 * (d + 1)) a.2 p.2 (assoc (E.info c).initHints a.1) x r := by
      intro p
      by_cases hpp : p ∈ ps
      · obtain ⟨h1, h2⟩ := (hmem p).1 hpp
        obtain ⟨a, ha, hap⟩ := (hsel p.1).1 h1
        obtain ⟨j, r, hb⟩ := hex a ha
        rw [hap, ← h2] at hb
        exact ⟨j, fun _ => ⟨a, ha, hap, r, by rw [hap]; exact hb⟩⟩
      · exact ⟨.none, fun h => absurd h hpp⟩
    obtain ⟨g, hg⟩ := Classical.axiomOfChoice hex'
    have hnd := DumpObject.Before.nodup hsorted
    have hnames : ∀ p ∈ ps, '/' ∉ p.1 ∧ p.1 ≠ [] ∧ p.1 ≠ clsKey ∧ p.1 ≠ metaKey := by
      intro p hpp
      obtain ⟨a, ha, hap, _⟩ := hg p hpp
      obtain ⟨h1, h2, h3, _⟩ := hp a ha
      obtain ⟨q, hq, h4⟩ := hparam a ha
      rw [← hap]
      exact ⟨h1, h2, h3, by rw [h4]; exact (hst.names q hq).2.2.2.2⟩
    have hnoDict : ∀ p ∈ ps, ∀ es, g p ≠ .dict es := by
      intro p hpp
      obtain ⟨_, _, _, r, hb⟩ := hg p hpp
      exact hb.noDict
    -- the dump
    have hloop : ∀ n, N + 3 * (d + 1) ≤ n → (attrLoop E.toEnv (recOf E.toEnv n) (innerKw kw []) false
        (.obj c as) (E.className false (.cls (.user c))) ps []).val =
          .ok (ps.map fun p => (.str p.1, g p)) := by
      intro n hn'
      refine attrLoop_ok (kw := innerKw kw []) hs' hk.keys hk.nulls g ps [] ?_ hnd (by simp)
      intro p hpp
      obtain ⟨a, ha, hap, r, hb⟩ := hg p hpp
      refine ⟨a.2, g p, by rw [← hap]; exact hst.getAttr hn ha, hb.dump n hn', ?_⟩
      have := hb.noDict
      unfold storeClsInfo
      cases hgp : g p with
      | dict es => exact absurd hgp (this es)
      | _ => rfl
    generalize hes : (ps.map fun p => (Val.str p.1, g p)) = es at hloop
    have hmem_es : ∀ e ∈ es, ∃ p ∈ ps, e = (.str p.1, g p) := by
      intro e he
      rw [← hes] at he
      obtain ⟨p, hpp, rfl⟩ := List.mem_map.1 he
      exact ⟨p, hpp, rfl⟩
    have hnm : ∀ e ∈ es, e.1 ≠ .str metaKey := by
      intro e he
      obtain ⟨p, hpp, rfl⟩ := hmem_es e he
      simpa using (hnames p hpp).2.2.2
    have hnodup : (es.map (·.1)).Nodup := by
      rw [← hes, List.map_map]
      have : ((fun e : Val × Val => e.1) ∘ fun p : PyStr × Option Ty => (Val.str p.1, g p)) =
        Val.str ∘ (·.1) := rfl
      rw [this, ← List.map_map]
      exact hnd.map (fun a b h => by simpa using h)
    have hfill := fill_flat (es := es) (by
        rw [← hes]
        refine nice_map (·.1) g hnd fun p hpp => ⟨(hnames p hpp).1, ?_⟩
        have := hnoDict p hpp
        cases hgp : g p with
        | dict es => exact absurd hgp (this es)
        | _ => trivial) (by
        intro e he ds
        obtain ⟨p, hpp, rfl⟩ := hmem_es e he
        exact hnoDict p hpp ds) hnm (by
        intro e he
        obtain ⟨p, hpp, rfl⟩ := hmem_es e he
        simpa using (hnames p hpp).2.2.1)
    -- the result
    obtain ⟨_, rs, hrs⟩ := gather
      (P := fun (a : PyStr × Val) (_ : Nat) r => ∃ j, PartBack E fork kw (N + 3 * (d + 1)) a.2
        (hintOf (E.info c) kw.strict a.1) (assoc (E.info c).initHints a.1) j r)
      (fun _ _ _ _ _ h => h) as (fun a ha => ⟨0, by obtain ⟨j, r, h⟩ := hex a ha; exact ⟨r, j, h⟩⟩)
    obtain ⟨bs, hbs⟩ := forall₂_key hrs
    have hmap := forall₂_keys
      (P := fun a b => ∃ j, PartBack E fork kw (N + 3 * (d + 1)) a.2
        (hintOf (E.info c) kw.strict a.1) (assoc (E.info c).initHints a.1) j b.2) hbs
    have hbnames : bs.map (·.1) = (E.info c).params.map (·.name) := by rw [← hmap, hn]
    refine ⟨.dict (es ++ [(.str metaKey, metaSection E.toEnv kw
        [(.str ['/'], .str (E.className true (.cls (.user c))))])]), .obj c bs, .obj hmap ?_, ?_, ?_⟩
    · rw [List.forall₂_map_left_iff, List.forall₂_map_right_iff]
      exact hbs.imp fun _ _ ⟨_, _, h⟩ => h.same
    · intro k0 hk0 hsc0 hkw n hnN
      have hv0 : k0.verbose = kw.verbose := (by have := congrArg DumpKw.verbose hkw; exact this)
      have hf0 : DefaultSers E.toEnv k0.fork := by rw [show k0.fork = fork from hk0.fork]; exact hs
      have hst0 : k0.strict = kw.strict := (by have := congrArg DumpKw.strict hkw; exact this)
      have hf : ((none : Option Ty).getD (.cls (Val.obj c as).cls)).serFn E.info = some .object := by
        simp [Ty.serFn, Cls.serFn, Val.cls, hst.kind]
      rw [dump_via hf0 hf]
      have hps0 : attributesFromObject (E.info c) as k0 (.tuple []) = .ok ps := by
        rw [attributes_congr (kw' := k0) (kw := kw) (by have := congrArg DumpKw.stripPrivates hkw; exact this)
          (by have := congrArg DumpKw.stripProperties hkw; exact this) (by have := congrArg DumpKw.stripClassVariables hkw; exact this) hst0]
        exact hps
      have hnorm : normalizeStripAttr k0.stripAttr = .tuple [] := normalize_names hk0.attrs
      have hci0 : k0.verbose.classInfo = true := by rw [hv0]; exact hci
      have hkw' : ({ k0 with stripAttr := .tuple [], storeCls := true } : DumpKw) = innerKw kw [] := hkw
      simp only [callSer, objectSer, hnorm, objectSerWith, hps0, Core.bind_ok, lift_val,
        Except.ok.injEq, exists_eq_left', hst.noAttrs, Bool.false_and, hci0, hsc0, Bool.false_eq_true, if_false,
        hkw']
      refine ⟨es, hloop n hnN, ?_⟩
      simp only [liftK_ok, pure_val, Except.ok.injEq, Val.dict.injEq]
      refine ⟨_, ?_, rfl⟩
      rw [hv0, withMeta_eq hci hfill, dictSet_last hnm]
      rfl
    · intro kw' cls hk' hr hcls n hnN
      have hfork : kw'.fork = fork := hk'.fork
      have hd' : DefaultDesers E kw'.fork := by rw [hfork]; exact hd
      have hmeta : getClsAndMeta E (.dict (es ++ [(.str metaKey, metaSection E.toEnv kw
          [(.str ['/'], .str (E.className true (.cls (.user c))))])])) kw'.fork =
          .ok (some (.cls (.user c), [(.str ['/'], .str (E.className true (.cls (.user c))))])) := by
        rw [hfork]
        exact meta_found hnm rfl hfind
      have hnskip : ¬ Skips (.dict (es ++ [(.str metaKey, metaSection E.toEnv kw
          [(.str ['/'], .str (E.className true (.cls (.user c))))])])) cls kw' := by
        rcases hcls with rfl | ⟨t, rfl, h1, h2, _⟩
        · rintro (⟨_, h⟩ | h) <;> cases h
        · rintro (⟨_, h⟩ | h)
          · exact h2 (Option.some.inj h)
          · exact h1 (Option.some.inj h)
      rw [load_enter (by rintro h; cases h) hnskip (by simp [Val.cls, validTypes]) hmeta hd']
      generalize hM : metaSection E.toEnv kw [(.str ['/'], .str (E.className true (.cls (.user c))))] = M
      have ht : target (.dict (es ++ [(.str metaKey, M)])) cls kw'
          (some (.cls (.user c), [(.str ['/'], .str (E.className true (.cls (.user c))))])) =
            .cls (.user c) := by
        unfold target determinePrecedence
        rcases hcls with rfl | ⟨t, rfl, _, _, h⟩
        · cases kw'.inferred <;> rfl
        · rw [h]; rfl
      have hf : (Ty.cls (.user c)).desFn E.info = some .object := by
        simp only [Ty.desFn, Cls.desFn, hst.kind]
      rw [ht, hf, doLoad_ok]
      refine ⟨?_, ?_⟩
      · generalize hkc : calleeKw (.dict (es ++ [(.str metaKey, M)])) cls kw'
          (some (.cls (.user c), [(.str ['/'], .str (E.className true (.cls (.user c))))])) = kc
        have hkcn : Neutral fork kc := by
          rw [← hkc]
          exact ⟨hk'.fork, hk'.getters, hk'.keys, rfl, hk'.warn, hk'.enums⟩
        obtain ⟨H, hH, hHr⟩ : ∃ H, kc.metaHints = some H ∧ ∀ e ∈ H, e.1 = .str ['/'] := by
          rw [← hkc]
          refine ⟨_, rfl, ?_⟩
          cases hm : kw'.metaHints with
          | none =>
            intro e he
            simp only [Option.map_some, Option.getD_some, Option.getD_none, List.mem_singleton] at he
            rw [he]
          | some H => exact hr H hm
        show (objectDes E (load E n) (.dict (es ++ [(.str metaKey, M)])) (.cls (.user c)) kc).val = _
        have hentry : ∀ e ∈ es ++ [(Val.str metaKey, M)], Known (E.info c) e.1 := by
          intro e he
          rcases List.mem_append.1 he with he | he
          · obtain ⟨p, hpp, rfl⟩ := hmem_es e he
            obtain ⟨a, ha, hap, _⟩ := hg p hpp
            obtain ⟨q, hq, h'⟩ := hparam a ha
            exact .inr ⟨q, hq, by rw [← h', hap]⟩
          · rw [List.mem_singleton] at he
            subst he
            exact .inl rfl
        have hstr : ∀ e ∈ es ++ [(Val.str metaKey, M)], ∃ s, e.1 = .str s := by
          intro e he
          rcases hentry e he with h | ⟨p, _, h⟩
          · exact ⟨_, h⟩
          · exact ⟨_, h⟩
        have hndM : ((es ++ [(Val.str metaKey, M)]).map (·.1)).Nodup := by
          rw [List.map_append, List.nodup_append]
          refine ⟨hnodup, by simp, ?_⟩
          rintro x hx y hy rfl
          simp only [List.map_cons, List.map_nil, List.mem_singleton] at hy
          obtain ⟨e, he, rfl⟩ := List.mem_map.1 hx
          exact hnm e he hy
        rw [objectDes_ok]
        have hget : kc.attrGetters = [] := hkcn.getters
        have htr : Transformed E kc (es ++ [(Val.str metaKey, M)]) (es ++ [(Val.str metaKey, M)]) :=
          transformed_id (E := E) hkcn hstr hndM
        refine ⟨_, bs, bs, bs, bs, htr, ?_, fun _ => hentry, hst.stores bs hbnames,
          attrsSet_known _ hentry, by rw [hget]; exact .nil, rfl⟩
        rw [hget]
        refine argsOf_all _ _ hbnames ?_
        intro p hpp b hb hbp
        obtain ⟨a, ha, hab, j, hB⟩ := RoundTrip.forall₂_right hbs b hb
        have hq : (a.1, hintOf (E.info c) kw.strict a.1) ∈ ps :=
          (hmem _).2 ⟨(hsel _).2 ⟨a, ha, rfl⟩, rfl⟩
        have hgj : g (a.1, hintOf (E.info c) kw.strict a.1) = j := by
          obtain ⟨a', ha', hap', r', hb'⟩ := hg _ hq
          have hnda : (as.map (·.1)).Nodup := by rw [hn]; exact hst.distinct
          have : a' = a := by
            obtain ⟨m', w'⟩ := a'
            obtain ⟨m, w⟩ := a
            simp only at hap'
            subst hap'
            rw [nodup_unique hnda ha' ha]
          subst this
          have h1 := hb'.dump _ (Nat.le_refl _)
          rw [hB.dump _ (Nat.le_refl _)] at h1
          exact (Except.ok.inj h1).symm
        have hin : (Val.str a.1, j) ∈ es := by
          rw [← hes, ← hgj]
          exact List.mem_map.2 ⟨_, hq, rfl⟩
        have hj := dictGet_nodup hndM (List.mem_append_left [(Val.str metaKey, M)] hin)
        rw [hab, hbp] at hj
        refine .given hj ?_
        rw [partLoad_leaf hH (onlyRoot_get hHr (by rw [← hbp, ← hab]; exact (hp a ha).2.1)), ← hbp, ← hab]
        refine hB.load _ ?_ ?_ n hnN
        · exact ⟨hkcn.fork, rfl, hkcn.keys, rfl, hkcn.warn, hkcn.enums⟩
        · intro H' hH' e he
          cases hH'
          exact hHr e he
      · rw [validate_none]
        · rfl
        · show E.getVal kw'.fork _ = _
          rw [hfork]
          exact hv _

end

/-! ## C60 -/

/-- C60, `_partial`: an object that has lists of objects as attributes, which may have
lists of objects as attributes in turn, can be loaded from its verbose dump without a
class being given, and all objects have the classes that they had, even where the
attribute is hinted as a list of another class, such as an abstract base class.  False for
lists hinted just as `list` (`verbose_lists_fails_bare`) and for dicts of objects
(`verbose_lists_fails_dict`).  Missing: see `VerboseRoundTrip.verbose_round_trip_partial`. -/
theorem verbose_lists_partial (E : LEnv) (fork N d : Nat) (kw : DumpKw) (v : Val)
    (hs : DefaultSers E.toEnv fork) (hd : DefaultDesers E fork) (hv : NoValidators E fork)
    (hk : DumpNeutral fork { kw with verbose := {} }) (hsc : kw.storeCls = false)
    (hci : kw.verbose.classInfo = true) (hT : Roster E fork kw N d v) :
    ∃ j r, Same v r ∧ ∀ n, N + 3 * d ≤ n →
      (dump E.toEnv (n + 2) v none kw).val = .ok j ∧
      ∀ kw', LoadNeutral fork kw' → (load E (n + 1) j none kw').val = .ok r := by
  obtain ⟨j, r, h⟩ := roster_back hs hd hv hk hci d v hT
  refine ⟨j, r, h.same, fun n hn => ⟨h.dump kw hk hsc rfl n hn, fun kw' hk' => ?_⟩⟩
  refine h.load kw' none ⟨hk'.fork, hk'.getters, hk'.keys, rfl, hk'.warn, hk'.enums⟩ ?_ (.inl rfl) n hn
  intro H hH e he
  have := hk'.hints
  rw [hH] at this
  have : H = [] := this
  subst this
  cases he

/-! ### Examples -/

/-- As in `demoInfo`, but `Person.name` is hinted as `List[Shape]`, where `Shape` is
another class, both for the class and for the constructor. -/
def shapeInfo : Nat → ClassInfo
  | 0 => demoInfo 0
  | 5 => { demoInfo 5 with
      hints := [("name".toList, .gen .list [.cls (.user 6)])]
      initHints := [("name".toList, .gen .list [.cls (.user 6)])] }
  | _ => { attrs := mainAttrs "Shape" }

theorem shape_attrs (c : Nat) : (shapeInfo c).attrs ∈
    [mainAttrs "Point", mainAttrs "Person", mainAttrs "Shape"] := by
  unfold shapeInfo
  split <;> simp [demoInfo]

theorem shape_sers (fork : Nat) : DefaultSers (demoEnv shapeInfo) fork :=
  fun t => getLizer_serFn shapeInfo (by
    intro c
    have h := shape_attrs c
    simp only [List.mem_cons, List.not_mem_nil, or_false] at h
    rcases h with h | h | h <;> rw [h] <;> decide) t

theorem shape_desers (fork : Nat) : DefaultDesers (demoLEnv shapeInfo) fork :=
  fun t => getLizer_desFn shapeInfo (by
    intro c
    have h := shape_attrs c
    simp only [List.mem_cons, List.not_mem_nil, or_false] at h
    rcases h with h | h | h <;> rw [h] <;> decide) t

theorem shape_novals (fork : Nat) : NoValidators (demoLEnv shapeInfo) fork :=
  fun t => getLizer_empty shapeInfo t

theorem shape_keeps : Keeps (demoLEnv shapeInfo) 5 where
  kind := rfl
  noAttrs := rfl
  distinct := by decide
  names := by
    intro p hp
    have : p = { name := "name".toList } ∨ p = { name := "born".toList } := by
      have : p ∈ [({ name := "name".toList } : Param), { name := "born".toList }] := hp
      simpa using this
    rcases this with rfl | rfl <;> decide
  members := by intro m k h; cases h
  own := by intro p _ k h; cases h
  stores := fun _ _ => rfl

theorem shape_keeps_point : Keeps (demoLEnv shapeInfo) 0 where
  kind := rfl
  noAttrs := rfl
  distinct := by decide
  names := by
    intro p hp
    have : p = { name := "x".toList } ∨ p = { name := "y".toList, default := some (.int 0) } := by
      have : p ∈ [({ name := "x".toList } : Param), { name := "y".toList, default := some (.int 0) }] := hp
      simpa using this
    rcases this with rfl | rfl <;> decide
  members := by intro m k h; cases h
  own := by intro p _ k h; cases h
  stores := fun _ _ => rfl

theorem shape_pt (x y : Int) (d : Nat) : Roster (demoLEnv shapeInfo) 0 verboseKw 2 (d + 1) (pt x y) := by
  refine ⟨0, _, rfl, shape_keeps_point, by decide, rfl, rfl, ?_⟩
  intro a ha
  simp only [List.mem_cons, List.not_mem_nil, or_false] at ha
  rcases ha with rfl | rfl
  · exact ⟨(by show '/' ∉ "x".toList; decide), (by show "x".toList ≠ []; decide),
      (by show "x".toList ≠ clsKey; decide), .inl (prim_leaf (shape_sers 0) (shape_desers 0)
      (shape_novals 0) rfl (by simp [Val.cls, Atom.cls]) (.inr rfl) (.inl rfl))⟩
  · exact ⟨(by show '/' ∉ "y".toList; decide), (by show "y".toList ≠ []; decide),
      (by show "y".toList ≠ clsKey; decide), .inl (prim_leaf (shape_sers 0) (shape_desers 0)
      (shape_novals 0) rfl (by simp [Val.cls, Atom.cls]) (.inr rfl) (.inl rfl))⟩

theorem shape_person {d : Nat} {xs : List Val} {y : Int}
    (h : ∀ x ∈ xs, Roster (demoLEnv shapeInfo) 0 verboseKw 2 d x) :
    Roster (demoLEnv shapeInfo) 0 verboseKw 2 (d + 1) (person (.list xs) (.int y)) := by
  refine ⟨5, _, rfl, shape_keeps, by decide, rfl, rfl, ?_⟩
  intro a ha
  simp only [List.mem_cons, List.not_mem_nil, or_false] at ha
  rcases ha with rfl | rfl
  · exact ⟨(by show '/' ∉ "name".toList; decide), (by show "name".toList ≠ []; decide),
      (by show "name".toList ≠ clsKey; decide), .inr ⟨.inr ⟨.cls (.user 6), rfl, rfl⟩,
      .inr ⟨.cls (.user 6), by decide, by decide, rfl⟩, xs, rfl, h⟩⟩
  · exact ⟨(by show '/' ∉ "born".toList; decide), (by show "born".toList ≠ []; decide),
      (by show "born".toList ≠ clsKey; decide), .inl (prim_leaf (shape_sers 0) (shape_desers 0)
      (shape_novals 0) rfl (by simp [Val.cls, Atom.cls]) (.inl rfl) (.inr ⟨rfl, by simp [Val.cls, Atom.cls]⟩))⟩

/-- `Person([Point(1, 2), Person([Point(3, 4)], 5)], 6)` -/
def team : Val := person (.list [pt 1 2, person (.list [pt 3 4]) (.int 5)]) (.int 6)

theorem demo_roster : Roster (demoLEnv shapeInfo) 0 verboseKw 2 3 team := by
  refine shape_person ?_
  intro x hx
  simp only [List.mem_cons, List.not_mem_nil, or_false] at hx
  rcases hx with rfl | rfl
  · exact shape_pt 1 2 1
  · refine shape_person ?_
    intro x hx
    simp only [List.mem_cons, List.not_mem_nil, or_false] at hx
    subst hx
    exact shape_pt 3 4 0

example : ∃ j r, Same team r ∧ (dump (demoEnv shapeInfo) 20 team none verboseKw).val = .ok j ∧
    (load (demoLEnv shapeInfo) 19 j none {}).val = .ok r := by
  obtain ⟨j, r, h1, h2⟩ := verbose_lists_partial (demoLEnv shapeInfo) 0 2 3 verboseKw _ (shape_sers 0)
    (shape_desers 0) (shape_novals 0) demo_verboseKw rfl rfl demo_roster
  obtain ⟨h3, h4⟩ := h2 18 (by omega)
  exact ⟨j, r, h1, h3, h4 {} ⟨rfl, rfl, fun _ => rfl, rfl, rfl, by simp⟩⟩

/-! ### Where it is false -/

/-- `Person.name` hinted as a `list` of anything. -/
def bareInfo : Nat → ClassInfo
  | 5 => { demoInfo 5 with initHints := [("name".toList, .cls .list)] }
  | c => demoInfo c

/-- C60 is false for lists of objects that are hinted just as `list`: the points of
`Person([Point(1, 2)], 3)` stay dicts, with their `-meta` sections. -/
theorem verbose_lists_fails_bare : ∃ j,
    (dump (demoEnv bareInfo) 9 (person (.list [pt 1 2]) (.int 3)) none verboseKw).val = .ok j ∧
    (load (demoLEnv bareInfo) 9 j none {}).val = .ok (person (.list [.dict [(.str "x".toList, .int 1),
      (.str "y".toList, .int 2), (.str metaKey, .dict [(.str "classes".toList,
        .dict [(.str "/".toList, .str "__main__.Point".toList)])])]]) (.int 3)) :=
  via_ok (f := fun j => (load (demoLEnv bareInfo) 9 j none {}).val) (by decide +kernel)

/-- As in `demoLEnv`, but the class `dict` has its name, by which it is found. -/
def dictLEnv : LEnv :=
  { demoLEnv demoInfo with
    typeName := fun _ => "dict".toList
    clsFromStr := fun f s =>
      if s = "dict".toList then .ok (.cls .dict) else (demoLEnv demoInfo).clsFromStr f s }

/-- C60 is false for dicts of objects as attributes: the point of
`Person({'a': Point(1, 2)}, 3)` is loaded as a dict. -/
theorem verbose_lists_fails_dict : ∃ j,
    (dump dictLEnv.toEnv 9 (person (.dict [(.str "a".toList, pt 1 2)]) (.int 3)) none
      verboseKw).val = .ok j ∧
    (load dictLEnv 9 j none {}).val = .ok (person (.dict [(.str "a".toList,
      .dict [(.str "x".toList, .int 1), (.str "y".toList, .int 2)])]) (.int 3)) :=
  via_ok (f := fun j => (load dictLEnv 9 j none {}).val) (by decide +kernel)

end Verif.Props.VerboseLists
