import Verif.Props.Registrations

/-! # Only the classes that are asked for are made (C112) -/

set_option autoImplicit false

namespace Verif.Props.Trust

open Verif Verif.Core Verif.Datetime
open Verif.Props.Depth (bind_congr_ok dictDel_mem transformKeys_values)
open Verif.Props.Registrations (Thing LOccurs HintsIn LGiven some_in none_in get_in set_in value_in assoc_in
  ntupleField_in dictComp_congr unhashKey_in subscript_in rebase_in)

/-! ## Classes that do not occur, and names that are not written -/

/-- The name `s` is written in the '-meta' section of `v` itself. -/
def Names (v : Val) (s : PyStr) : Prop :=
  ∃ es m hints k, v = .dict es ∧ dictGet es (.str metaKey) = some m ∧
    subscript m "classes".toList = .ok (.dict hints) ∧ (k, .str s) ∈ hints

/-- All names of the class hints are in `N`. -/
def NamesIn (N : PyStr → Prop) (hs : List (Val × Val)) : Prop := ∀ e ∈ hs, ∀ s, e.2 = .str s → N s

/-- The keyword arguments of the nested calls: those of C96, and the names in the class hints are
in `N`. -/
structure KwIn (E : LEnv) (f : Nat) (kt : Val → Except Err Val) (N : PyStr → Prop) (O : Thing → Prop)
    (kw : LoadKw) : Prop where
  fork : kw.fork = f ∨ kw.fork = 0
  keys : kw.keyTransformer = none ∨ kw.keyTransformer = some .ok ∨ kw.keyTransformer = some kt
  hints : ∀ hs ∈ kw.metaHints, HintsIn E f O hs
  names : ∀ hs ∈ kw.metaHints, NamesIn N hs

theorem KwIn.names_get {E : LEnv} {f : Nat} {kt : Val → Except Err Val} {N : PyStr → Prop} {P : Thing → Prop}
    {kw : LoadKw} (h : KwIn E f kt N P kw) : NamesIn N (kw.metaHints.getD []) := by
  cases hm : kw.metaHints with
  | none => exact fun _ h => nomatch h
  | some hs => exact h.names hs hm

/-- Calls with what is in `O` have the same outcome. -/
def Agree (E : LEnv) (f : Nat) (kt : Val → Except Err Val) (N : PyStr → Prop) (O : Thing → Prop)
    (rec rec' : LRec) : Prop :=
  ∀ v cls kw, KwIn E f kt N O kw → O (.val v) → (∀ t ∈ cls, O (.ty t)) → rec' v cls kw = rec v cls kw

/-- The deserializers of the program only load what occurs in what they are given. -/
def Stay (E : LEnv) (f : Nat) (kt : Val → Except Err Val) (N : PyStr → Prop) (S : Thing → Prop) : Prop :=
  ∀ rec rec', Agree E f kt N (LOccurs E f kt S) rec rec' → ∀ v t kw, KwIn E f kt N (LOccurs E f kt S) kw →
    LOccurs E f kt S (.val v) → LOccurs E f kt S (.ty t) →
    (∀ id, E.customDes id rec' v t kw = E.customDes id rec v t kw) ∧
    E.foreignDes rec' v t kw = E.foreignDes rec v t kw

section
variable {E : LEnv} {con : Nat → List (PyStr × Val) → Except Err (List (PyStr × Val))}
  {sa : Nat → List (PyStr × Val) → PyStr → Val → Except Err (List (PyStr × Val))}
  {cs : Nat → PyStr → Except ErrKind Ty} {f : Nat} {N : PyStr → Prop}
  {kt : Val → Except Err Val} {S : Thing → Prop} {rec rec' : LRec}

/-- The same surroundings with other constructors, another way of setting attributes and other
classes behind the names. -/
abbrev other (E : LEnv) (con : Nat → List (PyStr × Val) → Except Err (List (PyStr × Val)))
    (sa : Nat → List (PyStr × Val) → PyStr → Val → Except Err (List (PyStr × Val)))
    (cs : Nat → PyStr → Except ErrKind Ty) : LEnv :=
  { E with construct := con, setAttr := sa, clsFromStr := cs }

/-- The same for the classes of `P` and the names of `N`. -/
structure Alike (E : LEnv) (con : Nat → List (PyStr × Val) → Except Err (List (PyStr × Val)))
    (sa : Nat → List (PyStr × Val) → PyStr → Val → Except Err (List (PyStr × Val)))
    (cs : Nat → PyStr → Except ErrKind Ty) (f : Nat) (N : PyStr → Prop) (P : Thing → Prop) : Prop where
  construct : ∀ c, P (.ty (.cls (.user c))) → con c = E.construct c
  setAttr : ∀ c, P (.ty (.cls (.user c))) → sa c = E.setAttr c
  names : ∀ i, i = f ∨ i = 0 → ∀ s, N s → cs i s = E.clsFromStr i s

local notation "O" => LOccurs E f kt S

theorem rebase_names {pre : PyStr} : ∀ {es acc hs : List (Val × Val)}, rebase pre acc es = .ok hs →
    NamesIn N es → NamesIn N acc → NamesIn N hs := by
  intro es
  induction es with
  | nil => intro acc hs h _ h2; cases h; exact h2
  | cons e es ih =>
    intro acc hs h h1 h2
    obtain ⟨k, v⟩ := e
    simp only [rebase] at h
    split at h
    · exact ih h (fun e hm => h1 e (List.mem_cons_of_mem _ hm))
        (set_in (P := fun x => ∀ s, x = .str s → N s) h2 (h1 _ List.mem_cons_self))
    · cases h

theorem metaFor_eq {P : Thing → Prop} (h : Alike E con sa cs f N P) {kw : LoadKw} (hk : KwIn E f kt N P kw)
    {n : PyStr} : metaFor (other E con sa cs) kw n = metaFor E kw n := by
  unfold metaFor
  dsimp only
  cases hg : dictGet (kw.metaHints.getD []) (.str ('/' :: n)) with
  | none => rfl
  | some w =>
    dsimp only
    split
    · rfl
    · split
      · next s _ =>
        rw [h.names kw.fork hk.fork s (get_in (P := fun x => ∀ s, x = .str s → N s) hg hk.names_get s rfl)]
      · rfl

theorem getClsAndMeta_eq {P : Thing → Prop} (h : Alike E con sa cs f N P) {v : Val} {i : Nat} (hi : i = f ∨ i = 0)
    (hN : ∀ s, Names v s → N s) : getClsAndMeta (other E con sa cs) v i = getClsAndMeta E v i := by
  unfold getClsAndMeta
  cases v with
  | dict es =>
    dsimp only
    cases hg : dictGet es (.str metaKey) with
    | none => rfl
    | some m =>
      dsimp only
      cases hc : subscript m "classes".toList with
      | error k => rfl
      | ok classes =>
        change (subscript classes "/".toList >>= _) = (subscript classes "/".toList >>= _)
        cases hn : subscript classes "/".toList with
        | error k => rfl
        | ok name =>
          cases classes with
          | dict hints =>
            cases name with
            | atom a =>
              cases a with
              | str s =>
                change (cs i s >>= _) = (E.clsFromStr i s >>= _)
                rw [h.names i hi s (hN s ?_)]
                unfold subscript at hn
                dsimp only at hn
                split at hn
                · next w hw =>
                  cases hn
                  obtain ⟨e, hm, he, _⟩ := dictGet_mem hw
                  exact ⟨es, m, hints, e.1, rfl, hg, hc, (by rw [show Val.str s = e.2 from he.symm]; exact hm)⟩
                · cases hn
              | _ => rfl
            | _ => rfl
          | _ => cases hn
  | _ => rfl

theorem meta_names {v : Val} {i : Nat} {p : Ty × List (Val × Val)} {k : Val} {s : PyStr}
    (h : getClsAndMeta E v i = .ok (some p)) (hm : (k, .str s) ∈ p.2) : Names v s := by
  unfold getClsAndMeta at h
  cases v with
  | dict es =>
    dsimp only at h
    cases hg : dictGet es (.str metaKey) with
    | none => rw [hg] at h; cases h
    | some m =>
      rw [hg] at h
      dsimp only at h
      cases hc : subscript m "classes".toList with
      | error k => rw [hc] at h; cases h
      | ok classes =>
        rw [hc] at h
        cases hn : subscript classes "/".toList with
        | error k =>
          change (subscript classes "/".toList >>= _) = _ at h
          rw [hn] at h; cases h
        | ok name =>
          change (subscript classes "/".toList >>= _) = _ at h
          rw [hn] at h
          change (match name, classes with
            | .str s, .dict hints => (do
              let t ← E.clsFromStr i s
              return some (t, hints))
            | _, _ => (.error .typeError : Except ErrKind (Option (Ty × List (Val × Val))))) = _ at h
          split at h
          · next s' hints =>
            cases ht : E.clsFromStr i s' with
            | error k => rw [ht] at h; cases h
            | ok t =>
              rw [ht] at h
              cases h
              exact ⟨es, m, hints, k, rfl, hg, hc, hm⟩
          · cases h
  | _ => cases h

theorem meta_found {v : Val} {i : Nat} {t : Ty} {hs : List (Val × Val)}
    (h : getClsAndMeta E v i = .ok (some (t, hs))) : ∃ s, Names v s ∧ E.clsFromStr i s = .ok t := by
  have h0 := h
  unfold getClsAndMeta at h
  cases v with
  | dict es =>
    dsimp only at h
    cases hg : dictGet es (.str metaKey) with
    | none => rw [hg] at h; cases h
    | some m =>
      rw [hg] at h
      dsimp only at h
      cases hc : subscript m "classes".toList with
      | error k => rw [hc] at h; cases h
      | ok classes =>
        rw [hc] at h
        change (subscript classes "/".toList >>= _) = _ at h
        cases hn : subscript classes "/".toList with
        | error k => rw [hn] at h; cases h
        | ok name =>
          rw [hn] at h
          cases classes with
          | dict hints =>
            cases name with
            | atom a =>
              cases a with
              | str s =>
                change (E.clsFromStr i s >>= _) = _ at h
                cases ht : E.clsFromStr i s with
                | error k => rw [ht] at h; cases h
                | ok t' =>
                  rw [ht] at h
                  cases h
                  refine ⟨s, ?_, ht⟩
                  unfold subscript at hn
                  dsimp only at hn
                  split at hn
                  · next w hw =>
                    cases hn
                    obtain ⟨e, hm, he, _⟩ := dictGet_mem hw
                    exact meta_names (k := e.1) h0 (by rw [show Val.str s = e.2 from he.symm]; exact hm)
                  · cases hn
              | _ => cases h
            | _ => cases h
          | _ => cases hn
  | _ => cases h

theorem setOne_eq {P : Thing → Prop} (h : Alike E con sa cs f N P) {c : Nat} (ht : P (.ty (.cls (.user c))))
    (as : List (PyStr × Val)) (k y : Val) : setOne (other E con sa cs) c as k y = setOne E c as k y := by
  unfold setOne
  split
  · rw [show (other E con sa cs).setAttr c = E.setAttr c from h.setAttr c ht]
  · rfl

theorem listDes_eq (hr : Agree E f kt N O rec rec') (v : Val) (args : List Ty) (kw : LoadKw) (hk : KwIn E f kt N O kw)
    (hv : O (.val v)) (ha : ∀ a ∈ args, O (.ty a)) :
    listDes (other E con sa cs) rec' v args kw = listDes E rec v args kw := by
  have hl : ∀ (cls : Option Ty) b (kw' : LoadKw), (∀ t ∈ cls, O (.ty t)) → KwIn E f kt N O kw' → ∀ xs i,
      (∀ x ∈ xs, O (.val x)) → listLoop (other E con sa cs) rec' cls b kw' i xs = listLoop E rec cls b kw' i xs := by
    intro cls b kw' hc hk' xs
    induction xs with
    | nil => intro i _; rfl
    | cons x xs ih =>
      intro i hx
      simp only [listLoop, hr x cls kw' hk' (hx x List.mem_cons_self) hc,
        fun i => ih i fun x h => hx x (List.mem_cons_of_mem _ h)]
  unfold listDes
  cases hi : v.iter with
  | none => rfl
  | some xs =>
    exact hl _ _ { kw with warnOnFail := false, inferred := kw.inferred || !args.isEmpty }
      (fun t ht => ha t (List.mem_of_mem_head? ht)) ⟨hk.fork, hk.keys, hk.hints, hk.names⟩ xs 0
      fun x hx => .elem v x xs hv hi hx

theorem tupleDes_eq (hr : Agree E f kt N O rec rec') (v : Val) (t : Ty) (kw : LoadKw) (hk : KwIn E f kt N O kw)
    (hv : O (.val v)) (ht : O (.ty t)) : tupleDes (other E con sa cs) rec' v t kw = tupleDes E rec v t kw := by
  have hkw' : KwIn E f kt N O { kw with keyTransformer := none } := ⟨hk.fork, .inl rfl, hk.hints, hk.names⟩
  have hloop : ∀ xs ts, (∀ x ∈ xs, O (.val x)) → (∀ u ∈ ts, O (.ty u)) →
      tupleLoop rec' { kw with keyTransformer := none } ts xs = tupleLoop rec { kw with keyTransformer := none } ts xs := by
    intro xs
    induction xs with
    | nil => intro ts _ _; cases ts <;> rfl
    | cons x xs ih =>
      intro ts hx hts
      cases ts with
      | nil => rfl
      | cons u ts =>
        simp only [tupleLoop, hr x (some u) _ hkw' (hx x List.mem_cons_self) (some_in (hts u List.mem_cons_self)),
          ih ts (fun x h => hx x (List.mem_cons_of_mem _ h)) fun u h => hts u (List.mem_cons_of_mem _ h)]
  have harg : ∀ a ∈ t.getArgs, O (.ty a) := fun a ha => .arg t a ht ha
  have hmap : ∀ xs, (∀ x ∈ xs, O (.val x)) → mapRes (fun x => rec' x none { kw with keyTransformer := none }) xs =
      mapRes (fun x => rec x none { kw with keyTransformer := none }) xs :=
    fun xs hx => mapRes_congr fun x hm => hr x none _ hkw' (hx x hm) none_in
  by_cases hcond : ∃ c, t = .cls (.user c) ∧ (E.info c).kind = .ntuple
  · obtain ⟨c, rfl, hkind⟩ := hcond
    have hL : tupleDes (other E con sa cs) rec' v (.cls (.user c)) kw = ntupleDes (other E con sa cs) rec' v c kw :=
      if_pos hkind
    have hR : tupleDes E rec v (.cls (.user c)) kw = ntupleDes E rec v c kw := if_pos hkind
    rw [hL, hR]
    unfold ntupleDes
    refine bind_congr_ok fun tfm htfm => ?_
    rw [lift_val] at htfm
    have htfm' : ∀ es ∈ tfm, ∀ e ∈ es, O (.val e.2) := by
      unfold ntupleTfm at htfm
      split at htfm
      · next es =>
        change (transformKeys E.info _ [] es).map some = _ at htfm
        cases hts : transformKeys E.info (kw.keyTransformer.getD .ok) [] es with
        | error e => rw [hts] at htfm; cases htfm
        | ok ts =>
          rw [hts] at htfm
          cases htfm
          rintro _ ⟨⟩
          exact transformKeys_values (P := fun x => O (.val x)) (fun e he => absurd he List.not_mem_nil) (fun e he => .value es e hv he) hts
      · cases htfm; rintro _ ⟨⟩
    cases hi : v.iter with
    | none => rfl
    | some xs =>
      have hn : ∀ names i, ntupleLoop (other E con sa cs) rec' c v tfm xs.length kw i names =
          ntupleLoop E rec c v tfm xs.length kw i names := by
        intro names
        induction names with
        | nil => intro i; rfl
        | cons n names ih =>
          intro i
          simp only [ntupleLoop, ih]
          refine bind_congr_ok fun x hx => ?_
          rw [liftK_ok] at hx
          have hO := ntupleField_in hv ht hkind htfm' hx
          rw [hr x _ kw hk hO]
          intro u hu
          split at hu
          · exact .hint c _ ht (assoc_mem hu)
          · cases hu
      dsimp only
      rw [hn]
  · have key : ∀ (E : LEnv), ¬ (∃ c, t = .cls (.user c) ∧ (E.info c).kind = .ntuple) → ∀ rec,
        tupleDes E rec v t kw = (match v.iter with
          | none => Res.raise { kind := .typeError }
          | some xs => do
            let ys ← match t, t.getArgs with
              | .gen .tupleEll _, a :: _ => tupleLoop rec { kw with keyTransformer := none } (List.replicate xs.length a) xs
              | _, a :: as => tupleLoop rec { kw with keyTransformer := none } (a :: as) xs
              | _, [] => mapRes (fun x => rec x none { kw with keyTransformer := none }) xs
            pure (.tuple ys)) := by
      intro E hE rec
      unfold tupleDes
      cases t with
      | cls k =>
        cases k with
        | user c => exact if_neg fun h => hE ⟨c, rfl, h⟩
        | _ => rfl
      | _ => rfl
    rw [key (other E con sa cs) hcond, key E hcond]
    cases hi : v.iter with
    | none => rfl
    | some xs =>
      have hx : ∀ x ∈ xs, O (.val x) := fun x hm => .elem v x xs hv hi hm
      dsimp only
      generalize t.getArgs = args at harg
      split
      · rw [hloop xs _ hx fun u hu => by rw [(List.mem_replicate.mp hu).2]; exact harg _ List.mem_cons_self]
      · rw [hloop xs _ hx harg]
      · rw [hmap xs hx]

theorem unhashKey_eq (hr : Agree E f kt N O rec rec') {t : Ty} (ht : O (.ty t)) (kw : LoadKw) (hk : KwIn E f kt N O kw)
    (es : List (Val × Val)) (hes : ∀ e ∈ es, O (.val e.2)) (h : Val) :
    unhashKey (other E con sa cs) rec' t kw es h = unhashKey E rec t kw es h := by
  unfold unhashKey
  refine bind_congr_ok fun x hx => ?_
  rw [liftK_ok] at hx
  rw [hr x (some t) kw hk ?_ (some_in ht)]
  split at hx
  · next ks hks =>
    have hks' : O (.val (.dict ks)) := get_in (P := fun x => O (.val x)) hks hes
    split at hx
    · next hg => cases hx; exact value_in hg hks'
    · cases hx
  · cases hx

theorem unhashLoop_eq (hr : Agree E f kt N O rec rec') {t : Ty} (ht : O (.ty t)) (kw : LoadKw) (hk : KwIn E f kt N O kw) :
    ∀ (hs : List Val) (es : List (Val × Val)), (∀ e ∈ es, O (.val e.2)) →
      unhashLoop (other E con sa cs) rec' t kw hs es = unhashLoop E rec t kw hs es ∧
      ∀ es', (unhashLoop E rec t kw hs es).val = .ok es' → ∀ e ∈ es', O (.val e.2) := by
  intro hs
  induction hs with
  | nil => exact fun es hes => ⟨rfl, fun es' h => by cases h; exact hes⟩
  | cons h hs ih =>
    intro es hes
    constructor
    · simp only [unhashLoop, unhashKey_eq hr ht kw hk es hes h]
      exact bind_congr_ok fun es' hx => (ih es' (unhashKey_in hes hx)).1
    · intro es' hx
      simp only [unhashLoop] at hx
      obtain ⟨es1, h1, h2⟩ := Core.bind_ok.mp hx
      exact (ih es1 (unhashKey_in hes h1)).2 es' h2

theorem dictDes_eq (hr : Agree E f kt N O rec rec') (v : Val) (args : List Ty) (kw : LoadKw) (hk : KwIn E f kt N O kw)
    (hv : O (.val v)) (ha : ∀ a ∈ args, O (.ty a)) :
    dictDes (other E con sa cs) rec' v args kw = dictDes E rec v args kw := by
  have hh : loadHashedKeys (other E con sa cs) rec' v args kw = loadHashedKeys E rec v args kw := by
    unfold loadHashedKeys
    split
    · next es =>
      split
      · rfl
      · split
        · rfl
        · rfl
        · split
          · next kty _ _ =>
            rw [show (other E con sa cs).setOrder = E.setOrder from rfl]
            rw [(unhashLoop_eq hr (ha _ List.mem_cons_self) kw hk _ es fun e he => .value es e hv he).1]
          · rfl
    · rfl
  have hin : ∀ es b, (loadHashedKeys E rec v args kw).val = .ok (es, b) →
      (∀ e ∈ es, O (.val e.2)) ∧ (b = false → v = .dict es) := by
    intro es b h
    unfold loadHashedKeys at h
    split at h
    · next es0 =>
      have h0 : ∀ e ∈ es0, O (.val e.2) := fun e he => .value es0 e hv he
      split at h
      · cases h; exact ⟨h0, fun _ => rfl⟩
      · split at h
        · cases h
        · cases h; exact ⟨h0, fun _ => rfl⟩
        · split at h
          · obtain ⟨es1, h1, h2⟩ := Core.bind_ok.mp h
            cases h2
            refine ⟨fun e he => ?_, fun h => nomatch h⟩
            exact (unhashLoop_eq (con := con) (sa := sa) (cs := cs) (rec' := rec) (fun _ _ _ _ _ _ => rfl) (ha _ List.mem_cons_self) kw hk _ es0 h0).2
              es1 h1 e (dictDel_mem he)
          · cases h
    · cases h
  unfold dictDes
  rw [hh]
  refine bind_congr_ok ?_
  rintro ⟨es, hashed⟩ h
  obtain ⟨h1, h2⟩ := hin es hashed h
  have hkV : KwIn E f kt N O { kw with keyTransformer := some (kw.keyTransformer.getD .ok) } := by
    refine ⟨hk.fork, .inr ?_, hk.hints, hk.names⟩
    rcases hk.keys with h | h | h <;> rw [h]
    · exact .inl rfl
    · exact .inl rfl
    · exact .inr rfl
  have hkK : KwIn E f kt N O { kw with keyTransformer := none } := ⟨hk.fork, .inl rfl, hk.hints, hk.names⟩
  dsimp only
  split
  · next k t =>
    refine dictComp_congr es [] fun e he => ⟨?_, hr _ _ _ hkV (h1 e he) (some_in (ha _ (by simp)))⟩
    cases hashed with
    | true => rfl
    | false =>
      rw [if_neg (by decide), if_neg (by decide)]
      refine bind_congr_ok fun y hy => hr _ _ _ hkK ?_ (some_in (ha _ (by simp)))
      rw [lift_val] at hy
      have hv' : O (.val (.dict es)) := h2 rfl ▸ hv
      rcases hk.keys with h | h | h <;> rw [h] at hy
      · cases hy; exact .elem _ _ _ hv' rfl (List.mem_map_of_mem he)
      · cases hy; exact .elem _ _ _ hv' rfl (List.mem_map_of_mem he)
      · exact .key es e y hv' he hy
  · exact dictComp_congr es [] fun e he => ⟨rfl, hr _ _ _ hkV (h1 e he) none_in⟩

theorem unionDes_eq (hr : Agree E f kt N O rec rec') (v : Val) (t : Ty) (kw : LoadKw) (hk : KwIn E f kt N O kw)
    (hv : O (.val v)) (ht : O (.ty t)) : unionDes rec' v t kw = unionDes rec v t kw := by
  have hl : ∀ ts : List Ty, (∀ u ∈ ts, O (.ty u)) → unionLoadLoop rec' v t kw ts = unionLoadLoop rec v t kw ts := by
    intro ts
    induction ts with
    | nil => intro _; rfl
    | cons u ts ih =>
      intro hts
      simp only [unionLoadLoop, hr v (some u) kw hk hv (some_in (hts u List.mem_cons_self)),
        ih fun u h => hts u (List.mem_cons_of_mem _ h)]
  unfold unionDes
  cases hu : t.unionParams with
  | none => rfl
  | some ts =>
    refine hl ts fun u hm => .arg t u ht ?_
    unfold Ty.unionParams at hu
    split at hu <;> cases hu
    · exact hm
    · exact hm

theorem metaFor_in {kw : LoadKw} (hk : KwIn E f kt N O kw) {n : PyStr} {m : Option Ty × List (Val × Val)}
    (h : metaFor E kw n = .ok m) : (∀ t ∈ m.1, O (.ty t)) ∧ HintsIn E f O m.2 ∧ NamesIn N m.2 := by
  have hn := hk.names_get
  have hh : HintsIn E f O (kw.metaHints.getD []) := by
    cases hm : kw.metaHints with
    | none => exact fun _ h => nomatch h
    | some hs => exact hk.hints hs hm
  unfold metaFor at h
  dsimp only at h
  split at h
  · cases h; exact ⟨none_in, hh, hn⟩
  · next w hw =>
    split at h
    · cases h; exact ⟨none_in, hh, hn⟩
    · split at h
      · next s _ =>
        cases hc : E.clsFromStr kw.fork s with
        | error k => rw [hc] at h; cases h
        | ok t =>
          cases hrb : rebase ('/' :: n) [] (kw.metaHints.getD []) with
          | error k => rw [hc, hrb] at h; cases h
          | ok hs =>
            rw [hc, hrb] at h
            cases h
            refine ⟨some_in (get_in (P := fun x => ∀ s, x = .str s → ∀ i, i = f ∨ i = 0 → ∀ t,
              E.clsFromStr i s = .ok t → O (.ty t)) hw hh s rfl kw.fork hk.fork t hc),
              rebase_in hrb hh (fun _ h => nomatch h), rebase_names hrb hn fun _ h => nomatch h⟩
      · cases h

theorem objectDes_eq (h : Alike E con sa cs f N O) (hcu : Stay E f kt N S) (hr : Agree E f kt N O rec rec') (v : Val)
    (t : Ty) (kw : LoadKw) (hk : KwIn E f kt N O kw) (hv : O (.val v)) (ht : O (.ty t)) :
    objectDes (other E con sa cs) rec' v t kw = objectDes E rec v t kw := by
  unfold objectDes
  split
  · next c =>
    refine bind_congr_ok fun obj hobj => ?_
    rw [lift_val] at hobj
    have hvals : ∀ es, obj = .dict es → ∀ e ∈ es, O (.val e.2) := by
      rintro es rfl
      unfold transformObj at hobj
      split at hobj
      · cases hobj; exact fun e he => .value es e hv he
      · next g hg =>
        split at hobj
        · next es0 =>
          change (transformKeys E.info _ [] es0).map Val.dict = _ at hobj
          cases hts : transformKeys E.info g [] es0 with
          | error e => rw [hts] at hobj; cases hobj
          | ok ts =>
            rw [hts] at hobj
            cases hobj
            exact transformKeys_values (P := fun x => O (.val x)) (fun e he => absurd he List.not_mem_nil) (fun e he => .value es0 e hv he) hts
        · split at hobj
          · cases hobj; exact fun e he => nomatch he
          · cases hobj
    have hattr : ∀ p, valueForAttr (other E con sa cs) rec' obj c kw p = valueForAttr E rec obj c kw p := by
      intro p
      have hval : valueFromObj (other E con sa cs) rec' obj p.name (assoc (E.info c).initHints p.name) kw =
          valueFromObj E rec obj p.name (assoc (E.info c).initHints p.name) kw := by
        unfold valueFromObj
        rw [metaFor_eq h hk]
        refine bind_congr_ok fun m hm => ?_
        rw [liftS_ok] at hm
        obtain ⟨hm1, hm2, hm3⟩ := metaFor_in hk hm
        refine bind_congr_ok fun x hx => ?_
        rw [liftK_ok] at hx
        refine hr _ _ _ ⟨hk.fork, hk.keys, ?_, ?_⟩ ?_ ?_
        · rintro _ ⟨⟩; exact hm2
        · rintro _ ⟨⟩; exact hm3
        · unfold subscript at hx
          split at hx
          · next es =>
            split at hx
            · next hg => cases hx; exact get_in (P := fun x => O (.val x)) hg (hvals es rfl)
            · cases hx
          · cases hx
        · intro u hu
          simp only [determinePrecedence, if_true, List.findSome?_cons, List.findSome?_nil, id] at hu
          cases h1 : m.1 with
          | some w => rw [h1] at hu; exact hm1 u (h1 ▸ hu)
          | none =>
            rw [h1] at hu
            dsimp only at hu
            cases h2 : assoc (E.info c).initHints p.name with
            | none => rw [h2] at hu; cases hu
            | some w => rw [h2] at hu; cases hu; exact .init c _ ht (assoc_mem h2)
      unfold valueForAttr
      dsimp only
      rw [hval]
      rfl
    have hargs : ∀ ps, ctorArgs (other E con sa cs) rec' obj c kw ps = ctorArgs E rec obj c kw ps := by
      intro ps
      induction ps with
      | nil => rfl
      | cons p ps ih => simp only [ctorArgs, hattr, ih]
    have hrest : ∀ es as, (∀ e ∈ es, O (.val e.2)) →
        setRemaining (other E con sa cs) rec' c kw es as = setRemaining E rec c kw es as := by
      intro es
      induction es with
      | nil => intro as _; rfl
      | cons e es ih =>
        intro as hes
        obtain ⟨k, x⟩ := e
        have hx : O (.val x) := hes _ List.mem_cons_self
        simp only [setRemaining, fun as => ih as fun e h => hes e (List.mem_cons_of_mem _ h)]
        rw [hr x _ { kw with attrGetters := [] } ⟨hk.fork, hk.keys, hk.hints, hk.names⟩ hx]
        · simp only [setOne_eq h ht]
        · rintro _ ⟨⟩
          unfold annotation
          split
          · next s =>
            cases ha : assoc (E.info c).hints s with
            | none => exact .cls x hx
            | some u => exact .hint c _ ht (assoc_mem ha)
          · exact .cls x hx
    have hg : ∀ gs as, setGetters (other E con sa cs) c gs as = setGetters E c gs as := by
      intro gs
      induction gs with
      | nil => intro as; rfl
      | cons g gs ih =>
        intro as
        obtain ⟨n, g⟩ := g
        simp only [setGetters, ih, show sa c = E.setAttr c from h.setAttr c ht]
    rw [show (other E con sa cs).info = E.info from rfl, hargs,
      show (other E con sa cs).construct c = E.construct c from h.construct c ht]
    refine bind_congr_ok fun args _ => bind_congr_ok fun rest hrem => bind_congr_ok fun as _ => ?_
    rw [hrest]
    · simp only [hg]
    · intro e he
      unfold getRemainingArgs at hrem
      obtain ⟨rest', h1, h2⟩ := Core.bind_ok.mp hrem
      rw [liftK_ok] at h1
      have hrr : rest' = rest := by
        split at h2
        · split at h2
          · cases h2
          · cases h2; rfl
        · cases h2; rfl
      subst hrr
      unfold remainingAttrs at h1
      split at h1
      · next =>
        cases h1
        exact hvals _ rfl e (List.mem_filter.mp he).1
      · split at h1
        · cases h1; cases he
        · cases h1
  · exact (hcu rec rec' hr v _ kw hk hv ht).2

theorem callDes_eq (h : Alike E con sa cs f N O) (hcu : Stay E f kt N S) (hr : Agree E f kt N O rec rec') (g : DesFn) (v : Val) (t : Ty)
    (kw : LoadKw) (hk : KwIn E f kt N O kw) (hv : O (.val v)) (ht : O (.ty t)) {i : Nat} (hi : i = f ∨ i = 0)
    (hg : E.getDes i t = .ok (some g)) : callDes (other E con sa cs) rec' g v t kw = callDes E rec g v t kw := by
  have harg : ∀ a ∈ t.getArgs, O (.ty a) := fun a ha => .arg t a ht ha
  have h0 : KwIn E f kt N O {} := ⟨.inr rfl, .inl rfl, (fun _ h => nomatch h), fun _ h => nomatch h⟩
  cases g with
  | list =>
    show (do let ys ← listDes _ _ _ _ _; pure _) = (do let ys ← listDes _ _ _ _ _; pure _)
    rw [listDes_eq hr v _ kw hk hv harg]
  | tuple => exact tupleDes_eq hr v t kw hk hv ht
  | union => exact unionDes_eq hr v t kw hk hv ht
  | defaultdict =>
    show defaultdictDes _ _ _ _ = defaultdictDes _ _ _ _
    have hd : O (.ty (.gen .dict t.getArgs)) := .dict i t hi ht hg
    unfold defaultdictDes
    generalize t.getArgs = args at hd
    split
    · rw [pure_bind', pure_bind']; dsimp only; rw [hr _ _ _ hk hv (some_in hd)]
    · rw [pure_bind', pure_bind']; dsimp only; rw [hr _ _ _ hk hv (some_in hd)]
    · rfl
  | timezone =>
    show timezoneDes _ _ = timezoneDes _ _
    unfold timezoneDes
    refine bind_congr_ok fun x hx => ?_
    rw [liftK_ok] at hx
    rw [hr _ _ _ h0 (subscript_in hv hx) (some_in (.offset i t hi ht hg))]
  | complex =>
    show complexDes _ _ = complexDes _ _
    unfold complexDes
    dsimp only
    refine congrArg (· >>= _) (congrArg _ ?_)
    refine bind_congr_ok fun re hre => bind_congr_ok fun im him => ?_
    rw [liftK_ok] at hre him
    rw [hr _ _ _ h0 (.numbers i t v re im hi ht hg hv hre him) (some_in (.complex i t hi ht hg))]
  | string =>
    show stringDes _ _ _ _ _ = stringDes _ _ _ _ _
    unfold stringDes
    rw [hr _ _ kw hk hv (some_in (.datetime i t hi ht hg))]
    rfl
  | mapping =>
    show mappingDes _ _ _ _ _ = mappingDes _ _ _ _ _
    unfold mappingDes
    rw [dictDes_eq hr v _ kw hk hv harg]
  | iterable =>
    show iterableDes _ _ _ _ _ = iterableDes _ _ _ _ _
    unfold iterableDes
    rw [listDes_eq hr v _ kw hk hv harg]
  | object => exact objectDes_eq h hcu hr v t kw hk hv ht
  | custom id => exact (hcu rec rec' hr v t kw hk hv ht).1 id
  | _ => rfl

theorem loadFrom_eq (h : Alike E con sa cs f N O) (hN : ∀ v s, O (.val v) → Names v s → N s) (hcu : Stay E f kt N S) (hr : Agree E f kt N O rec rec')
    (v : Val) (cls : Option Ty) (kw : LoadKw) (hk : KwIn E f kt N O kw) (hv : O (.val v)) (hc : ∀ t ∈ cls, O (.ty t)) :
    loadFrom (other E con sa cs) rec' v cls kw = loadFrom E rec v cls kw := by
  unfold loadFrom
  split
  · rfl
  · rw [getClsAndMeta_eq h hk.fork fun s hs => hN v s hv hs]
    refine bind_congr_ok fun m hm => ?_
    rw [liftS_ok] at hm
    dsimp only
    generalize hT : (determinePrecedence cls (m.map (·.1)) (some (.cls v.cls)) kw.inferred).getD (.cls v.cls) = t
    have hmt : ∀ u ∈ m.map (·.1), O (.ty u) := by
      cases m with
      | none => exact none_in
      | some p => exact some_in (.named v kw.fork p.1 p.2 hk.fork hv hm)
    have ht : O (.ty t) := by
      have key : ∀ l : List (Option Ty), (∀ o ∈ l, ∀ u ∈ o, O (.ty u)) → O (.ty ((l.findSome? id).getD (.cls v.cls))) := by
        intro l hl
        cases hf : l.findSome? id with
        | none => exact .cls v hv
        | some u =>
          obtain ⟨o, ho, hou⟩ := List.exists_of_findSome?_eq_some hf
          exact hl o ho u hou
      rw [← hT]
      unfold determinePrecedence
      dsimp only
      refine key _ ?_
      intro o ho
      split at ho <;> simp only [List.mem_cons, List.not_mem_nil, or_false] at ho <;>
        rcases ho with rfl | rfl | rfl
      · exact hmt
      · exact hc
      · exact some_in (.cls v hv)
      · exact hc
      · exact hmt
      · exact some_in (.cls v hv)
    rw [show (other E con sa cs).getDes kw.fork t = E.getDes kw.fork t from rfl]
    refine bind_congr_ok fun fn hfn => ?_
    rw [liftK_ok] at hfn
    have hk' : KwIn E f kt N O { kw with
        metaHints := some (kw.metaHints.getD ((m.map (·.2)).getD []))
        inferred := decide (some t ≠ cls) } := by
      refine ⟨hk.fork, hk.keys, ?_, ?_⟩ <;> rintro _ ⟨⟩ <;> cases hmh : kw.metaHints
      case refine_2.some hs => exact hk.names hs hmh
      case refine_2.none =>
        cases m with
        | none => exact fun _ h => nomatch h
        | some p => exact fun e he s hs => hN v s hv (meta_names (k := e.1) hm (by rw [← hs]; exact he))
      case refine_1.some hs => exact hk.hints hs hmh
      case refine_1.none =>
        cases m with
        | none => exact fun _ h => nomatch h
        | some p => exact fun e hm' s hs j hj u hu => .hinted v kw.fork j p.1 u p.2 e.1 s hk.fork hj hv hm (by rw [← hs]; exact hm') hu
    unfold doLoad
    cases fn with
    | none => rfl
    | some g =>
      dsimp only
      rw [callDes_eq h hcu hr g v t _ hk' hv ht hk.fork hfn]
      rfl

theorem loadRec_agree (h : Alike E con sa cs f N O) (hN : ∀ v s, O (.val v) → Names v s → N s) (hcu : Stay E f kt N S) :
    ∀ n, Agree E f kt N O (loadRec E n) (loadRec (other E con sa cs) n) := by
  intro n
  induction n with
  | zero => exact fun _ _ _ _ _ _ => rfl
  | succ n ih =>
    intro v cls kw hk hv hc
    have hnone : checkForNone (other E con sa cs) v cls = checkForNone E v cls := rfl
    simp only [loadRec, loadWith, loadFrom_eq h hN hcu ih v cls kw hk hv hc, hnone]
    rfl

end

/-! ## The theorems -/

/-- The names that are written in the '-meta' sections of the document and in the class hints that
the call is given. -/
def Written (E : LEnv) (v : Val) (cls : Option Ty) (kw : LoadKw) (s : PyStr) : Prop :=
  (∃ w, LOccurs E kw.fork (kw.keyTransformer.getD .ok) (LGiven E v cls kw) (.val w) ∧ Names w s) ∨
  ∃ hs ∈ kw.metaHints, ∃ k, (k, Val.str s) ∈ hs

/-- C112 for every document: what `load(v, cls, **kw)` returns, raises and warns of is the same
whatever the constructors and attribute setters of classes do that do not occur in the load (as
the class that is asked for, as a parameter or a type hint, or because '-meta' names it), and
whatever classes there are behind the names that are not written in the document. -/
theorem load_other_class (E : LEnv) (con : Nat → List (PyStr × Val) → Except Err (List (PyStr × Val)))
    (sa : Nat → List (PyStr × Val) → PyStr → Val → Except Err (List (PyStr × Val)))
    (cs : Nat → PyStr → Except ErrKind Ty) (n : Nat) (v : Val) (cls : Option Ty) (kw : LoadKw)
    (hstay : Stay E kw.fork (kw.keyTransformer.getD .ok) (Written E v cls kw) (LGiven E v cls kw))
    (hcon : ∀ c, LOccurs E kw.fork (kw.keyTransformer.getD .ok) (LGiven E v cls kw) (.ty (.cls (.user c))) →
      con c = E.construct c ∧ sa c = E.setAttr c)
    (hname : ∀ i, i = kw.fork ∨ i = 0 → ∀ s, Written E v cls kw s → cs i s = E.clsFromStr i s) :
    load { E with construct := con, setAttr := sa, clsFromStr := cs } n v cls kw = load E n v cls kw := by
  refine loadRec_agree (con := con) (sa := sa) (cs := cs) (f := kw.fork) (kt := kw.keyTransformer.getD .ok)
    (N := Written E v cls kw) (S := LGiven E v cls kw)
    ⟨fun c hc => (hcon c hc).1, fun c hc => (hcon c hc).2, hname⟩ (fun w s hw hs => .inl ⟨w, hw, hs⟩) hstay n v cls kw
    ⟨.inl rfl, ?_, ?_, ?_⟩ (.given _ rfl) fun t ht => .given _ (.inl ht)
  · cases kw.keyTransformer with
    | none => exact .inl rfl
    | some f => exact .inr (.inr rfl)
  · intro hs hhs e hm s he i hi t ht
    exact .given _ (.inr ⟨hs, hhs, e.1, s, i, by rw [← he]; exact hm, hi, ht⟩)
  · intro hs hhs e hm s he
    exact .inr ⟨hs, hhs, e.1, by rw [← he]; exact hm⟩

/-- The types that are mentioned by the type `cls` and the names `N`: the type itself, its
parameters, the type hints of the class and of its constructor, theirs, and so on; the classes
with these names, what they mention, and so on.  The classes of Python are not the program's. -/
inductive Mentions (E : LEnv) (f : Nat) (N : PyStr → Prop) (cls : Option Ty) : Ty → Prop where
  | asked (t : Ty) : t ∈ cls → Mentions E f N cls t
  | named (s : PyStr) (i : Nat) (t : Ty) : N s → i = f ∨ i = 0 → E.clsFromStr i s = .ok t → Mentions E f N cls t
  | arg (t a : Ty) : Mentions E f N cls t → a ∈ t.getArgs → Mentions E f N cls a
  | hint (c : Nat) (h : PyStr × Ty) : Mentions E f N cls (.cls (.user c)) → h ∈ (E.info c).hints → Mentions E f N cls h.2
  | init (c : Nat) (h : PyStr × Ty) : Mentions E f N cls (.cls (.user c)) → h ∈ (E.info c).initHints →
      Mentions E f N cls h.2
  | builtin (k : Cls) : (∀ c, k ≠ .user c) → Mentions E f N cls (.cls k)
  | dict (t : Ty) : Mentions E f N cls t → Mentions E f N cls (.gen .dict t.getArgs)
  | numbers : Mentions E f N cls dictStrFloat

/-- A document of values without parts, lists, tuples and dicts, in which all texts under
'-meta', 'classes' are in `N`. -/
inductive Doc (N : PyStr → Prop) : Val → Prop where
  | atom (a : Atom) : Doc N (.atom a)
  | list (xs : List Val) : (∀ x ∈ xs, Doc N x) → Doc N (.list xs)
  | tuple (xs : List Val) : (∀ x ∈ xs, Doc N x) → Doc N (.tuple xs)
  | dict (es : List (Val × Val)) :
      (∀ e ∈ es, e.1 = .str metaKey → ∀ hints k s, subscript e.2 "classes".toList = .ok (.dict hints) →
        (k, .str s) ∈ hints → N s) →
      (∀ e ∈ es, Doc N e.1) → (∀ e ∈ es, Doc N e.2) → Doc N (.dict es)

theorem doc_names {N : PyStr → Prop} {v : Val} {s : PyStr} (h : Doc N v) (hs : Names v s) : N s := by
  obtain ⟨es, m, hints, k, rfl, hg, hc, hm⟩ := hs
  obtain ⟨e, he, rfl, hk⟩ := dictGet_mem hg
  cases h with
  | dict _ h _ _ => exact h e he (pyEq_eq_str hk) hints k s hc hm

theorem doc_get {N : PyStr → Prop} {es : List (Val × Val)} {k x : Val} (h : Doc N (.dict es)) (hg : dictGet es k = some x) :
    Doc N x := by
  obtain ⟨e, he, rfl, _⟩ := dictGet_mem hg
  cases h with
  | dict _ _ _ h => exact h e he

theorem doc_subscript {N : PyStr → Prop} {v x : Val} {n : PyStr} (h : Doc N v) (hs : subscript v n = .ok x) : Doc N x := by
  unfold subscript at hs
  split at hs
  · split at hs
    · next hg => cases hs; exact doc_get h hg
    · cases hs
  · cases hs

theorem doc_iter {N : PyStr → Prop} {v x : Val} {xs : List Val} (h : Doc N v) (hi : v.iter = some xs) (hx : x ∈ xs) :
    Doc N x := by
  cases h with
  | atom a =>
    cases a with
    | str s =>
      cases hi
      obtain ⟨c, _, rfl⟩ := List.mem_map.mp hx
      exact .atom _
    | _ => cases hi
  | list ys h => cases hi; exact h x hx
  | tuple ys h => cases hi; exact h x hx
  | dict es _ h _ =>
    cases hi
    obtain ⟨e, he, rfl⟩ := List.mem_map.mp hx
    exact h e he

theorem doc_cls {N : PyStr → Prop} {v : Val} (h : Doc N v) (c : Nat) : v.cls ≠ .user c := by
  cases h with
  | atom a => cases a <;> nofun
  | _ => nofun

/-- The defaults of the named tuples that are mentioned are such documents, too: they are loaded
like values of a document. -/
def PlainDefaults (E : LEnv) (f : Nat) (N : PyStr → Prop) (cls : Option Ty) : Prop :=
  ∀ c, Mentions E f N cls (.cls (.user c)) → (E.info c).kind = .ntuple → ∀ d ∈ (E.info c).fieldDefaults, Doc N d.2

/-- The documents with names in `N` and the types that are mentioned. -/
def Expected (E : LEnv) (f : Nat) (N : PyStr → Prop) (cls : Option Ty) : Thing → Prop
  | .val w => Doc N w
  | .ty t => Mentions E f N cls t

/-- What occurs in the load of a document is mentioned by the type or by a name. -/
theorem occurs_mentioned {E : LEnv} {N : PyStr → Prop} {v : Val} {cls : Option Ty} {kw : LoadKw} (hv : Doc N v)
    (hm : ∀ hs ∈ kw.metaHints, NamesIn N hs) (hd : PlainDefaults E kw.fork N cls)
    (hkt : ∀ g ∈ kw.keyTransformer, ∀ k k', Doc N k → g k = .ok k' → Doc N k') (x : Thing)
    (h : LOccurs E kw.fork (kw.keyTransformer.getD .ok) (LGiven E v cls kw) x) : Expected E kw.fork N cls x := by
  induction h with
  | given x h =>
    cases x with
    | val w => show Doc N w; rw [show w = v from h]; exact hv
    | ty t =>
      rcases h with h | ⟨hs, h, k, s, i, hmem, hi, ht⟩
      · exact .asked t h
      · exact .named s i t (hm hs h _ hmem s rfl) hi ht
  | elem v x xs _ hi hx ih => exact doc_iter ih hi hx
  | value es e _ he ih =>
    cases ih with
    | dict _ _ _ h => exact h e he
  | key es e k _ he hk ih =>
    have hu : Doc N e.1 := by
      cases ih with
      | dict _ _ h _ => exact h e he
    show Doc N k
    cases ht : kw.keyTransformer with
    | none => rw [ht] at hk; cases hk; exact hu
    | some g => rw [ht] at hk; exact hkt g ht _ _ hu hk
  | del es k _ ih =>
    cases ih with
    | dict _ h1 h2 h3 =>
      exact .dict _ (fun e he => h1 e (dictDel_mem he)) (fun e he => h2 e (dictDel_mem he))
        fun e he => h3 e (dictDel_mem he)
  | default c d _ hk hd' ih => exact hd c ih hk d hd'
  | none c _ hk ih => exact .atom _
  | cls v _ ih => exact .builtin _ (doc_cls ih)
  | arg t a _ ha ih => exact .arg t a ih ha
  | hint c h _ hh ih => exact .hint c h ih hh
  | init c h _ hh ih => exact .init c h ih hh
  | named v i t hs hi _ hm ih =>
    obtain ⟨s, hs', ht⟩ := meta_found hm
    exact .named s i t (doc_names ih hs') hi ht
  | hinted v i j t u hs k s hi hj _ hm hmem hu ih =>
    exact .named s j u (doc_names ih (meta_names hm hmem)) hj hu
  | datetime i t => exact .builtin _ nofun
  | offset i t _ _ hg ih => exact .builtin _ nofun
  | dict i t _ _ hg ih => exact .dict t ih
  | complex i t _ _ hg ih => exact .numbers
  | numbers i t v re im _ _ hg _ hre him _ ih =>
    refine .dict _ ?_ ?_ ?_ <;> intro e he <;> simp only [List.mem_cons, List.not_mem_nil, or_false] at he <;>
      rcases he with rfl | rfl
    · exact fun h => absurd h (show Val.str "real".toList ≠ .str metaKey by decide)
    · exact fun h => absurd h (show Val.str "imag".toList ≠ .str metaKey by decide)
    · exact .atom _
    · exact .atom _
    · exact doc_subscript ih hre
    · exact doc_subscript ih him

/-- C112: only the classes are made that the requested type mentions or that are named in the
'-meta' sections of the document, and no other names are looked up.  Whatever the constructors and
attribute setters of all other classes do, and whatever `get_cls_from_str` finds for other names,
`load(v, cls, **kw)` returns, raises and warns of the same. -/
theorem load_makes_mentioned (E : LEnv) (con : Nat → List (PyStr × Val) → Except Err (List (PyStr × Val)))
    (sa : Nat → List (PyStr × Val) → PyStr → Val → Except Err (List (PyStr × Val)))
    (cs : Nat → PyStr → Except ErrKind Ty) (n : Nat) (N : PyStr → Prop) (v : Val) (cls : Option Ty) (kw : LoadKw)
    (hv : Doc N v) (hm : ∀ hs ∈ kw.metaHints, NamesIn N hs) (hd : PlainDefaults E kw.fork N cls)
    (hkt : ∀ g ∈ kw.keyTransformer, ∀ k k', Doc N k → g k = .ok k' → Doc N k')
    (hstay : Stay E kw.fork (kw.keyTransformer.getD .ok) (Written E v cls kw) (LGiven E v cls kw))
    (hcon : ∀ c, Mentions E kw.fork N cls (.cls (.user c)) → con c = E.construct c ∧ sa c = E.setAttr c)
    (hcs : ∀ i s, N s → cs i s = E.clsFromStr i s) :
    load { E with construct := con, setAttr := sa, clsFromStr := cs } n v cls kw = load E n v cls kw := by
  refine load_other_class E con sa cs n v cls kw hstay (fun c hc => hcon c (occurs_mentioned hv hm hd hkt _ hc)) ?_
  rintro i _ s (⟨w, hw, hs⟩ | ⟨hs, h, k, hmem⟩)
  · exact hcs i s (doc_names (show Doc N w from occurs_mentioned hv hm hd hkt _ hw) hs)
  · exact hcs i s (hm hs h _ hmem s rfl)

/-- Without a class and without names in the document nothing of the program is made at all, and no
name is looked up. -/
theorem load_makes_nothing (E : LEnv) (con : Nat → List (PyStr × Val) → Except Err (List (PyStr × Val)))
    (sa : Nat → List (PyStr × Val) → PyStr → Val → Except Err (List (PyStr × Val)))
    (cs : Nat → PyStr → Except ErrKind Ty) (n : Nat) (v : Val) (kw : LoadKw)
    (hv : Doc (fun _ => False) v) (hm : kw.metaHints = none)
    (hkt : ∀ g ∈ kw.keyTransformer, ∀ k k', Doc (fun _ => False) k → g k = .ok k' → Doc (fun _ => False) k')
    (hstay : Stay E kw.fork (kw.keyTransformer.getD .ok) (Written E v none kw) (LGiven E v none kw)) :
    load { E with construct := con, setAttr := sa, clsFromStr := cs } n v none kw = load E n v none kw := by
  have key : ∀ t, Mentions E kw.fork (fun _ => False) none t →
      (∃ k, (∀ c, k ≠ Cls.user c) ∧ t = .cls k) ∨ t = .gen .dict [] ∨ t = dictStrFloat := by
    intro t h
    induction h with
    | asked t h => cases h
    | named s i t h => exact absurd h id
    | arg t a _ ha ih =>
      rcases ih with ⟨k, _, rfl⟩ | rfl | rfl
      · cases ha
      · cases ha
      · have : a = .cls .str ∨ a = .cls .float := by
          change a ∈ [Ty.cls .str, .cls .float] at ha
          simpa using ha
        rcases this with rfl | rfl <;> exact .inl ⟨_, (fun c h => by cases h), rfl⟩
    | hint c h _ _ ih =>
      rcases ih with ⟨k, hk, he⟩ | he | he
      · cases he; exact absurd rfl (hk c)
      · cases he
      · cases he
    | init c h _ _ ih =>
      rcases ih with ⟨k, hk, he⟩ | he | he
      · cases he; exact absurd rfl (hk c)
      · cases he
      · cases he
    | builtin k hk => exact .inl ⟨k, hk, rfl⟩
    | dict t _ ih =>
      rcases ih with ⟨k, _, rfl⟩ | rfl | rfl
      · exact .inr (.inl rfl)
      · exact .inr (.inl rfl)
      · exact .inr (.inr rfl)
    | numbers => exact .inr (.inr rfl)
  have hno : ∀ c, ¬ Mentions E kw.fork (fun _ => False) none (.cls (.user c)) := by
    intro c h
    rcases key _ h with ⟨k, hk, he⟩ | he | he
    · cases he; exact hk c rfl
    · cases he
    · cases he
  exact load_makes_mentioned E con sa cs n _ v none kw hv (by rw [hm]; exact nofun) (fun c hc => absurd hc (hno c)) hkt
    hstay (fun c hc => absurd hc (hno c)) fun _ _ h => absurd h id

/-! ## Examples -/

/-- What `Point` mentions. -/
theorem point_mentions {t : Ty} (h : Mentions (demoLEnv demoInfo) 0 (fun _ => False) (some (.cls (.user 0))) t) :
    t = .cls (.user 0) ∨ (∃ k, (∀ c, k ≠ Cls.user c) ∧ t = .cls k) ∨ t = .gen .dict [] ∨ t = dictStrFloat := by
  induction h with
  | asked t h => cases h; exact .inl rfl
  | named s i t h => exact absurd h id
  | arg t a _ ha ih =>
    rcases ih with rfl | ⟨k, _, rfl⟩ | rfl | rfl
    · cases ha
    · cases ha
    · cases ha
    · have : a = .cls .str ∨ a = .cls .float := by
        change a ∈ [Ty.cls .str, .cls .float] at ha
        simpa using ha
      rcases this with rfl | rfl <;> exact .inr (.inl ⟨_, (fun c h => by cases h), rfl⟩)
  | hint c h _ hh ih =>
    rcases ih with he | ⟨k, hk, he⟩ | he | he
    · cases he
      simp only [demoLEnv, demoEnv, demoInfo, List.mem_cons, List.not_mem_nil, or_false] at hh
      rcases hh with rfl | rfl <;> exact .inr (.inl ⟨_, (fun c h => by cases h), rfl⟩)
    · cases he; exact absurd rfl (hk c)
    · cases he
    · cases he
  | init c h _ hh ih =>
    rcases ih with he | ⟨k, hk, he⟩ | he | he
    · cases he
      simp only [demoLEnv, demoEnv, demoInfo, List.mem_cons, List.not_mem_nil, or_false] at hh
      rcases hh with rfl | rfl <;> exact .inr (.inl ⟨_, (fun c h => by cases h), rfl⟩)
    · cases he; exact absurd rfl (hk c)
    · cases he
    · cases he
  | builtin k hk => exact .inr (.inl ⟨k, hk, rfl⟩)
  | dict t _ ih =>
    rcases ih with rfl | ⟨k, _, rfl⟩ | rfl | rfl
    · exact .inr (.inr (.inl rfl))
    · exact .inr (.inr (.inl rfl))
    · exact .inr (.inr (.inl rfl))
    · exact .inr (.inr (.inr rfl))
  | numbers => exact .inr (.inr (.inr rfl))

/-- `Point` is the only class of the program that `Point` mentions. -/
theorem point_only {c : Nat} (h : Mentions (demoLEnv demoInfo) 0 (fun _ => False) (some (.cls (.user 0))) (.cls (.user c))) : c = 0 := by
  rcases point_mentions h with he | ⟨k, hk, he⟩ | he | he
  · cases he; rfl
  · cases he; exact absurd rfl (hk c)
  · cases he
  · cases he

/-- A document with something more in it than `Point` asks for: a dict with the entries of a
`Person`. -/
def doc : Val := .dict [(.str "x".toList, .int 1), (.str "y".toList, .int 2),
  (.str "who".toList, .dict [(.str "name".toList, .str "a".toList), (.str "born".toList, .int 3)])]

theorem doc_named : Doc (fun _ => False) doc := by
  refine .dict _ ?_ ?_ ?_
  · simp only [List.mem_cons, List.not_mem_nil, or_false]
    rintro _ (rfl | rfl | rfl) h <;> exact absurd h (by decide)
  · simp only [List.mem_cons, List.not_mem_nil, or_false]
    rintro _ (rfl | rfl | rfl) <;> exact .atom _
  · simp only [List.mem_cons, List.not_mem_nil, or_false]
    rintro _ (rfl | rfl | rfl)
    · exact .atom _
    · exact .atom _
    · refine .dict _ ?_ ?_ ?_
      · simp only [List.mem_cons, List.not_mem_nil, or_false]
        rintro _ (rfl | rfl) h <;> exact absurd h (by decide)
      · simp only [List.mem_cons, List.not_mem_nil, or_false]
        rintro _ (rfl | rfl) <;> exact .atom _
      · simp only [List.mem_cons, List.not_mem_nil, or_false]
        rintro _ (rfl | rfl) <;> exact .atom _

/-- The constructors of all other classes do not matter to a `Point`. -/
example (con : Nat → List (PyStr × Val) → Except Err (List (PyStr × Val)))
    (sa : Nat → List (PyStr × Val) → PyStr → Val → Except Err (List (PyStr × Val)))
    (cs : Nat → PyStr → Except ErrKind Ty) (h1 : con 0 = (demoLEnv demoInfo).construct 0)
    (h2 : sa 0 = (demoLEnv demoInfo).setAttr 0) :
    load { demoLEnv demoInfo with construct := con, setAttr := sa, clsFromStr := cs } 9 doc (some (.cls (.user 0))) {} =
      load (demoLEnv demoInfo) 9 doc (some (.cls (.user 0))) {} := by
  refine load_makes_mentioned _ con sa cs 9 (fun _ => False) doc _ {} doc_named nofun ?_ nofun
    (fun _ _ _ _ _ _ _ _ _ => ⟨fun _ => rfl, rfl⟩) ?_ fun _ _ h => absurd h id
  · intro c hc hk
    cases point_only hc
    cases hk
  · intro c hc
    cases point_only hc
    exact ⟨h1, h2⟩

/-- The load that the example is about: the dict stays a dict. -/
example : (load (demoLEnv demoInfo) 9 doc (some (.cls (.user 0))) {}).val =
    .ok (.obj 0 [("x".toList, .int 1), ("y".toList, .int 2),
      ("who".toList, .dict [(.str "name".toList, .str "a".toList), (.str "born".toList, .int 3)])]) := by decide +kernel

/-- A document with a class of its own choice for `x`, which `Point` wants to be an `int`. -/
def marked : Val := .dict [
  (.str metaKey, .dict [(.str "classes".toList, .dict [(.str "/".toList, .str "__main__.Point".toList),
    (.str "/x".toList, .str "__main__.Person".toList)])]),
  (.str "x".toList, .dict [(.str "name".toList, .str "a".toList), (.str "born".toList, .int 3)]),
  (.str "y".toList, .int 2)]

/-- The names in '-meta' do matter: the document can name any class, which is then made, although the
class `Point` is asked for, the type hint says `int` and strict mode is on.  `Point` does not
mention that class. -/
theorem document_chooses_class :
    (∀ c, Mentions (demoLEnv demoInfo) 0 (fun _ => False) (some (.cls (.user 0))) (.cls (.user c)) → c = 0) ∧
    (load (demoLEnv demoInfo) 9 marked (some (.cls (.user 0))) { strict := true }).val =
      .ok (.obj 0 [("x".toList, .obj 5 [("name".toList, .str "a".toList), ("born".toList, .int 3)]),
        ("y".toList, .int 2)]) ∧
    ∃ con : Nat → List (PyStr × Val) → Except Err (List (PyStr × Val)),
      (∀ c, c ≠ 5 → con c = (demoLEnv demoInfo).construct c) ∧
      load { demoLEnv demoInfo with construct := con } 9 marked (some (.cls (.user 0))) { strict := true } ≠
        load (demoLEnv demoInfo) 9 marked (some (.cls (.user 0))) { strict := true } := by
  refine ⟨fun c => point_only, by decide +kernel,
    fun c as => if c = 5 then .error { kind := .valueError } else (demoLEnv demoInfo).construct c as, ?_, ?_⟩
  · intro c hc
    funext as
    exact if_neg hc
  · intro h
    have h' := congrArg Res.val h
    revert h'
    decide +kernel

/-- The name in '-meta' is looked up even if the class is given and is the one to be made: if it is
not found, `load` raises. -/
theorem load_looks_up_name (E : LEnv) (n : Nat) (es : List (Val × Val)) (m : Val) (hints : List (Val × Val)) (s : PyStr)
    (k : ErrKind) (t : Ty) (kw : LoadKw) (hm : dictGet es (.str metaKey) = some m)
    (hc : subscript m "classes".toList = .ok (.dict hints)) (hr : dictGet hints (.str "/".toList) = some (.str s))
    (hn : E.clsFromStr kw.fork s = .error k) (ht : t ≠ .any) (hd : kw.strict = true ∨ t ≠ .cls .dict) :
    ∃ e, (load E (n + 1) (.dict es) (some t) kw).val = .error e ∧ e.kind = k := by
  have hg : getClsAndMeta E (.dict es) kw.fork = .error k := by
    unfold getClsAndMeta
    dsimp only
    rw [hm]
    dsimp only
    rw [hc]
    have hs : subscript (.dict hints) "/".toList = .ok (.str s) := by
      unfold subscript
      dsimp only
      rw [hr]
    change (subscript (.dict hints) "/".toList >>= _) = _
    rw [hs]
    change (E.clsFromStr kw.fork s >>= _) = _
    rw [hn]
    rfl
  have hcond : ¬ ((kw.strict = false ∧ some t = some (.cls (Val.dict es).cls)) ∨ some t = some .any) := by
    rintro (⟨h1, h2⟩ | h)
    · cases h2
      rcases hd with h | h
      · rw [h] at h1; cases h1
      · exact h rfl
    · cases h; exact ht rfl
  have hl : load E (n + 1) (.dict es) (some t) kw = loadFrom E (loadRec E n) (.dict es) (some t) kw := by
    show loadWith E (loadRec E n) (.dict es) (some t) kw = _
    unfold loadWith
    rw [if_neg hcond]
    rfl
  rw [hl]
  unfold loadFrom
  rw [if_neg (show ¬ (Val.dict es).cls ∉ validTypes from not_not_intro (show Cls.dict ∈ validTypes by decide)), hg]
  exact ⟨_, rfl, rfl⟩

/-- For example: the document of an object of a class that is not found by its name. -/
example : (load (demoLEnv demoInfo) 9 (.dict [(.str metaKey, .dict [(.str "classes".toList, .dict [(.str "/".toList,
    .str "__main__.Other".toList)])])]) (some (.cls (.user 0))) {}).val.isOk = false := by decide +kernel

end Verif.Props.Trust
