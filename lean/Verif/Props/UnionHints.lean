import Verif.Props.Widening

/-! # The order of the members of unions in hints (C117) -/

set_option autoImplicit false

namespace Verif.Props.UnionHints

open Verif Verif.Core
open Verif.Props.LoadBasics Verif.Props.LoadCollections Verif.Props.LoadObject
open Verif.Props.UnionOrder (NoneFine Agree SameResult Reordered union_shallow union_order_load_partial
  forall₂_same)
open Verif.Props.Widening
open Verif.Props.SchemaGrowth (scalars)

/-! ## The specification -/

/-- The second type, in the new program, is the first one, in the old program, with unions
reordered, at whatever depth, also in the hints of classes.  The members of a reordered union agree
on the parts of the document `v` that are loaded as this union. -/
inductive ReorderedH (E E' : LEnv) : LoadKw → Val → Option Ty → Option Ty → Prop where
  /-- what both programs load alike -/
  | same (kw : LoadKw) (v : Val) (o : Option Ty)
      (h : ∀ n, (load E n v o kw).val = (load E' n v o kw).val) : ReorderedH E E' kw v o o
  /-- the members of the union are reordered -/
  | perm (kw : LoadKw) (v : Val) (o : Option Ty) (ts us : List Ty)
      (h : ReorderedH E E' kw v o (some (.union ts))) (hp : ts.Perm us) (h1 : v.cls ∈ validTypes)
      (hm : NoMeta v) (hn : NoneFine E' v ts)
      (ha : ∀ n, Agree (fun t => (load E' n v (some t) kw).val) ts) :
      ReorderedH E E' kw v o (some (.union us))
  /-- within the members of a union -/
  | members (kw : LoadKw) (v : Val) (ts us : List Ty) (hl : ts.length = us.length)
      (h1 : v.cls ∈ validTypes) (hm : NoMeta v) (hn : NoneFine E v ts) (hn' : NoneFine E' v us)
      (h : ∀ (i : Nat) t u, ts[i]? = some t → us[i]? = some u → ReorderedH E E' kw v (some t) (some u)) :
      ReorderedH E E' kw v (some (.union ts)) (some (.union us))
  | list (kw : LoadKw) (v : Val) (xs : List Val) (a b : Ty) (h1 : v.cls ∈ validTypes)
      (hm : NoMeta v) (hx : v.iter = some xs) (he : ∀ x ∈ xs, NoMeta x)
      (h : ∀ x ∈ xs, ReorderedH E E' kw x (some a) (some b)) :
      ReorderedH E E' kw v (some (.gen .list [a])) (some (.gen .list [b]))
  | tuple (kw : LoadKw) (v : Val) (xs : List Val) (ts us : List Ty) (h0 : ts ≠ [])
      (hl : ts.length = us.length) (h1 : v.cls ∈ validTypes) (hm : NoMeta v) (hx : v.iter = some xs)
      (he : ∀ x ∈ xs, NoMeta x)
      (h : ∀ (i : Nat) t u x, ts[i]? = some t → us[i]? = some u → xs[i]? = some x →
        ReorderedH E E' { kw with keyTransformer := none } x (some t) (some u)) :
      ReorderedH E E' kw v (some (.gen .tuple ts)) (some (.gen .tuple us))
  /-- sets, frozensets, deques and `Iterable[...]` -/
  | each (kw : LoadKw) (v : Val) (xs : List Val) (g : Gen) (a b : Ty)
      (hg : g ∈ [Gen.set, .frozenset, .deque, .iterable]) (h1 : v.cls ∈ validTypes)
      (hm : NoMeta v) (hx : v.iter = some xs) (he : ∀ x ∈ xs, NoMeta x)
      (h : ∀ x ∈ xs, ReorderedH E E' kw x (some a) (some b)) :
      ReorderedH E E' kw v (some (.gen g [a])) (some (.gen g [b]))
  /-- `Tuple[..., ...]` with any number of elements -/
  | ellipsis (kw : LoadKw) (v : Val) (xs : List Val) (a b : Ty) (h1 : v.cls ∈ validTypes)
      (hm : NoMeta v) (hx : v.iter = some xs) (he : ∀ x ∈ xs, NoMeta x)
      (h : ∀ x ∈ xs, ReorderedH E E' { kw with keyTransformer := none } x (some a) (some b)) :
      ReorderedH E E' kw v (some (.gen .tupleEll [a])) (some (.gen .tupleEll [b]))
  | dict (kw : LoadKw) (g : Gen) (es : List (Val × Val)) (k l a b : Ty) (hg : g = .dict ∨ g = .mapping)
      (hm : dictGet es (.str metaKey) = none) (hh : dictGet es (.str keysKey) = none)
      (he : ∀ e ∈ es, NoMeta e.2)
      (hk : ∀ e ∈ es, ∀ k, kw.keyTransformer.getD .ok e.1 = .ok k → NoMeta k)
      (h : ∀ e ∈ es, ∀ q, kw.keyTransformer.getD .ok e.1 = .ok q →
        ReorderedH E E' { kw with keyTransformer := none } q (some k) (some l))
      (h' : ∀ e ∈ es, ReorderedH E E' { kw with keyTransformer := some (kw.keyTransformer.getD .ok) } e.2
        (some a) (some b)) :
      ReorderedH E E' kw (.dict es) (some (.gen g [k, a])) (some (.gen g [l, b]))
  /-- a default dict with the type `a` of values, which is also what makes the missing values -/
  | ddict (kw : LoadKw) (es : List (Val × Val)) (k l a : Ty) (hm : dictGet es (.str metaKey) = none)
      (h : ReorderedH E E' kw (.dict es) (some (.gen .dict [k, a])) (some (.gen .dict [l, a]))) :
      ReorderedH E E' kw (.dict es) (some (.gen .defaultdict [k, a])) (some (.gen .defaultdict [l, a]))
  /-- in the hints of the class `c` -/
  | obj (kw : LoadKw) (c : Nat) (es : List (Val × Val)) (hc : (E.info c).kind = .plain) (hp : Plain kw es)
      (hn : ∀ p ∈ (E.info c).params, MayBeNone (assoc (E.info c).initHints p.name) ↔
        MayBeNone (assoc (E'.info c).initHints p.name))
      (h : ∀ es', Transformed E kw es es' → ∀ s x, (Val.str s, x) ∈ es' →
        ReorderedH E E' (partKw kw) x (assoc (E.info c).initHints s) (assoc (E'.info c).initHints s))
      (h' : ∀ es', Transformed E kw es es' → ∀ s x, (Val.str s, x) ∈ es' → ¬ Known (E.info c) (.str s) →
        ReorderedH E E' (partKw kw) x (some ((assoc (E.info c).hints s).getD (.cls x.cls)))
          (some ((assoc (E'.info c).hints s).getD (.cls x.cls)))) :
      ReorderedH E E' kw (.dict es) (some (.cls (.user c))) (some (.cls (.user c)))
  /-- the hints of the named tuple `c`, loaded from a list or a tuple -/
  | named (kw : LoadKw) (c : Nat) (k : SeqKind) (xs : List Val) (hk : k = .list ∨ k = .tuple)
      (hc : (E.info c).kind = .ntuple) (hf : (E'.info c).fields = (E.info c).fields)
      (hd : (E'.info c).fieldDefaults = (E.info c).fieldDefaults) (he : ∀ x ∈ xs, NoMeta x)
      (hdef : ∀ p ∈ (E.info c).fieldDefaults, NoMeta p.2)
      (ho : ∀ name ∈ (E.info c).fields, Optional' (E.info c) name ↔ Optional' (E'.info c) name)
      (h : ∀ (i : Nat) name, (E.info c).fields[i]? = some name →
        ReorderedH E E' kw (fieldVal (E.info c) xs i name) (fieldHint (E.info c) name)
          (fieldHint (E'.info c) name)) :
      ReorderedH E E' kw (.seq k xs) (some (.cls (.user c))) (some (.cls (.user c)))
  /-- the hints of the named tuple `c`, loaded from a dict -/
  | namedDict (kw : LoadKw) (c : Nat) (es : List (Val × Val)) (xs : List Val)
      (hc : (E.info c).kind = .ntuple) (hf : (E'.info c).fields = (E.info c).fields)
      (hm : dictGet es (.str metaKey) = none) (hx : FieldEntries E kw c es xs)
      (h : ReorderedH E E' kw (.list xs) (some (.cls (.user c))) (some (.cls (.user c)))) :
      ReorderedH E E' kw (.dict es) (some (.cls (.user c))) (some (.cls (.user c)))

/-! ## Lemmas -/

theorem first_congr {f g : Ty → Except Err Val} {ts us : List Ty} {r : Val} (hl : ts.length = us.length)
    (h : ∀ (i : Nat) t u, ts[i]? = some t → us[i]? = some u → SameResult (f t) (g u))
    (hf : FirstLoads f ts r) : FirstLoads g us r := by
  obtain ⟨pre, a, post, rfl, h1, h2⟩ := hf
  induction pre generalizing us with
  | nil =>
    cases us with
    | nil => cases hl
    | cons u us => exact ⟨[], u, us, rfl, nofun, (h 0 a u rfl rfl r).1 h2⟩
  | cons z pre ih =>
    cases us with
    | nil => cases hl
    | cons u us =>
      obtain ⟨p, b, q, he, h3, h4⟩ := ih (us := us) (by simpa using hl)
        (fun i t u ht hu => h (i + 1) t u (by simpa using ht) (by simpa using hu))
        (fun b hb => h1 b (by simp [hb]))
      refine ⟨u :: p, b, q, by rw [he]; rfl, ?_, h4⟩
      intro d hd x hx
      rcases List.mem_cons.1 hd with rfl | hd
      · exact h1 z (by simp) x ((h 0 z d rfl rfl x).2 hx)
      · exact h3 d hd x hx

theorem transformed_iff {E : LEnv} {info : Nat → ClassInfo} {desers : Nat → Registry.Table DesFn Ty}
    (U : Rehint E info desers) {kw : LoadKw} {es a : List (Val × Val)} :
    Transformed (rehinted E info desers) kw es a ↔ Transformed E kw es a := by
  refine ⟨fun h => ?_, transformed_eq U⟩
  unfold Transformed at h ⊢
  cases hk : kw.keyTransformer with
  | none => simp only [hk] at h ⊢; exact h
  | some f =>
    simp only [hk] at h ⊢
    obtain ⟨ps, h1, h2⟩ := h
    refine ⟨ps, h1.imp fun e p h => ⟨h.1, h.2.1, ?_⟩, h2⟩
    rw [← h.2.2]
    exact (hashable_eq U p.1).symm

theorem dict_mono {es ps : List (Val × Val)} {kt : Val → Except Err Val}
    {f f' g g' : Val → Except Err Val} {H H' : Val → Prop}
    (hf : ∀ e ∈ es, ∀ q, kt e.1 = .ok q → SameResult (f q) (f' q))
    (hg : ∀ e ∈ es, SameResult (g e.2) (g' e.2)) (hH : ∀ k, H k → H' k)
    (h : List.Forall₂ (fun (e p : Val × Val) => (∃ q, kt e.1 = .ok q ∧ f q = .ok p.1) ∧
      g e.2 = .ok p.2 ∧ H p.1) es ps) :
    List.Forall₂ (fun (e p : Val × Val) => (∃ q, kt e.1 = .ok q ∧ f' q = .ok p.1) ∧
      g' e.2 = .ok p.2 ∧ H' p.1) es ps := by
  induction h with
  | nil => exact .nil
  | cons h1 _ ih =>
    obtain ⟨⟨q, h2, h3⟩, h4, h5⟩ := h1
    exact .cons ⟨⟨q, h2, (hf _ (by simp) q h2 _).1 h3⟩, (hg _ (by simp) _).1 h4, hH _ h5⟩
      (ih (fun e he => hf e (by simp [he])) fun e he => hg e (by simp [he]))

/-! ## C117 -/

/-- C117, for unions in the hints of classes, too: both programs load the document to the same
value, or neither does. -/
theorem union_order_hints_partial (E : LEnv) (info : Nat → ClassInfo)
    (desers : Nat → Registry.Table DesFn Ty) (U : Rehint E info desers) (n : Nat) (kw : LoadKw) (v : Val)
    (t u : Option Ty) (hw : kw.warnOnFail = false) (hi : kw.inferred = false)
    (h : ReorderedH E (rehinted E info desers) kw v t u) :
    SameResult (load E n v t kw).val (load (rehinted E info desers) n v u kw).val := by
  induction h generalizing n with
  | same kw v o h => intro r; rw [h]
  | perm kw v o ts us _ hp h1 hm hn ha ih =>
    intro r
    exact (ih n hw hi r).trans (union_order_load_partial _ n v _ _ kw (U.des' _) (U.vals' _) hw hi
      (.swap kw v ts us hp h1 hm hn ha) r)
  | members kw v ts us hl h1 hm hn hn' _ ih =>
    intro r
    by_cases h0 : n ≤ 1
    · exact iff_of_false (union_shallow (U.des _) (U.vals _) h1 hm hn n h0)
        (union_shallow (U.des' _) (U.vals' _) h1 hm hn' n h0)
    · obtain ⟨n, rfl⟩ : ∃ m, n = m + 2 := ⟨n - 2, by omega⟩
      rw [(union_load_partial _ n v _ kw (lookupsOk_of_default (U.des _) (U.vals _)) (U.des _ _)
          (U.vals _ _) h1 (noMeta_metaOk hm) hi hn).1 r,
        (union_load_partial _ n v _ kw (lookupsOk_of_default (U.des' _) (U.vals' _)) (U.des' _ _)
          (U.vals' _ _) h1 (noMeta_metaOk hm) hi hn').1 r]
      exact ⟨first_congr hl fun i t u ht hu => ih i t u ht hu (n + 1) hw hi,
        first_congr hl.symm fun i u t hu ht => (ih i t u ht hu (n + 1) hw hi).symm⟩
  | list kw v xs a b h1 hm hx he _ ih =>
    intro r
    cases n with
    | zero => exact iff_of_false nofun nofun
    | succ n =>
      rw [list_load _ n v r xs a kw (U.des _) (U.vals _) h1 hm hx he hw,
        list_load _ n v r xs b kw (U.des' _) (U.vals' _) h1 hm hx he hw]
      have := fun x hx => ih x hx n hw hi
      constructor
      · rintro ⟨ys, rfl, h⟩
        exact ⟨ys, rfl, forall₂_same this h⟩
      · rintro ⟨ys, rfl, h⟩
        exact ⟨ys, rfl, forall₂_same (fun x hx => (this x hx).symm) h⟩
  | tuple kw v xs ts us h0 hl h1 hm hx he _ ih =>
    intro r
    cases n with
    | zero => exact iff_of_false nofun nofun
    | succ n =>
      match ts, us, h0, hl with
      | t :: ts, u :: us, _, hl =>
        rw [tuple_load_partial _ n v r xs t ts kw (U.des _) (U.vals _) h1 hm hx he,
          tuple_load_partial _ n v r xs u us kw (U.des' _) (U.vals' _) h1 hm hx he]
        constructor
        · rintro ⟨ys, rfl, hlen, h⟩
          exact ⟨ys, rfl, (by rw [← hl]; exact hlen), elementwise_mono hl
            (fun i t' u' x y ht hu hx' => (ih i t' u' x ht hu hx' n hw hi y).1) h⟩
        · rintro ⟨ys, rfl, hlen, h⟩
          exact ⟨ys, rfl, (by rw [hl]; exact hlen), elementwise_mono hl.symm
            (fun i u' t' x y hu ht hx' => (ih i t' u' x ht hu hx' n hw hi y).2) h⟩
  | each kw v xs g a b hg h1 hm hx he _ ih =>
    intro r
    cases n with
    | zero => exact iff_of_false nofun nofun
    | succ n =>
      rw [collection_load _ n v r xs g a kw hg (U.des _) (U.vals _) h1 hm hx he hw,
        collection_load _ n v r xs g b kw hg (U.des' _) (U.vals' _) h1 hm hx he hw]
      have := fun x hx => ih x hx n hw hi
      constructor
      · rintro ⟨ys, hc, h⟩
        exact ⟨ys, (castSeq_eq U _ _).trans hc, forall₂_same this h⟩
      · rintro ⟨ys, hc, h⟩
        exact ⟨ys, (castSeq_eq U _ _).symm.trans hc, forall₂_same (fun x hx => (this x hx).symm) h⟩
  | ellipsis kw v xs a b h1 hm hx he _ ih =>
    intro r
    cases n with
    | zero => exact iff_of_false nofun nofun
    | succ n =>
      rw [tuple_ellipsis_load _ n v r xs a kw (U.des _) (U.vals _) h1 hm hx he,
        tuple_ellipsis_load _ n v r xs b kw (U.des' _) (U.vals' _) h1 hm hx he]
      have := fun x hx => ih x hx n hw hi
      constructor
      · rintro ⟨ys, rfl, h⟩
        exact ⟨ys, rfl, forall₂_same this h⟩
      · rintro ⟨ys, rfl, h⟩
        exact ⟨ys, rfl, forall₂_same (fun x hx => (this x hx).symm) h⟩
  | dict kw g es k l a b hg hm hh he hk _ _ ih ih' =>
    intro r
    cases n with
    | zero => exact iff_of_false nofun nofun
    | succ n =>
      rw [dict_load_partial _ n g es r k a kw hg (U.des _) (U.vals _) hm hh he hk,
        dict_load_partial _ n g es r l b kw hg (U.des' _) (U.vals' _) hm hh he hk]
      have i1 := fun e he q hq => ih e he q hq n hw hi
      have i2 := fun e he => ih' e he n hw hi
      constructor
      · rintro ⟨ps, h, h'⟩
        exact ⟨ps, dict_mono (g := fun x => (load E n x (some a) { kw with keyTransformer := some (kw.keyTransformer.getD .ok) }).val)
          (g' := fun x => (load (rehinted E info desers) n x (some b)
            { kw with keyTransformer := some (kw.keyTransformer.getD .ok) }).val)
          (H := fun k => k.hashable E.info = true) (H' := fun k => k.hashable info = true)
          i1 i2 (fun k hk => (hashable_eq U k).trans hk) h, h'⟩
      · rintro ⟨ps, h, h'⟩
        exact ⟨ps, dict_mono (g' := fun x => (load E n x (some a) { kw with keyTransformer := some (kw.keyTransformer.getD .ok) }).val)
          (g := fun x => (load (rehinted E info desers) n x (some b)
            { kw with keyTransformer := some (kw.keyTransformer.getD .ok) }).val)
          (H' := fun k => k.hashable E.info = true) (H := fun k => k.hashable info = true)
          (fun e he q hq => (i1 e he q hq).symm) (fun e he => (i2 e he).symm)
          (fun k hk => (hashable_eq U k).symm.trans hk) h, h'⟩
  | ddict kw es k l a hm _ ih =>
    intro r
    cases n with
    | zero => exact iff_of_false nofun nofun
    | succ n =>
      rw [default_dict_load (U.des _) (U.vals _) hm, default_dict_load (U.des' _) (U.vals' _) hm]
      exact exists_congr fun ps => and_congr_left' (ih n hw hi _)
  | namedDict kw c es xs hc hf hm hx _ ih =>
    intro r
    cases n with
    | zero => exact iff_of_false nofun nofun
    | succ n =>
      rw [named_dict_as_list _ n c es xs r kw hc (U.des _) (U.vals _) hm hx,
        named_dict_as_list _ n c es xs r kw ((U.kind c).trans hc) (U.des' _) (U.vals' _) hm
          (fieldEntries_eq U hf hx)]
      exact ih (n + 1) hw hi r
  | named kw c k xs hk hc hf hd he hdef ho _ ih =>
    intro r
    cases n with
    | zero => exact iff_of_false nofun nofun
    | succ n =>
      rw [namedtuple_from_list _ n c k xs r kw hk hc (U.des _) (U.vals _) he hdef,
        namedtuple_from_list _ n c k xs r kw hk ((U.kind c).trans hc) (U.des' _) (U.vals' _) he
          (by rw [hd]; exact hdef), hf]
      have hv : ∀ i name, fieldVal ((rehinted E info desers).info c) xs i name =
          fieldVal (E.info c) xs i name := by
        intro i name
        unfold fieldVal
        rw [hd]
      constructor
      · rintro ⟨ys, rfl, h⟩
        exact ⟨ys, rfl, fieldsFrom_mono hd (fun name hn => (ho name hn).1)
          (fun i name hi' r hr => (ih i name hi' n hw hi r).1 hr) h⟩
      · rintro ⟨ys, rfl, h⟩
        refine ⟨ys, rfl, fieldsFrom_mono hd.symm (fun name hn => (ho name hn).2) ?_ h⟩
        intro i name hi' r hr
        rw [hv] at hr ⊢
        exact (ih i name hi' n hw hi r).2 hr
  | obj kw c es hc hp hn _ _ ih ih' =>
    intro r
    cases n with
    | zero => exact iff_of_false nofun nofun
    | succ n =>
      rw [object_load_plain _ n c es r kw (U.des _) (U.vals _ _) hc hp,
        object_load_plain _ n c es r kw (U.des' _) (U.vals' _ _) ((U.kind c).trans hc) hp]
      have hpp := (U.params c).mem
      constructor
      · rintro ⟨es', args, as0, as1, as2, h0, h1, h2, h3, h4, h5, rfl⟩
        obtain ⟨args', h1', h3'⟩ := (U.params c).args.1 ⟨args, argsOf_mono (I' := info c)
          (ld' := fun _ hint x y => (load (rehinted E info desers) n x hint (partKw kw)).val = .ok y)
          (fun p hp => (hn p hp).1) (fun s x hx y => (ih es' h0 s x hx n hw hi y).1) h1, h3⟩
        refine ⟨es', args', as0, as1, as2, transformed_eq U h0, h1', ?_, h3', ?_,
          gettersSet_eq (E := E) rfl h5, rfl⟩
        · intro hst e he
          exact (known_iff hpp _).2 (h2 hst e he)
        · exact attrsSet_mono hpp rfl (fun s x hx hkn y => (ih' es' h0 s x hx hkn n hw hi y).1) h4
      · rintro ⟨es', args, as0, as1, as2, h0, h1, h2, h3, h4, h5, rfl⟩
        rw [transformed_iff U] at h0
        obtain ⟨args', h1', h3'⟩ := (U.params c).args.2 ⟨args, h1, h3⟩
        refine ⟨es', args', as0, as1, as2, h0, ?_, ?_, h3', ?_,
          gettersSet_eq (E := rehinted E info desers) rfl h5, rfl⟩
        · exact argsOf_mono (fun p hp => (hn p hp).2) (fun s x hx y => (ih es' h0 s x hx n hw hi y).2) h1'
        · intro hst e he
          exact (known_iff hpp _).1 (h2 hst e he)
        · exact attrsSet_mono (E := rehinted E info desers) (fun p => (hpp p).symm) rfl (fun s x hx hkn y =>
            (ih' es' h0 s x hx (fun h => hkn ((known_iff hpp _).2 h)) n hw hi y).2) h4

/-! ## Examples -/

/-- `Point` with the hint `Union[ts]` for both `x` and `y`, and likewise the named tuple `Pair`. -/
def ordInfo (ts : List Ty) : Nat → ClassInfo
  | 0 => { demoInfo 0 with
           hints := [("x".toList, .union ts), ("y".toList, .union ts)]
           initHints := [("x".toList, .union ts), ("y".toList, .union ts)] }
  | 1 => { demoInfo 1 with
           hasAnnotations := true
           hints := [("first".toList, .union ts), ("second".toList, .union ts)] }
  | c => demoInfo c

theorem ord_names (ts : List Ty) : NamesOk (ordInfo ts) desNames := by
  intro c
  have : (ordInfo ts c).attrs = (demoInfo c).attrs := by match c with | 0 | 1 | 2 | 3 | 4 | 5 | n + 6 => rfl
  rw [this]
  exact demo_desNames c

/-- The program with these hints. -/
abbrev ordEnv (ts : List Ty) : LEnv :=
  rehinted (demoLEnv demoInfo) (ordInfo ts) fun _ => initialDesers (ordInfo ts)

theorem ord_rehint (ts us : List Ty) :
    Rehint (ordEnv ts) (ordInfo us) (fun _ => initialDesers (ordInfo us)) where
  attrs := fun c => by match c with | 0 | 1 | 2 | 3 | 4 | 5 | n + 6 => rfl
  kind := fun c => by match c with | 0 | 1 | 2 | 3 | 4 | 5 | n + 6 => rfl
  hashable := fun c => by match c with | 0 | 1 | 2 | 3 | 4 | 5 | n + 6 => rfl
  params := fun c => .inl (by match c with | 0 | 1 | 2 | 3 | 4 | 5 | n + 6 => rfl)
  des := fun _ t => getLizer_desFn (ordInfo ts) (ord_names ts) t
  des' := fun _ t => getLizer_desFn (ordInfo us) (ord_names us) t
  vals := fun _ t => getLizer_empty (ordInfo ts) t
  vals' := fun _ t => getLizer_empty (ordInfo us) t

/-- `{'x': 'abc', 'y': 'abc'}` -/
def textDoc : List (Val × Val) := [(.str "x".toList, .str "abc".toList), (.str "y".toList, .str "abc".toList)]

theorem ord_agree (us : List Ty) (n : Nat) : Agree (fun t => (load (ordEnv us) n (.str "abc".toList)
    (some t) {}).val) [.cls .int, .cls .str] := by
  intro a ha b hb x y hx hy
  cases n with
  | zero => cases hx
  | succ n =>
    have h : ∀ c ∈ [Ty.cls .int, .cls .str], ∀ z, (load (ordEnv us) (n + 1) (.str "abc".toList)
        (some c) {}).val = .ok z → z = .str "abc".toList := by
      intro c hc z hz
      rcases List.mem_cons.1 hc with rfl | hc
      · cases hz
      · rw [List.mem_singleton.1 hc] at hz
        cases hz; rfl
    rw [h a ha x hx, h b hb y hy]

theorem text_reordered : ReorderedH (ordEnv [.cls .int, .cls .str]) (ordEnv [.cls .str, .cls .int]) {}
    (.str "abc".toList) (some (.union [.cls .int, .cls .str])) (some (.union [.cls .str, .cls .int])) := by
  have hm : NoMeta (.str "abc".toList) := noMeta_of_not_dict (by decide)
  refine .perm _ _ _ _ _ (.members _ _ _ _ rfl (by decide) hm nofun nofun ?_) (List.Perm.swap _ _ _)
    (by decide) hm nofun (ord_agree _)
  intro i t u ht hu
  rw [ht] at hu
  cases hu
  have : t ∈ [Ty.cls .int, .cls .str] := List.mem_of_getElem? ht
  rcases List.mem_cons.1 this with rfl | h
  · exact .same _ _ _ fun n => congrArg Res.val (scalar_eq (ord_rehint _ _) n (.str _) (by simp [scalars]) {})
  · rw [List.mem_singleton.1 h]
    exact .same _ _ _ fun n => congrArg Res.val (scalar_eq (ord_rehint _ _) n (.str _) (by simp [scalars]) {})

/-- `Point` with `x: Union[int, str]` and with `x: Union[str, int]`. -/
example : ReorderedH (ordEnv [.cls .int, .cls .str]) (ordEnv [.cls .str, .cls .int]) {} (.dict textDoc)
    (some (.cls (.user 0))) (some (.cls (.user 0))) := by
  refine .obj {} 0 textDoc rfl ⟨rfl, ?_, rfl⟩ ?_ ?_ ?_
  · intro e he
    simp only [textDoc, List.mem_cons, List.not_mem_nil, or_false] at he
    rcases he with rfl | rfl <;> exact noMeta_of_not_dict (by simp [Val.cls, Atom.cls])
  · intro p hp
    have hp' : p.name = "x".toList ∨ p.name = "y".toList := by
      simp only [ordEnv, rehinted, ordInfo, demoInfo, List.mem_cons, List.not_mem_nil, or_false] at hp
      rcases hp with rfl | rfl
      · exact .inl rfl
      · exact .inr rfl
    have : ∀ ts : List Ty, assoc ((ordEnv ts).info 0).initHints p.name = some (.union ts) := by
      intro ts
      rcases hp' with hp' | hp' <;> rw [hp'] <;> rfl
    rw [this, this]
    constructor <;> intro h <;> exact nomatch h _ rfl
  · intro es' ht s x hx
    obtain rfl : es' = textDoc := ht
    simp only [textDoc, List.mem_cons, Prod.mk.injEq, List.not_mem_nil, or_false] at hx
    rcases hx with ⟨h, rfl⟩ | ⟨h, rfl⟩ <;> cases h
    · exact text_reordered
    · exact text_reordered
  · intro es' ht s x hx hk
    obtain rfl : es' = textDoc := ht
    refine absurd ?_ hk
    simp only [textDoc, List.mem_cons, Prod.mk.injEq, List.not_mem_nil, or_false] at hx
    rcases hx with ⟨h, rfl⟩ | ⟨h, rfl⟩ <;> rw [h]
    · exact .inr ⟨_, List.mem_cons_self, rfl⟩
    · exact .inr ⟨_, List.mem_cons_of_mem _ List.mem_cons_self, rfl⟩

theorem pair_names {p : PyStr} (hp : p ∈ (demoInfo 1).fields) : p = "first".toList ∨ p = "second".toList := by
  simpa [demoInfo] using hp

theorem pair_hint (ts : List Ty) {p : PyStr} (hp : p ∈ (demoInfo 1).fields) :
    fieldHint (ordInfo ts 1) p = some (.union ts) := by
  rcases pair_names hp with rfl | rfl <;> rfl

theorem pair_val (ts : List Ty) (i : Nat) {p : PyStr} (hp : (demoInfo 1).fields[i]? = some p) :
    fieldVal (ordInfo ts 1) [.str "abc".toList, .str "abc".toList] i p = .str "abc".toList := by
  have h : i < 2 := (List.getElem?_eq_some_iff.1 hp).1
  match i, h with
  | 0, _ | 1, _ => rfl

/-- `['abc', 'abc']` as `Pair` with the hints `Union[int, str]` and with `Union[str, int]`. -/
theorem pair_reordered : ReorderedH (ordEnv [.cls .int, .cls .str]) (ordEnv [.cls .str, .cls .int]) {}
    (.list [.str "abc".toList, .str "abc".toList]) (some (.cls (.user 1))) (some (.cls (.user 1))) := by
  refine .named {} 1 .list _ (.inl rfl) rfl rfl rfl ?_ nofun ?_ ?_
  · intro x hx
    obtain rfl : x = .str "abc".toList := by simpa using hx
    exact noMeta_of_not_dict (by decide)
  · intro p hp
    unfold Optional'
    have h1 := pair_hint [.cls .int, .cls .str] hp
    have h2 := pair_hint [.cls .str, .cls .int] hp
    constructor
    · rintro ⟨t, h, h'⟩
      cases h1.symm.trans h
      simp [Ty.getArgs] at h'
    · rintro ⟨t, h, h'⟩
      cases h2.symm.trans h
      simp [Ty.getArgs] at h'
  · intro i p hp
    have hp' := List.mem_of_getElem? hp
    have h1 := pair_hint [.cls .int, .cls .str] hp'
    have h2 := pair_hint [.cls .str, .cls .int] hp'
    have h3 := pair_val [.cls .int, .cls .str] i hp
    show ReorderedH _ _ _ (fieldVal (ordInfo [.cls .int, .cls .str] 1) _ i p)
      (fieldHint (ordInfo [.cls .int, .cls .str] 1) p) (fieldHint (ordInfo [.cls .str, .cls .int] 1) p)
    rw [h1, h2, h3]
    exact text_reordered

/-- `['abc', 'abc']` as `Pair` with the hint `str` (as a union of one member) and with
`Union[int, str]`. -/
theorem pair_widened : Widened (ordEnv [.cls .str]) (ordEnv [.cls .int, .cls .str]) {}
    (.list [.str "abc".toList, .str "abc".toList]) (some (.cls (.user 1))) (some (.cls (.user 1))) := by
  have hm : NoMeta (.str "abc".toList) := noMeta_of_not_dict (by decide)
  refine .named {} 1 .list _ (.inl rfl) rfl rfl rfl ?_ nofun ?_ ?_
  · intro x hx
    obtain rfl : x = .str "abc".toList := by simpa using hx
    exact hm
  · intro p hp
    unfold Optional'
    have h1 := pair_hint [.cls .str] hp
    rintro ⟨t, h, h'⟩
    cases h1.symm.trans h
    simp [Ty.getArgs] at h'
  · intro i p hp
    have hp' := List.mem_of_getElem? hp
    have h1 := pair_hint [.cls .str] hp'
    have h2 := pair_hint [.cls .int, .cls .str] hp'
    have h3 := pair_val [.cls .str] i hp
    show Widened _ _ _ (fieldVal (ordInfo [.cls .str] 1) _ i p)
      (fieldHint (ordInfo [.cls .str] 1) p) (fieldHint (ordInfo [.cls .int, .cls .str] 1) p)
    rw [h1, h2, h3]
    refine .union {} _ [] [] [.cls .int] [] (.cls .str) (.cls .str) (by decide) hm nofun nofun ?_ nofun ?_ ?_
    · exact ⟨.str "abc".toList, 2, fun n hn => by
        obtain ⟨n, rfl⟩ : ∃ m, n = m + 2 := ⟨n - 2, by omega⟩
        rfl⟩
    · intro t ht n r h
      rw [List.mem_singleton.1 ht] at h
      cases n <;> cases h
    · exact .same _ _ _ fun n => congrArg Res.val (scalar_eq (ord_rehint _ _) n (.str _) (by simp [scalars]) {})

theorem pair_entries (ts : List Ty) : FieldEntries (ordEnv ts) {} 1
    [(.str "second".toList, .str "abc".toList), (.str "first".toList, .str "abc".toList)]
    [.str "abc".toList, .str "abc".toList] := by
  refine ⟨rfl, [(.str "second".toList, .str "abc".toList), (.str "first".toList, .str "abc".toList)],
    ⟨_, .cons ⟨rfl, rfl, rfl⟩ (.cons ⟨rfl, rfl, rfl⟩ .nil), by rfl⟩, fun i name hi hlt => ?_⟩
  match i, hlt with
  | 0, _ => cases hi; rfl
  | 1, _ => cases hi; rfl

/-- `{'second': 'abc', 'first': 'abc'}` as `Pair` -/
example : ReorderedH (ordEnv [.cls .int, .cls .str]) (ordEnv [.cls .str, .cls .int]) {}
    (.dict [(.str "second".toList, .str "abc".toList), (.str "first".toList, .str "abc".toList)])
    (some (.cls (.user 1))) (some (.cls (.user 1))) :=
  .namedDict _ _ _ _ rfl rfl rfl (pair_entries _) pair_reordered

example : Widened (ordEnv [.cls .str]) (ordEnv [.cls .int, .cls .str]) {}
    (.dict [(.str "second".toList, .str "abc".toList), (.str "first".toList, .str "abc".toList)])
    (some (.cls (.user 1))) (some (.cls (.user 1))) :=
  .namedDict _ _ _ _ rfl rfl rfl (pair_entries _) pair_widened

/-- `['abc', 'abc']` as `Set[Union[int, str]]` and as `Set[Union[str, int]]`. -/
example : ReorderedH (ordEnv [.cls .int, .cls .str]) (ordEnv [.cls .str, .cls .int]) {}
    (.list [.str "abc".toList, .str "abc".toList]) (some (.gen .set [.union [.cls .int, .cls .str]]))
    (some (.gen .set [.union [.cls .str, .cls .int]])) := by
  refine .each _ _ _ _ _ _ (by simp) (by simp [Val.cls, SeqKind.cls, validTypes])
    (noMeta_of_not_dict (by simp [Val.cls, SeqKind.cls])) rfl ?_ ?_
  · intro x hx
    obtain rfl : x = .str "abc".toList := by simpa using hx
    exact noMeta_of_not_dict (by decide)
  · intro x hx
    obtain rfl : x = .str "abc".toList := by simpa using hx
    exact text_reordered

example : (load (ordEnv [.cls .str, .cls .int]) 9 (.list [.str "abc".toList, .str "abc".toList])
    (some (.gen .set [.union [.cls .str, .cls .int]])) {}).val = .ok (.set [.str "abc".toList]) := by
  decide +kernel

example : (load (ordEnv [.cls .int, .cls .str]) 9 (.dict textDoc) (some (.cls (.user 0))) {}).val =
    .ok (.obj 0 [("x".toList, .str "abc".toList), ("y".toList, .str "abc".toList)]) ∧
    (load (ordEnv [.cls .str, .cls .int]) 9 (.dict textDoc) (some (.cls (.user 0))) {}).val =
    .ok (.obj 0 [("x".toList, .str "abc".toList), ("y".toList, .str "abc".toList)]) :=
  ⟨by decide +kernel, by decide +kernel⟩

/-- C117 fails for hints, too, if the members disagree: `{'x': '5', 'y': '5'}` is a `Point` of
numbers with the hint `Union[int, str]`, and of texts with the hint `Union[str, int]`. -/
theorem union_order_hints_fails : ∃ (v r r' : Val),
    (load (ordEnv [.cls .int, .cls .str]) 9 v (some (.cls (.user 0))) {}).val = .ok r ∧
    (load (ordEnv [.cls .str, .cls .int]) 9 v (some (.cls (.user 0))) {}).val = .ok r' ∧ r ≠ r' :=
  ⟨.dict [(.str "x".toList, .str "5".toList), (.str "y".toList, .str "5".toList)],
    .obj 0 [("x".toList, .int 5), ("y".toList, .int 5)],
    .obj 0 [("x".toList, .str "5".toList), ("y".toList, .str "5".toList)],
    by decide +kernel, by decide +kernel, by simp⟩

end Verif.Props.UnionHints
