import Verif.Props.DumpVerbose
import Verif.Props.DumpStyle
import Verif.Props.LoadRename

/-!
# Verbose dumps with `strip_nulls`, `key_transformer` and `strict`

C59 for these options: the paths in the `-meta` section are those of the new keys.
-/

set_option autoImplicit false

namespace Verif.Props.VerboseStyled
open Verif Verif.Core
open Verif.Props.DumpObject (Selected stripNames hintOf attrKw selected_list normalize_names object_eq)
open Verif.Props.DumpVerbose
open Verif.Props.DumpStyle (Renames)

variable {E : Env}

/-! ## Specification -/

/-- An object tree of at most the given depth (see `DumpVerbose.Tree`), the attributes of
which have the names that `f` gives them.  In strict mode objects are not hinted. -/
def STree (E : Env) (kw : DumpKw) (f : PyStr → PyStr) (l : List PyStr) (N : Nat) : Nat → Val → Prop
  | 0, _ => False
  | d + 1, v => ∃ c as, v = .obj c as ∧ (E.info c).kind = .plain ∧ (E.info c).isAttrs = false ∧
      (∀ m, assoc (E.info c).members m ≠ some .noSource) ∧
      (∀ m m', Selected (E.info c) as kw l m → Selected (E.info c) as kw l m' → f m = f m' → m = m') ∧
      ∀ m, Selected (E.info c) as kw l m → Renames kw.keyTransformer f m ∧
        '/' ∉ f m ∧ f m ≠ [] ∧ f m ≠ clsKey ∧ f m ≠ metaKey ∧
        ∃ a, E.getAttr v m = .ok a ∧
          (Leaf E kw l N a (hintOf (E.info c) kw.strict m) ∨
            ObjectHint E (hintOf (E.info c) kw.strict m) ∧
              (kw.strict = true → hintOf (E.info c) kw.strict m = none) ∧ STree E kw f l N d a)

/-! ## Lemmas -/

theorem renames_key {kt : Option (PyStr → Except Err PyStr)} {f : PyStr → PyStr} {m : PyStr}
    (h : Renames kt f m) : transformKey kt (.str m) = .ok (.str (f m)) := by
  cases kt with
  | none => simp only [Renames] at h; simp [transformKey, h]
  | some g => simp only [Renames] at h; simp [transformKey, h, Except.map]

/-- The entry is not left out. -/
def kept (sn : Bool) (x : Val) : Bool := !(sn && x == .none)

theorem attrLoop_styled {n : Nat} {kw : DumpKw} {f : PyStr → PyStr} {v : Val} {cn : PyStr}
    (hds : DefaultSers E kw.fork) (g : PyStr × Option Ty → Val) :
    ∀ (ps : List (PyStr × Option Ty)) (acc : List (Val × Val)),
      (∀ p ∈ ps, Renames kw.keyTransformer f p.1) →
      (∀ p ∈ ps, AttrOk E n v kw p (g p)) → (ps.map fun p => f p.1).Nodup →
      (∀ e ∈ acc, ∀ p ∈ ps, pyEq e.1 (.str (f p.1)) = false) →
      (attrLoop E (recOf E n) kw false v cn ps acc).val =
        .ok (acc ++ (ps.filter fun p => kept kw.stripNulls (g p)).map fun p => (.str (f p.1), g p)) := by
  intro ps
  induction ps with
  | nil => intro acc _ _ _ _; simp [attrLoop]
  | cons p ps ih =>
    intro acc h0 h1 h2 h3
    rw [List.map_cons, List.nodup_cons] at h2
    obtain ⟨a, d, ha, hd, hx⟩ := h1 p List.mem_cons_self
    obtain ⟨name, hint⟩ := p
    obtain ⟨s, hf, hd⟩ := (dump_ok_iff hds).1 hd
    have hda : (dumpAttr E (recOf E n) kw ((hint.getD (.cls a.cls)).serFn E.info) a hint).val =
        .ok (g (name, hint)) := by
      simp only at hf
      rw [hf, hx]
      simp only [dumpAttr, bind_ok, pure_val, Except.ok.injEq]
      exact ⟨d, hd, rfl⟩
    simp only at ha
    simp only [attrLoop, bind_val, lift_val, ha, emit_val, hds _, liftK_of_ok, pure_val, attempt_val,
      hda]
    by_cases hk : (kw.stripNulls && g (name, hint) == Val.none) = true
    · have hadd : addDumped kw acc (.str (if false = true then lstrip_ name else name)) (g (name, hint)) =
          .ok acc := by
        simp only [addDumped, hk, if_true]
      rw [hadd, List.filter_cons_of_neg (by simp [kept, hk])]
      exact ih acc (fun q hq => h0 q (List.mem_cons_of_mem _ hq))
        (fun q hq => h1 q (List.mem_cons_of_mem _ hq)) h2.2
        fun e he q hq => h3 e he q (List.mem_cons_of_mem _ hq)
    · have hadd : addDumped kw acc (.str (if false = true then lstrip_ name else name)) (g (name, hint)) =
          .ok (acc ++ [(.str (f name), g (name, hint))]) := by
        simp only [addDumped, hk, if_false, Bool.false_eq_true,
          renames_key (h0 _ List.mem_cons_self), Except.map]
        rw [dictSet_new (fun a ha => h3 a ha _ List.mem_cons_self)]
      rw [hadd, List.filter_cons_of_pos (by rw [kept, Bool.eq_false_iff.2 hk]; rfl), List.map_cons]
      have ih1 := ih (acc ++ [(.str (f name), g (name, hint))])
        (fun q hq => h0 q (List.mem_cons_of_mem _ hq))
        (fun q hq => h1 q (List.mem_cons_of_mem _ hq)) h2.2 (by
          intro e he q hq
          rcases List.mem_append.1 he with he | he
          · exact h3 e he q (List.mem_cons_of_mem _ hq)
          · rw [List.mem_singleton] at he
            subst he
            simp only [pyEq_str, beq_eq_false_iff_ne, ne_eq]
            intro e
            exact h2.1 (e ▸ List.mem_map_of_mem (f := fun p : PyStr × Option Ty => f p.1) hq))
      rw [List.append_assoc, List.singleton_append] at ih1
      exact ih1

theorem hinted_dump {n : Nat} {v r : Val} {kw : DumpKw} {hint : Option Ty}
    (hds : DefaultSers E kw.fork) (hst : kw.strict = true → hint = none) (hh : ObjectHint E hint)
    (hv : (Ty.cls v.cls).serFn E.info = some .object) (hn : v ≠ .none)
    (h : ∀ m, n ≤ m → (dump E (m + 2) v none kw).val = .ok r) :
    ∀ m, n + 2 ≤ m → (dump E (m + 2) v hint kw).val = .ok r := by
  cases hs : kw.strict with
  | false => exact objectHint_dump hds hs hh hv hn h
  | true =>
    rw [hst hs]
    exact fun m hm => h m (by omega)

theorem unmark_none {x y : Val} (h : unmark x = y) (sn : Bool) : kept sn x = kept sn y := by
  subst h
  cases x with
  | dict es =>
    have h : ∀ es : List (Val × Val), (Val.dict es == Val.none) = false :=
      fun es => beq_eq_false_iff_ne.2 (by simp)
    simp only [unmark, kept, h]
  | _ => rfl

/-- The dict of an object dumped plainly, and the one with markers in it. -/
structure SMarked (E : Env) (kw : DumpKw) (f : PyStr → PyStr) (l : List PyStr) (v : Val)
    (es es' : List (Val × Val)) : Prop where
  nice : NiceEntries es'
  noCls : ∀ e ∈ es', e.1 ≠ .str clsKey
  noMeta : ∀ e ∈ es', e.1 ≠ .str metaKey
  unmarked : unmarkEntries es' = es
  marks : ∀ p c, ObjAt E kw l v p c → p ≠ [] → ∃ ds, DictAt es' (p.map f) ds ∧
    dictGet ds (.str clsKey) = some (.str (E.className true (.cls (.user c))))
  paths : ∀ p c, ObjAt E kw l v p c → p ≠ [] → pathStr (p.map f) ≠ []

/-- The loop over the attributes of an object tree, for both ways to dump. -/
theorem stree_loop {kw : DumpKw} {f : PyStr → PyStr} {l : List PyStr} {N : Nat}
    (hds : DefaultSers E kw.fork) (hci : kw.verbose.classInfo = true) :
    ∀ (d : Nat) (v : Val), STree E kw f l N d v → ∃ c as ps es es', v = .obj c as ∧
      (E.info c).kind = .plain ∧ (E.info c).isAttrs = false ∧
      attributesFromObject (E.info c) as kw (.tuple l) = .ok ps ∧
      SMarked E kw f l v es es' ∧
      ∀ n, N + 3 * d ≤ n →
        (attrLoop E (recOf E n) (attrKw kw l) false v (E.className false (.cls (.user c))) ps []).val
          = .ok es ∧
        (attrLoop E (recOf E n) (innerKw kw l) false v (E.className false (.cls (.user c))) ps []).val
          = .ok es' := by
  intro d
  induction d with
  | zero => intro v h; exact h.elim
  | succ d ih =>
    rintro v ⟨c, as, rfl, hk, hat, hns, hinj, hsel⟩
    obtain ⟨ps, hps, hsorted, hmem⟩ := selected_list (as := as) (kw := kw) (l := l) hns
    -- what is known of every attribute
    have hex : ∀ p : PyStr × Option Ty, ∃ xx : Val × Val, p ∈ ps →
        NiceVal xx.2 ∧ unmark xx.2 = xx.1 ∧
        (∀ n, N + 3 * (d + 1) ≤ n → AttrOk E n (.obj c as) (attrKw kw l) p xx.1 ∧
          AttrOk E n (.obj c as) (innerKw kw l) p xx.2) ∧
        ∀ a q c', E.getAttr (.obj c as) p.1 = .ok a → ObjAt E kw l a q c' →
          (q = [] → ∃ ds, xx.2 = .dict ds ∧
            dictGet ds (.str clsKey) = some (.str (E.className true (.cls (.user c'))))) ∧
          (q ≠ [] → pathStr (q.map f) ≠ [] ∧ ∃ fs ds, xx.2 = .dict fs ∧ DictAt fs (q.map f) ds ∧
            dictGet ds (.str clsKey) = some (.str (E.className true (.cls (.user c'))))) := by
      intro p
      by_cases hp : p ∈ ps
      · obtain ⟨h1, h2⟩ := (hmem p).1 hp
        obtain ⟨_, _, _, _, _, a, ha, hl | ⟨hh, hst, ht⟩⟩ := hsel _ h1
        · obtain ⟨x, hx, hd⟩ := hl.same
          obtain ⟨hc1, hc2⟩ := clean_nice x hx
          have hnx : NiceVal (storeClsInfo E true x a) ∧ unmark (storeClsInfo E true x a) = x := by
            cases x with
            | dict es =>
              have hno := clean_no_cls hx
              simp only [storeClsInfo, if_true]
              rw [dictSet_absent hno]
              refine ⟨nice_append hc1 (by decide) hno trivial, ?_⟩
              simp only [unmark, Val.dict.injEq] at hc2 ⊢
              rw [unmark_append, hc2]
              simp [unmarkEntries]
            | _ => exact ⟨hc1, hc2⟩
          refine ⟨(x, storeClsInfo E true x a), fun _ => ⟨hnx.1, hnx.2, ?_, ?_⟩⟩
          · intro n hn
            obtain ⟨h3, h4⟩ := hd n (by omega)
            rw [← h2] at h3 h4
            refine ⟨⟨a, x, ha, h3, ?_⟩, ⟨a, x, ha, h4, rfl⟩⟩
            unfold storeClsInfo; split <;> simp
          · intro a' q c' ha' ho
            rw [ha] at ha'
            cases ha'
            cases ho with
            | here => exact absurd rfl (hl.noObj _ _)
            | step => exact absurd rfl (hl.noObj _ _)
        · obtain ⟨c1, as1, ps1, es1, es1', rfl, hk1, hat1, hps1, hM, hloop⟩ := ih a ht
          have hno := hM.noCls
          have hv1 : (Ty.cls (Val.obj c1 as1).cls).serFn E.info = some .object := by
            simp [Ty.serFn, Cls.serFn, Val.cls, hk1]
          have hd1 := hinted_dump (n := N + 3 * d) (kw := attrKw kw l) (r := .dict es1) hds hst hh
            hv1 (by simp) (fun m hm => plain_eq hds hk1 hat1 hps1 (hloop m hm).1)
          have hd2 := hinted_dump (n := N + 3 * d) (kw := innerKw kw l) (r := .dict es1') hds hst hh
            hv1 (by simp) (fun m hm => inner_eq hds hk1 hat1 hci hps1 (hloop m hm).2)
          have hset := dictSet_absent (v := .str (E.className true (.cls (.user c1)))) hno
          refine ⟨(.dict es1, .dict (es1' ++ [(.str clsKey,
            .str (E.className true (.cls (.user c1))))])), fun _ => ⟨?_, ?_, ?_, ?_⟩⟩
          · exact nice_append hM.nice (by decide) hno trivial
          · simp only [unmark, Val.dict.injEq]
            rw [unmark_append, hM.unmarked]
            simp [unmarkEntries]
          · intro n hn
            obtain ⟨k, rfl⟩ : ∃ k, n = k + 1 := ⟨n - 1, by omega⟩
            have h3 := hd1 k (by omega)
            have h4 := hd2 k (by omega)
            rw [← h2] at h3 h4
            refine ⟨⟨_, _, ha, h3, rfl⟩, ⟨_, _, ha, h4, ?_⟩⟩
            simp only [storeClsInfo, if_true, Env.clsNameOf, hset]
          · intro a' q c' ha' ho
            rw [ha] at ha'
            cases ha'
            constructor
            · rintro rfl
              cases ho
              refine ⟨_, rfl, ?_⟩
              rw [← hset, dictGet_set_str, if_pos rfl]
            · intro hq
              obtain ⟨ds, h5, h6⟩ := hM.marks q c' ho hq
              exact ⟨hM.paths q c' ho hq, _, ds, rfl,
                DictAt.mono h5 fun e he => List.mem_append_left _ he, h6⟩
      · exact ⟨(.none, .none), fun h => absurd h hp⟩
    obtain ⟨g, hg⟩ := Classical.axiomOfChoice hex
    have hnames : ∀ p ∈ ps, '/' ∉ f p.1 ∧ f p.1 ≠ [] ∧ f p.1 ≠ clsKey ∧ f p.1 ≠ metaKey := by
      intro p hp
      obtain ⟨_, h1, h2, h3, h4, _⟩ := hsel _ ((hmem p).1 hp).1
      exact ⟨h1, h2, h3, h4⟩
    have hren : ∀ p ∈ ps, Renames kw.keyTransformer f p.1 := fun p hp => (hsel _ ((hmem p).1 hp).1).1
    have hnd : (ps.map fun p => f p.1).Nodup := by
      have := DumpObject.Before.nodup hsorted
      simp only [List.Nodup, List.pairwise_map] at this ⊢
      exact this.imp_of_mem fun ha hb hne he =>
        hne (hinj _ _ ((hmem _).1 ha).1 ((hmem _).1 hb).1 he)
    have hkeep : ∀ p ∈ ps, kept kw.stripNulls (g p).2 = kept kw.stripNulls (g p).1 :=
      fun p hp => unmark_none (hg p hp).2.1 _
    have hfil : (ps.filter fun p => kept kw.stripNulls (g p).1) =
        ps.filter fun p => kept kw.stripNulls (g p).2 :=
      List.filter_congr fun p hp => (hkeep p hp).symm
    generalize hQ : (ps.filter fun p => kept kw.stripNulls (g p).2) = Q at hfil
    have hsub : ∀ p ∈ Q, p ∈ ps := fun p hp => List.mem_of_mem_filter (hQ ▸ hp)
    have hndQ : (Q.map fun p => f p.1).Nodup := by
      rw [← hQ]
      exact hnd.sublist (List.filter_sublist.map _)
    have hobj : ∀ p ∈ ps, ∀ ds, (g p).2 = .dict ds → p ∈ Q := by
      intro p hp ds hd
      rw [← hQ]
      exact List.mem_filter.2 ⟨hp, by simp [hd, kept]⟩
    refine ⟨c, as, ps, Q.map fun p => (.str (f p.1), (g p).1),
      Q.map fun p => (.str (f p.1), (g p).2), rfl, hk, hat, hps, ?_, ?_⟩
    · refine ⟨nice_map (fun p => f p.1) _ hndQ fun p hp =>
          ⟨(hnames p (hsub p hp)).1, (hg p (hsub p hp)).1⟩, ?_, ?_,
        unmark_map (fun p => f p.1) _ _ fun p hp => ⟨(hnames p (hsub p hp)).2.2.1,
          (hnames p (hsub p hp)).2.2.2, (hg p (hsub p hp)).2.1⟩, ?_, ?_⟩
      · intro e he
        obtain ⟨p, hp, rfl⟩ := List.mem_map.1 he
        simpa using (hnames p (hsub p hp)).2.2.1
      · intro e he
        obtain ⟨p, hp, rfl⟩ := List.mem_map.1 he
        simpa using (hnames p (hsub p hp)).2.2.2
      · intro q c' ho hq
        cases ho with
        | here => exact absurd rfl hq
        | @step _ _ _ m a q hs ha ho =>
          have hp := (hmem (m, hintOf (E.info c) kw.strict m)).2 ⟨hs, rfl⟩
          obtain ⟨_, _, _, h4⟩ := hg _ hp
          obtain ⟨h5, h6⟩ := h4 a q c' ha ho
          obtain ⟨_, _, h9, h10⟩ := hnames _ hp
          by_cases hq : q = []
          · subst hq
            obtain ⟨ds, h7, h8⟩ := h5 rfl
            exact ⟨ds, .here (List.mem_map.2 ⟨_, hobj _ hp _ h7, by rw [h7]⟩) h10 h9, h8⟩
          · obtain ⟨_, fs, ds, h7, h8, h8'⟩ := h6 hq
            exact ⟨ds, .step (List.mem_map.2 ⟨_, hobj _ hp _ h7, by rw [h7]⟩) h10 h9 h8, h8'⟩
      · intro q c' ho hq
        cases ho with
        | here => exact absurd rfl hq
        | @step _ _ _ m a q hs ha ho =>
          have hp := (hmem (m, hintOf (E.info c) kw.strict m)).2 ⟨hs, rfl⟩
          have h1 := (hnames _ hp).2.1
          cases q with
          | nil => exact h1
          | cons b q => simp [pathStr]
    · intro n hn
      refine ⟨?_, ?_⟩
      · rw [attrLoop_styled (f := f) (kw := attrKw kw l) hds (fun p => (g p).1) ps [] hren
          (fun p hp => ((hg p hp).2.2.1 n hn).1) hnd (by simp), List.nil_append, ← hfil]
      · rw [attrLoop_styled (f := f) (kw := innerKw kw l) hds (fun p => (g p).2) ps [] hren
          (fun p hp => ((hg p hp).2.2.1 n hn).2) hnd (by simp), List.nil_append, ← hQ]

/-! ## C59 -/

/-- C59, `_partial`, with `strip_nulls`, a key transformer and `strict`: the dump of an
object tree with class info is the dump without it with a `-meta` section at its end, where
every nested object is listed with its path - the new names of the attributes - and the
name of its class.  No path is listed twice, and none that does not lead to the object
itself or to a dict.  Missing: objects as attributes with a hint in strict mode; objects in
dicts and named tuples (false, see `DumpVerbose`). -/
theorem verbose_styled_partial (E : Env) (kw : DumpKw) (f : PyStr → PyStr) (l : List PyStr)
    (N d : Nat) (v : Val)
    (hds : DefaultSers E kw.fork) (hl : stripNames kw.stripAttr = some l)
    (hsc : kw.storeCls = false) (hci : kw.verbose.classInfo = true)
    (hv : STree E kw f l N d v) :
    ∃ es cs, (∀ n, N + 3 * d ≤ n →
        (dump E (n + 2) v none { kw with verbose := {} }).val = .ok (.dict es) ∧
        (dump E (n + 2) v none kw).val =
          .ok (.dict (es ++ [(.str metaKey, metaSection E kw cs)]))) ∧
      (∀ p c, ObjAt E kw l v p c →
        dictGet cs (.str (metaPath (p.map f))) =
          some (.str (E.className true (.cls (.user c))))) ∧
      (cs.map (·.1)).Nodup ∧
      ∀ k ∈ cs.map (·.1), ∃ p, k = .str (metaPath p) ∧ (p = [] ∨ ∃ ds, DictAt es p ds) := by
  obtain ⟨c, as, ps, es, es', rfl, hk, hat, hps, hM, hloop⟩ :=
    stree_loop hds hci d v hv
  have hnice : NiceEntries (es' ++ [(.str metaKey, .dict [])]) :=
    nice_append hM.nice (by decide) hM.noMeta trivial
  obtain ⟨coll, hfill, hF⟩ := fillEntries_spec _ ['/'] [] hnice
  have hun : unmarkEntries (es' ++ [(.str metaKey, .dict [])]) = es ++ [(.str metaKey, .dict [])] := by
    rw [unmark_append, hM.unmarked]
    have : Val.str metaKey ≠ .str clsKey := by decide
    simp only [unmarkEntries, this, if_false, if_true]
  have hnoes : ∀ e ∈ es, e.1 ≠ .str metaKey := by
    rw [← hM.unmarked]
    have : ∀ xs : List (Val × Val), (∀ e ∈ xs, e.1 ≠ .str metaKey) →
        ∀ e ∈ unmarkEntries xs, e.1 ≠ .str metaKey := by
      intro xs
      induction xs with
      | nil => intro _ e he; exact absurd he List.not_mem_nil
      | cons x xs ih =>
        obtain ⟨k, w⟩ := x
        intro h e he
        have ih' := ih fun e he => h e (List.mem_cons_of_mem _ he)
        have hk := h _ List.mem_cons_self
        simp only [unmarkEntries] at he
        split at he
        · exact ih' e he
        · rcases List.mem_cons.1 he with rfl | he
          · exact hk
          · exact ih' e he
    exact this es' hM.noMeta
  refine ⟨es, dictSet coll (.str ['/']) (.str (E.className true (.cls (.user c)))), fun n hn => ⟨?_, ?_⟩, ?_, ?_, ?_⟩
  · refine (object_eq (kw := { kw with verbose := {} }) hds hk rfl hl
      (by rw [attributes_congr (kw' := { kw with verbose := {} }) (kw := kw) rfl rfl rfl rfl]; exact hps)).2 ⟨es, ?_, rfl⟩
    rw [hat]
    exact (hloop n hn).1
  · have hf : ((none : Option Ty).getD (.cls (Val.obj c as).cls)).serFn E.info = some .object := by
      simp [Ty.serFn, Cls.serFn, Val.cls, hk]
    rw [dump_via hds hf]
    have hvb : kw.verbose ≠ {} := by intro e; rw [e] at hci; cases hci
    simp only [callSer, objectSer, normalize_names hl, objectSerWith, hps, bind_ok, lift_val,
      Except.ok.injEq, exists_eq_left', hat, Bool.false_and, hci, hsc, Bool.false_eq_true, if_false]
    refine ⟨es', (hloop n hn).2, ?_⟩
    simp only [liftK_ok, pure_val, Except.ok.injEq, Val.dict.injEq]
    refine ⟨_, ?_, rfl⟩
    rw [withMeta_eq hci (by rw [dictSet_absent hM.noMeta, hfill, hun]), dictSet_last hnoes]
  · intro p c' ho
    rw [metaPath_eq, dictGet_set_str]
    by_cases hp : p = []
    · subst hp
      cases ho
      exact if_pos rfl
    · obtain ⟨ds, h1, h2⟩ := hM.marks p c' ho hp
      rw [if_neg (by simpa using (hM.paths p c' ho hp).symm)]
      have := hF.found (p.map f) ds (DictAt.mono h1 fun e he => List.mem_append_left _ he)
      rw [h2] at this
      exact this
  · have := hF.nodup (by simp)
    rw [dictSet_keys_str]
    split
    · exact this
    · next hk =>
      rw [List.nodup_append]
      refine ⟨this, by simp, ?_⟩
      rintro x hx y hy rfl
      rw [List.mem_singleton] at hy
      exact hk (hy ▸ hx)
  · intro k hk
    have hk' : k ∈ coll.map (·.1) ∨ k = .str ['/'] := by
      rw [dictSet_keys_str] at hk
      split at hk
      · exact .inl hk
      · simpa using hk
    rcases hk' with hk' | rfl
    · rcases hF.onlyKeys k hk' with hk' | ⟨p, ds, h, rfl⟩
      · cases hk'
      · refine ⟨p, by rw [metaPath_eq]; rfl, .inr ⟨unmarkEntries ds, ?_⟩⟩
        have := DictAt.unmark (DictAt.no_meta h)
        rwa [hM.unmarked] at this
    · exact ⟨[], rfl, .inl rfl⟩

/-! ### An example -/

/-- `dict(verbose=Verbosity.WITH_CLASS_INFO, strict=True, strip_nulls=True,
key_transformer=KEY_TRANSFORMER_CAMELCASE)` -/
def styledKw : DumpKw :=
  { verbose := { classInfo := true }, strict := true, stripNulls := true
    keyTransformer := some DumpStyle.camel }

/-- An object with `main_point = Point(1, 2)` and `nick_name = None`. -/
def shape : Val := .obj 6 [("main_point".toList, point), ("nick_name".toList, .none)]

theorem styled_int_leaf (x : Int) :
    Leaf (demoEnv demoInfo) styledKw [] 1 (.int x) (some (.cls .int)) := by
  refine ⟨by simp, .int x, trivial, fun n hn => ?_⟩
  obtain ⟨k, rfl⟩ : ∃ k, n = k + 1 := ⟨n - 1, by omega⟩
  exact ⟨rfl, rfl⟩

theorem styled_none_leaf : Leaf (demoEnv demoInfo) styledKw [] 1 .none none := by
  refine ⟨by simp, .none, trivial, fun n hn => ?_⟩
  obtain ⟨k, rfl⟩ : ∃ k, n = k + 1 := ⟨n - 1, by omega⟩
  exact ⟨rfl, rfl⟩

theorem camel_x : DumpStyle.camel "x".toList = .ok "x".toList := rfl
theorem camel_y : DumpStyle.camel "y".toList = .ok "y".toList := rfl
theorem camel_main : DumpStyle.camel "main_point".toList = .ok "mainPoint".toList := rfl
theorem camel_nick : DumpStyle.camel "nick_name".toList = .ok "nickName".toList := rfl

theorem camelName_eq {s t : PyStr} (h : DumpStyle.camel s = .ok t) : DumpStyle.camelName s = t := by
  simp only [DumpStyle.camelName, h]

theorem camel_renames {s t : PyStr} (h : DumpStyle.camel s = .ok t) :
    Renames styledKw.keyTransformer DumpStyle.camelName s := by
  show DumpStyle.camel s = .ok (DumpStyle.camelName s)
  rw [camelName_eq h, h]

theorem point_stree : STree (demoEnv demoInfo) styledKw DumpStyle.camelName [] 1 1 point := by
  have hsel : ∀ m, Selected (demoInfo 0) [("x".toList, .int 1), ("y".toList, .int 2)] styledKw [] m →
      m = "x".toList ∨ m = "y".toList := by
    intro m hm
    rcases hm.attr with ha | ha
    · simpa using ha
    · exact absurd ha List.not_mem_nil
  refine ⟨0, _, rfl, rfl, rfl, (by intro m h; cases h), ?_, ?_⟩
  · intro m m' hm hm' h
    rcases hsel m hm with rfl | rfl <;> rcases hsel m' hm' with rfl | rfl <;>
      simp only [camelName_eq camel_x, camelName_eq camel_y] at h ⊢ <;> exact h
  · intro m hm
    rcases hsel m hm with rfl | rfl
    · rw [camelName_eq camel_x]
      exact ⟨camel_renames camel_x, by decide, by decide, by decide, by decide, .int 1, rfl,
        .inl (styled_int_leaf 1)⟩
    · rw [camelName_eq camel_y]
      exact ⟨camel_renames camel_y, by decide, by decide, by decide, by decide, .int 2, rfl,
        .inl (styled_int_leaf 2)⟩

theorem shape_selected (m : PyStr) : Selected (demoInfo 6)
    [("main_point".toList, point), ("nick_name".toList, .none)] styledKw [] m →
    m = "main_point".toList ∨ m = "nick_name".toList := by
  intro hm
  rcases hm.attr with ha | ha
  · simpa using ha
  · exact absurd ha List.not_mem_nil

theorem shape_stree : STree (demoEnv demoInfo) styledKw DumpStyle.camelName [] 1 2 shape := by
  refine ⟨6, _, rfl, rfl, rfl, (by intro m h; cases h), ?_, ?_⟩
  · intro m m' hm hm' h
    rcases shape_selected m hm with rfl | rfl <;> rcases shape_selected m' hm' with rfl | rfl
    · rfl
    · rw [camelName_eq camel_main, camelName_eq camel_nick] at h; exact absurd h (by decide)
    · rw [camelName_eq camel_main, camelName_eq camel_nick] at h; exact absurd h (by decide)
    · rfl
  · intro m hm
    rcases shape_selected m hm with rfl | rfl
    · rw [camelName_eq camel_main]
      exact ⟨camel_renames camel_main, by decide, by decide, by decide, by decide, point, rfl,
        .inr ⟨.inl rfl, fun _ => rfl, point_stree⟩⟩
    · rw [camelName_eq camel_nick]
      exact ⟨camel_renames camel_nick, by decide, by decide, by decide, by decide, .none, rfl,
        .inl styled_none_leaf⟩

/-- The class of the point is found under `/mainPoint`. -/
example : ∃ es cs, (dump (demoEnv demoInfo) 12 shape none styledKw).val =
      .ok (.dict (es ++ [(.str metaKey, metaSection (demoEnv demoInfo) styledKw cs)])) ∧
    dictGet cs (.str "/mainPoint".toList) = some (.str "__main__.Point".toList) := by
  obtain ⟨es, cs, h, h3, _⟩ := verbose_styled_partial (demoEnv demoInfo) styledKw
    DumpStyle.camelName [] 1 2 shape (demo_sers 0) rfl rfl rfl shape_stree
  have hs : Selected (demoInfo 6) [("main_point".toList, point), ("nick_name".toList, .none)]
      styledKw [] "main_point".toList :=
    ⟨.inl (by simp), by decide, by decide, by decide, by decide, by decide, by decide,
      by decide, by decide, by decide, by decide⟩
  have := h3 ["main_point".toList] 0 (.step hs rfl .here)
  rw [List.map_cons, List.map_nil, camelName_eq camel_main] at this
  exact ⟨es, cs, (h 10 (by omega)).2, this⟩

/-- The whole dump. -/
example : (dump (demoEnv demoInfo) 12 shape none styledKw).val =
    .ok (.dict [
      (.str "mainPoint".toList, .dict [(.str "x".toList, .int 1), (.str "y".toList, .int 2)]),
      (.str metaKey, .dict [(.str "classes".toList, .dict [
        (.str "/mainPoint".toList, .str "__main__.Point".toList),
        (.str "/".toList, .str "__main__.Other".toList)])])]) := by
  decide +kernel

/-! ## Verbose dumps in another style cannot be loaded again -/

/-- `Point` and `class Person: def __init__(self, main_point)`. -/
def styledInfo : Nat → ClassInfo
  | 0 => demoInfo 0
  | _ => { attrs := mainAttrs "Person", params := [{ name := "main_point".toList }] }

/-- `Person(Point(1, 2))` -/
def traveller : Val := .obj 5 [("main_point".toList, point)]

/-- The dump of the point. -/
def pointDoc : Val := .dict [(.str "x".toList, .int 1), (.str "y".toList, .int 2)]

/-- The `-meta` section for it. -/
def travellerMeta : Val := .dict [(.str "classes".toList, .dict [
  (.str "/mainPoint".toList, .str "__main__.Point".toList),
  (.str "/".toList, .str "__main__.Person".toList)])]

/-- C60 is false with key transformers: the dump of `Person(Point(1, 2))` with class info and
camel case lists the point under `/mainPoint`; loaded with snake case, the person has a dict
for a point and a further attribute `_meta`.  In strict mode that attribute makes the load
fail, although the class is given. -/
theorem verbose_round_trip_fails_keys :
    (dump (demoEnv styledInfo) 9 traveller none
      { verbose := { classInfo := true }, keyTransformer := some DumpStyle.camel }).val =
      .ok (.dict [(.str "mainPoint".toList, pointDoc), (.str metaKey, travellerMeta)]) ∧
    (load (demoLEnv styledInfo) 9
      (.dict [(.str "mainPoint".toList, pointDoc), (.str metaKey, travellerMeta)]) none
      { keyTransformer := some LoadRename.snake }).val =
      .ok (.obj 5 [("main_point".toList, pointDoc), ("_meta".toList, travellerMeta)]) ∧
    ∃ e, (load (demoLEnv styledInfo) 9
      (.dict [(.str "mainPoint".toList, pointDoc), (.str metaKey, travellerMeta)])
      (some (.cls (.user 5))) { keyTransformer := some LoadRename.snake, strict := true }).val =
      .error e ∧ e.kind.isJsonsError = true := by
  refine ⟨by decide +kernel, by decide +kernel, ?_⟩
  have h : (match (load (demoLEnv styledInfo) 9
      (.dict [(.str "mainPoint".toList, pointDoc), (.str metaKey, travellerMeta)])
      (some (.cls (.user 5))) { keyTransformer := some LoadRename.snake, strict := true }).val with
      | .ok _ => false
      | .error e => e.kind.isJsonsError) = true := by decide +kernel
  cases hl : (load (demoLEnv styledInfo) 9
      (.dict [(.str "mainPoint".toList, pointDoc), (.str metaKey, travellerMeta)])
      (some (.cls (.user 5))) { keyTransformer := some LoadRename.snake, strict := true }).val with
  | ok r => rw [hl] at h; cases h
  | error e => rw [hl] at h; exact ⟨e, rfl, h⟩

end Verif.Props.VerboseStyled
