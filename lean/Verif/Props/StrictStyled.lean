import Verif.Props.StrictDump
import Verif.Props.VerboseAdds

/-!
# C110 together with `verbose`, `strip_nulls` and `key_transformer`

Strict mode of `dump` only refuses more, also with these options.
-/

set_option autoImplicit false

namespace Verif.Props.StrictStyled

open Verif Verif.Core Verif.Registry
open Verif.Props.DumpStyle (Styleable restyle restyleList restyleEntries restyleList_eq renameKey after)
open Verif.Props.VerboseAdds (Markable unmeta verbose_style_partial NotReserved KeyFree)
open Verif.Props.StrictDump (Like Plain Exact Entries strict_dump_partial)
open Verif.Props.DumpObject (stripNames hintOf)
open Verif.Props.DumpTyped (Returns Fits)

variable {E : Env}

/-! ## The style of the same JSON -/

/-- Leaving out and renaming, entry by entry. -/
def styled (sn : Bool) (f : PyStr → PyStr) (e : Val × Val) : Option (Val × Val) :=
  if sn && e.2 == .none then none else some (renameKey f e.1, restyle sn f e.2)

theorem restyleEntries_eq (sn : Bool) (f : PyStr → PyStr) (es : List (Val × Val)) :
    restyleEntries sn f es = es.filterMap (styled sn f) := by
  induction es with
  | nil => rfl
  | cons e es ih =>
    obtain ⟨k, v⟩ := e
    simp only [restyleEntries, List.filterMap_cons, styled]
    split
    · simp [ih]
    · simp [ih]

theorem like_none {a b : Val} (h : Like a b) : a = .none ↔ b = .none := by
  cases h with
  | same => exact Iff.rfl
  | list _ => simp
  | dict _ _ _ => simp

theorem like_restyle (sn : Bool) (f : PyStr → PyStr) (k : Nat) : ∀ {a b : Val}, sizeOf a < k →
    Like a b → Like (restyle sn f a) (restyle sn f b) := by
  induction k with
  | zero => intro a b h; omega
  | succ k ih =>
    intro a b hk h
    cases h with
    | same => exact .same _
    | @list xs ys h =>
      simp only [restyle, restyleList_eq]
      refine .list ?_
      have hsz : ∀ x ∈ xs, sizeOf x < k := by
        intro x hx
        have := List.sizeOf_lt_of_mem hx
        simp at hk
        omega
      clear hk
      induction h with
      | nil => exact .nil
      | cons h1 _ ih' =>
        exact .cons (ih (hsz _ List.mem_cons_self) h1)
          (ih' fun x hx => hsz x (List.mem_cons_of_mem _ hx))
    | @dict es fs gs h1 h2 h3 =>
      simp only [restyle, restyleEntries_eq]
      have hsz : ∀ e ∈ es, sizeOf e.2 < k := by
        intro e he
        have := List.sizeOf_lt_of_mem he
        obtain ⟨a, b⟩ := e
        simp at hk this ⊢
        omega
      refine Entries.like (fs := fs.filterMap (styled sn f)) ?_ (h3.filterMap _)
      clear hk h3
      induction es generalizing fs with
      | nil =>
        cases fs with
        | nil => exact .nil
        | cons f fs => simp at h1
      | cons e es ih' =>
        cases fs with
        | nil => simp at h1
        | cons g fs =>
          simp only [List.map_cons, List.cons.injEq] at h1
          rw [List.map_cons, List.map_cons] at h2
          cases h2 with
          | cons h4 h5 =>
            have hrest := ih' h1.2 h5 fun x hx => hsz x (List.mem_cons_of_mem _ hx)
            have hhead := ih (hsz e List.mem_cons_self) h4
            simp only [List.filterMap_cons, styled]
            have hn : (e.2 == Val.none) = (g.2 == Val.none) := by
              rw [Bool.eq_iff_iff]
              simpa using like_none h4
            rw [hn]
            by_cases hc : (sn && g.2 == Val.none) = true
            · rw [if_pos hc, if_pos hc]; exact hrest
            · rw [if_neg hc, if_neg hc]
              exact .cons ⟨by rw [h1.1], hhead⟩ hrest

/-! ## What is met in strict mode is met outside it -/

theorem styleable_lax {v : Val} {kw : DumpKw} {sn : Bool}
    {kt : Option (PyStr → Except Err PyStr)} {f : PyStr → PyStr} {b : Bool}
    (h : Styleable E v { kw with strict := b } sn kt f) :
    Styleable E v { kw with strict := false } sn kt f :=
  { h with classes := nofun, attrs := fun c as hr => ⟨(h.attrs c as hr).1, (h.attrs c as hr).2⟩ }

theorem markable_lax {v : Val} {kw : DumpKw} {b : Bool} (h : Markable E v { kw with strict := b }) :
    Markable E v { kw with strict := false } :=
  { h with classes := nofun }

/-! ## The theorem -/

/-- C110, `_partial`, with all options that shape the result: if strict mode returns
something then so does `dump` outside strict mode, and without the `-meta` sections the two
are the same up to the order of the entries of objects.  Missing: values that are not
exactly of their types (see `StrictDump`), and those for which the options do more than
they should (see `DumpStyle`, `VerboseAdds`). -/
theorem strict_styled_partial (E : Env) (n : Nat) (v j : Val) (cls : Option Ty) (kw : DumpKw)
    (l : List PyStr) (vb : Verbosity) (sn : Bool) (kt : Option (PyStr → Except Err PyStr))
    (f : PyStr → PyStr) (hkw : Plain E kw) (hl : stripNames kw.stripAttr = some l)
    (hv : Exact E kw l v cls)
    (hm : Markable E v { kw with
      strict := true, verbose := vb, stripNulls := sn, keyTransformer := kt })
    (hs : Styleable E v { kw with strict := true } sn kt f)
    (h : (dump E n v cls { kw with
      strict := true, verbose := vb, stripNulls := sn, keyTransformer := kt }).val = .ok j) :
    ∃ N, ∀ m, N ≤ m → ∃ j', Like (unmeta j) (unmeta j') ∧
      (dump E m v none { kw with
        strict := false, verbose := vb, stripNulls := sn, keyTransformer := kt }).val = .ok j' ∧
      ∀ t, cls = some t → Fits E v t → ∃ j'', Like (unmeta j) (unmeta j'') ∧
        (dump E m v (some t) { kw with
          strict := false, verbose := vb, stripNulls := sn, keyTransformer := kt }).val =
          .ok j'' := by
  have hs' := styleable_lax hs
  have hm' := markable_lax (kw := { kw with
    verbose := vb, stripNulls := sn, keyTransformer := kt }) hm
  have h1 := verbose_style_partial E n v cls { kw with strict := true } vb sn kt f hkw.sers hm hs
    hkw.nulls hkw.keys hkw.verbose hkw.storeCls
  have h1v := congrArg Res.val h1
  simp only [after] at h1v
  rw [h] at h1v
  -- the plain dump in strict mode
  obtain ⟨p, hp, hpj⟩ : ∃ p, (dump E n v cls { kw with strict := true }).val = .ok p ∧
      unmeta j = restyle sn f p := by
    cases hd : (dump E n v cls { kw with strict := true }).val with
    | error e => rw [hd] at h1v; cases h1v
    | ok p => rw [hd] at h1v; exact ⟨p, rfl, Except.ok.inj h1v⟩
  obtain ⟨q, hq, hr, ht⟩ := strict_dump_partial E n v p cls kw l hkw hl hv hp
  have hlike : Like (unmeta j) (restyle sn f q) := by
    rw [hpj]
    exact like_restyle sn f _ (Nat.lt_succ_self _) hq
  -- the result with the options, from the one without them
  have back : ∀ m t, (dump E m v t { kw with strict := false }).val = .ok q →
      ∃ j', Like (unmeta j) (unmeta j') ∧ (dump E m v t { kw with
        strict := false, verbose := vb, stripNulls := sn, keyTransformer := kt }).val = .ok j' := by
    intro m t hq'
    have h2 := congrArg Res.val (verbose_style_partial E m v t { kw with strict := false } vb sn kt f
      hkw.sers hm' hs' hkw.nulls hkw.keys hkw.verbose hkw.storeCls)
    simp only [after] at h2
    rw [hq'] at h2
    cases hd : (dump E m v t { kw with
        strict := false, verbose := vb, stripNulls := sn, keyTransformer := kt }).val with
    | error e => rw [hd] at h2; cases h2
    | ok j' =>
      rw [hd] at h2
      refine ⟨j', ?_, rfl⟩
      rw [show unmeta j' = restyle sn f q from Except.ok.inj h2]
      exact hlike
  obtain ⟨N1, hN1⟩ := hr
  by_cases hfit : ∃ t, cls = some t ∧ Fits E v t
  · obtain ⟨t, hc, hf⟩ := hfit
    obtain ⟨N2, hN2⟩ := ht t hc hf
    refine ⟨max N1 N2, fun m hmN => ?_⟩
    obtain ⟨j', a, b⟩ := back m none (hN1 m (by omega))
    refine ⟨j', a, b, fun t' hc' _ => ?_⟩
    rw [hc] at hc'
    cases hc'
    exact back m (some t) (hN2 m (by omega))
  · refine ⟨N1, fun m hmN => ?_⟩
    obtain ⟨j', a, b⟩ := back m none (hN1 m hmN)
    exact ⟨j', a, b, fun t hc hf => absurd ⟨t, hc, hf⟩ hfit⟩

/-! ## An example -/

/-- The names that the classes of the examples declare. -/
theorem demo_declared {c : Nat} {a : PyStr} (h : a ∈ DumpStyle.declared (demoInfo c)) :
    a = "x".toList ∨ a = "y".toList ∨ a = "me".toList := by
  match c with
  | 0 | 1 | 2 | 3 | 4 | 5 =>
    revert a
    decide
  | n + 6 => simp [DumpStyle.declared, demoInfo] at h

theorem demo_shown (c : Nat) (kw : DumpKw) (a : PyStr) :
    DumpStyle.shownName (demoInfo c) kw a = a := by
  have : (demoInfo c).isAttrs = false := by
    match c with
    | 0 | 1 | 2 | 3 | 4 | 5 => rfl
    | n + 6 => rfl
  simp [DumpStyle.shownName, this]

/-- The record of `DumpStyle`, in strict mode. -/
theorem record_styleable : Styleable (demoEnv demoInfo) DumpStyle.record { strict := true } true
    (some DumpStyle.camel) DumpStyle.camelName := by
  have h := DumpStyle.record_styleable
  refine ⟨h.kind, h.raw, h.own, h.key, h.ntuple, ?_, ?_, h.foreign⟩
  · intro c as hr
    exact ⟨(h.attrs c as hr).1, (h.attrs c as hr).2⟩
  · intro _ c
    refine ⟨?_, ?_, ?_, ?_, ?_⟩
    · match c with
      | 0 | 1 | 2 | 3 | 4 | 5 => decide
      | n + 6 => exact List.nodup_nil
    · match c with
      | 0 | 1 | 2 | 3 | 4 | 5 => decide
      | n + 6 => exact List.nodup_nil
    · match c with
      | 0 | 1 | 2 | 3 | 4 | 5 => decide
      | n + 6 => exact List.nodup_nil
    · intro a ha
      rw [show (demoEnv demoInfo).info = demoInfo from rfl] at *
      rw [demo_shown c _]
      rcases demo_declared ha with h | h | h <;> rw [h] <;> rfl
    · intro a b ha hb
      rw [show (demoEnv demoInfo).info = demoInfo from rfl] at *
      rw [demo_shown c _, demo_shown c _]
      rcases demo_declared ha with h | h | h <;> rcases demo_declared hb with h' | h' | h' <;>
        rw [h, h'] <;> decide +kernel

theorem camel_free {s : PyStr} (h : s ∈ ["first_name".toList, "nick_name".toList, "data".toList,
    "born".toList, "x".toList, "y".toList, "me".toList]) :
    KeyFree (some DumpStyle.camel) (.str s) := by
  have mk : ∀ {s t : PyStr}, DumpStyle.camel s = .ok t → NotReserved (.str t) →
      KeyFree (some DumpStyle.camel) (.str s) := by
    intro s t e ht s' h
    rw [e] at h
    cases h
    exact ht
  simp only [List.mem_cons, List.not_mem_nil, or_false] at h
  rcases h with h | h | h | h | h | h | h <;> rw [h]
  · exact mk (t := "firstName".toList) rfl ⟨by decide, by decide⟩
  · exact mk (t := "nickName".toList) rfl ⟨by decide, by decide⟩
  · exact mk (t := "data".toList) rfl ⟨by decide, by decide⟩
  · exact mk (t := "born".toList) rfl ⟨by decide, by decide⟩
  · exact mk (t := "x".toList) rfl ⟨by decide, by decide⟩
  · exact mk (t := "y".toList) rfl ⟨by decide, by decide⟩
  · exact mk (t := "me".toList) rfl ⟨by decide, by decide⟩

theorem record_markable (vb : Verbosity) : Markable (demoEnv demoInfo) DumpStyle.record
    { strict := true, verbose := vb, stripNulls := true, keyTransformer := some DumpStyle.camel } := by
  have hattr : ∀ {u w : Val} {m : PyStr}, Reachable (demoEnv demoInfo) DumpStyle.record u →
      m ≠ "data".toList → m ≠ "born".toList → (demoEnv demoInfo).getAttr u m ≠ .ok w := by
    intro u w m hu h1 h2 h
    rcases DumpStyle.record_mem hu with rfl | rfl | rfl | ⟨s, rfl⟩
    · simp only [DumpStyle.record, Env.getAttr, demoEnv, demoInfo, assoc, if_neg (Ne.symm h1),
        if_neg (Ne.symm h2)] at h
      cases h
    · simp [DumpStyle.recordData, Env.getAttr, demoEnv] at h
    · simp [Env.getAttr, demoEnv] at h
    · simp [Env.getAttr, demoEnv] at h
  constructor
  · exact DumpStyle.record_styleable.kind
  · constructor
    · intro c m w _ h
      rcases DumpStyle.record_mem h with h | h | h | ⟨s, h⟩ <;>
        simp [DumpStyle.record, DumpStyle.recordData] at h
    · intro u w hu _ h
      exact absurd h (hattr (m := "name".toList) hu (by decide) (by decide))
    · intro u w hu h
      exact h.elim (fun h => absurd h (hattr hu (by decide) (by decide)))
        fun h => absurd h (hattr hu (by decide) (by decide))
  · intro es g h e he
    have : es = [(.str "first_name".toList, .str ['A']), (.str "nick_name".toList, .none)] := by
      rcases h with h | h <;> rcases DumpStyle.record_mem h with h | h | h | ⟨s, h⟩ <;>
        simp [DumpStyle.record, DumpStyle.recordData] at h
      exact h
    subst this
    simp only [List.mem_cons, List.not_mem_nil, or_false] at he
    rcases he with rfl | rfl
    · exact ⟨trivial, camel_free (by simp), .inl ⟨_, rfl⟩⟩
    · exact ⟨trivial, camel_free (by simp), .inl ⟨_, rfl⟩⟩
  · intro c xs h
    rcases DumpStyle.record_mem h with h | h | h | ⟨s, h⟩ <;>
      simp [DumpStyle.record, DumpStyle.recordData] at h
  · intro c as h a ha
    rw [show (demoEnv demoInfo).info = demoInfo from rfl] at *
    rw [demo_shown]
    rcases DumpStyle.record_mem h with h | h | h | ⟨s, h⟩ <;>
      simp [DumpStyle.record, DumpStyle.recordData] at h
    obtain ⟨rfl, rfl⟩ := h
    simp [demoInfo] at ha
    rcases ha with rfl | rfl
    · exact camel_free (s := "data".toList) (by simp)
    · exact camel_free (s := "born".toList) (by simp)
  · intro _ c a ha
    rw [show (demoEnv demoInfo).info = demoInfo from rfl] at *
    rw [demo_shown]
    rcases demo_declared ha with h | h | h <;> rw [h] <;> exact camel_free (by simp)
  · intro w t k
    exact ⟨rfl, fun as h => by cases h; exact fun p hp => by cases hp⟩

theorem record_exact : Exact (demoEnv demoInfo) {} [] DumpStyle.record none := by
  have hget : ∀ m a, (demoEnv demoInfo).getAttr DumpStyle.record m = .ok a →
      a = DumpStyle.recordData ∨ a = .none :=
    fun m a h => DumpStyle.recordPart_attr (.inl rfl) h
  refine .object rfl rfl (fun m => by intro h; cases h) (.inl rfl) ?_ ?_
  · intro m a _ ha
    rw [show hintOf ((demoEnv demoInfo).info 6) true m = none from rfl]
    rcases hget m a ha with rfl | rfl
    · refine .dict rfl ?_ ?_
      · intro e he
        simp only [List.mem_cons, List.not_mem_nil, or_false] at he
        rcases he with rfl | rfl <;> rfl
      · intro e he
        simp only [List.mem_cons, List.not_mem_nil, or_false] at he
        rcases he with rfl | rfl <;> exact .scalar trivial (.head _)
    · exact .scalar trivial (.head _)
  · intro m a t _ _ ht
    cases ht

/-- The record in strict mode with `strip_nulls` and camel case, and every kind of
`verbose`: whatever it gives, the dump outside strict mode gives the same. -/
example (n : Nat) (vb : Verbosity) (j : Val)
    (h : (dump (demoEnv demoInfo) n DumpStyle.record none
      { strict := true, verbose := vb, stripNulls := true,
        keyTransformer := some DumpStyle.camel }).val = .ok j) :
    ∃ N, ∀ m, N ≤ m → ∃ j', Like (unmeta j) (unmeta j') ∧
      (dump (demoEnv demoInfo) m DumpStyle.record none
        { verbose := vb, stripNulls := true,
          keyTransformer := some DumpStyle.camel }).val = .ok j' := by
  obtain ⟨N, hN⟩ := strict_styled_partial _ n _ j none {} [] vb true (some DumpStyle.camel)
    DumpStyle.camelName StrictDump.demo_plain rfl record_exact (record_markable vb)
    record_styleable h
  exact ⟨N, fun m hm => (hN m hm).imp fun j' h => ⟨h.1, h.2.1⟩⟩

/-- And it does give something. -/
example : (dump (demoEnv demoInfo) 9 DumpStyle.record none
      { strict := true, stripNulls := true, keyTransformer := some DumpStyle.camel }).val =
    .ok (.dict [(.str "data".toList, .dict [(.str "firstName".toList, .str ['A'])])]) := by
  decide +kernel

end Verif.Props.StrictStyled
