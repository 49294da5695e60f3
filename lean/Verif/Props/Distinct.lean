import Verif.Props.TextRoundTrip

/-! # Different values of a type have different dumps (C108) -/

set_option autoImplicit false

namespace Verif.Props.Distinct

open Verif Verif.Core Verif.Api
open Verif.Props.RoundTrip

/-! ## Being the same value -/

theorem forall₂_refl (xs : List Val) : List.Forall₂ Same xs xs := by
  induction xs with
  | nil => exact .nil
  | cons x xs ih => exact .cons (.refl x) ih

theorem join_list {xs ys zs : List Val} (h : List.Forall₂ Same xs zs) (h' : List.Forall₂ Same ys zs)
    (ih : ∀ z ∈ zs, ∀ x y, Same x z → Same y z → Same x y) : List.Forall₂ Same xs ys := by
  induction h generalizing ys with
  | nil => cases h'; exact .nil
  | cons h1 h2 ih' =>
    cases h' with
    | cons h3 h4 =>
      exact .cons (ih _ List.mem_cons_self _ _ h1 h3) (ih' h4 fun z hz => ih z (List.mem_cons_of_mem _ hz))

theorem join_atom {v w : Val} {a : Atom} (h : Same v (.atom a)) (h' : Same w (.atom a)) : Same v w := by
  cases h with
  | refl =>
    cases h' with
    | refl => exact .refl _
    | @datetime d tz tz' off h1 h2 h3 =>
      have : Val.atom (.datetime d) = .atom (.datetime { { d with tz := some tz' } with tz := some tz }) := by
        rw [← h1]
      rw [this]
      exact .datetime rfl h3 h2
  | @datetime d tz tz' off h1 h2 h3 =>
    generalize he : ({ d with tz := some tz' } : Datetime.DT) = e at h'
    cases h' with
    | refl => rw [← he]; exact .datetime h1 h2 h3
    | @datetime d' tz1 tz1' off' k1 k2 k3 =>
      have htz : tz' = tz1' := Option.some.inj (congrArg Datetime.DT.tz he)
      subst htz
      have ho : off = off' := Option.some.inj (h3.at_.symm.trans k3.at_)
      subst ho
      have : d' = { d with tz := some tz1 } := by
        cases d; cases d'; simp_all
      rw [this]
      exact .datetime h1 h2 k2

/-- What is the same as a third value is the same. -/
theorem join : ∀ (r : Val) {v w : Val}, Same v r → Same w r → Same v w
  | .atom _, _, _, h, h' => join_atom h h'
  | .enum _ _, _, _, h, h' => by cases h; cases h'; exact .refl _
  | .seq k zs, v, w, h, h' => by
    have inv : ∀ v, Same v (.seq k zs) → ∃ xs, v = .seq k xs ∧ List.Forall₂ Same xs zs := by
      intro v h
      cases h with
      | refl => exact ⟨_, rfl, forall₂_refl _⟩
      | seq h => exact ⟨_, rfl, h⟩
    obtain ⟨xs, rfl, h1⟩ := inv v h
    obtain ⟨ys, rfl, h2⟩ := inv w h'
    exact .seq (join_list h1 h2 fun z hz x y => join z)
  | .ntuple k zs, v, w, h, h' => by
    have inv : ∀ v, Same v (.ntuple k zs) → ∃ xs, v = .ntuple k xs ∧ List.Forall₂ Same xs zs := by
      intro v h
      cases h with
      | refl => exact ⟨_, rfl, forall₂_refl _⟩
      | ntuple h => exact ⟨_, rfl, h⟩
    obtain ⟨xs, rfl, h1⟩ := inv v h
    obtain ⟨ys, rfl, h2⟩ := inv w h'
    exact .ntuple (join_list h1 h2 fun z hz x y => join z)
  | .dict zs, v, w, h, h' => by
    have inv : ∀ v, Same v (.dict zs) → ∃ xs, v = .dict xs ∧ xs.map (·.1) = zs.map (·.1) ∧
        List.Forall₂ Same (xs.map (·.2)) (zs.map (·.2)) := by
      intro v h
      cases h with
      | refl => exact ⟨_, rfl, rfl, forall₂_refl _⟩
      | dict h1 h2 => exact ⟨_, rfl, h1, h2⟩
    obtain ⟨xs, rfl, h1, h2⟩ := inv v h
    obtain ⟨ys, rfl, h3, h4⟩ := inv w h'
    refine .dict (h1.trans h3.symm) (join_list h2 h4 fun z hz x y => ?_)
    have : sizeOf z < 1 + sizeOf zs := by
      obtain ⟨e, he, rfl⟩ := List.mem_map.mp hz
      have h1 := List.sizeOf_lt_of_mem he
      obtain ⟨a, b⟩ := e
      simp only [Prod.mk.sizeOf_spec] at h1
      show sizeOf b < _
      omega
    exact join z
  | .ddict f zs, v, w, h, h' => by
    have inv : ∀ v, Same v (.ddict f zs) → ∃ xs, v = .ddict f xs ∧ xs.map (·.1) = zs.map (·.1) ∧
        List.Forall₂ Same (xs.map (·.2)) (zs.map (·.2)) := by
      intro v h
      cases h with
      | refl => exact ⟨_, rfl, rfl, forall₂_refl _⟩
      | ddict h1 h2 => exact ⟨_, rfl, h1, h2⟩
    obtain ⟨xs, rfl, h1, h2⟩ := inv v h
    obtain ⟨ys, rfl, h3, h4⟩ := inv w h'
    refine .ddict (h1.trans h3.symm) (join_list h2 h4 fun z hz x y => ?_)
    have : sizeOf z < 1 + sizeOf f + sizeOf zs := by
      obtain ⟨e, he, rfl⟩ := List.mem_map.mp hz
      have h1 := List.sizeOf_lt_of_mem he
      obtain ⟨a, b⟩ := e
      simp only [Prod.mk.sizeOf_spec] at h1
      show sizeOf b < _
      omega
    exact join z
  | .obj c zs, v, w, h, h' => by
    have inv : ∀ v, Same v (.obj c zs) → ∃ xs, v = .obj c xs ∧ xs.map (·.1) = zs.map (·.1) ∧
        List.Forall₂ Same (xs.map (·.2)) (zs.map (·.2)) := by
      intro v h
      cases h with
      | refl => exact ⟨_, rfl, rfl, forall₂_refl _⟩
      | obj h1 h2 => exact ⟨_, rfl, h1, h2⟩
    obtain ⟨xs, rfl, h1, h2⟩ := inv v h
    obtain ⟨ys, rfl, h3, h4⟩ := inv w h'
    refine .obj (h1.trans h3.symm) (join_list h2 h4 fun z hz x y => ?_)
    have : sizeOf z < 1 + sizeOf c + sizeOf zs := by
      obtain ⟨e, he, rfl⟩ := List.mem_map.mp hz
      have h1 := List.sizeOf_lt_of_mem he
      obtain ⟨a, b⟩ := e
      simp only [Prod.mk.sizeOf_spec] at h1
      show sizeOf b < _
      omega
    exact join z
termination_by r => sizeOf r
decreasing_by
  all_goals simp_wf
  · have := List.sizeOf_lt_of_mem hz; omega
  · have := List.sizeOf_lt_of_mem hz; omega
  · omega
  · omega
  · omega

/-! ## Dumps -/

theorem neutral (fork : Nat) : LoadNeutral fork { fork := fork } :=
  ⟨rfl, rfl, fun _ => rfl, rfl, rfl, by simp⟩

/-- **C108**.  Two values of one type (of those of C33) have the same dump only if they are the same, up
to the time zones of datetimes with the same offset; without datetimes, only if they are equal.  Each may
be dumped with the type or without, and with its own verbosity and stack. -/
theorem distinct_dumps_partial (E : LEnv) (fork : Nat) (v w : Val) (t : Ty) (x y : Bool)
    (hs : DefaultSers E.toEnv fork) (hd : DefaultDesers E fork) (hv : NoValidators E fork)
    (h : HasTy E direct x v t) (h' : HasTy E direct y w t) :
    ∃ N, ∀ n m, N ≤ n → N ≤ m → ∀ kw kw', DumpNeutral fork kw → DumpNeutral fork kw' →
      ∀ cls cls', cls = none ∨ cls = some t → cls' = none ∨ cls' = some t →
        (dump E.toEnv n v cls kw).val = (dump E.toEnv m w cls' kw').val →
          Same v w ∧ (x = true → y = true → v = w) := by
  obtain ⟨N, r, h1, h2, h3⟩ := round_trip_partial E fork v t x hs hd hv h
  obtain ⟨M, q, k1, k2, k3⟩ := round_trip_partial E fork w t y hs hd hv h'
  refine ⟨max N M, fun n m hn hm kw kw' hk hk' cls cls' hc hc' he => ?_⟩
  obtain ⟨j, hj, hl⟩ := h3 n (le_trans (le_max_left _ _) hn) kw hk cls hc
  obtain ⟨i, hi, hl'⟩ := k3 m (le_trans (le_max_right _ _) hm) kw' hk' cls' hc'
  rw [hj, hi] at he
  cases he
  have e1 := hl (max N M) (le_max_left _ _) { fork := fork } (neutral fork)
  have e2 := hl' (max N M) (le_max_right _ _) { fork := fork } (neutral fork)
  rw [e1] at e2
  cases e2
  exact ⟨join r h1 k1, fun hx hy => (h2 hx).symm.trans (k2 hy)⟩

/-- **C108** for texts and bytes. -/
theorem distinct_texts_partial (E : LEnv) (F : FloatText) (hF : FloatGrammar F) (fork : Nat) (v w : Val) (t : Ty) (x y : Bool)
    (hs : DefaultSers E.toEnv fork) (hd : DefaultDesers E fork) (hv : NoValidators E fork)
    (h : HasTy E (TextRoundTrip.text E F) x v t) (h' : HasTy E (TextRoundTrip.text E F) y w t) :
    ∃ N, ∀ n m, N ≤ n → N ≤ m → ∀ kw kw', DumpNeutral fork kw → DumpNeutral fork kw' →
      ∀ cls cls', cls = none ∨ cls = some t → cls' = none ∨ cls' = some t →
        (dumps E.toEnv F n v cls kw).val = (dumps E.toEnv F m w cls' kw').val ∨
          (dumpb E.toEnv F n v cls kw).val = (dumpb E.toEnv F m w cls' kw').val →
          Same v w ∧ (x = true → y = true → v = w) := by
  obtain ⟨N, r, h1, h2, h3⟩ := TextRoundTrip.text_round_trip_partial E F hF fork v t x hs hd hv h
  obtain ⟨M, q, k1, k2, k3⟩ := TextRoundTrip.text_round_trip_partial E F hF fork w t y hs hd hv h'
  refine ⟨max N M, fun n m hn hm kw kw' hk hk' cls cls' hc hc' he => ?_⟩
  obtain ⟨s, b, hj, hjb, hl⟩ := h3 n (le_trans (le_max_left _ _) hn) kw hk cls hc
  obtain ⟨s', b', hi, hib, hl'⟩ := k3 m (le_trans (le_max_right _ _) hm) kw' hk' cls' hc'
  have e1 := hl (max N M) (le_max_left _ _) { fork := fork } (neutral fork)
  have e2 := hl' (max N M) (le_max_right _ _) { fork := fork } (neutral fork)
  have e : r = q := by
    rw [hj, hi, hjb, hib] at he
    rcases he with he | he
    · cases he
      exact Except.ok.inj (e1.1.symm.trans e2.1)
    · cases he
      exact Except.ok.inj (e1.2.symm.trans e2.2)
  subst e
  exact ⟨join r h1 k1, fun hx hy => (h2 hx).symm.trans (k2 hy)⟩

/-! ## Where it fails -/

/-- C108 fails for unions in general: with `cls=Union[int, str]`, `'5'` and `5` have the same dump. -/
theorem distinct_fails_union :
    (dump (demoEnv demoInfo) 9 (.str "5".toList) (some (.union [.cls .int, .cls .str])) {}).val
      = (dump (demoEnv demoInfo) 9 (.int 5) (some (.union [.cls .int, .cls .str])) {}).val := by
  rfl

/-- C108 fails for `datetime`s with offsets of not whole minutes: the offsets 00:19:32, as Amsterdam once had
it, and 00:19 are both written as `+00:19`. -/
theorem distinct_fails_seconds :
    (dump (demoEnv demoInfo) 9 (.atom (.datetime ⟨1930, 1, 1, 0, 0, 0, 0, some (Datetime.Tz.fixed 1172000000 none)⟩)) none {}).val
      = .ok (.str "1930-01-01T00:00:00+00:19".toList) ∧
    (dump (demoEnv demoInfo) 9 (.atom (.datetime ⟨1930, 1, 1, 0, 0, 0, 0, some (Datetime.Tz.fixed 1140000000 none)⟩)) none {}).val
      = .ok (.str "1930-01-01T00:00:00+00:19".toList) := by
  refine ⟨by decide +kernel, by decide +kernel⟩

/-- C108 fails for instances of different classes without `verbose`: their dumps do not show the class. -/
theorem distinct_fails_class :
    (dump (demoEnv demoInfo) 9 (.obj 0 [("x".toList, .int 1)]) none {}).val = .ok (.dict [(.str "x".toList, .int 1)]) ∧
    (dump (demoEnv demoInfo) 9 (.obj 6 [("x".toList, .int 1)]) none {}).val = .ok (.dict [(.str "x".toList, .int 1)]) := by
  refine ⟨by decide +kernel, by decide +kernel⟩

/-! ## Concrete cases -/

theorem demo_hasTy' (n : Int) : HasTy (demoLEnv demoInfo) direct true
    (.list [.obj 0 [("x".toList, .int n), ("y".toList, .int 2)]]) (.gen .list [.cls (.user 0)]) := by
  refine .list fun v hv => ?_
  simp only [List.mem_singleton] at hv
  subst hv
  refine .obj demo_storing rfl ?_
  intro a ha t ht
  simp only [List.mem_cons, List.not_mem_nil, or_false] at ha
  rcases ha with rfl | rfl <;> (cases ht; exact .int _)

/-- `[Point(n, 2)]` and `[Point(m, 2)]` with different `n` and `m` have different dumps, however large the
numbers are. -/
example (i j : Int) (h : i ≠ j) : ∃ N, ∀ n, N ≤ n →
    (dump (demoEnv demoInfo) n (.list [.obj 0 [("x".toList, .int i), ("y".toList, .int 2)]]) none {}).val
      ≠ (dump (demoEnv demoInfo) n (.list [.obj 0 [("x".toList, .int j), ("y".toList, .int 2)]]) none {}).val := by
  obtain ⟨N, hN⟩ := distinct_dumps_partial (demoLEnv demoInfo) 0 _ _ _ true true (demo_sers 0) (demo_desers 0) (demo_novals 0)
    (demo_hasTy' i) (demo_hasTy' j)
  refine ⟨N, fun n hn he => h ?_⟩
  have := (hN n n hn hn {} {} (by constructor <;> rfl) (by constructor <;> rfl) none none (.inl rfl) (.inl rfl) he).2 rfl rfl
  simpa [Val.list, Val.int] using this

/-- The texts of two lists of texts. -/
example (s t : PyStr) (h : s ≠ t) : ∃ N, ∀ n, N ≤ n →
    (dumps (demoEnv demoInfo) Functions.demoFloat n (.list [.str s]) none {}).val
      ≠ (dumps (demoEnv demoInfo) Functions.demoFloat n (.list [.str t]) none {}).val := by
  have ht : ∀ s, HasTy (demoLEnv demoInfo) (TextRoundTrip.text (demoLEnv demoInfo) Functions.demoFloat) true (.list [.str s])
      (.gen .list [.cls .str]) := by
    intro s
    refine .list fun v hv => ?_
    simp only [List.mem_singleton] at hv
    subst hv
    exact .str _
  obtain ⟨N, hN⟩ := distinct_texts_partial (demoLEnv demoInfo) Functions.demoFloat Functions.demoFloat_grammar 0 _ _ _ true true (demo_sers 0)
    (demo_desers 0) (demo_novals 0) (ht s) (ht t)
  refine ⟨N, fun n hn he => h ?_⟩
  have := (hN n n hn hn {} {} (by constructor <;> rfl) (by constructor <;> rfl) none none (.inl rfl) (.inl rfl) (.inl he)).2 rfl rfl
  simpa [Val.list, Val.str] using this

end Verif.Props.Distinct
