import Verif.Core.DumpLemmas

/-! # Lemmas about the selection of attributes and about the loop over them -/

set_option autoImplicit false

namespace Verif.Core
open Verif Verif.Datetime

/-! ## Order of names -/

theorem strLe_refl (a : PyStr) : strLe a a = true := by
  induction a with
  | nil => rfl
  | cons c a ih => simp [strLe, ih]

theorem strLe_trans {a b c : PyStr} (h1 : strLe a b = true) (h2 : strLe b c = true) :
    strLe a c = true := by
  induction a generalizing b c with
  | nil => rfl
  | cons x a ih =>
    cases b with
    | nil => simp [strLe] at h1
    | cons y b =>
      cases c with
      | nil => simp [strLe] at h2
      | cons z c =>
        simp only [strLe] at *
        split at h1
        · next h => subst h; split at h2
                    · next h' => subst h'; simp [ih h1 h2]
                    · next h' => simp [h']; simpa using h2
        · next h =>
          split at h2
          · next h' => subst h'; simp [h]; simpa using h1
          · next h' =>
            simp only [decide_eq_true_eq] at h1 h2
            have : x ≠ z := by rintro rfl; omega
            simp [this]; omega

theorem strLe_antisymm {a b : PyStr} (h1 : strLe a b = true) (h2 : strLe b a = true) : a = b := by
  induction a generalizing b with
  | nil => cases b with
    | nil => rfl
    | cons y b => simp [strLe] at h2
  | cons x a ih =>
    cases b with
    | nil => simp [strLe] at h1
    | cons y b =>
      simp only [strLe] at *
      split at h1
      · next h => subst h; simp at h2; rw [ih h1 h2]
      · next h =>
        rw [if_neg (Ne.symm h)] at h2
        simp only [decide_eq_true_eq] at h1 h2; omega

theorem strLe_total (a b : PyStr) (h : strLe a b = false) : strLe b a = true := by
  induction a generalizing b with
  | nil => simp [strLe] at h
  | cons x a ih =>
    cases b with
    | nil => rfl
    | cons y b =>
      simp only [strLe] at *
      split at h
      · next h' => subst h'; simp [ih b h]
      · next h' =>
        rw [if_neg (Ne.symm h')]
        simp only [decide_eq_false_iff_not, decide_eq_true_eq] at *
        have : x.toNat ≠ y.toNat := fun e => h' (Char.toNat_inj.1 e)
        omega

/-- `a` comes before `b`. -/
def Before (a b : PyStr) : Prop := strLe a b = true ∧ a ≠ b

theorem mem_insertName {n m : PyStr} {l : List PyStr} : m ∈ insertName n l ↔ m = n ∨ m ∈ l := by
  induction l with
  | nil => simp [insertName]
  | cons x l ih =>
    simp only [insertName]
    split
    · next h => subst h; simp
    · split
      · simp
      · simp only [List.mem_cons, ih]
        constructor
        · rintro (h | h | h) <;> simp [h]
        · rintro (h | h | h) <;> simp [h]

theorem insertName_sorted {n : PyStr} {l : List PyStr} (h : l.Pairwise Before) :
    (insertName n l).Pairwise Before := by
  induction l with
  | nil => simp [insertName]
  | cons x l ih =>
    simp only [insertName]
    have hx := List.pairwise_cons.1 h
    split
    · exact h
    · next hne =>
      split
      · next hle =>
        refine List.pairwise_cons.2 ⟨?_, h⟩
        intro y hy
        rcases List.mem_cons.1 hy with rfl | hy
        · exact ⟨hle, hne⟩
        · have := hx.1 y hy
          refine ⟨strLe_trans hle this.1, ?_⟩
          rintro rfl
          exact this.2 (strLe_antisymm this.1 hle)
      · next hle =>
        refine List.pairwise_cons.2 ⟨?_, ih hx.2⟩
        intro y hy
        rcases mem_insertName.1 hy with rfl | hy
        · exact ⟨strLe_total _ _ (by simpa using hle), Ne.symm hne⟩
        · exact hx.1 y hy

theorem mem_dirNames {I : ClassInfo} {as : List (PyStr × Val)} {n : PyStr} :
    n ∈ dirNames I as ↔ n ∈ as.map (·.1) ∨ n ∈ I.members.map (·.1) := by
  unfold dirNames
  rw [← List.mem_append]
  generalize (as.map (·.1) ++ I.members.map (·.1)) = l
  induction l with
  | nil => simp
  | cons x l ih => simp only [List.foldr_cons, mem_insertName, ih, List.mem_cons]

theorem dirNames_sorted (I : ClassInfo) (as : List (PyStr × Val)) :
    (dirNames I as).Pairwise Before := by
  unfold dirNames
  generalize (as.map (·.1) ++ I.members.map (·.1)) = l
  induction l with
  | nil => simp
  | cons x l ih => exact insertName_sorted ih

/-! ## `assoc` -/

theorem assoc_set {β : Type} (l : List (PyStr × β)) (n m : PyStr) (b : β) :
    assoc (assocSet l n b) m = if n = m then some b else assoc l m := by
  induction l with
  | nil => simp [assocSet, assoc]
  | cons p l ih =>
    obtain ⟨x, c⟩ := p
    simp only [assocSet]
    split
    · next h => subst h; simp only [assoc]; split <;> simp_all
    · next h =>
      simp only [assoc, ih]
      by_cases h1 : x = m
      · subst h1; simp [Ne.symm h]
      · simp [h1]

theorem assoc_mem {β : Type} {l : List (PyStr × β)} {n : PyStr} {b : β} (h : assoc l n = some b) :
    (n, b) ∈ l := by
  induction l with
  | nil => simp [assoc] at h
  | cons p l ih =>
    obtain ⟨x, c⟩ := p
    simp only [assoc] at h
    split at h
    · next e => subst e; simp at h; simp [h]
    · exact List.mem_cons_of_mem _ (ih h)

theorem assoc_none {β : Type} {l : List (PyStr × β)} {n : PyStr} :
    assoc l n = none ↔ n ∉ l.map (·.1) := by
  induction l with
  | nil => simp [assoc]
  | cons p l ih =>
    obtain ⟨x, c⟩ := p
    simp only [assoc]
    split
    · next e => subst e; simp
    · next e =>
      rw [ih]
      have : n ≠ x := Ne.symm e
      simp [this]

theorem assoc_map {β γ : Type} (l : List (PyStr × β)) (f : β → γ) (n : PyStr) :
    assoc (l.map fun p => (p.1, f p.2)) n = (assoc l n).map f := by
  induction l with
  | nil => rfl
  | cons p l ih =>
    simp only [List.map_cons, assoc]
    split
    · rfl
    · exact ih

theorem foldl_assocSet_none {β : Type} (ms : List (PyStr × β)) (l : List (PyStr × Option Ty))
    (n : PyStr) :
    assoc (ms.foldl (fun as p => assocSet as p.1 none) l) n =
      if n ∈ ms.map (·.1) then some none else assoc l n := by
  induction ms generalizing l with
  | nil => simp
  | cons p ms ih =>
    rw [List.foldl_cons, ih, assoc_set]
    by_cases h : p.1 = n
    · subst h; simp
    · rw [if_neg h]
      by_cases hm : n ∈ ms.map (·.1)
      · have hm' : n ∈ (p :: ms).map (·.1) := List.mem_cons_of_mem _ hm
        rw [if_pos hm, if_pos hm']
      · have hm' : n ∉ (p :: ms).map (·.1) := by
          intro hc
          rcases List.mem_cons.1 hc with e | e
          · exact h e.symm
          · exact hm e
        rw [if_neg hm, if_neg hm']

/-! ## `keepAttr` and `filterAttributes` -/

theorem go_spec {I : ClassInfo} {kw : DumpKw} {strip : List PyStr}
    {ps r : List (PyStr × Option Ty)} (h : filterAttributes.go I kw strip ps = .ok r) :
    r.Sublist ps ∧ ∀ p, p ∈ r ↔ p ∈ ps ∧ keepAttr I kw strip p.1 = .ok true := by
  induction ps generalizing r with
  | nil =>
    simp only [filterAttributes.go, Except.ok.injEq] at h
    subst h; simp
  | cons q ps ih =>
    simp only [filterAttributes.go, bind, Except.bind] at h
    cases hb : keepAttr I kw strip q.1 with
    | error e => rw [hb] at h; cases h
    | ok b =>
      rw [hb] at h
      cases hg : filterAttributes.go I kw strip ps with
      | error e => rw [hg] at h; cases h
      | ok r' =>
        rw [hg] at h
        obtain ⟨h1, h2⟩ := ih hg
        cases b with
        | false =>
          simp only [pure, Except.pure, Bool.false_eq_true, if_false, Except.ok.injEq] at h
          subst h
          refine ⟨h1.cons _, fun p => ?_⟩
          rw [h2]
          constructor
          · rintro ⟨a, b⟩; exact ⟨List.mem_cons_of_mem _ a, b⟩
          · rintro ⟨a, b⟩
            rcases List.mem_cons.1 a with rfl | a
            · rw [hb] at b; cases b
            · exact ⟨a, b⟩
        | true =>
          simp only [pure, Except.pure, if_true, Except.ok.injEq] at h
          subst h
          refine ⟨h1.cons_cons _, fun p => ?_⟩
          rw [List.mem_cons, h2, List.mem_cons]
          constructor
          · rintro (rfl | ⟨a, b⟩)
            · exact ⟨.inl rfl, hb⟩
            · exact ⟨.inr a, b⟩
          · rintro ⟨rfl | a, b⟩
            · exact .inl rfl
            · exact .inr ⟨a, b⟩

theorem go_total {I : ClassInfo} {kw : DumpKw} {strip : List PyStr}
    (hn : ∀ n, assoc I.members n ≠ some .noSource) (ps : List (PyStr × Option Ty)) :
    ∃ r, filterAttributes.go I kw strip ps = .ok r := by
  have hk : ∀ n, ∃ b, keepAttr I kw strip n = .ok b := by
    intro n
    have := hn n
    unfold keepAttr
    simp only
    repeat' split
    all_goals first | exact ⟨_, rfl⟩ | (exfalso; simp_all)
  induction ps with
  | nil => exact ⟨[], rfl⟩
  | cons p ps ih =>
    obtain ⟨b, hb⟩ := hk p.1
    obtain ⟨r, hr⟩ := ih
    simp only [filterAttributes.go, hb, hr, bind, Except.bind]
    exact ⟨_, rfl⟩

/-! ## The loop over the attributes -/

/-- What an attribute is dumped to. -/
def AttrDump (E : Env) (n : Nat) (v : Val) (kw : DumpKw) (p : PyStr × Option Ty) (d : Val) : Prop :=
  ∃ a, E.getAttr v p.1 = .ok a ∧ (dump E (n + 1) a p.2 kw).val = .ok d

theorem dumpAttr_ok {E : Env} {n : Nat} {kw : DumpKw} {a d : Val} {hint : Option Ty}
    (hds : DefaultSers E kw.fork) (hst : kw.storeCls = false) :
    (dumpAttr E (recOf E n) kw ((hint.getD (.cls a.cls)).serFn E.info) a hint).val = .ok d ↔
      (dump E (n + 1) a hint kw).val = .ok d := by
  rw [dump_ok_iff hds]
  cases h : (hint.getD (.cls a.cls)).serFn E.info with
  | none => simp [dumpAttr]
  | some f =>
    simp only [dumpAttr, bind_ok, Option.some.injEq, exists_eq_left', pure_val, Except.ok.injEq]
    constructor
    · rintro ⟨x, h1, h2⟩
      have : storeClsInfo E kw.storeCls x a = x := by
        rw [hst]; unfold storeClsInfo; split <;> simp
      rw [this] at h2; subst h2; exact h1
    · intro h1
      refine ⟨d, h1, ?_⟩
      rw [hst]; unfold storeClsInfo; split <;> simp

/-- One step of the loop if the attribute can be dumped. -/
theorem attrLoop_step {E : Env} {n : Nat} {kw : DumpKw} {isPublic : Bool} {v : Val} {cn : PyStr}
    {p : PyStr × Option Ty} {ps : List (PyStr × Option Ty)} {acc : List (Val × Val)} {d : Val}
    (hds : DefaultSers E kw.fork) (hst : kw.storeCls = false) (hd : AttrDump E n v kw p d) :
    (attrLoop E (recOf E n) kw isPublic v cn (p :: ps) acc).val =
      match addDumped kw acc (.str (if isPublic then lstrip_ p.1 else p.1)) d with
      | .ok acc' => (attrLoop E (recOf E n) kw isPublic v cn ps acc').val
      | .error e => .error e := by
  obtain ⟨a, ha, hd⟩ := hd
  obtain ⟨name, hint⟩ := p
  have h1 := (dumpAttr_ok (n := n) (a := a) (hint := hint) hds hst).2 hd
  simp only [attrLoop, bind_val, lift_val, ha, emit_val, hds _, liftK_of_ok, pure_val, attempt_val,
    h1]
  cases addDumped kw acc (.str (if isPublic then lstrip_ name else name)) d <;> rfl

/-- What happens after the step is in the log. -/
theorem attrLoop_step_log {E : Env} {n : Nat} {kw : DumpKw} {isPublic : Bool} {v : Val} {cn : PyStr}
    {p : PyStr × Option Ty} {ps : List (PyStr × Option Ty)} {acc acc' : List (Val × Val)} {d : Val}
    {ev : Event} (hds : DefaultSers E kw.fork) (hst : kw.storeCls = false)
    (hd : AttrDump E n v kw p d)
    (ha : addDumped kw acc (.str (if isPublic then lstrip_ p.1 else p.1)) d = .ok acc')
    (he : ev ∈ (attrLoop E (recOf E n) kw isPublic v cn ps acc').log) :
    ev ∈ (attrLoop E (recOf E n) kw isPublic v cn (p :: ps) acc).log := by
  obtain ⟨a, hga, hd⟩ := hd
  obtain ⟨name, hint⟩ := p
  have h1 := (dumpAttr_ok (n := n) (a := a) (hint := hint) hds hst).2 hd
  simp only [attrLoop]
  refine mem_bind_log (a := a) (by rw [lift_val]; exact hga) ?_
  refine mem_bind_log (a := ()) rfl ?_
  refine mem_bind_log (a := (hint.getD (.cls a.cls)).serFn E.info) (by rw [liftK_ok]; exact hds _) ?_
  refine mem_bind_log (a := .ok d) (by rw [attempt_val, h1]) ?_
  exact mem_bind_log (a := acc') (by rw [lift_val]; exact ha) he

/-- All attributes can be dumped. -/
theorem attrLoop_all {E : Env} {n : Nat} {kw : DumpKw} {v : Val} {cn : PyStr}
    (hds : DefaultSers E kw.fork) (hst : kw.storeCls = false) (hkt : kw.keyTransformer = none)
    (hsn : kw.stripNulls = false) (g : PyStr × Option Ty → Val)
    (tl : List (PyStr × Option Ty)) :
    ∀ (ps : List (PyStr × Option Ty)) (acc : List (Val × Val)),
      (∀ p ∈ ps, AttrDump E n v kw p (g p)) → (ps.map (·.1)).Nodup →
      (∀ e ∈ acc, ∀ p ∈ ps, pyEq e.1 (.str p.1) = false) →
      (attrLoop E (recOf E n) kw false v cn (ps ++ tl) acc).val =
        (attrLoop E (recOf E n) kw false v cn tl (acc ++ ps.map fun p => (.str p.1, g p))).val ∧
      ∀ ev ∈ (attrLoop E (recOf E n) kw false v cn tl (acc ++ ps.map fun p => (.str p.1, g p))).log,
        ev ∈ (attrLoop E (recOf E n) kw false v cn (ps ++ tl) acc).log := by
  intro ps
  induction ps with
  | nil => intro acc _ _ _; simp
  | cons p ps ih =>
    intro acc h1 h2 h3
    have hadd : addDumped kw acc (.str (if false = true then lstrip_ p.1 else p.1)) (g p) =
        .ok (acc ++ [(.str p.1, g p)]) := by
      simp only [addDumped, hsn, Bool.false_and, transformKey, hkt, Except.map,
        Bool.false_eq_true, if_false]
      rw [dictSet_new (fun a ha => h3 a ha _ List.mem_cons_self)]
    rw [List.map_cons, List.nodup_cons] at h2
    obtain ⟨ih1, ih2⟩ := ih (acc ++ [(.str p.1, g p)])
      (fun q hq => h1 q (List.mem_cons_of_mem _ hq)) h2.2 (by
        intro e he q hq
        rcases List.mem_append.1 he with he | he
        · exact h3 e he q (List.mem_cons_of_mem _ hq)
        · rw [List.mem_singleton] at he
          subst he
          simp only [pyEq_str, beq_eq_false_iff_ne, ne_eq]
          intro e
          exact h2.1 (e ▸ List.mem_map_of_mem (f := (·.1)) hq))
    rw [List.append_assoc, List.singleton_append] at ih1 ih2
    constructor
    · rw [List.cons_append, attrLoop_step hds hst (h1 p List.mem_cons_self), hadd]
      exact ih1
    · intro ev hev
      exact attrLoop_step_log hds hst (h1 p List.mem_cons_self) hadd (ih2 ev hev)

/-- The keys of the result are the names of the attributes. -/
theorem attrLoop_keys {E : Env} {rec : Rec} {kw : DumpKw} {isPublic : Bool} {v : Val} {cn : PyStr}
    (hkt : kw.keyTransformer = none) :
    ∀ (ps : List (PyStr × Option Ty)) (acc r : List (Val × Val)),
      (attrLoop E rec kw isPublic v cn ps acc).val = .ok r →
      ∀ e ∈ r, e.1 ∈ acc.map (·.1) ∨
        ∃ p ∈ ps, e.1 = .str (if isPublic then lstrip_ p.1 else p.1) := by
  have hset : ∀ (acc : List (Val × Val)) (k w : Val), ∀ e ∈ dictSet acc k w,
      e.1 ∈ acc.map (·.1) ∨ e.1 = k := by
    intro acc k w
    induction acc with
    | nil => intro e he; simp [dictSet] at he; simp [he]
    | cons x acc ih =>
      intro e he
      simp only [dictSet] at he
      split at he
      · rcases List.mem_cons.1 he with rfl | he
        · simp
        · exact .inl (List.mem_map_of_mem (f := (·.1)) (List.mem_cons_of_mem _ he))
      · rcases List.mem_cons.1 he with rfl | he
        · simp
        · rcases ih e he with h | h
          · exact .inl (List.mem_cons_of_mem _ h)
          · exact .inr h
  intro ps
  induction ps with
  | nil =>
    intro acc r h e he
    simp only [attrLoop, pure_val, Except.ok.injEq] at h
    subst h
    exact .inl (List.mem_map_of_mem (f := (·.1)) he)
  | cons p ps ih =>
    obtain ⟨name, hint⟩ := p
    intro acc r h e he
    simp only [attrLoop, bind_ok, lift_val, emit_val, attempt_val, Except.ok.injEq] at h
    obtain ⟨a, _, _, _, fn, _, x, _, h⟩ := h
    cases x with
    | error er =>
      simp only at h
      split at h
      · simp at h
      · split at h
        · simp at h
        · simp only [bind_ok, warn_val, pure_val, Except.ok.injEq] at h
          obtain ⟨_, _, h⟩ := h
          subst h
          exact .inl (List.mem_map_of_mem (f := (·.1)) he)
    | ok d =>
      simp only [bind_ok, lift_val] at h
      obtain ⟨acc', h1, h2⟩ := h
      rcases ih acc' r h2 e he with h3 | ⟨q, hq, h3⟩
      · simp only [addDumped, transformKey, hkt, Except.map] at h1
        split at h1
        · simp only [Except.ok.injEq] at h1; subst h1; exact .inl h3
        · simp only [Except.ok.injEq] at h1
          subst h1
          obtain ⟨e', he', h4⟩ := List.mem_map.1 h3
          rcases hset _ _ _ e' he' with h5 | h5
          · exact .inl (h4 ▸ h5)
          · exact .inr ⟨_, List.mem_cons_self, h4 ▸ h5⟩
      · exact .inr ⟨q, List.mem_cons_of_mem _ hq, h3⟩

/-- In strict mode a result means that every attribute could be dumped. -/
theorem attrLoop_strict {E : Env} {n : Nat} {kw : DumpKw} {isPublic : Bool} {v : Val} {cn : PyStr}
    (hds : DefaultSers E kw.fork) (hs : kw.strict = true) :
    ∀ (ps : List (PyStr × Option Ty)) (acc r : List (Val × Val)),
      (attrLoop E (recOf E n) kw isPublic v cn ps acc).val = .ok r →
      ∀ p ∈ ps, ∃ d, AttrDump E n v kw p d := by
  intro ps
  induction ps with
  | nil => intro _ _ _ p hp; cases hp
  | cons p ps ih =>
    obtain ⟨name, hint⟩ := p
    intro acc r h q hq
    simp only [attrLoop, bind_ok, lift_val, emit_val, attempt_val, Except.ok.injEq, liftK_ok,
      hds _] at h
    obtain ⟨a, ha, _, _, fn, hfn, x, hx, h⟩ := h
    cases x with
    | error er =>
      simp only [hs, if_true] at h
      split at h <;> simp at h
    | ok d =>
      simp only [bind_ok, lift_val] at h
      obtain ⟨acc', h1, h2⟩ := h
      rcases List.mem_cons.1 hq with rfl | hq
      · subst hfn
        generalize hser : (hint.getD (.cls a.cls)).serFn E.info = o at hx
        cases o with
        | none => simp [dumpAttr] at hx
        | some f =>
          simp only [dumpAttr, bind_ok, pure_val] at hx
          obtain ⟨y, hy, _⟩ := hx
          exact ⟨y, a, ha, (dump_ok_iff hds).2 ⟨f, hser, hy⟩⟩
      · exact ih acc' r h2 q hq

end Verif.Core
