import Verif.Registry

/-! # Helper lemmas about registries and forks -/

set_option autoImplicit false

namespace Verif.Registry
open Verif

variable {F C : Type}

theorem lookupName_eq (W : World C) (c : C) : W.lookupName c = W.regName c := by
  unfold World.lookupName World.regName getClassName
  simp only
  split <;> rfl

/-- The name under which a class or `None` is registered. -/
def World.key (W : World C) : Option C → PyStr
  | some c => W.regName c
  | none => "nonetype".toList

theorem setLizer1_lizers (W : World C) (f : F) (hp : Bool) (t : Table F C) (o : Option C)
    (k : PyStr) :
    (setLizer1 W f hp t o).lizers k = if k = W.key o then some f else t.lizers k := by
  cases o <;> rfl

theorem setLizer_lizers (W : World C) (f : F) (hp : Bool) (cls : List (Option C)) (k : PyStr) :
    ∀ t : Table F C, (setLizer W f cls hp t).lizers k =
      if k ∈ cls.map W.key then some f else t.lizers k := by
  induction cls with
  | nil => intro t; simp [setLizer]
  | cons o cls ih =>
    intro t
    have : setLizer W f (o :: cls) hp t = setLizer W f cls hp (setLizer1 W f hp t o) := rfl
    rw [this, ih, setLizer1_lizers]
    by_cases h1 : k ∈ cls.map W.key
    · rw [if_pos h1, if_pos (by simp at h1 ⊢; exact .inr h1)]
    · rw [if_neg h1]
      by_cases h2 : k = W.key o
      · rw [if_pos h2, if_pos (by simp [h2])]
      · rw [if_neg h2, if_neg (by simp only [List.map_cons, List.mem_cons, not_or]; exact ⟨h2, h1⟩)]

/-- Every listed class has an entry. -/
def TableOk (W : World C) (t : Table F C) : Prop :=
  ∀ c ∈ t.classes, (t.lizers (W.regName c)).isSome = true

theorem tableOk_empty (W : World C) : TableOk W (Table.empty : Table F C) := by
  intro c hc; cases hc

theorem tableOk_update {W : World C} {t : Table F C} (h : TableOk W t) (k : PyStr) (f : F) :
    TableOk W ⟨t.classes, update t.lizers k f⟩ := by
  intro c hc
  simp only [update]
  split
  · rfl
  · exact h c hc

theorem tableOk_setLizer1 {W : World C} {t : Table F C} (h : TableOk W t) (f : F) (hp : Bool)
    (o : Option C) : TableOk W (setLizer1 W f hp t o) := by
  cases o with
  | none => exact tableOk_update h _ f
  | some d =>
    intro c hc
    have hc' : c = d ∨ c ∈ t.classes := by
      cases hp
      · simp only [setLizer1, Bool.false_eq_true, if_false, List.mem_append,
          List.mem_singleton] at hc
        exact hc.symm
      · simpa only [setLizer1, if_true, List.mem_cons] using hc
    rw [setLizer1_lizers]
    split
    · rfl
    · next hne =>
      rcases hc' with rfl | hc'
      · exact absurd rfl hne
      · exact h c hc'

theorem tableOk_setLizer {W : World C} (f : F) (hp : Bool) (cls : List (Option C)) :
    ∀ {t : Table F C}, TableOk W t → TableOk W (setLizer W f cls hp t) := by
  induction cls with
  | nil => intro t h; exact h
  | cons o cls ih => intro t h; exact ih (tableOk_setLizer1 h f hp o)

theorem tableOk_setVal {W : World C} (f : F) (cls : List C) :
    ∀ {t : Table F C}, TableOk W t → TableOk W (setVal W f cls t) := by
  induction cls with
  | nil => intro t h; exact h
  | cons d cls ih =>
    intro t h
    refine ih (t := ⟨t.classes ++ [d], update t.lizers (W.regName d) f⟩) ?_
    intro c hc
    simp only [List.mem_append, List.mem_singleton] at hc
    simp only [update]
    split
    · rfl
    · next hne =>
      rcases hc with hc | rfl
      · exact h c hc
      · exact absurd rfl hne

theorem getLizerRec_ok {W : World C} {t : Table F C} (h : TableOk W t) (c : C) :
    ∃ r, getLizerRec W t c = .ok r := by
  unfold getLizerRec
  split
  · exact ⟨_, rfl⟩
  · unfold getLizerByParents
    split
    · exact ⟨_, rfl⟩
    · next p _ hp =>
      have hm : p ∈ t.classes := by
        have : p ∈ getParents W c t.classes := by rw [hp]; simp
        unfold getParents at this
        exact (List.mem_filter.1 this).1
      have := h p hm
      rw [← lookupName_eq, Option.isSome_iff_exists] at this
      obtain ⟨f, hf⟩ := this
      rw [hf]
      exact ⟨_, rfl⟩

theorem getLizer_ok {W : World C} {t : Table F C} (h : TableOk W t) (c : C) :
    ∃ r, getLizer W t c = .ok r := by
  unfold getLizer
  obtain ⟨r, hr⟩ := getLizerRec_ok h c
  rw [hr]
  cases r with
  | some f => exact ⟨_, rfl⟩
  | none =>
    simp only
    split
    · exact getLizerRec_ok h _
    · exact ⟨_, rfl⟩

/-! ## References -/

/-- The references `proj` of the holders into a list of `n` objects: two holders
share an object exactly if they have the same owner. -/
structure RefsOk (proj : Holder → Nat) (n : Nat) (hs : List Holder) (os : List Nat) : Prop where
  len : hs.length = os.length
  fresh : ∀ o ∈ os, o < os.length
  lt : ∀ (i : Nat) (x : Holder), hs[i]? = some x → proj x < n
  iff : ∀ (i : Nat) (x : Holder) (j : Nat) (y : Holder), hs[i]? = some x → hs[j]? = some y → (proj x = proj y ↔ os[i]? = os[j]?)

theorem getElem?_snoc {α : Type} {l : List α} {a b : α} {i : Nat} (h : (l ++ [a])[i]? = some b) :
    l[i]? = some b ∨ (i = l.length ∧ a = b) := by
  rw [List.getElem?_append] at h
  split at h
  · exact .inl h
  · next hlt =>
    right
    have : i - l.length = 0 := by
      rcases Nat.eq_zero_or_pos (i - l.length) with h0 | h0
      · exact h0
      · rw [List.getElem?_eq_none (by simp; omega)] at h; cases h
    rw [this] at h
    simp at h
    exact ⟨by omega, h⟩

theorem lt_of_get {α : Type} {l : List α} {i : Nat} {a : α} (h : l[i]? = some a) :
    i < l.length := by
  rcases Nat.lt_or_ge i l.length with h' | h'
  · exact h'
  · rw [List.getElem?_eq_none h'] at h
    cases h

theorem RefsOk.fork {proj : Holder → Nat} {n : Nat} {hs : List Holder} {os : List Nat}
    (h : RefsOk proj n hs os) (x : Holder) (hx : proj x = n) :
    RefsOk proj (n + 1) (hs ++ [x]) (os ++ [os.length]) := by
  constructor
  · simp [h.len]
  · intro o ho
    simp only [List.mem_append, List.mem_singleton, List.length_append, List.length_cons,
      List.length_nil] at ho ⊢
    rcases ho with ho | rfl
    · have := h.fresh o ho; omega
    · omega
  · intro i y hy
    rcases getElem?_snoc hy with hy | ⟨_, rfl⟩
    · have := h.lt i y hy; omega
    · omega
  · intro i y j z hy hz
    have key : ∀ k, k < os.length → (os ++ [os.length])[k]? = os[k]? := by
      intro k hk; rw [List.getElem?_append_left hk]
    have hne : ∀ k, k < os.length → os[k]? ≠ some os.length := by
      intro k hk he
      have := h.fresh _ (List.mem_of_getElem? he)
      omega
    rcases getElem?_snoc hy with hy | ⟨rfl, rfl⟩ <;> rcases getElem?_snoc hz with hz | ⟨rfl, rfl⟩
    · have h1 := lt_of_get hy
      have h2 := lt_of_get hz
      rw [h.len] at h1 h2
      rw [key i h1, key j h2]
      exact h.iff i y j z hy hz
    · have h1 := lt_of_get hy
      rw [h.len] at h1
      have h2 := h.lt i y hy
      rw [key i h1, h.len]
      simp only [List.getElem?_concat_length]
      constructor
      · intro he; omega
      · intro he; exact absurd he (hne i h1)
    · have h1 := lt_of_get hz
      rw [h.len] at h1
      have h2 := h.lt j z hz
      rw [key j h1, h.len]
      simp only [List.getElem?_concat_length]
      constructor
      · intro he; omega
      · intro he; exact absurd he.symm (hne j h1)
    · simp

theorem RefsOk.subclass {proj : Holder → Nat} {n : Nat} {hs : List Holder} {os : List Nat}
    (h : RefsOk proj n hs os) {i : Nat} {x x' : Holder} (hx : hs[i]? = some x)
    (hp : proj x' = proj x) {o : Nat} (ho : os[i]? = some o) :
    RefsOk proj n (hs ++ [x']) (os ++ [o]) := by
  have ho' := h.fresh o (List.mem_of_getElem? ho)
  have key : ∀ (k : Nat) (y : Holder), (hs ++ [x'])[k]? = some y →
      ∃ (k' : Nat) (y' : Holder), hs[k']? = some y' ∧ proj y = proj y' ∧ (os ++ [o])[k]? = os[k']? := by
    intro k y hy
    rcases getElem?_snoc hy with hy | ⟨rfl, rfl⟩
    · refine ⟨k, y, hy, rfl, ?_⟩
      rw [List.getElem?_append_left]
      rw [← h.len]; exact lt_of_get hy
    · refine ⟨i, x, hx, hp, ?_⟩
      rw [h.len, List.getElem?_concat_length, ho]
  constructor
  · simp [h.len]
  · intro o' ho''
    simp only [List.mem_append, List.mem_singleton, List.length_append, List.length_cons,
      List.length_nil] at ho'' ⊢
    rcases ho'' with h' | rfl
    · have := h.fresh o' h'; omega
    · omega
  · intro k y hy
    obtain ⟨k', y', h1, h2, _⟩ := key k y hy
    rw [h2]; exact h.lt k' y' h1
  · intro a y b z hy hz
    obtain ⟨a', y', h1, h2, h3⟩ := key a y hy
    obtain ⟨b', z', h4, h5, h6⟩ := key b z hz
    rw [h2, h5, h3, h6]
    exact h.iff a' y' b' z' h1 h4

theorem getElem?_set_some {α : Type} {l : List α} {i k : Nat} {a y : α}
    (h : (l.set i a)[k]? = some y) : (k = i ∧ y = a ∧ i < l.length) ∨ (k ≠ i ∧ l[k]? = some y) := by
  rw [List.getElem?_set] at h
  split at h
  · next he =>
    split at h
    · next hl =>
      injection h with h
      exact .inl ⟨he.symm, h.symm, hl⟩
    · cases h
  · next hne => exact .inr ⟨fun he => hne he.symm, h⟩

theorem RefsOk.set {proj : Holder → Nat} {n : Nat} {hs : List Holder} {os : List Nat}
    (h : RefsOk proj n hs os) {i : Nat} {x x' : Holder} (hx : hs[i]? = some x)
    (hp : proj x' = proj x) : RefsOk proj n (hs.set i x') os := by
  have key : ∀ (k : Nat) (y : Holder), (hs.set i x')[k]? = some y → ∃ y' : Holder, hs[k]? = some y' ∧ proj y = proj y' := by
    intro k y hy
    rcases getElem?_set_some hy with ⟨rfl, rfl, _⟩ | ⟨_, hy⟩
    · exact ⟨x, hx, hp⟩
    · exact ⟨y, hy, rfl⟩
  constructor
  · simp [h.len]
  · exact h.fresh
  · intro k y hy
    obtain ⟨y', h1, h2⟩ := key k y hy
    rw [h2]; exact h.lt k y' h1
  · intro a y b z hy hz
    obtain ⟨y', h1, h2⟩ := key a y hy
    obtain ⟨z', h3, h4⟩ := key b z hz
    rw [h2, h4]
    exact h.iff a y' b z' h1 h3

/-! ## Owners -/

/-- Which fork each state holder belongs to: a fork belongs to itself, a derived
class to the fork of its base class. -/
def ownersStep (os : List Nat) : Op F C → List Nat
  | .fork i => if i < os.length then os ++ [os.length] else os
  | .subclass i => match os[i]? with
    | some o => os ++ [o]
    | none => os
  | _ => os

/-- The owners after a history. -/
def owners (ops : List (Op F C)) : List Nat := ops.foldl ownersStep [0]

/-- The invariant of reachable heaps. -/
structure Inv (W : World C) (h : Heap F C) (os : List Nat) : Prop where
  ser : RefsOk (·.ser) h.sers.length h.holders os
  deser : RefsOk (·.deser) h.desers.length h.holders os
  sup : RefsOk (·.sup) h.sups.length h.holders os
  glob : ∀ x ∈ h.holders, x.val = 0 ∧ x.ann = 0
  nval : h.vals.length = 1
  nann : h.anns.length = 1
  sersOk : ∀ t ∈ h.sers, TableOk W t
  desersOk : ∀ t ∈ h.desers, TableOk W t
  valsOk : ∀ t ∈ h.vals, TableOk W t
  chain : ∀ (i : Nat) (x : Holder), h.holders[i]? = some x → x.flag = none →
    ∃ p, x.parent = some p ∧ p < i ∧ os[p]? = os[i]?

theorem mem_modify {α : Type} {l : List α} {i : Nat} {f : α → α} {a : α}
    (h : a ∈ l.modify i f) : a ∈ l ∨ ∃ b ∈ l, a = f b := by
  obtain ⟨k, hk⟩ := List.mem_iff_getElem?.1 h
  rw [List.getElem?_modify] at hk
  cases hl : l[k]? with
  | none => rw [hl] at hk; cases hk
  | some b =>
    rw [hl] at hk
    have hk : (if i = k then f b else b) = a := Option.some.inj hk
    have hb := List.mem_of_getElem? hl
    split at hk
    · exact .inr ⟨b, hb, hk.symm⟩
    · exact .inl (hk ▸ hb)

theorem inv_init (W : World C) : Inv W (Heap.init : Heap F C) [0] := by
  have one : ∀ {α : Type} (a : α) (i : Nat) (x : α), ([a] : List α)[i]? = some x → i = 0 ∧ x = a := by
    intro α a i x hx
    cases i with
    | zero => exact ⟨rfl, (Option.some.inj hx).symm⟩
    | succ i => cases hx
  have refs : ∀ proj : Holder → Nat, proj ⟨none, 0, 0, 0, 0, 0, some false⟩ = 0 →
      RefsOk proj 1 [⟨none, 0, 0, 0, 0, 0, some false⟩] [0] := by
    intro proj hp
    constructor
    · rfl
    · intro o ho; rw [List.mem_singleton.1 ho]; exact Nat.zero_lt_one
    · intro i x hx; obtain ⟨_, rfl⟩ := one _ i x hx; omega
    · intro i x j y hx hy
      obtain ⟨rfl, rfl⟩ := one _ i x hx
      obtain ⟨rfl, rfl⟩ := one _ j y hy
      simp
  constructor
  · exact refs _ rfl
  · exact refs _ rfl
  · exact refs _ rfl
  · intro x hx; simp [Heap.init] at hx; subst hx; exact ⟨rfl, rfl⟩
  · rfl
  · rfl
  · intro t ht; simp [Heap.init] at ht; subst ht; exact tableOk_empty W
  · intro t ht; simp [Heap.init] at ht; subst ht; exact tableOk_empty W
  · intro t ht; simp [Heap.init] at ht; subst ht; exact tableOk_empty W
  · intro i x hx hf
    obtain ⟨rfl, rfl⟩ := one _ i x hx
    cases hf

variable [DecidableEq C]

theorem mem_getD {α : Type} {l : List α} {i : Nat} {d : α} : l.getD i d ∈ l ∨ l.getD i d = d := by
  rw [List.getD_eq_getElem?_getD]
  cases h : l[i]? with
  | none => exact .inr rfl
  | some a => exact .inl (List.mem_of_getElem? h)

theorem inv_step {W : World C} {h : Heap F C} {os : List Nat} (hi : Inv W h os) (op : Op F C) :
    Inv W (step W h op) (ownersStep os op) := by
  unfold step
  cases hx : h.holders[op.target]? with
  | none =>
    have hlen : ¬ op.target < os.length := by
      rw [← hi.ser.len]
      intro hc
      rw [List.getElem?_eq_getElem hc] at hx
      cases hx
    have : ownersStep os op = os := by
      cases op <;> try rfl
      · simp only [ownersStep, Op.target] at hlen ⊢; rw [if_neg hlen]
      · simp only [ownersStep, Op.target] at hlen ⊢
        rw [List.getElem?_eq_none (by omega)]
    rw [this]
    exact hi
  | some x =>
    have hlt : op.target < os.length := by rw [← hi.ser.len]; exact lt_of_get hx
    cases op with
    | setSer f cls hp i =>
      refine { hi with ser := ?_, sersOk := ?_ }
      · simpa [ownersStep] using hi.ser
      · intro t ht
        rcases mem_modify ht with ht | ⟨b, hb, rfl⟩
        · exact hi.sersOk t ht
        · exact tableOk_setLizer f hp cls (hi.sersOk b hb)
    | setDeser f cls hp i =>
      refine { hi with deser := ?_, desersOk := ?_ }
      · simpa [ownersStep] using hi.deser
      · intro t ht
        rcases mem_modify ht with ht | ⟨b, hb, rfl⟩
        · exact hi.desersOk t ht
        · exact tableOk_setLizer f hp cls (hi.desersOk b hb)
    | setVal f cls i =>
      refine { hi with nval := ?_, valsOk := ?_ }
      · simpa using hi.nval
      · intro t ht
        rcases mem_modify ht with ht | ⟨b, hb, rfl⟩
        · exact hi.valsOk t ht
        · exact tableOk_setVal f cls (hi.valsOk b hb)
    | announce c name i =>
      refine { hi with nann := ?_ }
      simpa using hi.nann
    | suppressWarning code i =>
      refine { hi with sup := ?_ }
      simpa [ownersStep] using hi.sup
    | suppressWarnings b i =>
      refine { hi with
        ser := hi.ser.set (x' := { x with flag := some b }) hx rfl
        deser := hi.deser.set (x' := { x with flag := some b }) hx rfl
        sup := hi.sup.set (x' := { x with flag := some b }) hx rfl
        glob := ?_, chain := ?_ }
      · intro y hy
        obtain ⟨k, hk⟩ := List.mem_iff_getElem?.1 hy
        rcases getElem?_set_some hk with ⟨_, rfl, _⟩ | ⟨_, hk⟩
        · exact hi.glob x (List.mem_of_getElem? hx)
        · exact hi.glob y (List.mem_of_getElem? hk)
      · intro k y hy hf
        rcases getElem?_set_some hy with ⟨_, rfl, _⟩ | ⟨_, hk⟩
        · cases hf
        · exact hi.chain k y hk hf
    | fork i =>
      simp only [ownersStep, Op.target] at hlt ⊢
      rw [if_pos hlt]
      have hl := hi.ser.len
      refine { ser := ?_, deser := ?_, sup := ?_, glob := ?_, nval := hi.nval, nann := hi.nann,
               sersOk := ?_, desersOk := ?_, valsOk := hi.valsOk, chain := ?_ }
      · simp only [forkOp, List.length_append, List.length_cons, List.length_nil]
        exact hi.ser.fork _ rfl
      · simp only [forkOp, List.length_append, List.length_cons, List.length_nil]
        exact hi.deser.fork _ rfl
      · simp only [forkOp, List.length_append, List.length_cons, List.length_nil]
        exact hi.sup.fork _ rfl
      · intro y hy
        simp only [forkOp, List.mem_append, List.mem_singleton] at hy
        rcases hy with hy | rfl
        · exact hi.glob y hy
        · exact hi.glob x (List.mem_of_getElem? hx)
      · intro t ht
        simp only [forkOp, List.mem_append, List.mem_singleton] at ht
        rcases ht with ht | rfl
        · exact hi.sersOk t ht
        · rcases mem_getD (l := h.sers) (i := x.ser) (d := Table.empty) with h' | h'
          · exact hi.sersOk _ h'
          · rw [h']; exact tableOk_empty W
      · intro t ht
        simp only [forkOp, List.mem_append, List.mem_singleton] at ht
        rcases ht with ht | rfl
        · exact hi.desersOk t ht
        · rcases mem_getD (l := h.desers) (i := x.deser) (d := Table.empty) with h' | h'
          · exact hi.desersOk _ h'
          · rw [h']; exact tableOk_empty W
      · intro k y hy hf
        rcases getElem?_snoc hy with hy | ⟨_, rfl⟩
        · obtain ⟨p, h1, h2, h3⟩ := hi.chain k y hy hf
          have := lt_of_get hy
          refine ⟨p, h1, h2, ?_⟩
          rw [List.getElem?_append_left (by omega), List.getElem?_append_left (by omega)]
          exact h3
        · cases hf
    | subclass i =>
      simp only [ownersStep, Op.target] at hlt hx ⊢
      have ho : os[i]? = some os[i] := List.getElem?_eq_getElem hlt
      rw [ho]
      have hl := hi.ser.len
      refine { hi with
        ser := hi.ser.subclass (x' := { x with parent := some i, flag := none }) hx rfl ho
        deser := hi.deser.subclass (x' := { x with parent := some i, flag := none }) hx rfl ho
        sup := hi.sup.subclass (x' := { x with parent := some i, flag := none }) hx rfl ho
        glob := ?_, chain := ?_ }
      · intro y hy
        simp only [List.mem_append, List.mem_singleton] at hy
        rcases hy with hy | rfl
        · exact hi.glob y hy
        · exact hi.glob x (List.mem_of_getElem? hx)
      · intro k y hy hf
        rcases getElem?_snoc hy with hy | ⟨rfl, rfl⟩
        · obtain ⟨p, h1, h2, h3⟩ := hi.chain k y hy hf
          have := lt_of_get hy
          refine ⟨p, h1, h2, ?_⟩
          rw [List.getElem?_append_left (by omega), List.getElem?_append_left (by omega)]
          exact h3
        · refine ⟨i, rfl, by omega, ?_⟩
          rw [List.getElem?_append_left hlt, hl, List.getElem?_concat_length, ho]

theorem inv_run_from {W : World C} (ops : List (Op F C)) : ∀ {h : Heap F C} {os : List Nat},
    Inv W h os → Inv W (run W h ops) (ops.foldl ownersStep os) := by
  induction ops with
  | nil => intro h os hi; exact hi
  | cons op ops ih => intro h os hi; exact ih (inv_step hi op)

theorem inv_run (W : World C) (ops : List (Op F C)) :
    Inv W (run W Heap.init ops) (owners ops) := inv_run_from ops (inv_init W)

/-! ## What one step does -/

/-- The registry of serializers of a holder. -/
def serTable (h : Heap F C) (i : Nat) : Option (Table F C) :=
  (h.holders[i]?).map fun x => h.sers.getD x.ser Table.empty

/-- The registry of deserializers of a holder. -/
def deserTable (h : Heap F C) (i : Nat) : Option (Table F C) :=
  (h.holders[i]?).map fun x => h.desers.getD x.deser Table.empty

/-- The suppressed codes of a holder. -/
def supSet (h : Heap F C) (i : Nat) : Option (List PyStr) :=
  (h.holders[i]?).map fun x => h.sups.getD x.sup []

theorem getD_modify {α : Type} {l : List α} {i j : Nat} {f : α → α} {d : α} (hj : j < l.length) :
    (l.modify i f).getD j d = if i = j then f (l.getD j d) else l.getD j d := by
  simp only [List.getD_eq_getElem?_getD, List.getElem?_modify, List.getElem?_eq_getElem hj]
  split <;> simp

theorem getD_snoc_lt {α : Type} {l : List α} {a d : α} {j : Nat} (hj : j < l.length) :
    (l ++ [a]).getD j d = l.getD j d := by
  simp only [List.getD_eq_getElem?_getD, List.getElem?_append_left hj]

theorem getD_snoc_eq {α : Type} {l : List α} {a d : α} : (l ++ [a]).getD l.length d = a := by
  simp [List.getD_eq_getElem?_getD]

theorem step_holder_lt {W : World C} {h : Heap F C} {op : Op F C} {i : Nat} {y : Holder}
    (hy : h.holders[i]? = some y) :
    ∃ y', (step W h op).holders[i]? = some y' ∧ y'.ser = y.ser ∧ y'.deser = y.deser ∧
      y'.sup = y.sup ∧ y'.val = y.val ∧ y'.ann = y.ann ∧ y'.parent = y.parent ∧
      (y'.flag = y.flag ∨ ∃ b, op = .suppressWarnings b i ∧ y'.flag = some b) := by
  have hlt := lt_of_get hy
  unfold step
  cases hx : h.holders[op.target]? with
  | none => exact ⟨y, hy, rfl, rfl, rfl, rfl, rfl, rfl, .inl rfl⟩
  | some x =>
    cases op with
    | suppressWarnings b k =>
      by_cases hk : k = i
      · subst hk
        simp only [Op.target] at hx
        rw [hy] at hx
        injection hx with hx
        subst hx
        refine ⟨{ y with flag := some b }, ?_, rfl, rfl, rfl, rfl, rfl, rfl, .inr ⟨b, rfl, rfl⟩⟩
        simp [hlt]
      · refine ⟨y, ?_, rfl, rfl, rfl, rfl, rfl, rfl, .inl rfl⟩
        simp only
        rw [List.getElem?_set_ne hk]
        exact hy
    | fork k =>
      refine ⟨y, ?_, rfl, rfl, rfl, rfl, rfl, rfl, .inl rfl⟩
      simp only [forkOp]
      rw [List.getElem?_append_left hlt]
      exact hy
    | subclass k =>
      refine ⟨y, ?_, rfl, rfl, rfl, rfl, rfl, rfl, .inl rfl⟩
      simp only
      rw [List.getElem?_append_left hlt]
      exact hy
    | setSer f cls hp k => exact ⟨y, hy, rfl, rfl, rfl, rfl, rfl, rfl, .inl rfl⟩
    | setDeser f cls hp k => exact ⟨y, hy, rfl, rfl, rfl, rfl, rfl, rfl, .inl rfl⟩
    | setVal f cls k => exact ⟨y, hy, rfl, rfl, rfl, rfl, rfl, rfl, .inl rfl⟩
    | announce c n k => exact ⟨y, hy, rfl, rfl, rfl, rfl, rfl, rfl, .inl rfl⟩
    | suppressWarning c k => exact ⟨y, hy, rfl, rfl, rfl, rfl, rfl, rfl, .inl rfl⟩

/-- The change an operation makes to the serializers of the fork it works on. -/
def serEffect (W : World C) : Op F C → Table F C → Table F C
  | .setSer f cls hp _ => setLizer W f cls hp
  | _ => id

/-- The change an operation makes to the deserializers of the fork it works on. -/
def deserEffect (W : World C) : Op F C → Table F C → Table F C
  | .setDeser f cls hp _ => setLizer W f cls hp
  | _ => id

/-- The change an operation makes to the suppressed codes of the fork it works on. -/
def supEffect : Op F C → List PyStr → List PyStr
  | .suppressWarning code _ => fun s => code :: s
  | _ => id

theorem step_serTable {W : World C} {h : Heap F C} {os : List Nat} (hi : Inv W h os)
    (op : Op F C) {i : Nat} (hlt : i < os.length) :
    serTable (step W h op) i =
      if os[op.target]? = os[i]? then (serTable h i).map (serEffect W op) else serTable h i := by
  have hlt' : i < h.holders.length := by rw [hi.ser.len]; exact hlt
  obtain ⟨y, hy⟩ : ∃ y, h.holders[i]? = some y := ⟨_, List.getElem?_eq_getElem hlt'⟩
  obtain ⟨y', hy', hser, -⟩ := step_holder_lt (W := W) (op := op) hy
  have hys := hi.ser.lt i y hy
  simp only [serTable, hy', hy, Option.map_some, hser]
  have same : ∀ {P : Prop} [Decidable P] {g : Table F C → Table F C} {t : Table F C}, g = id →
      (if P then some (g t) else some t) = some t := by
    intro P _ g t hg; subst hg; split <;> rfl
  unfold step
  cases hx : h.holders[op.target]? with
  | none =>
    simp only
    rw [if_neg]
    intro he
    rw [List.getElem?_eq_getElem hlt] at he
    have := lt_of_get he
    rw [← hi.ser.len] at this
    rw [List.getElem?_eq_getElem this] at hx
    cases hx
  | some x =>
    cases op with
    | setSer f cls hp k =>
      simp only [serEffect]
      rw [getD_modify hys]
      have := hi.ser.iff _ x i y hx hy
      by_cases he : x.ser = y.ser
      · rw [if_pos he, if_pos (this.1 he)]
      · rw [if_neg he, if_neg (fun hc => he (this.2 hc))]
    | fork k =>
      simp only [forkOp]
      rw [getD_snoc_lt hys]
      exact (same rfl).symm
    | setDeser f cls hp k => exact (same rfl).symm
    | setVal f cls k => exact (same rfl).symm
    | announce c n k => exact (same rfl).symm
    | suppressWarning c k => exact (same rfl).symm
    | suppressWarnings c k => exact (same rfl).symm
    | subclass k => exact (same rfl).symm

theorem step_deserTable {W : World C} {h : Heap F C} {os : List Nat} (hi : Inv W h os)
    (op : Op F C) {i : Nat} (hlt : i < os.length) :
    deserTable (step W h op) i =
      if os[op.target]? = os[i]? then (deserTable h i).map (deserEffect W op)
      else deserTable h i := by
  have hlt' : i < h.holders.length := by rw [hi.ser.len]; exact hlt
  obtain ⟨y, hy⟩ : ∃ y, h.holders[i]? = some y := ⟨_, List.getElem?_eq_getElem hlt'⟩
  obtain ⟨y', hy', -, hser, -⟩ := step_holder_lt (W := W) (op := op) hy
  have hys := hi.deser.lt i y hy
  simp only [deserTable, hy', hy, Option.map_some, hser]
  have same : ∀ {P : Prop} [Decidable P] {g : Table F C → Table F C} {t : Table F C}, g = id →
      (if P then some (g t) else some t) = some t := by
    intro P _ g t hg; subst hg; split <;> rfl
  unfold step
  cases hx : h.holders[op.target]? with
  | none =>
    simp only
    rw [if_neg]
    intro he
    rw [List.getElem?_eq_getElem hlt] at he
    have := lt_of_get he
    rw [← hi.ser.len] at this
    rw [List.getElem?_eq_getElem this] at hx
    cases hx
  | some x =>
    cases op with
    | setDeser f cls hp k =>
      simp only [deserEffect]
      rw [getD_modify hys]
      have := hi.deser.iff _ x i y hx hy
      by_cases he : x.deser = y.deser
      · rw [if_pos he, if_pos (this.1 he)]
      · rw [if_neg he, if_neg (fun hc => he (this.2 hc))]
    | fork k =>
      simp only [forkOp]
      rw [getD_snoc_lt hys]
      exact (same rfl).symm
    | setSer f cls hp k => exact (same rfl).symm
    | setVal f cls k => exact (same rfl).symm
    | announce c n k => exact (same rfl).symm
    | suppressWarning c k => exact (same rfl).symm
    | suppressWarnings c k => exact (same rfl).symm
    | subclass k => exact (same rfl).symm

theorem step_supSet {W : World C} {h : Heap F C} {os : List Nat} (hi : Inv W h os)
    (op : Op F C) {i : Nat} (hlt : i < os.length) :
    supSet (step W h op) i =
      if os[op.target]? = os[i]? then (supSet h i).map (supEffect op) else supSet h i := by
  have hlt' : i < h.holders.length := by rw [hi.ser.len]; exact hlt
  obtain ⟨y, hy⟩ : ∃ y, h.holders[i]? = some y := ⟨_, List.getElem?_eq_getElem hlt'⟩
  obtain ⟨y', hy', -, -, hser, -⟩ := step_holder_lt (W := W) (op := op) hy
  have hys := hi.sup.lt i y hy
  simp only [supSet, hy', hy, Option.map_some, hser]
  have same : ∀ {P : Prop} [Decidable P] {g : List PyStr → List PyStr} {t : List PyStr}, g = id →
      (if P then some (g t) else some t) = some t := by
    intro P _ g t hg; subst hg; split <;> rfl
  unfold step
  cases hx : h.holders[op.target]? with
  | none =>
    simp only
    rw [if_neg]
    intro he
    rw [List.getElem?_eq_getElem hlt] at he
    have := lt_of_get he
    rw [← hi.ser.len] at this
    rw [List.getElem?_eq_getElem this] at hx
    cases hx
  | some x =>
    cases op with
    | suppressWarning c k =>
      simp only [supEffect]
      rw [getD_modify hys]
      have := hi.sup.iff _ x i y hx hy
      by_cases he : x.sup = y.sup
      · rw [if_pos he, if_pos (this.1 he)]
      · rw [if_neg he, if_neg (fun hc => he (this.2 hc))]
    | fork k =>
      simp only [forkOp]
      rw [getD_snoc_lt hys]
      exact (same rfl).symm
    | setSer f cls hp k => exact (same rfl).symm
    | setDeser f cls hp k => exact (same rfl).symm
    | setVal f cls k => exact (same rfl).symm
    | announce c n k => exact (same rfl).symm
    | suppressWarnings c k => exact (same rfl).symm
    | subclass k => exact (same rfl).symm

end Verif.Registry
