import Verif.Cache
import Verif.Props.Registry

/-! # Properties C27–C29 (and the cache side of C26, C62): the function cache -/

set_option autoImplicit false

namespace Verif.Props.Cache
open Verif Verif.Registry Verif.Cache

variable {F C : Type} [DecidableEq C]

/-! ## What a program can do -/

/-- The computations that can be made of cached calls, registrations, clearing the
cache, sequencing, exceptions and handlers, and decisions that depend on anything
but the cache. -/
inductive Built (W : CWorld C) : {α : Type} → Comp F C α → Prop where
  | ret {α : Type} (a : α) : Built W (Comp.ret a)
  | raise {α : Type} (e : ErrKind) : Built W (Comp.raise e : Comp F C α)
  | call (a : Call C) : Built W (call W a)
  | leaf (a : Call C) : Built W (leafCall W a)
  | clear : Built W clear
  | op (o : Op F C) : Built W (doOp W o)
  | bind {α β : Type} {m : Comp F C α} {k : α → Comp F C β} :
      Built W m → (∀ a, Built W (k a)) → Built W (m.bind k)
  | handle {α β : Type} {m : Comp F C α} {k : Except ErrKind α → Comp F C β} :
      Built W m → (∀ r, Built W (k r)) → Built W fun s => k (m s).1 (m s).2

/-- Nothing is stored twice and there are at most 128 entries. -/
def Bounded (s : St F C) : Prop :=
  s.cache.length ≤ 128 ∧ (s.cache.map (·.1)).Nodup

section lru
variable {K V : Type} [DecidableEq K]

theorem find_some {c : Lru K V} {k : K} {v : V} (h : c.find k = some v) : (k, v) ∈ c := by
  simp only [Lru.find, Option.map_eq_some_iff] at h
  obtain ⟨e, h1, h2⟩ := h
  have h3 := List.find?_some h1
  have h4 := List.mem_of_find?_eq_some h1
  simp only [decide_eq_true_eq] at h3
  rw [← h3, ← h2]
  exact h4

theorem find_none {c : Lru K V} {k : K} (h : c.find k = none) : k ∉ c.map (·.1) := by
  simp only [Lru.find, Option.map_eq_none_iff, List.find?_eq_none, decide_eq_true_eq] at h
  simp only [List.mem_map, not_exists, not_and]
  exact fun e he hk => h e he hk

theorem touch_mem {c : Lru K V} {k : K} {v : V} {e : K × V} (hf : c.find k = some v)
    (h : e ∈ c.touch k v) : e ∈ c := by
  simp only [Lru.touch, List.mem_cons, List.mem_filter] at h
  rcases h with rfl | h
  · exact find_some hf
  · exact h.1

theorem store_mem {c : Lru K V} {k : K} {v : V} {e : K × V} (h : e ∈ c.store k v) :
    e ∈ c ∨ e = (k, v) := by
  unfold Lru.store at h
  split at h
  · exact .inl h
  · split at h
    · rcases List.mem_cons.1 h with h | h
      · exact .inr h
      · exact .inl (List.dropLast_subset c h)
    · rcases List.mem_cons.1 h with h | h
      · exact .inr h
      · exact .inl h

theorem touch_bounded {c : Lru K V} {k : K} {v : V} (hf : c.find k = some v)
    (h : c.length ≤ 128 ∧ (c.map (·.1)).Nodup) :
    (c.touch k v).length ≤ 128 ∧ ((c.touch k v).map (·.1)).Nodup := by
  have hm := find_some hf
  constructor
  · have : (c.filter fun e => decide (e.1 ≠ k)).length < c.length := by
      refine List.length_filter_lt_length_iff_exists.2 ⟨_, hm, ?_⟩
      simp
    simp only [Lru.touch, List.length_cons]
    exact Nat.le_trans this h.1
  · simp only [Lru.touch, List.map_cons, List.nodup_cons]
    constructor
    · simp [List.mem_map, List.mem_filter]
    · exact h.2.sublist (List.Sublist.map _ List.filter_sublist)

theorem store_bounded {c : Lru K V} {k : K} {v : V}
    (h : c.length ≤ 128 ∧ (c.map (·.1)).Nodup) :
    (c.store k v).length ≤ 128 ∧ ((c.store k v).map (·.1)).Nodup := by
  unfold Lru.store
  split
  · exact h
  · next hn =>
    have hk : k ∉ c.map (·.1) := by
      refine find_none ?_
      cases hc : c.find k with
      | none => rfl
      | some v => rw [hc] at hn; exact absurd rfl hn
    split
    · next hl =>
      constructor
      · simp only [List.length_cons, List.length_dropLast]
        have h1 := h.1
        simp only [maxsize] at hl
        omega
      · simp only [List.map_cons, List.nodup_cons]
        refine ⟨?_, h.2.sublist (List.Sublist.map _ (List.dropLast_sublist c))⟩
        intro hm
        exact hk (((List.dropLast_sublist c).map _).subset hm)
    · next hl =>
      simp only [maxsize] at hl
      constructor
      · simp only [List.length_cons]; omega
      · simp only [List.map_cons, List.nodup_cons]
        exact ⟨hk, h.2⟩

end lru

/-! ## C27 – the cache is bounded -/

/-- A property of the state that a computation keeps. -/
def Keeps {α : Type} (P : St F C → Prop) (m : Comp F C α) : Prop := ∀ s, P s → P (m s).2

omit [DecidableEq C] in
theorem Keeps.bind {α β : Type} {P : St F C → Prop} {m : Comp F C α} {k : α → Comp F C β}
    (hm : Keeps P m) (hk : ∀ a, Keeps P (k a)) : Keeps P (m.bind k) := by
  intro s hs
  have := hm s hs
  unfold Comp.bind
  split
  · next a s' h => rw [h] at this; exact hk a _ this
  · next e s' h => rw [h] at this; exact this

omit [DecidableEq C] in
theorem Keeps.ret {α : Type} {P : St F C → Prop} (a : α) : Keeps P (Comp.ret a) := fun _ h => h

omit [DecidableEq C] in
theorem Keeps.raise {α : Type} {P : St F C → Prop} (e : ErrKind) :
    Keeps P (Comp.raise e : Comp F C α) := fun _ h => h

theorem Keeps.cached {W : CWorld C} {b : Call C → Comp F C (CVal F C)} {a : Call C}
    (hb : Keeps Bounded (b a)) : Keeps Bounded (cachedCall W b a) := by
  intro s hs
  unfold cachedCall
  split
  · next v hv => exact touch_bounded hv hs
  · have := hb s hs
    split
    · next v s' h => rw [h] at this; exact store_bounded this
    · next e s' h => rw [h] at this; exact this

theorem keeps_leaf (W : CWorld C) (a : Call C) :
    Keeps Bounded (leafCall W a : Comp F C (CVal F C)) := by
  refine Keeps.cached ?_
  cases a <;> first | exact Keeps.ret _ | exact Keeps.raise _

theorem keeps_lowerName (W : CWorld C) (c : C) : Keeps (F := F) Bounded (lowerName W c) := by
  refine (keeps_leaf W _).bind ?_
  intro v; cases v <;> first | exact Keeps.ret _ | exact Keeps.raise _

theorem keeps_byParents (W : CWorld C) (t : Table F C) (c : C) :
    Keeps Bounded (byParents W t c) := by
  refine (keeps_leaf W _).bind ?_
  intro v
  cases v with
  | cls n =>
    simp only
    split
    · exact Keeps.ret _
    · refine (keeps_lowerName W _).bind ?_
      intro n
      split
      · exact Keeps.ret _
      · exact Keeps.raise _
  | _ => exact Keeps.raise _

theorem keeps_getLizerRec (W : CWorld C) (t : Table F C) (c : C) :
    Keeps Bounded (getLizerRecC W t c) := by
  refine (keeps_lowerName W _).bind ?_
  intro n
  split
  · exact Keeps.ret _
  · exact keeps_byParents W t c

theorem keeps_getLizer (W : CWorld C) (t : Table F C) (c : C) :
    Keeps Bounded (getLizerC W t c) := by
  refine (keeps_getLizerRec W t c).bind ?_
  intro r
  cases r with
  | some f => exact Keeps.ret _
  | none =>
    simp only
    split
    · exact keeps_getLizerRec W t _
    · exact Keeps.ret _

theorem keeps_tableLookup (W : CWorld C) (t : Heap F C → Option (Table F C)) (c : C) :
    Keeps Bounded (tableLookup W t c) := by
  intro s hs
  unfold tableLookup
  split
  · exact ((keeps_getLizer W _ c).bind fun _ => Keeps.ret _) s hs
  · exact hs

theorem keeps_body (W : CWorld C) (a : Call C) : Keeps Bounded (body W a : Comp F C _) := by
  cases a with
  | getSer c i => exact keeps_tableLookup W _ c
  | getDeser c i => exact keeps_tableLookup W _ c
  | getVal c i => exact keeps_tableLookup W _ c
  | announce c n i =>
    refine Keeps.bind ?_ ?_
    · split
      · exact Keeps.ret _
      · exact keeps_leaf W _
    · intro v
      cases v with
      | str n => exact fun s hs => hs
      | _ => exact Keeps.raise _
  | _ => exact Keeps.ret _

theorem keeps_op (W : CWorld C) (o : Op F C) : Keeps Bounded (doOp W o) := by
  refine Keeps.bind ?_ (fun _ s hs => hs)
  induction Op.classes o with
  | nil => exact Keeps.ret _
  | cons c cs ih => exact (keeps_leaf W _).bind fun _ => ih

/-- C27: whatever a program does, the cache holds at most 128 entries and no key
twice. -/
theorem cache_bounded (W : CWorld C) {α : Type} (m : Comp F C α) (hm : Built W m) (h : Heap F C) :
    (m ⟨h, []⟩).2.cache.length ≤ 128 ∧ ((m ⟨h, []⟩).2.cache.map (·.1)).Nodup := by
  have gen : ∀ {α : Type} {m : Comp F C α}, Built W m → Keeps Bounded m := by
    intro α m hm
    induction hm with
    | ret a => exact Keeps.ret a
    | raise e => exact Keeps.raise e
    | call a => exact Keeps.cached (keeps_body W a)
    | leaf a => exact keeps_leaf W a
    | clear => exact fun s _ => ⟨Nat.zero_le _, List.nodup_nil⟩
    | op o => exact keeps_op W o
    | bind _ _ ih1 ih2 => exact ih1.bind ih2
    | handle _ _ ih1 ih2 => exact fun s hs => ih2 _ _ (ih1 s hs)
  exact gen hm _ ⟨Nat.zero_le _, List.nodup_nil⟩

/-! `dump` and `load` are such computations. -/

/-- The end of `dump`, given the outcome of the serializer. -/
def dumpEnd {R : Type} (initial : Bool) : Except ErrKind R → Comp F C R
  | .ok r => if initial then clear.bind fun _ => Comp.ret r else Comp.ret r
  | .error _ => clear.bind fun _ => Comp.raise .serializationError

/-- The end of `load`, given the outcome of the deserializer and the validator. -/
def loadEnd {R : Type} (initial : Bool) : Except ErrKind R → Comp F C R
  | .ok r => if initial then clear.bind fun _ => Comp.ret r else Comp.ret r
  | .error e => clear.bind fun _ =>
      Comp.raise (if e.isJsonsError then e else .deserializationError)

theorem built_dump {W : CWorld C} {R : Type} (i : Nat) (c : C) (initial : Bool)
    {ser : Option F → Comp F C R} (hser : ∀ f, Built W (ser f)) :
    Built W (dump W i c initial ser) := by
  refine .bind (.call _) ?_
  intro v
  cases v with
  | fn f =>
    refine .bind (.call _) ?_
    intro _
    have h : Built W (fun s => dumpEnd initial (ser f s).1 (ser f s).2) := by
      refine .handle (hser f) ?_
      intro r
      cases r with
      | ok r =>
        cases initial
        · exact .ret _
        · exact .bind .clear fun _ => .ret _
      | error e => exact .bind .clear fun _ => .raise _
    refine cast (congrArg _ ?_) h
    funext s
    rcases ser f s with ⟨r | r, s'⟩
    · rfl
    · cases initial <;> rfl
  | _ => exact .raise _

theorem built_validate {W : CWorld C} {R : Type} (i : Nat) (c : C) (check : F → R → Bool) (r : R) :
    Built W (validate W i c check r) := by
  refine .bind (.call _) ?_
  intro v
  cases v with
  | fn f =>
    cases f with
    | none => exact .ret _
    | some f =>
      simp only
      split
      · exact .ret _
      · exact .raise _
  | _ => exact .ret _

theorem built_load {W : CWorld C} {R : Type} (i : Nat) (c : C) (initial : Bool)
    {nc : Comp F C Unit} (hnc : Built W nc) (skip : Option R) {res : Comp F C C}
    (hres : Built W res) {des : F → C → Comp F C R} (hdes : ∀ f c, Built W (des f c))
    (check : F → R → Bool) : Built W (load W i c initial nc skip res des check) := by
  refine .bind hnc ?_
  intro _
  cases skip with
  | some r => exact .bind (built_validate i c check r) fun _ => .ret _
  | none =>
    refine .bind hres ?_
    intro c'
    refine .bind (.call _) ?_
    intro v
    cases v with
    | fn f =>
      refine .bind (.leaf _) ?_
      intro _
      cases f with
      | none => exact .raise _
      | some f =>
        have h : Built W (fun s => loadEnd initial
            (((des f c').bind fun r => (validate W i c' check r).bind fun _ => Comp.ret r) s).1
            (((des f c').bind fun r => (validate W i c' check r).bind fun _ =>
              Comp.ret r) s).2) := by
          refine .handle (.bind (hdes f c') fun r => .bind (built_validate i c' check r)
            fun _ => .ret _) ?_
          intro r
          cases r with
          | ok r =>
            cases initial
            · exact .ret _
            · exact .bind .clear fun _ => .ret _
          | error e => exact .bind .clear fun _ => .raise _
        refine cast (congrArg _ ?_) h
        funext s
        simp only
        rcases ((des f c').bind fun r => (validate W i c' check r).bind fun _ =>
          Comp.ret r) s with ⟨r | r, s'⟩
        · rfl
        · cases initial <;> rfl
    | _ => exact .raise _

/-! ## Concrete classes -/

open Registry (Ex exWorld)

/-- The classes of the registry examples; identical classes only are equal. -/
def exC : CWorld Ex := { exWorld with
  canon := id, naked := id, params := fun _ => none, naked_sub := fun _ _ => rfl }

/-- A program for C27: a dump whose serializer dumps another class and registers a
serializer. -/
example : Built exC (dump (F := Nat) exC 0 .dog true fun _ =>
    (dump exC 0 .animal false fun _ => Comp.ret ()).bind fun _ =>
      doOp exC (.setSer 1 [some .dog] true 0)) :=
  built_dump _ _ _ fun _ => .bind (built_dump _ _ _ fun _ => .ret _) fun _ => .op _

/-- The cache really fills. -/
example : (call (F := Nat) exC (.getSer .dog 0) ⟨Heap.init, []⟩).2.cache.length = 3 := by decide

/-! ## C28 – transparency -/

/-- What a function returns without the cache; `announce_class` returns nothing of
interest. -/
def eval (W : CWorld C) (h : Heap F C) : Call C → Option (Except ErrKind (CVal F C))
  | .className c lower full =>
    some (.ok (.str (getClassName (W.attrs c) (if lower then PyStr.lower else id) full)))
  | .naked c => some (.ok (.cls (W.naked c)))
  | .params c => some (.ok (.clss (W.params c)))
  | .getSer c i => some (match serOf h i with
    | some t => (getLizer W.toWorld t c).map .fn
    | none => .error .attributeError)
  | .getDeser c i => some (match deserOf h i with
    | some t => (getLizer W.toWorld t c).map .fn
    | none => .error .attributeError)
  | .getVal c i => some (match valOf h i with
    | some t => (getLizer W.toWorld t c).map .fn
    | none => .error .attributeError)
  | .announce _ _ _ => none

/-- Calls with equal keys have equal results. -/
def Respects (F : Type) (W : CWorld C) : Prop :=
  ∀ (a b : Call C), a.key W = b.key W → ∀ h : Heap F C, eval W h a = eval W h b

/-- All entries of the cache are what the functions would return now. -/
def Fresh (W : CWorld C) (s : St F C) : Prop :=
  ∀ k v, (k, v) ∈ s.cache → ∀ a : Call C, a.key W = k → ∀ r, eval W s.heap a = some r → r = .ok v

/-- In states with a given heap and only fresh entries, `m` returns `r` and leaves
such a state. -/
def Returns {α : Type} (W : CWorld C) (h : Heap F C) (m : Comp F C α) (r : Except ErrKind α) :
    Prop :=
  ∀ s, s.heap = h → Fresh W s → (m s).1 = r ∧ (m s).2.heap = h ∧ Fresh W (m s).2

omit [DecidableEq C] in
theorem Returns.bind {α β : Type} {W : CWorld C} {h : Heap F C} {m : Comp F C α} {a : α}
    {k : α → Comp F C β} {r : Except ErrKind β} (hm : Returns W h m (.ok a))
    (hk : Returns W h (k a) r) : Returns W h (m.bind k) r := by
  intro s hs hf
  obtain ⟨h1, h2, h3⟩ := hm s hs hf
  unfold Comp.bind
  rcases he : m s with ⟨x, s'⟩
  rw [he] at h1 h2 h3
  simp only at h1
  subst h1
  exact hk s' h2 h3

omit [DecidableEq C] in
theorem Returns.bind_error {α β : Type} {W : CWorld C} {h : Heap F C} {m : Comp F C α}
    {e : ErrKind} {k : α → Comp F C β} (hm : Returns W h m (.error e)) :
    Returns W h (m.bind k) (.error e) := by
  intro s hs hf
  obtain ⟨h1, h2, h3⟩ := hm s hs hf
  unfold Comp.bind
  rcases he : m s with ⟨x, s'⟩
  rw [he] at h1 h2 h3
  simp only at h1
  subst h1
  exact ⟨rfl, h2, h3⟩

omit [DecidableEq C] in
theorem Returns.ret {α : Type} {W : CWorld C} {h : Heap F C} (a : α) :
    Returns W h (Comp.ret a) (.ok a) := fun _ hs hf => ⟨rfl, hs, hf⟩

omit [DecidableEq C] in
theorem Returns.raise {α : Type} {W : CWorld C} {h : Heap F C} (e : ErrKind) :
    Returns (α := α) W h (Comp.raise e) (.error e) := fun _ hs hf => ⟨rfl, hs, hf⟩

theorem fresh_touch {W : CWorld C} {s : St F C} {k : Call C} {v : CVal F C}
    (hf : s.cache.find k = some v) (h : Fresh W s) :
    Fresh W { s with cache := s.cache.touch k v } :=
  fun k' v' hm => h k' v' (touch_mem hf hm)

theorem Returns.cached {W : CWorld C} (hW : Respects F W) {h : Heap F C}
    {b : Call C → Comp F C (CVal F C)} {a : Call C} {r : Except ErrKind (CVal F C)}
    (he : eval W h a = some r) (hb : Returns W h (b a) r) : Returns W h (cachedCall W b a) r := by
  intro s hs hf
  unfold cachedCall
  split
  · next v hv =>
    have := hf _ _ (find_some hv) a rfl r (hs ▸ he)
    exact ⟨this.symm, hs, fresh_touch hv hf⟩
  · obtain ⟨h1, h2, h3⟩ := hb s hs hf
    rcases hx : b a s with ⟨x, s'⟩
    rw [hx] at h1 h2 h3
    simp only at h1
    subst h1
    cases x with
    | error e => exact ⟨rfl, h2, h3⟩
    | ok v =>
      refine ⟨rfl, h2, ?_⟩
      intro k' v' hm a' hk r hr
      rcases store_mem hm with hm | hm
      · exact h3 k' v' hm a' hk r hr
      · injection hm with hm1 hm2
        subst hm1 hm2
        simp only at h2 hr
        rw [h2] at hr
        rw [hW a' a hk h, he] at hr
        exact (Option.some.inj hr).symm

theorem returns_leaf {W : CWorld C} (hW : Respects F W) (h : Heap F C) (c : C) (l f : Bool) :
    Returns W h (leafCall W (.className c l f))
      (.ok (.str (getClassName (W.attrs c) (if l then PyStr.lower else id) f))) :=
  Returns.cached hW rfl (Returns.ret _)

theorem returns_lowerName {W : CWorld C} (hW : Respects F W) (h : Heap F C) (c : C) :
    Returns W h (lowerName W c) (.ok (W.lookupName c)) :=
  (returns_leaf hW h c true true).bind (Returns.ret _)

omit [DecidableEq C] in
theorem getParents_naked (W : CWorld C) (c : C) (l : List C) :
    getParents W.toWorld (W.naked c) l = getParents W.toWorld c l := by
  simp only [getParents, W.naked_sub]

theorem returns_byParents {W : CWorld C} (hW : Respects F W) (h : Heap F C) (t : Table F C)
    (c : C) : Returns W h (byParents W t c) (getLizerByParents W.toWorld t c) := by
  have hn : Returns W h (leafCall W (.naked c)) (.ok (.cls (W.naked c))) :=
    Returns.cached hW rfl (Returns.ret _)
  refine hn.bind ?_
  simp only [getParents_naked]
  unfold getLizerByParents
  cases getParents W.toWorld c t.classes with
  | nil => exact Returns.ret _
  | cons p ps =>
    refine (returns_lowerName hW h p).bind ?_
    simp only
    cases t.lizers (W.lookupName p) with
    | some f => exact Returns.ret _
    | none => exact Returns.raise _

theorem returns_getLizerRec {W : CWorld C} (hW : Respects F W) (h : Heap F C) (t : Table F C)
    (c : C) : Returns W h (getLizerRecC W t c) (getLizerRec W.toWorld t c) := by
  refine (returns_lowerName hW h c).bind ?_
  unfold getLizerRec
  cases t.lizers (W.lookupName c) with
  | some f => exact Returns.ret _
  | none => exact returns_byParents hW h t c

theorem returns_getLizer {W : CWorld C} (hW : Respects F W) (h : Heap F C) (t : Table F C)
    (c : C) : Returns W h (getLizerC W t c) (getLizer W.toWorld t c) := by
  have h1 := returns_getLizerRec hW h t c
  unfold getLizer
  cases hr : getLizerRec W.toWorld t c with
  | error e => rw [hr] at h1; exact h1.bind_error
  | ok r =>
    rw [hr] at h1
    refine h1.bind ?_
    cases r with
    | some f => exact Returns.ret _
    | none =>
      simp only
      cases W.supertype c with
      | none => exact Returns.ret _
      | some s => exact returns_getLizerRec hW h t s

theorem returns_tableLookup {W : CWorld C} (hW : Respects F W) (h : Heap F C)
    (t : Heap F C → Option (Table F C)) (c : C) :
    Returns W h (tableLookup W t c) (match t h with
      | some t => (getLizer W.toWorld t c).map .fn
      | none => .error .attributeError) := by
  intro s hs hf
  unfold tableLookup
  rw [hs]
  cases t h with
  | none => exact ⟨rfl, hs, hf⟩
  | some t =>
    simp only
    have h1 := returns_getLizer hW h t c
    cases hr : getLizer W.toWorld t c with
    | error e => rw [hr] at h1; exact h1.bind_error s hs hf
    | ok r => rw [hr] at h1; exact (h1.bind (Returns.ret (CVal.fn r))) s hs hf

/-- The heart of C28: as long as the entries are fresh, cached functions return what
they would return without the cache, and the entries stay fresh. -/
theorem returns_call {W : CWorld C} (hW : Respects F W) (h : Heap F C) (a : Call C)
    (r : Except ErrKind (CVal F C)) (he : eval W h a = some r) : Returns W h (call W a) r := by
  refine Returns.cached hW he ?_
  cases a with
  | getSer c i => cases he; exact returns_tableLookup hW h _ c
  | getDeser c i => cases he; exact returns_tableLookup hW h _ c
  | getVal c i => cases he; exact returns_tableLookup hW h _ c
  | announce c n i => cases he
  | _ => cases he; exact Returns.ret _

/-! ### Histories -/

/-- What a program does to the cache and the registries. -/
inductive Cmd (F C : Type) where
  | call (a : Call C)
  | clear
  | op (o : Op F C)

/-- The state after a command. -/
def Cmd.exec (W : CWorld C) (s : St F C) : Cmd F C → St F C
  | .call a => (Verif.Cache.call W a s).2
  | .clear => (Verif.Cache.clear s).2
  | .op o => (doOp W o s).2

/-- The state after a history, from the start. -/
def after (W : CWorld C) (cmds : List (Cmd F C)) : St F C :=
  cmds.foldl (Cmd.exec W) ⟨Heap.init, []⟩

/-- The registry a cached lookup depends on. -/
inductive Reads where
  | ser
  | deser
  | val
  deriving DecidableEq

/-- The registry a call reads. -/
def Call.reads : Call C → Option Reads
  | .getSer _ _ => some .ser
  | .getDeser _ _ => some .deser
  | .getVal _ _ => some .val
  | _ => none

/-- The registry an operation changes. -/
def Op.changes : Op F C → Option Reads
  | .setSer _ _ _ _ => some .ser
  | .setDeser _ _ _ _ => some .deser
  | .setVal _ _ _ => some .val
  | _ => none

/-- One command more. -/
def lookStep (r : Reads) (b : Bool) : Cmd F C → Bool
  | .call a => b || Call.reads a == some r
  | .clear => false
  | .op _ => b

/-- Whether there was a lookup in a registry since the cache was cleared last. -/
def lookedUp (r : Reads) (cmds : List (Cmd F C)) : Bool := cmds.foldl (lookStep r) false

/-- No registration follows a lookup in the same registry without the cache being
cleared in between. -/
def Disciplined (cmds : List (Cmd F C)) : Prop :=
  ∀ pre o post, cmds = pre ++ .op o :: post → ∀ r, Op.changes o = some r →
    lookedUp r pre = false

/-- The tables an evaluation depends on stay the same. -/
def SameFor (h h' : Heap F C) (r : Reads) : Prop :=
  match r with
  | .ser => ∀ i, i < h.holders.length → serOf h' i = serOf h i
  | .deser => ∀ i, i < h.holders.length → deserOf h' i = deserOf h i
  | .val => ∀ i, i < h.holders.length → valOf h' i = valOf h i

omit [DecidableEq C] in
theorem eval_same {W : CWorld C} {h h' : Heap F C} {a : Call C}
    (hs : ∀ r, Call.reads a = some r → SameFor h h' r) {v : CVal F C}
    (he : eval W h a = some (.ok v)) : eval W h' a = some (.ok v) := by
  cases a with
  | getSer c i =>
    by_cases hi : i < h.holders.length
    · rw [← he]; simp only [eval, hs _ rfl i hi]
    · simp [eval, serOf, List.getElem?_eq_none (Nat.le_of_not_lt hi)] at he
  | getDeser c i =>
    by_cases hi : i < h.holders.length
    · rw [← he]; simp only [eval, hs _ rfl i hi]
    · simp [eval, deserOf, List.getElem?_eq_none (Nat.le_of_not_lt hi)] at he
  | getVal c i =>
    by_cases hi : i < h.holders.length
    · rw [← he]; simp only [eval, hs _ rfl i hi]
    · simp [eval, valOf, List.getElem?_eq_none (Nat.le_of_not_lt hi)] at he
  | _ => exact he

theorem sameFor_step {W : World C} {h : Heap F C} {os : List Nat} (hi : Inv W h os) (o : Op F C)
    (r : Reads) (hr : Op.changes o ≠ some r) : SameFor h (step W h o) r := by
  cases r with
  | ser =>
    intro i hlt
    have h1 := step_serTable hi o (i := i) (hi.ser.len ▸ hlt)
    have h2 : serEffect W o = id := by cases o <;> first | rfl | exact absurd rfl hr
    rw [h2, Option.map_id] at h1
    show serTable _ _ = serTable _ _
    rw [h1]; split <;> rfl
  | deser =>
    intro i hlt
    have h1 := step_deserTable hi o (i := i) (hi.ser.len ▸ hlt)
    have h2 : deserEffect W o = id := by cases o <;> first | rfl | exact absurd rfl hr
    rw [h2, Option.map_id] at h1
    show deserTable _ _ = deserTable _ _
    rw [h1]; split <;> rfl
  | val =>
    intro i hlt
    have hx := List.getElem?_eq_getElem hlt
    obtain ⟨x', hx', -, -, -, hv, -⟩ := step_holder_lt (W := W) (op := o) hx
    simp only [valOf, hx, hx', Option.map_some, hv]
    congr 2
    unfold step
    split
    · rfl
    · cases o <;> first | rfl | exact absurd rfl hr

/-- What holds along disciplined histories. -/
structure Along (W : CWorld C) (s : St F C) (look : Reads → Bool) : Prop where
  inv : ∃ os, Inv W.toWorld s.heap os
  fresh : Fresh W s
  reads : ∀ k v, (k, v) ∈ s.cache → ∀ r, Call.reads k = some r → look r = true

omit [DecidableEq C] in
theorem reads_key (W : CWorld C) (a : Call C) : Call.reads (a.key W) = Call.reads a := by
  cases a <;> rfl

/-- The entries a computation adds read nothing but what is allowed. -/
def Adds {α : Type} (look : Reads → Bool) (m : Comp F C α) : Prop :=
  Keeps (fun s => ∀ k v, (k, v) ∈ s.cache → ∀ r, Call.reads k = some r → look r = true) m

theorem Adds.cached {W : CWorld C} {look : Reads → Bool} {b : Call C → Comp F C (CVal F C)}
    {a : Call C} (ha : ∀ r, Call.reads a = some r → look r = true) (hb : Adds look (b a)) :
    Adds look (cachedCall W b a) := by
  intro s hs
  unfold cachedCall
  split
  · next v hv => exact fun k v' hm => hs k v' (touch_mem hv hm)
  · have := hb s hs
    split
    · next v s' h =>
      rw [h] at this
      intro k v' hm r hr
      rcases store_mem hm with hm | hm
      · exact this k v' hm r hr
      · injection hm with h1 h2
        subst h1
        exact ha r (by rw [← hr, reads_key])
    · next e s' h => rw [h] at this; exact this

theorem adds_leaf (W : CWorld C) (look : Reads → Bool) (a : Call C)
    (ha : Call.reads a = none) : Adds look (leafCall W a : Comp F C (CVal F C)) := by
  refine Adds.cached (by intro r hr; rw [ha] at hr; cases hr) ?_
  cases a <;> first | exact Keeps.ret _ | exact Keeps.raise _

theorem adds_lowerName (W : CWorld C) (look : Reads → Bool) (c : C) :
    Adds (F := F) look (lowerName W c) := by
  refine Keeps.bind (adds_leaf W look _ rfl) ?_
  intro v; cases v <;> first | exact Keeps.ret _ | exact Keeps.raise _

theorem adds_byParents (W : CWorld C) (look : Reads → Bool) (t : Table F C) (c : C) :
    Adds look (byParents W t c) := by
  refine Keeps.bind (adds_leaf W look _ rfl) ?_
  intro v
  cases v with
  | cls n =>
    simp only
    split
    · exact Keeps.ret _
    · refine Keeps.bind (adds_lowerName W look _) ?_
      intro n
      split
      · exact Keeps.ret _
      · exact Keeps.raise _
  | _ => exact Keeps.raise _

theorem adds_getLizerRec (W : CWorld C) (look : Reads → Bool) (t : Table F C) (c : C) :
    Adds look (getLizerRecC W t c) := by
  refine Keeps.bind (adds_lowerName W look _) ?_
  intro n
  split
  · exact Keeps.ret _
  · exact adds_byParents W look t c

theorem adds_getLizer (W : CWorld C) (look : Reads → Bool) (t : Table F C) (c : C) :
    Adds look (getLizerC W t c) := by
  refine Keeps.bind (adds_getLizerRec W look t c) ?_
  intro r
  cases r with
  | some f => exact Keeps.ret _
  | none =>
    simp only
    split
    · exact adds_getLizerRec W look t _
    · exact Keeps.ret _

theorem adds_tableLookup (W : CWorld C) (look : Reads → Bool)
    (t : Heap F C → Option (Table F C)) (c : C) : Adds look (tableLookup W t c) := by
  intro s hs
  unfold tableLookup
  split
  · exact (Keeps.bind (adds_getLizer W look _ c) fun _ => Keeps.ret _) s hs
  · exact hs

theorem adds_call (W : CWorld C) (look : Reads → Bool) (a : Call C)
    (ha : ∀ r, Call.reads a = some r → look r = true) :
    Adds look (call W a : Comp F C (CVal F C)) := by
  refine Adds.cached ha ?_
  cases a with
  | getSer c i => exact adds_tableLookup W look _ c
  | getDeser c i => exact adds_tableLookup W look _ c
  | getVal c i => exact adds_tableLookup W look _ c
  | announce c n i =>
    refine Keeps.bind ?_ ?_
    · split
      · exact Keeps.ret _
      · exact adds_leaf W look _ rfl
    · intro v
      cases v with
      | str n => exact fun s hs => hs
      | _ => exact Keeps.raise _
  | _ => exact Keeps.ret _

theorem fresh_of_step {W : CWorld C} {s : St F C} {os : List Nat} (hi : Inv W.toWorld s.heap os)
    (hf : Fresh W s) (o : Op F C)
    (hread : ∀ k v, (k, v) ∈ s.cache → ∀ r, Call.reads k = some r → Op.changes o ≠ some r) :
    Fresh W { s with heap := step W.toWorld s.heap o } := by
  intro k v hm a hk r hr
  simp only at hm hr
  cases he : eval W s.heap a with
  | none => cases a <;> cases he; cases hr
  | some r0 =>
    have h0 := hf k v hm a hk r0 he
    subst h0
    have := eval_same (W := W) (h := s.heap) (h' := step W.toWorld s.heap o) (a := a) (v := v) (by
      intro rd hrd
      refine sameFor_step hi o rd ?_
      refine hread k v hm rd ?_
      rw [← hk, reads_key]; exact hrd) he
    rw [this] at hr
    exact (Option.some.inj hr).symm

/-- The registries are in order and the entries fresh. -/
def Good (W : CWorld C) (s : St F C) : Prop := (∃ os, Inv W.toWorld s.heap os) ∧ Fresh W s

omit [DecidableEq C] in
theorem good_of_returns {α : Type} {W : CWorld C} {m : Comp F C α} {s : St F C}
    {r : Except ErrKind α} (hm : Returns W s.heap m r) (hg : Good W s) : Good W (m s).2 := by
  obtain ⟨_, h2, h3⟩ := hm s rfl hg.2
  exact ⟨h2 ▸ hg.1, h3⟩

theorem good_announce {W : CWorld C} (hW : Respects F W) (c : C) (n : Option PyStr) (i : Nat) :
    Keeps (Good (F := F) W) (call W (.announce c n i)) := by
  have hstep : ∀ n, Keeps (Good (F := F) W) (fun s =>
      ((.ok .unit : Except ErrKind (CVal F C)),
        { s with heap := step W.toWorld s.heap (.announce c n i) })) := by
    intro n s hg
    obtain ⟨⟨os, hi⟩, hf⟩ := hg
    refine ⟨⟨_, inv_step hi _⟩, fresh_of_step hi hf _ ?_⟩
    intro k v _ r _ h
    cases h
  have hbody : Keeps (Good (F := F) W) (body W (.announce c n i)) := by
    simp only [body]
    refine Keeps.bind ?_ ?_
    · split
      · exact Keeps.ret _
      · exact fun s hg => good_of_returns (returns_leaf hW s.heap c false true) hg
    · intro v
      cases v with
      | str n => exact hstep n
      | _ => exact Keeps.raise _
  intro s hg
  unfold call cachedCall
  split
  · next v hv => exact ⟨hg.1, fresh_touch hv hg.2⟩
  · have := hbody s hg
    split
    · next v s' h =>
      rw [h] at this
      refine ⟨this.1, ?_⟩
      intro k' v' hm a' hk r hr
      rcases store_mem hm with hm | hm
      · exact this.2 k' v' hm a' hk r hr
      · injection hm with h1 h2
        rw [h1] at hk
        cases a' with
        | announce c' n' i' => cases hr
        | _ => simp [Call.key] at hk
    · next e s' h => rw [h] at this; exact this

/-- The names that an operation looks up. -/
theorem names_keep {W : CWorld C} (hW : Respects F W) (look : Reads → Bool) (cs : List C)
    (s : St F C) (hg : Good W s)
    (hr : ∀ k v, (k, v) ∈ s.cache → ∀ r, Call.reads k = some r → look r = true) :
    Good W (lookupNames W cs s).2 ∧ (∀ k v, (k, v) ∈ (lookupNames W cs s).2.cache →
      ∀ r, Call.reads k = some r → look r = true) := by
  constructor
  · have : Keeps (Good (F := F) W) (lookupNames W cs) := by
      induction cs with
      | nil => exact Keeps.ret _
      | cons c cs ih =>
        exact Keeps.bind (fun s hg => good_of_returns (returns_leaf hW s.heap c false true) hg)
          fun _ => ih
    exact this s hg
  · have : Adds (F := F) look (lookupNames W cs) := by
      induction cs with
      | nil => exact Keeps.ret _
      | cons c cs ih => exact Keeps.bind (adds_leaf W look _ rfl) fun _ => ih
    exact this s hr

theorem along (W : CWorld C) (hW : Respects F W) (cmds : List (Cmd F C))
    (hd : Disciplined cmds) : Good W (after W cmds) ∧
      ∀ k v, (k, v) ∈ (after W cmds).cache → ∀ r, Call.reads k = some r →
        lookedUp r cmds = true := by
  induction cmds using Registry.snoc_induction with
  | h0 =>
    refine ⟨⟨⟨_, inv_init W.toWorld⟩, ?_⟩, ?_⟩
    · intro k v hm; cases hm
    · intro k v hm; cases hm
  | h1 cmds c ih =>
    obtain ⟨hg, hr⟩ := ih (by
      intro pre o post he
      refine hd pre o (post ++ [c]) ?_
      rw [he]; simp)
    have ha : after W (cmds ++ [c]) = c.exec W (after W cmds) := by simp [after]
    have hl : ∀ r, lookedUp r (cmds ++ [c]) = lookStep r (lookedUp r cmds) c := by
      intro r; simp only [lookedUp, List.foldl_append, List.foldl_cons, List.foldl_nil]
    rw [ha]
    simp only [hl]
    generalize hs : after W cmds = s at *
    cases c with
    | clear =>
      refine ⟨⟨hg.1, ?_⟩, ?_⟩
      · intro k v hm; cases hm
      · intro k v hm; cases hm
    | call a =>
      constructor
      · cases he : eval W s.heap a with
        | none =>
          cases a with
          | announce c n i => exact good_announce hW c n i s hg
          | _ => cases he
        | some r => exact good_of_returns (returns_call hW s.heap a r he) hg
      · refine adds_call W _ a ?_ s ?_
        · intro r h; simp [lookStep, h]
        · intro k v hm r h; simp [lookStep, hr k v hm r h]
    | op o =>
      obtain ⟨h1, h2⟩ := names_keep hW (fun r => lookedUp r cmds) (Op.classes o) s hg hr
      have hx : Cmd.exec W s (.op o) = (doOp W o s).2 := rfl
      rw [hx]
      unfold doOp Comp.bind
      rcases hres : lookupNames W (Op.classes o) s with ⟨x, s'⟩
      rw [hres] at h1 h2
      cases x with
      | error e => exact ⟨h1, h2⟩
      | ok u =>
        simp only
        obtain ⟨⟨os, hi⟩, hf⟩ := h1
        refine ⟨⟨⟨_, inv_step hi o⟩, fresh_of_step hi hf o ?_⟩, h2⟩
        intro k v hm r hrk hc
        have := hd cmds o [] rfl r hc
        rw [h2 k v hm r hrk] at this
        cases this

/-- Classes that Python holds equal do not differ in anything that matters. -/
def EqualAlike (W : CWorld C) : Prop :=
  ∀ c d, W.canon c = W.canon d → W.attrs c = W.attrs d ∧ W.sub c = W.sub d ∧
    W.supertype c = W.supertype d ∧ W.naked c = W.naked d ∧ W.params c = W.params d

omit [DecidableEq C] in
theorem respects_of_alike {W : CWorld C} (hW : EqualAlike W) : Respects F W := by
  have hl : ∀ (c d : C) (t : Table F C), W.canon c = W.canon d →
      getLizer W.toWorld t c = getLizer W.toWorld t d := by
    intro c d t h
    obtain ⟨h1, h2, h3, -, -⟩ := hW c d h
    simp only [getLizer, getLizerRec, getLizerByParents, getParents, World.lookupName, h1, h2, h3]
  intro a b h hp
  cases a <;> cases b <;> simp only [Call.key, Call.className.injEq, Call.naked.injEq,
    Call.params.injEq, Call.getSer.injEq, Call.getDeser.injEq, Call.getVal.injEq,
    reduceCtorEq] at h
  · obtain ⟨h, rfl, rfl⟩ := h
    simp only [eval, (hW _ _ h).1]
  · simp only [eval, (hW _ _ h).2.2.2.1]
  · simp only [eval, (hW _ _ h).2.2.2.2]
  · obtain ⟨h, rfl⟩ := h
    simp only [eval, hl _ _ _ h]
  · obtain ⟨h, rfl⟩ := h
    simp only [eval, hl _ _ _ h]
  · obtain ⟨h, rfl⟩ := h
    simp only [eval, hl _ _ _ h]
  · rfl

/-- C28, what holds (missing: registrations after a lookup without `clear` in
between, and classes that Python holds equal although they differ): along every
history in which no registration follows a lookup in the same registry since the
cache was cleared, every cached function returns what it would return without the
cache. -/
theorem cache_transparent_partial (W : CWorld C) (hW : EqualAlike W) (cmds : List (Cmd F C))
    (hd : Disciplined cmds) (a : Call C) (r : Except ErrKind (CVal F C))
    (he : eval W (after W cmds).heap a = some r) : (call W a (after W cmds)).1 = r :=
  (returns_call (respects_of_alike hW) _ a r he _ rfl
    (along W (respects_of_alike hW) cmds hd).1.2).1

example : EqualAlike exC := by
  intro c d h
  cases h
  exact ⟨rfl, rfl, rfl, rfl, rfl⟩

/-- C28 is false of the code: after `get_serializer(Dog)`, `set_serializer(f, Dog)`
has no effect on `get_serializer(Dog)`. -/
theorem cache_stale :
    (call exC (.getSer .dog 0) (after (F := Nat) exC
      [.call (.getSer .dog 0), .op (.setSer 7 [some .dog] true 0)])).1 = .ok (.fn none) ∧
    eval exC (after (F := Nat) exC
      [.call (.getSer .dog 0), .op (.setSer 7 [some .dog] true 0)]).heap (.getSer .dog 0) =
      some (.ok (.fn (some 7))) := by
  refine ⟨by decide, by decide⟩

/-- Two classes and two unions of them, which differ in the order. -/
inductive Un where
  | int
  | str
  | intStr
  | strInt
  deriving DecidableEq

/-- `Union[int, str] == Union[str, int]` in Python. -/
def unWorld : CWorld Un where
  attrs _ := ⟨none, none, some "Union".toList, [], some "typing".toList⟩
  sub _ _ := none
  supertype _ := none
  canon
    | .strInt => .intStr
    | c => c
  naked c := c
  params
    | .intStr => some [.int, .str]
    | .strInt => some [.str, .int]
    | _ => none
  naked_sub _ _ := rfl

/-- C28 is false of the code for another reason: unions that differ in order are
equal, so that the members of the one are returned for the other. -/
theorem cache_confuses_unions :
    (call unWorld (.params .strInt) (after (F := Nat) unWorld [.call (.params .intStr)])).1 =
      .ok (.clss (some [.int, .str])) ∧
    eval (F := Nat) unWorld (after unWorld [.call (.params .intStr)]).heap (.params .strInt) =
      some (.ok (.clss (some [.str, .int]))) := by
  refine ⟨by decide, by decide⟩

/-- A disciplined history: registration, lookup, clear, registration. -/
example : Disciplined (F := Nat) (C := Ex) [.op (.setSer 1 [some .dog] true 0),
    .call (.getSer .dog 0), .op (.setDeser 3 [some .dog] true 0), .clear,
    .op (.setSer 2 [some .dog] true 0)] := by
  intro pre o post h r hr
  match pre, h with
  | [], h => rfl
  | [a], h => simp at h
  | [a, b], h =>
    simp only [List.cons_append, List.nil_append, List.cons.injEq, Cmd.op.injEq] at h
    obtain ⟨rfl, rfl, rfl, -⟩ := h
    cases hr; rfl
  | [a, b, c], h => simp at h
  | [a, b, c, d], h =>
    simp only [List.cons_append, List.nil_append, List.cons.injEq, Cmd.op.injEq] at h
    obtain ⟨rfl, rfl, rfl, rfl, rfl, -⟩ := h
    cases hr; rfl
  | a :: b :: c :: d :: e :: l, h => simp at h

/-! ## C29 – the cache after dump and load -/

theorem good_lookup (W : CWorld C) (hW : Respects F W) (s : St F C) (hg : Good W s) (c : C)
    {i : Nat} (hi : i < s.heap.holders.length) :
    ∃ f, (call W (.getSer c i) s).1 = .ok (.fn f) := by
  obtain ⟨⟨os, hinv⟩, hf⟩ := hg
  have hx := List.getElem?_eq_getElem hi
  have hok : TableOk W.toWorld (s.heap.sers.getD (s.heap.holders[i]).ser Table.empty) := by
    rcases mem_getD (l := s.heap.sers) (i := (s.heap.holders[i]).ser) (d := Table.empty) with h | h
    · exact hinv.sersOk _ h
    · rw [h]; exact tableOk_empty _
  obtain ⟨f, hf'⟩ := getLizer_ok hok c
  refine ⟨f, ?_⟩
  have he : eval W s.heap (.getSer c i) = some (.ok (.fn f)) := by
    simp only [eval, serOf, hx, Option.map_some, hf']
    rfl
  exact (returns_call hW s.heap _ _ he s rfl hf).1

theorem announce_ok (W : CWorld C) (hW : Respects F W) (s : St F C) (hg : Good W s) (c : C)
    (i : Nat) : ∃ v, (call W (.announce c none i) s).1 = .ok v := by
  unfold call cachedCall
  split
  · next v _ => exact ⟨v, rfl⟩
  · obtain ⟨h1, -, -⟩ := returns_leaf hW s.heap c false true s rfl hg.2
    simp only [body, truthyStr, Comp.bind]
    rcases hx : leafCall W (.className c false true) s with ⟨x, s'⟩
    rw [hx] at h1
    simp only at h1
    subst h1
    exact ⟨_, rfl⟩

/-- C29 for `dump`: when the outermost call returns or raises, the cache is empty,
and also when a nested call raises, whatever the serializer does. -/
theorem cache_empty_after_dump (W : CWorld C) (hW : EqualAlike W) {R : Type} (s : St F C)
    (hg : Good W s) (i : Nat) (hi : i < s.heap.holders.length) (c : C) (initial : Bool)
    (ser : Option F → Comp F C R)
    (h : initial = true ∨ ∃ e, (dump W i c initial ser s).1 = .error e) :
    (dump W i c initial ser s).2.cache = [] := by
  have hW : Respects F W := respects_of_alike hW
  obtain ⟨f, hf⟩ := good_lookup W hW s hg c hi
  have hg1 : Good W (call W (.getSer c i) s).2 := by
    cases he : eval W s.heap (.getSer c i) with
    | none => cases he
    | some r => exact good_of_returns (returns_call hW s.heap _ r he) hg
  obtain ⟨v, hv⟩ := announce_ok W hW _ hg1 c i
  revert h
  unfold dump
  rw [Comp.bind]
  rcases h1 : call W (.getSer c i) s with ⟨x, s1⟩
  rw [h1] at hf hv
  simp only at hf hv
  subst hf
  simp only
  rw [Comp.bind]
  rcases h2 : call W (.announce c none i) s1 with ⟨y, s2⟩
  rw [h2] at hv
  simp only at hv
  subst hv
  simp only
  rcases ser f s2 with ⟨r, s3⟩
  cases r with
  | error e => intro _; rfl
  | ok r =>
    cases initial with
    | true => intro _; rfl
    | false =>
      rintro (h | ⟨e, h⟩)
      · cases h
      · cases h

/-- C29 is false for `load`: loading a value whose type is the requested one leaves
what was looked up for its validation in the cache; a validator that is registered
afterwards is then ignored by the next load (C62 fails as well). -/
theorem cache_not_empty_after_load :
    let ld (r : Nat) : Comp Nat Ex Nat := load exC 0 .dog true (Comp.ret ()) (some r)
      (Comp.ret .dog) (fun _ _ => Comp.ret 0) (fun _ r => r = 5)
    (ld 5 ⟨Heap.init, []⟩).2.cache ≠ [] ∧
    ((ld 5).bind (fun _ => (doOp exC (.setVal 1 [.dog] 0)).bind fun _ => ld 6)
      ⟨Heap.init, []⟩).1 = .ok 6 ∧
    ((doOp exC (.setVal 1 [.dog] 0)).bind (fun _ => ld 6) ⟨Heap.init, []⟩).1 =
      .error .validationError := by
  refine ⟨by decide, by decide, by decide⟩

/-- C29 for `load`, what holds (missing: the exits before the deserializer is
called): if a deserializer is called, the cache is empty when the outermost call
returns or raises, and when a nested call raises. -/
theorem cache_empty_after_load_partial (W : CWorld C) {R : Type} (s s1 s2 s3 : St F C) (i : Nat)
    (c c' : C) (f : F) (v : CVal F C) (initial : Bool) (nc : Comp F C Unit) (res : Comp F C C)
    (des : F → C → Comp F C R) (check : F → R → Bool)
    (hnc : nc s = (.ok (), s1)) (hres : res s1 = (.ok c', s2))
    (hdes : call W (.getDeser c' i) s2 = (.ok (.fn (some f)), s3))
    (hname : (leafCall W (.className c' false true) s3).1 = .ok v)
    (h : initial = true ∨ ∃ e, (load W i c initial nc none res des check s).1 = .error e) :
    (load W i c initial nc none res des check s).2.cache = [] := by
  revert h
  unfold load
  rw [Comp.bind, hnc]
  simp only
  rw [Comp.bind, hres]
  simp only
  rw [Comp.bind, hdes]
  simp only
  rw [Comp.bind]
  rcases h4 : leafCall W (.className c' false true) s3 with ⟨x, s4⟩
  rw [h4] at hname
  simp only at hname
  subst hname
  simp only
  rcases ((des f c').bind fun r => (validate W i c' check r).bind fun _ =>
    Comp.ret r) s4 with ⟨r, s5⟩
  cases r with
  | error e => intro _; rfl
  | ok r =>
    cases initial with
    | true => intro _; rfl
    | false =>
      rintro (h | ⟨e, h⟩)
      · cases h
      · cases h

/-- The hypotheses of the two theorems are met; the cache is not empty in
between. -/
example : Good exC (⟨Heap.init, []⟩ : St Nat Ex) ∧
    (dump (F := Nat) exC 0 .dog true (fun _ s => (.ok s.cache.length, s)) ⟨Heap.init, []⟩).1 =
      .ok 5 := by
  refine ⟨⟨⟨_, inv_init _⟩, ?_⟩, by decide⟩
  intro k v h; cases h

example : ∃ s3 v, call exC (.getDeser .dog 0)
      (after exC [.op (.setDeser 4 [some .animal] true 0)]) = (.ok (.fn (some 4)), s3) ∧
    (leafCall (F := Nat) exC (.className .dog false true) s3).1 = .ok v := by
  refine ⟨_, .str "m.Dog".toList, by rfl, by rfl⟩

/-! ## C26 – repeated announcements -/

/-- C26 is false of the code: `announce_class` is cached, so announcing a class
again under a name that another class has taken over does nothing. -/
theorem announce_again_ignored :
    let ann (c : Ex) : Comp Nat Ex (CVal Nat Ex) := call exC (.announce c (some "x".toList) 0)
    announced ((ann .dog).bind (fun _ => (ann .animal).bind fun _ => ann .dog)
      ⟨Heap.init, []⟩).2.heap 0 "x".toList = some .animal := by
  decide

/-- C26 with the cache, what holds: an announcement that is not in the cache takes
effect. -/
theorem announce_takes_effect_partial (W : CWorld C) (c : C) (n : PyStr) (hn : n ≠ [])
    (i : Nat) (s : St F C) (hmiss : s.cache.find (.announce (W.canon c) (some n) i) = none) :
    (call W (.announce c (some n) i) s).2.heap = step W.toWorld s.heap (.announce c n i) := by
  cases n with
  | nil => exact absurd rfl hn
  | cons a n =>
    unfold call cachedCall
    simp only [Call.key, hmiss, body, truthyStr, Comp.bind, Comp.ret]

end Verif.Props.Cache
