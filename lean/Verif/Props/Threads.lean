import Verif.Threads
import Verif.Props.Cache

/-! # Threads (C101) -/

set_option autoImplicit false

namespace Verif.Props.Threads

open Verif Verif.Registry Verif.Cache Verif.Threads
open Verif.Props.Cache (eval Respects EqualAlike respects_of_alike find_some touch_mem store_mem getParents_naked exC)

variable {F C α β : Type} [DecidableEq C]

/-! ## A thread that runs alone does what the model of the cache says -/

theorem run_handle (W : CWorld C) (k : Except ErrKind α → Prog F C β) :
    ∀ (p : Prog F C α) (s : St F C), (p.handle k).run W s = (k (p.run W s).1).run W (p.run W s).2
  | .done r, s => rfl
  | .probe a n, s => by
    simp only [Prog.handle, Prog.run]
    cases s.cache.find a with
    | some v => exact run_handle W k (n (some v)) _
    | none => exact run_handle W k (n none) _
  | .store a v n, s => run_handle W k n _
  | .clear n, s => run_handle W k n _
  | .refs r i n, s => run_handle W k (n _) _
  | .get r j m n, s => run_handle W k (n _) _
  | .list r j n, s => run_handle W k (n _) _
  | .insert r j c hp n, s => run_handle W k n _
  | .set r j m f n, s => run_handle W k n _
  | .announce c m i n, s => run_handle W k n _

theorem run_bind (W : CWorld C) (p : Prog F C α) (k : α → Prog F C β) :
    (p.bind k).run W = (p.run W).bind fun a => (k a).run W := by
  funext s
  rw [Prog.bind, run_handle, Comp.bind]
  cases h : p.run W s with
  | mk r s' => cases r <;> rfl

theorem run_cached (W : CWorld C) (b : Call C → Prog F C (CVal F C)) (a : Call C) :
    (cachedP W b a).run W = cachedCall W (fun a => (b a).run W) a := by
  funext s
  simp only [cachedP, cachedCall, Prog.run]
  cases s.cache.find (a.key W) with
  | some v => rfl
  | none =>
    simp only
    rw [run_bind, Comp.bind]
    cases h : (b a).run W s with
    | mk r s' => cases r <;> rfl

theorem run_leafBody (W : CWorld C) (a : Call C) : (leafBodyP W a : Prog F C _).run W = leafBody W a := by
  cases a <;> rfl

theorem run_leaf (W : CWorld C) (a : Call C) : (leafP W a : Prog F C _).run W = leafCall W a := by
  rw [leafP, run_cached, leafCall]
  congr 1
  funext a
  exact run_leafBody W a

theorem run_lowerName (W : CWorld C) (c : C) : (lowerNameP W c : Prog F C _).run W = lowerName W c := by
  rw [lowerNameP, run_bind, run_leaf, lowerName]
  congr 1
  funext v
  cases v <;> rfl

/-- Calls of functions without parts leave the registries as they are. -/
theorem leaf_heap (W : CWorld C) (a : Call C) (s : St F C) : (leafCall W a s).2.heap = s.heap := by
  unfold leafCall cachedCall
  cases s.cache.find (a.key W) with
  | some v => rfl
  | none => cases a <;> rfl

theorem lowerName_heap (W : CWorld C) (c : C) (s : St F C) : (lowerName W c s).2.heap = s.heap := by
  have := leaf_heap W (.className c true true) s
  unfold lowerName Comp.bind
  cases h : leafCall W (.className c true true) s with
  | mk r s' =>
    rw [h] at this
    cases r with
    | error e => exact this
    | ok v => cases v <;> exact this

theorem run_byParents (W : CWorld C) (r : Kind) (j : Nat) (c : C) (s : St F C) :
    (byParentsP W r j c).run W s = byParents W (tabOf s.heap r j) c s ∧
    ((byParentsP W r j c).run W s).2.heap = s.heap := by
  unfold byParentsP byParents
  rw [run_bind, run_leaf]
  have hl := leaf_heap W (.naked c) s
  simp only [Comp.bind]
  cases h : leafCall W (.naked c) s with
  | mk x s1 =>
    rw [h] at hl
    cases x with
    | error e => exact ⟨rfl, hl⟩
    | ok v =>
      cases v with
      | cls n =>
        simp only [Prog.run]
        have hl' : s1.heap = s.heap := hl
        rw [hl']
        cases getParents W.toWorld n (tabOf s.heap r j).classes with
        | nil => exact ⟨rfl, hl⟩
        | cons p ps =>
          simp only
          rw [run_bind, run_lowerName]
          have hn := lowerName_heap W p s1
          simp only [Comp.bind]
          cases h2 : lowerName W p s1 with
          | mk x s2 =>
            rw [h2] at hn
            have hn' : s2.heap = s.heap := hn.trans hl'
            cases x with
            | error e => exact ⟨rfl, hn'⟩
            | ok m =>
              simp only [Prog.run]
              rw [hn']
              cases (tabOf s.heap r j).lizers m with
              | some f => exact ⟨rfl, hn'⟩
              | none => exact ⟨rfl, hn'⟩
      | _ => exact ⟨rfl, hl⟩

theorem run_getLizerRec (W : CWorld C) (r : Kind) (j : Nat) (c : C) (s : St F C) :
    (getLizerRecP W r j c).run W s = getLizerRecC W (tabOf s.heap r j) c s ∧
    ((getLizerRecP W r j c).run W s).2.heap = s.heap := by
  unfold getLizerRecP getLizerRecC
  rw [run_bind, run_lowerName]
  have hl := lowerName_heap W c s
  simp only [Comp.bind]
  cases h : lowerName W c s with
  | mk x s1 =>
    rw [h] at hl
    have hl' : s1.heap = s.heap := hl
    cases x with
    | error e => exact ⟨rfl, hl⟩
    | ok m =>
      simp only [Prog.run]
      rw [hl']
      cases (tabOf s.heap r j).lizers m with
      | some f => exact ⟨rfl, hl'⟩
      | none =>
        have := run_byParents W r j c s1
        rw [hl'] at this
        exact this

theorem run_getLizer (W : CWorld C) (r : Kind) (j : Nat) (c : C) (s : St F C) :
    (getLizerP W r j c).run W s = getLizerC W (tabOf s.heap r j) c s := by
  unfold getLizerP getLizerC
  rw [run_bind]
  obtain ⟨h1, h2⟩ := run_getLizerRec W r j c s
  simp only [Comp.bind]
  rw [← h1]
  cases h : (getLizerRecP W r j c).run W s with
  | mk x s1 =>
    rw [h] at h2
    have h2' : s1.heap = s.heap := h2
    cases x with
    | error e => rfl
    | ok m =>
      cases m with
      | some f => rfl
      | none =>
        simp only
        cases W.supertype c with
        | none => rfl
        | some u =>
          have := (run_getLizerRec W r j u s1).1
          rw [h2'] at this
          exact this

theorem run_lookup (W : CWorld C) (r : Kind) (c : C) (i : Nat) (t : Heap F C → Option (Table F C))
    (ht : ∀ h : Heap F C, t h = (refOf h r i).map (tabOf h r)) : (lookupP W r c i).run W = tableLookup W t c := by
  funext s
  unfold lookupP tableLookup
  rw [ht]
  simp only [Prog.run]
  cases refOf s.heap r i with
  | none => rfl
  | some j =>
    simp only [Option.map_some]
    rw [run_bind]
    simp only [Comp.bind, run_getLizer]
    cases getLizerC W (tabOf s.heap r j) c s with
    | mk x s' => cases x <;> rfl

theorem run_body (W : CWorld C) (a : Call C) : (bodyP W a : Prog F C _).run W = body W a := by
  cases a with
  | getSer c i => exact run_lookup W .ser c i (serOf · i) fun h => by simp only [serOf, refOf]; cases h.holders[i]? <;> rfl
  | getDeser c i => exact run_lookup W .deser c i (deserOf · i) fun h => by simp only [deserOf, refOf]; cases h.holders[i]? <;> rfl
  | getVal c i => exact run_lookup W .val c i (valOf · i) fun h => by simp only [valOf, refOf]; cases h.holders[i]? <;> rfl
  | announce c n i =>
    simp only [bodyP, body]
    rw [run_bind]
    congr 1
    · cases truthyStr n with
      | some n => rfl
      | none => exact run_leaf W _
    · funext v
      cases v <;> rfl
  | _ => rfl

/-- A cached function that is called by a thread that runs alone. -/
theorem run_call (W : CWorld C) (a : Call C) : (callP W a : Prog F C _).run W = call W a := by
  rw [callP, run_cached, call]
  congr 1
  funext a
  exact run_body W a

theorem run_clear (W : CWorld C) (n : Nat) (s : St F C) :
    (clearP (n + 1)).run W s = (.ok (), { s with cache := [] }) := by
  induction n generalizing s with
  | zero => rfl
  | succ n ih => exact ih _

/-- `dump` in a thread that runs alone. -/
theorem run_dump {R : Type} (W : CWorld C) (i : Nat) (c : C) (initial : Bool) (ser : Option F → Prog F C R) :
    (dumpP W i c initial ser).run W = dump W i c initial fun f => (ser f).run W := by
  unfold dumpP Verif.Cache.dump
  rw [run_bind, run_call]
  congr 1
  funext v
  cases v with
  | fn f =>
    simp only
    rw [run_bind, run_call]
    congr 1
    funext _ s
    rw [run_handle]
    cases h : (ser f).run W s with
    | mk x s' =>
      cases x with
      | ok r =>
        cases initial with
        | true => simp only [if_true]; rw [run_bind]; simp only [Comp.bind, wrappers, run_clear]; rfl
        | false => rfl
      | error e => simp only; rw [run_bind]; simp only [Comp.bind, wrappers, run_clear]; rfl
  | _ => rfl

theorem run_validate {R : Type} (W : CWorld C) (i : Nat) (c : C) (check : F → R → Bool) (r : R) :
    (validateP W i c check r).run W = validate W i c check r := by
  unfold validateP validate
  rw [run_bind, run_call]
  congr 1
  funext v
  cases v with
  | fn f =>
    cases f with
    | none => rfl
    | some f => simp only; split <;> rfl
  | _ => rfl

/-- `load` in a thread that runs alone. -/
theorem run_load {R : Type} (W : CWorld C) (i : Nat) (c : C) (initial : Bool) (nc : Prog F C Unit) (skip : Option R)
    (resolve : Prog F C C) (des : F → C → Prog F C R) (check : F → R → Bool) :
    (loadP W i c initial nc skip resolve des check).run W =
      load W i c initial (nc.run W) skip (resolve.run W) (fun f c => (des f c).run W) check := by
  unfold loadP Verif.Cache.load
  rw [run_bind]
  congr 1
  funext _
  cases skip with
  | some r =>
    simp only
    rw [run_bind, run_validate]
    rfl
  | none =>
    simp only
    rw [run_bind]
    congr 1
    funext c'
    rw [run_bind, run_call]
    congr 1
    funext v
    cases v with
    | fn f =>
      simp only
      rw [run_bind, run_leaf]
      congr 1
      funext _
      cases f with
      | none => rfl
      | some f =>
        simp only
        funext s
        rw [run_handle]
        have hv : (fun r => ((validateP W i c' check r).bind fun _ => Prog.done (F := F) (C := C) (.ok r)).run W) =
            fun r => (validate W i c' check r).bind fun _ => Comp.ret r := by
          funext r
          rw [run_bind, run_validate]
          rfl
        rw [run_bind, hv]
        cases h : ((des f c').run W).bind (fun r => (validate W i c' check r).bind fun _ => Comp.ret r) s with
        | mk x s' =>
          cases x with
          | ok r =>
            cases initial with
            | true => simp only [if_true]; rw [run_bind]; simp only [Comp.bind, wrappers, run_clear]; rfl
            | false => rfl
          | error e => simp only; rw [run_bind]; simp only [Comp.bind, wrappers, run_clear]; rfl
    | _ => rfl

/-- `run` is what a thread does if all steps are its own. -/
theorem run_alone (W : CWorld C) : ∀ (p : Prog F C α) (s : St F C),
    ∃ n, ∀ m, n ≤ m → runAll W ([p], s) (List.replicate m 0) = ([.done (p.run W s).1], (p.run W s).2) := by
  have next : ∀ (p q : Prog F C α) (s s' : St F C), step1 W s p = (q, s') →
      (∃ n, ∀ m, n ≤ m → runAll W ([q], s') (List.replicate m 0) = ([.done (q.run W s').1], (q.run W s').2)) →
      p.run W s = q.run W s' →
      ∃ n, ∀ m, n ≤ m → runAll W ([p], s) (List.replicate m 0) = ([.done (p.run W s).1], (p.run W s).2) := by
    intro p q s s' h1 h2 h3
    obtain ⟨n, hn⟩ := h2
    refine ⟨n + 1, fun m hm => ?_⟩
    cases m with
    | zero => exact absurd hm (by omega)
    | succ m =>
      rw [h3, ← hn m (by omega)]
      simp only [runAll, List.replicate_succ, List.foldl_cons]
      congr 1
      simp only [stepAt, List.getElem?_cons_zero, h1, List.set_cons_zero]
  intro p
  induction p with
  | done r =>
    intro s
    refine ⟨0, fun m _ => ?_⟩
    induction m with
    | zero => rfl
    | succ m ih => exact ih (Nat.zero_le _)
  | probe k n ih =>
    intro s
    cases hf : s.cache.find k with
    | some v => exact next _ (n (some v)) s ⟨s.heap, s.cache.touch k v⟩ (by simp only [step1, hf]) (ih _ _) (by simp only [Prog.run, hf])
    | none => exact next _ (n none) s s (by simp only [step1, hf]) (ih _ _) (by simp only [Prog.run, hf])
  | store k v n ih => exact fun s => next _ n s _ rfl (ih _) rfl
  | clear n ih => exact fun s => next _ n s _ rfl (ih _) rfl
  | refs q i n ih => exact fun s => next _ _ s _ rfl (ih _ _) rfl
  | get q j m n ih => exact fun s => next _ _ s _ rfl (ih _ _) rfl
  | list q j n ih => exact fun s => next _ _ s _ rfl (ih _ _) rfl
  | insert q j c b n ih => exact fun s => next _ n s _ rfl (ih _) rfl
  | set q j m f n ih => exact fun s => next _ n s _ rfl (ih _) rfl
  | announce c m i n ih => exact fun s => next _ n s _ rfl (ih _) rfl

/-! ## What threads see -/

/-- The registries `P` are the same; other registries, announced classes and warnings may differ. -/
structure SameRegs (P : Kind → Nat → Prop) (h h' : Heap F C) : Prop where
  holders : h.holders = h'.holders
  tabs : ∀ q j, P q j → tabOf h q j = tabOf h' q j

omit [DecidableEq C] in
theorem SameRegs.ref {P : Kind → Nat → Prop} {h h' : Heap F C} (H : SameRegs P h h') (r : Kind) (i : Nat) :
    refOf h r i = refOf h' r i := by
  simp only [refOf, H.holders]

theorem same_announce (W : CWorld C) {P : Kind → Nat → Prop} {h h' : Heap F C} (H : SameRegs P h h') (c : C) (n : PyStr)
    (i : Nat) : SameRegs P (step W.toWorld h (.announce c n i)) h' := by
  unfold step
  split
  · exact H
  · exact ⟨H.holders, fun q j hp => (by cases q <;> rfl : _ = tabOf h q j).trans (H.tabs q j hp)⟩

omit [DecidableEq C] in
theorem getD_modify {X : Type} (l : List X) (i j : Nat) (d : X) (g : X → X) (h : i ≠ j) :
    (l.modify i g).getD j d = l.getD j d := by
  simp only [List.getD_eq_getElem?_getD, List.getElem?_modify]
  cases l[j]? with
  | none => rfl
  | some x => simp [h]

omit [DecidableEq C] in
theorem same_change {P : Kind → Nat → Prop} {h h' : Heap F C} (H : SameRegs P h h') {q : Kind} {j : Nat} (hn : ¬ P q j)
    (g : Table F C → Table F C) : SameRegs P (change h q j g) h' := by
  refine ⟨(by cases q <;> rfl : _ = h.holders).trans H.holders, fun q' j' hp => Eq.trans ?_ (H.tabs q' j' hp)⟩
  have : ¬ (q = q' ∧ j = j') := by
    rintro ⟨rfl, rfl⟩
    exact hn hp
  cases q <;> cases q' <;> simp only [change, tabOf] <;>
    exact getD_modify _ _ _ _ _ fun hj => this ⟨rfl, hj⟩

/-- A call reads no registries but those in `P`. -/
def Reads (P : Kind → Nat → Prop) (h : Heap F C) : Call C → Prop
  | .getSer _ i => ∀ j, refOf h .ser i = some j → P .ser j
  | .getDeser _ i => ∀ j, refOf h .deser i = some j → P .deser j
  | .getVal _ i => ∀ j, refOf h .val i = some j → P .val j
  | _ => True

omit [DecidableEq C] in
theorem reads_key (W : CWorld C) (P : Kind → Nat → Prop) (h : Heap F C) {a b : Call C} (hk : a.key W = b.key W) :
    Reads P h a ↔ Reads P h b := by
  have : ∀ a : Call C, Reads P h (a.key W) ↔ Reads P h a := fun a => by cases a <;> exact Iff.rfl
  rw [← this a, hk, this b]

/-- The value `v` for the key `k` is what the function returns without a cache. -/
def Right (W : CWorld C) (P : Kind → Nat → Prop) (h : Heap F C) (k : Call C) (v : CVal F C) : Prop :=
  (∀ a : Call C, a.key W = k → Reads P h a → ∀ r, eval W h a = some r → r = .ok v) ∧
  ∀ c n i, k = .announce c n i → v = .unit

/-- All that is in the cache of the registries `P` is right. -/
def Sound (W : CWorld C) (P : Kind → Nat → Prop) (h : Heap F C) (s : St F C) : Prop :=
  SameRegs P s.heap h ∧ ∀ k v, (k, v) ∈ s.cache → Right W P h k v

/-- With the registries `P` of `h`, and if the cache gives either nothing or what is right, the thread ends
with an outcome in `R`, does not change these registries and stores only what is right. -/
def Yields (W : CWorld C) (P : Kind → Nat → Prop) (h : Heap F C) (R : Except ErrKind α → Prop) : Prog F C α → Prop
  | .done r => R r
  | .probe k n => Yields W P h R (n none) ∧ ∀ v, Right W P h k v → Yields W P h R (n (some v))
  | .store k v n => Right W P h k v ∧ Yields W P h R n
  | .clear n => Yields W P h R n
  | .refs q i n => Yields W P h R (n (refOf h q i))
  | .get q j m n => (P q j → Yields W P h R (n ((tabOf h q j).lizers m))) ∧ (¬ P q j → ∀ f, Yields W P h R (n f))
  | .list q j n => (P q j → Yields W P h R (n (tabOf h q j).classes)) ∧ (¬ P q j → ∀ cs, Yields W P h R (n cs))
  | .insert q j _ _ n => ¬ P q j ∧ Yields W P h R n
  | .set q j _ _ n => ¬ P q j ∧ Yields W P h R n
  | .announce _ _ _ n => Yields W P h R n

section
variable {W : CWorld C} {P : Kind → Nat → Prop} {h : Heap F C}

omit [DecidableEq C] in
theorem yields_handle {k : Except ErrKind α → Prog F C β} {Q : Except ErrKind α → Prop}
    {R : Except ErrKind β → Prop} (hk : ∀ x, Q x → Yields W P h R (k x)) :
    ∀ p : Prog F C α, Yields W P h Q p → Yields W P h R (p.handle k)
  | .done y, hp => hk y hp
  | .probe a n, hp => ⟨yields_handle hk (n none) hp.1, fun v hv => yields_handle hk (n (some v)) (hp.2 v hv)⟩
  | .store a v n, hp => ⟨hp.1, yields_handle hk n hp.2⟩
  | .clear n, hp => yields_handle (Q := Q) hk n hp
  | .refs q i n, hp => yields_handle (Q := Q) hk (n _) hp
  | .get q j m n, hp => ⟨fun h => yields_handle hk (n _) (hp.1 h), fun h f => yields_handle hk (n f) (hp.2 h f)⟩
  | .list q j n, hp => ⟨fun h => yields_handle hk (n _) (hp.1 h), fun h f => yields_handle hk (n f) (hp.2 h f)⟩
  | .insert q j c b n, hp => ⟨hp.1, yields_handle hk n hp.2⟩
  | .set q j m f n, hp => ⟨hp.1, yields_handle hk n hp.2⟩
  | .announce c m i n, hp => yields_handle (Q := Q) hk n hp

omit [DecidableEq C] in
theorem yields_ok {k : α → Prog F C β} {p : Prog F C α} {a : α} {R : Except ErrKind β → Prop}
    (hp : Yields W P h (· = .ok a) p) (hk : Yields W P h R (k a)) : Yields W P h R (p.bind k) := by
  refine yields_handle (Q := (· = .ok a)) ?_ p hp
  rintro x rfl
  exact hk

omit [DecidableEq C] in
theorem yields_error {k : α → Prog F C β} {p : Prog F C α} {e : ErrKind}
    (hp : Yields W P h (· = .error e) p) : Yields W P h (· = .error e) (p.bind k) := by
  refine yields_handle (Q := (· = .error e)) ?_ p hp
  rintro x rfl
  exact rfl

omit [DecidableEq C] in
/-- Whatever the outcome is. -/
theorem yields_any {k : α → Prog F C β} {p : Prog F C α} (hp : Yields W P h (fun _ => True) p)
    (hk : ∀ a, Yields W P h (fun _ => True) (k a)) : Yields W P h (fun _ => True) (p.bind k) := by
  refine yields_handle (Q := fun _ => True) (fun x _ => ?_) p hp
  cases x with
  | ok a => exact hk a
  | error e => exact trivial

omit [DecidableEq C] in
theorem yields_mono {Q R : Except ErrKind α → Prop} (hQR : ∀ x, Q x → R x) :
    ∀ p : Prog F C α, Yields W P h Q p → Yields W P h R p
  | .done y, hp => hQR y hp
  | .probe a n, hp => ⟨yields_mono hQR (n none) hp.1, fun v hv => yields_mono hQR (n (some v)) (hp.2 v hv)⟩
  | .store a v n, hp => ⟨hp.1, yields_mono hQR n hp.2⟩
  | .clear n, hp => yields_mono (Q := Q) hQR n hp
  | .refs q i n, hp => yields_mono (Q := Q) hQR (n _) hp
  | .get q j m n, hp => ⟨fun h => yields_mono hQR (n _) (hp.1 h), fun h f => yields_mono hQR (n f) (hp.2 h f)⟩
  | .list q j n, hp => ⟨fun h => yields_mono hQR (n _) (hp.1 h), fun h f => yields_mono hQR (n f) (hp.2 h f)⟩
  | .insert q j c b n, hp => ⟨hp.1, yields_mono hQR n hp.2⟩
  | .set q j m f n, hp => ⟨hp.1, yields_mono hQR n hp.2⟩
  | .announce c m i n, hp => yields_mono (Q := Q) hQR n hp

omit [DecidableEq C] in
theorem yields_cached {b : Call C → Prog F C (CVal F C)} {a : Call C}
    {r : Except ErrKind (CVal F C)} (hb : Yields W P h (· = r) (b a)) (h1 : ∀ v, r = .ok v → Right W P h (a.key W) v)
    (h2 : ∀ v, Right W P h (a.key W) v → r = .ok v) : Yields W P h (· = r) (cachedP W b a) := by
  refine ⟨?_, fun v hv => (h2 v hv).symm⟩
  cases r with
  | error e => exact yields_error hb
  | ok v => exact yields_ok hb ⟨h1 v rfl, rfl⟩

omit [DecidableEq C] in
/-- A function that does not announce. -/
theorem yields_eval (hW : Respects F W) {b : Call C → Prog F C (CVal F C)} {a : Call C}
    {r : Except ErrKind (CVal F C)} (hr : Reads P h a) (he : eval W h a = some r) (hb : Yields W P h (· = r) (b a)) :
    Yields W P h (· = r) (cachedP W b a) := by
  refine yields_cached hb ?_ fun v hv => hv.1 a rfl hr r he
  rintro v rfl
  refine ⟨fun a' hk _ r hr => ?_, fun c n i hk => ?_⟩
  · rw [hW a' a hk h, he] at hr
    exact (Option.some.inj hr).symm
  · cases a <;> simp only [Call.key, reduceCtorEq] at hk
    cases he

omit [DecidableEq C] in
theorem yields_leaf (hW : Respects F W) (c : C) (l f : Bool) :
    Yields W P h (· = .ok (.str (getClassName (W.attrs c) (if l then PyStr.lower else id) f)))
      (leafP W (.className c l f)) :=
  yields_eval hW trivial rfl rfl

omit [DecidableEq C] in
theorem yields_naked (hW : Respects F W) (c : C) : Yields W P h (· = .ok (.cls (W.naked c))) (leafP W (.naked c)) :=
  yields_eval hW trivial rfl rfl

omit [DecidableEq C] in
theorem yields_lowerName (hW : Respects F W) (c : C) : Yields W P h (· = .ok (W.lookupName c)) (lowerNameP W c) :=
  yields_ok (yields_leaf hW c true true) rfl

theorem yields_byParents (hW : Respects F W) {q : Kind} {j : Nat} (hP : P q j) (c : C) :
    Yields W P h (· = getLizerByParents W.toWorld (tabOf h q j) c) (byParentsP W q j c) := by
  refine yields_ok (yields_naked hW c) ⟨fun _ => ?_, fun hn => absurd hP hn⟩
  simp only [getParents_naked]
  unfold getLizerByParents
  cases getParents W.toWorld c (tabOf h q j).classes with
  | nil => rfl
  | cons p ps =>
    refine yields_ok (yields_lowerName hW p) ⟨fun _ => ?_, fun hn => absurd hP hn⟩
    simp only
    cases (tabOf h q j).lizers (W.lookupName p) with
    | some f => exact rfl
    | none => exact rfl

theorem yields_getLizerRec (hW : Respects F W) {q : Kind} {j : Nat} (hP : P q j) (c : C) :
    Yields W P h (· = getLizerRec W.toWorld (tabOf h q j) c) (getLizerRecP W q j c) := by
  refine yields_ok (yields_lowerName hW c) ⟨fun _ => ?_, fun hn => absurd hP hn⟩
  unfold getLizerRec
  cases (tabOf h q j).lizers (W.lookupName c) with
  | some f => rfl
  | none => exact yields_byParents hW hP c

theorem yields_getLizer (hW : Respects F W) {q : Kind} {j : Nat} (hP : P q j) (c : C) :
    Yields W P h (· = getLizer W.toWorld (tabOf h q j) c) (getLizerP W q j c) := by
  have h1 := yields_getLizerRec (h := h) hW hP c
  unfold getLizer
  cases hr : getLizerRec W.toWorld (tabOf h q j) c with
  | error e => rw [hr] at h1; exact yields_error h1
  | ok r =>
    rw [hr] at h1
    refine yields_ok h1 ?_
    cases r with
    | some f => rfl
    | none =>
      simp only
      cases W.supertype c with
      | none => rfl
      | some u => exact yields_getLizerRec hW hP u

theorem yields_lookup (hW : Respects F W) (q : Kind) (c : C) (i : Nat) (hP : ∀ j, refOf h q i = some j → P q j) :
    Yields W P h (· = (match refOf h q i with
      | some j => (getLizer W.toWorld (tabOf h q j) c).map .fn
      | none => .error .attributeError)) (lookupP W q c i) := by
  unfold lookupP
  simp only [Yields]
  cases hj : refOf h q i with
  | none => rfl
  | some j =>
    simp only
    have h1 := yields_getLizer (h := h) hW (hP j hj) c
    cases hr : getLizer W.toWorld (tabOf h q j) c with
    | error e => rw [hr] at h1; exact yields_error h1
    | ok r => rw [hr] at h1; exact yields_ok h1 rfl

/-- Every cached function that reads no other registries gives a thread what it gives without a cache. -/
theorem yields_call (hW : Respects F W) (a : Call C) (ha : Reads P h a) :
    ∃ r, Yields W P h (· = r) (callP W a) := by
  cases a with
  | getSer c i =>
    refine ⟨_, yields_eval hW ha rfl ?_⟩
    have := yields_lookup hW .ser c i ha
    simp only [serOf, bodyP]
    simp only [refOf, tabOf] at this
    cases hx : h.holders[i]? <;> simp only [hx, Option.map_none, Option.map_some] at this ⊢ <;> exact this
  | getDeser c i =>
    refine ⟨_, yields_eval hW ha rfl ?_⟩
    have := yields_lookup hW .deser c i ha
    simp only [deserOf, bodyP]
    simp only [refOf, tabOf] at this
    cases hx : h.holders[i]? <;> simp only [hx, Option.map_none, Option.map_some] at this ⊢ <;> exact this
  | getVal c i =>
    refine ⟨_, yields_eval hW ha rfl ?_⟩
    have := yields_lookup hW .val c i ha
    simp only [valOf, bodyP]
    simp only [refOf, tabOf] at this
    cases hx : h.holders[i]? <;> simp only [hx, Option.map_none, Option.map_some] at this ⊢ <;> exact this
  | announce c n i =>
    refine ⟨.ok .unit, yields_cached ?_ ?_ fun v hv => by rw [hv.2 _ _ _ rfl]⟩
    · simp only [bodyP]
      cases truthyStr n with
      | some n => rfl
      | none => exact yields_ok (yields_leaf hW c false true) rfl
    · rintro v ⟨⟩
      refine ⟨fun a hk _ r hr => ?_, fun _ _ _ _ => rfl⟩
      cases a <;> simp only [Call.key, reduceCtorEq] at hk
      cases hr
  | _ => exact ⟨_, yields_eval hW trivial rfl rfl⟩

theorem any_byParents (hW : Respects F W) {q : Kind} {j : Nat} (hP : ¬ P q j) (c : C) :
    Yields W P h (fun _ => True) (byParentsP W q j c) := by
  refine yields_ok (yields_naked hW c) ⟨fun hn => absurd hn hP, fun _ cs => ?_⟩
  simp only
  cases getParents W.toWorld (W.naked c) cs with
  | nil => exact trivial
  | cons p ps =>
    refine yields_ok (yields_lowerName hW p) ⟨fun hn => absurd hn hP, fun _ f => ?_⟩
    cases f <;> exact trivial

theorem any_getLizerRec (hW : Respects F W) {q : Kind} {j : Nat} (hP : ¬ P q j) (c : C) :
    Yields W P h (fun _ => True) (getLizerRecP W q j c) := by
  refine yields_ok (yields_lowerName hW c) ⟨fun hn => absurd hn hP, fun _ f => ?_⟩
  cases f with
  | some f => exact trivial
  | none => exact any_byParents hW hP c

theorem any_lookup (hW : Respects F W) (q : Kind) (c : C) (i j : Nat) (hj : refOf h q i = some j) (hP : ¬ P q j) :
    Yields W P h (fun _ => True) (lookupP W q c i) := by
  unfold lookupP
  simp only [Yields, hj]
  refine yields_any (yields_any (any_getLizerRec hW hP c) fun f => ?_) fun _ => trivial
  cases f with
  | some f => exact trivial
  | none =>
    simp only
    cases W.supertype c with
    | none => exact trivial
    | some u => exact any_getLizerRec hW hP u

omit [DecidableEq C] in
theorem any_cached {b : Call C → Prog F C (CVal F C)} {a : Call C} (hr : ¬ Reads P h a)
    (hb : Yields W P h (fun _ => True) (b a)) : Yields W P h (fun _ => True) (cachedP W b a) := by
  refine ⟨yields_any hb fun v => ⟨⟨fun a' hk ha' => absurd ((reads_key W P h hk).mp ha') hr, fun c n i hk => ?_⟩, trivial⟩,
    fun _ _ => trivial⟩
  cases a <;> simp only [Call.key, reduceCtorEq] at hk
  exact absurd trivial hr

/-- Any cached function can be called without harm. -/
theorem any_call (hW : Respects F W) (a : Call C) : Yields W P h (fun _ => True) (callP W a) := by
  by_cases ha : Reads P h a
  · obtain ⟨r, hr⟩ := yields_call (P := P) hW a ha
    exact yields_mono (fun _ _ => trivial) _ hr
  · refine any_cached ha ?_
    cases a with
    | getSer c i =>
      simp only [Reads, Classical.not_forall] at ha
      obtain ⟨j, hj, hn⟩ := ha
      exact any_lookup hW .ser c i j hj hn
    | getDeser c i =>
      simp only [Reads, Classical.not_forall] at ha
      obtain ⟨j, hj, hn⟩ := ha
      exact any_lookup hW .deser c i j hj hn
    | getVal c i =>
      simp only [Reads, Classical.not_forall] at ha
      obtain ⟨j, hj, hn⟩ := ha
      exact any_lookup hW .val c i j hj hn
    | _ => exact absurd trivial ha

omit [DecidableEq C] in
theorem yields_clear (n : Nat) : Yields W P h (· = .ok ()) (clearP n) := by
  induction n with
  | zero => rfl
  | succ n ih => exact ih

omit [DecidableEq C] in
/-- Registering elsewhere does no harm. -/
theorem any_set (hW : Respects F W) (q : Kind) (f : F) (c : C) (hp : Bool) (i : Nat)
    (hn : ∀ j, refOf h q i = some j → ¬ P q j) : Yields W P h (fun _ => True) (setP W q f c hp i) := by
  unfold setP
  simp only [Yields]
  cases hj : refOf h q i with
  | none => exact trivial
  | some j => exact ⟨hn j hj, yields_ok (yields_leaf hW c false true) ⟨hn j hj, trivial⟩⟩

end

/-! ## The programs of threads -/

/-- What a thread does that calls cached functions that read only the registries `P` (of `h`), clears the
cache, raises, catches, and decides by anything but the cache, and does not register anything. -/
inductive Plain (W : CWorld C) (P : Kind → Nat → Prop) (h : Heap F C) : {α : Type} → Prog F C α → Prop where
  | done {α : Type} (r : Except ErrKind α) : Plain W P h (.done r : Prog F C α)
  | call (a : Call C) : Reads P h a → Plain W P h (callP W a)
  | clear (n : Nat) : Plain W P h (clearP n)
  | handle {α β : Type} {p : Prog F C α} {k : Except ErrKind α → Prog F C β} :
      Plain W P h p → (∀ r, Plain W P h (k r)) → Plain W P h (p.handle k)

/-- What a thread does that calls any cached functions, clears the cache, raises, catches, decides by
anything, and registers in other registries than `P`. -/
inductive Other (W : CWorld C) (P : Kind → Nat → Prop) (h : Heap F C) : {α : Type} → Prog F C α → Prop where
  | done {α : Type} (r : Except ErrKind α) : Other W P h (.done r : Prog F C α)
  | call (a : Call C) : Other W P h (callP W a)
  | clear (n : Nat) : Other W P h (clearP n)
  | set (q : Kind) (f : F) (c : C) (hp : Bool) (i : Nat) : (∀ j, refOf h q i = some j → ¬ P q j) →
      Other W P h (setP W q f c hp i)
  | handle {α β : Type} {p : Prog F C α} {k : Except ErrKind α → Prog F C β} :
      Other W P h p → (∀ r, Other W P h (k r)) → Other W P h (p.handle k)

section
variable {W : CWorld C} {P : Kind → Nat → Prop} {h : Heap F C}

theorem Plain.bind {p : Prog F C α} {k : α → Prog F C β} (hp : Plain W P h p) (hk : ∀ a, Plain W P h (k a)) :
    Plain W P h (p.bind k) := by
  refine .handle hp fun r => ?_
  cases r with
  | ok a => exact hk a
  | error e => exact .done _

theorem Other.bind {p : Prog F C α} {k : α → Prog F C β} (hp : Other W P h p) (hk : ∀ a, Other W P h (k a)) :
    Other W P h (p.bind k) := by
  refine .handle hp fun r => ?_
  cases r with
  | ok a => exact hk a
  | error e => exact .done _

/-- A thread that does not register is also one of the others. -/
theorem Plain.other {Q : Kind → Nat → Prop} {p : Prog F C α} (hp : Plain W Q h p) : Other W P h p := by
  induction hp with
  | done r => exact .done r
  | call a _ => exact .call a
  | clear n => exact .clear n
  | handle _ _ ih1 ih2 => exact .handle ih1 ih2

theorem plain_yields (hW : Respects F W) {p : Prog F C α} (hp : Plain W P h p) : ∃ r, Yields W P h (· = r) p := by
  induction hp with
  | done r => exact ⟨r, rfl⟩
  | call a ha => exact yields_call hW a ha
  | clear n => exact ⟨_, yields_clear n⟩
  | handle _ _ ih1 ih2 =>
    obtain ⟨x, hx⟩ := ih1
    obtain ⟨r, hr⟩ := ih2 x
    refine ⟨r, yields_handle ?_ _ hx⟩
    rintro y rfl
    exact hr

theorem other_yields (hW : Respects F W) {p : Prog F C α} (hp : Other W P h p) : Yields W P h (fun _ => True) p := by
  induction hp with
  | done r => exact trivial
  | call a => exact any_call hW a
  | clear n => exact yields_mono (fun _ _ => trivial) _ (yields_clear n)
  | set q f c hp i hn => exact any_set hW q f c hp i hn
  | handle _ _ ih1 ih2 => exact yields_handle (fun x _ => ih2 x) _ ih1

/-- `dump` is such a program if its serializer is one. -/
theorem plain_dump {R : Type} (i : Nat) (c : C) (initial : Bool) {ser : Option F → Prog F C R}
    (hi : ∀ j, refOf h .ser i = some j → P .ser j) (hs : ∀ f, Plain W P h (ser f)) :
    Plain W P h (dumpP W i c initial ser) := by
  refine (Plain.call (.getSer c i) hi).bind fun v => ?_
  cases v with
  | fn f =>
    refine (Plain.call (.announce c none i) trivial).bind fun _ => .handle (hs f) fun r => ?_
    cases r with
    | ok r =>
      cases initial with
      | true => exact (Plain.clear _).bind fun _ => .done _
      | false => exact .done _
    | error e => exact (Plain.clear _).bind fun _ => .done _
  | _ => exact .done _

theorem plain_validate {R : Type} (i : Nat) (c : C) (check : F → R → Bool) (r : R)
    (hi : ∀ j, refOf h .val i = some j → P .val j) : Plain W P h (validateP W i c check r) := by
  refine (Plain.call (.getVal c i) hi).bind fun v => ?_
  cases v with
  | fn f =>
    cases f with
    | none => exact .done _
    | some f => simp only; split <;> exact .done _
  | _ => exact .done _

/-- And so is `load`. -/
theorem plain_load {R : Type} (i : Nat) (c : C) (initial : Bool) {nc : Prog F C Unit} (hnc : Plain W P h nc)
    (skip : Option R) {resolve : Prog F C C} (hres : Plain W P h resolve) {des : F → C → Prog F C R}
    (hi : ∀ j, refOf h .deser i = some j → P .deser j) (hv : ∀ j, refOf h .val i = some j → P .val j)
    (hd : ∀ f c, Plain W P h (des f c)) (check : F → R → Bool) :
    Plain W P h (loadP W i c initial nc skip resolve des check) := by
  refine hnc.bind fun _ => ?_
  cases skip with
  | some r => exact (plain_validate i c check r hv).bind fun _ => .done _
  | none =>
    refine hres.bind fun c' => (Plain.call (.getDeser c' i) hi).bind fun v => ?_
    cases v with
    | fn f =>
      refine (Plain.call (.className c' false true) trivial).bind fun _ => ?_
      cases f with
      | none => exact .done _
      | some f =>
        refine .handle ((hd f c').bind fun r => (plain_validate i c' check r hv).bind fun _ => .done _) fun r => ?_
        cases r with
        | ok r =>
          cases initial with
          | true => exact (Plain.clear _).bind fun _ => .done _
          | false => exact .done _
        | error e => exact (Plain.clear _).bind fun _ => .done _
    | _ => exact .done _

/-! ## Steps -/

theorem sound_touch {s : St F C} (hs : Sound W P h s) {k : Call C} {v : CVal F C}
    (hf : s.cache.find k = some v) : Sound W P h { s with cache := s.cache.touch k v } :=
  ⟨hs.1, fun k' v' hm => hs.2 k' v' (touch_mem hf hm)⟩

theorem sound_store {s : St F C} (hs : Sound W P h s) {k : Call C} {v : CVal F C}
    (hr : Right W P h k v) : Sound W P h { s with cache := s.cache.store k v } := by
  refine ⟨hs.1, fun k' v' hm => ?_⟩
  rcases store_mem hm with hm | hm
  · exact hs.2 k' v' hm
  · cases hm; exact hr

omit [DecidableEq C] in
theorem sound_clear {s : St F C} (hs : Sound W P h s) : Sound W P h { s with cache := [] } :=
  ⟨hs.1, fun _ _ hm => absurd hm List.not_mem_nil⟩

theorem yields_step {s : St F C} (hs : Sound W P h s) (R : Except ErrKind α → Prop) (p : Prog F C α)
    (hp : Yields W P h R p) : Yields W P h R (step1 W s p).1 ∧ Sound W P h (step1 W s p).2 := by
  cases p with
  | done y => exact ⟨hp, hs⟩
  | probe k n =>
    simp only [step1]
    cases hf : s.cache.find k with
    | some v => exact ⟨hp.2 v (hs.2 k v (find_some hf)), sound_touch hs hf⟩
    | none => exact ⟨hp.1, hs⟩
  | store k v n => exact ⟨hp.2, sound_store hs hp.1⟩
  | clear n => exact ⟨hp, sound_clear hs⟩
  | refs q i n => simp only [step1, hs.1.ref]; exact ⟨hp, hs⟩
  | get q j m n =>
    refine ⟨?_, hs⟩
    by_cases hP : P q j
    · simp only [step1, hs.1.tabs q j hP]; exact hp.1 hP
    · exact hp.2 hP _
  | list q j n =>
    refine ⟨?_, hs⟩
    by_cases hP : P q j
    · simp only [step1, hs.1.tabs q j hP]; exact hp.1 hP
    · exact hp.2 hP _
  | insert q j c b n => exact ⟨hp.2, same_change hs.1 hp.1 _, hs.2⟩
  | set q j m f n => exact ⟨hp.2, same_change hs.1 hp.1 _, hs.2⟩
  | announce c m i n => exact ⟨hp, same_announce W hs.1 c m i, hs.2⟩

/-- A thread that runs alone ends with what it yields. -/
theorem yields_run {R : Except ErrKind α → Prop} :
    ∀ (p : Prog F C α) (s : St F C), Sound W P h s → Yields W P h R p → R (p.run W s).1
  | .done _, _, _, hp => hp
  | .probe k n, s, hs, hp => by
    simp only [Prog.run]
    cases hf : s.cache.find k with
    | some v => exact yields_run _ _ (sound_touch hs hf) (hp.2 v (hs.2 k v (find_some hf)))
    | none => exact yields_run _ _ hs hp.1
  | .store k v n, s, hs, hp => yields_run n _ (sound_store hs hp.1) hp.2
  | .clear n, s, hs, hp => yields_run (R := R) n _ (sound_clear hs) hp
  | .refs q i n, s, hs, hp => by simp only [Prog.run, hs.1.ref]; exact yields_run (R := R) _ _ hs hp
  | .get q j m n, s, hs, hp => by
    by_cases hP : P q j
    · simp only [Prog.run, hs.1.tabs q j hP]; exact yields_run _ _ hs (hp.1 hP)
    · exact yields_run (n _) _ hs (hp.2 hP _)
  | .list q j n, s, hs, hp => by
    by_cases hP : P q j
    · simp only [Prog.run, hs.1.tabs q j hP]; exact yields_run _ _ hs (hp.1 hP)
    · exact yields_run (n _) _ hs (hp.2 hP _)
  | .insert q j c b n, s, hs, hp => yields_run n _ ⟨same_change hs.1 hp.1 _, hs.2⟩ hp.2
  | .set q j m f n, s, hs, hp => yields_run n _ ⟨same_change hs.1 hp.1 _, hs.2⟩ hp.2
  | .announce c m i n, s, hs, hp => yields_run (R := R) n _ ⟨same_announce W hs.1 c m i, hs.2⟩ hp

omit [DecidableEq C] in
theorem sound_empty : Sound W P h ⟨h, []⟩ := ⟨⟨rfl, fun _ _ _ => rfl⟩, fun _ _ hm => absurd hm List.not_mem_nil⟩

end

/-! ## C101 -/

/-- C101: however the steps of threads are interleaved, a thread that dumps and loads with the registries
`P` and has ended has ended with what it ends with if it runs alone, as long as no thread registers
anything in these registries. -/
theorem threads_do_not_interfere (W : CWorld C) (hW : EqualAlike W) (P : Kind → Nat → Prop) (s : St F C)
    (hs : Sound W P s.heap s) (ps : List (Prog F C α)) (hp : ∀ p ∈ ps, Other W P s.heap p) (schedule : List Nat) (i : Nat)
    (p : Prog F C α) (hpi : Plain W P s.heap p) (hi : ps[i]? = some p) (r : Except ErrKind α)
    (hr : (runAll W (ps, s) schedule).1[i]? = some (.done r)) :
    r = (p.run W ⟨s.heap, []⟩).1 := by
  obtain ⟨r0, hr0⟩ := plain_yields (P := P) (respects_of_alike hW) hpi
  have key : ∀ (sch : List Nat) (x : List (Prog F C α) × St F C), Sound W P s.heap x.2 →
      (∀ (j : Nat) q, x.1[j]? = some q → Yields W P s.heap (fun _ => True) q) →
      (∀ q, x.1[i]? = some q → Yields W P s.heap (· = r0) q) →
      ∀ q, (runAll W x sch).1[i]? = some q → Yields W P s.heap (· = r0) q := by
    intro sch
    induction sch with
    | nil => exact fun x _ _ h => h
    | cons j sch ih =>
      intro x hx hall h
      suffices hst : Sound W P s.heap (stepAt W x j).2 ∧
          (∀ (j' : Nat) q, (stepAt W x j).1[j']? = some q → Yields W P s.heap (fun _ => True) q) ∧
          ∀ q, (stepAt W x j).1[i]? = some q → Yields W P s.heap (· = r0) q from ih _ hst.1 hst.2.1 hst.2.2
      unfold stepAt
      cases hq : x.1[j]? with
      | none => exact ⟨hx, hall, h⟩
      | some q0 =>
        have hj : j < x.1.length := (List.getElem?_eq_some_iff.mp hq).1
        have hy := yields_step hx _ q0 (hall j q0 hq)
        refine ⟨hy.2, ?_, ?_⟩
        · intro j' q hiq
          by_cases hij : j = j'
          · subst hij
            rw [List.getElem?_set_self hj] at hiq
            cases hiq
            exact hy.1
          · rw [List.getElem?_set_ne hij] at hiq
            exact hall j' q hiq
        · intro q hiq
          by_cases hij : j = i
          · subst hij
            rw [List.getElem?_set_self hj] at hiq
            cases hiq
            exact (yields_step hx _ q0 (h q0 hq)).1
          · rw [List.getElem?_set_ne hij] at hiq
            exact h q hiq
  have h1 := key schedule (ps, s) hs
    (fun j q hq => other_yields (respects_of_alike hW) (hp q (List.mem_of_getElem? hq)))
    (fun q hq => by cases hi.symm.trans hq; exact hr0) _ hr
  exact (show r = r0 from h1).trans (yields_run p _ sound_empty hr0).symm

/-- The state after the first `t` steps of an endless schedule. -/
def during (W : CWorld C) (x : List (Prog F C α) × St F C) (schedule : Nat → Nat) (t : Nat) :
    List (Prog F C α) × St F C :=
  runAll W x ((List.range t).map schedule)

theorem during_succ (W : CWorld C) (x : List (Prog F C α) × St F C) (schedule : Nat → Nat) (t : Nat) :
    during W x schedule (t + 1) = stepAt W (during W x schedule t) (schedule t) := by
  simp only [during, runAll, List.range_succ, List.map_append, List.foldl_append, List.map_cons, List.map_nil,
    List.foldl_cons, List.foldl_nil]

theorem stepAt_other (W : CWorld C) (x : List (Prog F C α) × St F C) {i j : Nat} (h : j ≠ i) :
    (stepAt W x j).1[i]? = x.1[i]? := by
  unfold stepAt
  cases x.1[j]? with
  | none => rfl
  | some p => exact List.getElem?_set_ne h

theorem stepAt_self (W : CWorld C) (x : List (Prog F C α) × St F C) {i : Nat} {p : Prog F C α} (h : x.1[i]? = some p) :
    (stepAt W x i).1[i]? = some (step1 W x.2 p).1 := by
  unfold stepAt
  rw [h]
  exact List.getElem?_set_self (List.getElem?_eq_some_iff.mp h).1

/-- C101: no thread waits for another one.  Whatever the programs are, registrations included, a thread
that gets its turn again and again ends. -/
theorem threads_end (W : CWorld C) (x : List (Prog F C α) × St F C) (schedule : Nat → Nat) (i : Nat) (hi : i < x.1.length)
    (hfair : ∀ t, ∃ u, t ≤ u ∧ schedule u = i) : ∃ t r, (during W x schedule t).1[i]? = some (.done r) := by
  have wait : ∀ (t : Nat) (p : Prog F C α), (during W x schedule t).1[i]? = some p →
      ∃ u s, (during W x schedule u).1[i]? = some (step1 W s p).1 := by
    intro t p hp
    obtain ⟨u, htu, hu⟩ := hfair t
    obtain ⟨d, rfl⟩ := Nat.exists_eq_add_of_le htu
    induction d generalizing t with
    | zero => exact ⟨t + 1, _, by rw [during_succ, show schedule t = i from hu]; exact stepAt_self W _ hp⟩
    | succ d ih =>
      by_cases ht : schedule t = i
      · exact ⟨t + 1, _, by rw [during_succ, ht]; exact stepAt_self W _ hp⟩
      · refine ih (t + 1) ?_ (by omega) (by rw [← hu]; congr 1; omega)
        rw [during_succ, stepAt_other W _ ht]
        exact hp
  have main : ∀ (p : Prog F C α) (t : Nat), (during W x schedule t).1[i]? = some p →
      ∃ t r, (during W x schedule t).1[i]? = some (.done r) := by
    intro p
    induction p with
    | done r => exact fun t h => ⟨t, r, h⟩
    | probe k n ih =>
      intro t h
      obtain ⟨u, s, hu⟩ := wait t _ h
      simp only [step1] at hu
      cases hf : s.cache.find k with
      | some v => rw [hf] at hu; exact ih _ _ hu
      | none => rw [hf] at hu; exact ih _ _ hu
    | store k v n ih => intro t h; obtain ⟨u, s, hu⟩ := wait t _ h; exact ih _ hu
    | clear n ih => intro t h; obtain ⟨u, s, hu⟩ := wait t _ h; exact ih _ hu
    | refs q i n ih => intro t h; obtain ⟨u, s, hu⟩ := wait t _ h; exact ih _ _ hu
    | get q j m n ih => intro t h; obtain ⟨u, s, hu⟩ := wait t _ h; exact ih _ _ hu
    | list q j n ih => intro t h; obtain ⟨u, s, hu⟩ := wait t _ h; exact ih _ _ hu
    | insert q j c b n ih => intro t h; obtain ⟨u, s, hu⟩ := wait t _ h; exact ih _ hu
    | set q j m f n ih => intro t h; obtain ⟨u, s, hu⟩ := wait t _ h; exact ih _ hu
    | announce c m i n ih => intro t h; obtain ⟨u, s, hu⟩ := wait t _ h; exact ih _ hu
  exact main x.1[i] 0 (List.getElem?_eq_getElem hi)

/-- C101 for `dump`: what it returns or raises in a thread is what the model of `dump` and the cache says. -/
theorem dump_in_threads {R : Type} (W : CWorld C) (hW : EqualAlike W) (P : Kind → Nat → Prop) (h : Heap F C)
    (ps : List (Prog F C R)) (hp : ∀ p ∈ ps, Other W P h p) (schedule : List Nat) (i : Nat) (f : Nat) (c : C) (initial : Bool)
    (ser : Option F → Prog F C R) (hf : ∀ j, refOf h .ser f = some j → P .ser j) (hser : ∀ g, Plain W P h (ser g))
    (hi : ps[i]? = some (dumpP W f c initial ser)) (r : Except ErrKind R)
    (hr : (runAll W (ps, ⟨h, []⟩) schedule).1[i]? = some (.done r)) :
    r = (Verif.Cache.dump W f c initial (fun g => (ser g).run W) ⟨h, []⟩).1 := by
  rw [← run_dump]
  exact threads_do_not_interfere W hW P ⟨h, []⟩ sound_empty ps hp schedule i _ (plain_dump f c initial hf hser) hi r hr

/-- C101 for `load`. -/
theorem load_in_threads {R : Type} (W : CWorld C) (hW : EqualAlike W) (P : Kind → Nat → Prop) (h : Heap F C)
    (ps : List (Prog F C R)) (hp : ∀ p ∈ ps, Other W P h p) (schedule : List Nat) (i : Nat) (f : Nat) (c : C) (initial : Bool)
    (nc : Prog F C Unit) (hnc : Plain W P h nc) (skip : Option R) (resolve : Prog F C C) (hres : Plain W P h resolve)
    (des : F → C → Prog F C R) (hf : ∀ j, refOf h .deser f = some j → P .deser j)
    (hv : ∀ j, refOf h .val f = some j → P .val j) (hdes : ∀ g c, Plain W P h (des g c)) (check : F → R → Bool)
    (hi : ps[i]? = some (loadP W f c initial nc skip resolve des check)) (r : Except ErrKind R)
    (hr : (runAll W (ps, ⟨h, []⟩) schedule).1[i]? = some (.done r)) :
    r = (Verif.Cache.load W f c initial (nc.run W) skip (resolve.run W) (fun g c => (des g c).run W) check ⟨h, []⟩).1 := by
  rw [← run_load]
  exact threads_do_not_interfere W hW P ⟨h, []⟩ sound_empty ps hp schedule i _
    (plain_load f c initial hnc skip hres hf hv hdes check) hi r hr

theorem run_setP (W : CWorld C) (P : Kind → Nat → Prop) (q : Kind) (f : F) (c : C) (hp : Bool) (i j : Nat) (s : St F C)
    (hs : Sound W P s.heap s) (hi : refOf s.heap q i = some j) :
    ((setP W q f c hp i).run W s).1 = .ok () ∧
    ((setP W q f c hp i).run W s).2.heap = change s.heap q j (setLizer W.toWorld f [some c] hp) := by
  unfold setP
  simp only [Prog.run, hi]
  rw [run_bind, run_leaf]
  generalize hs1 : (⟨change s.heap q j fun t =>
    { t with classes := if hp then c :: t.classes else t.classes ++ [c] }, s.cache⟩ : St F C) = s1
  have hh : s1.heap = change s.heap q j fun t =>
    { t with classes := if hp then c :: t.classes else t.classes ++ [c] } := by rw [← hs1]
  have hv : (leafCall W (.className c false true) s1).1 = .ok (.str (getClassName (W.attrs c) id true)) := by
    unfold leafCall cachedCall
    have hc : s1.cache = s.cache := by rw [← hs1]
    rw [hc]
    cases hf : s.cache.find ((Call.className c false true).key W) with
    | none => rfl
    | some v => exact ((hs.2 _ _ (find_some hf)).1 (.className c false true) rfl trivial _ rfl).symm
  have hl := leaf_heap W (.className c false true) s1
  simp only [Comp.bind]
  cases hx : leafCall W (.className c false true) s1 with
  | mk x s2 =>
    rw [hx] at hv hl
    simp only at hv hl
    subst hv
    simp only [Prog.run, hl, hh]
    refine ⟨trivial, ?_⟩
    cases q <;> simp only [change, List.modify_modify_eq] <;> rfl

/-- The registration of a thread that runs alone is that of the model of the registries. -/
theorem run_set_serializer (W : CWorld C) (P : Kind → Nat → Prop) (f : F) (c : C) (hp : Bool) (i : Nat) (s : St F C)
    (hs : Sound W P s.heap s) (hi : i < s.heap.holders.length) :
    ((setP W .ser f c hp i).run W s).2.heap = step W.toWorld s.heap (.setSer f [some c] hp i) := by
  have hx : s.heap.holders[i]? = some s.heap.holders[i] := List.getElem?_eq_getElem hi
  rw [(run_setP W P .ser f c hp i s.heap.holders[i].ser s hs (by simp only [refOf, hx, Option.map_some])).2]
  simp only [step, Op.target, hx, change]

/-- The same for deserializers. -/
theorem run_set_deserializer (W : CWorld C) (P : Kind → Nat → Prop) (f : F) (c : C) (hp : Bool) (i : Nat) (s : St F C)
    (hs : Sound W P s.heap s) (hi : i < s.heap.holders.length) :
    ((setP W .deser f c hp i).run W s).2.heap = step W.toWorld s.heap (.setDeser f [some c] hp i) := by
  have hx : s.heap.holders[i]? = some s.heap.holders[i] := List.getElem?_eq_getElem hi
  rw [(run_setP W P .deser f c hp i s.heap.holders[i].deser s hs (by simp only [refOf, hx, Option.map_some])).2]
  simp only [step, Op.target, hx, change]

/-! ## Examples -/

open Verif.Props.Registry (Ex)

/-- A serializer for `Animal`. -/
def zoo : Heap Nat Ex := step exC.toWorld Heap.init (.setSer 7 [some .animal] true 0)

/-- A thread that dumps a `Dog` and says which serializer was used. -/
def dumper : Prog Nat Ex (Option Nat) := dumpP exC 0 .dog true fun f => .done (.ok f)

/-- A thread that loads a `Dog`; nothing is registered for that. -/
def loader : Prog Nat Ex (Option Nat) :=
  loadP exC 0 .dog true (.done (.ok ())) none (.done (.ok .dog)) (fun f _ => .done (.ok (some f))) fun _ _ => true

/-- The outcome of a thread, if it has ended. -/
def outcome (x : List (Prog Nat Ex (Option Nat)) × St Nat Ex) (i : Nat) : Option (Except ErrKind (Option Nat)) :=
  match x.1[i]? with
  | some (.done r) => some r
  | _ => none

/-- Two threads that dump and one that loads, step by step in turn. -/
def turns : List Nat := (List.replicate 40 [0, 1, 2]).flatten

example : outcome (runAll exC ([dumper, dumper, loader], ⟨zoo, []⟩) turns) 0 = some (.ok (some 7)) ∧
    outcome (runAll exC ([dumper, dumper, loader], ⟨zoo, []⟩) turns) 1 = some (.ok (some 7)) ∧
    outcome (runAll exC ([dumper, dumper, loader], ⟨zoo, []⟩) turns) 2 = some (.error .deserializationError) := by
  decide +kernel

example : ∀ p ∈ [dumper, dumper, loader], Plain exC (fun _ _ => True) zoo p := by
  have h1 : Plain exC (fun _ _ => True) zoo dumper := plain_dump _ _ _ (fun _ _ => trivial) fun _ => .done _
  have h2 : Plain exC (fun _ _ => True) zoo loader := plain_load _ _ _ (.done _) _ (.done _) (fun _ _ => trivial)
    (fun _ _ => trivial) (fun _ _ => .done _) _
  intro p hp
  simp only [List.mem_cons, List.not_mem_nil, or_false] at hp
  rcases hp with rfl | rfl | rfl
  · exact h1
  · exact h1
  · exact h2

example : EqualAlike exC := by
  intro c d h
  cases h
  exact ⟨rfl, rfl, rfl, rfl, rfl⟩

/-! ## Registrations -/

/-- A fork of it. -/
def forked : Heap Nat Ex := step exC.toWorld zoo (.fork 0)

/-- The registries that are not those of the fork. -/
def notForked : Kind → Nat → Prop := fun q j => q = .val ∨ j = 0

/-- `set_serializer(8, Dog, fork_inst=fork)` and then a dump with that fork. -/
def forkSetter : Prog Nat Ex (Option Nat) :=
  (setP exC .ser 8 .dog true 1).bind fun _ => dumpP exC 1 .dog true fun f => .done (.ok f)

/-- A thread that registers for a fork and dumps with it is one of the others, ... -/
example : Other exC notForked forked forkSetter := by
  refine (Other.set _ _ _ _ _ ?_).bind fun _ => (plain_dump (P := fun _ _ => True) _ _ _ (fun _ _ => trivial) fun _ => .done _).other
  intro j hj
  have : j = 1 := by
    have h : refOf forked .ser 1 = some 1 := by decide +kernel
    exact (Option.some.inj (h.symm.trans hj)).symm
  subst this
  simp [notForked]

/-- ... and a thread that dumps without the fork is one that it does not disturb. -/
example : Plain exC notForked forked dumper := by
  refine plain_dump _ _ _ (fun j hj => .inr ?_) fun _ => .done _
  have h : refOf forked .ser 0 = some 0 := by decide +kernel
  exact (Option.some.inj (h.symm.trans hj)).symm

example : outcome (runAll exC ([dumper, forkSetter], ⟨forked, []⟩) (List.replicate 60 [0, 1]).flatten) 0 =
      some (.ok (some 7)) ∧
    outcome (runAll exC ([dumper, forkSetter], ⟨forked, []⟩) (List.replicate 60 [0, 1]).flatten) 1 =
      some (.ok (some 8)) := by
  decide +kernel

/-- `set_serializer(8, Animal)`. -/
def setter : Prog Nat Ex (Option Nat) := (setP exC .ser 8 .animal true 0).bind fun _ => .done (.ok none)

/-- Threads that register do interfere: `set_serializer(f, Animal)` puts the class in the list before the
function has a name.  A `Dog` that is dumped in between raises a `KeyError`, although it is dumped without
an error before and after. -/
theorem registration_seen_halfway :
    outcome (runAll exC ([dumper, setter], ⟨Heap.init, []⟩) ([1, 1] ++ List.replicate 40 0)) 0 = some (.error .keyError) ∧
    (dumper.run exC ⟨Heap.init, []⟩).1 = .ok none ∧
    (dumper.run exC (setter.run exC ⟨Heap.init, []⟩).2).1 = .ok (some 8) := by
  decide +kernel

/-- `get_serializer(Dog)`. -/
def finder : Prog Nat Ex (Option Nat) :=
  (callP exC (.getSer .dog 0)).bind fun
    | .fn f => .done (.ok f)
    | _ => .done (.error .typeError)

/-- `set_serializer(8, Dog)`, then a dump that ends with clearing the cache, then `get_serializer(Dog)`. -/
def renewer : Prog Nat Ex (Option Nat) :=
  (setP exC .ser 8 .dog true 0).bind fun _ => (clearP wrappers).bind fun _ => finder

/-- Clearing the cache after a registration is not enough with threads (C28 says that it is without):
another thread that looked before the registration can store its outcome after the clearing, and then
this outcome is found. -/
theorem stale_in_threads :
    outcome (runAll exC ([finder, renewer], ⟨zoo, []⟩)
      (List.replicate 11 0 ++ List.replicate 19 1 ++ [0] ++ List.replicate 40 1)) 1 = some (.ok (some 7)) ∧
    (renewer.run exC ⟨zoo, []⟩).1 = .ok (some 8) ∧
    (renewer.run exC (finder.run exC ⟨zoo, []⟩).2).1 = .ok (some 8) := by
  decide +kernel

end Verif.Props.Threads
