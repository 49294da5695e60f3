import Verif.Props.RoundTrip

/-!
# C46: dicts with keys that are not JSON keys
-/

set_option autoImplicit false

namespace Verif.Props.HashedKeys
open Verif Verif.Core
open Verif.Props.LoadBasics Verif.Props.LoadCollections Verif.Props.LoadObject
open Verif.Props.DumpObject (Selected stripNames hintOf attrKw object_dump_selected)
open Verif.Props.RoundTrip

/-! ## Specification -/

/-- A tuple, a frozenset, an object, a named tuple or a complex number with an imaginary
part: what can be the key of a Python dict, but is not dumped to something that can be the
key of a JSON object. -/
def Composite (k : Val) : Prop :=
  (∃ xs, k = .tuple xs) ∨ (∃ xs, k = .seq .frozenset xs) ∨ (∃ c as, k = .obj c as) ∨
    (∃ c xs, k = .ntuple c xs) ∨ ∃ re im, k = .atom (.complex re im) ∧ im ≠ 0

/-- A dict in which the keys are replaced by their hashes, `ds` being the dumped keys and
values of `es`. -/
def hashedDict (hash : Val → Int) (es ds : List (Val × Val)) : Val :=
  .dict ((.str "-keys".toList, .dict ((es.zip ds).map fun p => (.int (hash p.1.1), p.2.1))) ::
    (es.zip ds).map fun p => (.int (hash p.1.1), p.2.2))

/-! ## Dicts -/

variable {E : LEnv} {fork : Nat}

theorem dictGet_append {es fs : List (Val × Val)} {k : Val} (h : ∀ e ∈ es, pyEq e.1 k = false) :
    dictGet (es ++ fs) k = dictGet fs k := by
  induction es with
  | nil => rfl
  | cons e es ih =>
    obtain ⟨k', v⟩ := e
    rw [List.cons_append, dictGet, if_neg (by rw [h _ List.mem_cons_self]; decide)]
    exact ih fun e he => h e (List.mem_cons_of_mem _ he)

theorem dictGet_at {es fs : List (Val × Val)} {k v : Val} (h : ∀ e ∈ es, pyEq e.1 k = false) :
    dictGet (es ++ (k, v) :: fs) k = some v := by
  rw [dictGet_append h, dictGet, if_pos (pyEq_refl k)]

theorem dictDel_at {es fs : List (Val × Val)} {k v : Val} (h : ∀ e ∈ es, pyEq e.1 k = false) :
    dictDel (es ++ (k, v) :: fs) k = es ++ fs := by
  induction es with
  | nil => rw [List.nil_append, dictDel, if_pos (pyEq_refl k), List.nil_append]
  | cons e es ih =>
    obtain ⟨k', v'⟩ := e
    rw [List.cons_append, dictDel, if_neg (by rw [h _ List.mem_cons_self]; decide),
      ih fun e he => h e (List.mem_cons_of_mem _ he), List.cons_append]

theorem dictSet_head {es : List (Val × Val)} {k v w : Val} :
    dictSet ((k, v) :: es) k w = (k, w) :: es := by
  rw [dictSet, if_pos (pyEq_refl k)]

theorem int_ne {a b : Int} (h : a ≠ b) : pyEq (.int a) (.int b) = false := by
  simp only [pyEq, Atom.num?]
  simpa using h

theorem composite_atom {k : Val} (h : Composite k) (a : Atom) (ha : (∃ s, a = .str s) ∨ ∃ n, a = .int n) :
    pyEq k (.atom a) = false ∧ pyEq (.atom a) k = false := by
  rcases h with ⟨_, rfl⟩ | ⟨_, rfl⟩ | ⟨_, _, rfl⟩ | ⟨_, _, rfl⟩ | ⟨re, im, rfl, him⟩
  · simp [pyEq]
  · simp [pyEq]
  · simp [pyEq]
  · simp [pyEq]
  · rcases ha with ⟨s, rfl⟩ | ⟨n, rfl⟩ <;> simp [pyEq, Atom.num?, him]

/-! ## Keys -/

theorem obj_plain {x : Bool} {c : Nat} {as : List (PyStr × Val)} {t : Ty}
    (h : HasTy E direct x (.obj c as) t) : (E.info c).kind = .plain := by
  generalize hv : Val.obj c as = v at h
  induction h with
  | obj h1 => cases hv; exact h1.kind
  | union _ _ _ ih => exact ih hv
  | _ => cases hv

theorem ntuple_kind {x : Bool} {c : Nat} {xs : List Val} {t : Ty}
    (h : HasTy E direct x (.ntuple c xs) t) : (E.info c).kind = .ntuple := by
  generalize hv : Val.ntuple c xs = v at h
  induction h with
  | ntuple h1 => cases hv; exact h1.kind
  | union _ _ _ ih => exact ih hv
  | _ => cases hv

theorem composite_not_json {k : Val} {t : Ty} (h : Composite k) (ht : HasTy E direct true k t) :
    isValidJsonKey E.toEnv k = false := by
  rcases h with ⟨_, rfl⟩ | ⟨_, rfl⟩ | ⟨c, as, rfl⟩ | ⟨c, xs, rfl⟩ | ⟨_, _, rfl, _⟩
  · rfl
  · rfl
  · simp [isValidJsonKey, Val.cls, Cls.sub, obj_plain ht]
  · simp [isValidJsonKey, Val.cls, Cls.sub, ntuple_kind ht]
  · rfl

/-- A composite key is dumped to a list or to a dict. -/
theorem composite_dump (hs : DefaultSers E.toEnv fork) {k j : Val} {t : Ty} {n : Nat} {kw : DumpKw}
    (hk : kw.fork = fork) (h : Composite k) (ht : HasTy E direct true k t)
    (hd : (dump E.toEnv (n + 2) k none kw).val = .ok j) : isValidJsonKey E.toEnv j = false := by
  have hs' : DefaultSers E.toEnv kw.fork := by rw [hk]; exact hs
  have hit : ∀ v, (iterableSer E.toEnv (recOf E.toEnv n) v none kw).val = .ok j →
      isValidJsonKey E.toEnv j = false := by
    intro v hv
    unfold iterableSer at hv
    cases hi : v.iter with
    | none => simp only [hi] at hv; cases hv
    | some xs =>
      simp only [hi] at hv
      rw [Core.bind_ok] at hv
      obtain ⟨ss, _, hv⟩ := hv
      rw [Core.bind_ok] at hv
      obtain ⟨ys, _, hv⟩ := hv
      cases hv
      rfl
  rcases h with ⟨xs, rfl⟩ | ⟨xs, rfl⟩ | ⟨c, as, rfl⟩ | ⟨c, xs, rfl⟩ | ⟨re, im, rfl, _⟩
  · rw [dump_via (f := .tuple) hs' rfl] at hd
    exact hit (.tuple xs) hd
  · rw [dump_via (f := .iterable) hs' rfl] at hd
    exact hit (.seq .frozenset xs) hd
  · rw [dump_via (f := .object) hs' (by simp [Ty.serFn, Val.cls, Cls.serFn, obj_plain ht])] at hd
    replace hd : (objectSerWith E.toEnv (recOf E.toEnv n) (.obj c as) kw (normalizeStripAttr kw.stripAttr)
      (.cls (.user c)) (E.info c) (attributesFromObject (E.info c) as kw
        (normalizeStripAttr kw.stripAttr))).val = .ok j := hd
    unfold objectSerWith at hd
    rw [Core.bind_ok] at hd
    obtain ⟨_, _, hd⟩ := hd
    simp only [Core.bind_ok] at hd
    obtain ⟨_, _, hd⟩ := hd
    split at hd
    · cases hd; rfl
    · rw [Core.bind_ok] at hd
      obtain ⟨_, _, hd⟩ := hd
      cases hd; rfl
  · rw [dump_via (v := .ntuple c xs) (f := .tuple) hs'
      (by simp [Ty.serFn, Val.cls, Cls.serFn, ntuple_kind ht])] at hd
    replace hd : (namedtupleSer (recOf E.toEnv n) (E.info c).fields xs kw).val = .ok j := hd
    unfold namedtupleSer at hd
    rw [Core.bind_ok] at hd
    obtain ⟨_, _, hd⟩ := hd
    cases hd; rfl
  · rw [dump_via (f := .complex) hs' rfl] at hd
    cases hd; rfl

/-! ## Dump -/

/-- A key and a value, as they are, dumped, and loaded again. -/
structure Item where
  k : Val
  v : Val
  dk : Val
  dv : Val
  rv : Val

/-- The dict with the hashed keys. -/
def hashed (hash : Val → Int) (xs : List Item) : List (Val × Val) :=
  (.str keysKey, .dict (xs.map fun x => (.int (hash x.k), x.dk))) ::
    xs.map fun x => (.int (hash x.k), x.dv)

theorem fresh {hash : Val → Int} {xs : List Item} {x : Item} (g : Item → Val)
    (h : ∀ y ∈ xs, hash y.k ≠ hash x.k) :
    ∀ e ∈ (xs.map fun y => (Val.int (hash y.k), g y)), pyEq e.1 (.int (hash x.k)) = false := by
  intro e he
  obtain ⟨y, hy, rfl⟩ := List.mem_map.1 he
  exact int_ne (h y hy)

/-- What is known about an entry that is dumped. -/
structure Dumps (Ev : Env) (rec : Rec) (kw : DumpKw) (x : Item) : Prop where
  comp : Composite x.k
  notJson : isValidJsonKey Ev x.k = false
  key : (rec.dump x.k none kw).val = .ok x.dk
  keyNotJson : isValidJsonKey Ev x.dk = false
  value : (rec.dump x.v none { kw with types := [] }).val = .ok x.dv

/-- The same, but without the section `-keys` as long as there are no keys. -/
def hashedSoFar (hash : Val → Int) : List Item → List (Val × Val)
  | [] => []
  | x :: xs => hashed hash (x :: xs)

theorem store_hashed {Ev : Env} {rec : Rec} {kw : DumpKw} {ys : List Item} {x : Item}
    (hX : Dumps Ev rec kw x) (hd : ∀ y ∈ ys, Ev.hash y.k ≠ Ev.hash x.k) :
    (storeAndHash Ev rec (hashedSoFar Ev.hash ys) x.k kw).val = .ok
      ((.str keysKey, .dict ((ys ++ [x]).map fun x => (.int (Ev.hash x.k), x.dk))) ::
        ys.map fun x => (.int (Ev.hash x.k), x.dv), .int (Ev.hash x.k)) := by
  unfold storeAndHash
  rw [hX.notJson]
  simp only [Bool.false_eq_true, if_false]
  rw [Core.bind_ok]
  refine ⟨x.dk, hX.key, ?_⟩
  rw [hX.keyNotJson]
  simp only [Bool.false_eq_true, if_false]
  cases ys with
  | nil => rfl
  | cons y ys =>
    have hg : dictGet (hashedSoFar Ev.hash (y :: ys)) (.str keysKey)
        = some (.dict ((y :: ys).map fun x => (.int (Ev.hash x.k), x.dk))) := dictGet_at (es := []) (by simp)
    rw [hg]
    simp only [pure_val, Except.ok.injEq, Prod.mk.injEq, and_true]
    rw [dictSet_new (fresh (fun x => x.dk) hd)]
    rw [hashedSoFar, hashed, dictSet_head, List.map_append]
    rfl

theorem dictLoop_hashed {Ev : Env} {rec : Rec} {kw : DumpKw} (hk : DumpNeutral fork kw) :
    ∀ (xs ys : List Item), (∀ x ∈ xs, Dumps Ev rec kw x) →
      xs.Pairwise (fun x y => Ev.hash x.k ≠ Ev.hash y.k) →
      (∀ y ∈ ys, ∀ x ∈ xs, Ev.hash y.k ≠ Ev.hash x.k) →
      (dictLoop Ev rec kw (xs.map fun x => (x.k, x.v)) (hashedSoFar Ev.hash ys)).val
        = .ok (hashedSoFar Ev.hash (ys ++ xs)) := by
  intro xs
  induction xs with
  | nil => intro ys _ _ _; simp [dictLoop]
  | cons x xs ih =>
    intro ys hx hp hd
    have hX := hx x List.mem_cons_self
    have hns : ∀ s, x.k = .str s → False := by
      rintro s hs
      have := (composite_atom hX.comp (.str s) (.inl ⟨_, rfl⟩)).1
      rw [hs, pyEq_refl] at this
      cases this
    have hd' := fun y hy => hd y hy x List.mem_cons_self
    rw [List.map_cons, dictLoop]
    · rw [Core.bind_ok]
      refine ⟨_, store_hashed hX hd', ?_⟩
      simp only
      rw [Core.bind_ok]
      refine ⟨x.dv, hX.value, ?_⟩
      have hadd : addDumped kw ((.str keysKey, .dict ((ys ++ [x]).map fun x => (.int (Ev.hash x.k), x.dk))) ::
          ys.map fun x => (.int (Ev.hash x.k), x.dv)) (.int (Ev.hash x.k)) x.dv
            = .ok (hashedSoFar Ev.hash (ys ++ [x])) := by
        simp only [addDumped, hk.nulls, Bool.false_and, transformKey, hk.keys, Except.map,
          Bool.false_eq_true, if_false, Except.ok.injEq]
        rw [dictSet_new]
        · cases ys <;> simp [hashedSoFar, hashed]
        · intro e he
          rcases List.mem_cons.1 he with rfl | he
          · simp [pyEq, Atom.num?]
          · exact fresh (fun x => x.dv) hd' e he
      rw [hadd]
      rw [Core.bind_ok]
      refine ⟨_, rfl, ?_⟩
      rw [List.pairwise_cons] at hp
      rw [ih (ys ++ [x]) (fun z hz => hx z (List.mem_cons_of_mem _ hz)) hp.2 ?_]
      · simp
      · intro y hy z hz
        rcases List.mem_append.1 hy with hy | hy
        · exact hd y hy z (List.mem_cons_of_mem _ hz)
        · rw [List.mem_singleton] at hy
          subst hy
          exact hp.1 z hz
    · exact hns

/-! ## Load -/

/-- What is known about an entry that is loaded. -/
structure LoadsAs (E : LEnv) (rec : LRec) (K : Ty) (kw : LoadKw) (x : Item) : Prop where
  comp : Composite x.k
  hashable : x.k.hashable E.info = true
  key : (rec x.dk (some K) kw).val = .ok x.k

/-- The dict after some of the keys have been restored. -/
def restored (hash : Val → Int) (xs ys : List Item) : List (Val × Val) :=
  (.str keysKey, .dict (xs.map fun x => (.int (hash x.k), x.dk))) ::
    ((xs.map fun x => (.int (hash x.k), x.dv)) ++ ys.map fun y => (y.k, y.dv))

theorem unhashKey_ok {rec : LRec} {K : Ty} {kw : LoadKw} {xs xs' ys : List Item} {x : Item}
    (hX : LoadsAs E rec K kw x) (hx : ∀ y ∈ xs, E.hash y.k ≠ E.hash x.k)
    (hy : ∀ y ∈ ys, Composite y.k ∧ pyEq y.k x.k = false) :
    (unhashKey E rec K kw (restored E.hash (xs ++ x :: xs') ys) (.int (E.hash x.k))).val
      = .ok (restored E.hash (xs ++ xs') (ys ++ [x])) := by
  have hne : pyEq (.str keysKey) (.int (E.hash x.k)) = false := by simp [pyEq, Atom.num?]
  have hks : dictGet (restored E.hash (xs ++ x :: xs') ys) (.str keysKey)
      = some (.dict ((xs.map fun x => (.int (E.hash x.k), x.dk)) ++ (.int (E.hash x.k), x.dk) ::
          xs'.map fun x => (.int (E.hash x.k), x.dk))) := by
    rw [restored, List.map_append, List.map_cons]
    exact dictGet_at (es := []) (by simp)
  have hks' := dictGet_at (v := x.dk) (fs := xs'.map fun x => (.int (E.hash x.k), x.dk))
    (fresh (hash := E.hash) (fun x => x.dk) hx)
  unfold unhashKey
  rw [hks]
  simp only [hks']
  rw [Core.bind_ok]
  refine ⟨x.dk, rfl, ?_⟩
  rw [Core.bind_ok]
  refine ⟨x.k, hX.key, ?_⟩
  have hval : dictGet (restored E.hash (xs ++ x :: xs') ys) (.int (E.hash x.k)) = some x.dv := by
    have : restored E.hash (xs ++ x :: xs') ys =
        ((.str keysKey, .dict ((xs ++ x :: xs').map fun x => (.int (E.hash x.k), x.dk))) ::
          xs.map fun x => (.int (E.hash x.k), x.dv)) ++ (.int (E.hash x.k), x.dv) ::
        ((xs'.map fun x => (.int (E.hash x.k), x.dv)) ++ ys.map fun y => (y.k, y.dv)) := by
      simp [restored]
    rw [this]
    refine dictGet_at ?_
    intro e he
    rcases List.mem_cons.1 he with rfl | he
    · exact hne
    · exact fresh (fun x => x.dv) hx e he
  have hset : dictSet (restored E.hash (xs ++ x :: xs') ys) x.k x.dv
      = restored E.hash (xs ++ x :: xs') ys ++ [(x.k, x.dv)] := by
    refine dictSet_new ?_
    intro e he
    rw [restored] at he
    rcases List.mem_cons.1 he with rfl | he
    · exact (composite_atom hX.comp _ (.inl ⟨_, rfl⟩)).2
    rcases List.mem_append.1 he with he | he
    · obtain ⟨y, _, rfl⟩ := List.mem_map.1 he
      exact (composite_atom hX.comp _ (.inr ⟨_, rfl⟩)).2
    · obtain ⟨y, hy', rfl⟩ := List.mem_map.1 he
      exact (hy y hy').2
  have hks2 : dictGet (restored E.hash (xs ++ x :: xs') ys ++ [(x.k, x.dv)]) (.str keysKey)
      = some (.dict ((xs.map fun x => (.int (E.hash x.k), x.dk)) ++ (.int (E.hash x.k), x.dk) ::
          xs'.map fun x => (.int (E.hash x.k), x.dk))) := by
    rw [restored, List.map_append, List.map_cons]
    exact dictGet_at (es := []) (by simp)
  rw [hval]
  simp only [hX.hashable, if_true, hset, hks2, hks', Option.isSome_some, pure_val, Except.ok.injEq]
  rw [dictDel_at (fresh (hash := E.hash) (fun x => x.dk) hx), restored, List.cons_append, dictSet_head,
    List.map_append, List.map_cons, List.append_assoc, List.append_assoc, List.cons_append]
  refine (dictDel_at (es := (_, _) :: xs.map fun x => (.int (E.hash x.k), x.dv)) ?_).trans ?_
  rotate_left
  · simp [restored]
  · intro e he
    rcases List.mem_cons.1 he with rfl | he
    · exact hne
    · exact fresh (fun x => x.dv) hx e he

theorem unhashLoop_ok {rec : LRec} {K : Ty} {kw : LoadKw} :
    ∀ (hs : List Val) (xs ys : List Item), hs.Perm (xs.map fun x => .int (E.hash x.k)) →
      (∀ x ∈ xs, LoadsAs E rec K kw x) → xs.Pairwise (fun x y => E.hash x.k ≠ E.hash y.k) →
      xs.Pairwise (fun x y => pyEq x.k y.k = false ∧ pyEq y.k x.k = false) →
      (∀ y ∈ ys, Composite y.k ∧ ∀ x ∈ xs, pyEq y.k x.k = false) →
      ∃ zs, zs.Perm xs ∧ (unhashLoop E rec K kw hs (restored E.hash xs ys)).val
        = .ok (restored E.hash [] (ys ++ zs)) := by
  intro hs
  induction hs with
  | nil =>
    intro xs ys hp _ _ _ _
    have : xs = [] := by simpa using hp.symm.length_eq
    subst this
    exact ⟨[], .refl _, by simp [unhashLoop]⟩
  | cons h hs ih =>
    intro xs ys hp hx hh hd hy
    have hm : h ∈ xs.map fun x => (.int (E.hash x.k) : Val) := hp.mem_iff.1 List.mem_cons_self
    obtain ⟨x, hxm, rfl⟩ := List.mem_map.1 hm
    obtain ⟨as, bs, rfl⟩ := List.append_of_mem hxm
    have hp' : hs.Perm ((as ++ bs).map fun x => .int (E.hash x.k)) := by
      rw [List.map_append, List.map_cons] at hp
      rw [List.map_append]
      exact List.Perm.cons_inv (hp.trans List.perm_middle)
    rw [List.pairwise_append, List.pairwise_cons] at hh hd
    obtain ⟨zs, hz, h2⟩ := ih (as ++ bs) (ys ++ [x]) hp' (fun z hz => hx z (by simp at hz ⊢; tauto))
      (List.pairwise_append.2 ⟨hh.1, hh.2.1.2, fun a ha b hb => hh.2.2 a ha b (List.mem_cons_of_mem _ hb)⟩)
      (List.pairwise_append.2 ⟨hd.1, hd.2.1.2, fun a ha b hb => hd.2.2 a ha b (List.mem_cons_of_mem _ hb)⟩)
      (by
        intro y hy'
        rcases List.mem_append.1 hy' with hy' | hy'
        · exact ⟨(hy y hy').1, fun z hz => (hy y hy').2 z (by simp at hz ⊢; tauto)⟩
        · rw [List.mem_singleton] at hy'
          subst hy'
          refine ⟨(hx _ hxm).comp, fun z hz => ?_⟩
          rcases List.mem_append.1 hz with hz | hz
          · exact (hd.2.2 z hz _ List.mem_cons_self).2
          · exact (hd.2.1.1 z hz).1)
    refine ⟨x :: zs, (List.Perm.cons x hz).trans List.perm_middle.symm, ?_⟩
    rw [unhashLoop, Core.bind_ok]
    refine ⟨_, unhashKey_ok (hx x hxm) (fun y hy => hh.2.2 y hy x List.mem_cons_self)
      (fun y hy' => ⟨(hy y hy').1, (hy y hy').2 x hxm⟩), ?_⟩
    rw [h2]
    simp

theorem composite_comm {a b : Val} (ha : Composite a) (h : pyEq a b = false) : pyEq b a = false := by
  have : ∀ a b : Val, (a == b) = false → (b == a) = false := by
    intro a b h
    rw [beq_eq_false_iff_ne] at h ⊢
    exact h.symm
  rcases ha with ⟨_, rfl⟩ | ⟨_, rfl⟩ | ⟨_, _, rfl⟩ | ⟨_, _, rfl⟩ | ⟨re, im, rfl, him⟩
  · cases b <;> simp only [pyEq] at h ⊢ <;> exact this _ _ h
  · cases b <;> simp only [pyEq] at h ⊢ <;> exact this _ _ h
  · cases b <;> simp only [pyEq] at h ⊢ <;> exact this _ _ h
  · cases b <;> simp only [pyEq] at h ⊢ <;> exact this _ _ h
  · cases b with
    | atom b =>
      have hn : (Atom.complex re im).num? = none := by simp [Atom.num?, him]
      have key : ∀ a b : Atom, (a == b) = false → (b == a) = false := by
        intro a b h
        rw [beq_eq_false_iff_ne] at h ⊢
        exact h.symm
      cases b <;> simp only [pyEq, hn] at h ⊢ <;>
        first | exact key _ _ h | (cases hx : Atom.num? _ <;> simp only at h ⊢ <;> exact key _ _ h)
    | _ => simp only [pyEq] at h ⊢; exact this _ _ h

/-- The keys and values of a dict with their dumps and what is loaded from these. -/
structure Entry (E : LEnv) (fork N : Nat) (x : Bool) (K V : Ty) (e : Val × Val) (r : Val) : Prop where
  comp : Composite e.1
  hasTy : HasTy E direct true e.1 K
  hashable : e.1.hashable E.info = true
  key : Rt E direct fork true K N e.1 e.1
  value : Rt E direct fork x V N e.2 r

theorem Entry.mono {N M : Nat} {x : Bool} {K V : Ty} {e : Val × Val} {r : Val}
    (h : Entry E fork N x K V e r) (hm : N ≤ M) : Entry E fork M x K V e r :=
  ⟨h.comp, h.hasTy, h.hashable, h.key.mono hm, h.value.mono hm⟩

/-- C46 for dicts with different hashes for different keys: a dict of which all keys are
tuples, frozensets, objects, named tuples or complex numbers with an imaginary part is dumped to the dict of the dumped values under the
hashes of the keys, with the dumped keys under these hashes in the section `-keys`; and
loading this with the type `Dict[K, V]` gives the same entries again, in whatever order
the set of the stored keys is gone through.
What is missing: keys with equal hashes, for which it is false (`hashed_keys_collide`);
mixed dicts and `complex` keys without imaginary part, for which it is false, too
(`hashed_keys_mixed`, `hashed_keys_complex`); key transformers (`hashed_keys_transformer`). -/
theorem hashed_keys_partial (E : LEnv) (fork : Nat) (K V : Ty) (g : Gen) (es : List (Val × Val)) (x : Bool)
    (hs : DefaultSers E.toEnv fork) (hd : DefaultDesers E fork) (hv : NoValidators E fork)
    (hg : g = .dict ∨ g = .mapping) (hne : es ≠ [])
    (hkeys : ∀ e ∈ es, Composite e.1 ∧ HasTy E direct true e.1 K ∧ e.1.hashable E.info = true)
    (hvals : ∀ e ∈ es, HasTy E direct x e.2 V)
    (hdist : es.Pairwise fun a b => pyEq a.1 b.1 = false)
    (hhash : es.Pairwise fun a b => E.hash a.1 ≠ E.hash b.1) :
    ∃ N gs, List.Forall₂ (fun e f => e.1 = f.1 ∧ Same e.2 f.2 ∧ (x = true → e.2 = f.2)) es gs ∧
      ∀ n, N ≤ n → ∀ kw, DumpNeutral fork kw →
      ∀ cls, cls = none ∨ cls = some (.gen g [K, V]) →
        ∃ ds, List.Forall₂ (fun e d => (dump E.toEnv n e.1 none kw).val = .ok d.1 ∧
            (dump E.toEnv n e.2 none { kw with types := [] }).val = .ok d.2) es ds ∧
          (dump E.toEnv (n + 2) (.dict es) cls kw).val = .ok (hashedDict E.hash es ds) ∧
          ∀ m, N ≤ m → ∀ kw', LoadNeutral fork kw' → ∃ fs, fs.Perm gs ∧
            (load E (m + 1) (hashedDict E.hash es ds) (some (.gen g [K, V])) kw').val = .ok (.dict fs) := by
  have hent : ∀ e ∈ es, ∃ N r, Entry E fork N x K V e r := by
    intro e he
    obtain ⟨h1, h2, h3⟩ := hkeys e he
    obtain ⟨N1, r1, hr1⟩ := rt_all (direct_lawful hd hv) hs hd hv h2
    obtain ⟨N2, r2, hr2⟩ := rt_all (direct_lawful hd hv) hs hd hv (hvals e he)
    obtain rfl := hr1.eq rfl
    exact ⟨max N1 N2, r2, h1, h2, h3, hr1.mono (by omega), hr2.mono (by omega)⟩
  obtain ⟨N, rs, hrs⟩ := gather (P := fun (e : Val × Val) N r => Entry E fork N x K V e r)
    (fun _ _ _ _ hm hr => hr.mono hm) es hent
  obtain ⟨gs, hgs⟩ := forall₂_key hrs
  refine ⟨N + 2, gs, hgs.imp fun e f h => ⟨h.1, h.2.value.same, fun hx => (h.2.value.eq hx).symm⟩, ?_⟩
  intro n hn kw hk cls hcls
  obtain ⟨n, rfl⟩ : ∃ m, n = m + 2 := ⟨n - 2, by omega⟩
  have hitems : ∃ xs : List Item, es = xs.map (fun x => (x.k, x.v)) ∧ gs = xs.map (fun x => (x.k, x.rv)) ∧
      ∀ i ∈ xs, Dumps E.toEnv (recOf E.toEnv (n + 2)) kw i ∧ Loads E fork K N i.dk i.k ∧
        Loads E fork V N i.dv i.rv ∧ i.k.hashable E.info = true := by
    clear hkeys hvals hdist hhash hent hrs hne
    induction hgs with
    | nil => exact ⟨[], rfl, rfl, by simp⟩
    | @cons e f es gs h _ ih =>
      obtain ⟨xs, rfl, rfl, hxs⟩ := ih
      obtain ⟨h1, h2⟩ := h
      obtain ⟨dk, hdk, hlk⟩ := h2.key.dump (n + 2) (by omega) kw hk none (.inl rfl)
      obtain ⟨dv, hdv, hlv⟩ := h2.value.dump (n + 2) (by omega) _ hk.noTypes none (.inl rfl)
      refine ⟨⟨e.1, e.2, dk, dv, f.2⟩ :: xs, rfl, by rw [List.map_cons]; congr 1; exact Prod.ext h1.symm rfl, ?_⟩
      intro i hi
      rcases List.mem_cons.1 hi with rfl | hi
      · exact ⟨⟨h2.comp, composite_not_json h2.comp h2.hasTy, hdk,
          composite_dump hs hk.fork h2.comp h2.hasTy hdk, hdv⟩, hlk.loads _ rfl, hlv.loads _ rfl, h2.hashable⟩
      · exact hxs i hi
  obtain ⟨xs, rfl, rfl, hxs⟩ := hitems
  clear hgs hrs hent hkeys hvals
  rw [List.pairwise_map] at hdist hhash
  have hzip : ∀ ys : List Item, hashedDict E.hash (ys.map fun x => (x.k, x.v)) (ys.map fun x => (x.dk, x.dv))
      = .dict (hashed E.hash ys) := by
    intro ys
    rw [hashedDict, List.zip_map']
    simp only [List.map_map]
    rfl
  refine ⟨xs.map fun x => (x.dk, x.dv), ?_, ?_, ?_⟩
  · rw [List.forall₂_map_left_iff, List.forall₂_map_right_iff, List.forall₂_same]
    exact fun i hi => ⟨(hxs i hi).1.key, (hxs i hi).1.value⟩
  · rw [hzip, dump_via (f := .dict) (by rw [hk.fork]; exact hs) (by
      rcases hcls with rfl | rfl
      · rfl
      · rcases hg with rfl | rfl <;> rfl)]
    show (dictSer _ _ _ _).val = _
    simp only [dictSer]
    rw [Core.bind_ok]
    refine ⟨_, dictLoop_hashed hk xs [] (fun i hi => (hxs i hi).1) hhash (by simp), ?_⟩
    cases xs with
    | nil => exact absurd rfl hne
    | cons x xs => rfl
  · intro m hm kw' hk'
    rw [hzip]
    have hmeta : NoMeta (.dict (hashed E.hash xs)) := by
      intro es' h
      cases h
      refine dictGet_absent ?_
      intro e he
      rcases List.mem_cons.1 he with rfl | he
      · show Val.str keysKey ≠ .str metaKey
        decide
      · obtain ⟨y, _, rfl⟩ := List.mem_map.1 he
        intro h; cases h
    have hkk : LoadNeutral fork (kwOf kw' none) := by
      refine ⟨hk'.fork, hk'.getters, hk'.keys, ?_, hk'.warn, hk'.enums⟩
      simpa [kwOf] using hk'.hints
    obtain ⟨zs, hz, hloop⟩ := unhashLoop_ok (E := E) (rec := load E m) (K := K) (kw := kwOf kw' none)
      (E.setOrder (xs.map fun x => .int (E.hash x.k))) xs [] (E.setOrder_perm _)
      (fun i hi => ⟨(hxs i hi).1.comp, (hxs i hi).2.2.2, (hxs i hi).2.1.load m (by omega) _ hkk⟩) hhash
      (hdist.imp_of_mem fun {a b} ha _ h => ⟨h, composite_comm (hxs a ha).1.comp h⟩) (by simp)
    refine ⟨zs.map fun x => (x.k, x.rv), hz.map _, ?_⟩
    have hf : (Ty.gen g [K, V]).desFn E.info = some .mapping := by rcases hg with rfl | rfl <;> rfl
    rw [(load_via (n := m) (v := .dict (hashed E.hash xs)) (t := .gen g [K, V]) (kw := kw')
      (fun h => by cases h) gen_not_skip (by simp [Val.cls, validTypes]) (noMeta_get hmeta _) (.inr rfl)
      (by rw [hk'.fork]; exact hd) hf (by rw [hk'.fork]; exact hv _)).1, wrapRes_ok]
    show (mappingDes _ _ _ _ _).val = _
    unfold mappingDes
    rw [Core.bind_ok]
    refine ⟨_, ?_, rfl⟩
    unfold dictDes
    rw [Core.bind_ok]
    refine ⟨(zs.map fun x => (x.k, x.dv), true), ?_, ?_⟩
    · have hg1 : dictGet (hashed E.hash xs) (.str keysKey)
          = some (.dict (xs.map fun x => (.int (E.hash x.k), x.dk))) := dictGet_at (es := []) (by simp)
      have hg2 : (Val.dict (xs.map fun x => (.int (E.hash x.k), x.dk))).iter
          = some (xs.map fun x => .int (E.hash x.k)) := by simp [Val.iter]
      have hstart : hashed E.hash xs = restored E.hash xs [] := by simp [hashed, restored]
      have hend : dictDel (restored E.hash [] ([] ++ zs)) (.str keysKey) = zs.map fun x => (x.k, x.dv) := by
        exact dictDel_at (es := []) (by simp)
      have hargs : (Ty.gen g [K, V]).getArgs = [K, V] := rfl
      simp only [loadHashedKeys, hg1, hg2, hargs]
      cases xs with
      | nil => exact absurd rfl hne
      | cons y ys =>
        simp only [List.map_cons] at hloop ⊢
        rw [Core.bind_ok]
        refine ⟨_, by rw [hstart]; exact hloop, ?_⟩
        rw [hend]
        rfl
    · have hargs : (Ty.gen g [K, V]).getArgs = [K, V] := rfl
      simp only [hargs, if_true]
      rw [dictComp_ok]
      refine ⟨zs.map fun x => (x.k, x.rv), ?_, ?_⟩
      · rw [List.forall₂_map_left_iff, List.forall₂_map_right_iff, List.forall₂_same]
        intro i hi
        have hi' := hz.mem_iff.1 hi
        refine ⟨?_, (hxs i hi').2.2.1.load m (by omega) _ hkk.idKeys, (hxs i hi').2.2.2⟩
        rw [lift_val]
        exact hk'.keys _
      · refine (entries_distinct ?_).symm
        rw [List.pairwise_map]
        have hboth : xs.Pairwise fun a b => pyEq a.k b.k = false ∧ pyEq b.k a.k = false :=
          hdist.imp_of_mem fun {a b} ha _ h => ⟨h, composite_comm (hxs a ha).1.comp h⟩
        exact ((hz.pairwise_iff fun {a b} h => ⟨h.2, h.1⟩).2 hboth).imp fun h => h.1

/-! ## Where it fails -/

/-- C46 is false if two keys have the same hash: `{(-1,): 'a', (-2,): 'b'}` (where this is
so in CPython) loses an entry. -/
theorem hashed_keys_collide :
    (dump (demoEnv demoInfo) 9 (.dict [(.tuple [.int (-1)], .str ['a']), (.tuple [.int (-2)], .str ['b'])])
      none {}).val = .ok (.dict [(.str keysKey, .dict [(.int 7, .list [.int (-2)])]), (.int 7, .str ['b'])]) ∧
    (load (demoLEnv demoInfo) 9 (.dict [(.str keysKey, .dict [(.int 7, .list [.int (-2)])]), (.int 7, .str ['b'])])
      (some (.gen .dict [.gen .tuple [.cls .int], .cls .str])) {}).val
        = .ok (.dict [(.tuple [.int (-2)], .str ['b'])]) := by
  refine ⟨by rfl, by rfl⟩

/-- C46 is false for `complex` keys without an imaginary part: `7 + 0j` is equal to its
hash `7`, so that the entry is deleted together with the hash. -/
theorem hashed_keys_complex :
    (demoEnv demoInfo).hash (.atom (.complex 7 0)) = 7 ∧
    (dump (demoEnv demoInfo) 9 (.dict [(.atom (.complex 7 0), .str ['a'])]) none {}).val
      = .ok (.dict [(.str keysKey, .dict [(.int 7, .dict [(.str "real".toList, .float 7),
          (.str "imag".toList, .float 0)])]), (.int 7, .str ['a'])]) ∧
    (load (demoLEnv demoInfo) 9 (.dict [(.str keysKey, .dict [(.int 7, .dict [(.str "real".toList, .float 7),
          (.str "imag".toList, .float 0)])]), (.int 7, .str ['a'])])
      (some (.gen .dict [.cls .complex, .cls .str])) {}).val = .ok (.dict []) := by
  refine ⟨rfl, by rfl, by decide +kernel⟩

theorem dictLoop_transformer (hs : DefaultSers E.toEnv fork) {K : Ty} {n : Nat} {kw : DumpKw}
    {f : PyStr → Except Err PyStr} (hf : kw.fork = fork) (hk : kw.keyTransformer = some f)
    (hn : kw.stripNulls = false) {k v : Val} (hc : Composite k) (ht : HasTy E direct true k K) :
    ∀ (es acc : List (Val × Val)), (k, v) ∈ es → ∀ r,
      (dictLoop E.toEnv (recOf E.toEnv (n + 2)) kw es acc).val ≠ .ok r := by
  intro es
  induction es with
  | nil => intro acc h; cases h
  | cons e es ih =>
    obtain ⟨k', v'⟩ := e
    intro acc hm r hr
    unfold dictLoop at hr
    rw [Core.bind_ok] at hr
    obtain ⟨⟨acc', k2⟩, h1, hr⟩ := hr
    rw [Core.bind_ok] at hr
    obtain ⟨d, _, hr⟩ := hr
    rw [Core.bind_ok] at hr
    obtain ⟨acc2, h3, hr⟩ := hr
    rcases List.mem_cons.1 hm with hm | hm
    · cases hm
      unfold storeAndHash at h1
      rw [composite_not_json hc ht] at h1
      simp only [Bool.false_eq_true, if_false] at h1
      rw [Core.bind_ok] at h1
      obtain ⟨dk, hdk, h1⟩ := h1
      rw [composite_dump hs hf hc ht hdk] at h1
      simp only [Bool.false_eq_true, if_false] at h1
      have hk2 : k2 = .int (E.hash k) := by
        cases hg : dictGet acc (.str keysKey) with
        | none => simp only [hg] at h1; cases h1; rfl
        | some w =>
          cases w with
          | dict ks => simp only [hg] at h1; cases h1; rfl
          | _ => simp only [hg] at h1; cases h1
      subst hk2
      unfold addDumped at h3
      simp only [hn, Bool.false_and, Bool.false_eq_true, if_false, hk, transformKey] at h3
      cases h3
    · exact ih acc2 hm r hr

/-- C46 is false with a key transformer: it is applied to the hashes, which are no texts,
so that no dict with such a key can be dumped. -/
theorem hashed_keys_transformer (E : LEnv) (fork : Nat) (K : Ty) (es : List (Val × Val)) (k v : Val)
    (n : Nat) (kw : DumpKw) (f : PyStr → Except Err PyStr) (hs : DefaultSers E.toEnv fork) (hf : kw.fork = fork)
    (hk : kw.keyTransformer = some f) (hn : kw.stripNulls = false) (hc : Composite k)
    (ht : HasTy E direct true k K) (hm : (k, v) ∈ es) (r : Val) :
    (dump E.toEnv (n + 4) (.dict es) none kw).val ≠ .ok r := by
  intro hr
  rw [dump_via (n := n + 2) (f := .dict) (by rw [hf]; exact hs) rfl] at hr
  replace hr : (dictSer E.toEnv (recOf E.toEnv (n + 2)) (.dict es) kw).val = .ok r := hr
  unfold dictSer at hr
  rw [Core.bind_ok] at hr
  obtain ⟨_, h, _⟩ := hr
  exact dictLoop_transformer hs hf hk hn hc ht es [] hm _ h

/-- C46 is false for mixed dicts: as soon as one key is hashed, the others are not loaded.
The key of `{date(2020, 1, 1): 'a', (1,): 'b'}` as `Dict[Union[date, Tuple[int]], str]`
comes back as a text. -/
theorem hashed_keys_mixed :
    (dump (demoEnv demoInfo) 9 (.dict [(.atom (.date ⟨2020, 1, 1⟩), .str ['a']), (.tuple [.int 1], .str ['b'])])
      none {}).val = .ok (.dict [(.str "2020-01-01".toList, .str ['a']),
        (.str keysKey, .dict [(.int 7, .list [.int 1])]), (.int 7, .str ['b'])]) ∧
    (load (demoLEnv demoInfo) 9 (.dict [(.str "2020-01-01".toList, .str ['a']),
        (.str keysKey, .dict [(.int 7, .list [.int 1])]), (.int 7, .str ['b'])])
      (some (.gen .dict [.union [.cls .date, .gen .tuple [.cls .int]], .cls .str])) {}).val
        = .ok (.dict [(.str "2020-01-01".toList, .str ['a']), (.tuple [.int 1], .str ['b'])]) := by
  refine ⟨by rfl, by rfl⟩

/-! ## An example -/

/-- Surroundings in which `(n,)` has the hash `n`, and sets are gone through backwards. -/
def hashEnv : LEnv := { demoLEnv demoInfo with
  hash := fun v => match v with
    | .tuple [.int n] => n
    | _ => 0
  setOrder := List.reverse
  setOrder_perm := fun xs => xs.reverse_perm }

/-- Surroundings with the named tuple `Tri` in which its hash is the first field. -/
def triHashEnv : LEnv := { demoLEnv triInfo with
  hash := fun v => match v with
    | .ntuple _ (.atom (.int n) :: _) => n
    | _ => 0 }

/-- `{Tri(1, 'b', None): 1, 1j: 2}` as a `Dict[Union[Tri, complex], int]` has such keys. -/
example : Composite (.ntuple 0 [.int 1, .str ['b'], .none]) ∧ Composite (.atom (.complex 0 1)) ∧
    HasTy triHashEnv direct true (.ntuple 0 [.int 1, .str ['b'], .none]) (.cls (.user 0)) ∧
    (Val.ntuple 0 [.int 1, .str ['b'], .none]).hashable triHashEnv.info = true := by
  refine ⟨.inr (.inr (.inr (.inl ⟨_, _, rfl⟩))), .inr (.inr (.inr (.inr ⟨_, _, rfl, by simp⟩))), ?_, rfl⟩
  have hz : (triHashEnv.info 0).fields.zip [Val.int 1, .str ['b'], .none] =
    [("first".toList, .int 1), ("second".toList, .str ['b']), ("third".toList, .none)] := rfl
  refine .ntuple ⟨tri_hinted.kind, tri_hinted.annotated, tri_hinted.distinct, tri_hinted.names, tri_hinted.hints⟩
    rfl ?_ ?_
  · intro p hp t ht h
    rw [hz] at hp
    simp only [List.mem_cons, List.not_mem_nil, or_false] at hp
    rcases hp with rfl | rfl | rfl
    · cases h
    · cases h
    · cases ht; decide
  · intro p hp t ht
    rw [hz] at hp
    simp only [List.mem_cons, List.not_mem_nil, or_false] at hp
    rcases hp with rfl | rfl | rfl <;> cases ht
    · exact .int _
    · exact .str _
    · exact .optNone (by intro h; cases h) id

/-- `{(1,): 'a', (2,): 'b'}` as a `Dict[Tuple[int], str]`. -/
example : ∃ n j, (dump hashEnv.toEnv n
      (.dict [(.tuple [.int 1], .str ['a']), (.tuple [.int 2], .str ['b'])]) none {}).val = .ok j ∧
    ∃ m fs, (load hashEnv m j (some (.gen .dict [.gen .tuple [.cls .int], .cls .str])) {}).val = .ok (.dict fs) ∧
      List.Perm fs [(Val.tuple [.int 1], Val.str ['a']), (.tuple [.int 2], .str ['b'])] := by
  have htup : ∀ n, Composite (.tuple [.int n]) ∧
      HasTy hashEnv direct true (.tuple [.int n]) (.gen .tuple [.cls .int]) ∧
      (Val.tuple [.int n]).hashable hashEnv.info = true := by
    intro n
    refine ⟨.inl ⟨_, rfl⟩, .tuple (by simp) ?_, rfl⟩
    intro p hp
    simp only [List.zip_cons_cons, List.zip_nil_right, List.mem_singleton] at hp
    subst hp
    exact .int n
  obtain ⟨N, gs, h1, h2⟩ := hashed_keys_partial hashEnv 0 (.gen .tuple [.cls .int]) (.cls .str) .dict
    [(.tuple [.int 1], .str ['a']), (.tuple [.int 2], .str ['b'])] true (demo_sers 0) (demo_desers 0)
    (demo_novals 0) (.inl rfl) (by simp)
    (by
      intro e he
      simp only [List.mem_cons, List.not_mem_nil, or_false] at he
      rcases he with rfl | rfl <;> exact htup _)
    (by
      intro e he
      simp only [List.mem_cons, List.not_mem_nil, or_false] at he
      rcases he with rfl | rfl <;> exact .str _)
    (by simp only [List.pairwise_cons]; decide) (by simp only [List.pairwise_cons]; decide)
  obtain ⟨ds, _, h4, h5⟩ := h2 N (Nat.le_refl _) {} ⟨rfl, rfl, rfl, rfl, rfl, rfl, rfl, rfl, rfl, rfl, rfl⟩
    none (.inl rfl)
  obtain ⟨fs, h6, h7⟩ := h5 N (Nat.le_refl _) {} ⟨rfl, rfl, fun _ => rfl, rfl, rfl, by simp⟩
  refine ⟨N + 2, _, h4, N + 1, fs, h7, ?_⟩
  rw [forall₂_eq h1 fun e f h => Prod.ext h.1.symm (h.2.2 rfl).symm] at h6
  exact h6

/-- `{(1,): 'a'}` with a key transformer that changes nothing. -/
example (r : Val) : (dump hashEnv.toEnv 9 (.dict [(.tuple [.int 1], .str ['a'])]) none
    { keyTransformer := some .ok }).val ≠ .ok r := by
  refine hashed_keys_transformer hashEnv 0 (.gen .tuple [.cls .int]) _ (.tuple [.int 1]) (.str ['a']) 5 _ _
    (demo_sers 0) rfl rfl rfl (.inl ⟨_, rfl⟩) (.tuple (by simp) ?_) (by simp) r
  intro p hp
  simp only [List.zip_cons_cons, List.zip_nil_right, List.mem_singleton] at hp
  subst hp
  exact .int 1

end Verif.Props.HashedKeys
