import Verif.Props.Hidden

/-! # The order in which attributes were set does not matter to `dump` (C95) -/

set_option autoImplicit false

namespace Verif.Props.AttrOrder

open Verif Verif.Core
open Verif.Props.Hidden (Alike Discreet Met Undistinguished hidden_stays_hidden_partial demo_discreet)

/-- The second value is the first one, but the attributes of objects, at any depth, were set in
another order. -/
inductive Shuffled : Val → Val → Prop where
  | atom (a : Atom) : Shuffled (.atom a) (.atom a)
  | enum (c : Nat) (m : PyStr) : Shuffled (.enum c m) (.enum c m)
  | seq (k : SeqKind) {xs ys : List Val} (h : List.Forall₂ Shuffled xs ys) : Shuffled (.seq k xs) (.seq k ys)
  | ntuple (c : Nat) {xs ys : List Val} (h : List.Forall₂ Shuffled xs ys) :
      Shuffled (.ntuple c xs) (.ntuple c ys)
  | dict {es gs : List (Val × Val)} (hk : es.map (·.1) = gs.map (·.1))
      (h : List.Forall₂ Shuffled (es.map (·.2)) (gs.map (·.2))) : Shuffled (.dict es) (.dict gs)
  | ddict (f : Option Ty) {es gs : List (Val × Val)} (hk : es.map (·.1) = gs.map (·.1))
      (h : List.Forall₂ Shuffled (es.map (·.2)) (gs.map (·.2))) : Shuffled (.ddict f es) (.ddict f gs)
  | obj (c : Nat) {as bs cs : List (PyStr × Val)} (hn : (as.map (·.1)).Nodup)
      (hk : as.map (·.1) = bs.map (·.1)) (h : List.Forall₂ Shuffled (as.map (·.2)) (bs.map (·.2)))
      (hp : bs.Perm cs) : Shuffled (.obj c as) (.obj c cs)

/-- Nothing is hidden. -/
def Nothing (_ : Nat) (_ : PyStr) : Prop := False

/-! ## Lemmas -/

theorem assoc_isSome {l : List (PyStr × Val)} {n : PyStr} : (assoc l n).isSome = true ↔ n ∈ l.map (·.1) := by
  induction l with
  | nil => simp [assoc]
  | cons p l ih =>
    obtain ⟨m, x⟩ := p
    simp only [assoc, List.map_cons, List.mem_cons]
    split
    · next h => simp [h]
    · next h => rw [ih]; exact ⟨.inr, fun h' => h'.resolve_left fun e => h e.symm⟩

theorem assoc_of_mem {l : List (PyStr × Val)} (hn : (l.map (·.1)).Nodup) {n : PyStr} {x : Val} (h : (n, x) ∈ l) :
    assoc l n = some x := by
  induction l with
  | nil => cases h
  | cons p l ih =>
    obtain ⟨m, y⟩ := p
    rw [List.map_cons, List.nodup_cons] at hn
    simp only [assoc]
    rcases List.mem_cons.1 h with h | h
    · cases h; rw [if_pos rfl]
    · rw [if_neg, ih hn.2 h]
      rintro rfl
      exact hn.1 (List.mem_map.2 ⟨_, h, rfl⟩)

/-- The attributes can be looked up in any order. -/
theorem assoc_perm {as bs : List (PyStr × Val)} (hp : as.Perm bs) (hn : (as.map (·.1)).Nodup) (n : PyStr) :
    assoc as n = assoc bs n := by
  cases ha : assoc as n with
  | some x => exact (assoc_of_mem ((hp.map _).nodup_iff.1 hn) (hp.mem_iff.1 (Hidden.assoc_mem ha))).symm
  | none =>
    cases hb : assoc bs n with
    | none => rfl
    | some x => rw [assoc_of_mem hn (hp.mem_iff.2 (Hidden.assoc_mem hb))] at ha; cases ha

theorem assoc_forall₂ {R : Val → Val → Prop} {as bs : List (PyStr × Val)} (hk : as.map (·.1) = bs.map (·.1))
    (h : List.Forall₂ R (as.map (·.2)) (bs.map (·.2))) (n : PyStr) (a b : Val) (ha : assoc as n = some a)
    (hb : assoc bs n = some b) : R a b := by
  induction as generalizing bs with
  | nil => cases ha
  | cons p as ih =>
    cases bs with
    | nil => cases hb
    | cons q bs =>
      obtain ⟨m, x⟩ := p
      obtain ⟨m', y⟩ := q
      simp only [List.map_cons, List.cons.injEq] at hk
      obtain ⟨rfl, hk⟩ := hk
      simp only [List.map_cons] at h
      cases h with
      | cons h1 h2 =>
        simp only [assoc] at ha hb
        split at ha
        · next e => rw [if_pos e] at hb; cases ha; cases hb; exact h1
        · next e => rw [if_neg e] at hb; exact ih hk h2 ha hb

theorem forall₂_imp {R S : Val → Val → Prop} {xs ys : List Val} (h : List.Forall₂ R xs ys)
    (hi : ∀ x ∈ xs, ∀ y, R x y → S x y) : List.Forall₂ S xs ys := by
  induction h with
  | nil => exact .nil
  | cons h _ ih =>
    exact .cons (hi _ List.mem_cons_self _ h) (ih fun x hx => hi x (List.mem_cons_of_mem _ hx))

theorem Shuffled.alike {v w : Val} (h : Shuffled v w) : Alike Nothing v w := by
  match v, w, h with
  | _, _, .atom a => exact .atom a
  | _, _, .enum c m => exact .enum c m
  | .seq _ xs, _, .seq k h => exact .seq k (forall₂_imp h fun x hx y hxy => hxy.alike)
  | .ntuple _ xs, _, .ntuple c h => exact .ntuple c (forall₂_imp h fun x hx y hxy => hxy.alike)
  | .dict es, _, .dict hk h =>
    refine .dict hk (forall₂_imp h fun x hx y hxy => ?_)
    have : sizeOf x < 1 + sizeOf es := by
      obtain ⟨e, he, rfl⟩ := List.mem_map.1 hx
      have := List.sizeOf_lt_of_mem he
      obtain ⟨a, b⟩ := e
      simp only [Prod.mk.sizeOf_spec] at this ⊢
      omega
    exact hxy.alike
  | .ddict _ es, _, .ddict f hk h =>
    refine .ddict f hk (forall₂_imp h fun x hx y hxy => ?_)
    have : sizeOf x < 1 + sizeOf f + sizeOf es := by
      obtain ⟨e, he, rfl⟩ := List.mem_map.1 hx
      have := List.sizeOf_lt_of_mem he
      obtain ⟨a, b⟩ := e
      simp only [Prod.mk.sizeOf_spec] at this ⊢
      omega
    exact hxy.alike
  | .obj _ as, _, .obj c (bs := bs) hn hk h hp =>
    have hp' := assoc_perm hp (by rw [← hk]; exact hn)
    refine .obj c (fun n _ => ?_) fun n a b _ ha hb => ?_
    · rw [← hp' n, Bool.eq_iff_iff, assoc_isSome, assoc_isSome, hk]
    · rw [← hp' n] at hb
      have : sizeOf a < 1 + sizeOf c + sizeOf as := by
        have := List.sizeOf_lt_of_mem (Hidden.assoc_mem ha)
        simp only [Prod.mk.sizeOf_spec] at this
        omega
      have hx := assoc_forall₂ (R := fun x y => Shuffled x y) hk h n a b ha hb
      exact hx.alike
termination_by sizeOf v
decreasing_by
  all_goals simp only [Val.seq.sizeOf_spec, Val.ntuple.sizeOf_spec, Val.dict.sizeOf_spec,
    Val.ddict.sizeOf_spec, Val.obj.sizeOf_spec]
  all_goals first | omega | (have := List.sizeOf_lt_of_mem hx; omega)

/-! ## The property -/

/-- C95 (partial): two values that differ only in the order in which the attributes of objects in
them were set cannot be told apart by what `dump` does with them: it gives the same result, raises
the same exception and emits the same warnings; in any mode, with any options and serializers, and
however deep the stack is.  It is needed that the functions of the program - properties, `__str__`,
serializers - do not look at the order.  Missing: keys of dicts have to be the same. -/
theorem attribute_order_free_partial (E : Env) (n : Nat) (v w : Val) (cls : Option Ty) (kw : DumpKw)
    (hD : Discreet E Nothing (fun _ => True) kw.fork kw.strict) (h : Shuffled v w) :
    Undistinguished (dump E n v cls kw) (dump E n w cls kw) :=
  hidden_stays_hidden_partial E Nothing (fun _ => True) n v w cls kw (fun _ _ h => h.elim) hD
    ⟨fun _ _ _ _ => trivial, fun _ _ _ _ _ => trivial, fun _ _ _ => trivial,
      fun _ _ => ⟨trivial, trivial, trivial⟩, fun _ _ _ _ _ _ _ _ h => h⟩
    (fun _ _ => trivial) (fun _ _ => trivial) h.alike

/-- C95 (partial): where `dump` makes JSON types only (C30), the dumps are equal. -/
theorem attribute_order_equal_partial (E : Env) (n : Nat) (v w : Val) (cls : Option Ty) (kw : DumpKw)
    (hD : Discreet E Nothing (fun _ => True) kw.fork kw.strict)
    (hds : DefaultSers E kw.fork) (hkind : ∀ x, Reachable E v x → RightKind E x)
    (hraw : Props.DumpShape.RawOk E v kw.useEnumName (Json E.info)) (hst : kw.storeCls = false)
    (h : Shuffled v w) : dump E n v cls kw = dump E n w cls kw := by
  have hu := attribute_order_free_partial E n v w cls kw hD h
  refine Core.res_ext hu.log ?_
  cases hr : (dump E n v cls kw).val with
  | error e => exact ((hu.error e).1 hr).symm
  | ok r =>
    have hj := Props.DumpShape.dump_json_partial E n v cls kw r hds hkind hraw hst hr
    exact ((hu.ok r (Hidden.json_noObj hj)).1 hr).symm

/-! ## Examples and negations -/

/-- A person in a list in an attribute of a person. -/
def one : Val :=
  .obj 5 [("name".toList, .str "Ann".toList),
    ("born".toList, .list [.obj 5 [("name".toList, .str "Bob".toList), ("born".toList, .int 3)]])]

/-- The same, with the attributes of both in the other order. -/
def other : Val :=
  .obj 5 [("born".toList, .list [.obj 5 [("born".toList, .int 3), ("name".toList, .str "Bob".toList)]]),
    ("name".toList, .str "Ann".toList)]

theorem one_other : Shuffled one other := by
  refine .obj 5 (bs := [("name".toList, .str "Ann".toList), ("born".toList,
    .list [.obj 5 [("born".toList, .int 3), ("name".toList, .str "Bob".toList)]])]) (by decide) rfl ?_ (.swap _ _ _)
  refine .cons (.atom _) (.cons (.seq _ (.cons ?_ .nil)) .nil)
  exact .obj 5 (bs := [("name".toList, .str "Bob".toList), ("born".toList, .int 3)]) (by decide) rfl
    (.cons (.atom _) (.cons (.atom _) .nil)) (.swap _ _ _)

/-- The theorem holds of them; they are not the same value. -/
example : one ≠ other ∧ Undistinguished (dump (demoEnv demoInfo) 9 one none { strict := true })
    (dump (demoEnv demoInfo) 9 other none { strict := true }) :=
  ⟨by decide, attribute_order_free_partial _ 9 one other none _ (demo_discreet _ _ _ _) one_other⟩

/-- The dump is that of the attributes in alphabetical order. -/
example : (dump (demoEnv demoInfo) 9 other none {}).val = .ok (.dict
    [(.str "born".toList, .list [.dict [(.str "born".toList, .int 3), (.str "name".toList, .str "Bob".toList)]]),
      (.str "name".toList, .str "Ann".toList)]) := by rfl

/-- The property `me` of `Node` gives the name of the attribute that was set first. -/
def varsEnv : Env :=
  { demoEnv demoInfo with
    prop := fun _ _ v => match v with
      | .obj _ ((n, _) :: _) => .ok (.str n)
      | v => .ok v }

/-- C95 fails if a function of the program looks at the order, as a property that gives the first of
`vars(self)` does. -/
theorem attribute_order_fails_property :
    Shuffled (.obj 4 [("a".toList, .int 1), ("b".toList, .int 2)]) (.obj 4 [("b".toList, .int 2), ("a".toList, .int 1)]) ∧
    (dump varsEnv 9 (.obj 4 [("a".toList, .int 1), ("b".toList, .int 2)]) none {}).val ≠
      (dump varsEnv 9 (.obj 4 [("b".toList, .int 2), ("a".toList, .int 1)]) none {}).val := by
  refine ⟨.obj 4 (by decide) rfl (.cons (.atom _) (.cons (.atom _) .nil)) (.swap _ _ _), by decide +kernel⟩

end Verif.Props.AttrOrder
