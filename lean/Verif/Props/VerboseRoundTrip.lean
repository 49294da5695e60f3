import Verif.Props.DumpVerbose
import Verif.Props.RoundTrip
import Verif.Props.LoadMeta

/-!
# C60: verbose dumps can be loaded without knowing the class
-/

set_option autoImplicit false

namespace Verif.Props.VerboseRoundTrip
open Verif Verif.Core
open Verif.Props.LoadBasics Verif.Props.LoadCollections Verif.Props.LoadObject
open Verif.Props.DumpObject (Selected stripNames hintOf attrKw object_dump_selected)
open Verif.Props.DumpVerbose Verif.Props.RoundTrip

/-! ## Specification -/

/-- `w` is what one gets from `v` by looking up the attributes of the path. -/
inductive At : Val → List PyStr → Val → Prop
  | here {v : Val} : At v [] v
  | step {c : Nat} {as : List (PyStr × Val)} {m : PyStr} {a w : Val} {p : List PyStr} :
      (m, a) ∈ as → At a p w → At (.obj c as) (m :: p) w

/-- An attribute that is not an object: it is dumped to the same thing, which is not a
dict, whether the surrounding object is dumped verbosely or not, and it is loaded from
that with the hint of the constructor. -/
structure LeafBack (E : LEnv) (fork : Nat) (kw : DumpKw) (N : Nat) (a : Val)
    (hint ihint : Option Ty) : Prop where
  noObj : ∀ c as, a ≠ .obj c as
  back : ∃ j r, (∀ es, j ≠ .dict es) ∧ Same a r ∧
    (∀ n, N ≤ n → (dump E.toEnv (n + 1) a hint (attrKw kw [])).val = .ok j ∧
      (dump E.toEnv (n + 1) a hint (innerKw kw [])).val = .ok j) ∧
    ∀ n, N ≤ n → ∀ kw' : LoadKw, LoadNeutral fork { kw' with metaHints := none } →
      (load E n j ihint kw').val = .ok r

/-- An object tree of at most the given depth: objects of classes that can be found by
their names and whose constructors store the parameters under their names; the
attributes are leaves or object trees, and their names have no slashes in them. -/
def ObjTree (E : LEnv) (fork : Nat) (kw : DumpKw) (N : Nat) : Nat → Val → Prop
  | 0, _ => False
  | d + 1, v => ∃ c as, v = .obj c as ∧ Keeps E c ∧
      E.className true (.cls (.user c)) ≠ [] ∧
      E.clsFromStr fork (E.className true (.cls (.user c))) = .ok (.cls (.user c)) ∧
      as.map (·.1) = (E.info c).params.map (·.name) ∧
      ∀ a ∈ as, '/' ∉ a.1 ∧ a.1 ≠ [] ∧ a.1 ≠ clsKey ∧
        (LeafBack E fork kw N a.2 (hintOf (E.info c) kw.strict a.1) (assoc (E.info c).initHints a.1) ∨
          ObjectHint E.toEnv (hintOf (E.info c) kw.strict a.1) ∧ ObjTree E fork kw N d a.2)

/-- If an object has two attributes that are objects, then in the tree of the one no
object has an attribute with the name of the other. -/
def Apart (v : Val) : Prop :=
  ∀ p c as, At v p (.obj c as) → ∀ m c1 as1 m' c2 as2, (m, .obj c1 as1) ∈ as →
    (m', .obj c2 as2) ∈ as → m ≠ m' → ∀ q c3 as3, At (.obj c1 as1) q (.obj c3 as3) →
    m' ∉ as3.map (·.1)

/-! ## Paths -/

theorem At.trans {u v w : Val} {p q : List PyStr} (h : At u p v) (h' : At v q w) :
    At u (p ++ q) w := by
  induction h with
  | here => exact h'
  | step h1 _ ih => exact .step h1 (ih h')

/-- The names of the attributes, on all levels. -/
def GoodNames (v : Val) : Prop :=
  ∀ p c as, At v p (.obj c as) → (as.map (·.1)).Nodup ∧ ∀ x ∈ as.map (·.1), '/' ∉ x ∧ x ≠ []

theorem GoodNames.part {v a : Val} {m : PyStr} (h : GoodNames v) (hm : At v [m] a) : GoodNames a :=
  fun p c as ha => h (m :: p) c as (hm.trans ha)

theorem Apart.part {v a : Val} {m : PyStr} (h : Apart v) (hm : At v [m] a) : Apart a :=
  fun p c as ha => h (m :: p) c as (hm.trans ha)

theorem nodup_unique {α : Type} {as : List (PyStr × α)} (hn : (as.map (·.1)).Nodup) {m : PyStr}
    {a b : α} (ha : (m, a) ∈ as) (hb : (m, b) ∈ as) : a = b := by
  have h1 := assoc_of_mem hn ha
  have h2 := assoc_of_mem hn hb
  simp only at h1 h2
  rw [h1] at h2
  exact Option.some.inj h2

theorem At.unique {v w w' : Val} {p : List PyStr} (hg : GoodNames v) (h : At v p w)
    (h' : At v p w') : w = w' := by
  induction h generalizing w' with
  | here => cases h'; rfl
  | @step c as m a w p h1 h2 ih =>
    cases h' with
    | step h1' h2' =>
      obtain rfl := nodup_unique (hg [] c as .here).1 h1 h1'
      exact ih (hg.part (.step h1 .here)) h2'

theorem metaPath_cons (x : PyStr) (q : List PyStr) :
    metaPath (x :: q) = '/' :: (x ++ if q = [] then [] else metaPath q) := by
  cases q with
  | nil => simp [metaPath]
  | cons b q => simp [metaPath]

theorem metaPath_rest (q : List PyStr) :
    (if q = [] then [] else metaPath q) = [] ∨ ∃ t, (if q = [] then [] else metaPath q) = '/' :: t := by
  cases q with
  | nil => exact .inl rfl
  | cons b q => exact .inr ⟨_, by rw [if_neg (by simp), metaPath_cons]⟩

theorem metaPath_inj {p q : List PyStr} (hp : p ≠ []) (hq : q ≠ []) (h1 : ∀ x ∈ p, '/' ∉ x)
    (h2 : ∀ x ∈ q, '/' ∉ x) (h : metaPath p = metaPath q) : p = q := by
  induction p generalizing q with
  | nil => exact absurd rfl hp
  | cons x p ih =>
    cases q with
    | nil => exact absurd rfl hq
    | cons y q =>
      rw [metaPath_cons, metaPath_cons, List.cons.injEq] at h
      replace h := h.2
      obtain ⟨rfl, h'⟩ := slash_unique (h1 x List.mem_cons_self) (h2 y List.mem_cons_self)
        (metaPath_rest p) (metaPath_rest q) h
      clear h
      have hne : ∀ q : List PyStr, metaPath q ≠ [] := by
        intro q
        cases q with
        | nil => simp [metaPath]
        | cons b q => rw [metaPath_cons]; simp
      by_cases hp' : p = []
      · subst hp'
        by_cases hq' : q = []
        · subst hq'; rfl
        · rw [if_pos rfl, if_neg hq'] at h'
          exact absurd h'.symm (hne q)
      · by_cases hq' : q = []
        · subst hq'
          rw [if_neg hp', if_pos rfl] at h'
          exact absurd h' (hne p)
        · rw [if_neg hp', if_neg hq'] at h'
          rw [ih hp' hq' (fun x hx => h1 x (List.mem_cons_of_mem _ hx))
            (fun x hx => h2 x (List.mem_cons_of_mem _ hx)) h']

theorem At.names {v w : Val} {p : List PyStr} (hg : GoodNames v) (h : At v p w) :
    ∀ x ∈ p, '/' ∉ x := by
  induction h with
  | here => simp
  | @step c as m a w p h1 h2 ih =>
    intro x hx
    rcases List.mem_cons.1 hx with rfl | hx
    · exact ((hg [] c as .here).2 _ (List.mem_map_of_mem h1)).1
    · exact ih (hg.part (.step h1 .here)) x hx

/-! ## The class names that are in force for an object -/

/-- The path leads nowhere, for all objects in the tree. -/
def Junk (v : Val) (s : PyStr) : Prop :=
  ∀ x rest, s = '/' :: (x ++ rest) → '/' ∉ x → (rest = [] ∨ ∃ t, rest = '/' :: t) →
    ∀ q c as, At v q (.obj c as) → x ∉ as.map (·.1)

/-- The class names have the paths of all objects below `v`, and junk. -/
structure Inv (E : LEnv) (H : List (Val × Val)) (v : Val) : Prop where
  listed : ∀ q c as, q ≠ [] → At v q (.obj c as) →
    (.str (metaPath q), .str (E.className true (.cls (.user c)))) ∈ H
  each : ∀ k w, (k, w) ∈ H → ∃ s, k = .str s ∧ ((∃ q c as, q ≠ [] ∧ At v q (.obj c as) ∧
    s = metaPath q ∧ w = .str (E.className true (.cls (.user c)))) ∨ Junk v s)

theorem Junk.not_path {v w : Val} {s x : PyStr} {q : List PyStr} (hg : GoodNames v)
    (hj : Junk v s) (h : At v (x :: q) w) : s ≠ metaPath (x :: q) := by
  intro e
  rw [metaPath_cons] at e
  cases h with
  | step h1 h2 =>
    exact hj x _ e ((hg [] _ _ .here).2 _ (List.mem_map_of_mem h1)).1 (metaPath_rest q) [] _ _ .here
      (List.mem_map_of_mem h1)

theorem Inv.get_obj {E : LEnv} {H : List (Val × Val)} {v : Val} (hi : Inv E H v)
    (hg : GoodNames v) {q : List PyStr} {c : Nat} {as : List (PyStr × Val)} (hq : q ≠ [])
    (h : At v q (.obj c as)) {w : Val} (hw : (.str (metaPath q), w) ∈ H) :
    w = .str (E.className true (.cls (.user c))) := by
  obtain ⟨s, hs, ⟨q', c', as', hq', ha, rfl, rfl⟩ | hj⟩ := hi.each _ _ hw
  · simp only [Val.atom.injEq, Atom.str.injEq] at hs
    obtain rfl := metaPath_inj hq hq' (h.names hg) (ha.names hg) hs
    have := At.unique hg h ha
    cases this
    rfl
  · simp only [Val.atom.injEq, Atom.str.injEq] at hs
    cases q with
    | nil => exact absurd rfl hq
    | cons x q => exact absurd hs.symm (hj.not_path hg h)

theorem Inv.obj_attr {E : LEnv} {H : List (Val × Val)} {c c1 : Nat} {as as1 : List (PyStr × Val)}
    {m : PyStr} (hi : Inv E H (.obj c as)) (hg : GoodNames (.obj c as)) (hm : (m, .obj c1 as1) ∈ as) :
    dictGet H (.str ('/' :: m)) = some (.str (E.className true (.cls (.user c1)))) := by
  have ha : At (.obj c as) [m] (.obj c1 as1) := .step hm .here
  have h1 := hi.listed [m] c1 as1 (by simp) ha
  obtain ⟨w, hw⟩ := dictGet_self h1 rfl
  obtain ⟨⟨k, w'⟩, h2, h3, h4⟩ := dictGet_mem hw
  obtain rfl : w' = w := h3
  obtain rfl := pyEq_eq_str h4
  rw [hi.get_obj hg (by simp) ha h2] at hw
  exact hw

theorem Inv.leaf_attr {E : LEnv} {H : List (Val × Val)} {c : Nat} {as : List (PyStr × Val)}
    {m : PyStr} {a : Val} (hi : Inv E H (.obj c as)) (hg : GoodNames (.obj c as)) (hm : (m, a) ∈ as)
    (ha : ∀ c1 as1, a ≠ .obj c1 as1) : dictGet H (.str ('/' :: m)) = none := by
  cases hw : dictGet H (.str ('/' :: m)) with
  | none => rfl
  | some w =>
    obtain ⟨⟨k, w'⟩, h2, h3, h4⟩ := dictGet_mem hw
    obtain rfl : w' = w := h3
    obtain rfl := pyEq_eq_str h4
    have hat : At (.obj c as) [m] a := .step hm .here
    obtain ⟨s, hs, ⟨q', c', as', hq', ha', rfl, rfl⟩ | hj⟩ := hi.each _ _ h2
    · simp only [Val.atom.injEq, Atom.str.injEq] at hs
      have : [m] = q' := metaPath_inj (by simp) hq' (hat.names hg) (ha'.names hg) hs
      subst this
      exact absurd (At.unique hg hat ha') (ha _ _)
    · simp only [Val.atom.injEq, Atom.str.injEq] at hs
      exact absurd hs.symm (hj.not_path hg hat)

/-! ### Going down -/

theorem hintsBelow_ex {pre : PyStr} : ∀ (H : List (Val × Val)), (∀ e ∈ H, ∃ s, e.1 = .str s) →
    ∃ H', HintsBelow pre H H' ∧
      (∀ e ∈ H', ∃ s, (.str s, e.2) ∈ H ∧ e.1 = .str (below pre s)) ∧
      ∀ s w, (.str s, w) ∈ H → (.str (below pre s), w) ∈ H' := by
  intro H
  induction H with
  | nil => intro _; exact ⟨[], .nil, by simp, by simp⟩
  | cons e H ih =>
    obtain ⟨k, v⟩ := e
    intro h
    obtain ⟨s, hs⟩ := h _ List.mem_cons_self
    simp only at hs
    subst hs
    obtain ⟨H', h1, h2, h3⟩ := ih fun e he => h e (List.mem_cons_of_mem _ he)
    refine ⟨_, .cons h1, ?_, ?_⟩
    · intro e he
      rcases List.mem_cons.1 he with rfl | he
      · exact ⟨s, List.mem_cons_self, rfl⟩
      · obtain ⟨s', h4, h5⟩ := h2 e he
        exact ⟨s', List.mem_cons_of_mem _ h4, h5⟩
    · intro s' w h
      rcases List.mem_cons.1 h with h | h
      · cases h; exact List.mem_cons_self
      · exact List.mem_cons_of_mem _ (h3 s' w h)

theorem mem_dictSet_str {es : List (Val × Val)} {k v : Val} {e : Val × Val}
    (hk : ∀ x, pyEq x k = true → x = k) (h : e ∈ dictSet es k v) : e ∈ es ∨ e = (k, v) := by
  induction es with
  | nil => simp only [dictSet, List.mem_singleton] at h; exact .inr h
  | cons p es ih =>
    obtain ⟨k', v'⟩ := p
    simp only [dictSet] at h
    split at h
    · next hp =>
      rcases List.mem_cons.1 h with rfl | h
      · exact .inr (by rw [hk _ hp])
      · exact .inl (List.mem_cons_of_mem _ h)
    · rcases List.mem_cons.1 h with rfl | h
      · exact .inl List.mem_cons_self
      · rcases ih h with h | h
        · exact .inl (List.mem_cons_of_mem _ h)
        · exact .inr h

theorem dictSet_keeps {es : List (Val × Val)} {k v : Val} {e : Val × Val}
    (h : e ∈ es) (hk : pyEq e.1 k = true → e = (k, v)) : e ∈ dictSet es k v := by
  induction es with
  | nil => cases h
  | cons p es ih =>
    obtain ⟨k', v'⟩ := p
    simp only [dictSet]
    split
    · next hp =>
      rcases List.mem_cons.1 h with rfl | h
      · rw [hk hp]
        obtain ⟨h1, h2⟩ := Prod.mk.inj (hk hp)
        rw [h1]
        exact List.mem_cons_self
      · exact List.mem_cons_of_mem _ h
    · rcases List.mem_cons.1 h with rfl | h
      · exact List.mem_cons_self
      · exact List.mem_cons_of_mem _ (ih h)

theorem dictSet_has {es : List (Val × Val)} {s : PyStr} {v : Val} :
    (.str s, v) ∈ dictSet es (.str s) v := by
  induction es with
  | nil => simp [dictSet]
  | cons p es ih =>
    obtain ⟨k', v'⟩ := p
    simp only [dictSet]
    split
    · next hp => rw [pyEq_eq_str hp]; exact List.mem_cons_self
    · exact List.mem_cons_of_mem _ ih

theorem mem_entries {ps : List (Val × Val)} (hs : ∀ e ∈ ps, ∃ s, e.1 = .str s) :
    (∀ e ∈ entries ps, e ∈ ps) ∧
    ∀ s w, (.str s, w) ∈ ps → (∀ w', (.str s, w') ∈ ps → w' = w) → (.str s, w) ∈ entries ps := by
  have key : ∀ (ps acc : List (Val × Val)), (∀ e ∈ ps, ∃ s, e.1 = .str s) →
      (∀ e ∈ ps.foldl (fun es p => dictSet es p.1 p.2) acc, e ∈ acc ∨ e ∈ ps) ∧
      ∀ s w, (.str s, w) ∈ acc ∨ (.str s, w) ∈ ps → (∀ w', (.str s, w') ∈ ps → w' = w) →
        (.str s, w) ∈ ps.foldl (fun es p => dictSet es p.1 p.2) acc := by
    intro ps
    induction ps with
    | nil =>
      intro acc _
      exact ⟨fun e he => .inl he, fun s w h _ => h.resolve_right List.not_mem_nil⟩
    | cons p ps ih =>
      intro acc h
      obtain ⟨k, v⟩ := p
      obtain ⟨s0, hs0⟩ := h _ List.mem_cons_self
      simp only at hs0
      subst hs0
      obtain ⟨h1, h2⟩ := ih (dictSet acc (.str s0) v) fun e he => h e (List.mem_cons_of_mem _ he)
      refine ⟨?_, ?_⟩
      · intro e he
        rcases h1 e he with he | he
        · rcases mem_dictSet_str (fun x hx => pyEq_eq_str hx) he with he | rfl
          · exact .inl he
          · exact .inr List.mem_cons_self
        · exact .inr (List.mem_cons_of_mem _ he)
      · intro s w hw hu
        refine h2 s w ?_ fun w' hw' => hu w' (List.mem_cons_of_mem _ hw')
        rcases hw with hw | hw
        · refine .inl (dictSet_keeps hw ?_)
          intro hp
          have := pyEq_eq_str hp
          simp only [Val.atom.injEq, Atom.str.injEq] at this
          subst this
          rw [hu v List.mem_cons_self]
        · rcases List.mem_cons.1 hw with hw | hw
          · cases hw; exact .inl dictSet_has
          · exact .inr hw
  obtain ⟨h1, h2⟩ := key ps [] hs
  exact ⟨fun e he => (h1 e he).resolve_left List.not_mem_nil, fun s w h => h2 s w (.inr h)⟩

theorem below_path {m : PyStr} {q : List PyStr} (hq : q ≠ []) :
    below ('/' :: m) (metaPath (m :: q)) = metaPath q := by
  rw [metaPath_cons, if_neg hq]
  unfold below
  have hne : metaPath q ≠ [] := by
    cases q with
    | nil => exact absurd rfl hq
    | cons b q => rw [metaPath_cons]; simp
  rw [if_pos ⟨metaPath q, by simp⟩, if_neg]
  · simp
  · intro e
    have := congrArg List.length e
    simp at this
    exact hne this

theorem junk_slash {v : Val} (hg : GoodNames v) : Junk v ['/'] := by
  intro x rest e _ _ q c as ha hx
  have : x = [] := by
    have := congrArg List.length e
    simp at this
    exact this.1
  exact ((hg q c as ha).2 x hx).2 this

theorem junk_other {v : Val} {s : PyStr} (h : s.head? ≠ some '/') : Junk v s := by
  rintro x rest rfl
  exact absurd rfl h

/-- The class names seen from an attribute. -/
theorem Inv.below {E : LEnv} {H H' : List (Val × Val)} {c c1 : Nat} {as as1 : List (PyStr × Val)}
    {m : PyStr} (hi : Inv E H (.obj c as)) (hg : GoodNames (.obj c as)) (hap : Apart (.obj c as))
    (hm : (m, .obj c1 as1) ∈ as)
    (h1 : ∀ e ∈ H', ∃ s, (.str s, e.2) ∈ H ∧ e.1 = .str (below ('/' :: m) s))
    (h2 : ∀ s w, (.str s, w) ∈ H → (.str (below ('/' :: m) s), w) ∈ H') :
    Inv E (entries H') (.obj c1 as1) := by
  have hat : At (.obj c as) [m] (.obj c1 as1) := .step hm .here
  have hg1 := hg.part hat
  have hms : '/' ∉ m := ((hg [] c as .here).2 m (List.mem_map_of_mem hm)).1
  have heach : ∀ k w, (k, w) ∈ H' → ∃ s, k = .str s ∧ ((∃ q c as, q ≠ [] ∧
      At (.obj c1 as1) q (.obj c as) ∧ s = metaPath q ∧
      w = .str (E.className true (.cls (.user c)))) ∨ Junk (.obj c1 as1) s) := by
    intro k w hkw
    obtain ⟨s, hs, rfl⟩ := h1 _ hkw
    simp only at hs
    refine ⟨_, rfl, ?_⟩
    obtain ⟨s', hs', h⟩ := hi.each _ _ hs
    simp only [Val.atom.injEq, Atom.str.injEq] at hs'
    subst hs'
    have hnp : ∀ r : PyStr, s = '/' :: m ++ r → r ≠ [] → r.head? ≠ some '/' →
        Junk (.obj c1 as1) (LoadObject.below ('/' :: m) s) := by
      rintro r rfl hr hh
      unfold LoadObject.below
      rw [if_pos ⟨r, rfl⟩, if_neg (by simpa using hr), List.drop_left]
      exact junk_other hh
    rcases h with ⟨q, c', as', hq, ha, rfl, rfl⟩ | hj
    · cases q with
      | nil => exact absurd rfl hq
      | cons x q =>
        by_cases hx : x = m
        · subst hx
          by_cases hq' : q = []
          · subst hq'
            right
            have : LoadObject.below ('/' :: x) (metaPath [x]) = ['/'] := by
              unfold LoadObject.below
              rw [if_pos ⟨[], by simp [metaPath]⟩]
              exact if_pos rfl
            rw [this]
            exact junk_slash hg1
          · left
            rw [below_path hq']
            cases ha with
            | step ha1 ha2 =>
              obtain rfl := nodup_unique (hg [] c as .here).1 hm ha1
              exact ⟨q, c', as', hq', ha2, rfl, rfl⟩
        · right
          have hxs : '/' ∉ x := ha.names hg x List.mem_cons_self
          by_cases hp : ('/' :: m) <+: metaPath (x :: q)
          · obtain ⟨r, hr⟩ := hp
            have hrr : ¬ (r = [] ∨ ∃ t, r = '/' :: t) := by
              intro h
              rw [metaPath_cons, List.cons_append, List.cons.injEq] at hr
              exact hx (slash_unique hms hxs h (metaPath_rest q) hr.2).1.symm
            refine hnp r hr.symm (fun h => hrr (.inl h)) ?_
            intro h
            cases r with
            | nil => cases h
            | cons a r =>
              simp only [List.head?_cons, Option.some.injEq] at h
              subst h
              exact hrr (.inr ⟨r, rfl⟩)
          · have : LoadObject.below ('/' :: m) (metaPath (x :: q)) = metaPath (x :: q) := by
              unfold LoadObject.below
              rw [if_neg hp]
            rw [this]
            intro y rest e hy hr q' c3 as3 ha3
            rw [metaPath_cons, List.cons.injEq] at e
            obtain ⟨rfl, _⟩ := slash_unique hxs hy (metaPath_rest q) hr e.2
            have hobj : ∃ c2 as2, (x, .obj c2 as2) ∈ as := by
              cases ha with
              | step ha1 ha2 =>
                cases ha2 with
                | here => exact ⟨_, _, ha1⟩
                | step => exact ⟨_, _, ha1⟩
            obtain ⟨c2, as2, h2⟩ := hobj
            exact hap [] c as .here m c1 as1 x c2 as2 hm h2 (fun e => hx e.symm) q' c3 as3 ha3
    · right
      by_cases hp : ('/' :: m) <+: s
      · obtain ⟨r, hr⟩ := hp
        have hrr : ¬ (r = [] ∨ ∃ t, r = '/' :: t) := fun h =>
          hj m r hr.symm hms h [] c as .here (List.mem_map_of_mem hm)
        refine hnp r hr.symm (fun h => hrr (.inl h)) ?_
        intro h
        cases r with
        | nil => cases h
        | cons a r =>
          simp only [List.head?_cons, Option.some.injEq] at h
          subst h
          exact hrr (.inr ⟨r, rfl⟩)
      · have : LoadObject.below ('/' :: m) s = s := by
          unfold LoadObject.below
          rw [if_neg hp]
        rw [this]
        intro y rest e hy hr q' c3 as3 ha3
        exact hj y rest e hy hr (m :: q') c3 as3 (hat.trans ha3)
  have hstr : ∀ e ∈ H', ∃ s, e.1 = .str s := by
    intro e he
    obtain ⟨s, _, h⟩ := h1 e he
    exact ⟨_, h⟩
  obtain ⟨he1, he2⟩ := mem_entries hstr
  have hinv' : Inv E H' (.obj c1 as1) := by
    refine ⟨?_, heach⟩
    intro q c' as' hq ha
    have := h2 _ _ (hi.listed (m :: q) c' as' (by simp) (hat.trans ha))
    rwa [below_path hq] at this
  refine ⟨?_, fun k w h => heach k w (he1 _ h)⟩
  intro q c' as' hq ha
  exact he2 _ _ (hinv'.listed q c' as' hq ha) fun w' hw' => hinv'.get_obj hg1 hq ha hw'

/-! ## Loading an object tree -/

section
variable {E : LEnv} {fork N : Nat} {kw : DumpKw}

theorem partLoad_leaf {rec : LRec} {kw : LoadKw} {H : List (Val × Val)} {name : PyStr}
    {hint : Option Ty} {x : Val} (hH : kw.metaHints = some H)
    (hg : dictGet H (.str ('/' :: name)) = none) :
    partLoad E rec kw name hint x = rec x hint { kw with metaHints := some H, attrGetters := [] } := by
  unfold partLoad metaFor
  have hp : determinePrecedence hint none none true = hint := by cases hint <;> rfl
  simp only [hH, Option.getD_some, hg, liftK_of_ok, pure_bind', hp]

theorem partLoad_named {rec : LRec} {kw : LoadKw} {H H' : List (Val × Val)} {name s : PyStr} {t : Ty}
    {hint : Option Ty} {x : Val} (hH : kw.metaHints = some H)
    (hg : dictGet H (.str ('/' :: name)) = some (.str s)) (hs : s ≠ [])
    (ht : E.clsFromStr kw.fork s = .ok t) (hb : HintsBelow ('/' :: name) H H') :
    partLoad E rec kw name hint x =
      rec x (some t) { kw with metaHints := some (entries H'), attrGetters := [] } := by
  have hr : rebase ('/' :: name) [] H = .ok (entries H') := (rebase_ok _ _ _).2 ⟨H', hb, rfl⟩
  have hf : (Val.str s).falsy = false := by
    cases s with
    | nil => exact absurd rfl hs
    | cons a s => rfl
  have hm : metaFor E kw name = .ok (some t, entries H') := by
    unfold metaFor
    simp only [hH, Option.getD_some, hg, hf, Bool.false_eq_true, if_false]
    show (do let t ← E.clsFromStr kw.fork s; let hs ← rebase ('/' :: name) [] H
             pure (some t, hs) : Except ErrKind _) = _
    rw [ht, hr]
    rfl
  unfold partLoad
  rw [hm, liftK_of_ok, pure_bind']
  rfl

theorem dictGet_nodup {es : List (Val × Val)} (hn : (es.map (·.1)).Nodup) {s : PyStr} {w : Val}
    (h : (.str s, w) ∈ es) : dictGet es (.str s) = some w := by
  induction es with
  | nil => cases h
  | cons e es ih =>
    obtain ⟨k, x⟩ := e
    rw [List.map_cons, List.nodup_cons] at hn
    simp only [dictGet]
    rcases List.mem_cons.1 h with h | h
    · cases h
      rw [pyEq_str]
      simp
    · split
      · next hp =>
        have := pyEq_eq_str hp
        subst this
        exact absurd (List.mem_map.2 ⟨_, ‹(Val.str s, w) ∈ es›, rfl⟩) hn.1
      · exact ih hn.2 h

theorem objTree_good : ∀ (d : Nat) (v : Val), ObjTree E fork kw N d v → GoodNames v := by
  intro d
  induction d with
  | zero => intro v h; exact h.elim
  | succ d ih =>
    rintro v ⟨c, as, rfl, hk, _, _, hn, hp⟩ p c' as' ha
    cases ha with
    | here =>
      refine ⟨by rw [hn]; exact hk.distinct, ?_⟩
      intro x hx
      obtain ⟨a, ha, rfl⟩ := List.mem_map.1 hx
      exact ⟨(hp a ha).1, (hp a ha).2.1⟩
    | step h1 h2 =>
      obtain ⟨_, _, _, hl | ⟨_, ht⟩⟩ := hp _ h1
      · cases h2 <;> exact absurd rfl (hl.noObj _ _)
      · exact ih _ ht _ _ _ h2

theorem selected_verbose {I : ClassInfo} {as : List (PyStr × Val)} {kw : DumpKw} {l : List PyStr}
    {m : PyStr} (vb : Verbosity) :
    Selected I as { kw with verbose := vb } l m ↔ Selected I as kw l m :=
  ⟨fun h => ⟨h.attr, h.noDunder, h.privates, h.properties, h.classVars, h.stripped, h.abc, h.json,
      h.noFunc, h.noInner, h.noMixin⟩,
    fun h => ⟨h.attr, h.noDunder, h.privates, h.properties, h.classVars, h.stripped, h.abc, h.json,
      h.noFunc, h.noInner, h.noMixin⟩⟩

theorem keeps_noSource {c : Nat} (hk : Keeps E c) (m : PyStr) :
    assoc (E.info c).members m ≠ some .noSource := by
  intro hm
  rcases hk.members m _ hm with h | h | ⟨p, hp, rfl⟩
  · cases h
  · cases h
  · rcases hk.own p hp _ hm with h | ⟨v, h⟩ <;> cases h

/-- The attributes that are dumped are those that the constructor stores. -/
theorem selected_attr {c : Nat} (hst : Keeps E c) {as : List (PyStr × Val)} {k0 : DumpKw}
    (hk : DumpNeutral fork k0) (hn : as.map (·.1) = (E.info c).params.map (·.name)) (m : PyStr) :
    Selected (E.info c) as k0 [] m ↔ ∃ a ∈ as, a.1 = m := by
  rw [hst.selected hk.privates hk.classVars hn]
  constructor
  · rintro ⟨p, hp, rfl⟩
    have : p.name ∈ as.map (·.1) := by rw [hn]; exact List.mem_map_of_mem hp
    exact List.mem_map.1 this
  · rintro ⟨a, ha, rfl⟩
    have : a.1 ∈ (E.info c).params.map (·.name) := by rw [← hn]; exact List.mem_map_of_mem ha
    obtain ⟨p, hp, h⟩ := List.mem_map.1 this
    exact ⟨p, hp, h.symm⟩

theorem objTree_tree (hk : DumpNeutral fork { kw with verbose := {} }) :
    ∀ (d : Nat) (v : Val), ObjTree E fork kw N d v → Tree E.toEnv kw [] N d v := by
  intro d
  induction d with
  | zero => intro v h; exact h.elim
  | succ d ih =>
    rintro v ⟨c, as, rfl, hst, _, _, hn, hp⟩
    refine ⟨c, as, rfl, hst.kind, hst.noAttrs, (keeps_noSource hst), ?_⟩
    intro m hm
    obtain ⟨a, ha, rfl⟩ := (selected_attr hst hk hn m).1 ((selected_verbose _).2 hm)
    obtain ⟨h1, h2, h3, h4⟩ := hp a ha
    have hmeta : a.1 ≠ metaKey := by
      have : a.1 ∈ (E.info c).params.map (·.name) := by rw [← hn]; exact List.mem_map_of_mem ha
      obtain ⟨p, hp, h⟩ := List.mem_map.1 this
      rw [← h]
      exact (hst.names p hp).2.2.2.2
    refine ⟨h1, h2, h3, hmeta, a.2, hst.getAttr hn ha, ?_⟩
    rcases h4 with hl | ⟨hh, ht⟩
    · left
      obtain ⟨j, r, hj, _, hd, _⟩ := hl.back
      refine ⟨hl.noObj, j, ?_, hd⟩
      cases j with
      | dict es => exact absurd rfl (hj es)
      | _ => trivial
    · exact .inr ⟨hh, ih _ ht⟩

theorem at_objAt (hk : DumpNeutral fork { kw with verbose := {} }) :
    ∀ (d : Nat) (v : Val), ObjTree E fork kw N d v → ∀ p c as, At v p (.obj c as) →
      ObjAt E.toEnv kw [] v p c := by
  intro d
  induction d with
  | zero => intro v h; exact h.elim
  | succ d ih =>
    rintro v ⟨c, as, rfl, hst, _, _, hn, hp⟩ p c' as' ha
    cases ha with
    | here => exact .here
    | @step _ _ m a _ p h1 h2 =>
      refine .step ((selected_verbose _).1 ((selected_attr hst hk hn m).2 ⟨_, h1, rfl⟩))
        (hst.getAttr hn h1) ?_
      obtain ⟨_, _, _, hl | ⟨_, ht⟩⟩ := hp _ h1
      · cases h2 <;> exact absurd rfl (hl.noObj _ _)
      · exact ih _ ht _ _ _ h2

/-- The options for `load`, apart from the class names. -/
abbrev Neutral (fork : Nat) (kw' : LoadKw) : Prop := LoadNeutral fork { kw' with metaHints := none }

/-- What is known of the plain dump of an object tree. -/
structure Back (E : LEnv) (fork B : Nat) (v : Val) (c : Nat) (bs : List (PyStr × Val))
    (es : List (Val × Val)) : Prop where
  noMeta : ∀ e ∈ es, e.1 ≠ .str metaKey
  dicts : ∀ p ds, DictAt es p ds → ∃ c as, At v p (.obj c as)
  load : ∀ n, B ≤ n → ∀ kw' H tail, Neutral fork kw' → kw'.metaHints = some H → Inv E H v →
    (tail = [] ∨ ∃ M, tail = [(Val.str metaKey, M)]) →
    (objectDes E (load E n) (.dict (es ++ tail)) (.cls (.user c)) kw').val = .ok (.obj c bs)

/-- The same for an attribute. -/
structure AttrBack (E : LEnv) (fork : Nat) (kw : DumpKw) (B : Nat) (c : Nat)
    (as : List (PyStr × Val)) (a : PyStr × Val) (r j : Val) : Prop where
  same : Same a.2 r
  dump : ∀ n, B ≤ n → (dump E.toEnv (n + 1) a.2 (hintOf (E.info c) kw.strict a.1) (attrKw kw [])).val
    = .ok j
  isObj : ∀ ds, j = .dict ds → ∃ c as, a.2 = .obj c as
  dicts : ∀ fs p ds, j = .dict fs → DictAt fs p ds → ∃ c as, At a.2 p (.obj c as)
  load : ∀ m, B ≤ m → ∀ kw' H, Neutral fork kw' → kw'.metaHints = some H → Inv E H (.obj c as) →
    (partLoad E (load E m) kw' a.1 (assoc (E.info c).initHints a.1) j).val = .ok r

theorem tree_back (hs : DefaultSers E.toEnv fork) (hd : DefaultDesers E fork)
    (hv : NoValidators E fork) (hk : DumpNeutral fork { kw with verbose := {} })
    (hci : kw.verbose.classInfo = true) :
    ∀ (d : Nat) (v : Val), ObjTree E fork kw N d v → Apart v → ∃ c as bs, v = .obj c as ∧
      (E.info c).kind = .plain ∧
      E.className true (.cls (.user c)) ≠ [] ∧
      E.clsFromStr fork (E.className true (.cls (.user c))) = .ok (.cls (.user c)) ∧
      Same v (.obj c bs) ∧
      ∀ k0, DumpNeutral fork k0 → attrKw k0 [] = attrKw kw [] → ∀ n, N + 3 * d ≤ n →
        ∀ es, (dump E.toEnv (n + 2) v none k0).val = .ok (.dict es) →
          Back E fork (N + 3 * d) v c bs es := by
  intro d
  induction d with
  | zero => intro v h; exact h.elim
  | succ d ih =>
    intro v hT hap
    have hgood := objTree_good _ _ hT
    obtain ⟨c, as, rfl, hst, hne, hfind, hn, hp⟩ := hT
    have hs' : DefaultSers E.toEnv kw.fork := by have := hk.fork; rw [show kw.fork = fork from this]; exact hs
    have hex : ∀ a ∈ as, ∃ r j, AttrBack E fork kw (N + 3 * (d + 1)) c as a r j := by
      intro a ha
      obtain ⟨_, _, _, hl | ⟨hh, ht⟩⟩ := hp a ha
      · obtain ⟨j, r, hj, hsame, hdump, hload⟩ := hl.back
        refine ⟨r, j, hsame, fun n hn => (hdump n (by omega)).1, fun ds e => absurd e (hj ds),
          fun fs _ _ e => absurd e (hj fs), ?_⟩
        intro m hm kw' H hk' hH hi
        rw [partLoad_leaf hH (hi.leaf_attr hgood (m := a.1) (a := a.2) ha hl.noObj)]
        refine hload m (by omega) _ ?_
        exact ⟨hk'.fork, rfl, hk'.keys, hk'.hints, hk'.warn, hk'.enums⟩
      · obtain ⟨m, a⟩ := a
        have hat : At (.obj c as) [m] a := .step ha .here
        obtain ⟨c1, as1, bs1, rfl, hk1, hne1, hf1, hsame, hback⟩ := ih a ht (hap.part hat)
        obtain ⟨c1', as1', ps1, es1, es1', he, _, hat1, hps1, hM, hloop⟩ :=
          tree_loop hs' hk.keys hk.nulls hk.strict hci d _ (objTree_tree hk d _ ht)
        cases he
        have hplain := fun n hn => plain_eq (n := n) hs' hk1 hat1 hps1 (hloop n hn).1
        have hv1 : (Ty.cls (Val.obj c1 as1).cls).serFn E.info = some .object := by
          simp [Ty.serFn, Cls.serFn, Val.cls, hk1]
        have hd1 := objectHint_dump (n := N + 3 * d) (kw := attrKw kw []) (r := .dict es1) hs' hk.strict hh
          hv1 (by simp) hplain
        have hB := hback (attrKw kw []) hk.attr rfl _ (Nat.le_refl _) es1 (hplain _ (Nat.le_refl _))
        refine ⟨.obj c1 bs1, .dict es1, hsame, ?_, fun _ _ => ⟨c1, as1, rfl⟩, ?_, ?_⟩
        · intro n hn
          obtain ⟨k, rfl⟩ : ∃ k, n = k + 1 := ⟨n - 1, by omega⟩
          exact hd1 k (by omega)
        · intro fs p ds e hda
          cases e
          exact hB.dicts p ds hda
        · intro n hn kw' H hk' hH hi
          obtain ⟨H', hb, h1, h2⟩ := hintsBelow_ex (pre := '/' :: m) H (by
            rintro ⟨k, w⟩ he
            obtain ⟨s, hs, _⟩ := hi.each k w he
            exact ⟨s, hs⟩)
          have hfork : kw'.fork = fork := hk'.fork
          rw [partLoad_named hH (hi.obj_attr hgood ha) hne1 (by rw [hfork]; exact hf1) hb]
          obtain ⟨n, rfl⟩ : ∃ k, n = k + 1 := ⟨n - 1, by omega⟩
          have hnm : NoMeta (.dict es1) := by
            intro es e
            cases e
            exact dictGet_absent hB.noMeta
          rw [object_step (m := none)
            (kw := { kw' with metaHints := some (entries H'), attrGetters := [] })
            (by show DefaultDesers E kw'.fork; rw [hfork]; exact hd)
            (by show E.getVal kw'.fork _ = _; rw [hfork]; exact hv _) hk1
            (by simp [Val.cls, validTypes]) (by simp) (noMeta_get hnm _) (.inr rfl), wrapRes_ok]
          have := hB.load n (by omega) (kwOf { kw' with metaHints := some (entries H'), attrGetters := [] } none)
            (entries H') [] ⟨hk'.fork, rfl, hk'.keys, hk'.hints, hk'.warn, hk'.enums⟩ rfl
            (hi.below hgood hap ha h1 h2) (.inl rfl)
          rwa [List.append_nil] at this
    obtain ⟨_, rs, hrs⟩ := gather
      (P := fun (a : PyStr × Val) (_ : Nat) r => ∃ j, AttrBack E fork kw (N + 3 * (d + 1)) c as a r j)
      (fun _ _ _ _ _ h => h) as (fun a ha => ⟨0, hex a ha⟩)
    obtain ⟨bs, hbs⟩ := forall₂_key hrs
    have hmap := forall₂_keys
      (P := fun a b => ∃ j, AttrBack E fork kw (N + 3 * (d + 1)) c as a b.2 j) hbs
    have hbnames : bs.map (·.1) = (E.info c).params.map (·.name) := by rw [← hmap, hn]
    refine ⟨c, as, bs, rfl, hst.kind, hne, hfind, .obj hmap ?_, ?_⟩
    · rw [List.forall₂_map_left_iff, List.forall₂_map_right_iff]
      exact hbs.imp fun _ _ ⟨_, _, h⟩ => h.same
    intro k0 hk0 hkw n hnN es hdump
    have hst0 : k0.strict = kw.strict := hk0.strict.trans hk.strict.symm
    have hs0 : DefaultSers E.toEnv k0.fork := by rw [hk0.fork]; exact hs
    obtain ⟨es', hdump', hnodup, hes⟩ := object_dump_selected E.toEnv n c as k0 [] hs0 hst.kind hk0.verbose
      hk0.attrs hk0.keys hk0.nulls hst.noAttrs (keeps_noSource hst) (by
        intro m hm
        obtain ⟨a, ha, rfl⟩ := (selected_attr hst hk0 hn m).1 hm
        obtain ⟨r, j, hB⟩ := hex a ha
        exact ⟨a.2, j, hst.getAttr hn ha, by rw [hst0, hkw]; exact hB.dump n (by omega)⟩)
    rw [hdump] at hdump'
    cases hdump'
    have hentry : ∀ k x, (k, x) ∈ es → ∃ a r, a ∈ as ∧ k = .str a.1 ∧
        AttrBack E fork kw (N + 3 * (d + 1)) c as a r x := by
      intro k x he
      obtain ⟨m, w, rfl, hsel, hw, h1⟩ := (hes k x).1 he
      obtain ⟨a, ha, rfl⟩ := (selected_attr hst hk0 hn m).1 hsel
      rw [hst.getAttr hn ha] at hw
      cases hw
      obtain ⟨r, j, hB⟩ := hex a ha
      rw [hst0, hkw, hB.dump n (by omega)] at h1
      cases h1
      exact ⟨a, r, ha, rfl, hB⟩
    have hparam : ∀ a ∈ as, ∃ p ∈ (E.info c).params, a.1 = p.name := by
      intro a ha
      have : a.1 ∈ (E.info c).params.map (·.name) := by rw [← hn]; exact List.mem_map_of_mem ha
      obtain ⟨p, hp, h⟩ := List.mem_map.1 this
      exact ⟨p, hp, h.symm⟩
    have hnm : ∀ e ∈ es, e.1 ≠ .str metaKey := by
      rintro ⟨k, x⟩ he
      obtain ⟨a, _, ha, rfl, _⟩ := hentry k x he
      obtain ⟨p, hp, h⟩ := hparam a ha
      rw [h]
      intro h'
      exact (hst.names p hp).2.2.2.2 (by simpa using h')
    refine ⟨hnm, ?_, ?_⟩
    · intro p ds hda
      cases hda with
      | here h1 _ _ =>
        obtain ⟨⟨m, a⟩, r, ha, hm, hB⟩ := hentry _ _ h1
        simp only [Val.atom.injEq, Atom.str.injEq] at hm
        subst hm
        obtain ⟨c', as', rfl⟩ := hB.isObj ds rfl
        exact ⟨c', as', .step ha .here⟩
      | step h1 _ _ h2 =>
        obtain ⟨⟨m, a⟩, r, ha, hm, hB⟩ := hentry _ _ h1
        simp only [Val.atom.injEq, Atom.str.injEq] at hm
        subst hm
        obtain ⟨c', as', h⟩ := hB.dicts _ _ _ rfl h2
        exact ⟨c', as', .step ha h⟩
    · intro m hm kw' H tail hk' hH hi htail
      have hkeys : ∀ e ∈ es ++ tail, Known (E.info c) e.1 := by
        intro e he
        rcases List.mem_append.1 he with he | he
        · obtain ⟨a, _, ha, h, _⟩ := hentry e.1 e.2 he
          obtain ⟨p, hp, h'⟩ := hparam a ha
          exact .inr ⟨p, hp, by rw [h, h']⟩
        · rcases htail with rfl | ⟨M, rfl⟩
          · cases he
          · rw [List.mem_singleton] at he
            subst he
            exact .inl rfl
      have hstr : ∀ e ∈ es ++ tail, ∃ s, e.1 = .str s := by
        intro e he
        rcases hkeys e he with h | ⟨p, _, h⟩
        · exact ⟨_, h⟩
        · exact ⟨_, h⟩
      have hnd : ((es ++ tail).map (·.1)).Nodup := by
        rcases htail with rfl | ⟨M, rfl⟩
        · simpa using hnodup
        · rw [List.map_append, List.nodup_append]
          refine ⟨hnodup, by simp, ?_⟩
          rintro x hx y hy rfl
          simp only [List.map_cons, List.map_nil, List.mem_singleton] at hy
          obtain ⟨e, he, rfl⟩ := List.mem_map.1 hx
          exact hnm e he hy
      rw [objectDes_ok]
      have hget : kw'.attrGetters = [] := hk'.getters
      have htr : Transformed E kw' (es ++ tail) (es ++ tail) := by
        have := transformed_id (E := E) hk' hstr hnd
        exact this
      refine ⟨es ++ tail, bs, bs, bs, bs, htr, ?_, fun _ => hkeys, hst.stores bs hbnames,
        attrsSet_known _ hkeys, by rw [hget]; exact .nil, rfl⟩
      rw [hget]
      refine argsOf_all _ _ hbnames ?_
      intro p hp b hb hbp
      obtain ⟨a, ha, hab, j, hB⟩ := forall₂_right hbs b hb
      have hmem : (.str a.1, j) ∈ es := (hes _ _).2 ⟨a.1, a.2, rfl,
        (selected_attr hst hk0 hn _).2 ⟨a, ha, rfl⟩, hst.getAttr hn ha, by
          rw [hst0, hkw]; exact hB.dump n (by omega)⟩
      have hj := dictGet_nodup hnd (List.mem_append_left tail hmem)
      rw [hab, hbp] at hj
      refine .given hj ?_
      have := hB.load m hm kw' H hk' hH hi
      rwa [hab, hbp] at this

/-! ## C60 -/

/-- An object that has no objects as attributes. -/
def Flat (v : Val) : Prop :=
  ∀ c as m c1 as1, v = .obj c as → (m, Val.obj c1 as1) ∉ as

/-- An object tree that is loaded without a class, and if it is flat also while a
surrounding collection is loaded, of which the (empty) class names are handed down. -/
theorem verbose_back (E : LEnv) (fork N d : Nat) (kw : DumpKw) (v : Val)
    (hs : DefaultSers E.toEnv fork) (hd : DefaultDesers E fork) (hv : NoValidators E fork)
    (hk : DumpNeutral fork { kw with verbose := {} }) (hsc : kw.storeCls = false)
    (hci : kw.verbose.classInfo = true) (hT : ObjTree E fork kw N d v) (hap : Apart v) :
    ∃ j r, Same v r ∧ ∀ n, N + 3 * d ≤ n →
      (dump E.toEnv (n + 2) v none kw).val = .ok j ∧
      ∀ kw', LoadNeutral fork kw' → kw'.metaHints = none ∨ Flat v →
        (load E (n + 1) j none kw').val = .ok r := by
  have hgood := objTree_good _ _ hT
  obtain ⟨c, as, bs, rfl, hkind, hne, hfind, hsame, hback⟩ := tree_back hs hd hv hk hci d v hT hap
  have hs' : DefaultSers E.toEnv kw.fork := by
    have := hk.fork; rw [show kw.fork = fork from this]; exact hs
  obtain ⟨es, cs, hdump, hmarks, hnd, hkeys⟩ := verbose_dump_partial E.toEnv kw [] N d _ hs' hk.attrs
    hk.keys hk.nulls hk.strict hsc hci (objTree_tree hk d _ hT)
  have hB := hback { kw with verbose := {} } hk rfl _ (Nat.le_refl _) es (hdump _ (Nat.le_refl _)).1
  have hroot : dictGet cs (.str "/".toList) = some (.str (E.className true (.cls (.user c)))) :=
    hmarks [] c .here
  have hinv : Inv E cs (.obj c as) := by
    refine ⟨?_, ?_⟩
    · intro q c' as' _ ha
      obtain ⟨⟨k, w⟩, h1, h2, h3⟩ := dictGet_mem (hmarks q c' (at_objAt hk d _ hT q c' as' ha))
      obtain rfl := pyEq_eq_str h3
      simp only at h2
      subst h2
      exact h1
    · intro k w hkw
      obtain ⟨p, rfl, hp⟩ := hkeys k (List.mem_map_of_mem (f := (·.1)) hkw)
      refine ⟨_, rfl, ?_⟩
      rcases hp with rfl | ⟨ds, hp⟩
      · exact .inr (junk_slash hgood)
      · left
        obtain ⟨c', as', ha⟩ := hB.dicts p ds hp
        refine ⟨p, c', as', hp.ne_nil, ha, rfl, ?_⟩
        have h1 := dictGet_nodup hnd hkw
        rw [hmarks p c' (at_objAt hk d _ hT p c' as' ha)] at h1
        exact (Option.some.inj h1).symm
  refine ⟨_, .obj c bs, hsame, fun n hn => ⟨(hdump n hn).2, ?_⟩⟩
  intro kw' hk' hmh
  have hmeta : getClsAndMeta E (.dict (es ++ [(.str metaKey, metaSection E.toEnv kw cs)])) kw'.fork =
      .ok (some (.cls (.user c), cs)) := by
    have h1 : dictGet (es ++ [(.str metaKey, metaSection E.toEnv kw cs)]) (.str metaKey) =
        some (metaSection E.toEnv kw cs) := by
      have : ∀ es : List (Val × Val), (∀ e ∈ es, e.1 ≠ .str metaKey) → ∀ M,
          dictGet (es ++ [(.str metaKey, M)]) (.str metaKey) = some M := by
        intro es
        induction es with
        | nil => intro _ M; simp [dictGet, pyEq_str]
        | cons e es ih =>
          intro h M
          have hp : pyEq e.1 (.str metaKey) = false := by
            cases hp : pyEq e.1 (.str metaKey)
            · rfl
            · exact absurd (pyEq_eq_str hp) (h e List.mem_cons_self)
          obtain ⟨k, x⟩ := e
          simp only [List.cons_append, dictGet, hp, Bool.false_eq_true, if_false]
          exact ih (fun e he => h e (List.mem_cons_of_mem _ he)) M
      exact this es hB.noMeta _
    have h2 : subscript (metaSection E.toEnv kw cs) "classes".toList = .ok (.dict cs) := rfl
    simp only [getClsAndMeta, h1, h2]
    show (do let name ← (match dictGet cs (.str "/".toList) with
          | some w => .ok w
          | none => .error .keyError : Except ErrKind Val)
             match name, Val.dict cs with
             | .str s, .dict hints => do
               let t ← E.clsFromStr kw'.fork s
               return some (t, hints)
             | _, _ => .error .typeError) = _
    rw [hroot]
    show (do let t ← E.clsFromStr kw'.fork _; return some (t, cs)) = _
    rw [hk'.fork, hfind]
    rfl
  rw [load_enter (fun _ => rfl) (by rintro (⟨_, h⟩ | h) <;> cases h) (by simp [Val.cls, validTypes]) hmeta
    (by rw [hk'.fork]; exact hd)]
  have ht : target (.dict (es ++ [(.str metaKey, metaSection E.toEnv kw cs)])) none kw'
      (some (.cls (.user c), cs)) = .cls (.user c) := by
    unfold target determinePrecedence
    cases kw'.inferred <;> rfl
  have hf : (Ty.cls (.user c)).desFn E.info = some .object := by
    simp only [Ty.desFn, Cls.desFn, hkind]
  rw [ht, hf, doLoad_ok]
  refine ⟨?_, ?_⟩
  · rcases hmh with hmh | hfl
    · refine hB.load n hn (calleeKw _ none kw' (some (.cls (.user c), cs))) cs _
        ⟨hk'.fork, hk'.getters, hk'.keys, rfl, hk'.warn, hk'.enums⟩ ?_ hinv (.inr ⟨_, rfl⟩)
      unfold calleeKw
      rw [hmh]
      rfl
    · refine hB.load n hn (calleeKw _ none kw' (some (.cls (.user c), cs))) (kw'.metaHints.getD cs) _
        ⟨hk'.fork, hk'.getters, hk'.keys, rfl, hk'.warn, hk'.enums⟩ rfl ?_ (.inr ⟨_, rfl⟩)
      cases hm : kw'.metaHints with
      | none => exact hinv
      | some H =>
        have : H = [] := by have := hk'.hints; rwa [hm] at this
        subst this
        refine ⟨?_, fun k w h => by cases h⟩
        intro q c' as' hq ha
        cases ha with
        | here => exact absurd rfl hq
        | step h1 h2 =>
          cases h2 with
          | here => exact absurd h1 (hfl _ _ _ _ _ rfl)
          | step h3 _ => exact absurd h1 (hfl _ _ _ _ _ rfl)
  · rw [validate_none]
    · rfl
    · show E.getVal kw'.fork _ = _
      rw [hk'.fork]
      exact hv _

/-- C60, `_partial`: an object tree that is dumped with class info can be loaded without
a class being given, and the result is the same object tree, with the same classes.
Missing: `strict` dumps; key transformers (false, see `VerboseStyled`); objects in lists, dicts and tuples; trees
that are not `Apart`, for which the claim is false (`verbose_round_trip_fails`). -/
theorem verbose_round_trip_partial (E : LEnv) (fork N d : Nat) (kw : DumpKw) (v : Val)
    (hs : DefaultSers E.toEnv fork) (hd : DefaultDesers E fork) (hv : NoValidators E fork)
    (hk : DumpNeutral fork { kw with verbose := {} }) (hsc : kw.storeCls = false)
    (hci : kw.verbose.classInfo = true) (hT : ObjTree E fork kw N d v) (hap : Apart v) :
    ∃ j r, Same v r ∧ ∀ n, N + 3 * d ≤ n →
      (dump E.toEnv (n + 2) v none kw).val = .ok j ∧
      ∀ kw', LoadNeutral fork kw' → kw'.metaHints = none →
        (load E (n + 1) j none kw').val = .ok r := by
  obtain ⟨j, r, h1, h2⟩ := verbose_back E fork N d kw v hs hd hv hk hsc hci hT hap
  exact ⟨j, r, h1, fun n hn => ⟨(h2 n hn).1, fun kw' hk' hm => (h2 n hn).2 kw' hk' (.inl hm)⟩⟩

/-! ### Leaves -/

theorem prim_free (hd : DefaultDesers E fork) (hv : NoValidators E fork) {v : Val}
    (hc : v.cls ∈ [Cls.int, .float, .bool, .noneType]) {m : Nat} (hm : 1 ≤ m) {kw' : LoadKw}
    (hk' : kw'.fork = fork) : (load E m v none kw').val = .ok v := by
  obtain ⟨m, rfl⟩ : ∃ i, m = i + 1 := ⟨m - 1, by omega⟩
  have hval : v.cls ∈ validTypes := by
    simp only [List.mem_cons, List.not_mem_nil, or_false] at hc
    rcases hc with h | h | h | h <;> rw [h] <;> decide
  have hnd : v.cls ≠ .dict := by intro h; rw [h] at hc; simp at hc
  rw [(load_via_free (f := v.cls.desFn E.info) hval (noMeta_get (noMeta_of_not_dict hnd) _)
    (by rw [hk']; exact hd) rfl (by rw [hk']; exact hv _)).1, wrapRes_ok]
  cases v with
  | atom a =>
    cases a with
    | none => rfl
    | bool b => rfl
    | int b => rfl
    | float b => rfl
    | _ => simp [Val.cls, Atom.cls] at hc
  | seq k xs => cases k <;> simp [Val.cls, SeqKind.cls] at hc
  | _ => simp [Val.cls] at hc

/-- Numbers, booleans, texts and `None` are leaves, if they are hinted as what they are;
without a hint, this is so for all of them but texts, as a text may look like a
`datetime`. -/
theorem prim_leaf (hs : DefaultSers E.toEnv fork) (hd : DefaultDesers E fork)
    (hv : NoValidators E fork) (hf : kw.fork = fork) {a : Val} {hint ihint : Option Ty}
    (hc : a.cls ∈ [Cls.str, .int, .float, .bool, .noneType])
    (hh : hint = none ∨ hint = some (.cls a.cls))
    (hi : ihint = some (.cls a.cls) ∨ ihint = none ∧ a.cls ≠ .str) :
    LeafBack E fork kw 2 a hint ihint := by
  have hser : (Ty.cls a.cls).serFn E.info = some .primitive := by
    simp only [List.mem_cons, List.not_mem_nil, or_false] at hc
    rcases hc with h | h | h | h | h <;> rw [h] <;> rfl
  have hins : a.cls.sub E.info a.cls = true := by simp [Cls.sub]
  have hdump : ∀ (k0 : DumpKw), k0.fork = fork → ∀ n, 2 ≤ n →
      (dump E.toEnv (n + 1) a hint k0).val = .ok a := by
    intro k0 hk0 n hn
    obtain ⟨n, rfl⟩ : ∃ m, n = m + 1 := ⟨n - 1, by omega⟩
    rw [dump_via (f := .primitive) (by rw [hk0]; exact hs) (by rcases hh with rfl | rfl <;> exact hser)]
    rcases hh with rfl | rfl
    · rfl
    · simp only [callSer, primitiveSer, Env.isInstance, hins]
      split <;> rfl
  refine ⟨?_, a, a, ?_, .refl a, fun n hn => ⟨hdump (attrKw kw []) hf n hn, hdump (innerKw kw []) hf n hn⟩, ?_⟩
  · rintro c as rfl; simp [Val.cls] at hc
  · rintro es rfl; simp [Val.cls] at hc
  · intro n hn kw' hk'
    rcases hi with rfl | ⟨rfl, hstr⟩
    · exact prim_load hd hv hc hn hk'.fork
    · refine prim_free hd hv ?_ (by omega) hk'.fork
      simpa [hstr] using hc

end

/-! ### Examples -/

/-- `Point(x, y)` -/
def pt (x y : Int) : Val := .obj 0 [("x".toList, .int x), ("y".toList, .int y)]

theorem demo_verboseKw : DumpNeutral 0 { verboseKw with verbose := {} } :=
  ⟨rfl, rfl, rfl, rfl, rfl, rfl, rfl, rfl, rfl, rfl, rfl⟩

theorem demo_keeps : Keeps (demoLEnv demoInfo) 5 where
  kind := rfl
  noAttrs := rfl
  distinct := by decide
  names := by
    intro p hp
    have : p = { name := "name".toList } ∨ p = { name := "born".toList } := by
      have : p ∈ [({ name := "name".toList } : Param), { name := "born".toList }] := hp
      simpa using this
    rcases this with rfl | rfl <;> decide
  members := by intro m k h; cases h
  own := by intro p _ k h; cases h
  stores := fun _ _ => rfl

theorem demo_pt (x y : Int) : ObjTree (demoLEnv demoInfo) 0 verboseKw 2 1 (pt x y) := by
  refine ⟨0, _, rfl, demo_storing.toKeeps, by decide, rfl, rfl, ?_⟩
  intro a ha
  simp only [List.mem_cons, List.not_mem_nil, or_false] at ha
  rcases ha with rfl | rfl
  · exact ⟨(by show '/' ∉ "x".toList; decide), (by show "x".toList ≠ []; decide),
      (by show "x".toList ≠ clsKey; decide), .inl (prim_leaf (demo_sers 0) (demo_desers 0) (demo_novals 0)
      rfl (by simp [Val.cls, Atom.cls]) (.inr rfl) (.inl rfl))⟩
  · exact ⟨(by show '/' ∉ "y".toList; decide), (by show "y".toList ≠ []; decide),
      (by show "y".toList ≠ clsKey; decide), .inl (prim_leaf (demo_sers 0) (demo_desers 0) (demo_novals 0)
      rfl (by simp [Val.cls, Atom.cls]) (.inr rfl) (.inl rfl))⟩

/-- `Person(Point(1, 2), Point(3, 4))` -/
theorem demo_objTree :
    ObjTree (demoLEnv demoInfo) 0 verboseKw 2 2 (person (pt 1 2) (pt 3 4)) := by
  refine ⟨5, _, rfl, demo_keeps, by decide, rfl, rfl, ?_⟩
  intro a ha
  simp only [List.mem_cons, List.not_mem_nil, or_false] at ha
  rcases ha with rfl | rfl
  · exact ⟨by decide, by decide, by decide, .inr ⟨.inl rfl, demo_pt 1 2⟩⟩
  · exact ⟨by decide, by decide, by decide, .inr ⟨.inl rfl, demo_pt 3 4⟩⟩

theorem pt_at {x y : Int} {p : List PyStr} {c : Nat} {as : List (PyStr × Val)}
    (h : At (pt x y) p (.obj c as)) : as.map (·.1) = ["x".toList, "y".toList] := by
  cases h with
  | here => rfl
  | step h1 h2 =>
    simp only [List.mem_cons, Prod.mk.injEq, List.not_mem_nil, or_false] at h1
    rcases h1 with ⟨_, rfl⟩ | ⟨_, rfl⟩ <;> cases h2

theorem demo_apart : Apart (person (pt 1 2) (pt 3 4)) := by
  intro p c as ha m c1 as1 m' c2 as2 h1 h2 hne q c3 as3 h3
  have hpt : ∀ x y p, ¬ At (pt x y) p (.obj c as) := by
    intro x y p h
    cases h with
    | here =>
      simp only [List.mem_cons, Prod.mk.injEq, List.not_mem_nil, or_false] at h1
      rcases h1 with ⟨_, h1⟩ | ⟨_, h1⟩ <;> cases h1
    | step h4 h5 =>
      simp only [List.mem_cons, Prod.mk.injEq, List.not_mem_nil, or_false] at h4
      rcases h4 with ⟨_, rfl⟩ | ⟨_, rfl⟩ <;> cases h5
  have key : m' ∈ ["name".toList, "born".toList] ∧ ∃ x y, Val.obj c1 as1 = pt x y := by
    cases ha with
    | here =>
      simp only [List.mem_cons, Prod.mk.injEq, List.not_mem_nil, or_false] at h1 h2
      refine ⟨?_, ?_⟩
      · rcases h2 with ⟨rfl, _⟩ | ⟨rfl, _⟩ <;> simp
      · rcases h1 with ⟨_, h1⟩ | ⟨_, h1⟩
        · exact ⟨_, _, h1⟩
        · exact ⟨_, _, h1⟩
    | step h4 h5 =>
      simp only [List.mem_cons, Prod.mk.injEq, List.not_mem_nil, or_false] at h4
      rcases h4 with ⟨_, rfl⟩ | ⟨_, rfl⟩
      · exact absurd h5 (hpt _ _ _)
      · exact absurd h5 (hpt _ _ _)
  obtain ⟨hm, x, y, he⟩ := key
  rw [he] at h3
  rw [pt_at h3]
  simp only [List.mem_cons, List.not_mem_nil, or_false] at hm
  rcases hm with rfl | rfl <;> decide

example : ∃ j r, Same (person (pt 1 2) (pt 3 4)) r ∧
    (dump (demoEnv demoInfo) 10 (person (pt 1 2) (pt 3 4)) none verboseKw).val = .ok j ∧
    (load (demoLEnv demoInfo) 9 j none {}).val = .ok r := by
  obtain ⟨j, r, h1, h2⟩ := verbose_round_trip_partial (demoLEnv demoInfo) 0 2 2 verboseKw _ (demo_sers 0)
    (demo_desers 0) (demo_novals 0) demo_verboseKw rfl rfl demo_objTree demo_apart
  obtain ⟨h3, h4⟩ := h2 8 (by omega)
  exact ⟨j, r, h1, h3, h4 {} ⟨rfl, rfl, fun _ => rfl, rfl, rfl, by simp⟩ rfl⟩

/-! ### Where C60 is false -/

theorem via_ok {x : Except Err Val} {f : Val → Except Err Val} {r : Val}
    (h : x.bind f = .ok r) : ∃ j, x = .ok j ∧ f j = .ok r := by
  cases x with
  | error e => cases h
  | ok j => exact ⟨j, rfl, h⟩

/-- C60 is false for trees with equal names on different levels: the person in
`Person(Person(5, Point(8, 9)), Person(Point(1, 2), 7))` who is born last has a `Point`
as a name, but after a verbose dump and a load it is a `Person`, as the name of the
outermost person is one. -/
theorem verbose_round_trip_fails : ∃ j,
    (dump (demoEnv demoInfo) 9 (person (person (.int 5) (pt 8 9)) (person (pt 1 2) (.int 7))) none
      verboseKw).val = .ok j ∧
    (load (demoLEnv demoInfo) 9 j none {}).val = .ok (person (person (.int 5) (pt 8 9))
      (person (.obj 5 [("name".toList, .none), ("born".toList, .none), ("x".toList, .int 1),
        ("y".toList, .int 2)]) (.int 7))) :=
  via_ok (f := fun j => (load (demoLEnv demoInfo) 9 j none {}).val) (by decide +kernel)

/-- In the same way a tree can be such that its verbose dump cannot be loaded at all:
`Person(Person(5, 6), Person(1, 7))`. -/
theorem verbose_round_trip_raises : ∃ j e,
    (dump (demoEnv demoInfo) 9 (person (person (.int 5) (.int 6)) (person (.int 1) (.int 7))) none
      verboseKw).val = .ok j ∧
    (load (demoLEnv demoInfo) 9 j none {}).val = .error e ∧ e.kind.isJsonsError = true :=
  ⟨_, _, rfl, rfl, rfl⟩

/-- C60 is false for objects in objects in lists: the `Point` of
`Person([Person(Point(1, 2), 7)], 3)` is loaded as a dict, though the dump of the inner
person has its own `-meta`. -/
theorem verbose_round_trip_fails_list : ∃ j,
    (dump (demoEnv demoInfo) 9 (person (.list [person (pt 1 2) (.int 7)]) (.int 3)) none
      verboseKw).val = .ok j ∧
    (load (demoLEnv demoInfo) 9 j none {}).val = .ok (person (.list [person
      (.dict [(.str "x".toList, .int 1), (.str "y".toList, .int 2)]) (.int 7)]) (.int 3)) :=
  via_ok (f := fun j => (load (demoLEnv demoInfo) 9 j none {}).val) (by decide +kernel)

end Verif.Props.VerboseRoundTrip
