import Verif.Props.LoadBasics
import Verif.Props.LoadCollections
import Verif.Props.DumpCollections

/-! # The order of the members of a union (C117) -/

set_option autoImplicit false

namespace Verif.Props.UnionOrder

open Verif Verif.Core
open Verif.Props.LoadBasics Verif.Props.LoadCollections
open Verif.Props.DumpCollections (FirstOk union_dump)

/-! ## The specification -/

/-- The members that accept a value (`f` gives what a member makes of it) all make the same of it. -/
def Agree (f : Ty → Except Err Val) (ts : List Ty) : Prop :=
  ∀ a ∈ ts, ∀ b ∈ ts, ∀ x y, f a = .ok x → f b = .ok y → x = y

/-- The same value is returned, or neither call returns. -/
def SameResult (x y : Except Err Val) : Prop := ∀ r, x = .ok r ↔ y = .ok r

/-- `None` is loaded only as a union with the member `None`, and if no member has a name with
`union` or `optional` in it. -/
def NoneFine (E : LEnv) (v : Val) (ts : List Ty) : Prop :=
  v = .none → .cls .noneType ∈ ts ∧ ∀ t ∈ ts, ¬ OddName E t

/-- The second type is the first one with unions reordered, at whatever depth, whose members agree
on the parts of the document `v` that are loaded as these unions. -/
inductive Reordered (E : LEnv) : LoadKw → Val → Ty → Ty → Prop where
  | refl (kw : LoadKw) (v : Val) (t : Ty) : Reordered E kw v t t
  | trans (kw : LoadKw) (v : Val) (a b c : Ty) (h : Reordered E kw v a b) (h' : Reordered E kw v b c) :
      Reordered E kw v a c
  | swap (kw : LoadKw) (v : Val) (ts us : List Ty) (hp : ts.Perm us) (h1 : v.cls ∈ validTypes)
      (hm : NoMeta v) (hn : NoneFine E v ts)
      (ha : ∀ n, Agree (fun t => (load E n v (some t) kw).val) ts) :
      Reordered E kw v (.union ts) (.union us)
  | member (kw : LoadKw) (v : Val) (pre post : List Ty) (a b : Ty) (h1 : v.cls ∈ validTypes)
      (hm : NoMeta v) (hn : NoneFine E v (pre ++ a :: post)) (hn' : NoneFine E v (pre ++ b :: post))
      (h : Reordered E kw v a b) :
      Reordered E kw v (.union (pre ++ a :: post)) (.union (pre ++ b :: post))
  | list (kw : LoadKw) (v : Val) (xs : List Val) (a b : Ty) (h1 : v.cls ∈ validTypes)
      (hm : NoMeta v) (hx : v.iter = some xs) (he : ∀ x ∈ xs, NoMeta x)
      (h : ∀ x ∈ xs, Reordered E kw x a b) : Reordered E kw v (.gen .list [a]) (.gen .list [b])
  | tuple (kw : LoadKw) (v : Val) (xs : List Val) (pre post : List Ty) (a b : Ty)
      (h1 : v.cls ∈ validTypes) (hm : NoMeta v) (hx : v.iter = some xs) (he : ∀ x ∈ xs, NoMeta x)
      (h : ∀ x, xs[pre.length]? = some x → Reordered E { kw with keyTransformer := none } x a b) :
      Reordered E kw v (.gen .tuple (pre ++ a :: post)) (.gen .tuple (pre ++ b :: post))
  | dict (kw : LoadKw) (g : Gen) (es : List (Val × Val)) (k a b : Ty) (hg : g = .dict ∨ g = .mapping)
      (hm : dictGet es (.str metaKey) = none) (hh : dictGet es (.str keysKey) = none)
      (he : ∀ e ∈ es, NoMeta e.2)
      (hk : ∀ e ∈ es, ∀ k, kw.keyTransformer.getD .ok e.1 = .ok k → NoMeta k)
      (h : ∀ e ∈ es, Reordered E { kw with keyTransformer := some (kw.keyTransformer.getD .ok) } e.2 a b) :
      Reordered E kw (.dict es) (.gen g [k, a]) (.gen g [k, b])

/-- The second type is the first one with unions reordered, at whatever depth, whose members agree
on the parts of the value `v` that are dumped as these unions.  The types of the entries of dicts
can be anything. -/
inductive ReorderedD (E : Env) : DumpKw → Val → Ty → Ty → Prop where
  | refl (kw : DumpKw) (v : Val) (t : Ty) : ReorderedD E kw v t t
  | trans (kw : DumpKw) (v : Val) (a b c : Ty) (h : ReorderedD E kw v a b)
      (h' : ReorderedD E kw v b c) : ReorderedD E kw v a c
  | swap (kw : DumpKw) (v : Val) (ts us : List Ty) (hp : ts.Perm us)
      (ha : ∀ n, Agree (fun t => (dump E n v (some t) kw).val) ts) :
      ReorderedD E kw v (.union ts) (.union us)
  | member (kw : DumpKw) (v : Val) (pre post : List Ty) (a b : Ty)
      (hn : v = .none → (a = .cls .noneType ↔ b = .cls .noneType)) (h : ReorderedD E kw v a b) :
      ReorderedD E kw v (.union (pre ++ a :: post)) (.union (pre ++ b :: post))
  | each (kw : DumpKw) (v : Val) (g : Gen) (a b : Ty)
      (hg : g ∈ [.list, .set, .frozenset, .deque, .iterable, .tuple, .tupleEll])
      (h : ∀ xs, v.iter = some xs → ∀ x ∈ xs, ReorderedD E { kw with storeCls := false } x a b) :
      ReorderedD E kw v (.gen g [a]) (.gen g [b])
  | nth (kw : DumpKw) (v : Val) (pre post : List Ty) (a b : Ty) (hl : pre ≠ [] ∨ post ≠ [])
      (h : ∀ xs x, v.iter = some xs → xs[pre.length]? = some x →
        ReorderedD E { kw with storeCls := false } x a b) :
      ReorderedD E kw v (.gen .tuple (pre ++ a :: post)) (.gen .tuple (pre ++ b :: post))
  | dict (kw : DumpKw) (v : Val) (g : Gen) (k a b : Ty) (hg : g ∈ [.dict, .defaultdict, .mapping]) :
      ReorderedD E kw v (.gen g [k, a]) (.gen g [k, b])

/-! ## Lemmas -/

theorem first_agree {f : Ty → Except Err Val} {ts : List Ty} {r : Val} (ha : Agree f ts) :
    FirstLoads f ts r ↔ ∃ t ∈ ts, f t = .ok r := by
  constructor
  · rintro ⟨pre, a, post, rfl, _, h⟩
    exact ⟨a, by simp, h⟩
  · rintro ⟨t, ht, hr⟩
    induction ts with
    | nil => cases ht
    | cons b l ih =>
      rcases except_cases (f b) with ⟨r', hr'⟩ | ⟨e, he⟩
      · have : r' = r := ha b (by simp) t ht _ _ hr' hr
        exact ⟨[], b, l, rfl, (by intro _ h; cases h), this ▸ hr'⟩
      · have ht' : t ∈ l := by
          rcases List.mem_cons.1 ht with rfl | h
          · rw [he] at hr; cases hr
          · exact h
        obtain ⟨pre, a, post, rfl, h2, h3⟩ := ih
          (fun a h b h' => ha a (List.mem_cons_of_mem _ h) b (List.mem_cons_of_mem _ h')) ht'
        refine ⟨b :: pre, a, post, rfl, ?_, h3⟩
        intro c hc x
        rcases List.mem_cons.1 hc with rfl | hc
        · rw [he]; nofun
        · exact h2 c hc x

theorem agree_perm {f : Ty → Except Err Val} {ts us : List Ty} (h : ts.Perm us) (ha : Agree f ts) :
    Agree f us := fun a h1 b h2 => ha a (h.mem_iff.2 h1) b (h.mem_iff.2 h2)

theorem first_perm {f : Ty → Except Err Val} {ts us : List Ty} {r : Val} (h : ts.Perm us)
    (ha : Agree f ts) : FirstLoads f ts r ↔ FirstLoads f us r := by
  rw [first_agree ha, first_agree (agree_perm h ha)]
  simp only [h.mem_iff]

theorem firstOk_iff {f : Ty → Except Err Val} {ts : List Ty} {r : Val} :
    FirstOk f ts r ↔ FirstLoads f ts r := by
  constructor
  · rintro ⟨pre, a, post, h, h1, h2⟩
    refine ⟨pre, a, post, h, ?_, h2⟩
    intro b hb x hx
    obtain ⟨e, he⟩ := h1 b hb
    rw [he] at hx; cases hx
  · rintro ⟨pre, a, post, h, h1, h2⟩
    refine ⟨pre, a, post, h, ?_, h2⟩
    intro b hb
    rcases except_cases (f b) with ⟨x, hx⟩ | h
    · exact absurd hx (h1 b hb x)
    · exact h

theorem first_member {f : Ty → Except Err Val} {pre post : List Ty} {a b : Ty} {r : Val}
    (h : SameResult (f a) (f b)) :
    FirstLoads f (pre ++ a :: post) r → FirstLoads f (pre ++ b :: post) r := by
  induction pre with
  | nil =>
    rintro ⟨p, c, q, he, h1, h2⟩
    cases p with
    | nil =>
      obtain ⟨rfl, rfl⟩ : a = c ∧ post = q := by simpa using he
      exact ⟨[], b, post, rfl, (by intro _ h; cases h), (h r).1 h2⟩
    | cons x p =>
      obtain ⟨rfl, rfl⟩ : a = x ∧ post = p ++ c :: q := by simpa using he
      refine ⟨b :: p, c, q, rfl, ?_, h2⟩
      intro d hd y hy
      rcases List.mem_cons.1 hd with rfl | hd
      · exact h1 a (by simp) y ((h y).2 hy)
      · exact h1 d (by simp [hd]) y hy
  | cons z pre ih =>
    rintro ⟨p, c, q, he, h1, h2⟩
    cases p with
    | nil =>
      obtain ⟨rfl, rfl⟩ : z = c ∧ pre ++ a :: post = q := by simpa using he
      exact ⟨[], z, _, rfl, (by intro _ h; cases h), h2⟩
    | cons x p =>
      obtain ⟨rfl, he2⟩ : z = x ∧ pre ++ a :: post = p ++ c :: q := by simpa using he
      obtain ⟨p', c', q', he', h1', h2'⟩ := ih ⟨p, c, q, he2, fun d hd => h1 d (by simp [hd]), h2⟩
      refine ⟨z :: p', c', q', by rw [List.cons_append, he']; rfl, ?_, h2'⟩
      intro d hd y
      rcases List.mem_cons.1 hd with rfl | hd
      · exact h1 d (by simp) y
      · exact h1' d hd y

theorem SameResult.symm {x y : Except Err Val} (h : SameResult x y) : SameResult y x :=
  fun r => (h r).symm

/-- With a stack of depth 1, no member of a union is tried. -/
theorem union_shallow {E : LEnv} {v : Val} {ts : List Ty} {kw : LoadKw} {r : Val}
    (hd : DefaultDesers E kw.fork) (hv : NoValidators E kw.fork) (h1 : v.cls ∈ validTypes)
    (hm : NoMeta v) (hn : NoneFine E v ts) (n : Nat) (h0 : n ≤ 1) :
    (load E n v (some (.union ts)) kw).val ≠ .ok r := by
  intro h
  match n, h0 with
  | 0, _ => cases h
  | 1, _ =>
    have hstep := (load_via_des (E := E) (n := 0) (t := .union ts) (kw := kw)
      (fun h => canMatch_true E _ (.union (hn h).1))
      (by rintro (⟨_, h⟩ | h) <;> cases h) h1 (noMeta_get hm _) (.inr rfl) (hd _) (hv _)).1
    rw [hstep, wrapRes_ok] at h
    cases ts with
    | nil => cases h
    | cons a ts => cases h

theorem elementwise_member {f : Ty → Val → Except Err Val} {pre post : List Ty} {a b : Ty} :
    ∀ {xs ys : List Val}, (∀ x, xs[pre.length]? = some x → SameResult (f a x) (f b x)) →
      Elementwise f (pre ++ a :: post) xs ys → Elementwise f (pre ++ b :: post) xs ys := by
  induction pre with
  | nil =>
    intro xs ys h he
    cases he with
    | nil => exact .nil
    | cons h1 h2 => exact .cons ((h _ rfl _).1 h1) h2
  | cons z pre ih =>
    intro xs ys h he
    cases he with
    | nil => exact .nil
    | cons h1 h2 => exact .cons h1 (ih (fun x hx => h x (by simpa using hx)) h2)

theorem forall₂_same {xs ys : List Val} {f g : Val → Except Err Val}
    (h : ∀ x ∈ xs, SameResult (f x) (g x)) (hf : List.Forall₂ (fun x y => f x = .ok y) xs ys) :
    List.Forall₂ (fun x y => g x = .ok y) xs ys := by
  induction hf with
  | nil => exact .nil
  | cons h1 _ ih => exact .cons ((h _ (by simp) _).1 h1) (ih fun x hx => h x (by simp [hx]))

theorem zip_replicate {P : Val × Option Ty → Val → Prop} {t : Option Ty} :
    ∀ {xs ys : List Val}, List.Forall₂ P (xs.zip (List.replicate xs.length t)) ys ↔
      List.Forall₂ (fun x y => P (x, t) y) xs ys := by
  intro xs
  induction xs with
  | nil => intro ys; simp
  | cons x xs ih =>
    intro ys
    cases ys with
    | nil => simp [List.replicate_succ]
    | cons y ys =>
      rw [List.length_cons, List.replicate_succ, List.zip_cons_cons, List.forall₂_cons,
        List.forall₂_cons, ih]

theorem zip_member {f : Val → Option Ty → Except Err Val} {pre post : List Ty} {a b : Ty} :
    ∀ {xs ys : List Val}, (∀ x, xs[pre.length]? = some x → SameResult (f x (some a)) (f x (some b))) →
      List.Forall₂ (fun p y => f p.1 p.2 = .ok y) (xs.zip ((pre ++ a :: post).map some)) ys →
      List.Forall₂ (fun p y => f p.1 p.2 = .ok y) (xs.zip ((pre ++ b :: post).map some)) ys := by
  induction pre with
  | nil =>
    intro xs ys h he
    cases xs with
    | nil => simpa using he
    | cons x xs =>
      simp only [List.nil_append, List.map_cons, List.zip_cons_cons] at he ⊢
      cases he with
      | cons h1 h2 => exact .cons ((h _ rfl _).1 h1) h2
  | cons z pre ih =>
    intro xs ys h he
    cases xs with
    | nil => simpa using he
    | cons x xs =>
      simp only [List.cons_append, List.map_cons, List.zip_cons_cons] at he ⊢
      cases he with
      | cons h1 h2 => exact .cons h1 (ih (fun x hx => h x (by simpa using hx)) h2)

theorem iterableSer_ok {E : Env} {rec : Rec} {v r : Val} {t : Ty} {kw : DumpKw} :
    (iterableSer E rec v (some t) kw).val = .ok r ↔ ∃ xs ts ys, v.iter = some xs ∧ r = .list ys ∧
      getSubclasses xs.length (if kw.strict then some t else none) = .ok ts ∧
      List.Forall₂ (fun (p : Val × Option Ty) y =>
        (rec.dump p.1 p.2 { kw with storeCls := false }).val = .ok y) (xs.zip ts) ys := by
  have he : ∀ n, elementTypes E v n (some t) kw.strict =
      Res.lift (getSubclasses n (if kw.strict then some t else none)) := by
    intro n
    unfold elementTypes
    cases kw.strict
    · rfl
    · simp only [if_true, determineCls, liftK_of_ok, pure_bind']
  unfold iterableSer
  dsimp only
  cases v.iter with
  | none => simp
  | some xs =>
    simp only [he, Core.bind_ok, lift_val, mapRes_ok, pure_val, Except.ok.injEq, Option.some.injEq]
    constructor
    · rintro ⟨ts, h1, ys, h2, h3⟩
      exact ⟨xs, ts, ys, rfl, h3.symm, h1, h2⟩
    · rintro ⟨_, ts, ys, rfl, h3, h1, h2⟩
      exact ⟨ts, h1, ys, h2, h3.symm⟩

theorem subclasses_replicate (n : Nat) (g : Gen) (t : Ty) :
    getSubclasses n (some (.gen g (List.replicate n t))) = .ok (List.replicate n (some t)) := by
  match n with
  | 0 => rfl
  | 1 => rfl
  | n + 2 => simp [getSubclasses, Ty.getArgs, List.replicate_succ]

theorem subclasses_single (n : Nat) (g : Gen) (t : Ty) :
    getSubclasses n (some (.gen g [t])) = .ok (List.replicate n (some t)) := by
  simp [getSubclasses, Ty.getArgs]

theorem subclasses_many (n : Nat) (g : Gen) (pre post : List Ty) (t : Ty) (h : pre ≠ [] ∨ post ≠ []) :
    getSubclasses n (some (.gen g (pre ++ t :: post))) =
      if pre.length + post.length + 1 = n then .ok ((pre ++ t :: post).map some)
      else .error { kind := .serializationError } := by
  have hl : (pre ++ t :: post).length = pre.length + post.length + 1 := by simp; omega
  unfold getSubclasses
  simp only [Option.map_some, Option.getD_some, Ty.getArgs]
  rw [← hl]
  generalize hts : pre ++ t :: post = ts
  have : 2 ≤ ts.length := by
    rw [← hts, hl]
    rcases h with h | h
    · have := List.length_pos_iff.2 h; omega
    · have := List.length_pos_iff.2 h; omega
  match ts, this with
  | a :: b :: l, _ =>
    simp only [List.length_map]
    split
    · rfl
    · rename_i h1; rw [if_pos (by simpa using h1)]

/-- All elements are dumped as `a`, or all as `b`. -/
theorem iterable_each {E : Env} {rec : Rec} {v r : Val} {c c' a b : Ty} {kw : DumpKw}
    (h : ∀ xs, v.iter = some xs → getSubclasses xs.length (some c) = .ok (List.replicate xs.length (some a)))
    (h' : ∀ xs, v.iter = some xs → getSubclasses xs.length (some c') = .ok (List.replicate xs.length (some b)))
    (hs : ∀ xs, v.iter = some xs → ∀ x ∈ xs, SameResult (rec.dump x (some a) { kw with storeCls := false }).val
      (rec.dump x (some b) { kw with storeCls := false }).val)
    (hr : (iterableSer E rec v (some c) kw).val = .ok r) :
    (iterableSer E rec v (some c') kw).val = .ok r := by
  rw [iterableSer_ok] at hr ⊢
  obtain ⟨xs, ts, ys, hx, rfl, h1, h2⟩ := hr
  by_cases hk : kw.strict = true
  case neg => rw [if_neg hk] at h1 ⊢; exact ⟨xs, ts, ys, hx, rfl, h1, h2⟩
  case pos =>
    rw [if_pos hk, h xs hx] at h1
    cases h1
    refine ⟨xs, _, ys, hx, rfl, by rw [if_pos hk]; exact h' xs hx, ?_⟩
    rw [zip_replicate] at h2 ⊢
    exact forall₂_same (f := fun x => (rec.dump x (some a) { kw with storeCls := false }).val)
      (g := fun x => (rec.dump x (some b) { kw with storeCls := false }).val) (hs xs hx) h2

/-- The element that is dumped as `a` is dumped as `b`. -/
theorem iterable_nth {E : Env} {rec : Rec} {v r : Val} {pre post : List Ty} {a b : Ty} {kw : DumpKw}
    (hl : pre ≠ [] ∨ post ≠ [])
    (hs : ∀ xs x, v.iter = some xs → xs[pre.length]? = some x →
      SameResult (rec.dump x (some a) { kw with storeCls := false }).val
        (rec.dump x (some b) { kw with storeCls := false }).val)
    (hr : (iterableSer E rec v (some (.gen .tuple (pre ++ a :: post))) kw).val = .ok r) :
    (iterableSer E rec v (some (.gen .tuple (pre ++ b :: post))) kw).val = .ok r := by
  rw [iterableSer_ok] at hr ⊢
  obtain ⟨xs, ts, ys, hx, rfl, h1, h2⟩ := hr
  by_cases hk : kw.strict = true
  case neg => rw [if_neg hk] at h1 ⊢; exact ⟨xs, ts, ys, hx, rfl, h1, h2⟩
  case pos =>
    rw [if_pos hk, subclasses_many _ _ _ _ _ hl] at h1
    split at h1
    · rename_i hn
      cases h1
      refine ⟨xs, _, ys, hx, rfl, by rw [if_pos hk, subclasses_many _ _ _ _ _ hl, if_pos hn], ?_⟩
      exact zip_member (f := fun x t => (rec.dump x t { kw with storeCls := false }).val) (hs xs · hx) h2
    · cases h1

theorem tupleSer_of_iterable {E : Env} {rec : Rec} {v r : Val} {t u c c' : Ty} {kw : DumpKw}
    (ht : v.iter.isSome → tupleCls v (some t) = pure (some c))
    (ht' : tupleCls v (some u) = if v.iter.isSome then pure (some c') else tupleCls v (some t))
    (h : (iterableSer E rec v (some c) kw).val = .ok r → (iterableSer E rec v (some c') kw).val = .ok r) :
    (tupleSer E rec v (some t) kw).val = .ok r → (tupleSer E rec v (some u) kw).val = .ok r := by
  intro hr
  by_cases hi : v.iter.isSome
  · rw [if_pos hi] at ht'
    unfold tupleSer at hr ⊢
    cases v
    case ntuple => exact hr
    all_goals
      simp only [ht hi, ht', pure_bind'] at hr ⊢
      exact h hr
  · rw [if_neg hi] at ht'
    have hn : v.iter = none := by simpa using hi
    exfalso
    unfold tupleSer at hr
    cases v
    case ntuple => simp [Val.iter] at hn
    all_goals
      simp only [Core.bind_ok] at hr
      obtain ⟨x, _, h2⟩ := hr
      unfold iterableSer at h2
      rw [hn] at h2
      cases h2

theorem listSer_each {E : Env} {n : Nat} {v r : Val} {a b : Ty} {kw : DumpKw}
    (hds : DefaultSers E kw.fork)
    (hs : ∀ xs, v.iter = some xs → ∀ x ∈ xs, SameResult
      (dump E (n + 1) x (some a) { kw with storeCls := false }).val
      (dump E (n + 1) x (some b) { kw with storeCls := false }).val)
    (hr : (listSer E (recOf E n) v (some (.gen .list [a])) kw).val = .ok r) :
    (listSer E (recOf E n) v (some (.gen .list [b])) kw).val = .ok r := by
  have hk : DefaultSers E ({ kw with storeCls := false } : DumpKw).fork := hds
  unfold listSer at hr ⊢
  split at hr
  · rename_i hf; rw [if_pos hf]; exact hr
  · rename_i hf
    rw [if_neg hf]
    simp only [Option.map_some, Option.getD_some, Ty.getArgs] at hr ⊢
    cases hx : v.iter with
    | none => rw [hx] at hr; cases hr
    | some xs =>
      rw [hx] at hr
      simp only [listSer.typed, hds _, liftK_of_ok, pure_bind', Core.bind_ok, pure_val,
        mapRes_ok] at hr ⊢
      obtain ⟨ys, h1, h2⟩ := hr
      refine ⟨ys, ?_, h2⟩
      refine (forall₂_same (hs xs hx) (h1.imp fun x y h => ?_)).imp fun x y h => ?_
      · rw [dump_ok_iff hk, Option.getD_some]
        cases hf : a.serFn E.info with
        | none => rw [hf] at h; cases h
        | some f => rw [hf] at h; exact ⟨f, rfl, h⟩
      · rw [dump_ok_iff hk, Option.getD_some] at h
        obtain ⟨f, hf, h⟩ := h
        rw [hf]; exact h

/-! ## C117 -/

/-- C117: If the members of the unions in a type agree on what they accept (in particular if only
one member accepts it), then it does not matter in which order they are listed, at whatever depth
of the type. -/
theorem union_order_load_partial (E : LEnv) (n : Nat) (v : Val) (t u : Ty) (kw : LoadKw)
    (hd : DefaultDesers E kw.fork) (hv : NoValidators E kw.fork) (hw : kw.warnOnFail = false)
    (hi : kw.inferred = false) (h : Reordered E kw v t u) :
    SameResult (load E n v (some t) kw).val (load E n v (some u) kw).val := by
  induction h generalizing n with
  | refl => exact fun _ => .rfl
  | trans kw v a b c _ _ ih ih' => exact fun r => (ih n hd hv hw hi r).trans (ih' n hd hv hw hi r)
  | swap kw v ts us hp h1 hm hn ha =>
    have hn' : NoneFine E v us := fun h0 =>
      ⟨hp.mem_iff.1 (hn h0).1, fun t ht => (hn h0).2 t (hp.mem_iff.2 ht)⟩
    intro r
    by_cases h0 : n ≤ 1
    · exact iff_of_false (union_shallow hd hv h1 hm hn n h0) (union_shallow hd hv h1 hm hn' n h0)
    · obtain ⟨n, rfl⟩ : ∃ m, n = m + 2 := ⟨n - 2, by omega⟩
      rw [(union_load_partial E n v ts kw (lookupsOk_of_default hd hv) (hd _) (hv _) h1
          (noMeta_metaOk hm) hi hn).1 r,
        (union_load_partial E n v us kw (lookupsOk_of_default hd hv) (hd _) (hv _) h1
          (noMeta_metaOk hm) hi hn').1 r]
      exact first_perm hp (ha _)
  | member kw v pre post a b h1 hm hn hn' _ ih =>
    intro r
    by_cases h0 : n ≤ 1
    · exact iff_of_false (union_shallow hd hv h1 hm hn n h0) (union_shallow hd hv h1 hm hn' n h0)
    · obtain ⟨n, rfl⟩ : ∃ m, n = m + 2 := ⟨n - 2, by omega⟩
      rw [(union_load_partial E n v _ kw (lookupsOk_of_default hd hv) (hd _) (hv _) h1
          (noMeta_metaOk hm) hi hn).1 r,
        (union_load_partial E n v _ kw (lookupsOk_of_default hd hv) (hd _) (hv _) h1
          (noMeta_metaOk hm) hi hn').1 r]
      have := ih (n + 1) hd hv hw hi
      exact ⟨first_member this, first_member this.symm⟩
  | list kw v xs a b h1 hm hx he _ ih =>
    intro r
    cases n with
    | zero => exact iff_of_false nofun nofun
    | succ n =>
      rw [list_load E n v r xs a kw hd hv h1 hm hx he hw, list_load E n v r xs b kw hd hv h1 hm hx he hw]
      have := fun x hx => ih x hx n hd hv hw hi
      constructor
      · rintro ⟨ys, rfl, h⟩
        exact ⟨ys, rfl, forall₂_same this h⟩
      · rintro ⟨ys, rfl, h⟩
        exact ⟨ys, rfl, forall₂_same (fun x hx => (this x hx).symm) h⟩
  | tuple kw v xs pre post a b h1 hm hx he _ ih =>
    intro r
    cases n with
    | zero => exact iff_of_false nofun nofun
    | succ n =>
      have key : ∀ c, (load E (n + 1) v (some (.gen .tuple (pre ++ c :: post))) kw).val = .ok r ↔
          ∃ ys, r = .tuple ys ∧ xs.length ≤ (pre ++ c :: post).length ∧
            Elementwise (fun t x => (load E n x (some t) { kw with keyTransformer := none }).val)
              (pre ++ c :: post) xs ys := by
        intro c
        cases pre with
        | nil => exact tuple_load_partial E n v r xs c post kw hd hv h1 hm hx he
        | cons p pre => exact tuple_load_partial E n v r xs p (pre ++ c :: post) kw hd hv h1 hm hx he
      rw [key a, key b]
      have hih := fun x hx => ih x hx n hd hv hw hi
      constructor
      · rintro ⟨ys, rfl, hl, h⟩
        exact ⟨ys, rfl, (by simpa using hl), elementwise_member (a := a) (b := b) hih h⟩
      · rintro ⟨ys, rfl, hl, h⟩
        exact ⟨ys, rfl, (by simpa using hl), elementwise_member (a := b) (b := a) (fun x hx => (hih x hx).symm) h⟩
  | dict kw g es k a b hg hm hh he hk _ ih =>
    intro r
    cases n with
    | zero => exact iff_of_false nofun nofun
    | succ n =>
      rw [dict_load_partial E n g es r k a kw hg hd hv hm hh he hk,
        dict_load_partial E n g es r k b kw hg hd hv hm hh he hk]
      have hih := fun e h => ih e h n hd hv hw hi
      have swap : ∀ {a b : Ty} {es ps : List (Val × Val)}, (∀ e ∈ es, SameResult
          (load E n e.2 (some a) { kw with keyTransformer := some (kw.keyTransformer.getD .ok) }).val
          (load E n e.2 (some b) { kw with keyTransformer := some (kw.keyTransformer.getD .ok) }).val) →
          List.Forall₂ (fun (e p : Val × Val) =>
            (∃ q, kw.keyTransformer.getD .ok e.1 = .ok q ∧
              (load E n q (some k) { kw with keyTransformer := none }).val = .ok p.1) ∧
            (load E n e.2 (some a) { kw with keyTransformer := some (kw.keyTransformer.getD .ok) }).val
              = .ok p.2 ∧ p.1.hashable E.info = true) es ps →
          List.Forall₂ (fun (e p : Val × Val) =>
            (∃ q, kw.keyTransformer.getD .ok e.1 = .ok q ∧
              (load E n q (some k) { kw with keyTransformer := none }).val = .ok p.1) ∧
            (load E n e.2 (some b) { kw with keyTransformer := some (kw.keyTransformer.getD .ok) }).val
              = .ok p.2 ∧ p.1.hashable E.info = true) es ps := by
        intro a b es ps h hf
        induction hf with
        | nil => exact .nil
        | cons h1 _ ih =>
          exact .cons ⟨h1.1, (h _ (by simp) _).1 h1.2.1, h1.2.2⟩ (ih fun e he => h e (by simp [he]))
      constructor
      · rintro ⟨ps, h, h'⟩
        exact ⟨ps, swap hih h, h'⟩
      · rintro ⟨ps, h, h'⟩
        exact ⟨ps, swap (fun e he => (hih e he).symm) h, h'⟩

theorem shallow_dump {E : Env} {n : Nat} {v r : Val} {t : Ty} {kw : DumpKw}
    (hds : DefaultSers E kw.fork) (hn : n ≤ 1) : (dump E n v (some t) kw).val ≠ .ok r := by
  intro h
  match n, hn with
  | 0, _ => cases h
  | 1, _ =>
    rw [dump_ok_iff hds] at h
    obtain ⟨f, _, h⟩ := h
    cases h

/-- What a dump as a union gives. -/
theorem union_dump_all (E : Env) (n : Nat) (v r : Val) (ts : List Ty) (kw : DumpKw)
    (hds : DefaultSers E kw.fork) :
    (dump E (n + 2) v (some (.union ts)) kw).val = .ok r ↔
      if v = .none ∧ .cls .noneType ∈ ts then r = .none
      else FirstLoads (fun t => (dump E n v (some t) kw).val) ts r := by
  cases n with
  | succ n => rw [union_dump E n v ts kw hds]; simp only [firstOk_iff]
  | zero =>
    rw [dump_via hds (f := .union) rfl]
    simp only [callSer, unionSer, Option.bind_some, Ty.unionParams]
    split
    · rename_i h; rw [h.1]; simp [eq_comm]
    · constructor
      · intro h
        exfalso
        cases ts with
        | nil => cases h
        | cons a ts => cases h
      · rintro ⟨_, _, _, _, _, h⟩
        cases h

/-- C117, for `dump`: if the members of the unions in a type that can dump what is dumped as these
unions agree on the result, then it does not matter in which order they are listed, at whatever
depth of the type. -/
theorem union_order_dump_partial (E : Env) (n : Nat) (v : Val) (t u : Ty) (kw : DumpKw)
    (hds : DefaultSers E kw.fork) (h : ReorderedD E kw v t u) :
    SameResult (dump E n v (some t) kw).val (dump E n v (some u) kw).val := by
  by_cases h0 : n ≤ 1
  · exact fun r => iff_of_false (shallow_dump hds h0) (shallow_dump hds h0)
  obtain ⟨n, rfl⟩ : ∃ m, n = m + 2 := ⟨n - 2, by omega⟩
  clear h0
  induction h generalizing n with
  | refl => exact fun _ => .rfl
  | trans kw v a b c _ _ ih ih' => exact fun r => (ih hds n r).trans (ih' hds n r)
  | swap kw v ts us hp ha =>
    intro r
    rw [union_dump_all E n v r ts kw hds, union_dump_all E n v r us kw hds]
    simp only [hp.mem_iff]
    split
    · exact .rfl
    · exact first_perm hp (ha _)
  | member kw v pre post a b hn _ ih =>
    intro r
    rw [union_dump_all E n v r _ kw hds, union_dump_all E n v r _ kw hds]
    have hm : (v = .none ∧ .cls .noneType ∈ pre ++ a :: post) ↔
        (v = .none ∧ .cls .noneType ∈ pre ++ b :: post) := by
      constructor
      · rintro ⟨h, h'⟩
        refine ⟨h, ?_⟩
        simp only [List.mem_append, List.mem_cons] at h' ⊢
        rcases h' with h' | h' | h'
        · exact .inl h'
        · exact .inr (.inl ((hn h).1 h'.symm).symm)
        · exact .inr (.inr h')
      · rintro ⟨h, h'⟩
        refine ⟨h, ?_⟩
        simp only [List.mem_append, List.mem_cons] at h' ⊢
        rcases h' with h' | h' | h'
        · exact .inl h'
        · exact .inr (.inl ((hn h).2 h'.symm).symm)
        · exact .inr (.inr h')
    simp only [hm]
    split
    · exact .rfl
    · have : SameResult (dump E n v (some a) kw).val (dump E n v (some b) kw).val := by
        by_cases h0 : n ≤ 1
        · exact fun r => iff_of_false (shallow_dump hds h0) (shallow_dump hds h0)
        · obtain ⟨n, rfl⟩ : ∃ m, n = m + 2 := ⟨n - 2, by omega⟩
          exact ih hds n
      exact ⟨first_member this, first_member this.symm⟩
  | each kw v g a b hg _ ih =>
    have hk : DefaultSers E ({ kw with storeCls := false } : DumpKw).fork := hds
    have hs : ∀ m xs, v.iter = some xs → ∀ x ∈ xs, SameResult
        (dump E m x (some a) { kw with storeCls := false }).val
        (dump E m x (some b) { kw with storeCls := false }).val := by
      intro m xs hx x hm
      by_cases h0 : m ≤ 1
      · exact fun r => iff_of_false (shallow_dump hk h0) (shallow_dump hk h0)
      · obtain ⟨m, rfl⟩ : ∃ k, m = k + 2 := ⟨m - 2, by omega⟩
        exact ih xs hx x hm hk m
    have hs' : ∀ m xs, v.iter = some xs → ∀ x ∈ xs, SameResult
        (dump E m x (some b) { kw with storeCls := false }).val
        (dump E m x (some a) { kw with storeCls := false }).val :=
      fun m xs hx x hm => (hs m xs hx x hm).symm
    intro r
    have it : ∀ g g', (iterableSer E (recOf E n) v (some (.gen g [a])) kw).val = .ok r ↔
        (iterableSer E (recOf E n) v (some (.gen g' [b])) kw).val = .ok r := fun g g' =>
      ⟨iterable_each (fun _ _ => subclasses_single _ _ _) (fun _ _ => subclasses_single _ _ _) (hs n),
       iterable_each (fun _ _ => subclasses_single _ _ _) (fun _ _ => subclasses_single _ _ _) (hs' n)⟩
    simp only [List.mem_cons, List.not_mem_nil, or_false] at hg
    rcases hg with rfl | rfl | rfl | rfl | rfl | rfl | rfl
    · rw [dump_via hds (f := .list) rfl, dump_via hds (f := .list) rfl]
      exact ⟨listSer_each hds (hs (n + 1)), listSer_each hds (hs' (n + 1))⟩
    · rw [dump_via hds (f := .iterable) rfl, dump_via hds (f := .iterable) rfl]
      exact it _ _
    · rw [dump_via hds (f := .iterable) rfl, dump_via hds (f := .iterable) rfl]
      exact it _ _
    · rw [dump_via hds (f := .iterable) rfl, dump_via hds (f := .iterable) rfl]
      exact it _ _
    · rw [dump_via hds (f := .iterable) rfl, dump_via hds (f := .iterable) rfl]
      exact it _ _
    · rw [dump_via hds (f := .tuple) rfl, dump_via hds (f := .tuple) rfl]
      have h1 : ∀ c, tupleCls v (some (.gen .tuple [c])) = pure (some (.gen .tuple [c])) := fun c => rfl
      cases v
      case ntuple => exact .rfl
      all_goals
        simp only [callSer, tupleSer, h1, pure_bind']
        exact it _ _
    · rw [dump_via hds (f := .tuple) rfl, dump_via hds (f := .tuple) rfl]
      have h1 : ∀ c xs, v.iter = some xs → tupleCls v (some (.gen .tupleEll [c])) =
          pure (some (.gen .tuple (List.replicate xs.length c))) := by
        intro c xs hx
        simp only [tupleCls, tupleWithEllipsis, hx]
        rfl
      have h2 : ∀ c, v.iter = none → tupleCls v (some (.gen .tupleEll [c])) =
          Res.raise { kind := .typeError } := by
        intro c hx
        simp only [tupleCls, tupleWithEllipsis, hx]
      simp only [callSer]
      have go : ∀ c d, (∀ m xs, v.iter = some xs → ∀ x ∈ xs, SameResult
          (dump E m x (some c) { kw with storeCls := false }).val
          (dump E m x (some d) { kw with storeCls := false }).val) →
          (tupleSer E (recOf E n) v (some (.gen .tupleEll [c])) kw).val = .ok r →
          (tupleSer E (recOf E n) v (some (.gen .tupleEll [d])) kw).val = .ok r := by
        intro c d hcd
        rcases hx : v.iter with _ | xs
        · refine tupleSer_of_iterable (c := c) (c' := c) (by simp [hx]) ?_ id
          rw [h2 _ hx, h2 _ hx, hx]; rfl
        · refine tupleSer_of_iterable (c := .gen .tuple (List.replicate xs.length c))
            (c' := .gen .tuple (List.replicate xs.length d)) (fun _ => h1 c xs hx)
            (by rw [h1 d xs hx, hx]; rfl) ?_
          refine iterable_each (a := c) (b := d) ?_ ?_ (hcd n)
          · intro zs hz
            obtain rfl : xs = zs := by rw [hx] at hz; exact Option.some.inj hz
            exact subclasses_replicate _ _ _
          · intro zs hz
            obtain rfl : xs = zs := by rw [hx] at hz; exact Option.some.inj hz
            exact subclasses_replicate _ _ _
      exact ⟨go a b hs, go b a hs'⟩
  | nth kw v pre post a b hl _ ih =>
    have hk : DefaultSers E ({ kw with storeCls := false } : DumpKw).fork := hds
    have hs : ∀ xs x, v.iter = some xs → xs[pre.length]? = some x → SameResult
        (dump E n x (some a) { kw with storeCls := false }).val
        (dump E n x (some b) { kw with storeCls := false }).val := by
      intro xs x hx hm
      by_cases h0 : n ≤ 1
      · exact fun r => iff_of_false (shallow_dump hk h0) (shallow_dump hk h0)
      · obtain ⟨m, rfl⟩ : ∃ k, n = k + 2 := ⟨n - 2, by omega⟩
        exact ih xs x hx hm hk m
    intro r
    rw [dump_via hds (f := .tuple) rfl, dump_via hds (f := .tuple) rfl]
    have h1 : ∀ c, tupleCls v (some (.gen .tuple (pre ++ c :: post))) =
        pure (some (.gen .tuple (pre ++ c :: post))) := by
      intro c; cases pre <;> rfl
    cases v
    case ntuple => exact .rfl
    all_goals
      simp only [callSer, tupleSer, h1, pure_bind']
      exact ⟨iterable_nth hl hs, iterable_nth hl fun xs x hx hm => (hs xs x hx hm).symm⟩
  | dict kw v g k a b hg =>
    intro r
    simp only [List.mem_cons, List.not_mem_nil, or_false] at hg
    rcases hg with rfl | rfl | rfl <;>
    · rw [dump_via hds (f := .dict) rfl, dump_via hds (f := .dict) rfl]
      exact .rfl

/-! ## Examples -/

/-- The text `'abc'` is accepted by `str` only. -/
theorem demo_agree (n : Nat) : Agree (fun t => (load (demoLEnv demoInfo) n (.str "abc".toList) (some t)
    { keyTransformer := some .ok }).val) [.cls .int, .cls .str] := by
  intro a ha b hb x y hx hy
  cases n with
  | zero => cases hx
  | succ n =>
    have h : ∀ c ∈ [Ty.cls .int, .cls .str], ∀ z, (load (demoLEnv demoInfo) (n + 1) (.str "abc".toList)
        (some c) { keyTransformer := some .ok }).val = .ok z → z = .str "abc".toList := by
      intro c hc z hz
      rcases List.mem_cons.1 hc with rfl | hc
      · cases hz
      · rw [List.mem_singleton.1 hc] at hz
        cases hz; rfl
    rw [h a ha x hx, h b hb y hy]

/-- `{'a': 'abc'}` as `Dict[str, Union[int, str]]` or as `Dict[str, Union[str, int]]`. -/
example : Reordered (demoLEnv demoInfo) {} (.dict [(.str "a".toList, .str "abc".toList)])
    (.gen .dict [.cls .str, .union [.cls .int, .cls .str]])
    (.gen .dict [.cls .str, .union [.cls .str, .cls .int]]) := by
  refine .dict _ _ _ _ _ _ (.inl rfl) rfl rfl ?_ ?_ ?_
  · intro e he
    rw [List.mem_singleton.1 he]
    exact noMeta_of_not_dict (by decide)
  · intro e he k hk
    rw [List.mem_singleton.1 he] at hk
    cases hk
    exact noMeta_of_not_dict (by decide)
  · intro e he
    rw [List.mem_singleton.1 he]
    exact .swap _ _ _ _ (List.Perm.swap _ _ _) (by decide) (noMeta_of_not_dict (by decide)) nofun demo_agree

example : (load (demoLEnv demoInfo) 9 (.dict [(.str "a".toList, .str "abc".toList)])
    (some (.gen .dict [.cls .str, .union [.cls .str, .cls .int]])) {}).val =
    .ok (.dict [(.str "a".toList, .str "abc".toList)]) := by rfl

/-- C117 fails if members disagree: `'5'` is 5 as `Union[int, str]`, and `'5'` as
`Union[str, int]`. -/
theorem union_order_load_fails : ∃ (E : LEnv) (v : Val) (a b : Ty), DefaultDesers E 0 ∧ NoValidators E 0 ∧
    ¬ SameResult (load E 9 v (some (.union [a, b])) {}).val (load E 9 v (some (.union [b, a])) {}).val := by
  refine ⟨demoLEnv demoInfo, .str "5".toList, .cls .int, .cls .str, demo_desers 0, demo_novals 0, ?_⟩
  intro h
  have h1 : (load (demoLEnv demoInfo) 9 (.str "5".toList) (some (.union [.cls .int, .cls .str])) {}).val
      = .ok (.int 5) := by rfl
  have h2 := (h _).1 h1
  have h3 : (load (demoLEnv demoInfo) 9 (.str "5".toList) (some (.union [.cls .str, .cls .int])) {}).val
      = .ok (.str "5".toList) := by rfl
  rw [h3] at h2
  cases h2

/-- C117 fails for strict dumps if members disagree: a `Point` is dumped as
`Union[Person, Point]` without its attributes. -/
theorem union_order_dump_fails : ∃ (E : Env) (v : Val) (a b : Ty), DefaultSers E 0 ∧
    (dump E 9 v (some (.union [a, b])) { strict := true }).val =
      .ok (.dict [(.str "x".toList, .int 1), (.str "y".toList, .int 2)]) ∧
    (dump E 9 v (some (.union [b, a])) { strict := true }).val = .ok (.dict []) := by
  exact ⟨demoEnv demoInfo, .obj 0 [("x".toList, .int 1), ("y".toList, .int 2)],
    .cls (.user 0), .cls (.user 5), demo_sers 0, by rfl, by rfl⟩

/-- The dumps of `[1]` as `List[int]` and as `list` agree. -/
example : Agree (fun t => (dump (demoEnv demoInfo) 7 (.list [.int 1]) (some t) {}).val)
    [.gen .list [.cls .int], .cls .list] := by
  have h : ∀ c ∈ [Ty.gen .list [.cls .int], .cls .list], (dump (demoEnv demoInfo) 7 (.list [.int 1])
      (some c) {}).val = .ok (.list [.int 1]) := by
    intro c hc
    rcases List.mem_cons.1 hc with rfl | hc
    · rfl
    · rw [List.mem_singleton.1 hc]; rfl
  intro a ha b hb x y hx hy
  dsimp only at hx hy
  rw [h a ha] at hx
  rw [h b hb] at hy
  cases hx; cases hy; rfl

/-- The text `'abc'` can be dumped as a `str` only. -/
theorem demo_agree_dump (n : Nat) (kw : DumpKw) (hf : kw.fork = 0) :
    Agree (fun t => (dump (demoEnv demoInfo) n (.str "abc".toList) (some t) kw).val)
      [.cls .int, .cls .str] := by
  have hds : DefaultSers (demoEnv demoInfo) kw.fork := hf ▸ demo_sers 0
  intro a ha b hb x y hx hy
  by_cases h0 : n ≤ 1
  · exact absurd hx (shallow_dump hds h0)
  obtain ⟨n, rfl⟩ : ∃ m, n = m + 2 := ⟨n - 2, by omega⟩
  have h : ∀ c ∈ [Ty.cls .int, .cls .str], ∀ z, (dump (demoEnv demoInfo) (n + 2) (.str "abc".toList)
      (some c) kw).val = .ok z → z = .str "abc".toList := by
    intro c hc z hz
    rcases List.mem_cons.1 hc with rfl | hc
    · rw [dump_via hds (f := .primitive) rfl] at hz
      cases hz
    · rw [List.mem_singleton.1 hc, dump_via hds (f := .primitive) rfl] at hz
      cases hz; rfl
  rw [h a ha x hx, h b hb y hy]

/-- `(5, ['abc'])` as `Tuple[int, List[Union[int, str]]]` or `Tuple[int, List[Union[str, int]]]`. -/
example : ReorderedD (demoEnv demoInfo) { strict := true } (.tuple [.int 5, .list [.str "abc".toList]])
    (.gen .tuple [.cls .int, .gen .list [.union [.cls .int, .cls .str]]])
    (.gen .tuple [.cls .int, .gen .list [.union [.cls .str, .cls .int]]]) := by
  refine .nth _ _ [.cls .int] [] _ _ (.inl (by simp)) ?_
  intro xs x h1 h2
  cases h1
  cases h2
  refine .each _ _ _ _ _ (by simp) ?_
  intro xs h3 x hx
  cases h3
  rw [List.mem_singleton.1 hx]
  exact .swap _ _ _ _ (List.Perm.swap _ _ _) fun n => demo_agree_dump n _ rfl

example : (dump (demoEnv demoInfo) 9 (.tuple [.int 5, .list [.str "abc".toList]])
    (some (.gen .tuple [.cls .int, .gen .list [.union [.cls .str, .cls .int]]])) { strict := true }).val =
    .ok (.list [.int 5, .list [.str "abc".toList]]) := by rfl

end Verif.Props.UnionOrder
