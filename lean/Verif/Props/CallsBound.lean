import Verif.Props.Calls

/-! # The parts of a document are loaded a bounded number of times (C102) -/

set_option autoImplicit false

namespace Verif.Props.Calls

open Verif Verif.Core Verif.Datetime Verif.Props.Quiet

/-! ## Documents and types -/

mutual
/-- The size of a document: the number of its values and keys, where the characters of a text count
`D` times, because a text is loaded as a list by loading its characters. -/
def weight (D : Nat) : Val → Nat
  | .atom (.str s) => 1 + s.length * D
  | .seq _ xs => 1 + weights D xs
  | .dict es => 1 + entryWeights D es
  | _ => 1
/-- The size of the elements of a list. -/
def weights (D : Nat) : List Val → Nat
  | [] => 0
  | x :: xs => weight D x + weights D xs
/-- The size of the entries of a dict. -/
def entryWeights (D : Nat) : List (Val × Val) → Nat
  | [] => 0
  | (k, v) :: es => weight D k + weight D v + entryWeights D es
end

/-- Documents: what JSON has, with texts as keys, where '-meta' names classes of the program that are
not named tuples, and where there are no keys that were replaced by their hashes. -/
inductive Doc (E : LEnv) : Val → Prop
  | none : Doc E .none
  | bool (b : Bool) : Doc E (.bool b)
  | int (n : Int) : Doc E (.int n)
  | float (x : ℚ) : Doc E (.float x)
  | str (s : PyStr) : Doc E (.str s)
  | seq (k : SeqKind) (xs : List Val) (h : ∀ x ∈ xs, Doc E x) : Doc E (.seq k xs)
  | dict (es : List (Val × Val)) (hk : ∀ e ∈ es, ∃ s, e.1 = Val.str s) (hv : ∀ e ∈ es, Doc E e.2)
      (hh : dictGet es (.str keysKey) = .none)
      (hm : ∀ fork t h, getClsAndMeta E (.dict es) fork = .ok (some (t, h)) →
        ∃ c, t = .cls (.user c) ∧ (E.info c).kind ≠ .ntuple) : Doc E (.dict es)

/-- Types of values without parts, of which the deserializers do not call `load`. -/
def Flat (info : Nat → ClassInfo) (t : Ty) : Prop :=
  ∃ c : Cls, t = .cls c ∧ c.desFn info ∈ [DesFn.datetime, .date, .time, .timedelta, .string, .noneType, .primitive,
    .enum, .uuid, .decimal, .path, .zoneinfo]

/-- The types that are dealt with, with the depth `d` of their nested lists; `l` is 2 for unions, 1
for the other types of which the deserializer calls `load` with the same value, and 0 for the others.
A union has at most one member that is not flat, and at most `M` others. -/
inductive Lin (info : Nat → ClassInfo) (M : Nat) : Nat → Nat → Ty → Prop
  | flat (d : Nat) (t : Ty) (h : Flat info t) : Lin info M 0 d t
  | any (d : Nat) : Lin info M 0 d .any
  | seq (d : Nat) (g : Gen) (args : List Ty) (hg : g ∈ [Gen.list, .set, .frozenset, .deque, .iterable])
      (h : ∀ a, args.head? = some a → Lin info M 2 d a) : Lin info M 0 (d + 1) (.gen g args)
  | tuple (d : Nat) (g : Gen) (args : List Ty) (hg : g ∈ [Gen.tuple, .tupleEll])
      (h : ∀ a ∈ args, Lin info M 2 d a) : Lin info M 0 (d + 1) (.gen g args)
  | bare (d : Nat) (c : Cls) (hc : c ∈ [Cls.list, .tuple, .set, .frozenset, .deque, .iterable]) :
      Lin info M 0 (d + 1) (.cls c)
  | mapping (d : Nat) (g : Gen) (k t : Ty) (hg : g ∈ [Gen.dict, .mapping]) (hk : Flat info k) (h : Lin info M 2 d t) :
      Lin info M 0 d (.gen g [k, t])
  | bareMapping (d : Nat) (t : Ty) (h : t ∈ [Ty.cls .dict, .cls .mapping, .gen .dict [], .gen .mapping []]) :
      Lin info M 0 d t
  | user (d c : Nat) (h : (info c).kind = .plain) : Lin info M 0 d (.cls (.user c))
  | ddict (d : Nat) (k t : Ty) (hk : Flat info k) (h : Lin info M 2 d t) : Lin info M 1 d (.gen .defaultdict [k, t])
  | bareDdict (d : Nat) (t : Ty) (h : t ∈ [Ty.cls .defaultdict, .gen .defaultdict []]) : Lin info M 1 d t
  | complex (d : Nat) : Lin info M 1 d (.cls .complex)
  | timezone (d : Nat) : Lin info M 1 d (.cls .timezone)
  | union (d : Nat) (pre post : List Ty) (t : Ty) (hp : ∀ a ∈ pre ++ post, Flat info a) (h : Lin info M 1 d t)
      (hl : pre.length + post.length ≤ M) : Lin info M 2 d (.union (pre ++ t :: post))
  | lower (d : Nat) (t : Ty) (h : Lin info M 0 d t) : Lin info M 1 d t
  | lower' (d : Nat) (t : Ty) (h : Lin info M 1 d t) : Lin info M 2 d t

/-- The key transformer, if there is one, makes texts of texts. -/
def KeepsTexts (kw : LoadKw) : Prop :=
  ∀ f, kw.keyTransformer = some f → ∀ s r, f (.str s) = .ok r → ∃ s', r = .str s'

/-- The hints of the classes of the program, and the types that names stand for, are of these types,
with lists nested up to `D` deep; the parameters of constructors have distinct names. -/
structure Program (E : LEnv) (M D : Nat) : Prop where
  desers : ∀ fork, DefaultDesers E fork
  params : ∀ c, (E.info c).kind = .plain → ((E.info c).params.map (·.name)).Nodup
  initHints : ∀ c, (E.info c).kind = .plain → ∀ p ∈ (E.info c).initHints, Lin E.info M 2 D p.2
  hints : ∀ c, (E.info c).kind = .plain → ∀ p ∈ (E.info c).hints, Lin E.info M 2 D p.2
  names : ∀ fork s t, E.clsFromStr fork s = .ok t → Lin E.info M 2 D t
  deep : 1 ≤ D

/-! ## Counting -/

section
variable {α β : Type}

theorem calls_mute {x : Res α} (h : x.log = []) : calls x = 0 := by unfold calls; rw [h]; rfl

theorem calls_pure (a : α) : calls (pure a : Res α) = 0 := rfl
theorem calls_raise (e : Err) : calls (Res.raise e : Res α) = 0 := rfl
theorem calls_lift (x : Except Err α) : calls (Res.lift x) = 0 := calls_mute (by simp)
theorem calls_liftK (x : Except ErrKind α) : calls (Res.liftK x) = 0 := calls_mute (by simp)
theorem calls_liftS (v : Val) (x : Except ErrKind α) : calls (Res.liftS v x) = 0 := calls_mute (by simp)
theorem calls_attempt (x : Res α) : calls x.attempt = calls x := rfl
theorem calls_warn (E : Env) (i : Nat) (c m : PyStr) : calls (E.warn i c m) = 0 := by
  unfold Env.warn
  split <;> rfl

theorem calls_bind {x : Res α} {f : α → Res β} {a b : Nat} (hx : calls x ≤ a)
    (hf : ∀ r, x.val = .ok r → calls (f r) ≤ b) : calls (x >>= f) ≤ a + b := by
  unfold calls at *
  rw [bind_log]
  split
  · next r hr =>
    rw [List.countP_append]
    exact Nat.add_le_add hx (hf r hr)
  · omega

theorem calls_then {x : Res α} {f : α → Res β} {b : Nat} (hx : calls x = 0)
    (hf : ∀ r, x.val = .ok r → calls (f r) ≤ b) : calls (x >>= f) ≤ b := by
  have := calls_bind (a := 0) (le_of_eq hx) hf
  omega

theorem calls_ite {p : Prop} [Decidable p] {x y : Res α} {b : Nat} (h : p → calls x ≤ b) (h' : ¬p → calls y ≤ b) :
    calls (if p then x else y) ≤ b := by
  split
  · next hp => exact h hp
  · next hp => exact h' hp

end

/-- Nothing is called. -/
macro "silent" : tactic => `(tactic| repeat' first
  | exact Nat.le_of_eq (calls_pure _) | exact Nat.le_of_eq (calls_raise _) | exact Nat.le_of_eq (calls_lift _)
  | exact Nat.le_of_eq (calls_liftK _) | exact Nat.le_of_eq (calls_liftS _ _) | exact Nat.le_of_eq (calls_warn _ _ _ _)
  | exact Nat.zero_le _ | rw [calls_pure] | rw [calls_raise]
  | refine calls_ite (fun _ => ?_) (fun _ => ?_)
  | (refine calls_then (calls_lift _) fun _ _ => ?_) | (refine calls_then (calls_liftK _) fun _ _ => ?_)
  | (refine calls_then (calls_liftS _ _) fun _ _ => ?_) | split)

section
variable {E : LEnv} {rec : LRec}

theorem validate_calls (v : Val) (t : Ty) (i : Nat) : calls (validate E v t i) = 0 := by
  apply Nat.le_zero.1
  unfold validate
  silent

theorem primitiveDes_calls (v : Val) (t : Ty) : calls (primitiveDes E v t) = 0 := by
  apply Nat.le_zero.1
  unfold primitiveDes
  silent

theorem doLoad_calls {fn : Option DesFn} {v : Val} {t : Ty} {kw : LoadKw} {c : Nat}
    (h : ∀ f, fn = some f → calls (callDes E rec f v t kw) ≤ c) : calls (doLoad E rec fn v t kw) ≤ c := by
  unfold doLoad
  split
  · silent
  · next f =>
    have hb : calls (do let r ← callDes E rec f v t kw; validate E r t kw.fork; pure r) ≤ c + 0 :=
      calls_bind (h f rfl) fun r _ => calls_then (validate_calls _ _ _) fun _ _ => le_of_eq (calls_pure _)
    refine (calls_bind (b := 0) (a := c) (by rw [calls_attempt]; exact hb) fun r _ => ?_)
    silent

/-- Which type the deserializer gets, and whether it is told that this was inferred. -/
def Resolved (E : LEnv) (v : Val) (cls : Option Ty) (before : Bool) (t : Ty) (inferred : Bool) : Prop :=
  ((∃ es c, v = .dict es ∧ t = .cls (.user c) ∧ (E.info c).kind ≠ .ntuple) ∧ (cls = none ∨ before = true)) ∨
  (cls = some t ∧ inferred = false) ∨ (cls = none ∧ t = .cls v.cls ∧ inferred = true)

theorem resolved {v : Val} (hv : Doc E v) {cls : Option Ty} {kw : LoadKw} {m : Option (Ty × List (Val × Val))}
    (hm : getClsAndMeta E v kw.fork = .ok m) :
    Resolved E v cls kw.inferred (target v cls kw m) (calleeKw v cls kw m).inferred := by
  have hkw : (calleeKw v cls kw m).inferred = decide (some (target v cls kw m) ≠ cls) := rfl
  rw [hkw]
  have huser : ∀ p, m = some p → ∃ es c, v = .dict es ∧ p.1 = .cls (.user c) ∧ (E.info c).kind ≠ .ntuple := by
    intro p hp
    subst hp
    cases hv with
    | dict es _ _ _ hm' =>
      obtain ⟨c, h1, h2⟩ := hm' kw.fork p.1 p.2 hm
      exact ⟨es, c, rfl, h1, h2⟩
    | _ => cases hm
  unfold target determinePrecedence
  cases cls with
  | none =>
    cases m with
    | none => right; right; cases kw.inferred <;> simp
    | some p =>
      left
      obtain ⟨es, c, h1, h2, h3⟩ := huser p rfl
      refine ⟨⟨es, c, h1, ?_, h3⟩, .inl rfl⟩
      cases kw.inferred <;> simpa using h2
  | some a =>
    cases m with
    | none => right; left; cases kw.inferred <;> simp
    | some p =>
      cases kw.inferred with
      | false => right; left; simp
      | true =>
        left
        obtain ⟨es, c, h1, h2, h3⟩ := huser p rfl
        exact ⟨⟨es, c, h1, by simpa using h2, h3⟩, .inr rfl⟩

theorem loadWith_calls (hd : ∀ fork, DefaultDesers E fork) {v : Val} (hv : Doc E v) {cls : Option Ty} {kw : LoadKw}
    {b : Nat} (h : ∀ t f (kw' : LoadKw), ¬ Skips v cls kw → Resolved E v cls kw.inferred t kw'.inferred →
      kw'.keyTransformer = kw.keyTransformer → t.desFn E.info = some f → calls (callDes E rec f v t kw') ≤ b) :
    calls (loadWith E rec v cls kw) ≤ b := by
  unfold loadWith
  have hn : calls (checkForNone E v cls) = 0 := by
    apply Nat.le_zero.1
    unfold checkForNone
    silent
  refine calls_then hn fun _ _ => calls_ite (fun _ => ?_) fun hs => ?_
  · refine calls_then (validate_calls _ _ _) fun _ _ => ?_
    silent
  · by_cases h1 : v.cls ∈ validTypes
    · cases hm : getClsAndMeta E v kw.fork with
      | error k =>
        unfold loadFrom
        rw [hm]
        silent
        all_goals (rename_i r hr; cases hr)
      | ok m =>
        rw [loadFrom_eq h1 hm (hd _)]
        exact doLoad_calls fun f hf => h _ f _ hs (resolved hv hm) rfl hf
    · unfold loadFrom
      rw [if_pos h1]
      silent

end

/-! ## Sizes -/

section
variable {D : Nat}

theorem weights_eq (xs : List Val) : weights D xs = (xs.map (weight D)).sum := by
  induction xs with
  | nil => rfl
  | cons x xs ih => simp only [weights, List.map_cons, List.sum_cons, ih]

/-- The size of the values of a dict. -/
def valueWeights (D : Nat) (es : List (Val × Val)) : Nat := (es.map fun e => weight D e.2).sum

theorem entryWeights_eq (es : List (Val × Val)) :
    entryWeights D es = (es.map fun e => weight D e.1 + weight D e.2).sum := by
  induction es with
  | nil => rfl
  | cons e es ih => obtain ⟨k, v⟩ := e; simp only [entryWeights, List.map_cons, List.sum_cons, ih]

theorem weight_str (s : PyStr) : weight D (.str s) = 1 + s.length * D := by simp only [weight]

theorem weight_pos (v : Val) : 1 ≤ weight D v := by
  cases v with
  | atom a => cases a <;> simp [weight]
  | _ => simp [weight]

/-- The size of a document that is loaded as a type with lists nested `d` deep. -/
def bound (D : Nat) (v : Val) (d : Nat) : Nat :=
  match v with
  | .atom (.str s) => 1 + s.length * d
  | v => weight D v

theorem bound_str (s : PyStr) (d : Nat) : bound D (.str s) d = 1 + s.length * d := rfl

theorem bound_other {v : Val} (h : ∀ s, v ≠ .str s) (d : Nat) : bound D v d = weight D v := by
  unfold bound
  split
  · next s => exact absurd rfl (h s)
  · rfl

theorem bound_le {v : Val} {d : Nat} (h : d ≤ D) : bound D v d ≤ weight D v := by
  by_cases hs : ∃ s, v = .str s
  · obtain ⟨s, rfl⟩ := hs
    rw [bound_str, weight_str]
    exact Nat.add_le_add_left (Nat.mul_le_mul_left _ h) _
  · rw [bound_other (by simpa using hs)]

theorem bound_mono {v : Val} {d d' : Nat} (h : d ≤ d') : bound D v d ≤ bound D v d' := by
  by_cases hs : ∃ s, v = .str s
  · obtain ⟨s, rfl⟩ := hs
    rw [bound_str, bound_str]
    exact Nat.add_le_add_left (Nat.mul_le_mul_left _ h) _
  · rw [bound_other (by simpa using hs), bound_other (by simpa using hs)]

theorem bound_pos (v : Val) (d : Nat) : 1 ≤ bound D v d := by
  by_cases hs : ∃ s, v = .str s
  · obtain ⟨s, rfl⟩ := hs
    rw [bound_str]; omega
  · rw [bound_other (by simpa using hs)]
    exact weight_pos v

theorem sum_le {α : Type} {f g : α → Nat} : ∀ (xs : List α), (∀ x ∈ xs, f x ≤ g x) → (xs.map f).sum ≤ (xs.map g).sum
  | [], _ => le_refl _
  | x :: xs, h => by
    simp only [List.map_cons, List.sum_cons]
    exact Nat.add_le_add (h x List.mem_cons_self) (sum_le xs fun y hy => h y (List.mem_cons_of_mem _ hy))

theorem sum_mul {α : Type} (k : Nat) (f : α → Nat) (xs : List α) : (xs.map fun x => k * f x).sum = k * (xs.map f).sum := by
  induction xs with
  | nil => rfl
  | cons x xs ih => simp only [List.map_cons, List.sum_cons, ih, Nat.mul_add]

/-- The elements of a document together are smaller than it. -/
theorem iter_bound {E : LEnv} {v : Val} (hv : Doc E v) {xs : List Val} (h : v.iter = some xs) {d : Nat} (hd : d ≤ D) :
    (xs.map fun x => bound D x d).sum + 1 ≤ bound D v (d + 1) ∧ ∀ x ∈ xs, Doc E x := by
  cases hv with
  | str s =>
    cases h
    rw [bound_str]
    refine ⟨?_, fun x hx => ?_⟩
    · have : ∀ s : PyStr, ((s.map fun c => Val.str [c]).map fun x => bound D x d).sum = s.length * (d + 1) := by
        intro s
        induction s with
        | nil => simp
        | cons c s ih =>
          simp only [List.map_cons, List.sum_cons, List.length_cons]
          rw [ih, bound_str]
          simp only [List.length_cons, List.length_nil]
          ring
      rw [this]
      omega
    · obtain ⟨c, _, rfl⟩ := List.mem_map.1 hx
      exact .str _
  | seq k ys hx =>
    obtain rfl : ys = xs := Option.some.inj h
    refine ⟨?_, hx⟩
    have : bound D (.seq k ys) (d + 1) = 1 + (ys.map (weight D)).sum := by
      rw [bound_other (by intro s h; cases h)]
      simp only [weight, weights_eq]
    rw [this]
    have := sum_le (f := fun x => bound D x d) (g := weight D) ys fun x _ => bound_le hd
    omega
  | dict es hk hx hh hm =>
    cases h
    refine ⟨?_, fun x hx => ?_⟩
    · have : bound D (.dict es) (d + 1) = 1 + (es.map fun e => weight D e.1 + weight D e.2).sum := by
        rw [bound_other (by intro s h; cases h)]
        simp only [weight, entryWeights_eq]
      rw [this, List.map_map]
      have := sum_le (f := (fun x => bound D x d) ∘ fun e : Val × Val => e.1)
        (g := fun e => weight D e.1 + weight D e.2) es fun e _ => le_trans (bound_le hd) (Nat.le_add_right _ _)
      omega
    · obtain ⟨e, he, rfl⟩ := List.mem_map.1 hx
      obtain ⟨s, hs⟩ := hk e he
      show Doc E e.1
      rw [hs]
      exact .str _
  | _ => cases h

end

/-! ## What the calls in a deserializer cost -/

section
variable {E : LEnv} {M D : Nat} {rec : LRec}

/-- What remains for the surrounding calls. -/
def slack (M : Nat) : Nat → Nat
  | 0 => M + 2
  | 1 => M + 1
  | _ => 0

/-- The calls that `rec` makes are bounded. -/
structure Bounded (E : LEnv) (M D : Nat) (rec : LRec) : Prop where
  typed : ∀ v, Doc E v → ∀ kw, KeepsTexts kw → ∀ l d t, Lin E.info M l d t → d ≤ D →
    calls (rec v (some t) kw) + slack M l ≤ (M + 4) * bound D v d
  free : ∀ v, Doc E v → ∀ kw, KeepsTexts kw → calls (rec v none kw) + (M + 2) ≤ (M + 4) * bound D v 0
  flat : ∀ v, Doc E v → ∀ (kw : LoadKw) t, Flat E.info t → (kw.inferred = false ∨ ∀ es, v ≠ .dict es) →
    calls (rec v (some t) kw) ≤ 1

theorem Bounded.at (h : Bounded E M D rec) {v : Val} (hv : Doc E v) {kw : LoadKw} (hk : KeepsTexts kw) {cls : Option Ty}
    {d : Nat} (hd : d ≤ D) (hc : ∀ t, cls = some t → Lin E.info M 2 d t) :
    calls (rec v cls kw) ≤ (M + 4) * bound D v d := by
  cases cls with
  | some t => exact h.typed v hv kw hk 2 d t (hc t rfl) hd
  | none =>
    have h1 := h.free v hv kw hk
    have h2 := Nat.mul_le_mul_left (M + 4) (bound_mono (D := D) (v := v) (Nat.zero_le d))
    omega

theorem Bounded.deepest (h : Bounded E M D rec) {v : Val} (hv : Doc E v) {kw : LoadKw} (hk : KeepsTexts kw) {cls : Option Ty}
    (hc : ∀ t, cls = some t → Lin E.info M 2 D t) : calls (rec v cls kw) ≤ (M + 4) * weight D v :=
  le_trans (h.at hv hk (le_refl D) hc) (Nat.mul_le_mul_left _ (bound_le (le_refl D)))

theorem listLoop_calls {cls : Option Ty} {w : Bool} {kw : LoadKw} {c : Val → Nat} :
    ∀ (xs : List Val) (i : Nat), (∀ x ∈ xs, calls (rec x cls kw) ≤ c x) →
      calls (listLoop E rec cls w kw i xs) ≤ (xs.map c).sum
  | [], _, _ => by unfold listLoop; silent
  | x :: xs, i, h => by
    have ih := listLoop_calls (cls := cls) (w := w) (kw := kw) (c := c) xs (i + 1)
      fun y hy => h y (List.mem_cons_of_mem _ hy)
    unfold listLoop
    simp only [List.map_cons, List.sum_cons]
    refine calls_bind (by rw [calls_attempt]; exact h x List.mem_cons_self) fun r _ => ?_
    split
    · exact calls_bind (b := 0) ih fun ys _ => by rw [calls_pure]
    · refine calls_ite (fun _ => calls_ite (fun _ => calls_then (calls_warn _ _ _ _) fun _ _ => ih) fun _ => ?_) fun _ => ?_
      all_goals silent

theorem tupleLoop_calls {kw : LoadKw} {c : Val → Nat} :
    ∀ (xs : List Val) (ts : List Ty), (∀ x ∈ xs, ∀ t ∈ ts, calls (rec x (some t) kw) ≤ c x) →
      calls (tupleLoop rec kw ts xs) ≤ (xs.map c).sum
  | [], ts, _ => by cases ts <;> (unfold tupleLoop; silent)
  | x :: xs, [], _ => by unfold tupleLoop; silent
  | x :: xs, t :: ts, h => by
    unfold tupleLoop
    simp only [List.map_cons, List.sum_cons]
    refine calls_bind (h x List.mem_cons_self t List.mem_cons_self) fun r _ => ?_
    have ih := tupleLoop_calls (kw := kw) (c := c) xs ts
      fun y hy u hu => h y (List.mem_cons_of_mem _ hy) u (List.mem_cons_of_mem _ hu)
    exact calls_bind (b := 0) ih fun ys _ => by rw [calls_pure]

theorem mapRes_calls {f : Val → Res Val} {c : Val → Nat} :
    ∀ (xs : List Val), (∀ x ∈ xs, calls (f x) ≤ c x) → calls (mapRes f xs) ≤ (xs.map c).sum
  | [], _ => by unfold mapRes; silent
  | x :: xs, h => by
    unfold mapRes
    simp only [List.map_cons, List.sum_cons]
    refine calls_bind (h x List.mem_cons_self) fun r _ => ?_
    have ih := mapRes_calls (f := f) (c := c) xs fun y hy => h y (List.mem_cons_of_mem _ hy)
    exact calls_bind (b := 0) ih fun ys _ => by rw [calls_pure]

theorem dictComp_calls {info : Nat → ClassInfo} {kf vf : Val → Res Val} {c : Val × Val → Nat} :
    ∀ (es acc : List (Val × Val)), (∀ e ∈ es, calls (kf e.1) + calls (vf e.2) ≤ c e) →
      calls (dictComp info kf vf acc es) ≤ (es.map c).sum
  | [], acc, _ => by unfold dictComp; silent
  | (k, v) :: es, acc, h => by
    unfold dictComp
    simp only [List.map_cons, List.sum_cons]
    have h1 := h (k, v) List.mem_cons_self
    dsimp only at h1
    refine le_trans (calls_bind (le_refl _) fun k' _ => calls_bind (le_refl _) fun v' _ =>
      calls_ite (b := (es.map c).sum) (fun _ => dictComp_calls es _ fun e he => h e (List.mem_cons_of_mem _ he)) fun _ => ?_) ?_
    · silent
    · omega

theorem unionLoop_calls {v : Val} {t : Ty} {kw : LoadKw} {c : Ty → Nat} :
    ∀ (ts : List Ty), (∀ a ∈ ts, calls (rec v (some a) kw) ≤ c a) → calls (unionLoadLoop rec v t kw ts) ≤ (ts.map c).sum
  | [], _ => by unfold unionLoadLoop; silent
  | a :: ts, h => by
    unfold unionLoadLoop
    simp only [List.map_cons, List.sum_cons]
    refine calls_bind (by rw [calls_attempt]; exact h a List.mem_cons_self) fun r _ => ?_
    split
    · silent
    · refine calls_ite (fun _ => unionLoop_calls ts fun b hb => h b (List.mem_cons_of_mem _ hb)) fun _ => ?_
      silent

/-! ## Objects -/

/-- The part of a dict that belongs to the given names. -/
def taken (c : Val → Val → Nat) (es : List (Val × Val)) (names : List PyStr) : Nat :=
  (names.map fun n => match dictGet es (.str n) with
    | some x => c (.str n) x
    | none => 0).sum

/-- The entries with other keys. -/
def others (names : List PyStr) (e : Val × Val) : Bool :=
  match e.1 with
  | .atom (.str s) => !names.contains s
  | _ => true

theorem taken_others (c : Val → Val → Nat) (names : List PyStr) (hn : names.Nodup) :
    ∀ es : List (Val × Val), taken c es names + ((es.filter (others names)).map fun e => c e.1 e.2).sum ≤
      (es.map fun e => c e.1 e.2).sum := by
  intro es
  induction es with
  | nil =>
    have : taken c [] names = 0 := by
      unfold taken
      clear hn
      induction names with
      | nil => rfl
      | cons n names ih => simp only [List.map_cons, List.sum_cons, ih]; rfl
    rw [this]; simp
  | cons e es ih =>
    obtain ⟨k, v⟩ := e
    simp only [List.map_cons, List.sum_cons]
    by_cases hk : ∃ s ∈ names, k = .str s
    · obtain ⟨s, hs, rfl⟩ := hk
      have ho : others names (Val.str s, v) = false := by simp [others, hs]
      rw [List.filter_cons_of_neg (by simp [ho])]
      have ht : taken c ((Val.str s, v) :: es) names ≤ c (.str s) v + taken c es names := by
        clear ih ho
        unfold taken
        have hother : ∀ ns : List PyStr, s ∉ ns → (ns.map fun n => match dictGet ((Val.str s, v) :: es) (.str n) with
            | some x => c (.str n) x | none => 0).sum = (ns.map fun n => match dictGet es (.str n) with
            | some x => c (.str n) x | none => 0).sum := by
          intro ns hns
          refine congrArg List.sum (List.map_congr_left fun n hn => ?_)
          have : dictGet ((Val.str s, v) :: es) (.str n) = dictGet es (.str n) := by
            show (if pyEq (Val.str s) (.str n) then some v else dictGet es (.str n)) = _
            rw [if_neg]
            intro h
            have := RoundTrip.pyEq_str_iff h
            cases this
            exact hns hn
          rw [this]
        induction names with
        | nil => cases hs
        | cons n ns ih =>
          simp only [List.map_cons, List.sum_cons]
          have hnd := List.nodup_cons.1 hn
          by_cases hsn : s = n
          · subst hsn
            rw [hother ns hnd.1]
            have : dictGet ((Val.str s, v) :: es) (.str s) = some v := by
              show (if pyEq (Val.str s) (.str s) then some v else dictGet es (.str s)) = _
              rw [if_pos (by simp [pyEq, Atom.num?])]
            rw [this]
            dsimp only
            omega
          · have hs' : s ∈ ns := by
              rcases List.mem_cons.1 hs with h | h
              · exact absurd h hsn
              · exact h
            have := ih hnd.2 hs'
            have h1 : dictGet ((Val.str s, v) :: es) (.str n) = dictGet es (.str n) := by
              show (if pyEq (Val.str s) (.str n) then some v else dictGet es (.str n)) = _
              rw [if_neg]
              intro h
              have := RoundTrip.pyEq_str_iff h
              cases this
              exact hsn rfl
            rw [h1]
            omega
      omega
    · have ht : taken c ((k, v) :: es) names = taken c es names := by
        unfold taken
        refine congrArg List.sum (List.map_congr_left fun n hn => ?_)
        have : dictGet ((k, v) :: es) (.str n) = dictGet es (.str n) := by
          show (if pyEq k (.str n) then some v else dictGet es (.str n)) = _
          rw [if_neg]
          intro h
          exact hk ⟨n, hn, RoundTrip.pyEq_str_iff h⟩
        rw [this]
      have ho : others names (k, v) = true := by
        unfold others
        split
        · next s h =>
          have : k = .str s := h
          subst this
          have : s ∉ names := fun hs => hk ⟨s, hs, rfl⟩
          simp [this]
        · rfl
      rw [List.filter_cons_of_pos ho, ht]
      simp only [List.map_cons, List.sum_cons]
      omega

theorem metaFor_lin (hp : Program E M D) {kw : LoadKw} {n : PyStr} {m : Option Ty × List (Val × Val)}
    (h : metaFor E kw n = .ok m) : ∀ t, m.1 = some t → Lin E.info M 2 D t := by
  intro t ht
  unfold metaFor at h
  dsimp only at h
  split at h
  · cases h; cases ht
  · split at h
    · cases h; cases ht
    · split at h
      · next s _ _ =>
        cases hc : E.clsFromStr kw.fork s with
        | error k => rw [hc] at h; cases h
        | ok a =>
          rw [hc] at h
          cases hb : rebase ('/' :: n) [] (kw.metaHints.getD []) with
          | error k => 
            have : (Except.ok a >>= fun t => (rebase ('/' :: n) [] (kw.metaHints.getD []) >>= fun hs => (pure (some t, hs) : Except ErrKind _))) = .ok m := h
            rw [hb] at this; cases this
          | ok hs =>
            have : (Except.ok a >>= fun t => (rebase ('/' :: n) [] (kw.metaHints.getD []) >>= fun hs => (pure (some t, hs) : Except ErrKind _))) = .ok m := h
            rw [hb] at this
            cases this
            cases ht
            exact hp.names _ _ _ hc
      · cases h

theorem assoc_mem {β : Type} {l : List (PyStr × β)} {n : PyStr} {b : β} (h : assoc l n = some b) : (n, b) ∈ l := by
  induction l with
  | nil => cases h
  | cons p l ih =>
    obtain ⟨m, c⟩ := p
    unfold assoc at h
    split at h
    · next hm => cases h; rw [hm]; exact List.mem_cons_self
    · exact List.mem_cons_of_mem _ (ih h)

theorem subscript_get {es : List (Val × Val)} {n : PyStr} {x : Val} (h : subscript (.dict es) n = .ok x) :
    dictGet es (.str n) = some x := by
  have h : (match dictGet es (.str n) with
    | some w => Except.ok w
    | none => Except.error ErrKind.keyError) = .ok x := h
  split at h
  · next hg => rw [hg, Except.ok.inj h]
  · cases h

theorem valueForAttr_calls (hp : Program E M D) (hr : Bounded E M D rec) {es : List (Val × Val)} {c : Nat} {kw : LoadKw}
    (hc : (E.info c).kind = .plain) (hv : ∀ e ∈ es, Doc E e.2) (hk : KeepsTexts kw) (p : Param) :
    calls (valueForAttr E rec (.dict es) c kw p) ≤ match dictGet es (.str p.name) with
      | some x => (M + 4) * weight D x
      | none => 0 := by
  unfold valueForAttr
  dsimp only
  refine calls_then (calls_liftK _) fun b hb => calls_ite (fun _ => ?_) fun _ => ?_
  · refine calls_bind (b := 0) ?_ fun _ _ => by rw [calls_pure]
    unfold valueFromObj
    refine calls_then (calls_liftS _ _) fun m hm => ?_
    rw [liftS_ok] at hm
    dsimp only
    refine calls_then (calls_liftK _) fun x hx => ?_
    rw [liftK_ok] at hx
    have hget := subscript_get hx
    rw [hget]
    dsimp only
    have hx' : Doc E x := by
      obtain ⟨e, he, rfl, _⟩ := dictGet_mem hget
      exact hv _ he
    refine hr.deepest (kw := { kw with metaHints := some m.2, attrGetters := [] }) hx' hk fun t ht => ?_
    unfold determinePrecedence at ht
    simp only [if_true, List.findSome?] at ht
    cases hm1 : m.1 with
    | some a =>
      rw [hm1] at ht
      simp only [id] at ht
      cases ht
      exact metaFor_lin hp hm _ hm1
    | none =>
      rw [hm1] at ht
      simp only [id] at ht
      cases hh : assoc (E.info c).initHints p.name with
      | none => rw [hh] at ht; simp at ht
      | some a =>
        rw [hh] at ht
        cases ht
        exact hp.initHints c hc _ (assoc_mem hh)
  · silent

theorem ctorArgs_calls (hp : Program E M D) (hr : Bounded E M D rec) {es : List (Val × Val)} {c : Nat} {kw : LoadKw}
    (hc : (E.info c).kind = .plain) (hv : ∀ e ∈ es, Doc E e.2) (hk : KeepsTexts kw) :
    ∀ ps : List Param, calls (ctorArgs E rec (.dict es) c kw ps) ≤
      taken (fun _ x => (M + 4) * weight D x) es (ps.map (·.name))
  | [] => by unfold ctorArgs; silent
  | p :: ps => by
    unfold ctorArgs taken
    simp only [List.map_cons, List.sum_cons]
    refine calls_bind (valueForAttr_calls hp hr hc hv hk p) fun v _ => ?_
    refine calls_bind (b := 0) (ctorArgs_calls hp hr hc hv hk ps) fun r _ => ?_
    silent

theorem ctorArgs_names {obj : Val} {c : Nat} {kw : LoadKw} {n : PyStr}
    (hk : keyIn obj n = .ok true) : ∀ (ps : List Param) (args : List (PyStr × Val)),
    (ctorArgs E rec obj c kw ps).val = .ok args → n ∈ ps.map (·.name) → (assoc args n).isSome
  | [], _, _, h => by cases h
  | p :: ps, args, h, hn => by
    unfold ctorArgs at h
    obtain ⟨v, h1, h⟩ := Core.bind_ok.1 h
    obtain ⟨r, h2, h⟩ := Core.bind_ok.1 h
    by_cases hp : p.name = n
    · have hsome : ∃ x, v = some x := by
        unfold valueForAttr at h1
        dsimp only at h1
        rw [hp, hk, liftK_of_ok, pure_bind', if_pos rfl] at h1
        obtain ⟨x, _, h1⟩ := Core.bind_ok.1 h1
        exact ⟨x, (Except.ok.inj h1).symm⟩
      obtain ⟨x, rfl⟩ := hsome
      have h : Except.ok ((p.name, x) :: r) = Except.ok args := h
      cases h
      unfold assoc
      rw [if_pos hp]
      rfl
    · have hn' : n ∈ ps.map (·.name) := by
        rcases List.mem_cons.1 hn with h' | h'
        · exact absurd h'.symm hp
        · exact h'
      have ih := ctorArgs_names hk ps r h2 hn'
      cases v with
      | none =>
        have h : Except.ok r = Except.ok args := h
        cases h
        exact ih
      | some x =>
        have h : Except.ok ((p.name, x) :: r) = Except.ok args := h
        cases h
        unfold assoc
        rw [if_neg hp]
        exact ih

theorem ctorArgs_silent {obj : Val} (ho : ∀ es, obj ≠ .dict es) {c : Nat} {kw : LoadKw} :
    ∀ ps : List Param, calls (ctorArgs E rec obj c kw ps) ≤ 0
  | [] => by unfold ctorArgs; silent
  | p :: ps => by
    unfold ctorArgs
    refine calls_bind (a := 0) (b := 0) ?_ fun v _ => calls_bind (b := 0) (ctorArgs_silent ho ps) fun r _ => ?_
    · unfold valueForAttr
      dsimp only
      refine calls_then (calls_liftK _) fun b hb => calls_ite (fun _ => ?_) fun _ => ?_
      · refine calls_bind (a := 0) (b := 0) ?_ fun _ _ => by rw [calls_pure]
        unfold valueFromObj
        refine calls_then (calls_liftS _ _) fun m hm => ?_
        dsimp only
        refine calls_then (calls_liftK _) fun x hx => ?_
        rw [liftK_ok] at hx
        cases obj with
        | dict es => exact absurd rfl (ho es)
        | _ => cases hx
      · silent
    · silent

theorem cls_lin {v : Val} (hv : Doc E v) (hD : 1 ≤ D) : ∃ d, d ≤ D ∧ Lin E.info M 2 d (.cls v.cls) := by
  cases hv with
  | none => exact ⟨0, by omega, .lower' _ _ (.lower _ _ (.flat _ _ ⟨_, rfl, by simp [Val.cls, Atom.cls, Cls.desFn]⟩))⟩
  | bool => exact ⟨0, by omega, .lower' _ _ (.lower _ _ (.flat _ _ ⟨_, rfl, by simp [Val.cls, Atom.cls, Cls.desFn]⟩))⟩
  | int => exact ⟨0, by omega, .lower' _ _ (.lower _ _ (.flat _ _ ⟨_, rfl, by simp [Val.cls, Atom.cls, Cls.desFn]⟩))⟩
  | float => exact ⟨0, by omega, .lower' _ _ (.lower _ _ (.flat _ _ ⟨_, rfl, by simp [Val.cls, Atom.cls, Cls.desFn]⟩))⟩
  | str => exact ⟨0, by omega, .lower' _ _ (.lower _ _ (.flat _ _ ⟨_, rfl, by simp [Val.cls, Atom.cls, Cls.desFn]⟩))⟩
  | seq k xs h => exact ⟨1, hD, .lower' _ _ (.lower _ _ (.bare 0 _ (by cases k <;> simp [Val.cls, SeqKind.cls])))⟩
  | dict es => exact ⟨0, by omega, .lower' _ _ (.lower _ _ (.bareMapping _ _ (by simp [Val.cls])))⟩

theorem setRemaining_calls (hp : Program E M D) (hr : Bounded E M D rec) {c : Nat} {kw : LoadKw}
    (hc : (E.info c).kind = .plain) (hk : KeepsTexts kw) :
    ∀ (es : List (Val × Val)) (as : List (PyStr × Val)), (∀ e ∈ es, Doc E e.2) →
      calls (setRemaining E rec c kw es as) ≤ (es.map fun e => (M + 4) * weight D e.2).sum
  | [], as, _ => by unfold setRemaining; silent
  | (k, v) :: es, as, hv => by
    unfold setRemaining
    dsimp only
    simp only [List.map_cons, List.sum_cons]
    have hw : calls (warnHashed E.toEnv kw.fork v (annotation (E.info c) k)) = 0 := by
      apply Nat.le_zero.1
      unfold warnHashed
      silent
    have hv1 : Doc E v := hv (k, v) List.mem_cons_self
    refine calls_then hw fun _ _ => calls_bind ?_ fun y _ => calls_then (calls_lift _) fun as' _ =>
      setRemaining_calls hp hr hc hk es as' fun e he => hv e (List.mem_cons_of_mem _ he)
    have hk' : KeepsTexts { kw with attrGetters := [] } := hk
    cases ha : annotation (E.info c) k with
    | none =>
      obtain ⟨d, hd, hl⟩ := cls_lin (M := M) hv1 hp.deep
      refine le_trans (hr.at hv1 hk' hd fun t ht => ?_) (Nat.mul_le_mul_left _ (bound_le hd))
      cases ht
      exact hl
    | some a =>
      refine hr.deepest hv1 hk' fun t ht => ?_
      cases ht
      unfold annotation at ha
      split at ha
      · exact hp.hints c hc _ (assoc_mem ha)
      · cases ha

theorem dictSet_values {D : Nat} (k v : Val) : ∀ es : List (Val × Val),
    ((dictSet es k v).map fun e => weight D e.2).sum ≤ (es.map fun e => weight D e.2).sum + weight D v ∧
    ∀ e ∈ dictSet es k v, e.2 = v ∨ ∃ e' ∈ es, e'.2 = e.2
  | [] => by simp [dictSet]
  | (k', v') :: es => by
    unfold dictSet
    split
    · simp only [List.map_cons, List.sum_cons]
      refine ⟨by omega, fun e he => ?_⟩
      rcases List.mem_cons.1 he with rfl | h
      · exact .inl rfl
      · exact .inr ⟨e, List.mem_cons_of_mem _ h, rfl⟩
    · obtain ⟨h1, h2⟩ := dictSet_values (D := D) k v es
      simp only [List.map_cons, List.sum_cons]
      refine ⟨by omega, fun e he => ?_⟩
      rcases List.mem_cons.1 he with rfl | h
      · exact .inr ⟨_, List.mem_cons_self, rfl⟩
      · rcases h2 e h with h | ⟨e', he', h⟩
        · exact .inl h
        · exact .inr ⟨e', List.mem_cons_of_mem _ he', h⟩

theorem transformKeys_values {D : Nat} {info : Nat → ClassInfo} {f : Val → Except Err Val} :
    ∀ (es acc r : List (Val × Val)), transformKeys info f acc es = .ok r →
      (r.map fun e => weight D e.2).sum ≤ (acc.map fun e => weight D e.2).sum + (es.map fun e => weight D e.2).sum ∧
      ∀ e ∈ r, (∃ e' ∈ acc, e'.2 = e.2) ∨ ∃ e' ∈ es, e'.2 = e.2
  | [], acc, r, h => by
    cases h
    exact ⟨by simp, fun e he => .inl ⟨e, he, rfl⟩⟩
  | (k, v) :: es, acc, r, h => by
    unfold transformKeys at h
    cases hf : f k with
    | error e => rw [hf] at h; cases h
    | ok k' =>
      rw [hf] at h
      have h : (if k'.hashable info then transformKeys info f (dictSet acc k' v) es
        else .error { kind := .typeError }) = .ok r := h
      split at h
      · obtain ⟨h1, h2⟩ := transformKeys_values (D := D) es _ r h
        obtain ⟨h3, h4⟩ := dictSet_values (D := D) k' v acc
        simp only [List.map_cons, List.sum_cons]
        refine ⟨by omega, fun e he => ?_⟩
        rcases h2 e he with ⟨e', he', hv⟩ | ⟨e', he', hv⟩
        · rcases h4 e' he' with h | ⟨e'', he'', h⟩
          · exact .inr ⟨_, List.mem_cons_self, by rw [← hv, h]⟩
          · exact .inl ⟨e'', he'', by rw [h, hv]⟩
        · exact .inr ⟨e', List.mem_cons_of_mem _ he', hv⟩
      · cases h

theorem remaining_filter {es : List (Val × Val)} {c : Nat} {args : List (PyStr × Val)} {strict : Bool}
    {rest : List (Val × Val)} (h : (getRemainingArgs (.dict es) c args strict).val = .ok rest) :
    ∃ p : Val × Val → Bool, rest = es.filter p ∧ ∀ e s, e.1 = Val.str s → (assoc args s).isSome → p e = false := by
  unfold getRemainingArgs at h
  obtain ⟨q, hq, h⟩ := Core.bind_ok.1 h
  rw [liftK_ok] at hq
  have hrest : rest = q := by
    cases q with
    | nil => cases h; rfl
    | cons e q =>
      dsimp only at h
      split at h
      · cases h
      · exact (Except.ok.inj h).symm
  rw [hrest]
  refine ⟨_, (Except.ok.inj hq).symm, ?_⟩
  rintro ⟨k, v⟩ s hk ha
  dsimp only at hk
  subst hk
  cases hs : assoc args s with
  | none => rw [hs] at ha; cases ha
  | some x => simp [hs]

theorem objectDes_calls (hp : Program E M D) (hr : Bounded E M D rec) {v : Val} (hv : Doc E v) {c : Nat} {kw : LoadKw}
    (hc : (E.info c).kind = .plain) (hk : KeepsTexts kw) (d : Nat) :
    calls (objectDes E rec v (.cls (.user c)) kw) + (M + 4) ≤ (M + 4) * bound D v d := by
  have hpos := Nat.mul_le_mul_left (M + 4) (bound_pos (D := D) v d)
  have hsilent : ∀ obj as, (∀ es, obj ≠ .dict es) → calls (do
      let args ← ctorArgs E rec obj c kw (E.info c).params
      let rest ← getRemainingArgs obj c args kw.strict
      let as' ← Res.lift (E.construct c args)
      let as' ← setRemaining E rec c kw rest as'
      let as' ← Res.lift (setGetters E c as as')
      pure (Val.obj c as')) ≤ 0 := by
    intro obj as ho
    refine calls_bind (a := 0) (b := 0) (ctorArgs_silent ho _) fun args _ => ?_
    have hg : calls (getRemainingArgs obj c args kw.strict) = 0 := by
      apply Nat.le_zero.1
      unfold getRemainingArgs
      silent
    refine calls_then hg fun rest hrest => calls_then (calls_lift _) fun as' _ => ?_
    have hnil : rest = [] := by
      unfold getRemainingArgs at hrest
      obtain ⟨q, hq, hrest⟩ := Core.bind_ok.1 hrest
      rw [liftK_ok] at hq
      have hq' : q = [] := by
        unfold remainingAttrs at hq
        split at hq
        · exact absurd rfl (ho _)
        · split at hq
          · cases hq; rfl
          · cases hq
      subst hq'
      cases hrest
      rfl
    subst hnil
    unfold setRemaining
    refine calls_then (calls_pure _) fun _ _ => ?_
    silent
  have hdict : ∀ es, (∀ e ∈ es, Doc E e.2) → calls (do
      let args ← ctorArgs E rec (.dict es) c kw (E.info c).params
      let rest ← getRemainingArgs (.dict es) c args kw.strict
      let as' ← Res.lift (E.construct c args)
      let as' ← setRemaining E rec c kw rest as'
      let as' ← Res.lift (setGetters E c kw.attrGetters as')
      pure (Val.obj c as')) ≤ (es.map fun e => (M + 4) * weight D e.2).sum := by
    intro es hes
    have ht := taken_others (fun _ x => (M + 4) * weight D x) _ (hp.params c hc) es
    refine le_trans (calls_bind (ctorArgs_calls hp hr hc hes hk _) fun args hargs => ?_) ht
    have hg : calls (getRemainingArgs (.dict es) c args kw.strict) = 0 := by
      apply Nat.le_zero.1
      unfold getRemainingArgs
      silent
    refine calls_then hg fun rest hrest => calls_then (calls_lift _) fun as' _ => ?_
    obtain ⟨p, hq, hp'⟩ := remaining_filter hrest
    have hsub : ∀ (es' : List (Val × Val)), (∀ e ∈ es', e ∈ es) →
        ((es'.filter p).map fun e => (M + 4) * weight D e.2).sum ≤
          ((es'.filter (others ((E.info c).params.map (·.name)))).map fun e => (M + 4) * weight D e.2).sum := by
      intro es' hes'
      induction es' with
      | nil => exact le_refl _
      | cons e es' ih =>
        have ih := ih fun e he => hes' e (List.mem_cons_of_mem _ he)
        rw [List.filter_cons, List.filter_cons]
        by_cases ho : others ((E.info c).params.map (·.name)) e = true
        · rw [if_pos ho]
          cases p e
          · rw [if_neg (by decide)]
            simp only [List.map_cons, List.sum_cons]; omega
          · rw [if_pos rfl]
            simp only [List.map_cons, List.sum_cons]; omega
        · have hs : ∃ s, e.1 = .str s ∧ s ∈ (E.info c).params.map (·.name) := by
            unfold others at ho
            split at ho
            · next s h => exact ⟨s, h, by simpa using ho⟩
            · exact absurd rfl ho
          obtain ⟨s, h1, h2⟩ := hs
          have hin : keyIn (.dict es) s = .ok true := by
            have he : e ∈ es := hes' e List.mem_cons_self
            obtain ⟨x, hx⟩ := LoadObject.dictGet_self he h1
            have hne : es ≠ [] := by intro h; rw [h] at he; cases he
            unfold keyIn
            have hf : (Val.dict es).falsy = false := by
              cases es with
              | nil => exact absurd rfl hne
              | cons => rfl
            rw [hf]
            simp [hx]
          have := hp' e s h1 (ctorArgs_names hin _ args hargs h2)
          rw [if_neg ho, this, if_neg (by decide)]
          exact ih
    have hmem : ∀ e ∈ rest, Doc E e.2 := fun e he => hes e (by rw [hq] at he; exact (List.mem_filter.1 he).1)
    refine calls_bind (b := 0) ?_ fun _ _ => ?_
    · refine le_trans (setRemaining_calls hp hr hc hk rest as' hmem) ?_
      rw [hq]
      exact hsub es fun _ h => h
    · silent
  unfold objectDes
  dsimp only
  have hw : ∀ es, v = .dict es → (es.map fun e => (M + 4) * weight D e.2).sum + (M + 4) ≤ (M + 4) * bound D v d := by
    rintro es rfl
    have : bound D (.dict es) d = 1 + (es.map fun e => weight D e.1 + weight D e.2).sum := by
      rw [bound_other (by intro s h; cases h)]
      simp only [weight, entryWeights_eq]
    rw [this, sum_mul, Nat.mul_add]
    have := Nat.mul_le_mul_left (M + 4) (sum_le (f := fun e => weight D e.2)
      (g := fun e : Val × Val => weight D e.1 + weight D e.2) es fun e _ => Nat.le_add_left _ _)
    omega
  by_cases hd : ∃ es, v = .dict es
  · obtain ⟨es, rfl⟩ := hd
    have hes : ∀ e ∈ es, Doc E e.2 := by cases hv; assumption
    refine le_trans (Nat.add_le_add_right (calls_then (b := (es.map fun e => (M + 4) * weight D e.2).sum)
      (calls_lift _) fun obj ho => ?_) _) (hw es rfl)
    rw [lift_val] at ho
    unfold transformObj at ho
    split at ho
    · cases ho
      exact hdict es hes
    · next f _ =>
      dsimp only at ho
      cases ht : transformKeys E.info f [] es with
      | error e => rw [ht] at ho; cases ho
      | ok r =>
        rw [ht] at ho
        cases ho
        obtain ⟨h1, h2⟩ := transformKeys_values (D := D) es [] r ht
        refine le_trans (hdict r fun e he => ?_) ?_
        · rcases h2 e he with ⟨e', he', h⟩ | ⟨e', he', h⟩
          · cases he'
          · rw [← h]; exact hes e' he'
        · rw [sum_mul, sum_mul]
          refine Nat.mul_le_mul_left _ ?_
          simpa using h1
  · have hd : ∀ es, v ≠ .dict es := by simpa using hd
    have : calls (do
      let obj ← Res.lift (transformObj E.info v kw.keyTransformer)
      let args ← ctorArgs E rec obj c kw (E.info c).params
      let rest ← getRemainingArgs obj c args kw.strict
      let as' ← Res.lift (E.construct c args)
      let as' ← setRemaining E rec c kw rest as'
      let as' ← Res.lift (setGetters E c kw.attrGetters as')
      pure (Val.obj c as')) ≤ 0 := by
      refine calls_then (calls_lift _) fun obj ho => ?_
      rw [lift_val] at ho
      unfold transformObj at ho
      split at ho
      · cases ho
        exact hsilent v _ hd
      · split at ho
        · exact absurd rfl (hd _)
        · split at ho
          · cases ho
            exact hdict [] fun _ h => by cases h
          · cases ho
    omega

/-! ## The other deserializers -/

theorem user_calls (hp : Program E M D) (hr : Bounded E M D rec) {v : Val} (hv : Doc E v) {c : Nat} {kw : LoadKw} {f : DesFn}
    (hc : (E.info c).kind ≠ .ntuple) (hk : KeepsTexts kw) (hf : (Ty.cls (.user c)).desFn E.info = some f) (d : Nat) :
    calls (callDes E rec f v (.cls (.user c)) kw) + (M + 4) ≤ (M + 4) * bound D v d := by
  simp only [Ty.desFn, Cls.desFn, Option.some.injEq] at hf
  have hpos := Nat.mul_le_mul_left (M + 4) (bound_pos (D := D) v d)
  cases hkind : (E.info c).kind with
  | ntuple => exact absurd hkind hc
  | plain =>
    rw [hkind] at hf
    subst hf
    exact objectDes_calls hp hr hv hkind hk d
  | enum b =>
    rw [hkind] at hf
    subst hf
    have : calls (enumDes E v (.cls (.user c)) kw) ≤ 0 := by
      unfold enumDes
      dsimp only
      silent
    show calls (enumDes E v (.cls (.user c)) kw) + (M + 4) ≤ _
    omega

theorem flat_calls {t : Ty} (ht : Flat E.info t) {f : DesFn} (hf : t.desFn E.info = some f) {v : Val} {kw : LoadKw}
    (hi : kw.inferred = false) : calls (callDes E rec f v t kw) = 0 := by
  apply Nat.le_zero.1
  obtain ⟨c, rfl, hc⟩ := ht
  simp only [Ty.desFn, Option.some.injEq] at hf
  rw [hf] at hc
  simp only [List.mem_cons, List.not_mem_nil, or_false] at hc
  rcases hc with h | h | h | h | h | h | h | h | h | h | h | h <;> subst h
  · show calls (datetimeDes v) ≤ 0
    unfold datetimeDes; silent
  · show calls (dateDes v) ≤ 0
    unfold dateDes; silent
  · show calls (timeDes v) ≤ 0
    unfold timeDes; silent
  · show calls (timedeltaDes E v) ≤ 0
    unfold timedeltaDes; silent
  · show calls (stringDes E rec v (.cls c) kw) ≤ 0
    have hs : c = .str := by
      cases c with
      | user c =>
        simp only [Cls.desFn] at hf
        split at hf <;> cases hf
      | str => rfl
      | _ => cases hf
    unfold stringDes
    rw [if_pos ⟨by rw [hs], hi⟩]
    silent
  · show calls (noneTypeDes v (.cls c)) ≤ 0
    unfold noneTypeDes; silent
  · show calls (primitiveDes E v (.cls c)) ≤ 0
    rw [primitiveDes_calls]
  · show calls (enumDes E v (.cls c) kw) ≤ 0
    unfold enumDes; silent
    all_goals (dsimp only; silent)
  · show calls (uuidDes E v) ≤ 0
    unfold uuidDes; silent
  · show calls (decimalDes E v) ≤ 0
    unfold decimalDes; silent
  · show calls (pathDes E v) ≤ 0
    unfold pathDes; silent
  · show calls (zoneinfoDes E v) ≤ 0
    unfold zoneinfoDes; silent

theorem listDes_calls (hr : Bounded E M D rec) {v : Val} (hv : Doc E v) {args : List Ty} {kw : LoadKw} (hk : KeepsTexts kw)
    {d : Nat} (hd : d ≤ D) (ha : ∀ a, args.head? = some a → Lin E.info M 2 d a) :
    calls (listDes E rec v args kw) + (M + 4) ≤ (M + 4) * bound D v (d + 1) := by
  unfold listDes
  split
  · rw [calls_raise]
    have := Nat.mul_le_mul_left (M + 4) (bound_pos (D := D) v (d + 1))
    omega
  · next xs hx =>
    obtain ⟨h1, h2⟩ := iter_bound (D := D) hv hx hd
    have h3 := listLoop_calls (E := E) (rec := rec) (cls := args.head?) (w := kw.warnOnFail)
      (kw := { kw with warnOnFail := false, inferred := kw.inferred || !args.isEmpty })
      (c := fun x => (M + 4) * bound D x d) xs 0 fun x hx => hr.at (kw :=
        { kw with warnOnFail := false, inferred := kw.inferred || !args.isEmpty }) (h2 x hx) hk hd ha
    rw [sum_mul] at h3
    have h4 := Nat.mul_le_mul_left (M + 4) h1
    rw [Nat.mul_add] at h4
    dsimp only
    omega

theorem tupleDes_calls (hr : Bounded E M D rec) {v : Val} (hv : Doc E v) {t : Ty} {kw : LoadKw}
    {d : Nat} (hd : d ≤ D) (ht : ∀ c, t ≠ .cls (.user c)) (ha : ∀ a ∈ t.getArgs, Lin E.info M 2 d a) :
    calls (tupleDes E rec v t kw) + (M + 4) ≤ (M + 4) * bound D v (d + 1) := by
  have hk' : KeepsTexts { kw with keyTransformer := none } := by intro f h; cases h
  have key : calls (match v.iter with
      | none => Res.raise { kind := .typeError }
      | some xs => do
        let ys ← match t, t.getArgs with
          | .gen .tupleEll _, a :: _ => tupleLoop rec { kw with keyTransformer := none } (List.replicate xs.length a) xs
          | _, a :: as => tupleLoop rec { kw with keyTransformer := none } (a :: as) xs
          | _, [] => mapRes (fun x => rec x none { kw with keyTransformer := none }) xs
        pure (Val.tuple ys)) + (M + 4) ≤ (M + 4) * bound D v (d + 1) := by
    split
    · rw [calls_raise]
      have := Nat.mul_le_mul_left (M + 4) (bound_pos (D := D) v (d + 1))
      omega
    · next xs hx =>
      obtain ⟨h1, h2⟩ := iter_bound (D := D) hv hx hd
      have h4 := Nat.mul_le_mul_left (M + 4) h1
      rw [Nat.mul_add] at h4
      have hloop : ∀ ts, (∀ a ∈ ts, Lin E.info M 2 d a) →
          calls (tupleLoop rec { kw with keyTransformer := none } ts xs) ≤ (xs.map fun x => (M + 4) * bound D x d).sum :=
        fun ts hts => tupleLoop_calls xs ts fun x hx a ha => hr.at (h2 x hx) hk' hd fun b hb => by
          cases hb; exact hts _ ha
      have hmap : calls (mapRes (fun x => rec x none { kw with keyTransformer := none }) xs) ≤
          (xs.map fun x => (M + 4) * bound D x d).sum :=
        mapRes_calls xs fun x hx => hr.at (h2 x hx) hk' hd fun b hb => by cases hb
      rw [sum_mul] at hmap
      have hloop' : ∀ ts, (∀ a ∈ ts, Lin E.info M 2 d a) →
          calls (tupleLoop rec { kw with keyTransformer := none } ts xs) ≤ (M + 4) * (xs.map fun x => bound D x d).sum := by
        intro ts hts
        rw [← sum_mul]
        exact hloop ts hts
      refine le_trans (Nat.add_le_add_right (m := (M + 4) * (xs.map fun x => bound D x d).sum) ?_ _) (by omega)
      split
      · next a as hargs =>
        refine calls_bind (b := 0) (hloop' _ fun b hb => ?_) fun _ _ => by rw [calls_pure]
        rw [List.eq_of_mem_replicate hb]
        exact ha a (by rw [hargs]; exact List.mem_cons_self)
      · next a as _ hargs =>
        refine calls_bind (b := 0) (hloop' _ fun b hb => ?_) fun _ _ => by rw [calls_pure]
        exact ha b (by rw [hargs]; exact hb)
      · exact calls_bind (b := 0) hmap fun _ _ => by rw [calls_pure]
  unfold tupleDes
  dsimp only
  split
  · next c => exact absurd rfl (ht c)
  · exact key

theorem dictDes_calls (hr : Bounded E M D rec) {v : Val} (hv : Doc E v) {args : List Ty} {kw : LoadKw} (hk : KeepsTexts kw)
    {d : Nat} (hd : d ≤ D) (ha : args = [] ∨ ∃ k t, args = [k, t] ∧ Flat E.info k ∧ Lin E.info M 2 d t) :
    calls (dictDes E rec v args kw) + (M + 4) ≤ (M + 4) * bound D v d := by
  have hpos := Nat.mul_le_mul_left (M + 4) (bound_pos (D := D) v d)
  unfold dictDes
  by_cases hdict : ∃ es, v = .dict es
  · obtain ⟨es, rfl⟩ := hdict
    cases hv with
    | dict _ hkeys hvals hh hm =>
      have hl : loadHashedKeys E rec (.dict es) args kw = pure (es, false) := by
        unfold loadHashedKeys
        dsimp only
        rw [hh]
      rw [hl, pure_bind']
      dsimp only
      have hkt : ∀ s y, kw.keyTransformer.getD .ok (Val.str s) = .ok y → ∃ s', y = .str s' := by
        intro s y hy
        cases hf : kw.keyTransformer with
        | none => rw [hf] at hy; cases hy; exact ⟨s, rfl⟩
        | some f => rw [hf] at hy; exact hk f hf s y hy
      have hkw : KeepsTexts { kw with keyTransformer := some (kw.keyTransformer.getD .ok) } := by
        intro f hf s y hy
        cases hf
        exact hkt s y hy
      have hsum : (es.map fun e => 1 + (M + 4) * weight D e.2).sum + (M + 4) ≤ (M + 4) * bound D (.dict es) d := by
        have : bound D (.dict es) d = 1 + (es.map fun e => weight D e.1 + weight D e.2).sum := by
          rw [bound_other (by intro s h; cases h)]
          simp only [weight, entryWeights_eq]
        rw [this, Nat.mul_add, ← sum_mul]
        have := sum_le (f := fun e : Val × Val => 1 + (M + 4) * weight D e.2)
          (g := fun e => (M + 4) * (weight D e.1 + weight D e.2)) es fun e _ => by
            rw [Nat.mul_add]
            have := Nat.mul_le_mul_left (M + 4) (weight_pos (D := D) e.1)
            omega
        omega
      refine le_trans (Nat.add_le_add_right ?_ _) hsum
      rcases ha with rfl | ⟨k, t, rfl, hfk, hlt⟩
      · refine dictComp_calls es [] fun e he => ?_
        rw [calls_lift]
        have := hr.deepest (hvals e he) hkw (cls := none) fun t ht => by cases ht
        omega
      · refine dictComp_calls es [] fun e he => ?_
        obtain ⟨s, hs⟩ := hkeys e he
        have h1 : calls (Res.lift (kw.keyTransformer.getD .ok e.1) >>= fun y =>
            rec y (some k) { kw with keyTransformer := none }) ≤ 1 := by
          refine calls_then (calls_lift _) fun y hy => ?_
          rw [lift_val, hs] at hy
          obtain ⟨s', rfl⟩ := hkt s y hy
          exact hr.flat _ (.str _) _ k hfk (.inr fun es h => by cases h)
        have h2 := le_trans (hr.at (hvals e he) hkw (cls := some t) hd fun u hu => by cases hu; exact hlt)
          (Nat.mul_le_mul_left _ (bound_le hd))
        have h1' : calls ((if False then (fun x => Res.lift (kw.keyTransformer.getD .ok x)) else fun x => do
            let y ← Res.lift (kw.keyTransformer.getD .ok x)
            rec y (some k) { kw with keyTransformer := none }) e.1) ≤ 1 := h1
        exact Nat.add_le_add h1 h2
  · have hl : calls (loadHashedKeys E rec v args kw) = 0 ∧ ∀ r, (loadHashedKeys E rec v args kw).val ≠ .ok r := by
      unfold loadHashedKeys
      split
      · next es => exact absurd ⟨es, rfl⟩ hdict
      · exact ⟨rfl, fun r h => by cases h⟩
    have := calls_then (b := 0) (f := fun r => match r with
      | (es, hashed) =>
        let kt := kw.keyTransformer.getD .ok
        let kwV := { kw with keyTransformer := some kt }
        let kwK := { kw with keyTransformer := none }
        match args with
        | [k, t] =>
          let keyFn := if hashed then fun x => Res.lift (kt x)
            else fun x => do
              let y ← Res.lift (kt x)
              rec y (some k) kwK
          dictComp E.info keyFn (fun x => rec x (some t) kwV) [] es
        | _ => dictComp E.info (fun x => Res.lift (kt x)) (fun x => rec x none kwV) [] es) hl.1
      fun r hr => absurd hr (hl.2 r)
    refine le_trans (Nat.add_le_add_right (m := 0) ?_ _) (by omega)
    exact this

theorem complexDes_calls (hr : Bounded E M D rec) {v : Val} (hv : Doc E v) (d : Nat) :
    calls (complexDes rec v) + (M + 2) ≤ (M + 4) * bound D v d := by
  have hpos := Nat.mul_le_mul_left (M + 4) (bound_pos (D := D) v d)
  have key : calls (complexDes rec v) ≤ (M + 4) * bound D v d - (M + 2) := by
    unfold complexDes
    dsimp only
    refine calls_bind (a := (M + 4) * bound D v d - (M + 2)) (b := 0) ?_ fun r _ => ?_
    · rw [calls_attempt]
      refine calls_then (calls_liftK _) fun re hre => calls_then (calls_liftK _) fun im him => ?_
      rw [liftK_ok] at hre him
      refine calls_bind (a := (M + 4) * bound D v d - (M + 2)) (b := 0) ?_ fun clean _ => ?_
      · cases v with
        | dict es =>
          have h1 := subscript_get hre
          have h2 := subscript_get him
          have hes : ∀ e ∈ es, Doc E e.2 := by cases hv; assumption
          have hdre : Doc E re := by obtain ⟨e, he, rfl, _⟩ := dictGet_mem h1; exact hes e he
          have hdim : Doc E im := by obtain ⟨e, he, rfl, _⟩ := dictGet_mem h2; exact hes e he
          have hdoc : Doc E (.dict [(.str "real".toList, re), (.str "imag".toList, im)]) := by
            refine .dict _ (fun e he => ?_) (fun e he => ?_) ?_ fun fork t h hm => ?_
            · simp only [List.mem_cons, List.not_mem_nil, or_false] at he
              rcases he with rfl | rfl <;> exact ⟨_, rfl⟩
            · simp only [List.mem_cons, List.not_mem_nil, or_false] at he
              rcases he with rfl | rfl
              · exact hdre
              · exact hdim
            · rfl
            · cases hm
          have hlin : Lin E.info M 0 0 dictStrFloat :=
            .mapping 0 .dict _ _ (by simp) ⟨.str, rfl, by simp [Cls.desFn]⟩
              (.lower' _ _ (.lower _ _ (.flat _ _ ⟨.float, rfl, by simp [Cls.desFn]⟩)))
          have hcall := hr.typed _ hdoc {} (fun f h => by cases h) 0 0 _ hlin (Nat.zero_le _)
          have ht := taken_others (fun k x => weight D k + weight D x) ["real".toList, "imag".toList] (by decide) es
          have hw : bound D (.dict [(.str "real".toList, re), (.str "imag".toList, im)]) 0 ≤ bound D (.dict es) d := by
            rw [bound_other (by intro s h; cases h), bound_other (by intro s h; cases h)]
            simp only [weight, entryWeights_eq, List.map_cons, List.map_nil, List.sum_cons, List.sum_nil]
            have : taken (fun k x => weight D k + weight D x) es ["real".toList, "imag".toList] =
                (weight D (.str "real".toList) + weight D re) + ((weight D (.str "imag".toList) + weight D im) + 0) := by
              unfold taken
              simp only [List.map_cons, List.map_nil, List.sum_cons, List.sum_nil, h1, h2]
            rw [this] at ht
            simp only [weight] at ht
            omega
          have := Nat.mul_le_mul_left (M + 4) hw
          have hs : slack M 0 = M + 2 := rfl
          rw [hs] at hcall
          omega
        | _ => cases hre
      · silent
    · silent
  omega

theorem timezoneDes_calls (hr : Bounded E M D rec) {v : Val} (hv : Doc E v) : calls (timezoneDes rec v) ≤ 1 := by
  unfold timezoneDes
  refine calls_then (calls_liftK _) fun x hx => ?_
  rw [liftK_ok] at hx
  refine calls_bind (b := 0) ?_ fun _ _ => ?_
  · cases v with
    | dict es =>
      have h1 := subscript_get hx
      have hes : ∀ e ∈ es, Doc E e.2 := by cases hv; assumption
      have hdx : Doc E x := by obtain ⟨e, he, rfl, _⟩ := dictGet_mem h1; exact hes e he
      exact hr.flat x hdx {} _ ⟨.timedelta, rfl, by simp [Cls.desFn]⟩ (.inl rfl)
    | _ => cases hx
  · silent

theorem typed_calls (hp : Program E M D) (hr : Bounded E M D rec) {v : Val} (hv : Doc E v) {l d : Nat} {t : Ty}
    (ht : Lin E.info M l d t) : d ≤ D → ∀ {kw : LoadKw} {f : DesFn}, KeepsTexts kw → kw.inferred = false →
    t.desFn E.info = some f → calls (callDes E rec f v t kw) + 1 + slack M l ≤ (M + 4) * bound D v d := by
  have hpos : ∀ d, (M + 4) * 1 ≤ (M + 4) * bound D v d := fun d => Nat.mul_le_mul_left (M + 4) (bound_pos (D := D) v d)
  induction ht with
  | flat d t h =>
    intro hd kw f hk hi hf
    have := flat_calls (rec := rec) (v := v) h hf hi
    have := hpos d
    simp only [slack]
    omega
  | any d => intro hd kw f hk hi hf; cases hf
  | seq d g args hg h _ =>
    intro hd kw f hk hi hf
    have h1 := listDes_calls hr hv (args := args) hk (d := d) (by omega) h
    have : calls (callDes E rec f v (.gen g args) kw) ≤ calls (listDes E rec v args kw) := by
      simp only [List.mem_cons, List.not_mem_nil, or_false] at hg
      rcases hg with rfl | rfl | rfl | rfl | rfl <;> cases hf
      · exact calls_bind (b := 0) (le_refl _) fun _ _ => by rw [calls_pure]
      all_goals
        show calls (iterableDes E rec v _ kw) ≤ _
        refine calls_bind (b := 0) (le_refl _) fun _ _ => ?_
        silent
    simp only [slack]
    omega
  | tuple d g args hg h _ =>
    intro hd kw f hk hi hf
    have h1 := tupleDes_calls hr hv (t := .gen g args) (kw := kw) (d := d) (by omega) (fun c h => by cases h) h
    have : callDes E rec f v (.gen g args) kw = tupleDes E rec v (.gen g args) kw := by
      simp only [List.mem_cons, List.not_mem_nil, or_false] at hg
      rcases hg with rfl | rfl <;> cases hf <;> rfl
    rw [this]
    simp only [slack]
    omega
  | bare d c hc =>
    intro hd kw f hk hi hf
    have h1 := listDes_calls hr hv (args := []) hk (d := d) (by omega) fun a h => by cases h
    simp only [List.mem_cons, List.not_mem_nil, or_false] at hc
    simp only [slack]
    rcases hc with rfl | rfl | rfl | rfl | rfl | rfl <;> cases hf
    · have : calls (callDes E rec .list v (.cls .list) kw) ≤ calls (listDes E rec v [] kw) :=
        calls_bind (b := 0) (le_refl _) fun _ _ => by rw [calls_pure]
      show calls (callDes E rec .list v (.cls .list) kw) + 1 + (M + 2) ≤ _
      omega
    · have h1 := tupleDes_calls hr hv (t := .cls .tuple) (kw := kw) (d := d) (by omega) (fun c h => by cases h)
        fun a h => by cases h
      show calls (tupleDes E rec v _ kw) + 1 + (M + 2) ≤ _
      omega
    all_goals
      have key : ∀ c, calls (iterableDes E rec v (.cls c) kw) + 1 + (M + 2) ≤ (M + 4) * bound D v (d + 1) := by
        intro c
        have : calls (iterableDes E rec v (.cls c) kw) ≤ calls (listDes E rec v [] kw) := by
          unfold iterableDes
          refine calls_bind (b := 0) (le_refl _) fun _ _ => ?_
          silent
        omega
      exact key _
  | mapping d g k t hg hk' h _ =>
    intro hd kw f hk hi hf
    have h1 := dictDes_calls hr hv (args := [k, t]) hk hd (.inr ⟨k, t, rfl, hk', h⟩)
    have : calls (callDes E rec f v (.gen g [k, t]) kw) ≤ calls (dictDes E rec v [k, t] kw) := by
      simp only [List.mem_cons, List.not_mem_nil, or_false] at hg
      rcases hg with rfl | rfl <;> cases hf <;>
        exact calls_bind (b := 0) (le_refl _) fun _ _ => by rw [calls_pure]
    simp only [slack]
    omega
  | bareMapping d t h =>
    intro hd kw f hk hi hf
    have h1 := dictDes_calls hr hv (args := []) hk hd (.inl rfl)
    have : calls (callDes E rec f v t kw) ≤ calls (dictDes E rec v [] kw) := by
      simp only [List.mem_cons, List.not_mem_nil, or_false] at h
      rcases h with rfl | rfl | rfl | rfl <;> cases hf <;>
        exact calls_bind (b := 0) (le_refl _) fun _ _ => by rw [calls_pure]
    simp only [slack]
    omega
  | user d c h =>
    intro hd kw f hk hi hf
    have := user_calls hp hr hv (c := c) (kw := kw) (by rw [h]; simp) hk hf d
    simp only [slack]
    omega
  | ddict d k t hk' h _ =>
    intro hd kw f hk hi hf
    cases hf
    have h1 := hr.typed v hv kw hk 0 d (.gen .dict [k, t]) (.mapping d .dict k t (by simp) hk' h) hd
    have : calls (defaultdictDes rec v (.gen .defaultdict [k, t]) kw) ≤ calls (rec v (some (.gen .dict [k, t])) kw) := by
      show calls (rec v (some (.gen .dict [k, t])) kw >>= _) ≤ _
      refine calls_bind (b := 0) (le_refl _) fun _ _ => ?_
      silent
    show calls (defaultdictDes rec v (.gen .defaultdict [k, t]) kw) + 1 + _ ≤ _
    simp only [slack] at h1 ⊢
    omega
  | bareDdict d t h =>
    intro hd kw f hk hi hf
    have h1 := hr.typed v hv kw hk 0 d (.gen .dict []) (.bareMapping d _ (by simp)) hd
    have key : ∀ t : Ty, t.getArgs = [] → calls (defaultdictDes rec v t kw) + 1 + (M + 1) ≤ (M + 4) * bound D v d := by
      intro t ht
      have : calls (defaultdictDes rec v t kw) ≤ calls (rec v (some (.gen .dict [])) kw) := by
        unfold defaultdictDes
        rw [ht]
        show calls (rec v (some (.gen .dict [])) kw >>= _) ≤ _
        refine calls_bind (b := 0) (le_refl _) fun _ _ => ?_
        silent
      simp only [slack] at h1
      omega
    simp only [List.mem_cons, List.not_mem_nil, or_false] at h
    rcases h with rfl | rfl <;> cases hf
    · exact key (.cls .defaultdict) rfl
    · exact key (.gen .defaultdict []) rfl
  | complex d =>
    intro hd kw f hk hi hf
    cases hf
    have := complexDes_calls hr hv d
    show calls (complexDes rec v) + 1 + (M + 1) ≤ _
    omega
  | timezone d =>
    intro hd kw f hk hi hf
    cases hf
    have := timezoneDes_calls hr hv
    have := hpos d
    show calls (timezoneDes rec v) + 1 + (M + 1) ≤ _
    omega
  | union d pre post t hpre h hl _ =>
    intro hd kw f hk hi hf
    cases hf
    have h1 := hr.typed v hv kw hk 1 d t h hd
    have h2 := unionLoop_calls (rec := rec) (v := v) (t := .union (pre ++ t :: post)) (kw := kw)
      (c := fun a => calls (rec v (some a) kw)) (pre ++ t :: post) fun a _ => le_refl _
    have hflat : ∀ ts : List Ty, (∀ a ∈ ts, Flat E.info a) → (ts.map fun a => calls (rec v (some a) kw)).sum ≤ ts.length := by
      intro ts hts
      induction ts with
      | nil => exact le_refl _
      | cons a ts ih =>
        have h3 := hr.flat v hv kw a (hts a List.mem_cons_self) (.inl hi)
        have h4 := ih fun b hb => hts b (List.mem_cons_of_mem _ hb)
        simp only [List.map_cons, List.sum_cons, List.length_cons]
        omega
    have h3 := hflat pre fun a ha => hpre a (List.mem_append_left _ ha)
    have h4 := hflat post fun a ha => hpre a (List.mem_append_right _ ha)
    simp only [List.map_append, List.map_cons, List.sum_append, List.sum_cons] at h2
    show calls (unionLoadLoop rec v _ kw (pre ++ t :: post)) + 1 + 0 ≤ _
    simp only [slack] at h1
    omega
  | lower d t h ih =>
    intro hd kw f hk hi hf
    have := ih hd hk hi hf
    simp only [slack] at this ⊢
    omega
  | lower' d t h ih =>
    intro hd kw f hk hi hf
    have := ih hd hk hi hf
    simp only [slack] at this ⊢
    omega

theorem free_calls (hp : Program E M D) (hr : Bounded E M D rec) {v : Val} (hv : Doc E v) {kw : LoadKw} {f : DesFn}
    (hk : KeepsTexts kw) (hf : (Ty.cls v.cls).desFn E.info = some f) :
    calls (callDes E rec f v (.cls v.cls) kw) + 1 + (M + 2) ≤ (M + 4) * bound D v 0 := by
  have hpos := Nat.mul_le_mul_left (M + 4) (bound_pos (D := D) v 0)
  cases hv with
  | none =>
    cases hf
    show calls (noneTypeDes .none _) + 1 + (M + 2) ≤ _
    have : calls (noneTypeDes .none (.cls (Val.none).cls)) ≤ 0 := by unfold noneTypeDes; silent
    omega
  | bool b =>
    cases hf
    show calls (primitiveDes E _ _) + 1 + (M + 2) ≤ _
    rw [primitiveDes_calls]; omega
  | int n =>
    cases hf
    show calls (primitiveDes E _ _) + 1 + (M + 2) ≤ _
    rw [primitiveDes_calls]; omega
  | float x =>
    cases hf
    show calls (primitiveDes E _ _) + 1 + (M + 2) ≤ _
    rw [primitiveDes_calls]; omega
  | str s =>
    cases hf
    show calls (stringDes E rec _ _ kw) + 1 + (M + 2) ≤ _
    have : calls (stringDes E rec (.str s) (.cls (Val.str s).cls) kw) ≤ 1 := by
      unfold stringDes
      refine calls_ite (fun _ => ?_) fun _ => calls_bind (a := 1) (b := 0) ?_ fun r _ => ?_
      · silent
      · rw [calls_attempt]
        exact hr.flat _ (.str s) kw _ ⟨.datetime, rfl, by simp [Cls.desFn]⟩ (.inr fun es h => by cases h)
      · split
        · silent
        · refine calls_ite (fun _ => by rw [primitiveDes_calls]) fun _ => ?_
          silent
    omega
  | seq k xs h =>
    have hv' : Doc E (.seq k xs) := .seq k xs h
    have h0 : bound D (.seq k xs) (0 + 1) = bound D (.seq k xs) 0 := by
      rw [bound_other (by intro s h; cases h), bound_other (by intro s h; cases h)]
    have h1 := listDes_calls hr hv' (args := []) hk (d := 0) (by omega) fun a h => by cases h
    have h2 := tupleDes_calls hr hv' (t := .cls .tuple) (kw := kw) (d := 0) (by omega) (fun c h => by cases h)
        fun a h => by cases h
    rw [h0] at h1 h2
    have h3 : ∀ t : Ty, t.getArgs = [] → calls (iterableDes E rec (.seq k xs) t kw) ≤
        calls (listDes E rec (.seq k xs) [] kw) := by
      intro t ht
      unfold iterableDes
      rw [ht]
      refine calls_bind (b := 0) (le_refl _) fun _ _ => ?_
      silent
    cases k <;> cases hf
    · have : calls (callDes E rec .list (.seq .list xs) (.cls .list) kw) ≤ calls (listDes E rec (.seq .list xs) [] kw) :=
        calls_bind (b := 0) (le_refl _) fun _ _ => by rw [calls_pure]
      show calls (callDes E rec .list (.seq .list xs) (.cls .list) kw) + 1 + (M + 2) ≤ _
      omega
    · show calls (tupleDes E rec _ (.cls .tuple) kw) + 1 + (M + 2) ≤ _
      omega
    · have := h3 (.cls .set) rfl
      show calls (iterableDes E rec _ (.cls .set) kw) + 1 + (M + 2) ≤ _
      omega
    · have := h3 (.cls .frozenset) rfl
      show calls (iterableDes E rec _ (.cls .frozenset) kw) + 1 + (M + 2) ≤ _
      omega
    · have := h3 (.cls .deque) rfl
      show calls (iterableDes E rec _ (.cls .deque) kw) + 1 + (M + 2) ≤ _
      omega
  | dict es h1 h2 h3 h4 =>
    have hv' : Doc E (.dict es) := .dict es h1 h2 h3 h4
    have h1 := dictDes_calls hr hv' (args := []) hk (d := 0) (Nat.zero_le _) (.inl rfl)
    cases hf
    have : calls (mappingDes E rec (.dict es) (.cls .dict) kw) ≤ calls (dictDes E rec (.dict es) [] kw) :=
      calls_bind (b := 0) (le_refl _) fun _ _ => by rw [calls_pure]
    show calls (mappingDes E rec (.dict es) (.cls .dict) kw) + 1 + (M + 2) ≤ _
    omega

theorem marked_calls {α : Type} {x : Res α} : calls (Res.emit mark >>= fun _ => x) = 1 + calls x := by
  unfold calls
  rw [bind_log]
  show ([mark] ++ x.log).countP _ = _
  rw [List.countP_append]
  rfl

theorem bounded_step (hp : Program E M D) (hr : Bounded E M D rec) :
    Bounded E M D (fun v cls kw => Res.emit mark >>= fun _ => loadWith E rec v cls kw) := by
  have slack_le : ∀ l, slack M l ≤ M + 2 := by
    intro l
    match l with
    | 0 => exact le_refl _
    | 1 => simp [slack]
    | n + 2 => simp [slack]
  refine ⟨fun v hv kw hk l d t ht hd => ?_, fun v hv kw hk => ?_, fun v hv kw t ht hi => ?_⟩
  · rw [marked_calls]
    have hs := slack_le l
    have hpos := Nat.mul_le_mul_left (M + 4) (bound_pos (D := D) v d)
    have : calls (loadWith E rec v (some t) kw) ≤ (M + 4) * bound D v d - (1 + slack M l) := by
      refine loadWith_calls hp.desers hv fun u f kw' _ hres hkt hf => ?_
      have hk' : KeepsTexts kw' := by unfold KeepsTexts; rw [hkt]; exact hk
      rcases hres with ⟨⟨es, c, rfl, rfl, hc⟩, _⟩ | ⟨h, hi⟩ | ⟨h, _⟩
      · have := user_calls hp hr hv hc hk' hf d
        omega
      · cases h
        have := typed_calls hp hr hv ht hd hk' hi hf
        omega
      · cases h
    omega
  · rw [marked_calls]
    have hpos := Nat.mul_le_mul_left (M + 4) (bound_pos (D := D) v 0)
    have : calls (loadWith E rec v none kw) ≤ (M + 4) * bound D v 0 - (M + 3) := by
      refine loadWith_calls hp.desers hv fun u f kw' _ hres hkt hf => ?_
      have hk' : KeepsTexts kw' := by unfold KeepsTexts; rw [hkt]; exact hk
      rcases hres with ⟨⟨es, c, rfl, rfl, hc⟩, _⟩ | ⟨h, hi⟩ | ⟨_, rfl, _⟩
      · have := user_calls hp hr hv hc hk' hf 0
        omega
      · cases h
      · have := free_calls hp hr hv hk' hf
        omega
    omega
  · rw [marked_calls]
    have : calls (loadWith E rec v (some t) kw) ≤ 0 := by
      refine loadWith_calls hp.desers hv fun u f kw' _ hres hkt hf => ?_
      rcases hres with ⟨⟨es, c, rfl, rfl, hc⟩, h⟩ | ⟨h, hi'⟩ | ⟨h, _⟩
      · rcases h with h | h
        · cases h
        · rcases hi with hi | hi
          · rw [hi] at h; cases h
          · exact absurd rfl (hi es)
      · cases h
        rw [flat_calls ht hf hi']
      · cases h
    omega

theorem bounded (hp : Program E M D) : ∀ n, Bounded E M D (loadMarked E n) := by
  intro n
  induction n with
  | zero =>
    refine ⟨fun v hv kw hk l d t ht hd => ?_, fun v hv kw hk => ?_, fun v hv kw t ht hi => ?_⟩
    · show calls (Res.raise _ : Res Val) + _ ≤ _
      rw [calls_raise]
      have hpos := Nat.mul_le_mul_left (M + 4) (bound_pos (D := D) v d)
      have : slack M l ≤ M + 2 := by
        match l with
        | 0 => exact le_refl _
        | 1 => simp [slack]
        | n + 2 => simp [slack]
      omega
    · show calls (Res.raise _ : Res Val) + _ ≤ _
      rw [calls_raise]
      have hpos := Nat.mul_le_mul_left (M + 4) (bound_pos (D := D) v 0)
      omega
    · exact Nat.zero_le _
  | succ n ih => exact bounded_step hp ih

end

/-! ## C102 -/

/-- The marks by which calls are counted change nothing: `load` returns and raises the same, with the
same warnings. -/
theorem marks_change_nothing (E : LEnv) (n : Nat) (v : Val) (cls : Option Ty) (kw : LoadKw)
    (hc : DesersDeaf E isWarning isWarning) :
    (loadMarked E n v cls kw).val = (load E n v cls kw).val ∧
    (loadMarked E n v cls kw).log.filter isWarning = (load E n v cls kw).log.filter isWarning :=
  loadMarked_q hc n v cls kw

/-- C102: loading a document takes at most `M + 4` calls for every unit of its size, whatever the
document is, whether it can be loaded or not, and however the classes of the program refer to each
other, if the unions have at most `M` members besides one that is not flat. -/
theorem load_calls_linear (E : LEnv) (M D n : Nat) (hp : Program E M D) (v : Val) (hv : Doc E v) (cls : Option Ty)
    (hc : ∀ t, cls = some t → Lin E.info M 2 D t) (kw : LoadKw) (hk : KeepsTexts kw) :
    calls (loadMarked E n v cls kw) ≤ (M + 4) * weight D v :=
  (bounded hp n).deepest hv hk hc

/-- A value that is loaded as a flat type takes one call. -/
theorem load_calls_flat (E : LEnv) (M D n : Nat) (hp : Program E M D) (v : Val) (hv : Doc E v) (t : Ty)
    (ht : Flat E.info t) (kw : LoadKw) (hi : kw.inferred = false) : calls (loadMarked E (n + 1) v (some t) kw) = 1 := by
  have h1 := (bounded hp (n + 1)).flat v hv kw t ht (.inl hi)
  have h2 : calls (loadMarked E (n + 1) v (some t) kw) = 1 + calls (loadWith E (loadMarked E n) v (some t) kw) :=
    marked_calls
  omega

/-- The negation of C102 for unions with two members that are classes: a document that is `n` levels
deep, of size `10 * n + 1`, is loaded correctly, and this takes at least `2 ^ n` calls. -/
theorem load_calls_exponential (n m : Nat) (hm : 2 * n + 2 ≤ m) :
    (load (demoLEnv twinInfo) m (chainDoc n) (some eitherTy) {}).val = .ok (chainObj n) ∧
    weight 1 (chainDoc n) = 10 * n + 1 ∧
    2 ^ n ≤ calls (loadMarked (demoLEnv twinInfo) m (chainDoc n) (some eitherTy) {}) := by
  obtain ⟨l, hl, hc⟩ := either_calls n m {} hm (.inr rfl)
  refine ⟨?_, ?_, ?_⟩
  · rw [← (marks_change_nothing (demoLEnv twinInfo) m (chainDoc n) (some eitherTy) {}
      fun _ _ _ _ _ _ => ⟨fun _ => .raise _, .raise _⟩).1, hl]
  · clear hl hc hm
    induction n with
    | zero => rfl
    | succ n ih =>
      simp only [chainDoc, weight, entryWeights, ih]
      simp only [String.toList]
      show 1 + (1 + 5 * 1 + (10 * n + 1) + (1 + 1 * 1 + weight 1 (.atom (.int 1)) + 0)) = 10 * (n + 1) + 1
      simp only [weight]
      omega
  · unfold calls
    rw [hl]
    exact hc

/-- A class `Tree(value: Optional[int], children: List[Tree])` -/
def treeInfo : Nat → ClassInfo
  | 0 => { attrs := mainAttrs "Tree"
           hints := [("value".toList, .union [.cls .int, .cls .noneType]),
                     ("children".toList, .gen .list [.cls (.user 0)])]
           initHints := [("value".toList, .union [.cls .int, .cls .noneType]),
                         ("children".toList, .gen .list [.cls (.user 0)])]
           params := [{ name := "value".toList }, { name := "children".toList }] }
  | _ => { attrs := mainAttrs "Other" }

theorem tree_names : NamesOk treeInfo desNames := by
  intro c
  match c with
  | 0 => decide
  | n + 1 =>
    have : (treeInfo (n + 1)).attrs = mainAttrs "Other" := rfl
    rw [this]
    decide

theorem tree_program : Program (demoLEnv treeInfo) 1 1 := by
  have hflat : ∀ c : Cls, c.desFn treeInfo ∈ [DesFn.datetime, .date, .time, .timedelta, .string, .noneType, .primitive,
      .enum, .uuid, .decimal, .path, .zoneinfo] → Lin treeInfo 1 1 1 (.cls c) :=
    fun c h => .lower _ _ (.flat _ _ ⟨c, rfl, h⟩)
  have huser : ∀ c, Lin treeInfo 1 0 1 (.cls (.user c)) := by
    intro c
    refine .user _ _ ?_
    match c with
    | 0 => rfl
    | n + 1 => rfl
  have huser' : ∀ c, Lin treeInfo 1 0 0 (.cls (.user c)) := by
    intro c
    refine .user _ _ ?_
    match c with
    | 0 => rfl
    | n + 1 => rfl
  have hint : Lin treeInfo 1 2 1 (.union [.cls .int, .cls .noneType]) :=
    .union 1 [] [.cls .noneType] (.cls .int)
      (fun a ha => by
        simp only [List.nil_append, List.mem_cons, List.not_mem_nil, or_false] at ha
        subst ha
        exact ⟨.noneType, rfl, by simp [Cls.desFn]⟩)
      (hflat _ (by simp [Cls.desFn])) (by simp)
  have hchildren : Lin treeInfo 1 2 1 (.gen .list [.cls (.user 0)]) :=
    .lower' _ _ (.lower _ _ (.seq 0 .list _ (by simp) fun a ha => by
      simp only [List.head?_cons, Option.some.injEq] at ha
      subst ha
      exact .lower' _ _ (.lower _ _ (huser' 0))))
  refine ⟨fun fork t => getLizer_desFn treeInfo tree_names t, ?_, ?_, ?_, ?_, le_refl _⟩
  · intro c _
    match c with
    | 0 => decide
    | n + 1 => exact List.nodup_nil
  · intro c _ p hp
    match c with
    | 0 =>
      have hp : p ∈ [("value".toList, Ty.union [.cls .int, .cls .noneType]),
        ("children".toList, .gen .list [.cls (.user 0)])] := hp
      simp only [List.mem_cons, List.not_mem_nil, or_false] at hp
      rcases hp with rfl | rfl
      · exact hint
      · exact hchildren
    | n + 1 => cases hp
  · intro c _ p hp
    match c with
    | 0 =>
      have hp : p ∈ [("value".toList, Ty.union [.cls .int, .cls .noneType]),
        ("children".toList, .gen .list [.cls (.user 0)])] := hp
      simp only [List.mem_cons, List.not_mem_nil, or_false] at hp
      rcases hp with rfl | rfl
      · exact hint
      · exact hchildren
    | n + 1 => cases hp
  · intro fork s t h
    have h : (if s = "__main__.Point".toList then Except.ok (Ty.cls (.user 0))
      else if s = "__main__.Person".toList then .ok (.cls (.user 5))
      else if s = "int".toList then .ok (.cls .int)
      else if s = "str".toList then .ok (.cls .str)
      else if s = "datetime.datetime".toList then .ok (.cls .datetime)
      else .error ErrKind.unknownClass) = .ok t := h
    split_ifs at h <;> cases h
    · exact .lower' _ _ (.lower _ _ (huser 0))
    · exact .lower' _ _ (.lower _ _ (huser 5))
    · exact .lower' _ _ (hflat _ (by simp [Cls.desFn]))
    · exact .lower' _ _ (hflat _ (by simp [Cls.desFn]))
    · exact .lower' _ _ (hflat _ (by simp [Cls.desFn]))

/-- `{'value': 1, 'children': [{'value': None, 'children': []}]}` -/
def treeDoc : Val :=
  .dict [(.str "value".toList, .int 1), (.str "children".toList, .list
    [.dict [(.str "value".toList, .none), (.str "children".toList, .list [])]])]

theorem tree_doc : Doc (demoLEnv treeInfo) treeDoc := by
  have leaf : Doc (demoLEnv treeInfo) (.dict [(.str "value".toList, .none), (.str "children".toList, .list [])]) := by
    refine .dict _ (fun e he => ?_) (fun e he => ?_) rfl fun fork t h hm => by cases hm
    · simp only [List.mem_cons, List.not_mem_nil, or_false] at he
      rcases he with rfl | rfl <;> exact ⟨_, rfl⟩
    · simp only [List.mem_cons, List.not_mem_nil, or_false] at he
      rcases he with rfl | rfl
      · exact .none
      · exact .seq _ _ fun x hx => by cases hx
  refine .dict _ (fun e he => ?_) (fun e he => ?_) rfl fun fork t h hm => by cases hm
  · simp only [List.mem_cons, List.not_mem_nil, or_false] at he
    rcases he with rfl | rfl <;> exact ⟨_, rfl⟩
  · simp only [List.mem_cons, List.not_mem_nil, or_false] at he
    rcases he with rfl | rfl
    · exact .int 1
    · refine .seq _ _ fun x hx => ?_
      simp only [List.mem_cons, List.not_mem_nil, or_false] at hx
      subst hx
      exact leaf

/-- The theorem for this document, which is loaded with 9 calls and for which 180 are allowed. -/
example : calls (loadMarked (demoLEnv treeInfo) 20 treeDoc (some (.cls (.user 0))) {}) ≤ 5 * weight 1 treeDoc :=
  load_calls_linear _ 1 1 20 tree_program treeDoc tree_doc _
    (fun t ht => by cases ht; exact .lower' _ _ (.lower _ _ (.user _ _ rfl))) {} fun f h => by cases h

example : calls (loadMarked (demoLEnv treeInfo) 20 treeDoc (some (.cls (.user 0))) {}) = 9 := by decide +kernel

example : weight 1 treeDoc = 36 := by decide +kernel

example : (match (load (demoLEnv treeInfo) 20 treeDoc (some (.cls (.user 0))) {}).val with
    | .ok _ => true | .error _ => false) = true := by decide +kernel

example : calls (loadMarked (demoLEnv twinInfo) 12 (chainDoc 5) (some eitherTy) {}) = 252 := by decide +kernel

end Verif.Props.Calls
