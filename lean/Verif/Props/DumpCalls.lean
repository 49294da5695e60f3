import Verif.Props.Quiet
import Verif.Props.CallsBound
import Verif.Core.Json
import Verif.Core.AttrLemmas
import Verif.Props.DumpStyle
import Verif.Props.Registrations

/-! # How often the parts of an object are dumped (C103) -/

set_option autoImplicit false

namespace Verif.Props.DumpCalls

open Verif Verif.Core Verif.Datetime Verif.Props.Quiet

/-! ## Calls that leave a mark -/

/-- The mark that a call of a serializer leaves; all warnings of jsons have a code. -/
def mark : Event := .warn [] []

/-- Whether something is a mark. -/
def isMark : Event → Bool
  | .warn [] [] => true
  | _ => false

/-- The calls of `dump` and of the serializers that are possible with a stack for `n` nested calls,
`/repo/jsons/_dump_impl.py` lines 16-66, where every call of a serializer first leaves a mark. -/
def recMarked (E : Env) : Nat → Rec
  | 0 => ⟨fun _ _ _ => Res.raise { kind := .recursionError },
      fun _ _ _ _ => Res.raise { kind := .recursionError }⟩
  | n + 1 => ⟨dumpWith E (recMarked E n), fun f v cls kw => do
      Res.emit mark
      callSer E (recMarked E n) f v cls kw⟩

/-- `dump(obj, cls, **kwargs)` with a stack for `n` nested calls, where every call of a serializer
leaves a mark; `/repo/jsons/_dump_impl.py` lines 16-66. -/
def dumpMarked (E : Env) (n : Nat) (v : Val) (cls : Option Ty) (kw : DumpKw) : Res Val :=
  (recMarked E n).dump v cls kw

/-- How many calls of serializers there were. -/
def calls {α : Type} (x : Res α) : Nat := x.log.countP isMark

/-- The marks change nothing: calls return and raise what they do without them, with the same
warnings and announcements. -/
theorem recMarked_q {E : Env} (hc : SersDeaf E (fun ev => !isMark ev) fun ev => !isMark ev) :
    ∀ n, Agree (fun ev => !isMark ev) (fun ev => !isMark ev) (recOf E n) (recMarked E n) := by
  have hs : Settings E.warns E.warns (fun ev => !isMark ev) fun ev => !isMark ev :=
    ⟨fun _ _ => rfl, fun _ _ _ => rfl⟩
  intro n
  induction n with
  | zero => exact ⟨fun _ _ _ => .raise _, fun _ _ _ _ => .raise _⟩
  | succ n ih =>
    refine ⟨fun v cls kw => ?_, fun g v cls kw => ?_⟩
    · show Q _ _ (dumpWith E (recOf E n) v cls kw) (dumpWith E (recMarked E n) v cls kw)
      unfold dumpWith
      dsimp only
      refine .bind (.liftK _) fun fn => .bind (announce_q hs _ _) fun _ => .bind ?_ fun r => ?_
      · refine Q.attempt ?_
        cases fn with
        | none => exact .raise _
        | some g => exact ih.call _ _ _ _
      · cases r with
        | ok r => exact .pure _
        | error e => exact .raise _
    · have hb : Q _ _ (callSer E (recOf E n) g v cls kw) (callSer E (recMarked E n) g v cls kw) :=
        callSer_q hs hc ih g v cls kw
      constructor
      · show (Res.emit mark >>= fun _ => callSer E (recMarked E n) g v cls kw).val = _
        rw [bind_val]
        exact hb.1
      · show (Res.emit mark >>= fun _ => callSer E (recMarked E n) g v cls kw).log.filter _ = _
        rw [bind_log]
        exact hb.2

/-! ## Counting -/

section
variable {α β : Type}

theorem calls_mute {x : Res α} (h : x.log = []) : calls x = 0 := by unfold calls; rw [h]; rfl

theorem calls_pure (a : α) : calls (pure a : Res α) = 0 := rfl
theorem calls_raise (e : Err) : calls (Res.raise e : Res α) = 0 := rfl
theorem calls_lift (x : Except Err α) : calls (Res.lift x) = 0 := calls_mute (by simp)
theorem calls_liftK (x : Except ErrKind α) : calls (Res.liftK x) = 0 := calls_mute (by simp)
theorem calls_attempt (x : Res α) : calls x.attempt = calls x := rfl
theorem calls_announce (t : Ty) (i : Nat) : calls (Res.emit (.announce t i)) = 0 := rfl
theorem calls_warn (E : Env) (i : Nat) (c : Char) (s m : PyStr) : calls (E.warn i (c :: s) m) = 0 := by
  unfold Env.warn
  split <;> rfl

theorem calls_bind {x : Res α} {f : α → Res β} {a b : Nat} (hx : calls x ≤ a)
    (hf : ∀ r, x.val = .ok r → calls (f r) ≤ b) : calls (x >>= f) ≤ a + b := by
  unfold calls at *
  rw [bind_log]
  split
  · next r hr =>
    rw [List.countP_append]
    exact Nat.add_le_add hx (hf r hr)
  · omega

theorem calls_then {x : Res α} {f : α → Res β} {b : Nat} (hx : calls x = 0)
    (hf : ∀ r, x.val = .ok r → calls (f r) ≤ b) : calls (x >>= f) ≤ b := by
  have := calls_bind (a := 0) (le_of_eq hx) hf
  omega

theorem calls_after {x : Res α} {f : α → Res β} {a : Nat} (hx : calls x ≤ a)
    (hf : ∀ r, calls (f r) = 0) : calls (x >>= f) ≤ a :=
  calls_bind hx fun r _ => le_of_eq (hf r)

theorem calls_ite {p : Prop} [Decidable p] {x y : Res α} {b : Nat} (h : p → calls x ≤ b) (h' : ¬p → calls y ≤ b) :
    calls (if p then x else y) ≤ b := by
  split
  · next hp => exact h hp
  · next hp => exact h' hp

theorem calls_marked {x : Res α} : calls (Res.emit mark >>= fun _ => x) = 1 + calls x := by
  unfold calls
  rw [bind_log]
  show ([mark] ++ x.log).countP isMark = _
  rw [List.countP_append]
  rfl

theorem mapRes_calls {f : α → Res β} {c : α → Nat} :
    ∀ (xs : List α), (∀ x ∈ xs, calls (f x) ≤ c x) → calls (mapRes f xs) ≤ (xs.map c).sum
  | [], _ => Nat.le_of_eq (calls_pure _)
  | x :: xs, h => by
    show calls (f x >>= fun y => mapRes f xs >>= fun ys => pure (y :: ys)) ≤ c x + (xs.map c).sum
    exact calls_bind (h x List.mem_cons_self) fun _ _ =>
      calls_after (mapRes_calls xs fun y hy => h y (List.mem_cons_of_mem _ hy)) fun _ => calls_pure _

end

/-- Nothing is called. -/
macro "silent" : tactic => `(tactic| repeat' first
  | exact Nat.le_of_eq (calls_pure _) | exact Nat.le_of_eq (calls_raise _) | exact Nat.le_of_eq (calls_lift _)
  | exact Nat.le_of_eq (calls_liftK _) | exact Nat.le_of_eq (calls_warn _ _ _ _ _)
  | exact Nat.zero_le _ | rw [calls_pure] | rw [calls_raise]
  | refine calls_ite (fun _ => ?_) (fun _ => ?_)
  | (refine calls_then (calls_lift _) fun _ _ => ?_) | (refine calls_then (calls_liftK _) fun _ _ => ?_)
  | (refine calls_then (calls_warn _ _ _ _ _) fun _ _ => ?_) | split)

/-! ## Types, sizes and programs -/

/-- Types of values without parts: their serializers do not dump anything else, except that the offset
of a time zone is dumped. -/
def Leaf (info : Nat → ClassInfo) (t : Ty) : Prop :=
  ∃ f, t.serFn info = some f ∧ f ∈ [SerFn.datetime, .date, .time, .timedelta, .primitive, .enum, .uuid, .decimal,
    .path, .zoneinfo, .complex, .timezone]

/-- The types that are dealt with, with the depth `d` of their nested lists; `l` is 1 for unions and 0
for the others.  A union has at most one member that is not a type of values without parts; its
members are limited by `M`, and there are no unions if `M` is 0. -/
inductive Lin (info : Nat → ClassInfo) (M : Nat) : Nat → Nat → Ty → Prop
  | leaf (d : Nat) (t : Ty) (h : Leaf info t) : Lin info M 0 d t
  | any (d : Nat) : Lin info M 0 d .any
  | cls (d : Nat) (c : Cls) : Lin info M 0 (d + 1) (.cls c)
  | coll (d : Nat) (g : Gen) (args : List Ty)
      (hg : g ∈ [Gen.list, .tuple, .tupleEll, .set, .frozenset, .deque, .iterable])
      (h : ∀ a ∈ args, Lin info M 1 d a) : Lin info M 0 (d + 1) (.gen g args)
  | mapping (d : Nat) (g : Gen) (args : List Ty) (hg : g ∈ [Gen.dict, .mapping, .defaultdict]) :
      Lin info M 0 d (.gen g args)
  | union (d : Nat) (pre post : List Ty) (t : Ty) (hp : ∀ a ∈ pre ++ post, Leaf info a) (h : Lin info M 0 d t)
      (hl : 2 * (pre.length + post.length) + 1 ≤ M) : Lin info M 1 d (.union (pre ++ t :: post))
  | lower (d : Nat) (t : Ty) (h : Lin info M 0 d t) : Lin info M 1 d t

/-- The size of an attribute, if it is there. -/
def attrSize (E : Env) (m : Val → Nat) (v : Val) (n : PyStr) : Nat :=
  match E.getAttr v n with
  | .ok a => m a
  | .error _ => 0

/-- Names of attributes that the value has itself, or that some class of the program declares. -/
def Named (E : Env) (v : Val) (n : PyStr) : Prop :=
  (∃ c as, v = .obj c as ∧ n ∈ as.map (·.1)) ∨
  ∃ c, n ∈ (E.info c).hints.map (·.1) ∨ n ∈ (E.info c).initHints.map (·.1) ∨
    (∃ l, (E.info c).slots = some l ∧ n ∈ l) ∨ n ∈ (E.info c).members.map (·.1)

/-- `m` is a size of values: every value is larger than its elements, its keys and values, or its
attributes together, those that properties give included; the characters of a text count `D`
times, because a text is dumped as a list by dumping its characters; a time zone counts twice,
because its offset is dumped. -/
structure Size (E : Env) (D : Nat) (m : Val → Nat) : Prop where
  pos : ∀ v, 1 ≤ m v
  text : ∀ s, 1 + s.length * D ≤ m (.str s)
  zone : ∀ us n, 2 ≤ m (.atom (.timezone us n))
  seq : ∀ k xs, (xs.map m).sum < m (.seq k xs)
  ntuple : ∀ c xs, (xs.map m).sum < m (.ntuple c xs)
  dict : ∀ es, (es.map fun e => m e.1 + m e.2).sum < m (.dict es)
  ddict : ∀ f es, (es.map fun e => m e.1 + m e.2).sum < m (.ddict f es)
  attrs : ∀ v (ns : List PyStr), ns.Nodup → (∀ n ∈ ns, Named E v n) → (ns.map (attrSize E m v)).sum < m v

/-- The hints of the classes of the program, and the types that `typish` finds, are of these types,
with lists nested up to `D` deep; names are declared once; values that are not objects of the
program have at most `F` attributes, which have no parts; texts have none. -/
structure Program (E : Env) (M D F : Nat) : Prop where
  sers : ∀ fork, DefaultSers E fork
  hints : ∀ c, ∀ p ∈ (E.info c).hints, Lin E.info M 1 D p.2
  initHints : ∀ c, ∀ p ∈ (E.info c).initHints, Lin E.info M 1 D p.2
  hintNames : ∀ c, ((E.info c).hints.map (·.1)).Nodup
  initNames : ∀ c, ((E.info c).initHints.map (·.1)).Nodup
  slotNames : ∀ c l, (E.info c).slots = some l → l.Nodup
  found : ∀ v, Lin E.info M 1 D (E.getType v)
  foreign : ∀ v t kw as, E.foreignAttrs v t kw = .ok as →
    as.length ≤ F ∧ ∀ p ∈ as, p.2 = none ∧ ∀ a, E.getAttr v p.1 = .ok a → ∃ x, a = .atom x
  texts : ∀ s n a, E.getAttr (.str s) n ≠ .ok a
  deep : 1 ≤ D

/-- The types that are given for the values of a dict are of these types. -/
def KwOk (E : Env) (M D : Nat) (kw : DumpKw) : Prop := ∀ p ∈ kw.types, Lin E.info M 1 D p.2

/-! ## Sizes -/

section
variable {E : Env} {M D F : Nat} {m : Val → Nat}

/-- The size of a value that is dumped as a type with lists nested `d` deep. -/
def bound (m : Val → Nat) (v : Val) (d : Nat) : Nat :=
  match v with
  | .atom (.str s) => 1 + s.length * d
  | v => m v

theorem bound_str (s : PyStr) (d : Nat) : bound m (.str s) d = 1 + s.length * d := rfl

theorem bound_other {v : Val} (h : ∀ s, v ≠ .str s) (d : Nat) : bound m v d = m v := by
  unfold bound
  split
  · next s => exact absurd rfl (h s)
  · rfl

theorem isText (v : Val) : (∃ s, v = .str s) ∨ ∀ s, v ≠ .str s := by
  by_cases h : ∃ s, v = .str s
  · exact .inl h
  · exact .inr fun s e => h ⟨s, e⟩

theorem bound_le (hm : Size E D m) {v : Val} {d : Nat} (h : d ≤ D) : bound m v d ≤ m v := by
  rcases isText v with ⟨s, rfl⟩ | hv
  · rw [bound_str]
    exact Nat.le_trans (Nat.add_le_add_left (Nat.mul_le_mul_left _ h) _) (hm.text s)
  · rw [bound_other hv]

theorem bound_mono {v : Val} {d d' : Nat} (h : d ≤ d') : bound m v d ≤ bound m v d' := by
  rcases isText v with ⟨s, rfl⟩ | hv
  · rw [bound_str, bound_str]
    exact Nat.add_le_add_left (Nat.mul_le_mul_left _ h) _
  · rw [bound_other hv, bound_other hv]

theorem bound_pos (hm : Size E D m) (v : Val) (d : Nat) : 1 ≤ bound m v d := by
  rcases isText v with ⟨s, rfl⟩ | hv
  · rw [bound_str]; omega
  · rw [bound_other hv]; exact hm.pos v

theorem sum_le {α : Type} {f g : α → Nat} : ∀ (xs : List α), (∀ x ∈ xs, f x ≤ g x) → (xs.map f).sum ≤ (xs.map g).sum
  | [], _ => Nat.le_refl _
  | x :: xs, h => by
    simp only [List.map_cons, List.sum_cons]
    exact Nat.add_le_add (h x List.mem_cons_self) (sum_le xs fun y hy => h y (List.mem_cons_of_mem _ hy))

theorem sum_mul {α : Type} (k : Nat) (f : α → Nat) (xs : List α) : (xs.map fun x => k * f x).sum = k * (xs.map f).sum := by
  induction xs with
  | nil => rfl
  | cons x xs ih => simp only [List.map_cons, List.sum_cons, ih, Nat.mul_add]

theorem sum_zip_left {α β : Type} (f : α → Nat) : ∀ (xs : List α) (ys : List β),
    ((xs.zip ys).map fun p => f p.1).sum ≤ (xs.map f).sum
  | [], _ => Nat.le_refl _
  | _ :: _, [] => Nat.zero_le _
  | x :: xs, y :: ys => by
    simp only [List.zip_cons_cons, List.map_cons, List.sum_cons]
    exact Nat.add_le_add_left (sum_zip_left f xs ys) _

theorem sum_zip_right {α β : Type} (f : β → Nat) : ∀ (xs : List α) (ys : List β),
    ((xs.zip ys).map fun p => f p.2).sum ≤ (ys.map f).sum
  | [], _ => Nat.zero_le _
  | _ :: _, [] => Nat.le_refl _
  | x :: xs, y :: ys => by
    simp only [List.zip_cons_cons, List.map_cons, List.sum_cons]
    exact Nat.add_le_add_left (sum_zip_right f xs ys) _

/-- The elements of something that is not a text are together smaller than it. -/
theorem iter_size (hm : Size E D m) {v : Val} {xs : List Val} (h : v.iter = some xs) (hv : ∀ s, v ≠ .str s) :
    (xs.map m).sum < m v := by
  have keys : ∀ es : List (Val × Val), ((es.map (·.1)).map m).sum ≤ (es.map fun e => m e.1 + m e.2).sum := by
    intro es
    rw [List.map_map]
    exact sum_le es fun e _ => Nat.le_add_right _ _
  cases v with
  | seq k ys => cases h; exact hm.seq k _
  | ntuple c ys => cases h; exact hm.ntuple c _
  | dict es => cases h; exact Nat.lt_of_le_of_lt (keys es) (hm.dict es)
  | ddict f es => cases h; exact Nat.lt_of_le_of_lt (keys es) (hm.ddict f es)
  | atom a =>
    cases a with
    | str s => exact absurd rfl (hv s)
    | _ => cases h
  | enum c n => cases h
  | obj c as => cases h

/-- The depth with which the elements of a value are dumped, if it is dumped as a list with types
nested `d` deep. -/
theorem iter_depth (hm : Size E D m) {v : Val} {d : Nat} (hd : d + 1 ≤ D) :
    ∃ e, d ≤ e ∧ e ≤ D ∧ ((∃ s, v = .str s) ∨ e = D) ∧
      ∀ xs, v.iter = some xs → (xs.map fun x => bound m x e).sum < bound m v (d + 1) := by
  rcases isText v with ⟨s, rfl⟩ | hv
  · refine ⟨d, Nat.le_refl _, by omega, .inl ⟨s, rfl⟩, ?_⟩
    intro xs h
    cases h
    rw [bound_str]
    have : ((s.map fun c => Val.str [c]).map fun x => bound m x d).sum = s.length * (d + 1) := by
      rw [List.map_map]
      clear hd
      induction s with
      | nil => simp
      | cons c s ih =>
        rw [List.map_cons, List.sum_cons, ih]
        show (1 + 1 * d) + _ = (s.length + 1) * (d + 1)
        rw [Nat.add_mul]; omega
    omega
  · refine ⟨D, by omega, Nat.le_refl _, .inr rfl, ?_⟩
    intro xs h
    rw [bound_other hv]
    exact Nat.lt_of_le_of_lt (sum_le xs fun x _ => bound_le hm (Nat.le_refl D)) (iter_size hm h hv)

/-! ## Types -/

theorem Lin.succ {l d : Nat} {t : Ty} (h : Lin E.info M l d t) : Lin E.info M l (d + 1) t := by
  induction h with
  | leaf d t h => exact .leaf _ _ h
  | any d => exact .any _
  | cls d c => exact .cls _ _
  | coll d g args hg _ ih => exact .coll _ _ _ hg ih
  | mapping d g args hg => exact .mapping _ _ _ hg
  | union d pre post t hp _ hl ih => exact .union _ _ _ _ hp ih hl
  | lower d t _ ih => exact .lower _ _ ih

theorem Lin.mono {l d d' : Nat} {t : Ty} (h : Lin E.info M l d t) (hd : d ≤ d') : Lin E.info M l d' t := by
  obtain ⟨k, rfl⟩ := Nat.exists_eq_add_of_le hd
  induction k with
  | zero => exact h
  | succ k ih => exact (ih (Nat.le_add_right _ _)).succ

/-- The serializers of `Leaf`. -/
def leaves : List SerFn :=
  [.datetime, .date, .time, .timedelta, .primitive, .enum, .uuid, .decimal, .path, .zoneinfo, .complex, .timezone]

theorem atom_leaf (info : Nat → ClassInfo) (a : Atom) : Leaf info (.cls (Val.atom a).cls) := by
  cases a <;> exact ⟨_, rfl, by simp [Val.cls, Atom.cls, Cls.serFn]⟩

end

/-! ## Bounds -/

/-- The calls that `rec` makes are bounded. -/
structure Bounded (E : Env) (M D F : Nat) (m : Val → Nat) (rec : Rec) : Prop where
  leaf : ∀ f v cls kw, f ∈ leaves → (cls.getD (.cls v.cls)).serFn E.info = some f →
    calls (rec.call f v cls kw) ≤ 2 ∧ ((∀ us n, v ≠ .atom (.timezone us n)) → calls (rec.call f v cls kw) ≤ 1)
  low : ∀ f v t kw d, KwOk E M D kw → d ≤ D → Lin E.info M 0 d t → t.serFn E.info = some f →
    calls (rec.call f v (some t) kw) + (M + 1 + 2 * F) ≤ (M + 1 + 2 * F) * bound m v d + (2 * F + 1)
  high : ∀ f v cls kw d, KwOk E M D kw → d ≤ D → (∀ t, cls = some t → Lin E.info M 1 d t) →
    (cls.getD (.cls v.cls)).serFn E.info = some f →
    calls (rec.call f v cls kw) ≤ (M + 1 + 2 * F) * bound m v d
  dumpLeaf : ∀ v cls kw, Leaf E.info (cls.getD (.cls v.cls)) →
    calls (rec.dump v cls kw) ≤ 2 ∧ ((∀ us n, v ≠ .atom (.timezone us n)) → calls (rec.dump v cls kw) ≤ 1)
  dumpLow : ∀ v t kw d, KwOk E M D kw → d ≤ D → Lin E.info M 0 d t →
    calls (rec.dump v (some t) kw) + (M + 1 + 2 * F) ≤ (M + 1 + 2 * F) * bound m v d + (2 * F + 1)
  dumpHigh : ∀ v cls kw d, KwOk E M D kw → d ≤ D → (∀ t, cls = some t → Lin E.info M 1 d t) →
    calls (rec.dump v cls kw) ≤ (M + 1 + 2 * F) * bound m v d

section
variable {E : Env} {M D F : Nat} {m : Val → Nat} {rec : Rec}

theorem dumpWith_calls (hp : Program E M D F) {v : Val} {cls : Option Ty} {kw : DumpKw} {c : Nat}
    (h : ∀ f, (cls.getD (.cls v.cls)).serFn E.info = some f → calls (rec.call f v cls kw) ≤ c) :
    calls (dumpWith E rec v cls kw) ≤ c := by
  unfold dumpWith
  dsimp only
  rw [hp.sers kw.fork]
  refine calls_then (calls_liftK _) fun fn hfn => calls_then (calls_announce _ _) fun _ _ => ?_
  rw [liftK_ok] at hfn
  cases hfn
  refine calls_after ?_ fun r => ?_
  · rw [calls_attempt]
    split
    · next f hf => exact h f hf
    · exact Nat.zero_le _
  · cases r <;> rfl

theorem typed_calls (hp : Program E M D F) (hr : Bounded E M D F m rec) {kw kw' : DumpKw} (hk : KwOk E M D kw')
    {xs : List Val} {t : Ty} {e : Nat} (he : e ≤ D) (ht : Lin E.info M 1 e t) :
    calls (listSer.typed E rec kw xs t kw') ≤ (M + 1 + 2 * F) * (xs.map fun x => bound m x e).sum := by
  unfold listSer.typed
  rw [hp.sers kw.fork]
  refine calls_then (calls_liftK _) fun fn hfn => ?_
  rw [liftK_ok] at hfn
  cases hfn
  refine calls_after ?_ fun _ => calls_pure _
  rw [← sum_mul]
  refine mapRes_calls xs fun x _ => ?_
  split
  · next f hf _ => exact hr.high f x (some t) kw' e hk he (fun _ h => by cases h; exact ht) hf
  · exact Nat.zero_le _

theorem cls_lin (hp : Program E M D F) (c : Cls) : Lin E.info M 1 D (.cls c) := by
  have h : Lin E.info M 0 1 (.cls c) := .cls 0 c
  exact .lower _ _ (h.mono hp.deep)

theorem listSer_calls (hp : Program E M D F) (hr : Bounded E M D F m rec) {v : Val} {cls : Option Ty} {kw : DumpKw}
    (hk : KwOk E M D kw) {e B : Nat} (he : e ≤ D) (hs : (∃ s, v = .str s) ∨ e = D)
    (hx : ∀ xs, v.iter = some xs → (xs.map fun x => bound m x e).sum ≤ B)
    (ha : ∀ t, cls = some t → ∀ a ∈ t.getArgs, Lin E.info M 1 e a) :
    calls (listSer E rec v cls kw) ≤ (M + 1 + 2 * F) * B := by
  unfold listSer
  refine calls_ite (fun _ => Nat.zero_le _) fun _ => ?_
  dsimp only
  split
  · exact Nat.zero_le _
  · next xs hxs =>
    have hB := Nat.mul_le_mul_left (M + 1 + 2 * F) (hx xs hxs)
    have hk' : KwOk E M D { kw with storeCls := false } := hk
    split
    · next t ts hargs =>
      refine Nat.le_trans (typed_calls hp hr hk' he ?_) hB
      cases cls with
      | none => cases hargs
      | some c => exact ha c rfl t (by
          have h : c.getArgs = t :: ts := hargs
          rw [h]; exact List.mem_cons_self)
    · refine calls_ite (fun _ => ?_) fun _ => ?_
      · split
        · exact Nat.zero_le _
        · exact Nat.zero_le _
        · exact Nat.zero_le _
        · exact Nat.zero_le _
        · next x ys _ _ _ _ =>
          refine Nat.le_trans (typed_calls hp hr hk' he ?_) hB
          rcases hs with ⟨s, rfl⟩ | rfl
          · refine .lower _ _ (.leaf _ _ ?_)
            have : x ∈ s.map fun c => Val.str [c] := by
              have h : s.map (fun c => Val.str [c]) = x :: ys := Option.some.inj hxs
              rw [h]; exact List.mem_cons_self
            obtain ⟨c, _, rfl⟩ := List.mem_map.1 this
            exact atom_leaf _ _
          · exact cls_lin hp _
        · exact Nat.zero_le _
      · refine calls_after (Nat.le_trans ?_ hB) fun _ => calls_pure _
        rw [← sum_mul]
        exact mapRes_calls xs fun x _ => hr.dumpHigh x none _ e hk' he (fun _ h => by cases h)

theorem iterableSer_calls (hp : Program E M D F) (hr : Bounded E M D F m rec) {v : Val} {cls : Option Ty} {kw : DumpKw}
    (hk : KwOk E M D kw) {e B : Nat} (he : e ≤ D) (hs : (∃ s, v = .str s) ∨ e = D)
    (hx : ∀ xs, v.iter = some xs → (xs.map fun x => bound m x e).sum ≤ B)
    (ha : ∀ t, cls = some t → ∀ a ∈ t.getArgs, Lin E.info M 1 e a) :
    calls (iterableSer E rec v cls kw) ≤ (M + 1 + 2 * F) * B := by
  have hk' : KwOk E M D { kw with storeCls := false } := hk
  have sub : ∀ (n : Nat) (c : Option Ty) (ts : List (Option Ty)), (∀ t, c = some t → ∀ a ∈ t.getArgs, Lin E.info M 1 e a) →
      getSubclasses n c = .ok ts → ∀ t ∈ ts, ∀ a, t = some a → Lin E.info M 1 e a := by
    intro n c ts hc h t ht a hta
    subst hta
    have hc' : ∀ a ∈ (c.map Ty.getArgs).getD [], Lin E.info M 1 e a := by
      cases c with
      | none => exact fun _ h => absurd h List.not_mem_nil
      | some c => exact hc c rfl
    unfold getSubclasses at h
    dsimp only at h
    split at h
    · rw [if_neg (by simp)] at h
      cases h
      rw [List.mem_replicate] at ht
      cases ht.2
    · next b hb =>
      rw [if_neg (by simp)] at h
      cases h
      rw [List.mem_replicate] at ht
      cases ht.2
      exact hc' a (by rw [hb]; exact List.mem_cons_self)
    · split at h
      · cases h
      · cases h
        obtain ⟨b, hb, e'⟩ := List.mem_map.1 ht
        cases e'
        exact hc' a hb
  unfold iterableSer
  dsimp only
  split
  · exact Nat.zero_le _
  · next xs hxs =>
    have hB := Nat.mul_le_mul_left (M + 1 + 2 * F) (hx xs hxs)
    have quiet : calls (elementTypes E v xs.length cls kw.strict) = 0 := by
      unfold elementTypes
      apply Nat.le_zero.1
      silent
    refine calls_then quiet fun ts hts => calls_after (Nat.le_trans ?_ hB) fun _ => calls_pure _
    have htypes : ∀ t ∈ ts, ∀ a, t = some a → Lin E.info M 1 e a := by
      unfold elementTypes at hts
      split at hts
      · rw [bind_val] at hts
        cases hd : determineCls E v cls with
        | error k => rw [hd] at hts; cases hts
        | ok c =>
          rw [hd] at hts
          have hts : (Res.lift (getSubclasses xs.length c)).val = .ok ts := hts
          rw [lift_val] at hts
          refine sub _ c ts ?_ hts
          intro t htc a hat
          subst htc
          unfold determineCls at hd
          split at hd
          · next t' => cases hd; exact ha t rfl a hat
          · split at hd <;> cases hd
            · rcases hs with ⟨s, hs⟩ | rfl
              · cases hs
              · cases List.mem_singleton.1 hat; exact hp.found _
            · rcases hs with ⟨s, hs⟩ | rfl
              · cases hs
              · cases List.mem_singleton.1 hat; exact hp.found _
            · rcases hs with ⟨s, hs⟩ | rfl
              · cases hs
              · cases List.mem_singleton.1 hat; exact hp.found _
            · exact absurd hat List.not_mem_nil
      · rw [lift_val] at hts
        exact sub _ none ts (fun _ h => by cases h) hts
    refine Nat.le_trans (mapRes_calls (c := fun p => (M + 1 + 2 * F) * bound m p.1 e) _ ?_) ?_
    · intro p hpm
      refine hr.dumpHigh p.1 p.2 _ e hk' he fun a hpa => ?_
      exact htypes p.2 (List.of_mem_zip (a := p.1) (b := p.2) hpm).2 a hpa
    · rw [sum_mul]
      exact Nat.mul_le_mul_left _ (sum_zip_left (fun x => bound m x e) xs ts)

theorem tupleSer_calls (hp : Program E M D F) (hr : Bounded E M D F m rec) {v : Val} {cls : Option Ty} {kw : DumpKw}
    (hk : KwOk E M D kw) {e B : Nat} (he : e ≤ D) (hs : (∃ s, v = .str s) ∨ e = D)
    (hx : ∀ xs, v.iter = some xs → (xs.map fun x => bound m x e).sum ≤ B)
    (ha : ∀ t, cls = some t → ∀ a ∈ t.getArgs, Lin E.info M 1 e a) :
    calls (tupleSer E rec v cls kw) ≤ (M + 1 + 2 * F) * B := by
  unfold tupleSer
  split
  · next c xs =>
    have hB := Nat.mul_le_mul_left (M + 1 + 2 * F) (hx xs rfl)
    unfold namedtupleSer
    refine calls_after (Nat.le_trans (mapRes_calls (c := fun p => (M + 1 + 2 * F) * bound m p.2 e) _ ?_) ?_)
      fun _ => calls_pure _
    · intro p _
      exact calls_after (hr.dumpHigh p.2 none kw e hk he fun _ h => by cases h) fun _ => calls_pure _
    · rw [sum_mul]
      exact Nat.le_trans (Nat.mul_le_mul_left _ (sum_zip_right (fun x => bound m x e) _ xs)) hB
  · have quiet : ∀ w, calls (tupleCls w cls) = 0 := by
      intro w
      unfold tupleCls
      apply Nat.le_zero.1
      silent
    refine calls_then (quiet _) fun c hc => iterableSer_calls hp hr hk he hs hx ?_
    intro t htc a hat
    subst htc
    unfold tupleCls at hc
    split at hc
    · cases hc
    · next t' =>
      split at hc
      · cases hc
      · cases hc
        exact ha _ rfl a hat
      · split at hc
        · cases hc
        · cases hc
          have h : a ∈ List.replicate _ (t'.getArgs.headD .any) := hat
          rw [List.mem_replicate] at h
          rw [h.2]
          cases hg : t'.getArgs with
          | nil => exact .lower _ _ (.any _)
          | cons b bs => exact ha t' rfl b (by rw [hg]; exact List.mem_cons_self)

theorem dictLoop_calls (hm : Size E D m) (hp : Program E M D F) (hr : Bounded E M D F m rec) {kw : DumpKw}
    (hk : KwOk E M D kw) : ∀ (es acc : List (Val × Val)),
    calls (dictLoop E rec kw es acc) ≤ (M + 1 + 2 * F) * (es.map fun e => m e.1 + m e.2).sum
  | [], acc => Nat.zero_le _
  | (key, v) :: es, acc => by
    unfold dictLoop
    dsimp only
    rw [List.map_cons, List.sum_cons, Nat.mul_add, Nat.mul_add, Nat.add_assoc]
    refine calls_bind ?_ fun r _ => ?_
    · unfold storeAndHash
      refine calls_ite (fun _ => Nat.zero_le _) fun _ => ?_
      refine calls_after (Nat.le_trans (hr.dumpHigh key none kw D hk (Nat.le_refl _) fun _ h => by cases h)
        (Nat.mul_le_mul_left _ (bound_le hm (Nat.le_refl _)))) fun d => ?_
      apply Nat.le_zero.1
      silent
    · refine calls_bind ?_ fun d _ => calls_then (calls_lift _) fun acc' _ => dictLoop_calls hm hp hr hk es acc'
      refine Nat.le_trans (hr.dumpHigh v _ _ D (fun _ h => absurd h List.not_mem_nil) (Nat.le_refl _) fun t ht => ?_)
        (Nat.mul_le_mul_left _ (bound_le hm (Nat.le_refl _)))
      split at ht
      · exact hk _ (Calls.assoc_mem ht)
      · cases ht

theorem dictSer_calls (hm : Size E D m) (hp : Program E M D F) (hr : Bounded E M D F m rec) {v : Val} {kw : DumpKw}
    (hk : KwOk E M D kw) {d : Nat} :
    calls (dictSer E rec v kw) + (M + 1 + 2 * F) ≤ (M + 1 + 2 * F) * bound m v d := by
  have key : ∀ a b : Nat, a < b → (M + 1 + 2 * F) * a + (M + 1 + 2 * F) ≤ (M + 1 + 2 * F) * b :=
    fun a b h => Nat.mul_le_mul_left (M + 1 + 2 * F) h
  have zero : 0 + (M + 1 + 2 * F) ≤ (M + 1 + 2 * F) * bound m v d := by
    have := Nat.mul_le_mul_left (M + 1 + 2 * F) (bound_pos hm v d)
    omega
  unfold dictSer
  split
  · next es =>
    refine Nat.le_trans (Nat.add_le_add_right ?_ _) (key _ _ (hm.dict es))
    exact calls_after (dictLoop_calls hm hp hr hk es []) fun _ => calls_pure _
  · next f es =>
    refine Nat.le_trans (Nat.add_le_add_right ?_ _) (key _ _ (hm.ddict f es))
    exact calls_after (dictLoop_calls hm hp hr hk es []) fun _ => calls_pure _
  · split <;> exact zero

/-! ## Objects -/

theorem attrLoop_calls (hp : Program E M D F) {kw : DumpKw} {b : Bool} {v : Val} {cn : PyStr}
    {c : PyStr × Option Ty → Nat} : ∀ (as : List (PyStr × Option Ty)) (acc : List (Val × Val)),
    (∀ p ∈ as, ∀ a f, E.getAttr v p.1 = .ok a → (p.2.getD (.cls a.cls)).serFn E.info = some f →
      calls (rec.call f a p.2 kw) ≤ c p) →
    calls (attrLoop E rec kw b v cn as acc) ≤ (as.map c).sum
  | [], acc, _ => Nat.zero_le _
  | (name, hint) :: as, acc, h => by
    unfold attrLoop
    rw [List.map_cons, List.sum_cons]
    refine calls_then (calls_lift _) fun attr hattr => ?_
    rw [lift_val] at hattr
    dsimp only
    refine calls_then (calls_announce _ _) fun _ _ => ?_
    rw [hp.sers kw.fork]
    refine calls_then (calls_liftK _) fun fn hfn => ?_
    rw [liftK_ok] at hfn
    cases hfn
    refine calls_bind ?_ fun r _ => ?_
    · rw [calls_attempt]
      unfold dumpAttr
      split
      · exact Nat.zero_le _
      · next f hf =>
        exact calls_after (h (name, hint) List.mem_cons_self attr f hattr hf) fun _ => calls_pure _
    · cases r with
      | error e =>
        dsimp only
        refine calls_ite (fun _ => Nat.zero_le _) fun _ => calls_ite (fun _ => Nat.zero_le _) fun _ => ?_
        refine calls_then (calls_warn _ _ _ _ _) fun _ _ => Nat.zero_le _
      | ok d =>
        dsimp only
        refine calls_then (calls_lift _) fun acc' _ => ?_
        exact attrLoop_calls hp as acc' fun p hpm => h p (List.mem_cons_of_mem _ hpm)

theorem objectSerWith_calls (hp : Program E M D F) {v : Val} {kw : DumpKw} {strip : StripAttr} {t : Ty} {I : ClassInfo}
    {attributes : Except Err (List (PyStr × Option Ty))} {c : PyStr × Option Ty → Nat} {B : Nat}
    (hk : KwOk E M D kw)
    (h : ∀ as, attributes = .ok as → (as.map c).sum ≤ B ∧ ∀ kw', KwOk E M D kw' → ∀ p ∈ as, ∀ a f,
      E.getAttr v p.1 = .ok a → (p.2.getD (.cls a.cls)).serFn E.info = some f → calls (rec.call f a p.2 kw') ≤ c p) :
    calls (objectSerWith E rec v kw strip t I attributes) ≤ B := by
  unfold objectSerWith
  refine calls_then (calls_lift _) fun as has => ?_
  rw [lift_val] at has
  obtain ⟨hB, hc⟩ := h as has
  dsimp only
  refine calls_after (Nat.le_trans (attrLoop_calls hp as [] (hc _ ?_)) hB) fun r => ?_
  · exact hk
  · apply Nat.le_zero.1
    refine calls_ite (fun _ => Nat.zero_le _) fun _ => ?_
    exact calls_then (calls_liftK _) fun _ _ => Nat.zero_le _

/-- What is dumped of a value that is not an object of the program. -/
theorem foreign_calls (hp : Program E M D F) (hr : Bounded E M D F m rec) {v : Val} {kw : DumpKw} {strip : StripAttr}
    {t : Ty} {I : ClassInfo} {u : Option Ty} {kw0 : DumpKw} (hk : KwOk E M D kw) :
    calls (objectSerWith E rec v kw strip t I (E.foreignAttrs v u kw0)) ≤ 2 * F := by
  refine objectSerWith_calls (c := fun _ => 2) hp hk fun as has => ?_
  obtain ⟨hl, ha⟩ := hp.foreign _ _ _ _ has
  refine ⟨?_, fun kw' _ p hpm a f hg hf => ?_⟩
  · have : ∀ l : List (PyStr × Option Ty), (l.map fun _ => 2).sum = 2 * l.length := by
      intro l
      induction l with
      | nil => rfl
      | cons p l ih => rw [List.map_cons, List.sum_cons, ih, List.length_cons]; omega
    rw [this]
    omega
  · obtain ⟨hn, hx⟩ := ha p hpm
    obtain ⟨x, rfl⟩ := hx a hg
    rw [hn] at hf ⊢
    obtain ⟨f', hf', hmem⟩ := atom_leaf E.info x
    have : f = f' := Option.some.inj (hf.symm.trans hf')
    exact (hr.leaf f _ none kw' (this ▸ hmem) hf).1

/-- What is dumped of declared or own attributes. -/
theorem named_calls (hm : Size E D m) (hp : Program E M D F) (hr : Bounded E M D F m rec) {v : Val} {kw : DumpKw}
    {strip : StripAttr} {t : Ty} {I : ClassInfo} {attributes : Except Err (List (PyStr × Option Ty))} {d : Nat}
    (hk : KwOk E M D kw)
    (h : ∀ as, attributes = .ok as → (as.map (·.1)).Nodup ∧ (∀ p ∈ as, Named E v p.1) ∧
      ∀ p ∈ as, ∀ t, p.2 = some t → Lin E.info M 1 D t) :
    calls (objectSerWith E rec v kw strip t I attributes) + (M + 1 + 2 * F) ≤ (M + 1 + 2 * F) * bound m v d := by
  rcases isText v with ⟨s, rfl⟩ | hv
  · have h0 : calls (objectSerWith E rec (.str s) kw strip t I attributes) ≤ 0 := by
      refine objectSerWith_calls (c := fun _ => 0) hp hk fun as _ => ⟨?_, fun kw' _ p _ a f hg => ?_⟩
      · clear * -
        induction as with
        | nil => exact Nat.le_refl _
        | cons p l ih => rw [List.map_cons, List.sum_cons, Nat.zero_add]; exact ih
      · exact absurd hg (hp.texts _ _ _)
    have := Nat.mul_le_mul_left (M + 1 + 2 * F) (bound_pos hm (.str s) d)
    omega
  · rw [bound_other hv]
    have h1 : calls (objectSerWith E rec v kw strip t I attributes) ≤ (M + 1 + 2 * F) * (m v - 1) := by
      refine objectSerWith_calls (c := fun p => (M + 1 + 2 * F) * attrSize E m v p.1) hp hk fun as has => ?_
      obtain ⟨hn, hnamed, hl⟩ := h as has
      refine ⟨?_, fun kw' hk' p hpm a f hg hf => ?_⟩
      · rw [sum_mul]
        refine Nat.mul_le_mul_left _ ?_
        have := hm.attrs v (as.map (·.1)) hn fun n hmem => by
          obtain ⟨p, hpm, rfl⟩ := List.mem_map.1 hmem
          exact hnamed p hpm
        rw [List.map_map] at this
        exact Nat.le_sub_one_of_lt this
      · have : attrSize E m v p.1 = m a := by unfold attrSize; rw [hg]
        rw [this]
        exact Nat.le_trans (hr.high f a p.2 kw' D hk' (Nat.le_refl _) (hl p hpm) hf)
          (Nat.mul_le_mul_left _ (bound_le hm (Nat.le_refl _)))
    have h2 := hm.pos v
    have h3 : (M + 1 + 2 * F) * (m v - 1) + (M + 1 + 2 * F) = (M + 1 + 2 * F) * m v := by
      rw [← Nat.mul_succ]
      congr 1
      omega
    omega

theorem types_lin (hp : Program E M D F) (c : Nat) (strict : Bool) :
    ∀ p ∈ attributesAndTypes (E.info c) strict, ∀ t, p.2 = some t → Lin E.info M 1 D t := by
  have key : ∀ (ms : List (PyStr × Member)) (base : List (PyStr × Option Ty)),
      (∀ a ∈ base, ∀ t, a.2 = some t → Lin E.info M 1 D t) →
      ∀ a ∈ ms.foldl (fun as p => assocSet as p.1 none) base, ∀ t, a.2 = some t → Lin E.info M 1 D t := by
    intro ms
    induction ms with
    | nil => exact fun base h => h
    | cons q ms ih =>
      intro base h
      refine ih _ fun a ha t ht => ?_
      rcases Registrations.mem_assocSet ha with h' | h'
      · exact h a h' t ht
      · rw [h'] at ht; cases ht
  refine key _ _ ?_
  intro a ha t ht
  split at ha
  · rw [List.mem_map] at ha
    obtain ⟨_, _, rfl⟩ := ha
    cases ht
  · split at ha
    · rw [List.mem_map] at ha
      obtain ⟨p, hpm, rfl⟩ := ha
      cases ht
      exact hp.hints c p hpm
    · split at ha
      · rw [List.mem_map] at ha
        obtain ⟨p, hpm, rfl⟩ := ha
        cases ht
        exact hp.initHints c p (List.mem_filter.mp hpm).1
      · cases ha

theorem types_names (hp : Program E M D F) (c : Nat) (strict : Bool) (v : Val) :
    ((attributesAndTypes (E.info c) strict).map (·.1)).Nodup ∧
      ∀ p ∈ attributesAndTypes (E.info c) strict, Named E v p.1 := by
  unfold attributesAndTypes
  dsimp only
  have base : ∀ b : List (PyStr × Option Ty), (b.map (·.1)).Nodup → (∀ n ∈ b.map (·.1), Named E v n) →
      (((((E.info c).members.filter fun p => p.2 == .prop) ++ (E.info c).members.filter fun p => p.2 != .prop).foldl
        (fun as p => assocSet as p.1 none) b).map (·.1)).Nodup ∧
      ∀ p ∈ (((E.info c).members.filter fun p => p.2 == .prop) ++ (E.info c).members.filter fun p => p.2 != .prop).foldl
        (fun as p => assocSet as p.1 none) b, Named E v p.1 := by
    intro b hb hb'
    refine ⟨DumpStyle.foldl_assocSet_nodup _ _ hb, fun p hpm => ?_⟩
    rcases DumpStyle.foldl_assocSet_mem _ _ p.1 (List.mem_map_of_mem hpm) with h | h
    · exact hb' _ h
    · obtain ⟨q, hq, e⟩ := List.mem_map.1 h
      refine .inr ⟨c, .inr (.inr (.inr ?_))⟩
      rw [← e]
      rcases List.mem_append.1 hq with hq | hq <;> exact List.mem_map_of_mem (List.mem_of_mem_filter hq)
  apply base
  · split
    · next l hl =>
      rw [List.map_map]
      simpa [Function.comp_def] using hp.slotNames c l hl
    · split
      · rw [List.map_map]
        exact hp.hintNames c
      · split
        · rw [List.map_map]
          exact (hp.initNames c).sublist (List.filter_sublist.map _)
        · exact List.nodup_nil
  · intro n hn
    split at hn
    · next l hl =>
      rw [List.map_map] at hn
      exact .inr ⟨c, .inr (.inr (.inl ⟨l, hl, by simpa [Function.comp_def] using hn⟩))⟩
    · split at hn
      · rw [List.map_map] at hn
        exact .inr ⟨c, .inl hn⟩
      · split at hn
        · rw [List.map_map] at hn
          obtain ⟨p, hpm, e⟩ := List.mem_map.1 hn
          exact .inr ⟨c, .inr (.inl (List.mem_map.2 ⟨p, List.mem_of_mem_filter hpm, e⟩))⟩
        · exact absurd hn List.not_mem_nil

/-- The attributes that are left were there before. -/
theorem filter_sub {I : ClassInfo} {kw : DumpKw} {strip : StripAttr} {l as : List (PyStr × Option Ty)}
    (h : filterAttributes I kw strip l = .ok as) : as.Sublist l := by
  unfold filterAttributes at h
  split at h
  · exact (go_spec h).1
  · exact (go_spec h).1
  · cases h

theorem objectSer_calls (hm : Size E D m) (hp : Program E M D F) (hr : Bounded E M D F m rec) {v : Val} {cls : Option Ty}
    {kw : DumpKw} (hk : KwOk E M D kw) {d : Nat} :
    calls (objectSer E rec v cls kw) + (M + 1 + 2 * F) ≤ (M + 1 + 2 * F) * bound m v d + 2 * F := by
  have hpos := Nat.mul_le_mul_left (M + 1 + 2 * F) (bound_pos hm v d)
  have foreign : ∀ strip t I u, calls (objectSerWith E rec v kw strip t I (E.foreignAttrs v u kw)) + (M + 1 + 2 * F) ≤
      (M + 1 + 2 * F) * bound m v d + 2 * F := by
    intro strip t I u
    have := foreign_calls (t := t) (strip := strip) (I := I) (u := u) (kw0 := kw) (v := v) hp hr hk
    omega
  have fromClass : ∀ strip t c, calls (objectSerWith E rec v kw strip t (E.info c) (attributesFromClass (E.info c) kw strip))
      + (M + 1 + 2 * F) ≤ (M + 1 + 2 * F) * bound m v d := by
    intro strip t c
    refine named_calls hm hp hr hk fun as has => ?_
    have hsub : as.Sublist (attributesAndTypes (E.info c) kw.strict) := by
      unfold attributesFromClass at has
      split at has
      · exact filter_sub has
      · cases has
    obtain ⟨h1, h2⟩ := types_names hp c kw.strict v
    exact ⟨h1.sublist (hsub.map _), fun p hpm => h2 p (hsub.subset hpm),
      fun p hpm => types_lin hp c kw.strict p (hsub.subset hpm)⟩
  have ofObject : ∀ strip t, calls (objectSerWith E rec v kw strip t ClassInfo.object
      (attributesFromClass ClassInfo.object kw strip)) + (M + 1 + 2 * F) ≤ (M + 1 + 2 * F) * bound m v d := by
    intro strip t
    refine named_calls hm hp hr hk fun as has => ?_
    have hsub : as.Sublist [] := by
      unfold attributesFromClass at has
      split at has
      · exact filter_sub has
      · cases has
    cases List.sublist_nil.1 hsub
    exact ⟨List.nodup_nil, fun _ h => absurd h List.not_mem_nil, fun _ h => absurd h List.not_mem_nil⟩
  have fromObject : ∀ strip c as, v = .obj c as → calls (objectSerWith E rec v kw strip (.cls (.user c)) (E.info c)
      (attributesFromObject (E.info c) as kw strip)) + (M + 1 + 2 * F) ≤ (M + 1 + 2 * F) * bound m v d := by
    intro strip c as hv
    refine named_calls hm hp hr hk fun l hl => ?_
    have hsub := filter_sub hl
    have hnames : ((dirNames (E.info c) as).map fun n =>
        (n, (assoc (attributesAndTypes (E.info c) kw.strict) n).getD none)).map (·.1) = dirNames (E.info c) as := by
      rw [List.map_map]
      simp [Function.comp_def]
    refine ⟨?_, fun p hpm => ?_, fun p hpm t ht => ?_⟩
    · refine List.Nodup.sublist (hsub.map _) ?_
      rw [hnames]
      exact (dirNames_sorted (E.info c) as).imp fun h => h.2
    · have : p.1 ∈ dirNames (E.info c) as := by
        rw [← hnames]
        exact List.mem_map_of_mem (hsub.subset hpm)
      rcases mem_dirNames.1 this with h | h
      · exact .inl ⟨c, as, hv, h⟩
      · exact .inr ⟨c, .inr (.inr (.inr h))⟩
    · obtain ⟨n, _, e⟩ := List.mem_map.1 (hsub.subset hpm)
      subst e
      dsimp only at ht
      cases ha : assoc (attributesAndTypes (E.info c) kw.strict) n with
      | none => rw [ha] at ht; cases ht
      | some o =>
        rw [ha] at ht
        exact types_lin hp c kw.strict (n, o) (Calls.assoc_mem ha) t ht
  have obj : ∀ strip : StripAttr, calls (match v with
      | .obj c as => objectSerWith E rec v kw strip (.cls (.user c)) (E.info c) (attributesFromObject (E.info c) as kw strip)
      | v => objectSerWith E rec v kw strip (.cls v.cls) ClassInfo.object (E.foreignAttrs v none kw)) + (M + 1 + 2 * F) ≤
      (M + 1 + 2 * F) * bound m v d + 2 * F := by
    intro strip
    split
    · next c as => exact Nat.le_trans (fromObject strip c as rfl) (Nat.le_add_right _ _)
    · exact foreign _ _ _ _
  unfold objectSer
  dsimp only
  split
  · exact obj _
  · split
    · split
      · exact Nat.le_trans (fromClass _ _ _) (Nat.le_add_right _ _)
      · exact Nat.le_trans (ofObject _ _) (Nat.le_add_right _ _)
      · exact foreign _ _ _ _
    · exact obj _

/-! ## All serializers -/

theorem toStr_calls (v : Val) (b : Bool) (i : Nat) (p : StrfPattern) : calls (toStr E v b i p) = 0 := by
  apply Nat.le_zero.1
  unfold toStr
  split
  · refine calls_ite (fun _ => calls_then (calls_warn _ _ _ _ _) fun _ _ => ?_) fun _ => ?_ <;> silent
  all_goals silent

/-- A time zone takes one call more than itself, other values without parts take none. -/
theorem leaf_calls (hr : Bounded E M D F m rec) {f : SerFn} (hf : f ∈ leaves) {v : Val} {cls : Option Ty} {kw : DumpKw}
    (hc : (cls.getD (.cls v.cls)).serFn E.info = some f) :
    calls (callSer E rec f v cls kw) ≤ 1 ∧
      ((∀ us n, v ≠ .atom (.timezone us n)) → calls (callSer E rec f v cls kw) ≤ 0) := by
  have both : ∀ {x : Res Val}, calls x ≤ 0 →
      calls x ≤ 1 ∧ ((∀ us n, v ≠ .atom (.timezone us n)) → calls x ≤ 0) :=
    fun h => ⟨Nat.le_succ_of_le h, fun _ => h⟩
  simp only [leaves, List.mem_cons, List.not_mem_nil, or_false] at hf
  rcases hf with rfl | rfl | rfl | rfl | rfl | rfl | rfl | rfl | rfl | rfl | rfl | rfl
  · exact both (Nat.le_of_eq (toStr_calls _ _ _ _))
  · exact both (Nat.le_of_eq (toStr_calls _ _ _ _))
  · exact both (Nat.le_of_eq (toStr_calls _ _ _ _))
  · refine both ?_
    show calls (timedeltaSer E v) ≤ 0
    unfold timedeltaSer
    silent
  · refine both ?_
    show calls (primitiveSer E v cls) ≤ 0
    unfold primitiveSer
    dsimp only
    silent
  · refine both ?_
    show calls (enumSer E v kw) ≤ 0
    unfold enumSer
    silent
  · exact both (Nat.le_of_eq (calls_pure _))
  · exact both (Nat.le_of_eq (calls_pure _))
  · refine both ?_
    show calls (pathSer v) ≤ 0
    unfold pathSer
    silent
  · refine both ?_
    show calls (zoneinfoSer v) ≤ 0
    unfold zoneinfoSer
    silent
  · refine both ?_
    show calls (complexSer E v) ≤ 0
    unfold complexSer
    dsimp only
    silent
  · show calls (timezoneSer rec v cls kw) ≤ 1 ∧ (_ → calls (timezoneSer rec v cls kw) ≤ 0)
    unfold timezoneSer
    split
    · next us n =>
      refine ⟨calls_after ?_ fun _ => calls_pure _, fun h => absurd rfl (h us n)⟩
      refine (hr.dumpLeaf _ cls kw ?_).2 fun us n h => by cases h
      cases cls with
      | none => exact atom_leaf _ _
      | some t => exact ⟨_, hc, by simp⟩
    · exact both (Nat.zero_le _)

/-- The other serializers, of values that are not dumped as unions. -/
theorem parts_calls (hm : Size E D m) (hp : Program E M D F) (hr : Bounded E M D F m rec) {f : SerFn} {v : Val}
    {cls : Option Ty} {kw : DumpKw} (hk : KwOk E M D kw) {d : Nat} (hd : d ≤ D)
    (ht : ∀ t, cls = some t → Lin E.info M 0 d t) (hc : (cls.getD (.cls v.cls)).serFn E.info = some f)
    (hf : f ∉ leaves) :
    calls (callSer E rec f v cls kw) + (M + 1 + 2 * F) ≤ (M + 1 + 2 * F) * bound m v d + 2 * F := by
  have key : ∀ {x : Res Val} {a b : Nat}, calls x ≤ (M + 1 + 2 * F) * a → a + 1 ≤ b →
      calls x + (M + 1 + 2 * F) ≤ (M + 1 + 2 * F) * b + 2 * F := by
    intro x a b h1 h2
    have h3 := Nat.mul_le_mul_left (M + 1 + 2 * F) h2
    rw [Nat.mul_add, Nat.mul_one] at h3
    omega
  have hdict : calls (dictSer E rec v kw) + (M + 1 + 2 * F) ≤ (M + 1 + 2 * F) * bound m v d + 2 * F :=
    Nat.le_trans (dictSer_calls hm hp hr hk) (Nat.le_add_right _ _)
  -- the depth of the elements
  have depth : f ∈ [SerFn.list, .tuple, .iterable] → ∃ e, e ≤ D ∧ ((∃ s, v = .str s) ∨ e = D) ∧
      (∀ xs, v.iter = some xs → (xs.map fun x => bound m x e).sum ≤ bound m v d - 1) ∧
      ∀ t, cls = some t → ∀ a ∈ t.getArgs, Lin E.info M 1 e a := by
    intro hcoll
    have viaDepth : ∀ d', d = d' + 1 → (∀ t, cls = some t → ∀ a ∈ t.getArgs, Lin E.info M 1 d' a) →
        ∃ e, e ≤ D ∧ ((∃ s, v = .str s) ∨ e = D) ∧
        (∀ xs, v.iter = some xs → (xs.map fun x => bound m x e).sum ≤ bound m v d - 1) ∧
        ∀ t, cls = some t → ∀ a ∈ t.getArgs, Lin E.info M 1 e a := by
      intro d' hd' ha
      subst hd'
      obtain ⟨e, h1, h2, h3, h4⟩ := iter_depth (v := v) hm hd
      exact ⟨e, h2, h3, fun xs h => Nat.le_sub_one_of_lt (h4 xs h), fun t htc a hat => (ha t htc a hat).mono h1⟩
    cases cls with
    | none =>
      have hv : ∀ s, v ≠ .str s := by
        rintro s rfl
        cases hc
        simp [Val.cls, Atom.cls, Cls.serFn] at hcoll
      refine ⟨D, Nat.le_refl _, .inr rfl, fun xs h => ?_, fun _ h => by cases h⟩
      rw [bound_other hv]
      exact Nat.le_sub_one_of_lt (Nat.lt_of_le_of_lt (sum_le xs fun x _ => bound_le hm (Nat.le_refl D)) (iter_size hm h hv))
    | some t =>
      have hc : t.serFn E.info = some f := hc
      have hl := ht t rfl
      revert viaDepth
      generalize hl0 : (0 : Nat) = l at hl
      intro viaDepth
      cases hl with
      | leaf _ _ h =>
        obtain ⟨f', hf', hmem⟩ := h
        cases hf'.symm.trans hc
        exact absurd hmem hf
      | any => cases hc
      | cls d' c => exact viaDepth d' rfl fun _ h a ha => by cases h; exact absurd ha List.not_mem_nil
      | coll d' g args hg h => exact viaDepth d' rfl fun _ h' a ha => by cases h'; exact h a ha
      | mapping _ g args hg =>
        exfalso
        simp only [List.mem_cons, List.not_mem_nil, or_false] at hg
        rcases hg with rfl | rfl | rfl <;> cases hc <;> simp [Gen.naked, Cls.serFn] at hcoll
      | union => cases hl0
      | lower => cases hl0
  cases f with
  | list =>
    obtain ⟨e, h1, h2, h3, h4⟩ := depth (by simp)
    exact key (listSer_calls hp hr hk h1 h2 h3 h4) (by have := bound_pos hm v d; omega)
  | tuple =>
    obtain ⟨e, h1, h2, h3, h4⟩ := depth (by simp)
    exact key (tupleSer_calls hp hr hk h1 h2 h3 h4) (by have := bound_pos hm v d; omega)
  | iterable =>
    obtain ⟨e, h1, h2, h3, h4⟩ := depth (by simp)
    exact key (iterableSer_calls hp hr hk h1 h2 h3 h4) (by have := bound_pos hm v d; omega)
  | dict => exact hdict
  | object => exact objectSer_calls hm hp hr hk
  | union =>
    exfalso
    have clsNo : ∀ c : Cls, c.serFn E.info ≠ .union := by
      intro c
      cases c with
      | user c =>
        simp only [Cls.serFn]
        split <;> simp
      | _ => simp [Cls.serFn]
    cases cls with
    | none => exact clsNo _ (Option.some.inj hc)
    | some t =>
      have hc : t.serFn E.info = some .union := hc
      have hl := ht t rfl
      generalize hl0 : (0 : Nat) = l at hl
      cases hl with
      | leaf _ _ h =>
        obtain ⟨f', hf', hmem⟩ := h
        cases hf'.symm.trans hc
        exact hf hmem
      | any => cases hc
      | cls d' c => exact clsNo _ (Option.some.inj hc)
      | coll d' g args hg h => exact clsNo _ (Option.some.inj hc)
      | mapping _ g args hg => exact clsNo _ (Option.some.inj hc)
      | union => cases hl0
      | lower => cases hl0
  | custom id =>
    exfalso
    have clsNo : ∀ c : Cls, c.serFn E.info ≠ .custom id := by
      intro c
      cases c with
      | user c =>
        simp only [Cls.serFn]
        split <;> simp
      | _ => simp [Cls.serFn]
    cases cls with
    | none => exact clsNo _ (Option.some.inj hc)
    | some t =>
      have hc : t.serFn E.info = some (.custom id) := hc
      have hl := ht t rfl
      generalize hl0 : (0 : Nat) = l at hl
      cases hl with
      | leaf _ _ h =>
        obtain ⟨f', hf', hmem⟩ := h
        cases hf'.symm.trans hc
        exact hf hmem
      | any => cases hc
      | cls d' c => exact clsNo _ (Option.some.inj hc)
      | coll d' g args hg h => exact clsNo _ (Option.some.inj hc)
      | mapping _ g args hg => exact clsNo _ (Option.some.inj hc)
      | union => cases hl0
      | lower => cases hl0
  | datetime => exact absurd (by simp [leaves]) hf
  | date => exact absurd (by simp [leaves]) hf
  | time => exact absurd (by simp [leaves]) hf
  | timedelta => exact absurd (by simp [leaves]) hf
  | timezone => exact absurd (by simp [leaves]) hf
  | primitive => exact absurd (by simp [leaves]) hf
  | enum => exact absurd (by simp [leaves]) hf
  | uuid => exact absurd (by simp [leaves]) hf
  | decimal => exact absurd (by simp [leaves]) hf
  | path => exact absurd (by simp [leaves]) hf
  | zoneinfo => exact absurd (by simp [leaves]) hf
  | complex => exact absurd (by simp [leaves]) hf

theorem unionLoop_calls {v : Val} {kw : DumpKw} {c : Ty → Nat} :
    ∀ ts : List Ty, (∀ t ∈ ts, calls (rec.dump v (some t) kw) ≤ c t) → calls (unionLoop rec v kw ts) ≤ (ts.map c).sum
  | [], _ => Nat.zero_le _
  | t :: ts, h => by
    unfold unionLoop
    rw [List.map_cons, List.sum_cons]
    refine calls_bind (by rw [calls_attempt]; exact h t List.mem_cons_self) fun r _ => ?_
    cases r with
    | ok r => exact Nat.zero_le _
    | error e =>
      exact calls_ite (fun _ => unionLoop_calls ts fun t ht => h t (List.mem_cons_of_mem _ ht)) fun _ => Nat.zero_le _

theorem union_calls (hr : Bounded E M D F m rec) {v : Val} {kw : DumpKw} (hk : KwOk E M D kw) {d : Nat} (hd : d ≤ D)
    {pre post : List Ty} {t : Ty} (hpp : ∀ a ∈ pre ++ post, Leaf E.info a) (ht : Lin E.info M 0 d t)
    (hl : 2 * (pre.length + post.length) + 1 ≤ M) :
    calls (unionSer rec v (some (.union (pre ++ t :: post))) kw) + 1 ≤ (M + 1 + 2 * F) * bound m v d := by
  have hlow := hr.dumpLow v t kw d hk hd ht
  have hz : 0 + 1 ≤ (M + 1 + 2 * F) * bound m v d := by omega
  have two : ∀ l : List Ty, (l.map fun _ => 2).sum = 2 * l.length := by
    intro l
    induction l with
    | nil => rfl
    | cons p l ih => rw [List.map_cons, List.sum_cons, ih, List.length_cons]; omega
  unfold unionSer
  show calls (if v = .none ∧ .cls .noneType ∈ pre ++ t :: post then pure v else unionLoop rec v kw (pre ++ t :: post)) + 1 ≤ _
  split
  · exact hz
  · have hpost : calls (unionLoop rec v kw post) ≤ 2 * post.length := by
      rw [← two]
      exact unionLoop_calls (c := fun _ => 2) post fun a ha =>
        (hr.dumpLeaf v (some a) kw (hpp a (List.mem_append_right _ ha))).1
    have hmid : calls (unionLoop rec v kw (t :: post)) ≤ calls (rec.dump v (some t) kw) + 2 * post.length := by
      unfold unionLoop
      refine calls_bind (by rw [calls_attempt]) fun r _ => ?_
      cases r with
      | ok r => exact Nat.zero_le _
      | error e => exact calls_ite (fun _ => hpost) fun _ => Nat.zero_le _
    have hall : ∀ l : List Ty, (∀ a ∈ l, Leaf E.info a) →
        calls (unionLoop rec v kw (l ++ t :: post)) ≤ 2 * l.length + (calls (rec.dump v (some t) kw) + 2 * post.length) := by
      intro l
      induction l with
      | nil => intro _; simpa using hmid
      | cons a l ih =>
        intro h
        rw [List.cons_append]
        unfold unionLoop
        have : 2 * (a :: l).length + (calls (rec.dump v (some t) kw) + 2 * post.length) =
            2 + (2 * l.length + (calls (rec.dump v (some t) kw) + 2 * post.length)) := by
          rw [List.length_cons]; omega
        rw [this]
        refine calls_bind (by rw [calls_attempt]; exact (hr.dumpLeaf v (some a) kw (h a List.mem_cons_self)).1) fun r _ => ?_
        cases r with
        | ok r => exact Nat.zero_le _
        | error e =>
          exact calls_ite (fun _ => ih fun b hb => h b (List.mem_cons_of_mem _ hb)) fun _ => Nat.zero_le _
    have := hall pre fun a ha => hpp a (List.mem_append_left _ ha)
    omega

/-- A value without parts is dumped with as many calls as its size. -/
theorem leaf_size (hm : Size E D m) {v : Val} {c d : Nat} (h : c ≤ 2 ∧ ((∀ us n, v ≠ .atom (.timezone us n)) → c ≤ 1)) :
    c ≤ bound m v d := by
  by_cases hz : ∃ us n, v = .atom (.timezone us n)
  · obtain ⟨us, n, rfl⟩ := hz
    exact Nat.le_trans h.1 (hm.zone us n)
  · exact Nat.le_trans (h.2 fun us n e => hz ⟨us, n, e⟩) (bound_pos hm v d)

theorem bounded_step (hm : Size E D m) (hp : Program E M D F) (hr : Bounded E M D F m rec) :
    Bounded E M D F m ⟨dumpWith E rec, fun f v cls kw => do
      Res.emit mark
      callSer E rec f v cls kw⟩ := by
  have leaf : ∀ f v cls kw, f ∈ leaves → (cls.getD (.cls v.cls)).serFn E.info = some f →
      calls (Res.emit mark >>= fun _ => callSer E rec f v cls kw) ≤ 2 ∧
      ((∀ us n, v ≠ .atom (.timezone us n)) → calls (Res.emit mark >>= fun _ => callSer E rec f v cls kw) ≤ 1) := by
    intro f v cls kw hf hc
    rw [calls_marked]
    have := leaf_calls (kw := kw) hr hf hc
    exact ⟨by omega, fun h => by have := this.2 h; omega⟩
  have grow : ∀ v d, (M + 1 + 2 * F) + bound m v d ≤ (M + 1 + 2 * F) * bound m v d + 1 := by
    intro v d
    obtain ⟨k, hk⟩ := Nat.exists_eq_add_of_le (bound_pos hm v d)
    rw [hk, Nat.mul_add, Nat.mul_one]
    have : 1 * k ≤ (M + 1 + 2 * F) * k := Nat.mul_le_mul_right _ (by omega)
    omega
  have low : ∀ f v cls kw d, KwOk E M D kw → d ≤ D → (∀ t, cls = some t → Lin E.info M 0 d t) →
      (cls.getD (.cls v.cls)).serFn E.info = some f →
      calls (Res.emit mark >>= fun _ => callSer E rec f v cls kw) + (M + 1 + 2 * F) ≤
        (M + 1 + 2 * F) * bound m v d + (2 * F + 1) := by
    intro f v cls kw d hk hd ht hc
    by_cases hf : f ∈ leaves
    · have h1 := leaf_size (d := d) hm (leaf f v cls kw hf hc)
      have h2 := grow v d
      omega
    · rw [calls_marked]
      have := parts_calls hm hp hr hk hd ht hc hf
      omega
  have high : ∀ f v cls kw d, KwOk E M D kw → d ≤ D → (∀ t, cls = some t → Lin E.info M 1 d t) →
      (cls.getD (.cls v.cls)).serFn E.info = some f →
      calls (Res.emit mark >>= fun _ => callSer E rec f v cls kw) ≤ (M + 1 + 2 * F) * bound m v d := by
    intro f v cls kw d hk hd ht hc
    cases cls with
    | none =>
      have := low f v none kw d hk hd (fun _ h => by cases h) hc
      omega
    | some t =>
      have hl := ht t rfl
      generalize hl0 : (1 : Nat) = l at hl
      cases hl with
      | union _ pre post t' hpp h hlen =>
        cases hc
        rw [calls_marked]
        have := union_calls (v := v) hr hk hd hpp h hlen
        show 1 + calls (unionSer rec v (some (.union (pre ++ t' :: post))) kw) ≤ _
        omega
      | lower _ _ h =>
        have := low f v (some t) kw d hk hd (fun _ h' => by cases h'; exact h) hc
        omega
      | leaf => cases hl0
      | any => cases hl0
      | cls => cases hl0
      | coll => cases hl0
      | mapping => cases hl0
  refine ⟨leaf, fun f v t kw d hk hd ht hc => low f v (some t) kw d hk hd (fun _ h => by cases h; exact ht) hc, high,
    fun v cls kw hl => ?_, fun v t kw d hk hd ht => ?_, fun v cls kw d hk hd ht => ?_⟩
  · obtain ⟨f', hf', hmem⟩ := hl
    exact ⟨dumpWith_calls hp fun f hf => by cases hf'.symm.trans hf; exact (hr.leaf f' v cls kw hmem hf).1,
      fun h => dumpWith_calls hp fun f hf => by cases hf'.symm.trans hf; exact (hr.leaf f' v cls kw hmem hf).2 h⟩
  · have h1 : calls (dumpWith E rec v (some t) kw) ≤
        (M + 1 + 2 * F) * bound m v d + (2 * F + 1) - (M + 1 + 2 * F) :=
      dumpWith_calls hp fun f hf => by
        have := hr.low f v t kw d hk hd ht hf
        omega
    have h2 := Nat.mul_le_mul_left (M + 1 + 2 * F) (bound_pos hm v d)
    show calls (dumpWith E rec v (some t) kw) + _ ≤ _
    omega
  · exact dumpWith_calls hp fun f hf => hr.high f v cls kw d hk hd ht hf

theorem bounded (hm : Size E D m) (hp : Program E M D F) : ∀ n, Bounded E M D F m (recMarked E n)
  | 0 => by
    have h2 := fun v d => Nat.mul_le_mul_left (M + 1 + 2 * F) (bound_pos hm v d)
    refine ⟨fun f v cls kw _ _ => ⟨Nat.zero_le _, fun _ => Nat.zero_le _⟩, fun f v t kw d _ _ _ _ => ?_,
      fun f v cls kw d _ _ _ _ => Nat.zero_le _, fun v cls kw _ => ⟨Nat.zero_le _, fun _ => Nat.zero_le _⟩,
      fun v t kw d _ _ _ => ?_, fun v cls kw d _ _ _ => Nat.zero_le _⟩
    · show 0 + _ ≤ _
      have := h2 v d
      omega
    · show 0 + _ ≤ _
      have := h2 v d
      omega
  | n + 1 => bounded_step hm hp (bounded hm hp n)

end

/-! ## C103 -/

/-- The marks by which calls are counted change nothing: `dump` returns and raises the same, with the
same warnings and announcements. -/
theorem marks_change_nothing (E : Env) (n : Nat) (v : Val) (cls : Option Ty) (kw : DumpKw)
    (hc : SersDeaf E (fun ev => !isMark ev) fun ev => !isMark ev) :
    (dumpMarked E n v cls kw).val = (dump E n v cls kw).val ∧
    (dumpMarked E n v cls kw).log.filter (fun ev => !isMark ev) =
      (dump E n v cls kw).log.filter fun ev => !isMark ev :=
  (recMarked_q hc n).dump v cls kw

/-- C103: dumping a value takes at most `M + 1 + 2 * F` calls of serializers for every unit of its
size, whatever the value is, whether it can be dumped or not, strict or not, and however the classes
of the program refer to each other, if the unions have at most one member that has parts. -/
theorem dump_calls_linear (E : Env) (M D F n : Nat) (m : Val → Nat) (hm : Size E D m) (hp : Program E M D F)
    (v : Val) (cls : Option Ty) (hc : ∀ t, cls = some t → Lin E.info M 1 D t) (kw : DumpKw) (hk : KwOk E M D kw) :
    calls (dumpMarked E n v cls kw) ≤ (M + 1 + 2 * F) * m v :=
  Nat.le_trans ((bounded hm hp n).dumpHigh v cls kw D hk (Nat.le_refl _) hc)
    (Nat.mul_le_mul_left _ (bound_le hm (Nat.le_refl _)))

/-- Without unions, every part is dumped at most once: there are at most as many calls as there are
parts. -/
theorem dump_calls_once (E : Env) (D n : Nat) (m : Val → Nat) (hm : Size E D m) (hp : Program E 0 D 0)
    (v : Val) (cls : Option Ty) (hc : ∀ t, cls = some t → Lin E.info 0 1 D t) (kw : DumpKw) (hk : KwOk E 0 D kw) :
    calls (dumpMarked E n v cls kw) ≤ m v := by
  have := dump_calls_linear E 0 D 0 n m hm hp v cls hc kw hk
  omega

end Verif.Props.DumpCalls
