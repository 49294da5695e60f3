import Verif.Core.DumpLemmas
import Verif.Core.LoadLemmas
import Verif.Core.LoadDemo
import Verif.RegistryLemmas

/-! # Suppressing warnings changes nothing but the warnings (C98) -/

set_option autoImplicit false

namespace Verif.Props.Quiet

open Verif Verif.Core Verif.Datetime

/-- The same outcome, and the same events up to those that are not looked at. -/
def Q {α : Type} (k k' : Event → Bool) (x x' : Res α) : Prop :=
  x'.val = x.val ∧ x'.log.filter k' = x.log.filter k

section
variable {α β : Type} {k k' : Event → Bool}

theorem Q.mute {x : Res α} (h : x.log = []) : Q k k' x x := ⟨rfl, by rw [h]; rfl⟩

theorem Q.pure (a : α) : Q k k' (Pure.pure a) (Pure.pure a) := .mute rfl

theorem Q.raise (e : Err) : Q k k' (Res.raise e : Res α) (Res.raise e) := .mute rfl

theorem Q.lift (x : Except Err α) : Q k k' (Res.lift x) (Res.lift x) := by cases x <;> exact .mute rfl

theorem Q.liftK (x : Except ErrKind α) : Q k k' (Res.liftK x) (Res.liftK x) := by cases x <;> exact .mute rfl

theorem Q.liftS (s : Val) (x : Except ErrKind α) : Q k k' (Res.liftS s x) (Res.liftS s x) := by
  cases x <;> exact .mute rfl

theorem Q.attempt {x x' : Res α} (h : Q k k' x x') : Q k k' x.attempt x'.attempt :=
  ⟨congrArg Except.ok h.1, h.2⟩

theorem Q.bind {x x' : Res α} {f f' : α → Res β} (h : Q k k' x x') (hf : ∀ a, Q k k' (f a) (f' a)) :
    Q k k' (x >>= f) (x' >>= f') := by
  obtain ⟨l, v⟩ := x
  obtain ⟨l', v'⟩ := x'
  obtain ⟨h1, h2⟩ := h
  dsimp only at h1 h2
  subst h1
  cases v' with
  | error e => exact ⟨rfl, h2⟩
  | ok a =>
    refine ⟨(hf a).1, ?_⟩
    show (l' ++ (f' a).log).filter k' = (l ++ (f a).log).filter k
    rw [List.filter_append, List.filter_append, h2, (hf a).2]

theorem Q.mapRes {f f' : α → Res β} (h : ∀ x, Q k k' (f x) (f' x)) : ∀ xs, Q k k' (mapRes f xs) (mapRes f' xs)
  | [] => .pure _
  | x :: xs => (h x).bind fun _ => (Q.mapRes h xs).bind fun _ => .pure _

theorem Q.ite {p : Prop} [Decidable p] {x x' y y' : Res α} (h : Q k k' x x') (h' : Q k k' y y') :
    Q k k' (if p then x else y) (if p then x' else y') := by
  split
  · exact h
  · exact h'

end

/-- Results that are the same on both sides and emit nothing. -/
macro "mute" : tactic => `(tactic| repeat' first
  | exact Q.pure _ | exact Q.raise _ | exact Q.lift _ | exact Q.liftK _ | exact Q.liftS _ _
  | refine Q.ite ?_ ?_ | (refine Q.bind ?_ fun _ => ?_) | split)

/-! ## `dump` -/

/-- Which events are looked at in a program with the settings of `E` (`k`) and in one with the
settings `w` (`k'`) so that they are the same. -/
structure Settings (u w : Nat → PyStr → Bool) (k k' : Event → Bool) : Prop where
  announce : ∀ t i, k' (.announce t i) = k (.announce t i)
  warn : ∀ i code msg, (w i code && k' (.warn code msg)) = (u i code && k (.warn code msg))

/-- Calls have the same outcome. -/
structure Agree (k k' : Event → Bool) (rec rec' : Rec) : Prop where
  dump : ∀ v cls kw, Q k k' (rec.dump v cls kw) (rec'.dump v cls kw)
  call : ∀ g v cls kw, Q k k' (rec.call g v cls kw) (rec'.call g v cls kw)

/-- The serializers of the program do not look at the warnings of the calls that they make. -/
def SersDeaf (E : Env) (k k' : Event → Bool) : Prop :=
  ∀ id rec rec', Agree k k' rec rec' → ∀ v cls kw, Q k k' (E.customSer id rec v cls kw) (E.customSer id rec' v cls kw)

section
variable {E : Env} {w : Nat → PyStr → Bool} {k k' : Event → Bool} {rec rec' : Rec}

/-- The same surroundings with other settings for warnings. -/
abbrev dumpEnv (E : Env) (w : Nat → PyStr → Bool) : Env := { E with warns := w }

theorem warn_q (h : Settings E.warns w k k') (i : Nat) (code msg : PyStr) :
    Q k k' (E.warn i code msg) ((dumpEnv E w).warn i code msg) := by
  have h := h.warn i code msg
  unfold Env.warn
  show Q k k' (if E.warns i code then _ else _) (if w i code then _ else _)
  cases h1 : E.warns i code <;> cases h2 : w i code <;> rw [h1, h2] at h
  · exact .pure _
  · refine ⟨rfl, ?_⟩
    have h : k' (.warn code msg) = false := h
    show [Event.warn code msg].filter k' = [].filter k
    rw [List.filter_cons, h]; rfl
  · refine ⟨rfl, ?_⟩
    have h : false = k (.warn code msg) := h
    show [].filter k' = [Event.warn code msg].filter k
    rw [List.filter_cons, ← h]; rfl
  · refine ⟨rfl, ?_⟩
    have h : k' (.warn code msg) = k (.warn code msg) := h
    show [Event.warn code msg].filter k' = [Event.warn code msg].filter k
    rw [List.filter_cons, List.filter_cons, h]; rfl

theorem announce_q (h : Settings E.warns w k k') (t : Ty) (i : Nat) :
    Q k k' (Res.emit (.announce t i)) (Res.emit (.announce t i)) := by
  refine ⟨rfl, ?_⟩
  show [Event.announce t i].filter k' = [Event.announce t i].filter k
  rw [List.filter_cons, List.filter_cons, h.announce]; rfl

theorem toStr_q (h : Settings E.warns w k k') (v : Val) (b : Bool) (i : Nat) (p : StrfPattern) :
    Q k k' (toStr E v b i p) (toStr (dumpEnv E w) v b i p) := by
  unfold toStr
  split
  · refine Q.ite (.bind (warn_q h _ _ _) fun _ => ?_) ?_ <;> mute
  all_goals mute

theorem listSer_q (hr : Agree k k' rec rec') (v : Val) (cls : Option Ty) (kw : DumpKw) :
    Q k k' (listSer E rec v cls kw) (listSer (dumpEnv E w) rec' v cls kw) := by
  have ht : ∀ xs t kw', Q k k' (listSer.typed E rec kw xs t kw') (listSer.typed (dumpEnv E w) rec' kw xs t kw') := by
    intro xs t kw'
    unfold listSer.typed
    refine .bind (.liftK _) fun fn => .bind (.mapRes (fun x => ?_) xs) fun _ => .pure _
    cases fn with
    | none => exact .raise _
    | some g => exact hr.call _ _ _ _
  unfold listSer
  refine .ite (.pure _) ?_
  dsimp only
  split
  · exact .raise _
  · split
    · exact ht _ _ _
    · refine .ite ?_ (.bind (.mapRes (fun x => hr.dump _ _ _) _) fun _ => .pure _)
      split <;> first | exact .raise _ | exact ht _ _ _ | exact .pure _

theorem iterableSer_q (hr : Agree k k' rec rec') (v : Val) (cls : Option Ty) (kw : DumpKw) :
    Q k k' (iterableSer E rec v cls kw) (iterableSer (dumpEnv E w) rec' v cls kw) := by
  unfold iterableSer
  dsimp only
  split
  · exact .raise _
  · refine .bind ?_ fun _ => .bind (.mapRes (fun x => hr.dump _ _ _) _) fun _ => .pure _
    unfold elementTypes
    exact .ite (.bind (.liftK _) fun _ => .lift _) (.lift _)

theorem tupleSer_q (hr : Agree k k' rec rec') (v : Val) (cls : Option Ty) (kw : DumpKw) :
    Q k k' (tupleSer E rec v cls kw) (tupleSer (dumpEnv E w) rec' v cls kw) := by
  unfold tupleSer
  split
  · unfold namedtupleSer
    exact .bind (.mapRes (fun x => .bind (hr.dump _ _ _) fun _ => .pure _) _) fun _ => .pure _
  · refine .bind ?_ fun _ => iterableSer_q hr _ _ _
    unfold tupleCls
    mute

theorem storeAndHash_q (hr : Agree k k' rec rec') (result : List (Val × Val)) (key : Val) (kw : DumpKw) :
    Q k k' (storeAndHash E rec result key kw) (storeAndHash (dumpEnv E w) rec' result key kw) := by
  unfold storeAndHash
  refine .ite (.pure _) (.bind (hr.dump _ _ _) fun _ => .ite (.pure _) ?_)
  dsimp only
  mute

theorem dictLoop_q (hr : Agree k k' rec rec') (kw : DumpKw) :
    ∀ es acc, Q k k' (dictLoop E rec kw es acc) (dictLoop (dumpEnv E w) rec' kw es acc) := by
  intro es
  induction es with
  | nil => intro acc; exact .pure _
  | cons e es ih =>
    intro acc
    obtain ⟨key, v⟩ := e
    unfold dictLoop
    dsimp only
    exact .bind (storeAndHash_q hr _ _ _) fun _ => .bind (hr.dump _ _ _) fun _ => .bind (.lift _) fun _ => ih _

theorem unionLoop_q (hr : Agree k k' rec rec') (v : Val) (kw : DumpKw) :
    ∀ ts, Q k k' (unionLoop rec v kw ts) (unionLoop rec' v kw ts) := by
  intro ts
  induction ts with
  | nil => exact .raise _
  | cons t ts ih =>
    unfold unionLoop
    refine .bind (hr.dump _ _ _).attempt fun r => ?_
    cases r with
    | ok r => exact .pure _
    | error e => exact .ite ih (.raise _)

theorem attrLoop_q (h : Settings E.warns w k k') (hr : Agree k k' rec rec') (kw : DumpKw) (b : Bool) (v : Val)
    (name : PyStr) :
    ∀ as acc, Q k k' (attrLoop E rec kw b v name as acc) (attrLoop (dumpEnv E w) rec' kw b v name as acc) := by
  intro as
  induction as with
  | nil => intro acc; exact .pure _
  | cons a as ih =>
    intro acc
    obtain ⟨n, hint⟩ := a
    unfold attrLoop
    dsimp only
    refine .bind (.lift _) fun attr => .bind (announce_q h _ _) fun _ => .bind (.liftK _) fun fn => .bind ?_ fun r => ?_
    · refine Q.attempt ?_
      unfold dumpAttr
      cases fn with
      | none => exact .raise _
      | some g => exact .bind (hr.call _ _ _ _) fun _ => .pure _
    · cases r with
      | error e => exact .ite (.raise _) (.ite (.raise _) (.bind (warn_q h _ _ _) fun _ => .pure _))
      | ok d => exact .bind (.lift _) fun _ => ih _

theorem objectSer_q (h : Settings E.warns w k k') (hr : Agree k k' rec rec') (v : Val) (cls : Option Ty) (kw : DumpKw) :
    Q k k' (objectSer E rec v cls kw) (objectSer (dumpEnv E w) rec' v cls kw) := by
  have hw : ∀ v strip t I as, Q k k' (objectSerWith E rec v kw strip t I as)
      (objectSerWith (dumpEnv E w) rec' v kw strip t I as) := by
    intro v strip t I as
    unfold objectSerWith
    dsimp only
    exact .bind (.lift _) fun _ => .bind (attrLoop_q h hr _ _ _ _ _ _) fun _ =>
      .ite (.pure _) (.bind (.liftK _) fun _ => .pure _)
  unfold objectSer
  dsimp only
  split
  · split <;> exact hw _ _ _ _ _
  · refine .ite ?_ ?_
    · split <;> exact hw _ _ _ _ _
    · split <;> exact hw _ _ _ _ _

theorem callSer_q (h : Settings E.warns w k k') (hc : SersDeaf E k k') (hr : Agree k k' rec rec') (g : SerFn) (v : Val)
    (cls : Option Ty) (kw : DumpKw) : Q k k' (callSer E rec g v cls kw) (callSer (dumpEnv E w) rec' g v cls kw) := by
  cases g with
  | tuple => exact tupleSer_q hr v cls kw
  | complex =>
    show Q k k' (complexSer E v) (complexSer E v)
    unfold complexSer
    dsimp only
    mute
  | datetime => exact toStr_q h _ _ _ _
  | date => exact toStr_q h _ _ _ _
  | time => exact toStr_q h _ _ _ _
  | timezone =>
    show Q k k' (timezoneSer rec v cls kw) (timezoneSer rec' v cls kw)
    unfold timezoneSer
    split
    · exact .bind (hr.dump _ _ _) fun _ => .pure _
    · exact .raise _
  | timedelta =>
    show Q k k' (timedeltaSer E v) (timedeltaSer E v)
    unfold timedeltaSer
    mute
  | primitive =>
    show Q k k' (primitiveSer E v cls) (primitiveSer E v cls)
    unfold primitiveSer
    dsimp only
    mute
  | enum =>
    show Q k k' (enumSer E v kw) (enumSer E v kw)
    unfold enumSer
    mute
  | dict =>
    show Q k k' (dictSer E rec v kw) (dictSer (dumpEnv E w) rec' v kw)
    unfold dictSer
    split
    · exact .bind (dictLoop_q hr _ _ _) fun _ => .pure _
    · exact .bind (dictLoop_q hr _ _ _) fun _ => .pure _
    · mute
  | list => exact listSer_q hr v cls kw
  | iterable => exact iterableSer_q hr v cls kw
  | object => exact objectSer_q h hr v cls kw
  | uuid => exact .pure _
  | decimal => exact .pure _
  | union =>
    show Q k k' (unionSer rec v cls kw) (unionSer rec' v cls kw)
    unfold unionSer
    split
    · exact .raise _
    · exact .ite (.pure _) (unionLoop_q hr _ _ _)
  | path =>
    show Q k k' (pathSer v) (pathSer v)
    unfold pathSer
    mute
  | zoneinfo =>
    show Q k k' (zoneinfoSer v) (zoneinfoSer v)
    unfold zoneinfoSer
    mute
  | custom id => exact hc id rec rec' hr v cls kw

theorem recOf_q (h : Settings E.warns w k k') (hc : SersDeaf E k k') :
    ∀ n, Agree k k' (recOf E n) (recOf (dumpEnv E w) n) := by
  intro n
  induction n with
  | zero => exact ⟨fun _ _ _ => .raise _, fun _ _ _ _ => .raise _⟩
  | succ n ih =>
    refine ⟨fun v cls kw => ?_, fun g v cls kw => callSer_q h hc ih g v cls kw⟩
    show Q k k' (dumpWith E (recOf E n) v cls kw) (dumpWith (dumpEnv E w) (recOf (dumpEnv E w) n) v cls kw)
    unfold dumpWith
    dsimp only
    refine .bind (.liftK _) fun fn => .bind (announce_q h _ _) fun _ => .bind ?_ fun r => ?_
    · refine Q.attempt ?_
      cases fn with
      | none => exact .raise _
      | some g => exact ih.call _ _ _ _
    · cases r with
      | ok r => exact .pure _
      | error e => exact .raise _

end

/-! ## `load` -/

/-- Calls have the same outcome. -/
def LAgree (k k' : Event → Bool) (rec rec' : LRec) : Prop :=
  ∀ v cls kw, Q k k' (rec v cls kw) (rec' v cls kw)

/-- The deserializers of the program do not look at the warnings of the calls that they make. -/
def DesersDeaf (E : LEnv) (k k' : Event → Bool) : Prop :=
  ∀ rec rec', LAgree k k' rec rec' → ∀ v t kw,
    (∀ id, Q k k' (E.customDes id rec v t kw) (E.customDes id rec' v t kw)) ∧
    Q k k' (E.foreignDes rec v t kw) (E.foreignDes rec' v t kw)

section
variable {E : LEnv} {w : Nat → PyStr → Bool} {k k' : Event → Bool} {rec rec' : LRec}

/-- The same surroundings with other settings for warnings. -/
abbrev loadEnv (E : LEnv) (w : Nat → PyStr → Bool) : LEnv := { E with warns := w }

theorem validate_q (v : Val) (t : Ty) (i : Nat) : Q k k' (validate E v t i) (validate (loadEnv E w) v t i) := by
  show Q k k' (validate E v t i) (validate E v t i)
  unfold validate
  refine .bind (.liftK _) fun _ => ?_
  mute

theorem listDes_q (h : Settings E.warns w k k') (hr : LAgree k k' rec rec') (v : Val) (args : List Ty) (kw : LoadKw) :
    Q k k' (listDes E rec v args kw) (listDes (loadEnv E w) rec' v args kw) := by
  have hl : ∀ cls b kw' xs i, Q k k' (listLoop E rec cls b kw' i xs) (listLoop (loadEnv E w) rec' cls b kw' i xs) := by
    intro cls b kw' xs
    induction xs with
    | nil => intro i; exact .pure _
    | cons x xs ih =>
      intro i
      unfold listLoop
      refine .bind (hr _ _ _).attempt fun r => ?_
      cases r with
      | ok y => exact .bind (ih _) fun _ => .pure _
      | error e =>
        exact .ite (.ite (.bind (warn_q (E := E.toEnv) h _ _ _) fun _ => ih _) (.raise _)) (.raise _)
  unfold listDes
  dsimp only
  split
  · exact .raise _
  · exact hl _ _ _ _ _

theorem tupleDes_q (hr : LAgree k k' rec rec') (v : Val) (t : Ty) (kw : LoadKw) :
    Q k k' (tupleDes E rec v t kw) (tupleDes (loadEnv E w) rec' v t kw) := by
  have ht : ∀ kw' xs ts, Q k k' (tupleLoop rec kw' ts xs) (tupleLoop rec' kw' ts xs) := by
    intro kw' xs
    induction xs with
    | nil => intro ts; cases ts <;> exact .pure _
    | cons x xs ih =>
      intro ts
      cases ts with
      | nil => exact .raise _
      | cons t ts => exact .bind (hr _ _ _) fun _ => .bind (ih _) fun _ => .pure _
  have hn : ∀ c tfm len names i, Q k k' (ntupleLoop E rec c v tfm len kw i names)
      (ntupleLoop (loadEnv E w) rec' c v tfm len kw i names) := by
    intro c tfm len names
    induction names with
    | nil => intro i; exact .pure _
    | cons n names ih =>
      intro i
      unfold ntupleLoop
      dsimp only
      exact .bind (.liftK _) fun _ => .ite (.raise _) (.bind (hr _ _ _) fun _ => .bind (ih _) fun _ => .pure _)
  have hp : Q k k'
      (match v.iter with
        | none => Res.raise { kind := .typeError }
        | some xs => do
          let ys ← match t, t.getArgs with
            | .gen .tupleEll _, a :: _ => tupleLoop rec { kw with keyTransformer := none } (List.replicate xs.length a) xs
            | _, a :: as => tupleLoop rec { kw with keyTransformer := none } (a :: as) xs
            | _, [] => mapRes (fun x => rec x none { kw with keyTransformer := none }) xs
          pure (.tuple ys) : Res Val)
      (match v.iter with
        | none => Res.raise { kind := .typeError }
        | some xs => do
          let ys ← match t, t.getArgs with
            | .gen .tupleEll _, a :: _ => tupleLoop rec' { kw with keyTransformer := none } (List.replicate xs.length a) xs
            | _, a :: as => tupleLoop rec' { kw with keyTransformer := none } (a :: as) xs
            | _, [] => mapRes (fun x => rec' x none { kw with keyTransformer := none }) xs
          pure (.tuple ys)) := by
    split
    · exact .raise _
    · dsimp only
      split
      · exact .bind (ht _ _ _) fun _ => .pure _
      · exact .bind (ht _ _ _) fun _ => .pure _
      · exact .bind (.mapRes (fun x => hr _ _ _) _) fun _ => .pure _
  unfold tupleDes
  cases t with
  | cls c =>
    cases c with
    | user c =>
      refine .ite ?_ hp
      unfold ntupleDes
      refine .bind (.lift _) fun tfm => ?_
      split
      · exact .raise _
      · exact .bind (hn _ _ _ _ _) fun _ => .pure _
    | _ => exact hp
  | _ => exact hp

theorem dictDes_q (hr : LAgree k k' rec rec') (v : Val) (args : List Ty) (kw : LoadKw) :
    Q k k' (dictDes E rec v args kw) (dictDes (loadEnv E w) rec' v args kw) := by
  have hu : ∀ t hs es, Q k k' (unhashLoop E rec t kw hs es) (unhashLoop (loadEnv E w) rec' t kw hs es) := by
    intro t hs
    induction hs with
    | nil => intro es; exact .pure _
    | cons h hs ih =>
      intro es
      unfold unhashLoop
      refine .bind ?_ fun _ => ih _
      unfold unhashKey
      refine .bind (.liftK _) fun _ => .bind (hr _ _ _) fun _ => ?_
      dsimp only
      mute
  have hh : Q k k' (loadHashedKeys E rec v args kw) (loadHashedKeys (loadEnv E w) rec' v args kw) := by
    unfold loadHashedKeys
    split
    · split
      · exact .pure _
      · split
        · exact .raise _
        · exact .pure _
        · split
          · exact .bind (hu _ _ _) fun _ => .pure _
          · exact .raise _
    · exact .raise _
  have hc : ∀ (kf kf' vf vf' : Val → Res Val), (∀ x, Q k k' (kf x) (kf' x)) → (∀ x, Q k k' (vf x) (vf' x)) →
      ∀ es acc, Q k k' (dictComp E.info kf vf acc es) (dictComp E.info kf' vf' acc es) := by
    intro kf kf' vf vf' h1 h2 es
    induction es with
    | nil => intro acc; exact .pure _
    | cons e es ih =>
      intro acc
      obtain ⟨a, b⟩ := e
      unfold dictComp
      exact .bind (h1 _) fun _ => .bind (h2 _) fun _ => .ite (ih _) (.raise _)
  unfold dictDes
  refine .bind hh fun p => ?_
  obtain ⟨es, hashed⟩ := p
  dsimp only
  split
  · refine hc _ _ _ _ (fun x => ?_) (fun x => hr _ _ _) es []
    cases hashed with
    | true => exact .lift _
    | false => exact .bind (.lift _) fun _ => hr _ _ _
  · exact hc _ _ _ _ (fun x => .lift _) (fun x => hr _ _ _) es []

theorem unionDes_q (hr : LAgree k k' rec rec') (v : Val) (t : Ty) (kw : LoadKw) :
    Q k k' (unionDes rec v t kw) (unionDes rec' v t kw) := by
  have hl : ∀ ts, Q k k' (unionLoadLoop rec v t kw ts) (unionLoadLoop rec' v t kw ts) := by
    intro ts
    induction ts with
    | nil => exact .raise _
    | cons u ts ih =>
      unfold unionLoadLoop
      refine .bind (hr _ _ _).attempt fun r => ?_
      cases r with
      | ok r => exact .pure _
      | error e => exact .ite ih (.raise _)
  unfold unionDes
  split
  · exact .raise _
  · exact hl _

theorem objectDes_q (h : Settings E.warns w k k') (hcu : DesersDeaf E k k') (hr : LAgree k k' rec rec') (v : Val)
    (t : Ty) (kw : LoadKw) : Q k k' (objectDes E rec v t kw) (objectDes (loadEnv E w) rec' v t kw) := by
  have hv : ∀ obj name hint, Q k k' (valueFromObj E rec obj name hint kw) (valueFromObj (loadEnv E w) rec' obj name hint kw) := by
    intro obj name hint
    unfold valueFromObj
    exact .bind (.liftS _ _) fun _ => .bind (.liftK _) fun _ => hr _ _ _
  have ha : ∀ obj c p, Q k k' (valueForAttr E rec obj c kw p) (valueForAttr (loadEnv E w) rec' obj c kw p) := by
    intro obj c p
    unfold valueForAttr
    dsimp only
    refine .bind (.liftK _) fun b => .ite (.bind (hv _ _ _) fun _ => .pure _) ?_
    split
    · exact .bind (.lift _) fun _ => .pure _
    · split
      · exact .pure _
      · exact .ite (.pure _) (.bind (.liftK _) fun _ => .ite (.pure _) (.raise _))
  have hargs : ∀ obj c ps, Q k k' (ctorArgs E rec obj c kw ps) (ctorArgs (loadEnv E w) rec' obj c kw ps) := by
    intro obj c ps
    induction ps with
    | nil => exact .pure _
    | cons p ps ih =>
      unfold ctorArgs
      refine .bind (ha _ _ _) fun r => .bind ih fun _ => ?_
      cases r <;> exact .pure _
  have hrest : ∀ c es as, Q k k' (setRemaining E rec c kw es as) (setRemaining (loadEnv E w) rec' c kw es as) := by
    intro c es
    induction es with
    | nil => intro as; exact .pure _
    | cons e es ih =>
      intro as
      obtain ⟨a, x⟩ := e
      unfold setRemaining
      dsimp only
      refine .bind ?_ fun _ => .bind (hr _ _ _) fun _ => .bind (.lift _) fun _ => ih _
      unfold warnHashed
      exact .ite (warn_q (E := E.toEnv) h _ _ _) (.pure _)
  have hg : ∀ c gs as, setGetters (loadEnv E w) c gs as = setGetters E c gs as := by
    intro c gs
    induction gs with
    | nil => intro as; rfl
    | cons g gs ih =>
      intro as
      obtain ⟨n, g⟩ := g
      simp only [setGetters, ih]
  unfold objectDes
  split
  · refine .bind (.lift _) fun obj => .bind (hargs _ _ _) fun args => .bind ?_ fun rest => .bind (.lift _) fun as =>
      .bind (hrest _ _ _) fun as => ?_
    · unfold getRemainingArgs
      refine .bind (.liftK _) fun rest => ?_
      mute
    · simp only [hg]
      exact .bind (.lift _) fun _ => .pure _
  · exact (hcu rec rec' hr v _ kw).2

theorem callDes_q (h : Settings E.warns w k k') (hcu : DesersDeaf E k k') (hr : LAgree k k' rec rec') (g : DesFn)
    (v : Val) (t : Ty) (kw : LoadKw) : Q k k' (callDes E rec g v t kw) (callDes (loadEnv E w) rec' g v t kw) := by
  have hprim : ∀ u, Q k k' (primitiveDes E v u) (primitiveDes (loadEnv E w) v u) := by
    intro u
    show Q k k' (primitiveDes E v u) (primitiveDes E v u)
    unfold primitiveDes
    mute
  cases g with
  | list => exact .bind (listDes_q h hr _ _ _) fun _ => .pure _
  | tuple => exact tupleDes_q hr v t kw
  | union => exact unionDes_q hr v t kw
  | defaultdict =>
    show Q k k' (defaultdictDes rec v t kw) (defaultdictDes rec' v t kw)
    unfold defaultdictDes
    refine .bind ?_ fun p => ?_
    · mute
    · obtain ⟨a, b⟩ := p
      refine .bind (hr _ _ _) fun r => ?_
      mute
  | datetime =>
    show Q k k' (datetimeDes v) (datetimeDes v)
    unfold datetimeDes
    mute
  | date =>
    show Q k k' (dateDes v) (dateDes v)
    unfold dateDes
    mute
  | time =>
    show Q k k' (timeDes v) (timeDes v)
    unfold timeDes
    mute
  | timezone =>
    show Q k k' (timezoneDes rec v) (timezoneDes rec' v)
    unfold timezoneDes
    refine .bind (.liftK _) fun _ => .bind (hr _ _ _) fun _ => .bind (.liftK _) fun _ => ?_
    mute
  | timedelta =>
    show Q k k' (timedeltaDes E v) (timedeltaDes E v)
    unfold timedeltaDes
    mute
  | string =>
    show Q k k' (stringDes E rec v t kw) (stringDes (loadEnv E w) rec' v t kw)
    unfold stringDes
    refine .ite (.pure _) (.bind (hr _ _ _).attempt fun r => ?_)
    cases r with
    | ok r => exact .pure _
    | error e => exact .ite (hprim _) (.raise _)
  | noneType =>
    show Q k k' (noneTypeDes v t) (noneTypeDes v t)
    unfold noneTypeDes
    mute
  | primitive => exact hprim t
  | enum =>
    show Q k k' (enumDes E v t kw) (enumDes E v t kw)
    unfold enumDes
    dsimp only
    mute
  | mapping => exact .bind (dictDes_q hr _ _ _) fun _ => .pure _
  | iterable =>
    show Q k k' (iterableDes E rec v t kw) (iterableDes (loadEnv E w) rec' v t kw)
    unfold iterableDes
    refine .bind (listDes_q h hr _ _ _) fun _ => ?_
    mute
  | object => exact objectDes_q h hcu hr v t kw
  | uuid => exact .liftK _
  | complex =>
    show Q k k' (complexDes rec v) (complexDes rec' v)
    unfold complexDes
    dsimp only
    refine .bind (Q.attempt (.bind (.liftK _) fun _ => .bind (.liftK _) fun _ => .bind (hr _ _ _) fun _ =>
      .bind (.liftK _) fun _ => .bind (.liftK _) fun _ => ?_)) fun r => ?_
    · mute
    · cases r with
      | ok r => exact .pure _
      | error e => exact .ite (.raise _) (.raise _)
  | decimal => exact .liftK _
  | path => exact .liftK _
  | zoneinfo =>
    show Q k k' (zoneinfoDes E v) (zoneinfoDes E v)
    unfold zoneinfoDes
    mute
  | custom id => exact (hcu rec rec' hr v t kw).1 id

theorem loadRec_q (h : Settings E.warns w k k') (hcu : DesersDeaf E k k') :
    ∀ n, LAgree k k' (loadRec E n) (loadRec (loadEnv E w) n) := by
  intro n
  induction n with
  | zero => exact fun _ _ _ => .raise _
  | succ n ih =>
    intro v cls kw
    show Q k k' (loadWith E (loadRec E n) v cls kw) (loadWith (loadEnv E w) (loadRec (loadEnv E w) n) v cls kw)
    unfold loadWith
    refine .bind ?_ fun _ => .ite (.bind (validate_q _ _ _) fun _ => .pure _) ?_
    · unfold checkForNone
      exact .ite (.bind (.liftK _) fun _ => .ite (.pure _) (.raise _)) (.pure _)
    · unfold loadFrom
      refine .ite (.raise _) (.bind (.liftS _ _) fun m => ?_)
      dsimp only
      refine .bind (.liftK _) fun fn => ?_
      unfold doLoad
      cases fn with
      | none => exact .raise _
      | some g =>
        dsimp only
        refine .bind (Q.attempt (.bind (callDes_q h hcu ih _ _ _ _) fun _ => .bind (validate_q _ _ _) fun _ => .pure _))
          fun r => ?_
        cases r with
        | ok r => exact .pure _
        | error e => exact .ite (.raise _) (.raise _)

end

/-! ## C98 -/

/-- The warnings with a code of `S` are left out. -/
def without (S : PyStr → Bool) : Event → Bool
  | .warn code _ => !S code
  | .announce _ _ => true

/-- Suppressing the codes `S` everywhere. -/
theorem settings_unless (u : Nat → PyStr → Bool) (S : PyStr → Bool) :
    Settings u (fun i code => u i code && !S code) (without S) (fun _ => true) :=
  ⟨fun _ _ => rfl, fun i code msg => by simp [without]⟩

/-- Settings that differ only in codes that are not looked at. -/
theorem settings_keep {u w : Nat → PyStr → Bool} {keep : Event → Bool}
    (h : ∀ i code msg, w i code ≠ u i code → keep (.warn code msg) = false) : Settings u w keep keep := by
  refine ⟨fun _ _ => rfl, fun i code msg => ?_⟩
  by_cases he : w i code = u i code
  · rw [he]
  · rw [h i code msg he]; simp

/-- C98 for `dump`: if the warnings with the codes `S` are suppressed, then `dump` returns and raises
what it does without that, and the warnings are those it emits without that, less the ones with the
codes `S`. -/
theorem dump_suppressed (E : Env) (S : PyStr → Bool) (n : Nat) (v : Val) (cls : Option Ty) (kw : DumpKw)
    (hc : SersDeaf E (without S) fun _ => true) :
    (dump { E with warns := fun i code => E.warns i code && !S code } n v cls kw).val = (dump E n v cls kw).val ∧
    (dump { E with warns := fun i code => E.warns i code && !S code } n v cls kw).log =
      (dump E n v cls kw).log.filter (without S) := by
  obtain ⟨h1, h2⟩ := (recOf_q (settings_unless E.warns S) hc n).dump v cls kw
  refine ⟨h1, ?_⟩
  rw [List.filter_true] at h2
  exact h2

/-- C98 for `dump`, for all settings: they do not matter to what is returned and raised, and events
they do not say different things about are the same. -/
theorem dump_settings_free (E : Env) (w : Nat → PyStr → Bool) (keep : Event → Bool) (n : Nat) (v : Val)
    (cls : Option Ty) (kw : DumpKw) (hc : SersDeaf E keep keep)
    (hw : ∀ i code msg, w i code ≠ E.warns i code → keep (.warn code msg) = false) :
    (dump { E with warns := w } n v cls kw).val = (dump E n v cls kw).val ∧
    (dump { E with warns := w } n v cls kw).log.filter keep = (dump E n v cls kw).log.filter keep :=
  (recOf_q (settings_keep hw) hc n).dump v cls kw

/-- C98 for `load`. -/
theorem load_suppressed (E : LEnv) (S : PyStr → Bool) (n : Nat) (v : Val) (cls : Option Ty) (kw : LoadKw)
    (hc : DesersDeaf E (without S) fun _ => true) :
    (load { E with warns := fun i code => E.warns i code && !S code } n v cls kw).val = (load E n v cls kw).val ∧
    (load { E with warns := fun i code => E.warns i code && !S code } n v cls kw).log =
      (load E n v cls kw).log.filter (without S) := by
  obtain ⟨h1, h2⟩ := loadRec_q (settings_unless E.warns S) hc n v cls kw
  refine ⟨h1, ?_⟩
  rw [List.filter_true] at h2
  exact h2

/-- C98 for `load`, for all settings. -/
theorem load_settings_free (E : LEnv) (w : Nat → PyStr → Bool) (keep : Event → Bool) (n : Nat) (v : Val)
    (cls : Option Ty) (kw : LoadKw) (hc : DesersDeaf E keep keep)
    (hw : ∀ i code msg, w i code ≠ E.warns i code → keep (.warn code msg) = false) :
    (load { E with warns := w } n v cls kw).val = (load E n v cls kw).val ∧
    (load { E with warns := w } n v cls kw).log.filter keep = (load E n v cls kw).log.filter keep :=
  loadRec_q (settings_keep hw) hc n v cls kw

/-- A naive `datetime` in a list, with its warning suppressed. -/
example :
    (dump { demoEnv demoInfo with warns := fun i code => (demoEnv demoInfo).warns i code && !(code == "datetime-without-tz".toList) }
      9 (.list [.atom (.datetime ⟨2020, 1, 1, 0, 0, 0, 0, none⟩)]) none {}).log =
      (dump (demoEnv demoInfo) 9 (.list [.atom (.datetime ⟨2020, 1, 1, 0, 0, 0, 0, none⟩)]) none {}).log.filter
        (without (· == "datetime-without-tz".toList)) ∧
    Event.warn "datetime-without-tz".toList [] ∈
      (dump (demoEnv demoInfo) 9 (.list [.atom (.datetime ⟨2020, 1, 1, 0, 0, 0, 0, none⟩)]) none {}).log :=
  ⟨(dump_suppressed (demoEnv demoInfo) (· == "datetime-without-tz".toList) 9 _ none {}
    fun _ _ _ _ _ _ _ => .raise _).2, by decide +kernel⟩

/-- A list with an element that cannot be loaded, with all warnings suppressed. -/
example :
    (load { demoLEnv demoInfo with warns := fun i code => (demoLEnv demoInfo).warns i code && !true }
      9 (.list [.int 1, .str "a".toList]) (some (.gen .list [.cls .int])) { warnOnFail := true }).val = .ok (.list [.int 1]) ∧
    (load { demoLEnv demoInfo with warns := fun i code => (demoLEnv demoInfo).warns i code && !true }
      9 (.list [.int 1, .str "a".toList]) (some (.gen .list [.cls .int])) { warnOnFail := true }).log =
      (load (demoLEnv demoInfo) 9 (.list [.int 1, .str "a".toList]) (some (.gen .list [.cls .int]))
        { warnOnFail := true }).log.filter (without fun _ => true) ∧
    (load (demoLEnv demoInfo) 9 (.list [.int 1, .str "a".toList]) (some (.gen .list [.cls .int]))
        { warnOnFail := true }).log.length = 1 := by
  have h := load_suppressed (demoLEnv demoInfo) (fun _ => true) 9 (.list [.int 1, .str "a".toList])
    (some (.gen .list [.cls .int])) { warnOnFail := true } fun _ _ _ _ _ _ => ⟨fun _ => .raise _, .raise _⟩
  exact ⟨h.1.trans (by decide +kernel), h.2, by decide +kernel⟩

/-! ## The warning about hashed keys -/

theorem ctorArgs_names {E : LEnv} {rec : LRec} {obj : Val} {c : Nat} {kw : LoadKw} {s : PyStr} :
    ∀ {ps : List Param} {args : List (PyStr × Val)}, (ctorArgs E rec obj c kw ps).val = .ok args →
      (∀ p ∈ ps, p.name ≠ s) → assoc args s = none := by
  intro ps
  induction ps with
  | nil => intro args h _; cases h; rfl
  | cons p ps ih =>
    intro args h hn
    unfold ctorArgs at h
    obtain ⟨o, _, h⟩ := Core.bind_ok.mp h
    obtain ⟨r, hr, h⟩ := Core.bind_ok.mp h
    have := ih hr fun p hp => hn p (List.mem_cons_of_mem _ hp)
    cases o with
    | none => cases h; exact this
    | some y =>
      cases h
      unfold assoc
      rw [if_neg (hn p List.mem_cons_self)]
      exact this

theorem setRemaining_warns {E : LEnv} {rec : LRec} {c : Nat} {kw : LoadKw} {s : PyStr} {x : Val}
    (hx : hasKeysEntry x = true) (hh : assoc (E.info c).hints s = none)
    (hw : E.warns kw.fork "hashed-keys-without-hint".toList = true) :
    ∀ {es : List (Val × Val)} {as r : List (PyStr × Val)}, (setRemaining E rec c kw es as).val = .ok r →
      (Val.str s, x) ∈ es → Event.warn "hashed-keys-without-hint".toList [] ∈ (setRemaining E rec c kw es as).log := by
  intro es
  induction es with
  | nil => intro as r _ h; cases h
  | cons e es ih =>
    intro as r h hm
    obtain ⟨k, y⟩ := e
    unfold setRemaining at h ⊢
    obtain ⟨_, h1, h⟩ := Core.bind_ok.mp h
    obtain ⟨z, h2, h⟩ := Core.bind_ok.mp h
    obtain ⟨as', h3, h⟩ := Core.bind_ok.mp h
    rcases List.mem_cons.mp hm with hm | hm
    · cases hm
      refine mem_bind_log_left ?_
      unfold warnHashed
      rw [hx, show annotation (E.info c) (.str s) = none from hh]
      unfold Env.warn
      rw [if_pos (by rfl), if_pos hw]
      exact List.mem_singleton.mpr rfl
    · exact mem_bind_log h1 (mem_bind_log h2 (mem_bind_log h3 (ih h hm)))

/-- C98: `load` of an object from a document with a key that the class does not know, and a dict
with hashed keys under it, warns that the keys cannot be restored, if that warning is not
suppressed. -/
theorem hashed_keys_warned (E : LEnv) (n c : Nat) (es : List (Val × Val)) (s : PyStr) (x r : Val) (kw : LoadKw)
    (hd : DefaultDesers E kw.fork) (hv : E.getVal kw.fork (.cls (.user c)) = .ok none) (hc : (E.info c).kind = .plain)
    (hm : dictGet es (.str metaKey) = none) (hkt : kw.keyTransformer = none)
    (hs : (Val.str s, x) ∈ es) (hsm : s ≠ metaKey) (hx : hasKeysEntry x = true)
    (hp : ∀ p ∈ (E.info c).params, p.name ≠ s) (hh : assoc (E.info c).hints s = none)
    (hw : E.warns kw.fork "hashed-keys-without-hint".toList = true)
    (h : (load E (n + 1) (.dict es) (some (.cls (.user c))) kw).val = .ok r) :
    Event.warn "hashed-keys-without-hint".toList [] ∈ (load E (n + 1) (.dict es) (some (.cls (.user c))) kw).log := by
  have hg : getClsAndMeta E (.dict es) kw.fork = .ok none :=
    noMeta_get (by intro es' h; cases h; exact hm) _
  obtain ⟨h1, h2⟩ := load_via (n := n) (f := .object) (m := none) (kw := kw) (t := .cls (.user c)) (v := .dict es) (fun h => by cases h)
    (by simp [Skips, Val.cls]) (by simp [Val.cls, validTypes]) hg (.inr rfl) hd
    (by simp [Ty.desFn, Cls.desFn, hc]) hv
  rw [h1, wrapRes_ok] at h
  rw [h2]
  generalize hkw : kwOf kw none = kw' at h ⊢
  have hk1 : kw'.keyTransformer = none := by rw [← hkw]; exact hkt
  have hk2 : kw'.fork = kw.fork := by rw [← hkw]; rfl
  change (objectDes E (load E n) (.dict es) (.cls (.user c)) kw').val = .ok r at h
  show _ ∈ (objectDes E (load E n) (.dict es) (.cls (.user c)) kw').log
  unfold objectDes at h ⊢
  obtain ⟨obj, ha, h⟩ := Core.bind_ok.mp h
  obtain ⟨args, hb, h⟩ := Core.bind_ok.mp h
  obtain ⟨rest, hr, h⟩ := Core.bind_ok.mp h
  obtain ⟨as, hco, h⟩ := Core.bind_ok.mp h
  obtain ⟨as', hse, h⟩ := Core.bind_ok.mp h
  have hobj : obj = .dict es := by
    rw [lift_val, hk1] at ha
    cases ha
    rfl
  subst hobj
  refine mem_bind_log ha (mem_bind_log hb (mem_bind_log hr (mem_bind_log hco (mem_bind_log_left ?_))))
  refine setRemaining_warns hx hh (by rw [hk2]; exact hw) hse ?_
  unfold getRemainingArgs at hr
  obtain ⟨rest', h3, h4⟩ := Core.bind_ok.mp hr
  rw [liftK_ok] at h3
  have hrr : rest' = rest := by
    split at h4
    · split at h4
      · cases h4
      · cases h4; rfl
    · cases h4; rfl
  subst hrr
  cases h3
  refine List.mem_filter.mpr ⟨hs, ?_⟩
  show ((assoc args s).isNone && decide (s ≠ metaKey)) = true
  rw [ctorArgs_names hb hp]
  simp [hsm]

/-- A `Point` with a dict of hashed keys as a further attribute. -/
example : Event.warn "hashed-keys-without-hint".toList [] ∈
    (load (demoLEnv demoInfo) 9 (.dict [(.str "x".toList, .int 1),
      (.str "d".toList, .dict [(.str keysKey, .dict [])])]) (some (.cls (.user 0))) {}).log :=
  hashed_keys_warned (demoLEnv demoInfo) 8 0 _ "d".toList (.dict [(.str keysKey, .dict [])])
    (.obj 0 [("x".toList, .int 1), ("y".toList, .int 0), ("d".toList, .dict [(.str keysKey, .dict [])])]) {}
    (demo_desers 0) (demo_novals 0 _) rfl (by rfl) rfl (by simp) (by decide) (by rfl) (by decide) (by rfl) rfl (by decide +kernel)

end Verif.Props.Quiet
