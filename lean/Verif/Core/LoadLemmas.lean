import Verif.Core.LoadDispatch
import Verif.Core.DumpLemmas

/-!
# Lemmas about `load`
-/

set_option autoImplicit false

namespace Verif.Core
open Verif Verif.Datetime

variable {E : LEnv}

theorem loadRec_eq (n : Nat) : loadRec E n = load E n := rfl

theorem load_succ (n : Nat) (v : Val) (cls : Option Ty) (kw : LoadKw) :
    load E (n + 1) v cls kw = loadWith E (load E n) v cls kw := rfl

/-- The given value is `None` only where that is allowed. -/
def NoneOk (E : LEnv) (v : Val) (cls : Option Ty) : Prop :=
  v = .none → canMatchWithNone E cls = .ok true

/-- The value is returned as it is. -/
def Skips (v : Val) (cls : Option Ty) (kw : LoadKw) : Prop :=
  (kw.strict = false ∧ cls = some (.cls v.cls)) ∨ cls = some .any

/-- The class that is used. -/
def target (v : Val) (cls : Option Ty) (kw : LoadKw) (m : Option (Ty × List (Val × Val))) : Ty :=
  (determinePrecedence cls (m.map (·.1)) (some (.cls v.cls)) kw.inferred).getD (.cls v.cls)

/-- The keyword arguments of the deserializer. -/
def calleeKw (v : Val) (cls : Option Ty) (kw : LoadKw) (m : Option (Ty × List (Val × Val))) :
    LoadKw :=
  { kw with
    metaHints := some (kw.metaHints.getD ((m.map (·.2)).getD []))
    inferred := decide (some (target v cls kw m) ≠ cls) }

theorem checkForNone_ok {v : Val} {cls : Option Ty} (h : NoneOk E v cls) :
    checkForNone E v cls = pure () := by
  unfold checkForNone
  split
  · next hv => rw [h hv]; rfl
  · rfl

theorem load_skip {n : Nat} {v : Val} {cls : Option Ty} {kw : LoadKw} (h0 : NoneOk E v cls)
    (h1 : Skips v cls kw) :
    load E (n + 1) v cls kw = (do validate E v (cls.getD .any) kw.fork; pure v) := by
  rw [load_succ]
  unfold loadWith
  rw [checkForNone_ok h0, pure_bind']
  exact if_pos h1

theorem load_from {n : Nat} {v : Val} {cls : Option Ty} {kw : LoadKw} (h0 : NoneOk E v cls)
    (h1 : ¬ Skips v cls kw) :
    load E (n + 1) v cls kw = loadFrom E (load E n) v cls kw := by
  rw [load_succ]
  unfold loadWith
  rw [checkForNone_ok h0, pure_bind']
  exact if_neg h1

theorem loadFrom_eq {rec : LRec} {v : Val} {cls : Option Ty} {kw : LoadKw}
    {m : Option (Ty × List (Val × Val))} (h1 : v.cls ∈ validTypes)
    (h2 : getClsAndMeta E v kw.fork = .ok m) (h3 : DefaultDesers E kw.fork) :
    loadFrom E rec v cls kw =
      doLoad E rec ((target v cls kw m).desFn E.info) v (target v cls kw m) (calleeKw v cls kw m) := by
  unfold loadFrom
  rw [if_neg (by simpa using h1), h2, liftS_of_ok, pure_bind']
  show (do let fn ← Res.liftK (E.getDes kw.fork (target v cls kw m)); _) = _
  rw [h3, liftK_of_ok, pure_bind']
  rfl

/-- The way into the deserializer. -/
theorem load_enter {n : Nat} {v : Val} {cls : Option Ty} {kw : LoadKw}
    {m : Option (Ty × List (Val × Val))} (h0 : NoneOk E v cls) (hs : ¬ Skips v cls kw)
    (h1 : v.cls ∈ validTypes) (h2 : getClsAndMeta E v kw.fork = .ok m)
    (h3 : DefaultDesers E kw.fork) :
    load E (n + 1) v cls kw =
      doLoad E (load E n) ((target v cls kw m).desFn E.info) v (target v cls kw m)
        (calleeKw v cls kw m) := by
  rw [load_from h0 hs, loadFrom_eq h1 h2 h3]

/-- A class that is given explicitly is used. -/
theorem target_explicit {v : Val} {t : Ty} {kw : LoadKw} {m : Option (Ty × List (Val × Val))}
    (h : kw.inferred = false ∨ m = none) : target v (some t) kw m = t := by
  unfold target determinePrecedence
  rcases h with h | h
  · rw [h]; rfl
  · subst h; cases kw.inferred <;> rfl

/-- Without a class and without '-meta', it is that of the value. -/
theorem target_free {v : Val} {kw : LoadKw} : target v none kw none = .cls v.cls := by
  unfold target determinePrecedence
  cases kw.inferred <;> rfl

theorem calleeKw_explicit {v : Val} {t : Ty} {kw : LoadKw} {m : Option (Ty × List (Val × Val))}
    (h : kw.inferred = false ∨ m = none) :
    calleeKw v (some t) kw m =
      { kw with metaHints := some (kw.metaHints.getD ((m.map (·.2)).getD [])), inferred := false } := by
  unfold calleeKw
  rw [target_explicit h]
  simp

theorem calleeKw_free {v : Val} {kw : LoadKw} :
    calleeKw v none kw none =
      { kw with metaHints := some (kw.metaHints.getD []), inferred := true } := by
  unfold calleeKw
  simp

/-! ## `doLoad` -/

theorem doLoad_ok {rec : LRec} {f : DesFn} {v r : Val} {t : Ty} {kw : LoadKw} :
    (doLoad E rec (some f) v t kw).val = .ok r ↔
      (callDes E rec f v t kw).val = .ok r ∧ (validate E r t kw.fork).val = .ok () := by
  unfold doLoad
  simp only [bind_ok, attempt_val, Except.ok.injEq, exists_eq_left']
  constructor
  · intro h
    split at h
    · next r' hr =>
      simp only [pure_val, Except.ok.injEq] at h
      subst h
      simp only [bind_ok, pure_val, Except.ok.injEq] at hr
      obtain ⟨a, h1, _, h2, rfl⟩ := hr
      exact ⟨h1, h2⟩
    · next e _ => split at h <;> simp at h
  · rintro ⟨h1, h2⟩
    have : (do let r ← callDes E rec f v t kw; validate E r t kw.fork; pure r : Res Val).val
        = .ok r := by
      simp only [bind_ok, pure_val, Except.ok.injEq]
      exact ⟨r, h1, (), h2, rfl⟩
    rw [this]
    rfl

/-- Every exception that comes out of the body of `load` is a `JsonsError`. -/
theorem doLoad_err {rec : LRec} {fn : Option DesFn} {v : Val} {t : Ty} {kw : LoadKw} {e : Err}
    (h : (doLoad E rec fn v t kw).val = .error e) : e.kind.isJsonsError = true := by
  unfold doLoad at h
  cases fn with
  | none => simp only [raise_val, Except.error.injEq] at h; subst h; rfl
  | some f =>
    simp only [bind_val, attempt_val] at h
    split at h
    · simp at h
    · split at h
      · simp only [raise_val, Except.error.injEq] at h; subst h; assumption
      · simp only [raise_val, Except.error.injEq] at h; subst h; rfl

/-- What becomes of the exception of a deserializer. -/
def wrapErr (v : Val) (t : Ty) (e : Err) : Err :=
  if e.kind.isJsonsError then e
  else { kind := .deserializationError, msg := e.msg, source := some v, target := some t }

theorem doLoad_err_of {rec : LRec} {f : DesFn} {v : Val} {t : Ty} {kw : LoadKw} {e : Err}
    (h : (callDes E rec f v t kw).val = .error e) :
    (doLoad E rec (some f) v t kw).val = .error (wrapErr v t e) := by
  unfold doLoad
  simp only [bind_val, attempt_val, h]
  unfold wrapErr
  split <;> simp

/-- Without a validator for the class, the deserializer alone decides. -/
theorem doLoad_noval {rec : LRec} {f : DesFn} {v : Val} {t : Ty} {kw : LoadKw}
    (hv : E.getVal kw.fork t = .ok none) :
    (doLoad E rec (some f) v t kw).val = match (callDes E rec f v t kw).val with
      | .ok r => .ok r
      | .error e => .error (wrapErr v t e) := by
  cases h : (callDes E rec f v t kw).val with
  | ok r =>
    rw [doLoad_ok]
    refine ⟨h, ?_⟩
    unfold validate
    rw [hv]
    rfl
  | error e => exact doLoad_err_of h

theorem doLoad_noval_log {rec : LRec} {f : DesFn} {v : Val} {t : Ty} {kw : LoadKw}
    (hv : E.getVal kw.fork t = .ok none) :
    (doLoad E rec (some f) v t kw).log = (callDes E rec f v t kw).log := by
  unfold doLoad
  simp only [bind_log, bind_val, attempt_log, attempt_val]
  cases h : (callDes E rec f v t kw).val with
  | ok r =>
    have hval : validate E r t kw.fork = pure () := by unfold validate; rw [hv]; rfl
    simp only [hval, pure_val, pure_log, List.append_nil]
  | error e =>
    simp only
    split <;> simp

theorem validate_none {fork : Nat} {v : Val} {t : Ty} (h : E.getVal fork t = .ok none) :
    validate E v t fork = pure () := by
  unfold validate; rw [h]; rfl

/-- The outcome of `load` after that of the deserializer. -/
def wrapRes (v : Val) (t : Ty) : Except Err Val → Except Err Val
  | .ok r => .ok r
  | .error e => .error (wrapErr v t e)

@[simp] theorem wrapRes_ok {v : Val} {t : Ty} {x : Except Err Val} {r : Val} :
    wrapRes v t x = .ok r ↔ x = .ok r := by
  cases x <;> simp [wrapRes]

/-- The keyword arguments of the deserializer for an explicit class. -/
def kwOf (kw : LoadKw) (m : Option (Ty × List (Val × Val))) : LoadKw :=
  { kw with metaHints := some (kw.metaHints.getD ((m.map (·.2)).getD [])), inferred := false }

/-- `load` with an explicit class and without a validator for it. -/
theorem load_via {n : Nat} {v : Val} {t : Ty} {kw : LoadKw} {f : DesFn}
    {m : Option (Ty × List (Val × Val))} (h0 : NoneOk E v (some t)) (hs : ¬ Skips v (some t) kw)
    (h1 : v.cls ∈ validTypes) (h2 : getClsAndMeta E v kw.fork = .ok m)
    (hi : kw.inferred = false ∨ m = none) (h3 : DefaultDesers E kw.fork)
    (hf : t.desFn E.info = some f) (hv : E.getVal kw.fork t = .ok none) :
    (load E (n + 1) v (some t) kw).val = wrapRes v t (callDes E (load E n) f v t (kwOf kw m)).val ∧
    (load E (n + 1) v (some t) kw).log = (callDes E (load E n) f v t (kwOf kw m)).log := by
  rw [load_enter h0 hs h1 h2 h3, target_explicit hi, calleeKw_explicit hi, hf]
  have hv' : E.getVal (kwOf kw m).fork t = .ok none := hv
  refine ⟨?_, doLoad_noval_log hv'⟩
  refine (doLoad_noval hv').trans ?_
  show _ = wrapRes v t (callDes E (load E n) f v t (kwOf kw m)).val
  cases (callDes E (load E n) f v t (kwOf kw m)).val <;> rfl

/-- The same with any deserializer that is found for the class. -/
theorem load_via_des {n : Nat} {v : Val} {t : Ty} {kw : LoadKw} {f : DesFn}
    {m : Option (Ty × List (Val × Val))} (h0 : NoneOk E v (some t)) (hs : ¬ Skips v (some t) kw)
    (h1 : v.cls ∈ validTypes) (h2 : getClsAndMeta E v kw.fork = .ok m)
    (hi : kw.inferred = false ∨ m = none) (hf : E.getDes kw.fork t = .ok (some f))
    (hv : E.getVal kw.fork t = .ok none) :
    (load E (n + 1) v (some t) kw).val = wrapRes v t (callDes E (load E n) f v t (kwOf kw m)).val ∧
    (load E (n + 1) v (some t) kw).log = (callDes E (load E n) f v t (kwOf kw m)).log := by
  rw [load_from h0 hs]
  unfold loadFrom
  rw [if_neg (by simpa using h1), h2, liftS_of_ok, pure_bind']
  show (do let fn ← Res.liftK (E.getDes kw.fork (target v (some t) kw m))
           doLoad E (load E n) fn v (target v (some t) kw m) (calleeKw v (some t) kw m)).val = _ ∧
    (do let fn ← Res.liftK (E.getDes kw.fork (target v (some t) kw m))
        doLoad E (load E n) fn v (target v (some t) kw m) (calleeKw v (some t) kw m)).log = _
  rw [target_explicit hi, calleeKw_explicit hi, hf, liftK_of_ok, pure_bind']
  have hv' : E.getVal (kwOf kw m).fork t = .ok none := hv
  refine ⟨?_, doLoad_noval_log hv'⟩
  refine (doLoad_noval hv').trans ?_
  show _ = wrapRes v t (callDes E (load E n) f v t (kwOf kw m)).val
  cases (callDes E (load E n) f v t (kwOf kw m)).val <;> rfl

/-- The keyword arguments of the deserializer without a class. -/
def kwFree (kw : LoadKw) : LoadKw :=
  { kw with metaHints := some (kw.metaHints.getD []), inferred := true }

/-- `load` without a class, without '-meta' and without a validator. -/
theorem load_via_free {n : Nat} {v : Val} {kw : LoadKw} {f : DesFn}
    (h1 : v.cls ∈ validTypes) (h2 : getClsAndMeta E v kw.fork = .ok none)
    (h3 : DefaultDesers E kw.fork) (hf : v.cls.desFn E.info = f)
    (hv : E.getVal kw.fork (.cls v.cls) = .ok none) :
    (load E (n + 1) v none kw).val
      = wrapRes v (.cls v.cls) (callDes E (load E n) f v (.cls v.cls) (kwFree kw)).val ∧
    (load E (n + 1) v none kw).log = (callDes E (load E n) f v (.cls v.cls) (kwFree kw)).log := by
  rw [load_enter (fun _ => rfl) (by rintro (⟨_, h⟩ | h) <;> cases h) h1 h2 h3, target_free,
    calleeKw_free]
  show (doLoad E (load E n) (some (v.cls.desFn E.info)) _ _ _).val = _ ∧
    (doLoad E (load E n) (some (v.cls.desFn E.info)) _ _ _).log = _
  rw [hf]
  have hv' : E.getVal (kwFree kw).fork (.cls v.cls) = .ok none := hv
  refine ⟨?_, doLoad_noval_log hv'⟩
  refine (doLoad_noval hv').trans ?_
  show _ = wrapRes v (.cls v.cls) (callDes E (load E n) f v (.cls v.cls) (kwFree kw)).val
  cases (callDes E (load E n) f v (.cls v.cls) (kwFree kw)).val <;> rfl

/-! ## Values without '-meta' -/

/-- The value is not a dict with the entry '-meta'. -/
def NoMeta (v : Val) : Prop :=
  ∀ es, v = .dict es → dictGet es (.str metaKey) = none

theorem noMeta_get {v : Val} (h : NoMeta v) (fork : Nat) : getClsAndMeta E v fork = .ok none := by
  unfold getClsAndMeta
  cases v with
  | dict es => simp only [h es rfl]
  | _ => rfl

theorem noMeta_of_not_dict {v : Val} (h : v.cls ≠ .dict) : NoMeta v := by
  intro es he
  subst he
  exact absurd rfl h

/-- If the value has no '-meta' of its own, then it does not matter whether the class is
inferred and whether there are no hints or an empty dict of them. -/
theorem load_plain {n : Nat} {v : Val} {t : Ty} {kw : LoadKw} (h : NoMeta v) (b : Bool)
    (hm : kw.metaHints = none) :
    load E n v (some t) { kw with inferred := b, metaHints := some [] }
      = load E n v (some t) { kw with inferred := b } := by
  cases n with
  | zero => rfl
  | succ n =>
    rw [load_succ, load_succ]
    unfold loadWith
    congr 1
    funext _
    split
    · rfl
    · unfold loadFrom
      split
      · rfl
      · simp only [noMeta_get h, liftK_of_ok, pure_bind', hm]
        rfl

theorem load_inferred {n : Nat} {v : Val} {t : Ty} {kw : LoadKw} (h : NoMeta v) (b : Bool) :
    load E n v (some t) { kw with inferred := b } = load E n v (some t) kw := by
  cases n with
  | zero => rfl
  | succ n =>
    rw [load_succ, load_succ]
    unfold loadWith
    congr 1
    funext _
    split
    · rfl
    · unfold loadFrom
      split
      · rfl
      · simp only [noMeta_get h, liftS_of_ok, pure_bind']
        have hd : ∀ b, determinePrecedence (some t) none (some (.cls v.cls)) b = some t := by
          intro b; cases b <;> rfl
        simp only [Option.map_none, hd]

/-- The hints of the value itself make no difference. -/
theorem load_own_hints {n : Nat} {v : Val} {cls : Option Ty} {kw : LoadKw}
    {m : Option (Ty × List (Val × Val))} (h : getClsAndMeta E v kw.fork = .ok m)
    (hm : kw.metaHints = none) :
    load E n v cls { kw with metaHints := some ((m.map (·.2)).getD []) } = load E n v cls kw := by
  cases n with
  | zero => rfl
  | succ n =>
    rw [load_succ, load_succ]
    unfold loadWith
    congr 1
    funext _
    split
    · rfl
    · unfold loadFrom
      split
      · rfl
      · simp only [h, liftS_of_ok, pure_bind', hm]
        rfl

/-- A nested call for the same value. -/
theorem load_same {n : Nat} {v : Val} {t : Ty} {kw : LoadKw}
    {m : Option (Ty × List (Val × Val))} (h : getClsAndMeta E v kw.fork = .ok m)
    (hi : kw.inferred = false ∨ m = none) :
    load E n v (some t) (kwOf kw m) = load E n v (some t) kw := by
  cases n with
  | zero => rfl
  | succ n =>
    rw [load_succ, load_succ]
    unfold loadWith
    congr 1
    funext _
    have h' : getClsAndMeta E v (kwOf kw m).fork = .ok m := h
    have hst : (kwOf kw m).strict = kw.strict := rfl
    rw [hst]
    split
    · rfl
    · unfold loadFrom
      split
      · rfl
      · rw [h, h']
        simp only [liftS_of_ok, pure_bind']
        have hd : determinePrecedence (some t) (m.map (·.1)) (some (.cls v.cls)) kw.inferred = some t ∧
            determinePrecedence (some t) (m.map (·.1)) (some (.cls v.cls)) (kwOf kw m).inferred = some t := by
          refine ⟨?_, rfl⟩
          rcases hi with hi | rfl
          · rw [hi]; rfl
          · cases kw.inferred <;> rfl
        rw [hd.1, hd.2]
        cases hk : kw.metaHints <;> simp [kwOf, hk]

/-- A nested call for a part without '-meta'. -/
theorem load_part {n : Nat} {v : Val} {cls : Option Ty} {kw : LoadKw} (h : NoMeta v) :
    load E n v cls (kwOf kw none) = load E n v cls kw := by
  cases cls with
  | some t => exact load_same (noMeta_get h _) (.inr rfl)
  | none =>
    cases n with
    | zero => rfl
    | succ n =>
      rw [load_from (fun _ => rfl) (by rintro (⟨_, h⟩ | h) <;> cases h),
        load_from (fun _ => rfl) (by rintro (⟨_, h⟩ | h) <;> cases h)]
      unfold loadFrom
      split
      · rfl
      · simp only [noMeta_get h, liftS_of_ok, pure_bind']
        have hd : ∀ b, determinePrecedence none none (some (.cls v.cls)) b = some (.cls v.cls) := by
          intro b; cases b <;> rfl
        simp only [Option.map_none, hd]
        cases hk : kw.metaHints <;> simp [kwOf, hk]

/-- The '-meta' of the value, if there is one, has the form that `dump` gives it, and
names a known class. -/
def MetaOk (E : LEnv) (fork : Nat) (v : Val) : Prop :=
  ∀ es m, v = .dict es → dictGet es (.str metaKey) = some m → ∃ ms cs name t, m = .dict ms ∧
    dictGet ms (.str "classes".toList) = some (.dict cs) ∧
    dictGet cs (.str "/".toList) = some (.str name) ∧ E.clsFromStr fork name = .ok t

theorem metaOk_get {v : Val} {fork : Nat} (h : MetaOk E fork v) :
    ∃ m, getClsAndMeta E v fork = .ok m := by
  unfold getClsAndMeta
  cases v with
  | dict es =>
    simp only
    cases hg : dictGet es (.str metaKey) with
    | none => exact ⟨none, rfl⟩
    | some m =>
      obtain ⟨ms, cs, name, t, rfl, h1, h2, h3⟩ := h es m rfl hg
      refine ⟨some (t, cs), ?_⟩
      simp only [subscript, h1]
      show (do let name ← (match dictGet cs (.str "/".toList) with
          | some w => Except.ok w | none => Except.error ErrKind.keyError); _) = _
      rw [h2]
      show (do let t ← E.clsFromStr fork name; _) = _
      rw [h3]
      rfl
  | _ => exact ⟨none, rfl⟩

theorem noMeta_metaOk {v : Val} {fork : Nat} (h : NoMeta v) : MetaOk E fork v := by
  intro es m h1 h2
  rw [h es h1] at h2
  cases h2

/-- The lookup of deserializers and validators never fails (it cannot, with the
registries that `set_deserializer` and `set_validator` make). -/
def LookupsOk (E : LEnv) (fork : Nat) : Prop :=
  (∀ t, ∃ o, E.getDes fork t = .ok o) ∧ ∀ t, ∃ o, E.getVal fork t = .ok o

theorem lookupsOk_of_default {fork : Nat} (h1 : DefaultDesers E fork) (h2 : NoValidators E fork) :
    LookupsOk E fork := ⟨fun t => ⟨_, h1 t⟩, fun t => ⟨_, h2 t⟩⟩

theorem validate_err {v : Val} {t : Ty} {fork : Nat} {e : Err} (hl : LookupsOk E fork)
    (h : (validate E v t fork).val = .error e) : e.kind = .validationError := by
  obtain ⟨o, ho⟩ := hl.2 t
  unfold validate at h
  rw [ho, liftK_of_ok, pure_bind'] at h
  cases o with
  | none => cases h
  | some f =>
    simp only at h
    split at h
    · cases h
    · simp only [raise_val, Except.error.injEq] at h; subst h; rfl
    · simp only [raise_val, Except.error.injEq] at h; subst h; rfl

/-- If `None` can be refused properly and the '-meta' is well-formed, all exceptions of
`load` are exceptions of jsons. -/
theorem load_err_kind {n : Nat} {v : Val} {cls : Option Ty} {kw : LoadKw} {e : Err}
    (hl : LookupsOk E kw.fork) (hm : MetaOk E kw.fork v)
    (hn : v = .none → ∃ b, canMatchWithNone E cls = .ok b)
    (h : (load E (n + 1) v cls kw).val = .error e) : e.kind.isJsonsError = true := by
  rw [load_succ] at h
  unfold loadWith at h
  rw [bind_err] at h
  rcases h with h | ⟨_, _, h⟩
  · unfold checkForNone at h
    split at h
    · next hv =>
      obtain ⟨b, hb⟩ := hn hv
      rw [hb, liftK_of_ok, pure_bind'] at h
      cases b
      · simp only [Bool.false_eq_true, if_false, raise_val, Except.error.injEq] at h; subst h; rfl
      · cases h
    · cases h
  · split at h
    · rw [bind_err] at h
      rcases h with h | ⟨_, _, h⟩
      · rw [validate_err hl h]; rfl
      · cases h
    · unfold loadFrom at h
      split at h
      · simp only [raise_val, Except.error.injEq] at h; subst h; rfl
      · obtain ⟨m, hm⟩ := metaOk_get hm
        rw [hm, liftS_of_ok, pure_bind'] at h
        simp only at h
        obtain ⟨o, ho⟩ := hl.1 ((determinePrecedence cls (m.map (·.1)) (some (.cls v.cls))
          kw.inferred).getD (.cls v.cls))
        rw [ho, liftK_of_ok, pure_bind'] at h
        exact doLoad_err h

end Verif.Core
