import Verif.Props.Quiet
import Verif.Core.LoadLemmas
import Verif.Core.LoadDemo
import Verif.Props.LoadObject
import Verif.Props.RoundTrip

/-! # How often the parts of a document are loaded (C102) -/

set_option autoImplicit false

namespace Verif.Props.Calls

open Verif Verif.Core Verif.Datetime Verif.Props.Quiet

/-! ## Calls that leave a mark -/

/-- The mark that a call of `load` leaves; `load` itself makes no announcements. -/
def mark : Event := .announce .any 0

/-- The calls of `load` that are possible with a stack for `n` nested calls,
`/repo/jsons/_load_impl.py` lines 76-101, where every call first leaves a mark. -/
def loadMarked (E : LEnv) : Nat → LRec
  | 0 => fun _ _ _ => Res.raise { kind := .recursionError }
  | n + 1 => fun v cls kw => do
    Res.emit mark
    loadWith E (loadMarked E n) v cls kw

/-- Whether something is a warning, and not a mark. -/
def isWarning : Event → Bool
  | .warn _ _ => true
  | .announce _ _ => false

/-- How many calls of `load` there were. -/
def calls {α : Type} (x : Res α) : Nat := x.log.countP fun ev => !isWarning ev

/-- The marks change nothing: calls return and raise what they do without them, with the same
warnings. -/
theorem loadMarked_q {E : LEnv} (hc : DesersDeaf E isWarning isWarning) :
    ∀ n, LAgree isWarning isWarning (loadRec E n) (loadMarked E n) := by
  have hs : Settings E.warns E.warns isWarning isWarning := settings_keep fun _ _ _ h => absurd rfl h
  intro n
  induction n with
  | zero => exact fun _ _ _ => .raise _
  | succ n ih =>
    intro v cls kw
    have hb : Q isWarning isWarning (loadWith E (loadRec E n) v cls kw) (loadWith E (loadMarked E n) v cls kw) := by
      unfold loadWith
      refine .bind ?_ fun _ => .ite (.bind (validate_q (w := E.warns) _ _ _) fun _ => .pure _) ?_
      · unfold checkForNone
        exact .ite (.bind (.liftK _) fun _ => .ite (.pure _) (.raise _)) (.pure _)
      · unfold loadFrom
        refine .ite (.raise _) (.bind (.liftS _ _) fun m => ?_)
        dsimp only
        refine .bind (.liftK _) fun fn => ?_
        unfold doLoad
        cases fn with
        | none => exact .raise _
        | some g =>
          dsimp only
          refine .bind (Q.attempt (.bind (callDes_q hs hc ih _ _ _ _) fun _ =>
            .bind (validate_q (w := E.warns) _ _ _) fun _ => .pure _)) fun r => ?_
          cases r with
          | ok r => exact .pure _
          | error e => exact .ite (.raise _) (.raise _)
    constructor
    · show (Res.emit mark >>= fun _ => loadWith E (loadMarked E n) v cls kw).val = _
      rw [bind_val]
      exact hb.1
    · show (Res.emit mark >>= fun _ => loadWith E (loadMarked E n) v cls kw).log.filter isWarning = _
      rw [bind_log]
      exact hb.2

/-! ## Unions of classes: twice as many calls with every level -/

/-- The type `Union[Left, Right, int]` of the two classes below. -/
def eitherTy : Ty := .union [.cls (.user 0), .cls (.user 1), .cls .int]

/-- Two classes, `Left(child: Union[Left, Right, int], a: int)` and
`Right(child: Union[Left, Right, int], b: int)`. -/
def twinInfo : Nat → ClassInfo
  | 0 => { attrs := mainAttrs "Left"
           hints := [("child".toList, eitherTy), ("a".toList, .cls .int)]
           initHints := [("child".toList, eitherTy), ("a".toList, .cls .int)]
           params := [{ name := "child".toList }, { name := "a".toList }] }
  | 1 => { attrs := mainAttrs "Right"
           hints := [("child".toList, eitherTy), ("b".toList, .cls .int)]
           initHints := [("child".toList, eitherTy), ("b".toList, .cls .int)]
           params := [{ name := "child".toList }, { name := "b".toList }] }
  | _ => { attrs := mainAttrs "Other" }

/-- `{'child': {'child': ... 0, 'b': 1}, 'b': 1}`, `n` levels deep -/
def chainDoc : Nat → Val
  | 0 => .int 0
  | n + 1 => .dict [(.str "child".toList, chainDoc n), (.str "b".toList, .int 1)]

/-- `Right(Right(... 0, 1), 1)`, `n` levels deep -/
def chainObj : Nat → Val
  | 0 => .int 0
  | n + 1 => .obj 1 [("child".toList, chainObj n), ("b".toList, .int 1)]

/-- The keyword arguments of the calls. -/
def innerKw : LoadKw := { metaHints := some [] }

theorem with_via {E : LEnv} {rec : LRec} {v : Val} {t : Ty} {kw : LoadKw} {f : DesFn}
    {m : Option (Ty × List (Val × Val))} (h0 : NoneOk E v (some t)) (hs : ¬ Skips v (some t) kw)
    (h1 : v.cls ∈ validTypes) (h2 : getClsAndMeta E v kw.fork = .ok m)
    (hi : kw.inferred = false ∨ m = none) (h3 : DefaultDesers E kw.fork)
    (hf : t.desFn E.info = some f) (hv : E.getVal kw.fork t = .ok none) :
    loadWith E rec v (some t) kw =
      ⟨(callDes E rec f v t (kwOf kw m)).log, wrapRes v t (callDes E rec f v t (kwOf kw m)).val⟩ := by
  unfold loadWith
  rw [checkForNone_ok h0, pure_bind']
  refine (if_neg hs).trans ?_
  rw [loadFrom_eq h1 h2 h3, target_explicit hi, calleeKw_explicit hi, hf]
  have hv' : E.getVal (kwOf kw m).fork t = .ok none := hv
  refine Core.res_ext (doLoad_noval_log hv') ((doLoad_noval hv').trans ?_)
  show _ = wrapRes v t (callDes E rec f v t (kwOf kw m)).val
  cases (callDes E rec f v t (kwOf kw m)).val <;> rfl

theorem twin_names : NamesOk twinInfo desNames := by
  intro c
  match c with
  | 0 | 1 => decide
  | n + 2 =>
    have : (twinInfo (n + 2)).attrs = mainAttrs "Other" := rfl
    rw [this]
    decide

theorem twin_desers (fork : Nat) : DefaultDesers (demoLEnv twinInfo) fork :=
  fun t => getLizer_desFn twinInfo twin_names t

theorem twin_novals (fork : Nat) : NoValidators (demoLEnv twinInfo) fork :=
  fun t => getLizer_empty twinInfo t

/-- One level of the document. -/
def level (x : Val) : Val := .dict [(.str "child".toList, x), (.str "b".toList, .int 1)]

theorem child_step (rec : LRec) (x y : Val) (l : List Event) (c : Nat)
    (hc : assoc (twinInfo c).initHints "child".toList = some eitherTy)
    (h : rec x (some eitherTy) innerKw = ⟨l, .ok y⟩) :
    valueForAttr (demoLEnv twinInfo) rec (level x) c innerKw { name := "child".toList } = ⟨l, .ok (some y)⟩ := by
  unfold valueForAttr
  have hk : keyIn (level x) "child".toList = .ok true := rfl
  have hm : metaFor (demoLEnv twinInfo) innerKw "child".toList = .ok (none, []) := rfl
  have hsub : subscript (level x) "child".toList = .ok x := rfl
  have hi : (demoLEnv twinInfo).info c = twinInfo c := rfl
  dsimp only
  rw [hi, hc, hk, liftK_of_ok, pure_bind', if_pos rfl]
  unfold valueFromObj
  rw [hm, liftS_of_ok, pure_bind']
  dsimp only
  rw [hsub, liftK_of_ok, pure_bind']
  change ((rec x (some eitherTy) innerKw) >>= _) = _
  rw [h]
  exact Core.res_ext (by simp [bind_log]) (by simp [bind_val])

theorem b_step (rec : LRec) (x : Val) (l : List Event)
    (h : rec (.int 1) (some (.cls .int)) innerKw = ⟨l, .ok (.int 1)⟩) :
    valueForAttr (demoLEnv twinInfo) rec (level x) 1 innerKw { name := "b".toList } = ⟨l, .ok (some (.int 1))⟩ := by
  unfold valueForAttr
  have hk : keyIn (level x) "b".toList = .ok true := rfl
  have hm : metaFor (demoLEnv twinInfo) innerKw "b".toList = .ok (none, []) := rfl
  have hsub : subscript (level x) "b".toList = .ok (.int 1) := rfl
  have hi : assoc ((demoLEnv twinInfo).info 1).initHints "b".toList = some (.cls .int) := rfl
  dsimp only
  rw [hi, hk, liftK_of_ok, pure_bind', if_pos rfl]
  unfold valueFromObj
  rw [hm, liftS_of_ok, pure_bind']
  dsimp only
  rw [hsub, liftK_of_ok, pure_bind']
  change ((rec (.int 1) (some (.cls .int)) innerKw) >>= _) = _
  rw [h]
  exact Core.res_ext (by simp [bind_log]) (by simp [bind_val])

theorem level_via (rec : LRec) (x : Val) (c : Nat) (hc : (twinInfo c).kind = .plain) :
    loadWith (demoLEnv twinInfo) rec (level x) (some (.cls (.user c))) innerKw =
      ⟨(objectDes (demoLEnv twinInfo) rec (level x) (.cls (.user c)) innerKw).log,
       wrapRes (level x) (.cls (.user c)) (objectDes (demoLEnv twinInfo) rec (level x) (.cls (.user c)) innerKw).val⟩ :=
  with_via (E := demoLEnv twinInfo) (rec := rec) (v := level x) (t := .cls (.user c)) (kw := innerKw) (f := .object)
    (m := none) (fun h => by cases h) (by unfold Skips; simp [level, Val.cls]) (by simp [level, Val.cls, validTypes])
    rfl (.inl rfl) (twin_desers _) (by show some (Cls.desFn twinInfo _) = _; simp [Cls.desFn, hc]) (twin_novals _ _)

/-- Such a dict is loaded as a `Left`: its child is loaded, and then `a` is missing. -/
theorem left_step (rec : LRec) (x y : Val) (l : List Event) (h : rec x (some eitherTy) innerKw = ⟨l, .ok y⟩) :
    ∃ e, e.kind.isJsonsError = true ∧
      loadWith (demoLEnv twinInfo) rec (level x) (some (.cls (.user 0))) innerKw = ⟨l, .error e⟩ := by
  rw [level_via rec x 0 rfl]
  have ha : valueForAttr (demoLEnv twinInfo) rec (level x) 0 innerKw { name := "a".toList } =
      ⟨[], .error { kind := .unfulfilledArgument, source := some (level x),
                    target := some (.cls (.user 0)), argument := some "a".toList }⟩ := by rfl
  have hc : ctorArgs (demoLEnv twinInfo) rec (level x) 0 innerKw [{ name := "child".toList }, { name := "a".toList }] =
      ⟨l, .error { kind := .unfulfilledArgument, source := some (level x),
                   target := some (.cls (.user 0)), argument := some "a".toList }⟩ := by
    unfold ctorArgs
    rw [child_step rec x y l 0 rfl h]
    unfold ctorArgs
    rw [ha]
    exact Core.res_ext (by simp [bind_log, bind_val]) (by simp [bind_val])
  have ho : objectDes (demoLEnv twinInfo) rec (level x) (.cls (.user 0)) innerKw = ⟨l, .error
      { kind := .unfulfilledArgument, source := some (level x),
        target := some (.cls (.user 0)), argument := some "a".toList }⟩ := by
    show (Res.lift (.ok (level x)) >>= fun obj => ctorArgs (demoLEnv twinInfo) rec obj 0 innerKw
      [{ name := "child".toList }, { name := "a".toList }] >>= _) = _
    show (pure (level x) >>= fun obj => ctorArgs (demoLEnv twinInfo) rec obj 0 innerKw
      [{ name := "child".toList }, { name := "a".toList }] >>= _) = _
    rw [pure_bind', hc]
    rfl
  rw [ho]
  exact ⟨_, by rfl, rfl⟩

/-- Such a dict is loaded as a `Right`: its child is loaded once more, and the rest works. -/
theorem right_step (rec : LRec) (x y : Val) (l l' : List Event) (h : rec x (some eitherTy) innerKw = ⟨l, .ok y⟩)
    (h' : rec (.int 1) (some (.cls .int)) innerKw = ⟨l', .ok (.int 1)⟩) :
    loadWith (demoLEnv twinInfo) rec (level x)
      (some (.cls (.user 1))) innerKw = ⟨l ++ l', .ok (.obj 1 [("child".toList, y), ("b".toList, .int 1)])⟩ := by
  rw [level_via rec x 1 rfl]
  have hc : ctorArgs (demoLEnv twinInfo) rec (level x) 1 innerKw [{ name := "child".toList }, { name := "b".toList }] =
      ⟨l ++ l', .ok [("child".toList, y), ("b".toList, .int 1)]⟩ := by
    unfold ctorArgs
    rw [child_step rec x y l 1 rfl h]
    unfold ctorArgs
    rw [b_step rec x l' h']
    exact Core.res_ext (by simp [bind_log, bind_val, ctorArgs]) (by simp [bind_val, ctorArgs])
  have ho : objectDes (demoLEnv twinInfo) rec (level x) (.cls (.user 1)) innerKw =
      ⟨l ++ l' ++ [], .ok (.obj 1 [("child".toList, y), ("b".toList, .int 1)])⟩ := by
    show (pure (level x) >>= fun obj => ctorArgs (demoLEnv twinInfo) rec obj 1 innerKw
      [{ name := "child".toList }, { name := "b".toList }] >>= _) = _
    rw [pure_bind', hc]
    rfl
  rw [ho, List.append_nil]
  rfl

theorem either_zero (m : Nat) (kw : LoadKw) (hk : kw = innerKw ∨ kw = {}) :
    loadMarked (demoLEnv twinInfo) (m + 2) (.int 0) (some eitherTy) kw
      = ⟨[mark, mark, mark, mark], .ok (.int 0)⟩ := by
  rcases hk with rfl | rfl <;> rfl

theorem either_step (m : Nat) (x y : Val) (l : List Event) (kw : LoadKw) (hk : kw = innerKw ∨ kw = {})
    (h : loadMarked (demoLEnv twinInfo) (m + 1) x (some eitherTy) innerKw = ⟨l, .ok y⟩) :
    loadMarked (demoLEnv twinInfo) (m + 3) (level x) (some eitherTy) kw =
      ⟨mark :: (mark :: l ++ (mark :: (l ++ [mark]))), .ok (.obj 1 [("child".toList, y), ("b".toList, .int 1)])⟩ := by
  obtain ⟨e, he, hl⟩ := left_step _ x y l h
  have hr := right_step (loadMarked (demoLEnv twinInfo) (m + 1)) x y l [mark] h (by rfl)
  have h1 : loadMarked (demoLEnv twinInfo) (m + 2) (level x) (some (.cls (.user 0))) innerKw = ⟨mark :: l, .error e⟩ := by
    show (Res.emit mark >>= fun _ => loadWith (demoLEnv twinInfo) (loadMarked (demoLEnv twinInfo) (m + 1)) (level x)
      (some (.cls (.user 0))) innerKw) = _
    rw [hl]; rfl
  have h2 : loadMarked (demoLEnv twinInfo) (m + 2) (level x) (some (.cls (.user 1))) innerKw =
      ⟨mark :: (l ++ [mark]), .ok (.obj 1 [("child".toList, y), ("b".toList, .int 1)])⟩ := by
    show (Res.emit mark >>= fun _ => loadWith (demoLEnv twinInfo) (loadMarked (demoLEnv twinInfo) (m + 1)) (level x)
      (some (.cls (.user 1))) innerKw) = _
    rw [hr]; rfl
  have hkw : kwOf kw none = innerKw ∧ kw.inferred = false := by rcases hk with rfl | rfl <;> exact ⟨rfl, rfl⟩
  show (Res.emit mark >>= fun _ => loadWith (demoLEnv twinInfo) (loadMarked (demoLEnv twinInfo) (m + 2)) (level x)
      (some eitherTy) kw) = _
  rw [with_via (E := demoLEnv twinInfo) (rec := loadMarked (demoLEnv twinInfo) (m + 2)) (v := level x) (t := eitherTy)
    (kw := kw) (f := .union) (m := none) (fun h => by cases h) (by unfold Skips; simp [eitherTy])
    (by simp [level, Val.cls, validTypes]) rfl (.inl hkw.2) (twin_desers _) rfl (twin_novals _ _), hkw.1]
  have hu : callDes (demoLEnv twinInfo) (loadMarked (demoLEnv twinInfo) (m + 2)) .union (level x) eitherTy innerKw =
      ⟨mark :: l ++ (mark :: (l ++ [mark])), .ok (.obj 1 [("child".toList, y), ("b".toList, .int 1)])⟩ := by
    show unionLoadLoop (loadMarked (demoLEnv twinInfo) (m + 2)) (level x) eitherTy innerKw
      [.cls (.user 0), .cls (.user 1), .cls .int] = _
    unfold unionLoadLoop
    rw [h1]
    unfold unionLoadLoop
    rw [h2]
    exact Core.res_ext (by simp [bind_log, he]) (by simp [bind_val, he])
  rw [hu]
  exact Core.res_ext (by simp [bind_log]) (by simp [bind_val, wrapRes])

theorem either_calls (n : Nat) : ∀ (m : Nat) (kw : LoadKw), 2 * n + 2 ≤ m → kw = innerKw ∨ kw = {} →
    ∃ l, loadMarked (demoLEnv twinInfo) m (chainDoc n) (some eitherTy) kw = ⟨l, .ok (chainObj n)⟩ ∧
      2 ^ n ≤ l.countP fun ev => !isWarning ev := by
  induction n with
  | zero =>
    intro m kw hm hk
    obtain ⟨m, rfl⟩ : ∃ k, m = k + 2 := ⟨m - 2, by omega⟩
    exact ⟨_, either_zero m kw hk, by decide⟩
  | succ n ih =>
    intro m kw hm hk
    obtain ⟨m, rfl⟩ : ∃ k, m = k + 3 := ⟨m - 3, by omega⟩
    obtain ⟨l, hl, hc⟩ := ih (m + 1) innerKw (by omega) (.inl rfl)
    refine ⟨_, either_step m _ _ l kw hk hl, ?_⟩
    simp only [List.countP_cons, List.countP_append, List.cons_append]
    omega

end Verif.Props.Calls
