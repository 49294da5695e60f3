import Verif.Props.DumpCalls

/-! # Sizes of values, and the cost of unions in strict mode (C103) -/

set_option autoImplicit false

namespace Verif.Props.DumpCalls

open Verif Verif.Core Verif.Datetime Verif.Props.Quiet
open Verif.Props.Calls (treeInfo twinInfo twin_names eitherTy chainDoc chainObj)

/-! ## The number of parts -/

mutual
/-- The number of the parts of a value, where the characters of a text count `D` times and a time
zone counts twice. -/
def parts (D : Nat) : Val → Nat
  | .atom (.str s) => 1 + s.length * D
  | .atom (.timezone _ _) => 2
  | .atom _ => 1
  | .seq _ xs => 1 + partsList D xs
  | .dict es => 1 + partsEntries D es
  | .ddict _ es => 1 + partsEntries D es
  | .ntuple _ xs => 1 + partsList D xs
  | .enum _ _ => 1
  | .obj _ as => 1 + partsAttrs D as
/-- The number of the parts of elements. -/
def partsList (D : Nat) : List Val → Nat
  | [] => 0
  | x :: xs => parts D x + partsList D xs
/-- The number of the parts of entries. -/
def partsEntries (D : Nat) : List (Val × Val) → Nat
  | [] => 0
  | (k, v) :: es => parts D k + parts D v + partsEntries D es
/-- The number of the parts of attributes. -/
def partsAttrs (D : Nat) : List (PyStr × Val) → Nat
  | [] => 0
  | (_, v) :: as => parts D v + partsAttrs D as
end

theorem partsList_eq (D : Nat) (xs : List Val) : partsList D xs = (xs.map (parts D)).sum := by
  induction xs with
  | nil => rfl
  | cons x xs ih => simp only [partsList, List.map_cons, List.sum_cons, ih]

theorem partsEntries_eq (D : Nat) (es : List (Val × Val)) :
    partsEntries D es = (es.map fun e => parts D e.1 + parts D e.2).sum := by
  induction es with
  | nil => rfl
  | cons e es ih =>
    obtain ⟨k, v⟩ := e
    simp only [partsEntries, List.map_cons, List.sum_cons, ih]

/-- The attributes with some names are not larger than all attributes together. -/
theorem partsAttrs_names (D : Nat) : ∀ (as : List (PyStr × Val)) (ns : List PyStr), ns.Nodup →
    (ns.map fun n => ((assoc as n).map (parts D)).getD 0).sum ≤ partsAttrs D as
  | [], ns, _ => by
    have : ∀ l : List PyStr, (l.map fun n => ((assoc ([] : List (PyStr × Val)) n).map (parts D)).getD 0).sum = 0 := by
      intro l
      induction l with
      | nil => rfl
      | cons n l ih => rw [List.map_cons, List.sum_cons, ih]; rfl
    exact Nat.le_of_eq (this ns)
  | (k, x) :: as, ns, hn => by
    have other : ∀ l : List PyStr, k ∉ l →
        (l.map fun n => ((assoc ((k, x) :: as) n).map (parts D)).getD 0) =
          l.map fun n => ((assoc as n).map (parts D)).getD 0 := by
      intro l hl
      refine List.map_congr_left fun n hmem => ?_
      have : k ≠ n := fun e => hl (e ▸ hmem)
      simp only [assoc, if_neg this]
    simp only [partsAttrs]
    by_cases hk : k ∈ ns
    · have hp := List.perm_cons_erase hk
      have hn' : (k :: ns.erase k).Nodup := hp.nodup_iff.1 hn
      rw [(hp.map fun n => ((assoc ((k, x) :: as) n).map (parts D)).getD 0).sum_eq, List.map_cons, List.sum_cons,
        other _ (List.nodup_cons.1 hn').1]
      refine Nat.add_le_add ?_ (partsAttrs_names D as _ (List.nodup_cons.1 hn').2)
      simp [assoc]
    · rw [other ns hk]
      exact Nat.le_trans (partsAttrs_names D as ns hn) (Nat.le_add_left _ _)

/-- The number of parts is a size in the sense of the theorem if classes have no properties and no
class variables, and values that are not objects of the program have none of the attributes that are
asked for. -/
theorem parts_size (E : Env) (D : Nat) (hmem : ∀ c, ∀ p ∈ (E.info c).members, p.2 ≠ .prop ∧ ∀ a, p.2 ≠ .var a)
    (ho : ∀ v n a, E.attrOther v n ≠ .ok a) : Size E D (parts D) where
  pos v := by
    cases v with
    | atom a => cases a <;> simp only [parts] <;> omega
    | _ => simp only [parts]; omega
  text s := by simp only [parts]; omega
  zone us n := by simp only [parts]; omega
  seq k xs := by simp only [parts, partsList_eq]; omega
  ntuple c xs := by simp only [parts, partsList_eq]; omega
  dict es := by simp only [parts, partsEntries_eq]; omega
  ddict f es := by simp only [parts, partsEntries_eq]; omega
  attrs v ns hn _ := by
    have zero : ∀ w, (∀ n, attrSize E (parts D) w n = 0) → ∀ l : List PyStr, (l.map (attrSize E (parts D) w)).sum = 0 := by
      intro w hw l
      induction l with
      | nil => rfl
      | cons n l ih => rw [List.map_cons, List.sum_cons, ih, hw]
    have foreign : ∀ w, (∀ c as, w ≠ .obj c as) → ∀ n, attrSize E (parts D) w n = 0 := by
      intro w hw n
      unfold attrSize
      split
      · next a ha =>
        cases w with
        | obj c as => exact absurd rfl (hw c as)
        | _ => exact absurd ha (ho _ _ _)
      · rfl
    cases v with
    | obj c as =>
      have hsize : ∀ n, attrSize E (parts D) (.obj c as) n ≤ ((assoc as n).map (parts D)).getD 0 := by
        intro n
        unfold attrSize
        split
        · next a ha =>
          unfold Env.getAttr at ha
          dsimp only at ha
          split at ha
          · next hm => exact absurd rfl (hmem c _ (Calls.assoc_mem hm)).1
          · split at ha
            · next x hx => cases ha; rw [hx]; exact Nat.le_refl _
            · split at ha
              · next y hm => exact absurd rfl ((hmem c _ (Calls.assoc_mem hm)).2 y)
              · cases ha
        · exact Nat.zero_le _
      have h1 := sum_le ns fun n _ => hsize n
      have h2 := partsAttrs_names D as ns hn
      simp only [parts]
      omega
    | atom a =>
      rw [zero _ (foreign _ fun _ _ h => by cases h)]
      cases a <;> simp only [parts] <;> omega
    | seq k xs => rw [zero _ (foreign _ fun _ _ h => by cases h)]; simp only [parts]; omega
    | dict es => rw [zero _ (foreign _ fun _ _ h => by cases h)]; simp only [parts]; omega
    | ddict f es => rw [zero _ (foreign _ fun _ _ h => by cases h)]; simp only [parts]; omega
    | ntuple c xs => rw [zero _ (foreign _ fun _ _ h => by cases h)]; simp only [parts]; omega
    | enum c n => rw [zero _ (foreign _ fun _ _ h => by cases h)]; simp only [parts]; omega

/-- C103 for programs without properties and class variables, in terms of the number of parts. -/
theorem dump_calls_parts (E : Env) (M D F n : Nat) (hp : Program E M D F)
    (hmem : ∀ c, ∀ p ∈ (E.info c).members, p.2 ≠ .prop ∧ ∀ a, p.2 ≠ .var a)
    (ho : ∀ v n a, E.attrOther v n ≠ .ok a) (v : Val) (cls : Option Ty)
    (hc : ∀ t, cls = some t → Lin E.info M 1 D t) (kw : DumpKw) (hk : KwOk E M D kw) :
    calls (dumpMarked E n v cls kw) ≤ (M + 1 + 2 * F) * parts D v :=
  dump_calls_linear E M D F n _ (parts_size E D hmem ho) hp v cls hc kw hk

/-! ## Unions of classes in strict mode: twice as many calls with every level -/

theorem twin_sernames : NamesOk twinInfo serNames := by
  intro c
  match c with
  | 0 | 1 => decide
  | n + 2 =>
    have : (twinInfo (n + 2)).attrs = mainAttrs "Other" := rfl
    rw [this]
    decide

theorem twin_sers (fork : Nat) : DefaultSers (demoEnv twinInfo) fork :=
  fun t => getLizer_serFn twinInfo twin_sernames t

/-- The keyword arguments of the inner calls: `strict=True`, and an empty `strip_attr`. -/
def innerKw : DumpKw := { strict := true, stripAttr := .tuple [] }

/-- One level of the object, `Right(x, 1)`. -/
def level (x : Val) : Val := .obj 1 [("child".toList, x), ("b".toList, .int 1)]

/-- One level of its dump. -/
def levelDoc (y : Val) : Val := .dict [(.str "child".toList, y), (.str "b".toList, .int 1)]

theorem lift_then {α β : Type} (a : α) (f : α → Res β) : (Res.lift (.ok a) >>= f) = f a := pure_bind' a f

theorem liftK_then {α β : Type} (a : α) (f : α → Res β) : (Res.liftK (.ok a) >>= f) = f a := pure_bind' a f

theorem emit_then {β : Type} (e : Event) (f : Unit → Res β) :
    (Res.emit e >>= f) = ⟨e :: (f ()).log, (f ()).val⟩ := rfl

theorem attempt_then {α β : Type} {x : Res α} {l : List Event} {r : Except Err α} (h : x = ⟨l, r⟩)
    (f : Except Err α → Res β) : (x.attempt >>= f) = ⟨l ++ (f r).log, (f r).val⟩ := by
  subst h
  rfl

/-- An attribute whose dump succeeds. -/
theorem attr_step (rec : Rec) (v a d : Val) (cn k : PyStr) (t : Ty) (f : SerFn) (l : List Event)
    (rest : List (PyStr × Option Ty)) (acc acc' : List (Val × Val))
    (ha : (demoEnv twinInfo).getAttr v k = .ok a) (hs : t.serFn twinInfo = some f)
    (h : rec.call f a (some t) innerKw = ⟨l, .ok d⟩) (hn : addDumped innerKw acc (.str k) d = .ok acc') :
    attrLoop (demoEnv twinInfo) rec innerKw false v cn ((k, some t) :: rest) acc =
      ⟨.announce t 0 :: (l ++ (attrLoop (demoEnv twinInfo) rec innerKw false v cn rest acc').log),
        (attrLoop (demoEnv twinInfo) rec innerKw false v cn rest acc').val⟩ := by
  have hg : (demoEnv twinInfo).getSer innerKw.fork t = .ok (some f) := (twin_sers _ t).trans (by rw [show (demoEnv twinInfo).info = twinInfo from rfl, hs])
  have hd : dumpAttr (demoEnv twinInfo) rec innerKw (some f) a (some t) = ⟨l, .ok d⟩ := by
    unfold dumpAttr
    dsimp only
    rw [h]
    exact Core.res_ext (by simp [bind_log, innerKw]) (by cases d <;> simp [bind_val, innerKw, storeClsInfo])
  conv => lhs; unfold attrLoop
  dsimp only
  rw [ha, lift_then, emit_then, Option.getD_some, hg, liftK_then, attempt_then hd]
  simp only [Bool.false_eq_true, if_false, hn, lift_then]
  rfl

/-- It is dumped as a `Left`: its child is dumped, and then there is no `a`. -/
theorem left_step (rec : Rec) (x y : Val) (l : List Event) (kw : DumpKw) (hk : kw = innerKw ∨ kw = { strict := true })
    (h : rec.call .union x (some eitherTy) innerKw = ⟨l, .ok y⟩) :
    objectSer (demoEnv twinInfo) rec (level x) (some (.cls (.user 0))) kw =
      ⟨.announce eitherTy 0 :: l, .error { kind := .attributeError }⟩ := by
  have hloop : attrLoop (demoEnv twinInfo) rec innerKw false (level x) "Left".toList
      [("child".toList, some eitherTy), ("a".toList, some (.cls .int))] [] =
      ⟨.announce eitherTy 0 :: l, .error { kind := .attributeError }⟩ := by
    rw [attr_step rec (level x) x y _ _ eitherTy .union l _ [] [(.str "child".toList, y)] rfl rfl h rfl]
    unfold attrLoop
    rw [show (demoEnv twinInfo).getAttr (level x) "a".toList = .error { kind := .attributeError } from rfl]
    exact Core.res_ext (by simp [bind_log, Res.lift, Res.raise]) rfl
  have ha : objectSer (demoEnv twinInfo) rec (level x) (some (.cls (.user 0))) kw =
      (attrLoop (demoEnv twinInfo) rec innerKw false (level x) "Left".toList
        [("child".toList, some eitherTy), ("a".toList, some (.cls .int))] [] >>= fun result => pure (.dict result)) := by
    rcases hk with rfl | rfl <;> exact lift_then _ _
  rw [ha, hloop]
  exact Core.res_ext (by simp [bind_log]) rfl

/-- It is dumped as a `Right`: its child is dumped again. -/
theorem right_step (rec : Rec) (x y : Val) (l l' : List Event) (kw : DumpKw) (hk : kw = innerKw ∨ kw = { strict := true })
    (h : rec.call .union x (some eitherTy) innerKw = ⟨l, .ok y⟩)
    (h' : rec.call .primitive (.int 1) (some (.cls .int)) innerKw = ⟨l', .ok (.int 1)⟩) :
    objectSer (demoEnv twinInfo) rec (level x) (some (.cls (.user 1))) kw =
      ⟨.announce eitherTy 0 :: (l ++ .announce (.cls .int) 0 :: l'), .ok (levelDoc y)⟩ := by
  have hloop : attrLoop (demoEnv twinInfo) rec innerKw false (level x) "Right".toList
      [("child".toList, some eitherTy), ("b".toList, some (.cls .int))] [] =
      ⟨.announce eitherTy 0 :: (l ++ .announce (.cls .int) 0 :: l'),
        .ok [(.str "child".toList, y), (.str "b".toList, .int 1)]⟩ := by
    rw [attr_step rec (level x) x y _ _ eitherTy .union l _ [] [(.str "child".toList, y)] rfl rfl h rfl,
      attr_step rec (level x) (.int 1) (.int 1) _ _ (.cls .int) .primitive l' _ [(.str "child".toList, y)]
        [(.str "child".toList, y), (.str "b".toList, .int 1)] rfl rfl h' rfl]
    exact Core.res_ext (by simp [attrLoop]) rfl
  have ha : objectSer (demoEnv twinInfo) rec (level x) (some (.cls (.user 1))) kw =
      (attrLoop (demoEnv twinInfo) rec innerKw false (level x) "Right".toList
        [("child".toList, some eitherTy), ("b".toList, some (.cls .int))] [] >>= fun result => pure (.dict result)) := by
    rcases hk with rfl | rfl <;> exact lift_then _ _
  rw [ha, hloop]
  exact Core.res_ext (by simp [bind_log]) rfl

/-- `dump` with a type whose serializer `f` succeeds. -/
theorem dump_step (rec : Rec) (v : Val) (t : Ty) (kw : DumpKw) (f : SerFn) (l : List Event) (r : Val)
    (hs : t.serFn twinInfo = some f) (h : rec.call f v (some t) kw = ⟨l, .ok r⟩) :
    dumpWith (demoEnv twinInfo) rec v (some t) kw = ⟨.announce t kw.fork :: l, .ok r⟩ := by
  have hg : (demoEnv twinInfo).getSer kw.fork t = .ok (some f) :=
    (twin_sers _ t).trans (by rw [show (demoEnv twinInfo).info = twinInfo from rfl, hs])
  unfold dumpWith
  dsimp only [Option.getD_some]
  rw [hg, liftK_then, emit_then]
  dsimp only
  rw [attempt_then h]
  exact Core.res_ext (by simp) rfl

/-- `dump` with a type whose serializer `f` fails. -/
theorem dump_step_err (rec : Rec) (v : Val) (t : Ty) (kw : DumpKw) (f : SerFn) (l : List Event) (e : Err)
    (hs : t.serFn twinInfo = some f) (h : rec.call f v (some t) kw = ⟨l, .error e⟩) :
    dumpWith (demoEnv twinInfo) rec v (some t) kw =
      ⟨.announce t kw.fork :: l, .error { kind := .serializationError, msg := e.msg }⟩ := by
  have hg : (demoEnv twinInfo).getSer kw.fork t = .ok (some f) :=
    (twin_sers _ t).trans (by rw [show (demoEnv twinInfo).info = twinInfo from rfl, hs])
  unfold dumpWith
  dsimp only [Option.getD_some]
  rw [hg, liftK_then, emit_then]
  dsimp only
  rw [attempt_then h]
  exact Core.res_ext (by simp [Res.raise]) rfl

/-- The call of the serializer of the union for one level costs more than two calls for the level
below. -/
theorem union_step (m : Nat) (x y : Val) (l : List Event) (kw : DumpKw) (hk : kw = innerKw ∨ kw = { strict := true })
    (h : (recMarked (demoEnv twinInfo) (m + 1)).call .union x (some eitherTy) innerKw = ⟨l, .ok y⟩) :
    ∃ l', (recMarked (demoEnv twinInfo) (m + 4)).call .union (level x) (some eitherTy) kw = ⟨l', .ok (levelDoc y)⟩ ∧
      2 * l.countP isMark ≤ l'.countP isMark := by
  have h1 := left_step (recMarked (demoEnv twinInfo) (m + 1)) x y l kw hk h
  have h2 := right_step (recMarked (demoEnv twinInfo) (m + 1)) x y l [mark] kw hk h (by rfl)
  have c1 : (recMarked (demoEnv twinInfo) (m + 2)).call .object (level x) (some (.cls (.user 0))) kw = _ :=
    (emit_then mark fun _ => objectSer (demoEnv twinInfo) (recMarked (demoEnv twinInfo) (m + 1)) (level x)
      (some (.cls (.user 0))) kw)
  have c2 : (recMarked (demoEnv twinInfo) (m + 2)).call .object (level x) (some (.cls (.user 1))) kw = _ :=
    (emit_then mark fun _ => objectSer (demoEnv twinInfo) (recMarked (demoEnv twinInfo) (m + 1)) (level x)
      (some (.cls (.user 1))) kw)
  rw [h1] at c1
  rw [h2] at c2
  have d1 := dump_step_err (recMarked (demoEnv twinInfo) (m + 2)) (level x) (.cls (.user 0)) kw .object _ _ rfl c1
  have d2 := dump_step (recMarked (demoEnv twinInfo) (m + 2)) (level x) (.cls (.user 1)) kw .object _ _ rfl c2
  have hu : unionSer (recMarked (demoEnv twinInfo) (m + 3)) (level x) (some eitherTy) kw =
      unionLoop (recMarked (demoEnv twinInfo) (m + 3)) (level x) kw [.cls (.user 0), .cls (.user 1), .cls .int] := by
    unfold unionSer
    exact if_neg fun h => by cases h.1
  refine ⟨mark :: ((.announce (.cls (.user 0)) kw.fork :: mark :: .announce eitherTy 0 :: l) ++
    ((.announce (.cls (.user 1)) kw.fork :: mark :: .announce eitherTy 0 :: (l ++ [.announce (.cls .int) 0, mark])) ++ [])),
    ?_, ?_⟩
  · show (Res.emit mark >>= fun _ => unionSer (recMarked (demoEnv twinInfo) (m + 3)) (level x) (some eitherTy) kw) = _
    rw [emit_then, hu]
    unfold unionLoop
    rw [attempt_then (x := (recMarked (demoEnv twinInfo) (m + 3)).dump (level x) (some (.cls (.user 0))) kw) d1]
    dsimp only
    rw [if_pos (by rfl)]
    unfold unionLoop
    rw [attempt_then (x := (recMarked (demoEnv twinInfo) (m + 3)).dump (level x) (some (.cls (.user 1))) kw) d2]
    rfl
  · have : ∀ (t : Ty), isMark (.announce t kw.fork) = false := fun _ => rfl
    have h0 : ∀ (t : Ty), isMark (.announce t 0) = false := fun _ => rfl
    have hm : isMark mark = true := rfl
    simp [List.countP_append, this, h0, hm]
    omega

/-- The serializer of the union is called for the whole object. -/
theorem chain_calls (n : Nat) : ∀ (m : Nat) (kw : DumpKw), kw = innerKw ∨ kw = { strict := true } → 3 * n + 3 ≤ m →
    ∃ l, (recMarked (demoEnv twinInfo) m).call .union (chainObj n) (some eitherTy) kw = ⟨l, .ok (chainDoc n)⟩ ∧
      2 ^ n ≤ l.countP isMark := by
  induction n with
  | zero =>
    intro m kw hk hm
    obtain ⟨m, rfl⟩ : ∃ m', m = m' + 3 := ⟨m - 3, by omega⟩
    refine ⟨[mark, .announce (.cls (.user 0)) 0, mark, .announce (.cls (.user 1)) 0, mark, .announce (.cls .int) 0, mark],
      ?_, by decide⟩
    rcases hk with rfl | rfl <;> rfl
  | succ n ih =>
    intro m kw hk hm
    obtain ⟨m, rfl⟩ : ∃ m', m = m' + 4 := ⟨m - 4, by omega⟩
    obtain ⟨l, h, hl⟩ := ih (m + 1) innerKw (.inl rfl) (by omega)
    obtain ⟨l', h', hl'⟩ := union_step m _ _ l kw hk h
    exact ⟨l', h', by rw [Nat.pow_succ]; omega⟩

theorem chain_parts (n : Nat) : parts 0 (chainObj n) = 2 * n + 1 := by
  induction n with
  | zero => rfl
  | succ n ih =>
    show 1 + (parts 0 (chainObj n) + (1 + 0)) = _
    omega

/-- The demonstration programs call no serializers of their own that could see the marks. -/
theorem demo_deaf {info : Nat → ClassInfo} {k k' : Event → Bool} : SersDeaf (demoEnv info) k k' := by
  intro id rec rec' h v cls kw
  exact ⟨rfl, rfl⟩

/-- C103, the negation for unions of several classes in strict mode: a chain of `n` objects of a class
`Right` is dumped as a `Union[Left, Right, int]`, and there are at least 2ⁿ calls of serializers: every
object is dumped as a `Left` first, which dumps its child and only then fails. -/
theorem dump_calls_exponential (n m : Nat) (hm : 3 * n + 4 ≤ m) :
    (dump (demoEnv twinInfo) m (chainObj n) (some eitherTy) { strict := true }).val = .ok (chainDoc n) ∧
      (dumpMarked (demoEnv twinInfo) m (chainObj n) (some eitherTy) { strict := true }).val = .ok (chainDoc n) ∧
      parts 0 (chainObj n) = 2 * n + 1 ∧
      2 ^ n ≤ calls (dumpMarked (demoEnv twinInfo) m (chainObj n) (some eitherTy) { strict := true }) := by
  obtain ⟨m, rfl⟩ : ∃ m', m = m' + 1 := ⟨m - 1, by omega⟩
  obtain ⟨l, h, hl⟩ := chain_calls n m { strict := true } (.inr rfl) (by omega)
  have hd : dumpMarked (demoEnv twinInfo) (m + 1) (chainObj n) (some eitherTy) { strict := true } = _ :=
    dump_step (recMarked (demoEnv twinInfo) m) (chainObj n) eitherTy { strict := true } .union l _ rfl h
  refine ⟨?_, by rw [hd], ?_, ?_⟩
  · rw [← (marks_change_nothing (demoEnv twinInfo) _ _ _ _ demo_deaf).1, hd]
  · exact chain_parts n
  · rw [hd]
    unfold calls
    exact Nat.le_trans hl (by rw [List.countP_cons]; exact Nat.le_add_right _ _)

/-! ## Concrete cases -/

theorem demo_foreign {info : Nat → ClassInfo} {v : Val} {t : Option Ty} {kw : DumpKw} {as : List (PyStr × Option Ty)}
    (h : (demoEnv info).foreignAttrs v t kw = .ok as) :
    as.length ≤ 0 ∧ ∀ p ∈ as, p.2 = none ∧ ∀ a, (demoEnv info).getAttr v p.1 = .ok a → ∃ x, a = .atom x := by
  cases h
  exact ⟨Nat.le_refl _, fun p hp => by cases hp⟩

theorem demo_other {info : Nat → ClassInfo} (v : Val) (n : PyStr) (a : Val) : (demoEnv info).attrOther v n ≠ .ok a :=
  fun h => by cases h

theorem tree_sernames : NamesOk treeInfo serNames := by
  intro c
  match c with
  | 0 => decide
  | n + 1 =>
    have : (treeInfo (n + 1)).attrs = mainAttrs "Other" := rfl
    rw [this]
    decide

/-- `Tree(value: Optional[int], children: List[Tree])` is such a program. -/
theorem tree_program : Program (demoEnv treeInfo) 3 2 0 := by
  have hint : Lin treeInfo 3 1 2 (.union [.cls .int, .cls .noneType]) :=
    .union 2 [] [.cls .noneType] (.cls .int)
      (fun a ha => by
        simp only [List.nil_append, List.mem_cons, List.not_mem_nil, or_false] at ha
        subst ha
        exact ⟨.primitive, rfl, by simp⟩)
      (.cls 1 _) (by simp)
  have hchildren : Lin treeInfo 3 1 2 (.gen .list [.cls (.user 0)]) :=
    .lower _ _ (.coll 1 .list _ (by simp) fun a ha => by
      simp only [List.mem_cons, List.not_mem_nil, or_false] at ha
      subst ha
      exact .lower _ _ (.cls 0 _))
  have hhints : ∀ c, ∀ p ∈ (treeInfo c).hints, Lin treeInfo 3 1 2 p.2 := by
    intro c p hp
    match c with
    | 0 =>
      have hp : p ∈ [("value".toList, Ty.union [.cls .int, .cls .noneType]),
        ("children".toList, .gen .list [.cls (.user 0)])] := hp
      simp only [List.mem_cons, List.not_mem_nil, or_false] at hp
      rcases hp with rfl | rfl
      · exact hint
      · exact hchildren
    | n + 1 => cases hp
  have hinit : ∀ c, (treeInfo c).initHints = (treeInfo c).hints := fun c => by
    match c with
    | 0 => rfl
    | n + 1 => rfl
  have hnames : ∀ c, ((treeInfo c).hints.map (·.1)).Nodup := fun c => by
    match c with
    | 0 => decide
    | n + 1 => exact List.nodup_nil
  refine ⟨fun fork t => getLizer_serFn treeInfo tree_sernames t, hhints, fun c p hp => hhints c p (hinit c ▸ hp),
    hnames, fun c => ?_, fun c l h => ?_, fun v => ?_, fun v t kw as h => demo_foreign h, fun s n a h => ?_, by decide⟩
  · exact (hinit c).symm ▸ hnames c
  · match c with
    | 0 => cases h
    | n + 1 => cases h
  · cases v <;> exact .lower _ _ (.cls 1 _)
  · cases h

theorem tree_members (c : Nat) : (treeInfo c).members = [] := by
  match c with
  | 0 => rfl
  | n + 1 => rfl

/-- `Tree(1, [Tree(None, []), Tree(2, [Tree(3, [])])])` -/
def treeObj : Val :=
  .obj 0 [("value".toList, .int 1), ("children".toList, .list [
    .obj 0 [("value".toList, .none), ("children".toList, .list [])],
    .obj 0 [("value".toList, .int 2), ("children".toList, .list [
      .obj 0 [("value".toList, .int 3), ("children".toList, .list [])]])]])]

example : calls (dumpMarked (demoEnv treeInfo) 20 treeObj (some (.cls (.user 0))) { strict := true }) ≤
    4 * parts 2 treeObj :=
  dump_calls_parts _ 3 2 0 20 tree_program (fun c p hp => by
      have hp : p ∈ (treeInfo c).members := hp
      rw [tree_members] at hp
      cases hp) demo_other
    treeObj _ (fun t ht => by cases ht; exact .lower _ _ (.cls 1 _)) _ fun p hp => by cases hp

example : parts 2 treeObj = 12 := by decide +kernel

example : calls (dumpMarked (demoEnv treeInfo) 20 treeObj (some (.cls (.user 0))) { strict := true }) = 15 := by
  decide +kernel

/-- A class without unions: `Folder(name: str, parts: List[Folder], meta: dict)`. -/
def folderInfo : Nat → ClassInfo
  | 0 => { attrs := mainAttrs "Folder"
           hints := [("name".toList, .cls .str), ("parts".toList, .gen .list [.cls (.user 0)]), ("meta".toList, .cls .dict)]
           initHints := [("name".toList, .cls .str), ("parts".toList, .gen .list [.cls (.user 0)]), ("meta".toList, .cls .dict)]
           params := [{ name := "name".toList }, { name := "parts".toList }, { name := "meta".toList }] }
  | _ => { attrs := mainAttrs "Other" }

theorem folder_sernames : NamesOk folderInfo serNames := by
  intro c
  match c with
  | 0 => decide
  | n + 1 =>
    have : (folderInfo (n + 1)).attrs = mainAttrs "Other" := rfl
    rw [this]
    decide

theorem folder_program : Program (demoEnv folderInfo) 0 2 0 := by
  have hhints : ∀ c, ∀ p ∈ (folderInfo c).hints, Lin folderInfo 0 1 2 p.2 := by
    intro c p hp
    match c with
    | 0 =>
      have hp : p ∈ [("name".toList, Ty.cls .str), ("parts".toList, .gen .list [.cls (.user 0)]),
        ("meta".toList, .cls .dict)] := hp
      simp only [List.mem_cons, List.not_mem_nil, or_false] at hp
      rcases hp with rfl | rfl | rfl
      · exact .lower _ _ (.cls 1 _)
      · exact .lower _ _ (.coll 1 .list _ (by simp) fun a ha => by
          simp only [List.mem_cons, List.not_mem_nil, or_false] at ha
          subst ha
          exact .lower _ _ (.cls 0 _))
      · exact .lower _ _ (.cls 1 _)
    | n + 1 => cases hp
  have hinit : ∀ c, (folderInfo c).initHints = (folderInfo c).hints := fun c => by
    match c with
    | 0 => rfl
    | n + 1 => rfl
  have hnames : ∀ c, ((folderInfo c).hints.map (·.1)).Nodup := fun c => by
    match c with
    | 0 => decide
    | n + 1 => exact List.nodup_nil
  refine ⟨fun fork t => getLizer_serFn folderInfo folder_sernames t, hhints, fun c p hp => hhints c p (hinit c ▸ hp),
    hnames, fun c => ?_, fun c l h => ?_, fun v => ?_, fun v t kw as h => demo_foreign h, fun s n a h => ?_, by decide⟩
  · exact (hinit c).symm ▸ hnames c
  · match c with
    | 0 => cases h
    | n + 1 => cases h
  · cases v <;> exact .lower _ _ (.cls 1 _)
  · cases h

theorem folder_members (c : Nat) : (folderInfo c).members = [] := by
  match c with
  | 0 => rfl
  | n + 1 => rfl

/-- `Folder('a', [Folder('b', [], {})], {'k': [1, 2]})` -/
def folderObj : Val :=
  .obj 0 [("name".toList, .str "a".toList), ("parts".toList, .list [
    .obj 0 [("name".toList, .str "b".toList), ("parts".toList, .list []), ("meta".toList, .dict [])]]),
    ("meta".toList, .dict [(.str "k".toList, .list [.int 1, .int 2])])]

example : calls (dumpMarked (demoEnv folderInfo) 20 folderObj none {}) ≤ parts 2 folderObj :=
  dump_calls_once _ 2 20 _ (parts_size _ 2 (fun c p hp => by
      have hp : p ∈ (folderInfo c).members := hp
      rw [folder_members] at hp
      cases hp) demo_other) folder_program
    folderObj _ (fun t ht => by cases ht) _ fun p hp => by cases hp

example : parts 2 folderObj = 18 := by decide +kernel

example : calls (dumpMarked (demoEnv folderInfo) 20 folderObj none {}) = 11 := by decide +kernel

example : calls (dumpMarked (demoEnv twinInfo) 20 (chainObj 5) (some eitherTy) { strict := true }) = 252 := by
  decide +kernel

end Verif.Props.DumpCalls
