import Verif.Props.KeyOrder
import Verif.Props.LoadBasics
import Verif.Props.LoadCollections

/-! # The exception of a failed `load` shows the part of the document that is at fault (C94) -/

set_option autoImplicit false

namespace Verif.Props.Blame

open Verif Verif.Core Verif.Datetime
open Verif.Props.Depth (dictDel_mem pyEq_str)
open Verif.Props.KeyOrder (pyEq_str_left)
open Verif.Props.LoadCollections (DictOk transformKeys_id)
open Verif.Props.LoadBasics (Foreign foreign_bind foreign_ok foreign_err foreign_inst foreign_datetime pyEq_refl)

/-! ## Parts of documents -/

/-- One step into a document: to an element of a collection, a character of a text, a key of a
dict (as the key transformer `f` makes it), a value of a dict, to the dict with the transformed
keys.  (What has no elements becomes an empty dict when its keys are transformed.) -/
inductive Step (info : Nat → ClassInfo) (f : Val → Except Err Val) : Val → Val → Prop where
  | elem (k : SeqKind) (xs : List Val) (x : Val) : x ∈ xs → Step info f (.seq k xs) x
  | char (s : PyStr) (c : Char) : c ∈ s → Step info f (.str s) (.str [c])
  | key (es : List (Val × Val)) (e : Val × Val) (k : Val) : e ∈ es → e.1 = k ∨ f e.1 = .ok k →
      Step info f (.dict es) k
  | value (es : List (Val × Val)) (e : Val × Val) : e ∈ es → Step info f (.dict es) e.2
  | renamed (es ts : List (Val × Val)) (g : Val → Except Err Val) : g = .ok ∨ g = f →
      transformKeys info g [] es = .ok ts → Step info f (.dict es) (.dict ts)
  | emptied (v : Val) : v.iter = some [] → Step info f v (.dict [])

/-- A document and what is in it, at any depth. -/
def Part (info : Nat → ClassInfo) (f : Val → Except Err Val) : Val → Val → Prop :=
  Relation.ReflTransGen (Step info f)

/-- What a field of a named tuple is loaded from if it is not in the document. -/
def Absent (E : LEnv) (d : Val) : Prop :=
  ∃ c, (E.info c).kind = .ntuple ∧ ∃ n ∈ (E.info c).fields, d = (assoc (E.info c).fieldDefaults n).getD .none

/-- What an exception may blame: a part of the document, or of a default of a named tuple. -/
def Blamed (E : LEnv) (f : Val → Except Err Val) (v s : Val) : Prop :=
  Part E.info f v s ∨ ∃ d, Absent E d ∧ Part E.info f d s

/-- Hashes of keys are stored under other keys than `'-keys'`. -/
def Plain (E : LEnv) (f : Val → Except Err Val) (v : Val) : Prop :=
  ∀ es ks, Blamed E f v (.dict es) → dictGet es (.str keysKey) = some (.dict ks) →
    ∀ e ∈ ks, e.1 ≠ .str keysKey

/-- No `DeserializationError`. -/
def Mild (k : ErrKind) : Prop := k.isDeserializationError = false

/-- An exception of that kind, without a source. -/
def Quiet (e : Err) : Prop := e.source = none ∧ Mild e.kind

/-- The source of the exception, which a `DeserializationError` has, is in `S`. -/
def Says (S : Val → Prop) (e : Err) : Prop := 
  (∃ s, e.source = some s ∧ S s ∧ e.kind.isDeserializationError = true) ∨ Quiet e

/-- That of the exception of a result, if it is one. -/
def Fair {α : Type} (S : Val → Prop) (x : Res α) : Prop := ∀ e, x.val = .error e → Says S e

/-- The keyword arguments. -/
structure KwOk (f : Val → Except Err Val) (kw : LoadKw) : Prop where
  kt : kw.keyTransformer = none ∨ kw.keyTransformer = some .ok ∨ kw.keyTransformer = some f
  getters : ∀ g ∈ kw.attrGetters, ∀ e, g.2 = .error e → Quiet e

/-- The key transformer does not raise `DeserializationError`s. -/
def QuietKeys (f : Val → Except Err Val) : Prop := ∀ k e, f k = .error e → Quiet e

/-- What is called in place of `load` blames what it is given. -/
def FairRec (E : LEnv) (rec : LRec) : Prop :=
  ∀ f v cls kw, QuietKeys f → Plain E f v → KwOk f kw → Fair (Blamed E f v) (rec v cls kw)

/-- What is known of the program: its own functions do not raise `DeserializationError`s that blame
something else; its deserializers load parts of what they are given. -/
structure Honest (E : LEnv) : Prop where
  desers : ∀ i t k, E.getDes i t = .error k → Mild k
  vals : ∀ i t k, E.getVal i t = .error k → Mild k
  names : ∀ i s k, E.clsFromStr i s = .error k → k = .unknownClass ∨ Mild k
  construct : ∀ c as e, E.construct c as = .error e → Quiet e
  setAttr : ∀ c as n v e, E.setAttr c as n v = .error e → Quiet e
  ints : ∀ v k, E.intOther v = .error k → k.isJsonsError = false
  floats : ∀ v k, E.floatOther v = .error k → k.isJsonsError = false
  uuid : ∀ v k, E.uuidOf v = .error k → k.isJsonsError = false
  decimal : ∀ v k, E.decimalOf v = .error k → k.isJsonsError = false
  path : ∀ v k, E.pathOf v = .error k → k.isJsonsError = false
  zone : ∀ v k, E.zoneOf v = .error k → k.isJsonsError = false
  foreign : ∀ f rec v t kw, FairRec E rec → QuietKeys f → Plain E f v → KwOk f kw →
    Fair (Blamed E f v) (E.foreignDes rec v t kw)
  custom : ∀ i f rec v t kw, FairRec E rec → QuietKeys f → Plain E f v → KwOk f kw →
    Fair (Blamed E f v) (E.customDes i rec v t kw)

variable {E : LEnv} {f : Val → Except Err Val}

/-! ## Results -/

theorem mild_of_foreign {k : ErrKind} (h : k.isJsonsError = false) : Mild k := by
  cases k <;> simp_all [Mild, ErrKind.isJsonsError, ErrKind.isDeserializationError]

variable {S : Val → Prop} {α β : Type}

theorem Fair.pure (a : α) : Fair S (pure a) := by intro e h; cases h

theorem Fair.quiet {e : Err} (h : Quiet e) : Fair S (Res.raise e : Res α) := by
  intro e' h'; cases h'; exact .inr h

theorem Fair.kind {k : ErrKind} (h : k.isJsonsError = false) : Fair S (Res.raise { kind := k } : Res α) :=
  .quiet ⟨rfl, mild_of_foreign h⟩

theorem Fair.src {e : Err} {s : Val} (h : e.source = some s)
    (hd : e.kind.isDeserializationError = true) (hs : S s) : Fair S (Res.raise e : Res α) := by
  intro e' h'; cases h'; exact .inl ⟨s, h, hs, hd⟩

theorem Fair.says {e : Err} (h : Says S e) : Fair S (Res.raise e : Res α) := by
  intro e' h'; cases h'; exact h

theorem Fair.bind {x : Res α} {g : α → Res β} (hx : Fair S x) (hg : ∀ a, x.val = .ok a → Fair S (g a)) :
    Fair S (x >>= g) := by
  intro e h
  rw [bind_err] at h
  rcases h with h | ⟨a, h1, h2⟩
  · exact hx e h
  · exact hg a h1 e h2

theorem Fair.attempt {T : Val → Prop} {x : Res α} {g : Except Err α → Res β} (hx : Fair T x)
    (h1 : ∀ a, x.val = .ok a → Fair S (g (.ok a))) (h2 : ∀ e, Says T e → Fair S (g (.error e))) :
    Fair S (x.attempt >>= g) := by
  intro e h
  rw [bind_val] at h
  simp only [attempt_val] at h
  cases hv : x.val with
  | ok a => rw [hv] at h; exact h1 a hv e h
  | error e' => rw [hv] at h; exact h2 e' (hx e' hv) e h

theorem Fair.lift {x : Except Err α} (h : ∀ e, x = .error e → Quiet e) : Fair S (Res.lift x) := by
  intro e he
  rw [lift_val] at he
  exact .inr (h e he)

theorem Fair.liftK {x : Except ErrKind α} (h : ∀ k, x = .error k → Mild k) : Fair S (Res.liftK x) := by
  intro e he
  rw [liftK_err] at he
  obtain ⟨k, hk, rfl⟩ := he
  exact .inr ⟨rfl, h k hk⟩

theorem Fair.liftS {s : Val} {x : Except ErrKind α} (h : ∀ k, x = .error k → k = .unknownClass ∨ Mild k)
    (hs : S s) : Fair S (Res.liftS s x) := by
  intro e he
  rw [liftS_err] at he
  obtain ⟨k, hk, rfl⟩ := he
  rcases h k hk with rfl | hm
  · exact .inl ⟨s, rfl, hs, rfl⟩
  · have : k ≠ .unknownClass := by rintro rfl; cases hm
    rw [if_neg this]
    exact .inr ⟨rfl, hm⟩

theorem Fair.foreign {x : Except ErrKind α} (h : Foreign x) : Fair S (Res.liftK x) :=
  .liftK fun k hk => mild_of_foreign (h k hk)

theorem Fair.mono {T : Val → Prop} {x : Res α} (h : Fair S x) (hST : ∀ s, S s → T s) : Fair T x := by
  intro e he
  rcases h e he with ⟨s, h1, h2, h3⟩ | h
  · exact .inl ⟨s, h1, hST s h2, h3⟩
  · exact .inr h

theorem Fair.warn (E : Env) (i : Nat) (c m : PyStr) : Fair S (E.warn i c m) := by
  intro e h; rw [warn_val] at h; cases h

theorem foreign_map {x : Except ErrKind α} {g : α → β} (h : Foreign x) : Foreign (x.map g) := by
  cases x with
  | ok a => exact foreign_ok _
  | error k => exact foreign_err (h k rfl)

/-! ## Parts -/

theorem Plain.part {v x : Val} (h : Plain E f v) (hx : Part E.info f v x) : Plain E f x :=
  fun es ks h1 h2 => h es ks (h1.imp_left hx.trans) h2

theorem FairRec.part {rec : LRec} (hr : FairRec E rec) (hf : QuietKeys f) {v x : Val} (hv : Plain E f v)
    (hx : Part E.info f v x) {cls : Option Ty} {kw : LoadKw} (hk : KwOk f kw) :
    Fair (Blamed E f v) (rec x cls kw) :=
  (hr f x cls kw hf (hv.part hx) hk).mono fun _ h => h.imp_left hx.trans

theorem part_value {es : List (Val × Val)} {e : Val × Val} (h : e ∈ es) : Part E.info f (.dict es) e.2 :=
  .single (.value es e h)

theorem dictGet_val {es : List (Val × Val)} {k x : Val} (h : dictGet es k = some x) :
    ∃ e ∈ es, e.2 = x := by
  induction es with
  | nil => cases h
  | cons p es ih =>
    obtain ⟨k', v⟩ := p
    rw [dictGet] at h
    split at h
    · cases h; exact ⟨_, List.mem_cons_self, rfl⟩
    · obtain ⟨e, he, h⟩ := ih h; exact ⟨e, List.mem_cons_of_mem _ he, h⟩

theorem part_get {es : List (Val × Val)} {k x : Val} (h : dictGet es k = some x) :
    Part E.info f (.dict es) x := by
  obtain ⟨e, he, rfl⟩ := dictGet_val h
  exact part_value he

theorem part_subscript {v x : Val} {n : PyStr} (h : subscript v n = .ok x) : Part E.info f v x := by
  unfold subscript at h
  split at h
  · split at h
    · next hg => cases h; exact part_get hg
    · cases h
  · cases h

theorem part_index {v x : Val} {i : Nat} (h : index v i = .ok x) (hv : v.cls ∈ validTypes) :
    Part E.info f v x := by
  unfold index at h
  split at h
  · split at h
    · next hg => cases h; exact .single (.elem _ _ _ (List.mem_of_getElem? hg))
    · cases h
  · split at h
    · next hg => cases h; exact .single (.elem _ _ _ (List.mem_of_getElem? hg))
    · cases h
  · split at h
    · next hg => cases h; exact .single (.elem _ _ _ (List.mem_of_getElem? hg))
    · cases h
  · simp [Val.cls, validTypes] at hv
  · split at h
    · next hg => cases h; exact .single (.char _ _ (List.mem_of_getElem? hg))
    · cases h
  · cases h

theorem part_iter {v x : Val} {xs : List Val} (h : v.iter = some xs) (hx : x ∈ xs)
    (hv : v.cls ∈ validTypes) : Part E.info f v x := by
  unfold Val.iter at h
  split at h
  · cases h; exact .single (.elem _ _ _ hx)
  · simp [Val.cls, validTypes] at hv
  · cases h
    obtain ⟨e, he, rfl⟩ := List.mem_map.1 hx
    exact .single (.key _ e _ he (.inl rfl))
  · simp [Val.cls, validTypes] at hv
  · cases h
    obtain ⟨c, hc, rfl⟩ := List.mem_map.1 hx
    exact .single (.char _ _ hc)
  · cases h

theorem subscript_foreign (v : Val) (n : PyStr) : Foreign (subscript v n) := by
  unfold subscript
  split
  · split
    · exact foreign_ok _
    · exact foreign_err rfl
  · exact foreign_err rfl

theorem index_foreign (v : Val) (i : Nat) : Foreign (index v i) := by
  unfold index
  repeat' split
  all_goals first | exact foreign_ok _ | exact foreign_err rfl

/-! ## Values without parts -/

theorem cast_foreign (H : Honest E) (v : Val) (t : Ty) : ∀ k, E.cast v t = .error k →
    k.isValueError = true ∨ k.isJsonsError = false := by
  have hi : Foreign (E.intOf v) := by
    unfold Env.intOf
    split
    · exact foreign_ok _
    · exact foreign_ok _
    · exact foreign_ok _
    · unfold parseInt
      simp only
      split
      · exact foreign_ok _
      · exact foreign_err rfl
    all_goals first | exact foreign_err rfl | exact H.ints _
  have hf : Foreign (E.floatOf v) := by
    unfold Env.floatOf
    split
    all_goals first | exact foreign_ok _ | exact foreign_err rfl | exact H.floats _
  intro k hk
  right
  unfold Env.cast at hk
  split at hk
  · cases hk
  · cases hk
  · exact foreign_map hi k hk
  · exact foreign_map hf k hk
  · cases hk; rfl

theorem primitiveDes_fair (H : Honest E) {v : Val} {t : Ty} : Fair (Blamed E f v) (primitiveDes E v t) := by
  unfold primitiveDes
  split
  · exact .pure _
  · split
    · next k hk =>
      unfold Env.isInstance at hk
      split at hk <;> cases hk
      exact .kind rfl
    · exact .pure _
    · split
      · exact .pure _
      · next k hk =>
        split
        · exact .src rfl rfl (.inl .refl)
        · next hn =>
          rcases cast_foreign H v t k hk with h | h
          · exact absurd h hn
          · exact .kind h

theorem stringDes_fair (H : Honest E) {rec : LRec} (hr : FairRec E rec) (hf : QuietKeys f) {v : Val} {t : Ty} {kw : LoadKw}
    (hv : Plain E f v) (hk : KwOk f kw) : Fair (Blamed E f v) (stringDes E rec v t kw) := by
  unfold stringDes
  split
  · exact .pure _
  · refine .attempt (hr.part hf hv .refl hk) (fun a _ => .pure _) fun e he => ?_
    dsimp only
    split
    · exact primitiveDes_fair H
    · exact .says he

theorem enumDes_fair {v : Val} {t : Ty} {kw : LoadKw} : Fair S (enumDes E v t kw) := by
  have h1 : ∀ c, Foreign (enumByName (E.info c) c v) := by
    intro c
    unfold enumByName
    split
    · split
      · exact foreign_ok _
      · exact foreign_err rfl
    · exact foreign_err rfl
  have h2 : ∀ c, Foreign (enumByValue (E.info c) c v) := by
    intro c
    unfold enumByValue
    split
    · exact foreign_ok _
    · exact foreign_err rfl
  unfold enumDes
  split
  · dsimp only
    split
    · exact .foreign (h1 _)
    · exact .foreign (h2 _)
    · split
      · exact .pure _
      · exact .foreign (h2 _)
  · exact .kind rfl

theorem datetimeDes_fair {v : Val} : Fair S (datetimeDes v) := by
  unfold datetimeDes
  split
  · exact .foreign (foreign_map (foreign_datetime _))
  · exact .kind rfl

theorem dateDes_fair {v : Val} : Fair S (dateDes v) := by
  unfold dateDes
  split
  · exact .foreign (foreign_map (foreign_bind (foreign_inst _ _) fun _ => foreign_ok _))
  · exact .kind rfl

theorem timeDes_fair {v : Val} : Fair S (timeDes v) := by
  unfold timeDes
  split
  · exact .foreign (foreign_map (foreign_bind (foreign_inst _ _) fun _ => foreign_ok _))
  · exact .kind rfl

theorem timedeltaDes_fair {v : Val} : Fair S (timedeltaDes E v) := by
  unfold timedeltaDes
  split <;> first | exact .pure _ | exact .kind rfl

theorem kwOk_default : KwOk f {} := ⟨.inl rfl, fun _ h => by cases h⟩

theorem timezoneDes_fair {rec : LRec} (hr : FairRec E rec) (hf : QuietKeys f) {v : Val}
    (hv : Plain E f v) : Fair (Blamed E f v) (timezoneDes rec v) := by
  unfold timezoneDes
  refine .bind (.foreign (subscript_foreign _ _)) fun x hx => ?_
  refine .bind (hr.part hf hv (part_subscript (liftK_ok.1 hx)) kwOk_default) fun td _ => ?_
  refine .bind (.foreign (subscript_foreign _ _)) fun _ _ => ?_
  split
  · split
    · exact .pure _
    · exact .kind rfl
  · exact .kind rfl

theorem Step.mono {info : Nat → ClassInfo} {a b : Val} (h : Step info .ok a b) : Step info f a b := by
  cases h with
  | elem k xs x h => exact .elem k xs _ h
  | char s c h => exact .char s c h
  | key es e k h hk => exact .key es e _ h (.inl (hk.elim id fun h => by cases h; rfl))
  | value es e h => exact .value es e h
  | renamed es ts g hg h => exact .renamed es ts .ok (.inl rfl) (by rcases hg with rfl | rfl <;> exact h)
  | emptied v h => exact .emptied _ h

/-- Without a key transformer there are not more parts. -/
theorem Part.mono {info : Nat → ClassInfo} {v x : Val} (h : Part info .ok v x) : Part info f v x := by
  induction h with
  | refl => exact .refl
  | tail _ h ih => exact ih.tail h.mono

theorem quiet_ok : QuietKeys .ok := fun _ _ h => by cases h

theorem plain_complex {v re im : Val} (hv : Plain E f v) (h1 : Part E.info f v re) (h2 : Part E.info f v im) :
    Plain E .ok (.dict [(.str "real".toList, re), (.str "imag".toList, im)]) := by
  have key : ∀ x, Part E.info .ok (.dict [(.str "real".toList, re), (.str "imag".toList, im)]) x →
      x = .dict [(.str "real".toList, re), (.str "imag".toList, im)] ∨ (∃ s, x = .str s) ∨
        x = .dict [] ∨ Part E.info f v x := by
    intro x hx
    induction hx with
    | refl => exact .inl rfl
    | tail _ hs ih =>
      rcases ih with rfl | ⟨s, rfl⟩ | rfl | ih
      · cases hs with
        | key _ e k h hk =>
          have hk := hk.elim id fun h => by cases h; rfl
          subst hk
          simp only [List.mem_cons, List.not_mem_nil, or_false] at h
          rcases h with rfl | rfl
          · exact .inr (.inl ⟨_, rfl⟩)
          · exact .inr (.inl ⟨_, rfl⟩)
        | value _ e h =>
          simp only [List.mem_cons, List.not_mem_nil, or_false] at h
          rcases h with rfl | rfl
          · exact .inr (.inr (.inr h1))
          · exact .inr (.inr (.inr h2))
        | renamed _ ts g hg h =>
          have hg : g = .ok := hg.elim id id
          subst hg
          have h' : ([(.str "real".toList, re), (.str "imag".toList, im)] : List (Val × Val)) = ts := by
            have : transformKeys E.info .ok []
              [(.str "real".toList, re), (.str "imag".toList, im)] = .ok [(.str "real".toList, re), (.str "imag".toList, im)] := rfl
            rw [this] at h
            cases h; rfl
          subst h'
          exact .inl rfl
        | emptied _ h => simp [Val.iter] at h
      · cases hs with
        | char _ c h => exact .inr (.inl ⟨_, rfl⟩)
        | emptied _ h => exact .inr (.inr (.inl rfl))
      · cases hs with
        | key _ e k h hk => cases h
        | value _ e h => cases h
        | renamed _ ts g hg h => cases h; exact .inr (.inr (.inl rfl))
        | emptied _ h => exact .inr (.inr (.inl rfl))
      · exact .inr (.inr (.inr (ih.tail hs.mono)))
  intro es ks h hg
  rcases h with h | ⟨d, hd, h⟩
  · rcases key _ h with h | ⟨s, h⟩ | h | h
    · cases h
      have : dictGet [(Val.str "real".toList, re), (.str "imag".toList, im)] (.str keysKey) = none := rfl
      rw [this] at hg
      cases hg
    · cases h
    · cases h; cases hg
    · exact hv es ks (.inl h) hg
  · exact hv es ks (.inr ⟨d, hd, h.mono⟩) hg

theorem complexDes_fair {rec : LRec} (hr : FairRec E rec) {v : Val} (hv : Plain E f v) :
    Fair S (complexDes rec v) := by
  unfold complexDes
  dsimp only
  have hb : Fair (fun _ => True) (do
      let re ← Res.liftK (subscript v "real".toList)
      let im ← Res.liftK (subscript v "imag".toList)
      let clean ← rec (.dict [(.str "real".toList, re), (.str "imag".toList, im)])
        (some dictStrFloat) {}
      let re ← Res.liftK (subscript clean "real".toList)
      let im ← Res.liftK (subscript clean "imag".toList)
      match re, im with
      | .float x, .float y => pure (.atom (.complex x y))
      | _, _ => Res.raise { kind := .typeError } : Res Val) := by
    refine .bind (.foreign (subscript_foreign _ _)) fun re hre => ?_
    refine .bind (.foreign (subscript_foreign _ _)) fun im him => ?_
    refine .bind ((hr .ok _ _ _ quiet_ok (plain_complex hv (part_subscript (liftK_ok.1 hre))
      (part_subscript (liftK_ok.1 him))) kwOk_default).mono fun _ _ => trivial) fun clean _ => ?_
    refine .bind (.foreign (subscript_foreign _ _)) fun _ _ => ?_
    refine .bind (.foreign (subscript_foreign _ _)) fun _ _ => ?_
    split
    · exact .pure _
    · exact .kind rfl
  refine hb.attempt (fun _ _ => .pure _) fun e he => ?_
  dsimp only
  split
  · exact .kind rfl
  · next h =>
    rw [not_or] at h
    rcases he with ⟨s, _, _, h'⟩ | he
    · exact absurd h' h.2
    · exact .quiet he

/-! ## Collections -/

theorem KwOk.with_ {kw kw' : LoadKw} (hk : KwOk f kw) (h1 : kw'.keyTransformer = kw.keyTransformer)
    (h2 : kw'.attrGetters = kw.attrGetters) : KwOk f kw' := ⟨h1 ▸ hk.kt, h2 ▸ hk.getters⟩

theorem KwOk.noKt {kw : LoadKw} (hk : KwOk f kw) : KwOk f { kw with keyTransformer := none } :=
  ⟨.inl rfl, hk.getters⟩

theorem KwOk.noGetters {kw : LoadKw} (hk : KwOk f kw) (m : Option (List (Val × Val))) :
    KwOk f { kw with metaHints := m, attrGetters := [] } := ⟨hk.kt, fun _ h => by cases h⟩

theorem listLoop_fair {rec : LRec} (hr : FairRec E rec) (hf : QuietKeys f) {v : Val} (hv : Plain E f v)
    {cls : Option Ty} {warn : Bool} {kw : LoadKw} (hk : KwOk f kw) (xs : List Val) (i : Nat)
    (hx : ∀ x ∈ xs, Part E.info f v x) : Fair (Blamed E f v) (listLoop E rec cls warn kw i xs) := by
  induction xs generalizing i with
  | nil => exact .pure _
  | cons x xs ih =>
    rw [listLoop]
    have ih := fun i => ih i fun x h => hx x (List.mem_cons_of_mem _ h)
    refine .attempt (hr.part hf hv (hx x List.mem_cons_self) hk) (fun y _ => ?_) fun e he => ?_
    · exact .bind (ih _) fun _ _ => .pure _
    · dsimp only
      split
      · next hd =>
        split
        · exact .bind (.warn _ _ _ _) fun _ _ => ih _
        · rcases he with ⟨s, h1, h2, _⟩ | he
          · exact .src h1 rfl h2
          · exact absurd hd (by rw [show e.kind.isDeserializationError = false from he.2]; exact Bool.false_ne_true)
      · exact .says he

theorem listDes_fair {rec : LRec} (hr : FairRec E rec) (hf : QuietKeys f) {v : Val} (hv : Plain E f v)
    (hc : v.cls ∈ validTypes) {args : List Ty} {kw : LoadKw} (hk : KwOk f kw) :
    Fair (Blamed E f v) (listDes E rec v args kw) := by
  unfold listDes
  split
  · exact .kind rfl
  · next xs hx =>
    dsimp only
    refine listLoop_fair hr hf hv ?_ _ _ fun x h => part_iter hx h hc
    exact hk.with_ rfl rfl

theorem castSeq_foreign (info : Nat → ClassInfo) (c : Cls) (ys : List Val) : Foreign (castSeq info c ys) := by
  unfold castSeq
  repeat' split
  all_goals first | exact foreign_ok _ | exact foreign_err rfl

theorem iterableDes_fair {rec : LRec} (hr : FairRec E rec) (hf : QuietKeys f) {v : Val} (hv : Plain E f v)
    (hc : v.cls ∈ validTypes) {t : Ty} {kw : LoadKw} (hk : KwOk f kw) :
    Fair (Blamed E f v) (iterableDes E rec v t kw) := by
  unfold iterableDes
  refine .bind (listDes_fair hr hf hv hc hk) fun ys _ => ?_
  split
  · exact .foreign (castSeq_foreign _ _ _)
  · exact .kind rfl

theorem tupleLoop_fair {rec : LRec} (hr : FairRec E rec) (hf : QuietKeys f) {v : Val} (hv : Plain E f v)
    {kw : LoadKw} (hk : KwOk f kw) (xs : List Val) (ts : List Ty) (hx : ∀ x ∈ xs, Part E.info f v x) :
    Fair (Blamed E f v) (tupleLoop rec kw ts xs) := by
  induction xs generalizing ts with
  | nil => cases ts <;> exact .pure _
  | cons x xs ih =>
    cases ts with
    | nil => exact .kind rfl
    | cons t ts =>
      rw [tupleLoop]
      refine .bind (hr.part hf hv (hx x List.mem_cons_self) hk) fun _ _ => ?_
      exact .bind (ih _ fun x h => hx x (List.mem_cons_of_mem _ h)) fun _ _ => .pure _

theorem mapRes_fair {g : Val → Res Val} {xs : List Val} (h : ∀ x ∈ xs, Fair S (g x)) : Fair S (mapRes g xs) := by
  intro e he
  obtain ⟨x, hx, h'⟩ := mapRes_err he
  exact h x hx e h'

/-- Transformed keys: the dict, or a failure of the key transformer. -/
theorem transformKeys_quiet {info : Nat → ClassInfo} {g : Val → Except Err Val} (hg : QuietKeys g)
    (es acc : List (Val × Val)) : ∀ e, transformKeys info g acc es = .error e → Quiet e := by
  induction es generalizing acc with
  | nil => intro e h; cases h
  | cons p es ih =>
    intro e h
    simp only [transformKeys] at h
    cases hk : g p.1 with
    | error e' => rw [hk] at h; cases h; exact hg _ _ hk
    | ok k =>
      rw [hk] at h
      change (if k.hashable info then transformKeys info g (dictSet acc k p.2) es
        else .error { kind := .typeError }) = _ at h
      split at h
      · exact ih _ e h
      · cases h; exact ⟨rfl, rfl⟩

theorem KwOk.getKt {kw : LoadKw} (hk : KwOk f kw) :
    kw.keyTransformer.getD .ok = .ok ∨ kw.keyTransformer.getD .ok = f := by
  rcases hk.kt with h | h | h <;> rw [h]
  · exact .inl rfl
  · exact .inl rfl
  · exact .inr rfl

theorem KwOk.quiet {kw : LoadKw} (hk : KwOk f kw) (hf : QuietKeys f) :
    QuietKeys (kw.keyTransformer.getD .ok) := by
  rcases hk.getKt with h | h <;> rw [h]
  · exact quiet_ok
  · exact hf

theorem ntupleLoop_fair {rec : LRec} (hr : FairRec E rec) (hf : QuietKeys f) {v : Val} (hv : Plain E f v)
    (hc : v.cls ∈ validTypes) {c : Nat} (hn : (E.info c).kind = .ntuple) {tfm : Option (List (Val × Val))} {len : Nat}
    (ht : ∀ ts, tfm = some ts → Part E.info f v (.dict ts)) {kw : LoadKw} (hk : KwOk f kw)
    (names : List PyStr) (i : Nat) (hm : ∀ n ∈ names, n ∈ (E.info c).fields) :
    Fair (Blamed E f v) (ntupleLoop E rec c v tfm len kw i names) := by
  induction names generalizing i with
  | nil => exact .pure _
  | cons n names ih =>
    rw [ntupleLoop]
    dsimp only
    have hF : Foreign (ntupleField (E.info c) v tfm len i n) := by
      unfold ntupleField
      split
      · split
        · exact subscript_foreign _ _
        · exact index_foreign _ _
      · exact foreign_ok _
    refine .bind (.foreign hF) fun x hx => ?_
    rw [liftK_ok] at hx
    generalize (if (E.info c).hasAnnotations then assoc (E.info c).hints n else none) = hint
    split
    · exact .src rfl rfl (.inl .refl)
    · refine .bind ?_ fun _ _ => .bind (ih _ fun n h => hm n (List.mem_cons_of_mem _ h)) fun _ _ => .pure _
      unfold ntupleField at hx
      split at hx
      · split at hx
        · next ts => exact hr.part hf hv ((ht ts rfl).trans (part_subscript hx)) hk
        · exact hr.part hf hv (part_index hx hc) hk
      · have hab : Absent E x := ⟨c, hn, n, hm n List.mem_cons_self, by cases hx; rfl⟩
        refine (hr f x _ kw hf ?_ hk).mono ?_
        · intro es ks h1 h2
          refine hv es ks ?_ h2
          rcases h1 with h1 | h1
          · exact .inr ⟨x, hab, h1⟩
          · exact .inr h1
        · intro s h1
          rcases h1 with h1 | h1
          · exact .inr ⟨x, hab, h1⟩
          · exact .inr h1

theorem tupleDes_fair {rec : LRec} (hr : FairRec E rec) (hf : QuietKeys f) {v : Val} (hv : Plain E f v)
    (hc : v.cls ∈ validTypes) {t : Ty} {kw : LoadKw} (hk : KwOk f kw) :
    Fair (Blamed E f v) (tupleDes E rec v t kw) := by
  have hp : Fair (Blamed E f v) (match v.iter with
    | none => Res.raise { kind := .typeError }
    | some xs => do
      let ys ← match t, t.getArgs with
        | .gen .tupleEll _, a :: _ => tupleLoop rec { kw with keyTransformer := none } (List.replicate xs.length a) xs
        | _, a :: as => tupleLoop rec { kw with keyTransformer := none } (a :: as) xs
        | _, [] => mapRes (fun x => rec x none { kw with keyTransformer := none }) xs
      pure (.tuple ys) : Res Val) := by
    cases hx : v.iter with
    | none => exact .kind rfl
    | some xs =>
      have hxs : ∀ x ∈ xs, Part E.info f v x := fun x h => part_iter hx h hc
      dsimp only
      split
      · exact .bind (tupleLoop_fair hr hf hv hk.noKt _ _ hxs) fun _ _ => .pure _
      · exact .bind (tupleLoop_fair hr hf hv hk.noKt _ _ hxs) fun _ _ => .pure _
      · refine .bind ?_ fun _ _ => .pure _
        exact mapRes_fair fun x h => hr.part hf hv (hxs x h) hk.noKt
  unfold tupleDes
  dsimp only
  split
  · next c =>
    split
    · next hn =>
      unfold ntupleDes
      have hT : ∀ e, ntupleTfm E.info (kw.keyTransformer.getD .ok) v = .error e → Quiet e := by
        intro e h
        unfold ntupleTfm at h
        split at h
        · next es =>
          cases h' : transformKeys E.info (kw.keyTransformer.getD .ok) [] es with
          | ok ts => rw [h'] at h; cases h
          | error e' => rw [h'] at h; cases h; exact transformKeys_quiet (hk.quiet hf) _ _ _ h'
        · cases h
      refine .bind (.lift hT) fun tfm htfm => ?_
      rw [lift_val] at htfm
      have hts : ∀ ts, tfm = some ts → Part E.info f v (.dict ts) := by
        rintro ts rfl
        unfold ntupleTfm at htfm
        split at htfm
        · next es =>
          cases h' : transformKeys E.info (kw.keyTransformer.getD .ok) [] es with
          | ok ts' => rw [h'] at htfm; cases htfm; exact .single (.renamed _ _ _ hk.getKt h')
          | error e' => rw [h'] at htfm; cases htfm
        · cases htfm
      split
      · exact .kind rfl
      · exact .bind (ntupleLoop_fair hr hf hv hc hn hts hk _ _ fun _ h => h) fun _ _ => .pure _
    · exact hp
  · exact hp

/-! ## Dicts -/

theorem dictSet_val {es : List (Val × Val)} {k x : Val} {e : Val × Val} (h : e ∈ dictSet es k x) :
    e ∈ es ∨ e.2 = x := by
  induction es with
  | nil => simp only [dictSet, List.mem_singleton] at h; subst h; exact .inr rfl
  | cons p es ih =>
    obtain ⟨k', v'⟩ := p
    rw [dictSet] at h
    split at h
    · rcases List.mem_cons.1 h with rfl | h
      · exact .inr rfl
      · exact .inl (List.mem_cons_of_mem _ h)
    · rcases List.mem_cons.1 h with rfl | h
      · exact .inl List.mem_cons_self
      · exact (ih h).imp_left (List.mem_cons_of_mem _)

theorem del_set {es : List (Val × Val)} {k x a : Val} {e : Val × Val} (h : e ∈ dictDel (dictSet es k x) a) :
    e ∈ dictDel es a ∨ e.2 = x := by
  induction es with
  | nil => exact .inr ((dictSet_val (dictDel_mem h)).elim (fun h => by cases h) id)
  | cons p es ih =>
    obtain ⟨k', v'⟩ := p
    rw [dictSet] at h
    rw [dictDel]
    split at h
    · rw [dictDel] at h
      split at h
      · next ha => rw [if_pos ha]; exact .inl h
      · next ha =>
        rw [if_neg ha]
        rcases List.mem_cons.1 h with rfl | h
        · exact .inr rfl
        · exact .inl (List.mem_cons_of_mem _ h)
    · rw [dictDel] at h
      split at h
      · next ha => rw [if_pos ha]; exact dictSet_val h
      · next ha =>
        rw [if_neg ha]
        rcases List.mem_cons.1 h with rfl | h
        · exact .inl List.mem_cons_self
        · exact (ih h).imp_left (List.mem_cons_of_mem _)

theorem del_set_self {es : List (Val × Val)} {x a : Val} : dictDel (dictSet es a x) a = dictDel es a := by
  induction es with
  | nil => simp [dictSet, dictDel, pyEq_refl]
  | cons p es ih =>
    obtain ⟨k', v'⟩ := p
    rw [dictSet, dictDel]
    split
    · next h => rw [dictDel, if_pos h]
    · next h => rw [dictDel, if_neg h, ih]

theorem del_del {es : List (Val × Val)} {k a : Val} {e : Val × Val} (h : e ∈ dictDel (dictDel es k) a) :
    e ∈ dictDel es a := by
  induction es with
  | nil => exact h
  | cons p es ih =>
    obtain ⟨k', v'⟩ := p
    rw [dictDel] at h
    rw [dictDel]
    split at h
    · split
      · exact dictDel_mem h
      · exact List.mem_cons_of_mem _ h
    · rw [dictDel] at h
      split at h
      · next ha => rw [if_pos ha]; exact dictDel_mem h
      · next ha =>
        rw [if_neg ha]
        rcases List.mem_cons.1 h with rfl | h
        · exact List.mem_cons_self
        · exact List.mem_cons_of_mem _ (ih h)

theorem get_set {es : List (Val × Val)} {k x a y : Val} (h : dictGet (dictSet es k x) a = some y) :
    y = x ∨ dictGet es a = some y := by
  induction es with
  | nil =>
    simp only [dictSet, dictGet] at h
    split at h
    · cases h; exact .inl rfl
    · cases h
  | cons p es ih =>
    obtain ⟨k', v'⟩ := p
    rw [dictSet] at h
    rw [dictGet]
    split at h
    · rw [dictGet] at h
      split at h
      · cases h; exact .inl rfl
      · next ha => rw [if_neg ha]; exact .inr h
    · rw [dictGet] at h
      split at h
      · next ha => rw [if_pos ha]; exact .inr h
      · next ha => rw [if_neg ha]; exact ih h

/-- Two keys that are not equal to each other are not equal to the same. -/
theorem not_both {k h : Val} {s : PyStr} (hn : h ≠ .str s) (h1 : pyEq k h = true) (h2 : pyEq k (.str s) = true) :
    False := by
  rw [pyEq_str h2] at h1
  exact hn (pyEq_str_left h1)

theorem get_del {es : List (Val × Val)} {k : Val} {s : PyStr} (hn : k ≠ .str s) {y : Val}
    (h : dictGet (dictDel es k) (.str s) = some y) : dictGet es (.str s) = some y := by
  induction es with
  | nil => exact h
  | cons p es ih =>
    obtain ⟨k', v'⟩ := p
    rw [dictDel] at h
    rw [dictGet]
    split at h
    · next hk =>
      split
      · next ha => exact (not_both hn hk ha).elim
      · exact h
    · rw [dictGet] at h
      split at h
      · next ha => rw [if_pos ha]; exact h
      · next ha => rw [if_neg ha]; exact ih h

theorem get_mem_del {es : List (Val × Val)} {k x : Val} {s : PyStr} (hn : k ≠ .str s)
    (h : dictGet es k = some x) : ∃ e ∈ dictDel es (.str s), e.2 = x := by
  induction es with
  | nil => cases h
  | cons p es ih =>
    obtain ⟨k', v'⟩ := p
    rw [dictGet] at h
    rw [dictDel]
    split at h
    · next hk =>
      cases h
      rw [if_neg (fun ha => not_both hn hk ha)]
      exact ⟨_, List.mem_cons_self, rfl⟩
    · split
      · exact dictGet_val h
      · obtain ⟨e, he, h⟩ := ih h
        exact ⟨e, List.mem_cons_of_mem _ he, h⟩

/-- The state of the loop over the stored keys: the values, and the original keys that are left, are parts of the
document. -/
structure Unhashing (E : LEnv) (f : Val → Except Err Val) (v : Val) (es : List (Val × Val)) : Prop where
  values : ∀ e ∈ dictDel es (.str keysKey), Part E.info f v e.2
  keys : ∀ ks, dictGet es (.str keysKey) = some (.dict ks) → ∀ e ∈ ks, Part E.info f v e.2

theorem unhashKey_fair {rec : LRec} (hr : FairRec E rec) (hf : QuietKeys f) {v : Val} (hv : Plain E f v)
    {k : Ty} {kw : LoadKw} (hk : KwOk f kw) {es : List (Val × Val)} (hes : Unhashing E f v es) {h : Val}
    (hh : h ≠ .str keysKey) :
    Fair (Blamed E f v) (unhashKey E rec k kw es h) ∧
      ∀ es', (unhashKey E rec k kw es h).val = .ok es' → Unhashing E f v es' := by
  have ho : ∀ x, (match dictGet es (.str keysKey) with
    | some (.dict ks) => match dictGet ks h with
      | some k => .ok k
      | none => .error .keyError
    | _ => .error .typeError : Except ErrKind Val) = .ok x → Part E.info f v x := by
    intro x hx
    split at hx
    · next ks hks =>
      split at hx
      · next hg =>
        cases hx
        obtain ⟨e, he, rfl⟩ := dictGet_val hg
        exact hes.keys ks hks e he
      · cases hx
    · cases hx
  constructor
  · unfold unhashKey
    refine .bind (.foreign ?_) fun x hx => ?_
    · split
      · split
        · exact foreign_ok _
        · exact foreign_err rfl
      · exact foreign_err rfl
    · refine .bind (hr.part hf hv (ho x (liftK_ok.1 hx)) hk) fun l _ => ?_
      split
      · exact .kind rfl
      · split
        · dsimp only
          split
          · split
            · exact .pure _
            · exact .kind rfl
          · exact .kind rfl
        · exact .kind rfl
  · intro es' h'
    unfold unhashKey at h'
    obtain ⟨x, hx, h'⟩ := Core.bind_ok.1 h'
    obtain ⟨l, hl, h'⟩ := Core.bind_ok.1 h'
    split at h'
    · cases h'
    · next y hy =>
      have hpy : Part E.info f v y := by
        obtain ⟨e, he, rfl⟩ := get_mem_del hh hy
        exact hes.values e he
      split at h'
      · dsimp only at h'
        split at h'
        · next ks hks =>
          split at h'
          · cases h'
            have hks' : ∀ e ∈ ks, Part E.info f v e.2 := by
              rcases get_set hks with h1 | h1
              · subst h1
                exact fun e he => hpy.trans (part_value he)
              · exact hes.keys ks h1
            constructor
            · intro e he
              have := del_del he
              rw [del_set_self] at this
              rcases del_set this with h1 | h1
              · exact hes.values e h1
              · rw [h1]; exact hpy
            · intro ks' h1 e he
              have h2 := get_del hh h1
              rw [dictGet_set_str, if_pos rfl] at h2
              cases h2
              exact hks' e (dictDel_mem he)
          · cases h'
        · cases h'
      · cases h'

theorem unhashLoop_fair {rec : LRec} (hr : FairRec E rec) (hf : QuietKeys f) {v : Val} (hv : Plain E f v)
    {k : Ty} {kw : LoadKw} (hk : KwOk f kw) (hs : List Val) (hh : ∀ h ∈ hs, h ≠ .str keysKey)
    {es : List (Val × Val)} (hes : Unhashing E f v es) :
    Fair (Blamed E f v) (unhashLoop E rec k kw hs es) ∧
      ∀ es', (unhashLoop E rec k kw hs es).val = .ok es' → Unhashing E f v es' := by
  induction hs generalizing es with
  | nil => exact ⟨.pure _, fun es' h => by cases h; exact hes⟩
  | cons h hs ih =>
    obtain ⟨h1, h2⟩ := unhashKey_fair hr hf hv (k := k) hk hes (hh h List.mem_cons_self)
    rw [unhashLoop]
    have ih := fun {es} => ih (fun h h' => hh h (List.mem_cons_of_mem _ h')) (es := es)
    refine ⟨.bind h1 fun es1 h3 => (ih (h2 es1 h3)).1, fun es' h' => ?_⟩
    obtain ⟨es1, h3, h4⟩ := Core.bind_ok.1 h'
    exact (ih (h2 es1 h3)).2 es' h4

theorem loadHashedKeys_fair {rec : LRec} (hr : FairRec E rec) (hf : QuietKeys f) {v : Val} (hv : Plain E f v)
    {args : List Ty} {kw : LoadKw} (hk : KwOk f kw) :
    Fair (Blamed E f v) (loadHashedKeys E rec v args kw) ∧
      ∀ r, (loadHashedKeys E rec v args kw).val = .ok r →
        (∀ e ∈ r.1, Part E.info f v e.2) ∧ (r.2 = false → v = .dict r.1) := by
  cases v with
  | dict es =>
    have h0 : ∀ e ∈ es, Part E.info f (.dict es) e.2 := fun e he => part_value he
    simp only [loadHashedKeys]
    cases hg : dictGet es (.str keysKey) with
    | none => exact ⟨.pure _, fun r h => by cases h; exact ⟨h0, fun _ => rfl⟩⟩
    | some stored =>
      dsimp only
      cases hi : stored.iter with
      | none => exact ⟨.kind rfl, fun r h => by cases h⟩
      | some hs =>
        cases hs with
        | nil => exact ⟨.pure _, fun r h => by cases h; exact ⟨h0, fun _ => rfl⟩⟩
        | cons h hs =>
          dsimp only
          split
          · next k t =>
            by_cases hd : ∃ ks, stored = .dict ks
            · obtain ⟨ks, rfl⟩ := hd
              have hu : Unhashing E f (.dict es) es := by
                refine ⟨fun e he => h0 e (dictDel_mem he), fun ks' h' e he => ?_⟩
                rw [hg] at h'
                cases h'
                exact (part_get hg).trans (part_value he)
              have hn : ∀ x ∈ E.setOrder (h :: hs), x ≠ .str keysKey := by
                intro x hx
                have hx := (E.setOrder_perm _).mem_iff.1 hx
                simp only [Val.iter, Option.some.injEq] at hi
                rw [← hi] at hx
                obtain ⟨e, he, rfl⟩ := List.mem_map.1 hx
                exact hv es ks (.inl .refl) hg e he
              obtain ⟨h1, h2⟩ := unhashLoop_fair hr hf hv (k := k) hk _ hn hu
              refine ⟨.bind h1 fun _ _ => .pure _, fun r hr => ?_⟩
              obtain ⟨es', h3, h4⟩ := Core.bind_ok.1 hr
              cases h4
              exact ⟨(h2 es' h3).values, fun h => by cases h⟩
            · have hu : ∀ hs', unhashLoop E rec k kw hs' es = pure es ∨
                  unhashLoop E rec k kw hs' es = Res.raise { kind := .typeError } := by
                intro hs'
                cases hs' with
                | nil => exact .inl rfl
                | cons a as =>
                  right
                  rw [unhashLoop, unhashKey, hg]
                  cases stored with
                  | dict ks => exact absurd ⟨ks, rfl⟩ hd
                  | _ => rfl
              rcases hu (E.setOrder (h :: hs)) with h1 | h1 <;> rw [h1]
              · refine ⟨.pure _, fun r h => ?_⟩
                cases h
                exact ⟨fun e he => h0 e (dictDel_mem he), fun h => by cases h⟩
              · exact ⟨.kind rfl, fun r h => by cases h⟩
          · exact ⟨.src rfl rfl (.inl .refl), fun r h => by cases h⟩
  | _ => exact ⟨.kind rfl, fun r h => by cases h⟩

theorem dictComp_fair {info : Nat → ClassInfo} {g h : Val → Res Val} (es acc : List (Val × Val))
    (hg : ∀ e ∈ es, Fair S (g e.1)) (hh : ∀ e ∈ es, Fair S (h e.2)) : Fair S (dictComp info g h acc es) := by
  induction es generalizing acc with
  | nil => exact .pure _
  | cons p es ih =>
    rw [dictComp]
    refine .bind (hg p List.mem_cons_self) fun _ _ => .bind (hh p List.mem_cons_self) fun _ _ => ?_
    split
    · exact ih _ (fun e he => hg e (List.mem_cons_of_mem _ he)) fun e he => hh e (List.mem_cons_of_mem _ he)
    · exact .kind rfl

theorem dictDes_fair {rec : LRec} (hr : FairRec E rec) (hf : QuietKeys f) {v : Val} (hv : Plain E f v)
    {args : List Ty} {kw : LoadKw} (hk : KwOk f kw) : Fair (Blamed E f v) (dictDes E rec v args kw) := by
  obtain ⟨h1, h2⟩ := loadHashedKeys_fair hr hf hv (args := args) hk
  unfold dictDes
  refine .bind h1 fun r hrv => ?_
  obtain ⟨es, hashed⟩ := r
  obtain ⟨h3, h4⟩ := h2 _ hrv
  dsimp only at h3 h4 ⊢
  have hkV : KwOk f { kw with keyTransformer := some (kw.keyTransformer.getD .ok) } :=
    ⟨.inr (hk.getKt.imp (fun h => by rw [h]) fun h => by rw [h]), hk.getters⟩
  have hq := hk.quiet hf
  split
  · refine dictComp_fair _ _ (fun e he => ?_) fun e he => hr.part hf hv (h3 e he) hkV
    split
    · exact .lift (hq _)
    · next hh =>
      have hve := h4 (by simpa using hh)
      refine .bind (.lift (hq _)) fun y hy => hr.part hf hv ?_ hk.noKt
      rw [lift_val] at hy
      subst hve
      refine .single (.key _ e _ he ?_)
      rcases hk.getKt with h | h <;> rw [h] at hy
      · cases hy; exact .inl rfl
      · exact .inr hy
  · exact dictComp_fair _ _ (fun e he => .lift (hq _)) fun e he => hr.part hf hv (h3 e he) hkV

theorem defaultdictDes_fair {rec : LRec} (hr : FairRec E rec) (hf : QuietKeys f) {v : Val} (hv : Plain E f v)
    {t : Ty} {kw : LoadKw} (hk : KwOk f kw) : Fair (Blamed E f v) (defaultdictDes rec v t kw) := by
  unfold defaultdictDes
  split
  · refine .bind (.pure _) fun p _ => ?_
    refine .bind (hr.part hf hv .refl hk) fun x _ => ?_
    split
    · exact .pure _
    · exact .kind rfl
  · refine .bind (.pure _) fun p _ => ?_
    refine .bind (hr.part hf hv .refl hk) fun x _ => ?_
    split
    · exact .pure _
    · exact .kind rfl
  · exact .bind (.kind rfl) fun p h => by cases h

/-! ## Unions -/

theorem unionLoadLoop_fair {rec : LRec} (hr : FairRec E rec) (hf : QuietKeys f) {v : Val} (hv : Plain E f v)
    {t : Ty} {kw : LoadKw} (hk : KwOk f kw) (ts : List Ty) :
    Fair (Blamed E f v) (unionLoadLoop rec v t kw ts) := by
  induction ts with
  | nil => exact .src rfl rfl (.inl .refl)
  | cons a as ih =>
    rw [unionLoadLoop]
    refine .attempt (hr.part hf hv .refl hk) (fun _ _ => .pure _) fun e he => ?_
    dsimp only
    split
    · exact ih
    · exact .says he

/-! ## Objects -/

theorem canMatch_foreign {o : Option Ty} : Foreign (canMatchWithNone E o) := by
  unfold canMatchWithNone
  split
  all_goals try exact foreign_ok _
  dsimp only
  split
  · split
    · exact foreign_ok _
    · exact foreign_err rfl
  · exact foreign_ok _

theorem rebase_foreign (pre : PyStr) (es acc : List (Val × Val)) : Foreign (rebase pre acc es) := by
  induction es generalizing acc with
  | nil => exact foreign_ok _
  | cons p es ih =>
    obtain ⟨k, v⟩ := p
    rw [rebase.eq_def]
    dsimp only
    split
    · exact ih _
    · exact foreign_err rfl

theorem metaFor_names (H : Honest E) {kw : LoadKw} {n : PyStr} {k : ErrKind} (h : metaFor E kw n = .error k) :
    k = .unknownClass ∨ Mild k := by
  unfold metaFor at h
  dsimp only at h
  split at h
  · cases h
  · split at h
    · cases h
    · split at h
      · next s _ _ =>
        cases hc : E.clsFromStr kw.fork s with
        | error k' => rw [hc] at h; cases h; exact H.names _ _ _ hc
        | ok t =>
          rw [hc] at h
          cases hb : rebase ('/' :: n) [] (kw.metaHints.getD []) with
          | error k' =>
            have h' : (Except.error k' : Except ErrKind (Option Ty × List (Val × Val))) = .error k := by
              rw [← h]
              show _ = (rebase ('/' :: n) [] (kw.metaHints.getD []) >>= _)
              rw [hb]
              rfl
            cases h'
            exact .inr (mild_of_foreign (rebase_foreign _ _ _ _ hb))
          | ok hs =>
            have h' : (Except.ok (some t, hs) : Except ErrKind (Option Ty × List (Val × Val))) = .error k := by
              rw [← h]
              show _ = (rebase ('/' :: n) [] (kw.metaHints.getD []) >>= _)
              rw [hb]
              rfl
            cases h'
      · cases h; exact .inr rfl

theorem valueFromObj_fair (H : Honest E) {rec : LRec} (hr : FairRec E rec) (hf : QuietKeys f) {v : Val} (hv : Plain E f v)
    {o : Val} (ho : Part E.info f v o) {n : PyStr} {hint : Option Ty} {kw : LoadKw} (hk : KwOk f kw) :
    Fair (Blamed E f v) (valueFromObj E rec o n hint kw) := by
  unfold valueFromObj
  refine .bind (.liftS (fun k h => metaFor_names H h) (.inl ho)) fun m _ => ?_
  dsimp only
  refine .bind (.foreign (subscript_foreign _ _)) fun x hx => ?_
  exact hr.part hf hv (ho.trans (part_subscript (liftK_ok.1 hx))) ⟨hk.kt, fun g h => by cases h⟩

theorem keyIn_foreign {o : Val} {n : PyStr} : Foreign (keyIn o n) := by
  unfold keyIn
  split
  · exact foreign_ok _
  · split <;> first | exact foreign_ok _ | exact foreign_err rfl

theorem assoc_mem' {γ : Type} {l : List (PyStr × γ)} {n : PyStr} {x : γ} (h : assoc l n = some x) : (n, x) ∈ l := by
  exact assoc_mem h

theorem valueForAttr_fair (H : Honest E) {rec : LRec} (hr : FairRec E rec) (hf : QuietKeys f) {v : Val} (hv : Plain E f v)
    {o : Val} (ho : Part E.info f v o) {c : Nat} {kw : LoadKw} (hk : KwOk f kw) {p : Param} :
    Fair (Blamed E f v) (valueForAttr E rec o c kw p) := by
  unfold valueForAttr
  dsimp only
  refine .bind (.foreign keyIn_foreign) fun b _ => ?_
  split
  · exact .bind (valueFromObj_fair H hr hf hv ho hk) fun _ _ => .pure _
  · split
    · next g hg => exact .bind (.lift (hk.getters _ (assoc_mem' hg))) fun _ _ => .pure _
    · split
      · exact .pure _
      · split
        · exact .pure _
        · refine .bind (.foreign canMatch_foreign) fun b _ => ?_
          split
          · exact .pure _
          · exact .src rfl rfl (.inl ho)

theorem ctorArgs_fair (H : Honest E) {rec : LRec} (hr : FairRec E rec) (hf : QuietKeys f) {v : Val} (hv : Plain E f v)
    {o : Val} (ho : Part E.info f v o) {c : Nat} {kw : LoadKw} (hk : KwOk f kw) (ps : List Param) :
    Fair (Blamed E f v) (ctorArgs E rec o c kw ps) := by
  induction ps with
  | nil => exact .pure _
  | cons p ps ih =>
    rw [ctorArgs]
    refine .bind (valueForAttr_fair H hr hf hv ho hk) fun a _ => .bind ih fun as _ => ?_
    split <;> exact .pure _

theorem remainingAttrs_foreign {o : Val} {as : List (PyStr × Val)} : Foreign (remainingAttrs o as) := by
  unfold remainingAttrs
  split
  · exact foreign_ok _
  · split
    · exact foreign_ok _
    · exact foreign_err rfl

theorem remainingAttrs_part {o : Val} {as : List (PyStr × Val)} {rest : List (Val × Val)}
    (h : remainingAttrs o as = .ok rest) : ∀ e ∈ rest, Part E.info f o e.2 := by
  unfold remainingAttrs at h
  split at h
  · cases h
    exact fun e he => part_value (List.mem_of_mem_filter he)
  · split at h
    · cases h
      exact fun e he => by cases he
    · cases h

theorem getRemainingArgs_fair {v o : Val} (ho : Part E.info f v o) {c : Nat} {as : List (PyStr × Val)} {b : Bool} :
    Fair (Blamed E f v) (getRemainingArgs o c as b) := by
  unfold getRemainingArgs
  refine .bind (.foreign remainingAttrs_foreign) fun rest _ => ?_
  split
  · split
    · exact .src rfl rfl (.inl ho)
    · exact .pure _
  · exact .pure _

theorem getRemainingArgs_part {o : Val} {c : Nat} {as : List (PyStr × Val)} {b : Bool} {rest : List (Val × Val)}
    (h : (getRemainingArgs o c as b).val = .ok rest) : ∀ e ∈ rest, Part E.info f o e.2 := by
  unfold getRemainingArgs at h
  obtain ⟨r, hr, h⟩ := Core.bind_ok.1 h
  have : r = rest := by
    split at h
    · split at h <;> cases h
      rfl
    · cases h; rfl
  subst this
  exact remainingAttrs_part (liftK_ok.1 hr)

theorem setOne_quiet (H : Honest E) {c : Nat} {as : List (PyStr × Val)} {k y : Val} {e : Err}
    (h : setOne E c as k y = .error e) : Quiet e := by
  unfold setOne at h
  split at h
  · split at h
    · cases h
    · next he =>
      split at h
      · cases h
      · cases h; exact H.setAttr _ _ _ _ _ he
  · cases h; exact ⟨rfl, rfl⟩

theorem setRemaining_fair (H : Honest E) {rec : LRec} (hr : FairRec E rec) (hf : QuietKeys f) {v : Val} (hv : Plain E f v)
    {c : Nat} {kw : LoadKw} (hk : KwOk f kw) (es : List (Val × Val)) (as : List (PyStr × Val))
    (hes : ∀ e ∈ es, Part E.info f v e.2) : Fair (Blamed E f v) (setRemaining E rec c kw es as) := by
  induction es generalizing as with
  | nil => exact .pure _
  | cons p es ih =>
    obtain ⟨k, x⟩ := p
    rw [setRemaining]
    refine .bind ?_ fun _ _ => ?_
    · unfold warnHashed
      split
      · exact .warn _ _ _ _
      · exact .pure _
    refine .bind (hr.part hf hv (hes (k, x) List.mem_cons_self) ⟨hk.kt, fun g h => by cases h⟩) fun y _ => ?_
    exact .bind (.lift fun e h => setOne_quiet H h) fun as' _ => ih as' fun e he => hes e (List.mem_cons_of_mem _ he)

theorem setGetters_quiet (H : Honest E) {c : Nat} (gs : List (PyStr × Except Err Val)) (as : List (PyStr × Val))
    (hg : ∀ g ∈ gs, ∀ e, g.2 = .error e → Quiet e) : ∀ e, setGetters E c gs as = .error e → Quiet e := by
  induction gs generalizing as with
  | nil => intro e h; cases h
  | cons p gs ih =>
    obtain ⟨n, g⟩ := p
    intro e h
    rw [setGetters] at h
    cases g with
    | error e' => cases h; exact hg _ List.mem_cons_self _ rfl
    | ok x =>
      cases hs : E.setAttr c as n x with
      | error e' =>
        have h' : (Except.error e' : Except Err (List (PyStr × Val))) = .error e := by
          rw [← h]
          show _ = (E.setAttr c as n x >>= _)
          rw [hs]
          rfl
        cases h'
        exact H.setAttr _ _ _ _ _ hs
      | ok as' =>
        refine ih as' (fun g h => hg g (List.mem_cons_of_mem _ h)) e ?_
        rw [← h]
        show _ = (E.setAttr c as n x >>= _)
        rw [hs]
        rfl

theorem transformObj_quiet (hf : QuietKeys f) {v : Val} {kw : LoadKw} (hk : KwOk f kw) :
    (∀ e, transformObj E.info v kw.keyTransformer = .error e → Quiet e) ∧
      ∀ o, transformObj E.info v kw.keyTransformer = .ok o → Part E.info f v o := by
  unfold transformObj
  split
  · exact ⟨(fun e h => by cases h), fun o h => by cases h; exact .refl⟩
  · next g hg =>
    have hgf : g = .ok ∨ g = f := by
      rcases hk.kt with h | h | h <;> rw [hg] at h <;> cases h
      · exact .inl rfl
      · exact .inr rfl
    have hq : QuietKeys g := by
      rcases hgf with rfl | rfl
      · exact quiet_ok
      · exact hf
    split
    · next es =>
      constructor
      · intro e h
        cases ht : transformKeys E.info g [] es with
        | ok ts => rw [ht] at h; cases h
        | error e' => rw [ht] at h; cases h; exact transformKeys_quiet hq _ _ _ ht
      · intro o h
        cases ht : transformKeys E.info g [] es with
        | error e' => rw [ht] at h; cases h
        | ok ts => rw [ht] at h; cases h; exact .single (.renamed es ts g hgf ht)
    · split
      · next hi => exact ⟨(fun e h => by cases h), fun o h => by cases h; exact .single (.emptied _ hi)⟩
      · exact ⟨(fun e h => by cases h; exact ⟨rfl, rfl⟩), fun o h => by cases h⟩

theorem objectDes_fair (H : Honest E) {rec : LRec} (hr : FairRec E rec) (hf : QuietKeys f) {v : Val} (hv : Plain E f v)
    {t : Ty} {kw : LoadKw} (hk : KwOk f kw) : Fair (Blamed E f v) (objectDes E rec v t kw) := by
  unfold objectDes
  split
  · next c =>
    obtain ⟨h1, h2⟩ := transformObj_quiet (E := E) hf (v := v) hk
    refine .bind (.lift h1) fun o ho => ?_
    have ho := h2 o (by rwa [lift_val] at ho)
    refine .bind (ctorArgs_fair H hr hf hv ho hk _) fun as _ => ?_
    refine .bind (getRemainingArgs_fair ho) fun rest hrest => ?_
    refine .bind (.lift fun e h => H.construct _ _ _ h) fun as' _ => ?_
    refine .bind (setRemaining_fair H hr hf hv hk _ _ fun e he =>
      ho.trans (getRemainingArgs_part hrest e he)) fun as'' _ => ?_
    exact .bind (.lift (setGetters_quiet H _ _ hk.getters)) fun _ _ => .pure _
  · exact H.foreign f rec v _ kw hr hf hv hk

/-! ## `load` -/

theorem callDes_fair (H : Honest E) {rec : LRec} (hr : FairRec E rec) (hf : QuietKeys f) {v : Val} (hv : Plain E f v)
    (hc : v.cls ∈ validTypes) {fn : DesFn} {t : Ty} {kw : LoadKw} (hk : KwOk f kw) :
    Fair (Blamed E f v) (callDes E rec fn v t kw) := by
  cases fn with
  | list => exact .bind (listDes_fair hr hf hv hc hk) fun _ _ => .pure _
  | tuple => exact tupleDes_fair hr hf hv hc hk
  | union =>
    simp only [callDes, unionDes]
    split
    · exact .kind rfl
    · exact unionLoadLoop_fair hr hf hv hk _
  | defaultdict => exact defaultdictDes_fair hr hf hv hk
  | datetime => exact datetimeDes_fair
  | date => exact dateDes_fair
  | time => exact timeDes_fair
  | timezone => exact timezoneDes_fair hr hf hv
  | timedelta => exact timedeltaDes_fair
  | string => exact stringDes_fair H hr hf hv hk
  | noneType =>
    simp only [callDes, noneTypeDes]
    split
    · exact .pure _
    · exact .src rfl rfl (.inl .refl)
  | primitive => exact primitiveDes_fair H
  | enum => exact enumDes_fair
  | mapping => exact .bind (dictDes_fair hr hf hv hk) fun _ _ => .pure _
  | iterable => exact iterableDes_fair hr hf hv hc hk
  | object => exact objectDes_fair H hr hf hv hk
  | uuid => exact .foreign (foreign_map (H.uuid _))
  | complex => exact complexDes_fair hr hv
  | decimal => exact .foreign (foreign_map (H.decimal _))
  | path => exact .foreign (foreign_map (H.path _))
  | zoneinfo => exact .bind (.foreign (subscript_foreign _ _)) fun k _ => .foreign (foreign_map (H.zone _))
  | custom i => exact H.custom i f rec v t kw hr hf hv hk

theorem validate_fair (H : Honest E) {v : Val} {t : Ty} {i : Nat} : Fair S (validate E v t i) := by
  unfold validate
  refine .bind (.liftK fun k h => H.vals _ _ _ h) fun o _ => ?_
  split
  · exact .pure _
  · split
    · exact .pure _
    · exact .quiet ⟨rfl, rfl⟩
    · exact .quiet ⟨rfl, rfl⟩

theorem doLoad_fair (H : Honest E) {rec : LRec} (hr : FairRec E rec) (hf : QuietKeys f) {v : Val} (hv : Plain E f v)
    (hc : v.cls ∈ validTypes) {fn : Option DesFn} {t : Ty} {kw : LoadKw} (hk : KwOk f kw) :
    Fair (Blamed E f v) (doLoad E rec fn v t kw) := by
  unfold doLoad
  split
  · exact .src rfl rfl (.inl .refl)
  · dsimp only
    refine .attempt (T := Blamed E f v)
      (.bind (callDes_fair H hr hf hv hc hk) fun r _ => .bind (validate_fair H) fun _ _ => .pure _)
      (fun _ _ => .pure _) fun e he => ?_
    dsimp only
    split
    · exact .says he
    · exact .src rfl rfl (.inl .refl)

theorem getClsAndMeta_names (H : Honest E) {v : Val} {i : Nat} {k : ErrKind} (h : getClsAndMeta E v i = .error k) :
    k = .unknownClass ∨ Mild k := by
  unfold getClsAndMeta at h
  split at h
  · split at h
    · cases h
    · next m _ =>
      cases h1 : subscript m "classes".toList with
      | error k' => rw [h1] at h; cases h; exact .inr (mild_of_foreign (subscript_foreign _ _ _ h1))
      | ok cs =>
        rw [h1] at h
        cases h2 : subscript cs "/".toList with
        | error k' =>
          have h' : (Except.error k' : Except ErrKind (Option (Ty × List (Val × Val)))) = .error k := by
            rw [← h]
            show _ = (subscript cs "/".toList >>= _)
            rw [h2]
            rfl
          cases h'
          exact .inr (mild_of_foreign (subscript_foreign _ _ _ h2))
        | ok nm =>
          change (subscript cs "/".toList >>= _) = _ at h
          rw [h2] at h
          change (match nm, cs with
            | .str s, .dict hints => _
            | _, _ => _) = _ at h
          split at h
          · next s hints =>
            cases h3 : E.clsFromStr i s with
            | error k' => rw [h3] at h; cases h; exact H.names _ _ _ h3
            | ok t => rw [h3] at h; cases h
          · cases h; exact .inr rfl
  · cases h

theorem loadFrom_fair (H : Honest E) {rec : LRec} (hr : FairRec E rec) (hf : QuietKeys f) {v : Val} (hv : Plain E f v)
    {cls : Option Ty} {kw : LoadKw} (hk : KwOk f kw) : Fair (Blamed E f v) (loadFrom E rec v cls kw) := by
  unfold loadFrom
  split
  · exact .src rfl rfl (.inl .refl)
  · next hc =>
    refine .bind (.liftS (fun k h => getClsAndMeta_names H h) (.inl .refl)) fun m _ => ?_
    dsimp only
    refine .bind (.liftK fun k h => H.desers _ _ _ h) fun fn _ => ?_
    exact doLoad_fair H hr hf hv (by simpa using hc) ⟨hk.kt, hk.getters⟩

theorem loadWith_fair (H : Honest E) {rec : LRec} (hr : FairRec E rec) : FairRec E (loadWith E rec) := by
  intro f v cls kw hf hv hk
  unfold loadWith
  refine .bind ?_ fun _ _ => ?_
  · unfold checkForNone
    split
    · refine .bind (.foreign canMatch_foreign) fun b _ => ?_
      split
      · exact .pure _
      · exact .src rfl rfl (.inl .refl)
    · exact .pure _
  · split
    · exact .bind (validate_fair H) fun _ _ => .pure _
    · exact loadFrom_fair H hr hf hv hk

theorem loadRec_fair (H : Honest E) (n : Nat) : FairRec E (loadRec E n) := by
  induction n with
  | zero => exact fun f v cls kw _ _ _ => .kind rfl
  | succ n ih => exact loadWith_fair H ih

/-! ## What is blamed -/

/-- One step into a document: to an element, a character, a key or a value. -/
inductive Into : Val → Val → Prop where
  | elem (k : SeqKind) (xs : List Val) (x : Val) : x ∈ xs → Into (.seq k xs) x
  | char (s : PyStr) (c : Char) : c ∈ s → Into (.str s) (.str [c])
  | key (es : List (Val × Val)) (e : Val × Val) : e ∈ es → Into (.dict es) e.1
  | value (es : List (Val × Val)) (e : Val × Val) : e ∈ es → Into (.dict es) e.2

/-- A document and what is in it, at any depth. -/
def Inside : Val → Val → Prop := Relation.ReflTransGen Into

/-- The dicts of a document are dicts; hashes of keys are stored under other keys than `'-keys'`. -/
def Wf (info : Nat → ClassInfo) (v : Val) : Prop :=
  ∀ es, Inside v (.dict es) → DictOk info es ∧
    ∀ ks, dictGet es (.str keysKey) = some (.dict ks) → ∀ e ∈ ks, e.1 ≠ .str keysKey

/-- In a document, or the empty dict if there is something empty in the document. -/
def InsideOr (v s : Val) : Prop := Inside v s ∨ s = .dict [] ∧ ∃ x, Inside v x ∧ x.iter = some []

theorem part_inside {info : Nat → ClassInfo} {v s : Val} (hv : Wf info v) (h : Part info .ok v s) :
    InsideOr v s := by
  induction h with
  | refl => exact .inl .refl
  | tail _ hs ih =>
    rcases ih with ih | ⟨rfl, ih⟩
    · cases hs with
      | elem k xs x h => exact .inl (ih.tail (.elem k xs _ h))
      | char s c h => exact .inl (ih.tail (.char s c h))
      | key es e k h hk =>
        have hk := hk.elim id fun h => by cases h; rfl
        subst hk
        exact .inl (ih.tail (.key es e h))
      | value es e h => exact .inl (ih.tail (.value es e h))
      | renamed es ts g hg h =>
        have hg : g = .ok := hg.elim id id
        subst hg
        rw [transformKeys_id es [] (hv es ih).1 (fun a h => by cases h), List.nil_append] at h
        cases h
        exact .inl ih
      | emptied _ h => exact .inr ⟨rfl, _, ih, h⟩
    · refine .inr ⟨?_, ih⟩
      cases hs with
      | key es e k h hk => cases h
      | value es e h => cases h
      | renamed es ts g hg h => cases h; rfl
      | emptied x h => rfl

theorem Wf.plain (hd : ∀ d, Absent E d → Wf E.info d) {v : Val} (hv : Wf E.info v) : Plain E .ok v := by
  have key : ∀ w, Wf E.info w → ∀ es ks, Part E.info .ok w (.dict es) →
      dictGet es (.str keysKey) = some (.dict ks) → ∀ e ∈ ks, e.1 ≠ .str keysKey := by
    intro w hw es ks h hg
    rcases part_inside hw h with h | ⟨h, _⟩
    · exact (hw es h).2 ks hg
    · cases h; cases hg
  rintro es ks (h | ⟨d, had, h⟩) hg
  · exact key v hv es ks h hg
  · exact key d (hd d had) es ks h hg

/-- C94: if `load` raises a `DeserializationError`, the exception has a source, which is a part of
the document (with the keys as the key transformer makes them), or of a default of a named tuple;
every other exception has none. -/
theorem blames_part_partial (H : Honest E) (n : Nat) (v : Val) (cls : Option Ty) (kw : LoadKw) (hf : QuietKeys f)
    (hk : KwOk f kw) (hv : Plain E f v) (e : Err) (h : (load E n v cls kw).val = .error e) :
    (e.kind.isDeserializationError = true → ∃ s, e.source = some s ∧ Blamed E f v s) ∧
      (e.kind.isDeserializationError = false → e.source = none) := by
  rcases loadRec_fair H n f v cls kw hf hv hk e h with ⟨s, h1, h2, h3⟩ | ⟨h1, h2⟩
  · exact ⟨fun _ => ⟨s, h1, h2⟩, fun h' => by rw [h3] at h'; cases h'⟩
  · refine ⟨fun h' => ?_, fun _ => h1⟩
    rw [Mild, h'] at h2
    cases h2

/-- C94, without a key transformer: the source is in the document, or in a default of a named tuple,
as it is; but it may be `{}` for something else that is empty. -/
theorem blames_inside_partial (H : Honest E) (n : Nat) (v : Val) (cls : Option Ty) (kw : LoadKw)
    (hk : kw.keyTransformer = none) (hg : ∀ g ∈ kw.attrGetters, ∀ e, g.2 = .error e → Quiet e)
    (hv : Wf E.info v) (hd : ∀ d, Absent E d → Wf E.info d) (e : Err) (h : (load E n v cls kw).val = .error e)
    (he : e.kind.isDeserializationError = true) :
    ∃ s, e.source = some s ∧ (InsideOr v s ∨ ∃ d, Absent E d ∧ InsideOr d s) := by
  obtain ⟨s, h1, h2⟩ := (blames_part_partial H n v cls kw quiet_ok ⟨.inl hk, hg⟩ (hv.plain hd) e h).1 he
  exact ⟨s, h1, h2.imp (part_inside hv) fun ⟨d, h3, h4⟩ => ⟨d, h3, part_inside (hd d h3) h4⟩⟩

/-- C94, if the class is given by name. -/
theorem blames_by_name_partial (H : Honest E) (n : Nat) (v : Val) (name : PyStr) (kw : LoadKw) (hf : QuietKeys f)
    (hk : KwOk f kw) (hv : Plain E f v) (e : Err) (h : (loadByName E n v name kw).val = .error e) :
    (e.kind.isDeserializationError = true → ∃ s, e.source = some s ∧ Blamed E f v s) ∧
      (e.kind.isDeserializationError = false → e.source = none) := by
  have hx : Fair (Blamed E f v) (loadByName E n v name kw) := by
    unfold loadByName
    split
    · split
      · exact .kind rfl
      · exact .src rfl rfl (.inl .refl)
    · exact .bind (.liftS (fun k h => H.names _ _ _ h) (.inl .refl)) fun t _ =>
        loadFrom_fair H (loadRec_fair H n) hf hv hk
  rcases hx e h with ⟨s, h1, h2, h3⟩ | ⟨h1, h2⟩
  · exact ⟨fun _ => ⟨s, h1, h2⟩, fun h' => by rw [h3] at h'; cases h'⟩
  · refine ⟨fun h' => ?_, fun _ => h1⟩
    rw [Mild, h'] at h2
    cases h2

/-! ## Examples -/

theorem demo_honest (info : Nat → ClassInfo) (hn : NamesOk info desNames) : Honest (demoLEnv info) where
  desers := fun i t k h => by
    have := getLizer_desFn info hn t
    change (demoLEnv info).getDes i t = _ at this
    rw [this] at h
    cases h
  vals := fun i t k h => by
    have := getLizer_empty (L := Nat) info t
    change (demoLEnv info).getVal i t = _ at this
    rw [this] at h
    cases h
  names := fun i s k h => by
    simp only [demoLEnv] at h
    repeat' split at h
    all_goals cases h
    exact .inl rfl
  construct := fun c as e h => by cases h
  setAttr := fun c as n v e h => by cases h
  ints := fun v k h => by cases h; rfl
  floats := fun v k h => by cases h; rfl
  uuid := fun v k h => by simp only [demoLEnv] at h; split at h <;> cases h; rfl
  decimal := fun v k h => by simp only [demoLEnv] at h; split at h <;> cases h; rfl
  path := fun v k h => by simp only [demoLEnv] at h; split at h <;> cases h; rfl
  zone := fun v k h => by simp only [demoLEnv] at h; split at h <;> cases h; rfl
  foreign := fun f rec v t kw _ _ _ _ => .kind rfl
  custom := fun i f rec v t kw _ _ _ _ => .kind rfl

theorem inside_atom {a : Atom} {v : Val} (h : Inside (.atom a) v) : ∃ b, v = .atom b := by
  induction h with
  | refl => exact ⟨a, rfl⟩
  | tail _ h ih =>
    obtain ⟨b, rfl⟩ := ih
    cases h
    exact ⟨_, rfl⟩

theorem Wf.atom {info : Nat → ClassInfo} (a : Atom) : Wf info (.atom a) := by
  intro es h
  obtain ⟨b, hb⟩ := inside_atom h
  cases hb

theorem Wf.seq {info : Nat → ClassInfo} {k : SeqKind} {xs : List Val} (h : ∀ x ∈ xs, Wf info x) :
    Wf info (.seq k xs) := by
  intro es hi
  rcases Relation.ReflTransGen.cases_head hi with h' | ⟨x, h1, h2⟩
  · cases h'
  · cases h1 with
    | elem _ _ _ hx => exact h x hx es h2

theorem Wf.dict {info : Nat → ClassInfo} {es : List (Val × Val)} (h : ∀ e ∈ es, Wf info e.1 ∧ Wf info e.2)
    (hd : DictOk info es) (hk : dictGet es (.str keysKey) = none) : Wf info (.dict es) := by
  intro es' hi
  rcases Relation.ReflTransGen.cases_head hi with h' | ⟨x, h1, h2⟩
  · cases h'
    exact ⟨hd, fun ks h => by rw [hk] at h; cases h⟩
  · cases h1 with
    | key _ e he => exact (h e he).1 es' h2
    | value _ e he => exact (h e he).2 es' h2

/-- The source of the exception, if it is one with a source. -/
def sourceOf (x : Res Val) : Option Val :=
  match x.val with
  | .ok _ => none
  | .error e => e.source

/-- `[{'x': 1}, {'x': 'a'}]` -/
def sample : Val := .list [.dict [(.str "x".toList, .int 1)], .dict [(.str "x".toList, .str "a".toList)]]

/-- `load([{'x': 1}, {'x': 'a'}], List[Point])` blames `'a'`. -/
example : sourceOf (load (demoLEnv demoInfo) 9 sample (some (.gen .list [.cls (.user 0)])) {}) =
    some (.str "a".toList) := by rfl

theorem demo_absent (d : Val) (h : Absent (demoLEnv demoInfo) d) : d = .none := by
  obtain ⟨c, hc, n, hn, rfl⟩ := h
  match c with
  | 1 => rfl
  | 0 | 2 | 3 | 4 | 5 => cases hc
  | c + 6 => cases hc

theorem sample_wf : Wf demoInfo sample := by
  refine .seq fun x hx => ?_
  simp only [List.mem_cons, List.not_mem_nil, or_false] at hx
  rcases hx with rfl | rfl
  · refine .dict (fun e he => ?_) ⟨List.pairwise_singleton _ _, ?_⟩ rfl
    · rw [List.mem_singleton] at he
      subst he
      exact ⟨.atom _, .atom _⟩
    · intro e he
      rw [List.mem_singleton] at he
      subst he
      rfl
  · refine .dict (fun e he => ?_) ⟨List.pairwise_singleton _ _, ?_⟩ rfl
    · rw [List.mem_singleton] at he
      subst he
      exact ⟨.atom _, .atom _⟩
    · intro e he
      rw [List.mem_singleton] at he
      subst he
      rfl

/-- The hypotheses hold for it. -/
example (e : Err)
    (h : (load (demoLEnv demoInfo) 9 sample (some (.gen .list [.cls (.user 0)])) {}).val = .error e)
    (he : e.kind.isDeserializationError = true) :
    ∃ s, e.source = some s ∧ (InsideOr sample s ∨ ∃ d, Absent (demoLEnv demoInfo) d ∧ InsideOr d s) :=
  blames_inside_partial (demo_honest demoInfo demo_desNames) 9 sample _ {} rfl (fun g h => by cases h) sample_wf
    (fun d hd => by rw [demo_absent d hd]; exact .atom _) e h he

/-- `[{'x': 1}, {}]` as `List[Point]` blames `{}`, for the parameter that is missing. -/
example : sourceOf (load (demoLEnv demoInfo) 9 (.list [.dict [(.str "x".toList, .int 1)], .dict []])
    (some (.gen .list [.cls (.user 0)])) {}) = some (.dict []) := by rfl

/-- C94 fails for what is empty: the values of a dict are loaded with a key transformer, which makes
a dict of them. So `load({'a': ''}, Dict[str, Point])` blames `{}`, which is not in the document. -/
theorem blames_other_empty :
    sourceOf (load (demoLEnv demoInfo) 9 (.dict [(.str "a".toList, .str [])])
      (some (.gen .dict [.cls .str, .cls (.user 0)])) {}) = some (.dict []) ∧
    ¬ Inside (.dict [(.str "a".toList, .str [])]) (.dict []) := by
  refine ⟨by rfl, fun h => ?_⟩
  rcases Relation.ReflTransGen.cases_head h with h' | ⟨x, h1, h2⟩
  · cases h'
  · have hx : ∃ a, x = .atom a := by
      cases h1 with
      | key _ e he => rw [List.mem_singleton] at he; subst he; exact ⟨_, rfl⟩
      | value _ e he => rw [List.mem_singleton] at he; subst he; exact ⟨_, rfl⟩
    obtain ⟨a, rfl⟩ := hx
    obtain ⟨b, hb⟩ := inside_atom h2
    cases hb

/-- A key transformer that drops the first character. -/
def behead : Val → Except Err Val
  | .str (_ :: s) => .ok (.str s)
  | v => .ok v

/-- C94 fails with a key transformer: `load({'_z': 1}, Point, key_transformer=f)` blames `{'z': 1}`, which is
not in the document. -/
theorem blames_other_renamed :
    sourceOf (load (demoLEnv demoInfo) 9 (.dict [(.str "_z".toList, .int 1)]) (some (.cls (.user 0)))
      { keyTransformer := some behead }) = some (.dict [(.str "z".toList, .int 1)]) ∧
    ¬ Inside (.dict [(.str "_z".toList, .int 1)]) (.dict [(.str "z".toList, .int 1)]) := by
  refine ⟨by rfl, fun h => ?_⟩
  rcases Relation.ReflTransGen.cases_head h with h' | ⟨x, h1, h2⟩
  · exact absurd h' (by decide)
  · have hx : ∃ a, x = .atom a := by
      cases h1 with
      | key _ e he => rw [List.mem_singleton] at he; subst he; exact ⟨_, rfl⟩
      | value _ e he => rw [List.mem_singleton] at he; subst he; exact ⟨_, rfl⟩
    obtain ⟨a, rfl⟩ := hx
    obtain ⟨b, hb⟩ := inside_atom h2
    cases hb

/-- A named tuple with a field `first: int = 'q'`. -/
def oddInfo (c : Nat) : ClassInfo :=
  { demoInfo c with fieldDefaults := [("first".toList, .str "q".toList)], hints := [("first".toList, .cls .int)] }

/-- C94 fails for defaults of named tuples, which are loaded too: `load([], Odd)` of
`class Odd(NamedTuple): first: int = 'q'` blames `'q'`, which is not in the document. -/
theorem blames_default :
    sourceOf (load (demoLEnv oddInfo) 9 (.list []) (some (.cls (.user 1))) {}) = some (.str "q".toList) ∧
    ¬ Inside (.list []) (.str "q".toList) := by
  refine ⟨by rfl, fun h => ?_⟩
  rcases Relation.ReflTransGen.cases_head h with h' | ⟨x, h1, h2⟩
  · cases h'
  · cases h1 with
    | elem _ _ _ hx => cases hx

end Verif.Props.Blame
