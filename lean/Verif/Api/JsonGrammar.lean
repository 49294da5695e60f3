import Verif.Api.JsonText
import Mathlib.Data.List.Basic
import Mathlib.Tactic.IntervalCases
import Verif.Core.DumpLemmas

/-!
# The grammar of JSON, and that `jsonLoads` reads exactly its texts

The grammar is that of RFC 8259, written down without the functions of the model.
-/

set_option autoImplicit false

namespace Verif.Api
open Verif Verif.Core

/-! ## The grammar -/

/-- White space. -/
def Ws (w : PyStr) : Prop := ∀ c ∈ w, c = ' ' ∨ c = '\t' ∨ c = '\n' ∨ c = '\r'

/-- One or more digits. -/
def Digits (ds : PyStr) : Prop := ds ≠ [] ∧ ∀ d ∈ ds, d.isDigit = true

/-- A natural number without leading zeros. -/
def NatText (ds : PyStr) : Prop :=
  ds = ['0'] ∨ ∃ c r, ds = c :: r ∧ c ≠ '0' ∧ ∀ d ∈ ds, d.isDigit = true

/-- A sign in front of a number. -/
def MinusText (s : PyStr) : Prop := s = [] ∨ s = ['-']

/-- A fraction, or nothing. -/
def FracText (f : PyStr) : Prop := f = [] ∨ ∃ ds, f = '.' :: ds ∧ Digits ds

/-- An exponent, or nothing. -/
def ExpText (t : PyStr) : Prop :=
  t = [] ∨ ∃ e sg ds, t = e :: (sg ++ ds) ∧ (e = 'e' ∨ e = 'E') ∧
    (sg = [] ∨ sg = ['+'] ∨ sg = ['-']) ∧ Digits ds

/-- A hexadecimal digit and its number. -/
def HexText (c : Char) (k : Nat) : Prop :=
  "0123456789abcdef".toList[k]? = some c ∨ "0123456789ABCDEF".toList[k]? = some c

/-- Four hexadecimal digits and their number. -/
def Hex4Text (t : PyStr) (n : Nat) : Prop :=
  ∃ a b c d i j k l, t = [a, b, c, d] ∧ HexText a i ∧ HexText b j ∧ HexText c k ∧ HexText d l ∧
    n = i * 4096 + j * 256 + k * 16 + l

/-- The characters with an escape of their own. -/
def escapes : List (Char × Char) :=
  [('"', '"'), ('\\', '\\'), ('/', '/'), ('b', Char.ofNat 8), ('f', Char.ofNat 12), ('n', '\n'),
    ('r', '\r'), ('t', '\t')]

/-- The texts of a character inside a string. -/
inductive CharText : PyStr → Char → Prop
  | plain (c : Char) : c ≠ '"' → c ≠ '\\' → 32 ≤ c.toNat → CharText [c] c
  | escape (e c : Char) : (e, c) ∈ escapes → CharText ['\\', e] c
  | unicode (t : PyStr) (n : Nat) : Hex4Text t n → ¬ (0xd800 ≤ n ∧ n < 0xe000) →
      CharText ('\\' :: 'u' :: t) (Char.ofNat n)
  | pair (t u : PyStr) (n m : Nat) : Hex4Text t n → Hex4Text u m → 0xd800 ≤ n → n < 0xdc00 →
      0xdc00 ≤ m → m < 0xe000 →
      CharText ('\\' :: 'u' :: (t ++ '\\' :: 'u' :: u))
        (Char.ofNat (0x10000 + (n - 0xd800) * 1024 + (m - 0xdc00)))

/-- The texts of a string, without the quotation marks. -/
inductive StrText : PyStr → PyStr → Prop
  | nil : StrText [] []
  | cons {t ts : PyStr} {c : Char} {s : PyStr} : CharText t c → StrText ts s →
      StrText (t ++ ts) (c :: s)

/-- The dict that the pairs of an object stand for: a key keeps the place where it is
first and has the value it has last. -/
structure DictOf (ps : List (PyStr × Val)) (d : List (Val × Val)) : Prop where
  keys : d.map Prod.fst = (ps.map Prod.fst).eraseDups.map Val.str
  values : ∀ k v, (Val.str k, v) ∈ d ↔ ∃ a b, ps = a ++ (k, v) :: b ∧ ∀ e ∈ b, e.1 ≠ k

mutual
/-- The texts of a value. -/
inductive JText (F : FloatText) : PyStr → Val → Prop
  | null : JText F "null".toList .none
  | true : JText F "true".toList (.bool true)
  | false : JText F "false".toList (.bool false)
  | int {sg ds : PyStr} : MinusText sg → NatText ds →
      JText F (sg ++ ds)
        (.int (if sg = [] then Nat.ofDigitChars 10 ds 0 else - (Nat.ofDigitChars 10 ds 0 : Int)))
  | float {sg ds f e : PyStr} : MinusText sg → NatText ds → FracText f → ExpText e →
      ¬ (f = [] ∧ e = []) → JText F (sg ++ ds ++ f ++ e) (.float (F.parse (sg ++ ds ++ f ++ e)))
  | str {t s : PyStr} : StrText t s → JText F ('"' :: (t ++ ['"'])) (.str s)
  | emptyArray {w : PyStr} : Ws w → JText F ('[' :: (w ++ [']'])) (.list [])
  | array {t : PyStr} {vs : List Val} : ItemsText F t vs → JText F ('[' :: (t ++ [']'])) (.list vs)
  | emptyObject {w : PyStr} : Ws w → JText F ('{' :: (w ++ ['}'])) (.dict [])
  | object {t : PyStr} {ps : List (PyStr × Val)} {d : List (Val × Val)} : MembersText F t ps →
      DictOf ps d → JText F ('{' :: (t ++ ['}'])) (.dict d)
/-- The texts of one or more values with commas between them. -/
inductive ItemsText (F : FloatText) : PyStr → List Val → Prop
  | one {w t w' : PyStr} {v : Val} : Ws w → JText F t v → Ws w' →
      ItemsText F (w ++ (t ++ w')) [v]
  | more {w t w' ts : PyStr} {v : Val} {vs : List Val} : Ws w → JText F t v → Ws w' →
      ItemsText F ts vs → ItemsText F (w ++ (t ++ (w' ++ ',' :: ts))) (v :: vs)
/-- The texts of one or more pairs of a key and a value with commas between them. -/
inductive MembersText (F : FloatText) : PyStr → List (PyStr × Val) → Prop
  | one {w k w1 w2 t w3 s : PyStr} {v : Val} : Ws w → StrText k s → Ws w1 → Ws w2 →
      JText F t v → Ws w3 →
      MembersText F (w ++ '"' :: (k ++ '"' :: (w1 ++ ':' :: (w2 ++ (t ++ w3))))) [(s, v)]
  | more {w k w1 w2 t w3 s ts : PyStr} {v : Val} {es : List (PyStr × Val)} : Ws w → StrText k s →
      Ws w1 → Ws w2 → JText F t v → Ws w3 → MembersText F ts es →
      MembersText F (w ++ '"' :: (k ++ '"' :: (w1 ++ ':' :: (w2 ++ (t ++ (w3 ++ ',' :: ts))))))
        ((s, v) :: es)
end

/-- A JSON text: a value with white space around it. -/
def JDoc (F : FloatText) (s : PyStr) (v : Val) : Prop :=
  ∃ w t w', s = w ++ (t ++ w') ∧ Ws w ∧ JText F t v ∧ Ws w'

/-! ## Repeated keys -/

theorem keys_eq {l l' : List (Val × Val)} (h : l.map Prod.fst = l'.map Prod.fst)
    (hn : (l.map Prod.fst).Nodup) (hm : ∀ e ∈ l, e ∈ l') : l = l' := by
  induction l generalizing l' with
  | nil =>
    cases l' with
    | nil => rfl
    | cons e l' => cases h
  | cons e l ih =>
    cases l' with
    | nil => cases h
    | cons e' l' =>
      obtain ⟨k, v⟩ := e
      obtain ⟨k', v'⟩ := e'
      simp only [List.map_cons, List.cons.injEq] at h
      obtain ⟨rfl, ht⟩ := h
      rw [List.map_cons, List.nodup_cons] at hn
      have hv : v = v' := by
        rcases List.mem_cons.mp (hm (k, v) List.mem_cons_self) with e | e
        · cases e; rfl
        · exact absurd (ht ▸ List.mem_map.mpr ⟨_, e, rfl⟩) hn.1
      subst hv
      rw [ih ht hn.2]
      intro e he
      rcases List.mem_cons.mp (hm e (List.mem_cons_of_mem _ he)) with e' | e'
      · subst e'
        exact absurd (List.mem_map.mpr ⟨_, he, rfl⟩) hn.1
      · exact e'

theorem nodup_snoc {l : List PyStr} {k : PyStr} (h : l.Nodup) (hk : k ∉ l) : (l ++ [k]).Nodup := by
  rw [List.nodup_append]
  refine ⟨h, by simp, ?_⟩
  intro a ha b hb e
  rw [List.mem_singleton] at hb
  subst hb
  exact hk (e ▸ ha)

theorem eraseDups_snoc (l : List PyStr) (k : PyStr) :
    (l ++ [k]).eraseDups = if k ∈ l then l.eraseDups else l.eraseDups ++ [k] := by
  rw [List.eraseDups_append]
  by_cases hk : k ∈ l
  · rw [if_pos hk]
    simp [List.removeAll, hk]
  · rw [if_neg hk]
    simp only [List.removeAll, List.elem_eq_mem, List.filter_cons, hk, decide_false, Bool.not_false,
      if_true, List.filter_nil]
    rfl

theorem nodup_eraseDups (l : List PyStr) : l.eraseDups.Nodup := by
  induction l using List.reverseRecOn with
  | nil => exact List.nodup_nil
  | append_singleton l k ih =>
    rw [eraseDups_snoc]
    split
    · exact ih
    · next h => exact nodup_snoc ih (by simpa using h)

theorem str_inj {a b : PyStr} (h : Val.str a = Val.str b) : a = b := by
  cases h; rfl

theorem dictOf_unique {ps : List (PyStr × Val)} {d d' : List (Val × Val)} (h : DictOf ps d)
    (h' : DictOf ps d') : d = d' := by
  have hs : ∀ e ∈ d, ∃ k, e.1 = Val.str k := by
    intro e he
    have := List.mem_map_of_mem (f := Prod.fst) he
    rw [h.keys] at this
    obtain ⟨k, _, hk⟩ := List.mem_map.mp this
    exact ⟨k, hk.symm⟩
  refine keys_eq (h.keys.trans h'.keys.symm) ?_ ?_
  · rw [h.keys]
    exact List.Pairwise.map _ (fun a b hab e => hab (str_inj e)) (nodup_eraseDups _)
  · intro e he
    obtain ⟨k, v⟩ := e
    obtain ⟨k, rfl⟩ := hs _ he
    exact (h'.values k v).mpr ((h.values k v).mp he)

theorem dictSet_keys (d : List (Val × Val)) (ks : List PyStr) (k : PyStr) (v : Val)
    (hd : d.map Prod.fst = ks.map Val.str) :
    (dictSet d (.str k) v).map Prod.fst = (if k ∈ ks then ks else ks ++ [k]).map Val.str := by
  induction d generalizing ks with
  | nil =>
    cases ks with
    | nil => rfl
    | cons _ _ => cases hd
  | cons e d ih =>
    obtain ⟨k', v'⟩ := e
    cases ks with
    | nil => cases hd
    | cons k1 ks =>
      simp only [List.map_cons, List.cons.injEq] at hd
      obtain ⟨rfl, hd⟩ := hd
      simp only [dictSet, pyEq_str]
      by_cases hk : k1 = k
      · subst hk
        simp [hd]
      · have : (k1 == k) = false := by simp [hk]
        simp only [this, Bool.false_eq_true, if_false, List.map_cons, ih ks hd, List.mem_cons]
        have hk' : ¬ k = k1 := fun e => hk e.symm
        simp only [hk', false_or]
        split <;> simp

theorem dictSet_values (d : List (Val × Val)) (ks : List PyStr) (k : PyStr) (v : Val)
    (hd : d.map Prod.fst = ks.map Val.str) (hn : ks.Nodup) (k' : PyStr) (v' : Val) :
    (Val.str k', v') ∈ dictSet d (.str k) v ↔
      (k' = k ∧ v' = v) ∨ (k' ≠ k ∧ (Val.str k', v') ∈ d) := by
  induction d generalizing ks with
  | nil =>
    simp only [dictSet, List.mem_singleton, Prod.mk.injEq, List.not_mem_nil, and_false, or_false]
    exact ⟨fun h => ⟨str_inj h.1, h.2⟩, fun h => ⟨by rw [h.1], h.2⟩⟩
  | cons e d ih =>
    obtain ⟨k1, v1⟩ := e
    cases ks with
    | nil => cases hd
    | cons k2 ks =>
      simp only [List.map_cons, List.cons.injEq] at hd
      obtain ⟨rfl, hd⟩ := hd
      rw [List.nodup_cons] at hn
      simp only [dictSet, pyEq_str]
      by_cases hk : k2 = k
      · subst hk
        simp only [beq_self_eq_true, if_true, List.mem_cons, Prod.mk.injEq]
        have hnot : ∀ w, (Val.str k2, w) ∈ d → False := by
          intro w hw
          have := List.mem_map_of_mem (f := Prod.fst) hw
          rw [hd] at this
          obtain ⟨x, hx, e⟩ := List.mem_map.mp this
          exact hn.1 (str_inj e ▸ hx)
        constructor
        · rintro (⟨e, rfl⟩ | h)
          · exact .inl ⟨str_inj e, rfl⟩
          · right
            refine ⟨?_, .inr h⟩
            rintro rfl
            exact hnot _ h
        · rintro (⟨rfl, rfl⟩ | ⟨hne, ⟨e, _⟩ | h⟩)
          · exact .inl ⟨rfl, rfl⟩
          · exact absurd (str_inj e) hne
          · exact .inr h
      · have : (k2 == k) = false := by simp [hk]
        simp only [this, Bool.false_eq_true, if_false, List.mem_cons, ih ks hd hn.2, Prod.mk.injEq]
        constructor
        · rintro (⟨e, rfl⟩ | h | h)
          · exact .inr ⟨by rw [str_inj e]; exact hk, .inl ⟨e, rfl⟩⟩
          · exact .inl h
          · exact .inr ⟨h.1, .inr h.2⟩
        · rintro (h | ⟨h, h' | h'⟩)
          · exact .inr (.inl h)
          · exact .inl h'
          · exact .inr (.inr ⟨h, h'⟩)

theorem dictOf_snoc {ps : List (PyStr × Val)} {d : List (Val × Val)} (h : DictOf ps d) (k : PyStr)
    (v : Val) : DictOf (ps ++ [(k, v)]) (dictSet d (.str k) v) := by
  refine ⟨?_, ?_⟩
  · rw [dictSet_keys d _ k v h.keys, List.map_append, List.map_cons, List.map_nil, eraseDups_snoc]
    simp only [List.mem_eraseDups]
  · intro k' v'
    rw [dictSet_values d _ k v h.keys (nodup_eraseDups _), h.values]
    constructor
    · rintro (⟨rfl, rfl⟩ | ⟨hne, a, b, rfl, hb⟩)
      · exact ⟨ps, [], rfl, by intro e he; cases he⟩
      · refine ⟨a, b ++ [(k, v)], by simp, ?_⟩
        intro e he
        rcases List.mem_append.mp he with he | he
        · exact hb e he
        · rw [List.mem_singleton.mp he]
          exact fun e => hne e.symm
    · rintro ⟨a, b, e, hb⟩
      rcases List.eq_nil_or_concat b with rfl | ⟨b', x, rfl⟩
      · have := List.append_inj' e rfl
        have h2 := this.2
        simp only [List.cons.injEq, Prod.mk.injEq, and_true] at h2
        exact .inl ⟨h2.1.symm, h2.2.symm⟩
      · have e' : ps ++ [(k, v)] = (a ++ (k', v') :: b') ++ [x] := by
          rw [e]; simp
        obtain ⟨h1, h2⟩ := List.append_inj' e' rfl
        have h3 : x = (k, v) := by
          have := h2.symm
          simpa using this
        subst h3
        refine .inr ⟨fun e => hb (k, v) (by simp) e.symm, a, b', h1, ?_⟩
        intro e he
        exact hb e (by simp [he])

theorem fromPairs_dictOf (ps : List (PyStr × Val)) : DictOf ps (fromPairs ps) := by
  have key : ∀ qs ps d, DictOf ps d →
      DictOf (ps ++ qs) (qs.foldl (fun acc (e : PyStr × Val) => dictSet acc (.str e.1) e.2) d) := by
    intro qs
    induction qs with
    | nil => intro ps d h; simpa using h
    | cons q qs ih =>
      intro ps d h
      have := ih (ps ++ [q]) _ (dictOf_snoc h q.1 q.2)
      simpa using this
  have h0 : DictOf [] [] := ⟨rfl, by
    intro k v
    constructor
    · intro h; cases h
    · rintro ⟨a, b, e, _⟩
      cases a <;> cases e⟩
  exact key ps [] [] h0

/-! ## White space -/

theorem isWs_iff (c : Char) : isWs c = true ↔ (c = ' ' ∨ c = '\t' ∨ c = '\n' ∨ c = '\r') := by
  simp [isWs, or_assoc]

theorem skipWs_sound (s : PyStr) : ∃ w, s = w ++ skipWs s ∧ Ws w := by
  induction s with
  | nil => exact ⟨[], rfl, by intro c h; cases h⟩
  | cons c s ih =>
    unfold skipWs
    split
    · next h =>
      obtain ⟨w, h1, h2⟩ := ih
      refine ⟨c :: w, ?_, ?_⟩
      · rw [List.cons_append, ← h1]
      · intro d hd
        rcases List.mem_cons.mp hd with rfl | hd
        · exact (isWs_iff _).mp h
        · exact h2 d hd
    · exact ⟨[], rfl, by intro c h; cases h⟩

/-- The text does not begin with white space. -/
def NoWs (s : PyStr) : Prop := ∀ c r, s = c :: r → isWs c = false

theorem skipWs_self {s : PyStr} (h : NoWs s) : skipWs s = s := by
  match s with
  | [] => rfl
  | c :: s =>
    have := h c s rfl
    unfold skipWs
    simp [this]

theorem skipWs_append {w s : PyStr} (hw : Ws w) (h : NoWs s) : skipWs (w ++ s) = s := by
  induction w with
  | nil => exact skipWs_self h
  | cons c w ih =>
    have h1 : isWs c = true := (isWs_iff c).mpr (hw c (List.mem_cons_self ..))
    rw [List.cons_append, skipWs]
    simp only [h1, if_true]
    exact ih fun d hd => hw d (List.mem_cons_of_mem _ hd)

theorem skipWs_noWs (s : PyStr) : NoWs (skipWs s) := by
  induction s with
  | nil => intro c r h; cases h
  | cons c s ih =>
    unfold skipWs
    split
    · exact ih
    · next h =>
      intro d r e
      cases e
      simpa using h

theorem skipWs_ws {w : PyStr} (h : Ws w) : skipWs w = [] := by
  have := skipWs_append (s := []) h (by intro c r e; cases e)
  simpa using this

/-! ## Numbers -/

/-- The text does not begin with a digit. -/
def NoDigit (s : PyStr) : Prop := ∀ c r, s = c :: r → c.isDigit = false

theorem scanDigits_sound (s : PyStr) : s = (scanDigits s).1 ++ (scanDigits s).2 ∧
    ∀ d ∈ (scanDigits s).1, d.isDigit = true := by
  induction s with
  | nil => exact ⟨rfl, by intro d h; cases h⟩
  | cons c s ih =>
    unfold scanDigits
    split
    · next h =>
      refine ⟨?_, ?_⟩
      · show c :: s = c :: ((scanDigits s).1 ++ (scanDigits s).2)
        rw [← ih.1]
      · intro d hd
        rcases List.mem_cons.mp hd with rfl | hd
        · exact h
        · exact ih.2 d hd
    · exact ⟨rfl, by intro d h; cases h⟩

theorem scanDigits_append {ds r : PyStr} (h : ∀ d ∈ ds, d.isDigit = true) (hr : NoDigit r) :
    scanDigits (ds ++ r) = (ds, r) := by
  induction ds with
  | nil =>
    match r with
    | [] => rfl
    | c :: r =>
      have := hr c r rfl
      show scanDigits (c :: r) = _
      unfold scanDigits
      simp [this]
  | cons d ds ih =>
    have h1 := h d (List.mem_cons_self ..)
    have h2 := ih fun e he => h e (List.mem_cons_of_mem _ he)
    rw [List.cons_append, scanDigits, h1, h2]
    rfl

theorem scanMinus_sound (s : PyStr) : s = (scanMinus s).1 ++ (scanMinus s).2 ∧
    MinusText (scanMinus s).1 := by
  unfold scanMinus
  split
  · exact ⟨rfl, .inr rfl⟩
  · exact ⟨rfl, .inl rfl⟩

theorem nat_cons {ds : PyStr} (h : NatText ds) : ∃ c r, ds = c :: r ∧ c.isDigit = true := by
  rcases h with rfl | ⟨c, r, rfl, -, h⟩
  · exact ⟨'0', [], rfl, by decide⟩
  · exact ⟨c, r, rfl, h c (List.mem_cons_self ..)⟩

theorem scanMinus_append {sg ds : PyStr} (h : MinusText sg) (hd : NatText ds) (r : PyStr) :
    scanMinus (sg ++ (ds ++ r)) = (sg, ds ++ r) := by
  obtain ⟨c, r', rfl, hc⟩ := nat_cons hd
  rcases h with rfl | rfl
  · show scanMinus (c :: (r' ++ r)) = _
    unfold scanMinus
    split
    · next e => cases e; exact absurd hc (by decide)
    · rfl
  · rfl

theorem scanNat_sound {s ds r : PyStr} (h : scanNat s = some (ds, r)) :
    s = ds ++ r ∧ NatText ds := by
  unfold scanNat at h
  split at h
  · cases h
    exact ⟨rfl, .inl rfl⟩
  · next c r' hne =>
    split at h
    · next hc =>
      cases h
      have hs := scanDigits_sound r'
      refine ⟨?_, .inr ⟨c, _, rfl, ?_, ?_⟩⟩
      · rw [List.cons_append, ← hs.1]
      · rintro rfl
        exact hne rfl
      · intro d hd
        rcases List.mem_cons.mp hd with rfl | hd
        · exact hc
        · exact hs.2 d hd
    · cases h
  · cases h

theorem scanNat_append {ds r : PyStr} (h : NatText ds) (hr : NoDigit r) :
    scanNat (ds ++ r) = some (ds, r) := by
  rcases h with rfl | ⟨c, t, rfl, hc, h⟩
  · rfl
  · rw [List.cons_append]
    unfold scanNat
    split
    · next e => cases e; exact absurd rfl hc
    · next c' r' _ e =>
      cases e
      rw [if_pos (h c (List.mem_cons_self ..)),
        scanDigits_append (fun d hd => h d (List.mem_cons_of_mem _ hd)) hr]
    · next e => cases e

theorem scanFrac_sound (s : PyStr) : s = (scanFrac s).1 ++ (scanFrac s).2 ∧
    FracText (scanFrac s).1 := by
  unfold scanFrac
  split
  · next c r =>
    split
    · next hc =>
      have hs := scanDigits_sound r
      refine ⟨?_, .inr ⟨_, rfl, by simp, ?_⟩⟩
      · show '.' :: c :: r = '.' :: c :: ((scanDigits r).1 ++ (scanDigits r).2)
        rw [← hs.1]
      · intro d hd
        rcases List.mem_cons.mp hd with rfl | hd
        · exact hc
        · exact hs.2 d hd
    · exact ⟨rfl, .inl rfl⟩
  · exact ⟨rfl, .inl rfl⟩

/-- The text begins neither with a digit nor with a character that continues a
number. -/
def Stops (s : PyStr) : Prop :=
  ∀ c r, s = c :: r → c.isDigit = false ∧ c ≠ '.' ∧ c ≠ 'e' ∧ c ≠ 'E'

theorem Stops.noDigit {s : PyStr} (h : Stops s) : NoDigit s := fun c r e => (h c r e).1

theorem scanFrac_append {f r : PyStr} (h : FracText f) (hr : NoDigit r) (hd : ∀ x, r ≠ '.' :: x) :
    scanFrac (f ++ r) = (f, r) := by
  rcases h with rfl | ⟨ds, rfl, hne, h⟩
  · show scanFrac r = _
    unfold scanFrac
    split
    · exact absurd rfl (hd _)
    · rfl
  · match ds, hne, h with
    | c :: ds, _, h =>
      show scanFrac ('.' :: c :: (ds ++ r)) = _
      unfold scanFrac
      simp only
      rw [if_pos (h c (List.mem_cons_self ..)),
        scanDigits_append (fun d hd => h d (List.mem_cons_of_mem _ hd)) hr]

theorem scanSign_sound (s : PyStr) : s = (scanSign s).1 ++ (scanSign s).2 ∧
    ((scanSign s).1 = [] ∨ (scanSign s).1 = ['+'] ∨ (scanSign s).1 = ['-']) := by
  unfold scanSign
  split
  · exact ⟨rfl, .inr (.inl rfl)⟩
  · exact ⟨rfl, .inr (.inr rfl)⟩
  · exact ⟨rfl, .inl rfl⟩

theorem scanSign_append {sg ds : PyStr} (h : sg = [] ∨ sg = ['+'] ∨ sg = ['-'])
    (hd : Digits ds) (r : PyStr) : scanSign (sg ++ (ds ++ r)) = (sg, ds ++ r) := by
  match ds, hd with
  | c :: ds, ⟨_, hd⟩ =>
    have hc := hd c (List.mem_cons_self ..)
    rcases h with rfl | rfl | rfl
    · show scanSign (c :: (ds ++ r)) = _
      unfold scanSign
      split
      · next e => cases e; exact absurd hc (by decide)
      · next e => cases e; exact absurd hc (by decide)
      · rfl
    · rfl
    · rfl

theorem scanExp_sound (s : PyStr) : s = (scanExp s).1 ++ (scanExp s).2 ∧
    ExpText (scanExp s).1 := by
  unfold scanExp
  split
  · exact ⟨rfl, .inl rfl⟩
  · next e r =>
    split
    · next he =>
      have h1 := scanSign_sound r
      have h2 := scanDigits_sound (scanSign r).2
      split
      · exact ⟨rfl, .inl rfl⟩
      · next ds rest hne heq =>
        rw [heq] at h2
        refine ⟨?_, .inr ⟨e, _, ds, rfl, he, h1.2, ?_, h2.2⟩⟩
        · show e :: r = e :: ((scanSign r).1 ++ ds ++ rest)
          rw [List.append_assoc, ← h2.1, ← h1.1]
        · rintro rfl
          exact hne rfl
    · exact ⟨rfl, .inl rfl⟩

theorem scanExp_append {x r : PyStr} (h : ExpText x) (hr : Stops r) : scanExp (x ++ r) = (x, r) := by
  rcases h with rfl | ⟨e, sg, ds, rfl, he, hsg, hd⟩
  · match r with
    | [] => rfl
    | c :: r =>
      have := hr c r rfl
      show scanExp (c :: r) = _
      unfold scanExp
      simp [this.2.2]
  · rw [List.cons_append, List.append_assoc]
    unfold scanExp
    simp only
    rw [if_pos he, scanSign_append hsg hd, scanDigits_append hd.2 hr.noDigit]
    match ds, hd with
    | d :: ds, _ => rfl

theorem scanNumber_sound {F : FloatText} {s r : PyStr} {v : Val}
    (h : scanNumber F s = some (v, r)) : ∃ t, s = t ++ r ∧ JText F t v := by
  unfold scanNumber at h
  have hm := scanMinus_sound s
  simp only at h
  split at h
  · cases h
  · next ds r1 hn =>
    have h1 := scanNat_sound hn
    have h2 := scanFrac_sound r1
    have h3 := scanExp_sound (scanFrac r1).2
    have hs : s = (scanMinus s).1 ++ ds ++ (scanFrac r1).1 ++ (scanExp (scanFrac r1).2).1 ++
        (scanExp (scanFrac r1).2).2 := by
      simp only [List.append_assoc]
      rw [← h3.1, ← h2.1, ← h1.1, ← hm.1]
    split at h
    · next he =>
      cases h
      rw [he.1, he.2] at hs
      simp only [List.append_nil] at hs
      exact ⟨_, hs, .int hm.2 h1.2⟩
    · next he =>
      cases h
      exact ⟨_, hs, .float hm.2 h1.2 h2.2 h3.2 he⟩

theorem frac_noDigit {f : PyStr} (h : FracText f) {r : PyStr} (hr : NoDigit r) :
    NoDigit (f ++ r) := by
  rcases h with rfl | ⟨ds, rfl, -⟩
  · exact hr
  · intro c x e
    cases e
    decide

theorem exp_noDigit {f : PyStr} (h : ExpText f) {r : PyStr} (hr : NoDigit r) :
    NoDigit (f ++ r) := by
  rcases h with rfl | ⟨e, sg, ds, rfl, he, -⟩
  · exact hr
  · intro c x e'
    cases e'
    rcases he with rfl | rfl <;> decide

theorem exp_noDot {f : PyStr} (h : ExpText f) {r : PyStr} (hr : Stops r) :
    ∀ x, f ++ r ≠ '.' :: x := by
  rcases h with rfl | ⟨e, sg, ds, rfl, he, -⟩
  · intro x e
    exact (hr _ _ e).2.1 rfl
  · intro x e'
    cases e'
    rcases he with h | h <;> revert h <;> decide

theorem scanNumber_append {F : FloatText} {sg ds f e r : PyStr} (h1 : MinusText sg)
    (h2 : NatText ds) (h3 : FracText f) (h4 : ExpText e) (hr : Stops r) :
    scanNumber F (sg ++ ds ++ f ++ e ++ r) =
      if f = [] ∧ e = [] then
        some (.int (if sg = [] then Nat.ofDigitChars 10 ds 0 else - (Nat.ofDigitChars 10 ds 0 : Int)), r)
      else some (.float (F.parse (sg ++ ds ++ f ++ e)), r) := by
  have e1 : sg ++ ds ++ f ++ e ++ r = sg ++ (ds ++ (f ++ (e ++ r))) := by
    simp only [List.append_assoc]
  have e2 := scanNat_append h2 (frac_noDigit h3 (exp_noDigit h4 hr.noDigit))
  have e3 := scanFrac_append h3 (exp_noDigit h4 hr.noDigit) (exp_noDot h4 hr)
  have e4 := scanExp_append h4 hr
  rw [e1]
  unfold scanNumber
  rw [scanMinus_append h1 h2]
  simp only
  rw [e2]
  simp only
  rw [e3]
  simp only
  rw [e4]
  rfl

/-! ## Strings -/

theorem hexVal_iff (c : Char) (k : Nat) : hexVal c = some k ↔ HexText c k := by
  constructor
  · intro h
    have hc : c = Char.ofNat c.toNat := (Char.ofNat_toNat c).symm
    unfold hexVal at h
    simp only at h
    split at h
    · next hn =>
      obtain ⟨a, b⟩ := hn
      generalize c.toNat = n at *
      subst hc
      cases h
      left
      interval_cases n <;> rfl
    · split at h
      · next hn =>
        obtain ⟨a, b⟩ := hn
        generalize c.toNat = n at *
        subst hc
        cases h
        left
        interval_cases n <;> rfl
      · split at h
        · next hn =>
          obtain ⟨a, b⟩ := hn
          generalize c.toNat = n at *
          subst hc
          cases h
          right
          interval_cases n <;> rfl
        · cases h
  · intro h
    have hk : k < 16 := by
      rcases h with h | h
      · exact (List.getElem?_eq_some_iff.mp h).1
      · exact (List.getElem?_eq_some_iff.mp h).1
    rcases h with h | h <;> interval_cases k <;> cases h <;> rfl

theorem hex4_sound {s r : PyStr} {n : Nat} (h : hex4 s = some (n, r)) :
    ∃ t, s = t ++ r ∧ Hex4Text t n := by
  match s with
  | a :: b :: c :: d :: x =>
    unfold hex4 at h
    cases ha : hexVal a with
    | none => simp [ha] at h
    | some i =>
      cases hb : hexVal b with
      | none => simp [ha, hb] at h
      | some j =>
        cases hc : hexVal c with
        | none => simp [ha, hb, hc] at h
        | some k =>
          cases hd : hexVal d with
          | none => simp [ha, hb, hc, hd] at h
          | some l =>
            simp only [ha, hb, hc, hd] at h
            cases h
            refine ⟨[a, b, c, d], rfl, a, b, c, d, i, j, k, l, rfl, (hexVal_iff _ _).mp ha,
              (hexVal_iff _ _).mp hb, (hexVal_iff _ _).mp hc, (hexVal_iff _ _).mp hd, ?_⟩
            omega
  | [] => cases h
  | [_] => cases h
  | [_, _] => cases h
  | [_, _, _] => cases h

theorem hex4_append {t : PyStr} {n : Nat} (h : Hex4Text t n) (r : PyStr) :
    hex4 (t ++ r) = some (n, r) := by
  obtain ⟨a, b, c, d, i, j, k, l, rfl, ha, hb, hc, hd, rfl⟩ := h
  show hex4 (a :: b :: c :: d :: r) = _
  unfold hex4
  simp only [(hexVal_iff _ _).mpr ha, (hexVal_iff _ _).mpr hb, (hexVal_iff _ _).mpr hc,
    (hexVal_iff _ _).mpr hd]
  show some (((i * 16 + j) * 16 + k) * 16 + l, r) = _
  congr 2
  omega

theorem scanU_sound {s r : PyStr} {c : Char} (h : scanU s = some (c, r)) :
    ∃ t, '\\' :: 'u' :: s = t ++ r ∧ CharText t c := by
  unfold scanU at h
  split at h
  · cases h
  · next n r1 h1 =>
    obtain ⟨t, ht, hx⟩ := hex4_sound h1
    split at h
    · next hn =>
      split at h
      · next r2 =>
        split at h
        · cases h
        · next m r3 h3 =>
          obtain ⟨u, hu, hy⟩ := hex4_sound h3
          split at h
          · next hm =>
            simp only [Option.some.injEq, Prod.mk.injEq] at h
            obtain ⟨rfl, rfl⟩ := h
            refine ⟨_, ?_, .pair t u n m hx hy hn.1 hn.2 hm.1 hm.2⟩
            rw [ht, hu]
            simp
          · cases h
      · cases h
    · next hn =>
      split at h
      · cases h
      · next hm =>
        cases h
        refine ⟨_, ?_, .unicode t n hx (by omega)⟩
        rw [ht]
        rfl

theorem scanEscape_sound {s r : PyStr} {c : Char} (h : scanEscape s = some (c, r)) :
    ∃ t, '\\' :: s = t ++ r ∧ CharText t c := by
  unfold scanEscape at h
  split at h
  all_goals first
    | (cases h; done)
    | exact scanU_sound h
    | (cases h; exact ⟨['\\', _], rfl, .escape _ _ (by decide)⟩)

theorem scanStr_sound {n : Nat} {s str r : PyStr} (h : scanStr n s = some (str, r)) :
    ∃ t, s = t ++ '"' :: r ∧ StrText t str := by
  induction n generalizing s str with
  | zero => cases h
  | succ n ih =>
    unfold scanStr at h
    split at h
    · cases h
    · cases h
      exact ⟨[], rfl, .nil⟩
    · next x =>
      split at h
      · cases h
      · next c r1 h1 =>
        obtain ⟨t, ht, hc⟩ := scanEscape_sound h1
        cases h2 : scanStr n r1 with
        | none => rw [h2] at h; cases h
        | some p =>
          rw [h2] at h
          cases h
          obtain ⟨u, hu, hs⟩ := ih h2
          refine ⟨t ++ u, ?_, .cons hc hs⟩
          rw [ht, hu, List.append_assoc]
    · next c r1 hq hb =>
      split at h
      · cases h
      · next hn =>
        cases h2 : scanStr n r1 with
        | none => rw [h2] at h; cases h
        | some p =>
          rw [h2] at h
          cases h
          obtain ⟨u, hu, hs⟩ := ih h2
          refine ⟨[c] ++ u, ?_, .cons (.plain c ?_ ?_ (by omega)) hs⟩
          · rw [hu]; rfl
          · rintro rfl; exact hq rfl
          · rintro rfl; exact hb rfl

/-- One round of `scanStr`. -/
theorem scanStr_char {t : PyStr} {c : Char} (h : CharText t c) (n : Nat) (r : PyStr) :
    scanStr (n + 1) (t ++ r) = (scanStr n r).map fun p => (c :: p.1, p.2) := by
  cases h with
  | plain c h1 h2 h3 =>
    show scanStr (n + 1) (c :: r) = _
    conv => lhs; unfold scanStr
    split
    · next e => cases e
    · next e => cases e; exact absurd rfl h1
    · next e => cases e; exact absurd rfl h2
    · next e =>
      cases e
      rw [if_neg (by omega)]
  | escape e c h =>
    show scanStr (n + 1) ('\\' :: e :: r) = _
    have : scanEscape (e :: r) = some (c, r) := by
      simp only [escapes, List.mem_cons, Prod.mk.injEq, List.not_mem_nil, or_false] at h
      rcases h with ⟨rfl, rfl⟩ | ⟨rfl, rfl⟩ | ⟨rfl, rfl⟩ | ⟨rfl, rfl⟩ | ⟨rfl, rfl⟩ | ⟨rfl, rfl⟩ |
        ⟨rfl, rfl⟩ | ⟨rfl, rfl⟩ <;> rfl
    conv => lhs; unfold scanStr
    simp only [this]
  | unicode t m hx hm =>
    show scanStr (n + 1) ('\\' :: 'u' :: (t ++ r)) = _
    have : scanEscape ('u' :: (t ++ r)) = some (Char.ofNat m, r) := by
      show scanU (t ++ r) = _
      unfold scanU
      rw [hex4_append hx]
      simp only
      rw [if_neg (by omega), if_neg (by omega)]
    conv => lhs; unfold scanStr
    simp only [this]
  | pair t u m k hx hy h1 h2 h3 h4 =>
    have e1 : '\\' :: 'u' :: (t ++ '\\' :: 'u' :: u) ++ r
        = '\\' :: 'u' :: (t ++ '\\' :: 'u' :: (u ++ r)) := by simp
    rw [e1]
    have : scanEscape ('u' :: (t ++ '\\' :: 'u' :: (u ++ r)))
        = some (Char.ofNat (0x10000 + (m - 0xd800) * 1024 + (k - 0xdc00)), r) := by
      show scanU (t ++ '\\' :: 'u' :: (u ++ r)) = _
      unfold scanU
      rw [hex4_append hx]
      simp only
      rw [if_pos ⟨h1, h2⟩]
      simp only [hex4_append hy]
      rw [if_pos ⟨h3, h4⟩]
    conv => lhs; unfold scanStr
    simp only [this]

theorem charText_pos {t : PyStr} {c : Char} (h : CharText t c) : 0 < t.length := by
  cases h <;> simp

theorem scanStr_append {t s : PyStr} (h : StrText t s) (n : Nat) (r : PyStr) (hn : t.length < n) :
    scanStr n (t ++ '"' :: r) = some (s, r) := by
  induction h generalizing n with
  | nil =>
    match n, hn with
    | n + 1, _ => rfl
  | @cons t ts c s hc hs ih =>
    have hp := charText_pos hc
    rw [List.length_append] at hn
    match n, hn with
    | n + 1, hn =>
      rw [List.append_assoc, scanStr_char hc, ih n (by omega)]
      rfl

/-! ## Values -/

theorem stops_ws {w r : PyStr} (hw : Ws w) (hr : Stops r) : Stops (w ++ r) := by
  match w with
  | [] => exact hr
  | c :: w =>
    intro d x e
    cases e
    rcases hw c (List.mem_cons_self ..) with rfl | rfl | rfl | rfl <;> decide

theorem stops_char {c : Char} {r : PyStr} (h : c.isDigit = false ∧ c ≠ '.' ∧ c ≠ 'e' ∧ c ≠ 'E') :
    Stops (c :: r) := by
  intro d x e
  cases e
  exact h

theorem noWs_char {c : Char} {r : PyStr} (h : isWs c = false) : NoWs (c :: r) := by
  intro d x e
  cases e
  exact h

/-- How the text of a value begins. -/
def Begins (c : Char) : Prop := isWs c = false ∧ c ≠ ']' ∧ c ≠ '}'

theorem begins_digit {c : Char} (h : c.isDigit = true) : Begins c := by
  refine ⟨?_, ?_, ?_⟩
  · cases hw : isWs c with
    | false => rfl
    | true => rcases (isWs_iff c).mp hw with rfl | rfl | rfl | rfl <;> exact absurd h (by decide)
  · rintro rfl; exact absurd h (by decide)
  · rintro rfl; exact absurd h (by decide)

/-- How a number begins. -/
theorem number_head {sg ds : PyStr} (h1 : MinusText sg) (h2 : NatText ds) :
    ∃ c x, sg ++ ds = c :: x ∧ (c = '-' ∨ c.isDigit = true) := by
  obtain ⟨c, x, rfl, hc⟩ := nat_cons h2
  rcases h1 with rfl | rfl
  · exact ⟨c, x, rfl, .inr hc⟩
  · exact ⟨'-', c :: x, rfl, .inl rfl⟩

theorem jtext_head {F : FloatText} {t : PyStr} {v : Val} (h : JText F t v) :
    ∃ c x, t = c :: x ∧ Begins c := by
  have key : ∀ {sg ds : PyStr}, MinusText sg → NatText ds → ∀ y, ∃ c x, sg ++ ds ++ y = c :: x ∧
      Begins c := by
    intro sg ds h1 h2 y
    obtain ⟨c, x, e, hc⟩ := number_head h1 h2
    refine ⟨c, x ++ y, by rw [e]; rfl, ?_⟩
    rcases hc with rfl | hc
    · exact ⟨by decide, by decide, by decide⟩
    · exact begins_digit hc
  cases h with
  | int h1 h2 =>
    obtain ⟨c, x, e, hc⟩ := key h1 h2 []
    exact ⟨c, x, by simpa using e, hc⟩
  | @float sg ds f e h1 h2 h3 h4 h5 =>
    obtain ⟨c, x, e, hc⟩ := key h1 h2 (f ++ e)
    exact ⟨c, x, by simpa using e, hc⟩
  | _ => exact ⟨_, _, rfl, by decide, by decide, by decide⟩

theorem scanVal_number {F : FloatText} (n : Nat) {c : Char} {r : PyStr}
    (h : c = '-' ∨ c.isDigit = true) : scanVal F (n + 1) (c :: r) = scanNumber F (c :: r) := by
  have hne : ∀ d : Char, (d = '-' ∨ d.isDigit = true) ∨ c ≠ d := by
    intro d
    by_cases e : c = d
    · subst e; exact .inl h
    · exact .inr e
  conv => lhs; unfold scanVal
  split
  · next e => cases e; rcases hne '"' with h | h; exact absurd h (by decide); exact absurd rfl h
  · next e => cases e; rcases hne '[' with h | h; exact absurd h (by decide); exact absurd rfl h
  · next e => cases e; rcases hne '{' with h | h; exact absurd h (by decide); exact absurd rfl h
  · next e => cases e; rcases hne 'n' with h | h; exact absurd h (by decide); exact absurd rfl h
  · next e => cases e; rcases hne 't' with h | h; exact absurd h (by decide); exact absurd rfl h
  · next e => cases e; rcases hne 'f' with h | h; exact absurd h (by decide); exact absurd rfl h
  · rfl

/-- An array that is not empty is read by `scanItems`. -/
theorem scanVal_array {F : FloatText} (n : Nat) {r : PyStr} {c : Char} {x : PyStr}
    (h : skipWs r = c :: x) (hc : c ≠ ']') :
    scanVal F (n + 1) ('[' :: r) = (scanItems F n (c :: x)).map fun p => (.list p.1, p.2) := by
  show (match skipWs r with
      | ']' :: r => some (Val.list [], r)
      | r => (scanItems F n r).map fun p : List Val × PyStr => (Val.list p.1, p.2)) = _
  rw [h]
  split
  · next e => cases e; exact absurd rfl hc
  · rfl

/-- An object that is not empty is read by `scanMembers`. -/
theorem scanVal_object {F : FloatText} (n : Nat) {r : PyStr} {c : Char} {x : PyStr}
    (h : skipWs r = c :: x) (hc : c ≠ '}') :
    scanVal F (n + 1) ('{' :: r)
      = (scanMembers F n (c :: x)).map fun p => (.dict (fromPairs p.1), p.2) := by
  show (match skipWs r with
      | '}' :: r => some (Val.dict [], r)
      | r => (scanMembers F n r).map fun p : List (PyStr × Val) × PyStr => (Val.dict (fromPairs p.1), p.2)) = _
  rw [h]
  split
  · next e => cases e; exact absurd rfl hc
  · rfl

theorem items_head {F : FloatText} {t : PyStr} {vs : List Val} (h : ItemsText F t vs) (r : PyStr) :
    ∃ c x, skipWs (t ++ r) = c :: x ∧ c ≠ ']' := by
  cases h with
  | @one w t w' v hw ht hw' =>
    obtain ⟨c, x, rfl, hc⟩ := jtext_head ht
    refine ⟨c, x ++ (w' ++ r), ?_, hc.2.1⟩
    have : w ++ (c :: x ++ w') ++ r = w ++ (c :: (x ++ (w' ++ r))) := by simp
    rw [this, skipWs_append hw (noWs_char hc.1)]
  | @more w t w' ts v vs hw ht hw' hts =>
    obtain ⟨c, x, rfl, hc⟩ := jtext_head ht
    refine ⟨c, x ++ (w' ++ (',' :: ts ++ r)), ?_, hc.2.1⟩
    have : w ++ (c :: x ++ (w' ++ ',' :: ts)) ++ r = w ++ (c :: (x ++ (w' ++ (',' :: ts ++ r)))) := by
      simp
    rw [this, skipWs_append hw (noWs_char hc.1)]

theorem members_head {F : FloatText} {t : PyStr} {es : List (PyStr × Val)}
    (h : MembersText F t es) (r : PyStr) : ∃ x, skipWs (t ++ r) = '"' :: x := by
  cases h with
  | one hw =>
    rw [List.append_assoc, List.cons_append, skipWs_append hw (noWs_char (by decide))]
    exact ⟨_, rfl⟩
  | more hw =>
    rw [List.append_assoc, List.cons_append, skipWs_append hw (noWs_char (by decide))]
    exact ⟨_, rfl⟩

/-- `scanItems` after a value. -/
theorem scanItems_step {F : FloatText} {n : Nat} {s r : PyStr} {v : Val}
    (h : scanVal F n s = some (v, r)) :
    scanItems F (n + 1) s = match skipWs r with
      | ']' :: r => some ([v], r)
      | ',' :: r => (scanItems F n (skipWs r)).map fun p => (v :: p.1, p.2)
      | _ => none := by
  conv => lhs; unfold scanItems
  rw [h]
  rfl

/-- `scanMembers` after a key and a value. -/
theorem scanMembers_step {F : FloatText} {n : Nat} {s k r r1 r2 : PyStr} {v : Val}
    (h1 : scanStr (s.length + 1) s = some (k, r)) (h2 : skipWs r = ':' :: r1)
    (h3 : scanVal F n (skipWs r1) = some (v, r2)) :
    scanMembers F (n + 1) ('"' :: s) = match skipWs r2 with
      | '}' :: r => some ([(k, v)], r)
      | ',' :: r => (scanMembers F n (skipWs r)).map fun p => ((k, v) :: p.1, p.2)
      | _ => none := by
  conv => lhs; unfold scanMembers
  simp only [h1, h2, h3]
  rfl

/-- `scanMembers` up to the value. -/
theorem scan_key {k w1 w2 s : PyStr} (hk : StrText k s) (h1 : Ws w1) (h2 : Ws w2) {t : PyStr}
    (ht : NoWs t) :
    scanStr ((k ++ '"' :: (w1 ++ ':' :: (w2 ++ t))).length + 1) (k ++ '"' :: (w1 ++ ':' :: (w2 ++ t)))
      = some (s, w1 ++ ':' :: (w2 ++ t)) ∧
    skipWs (w1 ++ ':' :: (w2 ++ t)) = ':' :: (w2 ++ t) ∧ skipWs (w2 ++ t) = t := by
  refine ⟨scanStr_append hk _ _ ?_, skipWs_append h1 (noWs_char (by decide)), skipWs_append h2 ht⟩
  rw [List.length_append]
  omega

theorem scan_complete (F : FloatText) (n : Nat) :
    (∀ t v r, JText F t v → Stops r → 2 * t.length < n → scanVal F n (t ++ r) = some (v, r)) ∧
    (∀ t vs r, ItemsText F t vs → 2 * t.length + 1 < n →
      scanItems F n (skipWs (t ++ ']' :: r)) = some (vs, r)) ∧
    (∀ t es r, MembersText F t es → 2 * t.length + 1 < n →
      scanMembers F n (skipWs (t ++ '}' :: r)) = some (es, r)) := by
  induction n with
  | zero => exact ⟨fun _ _ _ _ _ h => by omega, fun _ _ _ _ h => by omega, fun _ _ _ _ h => by omega⟩
  | succ n ih =>
    obtain ⟨ih1, ih2, ih3⟩ := ih
    refine ⟨?_, ?_, ?_⟩
    · intro t v r h hr hn
      cases h with
      | null => rfl
      | true => rfl
      | false => rfl
      | @int sg ds h1 h2 =>
        obtain ⟨c, x, e, hc⟩ := number_head h1 h2
        have := scanNumber_append (F := F) h1 h2 (.inl rfl : FracText []) (.inl rfl : ExpText []) hr
        simp only [List.append_nil, and_self, if_true] at this
        rw [← this, e, List.cons_append, scanVal_number n hc]
      | @float sg ds f e h1 h2 h3 h4 h5 =>
        obtain ⟨c, x, e', hc⟩ := number_head h1 h2
        have := scanNumber_append (F := F) h1 h2 h3 h4 hr
        rw [if_neg h5] at this
        rw [← this, e', List.cons_append, List.cons_append, List.cons_append, scanVal_number n hc]
      | @str t s h1 =>
        have e : '"' :: (t ++ ['"']) ++ r = '"' :: (t ++ '"' :: r) := by simp
        rw [e]
        show (scanStr ((t ++ '"' :: r).length + 1) (t ++ '"' :: r)).map _ = _
        rw [scanStr_append h1 _ _ (by rw [List.length_append]; omega)]
        rfl
      | @emptyArray w hw =>
        have e : '[' :: (w ++ [']']) ++ r = '[' :: (w ++ ']' :: r) := by simp
        rw [e]
        show (match skipWs (w ++ ']' :: r) with
          | ']' :: r => some (Val.list [], r)
          | r => (scanItems F n r).map fun p : List Val × PyStr => (Val.list p.1, p.2)) = _
        rw [skipWs_append hw (noWs_char (by decide))]
        rfl
      | @array t vs h1 =>
        have e : '[' :: (t ++ [']']) ++ r = '[' :: (t ++ ']' :: r) := by simp
        obtain ⟨c, x, e', hc⟩ := items_head h1 (']' :: r)
        have h2 := ih2 t vs r h1 (by simp at hn; omega)
        rw [e, scanVal_array n e' hc, ← e', h2]
        rfl
      | @emptyObject w hw =>
        have e : '{' :: (w ++ ['}']) ++ r = '{' :: (w ++ '}' :: r) := by simp
        rw [e]
        show (match skipWs (w ++ '}' :: r) with
          | '}' :: r => some (Val.dict [], r)
          | r => (scanMembers F n r).map fun p : List (PyStr × Val) × PyStr => (Val.dict (fromPairs p.1), p.2)) = _
        rw [skipWs_append hw (noWs_char (by decide))]
        rfl
      | @object t es d h1 hd =>
        have e : '{' :: (t ++ ['}']) ++ r = '{' :: (t ++ '}' :: r) := by simp
        obtain ⟨x, e'⟩ := members_head h1 ('}' :: r)
        have h2 := ih3 t es r h1 (by simp at hn; omega)
        rw [e, scanVal_object n e' (by decide), ← e', h2, dictOf_unique hd (fromPairs_dictOf es)]
        rfl
    · intro t vs r h hn
      cases h with
      | @one w t w' v hw ht hw' =>
        obtain ⟨c, x, e0, hc⟩ := jtext_head ht
        have e : w ++ (t ++ w') ++ ']' :: r = w ++ (t ++ (w' ++ ']' :: r)) := by simp
        have hnw : NoWs (t ++ (w' ++ ']' :: r)) := by
          rw [e0]; exact noWs_char hc.1
        have hv := ih1 t v (w' ++ ']' :: r) ht (stops_ws hw' (stops_char (by decide)))
          (by simp at hn; omega)
        rw [e, skipWs_append hw hnw, scanItems_step hv, skipWs_append hw' (noWs_char (by decide))]
        rfl
      | @more w t w' ts v vs hw ht hw' hts =>
        obtain ⟨c, x, e0, hc⟩ := jtext_head ht
        have e : w ++ (t ++ (w' ++ ',' :: ts)) ++ ']' :: r
            = w ++ (t ++ (w' ++ ',' :: (ts ++ ']' :: r))) := by simp
        have hnw : NoWs (t ++ (w' ++ ',' :: (ts ++ ']' :: r))) := by
          rw [e0]; exact noWs_char hc.1
        have hv := ih1 t v (w' ++ ',' :: (ts ++ ']' :: r)) ht (stops_ws hw' (stops_char (by decide)))
          (by simp at hn; omega)
        have hi := ih2 ts vs r hts (by simp at hn; omega)
        rw [e, skipWs_append hw hnw, scanItems_step hv, skipWs_append hw' (noWs_char (by decide))]
        show (scanItems F n (skipWs (ts ++ ']' :: r))).map _ = _
        rw [hi]
        rfl
    · intro t es r h hn
      cases h with
      | @one w k w1 w2 t w3 s v hw hk h1 h2 ht h3 =>
        obtain ⟨c, x, e0, hc⟩ := jtext_head ht
        have e : w ++ '"' :: (k ++ '"' :: (w1 ++ ':' :: (w2 ++ (t ++ w3)))) ++ '}' :: r
            = w ++ '"' :: (k ++ '"' :: (w1 ++ ':' :: (w2 ++ (t ++ (w3 ++ '}' :: r))))) := by simp
        have hnw : NoWs (t ++ (w3 ++ '}' :: r)) := by
          rw [e0]; exact noWs_char hc.1
        obtain ⟨g1, g2, g3⟩ := scan_key hk h1 h2 hnw
        have hv := ih1 t v (w3 ++ '}' :: r) ht (stops_ws h3 (stops_char (by decide)))
          (by simp at hn; omega)
        rw [e, skipWs_append hw (noWs_char (by decide)),
          scanMembers_step g1 g2 (by rw [g3]; exact hv), skipWs_append h3 (noWs_char (by decide))]
        rfl
      | @more w k w1 w2 t w3 s ts v es hw hk h1 h2 ht h3 hts =>
        obtain ⟨c, x, e0, hc⟩ := jtext_head ht
        have e : w ++ '"' :: (k ++ '"' :: (w1 ++ ':' :: (w2 ++ (t ++ (w3 ++ ',' :: ts))))) ++ '}' :: r
            = w ++ '"' :: (k ++ '"' :: (w1 ++ ':' :: (w2 ++ (t ++ (w3 ++ ',' :: (ts ++ '}' :: r)))))) := by
          simp
        have hnw : NoWs (t ++ (w3 ++ ',' :: (ts ++ '}' :: r))) := by
          rw [e0]; exact noWs_char hc.1
        obtain ⟨g1, g2, g3⟩ := scan_key hk h1 h2 hnw
        have hv := ih1 t v (w3 ++ ',' :: (ts ++ '}' :: r)) ht
          (stops_ws h3 (stops_char (by decide))) (by simp at hn; omega)
        have hi := ih3 ts es r hts (by simp at hn; omega)
        rw [e, skipWs_append hw (noWs_char (by decide)),
          scanMembers_step g1 g2 (by rw [g3]; exact hv), skipWs_append h3 (noWs_char (by decide))]
        show (scanMembers F n (skipWs (ts ++ '}' :: r))).map _ = _
        rw [hi]
        rfl

theorem ws_append {w w' : PyStr} (h : Ws w) (h' : Ws w') : Ws (w ++ w') := by
  intro c hc
  rcases List.mem_append.mp hc with hc | hc
  · exact h c hc
  · exact h' c hc

theorem ws_nil : Ws [] := by intro c h; cases h

theorem items_ws {F : FloatText} {w t : PyStr} {vs : List Val} (hw : Ws w) (h : ItemsText F t vs) :
    ItemsText F (w ++ t) vs := by
  cases h with
  | one h1 h2 h3 =>
    rw [← List.append_assoc]
    exact .one (ws_append hw h1) h2 h3
  | more h1 h2 h3 h4 =>
    rw [← List.append_assoc]
    exact .more (ws_append hw h1) h2 h3 h4

theorem members_ws {F : FloatText} {w t : PyStr} {es : List (PyStr × Val)} (hw : Ws w)
    (h : MembersText F t es) : MembersText F (w ++ t) es := by
  cases h with
  | one h1 h2 h3 h4 h5 h6 =>
    rw [← List.append_assoc]
    exact .one (ws_append hw h1) h2 h3 h4 h5 h6
  | more h1 h2 h3 h4 h5 h6 h7 =>
    rw [← List.append_assoc]
    exact .more (ws_append hw h1) h2 h3 h4 h5 h6 h7

theorem scan_sound (F : FloatText) (n : Nat) :
    (∀ s v r, scanVal F n s = some (v, r) → ∃ t, s = t ++ r ∧ JText F t v) ∧
    (∀ s vs r, scanItems F n s = some (vs, r) → ∃ t, s = t ++ ']' :: r ∧ ItemsText F t vs) ∧
    (∀ s es r, scanMembers F n s = some (es, r) →
      ∃ t, s = t ++ '}' :: r ∧ MembersText F t es) := by
  induction n with
  | zero =>
    refine ⟨?_, ?_, ?_⟩
    · intro s v r h
      unfold scanVal at h
      cases h
    · intro s v r h
      unfold scanItems at h
      cases h
    · intro s v r h
      unfold scanMembers at h
      cases h
  | succ n ih =>
    obtain ⟨ih1, ih2, ih3⟩ := ih
    refine ⟨?_, ?_, ?_⟩
    · intro s v r h
      unfold scanVal at h
      split at h
      · next r1 =>
        cases h1 : scanStr (r1.length + 1) r1 with
        | none => rw [h1] at h; cases h
        | some p =>
          rw [h1] at h
          cases h
          obtain ⟨t, ht, hs⟩ := scanStr_sound h1
          refine ⟨'"' :: (t ++ ['"']), ?_, .str hs⟩
          rw [ht]
          simp
      · next r1 =>
        obtain ⟨w, hw, hws⟩ := skipWs_sound r1
        split at h
        · next r2 e =>
          cases h
          refine ⟨'[' :: (w ++ [']']), ?_, .emptyArray hws⟩
          rw [hw, e]
          simp
        · cases h1 : scanItems F n (skipWs r1) with
          | none => rw [h1] at h; cases h
          | some p =>
            rw [h1] at h
            cases h
            obtain ⟨t, ht, hi⟩ := ih2 _ _ _ h1
            refine ⟨'[' :: ((w ++ t) ++ [']']), ?_, .array (items_ws hws hi)⟩
            rw [hw, ht]
            simp
      · next r1 =>
        obtain ⟨w, hw, hws⟩ := skipWs_sound r1
        split at h
        · next r2 e =>
          cases h
          refine ⟨'{' :: (w ++ ['}']), ?_, .emptyObject hws⟩
          rw [hw, e]
          simp
        · cases h1 : scanMembers F n (skipWs r1) with
          | none => rw [h1] at h; cases h
          | some p =>
            rw [h1] at h
            cases h
            obtain ⟨t, ht, hi⟩ := ih3 _ _ _ h1
            refine ⟨'{' :: ((w ++ t) ++ ['}']), ?_, .object (members_ws hws hi) (fromPairs_dictOf _)⟩
            rw [hw, ht]
            simp
      · cases h
        exact ⟨"null".toList, rfl, .null⟩
      · cases h
        exact ⟨"true".toList, rfl, .true⟩
      · cases h
        exact ⟨"false".toList, rfl, .false⟩
      · exact scanNumber_sound h
    · intro s vs r h
      unfold scanItems at h
      split at h
      · cases h
      · next v r1 hv =>
        obtain ⟨t, ht, hj⟩ := ih1 _ _ _ hv
        obtain ⟨w, hw, hws⟩ := skipWs_sound r1
        split at h
        · next r2 e =>
          cases h
          refine ⟨[] ++ (t ++ w), ?_, .one ws_nil hj hws⟩
          rw [ht, hw, e]
          simp
        · next r2 e =>
          obtain ⟨w2, hw2, hws2⟩ := skipWs_sound r2
          cases h1 : scanItems F n (skipWs r2) with
          | none => rw [h1] at h; cases h
          | some p =>
            rw [h1] at h
            cases h
            obtain ⟨ts, hts, hi⟩ := ih2 _ _ _ h1
            refine ⟨[] ++ (t ++ (w ++ ',' :: (w2 ++ ts))), ?_,
              .more ws_nil hj hws (items_ws hws2 hi)⟩
            rw [ht, hw, e, hw2, hts]
            simp
        · cases h
    · intro s es r h
      unfold scanMembers at h
      split at h
      · next r0 =>
        split at h
        · cases h
        · next k r1 hk =>
          obtain ⟨kt, hkt, hks⟩ := scanStr_sound hk
          obtain ⟨w1, hw1, hws1⟩ := skipWs_sound r1
          split at h
          · next r2 e2 =>
            obtain ⟨w2, hw2, hws2⟩ := skipWs_sound r2
            split at h
            · cases h
            · next v r3 hv =>
              obtain ⟨t, ht, hj⟩ := ih1 _ _ _ hv
              obtain ⟨w3, hw3, hws3⟩ := skipWs_sound r3
              split at h
              · next r4 e4 =>
                cases h
                refine ⟨_, ?_, .one ws_nil hks hws1 hws2 hj hws3⟩
                rw [hkt, hw1, e2, hw2, ht, hw3, e4]
                simp
              · next r4 e4 =>
                obtain ⟨w4, hw4, hws4⟩ := skipWs_sound r4
                cases h1 : scanMembers F n (skipWs r4) with
                | none => rw [h1] at h; cases h
                | some p =>
                  rw [h1] at h
                  cases h
                  obtain ⟨ts, hts, hi⟩ := ih3 _ _ _ h1
                  refine ⟨_, ?_, .more ws_nil hks hws1 hws2 hj hws3 (members_ws hws4 hi)⟩
                  rw [hkt, hw1, e2, hw2, ht, hw3, e4, hw4, hts]
                  simp
              · cases h
          · cases h
      · cases h

/-- `jsonLoads` accepts exactly the JSON texts, and gives the value that the text
stands for. -/
theorem jsonLoads_iff (F : FloatText) (s : PyStr) (v : Val) :
    jsonLoads F s = some v ↔ JDoc F s v := by
  constructor
  · intro h
    unfold jsonLoads at h
    obtain ⟨w, hw, hws⟩ := skipWs_sound s
    split at h
    · cases h
    · next v' r hv =>
      split at h
      · next hr =>
        cases h
        obtain ⟨t, ht, hj⟩ := (scan_sound F _).1 _ _ _ hv
        obtain ⟨w', hw', hws'⟩ := skipWs_sound r
        rw [hr, List.append_nil] at hw'
        exact ⟨w, t, r, by rw [← ht, ← hw], hws, hj, hw' ▸ hws'⟩
      · cases h
  · rintro ⟨w, t, w', rfl, hw, ht, hw'⟩
    obtain ⟨c, x, e0, hc⟩ := jtext_head ht
    have hnw : NoWs (t ++ w') := by rw [e0]; exact noWs_char hc.1
    have hst : Stops w' := by
      have := stops_ws hw' (r := []) (by intro c r e; cases e)
      simpa using this
    unfold jsonLoads
    rw [skipWs_append hw hnw, (scan_complete F _).1 t v w' ht hst (by simp; omega)]
    simp [skipWs_ws hw']

/-- A text stands for one value only. -/
theorem jdoc_unique {F : FloatText} {s : PyStr} {v v' : Val} (h : JDoc F s v) (h' : JDoc F s v') :
    v = v' := by
  rw [← jsonLoads_iff] at h h'
  rw [h] at h'
  exact Option.some.inj h'

end Verif.Api
