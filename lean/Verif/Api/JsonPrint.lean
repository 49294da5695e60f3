import Verif.Api.JsonGrammar
import Verif.Core.Json

/-!
# That `printVal` writes JSON texts, and what they stand for

`Image v w` says what a value `v` has become after it went through JSON text, written
down without the functions of the model.
-/

set_option autoImplicit false

namespace Verif.Api
open Verif Verif.Core

/-! ## The image of a value in JSON -/

/-- The decimal text of an integer. -/
def IntText (t : PyStr) (n : Int) : Prop :=
  ∃ sg ds, t = sg ++ ds ∧ NatText ds ∧ ((sg = [] ∧ n = (Nat.ofDigitChars 10 ds 0 : Nat)) ∨
    (sg = ['-'] ∧ n < 0 ∧ n = - (Nat.ofDigitChars 10 ds 0 : Nat)))

/-- The text of a `float` is a number with a fraction or an exponent. -/
def FloatGrammar (F : FloatText) : Prop :=
  ∀ x, ∃ sg ds f e, F.repr x = sg ++ ds ++ f ++ e ∧ MinusText sg ∧ NatText ds ∧ FracText f ∧
    ExpText e ∧ ¬ (f = [] ∧ e = [])

/-- The name that a key gets in JSON. -/
inductive KeyName (info : Nat → ClassInfo) (F : FloatText) : Val → PyStr → Prop
  | str (s : PyStr) : KeyName info F (.str s) s
  | none : KeyName info F .none "null".toList
  | true : KeyName info F (.bool true) "true".toList
  | false : KeyName info F (.bool false) "false".toList
  | int {t : PyStr} {n : Int} : IntText t n → KeyName info F (.int n) t
  | float (x : ℚ) : KeyName info F (.float x) (F.repr x)
  | intEnum {c : Nat} {m t : PyStr} {n : Int} : (info c).kind = .enum true →
      assoc (info c).enumMembers m = some (.int n) → IntText t n → KeyName info F (.enum c m) t

/-- What a value becomes when it goes through JSON text. -/
inductive Image (info : Nat → ClassInfo) (F : FloatText) : Val → Val → Prop
  | none : Image info F .none .none
  | bool (b : Bool) : Image info F (.bool b) (.bool b)
  | int (n : Int) : Image info F (.int n) (.int n)
  | str (s : PyStr) : Image info F (.str s) (.str s)
  | float (x : ℚ) : Image info F (.float x) (.float (F.parse (F.repr x)))
  | intEnum {c : Nat} {m : PyStr} {n : Int} : (info c).kind = .enum true →
      assoc (info c).enumMembers m = some (.int n) → Image info F (.enum c m) (.int n)
  | list {xs ys : List Val} : List.Forall₂ (Image info F) xs ys →
      Image info F (.list xs) (.list ys)
  | tuple {xs ys : List Val} : List.Forall₂ (Image info F) xs ys →
      Image info F (.tuple xs) (.list ys)
  | ntuple {c : Nat} {xs ys : List Val} : List.Forall₂ (Image info F) xs ys →
      Image info F (.ntuple c xs) (.list ys)
  | dict {es d : List (Val × Val)} {ps : List (PyStr × Val)} :
      List.Forall₂ (KeyName info F) (es.map Prod.fst) (ps.map Prod.fst) →
      List.Forall₂ (Image info F) (es.map Prod.snd) (ps.map Prod.snd) → DictOf ps d →
      Image info F (.dict es) (.dict d)
  | ddict {f : Option Ty} {es d : List (Val × Val)} {ps : List (PyStr × Val)} :
      List.Forall₂ (KeyName info F) (es.map Prod.fst) (ps.map Prod.fst) →
      List.Forall₂ (Image info F) (es.map Prod.snd) (ps.map Prod.snd) → DictOf ps d →
      Image info F (.ddict f es) (.dict d)

/-! ## Numbers -/

theorem natText_digits (n : Nat) : NatText (Nat.toDigits 10 n) ∧
    (0 < n → ∃ c r, Nat.toDigits 10 n = c :: r ∧ c ≠ '0') := by
  induction n using Nat.strongRecOn with
  | ind n ih =>
    have hall : ∀ d ∈ Nat.toDigits 10 n, d.isDigit = true := fun d hd =>
      Nat.isDigit_of_mem_toDigits (by decide) (by decide) hd
    by_cases h : n < 10
    · rw [Nat.toDigits_of_lt_base h]
      interval_cases n
      · exact ⟨.inl rfl, by intro h; cases h⟩
      all_goals exact ⟨.inr ⟨_, _, rfl, by decide, by decide⟩, fun _ => ⟨_, _, rfl, by decide⟩⟩
    · have h' : 10 ≤ n := by omega
      obtain ⟨c, r, e, hc⟩ := (ih (n / 10) (by omega)).2 (by omega)
      have e' : Nat.toDigits 10 n = c :: (r ++ [(n % 10).digitChar]) := by
        rw [Nat.toDigits_of_base_le (by decide) h', e]
        rfl
      exact ⟨.inr ⟨_, _, e', hc, hall⟩, fun _ => ⟨_, _, e', hc⟩⟩

theorem printInt_text (n : Int) : IntText (printInt n) n := by
  cases n with
  | ofNat n =>
    exact ⟨[], Nat.toDigits 10 n, rfl, (natText_digits n).1, .inl ⟨rfl, by rw [Nat.ofDigitChars_ten_toDigits]; rfl⟩⟩
  | negSucc n =>
    refine ⟨['-'], Nat.toDigits 10 (n + 1), rfl, (natText_digits (n + 1)).1, .inr ⟨rfl, Int.negSucc_lt_zero n, ?_⟩⟩
    rw [Nat.ofDigitChars_ten_toDigits]
    rfl

theorem intText_jtext {F : FloatText} {t : PyStr} {n : Int} (h : IntText t n) :
    JText F t (.int n) := by
  obtain ⟨sg, ds, rfl, hd, ⟨rfl, rfl⟩ | ⟨rfl, _, rfl⟩⟩ := h
  · exact JText.int (.inl rfl) hd
  · exact JText.int (.inr rfl) hd

theorem float_jtext {F : FloatText} (hF : FloatGrammar F) (x : ℚ) :
    JText F (F.repr x) (.float (F.parse (F.repr x))) := by
  obtain ⟨sg, ds, f, e, h, h1, h2, h3, h4, h5⟩ := hF x
  rw [h]
  exact .float h1 h2 h3 h4 h5

/-! ## Strings -/

theorem hexDigit_text {k : Nat} (h : k < 16) : HexText (hexDigit k) k := by
  left
  interval_cases k <;> decide

theorem uEscape_text {n : Nat} (h : n < 65536) : ∃ t, uEscape n = '\\' :: 'u' :: t ∧ Hex4Text t n := by
  refine ⟨_, rfl, _, _, _, _, _, _, _, _, rfl, hexDigit_text (Nat.mod_lt _ (by decide)),
    hexDigit_text (Nat.mod_lt _ (by decide)), hexDigit_text (Nat.mod_lt _ (by decide)),
    hexDigit_text (Nat.mod_lt _ (by decide)), ?_⟩
  omega

theorem char_valid (c : Char) : c.toNat < 0xd800 ∨ (0xdfff < c.toNat ∧ c.toNat < 0x110000) := by
  have := c.valid
  exact this

theorem escapeChar_text (c : Char) : CharText (escapeChar c) c := by
  have hv := char_valid c
  unfold escapeChar
  split
  · next h => subst h; exact .escape _ _ (by decide)
  split
  · next h => subst h; exact .escape _ _ (by decide)
  split
  · next h => subst h; exact .escape _ _ (by decide)
  split
  · next h => subst h; exact .escape _ _ (by decide)
  split
  · next h => subst h; exact .escape _ _ (by decide)
  split
  · next h =>
    have : c = Char.ofNat 12 := by rw [← h]; exact (Char.ofNat_toNat c).symm
    subst this
    exact .escape _ _ (by decide)
  split
  · next h =>
    have : c = Char.ofNat 8 := by rw [← h]; exact (Char.ofNat_toNat c).symm
    subst this
    exact .escape _ _ (by decide)
  split
  · next h1 h2 _ _ _ _ _ h => exact .plain c h1 h2 h.1
  split
  · next h =>
    obtain ⟨t, e, ht⟩ := uEscape_text h
    rw [e]
    have := CharText.unicode t c.toNat ht (by omega)
    rwa [Char.ofNat_toNat] at this
  · next h =>
    have hn : 55296 + (c.toNat - 65536) / 1024 < 65536 := by omega
    have hm : 56320 + (c.toNat - 65536) % 1024 < 65536 := by omega
    obtain ⟨t, e, ht⟩ := uEscape_text hn
    obtain ⟨u, e', hu⟩ := uEscape_text hm
    rw [e, e']
    have := CharText.pair t u _ _ ht hu (by omega) (by omega) (by omega) (by omega)
    have e2 : 0x10000 + (55296 + (c.toNat - 65536) / 1024 - 0xd800) * 1024 +
        (56320 + (c.toNat - 65536) % 1024 - 0xdc00) = c.toNat := by omega
    rw [e2, Char.ofNat_toNat] at this
    exact this

theorem escape_text (s : PyStr) : StrText (s.flatMap escapeChar) s := by
  induction s with
  | nil => exact .nil
  | cons c s ih => exact .cons (escapeChar_text c) ih

/-! ## Values -/

theorem keyText_sound {info : Nat → ClassInfo} {F : FloatText} {k : Val} {t : PyStr}
    (h : keyText info F k = .ok t) : KeyName info F k t := by
  unfold keyText at h
  split at h
  · cases h; exact .str _
  · cases h; exact .float _
  · next b =>
    cases h
    cases b
    · exact .false
    · exact .true
  · cases h; exact .none
  · cases h; exact .int (printInt_text _)
  · split at h
    · next n hn =>
      split at h
      · next hk => cases h; exact .intEnum hk hn (printInt_text _)
      · cases h
    · cases h
  · cases h

mutual
theorem printVal_sound {info : Nat → ClassInfo} {F : FloatText} (hF : FloatGrammar F) :
    ∀ (v : Val) (t : PyStr), printVal info F v = .ok t → ∃ w, Image info F v w ∧ JText F t w
  | .atom .none, t, h => by
    cases h; exact ⟨_, .none, .null⟩
  | .atom (.bool b), t, h => by
    cases h
    cases b
    · exact ⟨_, .bool _, .false⟩
    · exact ⟨_, .bool _, .true⟩
  | .atom (.int n), t, h => by
    cases h; exact ⟨_, .int n, intText_jtext (printInt_text n)⟩
  | .atom (.float x), t, h => by
    cases h; exact ⟨_, .float x, float_jtext hF x⟩
  | .atom (.str s), t, h => by
    cases h; exact ⟨_, .str s, .str (escape_text s)⟩
  | .enum c m, t, h => by
    unfold printVal at h
    split at h
    · next n hn =>
      split at h
      · next hk => cases h; exact ⟨_, .intEnum hk hn, intText_jtext (printInt_text n)⟩
      · cases h
    · cases h
  | .seq .list xs, t, h => by
    obtain ⟨t', ht, rfl⟩ : ∃ t', printItems info F xs = .ok t' ∧ t = '[' :: (t' ++ [']']) := by
      unfold printVal at h
      cases hx : printItems info F xs with
      | error e => rw [hx] at h; cases h
      | ok t' => rw [hx] at h; cases h; exact ⟨t', rfl, rfl⟩
    rcases printItems_sound hF xs t' ht with ⟨rfl, rfl⟩ | ⟨ws, h1, h2⟩
    · exact ⟨_, .list .nil, .emptyArray (w := []) (by intro c h; cases h)⟩
    · exact ⟨_, .list h1, .array h2⟩
  | .seq .tuple xs, t, h => by
    obtain ⟨t', ht, rfl⟩ : ∃ t', printItems info F xs = .ok t' ∧ t = '[' :: (t' ++ [']']) := by
      unfold printVal at h
      cases hx : printItems info F xs with
      | error e => rw [hx] at h; cases h
      | ok t' => rw [hx] at h; cases h; exact ⟨t', rfl, rfl⟩
    rcases printItems_sound hF xs t' ht with ⟨rfl, rfl⟩ | ⟨ws, h1, h2⟩
    · exact ⟨_, .tuple .nil, .emptyArray (w := []) (by intro c h; cases h)⟩
    · exact ⟨_, .tuple h1, .array h2⟩
  | .ntuple c xs, t, h => by
    obtain ⟨t', ht, rfl⟩ : ∃ t', printItems info F xs = .ok t' ∧ t = '[' :: (t' ++ [']']) := by
      unfold printVal at h
      cases hx : printItems info F xs with
      | error e => rw [hx] at h; cases h
      | ok t' => rw [hx] at h; cases h; exact ⟨t', rfl, rfl⟩
    rcases printItems_sound hF xs t' ht with ⟨rfl, rfl⟩ | ⟨ws, h1, h2⟩
    · exact ⟨_, .ntuple .nil, .emptyArray (w := []) (by intro c h; cases h)⟩
    · exact ⟨_, .ntuple h1, .array h2⟩
  | .dict es, t, h => by
    obtain ⟨t', ht, rfl⟩ : ∃ t', printEntries info F es = .ok t' ∧ t = '{' :: (t' ++ ['}']) := by
      unfold printVal at h
      cases hx : printEntries info F es with
      | error e => rw [hx] at h; cases h
      | ok t' => rw [hx] at h; cases h; exact ⟨t', rfl, rfl⟩
    rcases printEntries_sound hF es t' ht with ⟨rfl, rfl⟩ | ⟨ps, h1, h2, h3⟩
    · exact ⟨_, .dict (ps := []) .nil .nil (fromPairs_dictOf []),
        .emptyObject (w := []) (by intro c h; cases h)⟩
    · exact ⟨_, .dict h1 h2 (fromPairs_dictOf ps), .object h3 (fromPairs_dictOf ps)⟩
  | .ddict f es, t, h => by
    obtain ⟨t', ht, rfl⟩ : ∃ t', printEntries info F es = .ok t' ∧ t = '{' :: (t' ++ ['}']) := by
      unfold printVal at h
      cases hx : printEntries info F es with
      | error e => rw [hx] at h; cases h
      | ok t' => rw [hx] at h; cases h; exact ⟨t', rfl, rfl⟩
    rcases printEntries_sound hF es t' ht with ⟨rfl, rfl⟩ | ⟨ps, h1, h2, h3⟩
    · exact ⟨_, .ddict (ps := []) .nil .nil (fromPairs_dictOf []),
        .emptyObject (w := []) (by intro c h; cases h)⟩
    · exact ⟨_, .ddict h1 h2 (fromPairs_dictOf ps), .object h3 (fromPairs_dictOf ps)⟩
  | .atom (.datetime _), _, h | .atom (.date _), _, h | .atom (.time _), _, h
  | .atom (.timedelta _), _, h | .atom (.timezone _ _), _, h | .atom (.uuid _), _, h
  | .atom (.decimal _), _, h | .atom (.complex _ _), _, h | .atom (.path _), _, h
  | .atom (.zoneinfo _), _, h | .seq .set _, _, h | .seq .frozenset _, _, h | .seq .deque _, _, h
  | .obj _ _, _, h => by cases h
theorem printItems_sound {info : Nat → ClassInfo} {F : FloatText} (hF : FloatGrammar F) :
    ∀ (xs : List Val) (t : PyStr), printItems info F xs = .ok t → (xs = [] ∧ t = []) ∨
      ∃ ws, List.Forall₂ (Image info F) xs ws ∧ ItemsText F t ws
  | [], t, h => by cases h; exact .inl ⟨rfl, rfl⟩
  | x :: xs, t, h => by
    right
    unfold printItems at h
    cases hx : printVal info F x with
    | error e => rw [hx] at h; cases h
    | ok t1 =>
    cases hxs : printItems info F xs with
    | error e => rw [hx, hxs] at h; cases h
    | ok ts =>
      obtain ⟨w, hi, hj⟩ := printVal_sound hF x t1 hx
      rw [hx, hxs] at h
      rcases printItems_sound hF xs ts hxs with ⟨rfl, _⟩ | ⟨ws, h1, h2⟩
      · cases h
        have := ItemsText.one ws_nil hj ws_nil
        rw [List.append_nil] at this
        exact ⟨_, .cons hi .nil, this⟩
      · have hne : xs.isEmpty = false := by
          cases h1 with
          | nil => cases h2
          | cons _ _ => rfl
        have e : t = t1 ++ ',' :: ' ' :: ts := by
          simp only [Bind.bind, Except.bind, hne] at h
          cases h
          rfl
        subst e
        have h3 : ItemsText F (' ' :: ts) ws := items_ws (w := [' ']) (by
          intro c hc
          rw [List.mem_singleton] at hc
          exact .inl hc) h2
        exact ⟨_, .cons hi h1, ItemsText.more ws_nil hj ws_nil h3⟩
theorem printEntries_sound {info : Nat → ClassInfo} {F : FloatText} (hF : FloatGrammar F) :
    ∀ (es : List (Val × Val)) (t : PyStr), printEntries info F es = .ok t → (es = [] ∧ t = []) ∨
      ∃ ps : List (PyStr × Val), List.Forall₂ (KeyName info F) (es.map Prod.fst) (ps.map Prod.fst) ∧
        List.Forall₂ (Image info F) (es.map Prod.snd) (ps.map Prod.snd) ∧ MembersText F t ps
  | [], t, h => by cases h; exact .inl ⟨rfl, rfl⟩
  | (k, x) :: es, t, h => by
    right
    have hsp : Ws [' '] := by
      intro c hc
      rw [List.mem_singleton] at hc
      exact .inl hc
    unfold printEntries at h
    cases hk : keyText info F k with
    | error e => rw [hk] at h; cases h
    | ok kt =>
    cases hx : printVal info F x with
    | error e => rw [hk, hx] at h; cases h
    | ok t1 =>
    cases hxs : printEntries info F es with
    | error e => rw [hk, hx, hxs] at h; cases h
    | ok ts =>
      obtain ⟨w, hi, hj⟩ := printVal_sound hF x t1 hx
      have hkn := keyText_sound hk
      rw [hk, hx, hxs] at h
      rcases printEntries_sound hF es ts hxs with ⟨rfl, _⟩ | ⟨ps, h1, h2, h3⟩
      · have e : t = printStr kt ++ ':' :: ' ' :: t1 := by
          simp only [Bind.bind, Except.bind] at h
          cases h
          rfl
        subst e
        have := MembersText.one ws_nil (escape_text kt) ws_nil hsp hj ws_nil
        refine ⟨[(kt, w)], .cons hkn .nil, .cons hi .nil, ?_⟩
        simpa [printStr] using this
      · have hne : es.isEmpty = false := by
          cases es with
          | nil =>
            generalize hq : ps.map Prod.fst = q at h1
            cases h1
            have : ps = [] := by simpa using hq
            subst this
            cases h3
          | cons _ _ => rfl
        have e : t = printStr kt ++ ':' :: ' ' :: (t1 ++ ',' :: ' ' :: ts) := by
          simp only [Bind.bind, Except.bind, hne] at h
          cases h
          rfl
        subst e
        have h4 : MembersText F (' ' :: ts) ps := members_ws (w := [' ']) hsp h3
        refine ⟨(kt, w) :: ps, .cons hkn h1, .cons hi h2, ?_⟩
        have := MembersText.more ws_nil (escape_text kt) ws_nil hsp hj ws_nil h4
        simpa [printStr] using this
end

/-! ## What can be written -/

/-- The values of the members of `IntEnum`s are `int`s. -/
def IntEnums (info : Nat → ClassInfo) (v : Val) : Prop :=
  ∀ c m, v = .enum c m → (info c).kind = .enum true → ∃ n, assoc (info c).enumMembers m = some (.int n)

theorem keyText_complete {info : Nat → ClassInfo} {F : FloatText} {k : Val}
    (h : JsonLeaf info k) (hn : IntEnums info k) : ∃ t, keyText info F k = .ok t := by
  cases k with
  | atom a => cases a <;> first | exact ⟨_, rfl⟩ | exact h.elim
  | enum c m =>
    obtain ⟨n, hm⟩ := hn c m rfl h
    refine ⟨printInt n, ?_⟩
    have hk : (info c).kind = .enum true := h
    simp [keyText, hm, hk]
  | _ => exact h.elim

theorem printLeaf_complete {info : Nat → ClassInfo} {F : FloatText} {v : Val}
    (h : JsonLeaf info v) (hn : IntEnums info v) : ∃ t, printVal info F v = .ok t := by
  cases v with
  | atom a => cases a <;> first | exact ⟨_, rfl⟩ | exact h.elim
  | enum c m =>
    obtain ⟨n, hm⟩ := hn c m rfl h
    refine ⟨printInt n, ?_⟩
    have hk : (info c).kind = .enum true := h
    simp [printVal, hm, hk]
  | _ => exact h.elim

theorem printItems_complete {info : Nat → ClassInfo} {F : FloatText} (xs : List Val)
    (h : ∀ x ∈ xs, ∃ t, printVal info F x = .ok t) : ∃ t, printItems info F xs = .ok t := by
  induction xs with
  | nil => exact ⟨_, rfl⟩
  | cons x xs ih =>
    obtain ⟨t, ht⟩ := h x List.mem_cons_self
    obtain ⟨ts, hts⟩ := ih fun y hy => h y (List.mem_cons_of_mem _ hy)
    unfold printItems
    rw [ht, hts]
    exact ⟨_, rfl⟩

theorem printEntries_complete {info : Nat → ClassInfo} {F : FloatText} (es : List (Val × Val))
    (hk : ∀ e ∈ es, ∃ t, keyText info F e.1 = .ok t)
    (h : ∀ e ∈ es, ∃ t, printVal info F e.2 = .ok t) : ∃ t, printEntries info F es = .ok t := by
  induction es with
  | nil => exact ⟨_, rfl⟩
  | cons e es ih =>
    obtain ⟨k, x⟩ := e
    obtain ⟨kt, hkt⟩ := hk _ List.mem_cons_self
    obtain ⟨t, ht⟩ := h _ List.mem_cons_self
    obtain ⟨ts, hts⟩ := ih (fun y hy => hk y (List.mem_cons_of_mem _ hy))
      fun y hy => h y (List.mem_cons_of_mem _ hy)
    simp only at hkt ht
    unfold printEntries
    rw [hkt, ht, hts]
    exact ⟨_, rfl⟩

theorem printVal_complete {info : Nat → ClassInfo} {F : FloatText} {v : Val}
    (hn : ∀ w, JsonLeaf info w → IntEnums info w) (h : Json info v) :
    ∃ t, printVal info F v = .ok t := by
  induction h with
  | leaf h => exact printLeaf_complete h (hn _ h)
  | @list xs _ ih =>
    obtain ⟨t, ht⟩ := printItems_complete xs ih
    unfold printVal
    rw [ht]
    exact ⟨_, rfl⟩
  | @dict es hk _ ih =>
    obtain ⟨t, ht⟩ := printEntries_complete es
      (fun e he => keyText_complete (hk e he).1 (hn _ (hk e he).1)) ih
    unfold printVal
    rw [ht]
    exact ⟨_, rfl⟩

/-! ## What stays the same -/

/-- Values of JSON itself: no enums, only strings as keys, and `float`s that are read
back from their text. -/
inductive Pure (F : FloatText) : Val → Prop
  | none : Pure F .none
  | bool (b : Bool) : Pure F (.bool b)
  | int (n : Int) : Pure F (.int n)
  | str (s : PyStr) : Pure F (.str s)
  | float {x : ℚ} : F.parse (F.repr x) = x → Pure F (.float x)
  | list {xs : List Val} : (∀ x ∈ xs, Pure F x) → Pure F (.list xs)
  | dict {ps : List (PyStr × Val)} : (ps.map Prod.fst).Nodup → (∀ p ∈ ps, Pure F p.2) →
      Pure F (.dict (ps.map fun p => (.str p.1, p.2)))

theorem eraseDups_nodup {l : List PyStr} (h : l.Nodup) : l.eraseDups = l := by
  induction l using List.reverseRecOn with
  | nil => rfl
  | append_singleton l k ih =>
    rw [List.nodup_append] at h
    rw [eraseDups_snoc, if_neg, ih h.1]
    intro hk
    exact h.2.2 k hk k (by simp) rfl

theorem dictOf_nodup {ps : List (PyStr × Val)} (h : (ps.map Prod.fst).Nodup) :
    DictOf ps (ps.map fun p => (.str p.1, p.2)) := by
  refine ⟨?_, ?_⟩
  · rw [eraseDups_nodup h]
    simp
  · intro k v
    constructor
    · intro hm
      obtain ⟨p, hp, e⟩ := List.mem_map.mp hm
      obtain ⟨k', v'⟩ := p
      simp only [Prod.mk.injEq] at e
      obtain ⟨e1, rfl⟩ := e
      cases e1
      obtain ⟨a, b, rfl⟩ := List.append_of_mem hp
      refine ⟨a, b, rfl, ?_⟩
      intro e he heq
      rw [List.map_append, List.nodup_append, List.map_cons, List.nodup_cons] at h
      refine h.2.1.1 ?_
      rw [← heq]
      exact List.mem_map.mpr ⟨e, he, rfl⟩
    · rintro ⟨a, b, rfl, _⟩
      exact List.mem_map.mpr ⟨(k, v), by simp, rfl⟩

theorem forall₂_same {R : Val → Val → Prop} {xs ys : List Val} (h : List.Forall₂ R xs ys)
    (hr : ∀ x ∈ xs, ∀ y, R x y → y = x) : ys = xs := by
  induction h with
  | nil => rfl
  | cons h _ ih =>
    rw [hr _ List.mem_cons_self _ h, ih fun x hx => hr x (List.mem_cons_of_mem _ hx)]

theorem keys_same {info : Nat → ClassInfo} {F : FloatText} (ks ks' : List PyStr)
    (h : List.Forall₂ (KeyName info F) (ks.map Val.str) ks') : ks' = ks := by
  induction ks generalizing ks' with
  | nil => cases h; rfl
  | cons k ks ih =>
    cases h with
    | cons h1 h2 =>
      cases h1
      rw [ih _ h2]

theorem pairs_same {ps qs : List (PyStr × Val)} (h1 : qs.map Prod.fst = ps.map Prod.fst)
    (h2 : qs.map Prod.snd = ps.map Prod.snd) : qs = ps := by
  induction ps generalizing qs with
  | nil => simpa using h1
  | cons p ps ih =>
    cases qs with
    | nil => cases h1
    | cons q qs =>
      simp only [List.map_cons, List.cons.injEq] at h1 h2
      rw [ih h1.2 h2.2, show q = p from Prod.ext h1.1 h2.1]

theorem image_pure {info : Nat → ClassInfo} {F : FloatText} {v : Val} (h : Pure F v) :
    ∀ w, Image info F v w → w = v := by
  induction h with
  | none => intro w hw; cases hw; rfl
  | bool b => intro w hw; cases hw; rfl
  | int n => intro w hw; cases hw; rfl
  | str s => intro w hw; cases hw; rfl
  | float hx =>
    intro w hw
    cases hw
    rw [hx]
  | list _ ih =>
    intro w hw
    cases hw with
    | list h => rw [forall₂_same h ih]
  | @dict ps hn _ ih =>
    intro w hw
    generalize hv : Val.dict (ps.map fun p => (Val.str p.1, p.2)) = v at hw
    cases hw with
    | @dict es d qs h1 h2 h3 =>
      cases hv
      have e1 : qs.map Prod.fst = ps.map Prod.fst := by
        apply keys_same (info := info) (F := F)
        simpa using h1
      have e2 : qs.map Prod.snd = ps.map Prod.snd := by
        simp only [List.map_map] at h2
        refine forall₂_same h2 ?_
        intro x hx y hy
        obtain ⟨p, hp, rfl⟩ := List.mem_map.mp hx
        exact ih p hp y hy
      have e3 := pairs_same e1 e2
      subst e3
      rw [dictOf_unique h3 (dictOf_nodup hn)]
    | _ => cases hv

theorem pure_print {info : Nat → ClassInfo} {F : FloatText} {v : Val} (h : Pure F v) :
    ∃ t, printVal info F v = .ok t := by
  induction h with
  | list _ ih =>
    obtain ⟨t, ht⟩ := printItems_complete _ ih
    unfold printVal
    rw [ht]
    exact ⟨_, rfl⟩
  | @dict ps _ _ ih =>
    obtain ⟨t, ht⟩ := printEntries_complete (info := info) (F := F) (ps.map fun p => (Val.str p.1, p.2))
      (by
        intro e he
        obtain ⟨p, _, rfl⟩ := List.mem_map.mp he
        exact ⟨_, rfl⟩)
      (by
        intro e he
        obtain ⟨p, hp, rfl⟩ := List.mem_map.mp he
        exact ih p hp)
    unfold printVal
    rw [ht]
    exact ⟨_, rfl⟩
  | _ => exact ⟨_, rfl⟩

/-! ## The characters of the text -/

/-- A printable character of ASCII. -/
def Printable (c : Char) : Prop := 32 ≤ c.toNat ∧ c.toNat ≤ 126

theorem printable_digit {c : Char} (h : c.isDigit = true) : Printable c := by
  have h' := Char.isDigit_iff_toNat.mp h
  rw [show '0'.toNat = 48 from rfl, show '9'.toNat = 57 from rfl] at h'
  unfold Printable
  omega

theorem printable_hexDigit (n : Nat) : Printable (hexDigit (n % 16)) := by
  have : n % 16 < 16 := Nat.mod_lt _ (by decide)
  generalize n % 16 = k at this
  interval_cases k <;> exact ⟨by decide, by decide⟩

theorem printable_uEscape (n : Nat) : ∀ c ∈ uEscape n, Printable c := by
  intro c hc
  simp only [uEscape, List.mem_cons, List.not_mem_nil, or_false] at hc
  rcases hc with rfl | rfl | rfl | rfl | rfl | rfl
  · exact ⟨by decide, by decide⟩
  · exact ⟨by decide, by decide⟩
  all_goals exact printable_hexDigit _

theorem printable_escapeChar (a : Char) : ∀ c ∈ escapeChar a, Printable c := by
  have two : ∀ x y : Char, Printable x → Printable y → ∀ c ∈ [x, y], Printable c := by
    intro x y hx hy c hc
    simp only [List.mem_cons, List.not_mem_nil, or_false] at hc
    rcases hc with rfl | rfl
    · exact hx
    · exact hy
  unfold escapeChar
  repeat' split
  any_goals exact two _ _ ⟨by decide, by decide⟩ ⟨by decide, by decide⟩
  · next h =>
    intro c hc
    rw [List.mem_singleton] at hc
    subst hc
    exact h
  · exact printable_uEscape _
  · intro c hc
    rcases List.mem_append.mp hc with hc | hc <;> exact printable_uEscape _ c hc

theorem printable_printStr (s : PyStr) : ∀ c ∈ printStr s, Printable c := by
  intro c hc
  simp only [printStr, List.mem_cons, List.mem_append, List.mem_flatMap, List.not_mem_nil,
    or_false] at hc
  rcases hc with rfl | ⟨a, _, hc⟩ | rfl
  · exact ⟨by decide, by decide⟩
  · exact printable_escapeChar a c hc
  · exact ⟨by decide, by decide⟩

theorem printable_nat {ds : PyStr} (h : NatText ds) : ∀ c ∈ ds, Printable c := by
  rcases h with rfl | ⟨_, _, _, _, h⟩
  · intro c hc
    rw [List.mem_singleton] at hc
    subst hc
    exact ⟨by decide, by decide⟩
  · exact fun c hc => printable_digit (h c hc)

theorem printable_printInt (n : Int) : ∀ c ∈ printInt n, Printable c := by
  cases n with
  | ofNat n => exact printable_nat (natText_digits n).1
  | negSucc n =>
    intro c hc
    rcases List.mem_cons.mp hc with rfl | hc
    · exact ⟨by decide, by decide⟩
    · exact printable_nat (natText_digits _).1 c hc

theorem printable_repr {F : FloatText} (hF : FloatGrammar F) (x : ℚ) :
    ∀ c ∈ F.repr x, Printable c := by
  obtain ⟨sg, ds, f, e, h, h1, h2, h3, h4, _⟩ := hF x
  rw [h]
  intro c hc
  simp only [List.mem_append] at hc
  rcases hc with ((hc | hc) | hc) | hc
  · rcases h1 with rfl | rfl
    · cases hc
    · rw [List.mem_singleton] at hc
      subst hc
      exact ⟨by decide, by decide⟩
  · exact printable_nat h2 c hc
  · rcases h3 with rfl | ⟨ds, rfl, _, h3⟩
    · cases hc
    · rcases List.mem_cons.mp hc with rfl | hc
      · exact ⟨by decide, by decide⟩
      · exact printable_digit (h3 c hc)
  · rcases h4 with rfl | ⟨e, sg, ds, rfl, he, hs, _, h4⟩
    · cases hc
    · simp only [List.mem_cons, List.mem_append] at hc
      rcases hc with rfl | hc | hc
      · rcases he with rfl | rfl <;> exact ⟨by decide, by decide⟩
      · rcases hs with rfl | rfl | rfl
        · cases hc
        all_goals
          rw [List.mem_singleton] at hc
          subst hc
          exact ⟨by decide, by decide⟩
      · exact printable_digit (h4 c hc)

theorem printable_word {s : String} (h : ∀ c ∈ s.toList, 32 ≤ c.toNat ∧ c.toNat ≤ 126) :
    ∀ c ∈ s.toList, Printable c := h

theorem printable_wrap {a b : Char} {t : PyStr} (ha : Printable a) (hb : Printable b)
    (ht : ∀ c ∈ t, Printable c) : ∀ c ∈ a :: (t ++ [b]), Printable c := by
  intro c hc
  simp only [List.mem_cons, List.mem_append, List.not_mem_nil, or_false] at hc
  rcases hc with rfl | hc | rfl
  · exact ha
  · exact ht c hc
  · exact hb

mutual
theorem printable_printVal {info : Nat → ClassInfo} {F : FloatText} (hF : FloatGrammar F) :
    ∀ (v : Val) (t : PyStr), printVal info F v = .ok t → ∀ c ∈ t, Printable c
  | .atom .none, t, h => by
    cases h
    exact printable_word (by decide)
  | .atom (.bool b), t, h => by
    cases h
    cases b
    · exact printable_word (by decide)
    · exact printable_word (by decide)
  | .atom (.int n), t, h => by
    cases h; exact printable_printInt n
  | .atom (.float x), t, h => by
    cases h; exact printable_repr hF x
  | .atom (.str s), t, h => by
    cases h; exact printable_printStr s
  | .enum c m, t, h => by
    unfold printVal at h
    split at h
    · split at h
      · cases h
        exact printable_printInt _
      · cases h
    · cases h
  | .seq .list xs, t, h => by
    unfold printVal at h
    cases hx : printItems info F xs with
    | error e => rw [hx] at h; cases h
    | ok t' =>
      rw [hx] at h
      cases h
      exact printable_wrap ⟨by decide, by decide⟩ ⟨by decide, by decide⟩ (printable_items hF xs t' hx)
  | .seq .tuple xs, t, h => by
    unfold printVal at h
    cases hx : printItems info F xs with
    | error e => rw [hx] at h; cases h
    | ok t' =>
      rw [hx] at h
      cases h
      exact printable_wrap ⟨by decide, by decide⟩ ⟨by decide, by decide⟩ (printable_items hF xs t' hx)
  | .ntuple _ xs, t, h => by
    unfold printVal at h
    cases hx : printItems info F xs with
    | error e => rw [hx] at h; cases h
    | ok t' =>
      rw [hx] at h
      cases h
      exact printable_wrap ⟨by decide, by decide⟩ ⟨by decide, by decide⟩ (printable_items hF xs t' hx)
  | .dict es, t, h => by
    unfold printVal at h
    cases hx : printEntries info F es with
    | error e => rw [hx] at h; cases h
    | ok t' =>
      rw [hx] at h
      cases h
      exact printable_wrap ⟨by decide, by decide⟩ ⟨by decide, by decide⟩ (printable_entries hF es t' hx)
  | .ddict _ es, t, h => by
    unfold printVal at h
    cases hx : printEntries info F es with
    | error e => rw [hx] at h; cases h
    | ok t' =>
      rw [hx] at h
      cases h
      exact printable_wrap ⟨by decide, by decide⟩ ⟨by decide, by decide⟩ (printable_entries hF es t' hx)
  | .atom (.datetime _), _, h | .atom (.date _), _, h | .atom (.time _), _, h
  | .atom (.timedelta _), _, h | .atom (.timezone _ _), _, h | .atom (.uuid _), _, h
  | .atom (.decimal _), _, h | .atom (.complex _ _), _, h | .atom (.path _), _, h
  | .atom (.zoneinfo _), _, h | .seq .set _, _, h | .seq .frozenset _, _, h | .seq .deque _, _, h
  | .obj _ _, _, h => by cases h
theorem printable_items {info : Nat → ClassInfo} {F : FloatText} (hF : FloatGrammar F) :
    ∀ (xs : List Val) (t : PyStr), printItems info F xs = .ok t → ∀ c ∈ t, Printable c
  | [], t, h => by cases h; intro c hc; cases hc
  | x :: xs, t, h => by
    unfold printItems at h
    cases hx : printVal info F x with
    | error e => rw [hx] at h; cases h
    | ok t1 =>
    cases hxs : printItems info F xs with
    | error e => rw [hx, hxs] at h; cases h
    | ok ts =>
      have h1 := printable_printVal hF x t1 hx
      have h2 := printable_items hF xs ts hxs
      rw [hx, hxs] at h
      simp only [Bind.bind, Except.bind] at h
      cases h
      split
      · exact h1
      · intro c hc
        simp only [List.mem_append, List.mem_cons] at hc
        rcases hc with hc | rfl | rfl | hc
        · exact h1 c hc
        · exact ⟨by decide, by decide⟩
        · exact ⟨by decide, by decide⟩
        · exact h2 c hc
theorem printable_entries {info : Nat → ClassInfo} {F : FloatText} (hF : FloatGrammar F) :
    ∀ (es : List (Val × Val)) (t : PyStr), printEntries info F es = .ok t → ∀ c ∈ t, Printable c
  | [], t, h => by cases h; intro c hc; cases hc
  | (k, x) :: es, t, h => by
    unfold printEntries at h
    cases hk : keyText info F k with
    | error e => rw [hk] at h; cases h
    | ok kt =>
    cases hx : printVal info F x with
    | error e => rw [hk, hx] at h; cases h
    | ok t1 =>
    cases hxs : printEntries info F es with
    | error e => rw [hk, hx, hxs] at h; cases h
    | ok ts =>
      have h1 := printable_printVal hF x t1 hx
      have h2 := printable_entries hF es ts hxs
      have h3 := printable_printStr kt
      rw [hk, hx, hxs] at h
      simp only [Bind.bind, Except.bind] at h
      cases h
      intro c hc
      simp only [List.mem_append, List.mem_cons] at hc
      rcases hc with hc | rfl | rfl | hc
      · exact h3 c hc
      · exact ⟨by decide, by decide⟩
      · exact ⟨by decide, by decide⟩
      · split at hc
        · exact h1 c hc
        · simp only [List.mem_append, List.mem_cons] at hc
          rcases hc with hc | rfl | rfl | hc
          · exact h1 c hc
          · exact ⟨by decide, by decide⟩
          · exact ⟨by decide, by decide⟩
          · exact h2 c hc
end

end Verif.Api
