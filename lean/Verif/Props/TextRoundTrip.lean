import Verif.Props.RoundTrip
import Verif.Props.Functions

/-! # C79: values survive `dumps` and `loads`

The induction of `Verif.Props.RoundTrip`, for dumps that go through JSON text. -/

set_option autoImplicit false

namespace Verif.Props.TextRoundTrip

open Verif Verif.Core Verif.Api Verif.Datetime Verif.Props.LoadBasics Verif.Props.LoadCollections
  Verif.Props.RoundTrip

variable {E : LEnv} {F : FloatText} {fork : Nat}

/-! ## The way over a text -/

/-- The keys of dicts that survive a text: strings, `int`s, `True`, and the `float`s
that `float` reads back from their text. -/
def TextKey (E : LEnv) (F : FloatText) : Val → Prop
  | .str _ => True
  | .int _ => True
  | .bool b => b = true
  | .float q => E.floatOther (.str (F.repr q)) = .ok q
  | _ => False

/-- What is written is the text of a dump, what is received is its image.  Of the
`float`s those survive that are read back from their text; all of them do in Python. -/
def text (E : LEnv) (F : FloatText) : Way where
  key := TextKey E F
  float q := F.parse (F.repr q) = q
  Sends j := ∃ t, printVal E.info F j = .ok t
  Gets := Image E.info F

/-! ## The text of an `int` -/

theorem parseDigits_digits : ∀ (ds : PyStr) (acc : Nat), ds ≠ [] → (∀ d ∈ ds, d.isDigit = true) →
    parseDigits acc ds = some (Nat.ofDigitChars 10 ds acc) := by
  intro ds
  induction ds with
  | nil => intro _ h; exact absurd rfl h
  | cons c r ih =>
    intro acc _ h
    have hc := h c List.mem_cons_self
    have hc' : '0' ≤ c ∧ c ≤ '9' := by
      simp only [Char.isDigit, Bool.and_eq_true, decide_eq_true_eq] at hc
      exact hc
    rw [Nat.ofDigitChars_cons]
    cases r with
    | nil =>
      simp only [parseDigits, hc', and_self, if_true, Nat.ofDigitChars_nil]
      rfl
    | cons d r =>
      have hd : d ≠ '_' := by
        intro hd
        have := h d (by simp)
        rw [hd] at this
        exact absurd this (by decide)
      rw [parseDigits]
      · rw [if_pos hc', ih _ (by simp) (fun x hx => h x (List.mem_cons_of_mem _ hx))]
        rfl
      · simp
      · intro r' e
        simp only [List.cons.injEq] at e
        exact hd e.1

theorem natText_mem {ds : PyStr} (h : NatText ds) : ds ≠ [] ∧ ∀ d ∈ ds, d.isDigit = true := by
  rcases h with rfl | ⟨c, r, rfl, _, h⟩
  · exact ⟨by simp, by decide⟩
  · exact ⟨by simp, h⟩

theorem dropWhile_none {p : Char → Bool} {s : PyStr} (h : ∀ c ∈ s, p c = false) : s.dropWhile p = s := by
  cases s with
  | nil => rfl
  | cons c s => simp [List.dropWhile, h c List.mem_cons_self]

/-- `int` reads back the text of an `int`. -/
theorem parseInt_text {t : PyStr} {n : Int} (h : IntText t n) : parseInt t = .ok n := by
  obtain ⟨sg, ds, rfl, hd, hn⟩ := h
  obtain ⟨hne, hdig⟩ := natText_mem hd
  have hsp : ∀ c : Char, c.isDigit = true → isSpace c = false ∧ c ≠ '-' ∧ c ≠ '+' := by
    intro c hc
    refine ⟨?_, ?_, ?_⟩
    · rw [← Bool.not_eq_true]
      intro hs
      simp only [isSpace, Char.isDigit, Bool.or_eq_true, Bool.and_eq_true, beq_iff_eq, decide_eq_true_eq,
        Char.le_def, UInt32.le_iff_toNat_le, ge_iff_le] at hs hc
      have e1 : '0'.val.toNat = 48 := rfl
      have e2 : '\r'.val.toNat = 13 := rfl
      have e3 : '\x1f'.val.toNat = 31 := rfl
      rcases hs with (rfl | hs) | hs
      · exact absurd hc (by decide)
      · omega
      · omega
    · rintro rfl; exact absurd hc (by decide)
    · rintro rfl; exact absurd hc (by decide)
  have hstrip : (((sg ++ ds).dropWhile isSpace).reverse.dropWhile isSpace).reverse = sg ++ ds := by
    have hall : ∀ c ∈ sg ++ ds, isSpace c = false := by
      intro c hc
      rcases List.mem_append.1 hc with hc | hc
      · rcases hn with ⟨rfl, _⟩ | ⟨rfl, _⟩
        · cases hc
        · rw [List.mem_singleton] at hc; subst hc; decide
      · exact (hsp c (hdig c hc)).1
    rw [dropWhile_none hall, dropWhile_none (fun c hc => hall c (List.mem_reverse.1 hc)), List.reverse_reverse]
  unfold parseInt
  simp only [hstrip]
  rcases hn with ⟨rfl, rfl⟩ | ⟨rfl, _, rfl⟩
  · rw [List.nil_append]
    cases ds with
    | nil => exact absurd rfl hne
    | cons c r =>
      have := hsp c (hdig c List.mem_cons_self)
      have hm := parseDigits_digits (c :: r) 0 hne hdig
      split
      · next e =>
        split at e
        · next h => exact absurd (List.cons.inj h).1 this.2.1
        · next h => exact absurd (List.cons.inj h).1 this.2.2
        · rw [hm] at e; cases e; rfl
      · next e =>
        split at e
        · next h => exact absurd (List.cons.inj h).1 this.2.1
        · next h => exact absurd (List.cons.inj h).1 this.2.2
        · rw [hm] at e; cases e
  · simp only [List.singleton_append, parseDigits_digits ds 0 hne hdig]
    rfl

/-! ## The laws -/

/-- The classes of the keys. -/
abbrev prims : List Cls := [Cls.str, .int, .float, .bool, .noneType]

theorem prim_cases {v : Val} (h : v.cls ∈ prims) :
    v = .none ∨ (∃ b, v = .bool b) ∨ (∃ n, v = .int n) ∨ (∃ q, v = .float q) ∨ ∃ s, v = .str s := by
  cases v with
  | atom a => cases a <;> simp_all [Val.cls, Atom.cls]
  | seq k xs => cases k <;> simp [Val.cls, SeqKind.cls, prims] at h
  | _ => simp [Val.cls, prims] at h

theorem prim_leaf {v : Val} (h : v.cls ∈ prims) :
    (∃ t, keyText E.info F v = .ok t) ∧ ∃ t, printVal E.info F v = .ok t := by
  rcases prim_cases h with rfl | ⟨b, rfl⟩ | ⟨n, rfl⟩ | ⟨q, rfl⟩ | ⟨s, rfl⟩ <;> exact ⟨⟨_, rfl⟩, _, rfl⟩

theorem forall₂_and {α β : Type} {R S : α → β → Prop} {xs : List α} {ys : List β}
    (h1 : List.Forall₂ R xs ys) (h2 : List.Forall₂ S xs ys) :
    List.Forall₂ (fun x y => R x y ∧ S x y) xs ys := by
  induction h1 with
  | nil => exact .nil
  | cons h _ ih =>
    cases h2 with
    | cons h' h2 => exact .cons ⟨h, h'⟩ (ih h2)

/-- What is received of a dict, if the names of the keys are distinct. -/
theorem image_dict {es : List (Val × Val)} {w : Val} (h : Image E.info F (.dict es) w)
    (hn : es.Pairwise fun e f => ∀ s t, KeyName E.info F e.1 s → KeyName E.info F f.1 t → s ≠ t) :
    ∃ ps : List (PyStr × Val), w = .dict (ps.map fun p => (.str p.1, p.2)) ∧
      List.Forall₂ (fun e p => KeyName E.info F e.1 p.1 ∧ Image E.info F e.2 p.2) es ps := by
  cases h with
  | @dict _ d ps h1 h2 h3 =>
    have h4 : List.Forall₂ (fun e p => KeyName E.info F e.1 p.1 ∧ Image E.info F e.2 p.2) es ps := by
      rw [List.forall₂_map_left_iff, List.forall₂_map_right_iff] at h1 h2
      exact forall₂_and h1 h2
    have h5 : (ps.map Prod.fst).Nodup := by
      clear h1 h2 h3
      induction h4 with
      | nil => simp
      | cons h h' ih =>
        rw [List.pairwise_cons] at hn
        rw [List.map_cons, List.nodup_cons]
        refine ⟨?_, ih hn.2⟩
        intro hm
        obtain ⟨q, hq, e⟩ := List.mem_map.1 hm
        obtain ⟨f, hf, hk, _⟩ := forall₂_right h' q hq
        exact hn.1 f hf _ _ h.1 hk e.symm
    exact ⟨ps, by rw [dictOf_unique h3 (dictOf_nodup h5)], h4⟩

theorem name_digits {sg ds f : PyStr} (hs : sg = [] ∨ sg = ['-']) (hd : NatText ds) :
    sg ++ ds ++ f ≠ metaKey ∧ sg ++ ds ++ f ≠ keysKey := by
  obtain ⟨hne, hdig⟩ := natText_mem hd
  cases ds with
  | nil => exact absurd rfl hne
  | cons c r =>
    have hc := hdig c List.mem_cons_self
    rcases hs with rfl | rfl
    · constructor <;> intro h <;> (have := (List.cons.inj h).1; subst this; exact absurd hc (by decide))
    · constructor <;> intro h <;>
        (have := (List.cons.inj (List.cons.inj h).2).1; subst this; exact absurd hc (by decide))

/-- The name of a key is loaded as the key. -/
theorem key_back (hF : FloatGrammar F) (hd : DefaultDesers E fork) (hv : NoValidators E fork) {k : Val}
    {s : PyStr} (hk : TextKey E F k) (hm : k ≠ .str metaKey) (hkk : k ≠ .str keysKey)
    (h : KeyName E.info F k s) : KeyBack E fork k.cls k (.str s) := by
  have hcast : ∀ c, c ∈ [Cls.int, .float, .bool] → E.cast (.str s) (.cls c) = .ok k →
      ∀ n, 2 ≤ n → ∀ kw, kw.fork = fork → (load E n (.str s) (some (.cls c)) kw).val = .ok k := by
    intro c hc hr n hn kw hkw
    obtain ⟨n, rfl⟩ : ∃ i, n = i + 1 := ⟨n - 1, by omega⟩
    have hf : (Ty.cls c).desFn E.info = some .primitive := by
      simp only [List.mem_cons, List.not_mem_nil, or_false] at hc
      rcases hc with rfl | rfl | rfl <;> rfl
    have hi : E.isInstance (.str s) (.cls c) = .ok false := by
      simp only [List.mem_cons, List.not_mem_nil, or_false] at hc
      rcases hc with rfl | rfl | rfl <;> rfl
    rw [(load_via (n := n) (v := .str s) (t := .cls c) (kw := kw) (f := .primitive) (m := none)
      (by intro h; cases h) (by
        rintro (⟨_, h⟩ | h)
        · cases h; simp [Val.cls, Atom.cls] at hc
        · cases h) (by simp [Val.cls, Atom.cls, validTypes])
      (noMeta_get (noMeta_of_not_dict (by simp [Val.cls, Atom.cls])) _) (.inr rfl)
      (by rw [hkw]; exact hd) hf (by rw [hkw]; exact hv _)).1, wrapRes_ok]
    simp only [callDes, primitiveDes, hi, hr]
    rfl
  cases h with
  | str s =>
    exact ⟨by simp [Val.cls, Atom.cls], hm, hkk, fun n hn kw hkw =>
      prim_load (v := .str s) hd hv (by simp [Val.cls, Atom.cls]) hn hkw⟩
  | none => exact hk.elim
  | true =>
    exact ⟨by simp [Val.cls, Atom.cls], by decide, by decide, hcast .bool (by simp) rfl⟩
  | false => cases hk
  | int h =>
    have hne : s ≠ metaKey ∧ s ≠ keysKey := by
      obtain ⟨sg, ds, rfl, h1, h2⟩ := h
      have := name_digits (sg := sg) (ds := ds) (f := [])
        (by rcases h2 with ⟨h, _⟩ | ⟨h, _⟩ <;> simp [h]) h1
      simpa using this
    refine ⟨by simp [Val.cls, Atom.cls], by simpa using hne.1, by simpa using hne.2, hcast .int (by simp) ?_⟩
    show (parseInt s).map Val.int = _
    rw [parseInt_text h]
    rfl
  | float q =>
    have hne : F.repr q ≠ metaKey ∧ F.repr q ≠ keysKey := by
      obtain ⟨sg, ds, f, e, h, h1, h2, _⟩ := hF q
      rw [h, List.append_assoc (sg ++ ds)]
      exact name_digits h1 h2
    refine ⟨by simp [Val.cls, Atom.cls], by simpa using hne.1, by simpa using hne.2, hcast .float (by simp) ?_⟩
    show (E.floatOther (.str (F.repr q))).map Val.float = _
    rw [show E.floatOther (.str (F.repr q)) = .ok q from hk]
    rfl
  | intEnum _ _ _ => exact hk.elim

/-- The laws of `Verif.Props.RoundTrip`. -/
theorem text_lawful (hF : FloatGrammar F) (hd : DefaultDesers E fork) (hv : NoValidators E fork) :
    Lawful E fork (text E F) where
  prim := by
    intro j hj hq
    refine ⟨(prim_leaf hj).2, ?_⟩
    rcases prim_cases hj with rfl | ⟨b, rfl⟩ | ⟨n, rfl⟩ | ⟨q, rfl⟩ | ⟨s, rfl⟩ <;> intro w hw <;> cases hw
    case inr.inr.inr.inl => rw [show F.parse (F.repr q) = q from hq q rfl]
    all_goals rfl
  list := by
    intro js hjs
    refine ⟨?_, ?_⟩
    · obtain ⟨t, ht⟩ := printItems_complete js hjs
      exact ⟨'[' :: (t ++ [']']), by simp only [printVal, ht]; rfl⟩
    · intro w hw
      cases hw with
      | list h => exact ⟨_, rfl, h⟩
  isDict := by
    intro es w hw
    cases hw with
    | dict _ _ _ => exact ⟨_, rfl⟩
  names := by
    intro es hs hn hes
    refine ⟨?_, ?_⟩
    · obtain ⟨t, ht⟩ := printEntries_complete (info := E.info) (F := F) es (by
        intro e he
        obtain ⟨s, h⟩ := hs e he
        rw [h]; exact ⟨_, rfl⟩) hes
      exact ⟨'{' :: (t ++ ['}']), by simp only [printVal, ht]; rfl⟩
    · intro w hw
      obtain ⟨ps, rfl, hps⟩ := image_dict hw (by
        refine List.Pairwise.imp_of_mem ?_ (List.pairwise_map.1 hn)
        intro e f he hf hne s t h1 h2 hst
        obtain ⟨s', h3⟩ := hs e he
        obtain ⟨t', h4⟩ := hs f hf
        rw [h3] at h1
        rw [h4] at h2
        cases h1; cases h2
        exact hne (by rw [h3, h4, hst]))
      refine ⟨_, rfl, ?_⟩
      rw [List.forall₂_map_right_iff]
      refine (forall₂_mem hps).imp ?_
      rintro e p ⟨he, h1, h2⟩
      obtain ⟨s, h3⟩ := hs e he
      refine ⟨?_, h2⟩
      rw [h3] at h1 ⊢
      cases h1
      rfl
  dict := by
    intro k es hk hc hkey hne hp hes
    have hprim : ∀ e ∈ es, e.1.cls ∈ prims := fun e he => by rw [hc e he]; exact hk
    have hback : ∀ e ∈ es, ∀ s, KeyName E.info F e.1 s → KeyBack E fork k e.1 (.str s) := by
      intro e he s hs
      rw [← hc e he]
      exact key_back hF hd hv (hkey e he) (hne e he).1 (hne e he).2 hs
    refine ⟨?_, ?_⟩
    · obtain ⟨t, ht⟩ := printEntries_complete (info := E.info) (F := F) es
        (fun e he => (prim_leaf (hprim e he)).1) hes
      exact ⟨'{' :: (t ++ ['}']), by simp only [printVal, ht]; rfl⟩
    · intro w hw
      obtain ⟨ps, rfl, hps⟩ := image_dict hw (by
        refine List.Pairwise.imp_of_mem ?_ hp
        intro e f he hf hne s t h1 h2 hst
        subst hst
        have h3 := (hback e he s h1).load 2 (Nat.le_refl 2) { fork := fork } rfl
        have h4 := (hback f hf s h2).load 2 (Nat.le_refl 2) { fork := fork } rfl
        rw [h3] at h4
        rw [Except.ok.inj h4, pyEq_refl] at hne
        cases hne)
      refine ⟨_, rfl, ?_⟩
      rw [List.forall₂_map_right_iff]
      exact (forall₂_mem hps).imp fun e p ⟨he, h1, h2⟩ => ⟨hback e he _ h1, h2⟩

/-! ## The theorem -/

/-- C79 for the values and types of `HasTy`: `loads(dumps(v), T)` is `v` again, and so is
`loadb(dumpb(v), T)`; up to the time zones of datetimes (of which the offset is kept),
with `cls=T` or without.  The keys of dicts may be strings, `int`s, `True` and `float`s.
What is missing: what is missing for C33 (`round_trip_partial`); `False` and `None` as
keys (below). -/
theorem text_round_trip_partial (E : LEnv) (F : FloatText) (hF : FloatGrammar F) (fork : Nat) (v : Val)
    (t : Ty) (x : Bool) (hs : DefaultSers E.toEnv fork) (hd : DefaultDesers E fork)
    (hv : NoValidators E fork) (h : HasTy E (text E F) x v t) :
    ∃ N r, Same v r ∧ (x = true → r = v) ∧ ∀ n, N ≤ n → ∀ kw, DumpNeutral fork kw →
      ∀ cls, cls = none ∨ cls = some t →
        ∃ s b, (dumps E.toEnv F n v cls kw).val = .ok s ∧ (dumpb E.toEnv F n v cls kw).val = .ok b ∧
          ∀ m, N ≤ m → ∀ kw', LoadNeutral fork kw' → (loads E F m s (some t) kw').val = .ok r ∧
            (loadb E F m (.bytes b) (some t) kw').val = .ok r := by
  obtain ⟨N, r, hr⟩ := rt_all (text_lawful hF hd hv) hs hd hv h
  refine ⟨N, r, hr.same, hr.eq, ?_⟩
  intro n hn kw hk cls hc
  obtain ⟨j, h1, ⟨s, hsend⟩, h2⟩ := hr.dump n hn kw hk cls hc
  have hds : (dumps E.toEnv F n v cls kw).val = .ok s := by
    simp only [dumps, Core.bind_ok, liftK_ok]
    exact ⟨j, h1, hsend⟩
  have hdb := ((Functions.dumpb_dumps E.toEnv F n v cls kw).1 s.utf8Encode).mpr ⟨s, hds, rfl⟩
  obtain ⟨j', w, hj, hi, _, hl⟩ := Functions.loads_dumps E F hF n v cls kw s hds
  rw [h1] at hj
  cases hj
  refine ⟨s, _, hds, hdb, fun m hm kw' hk' => ⟨?_, ?_⟩⟩
  · rw [hl]
    exact (h2 w hi).load m hm kw' hk'
  · rw [Functions.loadb_utf8 E F m _ s _ _ rfl, hl]
    exact (h2 w hi).load m hm kw' hk'

/-! ## Where it fails -/

/-- C79 fails for `False` as a key: `{False: 1}` as `Dict[bool, int]` is written as
`{"false": 1}` and comes back as `{True: 1}`. -/
theorem text_round_trip_fails_bool :
    (dumps (demoEnv demoInfo) Functions.demoFloat 9 (.dict [(.bool false, .int 1)])
      (some (.gen .dict [.cls .bool, .cls .int])) {}).val = .ok "{\"false\": 1}".toList ∧
    (loads (demoLEnv demoInfo) Functions.demoFloat 9 "{\"false\": 1}".toList
      (some (.gen .dict [.cls .bool, .cls .int])) {}).val = .ok (.dict [(.bool true, .int 1)]) := by
  refine ⟨by decide +kernel, by decide +kernel⟩

/-- C79 fails for `None` as a key: `{None: 1}` as `Dict[None, int]` is written as
`{"null": 1}`, which is refused. -/
theorem text_round_trip_fails_none :
    (dumps (demoEnv demoInfo) Functions.demoFloat 9 (.dict [(.none, .int 1)])
      (some (.gen .dict [.cls .noneType, .cls .int])) {}).val = .ok "{\"null\": 1}".toList ∧
    ∃ e, (loads (demoLEnv demoInfo) Functions.demoFloat 9 "{\"null\": 1}".toList
      (some (.gen .dict [.cls .noneType, .cls .int])) {}).val = .error e ∧
      e.kind = .deserializationError := by
  refine ⟨by decide +kernel, ?_⟩
  have h : (match (loads (demoLEnv demoInfo) Functions.demoFloat 9 "{\"null\": 1}".toList
      (some (.gen .dict [.cls .noneType, .cls .int])) {}).val with
    | .error e => decide (e.kind = .deserializationError)
    | .ok _ => false) = true := by decide +kernel
  split at h
  · next e he => exact ⟨e, he, by simpa using h⟩
  · cases h

/-! ## Examples -/

/-- `{1: 'a', -20: 'b'}` is a `Dict[int, str]`. -/
theorem demo_intKeys : HasTy (demoLEnv demoInfo) (text (demoLEnv demoInfo) Functions.demoFloat) true
    (.dict [(.int 1, .str ['a']), (.int (-20), .str ['b'])]) (.gen .dict [.cls .int, .cls .str]) := by
  refine .dict (.inl rfl) (by decide) ?_ ?_ ?_ ?_ ?_
  · intro e he
    simp only [List.mem_cons, List.not_mem_nil, or_false] at he
    rcases he with rfl | rfl <;> rfl
  · intro e he
    simp only [List.mem_cons, List.not_mem_nil, or_false] at he
    rcases he with rfl | rfl <;> trivial
  · intro e he
    simp only [List.mem_cons, List.not_mem_nil, or_false] at he
    rcases he with rfl | rfl <;> decide
  · refine .cons ?_ (.cons (by simp) .nil)
    intro e he
    simp only [List.mem_cons, List.not_mem_nil, or_false] at he
    subst he
    decide
  · intro e he
    simp only [List.mem_cons, List.not_mem_nil, or_false] at he
    rcases he with rfl | rfl <;> exact .str _

example : ∃ N, ∀ n, N ≤ n → ∃ s,
    (dumps (demoEnv demoInfo) Functions.demoFloat n (.dict [(.int 1, .str ['a']), (.int (-20), .str ['b'])])
      none {}).val = .ok s ∧
    (loads (demoLEnv demoInfo) Functions.demoFloat n s (some (.gen .dict [.cls .int, .cls .str])) {}).val
      = .ok (.dict [(.int 1, .str ['a']), (.int (-20), .str ['b'])]) := by
  obtain ⟨N, r, _, hr, h⟩ := text_round_trip_partial (demoLEnv demoInfo) Functions.demoFloat
    Functions.demoFloat_grammar 0 _ _ true (demo_sers 0) (demo_desers 0) (demo_novals 0) demo_intKeys
  refine ⟨N, fun n hn => ?_⟩
  obtain ⟨s, b, h1, _, h2⟩ := h n hn {} ⟨rfl, rfl, rfl, rfl, rfl, rfl, rfl, rfl, rfl, rfl, rfl⟩ none (.inl rfl)
  rw [hr rfl] at h2
  exact ⟨s, h1, (h2 n hn _ ⟨rfl, rfl, fun _ => rfl, rfl, rfl, by decide⟩).1⟩

/-- The text itself. -/
example : (dumps (demoEnv demoInfo) Functions.demoFloat 9
    (.dict [(.int 1, .str ['a']), (.int (-20), .str ['b'])]) none {}).val
    = .ok "{\"1\": \"a\", \"-20\": \"b\"}".toList := by
  decide +kernel

/-- Objects in lists in dicts, with `None` for some of them. -/
example : HasTy (demoLEnv demoInfo) (text (demoLEnv demoInfo) Functions.demoFloat) true
    (.dict [(.str ['a'], .list [.obj 0 [("x".toList, .int 1), ("y".toList, .int 2)], .none]),
      (.str ['b'], .list [])])
    (.gen .dict [.cls .str, .gen .list [.union [.cls (.user 0), .cls .noneType]]]) :=
  demo_hasTy fun _ => trivial

/-- Named tuples in `defaultdict`s, and complex numbers. -/
example : HasTy (demoLEnv triInfo) (text (demoLEnv triInfo) Functions.demoFloat) true
    (.tuple [.ddict (some (.cls (.user 0))) [(.str ['a'], .ntuple 0 [.int 1, .str ['b'], .none])],
      .atom (.complex 1 2)])
    (.gen .tuple [.gen .defaultdict [.cls .str, .cls (.user 0)], .cls .complex]) :=
  tri_hasTy (fun _ => trivial) (by show Functions.demoFloat.parse _ = _; decide +kernel)
    (by show Functions.demoFloat.parse _ = _; decide +kernel)

end Verif.Props.TextRoundTrip
