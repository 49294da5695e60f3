import Verif.Api.JsonPrint
import Verif.Api.Functions
import Verif.Props.RoundTrip
import Verif.Props.DumpShape
import Verif.Props.LoadMeta

/-!
# C66, C67, C78: `dumps`, `dumpb`, `loads`, `loadb` and `transform`

The texts are those of the grammar of `Verif.Api.JsonGrammar`; `Image` says what a value
becomes in JSON text (`Verif.Api.JsonPrint`).
-/

set_option autoImplicit false

namespace Verif.Props.Functions
open Verif Verif.Core Verif.Api Verif.Props.RoundTrip Verif.Props.LoadBasics

/-- The bytes are the UTF-8 encoding of the text. -/
def Utf8 (b : ByteArray) (s : PyStr) : Prop := b = s.utf8Encode

/-! ## C67: texts -/

/-- C67: `loads` accepts exactly the JSON texts and loads the value that the text stands
for. -/
theorem loads_valid (E : LEnv) (F : FloatText) (n : Nat) (s : PyStr) (w : Val) (cls : Option Ty)
    (kw : LoadKw) (h : JDoc F s w) : loads E F n s cls kw = load E n w cls kw := by
  rw [← jsonLoads_iff] at h
  simp only [loads, h]

/-- C67: what is not a JSON text is a `DecodeError` with the text as its source. -/
theorem loads_invalid (E : LEnv) (F : FloatText) (n : Nat) (s : PyStr) (cls : Option Ty)
    (kw : LoadKw) (h : ∀ w, ¬ JDoc F s w) : ∃ e, (loads E F n s cls kw).val = .error e ∧
      e.kind = .decodeError ∧ e.source = some (.str s) ∧ e.target = cls ∧
      e.kind.isJsonsError = true ∧ e.kind.isValueError = true := by
  cases hj : jsonLoads F s with
  | some w => exact absurd ((jsonLoads_iff F s w).mp hj) (h w)
  | none => exact ⟨_, by simp only [loads, hj]; rfl, rfl, rfl, rfl, rfl, rfl⟩

/-- C67: `dumps` gives a JSON text; it stands for the image of `dump(obj)`, and so `loads`
of it is `load` of that image. -/
theorem loads_dumps (E : LEnv) (F : FloatText) (hF : FloatGrammar F) (n : Nat) (v : Val)
    (cls : Option Ty) (kw : DumpKw) (t : PyStr) (h : (dumps E.toEnv F n v cls kw).val = .ok t) :
    ∃ j w, (dump E.toEnv n v cls kw).val = .ok j ∧ Image E.info F j w ∧ JDoc F t w ∧
      ∀ m cls' kw', loads E F m t cls' kw' = load E m w cls' kw' := by
  simp only [dumps, Core.bind_ok, liftK_ok] at h
  obtain ⟨j, hj, ht⟩ := h
  obtain ⟨w, hi, hw⟩ := printVal_sound hF j t ht
  have hd : JDoc F t w := ⟨[], t, [], by simp, ws_nil, hw, ws_nil⟩
  exact ⟨j, w, hj, hi, hd, fun m cls' kw' => loads_valid E F m t w cls' kw' hd⟩

/-- C67: `dumpb` gives the bytes of the text that `dumps` gives, or the same exception. -/
theorem dumpb_dumps (E : Env) (F : FloatText) (n : Nat) (v : Val) (cls : Option Ty) (kw : DumpKw) :
    (∀ b, (dumpb E F n v cls kw).val = .ok b ↔
      ∃ t, (dumps E F n v cls kw).val = .ok t ∧ Utf8 b t) ∧
    ∀ e, (dumpb E F n v cls kw).val = .error e ↔ (dumps E F n v cls kw).val = .error e := by
  refine ⟨?_, ?_⟩
  · intro b
    simp only [dumpb, dumps, Core.bind_ok, liftK_ok, pure_val, Except.ok.injEq, Utf8]
    constructor
    · rintro ⟨j, hj, t, ht, rfl⟩
      exact ⟨t, ⟨j, hj, ht⟩, String.toByteArray_ofList⟩
    · rintro ⟨t, ⟨j, hj, ht⟩, rfl⟩
      exact ⟨j, hj, t, ht, String.toByteArray_ofList⟩
  · intro e
    simp only [dumpb, dumps, bind_err, pure_val]
    constructor
    · rintro (h | ⟨j, hj, h | ⟨t, _, h⟩⟩)
      · exact .inl h
      · exact .inr ⟨j, hj, h⟩
      · cases h
    · rintro (h | ⟨j, hj, h⟩)
      · exact .inl h
      · exact .inr ⟨j, hj, .inl h⟩

/-- C67: `loadb` of UTF-8 is `loads` of the text. -/
theorem loadb_utf8 (E : LEnv) (F : FloatText) (n : Nat) (b : ByteArray) (s : PyStr)
    (cls : Option Ty) (kw : LoadKw) (h : Utf8 b s) :
    loadb E F n (.bytes b) cls kw = loads E F n s cls kw := by
  rw [show b = s.utf8Encode from h]
  simp only [loadb, List.utf8Decode?_utf8Encode]

/-- C67: `loadb` of what `dumpb` gives is `load` of the image of `dump(obj)`. -/
theorem loadb_dumpb (E : LEnv) (F : FloatText) (hF : FloatGrammar F) (n : Nat) (v : Val)
    (cls : Option Ty) (kw : DumpKw) (b : ByteArray)
    (h : (dumpb E.toEnv F n v cls kw).val = .ok b) :
    ∃ j w, (dump E.toEnv n v cls kw).val = .ok j ∧ Image E.info F j w ∧
      ∀ m cls' kw', loadb E F m (.bytes b) cls' kw' = load E m w cls' kw' := by
  obtain ⟨t, ht, hb⟩ := ((dumpb_dumps E.toEnv F n v cls kw).1 b).mp h
  obtain ⟨j, w, hj, hi, _, hl⟩ := loads_dumps E F hF n v cls kw t ht
  exact ⟨j, w, hj, hi, fun m cls' kw' => by rw [loadb_utf8 E F m b t cls' kw' hb, hl]⟩

/-- C67: for what is JSON already, with distinct strings as keys, the detour over a text
changes nothing. -/
theorem text_changes_nothing (E : LEnv) (F : FloatText) (hF : FloatGrammar F) (n : Nat) (v j : Val)
    (cls : Option Ty) (kw : DumpKw) (hd : (dump E.toEnv n v cls kw).val = .ok j) (hp : Pure F j) :
    ∃ t b, (dumps E.toEnv F n v cls kw).val = .ok t ∧ (dumpb E.toEnv F n v cls kw).val = .ok b ∧
      ∀ m cls' kw', loads E F m t cls' kw' = load E m j cls' kw' ∧
        loadb E F m (.bytes b) cls' kw' = load E m j cls' kw' := by
  obtain ⟨t, ht⟩ := pure_print (info := E.info) hp
  have h1 : (dumps E.toEnv F n v cls kw).val = .ok t := by
    simp only [dumps, Core.bind_ok, liftK_ok]
    exact ⟨j, hd, ht⟩
  have h2 := ((dumpb_dumps E.toEnv F n v cls kw).1 t.utf8Encode).mpr ⟨t, h1, rfl⟩
  obtain ⟨j', w, hj, hi, _, hl⟩ := loads_dumps E F hF n v cls kw t h1
  rw [hd] at hj
  cases hj
  have hw := image_pure hp w hi
  subst hw
  exact ⟨t, _, h1, h2, fun m cls' kw' => ⟨hl m cls' kw', by
    rw [loadb_utf8 E F m _ t cls' kw' rfl, hl]⟩⟩

/-- C67: `dumps` does not fail if the dump is JSON (see C31) and the members of `IntEnum`s
are `int`s; otherwise its own failure is a `TypeError`. -/
theorem dumps_json (E : Env) (F : FloatText) (n : Nat) (v j : Val) (cls : Option Ty) (kw : DumpKw)
    (hn : ∀ w, JsonLeaf E.info w → IntEnums E.info w)
    (hd : (dump E n v cls kw).val = .ok j) (hj : Json E.info j) :
    ∃ t, (dumps E F n v cls kw).val = .ok t := by
  obtain ⟨t, ht⟩ := printVal_complete (F := F) hn hj
  refine ⟨t, ?_⟩
  simp only [dumps, Core.bind_ok, liftK_ok]
  exact ⟨j, hd, ht⟩

/-- C67: the exceptions of `dump` come out of `dumps`. -/
theorem dumps_error (E : Env) (F : FloatText) (n : Nat) (v : Val) (cls : Option Ty) (kw : DumpKw)
    (e : Err) (h : (dump E n v cls kw).val = .error e) :
    (dumps E F n v cls kw).val = .error e := by
  simp only [dumps, bind_err]
  exact .inl h

/-- C67: what is not `bytes` is a `DeserializationError`. -/
theorem loadb_not_bytes (E : LEnv) (F : FloatText) (n : Nat) (o : PyObj) (cls : Option Ty)
    (kw : LoadKw) (h : ∀ b, o ≠ .bytes b) : ∃ e, (loadb E F n o cls kw).val = .error e ∧
      e.kind = .deserializationError ∧ e.target = cls := by
  cases o with
  | bytes b => exact absurd rfl (h b)
  | _ => exact ⟨_, rfl, rfl, rfl⟩

/-- C67 fails for bytes that are not UTF-8: the exception is a bare `ValueError` (a
`UnicodeDecodeError`) instead of a `DecodeError`, and no exception of jsons. -/
theorem loadb_fails_undecodable (E : LEnv) (F : FloatText) (n : Nat) (cls : Option Ty)
    (kw : LoadKw) : (∀ s, ¬ Utf8 ⟨#[0xff]⟩ s) ∧
      ∃ e, (loadb E F n (.bytes ⟨#[0xff]⟩) cls kw).val = .error e ∧ e.kind = .valueError ∧
        e.kind.isJsonsError = false := by
  have hn : (⟨#[0xff]⟩ : ByteArray).utf8Decode? = none := by rfl
  refine ⟨?_, _, by simp only [loadb, hn]; rfl, rfl, rfl⟩
  intro s hs
  have := List.utf8Decode?_utf8Encode (l := s)
  rw [← show (⟨#[0xff]⟩ : ByteArray) = s.utf8Encode from hs, hn] at this
  cases this

/-! ## Examples -/

/-- Texts of `float`s with 17 decimals. -/
def demoFloat : FloatText where
  repr x := printInt (x * 100000000000000000).floor ++ "e-17".toList
  parse t := (match scanMinus t with
    | ([], r) => (natOfDigits (scanDigits r).1 : ℚ)
    | (_, r) => - (natOfDigits (scanDigits r).1 : ℚ)) / 100000000000000000

theorem demoFloat_grammar : FloatGrammar demoFloat := by
  intro x
  obtain ⟨sg, ds, h, hd, hs⟩ := printInt_text (x * 100000000000000000).floor
  refine ⟨sg, ds, [], "e-17".toList, ?_, ?_, hd, .inl rfl, .inr ?_, ?_⟩
  · show printInt _ ++ _ = _
    rw [h]
    simp
  · rcases hs with ⟨rfl, _⟩ | ⟨rfl, _⟩
    · exact .inl rfl
    · exact .inr rfl
  · exact ⟨'e', ['-'], ['1', '7'], rfl, .inl rfl, .inr (.inr rfl), by decide, by decide⟩
  · rintro ⟨_, h⟩
    cases h

/-- `dumps` of `[Person('é"', -1)]` -/
example : (dumps (demoEnv demoInfo) demoFloat 9
      (.list [.obj 5 [("name".toList, .str ['é', '"']), ("born".toList, .int (-1))]]) none {}).val
    = .ok "[{\"born\": -1, \"name\": \"\\u00e9\\\"\"}]".toList := by
  rfl

/-- `loads` of a similar text as a list of persons -/
example : (loads (demoLEnv demoInfo) demoFloat 9
      " [ {\"name\":\"\\u00E9\\\"\", \"born\" :-12,\"born\": [ ] }]\n".toList
      (some (.gen .list [.cls (.user 5)])) {}).val
    = .ok (.list [.obj 5 [("name".toList, .str ['é', '"']), ("born".toList, .list [])]]) := by
  rw [loads_valid (h := (jsonLoads_iff _ _ (.list [.dict [(.str "name".toList, .str ['é', '"']),
    (.str "born".toList, .list [])]])).mp (by decide +kernel))]
  rfl

/-- `'[1,]'` and `'01'` are not JSON texts. -/
example : (∀ w, ¬ JDoc demoFloat "[1,]".toList w) ∧ ∀ w, ¬ JDoc demoFloat "01".toList w := by
  refine ⟨fun w h => ?_, fun w h => ?_⟩ <;> (rw [← jsonLoads_iff] at h; cases h)

/-- `{'k': [None, True, 1.5]}` stays the same. -/
example : Pure demoFloat (.dict [(.str ['k'], .list [.none, .bool true, .float (3/2)])]) := by
  refine .dict (ps := [(['k'], _)]) (by decide) ?_
  intro p hp
  simp only [List.mem_singleton] at hp
  subst hp
  refine .list ?_
  intro x hx
  simp only [List.mem_cons, List.not_mem_nil, or_false] at hx
  rcases hx with rfl | rfl | rfl
  · exact .none
  · exact .bool _
  · exact .float (by decide +kernel)

/-- `{5: 'a', '5': 'b', None: 'c'}` becomes `{'5': 'b', 'null': 'c'}`. -/
example : Image demoInfo demoFloat
    (.dict [(.int 5, .str ['a']), (.str ['5'], .str ['b']), (.none, .str ['c'])])
    (.dict [(.str ['5'], .str ['b']), (.str "null".toList, .str ['c'])]) := by
  have h := fromPairs_dictOf [(['5'], .str ['a']), (['5'], .str ['b']), ("null".toList, .str ['c'])]
  refine .dict (ps := [(['5'], .str ['a']), (['5'], .str ['b']), ("null".toList, .str ['c'])]) ?_ ?_ h
  · exact .cons (.int (printInt_text 5)) (.cons (.str _) (.cons .none .nil))
  · exact .cons (.str _) (.cons (.str _) (.cons (.str _) .nil))

/-! ## C78: ASCII -/

theorem utf8_printable (t : PyStr) (h : ∀ c ∈ t, Printable c) :
    t.utf8Encode = (t.map fun c => UInt8.ofNat c.toNat).toByteArray := by
  have e : t.flatMap String.utf8EncodeChar = t.map fun c => UInt8.ofNat c.toNat := by
    induction t with
    | nil => rfl
    | cons c t ih =>
      have hc := h c (List.mem_cons_self ..)
      have h1 : String.utf8EncodeChar c = [UInt8.ofNat c.toNat] := by
        have hs : c.utf8Size = 1 := by
          rw [Char.utf8Size_eq_one_iff]
          have := hc.2
          show c.val.toNat ≤ 127
          exact this.trans (by decide)
        rw [String.utf8EncodeChar_eq_singleton hs]
        rfl
      rw [List.flatMap_cons, List.map_cons, h1, ih fun c hc => h c (List.mem_cons_of_mem _ hc)]
      rfl
  unfold List.utf8Encode
  rw [e]

/-- C78: the text that `dumps` gives consists of printable ASCII characters, whatever
characters there are in the object, and `dumpb` gives one byte for each of them: its code. -/
theorem dumps_ascii (E : Env) (F : FloatText) (hF : FloatGrammar F) (n : Nat) (v : Val)
    (cls : Option Ty) (kw : DumpKw) (t : PyStr) (h : (dumps E F n v cls kw).val = .ok t) :
    (∀ c ∈ t, 32 ≤ c.toNat ∧ c.toNat ≤ 126) ∧
    (dumpb E F n v cls kw).val = .ok (t.map fun c => UInt8.ofNat c.toNat).toByteArray := by
  have ht : ∀ c ∈ t, Printable c := by
    simp only [dumps, Core.bind_ok, liftK_ok] at h
    obtain ⟨j, _, ht⟩ := h
    exact printable_printVal hF j t ht
  refine ⟨ht, ?_⟩
  rw [← utf8_printable t ht]
  exact ((dumpb_dumps E F n v cls kw).1 _).mpr ⟨t, h, rfl⟩

/-- An accent, the character DEL and a character outside of the basic plane. -/
example : (dumps (demoEnv demoInfo) demoFloat 9 (.str ['é', '\x7f', '😀'])
    none {}).val = .ok "\"\\u00e9\\u007f\\ud83d\\ude00\"".toList := by
  have h : printStr ['é', '\x7f', '😀'] = "\"\\u00e9\\u007f\\ud83d\\ude00\"".toList := by
    decide +kernel
  rw [← h]
  rfl

/-! ## C66: `transform` -/

/-- C66: `transform(obj, cls, mapper=f)` returns `load(f(dump(obj)), cls)`. -/
theorem transform_ok (E : LEnv) (n : Nat) (v : Val) (cls dumpCls : Option Ty)
    (f : Val → Res Val) (dkw : DumpKw) (kw : LoadKw) (r : Val) :
    (transform E n v cls (some f) dumpCls false dkw kw).val = .ok r ↔
      ∃ j m, (dump E.toEnv n v dumpCls dkw).val = .ok j ∧ (f j).val = .ok m ∧
        (load E n m cls kw).val = .ok r := by
  simp only [transform, Core.bind_ok, Bool.false_eq_true, if_false]
  constructor
  · rintro ⟨j, hj, m, hm, hr⟩
    exact ⟨j, m, hj, hm, hr⟩
  · rintro ⟨j, m, hj, hm, hr⟩
    exact ⟨j, hj, m, hm, hr⟩

/-- C66: `transform` fails exactly where and as one of the three steps fails; the later
ones are not made then. -/
theorem transform_error (E : LEnv) (n : Nat) (v : Val) (cls dumpCls : Option Ty)
    (f : Val → Res Val) (dkw : DumpKw) (kw : LoadKw) (e : Err) :
    (transform E n v cls (some f) dumpCls false dkw kw).val = .error e ↔
      (dump E.toEnv n v dumpCls dkw).val = .error e ∨
      (∃ j, (dump E.toEnv n v dumpCls dkw).val = .ok j ∧ (f j).val = .error e) ∨
      ∃ j m, (dump E.toEnv n v dumpCls dkw).val = .ok j ∧ (f j).val = .ok m ∧
        (load E n m cls kw).val = .error e := by
  simp only [transform, bind_err, Bool.false_eq_true, if_false]
  constructor
  · rintro (h | ⟨j, hj, h | ⟨m, hm, h⟩⟩)
    · exact .inl h
    · exact .inr (.inl ⟨j, hj, h⟩)
    · exact .inr (.inr ⟨j, m, hj, hm, h⟩)
  · rintro (h | ⟨j, hj, h⟩ | ⟨j, m, hj, hm, h⟩)
    · exact .inl h
    · exact .inr ⟨j, hj, .inl h⟩
    · exact .inr ⟨j, hj, .inr ⟨m, hm, h⟩⟩

/-- C66: the warnings are those of the steps, in order. -/
theorem transform_log (E : LEnv) (n : Nat) (v : Val) (cls dumpCls : Option Ty)
    (f : Val → Res Val) (dkw : DumpKw) (kw : LoadKw) (j m : Val)
    (hj : (dump E.toEnv n v dumpCls dkw).val = .ok j) (hm : (f j).val = .ok m) :
    (transform E n v cls (some f) dumpCls false dkw kw).log =
      (dump E.toEnv n v dumpCls dkw).log ++ ((f j).log ++ (load E n m cls kw).log) := by
  simp only [transform, bind_log, hj, hm, Bool.false_eq_true, if_false]

/-- C66: without a mapper, it is as with the mapper that changes nothing. -/
theorem transform_without_mapper (E : LEnv) (n : Nat) (v : Val) (cls dumpCls : Option Ty)
    (dkw : DumpKw) (kw : LoadKw) :
    transform E n v cls none dumpCls false dkw kw
      = transform E n v cls (some fun j => ⟨[], .ok j⟩) dumpCls false dkw kw := rfl

/-- C66: `transform(obj, T)` of a value of the type `T` is a copy of it (see C33 for the
values and types). -/
theorem transform_copies_partial (E : LEnv) (fork : Nat) (v : Val) (t : Ty) (x : Bool)
    (hs : DefaultSers E.toEnv fork) (hd : DefaultDesers E fork) (hv : NoValidators E fork)
    (h : HasTy E direct x v t) :
    ∃ N r, Same v r ∧ (x = true → r = v) ∧ ∀ n, N ≤ n → ∀ dkw kw, DumpNeutral fork dkw →
      LoadNeutral fork kw →
      (transform E n v (some t) none none false dkw kw).val = .ok r := by
  obtain ⟨N, r, h1, h2, h3⟩ := round_trip_partial E fork v t x hs hd hv h
  refine ⟨N, r, h1, h2, fun n hn dkw kw hdk hk => ?_⟩
  obtain ⟨j, hj, hl⟩ := h3 n hn dkw hdk none (.inl rfl)
  rw [transform_without_mapper, transform_ok]
  exact ⟨j, j, hj, rfl, hl n hn kw hk⟩

/-- C66: without a mapper, all exceptions of `transform` are exceptions of jsons, if the
'-meta' of the dump, if there is one, is well-formed. -/
theorem transform_raises_jsonsError (E : LEnv) (n : Nat) (v : Val) (t : Ty) (dumpCls : Option Ty)
    (dkw : DumpKw) (kw : LoadKw) (e : Err) (hs : DefaultSers E.toEnv dkw.fork)
    (hl : LookupsOk E kw.fork)
    (hm : ∀ j, (dump E.toEnv (n + 1) v dumpCls dkw).val = .ok j → MetaOk E kw.fork j)
    (hn : ¬ OddName E t)
    (h : (transform E (n + 1) v (some t) none dumpCls false dkw kw).val = .error e) :
    e.kind.isJsonsError = true := by
  rw [transform_without_mapper, transform_error] at h
  rcases h with h | ⟨j, _, h⟩ | ⟨j, m, hj, hm', h⟩
  · rw [dump_err_kind hs h]; rfl
  · cases h
  · cases hm'
    exact LoadMeta.load_raises_jsonsError_partial E n j (some t) kw e hl (hm j hj)
      (fun _ t' ht => by cases ht; exact hn) h

/-- A `Point` becomes a `Person`; the mapper renames the keys. -/
example : (transform (demoLEnv demoInfo) 9 (.obj 0 [("x".toList, .int 1), ("y".toList, .int 2)])
      (some (.cls (.user 5)))
      (some fun j => match j with
        | .dict [(_, a), (_, b)] => ⟨[], .ok (.dict [(.str "born".toList, b), (.str "name".toList, a)])⟩
        | _ => ⟨[], .error { kind := .other }⟩) none false {} {}).val
    = .ok (.obj 5 [("name".toList, .int 1), ("born".toList, .int 2)]) := by
  rfl

end Verif.Props.Functions
