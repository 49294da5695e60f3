import Verif.Api.Decorators
import Verif.Core.ResLemmas
import Verif.Core.LoadDemo
import Verif.Props.Functions

/-!
# C65, C77: the decorators
-/

set_option autoImplicit false

namespace Verif.Props.Decorators
open Verif Verif.Core Verif.Api

/-! ## What a decorated function should do -/

/-- What the function of jsons that belongs to the decorator makes of an object: with the
type, with the options of the decorator, and with its fork. -/
inductive Converts (D : DecEnv) (d : Decorator) (t : Option Ty) : PyObj → PyObj → Prop
  | load {v r : Val} : d.mapper = .load →
      (Core.load D.E D.n v t { d.loadKw with fork := d.fork }).val = .ok r →
      Converts D d t (.val v) (.val r)
  | loads {s : PyStr} {r : Val} : d.mapper = .loads →
      (Api.loads D.E D.F D.n s t { d.loadKw with fork := d.fork }).val = .ok r →
      Converts D d t (.val (.str s)) (.val r)
  | loadb {o : PyObj} {r : Val} : d.mapper = .loadb →
      (Api.loadb D.E D.F D.n o t { d.loadKw with fork := d.fork }).val = .ok r →
      Converts D d t o (.val r)
  | dump {v r : Val} : d.mapper = .dump →
      (Core.dump D.E.toEnv D.n v t { d.dumpKw with fork := d.fork }).val = .ok r →
      Converts D d t (.val v) (.val r)
  | dumps {v : Val} {s : PyStr} : d.mapper = .dumps →
      (Api.dumps D.E.toEnv D.F D.n v t { d.dumpKw with fork := d.fork }).val = .ok s →
      Converts D d t (.val v) (.val (.str s))
  | dumpb {v : Val} {b : ByteArray} : d.mapper = .dumpb →
      (Api.dumpb D.E.toEnv D.F D.n v t { d.dumpKw with fork := d.fork }).val = .ok b →
      Converts D d t (.val v) (.bytes b)

/-- The object is one that the mapper knows: a value, for `loads` a string; for `loadb`
anything. -/
def Known (d : Decorator) : PyObj → Prop
  | .val v => match d.mapper with
    | .load | .dump | .dumps | .dumpb | .loadb => True
    | .loads => ∃ s, v = .str s
    | .other _ => False
  | _ => d.mapper = .loadb

/-- The argument is the object or the class that the method belongs to: the parameter is
called `self` or `cls`, and the argument has an attribute with the name of the
function. -/
def IsSelf (D : DecEnv) (f : Func) (p : FParam) (a : PyObj) : Prop :=
  (p.name = "self".toList ∨ p.name = "cls".toList) ∧ D.hasAttr a f.name = true

/-- What the function gets for an argument. -/
def ArgFor (D : DecEnv) (d : Decorator) (f : Func) (p : FParam) (a b : PyObj) : Prop :=
  (IsSelf D f p a ∧ b = a) ∨ (¬ IsSelf D f p a ∧ Converts D d p.annotation a b)

theorem callMapper_iff (D : DecEnv) (d : Decorator) (t : Option Ty) (o r : PyObj) (hk : Known d o) :
    (callMapper D d o t).val = .ok r ↔ Converts D d t o r := by
  constructor
  · intro h
    unfold callMapper asVal at h
    split at h
    · next hm =>
      simp only [Core.bind_ok, pure_val, Except.ok.injEq] at h
      obtain ⟨w, h, rfl⟩ := h
      exact .load hm h
    · next hm =>
      simp only [Core.bind_ok, pure_val, Except.ok.injEq] at h
      obtain ⟨w, h, rfl⟩ := h
      exact .loads hm h
    · next hm =>
      simp only [Core.bind_ok, pure_val, Except.ok.injEq] at h
      obtain ⟨w, h, rfl⟩ := h
      exact .loadb hm h
    · next hm =>
      simp only [Core.bind_ok, pure_val, Except.ok.injEq] at h
      obtain ⟨w, h, rfl⟩ := h
      exact .dump hm h
    · next hm =>
      simp only [Core.bind_ok, pure_val, Except.ok.injEq] at h
      obtain ⟨w, h, rfl⟩ := h
      exact .dumps hm h
    · next hm =>
      simp only [Core.bind_ok, pure_val, Except.ok.injEq] at h
      obtain ⟨w, h, rfl⟩ := h
      exact .dumpb hm h
    · next h3 h1 h2 h4 h5 h6 =>
      exfalso
      clear h
      rename_i o _ _
      cases o with
      | val v =>
        cases hm : d.mapper with
        | load => exact h1 v hm rfl
        | loads =>
          simp only [Known, hm] at hk
          obtain ⟨s, rfl⟩ := hk
          exact h2 s hm rfl
        | loadb => exact h3 hm
        | dump => exact h4 v hm rfl
        | dumps => exact h5 v hm rfl
        | dumpb => exact h6 v hm rfl
        | other i => simp only [Known, hm] at hk
      | _ => exact h3 hk
  · intro h
    cases h with
    | load hm h | loads hm h | loadb hm h | dump hm h | dumps hm h | dumpb hm h =>
      simp only [callMapper, hm, asVal, Core.bind_ok, pure_val]
      exact ⟨_, h, rfl⟩

/-! ## C65: arguments and return value -/

/-- The positional arguments are given for parameters that are positional. -/
def Fits (f : Func) (args : List PyObj) : Prop :=
  args.length ≤ (f.params.takeWhile fun p => p.kind = .positional).length

/-- The arguments that the function gets, one by one. -/
def ArgsFor (D : DecEnv) (d : Decorator) (f : Func) (args args' : List PyObj) : Prop :=
  args'.length = args.length ∧ ∀ (i : Nat) a p b, args[i]? = some a → f.params[i]? = some p →
    args'[i]? = some b → ArgFor D d f p a b

theorem fits_le {f : Func} {args : List PyObj} (h : Fits f args) :
    args.length ≤ f.params.length :=
  Nat.le_trans h (List.takeWhile_prefix _).length_le

theorem mapArg_iff {D : DecEnv} {d : Decorator} {f : Func} {a : PyObj} {p : FParam} {b : PyObj}
    (hk : IsSelf D f p a ∨ Known d a) :
    (mapArg D d f (a, p)).val = .ok b ↔ ArgFor D d f p a b := by
  unfold mapArg ArgFor
  by_cases hs : IsSelf D f p a
  · have hs' := hs
    unfold IsSelf at hs'
    simp only [hs', and_self, if_true, pure_val, Except.ok.injEq, hs, true_and, not_true, false_and,
      or_false]
    exact ⟨fun h => h.symm, fun h => h.symm⟩
  · have hs' := hs
    unfold IsSelf at hs'
    simp only [hs', if_false, hs, false_and, not_false_eq_true, true_and, false_or]
    exact callMapper_iff D d p.annotation a b (hk.resolve_left hs)

theorem mapRes_index {α β : Type} {f : α → Res β} (xs : List α) (ys : List β) :
    (mapRes f xs).val = .ok ys ↔ ys.length = xs.length ∧
      ∀ (i : Nat) x y, xs[i]? = some x → ys[i]? = some y → (f x).val = .ok y := by
  induction xs generalizing ys with
  | nil =>
    simp only [mapRes, pure_val, Except.ok.injEq, List.length_nil, List.length_eq_zero_iff]
    constructor
    · rintro rfl
      exact ⟨rfl, fun i x y h => by simp at h⟩
    · rintro ⟨rfl, _⟩
      rfl
  | cons x xs ih =>
    simp only [mapRes, Core.bind_ok, pure_val, Except.ok.injEq]
    constructor
    · rintro ⟨y, hy, zs, hz, rfl⟩
      obtain ⟨h1, h2⟩ := (ih zs).mp hz
      refine ⟨by simp [h1], ?_⟩
      intro i x' y' hx' hy'
      cases i with
      | zero =>
        simp only [List.getElem?_cons_zero, Option.some.injEq] at hx' hy'
        subst hx' hy'
        exact hy
      | succ i =>
        simp only [List.getElem?_cons_succ] at hx' hy'
        exact h2 i x' y' hx' hy'
    · rintro ⟨hl, h⟩
      cases ys with
      | nil => simp at hl
      | cons y ys =>
        refine ⟨y, h 0 x y rfl rfl, ys, (ih ys).mpr ⟨by simpa using hl, ?_⟩, rfl⟩
        intro i x' y' hx' hy'
        exact h (i + 1) x' y' (by simpa using hx') (by simpa using hy')

theorem mapArgs_iff {D : DecEnv} {d : Decorator} {f : Func} {args args' : List PyObj}
    (hf : Fits f args)
    (hk : ∀ (i : Nat) a p, args[i]? = some a → f.params[i]? = some p → IsSelf D f p a ∨ Known d a) :
    (mapArgs D d f args).val = .ok args' ↔ ArgsFor D d f args args' := by
  have hle := fits_le hf
  unfold mapArgs getParamsSig
  rw [if_pos hle, pure_bind', mapRes_index, ArgsFor, List.length_zip, Nat.min_eq_left hle]
  refine and_congr_right fun _ => ?_
  constructor
  · intro h i a p b ha hp hb
    have := h i (a, p) b (by simp [List.getElem?_zip_eq_some, ha, hp]) hb
    exact (mapArg_iff (hk i a p ha hp)).mp this
  · intro h i x b hx hb
    obtain ⟨a, p⟩ := x
    rw [List.getElem?_zip_eq_some] at hx
    exact (mapArg_iff (hk i a p hx.1 hx.2)).mpr (h i a p b hx.1 hx.2 hb)

/-- C65: a decorated function returns `r` exactly if there are converted arguments
(`self` and `cls` are left as they are) with which, and with the same keyword
arguments, the original function returns something that is converted to `r` with the
return annotation.  What is missing: arguments for `*args`, for which it is wrong, see
below; `self` is recognized by the name of the method, which is wrong for private
methods. -/
theorem decorated_call_partial (D : DecEnv) (d : Decorator) (f : Func) (args : List PyObj)
    (kwargs : List (PyStr × PyObj)) (r : PyObj) (hp : d.parameters = true)
    (hr : d.returnvalue = true) (hc : f.coroutine = false) (hf : Fits f args)
    (hk : ∀ (i : Nat) a p, args[i]? = some a → f.params[i]? = some p → IsSelf D f p a ∨ Known d a)
    (hk' : ∀ as o, (f.call as kwargs).val = .ok o → Known d o) :
    (callDecorated D d f args kwargs).val = .ok r ↔
      ∃ args' o, ArgsFor D d f args args' ∧ (f.call args' kwargs).val = .ok o ∧
        Converts D d f.returns o r := by
  simp only [callDecorated, runDecorated, hp, if_true, hc, Bool.false_eq_true, if_false, finish, hr,
    mapReturnvalue, Core.bind_ok, mapArgs_iff hf hk]
  constructor
  · rintro ⟨o, ⟨args', h1, h2⟩, h3⟩
    exact ⟨args', o, h1, h2, (callMapper_iff D d _ o r (hk' args' o h2)).mp h3⟩
  · rintro ⟨args', o, h1, h2, h3⟩
    exact ⟨o, ⟨args', h1, h2⟩, (callMapper_iff D d _ o r (hk' args' o h2)).mpr h3⟩

/-- C65, for a coroutine function: the result is awaited before it is converted. -/
theorem decorated_coroutine_partial (D : DecEnv) (d : Decorator) (f : Func) (args : List PyObj)
    (kwargs : List (PyStr × PyObj)) (r : PyObj) (hp : d.parameters = true)
    (hr : d.returnvalue = true) (hc : f.coroutine = true) (hf : Fits f args)
    (hk : ∀ (i : Nat) a p, args[i]? = some a → f.params[i]? = some p → IsSelf D f p a ∨ Known d a)
    (hk' : ∀ as c, (f.call as kwargs).val = .ok c →
      ∃ log out, c = .awaitable log out ∧ ∀ o, out = .ok o → Known d o) :
    (callDecorated D d f args kwargs).val = .ok r ↔
      ∃ args' log o, ArgsFor D d f args args' ∧
        (f.call args' kwargs).val = .ok (.awaitable log (.ok o)) ∧
        Converts D d f.returns o r := by
  simp only [callDecorated, runDecorated, hp, if_true, hc, finish, hr, mapReturnvalue, Core.bind_ok,
    mapArgs_iff hf hk]
  constructor
  · rintro ⟨c, ⟨args', h1, h2⟩, o, h3, h4⟩
    obtain ⟨log, out, rfl, ho⟩ := hk' args' c h2
    have e : out = .ok o := h3
    subst e
    exact ⟨args', log, o, h1, h2, (callMapper_iff D d _ o r (ho o rfl)).mp h4⟩
  · rintro ⟨args', log, o, h1, h2, h3⟩
    obtain ⟨log', out, e, ho⟩ := hk' args' _ h2
    cases e
    exact ⟨_, ⟨args', h1, h2⟩, o, rfl, (callMapper_iff D d _ o r (ho o rfl)).mpr h3⟩

/-- C65: with `parameters=False`, the function gets its arguments as they are, whatever
they are; the return value is converted. -/
theorem parameters_off (D : DecEnv) (d : Decorator) (f : Func) (args : List PyObj)
    (kwargs : List (PyStr × PyObj)) (r : PyObj) (hp : d.parameters = false)
    (hr : d.returnvalue = true) (hc : f.coroutine = false)
    (hk : ∀ o, (f.call args kwargs).val = .ok o → Known d o) :
    (callDecorated D d f args kwargs).val = .ok r ↔
      ∃ o, (f.call args kwargs).val = .ok o ∧ Converts D d f.returns o r := by
  simp only [callDecorated, runDecorated, hp, Bool.false_eq_true, if_false, hc, finish, hr, if_true,
    mapReturnvalue, Core.bind_ok, pure_val, Except.ok.injEq]
  constructor
  · rintro ⟨o, ⟨_, rfl, h⟩, h'⟩
    exact ⟨o, h, (callMapper_iff D d _ o r (hk o h)).mp h'⟩
  · rintro ⟨o, h, h'⟩
    exact ⟨o, ⟨_, rfl, h⟩, (callMapper_iff D d _ o r (hk o h)).mpr h'⟩

/-- C65: with `returnvalue=False`, the return value is that of the function, whatever it
is; the arguments are converted. -/
theorem returnvalue_off_partial (D : DecEnv) (d : Decorator) (f : Func) (args : List PyObj)
    (kwargs : List (PyStr × PyObj)) (r : PyObj) (hp : d.parameters = true)
    (hr : d.returnvalue = false) (hc : f.coroutine = false) (hf : Fits f args)
    (hk : ∀ (i : Nat) a p, args[i]? = some a → f.params[i]? = some p →
      IsSelf D f p a ∨ Known d a) :
    (callDecorated D d f args kwargs).val = .ok r ↔
      ∃ args', ArgsFor D d f args args' ∧ (f.call args' kwargs).val = .ok r := by
  simp only [callDecorated, runDecorated, hp, if_true, hc, Bool.false_eq_true, if_false, finish, hr,
    Core.bind_ok, mapArgs_iff hf hk, pure_val, Except.ok.injEq]
  constructor
  · rintro ⟨o, ⟨args', h1, h2⟩, rfl⟩
    exact ⟨args', h1, h2⟩
  · rintro ⟨args', h1, h2⟩
    exact ⟨r, ⟨args', h1, h2⟩, rfl⟩

/-- C65: with both switched off, the decorated function is the function. -/
theorem both_off (D : DecEnv) (d : Decorator) (f : Func) (args : List PyObj)
    (kwargs : List (PyStr × PyObj)) (hp : d.parameters = false) (hr : d.returnvalue = false)
    (hc : f.coroutine = false) : callDecorated D d f args kwargs = f.call args kwargs := by
  have hb : ∀ x : Res PyObj, (x >>= fun o => pure o) = x := by
    intro x
    apply res_ext
    · simp [bind_log]
      cases x.val <;> simp
    · cases h : x.val with
      | ok a => rw [Core.bind_ok]; exact ⟨a, h, rfl⟩
      | error e => rw [bind_err]; exact .inl h
  simp only [callDecorated, runDecorated, hp, Bool.false_eq_true, if_false, hc, finish, hr,
    pure_bind']
  exact hb _

/-- C65: with both switched off, awaiting the decorated coroutine is awaiting the coroutine: the
same warnings, and the same result or exception. -/
theorem both_off_coroutine (D : DecEnv) (d : Decorator) (f : Func) (args : List PyObj)
    (kwargs : List (PyStr × PyObj)) (hp : d.parameters = false) (hr : d.returnvalue = false)
    (hc : f.coroutine = true) (l l' : List Event) (r : Except Err PyObj)
    (h : f.call args kwargs = ⟨l, .ok (.awaitable l' r)⟩) :
    callDecorated D d f args kwargs = ⟨l ++ l', r⟩ := by
  simp only [callDecorated, runDecorated, hp, Bool.false_eq_true, if_false, hc, if_true, finish, hr,
    pure_bind', h]
  cases r with
  | ok o => exact Core.res_ext (by simp [bind_log, awaitIf]) rfl
  | error e => exact Core.res_ext (by simp [bind_log, awaitIf]) rfl

example (D : DecEnv) : callDecorated D { mapper := .dump, parameters := false, returnvalue := false }
    { name := "now".toList, params := [], coroutine := true
      call := fun _ _ => pure (.awaitable [.warn ['c'] ['m']] (.error { kind := .typeError })) } [] []
    = ⟨[.warn ['c'] ['m']], .error { kind := .typeError }⟩ := by
  exact both_off_coroutine _ _ _ _ _ rfl rfl rfl [] _ _ rfl

/-- C65: an exception of the function itself comes out as it is. -/
theorem function_error (D : DecEnv) (d : Decorator) (f : Func) (args args' : List PyObj)
    (kwargs : List (PyStr × PyObj)) (e : Err) (hp : d.parameters = true) (hf : Fits f args)
    (hk : ∀ (i : Nat) a p, args[i]? = some a → f.params[i]? = some p → IsSelf D f p a ∨ Known d a)
    (ha : ArgsFor D d f args args') (he : (f.call args' kwargs).val = .error e) :
    (callDecorated D d f args kwargs).val = .error e := by
  have h := (mapArgs_iff hf hk).mpr ha
  simp only [callDecorated, runDecorated, hp, if_true, bind_err]
  exact .inl (.inr ⟨args', h, he⟩)

/-! ## Surroundings for examples -/

/-- `Point` has a method `move` and a private method, which Python renames to
`_Point__secret`. -/
def demoDec : DecEnv where
  E := demoLEnv demoInfo
  F := Functions.demoFloat
  n := 9
  hasAttr := fun o name => match o with
    | .val (.obj 0 as) => (as.map (·.1)).contains name || name == "move".toList ||
        name == "_Point__secret".toList
    | _ => false
  mapOther := fun _ _ _ => Res.raise { kind := .other }

/-- `Point(1, 2)` -/
def point : Val := .obj 0 [("x".toList, .int 1), ("y".toList, .int 2)]

/-- A function that returns the list of its positional arguments. -/
def listing (args : List PyObj) (_ : List (PyStr × PyObj)) : Res PyObj :=
  pure (.val (.list (args.filterMap fun o => match o with | .val v => some v | _ => none)))

/-- `@loaded(returnvalue=False) def move(self, by: int, to: Point)` -/
example : (callDecorated demoDec { mapper := .load, returnvalue := false }
    { name := "move".toList, call := listing
      params := [{ name := "self".toList }, { name := "by".toList, annotation := some (.cls .int) },
        { name := "to".toList, annotation := some (.cls (.user 0)) }] }
    [.val point, .val (.str ['5']), .val (.dict [(.str ['x'], .int 3)])] []).val
    = .ok (.val (.list [point, .int 5, .obj 0 [("x".toList, .int 3), ("y".toList, .int 0)]])) := by
  rfl

/-- The hypotheses of the theorems hold for it. -/
example : ∀ (i : Nat) (a : PyObj) (p : FParam),
    [PyObj.val point, .val (.str ['5']), .val (.dict [(.str ['x'], .int 3)])][i]? = some a →
    ([{ name := "self".toList }, { name := "by".toList, annotation := some (.cls .int) },
        { name := "to".toList, annotation := some (.cls (.user 0)) }] : List FParam)[i]? = some p →
    IsSelf demoDec { name := "move".toList, params := [], call := listing } p a ∨
      Known { mapper := .load } a := by
  intro i a p ha _
  right
  match i, ha with
  | 0, h | 1, h | 2, h => cases h; trivial
  | n + 3, h => cases h

/-- `@dumped() async def now() -> ...`: what is awaited is dumped. -/
example : (callDecorated demoDec { mapper := .dumps }
    { name := "now".toList, params := [], coroutine := true
      call := fun _ _ => pure (.awaitable [] (.ok (.val point))) } [] []).val
    = .ok (.val (.str "{\"x\": 1, \"y\": 2}".toList)) := by
  rfl

/-! ## Where C65 fails -/

/-- C65 fails for `*args`: `@loaded() def f(*args: int)` cannot be called with two
arguments, there is an `IndexError`. -/
theorem decorated_fails_star :
    (callDecorated demoDec { mapper := .load }
      { name := "f".toList, call := listing
        params := [{ name := "args".toList, annotation := some (.cls .int), kind := .varPositional }] }
      [.val (.int 1), .val (.int 2)] []).val = .error { kind := .indexError } := by
  rfl

/-- C65 fails for `*args` before other parameters: with `@loaded(returnvalue=False) def
f(*args: int, key: str = '')`, the second argument in `f('1', '2')` is loaded as a
`str`. -/
theorem decorated_fails_star_key :
    (callDecorated demoDec { mapper := .load, returnvalue := false }
      { name := "f".toList, call := listing
        params := [{ name := "args".toList, annotation := some (.cls .int), kind := .varPositional },
          { name := "key".toList, annotation := some (.cls .str), kind := .keywordOnly }] }
      [.val (.str ['1']), .val (.str ['2'])] []).val
      = .ok (.val (.list [.int 1, .str ['2']])) := by
  rfl

/-- C65 fails for private methods: with `@dumped(returnvalue=False) def __secret(self)`,
the method gets a dict as its `self`. -/
theorem decorated_fails_private :
    (callDecorated demoDec { mapper := .dump, returnvalue := false }
      { name := "__secret".toList, params := [{ name := "self".toList }], call := listing }
      [.val point] []).val
      = .ok (.val (.list [.dict [(.str ['x'], .int 1), (.str ['y'], .int 2)]])) := by
  rfl

/-! ## C77: what cannot be decorated -/

/-- C77: a static method or a class cannot be decorated, and for a static method there is
a warning if it is not suppressed; only the functions of jsons can be given as `loader` or
`dumper`.  What is missing: class methods, for which it is wrong, see below. -/
theorem decoration_refused_partial (D : DecEnv) (d : Decorator) (x : Decorated)
    (h : (∃ f, x = .staticMethod f) ∨ (∃ t, x = .cls t)) :
    (∃ e, (loaded D d x).val = .error e ∧ e.kind = .invalidDecoration) ∧
    (∃ e, (dumped D d x).val = .error e ∧ e.kind = .invalidDecoration) := by
  have hd : ∃ e, (decorate D d x).val = .error e ∧ e.kind = .invalidDecoration := by
    rcases h with ⟨f, rfl⟩ | ⟨t, rfl⟩
    · refine ⟨{ kind := .invalidDecoration }, ?_, rfl⟩
      simp only [decorate, validateDecoration, bind_err]
      exact .inl (.inr ⟨(), warn_val .., rfl⟩)
    · exact ⟨_, rfl, rfl⟩
  refine ⟨?_, ?_⟩
  · unfold loaded
    split
    · exact hd
    · exact ⟨_, rfl, rfl⟩
  · unfold dumped
    split
    · exact hd
    · exact ⟨_, rfl, rfl⟩

/-- C77: the warning for static methods. -/
theorem decoration_warns (D : DecEnv) (d : Decorator) (f : Func)
    (hm : d.mapper = .load ∨ d.mapper = .loads ∨ d.mapper = .loadb) :
    (loaded D d (.staticMethod f)).log
      = if D.E.warns d.fork "decorated-static".toList then
          [.warn "decorated-static".toList decoratedStaticMsg] else [] := by
  simp only [loaded, hm, if_true, decorate, validateDecoration, Env.warn]
  split <;> rfl

/-- C77: only `load`, `loads` and `loadb` can be given as `loader`, only `dump`, `dumps`
and `dumpb` as `dumper`. -/
theorem mapper_refused (D : DecEnv) (d : Decorator) (x : Decorated) :
    (d.mapper ∉ [Mapper.load, .loads, .loadb] →
      (loaded D d x).val = .error { kind := .invalidDecoration }) ∧
    (d.mapper ∉ [Mapper.dump, .dumps, .dumpb] →
      (dumped D d x).val = .error { kind := .invalidDecoration }) := by
  refine ⟨fun h => ?_, fun h => ?_⟩
  · unfold loaded
    rw [if_neg (by simpa using h)]
    rfl
  · unfold dumped
    rw [if_neg (by simpa using h)]
    rfl

/-- C77: a function can be decorated. -/
theorem function_decorated (D : DecEnv) (d : Decorator) (f : Func) :
    (d.mapper ∈ [Mapper.load, .loads, .loadb] →
      (loaded D d (.func f)).val = .ok (callDecorated D d f)) ∧
    (d.mapper ∈ [Mapper.dump, .dumps, .dumpb] →
      (dumped D d (.func f)).val = .ok (callDecorated D d f)) := by
  refine ⟨fun h => ?_, fun h => ?_⟩
  · unfold loaded
    rw [if_pos (by simpa using h)]
    rfl
  · unfold dumped
    rw [if_pos (by simpa using h)]
    rfl

/-- C77 fails for class methods: `@loaded() @classmethod def f(cls)` is not refused, and
the result can never be called. -/
theorem decoration_fails_classmethod (D : DecEnv) (d : Decorator) (f : Func)
    (h : d.mapper = .load) :
    ∃ g, (loaded D d (.classMethod f)).val = .ok g ∧
      ∀ args kwargs, (g args kwargs).val = .error { kind := .typeError } := by
  refine ⟨calling D d (.classMethod f), ?_, fun _ _ => rfl⟩
  unfold loaded
  rw [if_pos (.inl h)]
  rfl

end Verif.Props.Decorators
