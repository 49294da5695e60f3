# Design of the formal model of `jsons`

The code is Python; the model is Lean 4 (core library only unless stated).  The
model is written function by function: every Lean definition carries a comment
with the file and lines of `/repo` it models, and every simplification is named
in that comment.  Properties are in `properties.jsonl` (C01, C02, ...).

## Conventions

* Python 3.10 semantics are assumed where versions differ.
* `str` is `List Char` (`PyStr`).  Case mapping is ASCII only; the Unicode part
  of `str.lower/upper/title` is not modelled.
* Exceptions are values (`Except Err`, or `Res` = log of observable events plus
  `Except Err`).  An `Err` keeps the exception class, whether it has `args`, a
  structured message, and the `source`/`target`/`argument` attributes.
* Recursion `dump -> serializer -> dump` and `load -> deserializer -> load` is
  bounded by the interpreter's stack: the model takes the remaining depth as
  fuel, and running out of it *is* `RecursionError`, an ordinary exception that
  the code can catch.  Theorems are proved for every depth.
* External behaviour (`int(str)`, `float(str)`, `Decimal(str)`, `hash`, set
  iteration order, clock, local time zone, import of modules, `json.dumps`,
  user constructors, properties, custom (de)serializers, validators) is a
  parameter of the model; when a theorem needs a law about it the law is an
  explicit hypothesis and is listed here under the theorem.

## Modules

| Lean module | models |
|---|---|
| `Verif.Py.*` | Python strings, dicts, results/exceptions |
| `Verif.KeyTransformers` | `_key_transformers.py` |
| `Verif.Multitask` | `_multitasking.py` |
| `Verif.Datetime*` | `_datetime_impl.py`, date/time/datetime/timedelta (de)serializers, the used part of `strftime`/`strptime` |
| `Verif.Registry` | `_lizers_impl.py`, `_fork_impl.py`, `_extra_impl.py`, `_validation.py` (tables), `StateHolder` |
| `Verif.Cache` | `_cache.py` and the places that call `clear` |
| `Verif.Core.*` | `_dump_impl.py`, `_load_impl.py`, `_common_impl.py`, `serializers/*`, `deserializers/*` |
| `Verif.Api.*` | `decorators.py`, `_transform_impl.py`, `classes/*` |
| `Verif.Props.*` | the property theorems, one file per area, with their non-vacuity examples |

## Per property: what is modelled and how it is proved

Key transformers (C01–C05): the four functions on `List Char`, `replace`,
`split`, `join`, `title`, the regular expression substitution as a scan.
Induction over strings / word lists.

Multitasking (C06–C09): `_start_tasks` computes slices; every task is a program
(list of indices); an execution is any interleaving of the tasks' element steps
on one shared result list.  Invariant over interleavings.  C08 and C09 are false
of the code (a failing task leaves the placeholder 0; an empty list divides by
zero): negation with a witness, plus a `_partial` theorem for what does hold.

Datetime (C10–C16, C73): calendar fields as numbers, `strftime`/`strptime` of the
used patterns as functions on strings (the regular expressions that
`_strptime` builds are modelled with their alternatives), `total_seconds`
arithmetic as exact rational arithmetic.  C10, C11, C15 are false in general
(negative offsets with minutes other than 0 and 30, sub-minute offsets; times
with microseconds or tzinfo): exact characterisation or negation plus partial.

Timedelta (C17): float operations as a rounding function satisfying the
standard model |fl x - x| <= 2^-53 |x|; arithmetic on rationals.

Registry (C18–C26): a heap of state holder classes with Python's attribute
inheritance; operations are steps, histories are lists of steps; invariants by
induction.  C21 (names are case-folded) and C23 (validators and announced
classes are not copied by `fork`) are false: negation plus partial.

Cache (C27–C29): LRU list of at most 128 keyed entries; operations are steps.
C28/C29 are false on the skip path of `load` and for direct getter calls:
negation plus partial.

Core (C30–C64, C70, C71, C74–C76, C79, C80, C82–C123): `dump`/`load` with all default (de)serializers over a
universe of Python values and type hints.  Induction on fuel, on values and on
types.  Known false: C34 (malformed `-meta`), C40 (primitive casts), C43 (short
inputs), C46 (hash collisions), C47 (`-keys` is emptied), C53/C54 (named
tuples), C55 (`break`), C58 (cast to the first element's type), C60 (sibling
names; objects in lists), C71 (hinted timezones), C79 (`False` and `None` as keys),
C80 (the key '-keys'), C81 (classes in classes), C83 (None in named tuples, keys that
are not texts, names that collide), C84 (bare `tuple`, datetimes as dates, `IntEnum`s as
ints, unions), C85 (tuples of one type), C86 (tuples, raw dicts, complex
numbers, '-meta'), C87 (complex, timezone), C88
('-meta' naming str), C89 (bare classes, unions): negation plus partial.

API (C65–C69): wrappers as functions over abstract mapper functions.

## Trusted base

* The Lean kernel; theorems depend at most on `propext`, `Classical.choice`,
  `Quot.sound` (checked with `#print axioms`).
* The reading of the Python code by the author (nothing was executed).
* Parameters and laws named above.

Details per theorem are filled in below as modules land.

### Datetime (`Verif.Datetime`, `Verif.DatetimeOffset`, `Verif.DatetimeLemmas`, `Verif.Props.Datetime`)

Modelled: all of `_datetime_impl.py` and the six (de)serializers of `datetime`,
`date` and `time`, including `strftime`/`strptime` for the patterns used.  Not
modelled: Unicode digits, the warning of `_datetime_offset_str`, tzinfo objects
whose methods raise.  `Rounding` (Py/Float) is any rounding of rationals that is
monotone, exact on integers up to 2^53 and as accurate as IEEE doubles.

Disagreements found:

* C11/C10: the offset suffix is wrong for negative offsets whose minutes are not
  00 or 30 (`offset_text_right_iff` is exact); seconds in offsets are dropped.
* C73: a naive datetime is always written with `+00:00`: line 72 tests
  `tzone.utc is timezone.utc`, which is true of every `timezone` instance.
* C12/C14: years below 1000 are written unpadded where the C library does so, and
  such texts do not load.
* C15: a time with microseconds does not load; a time zone is lost.

`Verif.Props.Times` says the same of `dump` and `load` (serializer lookup, options,
warnings): `to_str` of the core model is shown to be the function above.

### Timedelta (`Verif.Timedelta`, `Verif.Props.Timedelta`)

`total_seconds` and `timedelta(seconds=float)` as CPython computes them, with the
same `Rounding`.  C17 holds up to 2^33 seconds.

### Registries and forks (`Verif.Registry`, `Verif.RegistryLemmas`, `Verif.Props.Registry`)

State: a heap of state holder classes (`StateHolder`, forks, classes derived from
them) with references to shared containers; histories are lists of operations.
The specification is independent of the heap: `View` records per holder the list
of registrations it sees, `dispatch` says which function such a list determines.
`lookup_follows_registrations` is the refinement, proved by induction over
histories; C18, C20, C22 follow from it.  C24/C25 use the ownership invariant.
Not modelled: sequences nested in sequences of classes, holders with several
bases, Unicode case folding, the cache (see below).

Disagreements found:

* C21: names are compared lower-cased, so `m.Foo` and `m.foo` share an entry.
* C81 (`Verif.Props.ClassNames`): `get_class_name` writes the module and `__name__`, not
  `__qualname__`, so `Outer.Point` is written like `Point` of the same module and loaded
  as that.  `Modules` are the importable modules; `Modules.imported` is the `try` of
  `get_cls_from_str`.
* C23: `fork` copies neither validators nor announced classes; all forks share
  one table of each (`validators_are_global_partial`).

*Locality* (`Verif.Props.Forks`; C87): two runs, in surroundings whose registrations,
announced classes and warnings agree in the fork `f` only, are compared call by call, by
induction on the depth; with `fork_isolated` it follows for every history of registrations
elsewhere (`dump_isolated`). Finding: the deserializers of `complex` and `timezone` call
`load` without keyword arguments, so the registrations of the main class count for them in
every fork (`load_leaks`).

*Depth* (`Verif.Props.Depth`, `Verif.Props.DumpDepth`; C88): `loadOn E bot n` is `load` on a stack for `n` nested
calls where a further call does `bot`. That it does not depend on `bot` says that no further
call is made (equality of `load` for different `n` would not: an endless recursion gives the
same wrapped error for all `n`). The measure is the nesting of the document, and that of the
type for texts, which are sequences of texts in Python; at most four calls have the same
input (union, its member, `str`, `defaultdict`). The model raises `RecursionError` on entry of
`load` and `dump` only; a real stack can also overflow in a function in between.
Findings: a `'-meta'` that names `str` makes `load` call itself with the same document until
the stack is exhausted, and then the *text* of the document is returned (`load_endless`); one
that names `typing.DefaultDict[..]` recurses likewise; with one that names a union (brackets
are understood by `get_cls_from_str`) every level tries the next member after the previous
one has overflowed, so the time is exponential in the recursion limit: a document from outside
can keep `load(doc)` busy for ever. A text loaded as a named tuple with a field of its own
type never ends either (`'a'[0] == 'a'`). Since unions, attributes of non-strict dumps and
`warn_on_fail` catch a wrapped `RecursionError`, less stack can mean another value
(`load_stack_matters`, `dump_stack_matters`). For `dump` (`recOn E bot n`) the measure is any
rank of values that is lower for parts and attributes; an atom that is dumped as an object has
its attributes (`date.year`) dumped as what they are. Findings for `dump`: an object with a
property that gives the object itself (or a cycle of references) is dumped until the stack is
exhausted, and then, since attributes that fail are left out with a warning, `dump` returns a
document as deep as the stack (`dump_endless`); a strict dump of `1` with a class that has an
attribute `real` of its own type never ends (`(1).real == 1`; excluded by `others`).

*Strict mode* (`Verif.Props.StrictLoad`; C89): `Imp x y` says that whatever the run `x`
returns, `y` returns too; it goes through `bind`, so the proof follows the deserializers
branch by branch with the two sets of keyword arguments (`st`, `lx`) side by side. For unions
also the converse for errors is needed for the members that are passed over (`Weak`).
Findings (disagreements with what "strict" suggests): strict mode also *disables* the shortcut
for values of exactly the given class, so that `load({'a': '2020-01-01T00:00:00Z'}, dict,
strict=True)` parses the text while `load(.., dict)` returns the dict untouched; `Union[A,
Dict[str, int]]` gives a dict in strict mode and an `A` otherwise if the document has a further
key; with `warn_on_fail=True` strict mode silently drops list elements with further keys.

*Order of keys* (`Verif.Props.KeyOrder`; C90): `Reord` relates documents that differ in the
order of dict entries, `Alike` results (compared by lookups), `Turned` restricts `Reord` to the
places where the type permits it. `Rel`/`RelJ` relate two runs (both return related values or both
raise; for unions also whether the error is one of jsons). Findings: the order matters for a dict
loaded as `List[str]`, for keys that become equal (`Dict[int, T]`, key transformers), and for the
hints in `'-meta'`: `_remove_prefix` maps `'/a/x'` to `'/x'`, which collides with the hint `'/x'` of
the parent, so that the later one of the two decides about the class of `a.x`. A database that
reorders keys (or `json.dumps(.., sort_keys=True)`) can thus change the classes that a verbose dump
is loaded with.

*Stability* (`Verif.Props.Stability`; C91): `loaded_hasTy` shows by induction on the depth that
what `load` returns for a document `Doc` and a type `Lasting` is in the grammar `HasTy` of C33; the
round trips of C33 and C79 then apply. `Tidy` says of the *result* what cannot be read off the type
(offsets that are written correctly, no attributes other than parameters, floats and keys that
survive a text). For this C33 was extended by `True`/`False` as `int` (a `bool` that is loaded as
`int` stays a `bool`) and tuples that are too short. Findings: `-03:45` is loaded correctly, dumped
as `-03:15`; `[1, 1]` as `Union[Tuple[int], Set[int]]` becomes `{1}`, then `(1,)`; `{}` as a class
with `y: int = None` is loaded, but its dump is refused.

*Hidden* (`Verif.Props.Hidden`; C92): non-interference. `Alike H v w` relates values that differ
only in the attributes `H c` of objects of class `c` (and in the order of attributes); `RelRes`
relates results with the same log and the same exception or `Alike` values. Each serializer
respects the relation if the recursive calls do (`Blind`), so `dump` does at every depth. `Discreet`
says that the program's own functions do not look at what is hidden, `Met` collects the types that can
be met, so that objects are not taken for enum members. A result without objects is then the same
(`alike_eq`). Findings: `dump([Color.RED, Person('Ann')], strict=True, strip_attr='name')` is
`['RED', 'Ann']`; `dump(person, Union[Color, Person], strip_attr='name')` is the name; hashes of keys
and fields of named tuples are not covered by the strip options.

*Forward* (`Verif.Props.Forward`; C93): forward compatibility. `Added E H fork kt cls v w` relates
documents that differ only in entries `H c` of dicts that are loaded as objects of class `c`; `Both R`
relates results with the same log and the same exception (but for its source) or related values.
`Receptive` says that the unknown attributes can be set and show nowhere else. The theorem is stated
from some depth on, since an unknown entry may need a deeper stack than the rest of the document.
Findings: `load({'first': 1, 'third': 3}, Pair)` is refused although `load({'first': 1}, Pair)` takes
the default of `second` (the number of keys is compared with the position of the field);
`Union[Dict[str, int], Point]` chooses the class because of a further key with a text; with a
lower-casing transformer `{'x': 1, 'X': 2}` is the point with x = 2.

*Blame* (`Verif.Props.Blame`; C94): the source of the exception. `Step` and `Part` say what is in a
document (also after the keys of a dict are transformed), `Blamed` adds the defaults of named tuples,
`Says S` says that a `DeserializationError` has a source in `S` and that every other exception has
none; every deserializer is shown to be `Fair` if what it calls is, then `load` by induction on the
stack. For the values of dicts with hashed keys the loop over `'-keys'` keeps the invariant `Unhashing`
(values and remaining original keys are parts of the document); a hash that is itself stored under
`'-keys'` is excluded, since there the code would delete from a dict that it also loads as a value.
`Inside` is the same for documents without a key transformer, with the plain notion of what is in
them. Findings: the values of a dict are loaded with the identity as key transformer, so
`load({'a': ''}, Dict[str, Point])` shows `{}` as its source; with a key transformer the source is the
dict with the transformed keys; `load([], Odd)` for `class Odd(NamedTuple): first: int = 'q'` shows
`'q'`.

*AttrOrder* (`Verif.Props.AttrOrder`; C95): `Shuffled` relates values in which the attributes of
objects are permuted; it is a case of `Alike H` of *Hidden* with nothing hidden, so the relational
theorem applies. (`dir(obj)` is sorted, so the order of the keys in the dump is that of the names.)

*Registrations* (`Verif.Props.Registrations`; C96): `Occurs` (for `dump`) and `LOccurs` (for
`load`) are the values and types that can be reached from the arguments of a call; they are
inductive and only mention classes, hints, parameters and documents, not the calls that are made.
`Concerns W c t` says that a registration for `c` is one that the look-up for `t` can find
(`getLizer_other`). All calls made below a call are about things that occur, so the look-ups give
the same functions with and without the registration. A text is first tried as a `datetime`, so
`datetime` occurs in every load in which a text is loaded (`datetime_registration_matters`); in the
same way the main class (`fork_inst` left out) is asked by the deserializers of `complex` and
`timezone`, so the registration must not concern their types there either.

*NamedClass* (`Verif.Props.NamedClass`; C97): `loadByName` is the call with a text for the class.
The check for `None` and the early return of exact-type inputs come before the name is turned into a
class, so they are about the text: `None` is refused by every name, and inputs that `load(v, cls)`
returns as they are go through the deserializer if the class is given by its name
(`named_class_fails`). In all other cases the two calls are equal, and the proof is an equation
of results with their logs.

*Quiet* (`Verif.Props.Quiet`; C98): `Q k k' x x'` relates two executions: the same value or exception, and the
same events up to those that `k`, `k'` leave out. `Settings` is what two settings of suppression
must have in common; it is instantiated with `w = u less S` (`dump_suppressed`, `load_suppressed`:
the log is the filtered log) and with arbitrary settings (`*_settings_free`). A `warnings` filter
that raises (`-W error`) would make results depend on suppression; `warnings.warn` is modelled as
an event only, so that is outside of the model.

*StyledRoundTrip* (`Verif.Props.StyledRoundTrip`; C99): C33 and C79 with `key_transformer` and `strip_nulls`.
`Style` has the two transformers, the new names and `nulls`; `Style.Key` says what is needed of a
name (renamed by the one, renamed back by the other, new name without meaning to jsons), and
`camel_key`, `pascal_key`, `lisp_key` give the names for which the transformers of jsons meet it.
`Styled` is `HasTy` of C33 with these conditions at dicts and objects; for the elements of tuples the
style is `oneWay`, because `default_tuple_deserializer` takes `key_transformer` and does not pass it on
(`styled_round_trip_fails_tuple` shows that objects in tuples are lost by this). Leaves are taken
over from C33: their serializers and deserializers do not look at these options (`dump_leaf`,
`load_leaf`). Dicts and objects are redone, since that is where the options matter.
Named tuples keep the names of their fields in the dump, while `load` transforms them: `Styled.ntuple` asks
that the transformer of `load` leaves them alone, and `styled_round_trip_fails_ntuple` shows what happens
otherwise. The members of a union before the type of the value are those of C33 (`InVain`); `SShape` keeps what
is needed of a dump to show that they reject it (for a class that needs another attribute: that the names,
after `load` renamed them, are those of the attributes).

*RegistrationOrder* (`Verif.Props.RegistrationOrder`; C100): `perform` is a list of calls of `set_serializer`
or `set_deserializer` (model: `setLizer1`). `Consistent` says that calls for one name have one
function, `Clear` that for a class it is clear which call is meant. `perform_classes` and
`perform_lizers` say what a list of calls makes of a registry; `lookup_order` and `lookup_again` compare
what is found afterwards, and the induction of C96 lifts this to dump and load.
`registration_order_matters` shows the exception with an `IntEnum`.

*Threads* (`Verif.Threads`, `Verif.Props.Threads`; C101): `Prog` is what a thread still has to do, in steps
that CPython does not interrupt (one operation on a dict, a list or the `lru_cache`); `runAll` runs threads
under a schedule. `run_dump` and `run_load` (refinement): a thread that runs alone does what `Verif.Cache`
says. `Yields W P h R p` says that with the registries `P` of `h`, and whatever right values the cache
happens to have or not to have, `p` ends with an outcome in `R` and stores only what is right; `yields_step`
is the invariant and `threads_do_not_interfere` follows for all schedules. `Plain` threads use only the
registries `P`; `Other` threads do anything but register there. `threads_end`: with a fair schedule every
thread ends. Findings: `registration_seen_halfway` (`set_serializer` puts the class in the list before it
puts the function in the dict, so a dump in another thread raises a `KeyError` in between) and
`stale_in_threads` (clearing the cache after a registration is not enough: a lookup that began before can
store its outcome later).

*Number of calls* (`Verif.Props.Calls`, `Verif.Props.CallsBound`; C102): `loadMarked` is `load` with one
more event in the log for every call; since the model of `load` takes the recursive call as an argument,
nothing else is different (`marks_change_nothing`, by the relation of C98). `Lin info M l d t` are the types
that are dealt with, `Doc` the documents, `weight D` their size, `Bounded` the invariant (by induction on the
size of the stack): a call costs at most `(M + 4) * weight` less a reserve for the calls that pass the same
value on (unions, defaultdicts, complex numbers). For objects, the constructor parameters and the remaining
attributes together cost no more than the entries (`taken_others`). Finding: `load_calls_exponential`: with
`Union[Left, Right, int]` as the hint of the attribute of two classes, each level of the document is loaded
twice, first as a `Left` (with all that is inside) and then as a `Right`.

`Verif.Props.DumpCalls`, `Verif.Props.DumpCallsDemo` (C103) do the same for `dump`: `recMarked` leaves a mark
for every call of a serializer. Since attributes may come from properties, the size is not fixed: any `m`
with `Size E D m` will do, and `parts D` is one for classes without properties (`parts_size`). `Lin info M l d t`
are the types, `Program` says that hints are such types and that values which are not objects show at most `F`
attributes without parts (an `int` that is dumped as a class of the program shows `real`, `imag`, ...). Finding:
`dump_calls_exponential`: in strict mode an attribute with the hint `Union[Left, Right, int]` is dumped as a
`Left` first, with all that is inside, and then, because `Left` has an attribute that the object lacks, once
more as a `Right`; a chain of `n` objects takes at least 2ⁿ calls.

`Verif.Core.Heap`, `Verif.Props.SharingSim`, `Verif.Props.Sharing` (C104): the values of `Verif.Core.Val` are trees,
so they cannot tell whether a dump shares a list with the object. `HVal` gives every container and object an
identity (`some i`: there before the call; `none`: made during the call), `WRes` notes the writes to dicts that were
there before, and the serializers are written once more for such values. `Sim` relates the two models step
by step: same warnings, same exceptions, same values without identities, and only identities of `F.L` in
what is returned and written to. `Calm` and `Setting` say which identities these are: the values of enum
members with `use_enum_name=False`, and the attributes `name`, `value`, `real` and `imag` of objects if an enum class
or `complex` occurs as a type (in strict mode the classes of first elements occur as types, too). Findings:
`enum_value_is_shared`; `verbose_dump_writes_to_the_enum`: `_store_cls_info` writes `-cls` into the value of the
member and `_get_class_name_and_strip_cls` deletes it, so a `-cls` of the program's own is lost, and another
thread sees it; `failing_dump_leaves_a_mark`; `wrong_hint_shares_an_attribute`. Simplifications: what is written to an
old dict is not read again within the same call; new objects are not told apart from each other.

`Verif.Core.HeapLoad`, `Verif.Props.LoadSharingSim`, `Verif.Props.LoadSharingWithin`, `Verif.Props.LoadSharing` (C105): the
same for `load`. Two proofs are kept apart: `loadRec_sim` relates the model with identities to the one without (same
warnings, exceptions and values), and `loadRec_ok` shows for every `Frame` that is `Closed` (a set of documents with the
classes they are loaded with, that takes in all nested calls) that only identities of `F.L` come out. Three frames:
all documents (`partsFrame`), strict loading without `Any` (`strictFrame`), documents that are copied without
`strict` (`copiedFrame`, with the inductive `Copied`). Findings: `_should_skip` returns the document itself
(`load_returns_the_document`, `bare_hint_is_shared`); a remaining attribute without a hint is loaded with its own
class, so it is the document's own list or dict (`unknown_key_is_shared`); default values of parameters are passed as
they are, as with a call of the constructor, but every loaded object then shares them (`default_is_shared`). What `load`
writes to is the subject of `Verif.Core.LoadInput`.

`Verif.Props.Options` (C106): the options of the outermost call reach the program's own functions. The claim is put as
an independence: if the functions `s` behave as the registered ones when they get the options `o` (`Passed`, `LPassed`),
and anyhow with other options, then `dump(.., **o)` and `load(.., **o)` are the same with them. `Passed` compares the
options one by one, so it does not use the model; `LPassed` has the exceptions of the code, each with the deserializer that
causes it (`Has`: found for some type in the fork). Proved by a simulation of the two runs, one lemma per
(de)serializer. Findings: `default_tuple_deserializer` has `key_transformer` as a named parameter and does not pass it on;
the same holds for `warn_on_fail` of lists and `attr_getters` of objects; `default_complex_deserializer` and
`default_timezone_deserializer` call `load` without any keyword argument, so a fork's deserializer for `float` is not
used for complex numbers.

`Verif.Props.NewTypes` (C107): a `NewType` against its type. The lizer is found through `__supertype__`, but the lizer gets
the `NewType` itself. `dump_newtype_partial` and `load_newtype_partial` say for which types this makes no difference.
Findings: `isinstance(obj, cls)` of `default_primitive_deserializer` is a `TypeError` for a `NewType`, so
`load(5, NewType('UserId', int))` always raises (`load_newtype_number_fails`, for all values but `None`);
`default_string_deserializer` asks `cls is str`, so with a `NewType` of `str` texts turn into datetimes; parameters of
`NewType('Vec', List[float])` are not looked at; `NewType`s of sets, enums and unions fail.

`Verif.Props.Distinct` (C108): dumps of different values of a type differ. A corollary of the round trip (C33, C79), with
the proof that `Same` (equality up to the time zones of datetimes with equal offsets) is closed under common
counterparts (`join`, by recursion over the value).

`Verif.Props.GenericNames` (C109): written forms of parameterised types. `TName` is a grammar of names with its printer
(`text`, as `repr` prints); `generic_found_partial` says that `getClsFromStr` reads the printed form back if the arguments
have no arguments of their own, and `generic_nested_refused` that it refuses all others. Finding:
`_get_generic_cls_from_str` unpacks `cls_str.split('[')` into two variables, so every nested generic is a raw
`ValueError`; `load(dump(obj, verbose=WITH_CLASS_INFO))` fails for an object with an attribute `{'a': [1]}`.

`Verif.Props.StrictDump` (C110): the two modes of dump. `Exact` says what it is to be a value of exactly a type, following
the types with which strict mode dumps the parts (`ElemTypes`, the hints of attributes); `Like` is equality up to the order of
entries (`like_atom`, `like_list`, `like_dict`). The proof is an induction over `Exact`: a strict result gives results for all
parts (`seq_strict`, `object_strict`), and these make up the other result (`seq_untyped`, `object_lax`). Finding: strict mode
changes values instead of refusing them (`dump([1.5, 2], strict=True)` is `[1.5, 2.0]`).

`Verif.Props.StrictStyled` (C110): the same with `verbose`, `strip_nulls` and `key_transformer`. C83 and C111 give the
dump with these options from the plain one, in both modes; what is left is that leaving out `None` entries and renaming keys
keeps two results the same up to order (`like_restyle`).

`Verif.Props.VerboseAdds` (C111): `unmeta` removes the '-meta' entries at every depth. The proof is a simulation (`Sim`: the
same log, the same exception or related results) of the verbose call by the plain one; the relation says that the plain result
is the verbose one without '-meta' and '-cls' (`bare`), and where '-cls' marks may be (`Ok`): if marks are stored then outside
lists, and every dict has a text as key, so `fillEntries` cannot fail (`fillEntries_bare`); otherwise nowhere. Findings: an
object with an attribute `{1: {}}` cannot be dumped verbosely (`verbose_fails_key`); own '-cls' entries are lost
(`verbose_fails_cls`). `verbose_style_partial` joins this with C83.

`Verif.Props.Trust` (C112): `load_other_class` is the induction of C96 for other constructors, attribute setters and
`get_cls_from_str` instead of other registries, with the names that are written in the document (`Names`) as a further part of
the invariant. `Mentions` says independently of `load` which types a type and a set of names mention, `Doc N` that all names
in the '-meta' sections of a document are in `N`; `occurs_mentioned` joins the two. Findings: the class hints of '-meta' beat
the type hints of the constructor, so that a document can have any class made that `get_cls_from_str` finds, whatever class is
asked for (`document_chooses_class`); the name under '/' is looked up even if it is not needed (`load_looks_up_name`).

`Verif.Props.DumpTwice` (C113): `dump_distinct_partial` is the induction of C30 (`DumpClosure`) for `JsonVal`, the JSON values
of C31, whose dicts have different keys: every dict in a dump is made by `dictSet`, by the fields of a named tuple, or by
dropping entries (`fillEntries`). With C31 that makes every dump a fixed point. `dump_json_restyle` says what a dump of a JSON
value with `strip_nulls` and `key_transformer` is; with C83 that makes the style something that can be applied afterwards.
Finding: a member of an `IntEnum` that is dumped as `int` stays a member (`dump_twice_fails_intEnum`).

`Verif.Props.InAdvance` (C114): `Advance v w t` relates a document to the same document with loaded parts, by the type at
which they are used. `load_in_advance_partial` is an induction on it with the characterisations of C37, C38, C41, C43, C45 and of objects (`list_load`,
`dict_load_partial`, `object_load_plain`, `union_load_partial`), each an equivalence, so that failures agree as well.
Finding: what `load` made may be refused by `load` for the same type (`in_advance_fails_deque`,
`in_advance_fails_optional`), because only `VALID_TYPES` are accepted unless the class is met exactly.

`Verif.Props.SchemaGrowth` (C115): two programs, related by `Upgrade` (the parameters by `Wider`), and two results, related
by `Grown`. `growth` is an induction on the depth of the load, with one simulation lemma (`…_rel`) per deserializer;
`schema_growth_partial` reads it off. `Fits` says which documents and types are covered, and that no object of the document
has an entry with a new name. Finding: a parameter without a default value is filled with `None` silently if its hint
admits `None` or if it has no hint, so that such an upgrade never fails.

`Verif.Props.Rename` (C116): `program E nm …` is a program as a function of the names of its classes and of what it
registers; the tables are built by the registrations under these names (`register_alike`: the same functions are found).
For `load` every function is shown to be equal under both names (`load_ren`), and C112 takes care of names that are no
longer found; for `dump` the relation is `Same` (texts of warnings contain class names). Finding: a class whose name
contains `union` or `optional` is taken for a union by `can_match_with_none` (`rename_fails_union`).

`Verif.Props.UnionOrder` (C117): `Agree` says that the members that accept a value make the same of it, `Reordered` that
two types differ in the order of such unions, at whatever depth; the proof uses the characterisations of `load` for
unions, lists, tuples and dicts (C38, C41, C43, C45) as congruences. For dumps
`ReorderedD` is the same relation between types; a collection dumps its elements as its element type only in strict mode, a
list always, and a dict never. `Verif.Props.UnionHints`
adds the hints of classes: two programs as in C120 (`Rehint`), related by `ReorderedH`.

`Verif.Props.StripAttr` (C118): a simulation between the run without and the run with the names in `strip_attr`.
`Less` relates the results, `without` is the same as a function where only attributes have the names. `Quiet` (no
`attribute-not-serialized` warning) is needed because jsons stops at the first attribute that cannot be dumped; that
the warning is always given uses that exceptions of the default serializers have arguments (`recArgd`).

`Verif.Props.OneAttr` (C119): from C118 and C92: with the names in `strip_attr` both values have the same dump, and that
is what remains of either dump without the entries.

`Verif.Props.Widening` (C120): `Rehint` is a pair of programs that differ in the hints of their classes, and `Widened` relates
the types of both programs, following the document. The proof is by induction on `Widened` with the characterisations of
C38, C41, C43, C45 and C48. A union costs a call, so a type that becomes a union has to accept the document at all large
stack depths (`Accepts`; C88 tells how large). Disagreements: `widening_fails_before`, `widening_fails_member`,
`widening_fails_default_dict`.

`Verif.Props.Annotations` (C121): `Hints` is a pair of programs that differ in the hints of their classes; in both the
attributes in question have hints that fit, or none (`Annotated`). By induction on `Annotated` both programs return the same, from
`dump_typed_partial` (C84) for each attribute and the loops of dicts and objects. Disagreement: `annotations_fail_tuple`.
`union_order_dump_hints_partial` is the consequence for unions in hints (C117): if only one member accepts the value, the
union fits in every order.

`Verif.Props.ParamOrder` (C122): `Reordering` is a pair of programs that differ in the order of parameters. The arguments
for a list of parameters are found one by one (`ArgsOf` of C48), so the reordered parameters get the same arguments in another
order (`argsOf_perm` in `Verif.Props.Widening`). By induction on `Doc` this is a case of `union_order_hints_partial` (C117),
which allows for parameters in another order. Assumption: constructors do not look at the order of keyword arguments.

`Verif.Props.EnumGrowth` (C123): `Growth` is a pair of programs of which the second one has more members at the end of its
enums. Looking up by name and looking up by value both return the first member found, so what is found is not changed by members
that come later (`enumByName_more`, `enumByValue_more` in `Verif.Props.Widening`); without `use_enum_name` the lookup by name has to
fail in both programs before the value is looked up. By induction on `Doc` this is a case of `widening_partial` (C120), which has a
rule `enum`. For dump, a member that the enum had has the same name and value in both programs, and the rest is `annotations_partial` (C121).

### Cache (`Verif.Cache`, `Verif.Props.Cache`)

One LRU list for all cached functions; cached calls, `clear`, registrations,
`dump` and `load` are state transformers that keep their changes when they raise.
The (de)serializers inside `dump` and `load` are arbitrary computations.  Not
modelled: the cached functions that depend on the class only (`_get_signature`,
`get_type_hints`, ...), keyword versus positional arguments in keys, unhashable
classes.

Disagreements found:

* C28: a registration after a lookup is not seen until the cache is cleared;
  `Union[int, str] == Union[str, int]`, so within one `load` the second union is
  tried in the order of the first (`cache_confuses_unions`).
* C29/C62: `load` does not clear the cache on the exact-type path (and on the
  errors before the deserializer): `load(5, int)`, `set_validator(f, int)`,
  `load(6, int)` does not validate (`cache_not_empty_after_load`).
* C26: `announce_class` is cached, so repeating an announcement does nothing.

### Dump (`Verif.Core.Val`, `Env`, `Dump`, `Dispatch`, `Verif.Props.Dump*`)

*Values* are trees: atoms, the five built-in sequences, dicts, `defaultdict`s,
named tuples, enum members and objects (class number plus instance attributes).
*Types* are classes, `typing` generics, unions, `NewType`s and `Any`.  *Classes* of
the program are records (`ClassInfo`) with hints, members, slots, constructor
parameters and so on.  Everything outside jsons is a field of `Env`: getters of
properties, `hash`, `str`/`int`/`float` of unusual values, the clock, the registries
of all forks, custom serializers.

*Recursion*: a serializer gets a record `Rec` of the calls it can make (`dump` and
calling another serializer); `recOf E n` is that record for a stack with room for `n`
nested calls.  Every theorem holds for all `n`, or says from which `n` on.

*Dispatch* (C76): `initialSers` is the registry that the registrations of
`__init__.py` make with the model of `set_serializer` of `Verif.Registry`;
`Ty.serFn` is an independent table type -> serializer.  They agree for all types if
no class of the program is named like a registered class.  The other theorems
assume `DefaultSers`: the lookup gives what the table says.

*Closure* (C30, C53, C54): one induction (`Verif.Core.DumpClosure`) over the depth
shows that a dump consists of lists, leaves and dicts whose keys satisfy `A` and
whose values satisfy `B`, for suitable `A`, `B`.  Findings:

* C30 false: `dump(Color.GREEN, use_enum_name=False)` returns the raw value of the
  member; `dump(person, Union[Color, Person])` returns `person.name` because the enum
  serializer accepts whatever has a `name`.
* C53 false: named tuples keep `None` entries; `-meta` maps dict attributes to `None`.
* C54 false: keys of named tuples, complex numbers, time zones, `-meta`, `-keys`.

*Exceptions* (C32, C70): `dump_raises_only_serializationError` for arbitrary custom
serializers and properties.

*Collections and unions* (`Verif.Props.DumpCollections`; C39, C40, C58, C75) and
*objects* (`Verif.Props.DumpObject`; C52, C55–C57, C74): for all `n`, with explicit
specifications (`Selected` says which attributes are dumped).  Findings:

* C40 false: primitive casts (`dump(2.5, Union[int, float])` is `2`).
* C55 false: the loop over the attributes ends with `break` at a failing attribute.
* C58 false: strict list dumps cast to the type of the first element.
* C74 false: a list as `strip_attr` makes every dump fail, a set is ignored.
* C75 false: a non-empty deque cannot be dumped in strict mode.

Verbose dumps (`Verif.Core.FillLemmas`, `Verif.Props.DumpVerbose`, C59).  `Tree` is an
object tree (defined by recursion on its depth), `ObjAt` a path of attributes to a nested
object.  The proof keeps two dumps side by side, the plain one and the one with `-cls`
markers; `fillEntries_spec` says what the collection of the class names does to the
latter (removes the markers, adds one entry per nested dict, touches nothing else).
Disagreements with C59: an object in a dict or in a named tuple is listed with the class
`None`; a nested dict under an `int` key makes the dump fail.  Objects in lists are not
listed: the list serializers drop `_store_cls`, so each of them has its own `-meta`.

`Verif.Props.VerboseStyled` (C59): the same induction with a key transformer, `strip_nulls` and `strict`. `STree` asks that
the new names of the attributes of an object differ and are not reserved; the marks are then found under the new names.
Disagreement with C60 (`verbose_round_trip_fails_keys`): such a dump does not load back with the inverse transformer, since
the paths have the new names and `load` renames the key `-meta` too; in strict mode the load fails even if the class is given.

Verbose round trip (`Verif.Props.VerboseRoundTrip`, C60).  The hints given to the
constructor arguments are the `-meta` of the root, rebased at each level with the
entries that do not start with the prefix kept (`_remove_prefix`).  The proof keeps an
invariant `Inv` of the hints at each level: what they say about paths of the subtree is
right, the rest (`Junk`) is about names that do not occur in the subtree, which is where
`Apart` is needed.  Without it the entry of an uncle wins over the entry of the
attribute (`verbose_round_trip_fails`, `_raises`), and hints of the parent win over the
`-meta` of list elements (`verbose_round_trip_fails_list`).

`Verif.Props.VerboseCollections` (C60): lists and dicts at the top of the document. While a collection is loaded, its own
(empty) class names are handed down to the elements and win over the `-meta` of an element, so only the class of the element
itself is taken from there, not those of the objects in it (`verbose_collection_fails`); for elements without objects in them
the round trip is proved by induction over the collection.

`Verif.Props.VerboseLists` (C60): attributes that are lists of objects, in which each object is dumped with a `-meta` of its
own. `Roster` is a league of teams of players; the invariant of the load (`OnlyRoot`) is that the class names in force never
have more than the outermost object, so that no attribute of any element is mistaken for another. Disagreements: a bare
`list` as hint leaves the elements as dicts with their `-meta` (`verbose_lists_fails_bare`); in dicts the classes are lost
(`verbose_lists_fails_dict`).

Input of `load` (`Verif.Core.LoadInput`, `Verif.Props.LoadInput`, C47).  `load` of
`Verif.Core.Load` is a function of values.  The only statement of jsons that changes a
part of the input is `del result['-keys'][key]` (`default_dict.py` line 58; `result` is a
shallow copy).  `loadS` follows the deserializers branch by branch and adds the list of
these deletions, each with its place in the input; the next alternative of a union gets the
input with the deletions of the earlier ones.  `load_as_function`: for inputs in which no
dict has a `'-keys'` entry with something in it, `loadS` is `load` and deletes nothing; so
every theorem about `load` holds for the program on these inputs.  For other inputs the
theorems about `load` as a function are about a program in which the alternatives of a
union each get a fresh copy.  `load_changes_only_stored_keys` says that the rest of the
input stays; that there are no other changing statements is read off the code, not proved.

Hashed keys (`Verif.Props.HashedKeys`, C46).  `dictLoop_hashed` says what the dict is
after some of the entries, `unhashLoop_ok` what it is after some of the keys have been
restored; the order of the latter is that of a Python set, an unknown permutation
(`LEnv.setOrder`).  Disagreements with C46: equal hashes, `complex` keys that are equal
to their hashes, mixed dicts, key transformers (which are applied to the hashes and fail).

*Style* (`Verif.Props.DumpStyle`; C83): `restyle sn f` is what the two options should do
to a document.  The theorem relates the whole result (log and exception too) of `dump`
with the options to that without; induction on the depth over the values that can be
reached (`Styleable`).  Only names that occur must be renamed without failure, as the
built-in transformers fail on ''.

*With a class* (`Verif.Props.DumpTyped`; C84): `Fits E v t` says that `v` is a value of
`t`, `Refuses` which members of a union are passed over.  For most types the result is
the same for every stack, exceptions included (`dump_typed_same`); for lists and unions,
which need a different depth of calls, with a stack that is large enough (`Returns`).
Disagreement found: `tuple_with_ellipsis(tuple)` raises, so `dump((1, 2), cls=tuple)` does,
and attributes with the hint `tuple` are lost together with all attributes after them.

*Strict collections* (`Verif.Props.StrictTuples`; C85, and C75 for tuples): exact
statements about single calls, with `DumpedAs` for "element i as type i".

### Load (`Verif.Core.Load`, `LoadDispatch`, `LoadLemmas`, `Verif.Props.Load*`)

The same universe of values and types.  `LEnv` extends `Env` by what is outside of the
loading half of jsons: the lookup of deserializers and validators per fork, custom
deserializers, constructors, `setattr`, parsing of numbers and UUIDs, the lookup of
classes by name.  `load E n v cls kw` is `jsons.load` with room for `n` nested calls.
`DefaultDesers E fork` says that the lookup follows the table `Ty.desFn`
(`LoadDispatch`: the initial registry does, `demo_desers`); `NoValidators` that there
are no validators.  `load_via` is the common way into a deserializer; the theorems are
about `load` itself, not about deserializers.

Findings:

* C36 false: a class called `Reunion` is taken for a `Union`; `load(None, Reunion)`
  raises a raw `TypeError`.
* C38 false: `load(None, Union[int, Any])` is refused.
* C38 false: `load(d, Union[Dict[Tuple[int], int], Dict[Tuple[int], str]])` for the dump of
  `{(1,): 'b'}` fails, although the second member alone can be loaded: the first one has
  emptied `d['-keys']`.
* C47 false: the second `load` of the dump of `{(1,): 'b'}` fails.
* C42 false: `warn_on_fail` does not skip elements that a validator refuses.
* C43 false: `load([1], Tuple[int, str])` is `(1,)`.
* C44 false: a dict without the first field of a named tuple is a plain
  `DeserializationError`, and a default in the middle is not used.
* C45 false: a dict with the user's key '-keys'.
* C48 false: for a missing parameter whose hint is a class called `Reunion` the error
  is a plain `DeserializationError`.
* C64 false: a member with the value `None` and `use_enum_name=False`.

*Objects* (`Verif.Props.LoadObject`; C48–C51): `object_load` describes the result of
loading a dict as a class completely (an equivalence), with inductive specifications of
the arguments (`ArgsOf`), the other attributes (`AttrsSet`), the getters
(`GettersSet`), the key transformer (`Transformed`) and the class names of a '-meta'
section (`HintsOf`, `PartLoads`).  The properties follow from it.  `SetAttrLaw` says
that `setattr` of the class either fails or sets exactly this attribute.

*Without a type* (`Verif.Props.LoadPlain`; C80): `Doc` is the grammar of JSON documents
without the two special keys, `rewrite f k` replaces the texts and renames the keys of a
document; induction over `Doc`.

*Dispatch* (`Verif.Props.LoadDispatch`; C82): the mirror image of C76; a `NewType` of a
`NewType` has no deserializer.

*Types and exceptions* (`Verif.Props.LoadTypes`, `Verif.Props.LoadMeta`; C34, C35, C61):
`Fits` is the instance relation of the type grammar, `Typed` the grammar, `Clean` a
JSON value without '-meta' and '-keys'.  `load_fits_partial` is an induction over the
depth of the calls.  Findings:

* C34 false: a '-meta' without 'classes' (as `WITH_DUMP_TIME` alone makes it) raises
  `KeyError`, one that is not a dict `TypeError`.
* C35 false: the '-meta' of a list element chooses any class, whatever the type of the
  elements is; short tuples; a `NewType` of `str` loads a `datetime`.
* C61 false: the class that is inferred for values of `Dict[K, V]` and elements of
  tuples is treated as if it had been given explicitly.

*Renaming* (`Verif.Props.LoadRename`; C86): `rename` is the renamed document, `Step` goes from
a part with its type to the parts it is made of, and `AllFine` says of every part that is
reached that nothing in it has to be renamed where the code does not rename. The two runs are
compared call by call (`callDes_eqv`), by induction on the depth.

### Round trip (`Verif.Props.RoundTrip`)

`HasTy E exact v t` is the grammar of C33: the types and their values.  `Storing`
says what "a class whose constructor stores its hinted parameters" means: the law
`stores` about `construct`, and no members of the class besides methods, inner
classes, slots and defaults of parameters.  The induction (`rt_all`) shows that
dumping succeeds with every large enough stack, with the class or without, and that
whatever it gives is loaded as the same value `r`, with `Same v r`.  The options may
be anything that does not transform or strip (`DumpNeutral`, `LoadNeutral`).  Named
tuples with hints (`Hinted`), `DefaultDict[K, V]`, `complex`, `time` and `ZoneInfo` are
in the grammar; `complex` needs the default deserializers in the fork 0 as well, since
its deserializer calls `load` without the fork.  `datetime.timezone` is not in the
grammar, as its dump with a class fails; `Verif.Props.Timezones` has the round trip
without a class, alone and in lists, and the loss of a hinted attribute (C71).

A value of a union is in the grammar if the members before its type are `InVain`: they
refuse the value and what is dumped for it (`Verif.Props.Refuses` for dumping), or they are
classes that dump like any other class but need an attribute that is not there (`Needs`).
For this the induction keeps what the dump has in common with the value (`Shape`): the kind
of JSON value, the text, and the names of attributes.

The induction is made for every way in which the dump may come to `load` (`Way`, with the
laws `Lawful`): `direct` is C33, `Verif.Props.TextRoundTrip.text` is C79, where the dump
goes through the JSON text of `dumps` and what is received is its `Image`.  For the text,
a key survives if its class reads back its name (`TextKey`): proved for `int` from the
model of `int(text)` (no limit on the number of digits), assumed for the `float`s that
are used as keys (`float(repr(x)) == x`).

Disagreements found:

* naive datetimes come back with a time zone (`round_trip_fails_naive`);
* `'5'` as `Union[int, str]` comes back as `5` (`round_trip_fails_union`);
* `{'a': 1}` as `Union[List[str], Dict[str, int]]` comes back as `['a']`, and `0` as
  `Union[List[int], int]` is dumped as `[]` (`round_trip_fails_union_list`);
* `Circle(1, 2)` as `Union[Point, Circle]` comes back as a `Point` with an attribute
  `radius` (`round_trip_fails_union_class`);
* a dict with the key '-keys' is taken for one with hashed keys
  (`round_trip_fails_keys`);
* `None` as `Optional[Reunion]` is refused (`round_trip_fails_name`);
* through a text, `{False: 1}` as `Dict[bool, int]` comes back as `{True: 1}`, and
  `{None: 1}` as `Dict[None, int]` is refused (`text_round_trip_fails_bool`,
  `text_round_trip_fails_none`).

### API functions (`Verif.Api.*`, `Verif.Props.Verbosity`, `Verif.Props.Functions`)

*Verbosity* (C69): the bit values 10 and 20 of `Flag`, with `&`, `|`, `in` on them.

*JSON text* (C67).  `Api/JsonText` models `json.dumps` (default arguments, so
`ensure_ascii`) and `json.loads` of the standard library as functions on lists of
characters.  `Api/JsonGrammar` writes down the grammar of RFC 8259 as inductive
predicates, independently of the scanner, and proves `jsonLoads_iff`: the scanner
accepts exactly the texts of the grammar and gives the value they stand for (`DictOf`
says which entry of repeated keys counts).  `Api/JsonPrint` defines `Image`, what a
value becomes in JSON text (tuples become lists, keys become strings, members of an
`IntEnum` become numbers), and proves that what is printed is a text of the grammar
that stands for the image.  `Props/Functions` combines this with `dump` and `load`.
`float.__repr__` and `float(text)` are parameters (`FloatText`); the hypothesis
`FloatGrammar` is that the text of a `float` has the form of a JSON number with a
fraction or an exponent, which is so for all finite `float`s.  `dumps_ascii` (C78) adds
that the text is printable ASCII and that `dumpb` has one byte per character.

Finding: `loadb` of bytes that are not UTF-8 raises a bare `UnicodeDecodeError`
(`loadb_fails_undecodable`).

*transform* (C66): result, exceptions and events are those of `dump`, the mapper and
`load`; together with C33, `transform(v, T)` copies.

*Decorators* (C65, C77; `Api/Decorators`, `Props/Decorators`).  A function is a record of
name, parameters, return annotation, "is it a coroutine function" and an arbitrary
effectful `call`; a coroutine is a value that holds what comes out when it is awaited.
The mapper is one of the six functions.  The specification (`Converts`, `ArgFor`,
`ArgsFor`) says per argument what the function gets.  `Fits` is the hypothesis that
positional arguments are given for positional parameters; what goes wrong otherwise is
proved in `decorated_fails_star` (`IndexError`) and `decorated_fails_star_key` (the
annotation of a keyword-only parameter is used).  `self` is recognized by "has an
attribute with the name of the function", which fails for private, so renamed, methods
(`decorated_fails_private`).  Class methods are accepted although the message says
otherwise (`decoration_fails_classmethod`).  Not modelled: calls that Python itself
refuses before the function runs (they are part of `call`); the name and documentation of
the wrapper.

*JsonSerializable* (C68; `Api/JsonSerializable`, `Props/JsonSerializable`).  The state is
the list of classes with base class and own attributes `dump` and `load`; a history of
class statements, forks, `with_dump` and `with_load` changes it.  Attribute lookup is a
function with fuel; the specification `Nearest` is the inductive "nearest class upwards
that has the attribute".  Keyword arguments are dicts; `Chosen` says which value an option
gets.  Findings: the wrapper of `with_dump` does not pass `fork_inst`, so serializers of
the class are ignored (`with_dump_fails_fork`); `dumps`, `dumpb`, `str`, `loads`, `loadb`
ignore `with_dump`/`with_load`.  Not modelled: several base classes; `dump`/`load`
overridden by the program.
