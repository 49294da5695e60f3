{"id": "C01", "title": "Key transformers fail exactly on separator-only names", "statement": "jsons.camelcase and jsons.pascalcase raise IndexError exactly when the given name consists only of '-' and '_' characters (including the empty name) and return a string in every other case; jsons.snakecase and jsons.lispcase raise IndexError exactly on the empty name.", "quantifier": "every string", "why_tests_cant": "The set of failing inputs is an infinite family of strings; tests show one or two members.", "anchors": ["jsons/_key_transformers.py:camelcase", "jsons/_key_transformers.py:snakecase", "jsons/_key_transformers.py:pascalcase", "jsons/_key_transformers.py:lispcase"]}
{"id": "C02", "title": "Key transformers are idempotent", "statement": "Applying camelcase, snakecase, pascalcase or lispcase twice gives the same name as applying it once, so keys that already have the requested style are left alone.", "quantifier": "every string on which the transformer returns", "why_tests_cant": "Idempotence is an equation over all strings; examples only sample it.", "anchors": ["jsons/_key_transformers.py:camelcase", "jsons/_key_transformers.py:snakecase", "jsons/_key_transformers.py:pascalcase", "jsons/_key_transformers.py:lispcase"]}
{"id": "C03", "title": "Key transformers produce the style they promise", "statement": "Every result of snakecase contains no upper-case ASCII letter and no '-'; every result of lispcase contains no upper-case ASCII letter and no '_'; every result of camelcase and pascalcase of a name that contains a separator contains no '-' and no '_'; a camelcase result never starts with an upper-case letter and a pascalcase result never starts with a lower-case letter.", "quantifier": "every string on which the transformer returns", "why_tests_cant": "Absence of a character in all outputs cannot be established from samples.", "anchors": ["jsons/_key_transformers.py:camelcase", "jsons/_key_transformers.py:snakecase", "jsons/_key_transformers.py:pascalcase", "jsons/_key_transformers.py:lispcase"]}
{"id": "C04", "title": "snake_case names survive a camelCase or PascalCase detour", "statement": "For an attribute name made of words of lower-case letters and digits joined by single underscores, where every word but the first starts with a letter and every word but the last ends in two letters (the first word may also be one single letter), snakecase(camelcase(name)) == name and snakecase(pascalcase(name)) == name, so dumping with one transformer and loading with the other finds the attribute again; two different such names never collide after camelcase.", "quantifier": "every list of words satisfying the conditions", "why_tests_cant": "The law is over unboundedly many names and word counts.", "anchors": ["jsons/_key_transformers.py:camelcase", "jsons/_key_transformers.py:snakecase", "jsons/_key_transformers.py:pascalcase"]}
{"id": "C05", "title": "Key transformers agree with each other", "statement": "pascalcase(camelcase(s)) == pascalcase(s); camelcase(pascalcase(s)) == camelcase(s); snakecase(lispcase(s)) == snakecase(s); lispcase(snakecase(s)) == lispcase(s).", "quantifier": "every string on which the transformers return", "why_tests_cant": "Equations between functions on all strings.", "anchors": ["jsons/_key_transformers.py"]}
{"id": "C06", "title": "Every list element is handled by exactly one task", "statement": "When a list of n elements is processed with t tasks (n>=1, t>=1) the index ranges given to the started tasks cover 0..n-1, are pairwise disjoint, none is empty and exactly min(t, n) tasks are started.", "quantifier": "every list length and every number of tasks", "why_tests_cant": "Partition arithmetic (division and remainder) has to hold for all pairs (n, t).", "anchors": ["jsons/_multitasking.py:_start_tasks", "jsons/_multitasking.py:_fill"]}
{"id": "C07", "title": "Parallel processing equals sequential processing", "statement": "If the element function succeeds on every element and no fork is used, load/dump of a non-empty list with tasks>1 returns, for every scheduling of the tasks, exactly the list that sequential processing returns, in the same order; the same holds for lists nested in lists. Every execution ends.", "quantifier": "every list, every number of tasks, every interleaving of the tasks' steps", "why_tests_cant": "Thread schedules cannot be enumerated by tests.", "anchors": ["jsons/_multitasking.py:multi_task", "jsons/_multitasking.py:_fill", "jsons/deserializers/default_list.py:default_list_deserializer", "jsons/serializers/default_iterable.py:default_iterable_serializer"]}
{"id": "C08", "title": "A failing element is reported in parallel mode", "statement": "If processing some element raises, load/dump with tasks>1 raises as well (as it does with tasks=1).", "quantifier": "every list, number of tasks, schedule and failing element", "why_tests_cant": "Depends on which task fails when; only some schedules are ever seen in a test run.", "anchors": ["jsons/_multitasking.py:multi_task", "jsons/_multitasking.py:_fill"]}
{"id": "C09", "title": "Parallel mode accepts every list that sequential mode accepts", "statement": "For every list, including the empty one, using tasks=t with t>=2 raises no error that tasks=1 does not raise.", "quantifier": "every list and number of tasks", "why_tests_cant": "Boundary sizes for every t.", "anchors": ["jsons/_multitasking.py:_start_tasks", "jsons/deserializers/default_list.py:default_list_deserializer", "jsons/serializers/default_iterable.py:default_iterable_serializer"]}
{"id": "C10", "title": "Datetime round trip", "statement": "Loading the dumped form of a timezone-aware datetime gives back a datetime with the same wall-clock fields, the same microseconds and the same UTC offset.", "quantifier": "every valid aware datetime (year 1..9999, every offset)", "why_tests_cant": "Hundreds of thousands of billions of datetimes and 2879 offsets.", "anchors": ["jsons/_datetime_impl.py:to_str", "jsons/_datetime_impl.py:get_datetime_inst", "jsons/serializers/default_datetime.py", "jsons/deserializers/default_datetime.py"]}
{"id": "C11", "title": "The textual UTC offset is right", "statement": "The offset suffix written for an aware datetime denotes the datetime's UTC offset (sign, hours and minutes).", "quantifier": "every offset strictly between -24h and +24h", "why_tests_cant": "2879 whole-minute offsets plus sub-minute ones; tests try a handful.", "anchors": ["jsons/_datetime_impl.py:_timedelta_offset_str", "jsons/_datetime_impl.py:_datetime_offset_str"]}
{"id": "C12", "title": "Dumped datetimes have RFC3339 shape", "statement": "Every dumped datetime reads YYYY-MM-DDThh:mm:ss[.ffffff] followed by 'Z' or a signed hh:mm offset, with the fraction present exactly when microseconds are non-zero and not stripped.", "quantifier": "every valid datetime, naive or aware, with year >= 1000 (or any year where the C library pads %Y)", "why_tests_cant": "Shape of all outputs.", "anchors": ["jsons/_datetime_impl.py:to_str", "jsons/serializers/default_datetime.py"]}
{"id": "C13", "title": "Fractions of any length are accepted and truncated", "statement": "Loading a datetime string with a fraction of k>=1 digits gives the same result as loading the string with that fraction cut to its first six digits.", "quantifier": "every datetime string and every fraction length", "why_tests_cant": "Unbounded fraction length.", "anchors": ["jsons/deserializers/default_datetime.py:default_datetime_deserializer"]}
{"id": "C14", "title": "Date round trip", "statement": "Loading the dumped form of a date gives back the same date.", "quantifier": "every valid date", "why_tests_cant": "3.65 million dates and the platform dependent %Y.", "anchors": ["jsons/serializers/default_date.py", "jsons/deserializers/default_date.py"]}
{"id": "C15", "title": "Time round trip", "statement": "Loading the dumped form of a time gives back the same time.", "quantifier": "every valid time with or without microseconds and tzinfo", "why_tests_cant": "86.4 billion times.", "anchors": ["jsons/serializers/default_time.py", "jsons/deserializers/default_time.py"]}
{"id": "C16", "title": "Parsed datetimes are valid", "statement": "Whatever string is given, loading it as datetime, date or time either raises an error or gives a value whose fields are in range (month 1..12, day within the month, hour<24, minute<60, second<60, microsecond<10^6, |offset|<24h).", "quantifier": "every string", "why_tests_cant": "All strings.", "anchors": ["jsons/_datetime_impl.py:get_datetime_inst", "jsons/_datetime_impl.py:_datetime_utc_inst", "jsons/_datetime_impl.py:_datetime_offset_inst"]}
{"id": "C17", "title": "Timedelta round trip", "statement": "Loading the dumped form (a float number of seconds) of a timedelta gives back the same timedelta, to the microsecond.", "quantifier": "every timedelta of at most 2^33 seconds (272 years), the magnitude at which doubles lose microseconds", "why_tests_cant": "Rounding behaviour over 10^16 values.", "anchors": ["jsons/serializers/default_timedelta.py", "jsons/deserializers/default_timedelta.py"]}
{"id": "C18", "title": "A registered (de)serializer is the one that is used", "statement": "After set_serializer(f, cls) (or set_deserializer), looking up cls in that fork gives f until cls's name is registered again, whatever other classes are registered in between and in whatever order.", "quantifier": "every history of registrations", "why_tests_cant": "Histories are unbounded; registration mutates two structures that must stay in step.", "anchors": ["jsons/_lizers_impl.py:set_serializer", "jsons/_lizers_impl.py:set_deserializer", "jsons/_lizers_impl.py:_get_lizer"]}
{"id": "C19", "title": "Subclass dispatch follows registration priority", "statement": "For a class without own registration, the lizer used belongs to the most recently high-priority registered superclass; if there is none, to the earliest low-priority registered superclass; if no registered class is a superclass there is no lizer.", "quantifier": "every history of registrations and every class", "why_tests_cant": "Order dependent on whole history.", "anchors": ["jsons/_lizers_impl.py:_get_lizer_by_parents", "jsons/_lizers_impl.py:_get_parents"]}
{"id": "C20", "title": "Looking up a lizer never fails on a lookup table inconsistency", "statement": "Whatever has been registered, looking up a (de)serializer for any class never raises KeyError: every class that is listed as having a lizer has an entry in the table.", "quantifier": "every history of registrations and forks", "why_tests_cant": "An invariant over all histories.", "anchors": ["jsons/_lizers_impl.py:_get_lizer_by_parents"]}
{"id": "C21", "title": "Registrations of different classes do not interfere", "statement": "set_serializer(f, A) does not change which serializer is used for an unrelated, explicitly registered class B.", "quantifier": "every pair of classes and every registry state", "why_tests_cant": "The table is keyed by a case-folded name, so interference depends on names.", "anchors": ["jsons/_lizers_impl.py:set_serializer", "jsons/_common_impl.py:get_class_name"]}
{"id": "C22", "title": "Forks are isolated: serializers and deserializers", "statement": "Registering a (de)serializer in one fork never changes what any other fork (parent, child or sibling) uses, and a new fork starts with exactly what its parent had at that moment.", "quantifier": "every history of forks and registrations over any number of forks", "why_tests_cant": "Aliasing bugs only show in particular histories.", "anchors": ["jsons/_fork_impl.py:fork", "jsons/_lizers_impl.py:set_serializer"]}
{"id": "C23", "title": "Forks are isolated: validators and announced classes", "statement": "Registering a validator or announcing a class in one fork never changes what another fork uses.", "quantifier": "every history of forks and registrations", "why_tests_cant": "Aliasing through inherited class attributes.", "anchors": ["jsons/_fork_impl.py:fork", "jsons/_validation.py:set_validator", "jsons/_extra_impl.py:announce_class"]}
{"id": "C24", "title": "Forks are isolated: warning suppression", "statement": "suppress_warning(code) and suppress_warnings(flag) on one fork never change whether another fork warns; a fork inherits its parent's settings at creation.", "quantifier": "every history of forks and suppressions", "why_tests_cant": "In-place set update on shared class attributes.", "anchors": ["jsons/_extra_impl.py:suppress_warning", "jsons/_extra_impl.py:suppress_warnings", "jsons/_fork_impl.py:fork"]}
{"id": "C25", "title": "A suppressed warning is never emitted", "statement": "After suppress_warning(code) on a fork, no later operation on that fork emits a warning with that code; after suppress_warnings(True) none at all until suppress_warnings(False).", "quantifier": "every history", "why_tests_cant": "Histories.", "anchors": ["jsons/_common_impl.py:StateHolder._warn", "jsons/_extra_impl.py"]}
{"id": "C26", "title": "Announced classes are found by name", "statement": "After announce_class(cls, name) on a fork, a verbose dump naming that class resolves to cls until the name is announced again.", "quantifier": "every history of announcements", "why_tests_cant": "Histories; the function is cached.", "anchors": ["jsons/_extra_impl.py:announce_class", "jsons/_common_impl.py:_lookup_announced_class"]}
{"id": "C27", "title": "The cache is bounded", "statement": "The internal function cache never holds more than 128 entries and never two entries for one key.", "quantifier": "every sequence of calls", "why_tests_cant": "Sequences of calls.", "anchors": ["jsons/_cache.py"]}
{"id": "C28", "title": "The cache is transparent", "statement": "A cached function returns what the uncached function would return now.", "quantifier": "every sequence of registrations, dumps, loads and cache clears", "why_tests_cant": "Staleness depends on the history between two calls.", "anchors": ["jsons/_cache.py", "jsons/_dump_impl.py:_do_dump", "jsons/_load_impl.py:_do_load"]}
{"id": "C29", "title": "After dump or load the cache is empty", "statement": "When the outermost dump or load returns or raises, no cached result survives, so later registrations take effect.", "quantifier": "every outermost call, successful or not", "why_tests_cant": "All exit paths.", "anchors": ["jsons/_dump_impl.py:_do_dump", "jsons/_load_impl.py:_do_load", "jsons/_load_impl.py:load"]}
{"id": "C30", "title": "Dump produces JSON types only", "statement": "Whatever dump returns with the default serializers consists only of dict, list, str, int, float, bool and None, and dict keys are str, int, float, bool or None.", "quantifier": "every value of the supported kinds (arbitrarily nested containers and objects), every keyword option", "why_tests_cant": "Closure over all nested values.", "anchors": ["jsons/_dump_impl.py:dump", "jsons/serializers"]}
{"id": "C31", "title": "Dump leaves JSON values unchanged", "statement": "dump of a value that already is JSON (str keys) returns an equal value, so dump is idempotent.", "quantifier": "every JSON value of any depth", "why_tests_cant": "All JSON trees.", "anchors": ["jsons/_dump_impl.py:dump", "jsons/serializers/default_list.py", "jsons/serializers/default_dict.py", "jsons/serializers/default_primitive.py"]}
{"id": "C32", "title": "Dump raises SerializationError only", "statement": "The only exception that escapes from dump is SerializationError (for a class that has some serializer).", "quantifier": "every value, class, option and every behaviour of custom serializers and properties", "why_tests_cant": "All failure sources.", "anchors": ["jsons/_dump_impl.py:_do_dump"]}
{"id": "C33", "title": "Round trip", "statement": "load(dump(v), T) == v for every value v of type T, where T is built from None, bool, int, float, str, datetime, date, UUID, Decimal, enums, List, Tuple, Set, Dict with JSON keys, Optional and (data)classes whose constructor stores its hinted parameters.", "quantifier": "every type of that grammar and every value of that type, any nesting depth", "why_tests_cant": "Structural induction over types and values.", "anchors": ["jsons/_dump_impl.py", "jsons/_load_impl.py", "jsons/serializers", "jsons/deserializers"]}
{"id": "C34", "title": "Load raises JsonsError only", "statement": "The only exceptions that escape from load are JsonsError subclasses, for every JSON input.", "quantifier": "every JSON input, every target type, every behaviour of custom deserializers, constructors and validators", "why_tests_cant": "All failure sources, including malformed '-meta' sections.", "anchors": ["jsons/_load_impl.py:load", "jsons/_load_impl.py:_do_load", "jsons/_common_impl.py:get_cls_and_meta"]}
{"id": "C35", "title": "Load returns a value of the requested type", "statement": "If load(j, T) returns, the result is an instance of T (elementwise for List, Tuple, Set, Dict, Union, Optional and hinted constructor parameters).", "quantifier": "every JSON input, every type of the grammar", "why_tests_cant": "All inputs and all types.", "anchors": ["jsons/_load_impl.py:load", "jsons/deserializers"]}
{"id": "C36", "title": "None is never loaded into a type that excludes it", "statement": "load(None, T) raises DeserializationError unless T is Any, object, None, NoneType or a Union containing NoneType.", "quantifier": "every type and option", "why_tests_cant": "All types.", "anchors": ["jsons/_load_impl.py:_check_for_none", "jsons/_common_impl.py:can_match_with_none"]}
{"id": "C37", "title": "Exact-type inputs are returned unchanged", "statement": "In non-strict mode load(j, type(j)) returns j itself (after validation), and load(j, Any) returns j, in both modes.", "quantifier": "every input and fork", "why_tests_cant": "All inputs.", "anchors": ["jsons/_load_impl.py:_should_skip"]}
{"id": "C38", "title": "Union load takes the first member that loads", "statement": "load(j, Union[T1..Tn]) returns the result of the first Ti for which load(j, Ti) succeeds and raises DeserializationError if none does (provided failures are JsonsErrors).", "quantifier": "every union, input and option", "why_tests_cant": "All unions and inputs.", "anchors": ["jsons/deserializers/default_union.py"]}
{"id": "C39", "title": "Union dump takes the first member that dumps; Optional keeps None", "statement": "dump(v, Union[T1..Tn]) returns the result of the first Ti for which dump(v, Ti) succeeds; None with NoneType among the members dumps to None.", "quantifier": "every union, value and option", "why_tests_cant": "All unions and values.", "anchors": ["jsons/serializers/default_union.py"]}
{"id": "C40", "title": "Union dump never changes the value's kind", "statement": "dump(v, Union[...]) of a value that is an instance of one of the members gives the dump of v under that member.", "quantifier": "every union and value", "why_tests_cant": "All unions and values.", "anchors": ["jsons/serializers/default_union.py", "jsons/serializers/default_primitive.py"]}
{"id": "C41", "title": "List load is elementwise and names the first failing index", "statement": "load(js, List[T]) returns the list of the loaded elements in order; if some element fails with a DeserializationError, the error names the index of the first failing element and keeps its source and target.", "quantifier": "every list and element type", "why_tests_cant": "All lists and failure positions.", "anchors": ["jsons/deserializers/default_list.py:_do_load"]}
{"id": "C42", "title": "warn_on_fail skips exactly the failing elements", "statement": "With warn_on_fail=True load(js, List[T]) returns, in order, the results of exactly the elements that load, emits one warning per skipped element, and does not raise DeserializationError.", "quantifier": "every list, every subset of failing elements", "why_tests_cant": "2^n failure patterns.", "anchors": ["jsons/deserializers/default_list.py:_do_load"]}
{"id": "C43", "title": "Tuple load respects the arity", "statement": "load(js, Tuple[T1..Tn]) succeeds only if js has exactly n elements, and then element i is loaded as Ti.", "quantifier": "every tuple type and input length", "why_tests_cant": "All arities.", "anchors": ["jsons/deserializers/default_tuple.py:default_tuple_deserializer"]}
{"id": "C44", "title": "Named tuples load from lists and dicts alike", "statement": "A named tuple is loaded from a list of its field values in order, or from a dict with its field names; omitted trailing fields take their defaults; a missing field without default raises UnfulfilledArgumentError.", "quantifier": "every named tuple class and input", "why_tests_cant": "All field counts and default patterns.", "anchors": ["jsons/deserializers/default_tuple.py:default_namedtuple_deserializer"]}
{"id": "C45", "title": "Dict load keeps every entry", "statement": "load(d, Dict[K, V]) returns a dict whose entries are exactly the loaded keys with the loaded values, in the same order (later equal keys win).", "quantifier": "every dict and key/value types", "why_tests_cant": "All dicts.", "anchors": ["jsons/deserializers/default_dict.py:_deserialize"]}
{"id": "C46", "title": "Dicts with non-JSON keys survive dump and load", "statement": "A Dict[K, V] whose keys are not JSON keys is dumped with hashed keys plus a '-keys' section and load with type Dict[K, V] restores the original dict.", "quantifier": "every dict with such keys (hash collisions included)", "why_tests_cant": "Hash collisions and orderings.", "anchors": ["jsons/serializers/default_dict.py:_store_and_hash", "jsons/deserializers/default_dict.py:_load_hashed_keys"]}
{"id": "C47", "title": "Load does not modify its input", "statement": "load leaves the given JSON value unchanged, so loading twice gives the same result.", "quantifier": "every input", "why_tests_cant": "All inputs; mutation only on particular shapes.", "anchors": ["jsons/deserializers/default_dict.py:_load_hashed_keys"]}
{"id": "C48", "title": "Constructor arguments come from the right source", "statement": "When loading into a class each constructor parameter gets: the loaded value from the input if the key is present; otherwise the attr_getter's value; otherwise its default; otherwise nothing for *args/**kwargs; otherwise None if the hint allows it (or there is no hint); otherwise load raises UnfulfilledArgumentError naming the parameter.", "quantifier": "every class signature, input and set of attr_getters", "why_tests_cant": "All combinations of signature and input.", "anchors": ["jsons/deserializers/default_object.py:_get_value_for_attr", "jsons/deserializers/default_object.py:_get_constructor_args"]}
{"id": "C49", "title": "Strict load rejects unknown keys", "statement": "With strict=True loading a dict with a key that is no constructor parameter (other than '-meta') never succeeds; if all constructor arguments can be loaded it raises SignatureMismatchError naming the first such key. Without such a key strict mode accepts the dict.", "quantifier": "every class and input", "why_tests_cant": "All inputs.", "anchors": ["jsons/deserializers/default_object.py:_get_remaining_args"]}
{"id": "C50", "title": "Non-strict load sets the remaining attributes", "statement": "In non-strict mode every remaining key except '-meta' becomes an attribute of the instance (loaded with its annotation if there is one, otherwise unchanged), unless the class refuses to have it set.", "quantifier": "every class and input", "why_tests_cant": "All inputs.", "anchors": ["jsons/deserializers/default_object.py:_set_remaining_attrs"]}
{"id": "C51", "title": "attr_getters have the final word", "statement": "After load with attr_getters each named attribute of the instance equals what its getter returns, even if the input contains a value for it.", "quantifier": "every class, input and set of getters", "why_tests_cant": "All combinations.", "anchors": ["jsons/deserializers/default_object.py:_set_remaining_attrs"]}
{"id": "C52", "title": "Dumped attributes are exactly the selected ones", "statement": "Dumping an object (no failing attribute, no key_transformer, non-strict) yields exactly one entry per attribute that is not dunder, not 'json', not a method, function or inner class, not part of JsonSerializable, and not stripped by strip_privates, strip_properties, strip_class_variables or strip_attr.", "quantifier": "every object, class and combination of strip options", "why_tests_cant": "2^4 option combinations times all classes.", "anchors": ["jsons/serializers/default_object.py:_filter_attributes", "jsons/serializers/default_object.py:_do_serialize"]}
{"id": "C53", "title": "strip_nulls removes every null from objects and dicts", "statement": "With strip_nulls=True no dict in the dumped result has a None value.", "quantifier": "every value", "why_tests_cant": "Nested occurrences at any depth.", "anchors": ["jsons/serializers/default_object.py:_add_dumped_elem", "jsons/serializers/default_dict.py"]}
{"id": "C54", "title": "key_transformer is applied to every key", "statement": "With key_transformer=f every key of every dict in the dumped result is an image under f.", "quantifier": "every value", "why_tests_cant": "Nested occurrences at any depth.", "anchors": ["jsons/serializers/default_object.py:_add_dumped_elem", "jsons/serializers/default_dict.py", "jsons/serializers/default_tuple.py"]}
{"id": "C55", "title": "A failing attribute drops only itself", "statement": "In non-strict mode an attribute that cannot be dumped is left out with a warning and every other attribute is dumped.", "quantifier": "every object and failing attribute", "why_tests_cant": "Position of the failing attribute among the others.", "anchors": ["jsons/serializers/default_object.py:_do_serialize"]}
{"id": "C56", "title": "Strict dump reports a failing attribute", "statement": "In strict mode an attribute that cannot be dumped makes dump raise SerializationError.", "quantifier": "every object", "why_tests_cant": "All positions and nestings.", "anchors": ["jsons/serializers/default_object.py:_do_serialize"]}
{"id": "C57", "title": "Strict dump with cls dumps only what cls knows", "statement": "dump(obj, cls=C, strict=True) of a class instance has only keys that are known to C (slots, annotations, constructor hints, properties or class variables of C).", "quantifier": "every object, class", "why_tests_cant": "All classes.", "anchors": ["jsons/serializers/default_object.py:_get_attributes_from_class"]}
{"id": "C58", "title": "Strict list dump preserves values", "statement": "dump(list, strict=True) gives the same elements as dumping each element on its own.", "quantifier": "every list", "why_tests_cant": "Heterogeneous lists.", "anchors": ["jsons/serializers/default_list.py"]}
{"id": "C59", "title": "Verbose dumps record the class of every nested object", "statement": "dump(obj, verbose=True) contains a '-meta' section mapping the path of every nested object (reachable through attributes and dicts) to its class name, and contains no internal '-cls' marker.", "quantifier": "every object tree", "why_tests_cant": "All trees.", "anchors": ["jsons/serializers/default_object.py:_get_dict_with_meta", "jsons/serializers/default_object.py:_fill_collection_of_types"]}
{"id": "C60", "title": "Verbose round trip without hints", "statement": "load(dump(obj, verbose=True)) rebuilds every nested constructor-argument object with its own class, without type hints.", "quantifier": "every object tree", "why_tests_cant": "All trees, in particular equal attribute names at different depths and objects inside lists.", "anchors": ["jsons/deserializers/default_object.py:_get_value_from_obj", "jsons/_common_impl.py:get_cls_and_meta"]}
{"id": "C61", "title": "Explicit cls beats meta, meta beats inferred cls", "statement": "load uses the explicitly given cls if there is one; a class inferred from a generic argument is overridden by the class in '-meta'; without both, the class from '-meta', else the type of the input.", "quantifier": "every combination", "why_tests_cant": "All combinations with arbitrary classes.", "anchors": ["jsons/_common_impl.py:determine_precedence", "jsons/_load_impl.py:_check_and_get_cls_and_meta_hints"]}
{"id": "C62", "title": "Validators guard every loaded value", "statement": "If a validator is registered for T in the fork, load(j, T) only returns values the validator accepts; otherwise ValidationError is raised (also when the validator raises).", "quantifier": "every input, type and validator", "why_tests_cant": "All validators and inputs, all return paths.", "anchors": ["jsons/_validation.py:validate", "jsons/_load_impl.py:load", "jsons/_load_impl.py:_do_load"]}
{"id": "C63", "title": "Strings are parsed as datetimes only when no type is requested", "statement": "load(s) for a string s returns a datetime iff s parses as one, and otherwise s; load(s, str) always returns s.", "quantifier": "every string", "why_tests_cant": "All strings.", "anchors": ["jsons/deserializers/default_string.py"]}
{"id": "C64", "title": "Enum round trip", "statement": "For every enum member e, load(dump(e, use_enum_name=n), type(e), use_enum_name=n) is e for n in {True, False}; by default (load without the option) loading the dumped name gives e back.", "quantifier": "every enum class and member", "why_tests_cant": "All enum classes, including values that equal other members' names.", "anchors": ["jsons/serializers/default_enum.py", "jsons/deserializers/default_enum.py"]}
{"id": "C65", "title": "Decorators convert positional arguments and the return value", "statement": "A function decorated with @loaded/@dumped is called with exactly the mapped positional arguments (self/cls untouched), keyword arguments untouched, and returns the mapped return value; parameters=False / returnvalue=False switch the conversions off.", "quantifier": "every function signature and argument list", "why_tests_cant": "All signatures.", "anchors": ["jsons/decorators.py"]}
{"id": "C66", "title": "transform is dump, mapper, load", "statement": "transform(obj, cls, mapper) equals load(mapper(dump(obj)), cls), including failures.", "quantifier": "every object, class and mapper", "why_tests_cant": "All of them.", "anchors": ["jsons/_transform_impl.py"]}
{"id": "C67", "title": "String and bytes variants agree with dump/load", "statement": "loads(dumps(x)) and loadb(dumpb(x)) equal load of the JSON image of dump(x); invalid JSON raises DecodeError; non-bytes input to loadb raises DeserializationError.", "quantifier": "every value and every input string", "why_tests_cant": "All inputs.", "anchors": ["jsons/_dump_impl.py:dumps", "jsons/_load_impl.py:loads", "jsons/_load_impl.py:loadb"]}
{"id": "C68", "title": "JsonSerializable methods agree with the functions", "statement": "x.json, x.dump, C.from_json, C.load, x.dumps, x.dumpb, str(x), C.loads and C.loadb equal jsons.dump/load/dumps/... with the class as fork (and type); keyword arguments given to with_dump/with_load take precedence over those of the call; with_dump/with_load change the class and the classes derived from it, and with fork=True only the new class.", "quantifier": "every class hierarchy made by any history of class statements, forks, with_dump and with_load, every object and all keyword arguments", "why_tests_cant": "All histories of class definitions and configuration calls, and all combinations of keyword arguments.", "anchors": ["jsons/classes/json_serializable.py"]}
{"id": "C69", "title": "Verbosity flags combine as sets", "statement": "Verbosity values built with | contain exactly the flags that were combined, and from_value maps False/None to nothing and every truthy value to everything.", "quantifier": "every combination of flags", "why_tests_cant": "All combinations (finite) - bit-level encoding 10/20.", "anchors": ["jsons/classes/verbosity.py", "jsons/_compatibility_impl.py:Flag"]}
{"id": "C70", "title": "Recursion never escapes as RecursionError", "statement": "Dumping a value that refers to itself through properties or is too deeply nested for the interpreter's stack raises SerializationError or drops attributes with a warning, but no other exception escapes.", "quantifier": "every value and every stack limit", "why_tests_cant": "All depths.", "anchors": ["jsons/_dump_impl.py:_do_dump", "jsons/serializers/default_object.py:_do_serialize"]}
{"id": "C71", "title": "Timezones survive dump and load", "statement": "dump(tz) of a datetime.timezone loads back to an equal timezone, also when it is an attribute with a timezone hint.", "quantifier": "every timezone and every context in which it occurs", "why_tests_cant": "All offsets and nestings.", "anchors": ["jsons/serializers/default_timezone.py", "jsons/deserializers/default_timezone.py"]}
{"id": "C72", "title": "A fork is used in parallel mode too", "statement": "load(obj, List[T], fork_inst=F, tasks=t) with t>1 uses the fork F for the elements and so returns what it returns with tasks=1.", "quantifier": "every list, fork and number of tasks", "why_tests_cant": "The keyword arguments that reach an element depend on the branch taken; a test of one branch says nothing about the other.", "anchors": ["jsons/deserializers/default_list.py:default_list_deserializer", "jsons/_multitasking.py:_fill"]}
{"id": "C73", "title": "Naive datetimes are dumped with the local offset", "statement": "Dumping a datetime without time zone (which jsons announces with a warning that the local time zone is assumed) writes the UTC offset of the local time zone, so that the text denotes the moment that was meant.", "quantifier": "every naive datetime and every local time zone", "why_tests_cant": "Tests run in one local time zone, usually UTC.", "anchors": ["jsons/_datetime_impl.py:_datetime_offset_str"]}
{"id": "C74", "title": "strip_attr accepts any collection of names", "statement": "With strip_attr given as a name or as a collection of names (tuple, list, set), none of these names is a key of the dumped object and the object is still dumped.", "quantifier": "every object, class and collection of names", "why_tests_cant": "the type of the collection decides which code runs; tests use one name or one tuple", "anchors": ["jsons/serializers/default_object.py:162-168", "jsons/serializers/default_object.py:224-246"]}
{"id": "C75", "title": "Collections are dumped elementwise, in strict mode too", "statement": "Dumping a tuple, set, frozenset or deque without a class gives the list of the dumps of its elements in the order of iteration; strict mode does not make a collection impossible to dump whose elements can be dumped.", "quantifier": "every collection, its elements and options", "why_tests_cant": "collections of any length with arbitrary elements; strict mode infers an element type from the value", "anchors": ["jsons/serializers/default_iterable.py:12-81", "jsons/serializers/default_tuple.py:10-41"]}
{"id": "C76", "title": "Every type is dumped by its documented serializer", "statement": "After `import jsons`, dumping with any type other than Any (a built-in class, a collection, a typing generic, a Union or Optional, a NewType, a class of the program) uses the serializer that the documentation gives for that kind of type: an IntEnum is dumped as an enum and not as an int, a named tuple as a tuple, a defaultdict as a dict, a NewType as its base type, any other class as an object.", "quantifier": "All types and all classes of the program whose names do not collide with registered names", "why_tests_cant": "There are infinitely many classes and generic types; the lookup goes through names and subclass tests whose order matters, and a test only sees the classes it defines.", "anchors": ["jsons/__init__.py:277-321", "jsons/_lizers_impl.py:85-160"]}
{"id": "C77", "title": "What cannot be decorated is refused at decoration time", "statement": "Decorating a static method, a class method or a class with @loaded/@dumped raises an InvalidDecorationError (for static methods after the warning decorated-static), as does a loader/dumper that is not one of the functions of jsons; every plain function can be decorated.", "quantifier": "every decorated object and every decorator argument", "why_tests_cant": "All kinds of decorated objects combined with all loaders, dumpers and warning configurations.", "anchors": ["jsons/decorators.py:44-46", "jsons/decorators.py:83-85", "jsons/decorators.py:178-188"]}
{"id": "C78", "title": "Dumped texts are printable ASCII", "statement": "The text that dumps returns consists of printable ASCII characters only, whatever characters the object contains (non-ASCII characters, control characters and DEL are escaped), so dumpb returns exactly one byte per character of that text and its result can be decoded with any ASCII compatible encoding.", "quantifier": "every object, class and keyword arguments for which dumps succeeds", "why_tests_cant": "All characters of Unicode at every position of every text.", "anchors": ["jsons/_dump_impl.py:dumps", "jsons/_dump_impl.py:dumpb"]}
{"id": "C79", "title": "Values survive the text and the bytes", "statement": "loads(dumps(v), T) and loadb(dumpb(v), T) give v again for the values and types for which load(dump(v), T) does, although a JSON text only knows strings as keys of objects: the keys of Dict[str, V], Dict[int, V], Dict[float, V] and Dict[bool, V] come back as they were; datetimes come back with the same offset.", "quantifier": "all values of primitive types, the classes of the standard library, enums, collections, dicts, named tuples, optionals and classes that store their parameters, nested arbitrarily, with cls or without", "why_tests_cant": "All nestings of values; the distinct keys of a dict must get distinct names in the text and each of them must be read back by its type.", "anchors": ["jsons/_dump_impl.py:69-113", "jsons/_load_impl.py:128-186", "jsons/deserializers/default_dict.py:9-94", "jsons/deserializers/default_primitive.py:6-24"]}
{"id": "C80", "title": "Loading without a type only turns datetime texts into datetimes", "statement": "load(j) without a type, for a JSON document j, returns the same document: every number, bool, None, list and dict stays as it is, keys stay texts, and only a text value that can be loaded as a datetime is replaced by that datetime. With a key_transformer the keys are renamed by it, at every depth, and nothing else changes.", "quantifier": "Every JSON document of any depth, every key transformer that keeps the keys of a dict apart", "why_tests_cant": "A test fixes a few documents; a value of one kind nested in another at some depth can be converted, dropped or renamed without any of them noticing.", "anchors": ["jsons/_load_impl.py:76-125", "jsons/_load_impl.py:188-219", "jsons/deserializers/default_list.py:12-69", "jsons/deserializers/default_dict.py:9-87", "jsons/deserializers/default_string.py:9-27"]}
{"id": "C81", "title": "The class name in a verbose dump leads back to the class", "statement": "The class name that a verbose dump writes for an object is one under which load finds the class of the object, also for classes that are defined in functions or in other classes and that were dumped (announced) before.", "quantifier": "Every class, every set of modules, every history of registrations and announcements, every fork", "why_tests_cant": "Whether a name is ambiguous depends on all other classes and modules of the program; a test has just its own.", "anchors": ["jsons/_common_impl.py:46-101", "jsons/_common_impl.py:140-170", "jsons/_extra_impl.py:36-53", "jsons/_dump_impl.py:54"]}
{"id": "C82", "title": "Every type is loaded by its documented deserializer", "statement": "After `import jsons`, loading with any type other than Any (a built-in class, a collection, a typing generic, a Union or Optional, a NewType of such a type, a class of the program) uses the deserializer that the documentation gives for that kind of type: an IntEnum is loaded as an enum and not as an int, a named tuple as a tuple, a set or deque as an iterable, a NewType as its base type, any other class as an object.", "quantifier": "All types and all classes of the program whose names do not collide with registered names", "why_tests_cant": "There are infinitely many classes and generic types; the lookup goes through names and subclass tests whose order matters, and a test only sees the classes it defines.", "anchors": ["jsons/__init__.py:295-321", "jsons/_lizers_impl.py:85-160"]}
{"id": "C83", "title": "strip_nulls and key_transformer only change the style of a dump", "statement": "dump(v, strip_nulls=True, key_transformer=f) returns what dump(v) returns, with the entries whose value is None left out and the keys renamed by f, at every depth; it gives the same warnings and raises the same exceptions, whatever class and other options are given.", "quantifier": "Every value of any depth, every key transformer and every combination of the other options", "why_tests_cant": "A test fixes a few values and one style; an entry at some depth that is renamed twice, dropped with its neighbours or missed would go unnoticed.", "anchors": ["jsons/serializers/default_dict.py:36-85", "jsons/serializers/default_object.py:111-168", "jsons/serializers/default_tuple.py:31-41"]}
{"id": "C84", "title": "A class that fits does not change what is dumped", "statement": "Outside strict mode, if v is a value of type T and dump(v) returns j, then dump(v, cls=T) returns j as well; the same holds where the type is only the hint of an attribute.", "quantifier": "Every value of any depth, every type it has (classes and superclasses, generics, unions, NewTypes), every combination of the other options", "why_tests_cant": "There are infinitely many pairs of values and types; a test knows the few types it names, and most pairs go through different code.", "anchors": ["jsons/_dump_impl.py:16-66", "jsons/serializers/default_list.py:10-48", "jsons/serializers/default_tuple.py:10-28", "jsons/serializers/default_union.py:9-37", "jsons/serializers/default_primitive.py:6-27", "jsons/_compatibility_impl.py:42-49"]}
{"id": "C85", "title": "Strict dumps of tuples and collections follow the type", "statement": "In strict mode dump(t, cls=Tuple[T1..Tn]) returns only if t has exactly n elements, and then element i is dumped as Ti; with Tuple[T, ...], Set[T], FrozenSet[T], Deque[T] or Iterable[T] every element is dumped as T.", "quantifier": "Every tuple type, every length, every element", "why_tests_cant": "All arities and all element types.", "anchors": ["jsons/serializers/default_iterable.py:12-67", "jsons/serializers/default_tuple.py:10-28"]}
{"id": "C86", "title": "key_transformer of load renames the keys of the document", "statement": "load(doc, T, key_transformer=f) returns exactly what load(renamed, T) returns, where renamed is doc with all its keys at every depth replaced by f(key), and it fails exactly when that fails.", "quantifier": "Every document, type, depth and transformer that keeps the keys of a dict apart", "why_tests_cant": "All documents and types, at every depth.", "anchors": ["jsons/deserializers/default_object.py:174-183", "jsons/deserializers/default_dict.py:14-87", "jsons/deserializers/default_tuple.py:12-57"]}
{"id": "C87", "title": "dump and load in a fork depend on that fork only", "statement": "What dump(obj, cls, fork_inst=f, **kwargs) and load(doc, cls, fork_inst=f, **kwargs) return, raise and warn of is not changed by anything that is registered, announced or suppressed in the main class or in other forks.", "quantifier": "Every object or document, type, keyword arguments, and every history of registrations in other forks", "why_tests_cant": "All histories and all values: a single nested call that does not pass on fork_inst is enough to break it.", "anchors": ["jsons/_dump_impl.py:16-98", "jsons/_load_impl.py:24-99", "jsons/_lizers_impl.py:86-112", "jsons/deserializers/default_complex.py:7-28", "jsons/deserializers/default_timezone.py:6-17"]}
{"id": "C88", "title": "dump and load go only as deep as the data and the types are nested", "statement": "load(doc, cls, **kwargs) nests its own calls at most four times per level of nesting of the document and the types together, and so does dump(obj, cls, **kwargs) for the object: with a stack of that depth no call is made that a deeper stack would be needed for, so the call ends, and neither its value nor its error nor its warnings depend on the recursion limit.", "quantifier": "Every document or object, class, keyword arguments, and every stack that is deep enough, whatever happens beyond it", "why_tests_cant": "It is about all documents, however deep, and about the absence of calls; a test with a recursive document or type does not end, and one without says nothing of others.", "anchors": ["jsons/_load_impl.py:24-99", "jsons/_dump_impl.py:16-98", "jsons/deserializers/default_union.py:9-30", "jsons/deserializers/default_string.py:8-27", "jsons/deserializers/default_defaultdict.py:7-27", "jsons/deserializers/default_tuple.py:12-83", "jsons/_load_impl.py:189-204"]}
{"id": "C89", "title": "Strict mode of load only refuses more", "statement": "If load(doc, cls, strict=True, **kwargs) returns a value, then load(doc, cls, **kwargs) returns the same value: strict mode can turn a result into an exception, but never into another result.", "quantifier": "Every document, class, program of classes with constructors, keyword arguments", "why_tests_cant": "It relates two runs for every document and class; the modes take different paths (shortcuts for exact types, remaining attributes, unions), and a test compares them for its own documents only.", "anchors": ["jsons/_load_impl.py:76-101", "jsons/_load_impl.py:208-209", "jsons/deserializers/default_object.py:41-44", "jsons/deserializers/default_object.py:186-200", "jsons/deserializers/default_union.py:20-30", "jsons/deserializers/default_list.py:56-69"]}
{"id": "C90", "title": "The order of keys in a document does not matter to load", "statement": "Two documents that differ only in the order of the keys in their dicts load alike with the same class and keyword arguments: both raise, or both return the same value up to the order of dict entries and attributes.", "quantifier": "Every document and every reordering of its dicts at any depth, every class, program of classes with constructors, keyword arguments", "why_tests_cant": "JSON objects are unordered, so writers may reorder keys at every level; a test loads documents in the orders its author wrote, and there are factorially many.", "anchors": ["jsons/_load_impl.py:76-101", "jsons/deserializers/default_object.py:48-113", "jsons/deserializers/default_object.py:122-141", "jsons/deserializers/default_object.py:144-200", "jsons/deserializers/default_dict.py:26-87", "jsons/deserializers/default_tuple.py:39-88"]}
{"id": "C91", "title": "What was loaded survives being dumped and loaded again", "statement": "Whatever load makes of a document with a class T, dumping it and loading the dump with T gives the same value, also if the document was not a dump (numbers as texts, missing parameters, lists for tuples); the same for dumps with loads and dumpb with loadb.", "quantifier": "Every JSON document, every class T of nested collections, optionals, enums, dates, named tuples and classes with hinted constructors (also recursive ones), every way to dump (with and without cls) and to load", "why_tests_cant": "A program that reads, stores and reads data again relies on the second reading for all documents that others send; tests round-trip the objects they construct, not whatever load accepts and coerces.", "anchors": ["jsons/_load_impl.py:26-101", "jsons/_dump_impl.py:18-79", "jsons/deserializers/default_object.py:17-113", "jsons/deserializers/default_primitive.py:6-24", "jsons/deserializers/default_tuple.py:12-88", "jsons/deserializers/default_dict.py:11-87", "jsons/_datetime_impl.py:59-125"]}
{"id": "C92", "title": "What is stripped does not show", "statement": "Attributes that strip_privates or strip_attr keep out of a dump have no influence on it: values that differ only in such attributes, of objects at whatever depth, are dumped to the same result, with the same exception and the same sequence of warnings (their texts aside); nor does the order in which an object got its attributes matter.", "quantifier": "Every pair of values that differ only in stripped attributes, every class, mode and combination of the other options, any serializers that are registered", "why_tests_cant": "A statement about pairs of runs: a test can show that one secret is not in one dump, not that no secret can be inferred from any dump, from its failing, or from the number of its warnings.", "anchors": ["jsons/serializers/default_object.py:18-147", "jsons/serializers/default_object.py:162-246", "jsons/serializers/default_list.py:10-48", "jsons/serializers/default_dict.py:7-85", "jsons/serializers/default_enum.py:4-18"]}
{"id": "C93", "title": "Keys that a class does not know do not change what is loaded", "statement": "Outside strict mode, entries that a class does not know can be added to the documents of its instances, at whatever depth of a document, without changing what is loaded but for attributes of these names: the result is the same otherwise, and so are the warnings and the exception (its source aside).", "quantifier": "Every pair of documents that differ only in such entries, every class, key transformer and registry", "why_tests_cant": "Forward compatibility is about pairs of documents, the second of which was written by a program that does not exist yet: a test can add the keys that its author thought of to the documents that its author thought of.", "anchors": ["jsons/deserializers/default_object.py:17-200", "jsons/deserializers/default_union.py:9-30", "jsons/deserializers/default_tuple.py:39-88", "jsons/deserializers/default_list.py:9-44", "jsons/deserializers/default_dict.py:8-50", "jsons/_load_impl.py:76-125"]}
{"id": "C94", "title": "A DeserializationError shows the part of the document that is at fault", "statement": "If load raises a DeserializationError, the exception has a source, and this source is the document or something in it at whatever depth (an element, a key, a value); an exception that is no DeserializationError has no source.", "quantifier": "Every document, class, registry, set of keyword arguments and depth of the stack", "why_tests_cant": "The source is set at a dozen places in ten modules and passes through wrappers that catch, replace and annotate exceptions; whether one of them shows something that is not in the document depends on the document, the class and the route the exception takes, and tests look at the source for a handful of failures.", "anchors": ["jsons/exceptions.py:57-183", "jsons/_load_impl.py:76-125", "jsons/_load_impl.py:188-219", "jsons/_common_impl.py:77-149", "jsons/deserializers/default_object.py:17-200", "jsons/deserializers/default_list.py:9-69", "jsons/deserializers/default_dict.py:9-87", "jsons/deserializers/default_tuple.py:11-88", "jsons/deserializers/default_union.py:9-30"]}
{"id": "C95", "title": "The order in which attributes were set does not matter to dump", "statement": "Two values that differ only in the order in which the attributes of the objects in them were set, at whatever depth, are dumped alike: dump gives the same result (also in the order of the keys), raises the same exception and emits the same warnings.", "quantifier": "Every pair of such values, every class, registry, set of keyword arguments and depth of the stack", "why_tests_cant": "It is a statement about pairs of objects and all the ways in which two equal objects can have come about; tests build their objects once, by the constructor.", "anchors": ["jsons/serializers/default_object.py:17-330", "jsons/_dump_impl.py:15-66", "jsons/serializers/default_dict.py:8-50", "jsons/serializers/default_list.py:9-46"]}
{"id": "C96", "title": "A registration matters only to what it concerns", "statement": "Calling set_serializer, set_deserializer or set_validator for some classes does not change any dump or load in which no type occurs that the registration concerns: the results, exceptions and warnings are those of the program without the registration. A registration for c concerns a type t if t or a superclass of t has the name of c or of a class registered with c as a superclass. The types that occur are found from the arguments: the classes of the values in them, the type hints of these classes and of their constructors, the parameters of types, the classes named in '-meta', and the types the default (de)serializers fall back on, such as datetime for texts.", "quantifier": "Every registry, registration (function, classes, priority), value, class, set of keyword arguments and depth of the stack", "why_tests_cant": "It is a statement about all calls in pairs of programs, one with and one without a registration made anywhere, e.g. by another library in the same process.", "anchors": ["jsons/_lizers_impl.py:14-150", "jsons/_lizers_impl.py:152-236", "jsons/_dump_impl.py:15-66", "jsons/_load_impl.py:19-181", "jsons/_validation.py:8-60"]}
{"id": "C97", "title": "A class can be given by its name", "statement": "load(doc, 'package.module.Name', **kwargs) is load(doc, Name, **kwargs) for the class that has that name: the same result, the same exception and the same warnings. A name of no class raises UnknownClassError with the document as its source.", "quantifier": "Every document, name, class, registry, set of keyword arguments and depth of the stack", "why_tests_cant": "It relates two calls for all documents and classes; the cases in which the two differ (None, and documents that already are of the class asked for) are easily missed by examples.", "anchors": ["jsons/_load_impl.py:19-75", "jsons/_load_impl.py:116-181", "jsons/_common_impl.py:79-105"]}
{"id": "C98", "title": "Suppressing warnings changes nothing but the warnings", "statement": "After suppress_warnings(True) or suppress_warning(code), every dump and load returns and raises what it would have without that, and the warnings it emits are exactly those it would have emitted, in the same order, less the suppressed ones. For any two settings of suppression, the results and exceptions of all calls are the same.", "quantifier": "Every value or document, class, set of keyword arguments, registry, pair of settings and depth of the stack", "why_tests_cant": "It is a statement about pairs of executions under all settings; examples show single suppressed warnings only.", "anchors": ["jsons/_common_impl.py:28-44", "jsons/_extra_impl.py:13-35", "jsons/_dump_impl.py:15-66", "jsons/_load_impl.py:19-181", "jsons/deserializers/default_object.py:97-175", "jsons/serializers/default_object.py:1-260"]}
{"id": "C99", "title": "What is dumped in another style can be loaded again", "statement": "load(dump(v, key_transformer=f, strip_nulls=b), T, key_transformer=g) is v again if g undoes f on the names of the attributes and the keys of the dicts in v, and likewise through dumps/loads and dumpb/loadb. With KEY_TRANSFORMER_SNAKECASE for load, names of lower-case words come back from camel, Pascal and lisp case. Attributes that are None and therefore stripped come back as None.", "quantifier": "Every value and type, built from atoms, enums, lists, tuples, named tuples, sets, deques, dicts, defaultdicts, unions and objects nested to any depth; every pair of transformers; with strip_nulls or without", "why_tests_cant": "It relates dump and load under all combinations of options for all values and pairs of functions; examples cover single classes with the transformers of jsons.", "anchors": ["jsons/_key_transformers.py:1-50", "jsons/serializers/default_object.py:100-160", "jsons/serializers/default_dict.py:10-70", "jsons/deserializers/default_object.py:15-110", "jsons/deserializers/default_dict.py:13-87", "jsons/deserializers/default_mapping.py:8-27", "jsons/deserializers/default_tuple.py:12-56"]}
{"id": "C100", "title": "The order of registrations matters only to classes that inherit from several of them", "statement": "If the same set_serializer (set_deserializer) calls are done in another order, dump (load) returns, raises and warns of the same, unless a type that occurs has no function of its own and inherits from two classes that were registered with the same priority and different functions. Doing all the calls once more changes nothing at all.", "quantifier": "Every list of registrations for any classes with any priorities, every permutation of it, every registry before, every value, document, type and set of options", "why_tests_cant": "Modules register in the order in which they are imported; no test can try all orders of all registrations with all class hierarchies.", "anchors": ["jsons/_lizers_impl.py:16-82", "jsons/_lizers_impl.py:86-159"]}
{"id": "C101", "title": "Threads that dump and load do not get in each other's way", "statement": "If several threads dump and load at the same time, each of them gets what it would get alone, in whatever order their steps are interleaved and although they share one cache that any of them may clear at any moment, as long as no thread registers anything with the registries that are used (registering for another fork does no harm); and every thread ends if each gets its turn again and again. Registering for the same fork meanwhile can make a dump in another thread raise a KeyError, and can leave an outdated serializer in the cache.", "quantifier": "Any number of threads, any programs of dumps, loads, lookups and clearings of the cache, any interleaving of their steps, any registries, any contents of the cache that are right at the start", "why_tests_cant": "Web servers use jsons from many threads. Interleavings cannot be enumerated by tests, and a race shows itself only rarely.", "anchors": ["jsons/_cache.py:10-46", "jsons/_lizers_impl.py:37-159", "jsons/_dump_impl.py:42-66", "jsons/_load_impl.py:76-125"]}
{"id": "C102", "title": "The work of loading grows with the size of the document, unless unions have several classes", "statement": "Loading a JSON document with the deserializers of jsons visits its parts a bounded number of times: the number of (nested) calls of load is at most (M + 4) times the size of the document (its values and keys, where a text counts its characters once for each level of nested lists in the types), if every union has at most M members besides one that is itself composed, and neither named tuples nor hashed keys are involved. This holds for documents that can be loaded and for those that cannot, and however the classes refer to each other. It is not so for unions of two or more classes: there are documents of size 10n+1 that are loaded correctly, but with at least 2^n calls.", "quantifier": "All documents, all classes of the program, all types with these unions, all keyword arguments (key transformers that make texts of texts), all sizes of the stack", "why_tests_cant": "Tests use small documents, on which even an exponential number of calls is not noticed; that no document of whatever size and shape makes the work explode is a statement about all of them.", "anchors": ["jsons/_load_impl.py:76-125", "jsons/deserializers/default_union.py:9-30", "jsons/deserializers/default_object.py:17-200", "jsons/deserializers/default_list.py:12-69", "jsons/deserializers/default_dict.py:9-87", "jsons/deserializers/default_string.py:9-27"]}
{"id": "C103", "title": "The work of dumping grows with the size of the object, unless strict unions have several classes", "statement": "Dumping a value with the serializers of jsons visits its parts a bounded number of times: the number of calls of serializers is at most (M + 1 + 2F) times the size of the value (its parts; the characters of a text count once for each level of nested lists in the types), if every union has at most one member that is itself composed and (M - 1)/2 others, and if values that are not objects of the program show at most F attributes, which have no parts. Without unions and without such attributes, every part is dumped at most once. This holds for values that can be dumped and for those that cannot, strict or not, and however the classes refer to each other. It is not so for unions of two or more classes in strict mode: there are objects with 2n+1 parts that are dumped correctly, but with at least 2^n calls.", "quantifier": "All values, all classes of the program, all types with these unions, all keyword arguments, all sizes of the stack; properties are allowed as long as there is a size that counts what they return", "why_tests_cant": "Tests dump small objects, on which even an exponential number of calls is not noticed; that no object of whatever size and shape makes the work explode is a statement about all of them.", "anchors": ["jsons/_dump_impl.py:16-66", "jsons/serializers/default_union.py:9-37", "jsons/serializers/default_object.py:18-290", "jsons/serializers/default_iterable.py:9-33", "jsons/serializers/default_list.py:9-48", "jsons/serializers/default_dict.py:8-85"]}
{"id": "C104", "title": "What dump returns is new and dumping changes nothing, except for enum members by value", "statement": "With the serializers of jsons, no list, dict or object inside of what dump returns was there before the call, and dump writes to no dict that was there before, whether it succeeds or fails: so who changes the dump does not change the object, its class variables or enum members, and later changes of the object do not change the dump. The exceptions are: with use_enum_name=False the value of an enum member is passed on as it is, and a verbose dump then even writes '-cls' into it (and leaves it there if the dump fails in between); and if the given type or a type hint is an enum class or complex but the value is an object of another class, then its attributes name or value, or real and imag, are passed on as they are. Nothing else is shared.", "quantifier": "All values with identities, all types and hints, all keyword arguments (verbose, strict, key transformers, ...), all sizes of the stack, all programs whose properties return values of the same kind; serializers of the user are not covered", "why_tests_cant": "A test can check that some dump is not the object itself; that no part of any dump, however deep and whatever the keyword arguments, is shared with the object or the classes of the program needs an argument about all the paths on which values are passed on.", "anchors": ["jsons/_dump_impl.py:16-66", "jsons/serializers/default_object.py:100-159", "jsons/serializers/default_object.py:267-323", "jsons/serializers/default_enum.py:4-18", "jsons/serializers/default_complex.py:1-8", "jsons/serializers/default_dict.py:7-81", "jsons/serializers/default_list.py:10-48", "jsons/serializers/default_iterable.py:12-49", "jsons/serializers/default_primitive.py:6-27"]}
{"id": "C105", "title": "What a loaded value shares with the document, and when it shares nothing", "statement": "Whatever the document, the class and the keyword arguments are, the lists, dicts and objects in a loaded value are new, or parts of the document, or default values of parameters, or results of attribute getters. With strict=True, if Any does not occur in the class or in type hints, nothing of a document that came from a JSON text is shared: changing the document later does not change the object, and the other way round. Without strict nothing of the document is shared if it is loaded without a class, or as List[...], Dict[...], a union or objects with such hints, and if keys that are no constructor parameters and have no hint have scalars as values. Otherwise it is shared: load(d, dict), load(l, list) and load(x, Any) return the document itself, an attribute with the hint dict or list is the one of the document, and so is a list or dict under a key that is no parameter. A mutable default value of a parameter is shared by all objects that are loaded without it.", "quantifier": "All documents with identities, all types and hints, all keyword arguments, all sizes of the stack; for the first part also all deserializers of the user that give what they got from load or something new", "why_tests_cant": "Whether two objects share a list shows only when one of them is changed; tests compare values. That nothing is shared on any path, for all documents and classes, needs an argument about all the places at which a value is passed on.", "anchors": ["jsons/_load_impl.py:27-101", "jsons/_load_impl.py:205-209", "jsons/deserializers/default_object.py:18-144", "jsons/deserializers/default_list.py:8-43", "jsons/deserializers/default_dict.py:9-87", "jsons/deserializers/default_tuple.py:11-78", "jsons/deserializers/default_primitive.py:6-24", "jsons/deserializers/default_iterable.py:9-30"]}
{"id": "C106", "title": "The options of a call reach the program's own serializers and deserializers at every depth", "statement": "A serializer that the program has registered is called with the options that were given to dump, however deep in the value it is called: strict, fork_inst, key_transformer, strip_nulls, strip_privates, strip_properties, strip_class_variables, strip_attr (possibly as a tuple of the same names), verbose, use_enum_name and strip_microseconds. So what it would do with other options does not matter. A registered deserializer likewise gets the options that were given to load: strict, fork_inst, use_enum_name, key_transformer, warn_on_fail and attr_getters.", "quantifier": "All values, documents, types, classes, forks, registrations, options, stack sizes; all registered functions that call dump or load with their own options", "why_tests_cant": "A test registers a function and looks at one position. That no path through lists, tuples, dicts, named tuples, unions, objects, iterables, defaultdicts and their nestings drops an option is a statement about all call chains.", "anchors": ["jsons/_dump_impl.py:16-66", "jsons/_load_impl.py:27-125", "jsons/serializers/default_object.py:18-147", "jsons/serializers/default_list.py:10-48", "jsons/serializers/default_dict.py:7-81", "jsons/deserializers/default_object.py:17-171", "jsons/deserializers/default_list.py:12-69", "jsons/deserializers/default_tuple.py:12-88", "jsons/deserializers/default_dict.py:9-87", "jsons/deserializers/default_complex.py:7-28"]}
{"id": "C107", "title": "A NewType is dumped and loaded like the type that it stands for", "statement": "For every type T and every name: dump(v, NewType(name, T), **kw) gives what dump(v, T, **kw) gives, and load(v, NewType(name, T), **kw) gives what load(v, T, **kw) gives, or both raise.", "quantifier": "All values, names, types, options, forks without registered functions, stack sizes", "why_tests_cant": "The tests have one NewType of str. Whether the NewType makes a difference depends on the type, the value, the options and on how each (de)serializer looks at the type that it gets.", "anchors": ["jsons/_lizers_impl.py:108-140", "jsons/serializers/default_primitive.py:6-36", "jsons/deserializers/default_string.py:9-27", "jsons/deserializers/default_primitive.py:6-24", "jsons/_dump_impl.py:16-66", "jsons/_load_impl.py:27-125", "tests/test_various.py:68-80"]}
{"id": "C108", "title": "Different values of a type have different dumps", "statement": "If v and w are values of a type T and dump(v) equals dump(w) (or dumps(v) equals dumps(w), or dumpb), then v and w are equal; so a dump can be used as a key or a fingerprint of a value of a known type. Each may be dumped with cls=T or without. Two datetimes are equal here if they show the same time with the same offset.", "quantifier": "All pairs of values of a type, all types built from the supported ones, all classes that store their parameters, stack sizes, forks without registered functions", "why_tests_cant": "A test compares a few pairs. That no two of infinitely many values of a nested type collapse into one document is a statement about all pairs.", "anchors": ["jsons/_dump_impl.py:16-66", "jsons/_load_impl.py:27-125", "jsons/serializers/default_union.py:7-37", "jsons/_datetime_impl.py:59-94", "jsons/_main_impl.py:1-120"]}
{"id": "C109", "title": "The written form of a parameterised type leads back to the type", "statement": "A verbose dump writes for a dict the form of its type, such as 'typing.Dict[int, float]', and load can be given a type in this form. For every generic class and all arguments, the written form is taken for that class with these arguments; so what was dumped with class info can be loaded again, and load(obj, 'typing.Dict[str, int]') does what load(obj, Dict[str, int]) does.", "quantifier": "All generic classes, argument lists, nestings, modules, announced classes, forks, documents", "why_tests_cant": "A test has one name. Whether a name is taken apart correctly is a statement about all names, with any number of arguments and any nesting.", "anchors": ["jsons/_common_impl.py:77-101", "jsons/serializers/default_object.py:316-323", "jsons/deserializers/default_object.py:113-142", "jsons/_load_impl.py:76-101", "tests/test_object.py:61-82"]}
{"id": "C110", "title": "Strict mode of dump only refuses more", "statement": "strict=True makes dump check values against their types. So whenever dump(v, cls=T, strict=True) returns something, dump(v, cls=T) and dump(v) return the same JSON, up to the order of the entries of objects.", "quantifier": "All values (scalars, enums, collections, named tuples, dicts, objects, nested), all types, all strip options, all classes", "why_tests_cant": "A test compares two dumps of one value. That the two modes agree for everything strict mode accepts is a statement about all values and types; the two modes take different ways through the serializers (attributes of the class instead of those of the object, other element types).", "anchors": ["jsons/serializers/default_object.py:18-97", "jsons/serializers/default_object.py:162-221", "jsons/serializers/default_list.py:28-48", "jsons/serializers/default_iterable.py:34-81", "jsons/serializers/default_tuple.py:10-28", "jsons/serializers/default_union.py:9-37"]}
{"id": "C111", "title": "verbose changes nothing but '-meta' sections", "statement": "The option verbose of dump is there to add '-meta' sections. Whatever kind of verbosity is asked for, dump gives the same warnings, raises the same exceptions and returns the same as without verbose once all '-meta' entries are left out, at every depth; no internal '-cls' mark is left behind. This holds together with all other options.", "quantifier": "All values (nested to any depth), all classes, all kinds of verbosity, all strip options, key transformers, strict mode or not", "why_tests_cant": "A test compares two dumps of one value. Verbose dumping takes another way through the code (marks in nested dicts, which are collected and removed at the next object), so that the marks are removed everywhere, and that nothing else is touched, is a statement about all nestings.", "anchors": ["jsons/serializers/default_object.py:71-97", "jsons/serializers/default_object.py:116-159", "jsons/serializers/default_object.py:267-323", "jsons/serializers/default_list.py:31-48", "jsons/serializers/default_iterable.py:34-49", "jsons/serializers/default_dict.py:36-59"]}
{"id": "C112", "title": "load makes only objects of classes that the type mentions or the document names", "statement": "Whoever loads documents from others relies on this: load(doc, cls) calls no constructor of a class, sets no attribute of an instance of a class, and looks up no class by name, unless the class is mentioned by cls (cls itself, its parameters, the type hints of the class and of its constructor, theirs, and so on) or the document names it in a '-meta' section. With no class given and no '-meta' in the document, no class of the program is used at all. A '-meta' section, on the other hand, lets the document choose any class, even against a class that is given and the type hints, in strict mode too; and a name there is looked up, and load fails if it is not found, even if the class is given.", "quantifier": "All documents, all types, all options (strict mode, key transformers, attr_getters, class hints), all classes and constructors of the program, all registries of deserializers", "why_tests_cant": "A test can show that one document does not make an object of one class. That no document can is a statement about all documents, and about constructors that a test would have to think of.", "anchors": ["jsons/_load_impl.py:76-101", "jsons/_load_impl.py:188-205", "jsons/_common_impl.py:104-127", "jsons/deserializers/default_object.py:38-45", "jsons/deserializers/default_object.py:122-171"]}
{"id": "C113", "title": "Dumping what was dumped changes nothing, and the style can be applied afterwards", "statement": "What dump returns is plain JSON whose dicts have different keys, so dump(dump(v, cls, **options)) == dump(v, cls, **options), whatever the class and the options of the first dump were (a verbose dump gets no second '-meta', nothing is renamed or hashed again), and dumps of it is the same text. So a custom serializer or a caller may dump parts first and the whole later. strip_nulls and key_transformer can be given in the second dump as well: dump(dump(v), strip_nulls=..., key_transformer=...) == dump(v, strip_nulls=..., key_transformer=...). It is false for members of an IntEnum that are dumped as int (they stay members, and are dumped as names the second time), for enum values that are not JSON, and for the None fields of named tuples with strip_nulls.", "quantifier": "All values, classes, options of the first dump, sizes of the value; for the style all key transformers", "why_tests_cant": "A test dumps one value twice. That no combination of nested values, classes and options gives a result that the second dump changes needs an argument about everything that dump can return.", "anchors": ["jsons/_dump_impl.py:16-66", "jsons/serializers/default_dict.py:7-59", "jsons/serializers/default_object.py:18-146", "jsons/serializers/default_primitive.py:6-27"]}
{"id": "C114", "title": "A partially deserialized document is loaded like the original", "statement": "If strict mode is off, load accepts a document of which parts are already deserialized, wherever these parts are nested: load(w, cls) succeeds exactly if load(v, cls) does, with the same result, where w is v with some parts replaced by what load makes of them (an element of a list, tuple or set, a value of a dict, an attribute with an annotation), and with tuples or sets in place of lists. In strict mode such a document is refused, as documented. It is false for a replaced object under Optional[...] or another Union, for deques and frozensets (load refuses what it made itself), and for Union[int, float], where the text '5.5' becomes 5.5 but 5.5 becomes 5.", "quantifier": "All documents, all choices of parts that are replaced at any depth, all types of the kinds list, set, frozenset, deque, iterable, tuple, dict, union, class; all options that rename nothing", "why_tests_cant": "The parts that are replaced can be chosen in 2^n ways, at any depth, and the claim compares two runs on different inputs for results and for failures alike.", "anchors": ["jsons/_load_impl.py:26-105", "jsons/_load_impl.py:208-209", "jsons/_common_impl.py:18", "jsons/deserializers/default_object.py:13-60"]}
{"id": "C115", "title": "A class can get more parameters without making stored documents useless", "statement": "Suppose a new version of a program adds parameters to the constructors of its classes (anywhere in the signature), each with a default value, or with a hint that admits None, or without any hint. Then every stored document that has no entries of these names is loaded as before: load raises the same exception, or returns the same value, in which every instance of such a class, however deeply nested, additionally has the new attributes with their default values (None if there is no default value); warnings are the same, also in strict mode. It is false if the document already has an entry with the new name, and if the parameter has neither a default value nor a hint that admits None.", "quantifier": "All pairs of programs that differ in the added parameters (any number of classes and parameters), all JSON documents, all types of the kinds scalar, enum, list-like, set of scalars, tuple, named tuple, dict-like, union, class, nested; strict or not", "why_tests_cant": "The claim compares two programs on every document; tests run against one version of the classes, and the position of the affected objects in the document is unbounded.", "anchors": ["jsons/deserializers/default_object.py:48-119", "jsons/deserializers/default_object.py:144-171", "jsons/_common_impl.py:130-137"]}
{"id": "C116", "title": "A class can be renamed or moved to another module", "statement": "Two programs that differ only in the names and modules of their classes dump the same (without class infos in the dump; the texts of warnings may differ) and load the same, for every value, document, type, set of registered serializers, deserializers and validators and all other options, provided that no class comes to have, or ceases to have, the name (without regard to case) of a type for which something is registered, that the names written in the '-meta' sections of the document still lead to the same classes (as after announcing the old names), and that the word 'union' or 'optional' does not appear in or disappear from the name of a class. Each of the provisos is needed.", "quantifier": "All pairs of programs with different names, all registrations, all values, documents, types and options without class infos", "why_tests_cant": "The claim compares two programs over all inputs and all registrations; that a name such as Reunion or one that differs in case only changes behaviour is found only by tests that happen to use it.", "anchors": ["jsons/_common_impl.py:46-117", "jsons/_common_impl.py:130-137", "jsons/_lizers_impl.py:37-46", "jsons/_lizers_impl.py:115-159", "jsons/_validation.py:29-49"]}
{"id": "C117", "title": "The order of the members of a union matters only if they disagree", "statement": "If the members of the unions in a type that accept (the part of) a document that is loaded as the union all make the same of it - in particular if only one of them accepts it - then the members can be listed in any order: load returns the same value for the reordered type, or fails for both; the unions may be nested in lists, tuples, keys and values of dicts and other unions, and may be in the hints of the parameters and attributes of classes. The same holds for dumping a value as a type with unions, nested in collections, tuples and other unions. Where members disagree, the order decides.", "quantifier": "All documents, all types with unions at any depth, all permutations of their members, all stack depths and options, all classes", "why_tests_cant": "A union has factorially many orders, and whether an order matters depends on what every member makes of every value that may occur.", "anchors": ["jsons/deserializers/default_union.py:9-30", "jsons/deserializers/default_object.py:17-117", "jsons/serializers/default_union.py:9-37", "jsons/serializers/default_list.py:10-48", "jsons/serializers/default_iterable.py:12-81", "jsons/serializers/default_tuple.py:10-28"]}
{"id": "C118", "title": "strip_attr only takes entries away", "statement": "If names are added to strip_attr, dump returns what it returned before, less the entries with these names, in the dumps of all objects at every depth; everything else, the order of the entries included, stays as it was. If dump raised an exception, it raises the same one. Entries of the program's own dicts, also those that have one of the names as a key, stay.", "quantifier": "All values, all classes, all names, all stack depths, all combinations of the other strip options", "why_tests_cant": "A statement about pairs of runs on values of any depth; a test shows one object with one attribute left out, not that nothing else changes, e.g. in a union, a list or an attribute that comes later.", "anchors": ["jsons/serializers/default_object.py:60-97", "jsons/serializers/default_object.py:116-159", "jsons/serializers/default_object.py:162-246"]}
{"id": "C119", "title": "A changed attribute shows only in its own entry", "statement": "Values that differ only in attributes of objects, at whatever depth, with certain names - other values, or present in one and missing in the other - have dumps that differ only in the entries with these names: leaving out these entries gives the same result, or both calls raise the same exception.", "quantifier": "All pairs of values that differ only in attributes with the given names, all classes, all names, all stack depths, all combinations of the strip options", "why_tests_cant": "A statement about pairs of runs on all pairs of values; a test compares the dump of one object with an expected one and does not see what else a change would have moved.", "anchors": ["jsons/serializers/default_object.py:60-97", "jsons/serializers/default_object.py:116-159", "jsons/serializers/default_object.py:162-246"]}
{"id": "C120", "title": "A hint can be widened without making stored documents useless", "statement": "If the hints of classes and the type that is given to load become wider - a type becomes Optional or a union, a union gets further members, at whatever depth of the types - then the new program loads what the old program could load, and to the same value, as long as the members that are listed before the right one refuse the document in question.", "quantifier": "All documents, all pairs of programs that differ in hints, all types, all options, all stacks that are deep enough", "why_tests_cant": "A statement about pairs of programs and all documents that were ever stored; tests exercise one program with documents that its author thought of.", "anchors": ["jsons/deserializers/default_union.py:9-30", "jsons/deserializers/default_object.py:17-200", "jsons/_load_impl.py:22-125", "jsons/deserializers/default_list.py:11-69", "jsons/deserializers/default_tuple.py:12-88"]}
{"id": "C121", "title": "Hints that fit do not change what is dumped", "statement": "Outside strict mode, hints that the values of the attributes fit do not change dump: two programs of which the classes differ only in their hints (one of them may have none at all) dump a value to the same result if the hints of both fit, whatever objects with annotated attributes are nested in the value.", "quantifier": "All values, all pairs of programs that differ in the hints of their classes, all strip options and key transformers, all stacks that are deep enough", "why_tests_cant": "A statement about pairs of programs and values that are nested without bound; tests exercise one program with the hints that it happens to have.", "anchors": ["jsons/serializers/default_object.py:86-147", "jsons/serializers/default_object.py:186-246", "jsons/_dump_impl.py:16-66"]}
{"id": "C122", "title": "The parameters of constructors can be reordered", "statement": "Changing the order of the parameters of constructors does not change what load returns: a document is loaded to the same value by both programs, or by neither, whatever objects are nested in it.", "quantifier": "All documents and types with objects nested in any way, all pairs of programs that differ in the order of parameters, all stacks", "why_tests_cant": "A statement about pairs of programs and documents that are nested without bound; tests exercise one program with one order of the parameters.", "anchors": ["jsons/deserializers/default_object.py:17-75", "jsons/deserializers/default_object.py:82-141"]}
{"id": "C123", "title": "An enum can get more members without making stored documents useless", "statement": "If enums get members after the ones they had, documents that could be loaded are loaded to the same values, and values are dumped to the same documents, whatever collections and objects the enums are nested in, by name and by value.", "quantifier": "All documents and types with enums nested in any way, all pairs of programs that differ in new members of enums, all settings of use_enum_name", "why_tests_cant": "A statement about pairs of programs and documents that are nested without bound; tests exercise one enum of one program.", "anchors": ["jsons/deserializers/default_enum.py:5-32", "jsons/serializers/default_enum.py:4-18"]}
