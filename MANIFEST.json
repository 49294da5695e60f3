{
 "claims": [
  {
   "property": "C01",
   "status": "proved",
   "theorems": [
    "Verif.Props.KeyTransformers.camelcase_fails_iff",
    "Verif.Props.KeyTransformers.camelcase_returns_iff",
    "Verif.Props.KeyTransformers.pascalcase_fails_iff",
    "Verif.Props.KeyTransformers.snakecase_fails_iff",
    "Verif.Props.KeyTransformers.lispcase_fails_iff"
   ],
   "note": "Upper/lower case is ASCII case in the model."
  },
  {
   "property": "C02",
   "status": "proved",
   "theorems": [
    "Verif.Props.KeyTransformers.camelcase_idempotent",
    "Verif.Props.KeyTransformers.pascalcase_idempotent",
    "Verif.Props.KeyTransformers.snakecase_idempotent",
    "Verif.Props.KeyTransformers.lispcase_idempotent"
   ],
   "note": "Upper/lower case is ASCII case in the model."
  },
  {
   "property": "C03",
   "status": "proved",
   "theorems": [
    "Verif.Props.KeyTransformers.snakecase_style",
    "Verif.Props.KeyTransformers.lispcase_style",
    "Verif.Props.KeyTransformers.camelcase_style",
    "Verif.Props.KeyTransformers.pascalcase_style",
    "Verif.Props.KeyTransformers.letters_survive"
   ],
   "note": "Upper/lower case is ASCII case in the model."
  },
  {
   "property": "C04",
   "status": "proved",
   "theorems": [
    "Verif.Props.KeyTransformers.snakecase_camelcase",
    "Verif.Props.KeyTransformers.snakecase_pascalcase",
    "Verif.Props.KeyTransformers.camelcase_injective",
    "Verif.Props.KeyTransformers.pascalcase_injective"
   ],
   "note": "Upper/lower case is ASCII case in the model."
  },
  {
   "property": "C05",
   "status": "proved",
   "theorems": [
    "Verif.Props.KeyTransformers.pascalcase_camelcase",
    "Verif.Props.KeyTransformers.camelcase_pascalcase",
    "Verif.Props.KeyTransformers.snakecase_lispcase",
    "Verif.Props.KeyTransformers.lispcase_snakecase"
   ],
   "note": "Upper/lower case is ASCII case in the model."
  },
  {
   "property": "C06",
   "status": "proved",
   "theorems": [
    "Verif.Props.Multitask.slices_partition"
   ],
   "note": "Length below 2^53 (float division in the code is modelled with rounding)."
  },
  {
   "property": "C07",
   "status": "proved",
   "theorems": [
    "Verif.Props.Multitask.multiTask_eq_map",
    "Verif.Props.Multitask.multiTask_completes",
    "Verif.Props.Multitask.multiTask_terminates",
    "Verif.Props.Multitask.parallel_load_eq_sequential",
    "Verif.Props.Multitask.parallel_dump_eq_sequential",
    "Verif.Props.Multitask.nested_parallel_eq_sequential"
   ],
   "note": "Any interleaving of the steps of the tasks. The element function is assumed not to depend on the number of tasks it is given; for nested lists this is proved."
  },
  {
   "property": "C08",
   "status": "partial",
   "theorems": [
    "Verif.Props.Multitask.failing_element_reported_false",
    "Verif.Props.Multitask.parallel_never_raises",
    "Verif.Props.Multitask.failing_element_leaves_zero_partial"
   ],
   "note": "False of the code: negation proved with a witness. What holds: the failing element and the rest of its slice are 0, everything before it is right."
  },
  {
   "property": "C09",
   "status": "partial",
   "theorems": [
    "Verif.Props.Multitask.parallel_empty_fails",
    "Verif.Props.Multitask.parallel_dump_empty_fails",
    "Verif.Props.Multitask.nested_empty_lost",
    "Verif.Props.Multitask.parallel_accepts_partial"
   ],
   "note": "False of the code for the empty list (ZeroDivisionError, and an inner empty list silently becomes 0). Proved for non-empty lists."
  },
  {
   "property": "C10",
   "status": "partial",
   "theorems": [
    "Verif.Props.Datetime.datetime_roundtrip_iff",
    "Verif.Props.Datetime.datetime_roundtrip_partial",
    "Verif.Props.Datetime.datetime_roundtrip_stripped_partial",
    "Verif.Props.Datetime.datetime_roundtrip_false",
    "Verif.Props.Times.datetime_dump_load_iff"
   ],
   "note": "False of the code for negative offsets with minutes other than 00/30 and for offsets with seconds (exact characterisation and witness); years below 1000 only where strftime pads. Also stated of dump and load themselves, with any options."
  },
  {
   "property": "C11",
   "status": "partial",
   "theorems": [
    "Verif.Props.Datetime.offset_text_right_iff",
    "Verif.Props.Datetime.offset_text_right_partial",
    "Verif.Props.Datetime.offset_text_wrong"
   ],
   "note": "False of the code; the iff says for exactly which offsets the text is right."
  },
  {
   "property": "C12",
   "status": "proved",
   "theorems": [
    "Verif.Props.Datetime.datetime_shape",
    "Verif.Props.Datetime.datetime_shape_small_year",
    "Verif.Props.Times.datetime_dump_shape"
   ],
   "note": "For year >= 1000 or a padding C library; the second theorem shows the bound is needed. Also stated of dump and load themselves, with any options."
  },
  {
   "property": "C13",
   "status": "proved",
   "theorems": [
    "Verif.Props.Datetime.fraction_truncated",
    "Verif.Props.Datetime.fraction_value"
   ],
   "note": "Also says which microseconds the digits denote."
  },
  {
   "property": "C14",
   "status": "partial",
   "theorems": [
    "Verif.Props.Datetime.date_roundtrip_iff",
    "Verif.Props.Datetime.date_roundtrip_partial",
    "Verif.Props.Times.date_dump_load_iff"
   ],
   "note": "Fails exactly for years below 1000 where strftime does not pad %Y (glibc). Also stated of dump and load themselves, with any options."
  },
  {
   "property": "C15",
   "status": "partial",
   "theorems": [
    "Verif.Props.Datetime.time_roundtrip_iff",
    "Verif.Props.Datetime.time_roundtrip_partial",
    "Verif.Props.Datetime.time_roundtrip_false",
    "Verif.Props.Times.time_dump_load_iff"
   ],
   "note": "False of the code for times with microseconds or a time zone; exact characterisation. Also stated of dump and load themselves, with any options."
  },
  {
   "property": "C16",
   "status": "proved",
   "theorems": [
    "Verif.Props.Datetime.loaded_datetime_valid",
    "Verif.Props.Datetime.loaded_date_valid",
    "Verif.Props.Datetime.loaded_time_valid",
    "Verif.Props.Times.load_datetime_valid",
    "Verif.Props.Times.load_date_valid",
    "Verif.Props.Times.load_time_valid"
   ],
   "note": "For every string. Also stated of dump and load themselves, with any options."
  },
  {
   "property": "C17",
   "status": "proved",
   "theorems": [
    "Verif.Props.Timedelta.timedelta_roundtrip",
    "Verif.Props.Timedelta.timedelta_order",
    "Verif.Props.Timedelta.timedelta_whole_seconds"
   ],
   "note": "For every float rounding with the accuracy of IEEE doubles."
  },
  {
   "property": "C18",
   "status": "proved",
   "theorems": [
    "Verif.Props.Registry.registered_function_used"
   ],
   "note": "For serializers and deserializers, any history of registrations, forks and derived classes before and after."
  },
  {
   "property": "C19",
   "status": "proved",
   "theorems": [
    "Verif.Props.Registry.lookup_follows_registrations",
    "Verif.Props.Registry.validator_lookup_follows_registrations"
   ],
   "note": "Refinement: lookup after any history equals the dispatch rule applied to the list of registrations the holder sees (own name, last high-priority superclass, first low-priority superclass, NewType supertype)."
  },
  {
   "property": "C20",
   "status": "proved",
   "theorems": [
    "Verif.Props.Registry.lookup_never_fails",
    "Verif.Props.Registry.validator_lookup_never_fails"
   ],
   "note": "Serializers, deserializers and validators."
  },
  {
   "property": "C21",
   "status": "partial",
   "theorems": [
    "Verif.Props.Registry.registrations_interfere",
    "Verif.Props.Registry.registrations_do_not_interfere_partial"
   ],
   "note": "False of the code for classes whose qualified names differ in case only (witness); holds for all others."
  },
  {
   "property": "C22",
   "status": "proved",
   "theorems": [
    "Verif.Props.Registry.fork_isolated",
    "Verif.Props.Registry.fork_starts_as_copy"
   ],
   "note": "Any history over any number of forks and derived classes."
  },
  {
   "property": "C23",
   "status": "partial",
   "theorems": [
    "Verif.Props.Registry.fork_not_isolated_validators",
    "Verif.Props.Registry.validators_are_global_partial",
    "Verif.Props.Registry.validators_do_not_touch_lizers_partial"
   ],
   "note": "False of the code (witness): fork copies neither validators nor announced classes; all forks share one table of each."
  },
  {
   "property": "C24",
   "status": "proved",
   "theorems": [
    "Verif.Props.Registry.warnings_isolated",
    "Verif.Props.Registry.fork_inherits_warnings"
   ],
   "note": "Any history."
  },
  {
   "property": "C25",
   "status": "proved",
   "theorems": [
    "Verif.Props.Registry.suppressed_code_never_emitted",
    "Verif.Props.Registry.suppressed_all_never_emitted"
   ],
   "note": ""
  },
  {
   "property": "C26",
   "status": "partial",
   "theorems": [
    "Verif.Props.Registry.announced_class_found_partial",
    "Verif.Props.Cache.announce_again_ignored",
    "Verif.Props.Cache.announce_takes_effect_partial"
   ],
   "note": "False of the code when a name is announced for A, then B, then A again without the cache being cleared (announce_class is cached). Otherwise proved for names that are neither builtin, importable nor bracketed."
  },
  {
   "property": "C27",
   "status": "proved",
   "theorems": [
    "Verif.Props.Cache.cache_bounded",
    "Verif.Props.Cache.built_dump",
    "Verif.Props.Cache.built_load"
   ],
   "note": "For every computation made of cached calls, registrations, clear, sequencing and exception handling; dump and load are such computations."
  },
  {
   "property": "C28",
   "status": "partial",
   "theorems": [
    "Verif.Props.Cache.cache_transparent_partial",
    "Verif.Props.Cache.cache_stale",
    "Verif.Props.Cache.cache_confuses_unions"
   ],
   "note": "False of the code: registrations after a lookup without clear in between are not seen; Union[int, str] and Union[str, int] share an entry. Proved for all histories without these two."
  },
  {
   "property": "C29",
   "status": "partial",
   "theorems": [
    "Verif.Props.Cache.cache_empty_after_dump",
    "Verif.Props.Cache.cache_not_empty_after_load",
    "Verif.Props.Cache.cache_empty_after_load_partial"
   ],
   "note": "Proved for dump; false for load on the exits before a deserializer is called (witness, which also breaks C62)."
  },
  {
   "property": "C30",
   "status": "partial",
   "theorems": [
    "Verif.Props.DumpShape.dump_json_partial",
    "Verif.Props.DumpShape.dump_json_fails_enum",
    "Verif.Props.DumpShape.dump_json_fails_union"
   ],
   "note": "Proved under the condition that no enum value / `.name` attribute that is taken raw is itself not JSON; the two `fails` theorems show that the condition is needed (use_enum_name=False; Union[Enum, cls])."
  },
  {
   "property": "C31",
   "status": "proved",
   "theorems": [
    "Verif.Props.DumpCollections.dump_json_id"
   ],
   "note": "Every JSON value of any depth, with enough stack; also keys that are int, float, bool or None. No key transformer, strip_nulls or strict."
  },
  {
   "property": "C32",
   "status": "proved",
   "theorems": [
    "Verif.Props.DumpShape.dump_raises_only_serializationError"
   ],
   "note": "For any values, options, custom serializers and properties, and any stack depth; the registry must be one that the public API can produce (TableOk)."
  },
  {
   "property": "C33",
   "status": "partial",
   "theorems": [
    "Verif.Props.RoundTrip.round_trip_partial",
    "Verif.Props.RoundTrip.round_trip_fails_naive",
    "Verif.Props.RoundTrip.round_trip_fails_union",
    "Verif.Props.RoundTrip.round_trip_fails_union_list",
    "Verif.Props.RoundTrip.round_trip_fails_union_class",
    "Verif.Props.RoundTrip.round_trip_fails_keys",
    "Verif.Props.RoundTrip.round_trip_fails_name"
   ],
   "note": "Proved by induction for the whole grammar (with named tuples, defaultdicts, complex numbers, times, ZoneInfo, True and False as int, tuples that are too short for their type, and unions whose members before the type of the value are shown to be harmless: NoneType, int/float for other texts and collections, datetimes, timedelta, enums, lists for numbers, dicts for what is no dict, classes that need another attribute), for dump with or without cls and for load strict or not. Missing because false: naive datetimes, offsets that are written wrongly (C11), unpadded years, times with microseconds or a time zone (C15), timezones (C71), dicts with the keys -keys or -meta, None for Optional of a class whose name contains union or optional, unions of which an earlier member accepts the dump (three negations proved). Datetimes come back with a time zone of the same offset."
  },
  {
   "property": "C34",
   "status": "partial",
   "theorems": [
    "Verif.Props.LoadMeta.load_raises_jsonsError_partial",
    "Verif.Props.LoadMeta.load_raises_keyError",
    "Verif.Props.LoadMeta.load_raises_typeError"
   ],
   "note": "Every exception is a JsonsError, whatever custom functions, constructors and validators do, if the input's own '-meta' is well-formed. False for malformed '-meta': KeyError and TypeError escape (proved for all such inputs)."
  },
  {
   "property": "C35",
   "status": "partial",
   "theorems": [
    "Verif.Props.LoadTypes.load_fits_partial",
    "Verif.Props.LoadTypes.constructor_arguments_fit",
    "Verif.Props.LoadTypes.load_fits_fails_meta",
    "Verif.Props.LoadTypes.load_fits_fails_short",
    "Verif.Props.LoadTypes.load_fits_fails_newtype"
   ],
   "note": "Proved by induction for all inputs without '-meta' and '-keys' and all types of the grammar; tuples may be too short. Negations: '-meta' inside lists, short tuples, NewType of str."
  },
  {
   "property": "C36",
   "status": "partial",
   "theorems": [
    "Verif.Props.LoadBasics.none_refused_partial",
    "Verif.Props.LoadBasics.none_refused_fails",
    "Verif.Props.LoadBasics.none_accepted"
   ],
   "note": "For every environment, depth and keyword arguments. False for classes and NewTypes whose name contains 'union' or 'optional' (a raw TypeError, none_refused_fails); the partial excludes these names and bare Union/Optional."
  },
  {
   "property": "C37",
   "status": "proved",
   "theorems": [
    "Verif.Props.LoadBasics.exact_type"
   ],
   "note": "For every input and fork; the validator of the class is applied first."
  },
  {
   "property": "C38",
   "status": "partial",
   "theorems": [
    "Verif.Props.LoadBasics.union_load_partial",
    "Verif.Props.LoadBasics.union_load_fails_none",
    "Verif.Props.LoadInput.load_as_function",
    "Verif.Props.LoadInput.union_load_fails_stored_keys"
   ],
   "note": "Proved for inputs other than None as a statement about load as a function of values, which is the program for inputs without stored keys (load_as_function). False for None with a member Any (union_load_fails_none), and false for a dict with stored keys that a failing member has deleted (union_load_fails_stored_keys)."
  },
  {
   "property": "C39",
   "status": "proved",
   "theorems": [
    "Verif.Props.DumpCollections.union_dump",
    "Verif.Props.DumpCollections.union_dump_error"
   ],
   "note": "Both directions (which result, and that there is an error if no member fits)."
  },
  {
   "property": "C40",
   "status": "partial",
   "theorems": [
    "Verif.Props.DumpCollections.optional_dump_partial",
    "Verif.Props.DumpCollections.union_dump_changes_kind"
   ],
   "note": "False: dump(2.5, Union[int, float]) is 2. Proved for Optional[T]."
  },
  {
   "property": "C41",
   "status": "proved",
   "theorems": [
    "Verif.Props.LoadCollections.list_load",
    "Verif.Props.LoadCollections.list_load_error"
   ],
   "note": "For every iterable JSON input without '-meta', every element type, every environment with the default deserializers."
  },
  {
   "property": "C42",
   "status": "partial",
   "theorems": [
    "Verif.Props.LoadCollections.warn_on_fail_partial",
    "Verif.Props.LoadCollections.warn_on_fail_fails"
   ],
   "note": "Exact result and exact warnings. False if an element is refused by a validator: the ValidationError escapes."
  },
  {
   "property": "C43",
   "status": "partial",
   "theorems": [
    "Verif.Props.LoadCollections.tuple_load_partial",
    "Verif.Props.LoadCollections.tuple_load_short",
    "Verif.Props.LoadCollections.tuple_load_long",
    "Verif.Props.LoadCollections.tuple_ellipsis_load"
   ],
   "note": "Elementwise and too long inputs refused, for all types and inputs. False for inputs that are too short: they are accepted (tuple_load_short)."
  },
  {
   "property": "C44",
   "status": "partial",
   "theorems": [
    "Verif.Props.LoadCollections.namedtuple_from_list",
    "Verif.Props.LoadCollections.namedtuple_dict_like_list",
    "Verif.Props.LoadCollections.namedtuple_unfulfilled",
    "Verif.Props.LoadCollections.namedtuple_dict_fails"
   ],
   "note": "Lists and tuples completely; a dict with the first fields loads like the list. False for a dict without a field that is not a trailing one: DeserializationError instead of the default or UnfulfilledArgumentError."
  },
  {
   "property": "C45",
   "status": "partial",
   "theorems": [
    "Verif.Props.LoadCollections.dict_load_partial",
    "Verif.Props.LoadCollections.dict_load_fails"
   ],
   "note": "For all dicts without the keys '-keys' and '-meta'. False with '-keys' (dict_load_fails)."
  },
  {
   "property": "C46",
   "status": "partial",
   "theorems": [
    "Verif.Props.HashedKeys.hashed_keys_partial",
    "Verif.Props.HashedKeys.hashed_keys_collide",
    "Verif.Props.HashedKeys.hashed_keys_complex",
    "Verif.Props.HashedKeys.hashed_keys_transformer",
    "Verif.Props.HashedKeys.hashed_keys_mixed"
   ],
   "note": "Proved: every non-empty dict whose keys are tuples, frozensets, objects, named tuples or complex numbers with an imaginary part, with pairwise different hashes, is dumped to exactly the dict of dumped values under the hashes plus '-keys' with the dumped keys, and load with Dict[K, V] gives the same entries, for every order in which the stored keys are visited. False: with equal hashes ((-1,) and (-2,)) an entry is lost; complex keys without imaginary part are deleted with their hash; in a mixed dict the keys that are not hashed are not loaded; with a key transformer the dump of every dict with such a key fails (proved for all of them)."
  },
  {
   "property": "C47",
   "status": "partial",
   "theorems": [
    "Verif.Props.LoadInput.load_input_kept_partial",
    "Verif.Props.LoadInput.load_changes_only_stored_keys",
    "Verif.Props.LoadInput.load_as_function",
    "Verif.Props.LoadInput.load_input_changed"
   ],
   "note": "Proved for every input in which no dict has a '-keys' entry with something in it; for all other inputs nothing but the content of such entries changes. False for a dict with stored keys (load_input_changed): they are deleted from the input and the second load fails. Custom deserializers are taken to leave the input alone."
  },
  {
   "property": "C48",
   "status": "partial",
   "theorems": [
    "Verif.Props.LoadObject.constructor_arguments",
    "Verif.Props.LoadObject.constructor_unfulfilled_partial",
    "Verif.Props.LoadObject.constructor_unfulfilled_fails",
    "Verif.Props.LoadObject.object_load"
   ],
   "note": "Proved for every class, input, key transformer and '-meta' section, except that the error for a missing argument needs a hint whose class is not called like a Union (constructor_unfulfilled_fails)."
  },
  {
   "property": "C49",
   "status": "proved",
   "theorems": [
    "Verif.Props.LoadObject.strict_rejects_unknown",
    "Verif.Props.LoadObject.strict_accepts_known"
   ],
   "note": "A dict with an unknown key is never loaded; the error names the first unknown key once all arguments could be loaded. Without unknown keys strict mode loads the object."
  },
  {
   "property": "C50",
   "status": "proved",
   "theorems": [
    "Verif.Props.LoadObject.remaining_attributes"
   ],
   "note": "For every class whose setattr sets exactly the given attribute or raises; without validators."
  },
  {
   "property": "C51",
   "status": "proved",
   "theorems": [
    "Verif.Props.LoadObject.getters_have_the_last_word"
   ],
   "note": "For every class whose setattr sets exactly the given attribute or raises."
  },
  {
   "property": "C52",
   "status": "proved",
   "theorems": [
    "Verif.Props.DumpObject.object_dump_selected"
   ],
   "note": "Selection stated declaratively (Selected), entries in both directions, one entry per name. Classes of the library attrs, whose keys lose leading underscores, and members whose source cannot be found are excluded."
  },
  {
   "property": "C53",
   "status": "partial",
   "theorems": [
    "Verif.Props.DumpShape.strip_nulls_partial",
    "Verif.Props.DumpShape.strip_nulls_fails_namedtuple",
    "Verif.Props.DumpShape.strip_nulls_fails_verbose"
   ],
   "note": "False for named tuples and for the class names in -meta; proved for everything else."
  },
  {
   "property": "C54",
   "status": "partial",
   "theorems": [
    "Verif.Props.DumpShape.key_transformer_partial",
    "Verif.Props.DumpShape.key_transformer_fails"
   ],
   "note": "Proved that each key is an image of the transformer or one of the keys that jsons writes itself; false for complex numbers and named tuples."
  },
  {
   "property": "C55",
   "status": "partial",
   "theorems": [
    "Verif.Props.DumpObject.failing_attribute_partial",
    "Verif.Props.DumpObject.failing_attribute_drops_others"
   ],
   "note": "False: the loop ends at the first failing attribute. Proved: exactly the attributes before it in alphabetical order are kept, and a warning is emitted."
  },
  {
   "property": "C56",
   "status": "proved",
   "theorems": [
    "Verif.Props.DumpObject.strict_reports_failing"
   ],
   "note": ""
  },
  {
   "property": "C57",
   "status": "proved",
   "theorems": [
    "Verif.Props.DumpObject.strict_cls_keys"
   ],
   "note": "For any value; attrs classes lose leading underscores."
  },
  {
   "property": "C58",
   "status": "partial",
   "theorems": [
    "Verif.Props.DumpCollections.strict_list_partial",
    "Verif.Props.DumpCollections.strict_list_homogeneous",
    "Verif.Props.DumpCollections.strict_list_changes_values"
   ],
   "note": "False: elements are dumped as the class of the first one. Proved: exactly that, and identity for lists of one primitive class."
  },
  {
   "property": "C59",
   "status": "partial",
   "theorems": [
    "Verif.Props.DumpVerbose.verbose_dump_partial",
    "Verif.Props.VerboseStyled.verbose_styled_partial",
    "Verif.Props.DumpVerbose.verbose_list_dump",
    "Verif.Props.DumpVerbose.objects_in_dicts_unnamed",
    "Verif.Props.DumpVerbose.objects_in_named_tuples_unnamed",
    "Verif.Props.DumpVerbose.verbose_dump_fails_key"
   ],
   "note": "Proved: for every object tree (attributes that are objects, with no hint, a class hint or an Optional hint, and leaves dumped without objects) the dump with class info is the plain dump followed by a '-meta' section in which every nested object is found under its path with its class name and which lists nothing else than paths of nested dicts, each once; no '-cls' is left; elements of lists are dumped by themselves with their own '-meta'. False (proved by witnesses): objects in dicts and named tuples are listed with class None; a dict under a key that is not a text makes the verbose dump fail. With key transformers, strip_nulls and strict (verbose_styled_partial) the same holds for the dump with these options, the paths being those of the new keys. Missing: objects as attributes with a hint in strict mode."
  },
  {
   "property": "C60",
   "status": "partial",
   "theorems": [
    "Verif.Props.VerboseRoundTrip.verbose_round_trip_partial",
    "Verif.Props.VerboseRoundTrip.verbose_round_trip_fails",
    "Verif.Props.VerboseRoundTrip.verbose_round_trip_raises",
    "Verif.Props.VerboseRoundTrip.verbose_round_trip_fails_list",
    "Verif.Props.VerboseCollections.verbose_collection_partial",
    "Verif.Props.VerboseCollections.verbose_collection_fails",
    "Verif.Props.VerboseStyled.verbose_round_trip_fails_keys",
    "Verif.Props.VerboseLists.verbose_lists_partial",
    "Verif.Props.VerboseLists.verbose_lists_fails_bare",
    "Verif.Props.VerboseLists.verbose_lists_fails_dict"
   ],
   "note": "Proved: every object tree of classes whose constructors store their parameters, dumped with class info, loads without a class to the same tree with the same classes, if no object below one attribute has an attribute with the name of an object sibling (Apart); and so does every list or dict (nested in any way) of such objects without objects as attributes. False in general (proved by witnesses): with equal names on different levels a nested object is loaded as an instance of the wrong class or the load fails; an object inside an object inside a list is loaded as a dict, also if the list is the document itself. With a key transformer it is false (verbose_round_trip_fails_keys): the paths in '-meta' are those of the new names, and load renames '-meta' itself, so that nested objects stay dicts and there is a further attribute. Objects with lists of objects as attributes, to any depth, come back with all classes even if the attribute is hinted as a list of a base class (verbose_lists_partial); false if it is hinted as a bare list (the elements stay dicts with '-meta') and for dicts of objects as attributes. Missing: dumps in strict mode (loads in strict mode are covered); objects that have both objects and lists of objects as attributes."
  },
  {
   "property": "C61",
   "status": "partial",
   "theorems": [
    "Verif.Props.LoadMeta.explicit_class_used",
    "Verif.Props.LoadMeta.meta_class_used",
    "Verif.Props.LoadMeta.type_of_input_used",
    "Verif.Props.LoadMeta.meta_beats_inferred_partial",
    "Verif.Props.LoadMeta.meta_beats_inferred_fails"
   ],
   "note": "Three of the four cases for all inputs; the inferred class is overridden for the elements of lists (proved), not for values of dicts and elements of tuples (negation)."
  },
  {
   "property": "C62",
   "status": "proved",
   "theorems": [
    "Verif.Props.LoadBasics.validator_guards",
    "Verif.Props.LoadBasics.validator_refuses"
   ],
   "note": "For arbitrary validators and deserializers, both on the exact-type path and through a deserializer. The stale lookup through the cache is C28/C29."
  },
  {
   "property": "C63",
   "status": "proved",
   "theorems": [
    "Verif.Props.LoadBasics.text_is_datetime_only_unasked"
   ],
   "note": "With the datetime parser of Verif.Datetime."
  },
  {
   "property": "C64",
   "status": "partial",
   "theorems": [
    "Verif.Props.LoadBasics.enum_round_trip_partial",
    "Verif.Props.LoadBasics.enum_round_trip_fails"
   ],
   "note": "Proved for enums whose values are JSON primitives and that are well-formed. False for a member with the value None and use_enum_name=False."
  },
  {
   "property": "C65",
   "status": "partial",
   "theorems": [
    "Verif.Props.Decorators.decorated_call_partial",
    "Verif.Props.Decorators.decorated_coroutine_partial",
    "Verif.Props.Decorators.parameters_off",
    "Verif.Props.Decorators.returnvalue_off_partial",
    "Verif.Props.Decorators.both_off",
    "Verif.Props.Decorators.function_error",
    "Verif.Props.Decorators.decorated_fails_star",
    "Verif.Props.Decorators.decorated_fails_star_key",
    "Verif.Props.Decorators.decorated_fails_private",
    "Verif.Props.Decorators.both_off_coroutine"
   ],
   "note": "Proved for all functions (also coroutine functions), all decorator options and all positional arguments that are given for positional parameters. False for *args (IndexError, or the annotation of a keyword-only parameter) and for private methods (self gets converted): decorated_fails_*."
  },
  {
   "property": "C66",
   "status": "proved",
   "theorems": [
    "Verif.Props.Functions.transform_ok",
    "Verif.Props.Functions.transform_error",
    "Verif.Props.Functions.transform_log",
    "Verif.Props.Functions.transform_without_mapper",
    "Verif.Props.Functions.transform_copies_partial",
    "Verif.Props.Functions.transform_raises_jsonsError"
   ],
   "note": "Result, exceptions and warnings of transform are those of dump, mapper, load. transform_copies_partial is limited to the types of C33 (round trip)."
  },
  {
   "property": "C67",
   "status": "proved",
   "theorems": [
    "Verif.Props.Functions.loads_valid",
    "Verif.Props.Functions.loads_invalid",
    "Verif.Props.Functions.loads_dumps",
    "Verif.Props.Functions.dumpb_dumps",
    "Verif.Props.Functions.loadb_utf8",
    "Verif.Props.Functions.loadb_dumpb",
    "Verif.Props.Functions.text_changes_nothing",
    "Verif.Props.Functions.dumps_json",
    "Verif.Props.Functions.dumps_error",
    "Verif.Props.Functions.loadb_not_bytes",
    "Verif.Props.Functions.loadb_fails_undecodable",
    "Verif.Api.jsonLoads_iff"
   ],
   "note": "json.dumps/json.loads are modelled on characters and proved against the RFC 8259 grammar. Additional finding (loadb_fails_undecodable): bytes that are not UTF-8 raise a bare UnicodeDecodeError. NaN/Infinity, lone surrogates and jdkwargs are not modelled."
  },
  {
   "property": "C68",
   "status": "partial",
   "theorems": [
    "Verif.Props.JsonSerializable.dump_plain",
    "Verif.Props.JsonSerializable.json_plain",
    "Verif.Props.JsonSerializable.with_dump_partial",
    "Verif.Props.JsonSerializable.with_dump_json_partial",
    "Verif.Props.JsonSerializable.dumps_method",
    "Verif.Props.JsonSerializable.fork_given_twice",
    "Verif.Props.JsonSerializable.load_method",
    "Verif.Props.JsonSerializable.loads_method",
    "Verif.Props.JsonSerializable.with_dump_scope",
    "Verif.Props.JsonSerializable.with_load_scope",
    "Verif.Props.JsonSerializable.fork_changes_nothing",
    "Verif.Props.JsonSerializable.with_dump_fork",
    "Verif.Props.JsonSerializable.with_load_fork",
    "Verif.Props.JsonSerializable.subclass_inherits",
    "Verif.Props.JsonSerializable.with_dump_fails_fork",
    "Verif.Props.JsonSerializable.str_fails_with_dump",
    "Verif.Props.JsonSerializable.loads_fails_with_load"
   ],
   "note": "Proved for all histories and all keyword arguments. False after with_dump: the class is not used as the fork (with_dump_fails_fork). with_dump and with_load do not apply to texts (str_fails_with_dump, loads_fails_with_load)."
  },
  {
   "property": "C69",
   "status": "proved",
   "theorems": [
    "Verif.Api.verbosity_contains",
    "Verif.Api.verbosity_contains_all",
    "Verif.Api.verbosity_eq",
    "Verif.Api.verbosity_asked",
    "Verif.Api.verbosity_from_value"
   ],
   "note": "Flags 10/20 as Python ints; from_value as in the code."
  },
  {
   "property": "C70",
   "status": "proved",
   "theorems": [
    "Verif.Props.DumpShape.dump_raises_only_serializationError",
    "Verif.Props.DumpShape.dump_self_reference"
   ],
   "note": "The stack is modelled as a bound on nested calls. A call beyond it is a RecursionError, which dump turns into SerializationError or which ends the nesting with a warning."
  },
  {
   "property": "C71",
   "status": "partial",
   "theorems": [
    "Verif.Props.Timezones.timezone_round_trip_partial",
    "Verif.Props.Timezones.timezones_round_trip_partial",
    "Verif.Props.Timezones.timezone_same_dump",
    "Verif.Props.Timezones.hinted_timezone_lost",
    "Verif.Props.DumpCollections.timezone_dump_partial",
    "Verif.Props.DumpCollections.timezone_with_cls_fails"
   ],
   "note": "False with a class or hint: the dump always fails, and a hinted attribute is lost. Without a class, every timezone, alone or in a list, comes back with its offset and name."
  },
  {
   "property": "C72",
   "status": "partial",
   "theorems": [
    "Verif.Props.Multitask.parallel_fork_ignored",
    "Verif.Props.Multitask.parallel_fork_partial"
   ],
   "note": "False of the code: the parallel branch of list loading does not pass fork_inst on. Negation proved; holds when the fork makes no difference."
  },
  {
   "property": "C73",
   "status": "partial",
   "theorems": [
    "Verif.Props.Datetime.naive_written_as_utc",
    "Verif.Props.Datetime.naive_roundtrip_partial",
    "Verif.Props.Times.naive_dump",
    "Verif.Props.Times.naive_dump_load_partial"
   ],
   "note": "False of the code: the offset written is always +00:00 because timezone.utc is a class attribute; right only if the local zone is UTC. Also stated of dump and load themselves, with any options and with the warning."
  },
  {
   "property": "C74",
   "status": "partial",
   "theorems": [
    "Verif.Props.DumpObject.strip_attr_partial",
    "Verif.Props.DumpObject.strip_attr_list_fails",
    "Verif.Props.DumpObject.strip_attr_set_ignored"
   ],
   "note": "False: lists make every dump fail, sets are ignored. Proved for names and tuples."
  },
  {
   "property": "C75",
   "status": "partial",
   "theorems": [
    "Verif.Props.DumpCollections.collection_dump_partial",
    "Verif.Props.DumpCollections.strict_deque_fails",
    "Verif.Props.StrictTuples.strict_tuple_untyped",
    "Verif.Props.StrictTuples.strict_tuple_changes_values"
   ],
   "note": "False: a non-empty deque can never be dumped in strict mode, and the elements of a tuple are converted to the type of the first one there (exact). Proved for sets and frozensets in both modes and for all in the default mode."
  },
  {
   "property": "C76",
   "status": "proved",
   "theorems": [
    "Verif.Props.DumpShape.default_dispatch",
    "Verif.Props.DumpShape.default_dispatch_collision"
   ],
   "note": "For all types; the second theorem shows that the condition on names is needed."
  },
  {
   "property": "C77",
   "status": "partial",
   "theorems": [
    "Verif.Props.Decorators.decoration_refused_partial",
    "Verif.Props.Decorators.decoration_warns",
    "Verif.Props.Decorators.mapper_refused",
    "Verif.Props.Decorators.function_decorated",
    "Verif.Props.Decorators.decoration_fails_classmethod"
   ],
   "note": "Proved for static methods, classes, functions and all mappers. False for class methods, which are accepted and then cannot be called: decoration_fails_classmethod."
  },
  {
   "property": "C78",
   "status": "proved",
   "theorems": [
    "Verif.Props.Functions.dumps_ascii"
   ],
   "note": "For every environment; jdkwargs (for example ensure_ascii=False) is not given, encoding is utf-8, and the text of a float is assumed to be a JSON number (FloatGrammar, with a demo instance)."
  },
  {
   "property": "C79",
   "status": "partial",
   "theorems": [
    "Verif.Props.TextRoundTrip.text_round_trip_partial",
    "Verif.Props.TextRoundTrip.text_round_trip_fails_bool",
    "Verif.Props.TextRoundTrip.text_round_trip_fails_none"
   ],
   "note": "Proved for the grammar of C33 with the keys that survive (strings, ints, True, floats that float() reads back). False for False as a key of Dict[bool, V] (comes back as True) and for None (refused); the negations are proved. Missing otherwise: what is missing for C33."
  },
  {
   "property": "C80",
   "status": "partial",
   "theorems": [
    "Verif.Props.LoadPlain.load_document_partial",
    "Verif.Props.LoadPlain.load_document_same",
    "Verif.Props.LoadPlain.load_document_fails_keys"
   ],
   "note": "Proved for every document without the keys '-meta' and '-keys', with or without a key transformer. False (proved by a witness): a document with the key '-keys' and something in it cannot be loaded; for '-meta' see C34 and C61."
  },
  {
   "property": "C81",
   "status": "partial",
   "theorems": [
    "Verif.Props.ClassNames.module_class_found",
    "Verif.Props.ClassNames.local_class_found_partial",
    "Verif.Props.ClassNames.nested_class_mistaken",
    "Verif.Props.ClassNames.nested_class_round_trip_fails"
   ],
   "note": "Proved: classes of modules and built-in classes are always found; other classes are found from their announcement until one with the same module and name is announced. False (proved): names are written without the enclosing class, so a class in another class is taken for the class of the module with the same name, and load(dump(obj, verbose)) is an object of that class."
  },
  {
   "property": "C82",
   "status": "proved",
   "theorems": [
    "Verif.Props.LoadDispatch.default_deserializer",
    "Verif.Props.LoadDispatch.default_deserializer_collision",
    "Verif.Props.LoadDispatch.newtype_of_newtype"
   ],
   "note": "For all types. The second theorem shows that the condition on names is needed, the third that nothing can be loaded as a NewType of a NewType."
  },
  {
   "property": "C83",
   "status": "partial",
   "theorems": [
    "Verif.Props.DumpStyle.dump_style_partial",
    "Verif.Props.DumpStyle.style_fails_namedtuple",
    "Verif.Props.DumpStyle.style_fails_key",
    "Verif.Props.DumpStyle.style_fails_collision",
    "Verif.Props.VerboseAdds.verbose_style_partial"
   ],
   "note": "Proved for all values and options, strict mode too; verbose dumps up to their '-meta' sections (verbose_style_partial). Except: named tuples with a None in them, keys that are not texts together with a transformer, and names that collide after renaming, where it is false (proved by witnesses); the '-meta' sections themselves."
  },
  {
   "property": "C84",
   "status": "partial",
   "theorems": [
    "Verif.Props.DumpTyped.dump_typed_partial",
    "Verif.Props.DumpTyped.dump_typed_same",
    "Verif.Props.DumpTyped.typed_fails_tuple",
    "Verif.Props.DumpTyped.typed_fails_tuple_attribute",
    "Verif.Props.DumpTyped.typed_fails_datetime",
    "Verif.Props.DumpTyped.typed_fails_intEnum",
    "Verif.Props.DumpTyped.typed_fails_union"
   ],
   "note": "Proved for own classes, superclasses of objects, dicts, tuples with arguments, named tuples, sets, deques, iterables, lists with elements that fit, NewTypes, Optional and unions whose earlier members refuse the value. False (proved): the bare class tuple always raises, so an attribute with this hint is lost with those after it; a datetime as a date; an IntEnum as an int; unions with an earlier member that takes the value."
  },
  {
   "property": "C85",
   "status": "partial",
   "theorems": [
    "Verif.Props.StrictTuples.strict_tuple_partial",
    "Verif.Props.StrictTuples.strict_collection",
    "Verif.Props.StrictTuples.strict_tuple_single"
   ],
   "note": "Exact for two or more types and for collections of one type. False (third theorem): Tuple[T] with one type is treated like Tuple[T, ...], so the number of elements is not checked."
  },
  {
   "property": "C86",
   "status": "partial",
   "theorems": [
    "Verif.Props.LoadRename.key_transformer_renames_partial",
    "Verif.Props.LoadRename.rename_fails_tuple",
    "Verif.Props.LoadRename.rename_fails_dict",
    "Verif.Props.LoadRename.rename_fails_complex",
    "Verif.Props.LoadRename.rename_fails_meta"
   ],
   "note": "False for objects in tuples (the transformer is not passed on), for dicts loaded as dict, for complex numbers and for '-meta' entries. Proved for all other documents, with default deserializers and without warn_on_fail."
  },
  {
   "property": "C87",
   "status": "partial",
   "theorems": [
    "Verif.Props.Forks.dump_depends_on_own_fork",
    "Verif.Props.Forks.dump_isolated",
    "Verif.Props.Forks.load_depends_on_own_fork_partial",
    "Verif.Props.Forks.load_isolated_partial",
    "Verif.Props.Forks.load_leaks"
   ],
   "note": "Proved for dump. False for load of complex and timezone, whose deserializers call load without fork_inst (load_leaks): the registrations of the main class count there. Proved for load otherwise: only the fork and the main class count, and only the fork where those two deserializers are not used. The program's own (de)serializers are assumed to pass on fork_inst. Multi-task loading is not part of it."
  },
  {
   "property": "C88",
   "status": "partial",
   "theorems": [
    "Verif.Props.Depth.load_stack_partial",
    "Verif.Props.Depth.load_stack_size_partial",
    "Verif.Props.Depth.load_stack_matters",
    "Verif.Props.Depth.load_endless",
    "Verif.Props.DumpDepth.dump_stack_partial",
    "Verif.Props.DumpDepth.dump_stack_size_partial",
    "Verif.Props.DumpDepth.dump_stack_matters",
    "Verif.Props.DumpDepth.dump_endless"
   ],
   "note": "Proved for load, if the '-meta' of the document names no union, no str and no defaultdict, named tuples are not recursive and the program registers no deserializers; for dump, if attributes and properties lead to values of lower rank (no object is reached from itself) and the program registers no serializers. False otherwise: {'-meta': {'classes': {'/': 'str'}}} calls load with the same document again (load_endless), an object with a property that gives the object itself is dumped again and again (dump_endless), however deep the stack is. With less stack the value can change, not only the error (load_stack_matters, dump_stack_matters)."
  },
  {
   "property": "C89",
   "status": "partial",
   "theorems": [
    "Verif.Props.StrictLoad.strict_refuses_partial",
    "Verif.Props.StrictLoad.strict_refuses_free_partial",
    "Verif.Props.StrictLoad.strict_parses_more",
    "Verif.Props.StrictLoad.strict_picks_other_member",
    "Verif.Props.StrictLoad.strict_drops_elements"
   ],
   "note": "Proved for JSON documents (with '-meta', '-keys', key transformers, getters, named tuples, nested objects) and types in which the bare classes list, dict and object do not occur and of a union only the last member (besides None) has parts. False otherwise: as dict, a dict with a text of a datetime is returned as it is without strict mode and with the datetime in strict mode (strict_parses_more); in a union strict mode may take a later member (strict_picks_other_member); with warn_on_fail it may leave elements out (strict_drops_elements). Programs that register deserializers of their own are not covered."
  },
  {
   "property": "C90",
   "status": "partial",
   "theorems": [
    "Verif.Props.KeyOrder.key_order_partial",
    "Verif.Props.KeyOrder.key_order_free_partial",
    "Verif.Props.KeyOrder.key_order_fails_list",
    "Verif.Props.KeyOrder.key_order_fails_numbers",
    "Verif.Props.KeyOrder.key_order_fails_transformer",
    "Verif.Props.KeyOrder.key_order_fails_meta"
   ],
   "note": "Proved for documents without '-meta' and '-keys' in the reordered dicts, loaded as objects, named tuples, dicts with texts as keys, default dicts, lists, tuples, deques, Any, unions, in both modes, nested in any way, and for all such documents without a class. False otherwise: a dict loaded as List[str] gives its keys in order (key_order_fails_list); '1' and '01' as keys of Dict[int, T] (key_order_fails_numbers) or keys that a key transformer maps to one (key_order_fails_transformer): the last one counts; the order of the class hints in '-meta' decides about the class of an attribute of an attribute if an attribute has the same name (key_order_fails_meta). Deserializers and validators of the program, NewTypes, sets of loaded dicts are not covered."
  },
  {
   "property": "C91",
   "status": "partial",
   "theorems": [
    "Verif.Props.Stability.load_dump_load_partial",
    "Verif.Props.Stability.load_dumps_loads_partial",
    "Verif.Props.Stability.load_dump_load_fails_offset",
    "Verif.Props.Stability.load_dump_load_fails_union",
    "Verif.Props.Stability.load_dump_load_fails_default"
   ],
   "note": "Proved by induction for all documents without '-meta' and '-keys' and for nested types of the classes without parts, enums, lists, deques, tuples (also too short ones), sets, frozensets, dicts with str, int, float or bool keys, Mappings, defaultdicts, Optional, named tuples and (recursive) classes whose constructors store their hinted parameters; with any mode, key transformer and use_enum_name for the first load. False otherwise, with negations proved: offsets west of Greenwich with minutes other than 00 and 30, unions, default values that the hint does not allow. Attributes that are not parameters, Any, NewTypes, very long time spans and unpadded years are excluded. Datetimes come back with a time zone of the same offset."
  },
  {
   "property": "C92",
   "status": "partial",
   "theorems": [
    "Verif.Props.Hidden.hidden_stays_hidden_partial",
    "Verif.Props.Hidden.privates_hidden_partial",
    "Verif.Props.Hidden.hidden_dump_equal_partial",
    "Verif.Props.Hidden.hidden_fails_strict_list",
    "Verif.Props.Hidden.hidden_fails_union",
    "Verif.Props.Hidden.hidden_fails_keys",
    "Verif.Props.Hidden.hidden_fails_named_tuple"
   ],
   "note": "Non-interference, proved by a relational induction on the depth for all values, classes, modes, options and registries; the hypotheses are that the program's own functions (properties, __str__, custom serializers, ...) do not tell what is hidden and that objects that hide an attribute name, value, real or imag are not taken for enum members or complex numbers. False otherwise, with negations proved: a strict dump of a list whose first element is an enum member and a dump as Union[Enum, Class] show the stripped attribute name; the hash of an object that is a key shows; the fields of named tuples are not stripped. The texts of warnings, which quote the failing attribute, are not modelled."
  },
  {
   "property": "C93",
   "status": "partial",
   "theorems": [
    "Verif.Props.Forward.further_keys_ignored_partial",
    "Verif.Props.Forward.further_keys_object",
    "Verif.Props.Forward.further_keys_fail_named_tuple",
    "Verif.Props.Forward.further_keys_fail_union",
    "Verif.Props.Forward.further_keys_fail_transformer"
   ],
   "note": "Proved by induction on the relation between the documents for all classes, transformers and registries, from some stack depth on (an unknown entry may need a deeper stack). Covered: objects, named tuples (with no further keys of their own), lists and other iterables but sets, tuples, dicts, defaultdicts, Optional and unions with scalar members. Hypothesis: setting an unknown attribute succeeds and shows only in that attribute. Missing: sets, texts and lists as union members, documents loaded without a class. False otherwise, with negations proved: a further key makes a named tuple with defaults unloadable, makes Union[Dict[str, int], Point] choose Point, and can collide with a known one under a key transformer."
  },
  {
   "property": "C94",
   "status": "partial",
   "theorems": [
    "Verif.Props.Blame.blames_part_partial",
    "Verif.Props.Blame.blames_inside_partial",
    "Verif.Props.Blame.blames_by_name_partial",
    "Verif.Props.Blame.blames_other_empty",
    "Verif.Props.Blame.blames_other_renamed",
    "Verif.Props.Blame.blames_default"
   ],
   "note": "Proved by induction on the depth of the stack for all documents, classes, registries and keyword arguments. Hypotheses: the functions of the program (constructors, getters, key transformers, custom deserializers) raise no DeserializationErrors that blame something else, and no hash of a key is stored under '-keys'. With a key transformer the source may be a dict with the transformed keys. False in three cases, with negations proved: {} is shown for another empty value in a dict, a dict with transformed keys is not in the document, and the default of a named tuple can be shown."
  },
  {
   "property": "C95",
   "status": "partial",
   "theorems": [
    "Verif.Props.AttrOrder.attribute_order_free_partial",
    "Verif.Props.AttrOrder.attribute_order_equal_partial",
    "Verif.Props.AttrOrder.attribute_order_fails_property"
   ],
   "note": "Proved from the non-interference theorem of C92, with nothing hidden, for all values, classes, modes, options and registries. The functions of the program (properties, __str__, serializers) must not look at the order themselves (negation proved for a property that reads vars(self)). Missing: keys of dicts have to be the same, since the hash of a key is up to the program."
  },
  {
   "property": "C96",
   "status": "proved",
   "theorems": [
    "Verif.Props.Registrations.dump_other_registration",
    "Verif.Props.Registrations.load_other_registration",
    "Verif.Props.Registrations.load_other_validator",
    "Verif.Props.Registrations.datetime_registration_matters"
   ],
   "note": "Proved for all values, classes, modes, options, registries and depths of the stack, by induction over the depth with the set of things that occur as an invariant. The serializers and deserializers of the program must themselves only call dump and load with what occurs. Shown to be needed: a deserializer for datetime changes the load of a text, although no datetime is asked for."
  },
  {
   "property": "C97",
   "status": "partial",
   "theorems": [
    "Verif.Props.NamedClass.named_class_partial",
    "Verif.Props.NamedClass.unknown_name",
    "Verif.Props.NamedClass.none_refused",
    "Verif.Props.NamedClass.none_differs",
    "Verif.Props.NamedClass.named_class_fails"
   ],
   "note": "Proved as an equation between the two calls for all documents that are not None and are not returned as they are (documents of exactly the class asked for, outside strict mode). The full statement is false in these cases, which is proved with witnesses: None is refused by every name, also by 'NoneType', and load({'a': '2020-01-01T00:00:00Z'}, dict) returns the text where load(..., 'dict') gives a datetime."
  },
  {
   "property": "C98",
   "status": "proved",
   "theorems": [
    "Verif.Props.Quiet.dump_suppressed",
    "Verif.Props.Quiet.dump_settings_free",
    "Verif.Props.Quiet.load_suppressed",
    "Verif.Props.Quiet.load_settings_free",
    "Verif.Props.Quiet.hashed_keys_warned"
   ],
   "note": "Proved for all values, documents, classes, options, registries and depths of the stack, by induction over the depth with a relation between the two executions. The serializers and deserializers of the program must not look at warnings themselves. The warnings module of Python is not modelled: a filter that turns warnings into exceptions is left out. hashed_keys_warned shows that the warning about hashed keys without hints is there to be suppressed."
  },
  {
   "property": "C99",
   "status": "partial",
   "theorems": [
    "Verif.Props.StyledRoundTrip.styled_round_trip_partial",
    "Verif.Props.StyledRoundTrip.styled_text_round_trip_partial",
    "Verif.Props.StyledRoundTrip.camel_key",
    "Verif.Props.StyledRoundTrip.pascal_key",
    "Verif.Props.StyledRoundTrip.lisp_key",
    "Verif.Props.StyledRoundTrip.styled_round_trip_fails_tuple",
    "Verif.Props.StyledRoundTrip.styled_round_trip_fails_default",
    "Verif.Props.StyledRoundTrip.styled_round_trip_fails_meta",
    "Verif.Props.StyledRoundTrip.styled_round_trip_fails_ntuple"
   ],
   "note": "Proved by induction over values and types, for all pairs of transformers of which one undoes the other on the names that occur, with strip_nulls or without, directly and through texts and bytes. Named tuples, defaultdicts and unions with members that do not accept the value are covered. What is missing: what is missing for C33 and C79, and keys of dicts that are no texts. The full statement is false, with witnesses: load does not pass the key transformer on to the elements of tuples, so objects in tuples do not come back; None comes back as the default value if strip_nulls removed it and the default is something else; the key _meta is renamed to -meta in lisp case, which load takes for its own metadata; dump does not rename the fields of named tuples but the key transformer of load is applied to them, so a named tuple with a field that it renames does not come back."
  },
  {
   "property": "C100",
   "status": "proved",
   "theorems": [
    "Verif.Props.RegistrationOrder.lookup_order",
    "Verif.Props.RegistrationOrder.lookup_again",
    "Verif.Props.RegistrationOrder.dump_registration_order",
    "Verif.Props.RegistrationOrder.dump_registered_again",
    "Verif.Props.RegistrationOrder.load_registration_order",
    "Verif.Props.RegistrationOrder.load_registered_again",
    "Verif.Props.RegistrationOrder.registration_order_matters"
   ],
   "note": "Proved for all permutations of all lists of calls: the functions by name commute, and of the classes only the first superclass of each priority matters. Lifted to dump and load by the induction of C96, for what occurs in them. Calls for one name must have one function (the last one wins otherwise), and serializers of the program must only dump what occurs in what they are given, as for C96. The exception is real: for an IntEnum the order of registrations for Enum and int decides."
  },
  {
   "property": "C101",
   "status": "proved",
   "theorems": [
    "Verif.Props.Threads.threads_do_not_interfere",
    "Verif.Props.Threads.run_alone",
    "Verif.Props.Threads.threads_end",
    "Verif.Props.Threads.dump_in_threads",
    "Verif.Props.Threads.load_in_threads",
    "Verif.Props.Threads.run_dump",
    "Verif.Props.Threads.run_load",
    "Verif.Props.Threads.run_set_serializer",
    "Verif.Props.Threads.run_set_deserializer",
    "Verif.Props.Threads.registration_seen_halfway",
    "Verif.Props.Threads.stale_in_threads"
   ],
   "note": "Small-step model in which one step is one operation on a dict, a list or the lru_cache; run_dump and run_load show that a thread alone does what the model of the cache (Verif.Cache) says. Invariant over all interleavings: what is in the cache for the used registries is right, and every thread that uses them still yields the same. Serializers and deserializers are arbitrary programs of the same kind; that they do not share other state is assumed. The names of announced classes are written but not read here. Both exceptions are shown with schedules."
  },
  {
   "property": "C102",
   "status": "proved",
   "theorems": [
    "Verif.Props.Calls.load_calls_linear",
    "Verif.Props.Calls.load_calls_flat",
    "Verif.Props.Calls.load_calls_exponential",
    "Verif.Props.Calls.marks_change_nothing"
   ],
   "note": "load with a mark in the log for every call (loadMarked) is the model of load with the same open recursion; marks_change_nothing shows that values, exceptions and warnings are the same. The bound is an invariant over the size of the stack. Named tuples are left out because a text loaded as a named tuple with texts as fields calls load without end (C88), hashed keys because their keys may be of any type. The negation is load_calls_exponential."
  },
  {
   "property": "C103",
   "status": "proved",
   "theorems": [
    "Verif.Props.DumpCalls.dump_calls_linear",
    "Verif.Props.DumpCalls.dump_calls_once",
    "Verif.Props.DumpCalls.dump_calls_parts",
    "Verif.Props.DumpCalls.dump_calls_exponential",
    "Verif.Props.DumpCalls.marks_change_nothing"
   ],
   "note": "dump with a mark in the log for every call of a serializer (dumpMarked); marks_change_nothing shows that values, exceptions and warnings are the same, for serializers of the user that do not look at the log. The size is any function that makes every value larger than its parts together (Size); parts is one for programs without properties and class variables (parts_size). The negation is dump_calls_exponential."
  },
  {
   "property": "C104",
   "status": "proved",
   "theorems": [
    "Verif.Props.Sharing.identities_change_nothing",
    "Verif.Props.Sharing.dump_shares_only",
    "Verif.Props.Sharing.dump_shares_nothing",
    "Verif.Props.Sharing.enum_value_is_shared",
    "Verif.Props.Sharing.verbose_dump_writes_to_the_enum",
    "Verif.Props.Sharing.failing_dump_leaves_a_mark",
    "Verif.Props.Sharing.wrong_hint_shares_an_attribute"
   ],
   "note": "Verif.Core.Heap is a second model of dump in which containers and objects have identities and writes to what was there before are noted; identities_change_nothing shows that it is the model of Verif.Core.Dump if the identities are taken away. Setting and Calm say which attributes may be passed on (those asked for by the enum and complex serializers, only if such a type occurs as a hint)."
  },
  {
   "property": "C105",
   "status": "proved",
   "theorems": [
    "Verif.Props.LoadSharing.load_identities_change_nothing",
    "Verif.Props.LoadSharing.load_shares_only",
    "Verif.Props.LoadSharing.strict_load_shares_nothing",
    "Verif.Props.LoadSharing.load_copies",
    "Verif.Props.LoadSharing.load_returns_the_document",
    "Verif.Props.LoadSharing.default_is_shared",
    "Verif.Props.LoadSharing.unknown_key_is_shared",
    "Verif.Props.LoadSharing.bare_hint_is_shared"
   ],
   "note": "Verif.Core.HeapLoad is a second model of load in which containers and objects have identities; load_identities_change_nothing shows that it is the model of Verif.Core.Load if the identities are taken away. load_copies covers no key transformer and no class hints in '-meta' ('-meta' and key transformers are covered by strict_load_shares_nothing and load_shares_only)."
  },
  {
   "property": "C106",
   "status": "partial",
   "theorems": [
    "Verif.Props.Options.options_reach_serializers",
    "Verif.Props.Options.options_reach_deserializers_partial",
    "Verif.Props.Options.load_bare",
    "Verif.Props.Options.tuple_loses_key_transformer",
    "Verif.Props.Options.list_loses_warn_on_fail",
    "Verif.Props.Options.object_loses_attr_getters",
    "Verif.Props.Options.complex_loses_options"
   ],
   "note": "Proved in full for dump. For load the full claim is false of the code, and the four last theorems show how: elements of tuples and keys of dicts are loaded without key_transformer, elements of lists without warn_on_fail, attributes without attr_getters, and the parts of complex numbers and time zones without any option, not even fork_inst. options_reach_deserializers_partial has exactly these exceptions: an option can only be missing if a deserializer that drops it is registered in the fork. Other keyword arguments, which jsons does not look at, are not in the model."
  },
  {
   "property": "C107",
   "status": "partial",
   "theorems": [
    "Verif.Props.NewTypes.dump_newtype_partial",
    "Verif.Props.NewTypes.load_newtype_partial",
    "Verif.Props.NewTypes.load_newtype_text",
    "Verif.Props.NewTypes.load_newtype_number_fails",
    "Verif.Props.NewTypes.newtype_text_becomes_datetime",
    "Verif.Props.NewTypes.newtype_set_enum_fail",
    "Verif.Props.NewTypes.newtype_forgets_parameter",
    "Verif.Props.NewTypes.newtype_union_fails"
   ],
   "note": "The full claim is false of the code. dump: proved for NewTypes of all classes (in strict mode except those dumped as objects), of Dict and the like, and without strict of the iterables; for List[T] the parameter is forgotten and a union raises. load: proved for dates, times, durations, time zones, uuids, decimals, complex numbers, paths, zoneinfo, list, tuple, dict, Mapping and defaultdict; a NewType of int, float or bool can never be loaded (proved for all values but None), one of str makes a datetime of each text that looks like one (load_newtype_text says exactly when), one of a set or an enum fails."
  },
  {
   "property": "C108",
   "status": "partial",
   "theorems": [
    "Verif.Props.Distinct.distinct_dumps_partial",
    "Verif.Props.Distinct.distinct_texts_partial",
    "Verif.Props.Distinct.distinct_fails_union",
    "Verif.Props.Distinct.distinct_fails_seconds",
    "Verif.Props.Distinct.distinct_fails_class"
   ],
   "note": "Proved for the values and types for which the round trip of C33 (C79 for texts) is proved, by way of it. The full claim is false of the code: with cls=Union[int, str], '5' and 5 have the same dump, and offsets of not whole minutes are cut off. distinct_fails_class shows that the common type is needed."
  },
  {
   "property": "C109",
   "status": "partial",
   "theorems": [
    "Verif.Props.GenericNames.generic_found_partial",
    "Verif.Props.GenericNames.generic_by_name_partial",
    "Verif.Props.GenericNames.generic_nested_refused",
    "Verif.Props.GenericNames.named_nested_escapes",
    "Verif.Props.GenericNames.nested_generic_round_trip_fails"
   ],
   "note": "Proved for all generic classes whose arguments are classes, in every state and from every fork. False for nested ones (generic_nested_refused, for all of them): the name is split at every '[', so 'typing.Dict[str, typing.List[int]]' raises a ValueError; given to load it escapes as such, and a verbose dump of an object with a dict of lists cannot be loaded (nested_generic_round_trip_fails). That get_type of a dict has this written form is taken from tests/test_object.py."
  },
  {
   "property": "C110",
   "status": "partial",
   "theorems": [
    "Verif.Props.StrictDump.strict_dump_partial",
    "Verif.Props.StrictStyled.strict_styled_partial",
    "Verif.Props.StrictDump.like_atom",
    "Verif.Props.StrictDump.like_list",
    "Verif.Props.StrictDump.like_dict",
    "Verif.Props.StrictDump.strict_dump_changes",
    "Verif.Props.StrictDump.strict_dump_order"
   ],
   "note": "Proved for all values of exactly the types that strict mode uses (Exact), nested without bound, for every class layout and all strip options. False in general (strict_dump_changes): an untyped list takes the class of its first element for all, so dump([1.5, 2], strict=True) is [1.5, 2.0]; an object dumped as a superclass loses attributes. The order of the entries does change (strict_dump_order). With verbose, key transformers and strip_nulls (strict_styled_partial): for values on which these options act as C83 and C111 say, and up to the -meta sections. Missing: the -meta sections themselves, dict keys that JSON does not have, time zones, NewTypes."
  },
  {
   "property": "C111",
   "status": "partial",
   "theorems": [
    "Verif.Props.VerboseAdds.verbose_adds_partial",
    "Verif.Props.VerboseAdds.verbose_style_partial",
    "Verif.Props.VerboseAdds.verbose_fails_key",
    "Verif.Props.VerboseAdds.verbose_fails_cls"
   ],
   "note": "Proved for all values that are Markable, every class, every kind of verbosity, and all other options (strict mode, strip options, key transformers): the log is the same, the exception is the same, and leaving out '-meta' gives the plain result. False in general: a dict under a key that is not a text makes the verbose dump fail (verbose_fails_key); an own entry '-cls' is lost (verbose_fails_cls). Missing: dict keys that JSON does not have, custom serializers."
  },
  {
   "property": "C112",
   "status": "proved",
   "theorems": [
    "Verif.Props.Trust.load_makes_mentioned",
    "Verif.Props.Trust.load_makes_nothing",
    "Verif.Props.Trust.load_other_class",
    "Verif.Props.Trust.document_chooses_class",
    "Verif.Props.Trust.load_looks_up_name"
   ],
   "note": "Proved as independence: with any other constructors, attribute setters and classes behind the names, load returns, raises and warns of the same. Custom deserializers must only load what occurs in what they are given (Stay), the defaults of named tuples and the images of the key transformer must be documents. That '-meta' lets the document choose is proved by a witness (document_chooses_class), that names are looked up in any case for all documents (load_looks_up_name)."
  },
  {
   "property": "C113",
   "status": "partial",
   "theorems": [
    "Verif.Props.DumpTwice.dump_distinct_partial",
    "Verif.Props.DumpTwice.dump_twice_partial",
    "Verif.Props.DumpTwice.dumps_dumped_partial",
    "Verif.Props.DumpTwice.dump_json_restyle",
    "Verif.Props.DumpTwice.style_afterwards_partial",
    "Verif.Props.DumpTwice.dump_twice_fails_intEnum",
    "Verif.Props.DumpTwice.dump_twice_fails_enum",
    "Verif.Props.DumpTwice.style_afterwards_fails_namedtuple"
   ],
   "note": "Missing: where it is false (members of an IntEnum anywhere in the value, values taken over as they are that are not JSON, None in named tuples with strip_nulls), shown by witnesses; custom serializers; for the style, verbose dumps and values that are not Styleable (C83)."
  },
  {
   "property": "C114",
   "status": "partial",
   "theorems": [
    "Verif.Props.InAdvance.load_in_advance_partial",
    "Verif.Props.InAdvance.in_advance_fails_optional",
    "Verif.Props.InAdvance.in_advance_fails_deque",
    "Verif.Props.InAdvance.in_advance_fails_strict",
    "Verif.Props.InAdvance.in_advance_fails_union"
   ],
   "note": "Missing: where it is false (objects under a union, deques, frozensets), shown by witnesses; replaced keys of dicts, documents with '-meta' or '-keys', key transformers, NewTypes, named tuples as documents, custom deserializers and validators. Failures agree as failures; the kinds of the errors are not compared."
  },
  {
   "property": "C115",
   "status": "partial",
   "theorems": [
    "Verif.Props.SchemaGrowth.schema_growth_partial",
    "Verif.Props.SchemaGrowth.schema_growth_fails_entry",
    "Verif.Props.SchemaGrowth.schema_growth_fails_required"
   ],
   "note": "Missing: documents with '-meta' or '-keys', key transformers, attr_getters, sets of objects, NewTypes, deserializers and validators of the program, new fields of named tuples. The hypotheses on the constructors (`Upgrade.ctor`, `Upgrade.set`) say that a constructor stores its arguments alike in both versions."
  },
  {
   "property": "C116",
   "status": "proved",
   "theorems": [
    "Verif.Props.Rename.rename_dump",
    "Verif.Props.Rename.rename_load",
    "Verif.Props.Rename.rename_load_announced",
    "Verif.Props.Rename.rename_fails_meta",
    "Verif.Props.Rename.rename_fails_union",
    "Verif.Props.Rename.rename_fails_case"
   ],
   "note": "Serializers of the program must not look at the texts of warnings nor ask for class infos (Blind); deserializers only load what occurs in what they are given (Stay, as in C112), unless the same names are found, where nothing is assumed about them (rename_load_announced). The texts of exceptions are not modelled."
  },
  {
   "property": "C117",
   "status": "partial",
   "theorems": [
    "Verif.Props.UnionOrder.union_order_load_partial",
    "Verif.Props.UnionOrder.union_order_dump_partial",
    "Verif.Props.UnionOrder.union_order_load_fails",
    "Verif.Props.UnionOrder.union_order_dump_fails",
    "Verif.Props.UnionHints.union_order_hints_partial",
    "Verif.Props.UnionHints.union_order_hints_fails",
    "Verif.Props.Annotations.union_order_dump_hints_partial"
   ],
   "note": "Proved for the default deserializers without validators, by induction on the relation between the types, for documents without '-meta' and without warn_on_fail. For dump with the default serializers, all options and unions nested in lists, sets, deques, tuples (with and without '...') and other unions; the types of dict entries play no role there. union_order_hints_partial compares two programs, the hints of the classes of which differ in the order of unions, and covers keys of dicts, sets, frozensets, deques, Tuple[T, ...] and named tuples (from lists and dicts) as well; union_order_dump_hints_partial (outside strict mode, for unions of which one member fits and the others refuse the value, C84) is about hints and dump. union_order_hints_fails shows the negation where members disagree. Default dicts are covered if the type of their values is the same (it is part of the result). False if members disagree, with negations proved: '5' as Union[int, str] and as Union[str, int]; a strict dump of a Point as Union[Person, Point]. The order of parameters may differ as well (C122)."
  },
  {
   "property": "C118",
   "status": "partial",
   "theorems": [
    "Verif.Props.StripAttr.strip_attr_partial",
    "Verif.Props.StripAttr.strip_attr_less_partial",
    "Verif.Props.StripAttr.strip_attr_style_partial",
    "Verif.Props.StripAttr.strip_attr_object_partial",
    "Verif.Props.StripAttr.strip_attr_fails_dropped",
    "Verif.Props.StripAttr.strip_attr_fails_strict",
    "Verif.Props.StripAttr.strip_attr_fails_attrs",
    "Verif.Props.StripAttr.strip_attr_keeps_dicts"
   ],
   "note": "Proved for the default serializers, not strict, if no attribute is dropped with a warning: strip_attr_partial as an equation between the results, strip_attr_less_partial also if the program's dicts have keys with the names, strip_attr_style_partial together with strip_nulls, key_transformer and verbose (relative to the plain dump). Missing: custom serializers. False with negations proved: an attribute that cannot be dumped (with it stripped, later attributes appear), strict mode (the exception goes), classes made with attrs (the entry has another name than the attribute)."
  },
  {
   "property": "C119",
   "status": "partial",
   "theorems": [
    "Verif.Props.OneAttr.changed_attr_partial",
    "Verif.Props.OneAttr.changed_attr_fails_dropped"
   ],
   "note": "Proved for the default serializers, not strict, without key_transformer and verbose, if no attribute is dropped with a warning, properties do not depend on the attributes in question, and only attributes have these names (and not name, value, real, imag). Missing: keys of dicts that differ, strict mode. False for an attribute that cannot be dumped, with a negation proved: later attributes go with it."
  },
  {
   "property": "C120",
   "status": "partial",
   "theorems": [
    "Verif.Props.Widening.widening_partial",
    "Verif.Props.Widening.widening_fails_before",
    "Verif.Props.Widening.widening_fails_member",
    "Verif.Props.Widening.scalar_eq",
    "Verif.Props.Widening.widening_fails_default_dict"
   ],
   "note": "Proved for the default deserializers without validators, documents without '-meta', without warn_on_fail, for lists, sets, frozensets, deques, tuples, dicts (keys included), unions, named tuples (from lists and dicts) and objects, in strict mode and not, with key transformers and attr_getters; scalar_eq shows that types without parts are loaded alike by both programs. False with negations proved: a member that comes first and accepts the document, too; a class in a union that accepts more than before; default dicts with another type of values, with which they make missing values (other default dicts are covered). The order of parameters may differ as well (C122). Enums may have got more members as well (C123)."
  },
  {
   "property": "C121",
   "status": "partial",
   "theorems": [
    "Verif.Props.Annotations.annotations_partial",
    "Verif.Props.Annotations.annotations_fail_unfit",
    "Verif.Props.Annotations.annotations_fail_tuple"
   ],
   "note": "Proved for the default serializers, without verbose, with any key transformer that does not fail, for objects, named tuples, lists, tuples, sets, deques and dicts with keys that JSON has, nested in any way, the hints fitting in the sense of C84. Missing: verbose dumps, keys of dicts that JSON does not have, attributes that cannot be dumped. False with negations proved: a hint that does not fit, and the bare hint tuple, although it is right (the attribute and those after it are lost)."
  },
  {
   "property": "C122",
   "status": "partial",
   "theorems": [
    "Verif.Props.ParamOrder.param_order_partial",
    "Verif.Props.ParamOrder.param_order_fails_error",
    "Verif.Props.ParamOrder.param_order_fails_named_tuple"
   ],
   "note": "Proved for the default deserializers without validators, documents without '-meta', without warn_on_fail, for objects, named tuples, lists, sets, frozensets, deques, tuples, dicts, default dicts and unions, in strict mode and not, with key transformers and attr_getters, if the constructors do not look at the order of their keyword arguments. Missing: documents with '-meta', deserializers and validators of the program. False with negations proved: which argument an UnfulfilledArgumentError names; the fields of named tuples, which are loaded from lists by position."
  },
  {
   "property": "C123",
   "status": "partial",
   "theorems": [
    "Verif.Props.EnumGrowth.enum_growth_partial",
    "Verif.Props.EnumGrowth.enum_growth_dump_partial",
    "Verif.Props.EnumGrowth.enum_growth_fails_name",
    "Verif.Props.EnumGrowth.enum_growth_fails_union"
   ],
   "note": "Proved for the default deserializers without validators, documents without '-meta', without warn_on_fail, given enough stack, for enums in objects, named tuples, lists, sets, frozensets, deques, tuples, dicts, default dicts, and unions if the same member accepts the document in both programs. enum_growth_dump_partial is about dump, with the restrictions of C121 (no strict mode, no verbose dumps of objects, keys of JSON, hints that fit). Missing: documents with '-meta', deserializers and validators of the program. False with negations proved: a new member the name of which is the value of an old one, without use_enum_name; unions in which a later member accepted what is now a member of the enum."
  }
 ]
}