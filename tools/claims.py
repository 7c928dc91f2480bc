c("C01", "proved", "Hiera.C01_key Hiera.C01_root Hiera.C01_unterminated",
  "For every string: one of the three errors, or a key with a string root and 32-bit indexes.")
c("C02", "proved", "Hiera.C02_dots Hiera.C02_rejected",
  "Dot-joined unquoted segments read as exactly those segments; rejection characterised as an iff.")
c("C03", "proved", "Hiera.C03_grammar Hiera.C03_range Hiera.C03_unambiguous",
  "NewKey agrees with a declarative grammar on every text, and its range is characterised exactly.")
c("C04", "partial", "Hiera.C04_false Hiera.C04_quoted_partial Hiera.C04_single_partial",
  "False of the code for quoted segments that are not last (witnesses in C04_false); proved for the last segment.")
c("C05", "proved", "Hiera.C05_dig_bury Hiera.C05_bury_follow", "Induction over the parts.")
c("C06", "proved", "Hiera.C06_dig", "Dig finds w iff the declarative path relation reaches w, for well-formed values.")
c("C07", "proved", "Hiera.C07_first", "Trichotomy over all source lists and outcomes, with the exact list of consulted sources.")
c("C08", "partial", "Hiera.C08_false Hiera.C08_unique_partial Hiera.C08_one_found_partial Hiera.C08_one_source_partial",
  "Proved for two or more found values; false when only one value is found (witnesses in C08_false).")
c("C09", "proved", "Hiera.C09_hash Hiera.C09_not_hash", "Key-wise characterisation of the folded hash merge.")
c("C10", "proved", "Hiera.C10_deep Hiera.C10_deep_determined Hiera.C10_order Hiera.C10_strategy",
  "Deep satisfies a declarative relation that determines the value up to entry order; entry order and the fold over sources separately.")
c("C11", "proved", "Hiera.C11_flag Hiera.C11_unchanged", "Flag iff not Equals.")
c("C12", "proved", "Hiera.C12_scalars Hiera.C12_elements Hiera.C12_neutral_right Hiera.C12_neutral_left Hiera.C12_idempotent Hiera.C12_idempotent_needs_nodups",
  "Induction over paths and values.")
c("C13", "proved", "Hiera.C13_found_iff Hiera.C13_consulted", "For all strategies and all source outcomes including panics.")
c("C14", "proved", "Hiera.C14_names", "iff over all strings.")
c("C27", "proved", "Hiera.C27_explain Hiera.C27_explain_seq Hiera.C27_false_after_failure",
  "Relational induction over the whole evaluator, for any one lookup and for sequences of lookups none of which fails. In an invocation that goes on after a failed lookup it is false (witness).")
c("C28", "proved", "Hiera.C28_balanced Hiera.C28_no_failure",
  "By the same induction, for every outcome including failures.")
c("C15", "proved", "Hiera.C15_plain", "Induction over values; for any continuation of the recursion.")
c("C16", "proved", "Hiera.C16_division Hiera.C16_text Hiera.C16_lookup",
  "A string divides in exactly one way, declaratively; its interpolation is that of its expressions on their own, in order.")
c("C17", "proved", "Hiera.C17_empty Hiera.C17_within", "For any scope and recursion; state unchanged.")
c("C18", "partial", "Hiera.C18_literal_partial Hiera.C18_false",
  "True of one interpolation; false of lookups, which interpolate data twice (witness).")
c("C19", "proved", "Hiera.C19_alias Hiera.C19_alone", "For every key, value and surrounding text.")
c("C20", "proved", "Hiera.C20_value Hiera.C20_entry Hiera.C20_config Hiera.C20_no_lookup",
  "Any configuration with a call in one of its settings fails to resolve; and resolving is independent of what Lookup does.")
c("C21", "proved", "Hiera.C21_unknown Hiera.C21_known Hiera.C21_nested", "For every key that parses.")
c("C22", "proved", "Hiera.C22_array Hiera.C22_length Hiera.C22_map Hiera.C22_other", "Induction over elements and entries.")
c("C39", "proved", "Hiera.C39_ambiguous Hiera.C39_rejected", "Accepted iff not ambiguous, for every file that the schema accepts; ambiguity is stated over the file's map.")
c("C40", "proved", "Hiera.C40_resolved Hiera.C40_exactly Hiera.C40_inherited",
  "Exact result for plain variables; independence of overridden defaults and inheritance for any variables, explainer and recursion.")
c("C41", "proved", "Hiera.C41_locations Hiera.C41_count Hiera.C41_mapped", "Exact result for every entry, plain scope and file system.")
c("C67", "proved", "Hiera.C67_described Hiera.C67_missing Hiera.C67_order", "Induction over the map of each entry and over the hierarchies.")
c("C23", "proved", "Hiera.C23_hidden Hiera.C23_keys Hiera.C23_interpolated",
  "For every key whose root is lookup_options, any configuration, recursion and state; C65 has the way around it.")
c("C30", "proved", "Hiera.C30_order Hiera.C30_explained Hiera.C30_merged",
  "First found: exact (iff) against the list of places; other strategies: the merge of the answers in order.")
c("C31", "proved", "Hiera.C31_asked Hiera.C31_missing Hiera.C30_order",
  "Which places are asked, with which state, and which answers count as not found.")
c("C35", "proved", "Hiera.C35_shadow Hiera.C35_lookup Hiera.C35_variables Hiera.C35_options", "For every session scope, invocation scope and variable; from the options of the session on in C35_options.")
c("C42", "proved", "Hiera.C42_file Hiera.C42_no_options Hiera.C42_other_options", "Exact (iff) against a declarative choice of directory and file name.")
c("C32", "partial", "Hiera.C32_total Hiera.C32_lookup_partial Hiera.C32_unknown Hiera.C32_nested Hiera.C77_purpose_partial Hiera.C82_options_partial Hiera.C32_false",
  "Exact at the top level, for every option and lookup_options; for the set-up of the command line and the server also for nested lookups (C77_purpose_partial, C82_options_partial); false of nested lookups where the configuration alone is the top provider, which use the outer strategy (exact theorem and witness).")
c("C33", "proved", "Hiera.C33_options Hiera.C33_no_leak Hiera.C33_source", "Exact (iff), for every configuration and key; the options come from the deep merge of lookup_options.")
c("C34", "partial", "Hiera.C34_only_options_partial Hiera.C34_false", "False: nothing reads the redacted flag (witness). Holds of explanations of lookup options only.")
c("C36", "partial", "Hiera.C36_restored_partial Hiera.C36_false", "Restored when the function returns; never when it panics (for every function).")
c("C37", "proved", "Hiera.C37_mux Hiera.C37_first Hiera.C37_value_as_options",
  "For functions with any outcomes; the last theorem shows that plain functions are taken to answer with lookup options.")
c("C38", "partial", "Hiera.C38_false Hiera.C38_ignored Hiera.C38_session Hiera.C38_fails", "False: default_hierarchy is resolved but never consulted (witness, and independence of it). What the code does instead, for whole sessions: default hierarchies without errors do not matter to any lookup (C38_session), and one with an error makes all lookups fail with it (C38_fails).")
c("C58", "proved", "Hiera.C58_converted Hiera.C58_bad_type", "For every configuration, lookup options and outcome of the hierarchy at the top level.")
c("C55", "proved", "Hiera.C55_all Hiera.C55_one Hiera.C55_other", "Exact (iff), for every environment, also one with repeated or malformed definitions.")
c("C56", "partial", "Hiera.C56_lookup_key Hiera.C56_data_hash Hiera.C56_data_file Hiera.C56_false",
  "Proved for lookup_key and data_hash functions; false of data_dig functions, which see no options (witness).")
c("C57", "partial", "Hiera.C57_found_partial Hiera.C57_not_found_partial Hiera.C57_error_partial Hiera.C57_lookup Hiera.C57_lookup_error Hiera.C57_case Hiera.C57_remembered Hiera.C57_false",
  "Proved for directories without names that differ only in case; otherwise only the first such name counts (witness). Names are ASCII.")
c("C61", "partial", "Hiera.C61_alike_partial Hiera.C77_purpose_partial Hiera.C61_false",
  "For the set-up of the command line and the server (the configuration is the first of several functions): values are interpolated alike wherever they come from, and nested lookups give the answer of the key. False with the configuration as the only provider: such a value makes the lookup fail with a nil dereference (C61_false).")
c("C65", "partial", "Hiera.C65_plain_partial Hiera.C65_false Hiera.C65_discloses_options",
  "Holds of names that need no quotes; false of names with dots (witnesses).")
c("C66", "partial", "Hiera.C66_given_partial Hiera.C66_false", "The function gets the segments that its caller passes on, which are never more than the first (witness).")
c("C24", "proved", "Hiera.C24_ranked", "Exact (iff) against a relational ranking that also says what state the lookup leaves behind.")
c("C25", "proved", "Hiera.C25_each Hiera.C25_returns Hiera.C25_independent", "For every list of names, type and source of values.")
c("C26", "proved", "Hiera.C26_enforced Hiera.C26_all", "For every type and outcome of a conversion.")
c("C53", "proved", "Hiera.C53_scope Hiera.C53_bad_variable", "Exact contents of the scope for every list of arguments and files.")
c("C54", "partial", "Hiera.C54_any Hiera.C54_split_partial Hiera.C54_error_partial Hiera.C54_false",
  "Proved for values without newlines; false of others, which are rejected (witness).")
c("C62", "partial", "Hiera.C62_honoured_partial Hiera.C62_unknown Hiera.C62_lookup Hiera.C62_false",
  "Proved for every name but first, which is dropped in favour of lookup_options (witness).")
c("C48", "partial", "Hiera.C48_isolated_partial Hiera.C48_sequential_partial Hiera.C48_false",
  "False when the slice of variables has spare capacity (witness run). Proved for all schedules without such capacity, and for requests served one at a time.")
c("C52", "partial", "Hiera.C52_answer_partial Hiera.C52_bad_request Hiera.C52_outside Hiera.C52_redirected Hiera.C52_variables Hiera.C52_false",
  "Exact (iff) for keys without newlines in clean paths; others are redirected or not found (witnesses).")
c("C29", "partial", "Hiera.C29_endless Hiera.C29_endless_top Hiera.C29_endless_variables Hiera.C29_false Hiera.C29_guard_partial",
  "False of the code: nothing calls the guard. A value that leads back to itself through lookup functions is proved to have no outcome at any depth (C29_endless, for every cycle length; C29_false a concrete one). The guard itself (WithKey), were it called, is proved to reject a repeated key and to restore the stack (C29_guard_partial).")
c("C60", "partial", "Hiera.C60_kept Hiera.C60_as_parsed Hiera.C60_resolve_refines Hiera.C60_create_untouched Hiera.C60_independent_partial Hiera.C60_hangs Hiera.C60_false",
  "That parsed configurations stay as they are is proved in full, as values and in a memory model of entry.Resolve with shared arrays. That invocations do not influence each other is proved as long as no configuration of the session failed to load; after such a failure later invocations wait forever (C60_hangs, witness C60_false).")
c("C43", "proved", "Hiera.Conc.C43_once Hiera.Conc.C43_same Hiera.Conc.C43_found Hiera.Conc.C43_progress Hiera.Conc.C43_ends",
  "invocation.Config as a transition system, one transition for each use of shared memory; invariants over all schedules of any number of invocations.")
c("C44", "partial", "Hiera.Conc.C44_blocked Hiera.Conc.C44_false Hiera.Conc.C44_others_partial",
  "False of the code: a panic in config.New leaves the lock taken. Proved: whoever wants that configuration afterwards waits forever (C44_blocked, witness C44_false); those that want other configurations are not affected (C44_others_partial).")
c("C45", "partial", "Hiera.ConcHash.C45_once Hiera.ConcHash.C45_no_more Hiera.ConcHash.C45_same Hiera.ConcHash.C45_alone Hiera.ConcHash.C45_ends Hiera.ConcHash.C45_progress_partial Hiera.ConcHash.C45_blocked Hiera.ConcHash.C45_false",
  "At most one successful call per location, same data for all, and mutual exclusion are proved in full, as is progress for functions that do not look anything up through the same provider (also after panics). A function that does so waits for its own lock, and blocks the provider for good (C45_blocked, witness C45_false).")
c("C46", "partial", "Hiera.Cache.C46_cached Hiera.Cache.C46_absent Hiera.Cache.C46_replaced Hiera.Cache.C46_new Hiera.Cache.C46_entries Hiera.Cache.C46_false",
  "Proved against a specification by history, for every history of calls in any number of sessions, for values other than nil. A nil that has been stored makes CachedValue and Cache panic (C46_false).")
c("C47", "partial", "Hiera.Cache.C47_false Hiera.Cache.C47_in_turn_partial Hiera.Cache.C47_origin_partial Hiera.Cache.C47_first_partial",
  "False of the code: Cache loads and stores in two steps (witness C47_false). Proved for calls that do not overlap; and for all schedules that what is given back comes from another call, and that exactly one call finds no value.")
c("C49", "proved", "Hiera.Plugin.C49_one Hiera.Plugin.C49_running Hiera.Plugin.C49_not_restarted",
  "Invariant of the registry over all histories of starts, failures at every step, exits and stops. C49_not_restarted adds that a plugin whose process is gone is not started again either.")
c("C50", "proved", "Hiera.Plugin.C50_stopped Hiera.Plugin.C50_with_session Hiera.Plugin.C50_failed",
  "Same invariant; os.Process.Kill is assumed to work.")
c("C51", "proved", "Hiera.Plugin.C51_once Hiera.Plugin.kill_thrice",
  "Same invariant: no history blocks, no plugin is killed twice; kill_thrice shows that the model has the block that is to be avoided.")
c("C64", "proved", "Hiera.C64_node Hiera.C64_explainer Hiera.C64_tree Hiera.C64_session",
  "C64_session: the explanation of every invocation of every session, without further hypotheses. initMap and initialize of all node types; C64_node for one node, C64_tree at every depth, C64_explainer for the explainer itself at rest. Keys are those that NewKey makes (hypothesis Sound).")
c("C63", "proved", "Hiera.C63_told",
  "For MergeHierarchy over any providers in any state with a current explain node: the nodes added are exactly those of the providers and locations asked, in order, also when a lookup fails half-way; each has the key and the value found, and the answer is what the strategy makes of these values.")
c("C59", "partial", "Hiera.C59_deterministic Hiera.C59_terminates_partial Hiera.C59_terminates_key_partial Hiera.C59_no_expressions Hiera.C59_fresh Hiera.C59_false",
  "Determinism in full. Termination for all data without cycles in its references and whose text does not become an expression by interpolation, with any hierarchy, providers, strategies and lookup functions; C59_terminates_key_partial needs no cycle in reach of the key only. False without that condition on the text, as values are interpolated twice (witness C59_false).")
c("C68", "proved", "Hiera.C68_text Hiera.C68_page",
  "For all states of a session (any invocations, lookups of any keys, with any outcome), by an invariant of all functions of the evaluator: nodes with an event that needs a value have one, keys in the tree are parsed, and locations are resolved ones. C68_page says exactly which lines the text has; how a value is written is left open.")
c("C69", "proved", "Hiera.C69_keys Hiera.C69_atoms",
  "Instances of an invariant of all functions of the evaluator for any property of values that the sources have and that merging, flattening and putting preserve.")
c("C70", "partial", "Hiera.C70_loader_partial Hiera.C70_default Hiera.C70_false",
  "The path of the plugin's file goes through names of loaders and back; proved for every entry when there is no parent loader (C70_default) and for every chain of parent loaders whose full name does not have the mark of the plugin loader (C70_loader_partial). With a parent loader called plugin another file is started (C70_false). That a plugin gives the function of that name is part of the assumption on plugins.")
c("C71", "partial", "Hiera.C71_place Hiera.C71_below_partial Hiera.C71_escapes",
  "Where paths lead is proved in full (C71_place), for entries whose configuration has a directory, against a specification of places that knows no paths. They are at or below the data directory if the interpolated text has no element .. (C71_below_partial). False without that: a variable leads out of the data directory (C71_escapes).")
c("C72", "partial", "Hiera.Plugin.C72_again_partial Hiera.Plugin.C72_names Hiera.Plugin.C72_false",
  "Proved for all histories and all failures except bad names of functions, for which it is false: the plugin is registered before its functions are looked at, and is never started again (C72_names for all such plugins; C72_false a concrete one).")
c("C73", "partial", "Hiera.Plugin.C73_lookup_key_partial Hiera.Plugin.C73_data_hash_partial Hiera.Plugin.C73_keys Hiera.Plugin.C73_dig_false Hiera.Plugin.C73_name_false Hiera.Plugin.C73_cut",
  "Proved for lookup_key and data_hash functions whose names have no ? and no #, against a reading of the request by an independent decoder. False for data_dig functions, which are never asked (C73_dig_false), and for other names, which are not escaped: they ask for the function whose name ends before the mark (C73_name_false a witness, C73_cut for all such names of lookup_key functions).")
c("C74", "proved", "Hiera.Plugin.C74_environment",
  "os/exec is assumed to let the last definition of a variable count, as documented.")
c("C75", "proved", "Hiera.Command.C75_execute Hiera.Command.C75_dialect Hiera.Command.C75_command",
  "For all sequences of flags, starting from any values of the package's variables. cobra is assumed to set the variable of each flag in the order of the flags. For a command made by NewCommand alone the same is proved except for the default, of which an old one is kept (C75_command, C75_new_command).")
c("C76", "partial", "Hiera.Command.C76_verified_partial Hiera.Command.C76_clear Hiera.Command.C76_false",
  "Proved if both a certificate and a key are given. Without one of them the server serves in the clear whatever else it is told (C76_clear, witness C76_false). That TLS verifies as configured is assumed.")
c("C77", "partial", "Hiera.C77_kept_partial Hiera.C77_purpose_partial Hiera.C77_false",
  "Without the multiplexer, nothing of the invocation is changed by a lookup that returns (C77_kept_partial). With it, and the configuration as the first function, what is changed does not show: the answer to a lookup does not depend on it (C77_purpose_partial, and C81 for whole lookups). False with a module provider after the configuration: a lookup in a value sets the strategy of the lookup in progress (C77_false: a part of a hash is lost).")
c("C78", "partial", "Hiera.C78_history_partial Hiera.C78_explained_partial Hiera.C78_false Hiera.C78_cache",
  "For all histories of lookups with any outcomes, in any invocation of any session, when the configuration can be resolved: by an invariant of all functions of the evaluator (only memories change), a simulation between states with different memories, and the memories holding what the functions give. With an explainer for histories without failures (C78_explained_partial), as a failure puts the explainer out of order (C27_false_after_failure). For lookup functions that use neither the functions' cache nor other configurations, with the configuration as the first or only top provider. False if the configuration fails to load (C78_false) and for functions that use the cache to remember being asked (C78_cache).")
c("C79", "proved", "Hiera.C79_dotted",
  "Equality of outcomes, including failing and not ending, for all environments, states without explainer, and keys; values are to have no key twice, which C69_keys provides.")
c("C80", "proved", "Hiera.C80_entry Hiera.C80_top",
  "For all entries, locations and states without explainer; C80_top is the whole lookup for variables without expressions.")
c("C81", "proved", "Hiera.C81_answer Hiera.C81_endless Hiera.C81_history Hiera.C81_explained Hiera.C81_one Hiera.C81_session",
  "For all sessions whose top provider is the configuration, or several functions of which the first is the configuration (as for the command line and the server), and whose lookup functions use neither the functions' cache nor other configurations; by a simulation of every function of the evaluator by the reference (Spec/Reference.lean), at every depth of nesting.")
c("C82", "partial", "Hiera.C82_options_partial Hiera.C82_answer_partial Hiera.C82_false",
  "For all keys other than env and env::*. False for env: the environment's variables are taken for lookup options, so that one called merge or convert_to decides over the lookup (C82_false).")
c("C83", "proved", "Hiera.C83_prints Hiera.C83_explains Hiera.C83_served Hiera.C83_rejected Hiera.C83_default Hiera.C83_explainer Hiera.C83_request Hiera.C83_rendering Hiera.C83_type",
  "Exact (iff), for the environments of C81 and a configuration that can be read; the server for keys that arrive as they are (C52 has the others) and without its own explain flags. Renderings are functions of the value, whose text is a parameter.")
c("C84", "proved", "Hiera.Plugin.C84_announced Hiera.Plugin.C84_fit Hiera.Plugin.C84_address",
  "For all histories of a session (starts, stops, exits). If a name is told of under two kinds, it is in the list with both; Go's map keeps one.")
c("C85", "proved", "Hiera.C85_lookup2 Hiera.C85_lookup Hiera.C85_lookupAll Hiera.C85_hash Hiera.C85_options Hiera.C85_scope",
  "Exact (iff), for the environments of C81 and a configuration that can be read. Default functions do nothing but to give a result.")
c("C86", "proved", "Hiera.C86_accepted Hiera.C86_refused Hiera.C86_file", "Exact (iff) against a declarative schema, for all hashes.")
c("C87", "partial", "Hiera.C87_silent_partial Hiera.C87_others_partial Hiera.C87_false",
  "For the environments of C81 and every hierarchy that has no level or at least two. False if there is one: the strategy unique then leaves a value as it is that it makes an array of otherwise (C87_false). C87_others_partial is for a level with other keys only.")
c("C88", "proved", "Hiera.C88_keys Hiera.C88_files",
  "For the environments of C81. What a key refers to is said by a set of keys and variables that refer only to each other (SelfContained), with text in which no expressions come about by interpolation, as for C59.")
c("C89", "partial", "Hiera.C89_alone_partial Hiera.C89_answer Hiera.C89_history",
  "For every timing: the state has a function that tells which configuration files others have parsed by when. C89_alone_partial is for all environments and for sessions in which no configuration failed to load; C89_answer and C89_history are in full for the environments of C81 and a configuration that can be read. Missing: waiting for one that another failed to load (C44, C60), and changes by others of the cache of functions.")
c("C90", "proved", "Hiera.C90_dig Hiera.C90_dotted",
  "For every explanation so far, with an explainer that is told about data. That the value of the first segment is well-formed is C64 for sessions.")
c("C91", "proved", "Hiera.C91_lookup Hiera.C91_command Hiera.C91_nested Hiera.C91_command_nested",
  "For the environments of C81, a configuration that can be resolved, and valid strategies and conversions, with an explainer that is told about data. What a location has is said by the reference semantics (C81). C91_lookup is for the configuration alone, C91_command for the functions of the command line. C91_nested and C91_command_nested are for the nodes at any depth below the node of the lookup, those of lookups in interpolated values included.")
c("C92", "proved", "Hiera.C92_textbook Hiera.C92_one Hiera.C92_unknown",
  "From the text of the configuration file to the answer. Values under the key and the lookup options have no expressions (those are C20-C23, C59, C81), and the options convert nothing (C31). A single value merged by unique is an array without arrays in it and without equal elements, as the code disagrees with itself about others (C11, C87_false); values merged by hash are hashes (C09). C92_one: the specification determines the answer up to the order of the entries of hashes.")
c("C93", "proved", "Hiera.C93_snapshot Hiera.C93_snapshot_answer Hiera.C93_explained Hiera.C93_repeat Hiera.C93_new Hiera.C93_configuration Hiera.C93_failure",
  "The files are those that configurations and data are read from, and they may be others for each lookup; they do not change while a lookup runs. With an explainer for lookups none of which fails (C93_explained). With functions that keep nothing (as for C78); modules and the function yaml_lookup_key are not covered. C93_snapshot is for an invocation whose first lookup gives a value or nothing, C93_snapshot_answer and C93_new tie what is given to the reference of C81. Needed and shown to be so: a changed configuration file is not seen by the session (C93_configuration), and what could not be read is read again (C93_failure).")
c("C94", "proved", "Hiera.C94_answer Hiera.C94_explained Hiera.C94_changing Hiera.C94_value Hiera.C94_options Hiera.C94_hidden Hiera.C94_literal Hiera.C94_once Hiera.C94_taken_for_options",
  "What lookups give is said by a reference (Spec/TopProvider) that has no states. C94_answer: in all states of a session in which the files do not change. C94_changing: with the file as the only provider, while files change between lookups. C94_value, C94_options, C94_hidden and C94_literal say what the answers are in cases that need no reference. The program's own functions use no cache. Several functions: their values are taken for options, too (C94_taken_for_options, as in C82).")
c("C95", "partial", "Hiera.PluginGo.C95_ends Hiera.PluginGo.C95_at_rest Hiera.PluginGo.C95_stopped Hiera.PluginGo.C95_failed Hiera.PluginGo.C95_nothing_left_partial Hiera.PluginGo.C95_left_iff Hiera.PluginGo.C95_false_start Hiera.PluginGo.C95_false_stop Hiera.PluginGo.C95_reaped_iff",
  "False of the code exactly if one of the two timeouts passes (C95_left_iff): after a start that took too long awaitMetaData never ends (C95_false_start), and after a stop that took too long the goroutine that waits for the process never ends (C95_false_stop), as both send on channels without a buffer that nobody receives from any more. Also, the process of a plugin that could not be started is never waited for (C95_reaped_iff).")
c("C96", "proved", "Hiera.Yaml2Json.C96_same", "For documents that have been parsed; the parser and the encoder of JSON are modelled by what they do with maps.")
c("C97", "proved", "Hiera.C97_referring Hiera.C97_one", "With the functions of the command line and the server; with the configuration alone only for data that refers to variables, because lookups within use the strategy of the lookup around them (C32_false).")
c("C98", "partial", "Hiera.AsValues.C98_locations Hiera.AsValues.C98_keys Hiera.AsValues.C98_hash_partial Hiera.AsValues.C98_again Hiera.AsValues.C98_made Hiera.AsValues.C98_false Hiera.AsValues.C98_same_segments",
  "False of the hash codes of keys, of which there are none: HashCode panics (C98_false), so that a key cannot be used in a hash. Keys that have the same segments but are written in different ways are not equal (C98_same_segments).")
c("C99", "proved", "Hiera.C99_variables Hiera.C99_none",
  "For the sessions of C81. The keys and variables in reach are a set that is closed under references (Contained). Where variables may be found as data, by the function scope, the variables of the same names as the keys count as well. The program's own functions ask only for the given variables.")
c("C100", "partial", "Hiera.C100_split_partial Hiera.C100_shapes_partial Hiera.C100_false Hiera.C100_false_alone",
  "For the sessions of C81. Missing, because the code does otherwise: a hierarchy with that level only, where `unique` makes unique also what just one file has (C100_false_alone), and data in which a value is between two others that can be merged and cannot be merged itself (C100_false). Paths of a mapped variable or a glob stay locations of one level.")
c("C101", "proved", "Hiera.C101_prints Hiera.C101_served",
  "C97 put together with C83: from the flags and the requests to what is printed and answered, for lookups without a type (C26) and without an explanation (C83_explains). Parsers and renderers are given by the environment.")
c("C102", "proved", "Hiera.C102_kept",
  "For configurations without stateful functions (StatelessEnv, as C81). Levels that have functions other than data_hash may only be renamed; the default hierarchies have to be the same.")
c("C103", "proved", "Hiera.C103_spelled",
  "For data files of sessions with a configuration that can be parsed; functions are not allowed in the configuration itself (C20).")
c("C104", "partial", "Hiera.C104_textbook Hiera.C104_history Hiera.C104_case",
  "For data with variables in it, but not lookups of other keys (with several lookup functions these change how later levels are merged, C77_false), and for names of directories that differ not only in case (C57_false). Missing, because the code does otherwise: keys that have the name of the module not in lower case find its data, but its lookup options are not heeded (C104_case; `heeded` in the statement). The history theorem is for lookups without an explainer.")
c("C105", "proved", "Hiera.C105_found Hiera.C105_levels Hiera.C105_order Hiera.C105_swap Hiera.C105_spread",
  "For configurations without stateful functions (StatelessEnv, as C81) that are resolved without an error. Levels with several places, or with functions other than data_hash, have to be there on both sides. A hierarchy with one level is left out, because there `unique` does not make an array of a value (C87_false).")
c("C106", "partial", "Hiera.C106_nothing Hiera.C106_told_partial Hiera.C106_false",
  "C106_nothing: for configurations without stateful functions (as C81) with at least two other levels (C87_false). C106_told_partial: for the first time that the level is asked in an invocation, with an explainer. Missing, because the code does otherwise: levels are asked for lookup options first, which is not explained by default, so that by default it is never told (C106_false).")
c("C107", "partial", "Hiera.C107_added_partial Hiera.C107_same_way Hiera.C107_highest Hiera.C107_module Hiera.C107_modules_partial Hiera.C107_false",
  "For the set-ups of C92, with plain data; for the set-ups of C104, with variables in the data, if a module is added (C107_module, without any condition on the values), or if values that may be merged in parts (C111) are added (C107_modules_partial). Missing, because the code does otherwise: with `unique`, a value that is found alone stays as it is and becomes part of an array when another one is found, unless it was a flat array without equal elements; and data that refers to another key, which only a new level has (C107_false).")
c("C108", "proved", "Hiera.C108_told",
  "For calls that the explainer can get: each Push has its Pop, locations are resolved, keys of sub lookups are parsed, and a lookup or key that is not valid is told of under its own key (Proper).")
c("C109", "partial", "Hiera.C109_override Hiera.C109_default Hiera.C109_all Hiera.C109_false",
  "The code does otherwise: nothing calls AcceptFoundInDefaults and AcceptFoundInOverrides. Proved is what it does instead: a value in the overrides leaves the explanation as it was, and the explanation does not depend on the defaults and the default value. That values from the data are told is C63 and C91.")
c("C110", "partial", "Hiera.C110_once_partial Hiera.C110_modules_partial Hiera.C110_same_way Hiera.C110_same_file Hiera.C110_false",
  "For the set-ups of C92, with plain data, and for those of C104, with variables in the data (C110_modules_partial). Missing, because the code does otherwise: with `unique`, a value that is found alone stays as it is and becomes an array when it is found twice, unless it was a flat array without equal elements; with `deep`, an array with equal elements loses them when it is merged with itself (C110_false).")
c("C111", "partial", "Hiera.C111_moved_partial Hiera.C111_together_partial Hiera.C111_false",
  "For the set-ups of C104, whose data may have variables in it. Missing, because the code does otherwise: values that may not be merged in parts (InParts), namely where one value is neither hash nor array, or not the same of the two, at a path where one above it and one below it are both hashes or both arrays (C111_false), and, with `unique`, a value found alone that has equal elements (C100_false_alone).")
c("C112", "proved", "Hiera.C112_order Hiera.C112_values Hiera.C112_same_way Hiera.C112_modules Hiera.C112_levels Hiera.C112_reordered",
  "For the set-ups of C92, with plain data, and for those of C104, with variables in the data (C112_modules, for what the values are when they are filled in), and for those of C119 (C112_levels). Reordered is defined by moving entries at any depth, and is what dgo takes for equal (C112_reordered). Texts that a hash is rendered into do show the order; such data is not plain.")
c("C113", "proved", "Hiera.C113_apart",
  "For the set-ups of C97 and C120, also from one to the other, with the functions of the command line and the server (the configuration alone uses the strategy of the lookup around the reference, C32_false). A key of its own that is merged otherwise than by `first` may have more than the part that was moved, so it is not in the claim.")
c("C114", "proved", "Hiera.C114_renamed",
  "For the set-ups of C97 and C120, also from one to the other, with the functions of the command line and the server. Names with a meaning of their own (lookup_options, and names that are taken for environment variables) are not keys of these set-ups.")
c("C115", "proved", "Hiera.C115_explained Hiera.C115_printed",
  "For the set-ups of C92 and sessions with the functions of the command line and the server. How a value is written is left to dgo. `merged` and `v` both are the merge of the values of the levels; they are equal but for what C92_one says. C115_printed is for `lookup` with one key and any of `--explain` and `--explain-options`; the lines are those of the tree that is rendered (C68, C83).")
c("C116", "proved", "Hiera.C116_missing Hiera.C116_textbook",
  "C116_missing is for every key, data and option, with the data functions that are there; C116_textbook is for data without interpolation and keys as in C92.")
c("C117", "partial", "Hiera.C117_converted_partial Hiera.C117_hash_partial Hiera.C117_levels_partial Hiera.C117_no_type Hiera.C117_levels_no_type Hiera.C117_false",
  "For the set-ups of C92, and in C117_levels_partial and C117_levels_no_type for those of C119. False of the code where two levels say it with an array (C117_false): the lookup options are merged deeply, so the arguments of the lower level are added to those of the higher one. Proved where at most one level says it with an array. Unless the result of the conversion has no interpolation expressions, it is interpolated once more, so it is assumed to have none.")
c("C118", "proved", "Hiera.C118_textbook Hiera.C118_nameless",
  "For the set-ups of C92. C118_nameless does not need the data to have no conversion. With a conversion it is C117_hash_partial.")
c("C119", "proved", "Hiera.C119_textbook Hiera.C119_prints Hiera.C119_served",
  "C119_prints and C119_served are what the command prints and what the server answers. Generalises C92 and C118 (set-ups without conversion for the key). For `deep`, and for the lookup options, which are merged deeply, the values must not keep each other apart (see C100_false); they never do if they have the same shape. The keys of a level are name, one of path, paths, glob, globs and mapped_paths, and perhaps datadir and data_hash, with yaml_data or json_data; the configuration may have defaults with these two. What a pattern matches is there.")
c("C120", "proved", "Hiera.C120_referring Hiera.C120_one Hiera.C120_prints Hiera.C120_served",
  "Generalises C97 and C101 to the hierarchies of C119. The variables in the paths are those of the caller and, in mapped paths, the element; in the data they are those of the caller. For `deep`, and for the lookup options, the values must not keep each other apart (see C100_false). The lookup options have no references in them.")
c("C121", "proved", "Hiera.C121_filled Hiera.C121_spelled",
  "C121_spelled is the case that one of the two files has no defaults and says everything in the levels. There is no condition on the data. The data directory and the plugin directory of the environment have no interpolation in them.")
c("C122", "proved", "Hiera.C122_files Hiera.C122_prints Hiera.C122_served",
  "Generalises C121, and C102 and C103 for these configuration files. The pairing is by levels and, in a level, by files: what one level has is not spread over two (for which see C105). What a pattern matches is there. The data directory and the plugin directory of the environment have no interpolation in them.")
c("C123", "proved", "Hiera.C123_prints Hiera.C123_served",
  "The two set-ups have the same types and conversions, command line and renderings. Explanations are left out: they tell of files and levels, which may be others. C122_prints and C122_served are the case of C122.")
c("C124", "proved", "Hiera.C124_fails Hiera.C124_prints Hiera.C124_served",
  "The lookup options of all levels are read before the first lookup, and that reads all files. Keys with the root `lookup_options` are never looked up and are left out. What a file that cannot be read gives as an error is whatever reading it gives. For `lookup --all` with a type, the type is a struct type. What a pattern matches is there, and the data directory and the plugin directory of the environment have no interpolation in them.")
c("C125", "proved", "Hiera.C125_levels Hiera.C125_order Hiera.C125_prints Hiera.C125_served",
  "Generalises C122, and C105_levels and C105_order to levels with several files. Lookup options are a key as well, so that levels which both have some are not swapped. Which files of a level have the key is not told apart: a level with the key counts as a whole.")
c("C126", "proved", "Hiera.C126_fails Hiera.C126_prints Hiera.C126_served Hiera.C126_leaves Hiera.C126_hangs Hiera.C126_unanswered",
  "The property says what the code does, which is a defect (see C44): a panic in config.New leaves the lock taken. That it hangs is proved for lookups without an explanation, one after the other; C44 is about those at the same time. Keys with the root `lookup_options` are never looked up and are left out, and names that are not keys fail before the configuration file is read. For `lookup --all` with a type, the type is a struct type.")
