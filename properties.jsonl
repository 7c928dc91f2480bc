{"id": "C01", "title": "A parsed key always has a usable string root", "statement": "For every string, NewKey either panics with one of the three documented errors (index as first segment, empty segment, unterminated quote) or returns a key with at least one part whose first part is a string, so Root() never fails; every part is a string or an int that fits in 32 bits.", "quantifier": "every string given to NewKey", "why_tests_cant": "The input domain is infinite; a test samples a handful of it and cannot rule out the untested ones.", "anchors": ["api/key.go: NewKey, parseUnquoted, parseQuoted, Root"]}
{"id": "C02", "title": "Unquoted dots, and only unquoted dots, separate segments", "statement": "For every list of quote-free, dot-free segments, NewKey of the dot-joined text yields exactly those segments in order, numeric ones (beyond the first) as integers and all others verbatim; it is rejected exactly when a segment is empty or the first one is numeric.", "quantifier": "every list of quote- and dot-free segments, of any length", "why_tests_cant": "The input domain is infinite; a test samples a handful of it and cannot rule out the untested ones.", "anchors": ["api/key.go: parseUnquoted"]}
{"id": "C03", "title": "Any text can be reached through a quoted segment", "statement": "For every sequence of segments that NewKey can produce at all there is a spelling (quoting every character) that NewKey parses back to exactly that sequence: quoting hides dots and the other quote character. Conversely every sequence NewKey returns satisfies the stated well-formedness, so the range of NewKey is characterised exactly.", "quantifier": "every segment sequence (any characters, any length)", "why_tests_cant": "The input domain is infinite; a test samples a handful of it and cannot rule out the untested ones.", "anchors": ["api/key.go: parseQuoted, parseUnquoted"]}
{"id": "C04", "title": "A quoted segment is taken literally", "statement": "A segment written in quotes is a string, never an index and never rejected as empty, wherever it stands in the key.", "quantifier": "every key containing a quoted segment, at every position", "why_tests_cant": "Position and content of the quoted segment range over an infinite set; existing tests only quote non-numeric text.", "anchors": ["api/key.go: parseQuoted, mungedPart"]}
{"id": "C05", "title": "Dig inverts Bury", "statement": "For every key and value, digging with the key into what Bury built for it yields that value again.", "quantifier": "every parsed key (any depth) and every value", "why_tests_cant": "The input domain is infinite; a test samples a handful of it and cannot rule out the untested ones.", "anchors": ["api/key.go: Bury, Dig"]}
{"id": "C06", "title": "Dig follows the path exactly and never fails", "statement": "Dig returns the value reached by following the parts after the root: an int part selects an array element iff 0 <= i < length, a part selects a map entry with an equal string/integer key, and in every other case (wrong container, missing key, negative or too large index) the result is 'not found' rather than an error.", "quantifier": "every key, every value", "why_tests_cant": "The input domain is infinite; a test samples a handful of it and cannot rule out the untested ones.", "anchors": ["api/key.go: Dig"]}
{"id": "C07", "title": "First-found returns the highest-priority value and looks no further", "statement": "With strategy 'first' the result is the value of the first source, in order, that has one, 'not found' iff none has one, and no source after the one that supplied the value is consulted.", "quantifier": "every list of sources and every outcome of each source", "why_tests_cant": "The input domain is infinite; a test samples a handful of it and cannot rule out the untested ones.", "anchors": ["merge/strategy.go: firstFound.MergeLookup"]}
{"id": "C08", "title": "Unique merge yields a duplicate-free union in priority order", "statement": "With strategy 'unique' the result is an array holding, without duplicates, every non-array leaf of every found value, in order of first occurrence across sources.", "quantifier": "every list of found values of any shape", "why_tests_cant": "The input domain is infinite; a test samples a handful of it and cannot rule out the untested ones.", "anchors": ["merge/strategy.go: unique.*", "merge/strategy.go: doLookup"]}
{"id": "C09", "title": "Hash merge gives every key to its highest-priority source", "statement": "With strategy 'hash', when the highest-priority found value is a hash, the result is a hash whose keys are the union of the keys of all found hashes and whose value for a key is the one from the highest-priority hash having that key (no recursion); non-hash values below it are ignored, and when the highest-priority value is not a hash it is returned as is.", "quantifier": "every list of found values", "why_tests_cant": "The input domain is infinite; a test samples a handful of it and cannot rule out the untested ones.", "anchors": ["merge/strategy.go: hashMerge.merge", "merge/strategy.go: doLookup"]}
{"id": "C10", "title": "Deep merge gives every path to its highest-priority source", "statement": "merge.Deep(a,b): the keys of the result are the union of the keys; a key only in one side keeps that side's value; a key in both is merged recursively when both values are hashes or both arrays, otherwise the value of 'a' wins; arrays merge to their duplicate-free union in order, except that merging with an empty array yields the other array as it is.", "quantifier": "every pair of values of any depth", "why_tests_cant": "The input domain is infinite; a test samples a handful of it and cannot rule out the untested ones.", "anchors": ["merge/deepmerge.go: Deep, deep"]}
{"id": "C11", "title": "Deep's flag says whether anything changed", "statement": "merge.Deep returns true exactly when the merged value differs from 'a'; when it returns false the first argument itself is returned.", "quantifier": "every pair of values", "why_tests_cant": "The input domain is infinite; a test samples a handful of it and cannot rule out the untested ones.", "anchors": ["merge/deepmerge.go: Deep, deep"]}
{"id": "C12", "title": "Deep merge loses nothing from the preferred side and is neutral on empty values", "statement": "Every key path of 'a' that ends in a scalar has the same value in Deep(a,b); every element of an array of 'a' is still there; merging with an empty hash or an empty array on the right changes nothing, and on the left yields the right value; merging a duplicate-free value with itself changes nothing.", "quantifier": "every pair of values", "why_tests_cant": "The input domain is infinite; a test samples a handful of it and cannot rule out the untested ones.", "anchors": ["merge/deepmerge.go: deep"]}
{"id": "C13", "title": "A merge finds a value iff some source has one", "statement": "For each of the four strategies the merged lookup is 'not found' exactly when every source is 'not found', whatever the number of sources; and for 'unique', 'hash' and 'deep' every source is consulted exactly once, in order.", "quantifier": "every strategy, every list of sources", "why_tests_cant": "The input domain is infinite; a test samples a handful of it and cannot rule out the untested ones.", "anchors": ["merge/strategy.go: doLookup, MergeLookup"]}
{"id": "C14", "title": "Strategy names are closed", "statement": "GetStrategy succeeds exactly for first, unique, hash and deep, reports the same name back, and panics for every other name.", "quantifier": "every string", "why_tests_cant": "The input domain is infinite; a test samples a handful of it and cannot rule out the untested ones.", "anchors": ["merge/strategy.go: GetStrategy"]}
{"id": "C15", "title": "Data without interpolation markers passes through untouched", "statement": "Interpolating a value in which no string (key or element, at any depth) contains '%{' returns that value unchanged and performs no lookup.", "quantifier": "every value, every scope, every data set", "why_tests_cant": "The input domain is infinite; a test samples a handful of it and cannot rule out the untested ones.", "anchors": ["session/interpolate.go: Interpolate, doInterpolate, InterpolateString"]}
{"id": "C16", "title": "Interpolation replaces expressions and preserves all other text", "statement": "The result of interpolating a string is the original text with each '%{...}' occurrence (leftmost, non-overlapping, up to the next '}') replaced by the text of its own expression and every other character kept in order; unterminated markers stay as they are.", "quantifier": "every string and every assignment of results to expressions", "why_tests_cant": "The input domain is infinite; a test samples a handful of it and cannot rule out the untested ones.", "anchors": ["session/interpolate.go: InterpolateString, iplPattern"]}
{"id": "C17", "title": "Empty interpolations vanish", "statement": "Expressions that are blank or one of '::', '\"\"', \"''\", '\"::\"', \"'::'\" (modulo surrounding white space) are replaced by the empty string whatever the scope contains.", "quantifier": "every string containing such expressions, every scope", "why_tests_cant": "The input domain is infinite; a test samples a handful of it and cannot rule out the untested ones.", "anchors": ["session/interpolate.go: emptyInterpolations, InterpolateString"]}
{"id": "C18", "title": "literal() yields its argument verbatim", "statement": "The text of %{literal('x')} in a looked up value is x, so that '%{literal(\"%\")}{y}' yields the text '%{y}'.", "quantifier": "every literal text, every data source that contains it", "why_tests_cant": "The input domain is infinite; a test samples a handful of it and cannot rule out the untested ones.", "anchors": ["session/interpolate.go: getMethodAndData, InterpolateString", "session/invocation.go: Lookup", "internal/datahashprovider.go: dataValue"]}
{"id": "C19", "title": "Aliases keep the type of the value and must stand alone", "statement": "A string that consists solely of %{alias('k')} or %{strict_alias('k')} becomes the value that looking up k returns, of whatever type; if k is missing alias yields the empty string and strict_alias yields not found; an alias expression with any text around it is always an error.", "quantifier": "every key, value and surrounding text", "why_tests_cant": "The input domain is infinite; a test samples a handful of it and cannot rule out the untested ones.", "anchors": ["session/interpolate.go: InterpolateString, isAlias"]}
{"id": "C20", "title": "Interpolation functions are refused in configuration", "statement": "While resolving hiera.yaml (datadir, paths, options, function names) every expression in function-call syntax is an error and no lookup is ever performed.", "quantifier": "every configuration string, every scope", "why_tests_cant": "The input domain is infinite; a test samples a handful of it and cannot rule out the untested ones.", "anchors": ["session/interpolate.go: getMethodAndData", "config/entry.go", "config/path.go", "config/uri.go", "config/glob.go", "config/mappedpaths.go"]}
{"id": "C21", "title": "Unknown variables interpolate to nothing", "statement": "A scope expression whose variable is not in scope, or whose sub-key is missing, is replaced by the empty string, never by an error.", "quantifier": "every syntactically valid expression, every scope", "why_tests_cant": "The input domain is infinite; a test samples a handful of it and cannot rule out the untested ones.", "anchors": ["session/interpolate.go: InterpolateInScope"]}
{"id": "C22", "title": "Interpolation preserves the shape of collections", "statement": "Interpolating an array yields an array of the same length with each element interpolated in place; interpolating a hash yields a hash of the interpolated entries; scalars other than strings are untouched.", "quantifier": "every collection", "why_tests_cant": "The input domain is infinite; a test samples a handful of it and cannot rule out the untested ones.", "anchors": ["session/interpolate.go: doInterpolate"]}
{"id": "C23", "title": "lookup_options cannot be looked up", "statement": "A lookup of any key whose root is 'lookup_options' (also quoted or with sub-keys, also from an interpolation) finds nothing, whatever the data holds, and never consults the data.", "quantifier": "every key with that root, every session and data set", "why_tests_cant": "The input domain is infinite; a test samples a handful of it and cannot rule out the untested ones.", "anchors": ["session/invocation.go: Lookup"]}
{"id": "C24", "title": "Override beats data beats defaults", "statement": "Lookup2 returns the first of: override entry of the first name that has one, hierarchy value of the first name that has one, defaults-hash entry of the first name that has one, default value, default function; nothing of lower rank is evaluated once a higher rank produced a value.", "quantifier": "every list of names, every combination of present and absent sources", "why_tests_cant": "The input domain is infinite; a test samples a handful of it and cannot rule out the untested ones.", "anchors": ["hiera/hiera.go: Lookup2, lookupInMap"]}
{"id": "C25", "title": "LookupAll returns exactly the found names", "statement": "LookupAll returns a hash that has an entry for a requested name iff the name is found in override, data or defaults, in that order of preference, each name independent of the others.", "quantifier": "every list of names and data set", "why_tests_cant": "The input domain is infinite; a test samples a handful of it and cannot rule out the untested ones.", "anchors": ["hiera/hiera.go: LookupAll"]}
{"id": "C26", "title": "A requested type is enforced", "statement": "Lookup2 and LookupAll only return values that are instances of the requested type or the outcome of converting to it; they never return a non-conforming value unconverted.", "quantifier": "every type, every value source", "why_tests_cant": "The input domain is infinite; a test samples a handful of it and cannot rule out the untested ones.", "anchors": ["hiera/hiera.go: ensureType, ensureTypeFromMap"]}
{"id": "C27", "title": "Explaining does not change the answer", "statement": "A lookup made with an explainer (any combination of explain flags) returns the same value, or fails with the same error, as the same lookup without one.", "quantifier": "every key, data set, configuration, top provider and custom function", "why_tests_cant": "The explainer is threaded through every step of the lookup and switches code paths; a test can compare only individual lookups.", "anchors": ["session/invocation.go: With*, Report*, ForConfig, ForData, ForLookupOptions", "explain/explainer.go"]}
{"id": "C28", "title": "The explanation stack is balanced, also on failure", "statement": "After any lookup, successful or failed with a panic, the explainer's current node is the one it was before the lookup, so that further lookups are recorded at the right place.", "quantifier": "every lookup, every point of failure", "why_tests_cant": "Panics can leave from any depth of the nested calls.", "anchors": ["session/invocation.go: With*", "explain/explainer.go: push, Pop"]}
{"id": "C29", "title": "Endless recursion is detected", "statement": "A lookup that (directly or indirectly) depends on itself fails with an error instead of recursing forever.", "quantifier": "every cyclic data set", "why_tests_cant": "Cycles of any length through any mixture of lookup, alias and scope expressions.", "anchors": ["session/invocation.go: WithKey, nameStack, Lookup", "session/interpolate.go", "api/invocation.go: Invocation"]}
{"id": "C30", "title": "The hierarchy is searched top to bottom, locations left to right", "statement": "With the default strategy a lookup through hiera.yaml returns the value of the first (entry, location) pair in lexicographic order that has the key, and no later location is read for the value.", "quantifier": "every hierarchy, every number of entries and locations, every data set", "why_tests_cant": "The input domain is infinite; a test samples a handful of it and cannot rule out the untested ones.", "anchors": ["session/invocation.go: MergeHierarchy, MergeLocations", "merge/strategy.go"]}
{"id": "C31", "title": "Missing files are never read", "statement": "A data provider is invoked for a location only if the location exists; an entry whose glob or mapped paths expand to nothing contributes nothing, and an entry without locations is invoked exactly once without one.", "quantifier": "every hierarchy and every set of existing files", "why_tests_cant": "The input domain is infinite; a test samples a handful of it and cannot rule out the untested ones.", "anchors": ["session/invocation.go: MergeLocations, invokeWithLocation"]}
{"id": "C32", "title": "The merge strategy comes from the caller, else from lookup_options, else is 'first'", "statement": "The strategy used for a lookup is the caller's merge option if given, otherwise the merge entry of the key's own lookup options, otherwise 'first'; a strategy given as a hash uses its 'strategy' entry, and unknown names are errors.", "quantifier": "every caller option and every lookup_options hash, for top-level and nested lookups", "why_tests_cant": "The input domain is infinite; a test samples a handful of it and cannot rule out the untested ones.", "anchors": ["session/invocation.go: SetMergeStrategy", "provider/configlookupkey.go"]}
{"id": "C33", "title": "Module lookup options cannot leak out of the module", "statement": "The lookup options of a module configuration apply only to keys that start with '<module>::'; a global configuration's options apply to any key; options that are not a hash are ignored.", "quantifier": "every module name, key and lookup_options hash", "why_tests_cant": "The input domain is infinite; a test samples a handful of it and cannot rule out the untested ones.", "anchors": ["session/resolvedconfig.go: LookupOptions"]}
{"id": "C34", "title": "Sensitive values are not revealed by the explainer", "statement": "When lookup_options convert a key to Sensitive, the plain value does not appear in the explanation of the lookup.", "quantifier": "every value, every hierarchy", "why_tests_cant": "The input domain is infinite; a test samples a handful of it and cannot rule out the untested ones.", "anchors": ["session/invocation.go: LookupAndConvertData, DoRedacted, ReportFound"]}
{"id": "C35", "title": "Invocation scope shadows session scope", "statement": "A variable is resolved in the invocation's scope first and in the session's scope only if absent there; other variables are unaffected.", "quantifier": "every pair of scopes and variable", "why_tests_cant": "The input domain is infinite; a test samples a handful of it and cannot rule out the untested ones.", "anchors": ["session/invocation.go: nestedScope.Get", "config/mappedpaths.go: scopeWithVar"]}
{"id": "C36", "title": "A temporary scope ends with the call", "statement": "After DoWithScope the invocation's scope is what it was before, also when the function panics.", "quantifier": "every scope, every function", "why_tests_cant": "The function may panic at any point.", "anchors": ["session/invocation.go: DoWithScope"]}
{"id": "C37", "title": "The multiplexer combines its functions by priority", "statement": "MuxLookupKey under the default strategy returns the value of the first function that has one; under a merge strategy it merges all of them in order; the lookup options it uses are the deep merge of those of its functions.", "quantifier": "every list of functions", "why_tests_cant": "The input domain is infinite; a test samples a handful of it and cannot rule out the untested ones.", "anchors": ["provider/muxlookupkey.go: MuxLookupKey"]}
{"id": "C38", "title": "default_hierarchy is consulted when the hierarchy has no value", "statement": "A key that is found nowhere in the hierarchy is looked up in the configured default_hierarchy.", "quantifier": "every configuration with a default_hierarchy", "why_tests_cant": "The input domain is infinite; a test samples a handful of it and cannot rule out the untested ones.", "anchors": ["session/resolvedconfig.go: DefaultHierarchy", "provider/configlookupkey.go"]}
{"id": "C39", "title": "Ambiguous configurations are rejected", "statement": "A configuration is rejected if two entries of a hierarchy have the same name, if an entry names more than one function or more than one kind of location, or if an entry's options use a key reserved by Hiera; every other schema-valid configuration is accepted.", "quantifier": "every schema-valid configuration", "why_tests_cant": "The input domain is infinite; a test samples a handful of it and cannot rule out the untested ones.", "anchors": ["config/config.go: createHierarchy, createEntry", "config/entry.go: initialize"]}
{"id": "C40", "title": "Entries inherit exactly what they do not define", "statement": "A resolved entry uses its own function, datadir, plugindir and options when it defines them and those of the (resolved) defaults otherwise; without defaults the built-in ones (yaml_data, data, plugin).", "quantifier": "every entry and defaults", "why_tests_cant": "The input domain is infinite; a test samples a handful of it and cannot rule out the untested ones.", "anchors": ["config/entry.go: Resolve, resolve*"]}
{"id": "C41", "title": "Resolved locations are complete and in order", "statement": "Resolving the locations of an entry yields the concatenation, in order, of one path per path/uri, all matches per glob, and one path per element of the mapped variable for mapped_paths, each joined to the data directory, with the mapped variable visible only while its own path is expanded.", "quantifier": "every entry, scope and file system", "why_tests_cant": "The input domain is infinite; a test samples a handful of it and cannot rule out the untested ones.", "anchors": ["config/entry.go: resolveLocations", "config/path.go", "config/glob.go", "config/uri.go", "config/mappedpaths.go"]}
{"id": "C42", "title": "Config file selection", "statement": "The session reads the file given by Hiera::Config if set; otherwise it is <root>/<file> where root is Hiera::Root or the working directory and file is Hiera::ConfigFileName, else $HIERA_CONFIGFILE, else hiera.yaml; a missing file yields the default two-level hierarchy.", "quantifier": "every combination of options and environment", "why_tests_cant": "The input domain is infinite; a test samples a handful of it and cannot rule out the untested ones.", "anchors": ["session/session.go: addHieraConfig", "config/config.go: New"]}
{"id": "C43", "title": "A configuration file is parsed once and everyone sees the same one", "statement": "In a session, under any interleaving of any number of invocations, config.New runs at most once per path as long as it succeeds, and every invocation that obtains a configuration for the path obtains that one.", "quantifier": "every number of concurrent invocations and every schedule", "why_tests_cant": "Schedules cannot be enumerated by tests.", "anchors": ["session/invocation.go: Config"]}
{"id": "C44", "title": "A failing configuration does not block others", "statement": "If loading a configuration panics, concurrent and later invocations that need it terminate (with an error), they do not hang.", "quantifier": "every schedule, every failure", "why_tests_cant": "Needs a specific interleaving of failure and waiting.", "anchors": ["session/invocation.go: Config"]}
{"id": "C45", "title": "A data file is read once per provider and location", "statement": "Under any interleaving of lookups through one data_hash provider, the data function runs at most once per location (as long as it succeeds), all lookups of that location see the same data, and some lookup can always make progress.", "quantifier": "every number of goroutines, every schedule", "why_tests_cant": "Schedules cannot be enumerated by tests.", "anchors": ["internal/datahashprovider.go: dataHash"]}
{"id": "C46", "title": "The provider cache behaves like a map", "statement": "After any sequence of Cache, CacheAll, CachedValue and CachedEntries calls, CachedValue returns the value most recently stored for the key, Cache returns the value it replaced, and other keys are unaffected; sessions do not share caches.", "quantifier": "every operation sequence", "why_tests_cant": "Sequences of any length.", "anchors": ["session/serverctx.go"]}
{"id": "C47", "title": "Concurrent Cache calls lose no replaced value", "statement": "Under concurrent Cache calls for one key every stored value but the last is returned as the replaced value to exactly one caller.", "quantifier": "every schedule", "why_tests_cant": "Schedules cannot be enumerated by tests.", "anchors": ["session/serverctx.go: Cache"]}
{"id": "C48", "title": "REST requests do not see each other's variables", "statement": "The scope of a REST lookup consists of the server's variables and the request's own var parameters, whatever other requests are served at the same time.", "quantifier": "every number of concurrent requests, every schedule, every number of server variables", "why_tests_cant": "Depends on slice capacity and interleaving.", "anchors": ["hieraserver/rest/rest.go: CreateRouter", "hiera/hiera.go: createScope"]}
{"id": "C49", "title": "At most one process per plugin path", "statement": "In a session, under any sequence of function loads, failures and shutdowns, at most one live process exists per plugin path and asking again for a running plugin starts nothing.", "quantifier": "every history of start, failure and stop operations", "why_tests_cant": "Histories of any length and any failure point.", "anchors": ["session/pluginloader.go: startPlugin, pluginRegistry"]}
{"id": "C50", "title": "No plugin process outlives the session", "statement": "After KillPlugins every process the session ever started has been terminated or killed; a plugin that fails to start properly is killed at once.", "quantifier": "every history and failure point", "why_tests_cant": "Failure can strike at any step of the start protocol.", "anchors": ["session/pluginloader.go: startPlugin, stopAll, kill", "session/session.go: KillPlugins", "hiera/hiera.go: TryWithParent, DoWithParent"]}
{"id": "C51", "title": "A plugin is never killed twice", "statement": "No history makes the session kill the same plugin twice (which would block forever on the plugin's lock).", "quantifier": "every history", "why_tests_cant": "Histories of any length.", "anchors": ["session/pluginloader.go: kill, stopAll"]}
{"id": "C52", "title": "REST answers reflect the lookup", "statement": "A request for /lookup/<key> answers 200 with the rendered value iff the lookup found one (or a default), 404 iff it found none, 500 iff it failed with an error, and 404 for paths outside /lookup/.", "quantifier": "every request and lookup outcome", "why_tests_cant": "The input domain is infinite; a test samples a handful of it and cannot rule out the untested ones.", "anchors": ["hieraserver/rest/rest.go: CreateRouter", "hiera/hiera.go: LookupAndRender"]}
{"id": "C53", "title": "Command line variables: last definition wins, facts win over all", "statement": "The scope built from command line options maps each variable to the last definition in the order --var, --vars files, --facts files, and 'facts' to the hash of all facts.", "quantifier": "every list of variables and files", "why_tests_cant": "The input domain is infinite; a test samples a handful of it and cannot rule out the untested ones.", "anchors": ["hiera/hiera.go: createScope, addVarPaths"]}
{"id": "C54", "title": "--var splits at the first lone separator", "statement": "A variable argument is split at the first ':' or '=' that is neither at the start nor adjacent to another separator nor at the end; without one it is an error. Name, separator and value together are the argument.", "quantifier": "every argument string", "why_tests_cant": "The input domain is infinite; a test samples a handful of it and cannot rule out the untested ones.", "anchors": ["hiera/hiera.go: varSplit, createScope"]}
{"id": "C55", "title": "The environment provider exposes exactly the environment", "statement": "Key 'env' yields a hash of all variables, 'env::NAME' the value of NAME iff it is set, and every other key nothing.", "quantifier": "every environment and key", "why_tests_cant": "The input domain is infinite; a test samples a handful of it and cannot rule out the untested ones.", "anchors": ["provider/environment.go: Environment"]}
{"id": "C56", "title": "Provider functions see their entry's options and location", "statement": "A data_hash, lookup_key or data_dig function configured in an entry is called with the entry's resolved options, plus 'path' set to the resolved location when there is one.", "quantifier": "every entry, every kind of function", "why_tests_cant": "The input domain is infinite; a test samples a handful of it and cannot rule out the untested ones.", "anchors": ["internal/datahashprovider.go: dataHash, optionsWithLocation", "internal/lookupkeyprovider.go", "internal/datadigprovider.go: loadFunction"]}
{"id": "C57", "title": "Module names are matched without regard to case", "statement": "A key 'Mod::x' is looked up in the first directory of the module path that holds a directory whose name equals 'mod' up to case and has a hiera.yaml; a directory that cannot be examined and is reached before that is an error of the lookup; keys without a module prefix are not looked up in modules; the outcome of the search is remembered for the session.", "quantifier": "every module path, directory content and key", "why_tests_cant": "The input domain is infinite; a test samples a handful of it and cannot rule out the untested ones.", "anchors": ["provider/modulelookupkey.go"]}
{"id": "C58", "title": "convert_to converts found values only", "statement": "When lookup_options has convert_to for a key, the value returned is the conversion of the found (merged) value to that type with the given arguments; when nothing is found nothing is converted.", "quantifier": "every lookup_options hash and value", "why_tests_cant": "The input domain is infinite; a test samples a handful of it and cannot rule out the untested ones.", "anchors": ["session/invocation.go: extractConversion, LookupAndConvertData"]}
{"id": "C59", "title": "Lookups are deterministic and terminate on acyclic data", "statement": "For given data, configuration and scope a lookup has exactly one outcome, and if references between values are acyclic it terminates.", "quantifier": "every acyclic data set", "why_tests_cant": "The input domain is infinite; a test samples a handful of it and cannot rule out the untested ones.", "anchors": ["session/invocation.go: Lookup", "session/interpolate.go"]}
{"id": "C60", "title": "A parsed configuration is never modified by lookups", "statement": "Resolving a cached configuration on behalf of an invocation leaves the shared configuration as it was, so that invocations with different scopes do not influence each other.", "quantifier": "every configuration and sequence of invocations", "why_tests_cant": "The input domain is infinite; a test samples a handful of it and cannot rule out the untested ones.", "anchors": ["config/entry.go: Resolve", "session/resolvedconfig.go: CreateProviders"]}
{"id": "C61", "title": "Values from any kind of provider may refer to other keys", "statement": "A value supplied by a lookup_key or data_dig function of a hierarchy entry may contain %{lookup('k')} (or hiera/alias) and is resolved like a value from a data file: the lookup of k succeeds with k's value.", "quantifier": "every such value, hierarchy and key", "why_tests_cant": "Needs the combination of provider kind, top provider and nested reference; the existing tests only nest references in data files.", "anchors": ["session/invocation.go: Lookup, ForData, MergeStrategy", "provider/configlookupkey.go: ConfigLookupKeyAt", "internal/lookupkeyprovider.go"]}
{"id": "C62", "title": "A merge strategy requested on the command line or by REST is honoured", "statement": "LookupAndRender with a merge option uses exactly that strategy, taking precedence over lookup_options, for each of the four names.", "quantifier": "every strategy name and every lookup_options hash", "why_tests_cant": "The input domain is infinite; a test samples a handful of it and cannot rule out the untested ones.", "anchors": ["hiera/hiera.go: LookupAndRender", "session/invocation.go: SetMergeStrategy"]}
{"id": "C63", "title": "The explanation mentions every consulted location in order", "statement": "With an explainer the explanation tree of a merged lookup has one branch per consulted provider and location, in order of consultation, and no others; each says which value was found for which key, and these values account for the answer.", "quantifier": "every hierarchy", "why_tests_cant": "The input domain is infinite; a test samples a handful of it and cannot rule out the untested ones.", "anchors": ["explain/explainer.go", "session/invocation.go: MergeHierarchy, MergeLocations"]}
{"id": "C64", "title": "Explanations survive serialization", "statement": "Creating an explain node from its own initialisation map yields a node with the same event, key, value, texts, branches and kind-specific data.", "quantifier": "every explanation tree", "why_tests_cant": "The input domain is infinite; a test samples a handful of it and cannot rule out the untested ones.", "anchors": ["explain/explainer.go: initMap, initialize"]}
{"id": "C65", "title": "A quoted key is looked up as one name", "statement": "Looking up a quoted key ('a.b') through the configuration finds the value that the data has under the name between the quotes, and fails in no case in which an unquoted key would not fail.", "quantifier": "every key with a quoted first segment, every hierarchy", "why_tests_cant": "A key is parsed again on its way through the layers; only a proof over all keys shows which ones change.", "anchors": ["provider/configlookupkey.go: ConfigLookupKeyAt", "api/key.go: NewKey"]}
{"id": "C66", "title": "A data_dig function is given all segments of the key", "statement": "The function of a data_dig entry is called with all segments of the key that was asked for.", "quantifier": "every key", "why_tests_cant": "The input domain is infinite; a test samples a handful of it and cannot rule out the untested ones.", "anchors": ["internal/datadigprovider.go: LookupKey", "provider/configlookupkey.go: ConfigLookupKeyAt"]}
{"id": "C67", "title": "A configuration says what its file says", "statement": "An accepted configuration has exactly the entries of the file, in the order of the file, each with exactly the settings that the file has for it, and the built-in defaults, hierarchy and directories where the file says nothing or does not exist.", "quantifier": "every configuration file", "why_tests_cant": "The input domain is infinite; a test samples a handful of it and cannot rule out the untested ones.", "anchors": ["config/config.go: New, createConfig, createHierarchy, createEntry", "config/entry.go: initialize"]}
{"id": "C68", "title": "An explanation can always be shown, and tells every location", "statement": "Whatever a session has looked up and however that ended, the explanation of an invocation can be rendered as text without failing. The lines of the text tell each location in the explanation, as written and as resolved, whether it exists, and which value it has for which key, in the order of the explanation. The text is the outline of the explanation and nothing else: a line for each thing that the nodes tell, indented by depth, where a merge of one source is not told.", "quantifier": "every session, every sequence of lookups with any outcome", "why_tests_cant": "The input domain is infinite; a test samples a handful of it and cannot rule out the untested ones.", "anchors": ["explain/explainer.go: AppendTo, dumpOutcome, dumpTexts, String"]}
{"id": "C69", "title": "Answers are made of what the sources hold", "statement": "No map in an answer has a key twice if no map in the sources has. Every truth value, sensitive value and uninterpreted value in an answer is exactly one that a data file, a variable, an option, a function or a type constructor gave; a sensitive value is handed on as a whole.", "quantifier": "every environment, session and key", "why_tests_cant": "The input domain is infinite; a test samples a handful of it and cannot rule out the untested ones.", "anchors": ["session/invocation.go", "session/interpolate.go", "merge/strategy.go", "merge/deepmerge.go"]}
{"id": "C70", "title": "A function is the one of its name, from the entry's own plugin file if the session has none", "statement": "The function of a hierarchy entry is the function of that name that the session was given. If there is none, it is the function of that name in the plugin whose file is the entry's plugin file (by default the one named after the function) in the entry's plugin directory, whatever loader the session has for a parent; two entries with different plugin files do not get each other's functions.", "quantifier": "every session, entry, name of a function and chain of parent loaders", "why_tests_cant": "The path of the file is turned into the name of a name space and back; only a proof over all paths shows that nothing is lost.", "anchors": ["session/session.go: LoadFunction, newHieraLoader, createFunctionLoader, createPluginLoader"]}
{"id": "C71", "title": "Data is read from the data directory", "statement": "Every path of a resolved hierarchy entry is at or below the entry's data directory, which is seen from the directory of the configuration, and is where the interpolated template leads from there.", "quantifier": "every entry, defaults, template, scope and value of the interpolated variables", "why_tests_cant": "The values of variables are arbitrary texts, which over REST come from the client.", "anchors": ["config/path.go: Resolve", "config/glob.go: Resolve", "config/mappedpaths.go: Resolve", "config/entry.go: Resolve, DataDir"]}
{"id": "C72", "title": "A failed start of a plugin can be repeated", "statement": "If starting a plugin fails, then asking for it once more starts it once more, with the outcome that a first attempt would have; it does not fail because of the earlier failure.", "quantifier": "every history of a session, every way in which the start fails", "why_tests_cant": "The input domain is infinite; a test samples a handful of it and cannot rule out the untested ones.", "anchors": ["session/pluginloader.go: startPlugin, initialize, functionMap"]}
{"id": "C73", "title": "A plugin is asked exactly what was looked up, and its response is given", "statement": "A function of a plugin sends one request to the plugin's address, for the function of that name, from which the key and the options can be read back exactly; what it gives is the decoded body, nothing when the plugin has no value, and an error otherwise. Different keys make different requests.", "quantifier": "every plugin, function, key, set of options and response", "why_tests_cant": "Keys and options are escaped on the way; the set of characters is unbounded.", "anchors": ["session/pluginloader.go: makeOptions, dataDigDispatch, dataHashDispatch, lookupKeyDispatch, callPlugin"]}
{"id": "C74", "title": "A plugin is told the session's choices", "statement": "Whatever the environment of the process, a plugin finds the cookie, the transport and the directory for sockets that the session's options ask for, and every other variable as the process has it.", "quantifier": "every environment and every session options", "why_tests_cant": "The input domain is infinite; a test samples a handful of it and cannot rule out the untested ones.", "anchors": ["session/pluginloader.go: initCmd, getUnixSocketDir, getPluginTransport"]}
{"id": "C75", "title": "Every execution of the command line stands for itself", "statement": "What a lookup from the command line does depends on its own flags only: each option is the last one given, or its default, and the options that may be repeated are all given, in order, whatever has been executed before in the process.", "quantifier": "every sequence of flags, every state left by earlier executions", "why_tests_cant": "Flags are bound to variables of the package, which keep their values.", "anchors": ["cli/hiera.go: NewCommand, cmdLookup", "cli/executelookup.go: ExecuteLookup"]}
{"id": "C76", "title": "Clients are verified when that is asked for", "statement": "A server started with clientCertVerify serves no client whose certificate is not signed by the given authorities; if it cannot be set up like that, it does not start.", "quantifier": "every combination of flags and files", "why_tests_cant": "The input domain is infinite; a test samples a handful of it and cannot rule out the untested ones.", "anchors": ["hieraserver/rest/rest.go: startServer, makeTLSconfig"]}
{"id": "C77", "title": "A lookup in a value does not influence the lookup that it is part of", "statement": "While a value is looked up, looking up another value for its sake leaves the merge strategy, the options, the scope and the mode of the lookup in progress as they were: what is found at other levels, and how it is merged, is the same as if the value were given directly.", "quantifier": "every hierarchy, key and nested lookup", "why_tests_cant": "The input domain is infinite; a test samples a handful of it and cannot rule out the untested ones.", "anchors": ["provider/muxlookupkey.go: MuxLookupKey", "session/invocation.go: SetMergeStrategy, ForData", "session/interpolate.go: InterpolateString"]}
{"id": "C78", "title": "Earlier lookups of an invocation do not change later answers", "statement": "What a lookup gives, be it a value, nothing or an error, does not depend on what has been looked up before in the same invocation, nor on whether that succeeded.", "quantifier": "every sequence of earlier lookups with any outcome, every key, every hierarchy", "why_tests_cant": "Providers, configurations and parsed files are remembered between lookups; the sequences of lookups are unbounded.", "anchors": ["session/invocation.go: Config, Lookup", "internal/datahashprovider.go: dataHash", "session/resolvedconfig.go: Resolve"]}
{"id": "C79", "title": "A key with several segments leads into the value of its first segment", "statement": "A lookup of a key with several segments gives exactly what is found by following the other segments, one after the other, in what a lookup of the first segment gives: nothing if they lead nowhere, and the same error if that lookup fails.", "quantifier": "every key, environment, hierarchy, strategy and function", "why_tests_cant": "The input domain is infinite; a test samples a handful of it and cannot rule out the untested ones.", "anchors": ["session/invocation.go: Lookup", "api/key.go: Dig"]}
{"id": "C80", "title": "The scope function gives the variables of the invocation", "statement": "A hierarchy entry with the function scope, and the function scope as a provider of its own, give the variable that the first segment of the key names, as the scope of the invocation has it, and nothing for other names.", "quantifier": "every scope, key, entry and location", "why_tests_cant": "The input domain is infinite; a test samples a handful of it and cannot rule out the untested ones.", "anchors": ["provider/scopelookupkey.go: ScopeLookupKey", "internal/lookupkeyprovider.go: LookupKey"]}
{"id": "C81", "title": "The answer to a lookup is determined by files, variables, functions and the key", "statement": "Whatever a session was used for before, with or without an explainer, a lookup gives exactly the answer of a reference that keeps nothing: it reads the configuration, resolves its hierarchy, interpolates, merges and converts with no memory, no order of evaluation and no invocation to change; and there is no answer exactly if the lookup has no end.", "quantifier": "every configuration, hierarchy, data, scope, key, options, and every earlier use of the session", "why_tests_cant": "The code keeps memories and changes the invocation as it goes; that none of it shows is a statement about all sequences of calls.", "anchors": ["session/invocation.go: Lookup, MergeHierarchy, Config", "session/interpolate.go: Interpolate", "session/resolvedconfig.go: Resolve", "provider/configlookupkey.go: ConfigLookupKeyAt", "provider/muxlookupkey.go: MuxLookupKey"]}
{"id": "C82", "title": "From the command line, only lookup_options and flags say how a value is merged and converted", "statement": "As the command line and the REST server are set up (the configuration and then the environment), the merge strategy of a lookup is the one asked for, or the one that lookup_options have for the key; the value is converted to the type that lookup_options have for the key; nothing else has an influence on either.", "quantifier": "every configuration, environment, key and option", "why_tests_cant": "The input domain is infinite; a test samples a handful of it and cannot rule out the untested ones.", "anchors": ["cli/executelookup.go: ExecuteLookup", "hieraserver/rest/rest.go: CreateHandler", "provider/muxlookupkey.go: MuxLookupKey", "provider/environment.go: Environment"]}
{"id": "C83", "title": "What is printed or answered is the rendered answer of the reference", "statement": "With a configuration that can be read, whatever a session or a server was used for before: the command prints, and the server answers with, the rendering of the first answer that the names have in the scope of the variables given, made to be of the type asked for; the default value if there is none; of all names with their values if all are asked for; nothing, or 404, if nothing is found; the error if there is one; and the explanation instead, if that is asked for. A wrong flag or parameter is an error, and nothing is looked up.", "quantifier": "every configuration, data, flags, names, variables, requests and earlier uses", "why_tests_cant": "It ties the text that is printed to files and flags over all earlier requests; tests print single values in new processes.", "anchors": ["hiera/hiera.go: LookupAndRender, Lookup2, LookupAll", "hieraserver/rest/rest.go: CreateHandler, doLookup", "cli/hiera.go: cmdLookup"]}
{"id": "C84", "title": "The functions of a plugin are those that it has told of", "statement": "The functions that a plugin gives to a session are exactly those, of the kinds, that the plugin told of when it was started, at the address that it told of; a plugin that speaks another version of the protocol, or has told of no address or no functions, is never used.", "quantifier": "every history of a session, every meta-data", "why_tests_cant": "The input domain is infinite; a test samples a handful of it and cannot rule out the untested ones.", "anchors": ["session/pluginloader.go: startPlugin, initialize, functionMap"]}
{"id": "C85", "title": "A program gets the answers that keys have", "statement": "Lookup gives the answer for the name with the given options, else the default value; Lookup2 gives the value of the source of the highest rank (overrides, the first of the names that has an answer, the hash of defaults, the default value, the default function) made to be of the requested type; LookupAll gives the hash of all names that have a value, each ranked and typed. Options and scopes that are not hashes are errors. This holds in every invocation of a session, whatever was looked up before.", "quantifier": "every file, scope, name, option, override, default and type, every history of a session", "why_tests_cant": "The input domain is infinite; a test samples a handful of it and cannot rule out the untested ones.", "anchors": ["hiera/hiera.go: Lookup, Lookup2, LookupAll", "api/coerce.go: ToMap", "session/session.go: Invocation"]}
{"id": "C86", "title": "Exactly the well-formed configurations are accepted", "statement": "A configuration file is accepted if and only if it is a hash with version 5 and well-formed defaults and hierarchies (known keys only, named entries, texts that are not empty, lists that are not empty, options with well-formed names and plain data) that is not ambiguous; a file that is not well-formed is refused with that error, and only a missing file is replaced by the built-in configuration.", "quantifier": "every file content", "why_tests_cant": "The input domain is infinite; a test samples a handful of it and cannot rule out the untested ones.", "anchors": ["config/config.go: definitions, hieraTypeString, New"]}
{"id": "C87", "title": "A level of the hierarchy that has nothing changes nothing", "statement": "If a level is put anywhere into a hierarchy, and there is nothing in it (no file, or none of the keys that matter), then all lookups give what they gave before: with every strategy, for keys that refer to other keys, and for the lookup options.", "quantifier": "every configuration, hierarchy, place, data, scope, key, options, strategy and session", "why_tests_cant": "The input domain is infinite; a test samples a handful of it and cannot rule out the untested ones.", "anchors": ["session/invocation.go: MergeHierarchy, MergeLocations", "merge/strategy.go: doLookup, unique.MergeLookup", "session/resolvedconfig.go: Resolve"]}
{"id": "C88", "title": "A lookup depends only on the keys that its key refers to, and on the files of its hierarchy", "statement": "If files are changed, but not under a key, nor under those that it refers to, directly or not, nor the lookup options, then a lookup of that key gives what it gave before. If files are changed to which no entry of the hierarchy leads, in the given scope, then all lookups give what they gave before.", "quantifier": "every configuration, hierarchy, change of files, scope, key, options, strategy and session", "why_tests_cant": "The input domain is infinite; a test samples a handful of it and cannot rule out the untested ones.", "anchors": ["session/invocation.go: Lookup, MergeHierarchy", "session/interpolate.go: Interpolate", "provider/yaml.go: YamlDataHash", "session/invocation.go: lookupViaCache"]}
{"id": "C89", "title": "Invocations that run at the same time get the answers that they get alone", "statement": "What an invocation of a session gets for its lookups, including errors and the explanation, is what it gets in a session of its own, whichever configuration files other invocations of the session parse before it or at the same time.", "quantifier": "every session, number and timing of other invocations, and sequence of lookups", "why_tests_cant": "It depends on the timing of goroutines, of which tests see few.", "anchors": ["session/invocation.go: Config, Lookup", "session/session.go: Invocation, SharedCache"]}
{"id": "C90", "title": "The explanation of a key with several segments tells where it leads", "statement": "With an explainer, a lookup of a key with several segments is explained as one of the first segment, and then, if that gave something, by exactly one node for the key, with one node for each further segment in turn up to the first that leads nowhere; each of them shows its segment and whether something is there and what.", "quantifier": "every configuration, data, scope, key, options and explanation so far", "why_tests_cant": "The input domain is infinite; a test samples a handful of it and cannot rule out the untested ones.", "anchors": ["api/key.go: Dig", "session/invocation.go: WithSubLookup, WithSegment, ReportFound, ReportNotFound", "explain/explainer.go: keyToString"]}
{"id": "C91", "title": "What an explanation says is true", "statement": "With an explainer that is told about data, the explanation of a lookup has a node for it with the root of the key, which tells where the merge option is from, if there is one, and then has one node for each level that was asked, in order, by name. The nodes say of each location what that location has for the key, and what they say accounts for what the hierarchy has for the key. This also holds if the lookup fails. Options of all keys are explained before it if, and only if, this is asked for. The same is true of the nodes of the lookups that interpolating values makes, wherever they are in the explanation.", "quantifier": "every configuration that can be read, data, session so far, scope, key and options", "why_tests_cant": "The input domain is infinite; a test samples a handful of it and cannot rule out the untested ones.", "anchors": ["session/invocation.go: WithLookup, WithDataProvider, WithLocation, ReportMergeSource, ReportFound, ReportNotFound", "explain/explainer.go", "merge/strategy.go: Lookup", "provider/configlookupkey.go: ConfigLookupKeyAt", "provider/muxlookupkey.go: MuxLookupKey"]}
{"id": "C92", "title": "In an ordinary set-up the answer is the one in the documentation", "statement": "If the configuration file has levels with a name and a path with variables, the data files have plain data, and the lookup options say how values are merged (if anything), then a lookup of a key gives the merge of the values that the levels have for it, from the highest to the lowest: the first one; all elements once; all keys with the values of the highest level; or the deep merge. The way to merge is what the caller asked for, else what the highest level says that says something about it, else the first. A lookup of a dotted key gives what the merge has in that place, and a way to merge that there is not is an error.", "quantifier": "every number of levels, path, variable, data, key, options, session, with the configuration alone and with the functions of the command line", "why_tests_cant": "The input domain is infinite; a test samples a handful of it and cannot rule out the untested ones.", "anchors": ["config/config.go: New, createHierarchy", "session/resolvedconfig.go: Resolve", "provider/yaml.go: YamlDataHash", "merge/strategy.go", "merge/deepmerge.go", "session/invocation.go: Lookup, MergeHierarchy, SetMergeStrategy", "api/key.go: NewKey, Dig"]}
{"id": "C93", "title": "An invocation sees one snapshot of the files, and the next one sees the files as they are then", "statement": "Whatever happens to the files after the first lookup of an invocation (configuration, data, and which files there are), each later lookup of the invocation gives what it would have given then: the same value, nothing, the same error or no end. What a lookup has given once it gives again, whatever was looked up in between. A new invocation of the same session sees the data files as they are; the configuration file is read only once in a session.", "quantifier": "every configuration, data, scope, sequence of lookups with any outcome, and any change of files between any two lookups", "why_tests_cant": "The input domain is infinite; a test samples a handful of it and cannot rule out the untested ones.", "anchors": ["session/invocation.go: Config, Lookup", "session/resolvedconfig.go: Resolve", "internal/datahashprovider.go: dataHash"]}
{"id": "C94", "title": "Without a configuration, lookups give what the functions have", "statement": "In a session whose top provider is the file of the option path, the variables, the environment, a function of the program, or several of these, a lookup gives what the function has for the first segment of the key, interpolated once, and then what the other segments lead to in it, whatever the session was used for before. Options of the lookup matter only to the program's own functions and to several functions. The file is read once in a session, by the first lookup for which it can be read; until then each lookup tries again.", "quantifier": "every session, sequence of invocations and lookups with any outcome, file, change of files, scope, environment, key and options", "why_tests_cant": "The input domain is infinite; a test samples a handful of it and cannot rule out the untested ones.", "anchors": ["provider/yamllookupkey.go: YamlLookupKey", "provider/scopelookupkey.go: ScopeLookupKey", "provider/environment.go: Environment", "provider/muxlookupkey.go: MuxLookupKey", "session/invocation.go: Lookup", "session/serverctx.go: Cache, CachedValue"]}
{"id": "C95", "title": "Nothing of a plugin stays behind", "statement": "However a plugin behaves, serving it comes to an end once the session is stopped: its process has ended, and so have the goroutines that read its output, wait for its meta-data and wait for its end. When stopping it returns, the process and the readers have ended already.", "quantifier": "every order of events: when the process writes, what it writes, when it ends, and which timeouts pass", "why_tests_cant": "The outcome depends on how goroutines, the process and the timers interleave; tests see one schedule, and a goroutine that waits forever does not make a test fail.", "anchors": ["session/pluginloader.go: startPlugin, awaitMetaData, copyErrToLog, ignoreOut, kill"]}
{"id": "C96", "title": "yaml2json keeps the document, or says that it cannot", "statement": "The program writes a JSON document exactly if all keys of all maps are strings and JSON has all scalars of the document, and then that document says the same as the YAML document.", "quantifier": "every document, of any depth, for parsers that make maps with keys of any kind always or only if needed", "why_tests_cant": "The input domain is infinite; a test samples a handful of it and cannot rule out the untested ones.", "anchors": ["yaml2json/main.go: stringKeys, main"]}
{"id": "C97", "title": "Data that refers to variables and other keys means what the documentation says", "statement": "In an ordinary set-up, texts in the data, at any depth of arrays and hashes, may have expressions for variables (with fields), for the values of other keys (lookup), and may stand for the value of another key (alias), as long as keys do not refer to each other in a cycle. A lookup then gives the merge of what the levels have, in which each expression is replaced by the value of the variable, or by the answer for the other key, found and merged in the same way; one without a value is replaced by nothing. Nothing else in the data changes.", "quantifier": "every number of levels, data of any depth, variables, chains of references of any length, key, options and session", "why_tests_cant": "The input domain is infinite; a test samples a handful of it and cannot rule out the untested ones.", "anchors": ["session/interpolate.go", "session/invocation.go: Lookup, InterpolateInScope, MergeHierarchy", "provider/configlookupkey.go", "provider/muxlookupkey.go", "api/key.go: NewKey, Dig"]}
{"id": "C98", "title": "Keys and locations are proper values", "statement": "Keys and locations are equal exactly if they are the same, equal ones have the same hash code, and what they are turned into when they are written can be read again to give the same key or location; reading fails unless all fields are there.", "quantifier": "every key, path, glob, URI and mapped paths, and every hash code of texts", "why_tests_cant": "The input domain is infinite; a test samples a handful of it and cannot rule out the untested ones.", "anchors": ["api/key.go: Equals, HashCode, keyType", "config/path.go: pathType, Equals, HashCode", "config/glob.go", "config/uri.go", "config/mappedpaths.go"]}
{"id": "C99", "title": "A lookup depends only on the variables that are referred to", "statement": "What a lookup of a key gives depends only on those variables that the configuration refers to (in paths, globs, URIs, mapped paths, options, names of functions and directories) and that are referred to by the values in reach of the key. Whatever other variables a caller has, and whatever is in them, it gives the same. Without such references it gives the same with any variables.", "quantifier": "every configuration, data, pair of scopes that agree on these variables, session, key and options", "why_tests_cant": "The input domain is infinite; a test samples a handful of it and cannot rule out the untested ones.", "anchors": ["session/interpolate.go: doInterpolate, resolveInScope", "session/resolvedconfig.go: Resolve", "config/entry.go: Resolve", "config/mappedpaths.go: Resolve", "provider/scopelookupkey.go: ScopeLookupKey"]}
{"id": "C100", "title": "A level with several locations is the same as a level for each of them", "statement": "A level with several paths, globs or URIs can be split into levels with one of them each, in the same order and with the same settings, and no lookup gives anything else, whatever the strategy: in a hierarchy with other levels, and as long as no value keeps apart two others that would be merged without it.", "quantifier": "every configuration, position of the level in the hierarchy, number of locations, data, strategy, session, key and options", "why_tests_cant": "The input domain is infinite; a test samples a handful of it and cannot rule out the untested ones.", "anchors": ["session/invocation.go: MergeHierarchy, MergeLocations", "merge/strategy.go: MergeLookup", "session/dataprovider.go", "merge/deep.go", "provider/configlookupkey.go"]}
{"id": "C101", "title": "From the shell to the files and back", "statement": "In the set-up of C97, the command lookup prints the first value that the names given to it have, or with --all a hash of all of them, or the default value: the value of a name is the merge of what the files of the levels say about it, with the variables from the flags in the place of expressions, in the rendering that is asked for. The server answers a request with that value as JSON, or with 404 if there is none, whatever was requested before.", "quantifier": "every set-up of C97, list of names, variables, flags for strategy, default value and rendering, sequence of earlier requests, and session", "why_tests_cant": "The input domain is infinite; a test samples a handful of it and cannot rule out the untested ones.", "anchors": ["cli/hiera.go", "hiera/hiera.go: LookupAndRender, Lookup2, LookupAll", "hiera/render.go", "hieraserver/rest/rest.go", "provider/configlookupkey.go", "session/invocation.go"]}
{"id": "C102", "title": "It does not matter where and how data is kept", "statement": "If two configurations, each with its own files, are resolved to as many levels, and level by level and place by place the same data is read (the same value for each key, in whatever order and however expressions are written in it), then every lookup gives the same with both: whatever the names of the levels are, wherever the files are, and whichever functions, formats and options are used to read them.", "quantifier": "every two configurations and sets of files, names, paths, formats, functions and options, variables, pair of sessions, key and options of a lookup", "why_tests_cant": "The input domain is infinite; a test samples a handful of it and cannot rule out the untested ones.", "anchors": ["config/entry.go: Resolve", "session/dataprovider.go", "session/invocation.go: MergeHierarchy, MergeLocations", "provider/yamldata.go", "provider/jsondata.go", "provider/configlookupkey.go"]}
{"id": "C103", "title": "An expression means the same, however it is written", "statement": "White space around an expression, the kind of quotes, scope('x') in the place of x, hiera in the place of lookup, and the ways to write an expression that stands for nothing, do not matter: data files that differ only in these give the same to every lookup, at any depth of values and in keys of hashes.", "quantifier": "every environment without state, configuration, set of files, number and place of expressions, session, scope, key and options", "why_tests_cant": "The input domain is infinite; a test samples a handful of it and cannot rule out the untested ones.", "anchors": ["session/interpolate.go: InterpolateString, getMethodAndData, doInterpolate, emptyInterpolations"]}
{"id": "C104", "title": "A configuration with modules means what the documentation says", "statement": "With a configuration and modules that have configurations of their own, the lookup of a key gives what the levels of the configuration have for it, merged, together with what the levels of the module have for it, merged, which are merged in the same way: as the caller asks, else as the highest level of the configuration says that says something about the key, else as the highest level of the module does. The module is the first one of that name on the module path, in any case; keys without a module before :: and keys of modules that are nowhere are found in the configuration alone. It does not matter which keys of which modules were looked up before.", "quantifier": "every number of levels in each configuration, module path, data, variables, strategy, key, sequence of earlier lookups, and session", "why_tests_cant": "The input domain is infinite; a test samples a handful of it and cannot rule out the untested ones.", "anchors": ["provider/modulelookupkey.go: ModuleLookupKey, loadModule", "provider/muxlookupkey.go", "provider/configlookupkey.go: ConfigLookupKeyAt", "session/resolvedconfig.go: LookupOptions, Resolve", "session/invocation.go: Config, SetMergeStrategy, Lookup"]}
{"id": "C105", "title": "Only the values that are found count, not the levels", "statement": "What lookups give depends on the hierarchy only through the values that it has for each key, one after the other. Levels that have no key in common may stand in any order, the data of a level may be spread over several files on levels in its place, levels that have nothing may be put in anywhere, and levels may be put together: no lookup gives anything else, with any strategy, as long as neither hierarchy consists of one level only.", "quantifier": "every two configurations and sets of files whose hierarchies have the same values for every key, variables, pair of sessions, key and options of a lookup", "why_tests_cant": "The input domain is infinite; a test samples a handful of it and cannot rule out the untested ones.", "anchors": ["session/invocation.go: MergeHierarchy, MergeLocations", "merge/strategy.go: MergeLookup", "session/dataprovider.go", "session/resolvedconfig.go: LookupOptions, Resolve", "provider/configlookupkey.go"]}
{"id": "C106", "title": "A level whose function is not there counts for nothing, and the explanation says so", "statement": "If there is no function with the name that a level of the hierarchy has for it, neither registered nor in a plugin, then every lookup gives the same as without the level, and the explanation of a lookup that asks the level says, at the level, that there is no such function and which.", "quantifier": "every configuration, kind of function, locations, key, strategy and session", "why_tests_cant": "The input domain is infinite; a test samples a handful of it and cannot rule out the untested ones.", "anchors": ["internal/datahashprovider.go: loadFunction", "internal/datadigprovider.go: loadFunction", "internal/lookupkeyprovider.go: loadFunction", "session/resolvedconfig.go: Resolve", "session/invocation.go: ForLookupOptions, ReportText"]}
{"id": "C107", "title": "A level below takes nothing away", "statement": "If levels are added below those of a hierarchy, a lookup that is merged in the same way still has everything that it had: the same text, number or truth value, the keys of hashes at every depth with values that have everything that they had, and the elements of arrays first and in their order. Likewise the answer has everything that the highest level has for the key. It is merged in the same way if the caller or a level above says how, or if the new levels say nothing about it.", "quantifier": "every ordinary set-up and every extension of it by levels below, data, variables, strategy, key and part of it, and pair of sessions", "why_tests_cant": "The input domain is infinite; a test samples a handful of it and cannot rule out the untested ones.", "anchors": ["merge/strategy.go", "merge/deepmerge.go: deep", "session/invocation.go: MergeHierarchy, SetMergeStrategy", "provider/configlookupkey.go", "provider/muxlookupkey.go"]}
{"id": "C108", "title": "An explainer tells what it was told", "statement": "Whatever sequence of calls an explainer gets (Accept methods, and Push methods with what follows until their Pop, nested to any depth), its text is the account of these calls: a line for each thing that was opened with what was told in it below and indented, in the order of the calls, then how it ended, of which the last call counts, then the remarks; for each kind of thing and of outcome in the words of that kind.", "quantifier": "every sequence of calls, nested to any depth, with any keys, values and texts", "why_tests_cant": "The input domain is infinite; a test samples a handful of it and cannot rule out the untested ones.", "anchors": ["explain/explainer.go: Accept..., Push..., Pop, AppendTo", "api/explainer.go: Explainer"]}
{"id": "C109", "title": "Values from overrides and defaults are told", "statement": "With an explainer, the explanation tells of the value that Lookup2 or LookupAll gives, also if it is from the overrides, the hash of defaults or the default value.", "quantifier": "every list of names, overrides, defaults, default value, and state of an invocation", "why_tests_cant": "The input domain is infinite; a test samples a handful of it and cannot rule out the untested ones.", "anchors": ["hiera/hiera.go: Lookup2, LookupAll", "explain/explainer.go: AcceptFoundInDefaults, AcceptFoundInOverrides"]}
{"id": "C110", "title": "A level that repeats a level above it counts once", "statement": "If all that a level has for a key, a level above it has for it as well (as when two interpolated paths lead to the same file), the level can be left out: lookups with the same way of merging have the same answer, where only the order of the keys of a merge by hash may differ. Lookup options that are repeated say nothing new.", "quantifier": "every ordinary set-up, place of the level, key with fields, merge strategy, options, scope, and session", "why_tests_cant": "The input domain is infinite; a test samples a handful of it and cannot rule out the untested ones.", "anchors": ["merge/strategy.go: merge, MergeLookup", "merge/deepmerge.go: deep", "config/path.go: Resolve", "provider/configlookupkey.go: ConfigLookupKeyAt"]}
{"id": "C111", "title": "Levels may move between the configuration and a module", "statement": "The answer for a key of a module depends on the values that the levels of the configuration and then of the module have for it, and not on where the one ends and the other begins. The lowest levels of the configuration may be moved to the top of the module, the highest levels of the module to the bottom of the configuration, and the whole module into it, and the answer is the same, if it is merged in the same way.", "quantifier": "every two set-ups with a configuration and modules with the same values for a key, with variables in the data, strategy, key with fields, scopes, options, and pair of sessions", "why_tests_cant": "The input domain is infinite; a test samples a handful of it and cannot rule out the untested ones.", "anchors": ["provider/muxlookupkey.go", "provider/modulelookupkey.go: ModuleLookupKey", "merge/strategy.go: merge, MergeLookup", "merge/deepmerge.go: deep"]}
{"id": "C112", "title": "The order in which the entries of hashes are written does not matter", "statement": "If the data files of one set-up are those of another one with the entries of hashes in another order, at any depth, then every key, and every field of it, has the same answer in both, but for the order of entries: lookup options are read in the same way, the same strategy is used, and merges of reordered values are reordered merges.", "quantifier": "every two ordinary set-ups (or set-ups with modules and variables in the data, or with levels of every kind) with reordered values, every strategy, key with fields, scopes, options, and pair of sessions", "why_tests_cant": "The input domain is infinite; a test samples a handful of it and cannot rule out the untested ones.", "anchors": ["merge/strategy.go: merge, convertValue, mergeSingle", "merge/deepmerge.go: deep", "provider/configlookupkey.go: ConfigLookupKeyAt", "session/resolvedconfig.go: LookupOptions, Resolve"]}
{"id": "C113", "title": "Parts of the data may be kept under keys of their own", "statement": "If parts of the data (a whole value, a value within hashes and arrays, or some of a text) are moved to a key of their own, or to a field of it, on any level, and are referred to with lookup() or alias() from where they were, then every key that was there before has the same answer as before. The same if variables are written out. The key that keeps the part must be merged by `first`, and its highest level must have the part.", "quantifier": "every two set-ups of C97 or C120 (levels of every kind) of which one has the data of the other kept apart, to any depth and with any number of references, strategy, key with fields, scope, options, and pair of sessions", "why_tests_cant": "The input domain is infinite; a test samples a handful of it and cannot rule out the untested ones.", "anchors": ["session/interpolate.go: InterpolateString, InterpolateInScope", "provider/configlookupkey.go: ConfigLookupKeyAt", "provider/muxlookupkey.go", "merge/strategy.go: MergeLookup"]}
{"id": "C114", "title": "Keys and variables may be given other names", "statement": "If keys are given other names, in the data, in the lookup options and in everything that refers to them, and variables are given other names in the data and where they come from, then a lookup of a key under its other name gives what a lookup of the key gave before. Two keys that have the same data may be given the same name.", "quantifier": "every two set-ups of C97 or C120 (levels of every kind) of which one is the other with other names, strategy, key with fields, scopes, options, and pair of sessions", "why_tests_cant": "The input domain is infinite; a test samples a handful of it and cannot rule out the untested ones.", "anchors": ["session/interpolate.go: InterpolateString, InterpolateInScope", "provider/configlookupkey.go: ConfigLookupKeyAt", "provider/muxlookupkey.go", "session/resolvedconfig.go: LookupOptions, Resolve"]}
{"id": "C115", "title": "What --explain and --explain-options print in an ordinary set-up", "statement": "In an ordinary set-up, what --explain prints for a key is determined by the levels and their data, line by line: the key that is searched for; where the merge strategy is from, if the caller or the data says so; for each level that is asked, in order, how it is read, its file, the path as it is written in the configuration, and what the file has for the key; the strategy and the result, if there are levels to merge; and for a dotted key its fields, one after the other, up to one that is not there. With --explain-options it is the levels and what they have as lookup options, and with both it is the one after the other. There is nothing else, and with `first` no level after the one that has the key is mentioned.", "quantifier": "every ordinary set-up, strategy, key with fields, scope, options, session with the functions of the command line and the server, and history of it", "why_tests_cant": "The input domain is infinite; a test samples a handful of it and cannot rule out the untested ones.", "anchors": ["explain/explainer.go: AppendTo, Push, Pop, Accept", "provider/muxlookupkey.go", "provider/configlookupkey.go: ConfigLookupKeyAt", "session/invocation.go: MergeHierarchy, MergeLocations, SetMergeStrategy, WithLookup, WithSegment, WithSubLookup", "internal/datahashprovider.go: LookupKey", "api/key.go: Dig"]}
{"id": "C116", "title": "Without a configuration file, two files are the data", "statement": "If there is no configuration file, then the data is what is in data.yaml in the directory where the configuration file would be, and then what is in common.yaml in the data directory: a lookup gives the merge of what the two have for the key, by the strategy that the caller or their lookup options want. Every lookup is the same as with a configuration file in the same directory that has no hierarchy, or one that lists these two files.", "quantifier": "every world without a configuration file, key, options, scope, session, and configuration file that has no more than is built in; and for the merge every data of the two files without interpolation", "why_tests_cant": "The input domain is infinite; a test samples a handful of it and cannot rule out the untested ones.", "anchors": ["config/config.go: New, makeDefaultConfig, makeDefaultHierarchy, createConfig", "config/entry.go: Resolve", "provider/configlookupkey.go: ConfigLookupKeyAt"]}
{"id": "C117", "title": "What is found is converted to the type that the highest level says", "statement": "In an ordinary set-up, if the lookup options of levels say `convert_to` for a key, then the merge of the values of the key is converted to the type that the highest of them says, with the arguments that it says, and a dotted key gives a field of the result. If there is no such type, then the lookup fails, whether the key has a value or not.", "quantifier": "every ordinary set-up, also with levels of every kind (C119), strategy, key with fields, scope, options, and session; types and what is made with them are dgo's", "why_tests_cant": "The input domain is infinite; a test samples a handful of it and cannot rule out the untested ones.", "anchors": ["session/invocation.go: extractConversion, LookupAndConvertData", "session/resolvedconfig.go: LookupOptions, Resolve", "merge/deepmerge.go: deep", "provider/muxlookupkey.go"]}
{"id": "C118", "title": "The merge may be said with a hash", "statement": "In an ordinary set-up, the caller and the lookup options may say how the values of a key are merged with a hash that has the name of the strategy under `strategy`, and this is the same as if the name was said alone: other options in the hash do not change what is found. What the caller says is before what the data says. If the highest level that says something says a name, then it is this. If it says a hash, then it is the strategy of the highest level that names one in a hash. If there is none, then the lookup fails.", "quantifier": "every ordinary set-up without conversion for the key, and every key with fields, scope, options, and session", "why_tests_cant": "The input domain is infinite; a test samples a handful of it and cannot rule out the untested ones.", "anchors": ["session/invocation.go: SetMergeStrategy", "merge/strategy.go: GetStrategy", "session/resolvedconfig.go: LookupOptions, Resolve", "merge/deepmerge.go: deep", "provider/configlookupkey.go: ConfigLookupKeyAt", "provider/muxlookupkey.go"]}
{"id": "C119", "title": "Levels of every kind", "statement": "A hierarchy whose levels have one path or several, patterns of file names, or a path for every element of a variable or of a field of it, with data directories of their own that may have variables in them, and with YAML or JSON files, where what a level does not say is as the defaults of the configuration file say, if it has any: from the configuration file to the answer, a lookup gives the merge of what the files have for the key, in the order of the levels and, in a level, in the order of its paths, of what a pattern matches, and of the elements of the variable; files that are not there are passed over. A dotted key gives what the merge has in that place. The lookup command prints this, and the server answers with it. For a deep merge, no value may keep apart two others that would be merged without it.", "quantifier": "every configuration file of this form, any number of levels and files, any data without interpolation, strategy that is said by name or with a hash, key with fields, scope, options, and session", "why_tests_cant": "The input domain is infinite; a test samples a handful of it and cannot rule out the untested ones.", "anchors": ["config/config.go: New, createHierarchy, createEntry", "config/entry.go: Resolve, resolveDataDir, resolveLocations", "config/path.go: Resolve", "config/glob.go: Resolve", "config/mappedpaths.go: Resolve", "provider/configlookupkey.go: ConfigLookupKeyAt", "provider/yamldata.go: YamlData", "provider/jsondata.go: JSONData", "merge/strategy.go: doLookup, MergeLookup", "hiera/hiera.go: LookupAndRender, Lookup2, LookupAll", "hieraserver/rest/rest.go: CreateHandler, doLookup"]}
{"id": "C120", "title": "Levels of every kind, whose data refers to variables and other keys", "statement": "With levels of every kind as in C119, and data that refers to variables and, without cycles, to other keys, as text in a text, or as an alias for the whole value: from the configuration file to the answer, a lookup gives the merge of what the data of the files means, in the order of the levels and, in a level, of its files, where references mean the values of the variables of the caller and the answers for the other keys. There is one such answer, up to the order of the entries of hashes, if equal values are written in the same way. The lookup command prints this, and the server answers with it, whatever was requested before.", "quantifier": "every configuration file of this form, any number of levels and files, data with references by ranked keys, strategy, key with fields, scope, options, and session", "why_tests_cant": "The input domain is infinite; a test samples a handful of it and cannot rule out the untested ones.", "anchors": ["config/config.go: New, createHierarchy, createEntry", "config/entry.go: Resolve", "config/mappedpaths.go: Resolve", "session/interpolate.go: InterpolateString, InterpolateInScope", "provider/configlookupkey.go: ConfigLookupKeyAt", "merge/strategy.go: doLookup, MergeLookup", "hiera/hiera.go: LookupAndRender, Lookup2, LookupAll", "hieraserver/rest/rest.go: CreateHandler, doLookup"]}
{"id": "C121", "title": "What the defaults say may as well be said in the levels", "statement": "If two configuration files in the same directory have the same levels once the data directory and the format of the files that a level does not say are taken from the defaults, then they give the same for all keys, whatever the data is. So a configuration file may as well be written without defaults, where every level says its data directory and format; a level that says something itself does not get it from the defaults; and what every level says need not be among the defaults.", "quantifier": "every two such configuration files, any number of levels of every kind (C119), any data, key, options, scope without interpolation in its values, and pair of sessions", "why_tests_cant": "The input domain is infinite; a test samples a handful of it and cannot rule out the untested ones.", "anchors": ["config/config.go: New, createConfig, createHierarchy, createEntry", "config/entry.go: Resolve, resolveDataDir, resolveFunction", "provider/configlookupkey.go: ConfigLookupKeyAt"]}
{"id": "C122", "title": "Only the files that a level stands for count", "statement": "If the levels of two configuration files, one by one, stand for files that have the same, then they give the same for all keys, whatever the data is; levels of which no file is there do not count, as long as there is not exactly one level, and files of a level that are not there do not count, as long as it does not stand for exactly one file. Two files have the same if they are one file that is read in the same way, if neither is there, or if both are there and have the same for all keys, in whatever order, and with expressions written in whatever way. It does not matter in which directories the configuration files and the data are, how levels are called, whether files are listed, matched by patterns or named after the elements of a variable, which formats they have, and what is said in the defaults.", "quantifier": "every two configuration files with levels of every kind (C119), any data that can be read or not, key, options, scope without interpolation in its values, and pair of sessions", "why_tests_cant": "The input domain is infinite; a test samples a handful of it and cannot rule out the untested ones.", "anchors": ["config/config.go: New, createHierarchy, createEntry", "config/entry.go: Resolve, resolveDataDir, resolveLocations", "config/path.go: Resolve", "config/glob.go: Resolve", "config/mappedpaths.go: Resolve", "provider/configlookupkey.go: ConfigLookupKeyAt", "provider/yamldata.go: YamlData", "provider/jsondata.go: JSONData"]}
{"id": "C123", "title": "What gives the same is printed and served the same", "statement": "If two set-ups give the same for all keys and options in the scope that the options of a command make, then the lookup command prints the same with these options, or fails with the same error, for all arguments, and the server answers the same to all requests, whatever was looked up or requested before. So all that is said about lookups that give the same (C102, C103, C105, C116, C121, C122) holds for what is printed and served.", "quantifier": "every two set-ups without state, options without an explanation, arguments, requests, and histories", "why_tests_cant": "The input domain is infinite; a test samples a handful of it and cannot rule out the untested ones.", "anchors": ["hiera/hiera.go: LookupAndRender, Lookup2, LookupAll", "hiera/render.go: Render", "hieraserver/rest/rest.go: CreateHandler, doLookup", "api/key.go: NewKey"]}
{"id": "C124", "title": "A data file that cannot be read makes every lookup fail", "statement": "If a data file of any level is there but cannot be read, or has something else than a hash (an empty file has none), then every lookup fails with an error that says so, wherever in the hierarchy the file is, and whether or not the key is found without it; with several such files it is the first of them. The lookup command prints nothing and fails with this error, also with a default value, and the server answers with status 500.", "quantifier": "every configuration file with levels of every kind (C119), any number of levels and files, any data after the file and any data before it whose lookup options have no expressions, key, options, scope without interpolation in its values, session, arguments and requests", "why_tests_cant": "The input domain is infinite; a test samples a handful of it and cannot rule out the untested ones.", "anchors": ["provider/yamldata.go: YamlData", "provider/jsondata.go: JSONData", "session/resolvedconfig.go: Resolve", "provider/configlookupkey.go: ConfigLookupKeyAt", "merge/strategy.go: doLookup, MergeLookup", "hiera/hiera.go: LookupAndRender, Lookup2, LookupAll", "hieraserver/rest/rest.go: CreateHandler, doLookup"]}
{"id": "C125", "title": "Only the levels that have a key count for it", "statement": "If, for every key, the levels of two configuration files that have it stand for files that have the same (as in C122), one by one, then they give the same for all keys, and the lookup command prints and the server answers the same: a level all of whose files can be read and do not have the key does not count, wherever it is, as long as there is not exactly one level. So levels of which no two have a key in common may be in any order.", "quantifier": "every two configuration files with levels of every kind (C119) and any number of files, any data, key, options, scope without interpolation in its values, and pair of sessions", "why_tests_cant": "The input domain is infinite; a test samples a handful of it and cannot rule out the untested ones.", "anchors": ["config/config.go: New, createHierarchy", "config/entry.go: Resolve, resolveLocations", "provider/configlookupkey.go: ConfigLookupKeyAt", "internal/datahashprovider.go: LookupKey", "merge/strategy.go: doLookup, MergeLookup", "provider/yamldata.go: YamlData"]}
{"id": "C126", "title": "A configuration file that is refused makes the first lookup fail and all later ones hang", "statement": "If the configuration file is there but cannot be read, or is not a valid configuration, then the first lookup in a session fails with the error that says why, whatever the key and its options are: the lookup command prints nothing and fails with this error, also with a default value, and the server answers the first request for a key with status 500. It leaves the file locked, so that no later lookup in the session ever returns, neither with a value nor with an error; the server never answers another request for a key.", "quantifier": "every configuration file that is refused, for whatever reason, every key, options, scope, session, arguments and request before and after", "why_tests_cant": "The input domain is infinite; a test samples a handful of it and cannot rule out the untested ones.", "anchors": ["session/invocation.go: Config", "config/config.go: New", "provider/configlookupkey.go: ConfigLookupKeyAt", "provider/muxlookupkey.go: MuxLookupKey", "hiera/hiera.go: LookupAndRender, Lookup2, LookupAll", "hieraserver/rest/rest.go: CreateHandler, doLookup"]}
