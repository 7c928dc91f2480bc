# Generates /verif/properties.jsonl. Run: python3 tools/props.py
import json, os
P = []
def p(title, statement, quantifier, why, anchors):
    P.append(dict(id="C%02d" % (len(P)+1), title=title, statement=statement, quantifier=quantifier,
                  why_tests_cant=why, anchors=anchors))

INF = "The input domain is infinite; a test samples a handful of it and cannot rule out the untested ones."
# ---- keys
p("A parsed key always has a usable string root",
  "For every string, NewKey either panics with one of the three documented errors (index as first segment, empty segment, unterminated quote) or returns a key with at least one part whose first part is a string, so Root() never fails; every part is a string or an int that fits in 32 bits.",
  "every string given to NewKey", INF, ["api/key.go: NewKey, parseUnquoted, parseQuoted, Root"])
p("Unquoted dots, and only unquoted dots, separate segments",
  "For every list of quote-free, dot-free segments, NewKey of the dot-joined text yields exactly those segments in order, numeric ones (beyond the first) as integers and all others verbatim; it is rejected exactly when a segment is empty or the first one is numeric.",
  "every list of quote- and dot-free segments, of any length", INF, ["api/key.go: parseUnquoted"])
p("Any text can be reached through a quoted segment",
  "For every sequence of segments that NewKey can produce at all there is a spelling (quoting every character) that NewKey parses back to exactly that sequence: quoting hides dots and the other quote character. Conversely every sequence NewKey returns satisfies the stated well-formedness, so the range of NewKey is characterised exactly.",
  "every segment sequence (any characters, any length)", INF, ["api/key.go: parseQuoted, parseUnquoted"])
p("A quoted segment is taken literally",
  "A segment written in quotes is a string, never an index and never rejected as empty, wherever it stands in the key.",
  "every key containing a quoted segment, at every position", "Position and content of the quoted segment range over an infinite set; existing tests only quote non-numeric text.", ["api/key.go: parseQuoted, mungedPart"])
p("Dig inverts Bury",
  "For every key and value, digging with the key into what Bury built for it yields that value again.",
  "every parsed key (any depth) and every value", INF, ["api/key.go: Bury, Dig"])
p("Dig follows the path exactly and never fails",
  "Dig returns the value reached by following the parts after the root: an int part selects an array element iff 0 <= i < length, a part selects a map entry with an equal string/integer key, and in every other case (wrong container, missing key, negative or too large index) the result is 'not found' rather than an error.",
  "every key, every value", INF, ["api/key.go: Dig"])
# ---- merge
p("First-found returns the highest-priority value and looks no further",
  "With strategy 'first' the result is the value of the first source, in order, that has one, 'not found' iff none has one, and no source after the one that supplied the value is consulted.",
  "every list of sources and every outcome of each source", INF, ["merge/strategy.go: firstFound.MergeLookup"])
p("Unique merge yields a duplicate-free union in priority order",
  "With strategy 'unique' the result is an array holding, without duplicates, every non-array leaf of every found value, in order of first occurrence across sources.",
  "every list of found values of any shape", INF, ["merge/strategy.go: unique.*", "merge/strategy.go: doLookup"])
p("Hash merge gives every key to its highest-priority source",
  "With strategy 'hash', when the highest-priority found value is a hash, the result is a hash whose keys are the union of the keys of all found hashes and whose value for a key is the one from the highest-priority hash having that key (no recursion); non-hash values below it are ignored, and when the highest-priority value is not a hash it is returned as is.",
  "every list of found values", INF, ["merge/strategy.go: hashMerge.merge", "merge/strategy.go: doLookup"])
p("Deep merge gives every path to its highest-priority source",
  "merge.Deep(a,b): the keys of the result are the union of the keys; a key only in one side keeps that side's value; a key in both is merged recursively when both values are hashes or both arrays, otherwise the value of 'a' wins; arrays merge to their duplicate-free union in order, except that merging with an empty array yields the other array as it is.",
  "every pair of values of any depth", INF, ["merge/deepmerge.go: Deep, deep"])
p("Deep's flag says whether anything changed",
  "merge.Deep returns true exactly when the merged value differs from 'a'; when it returns false the first argument itself is returned.",
  "every pair of values", INF, ["merge/deepmerge.go: Deep, deep"])
p("Deep merge loses nothing from the preferred side and is neutral on empty values",
  "Every key path of 'a' that ends in a scalar has the same value in Deep(a,b); every element of an array of 'a' is still there; merging with an empty hash or an empty array on the right changes nothing, and on the left yields the right value; merging a duplicate-free value with itself changes nothing.",
  "every pair of values", INF, ["merge/deepmerge.go: deep"])
p("A merge finds a value iff some source has one",
  "For each of the four strategies the merged lookup is 'not found' exactly when every source is 'not found', whatever the number of sources; and for 'unique', 'hash' and 'deep' every source is consulted exactly once, in order.",
  "every strategy, every list of sources", INF, ["merge/strategy.go: doLookup, MergeLookup"])
p("Strategy names are closed",
  "GetStrategy succeeds exactly for first, unique, hash and deep, reports the same name back, and panics for every other name.",
  "every string", INF, ["merge/strategy.go: GetStrategy"])
# ---- interpolation
p("Data without interpolation markers passes through untouched",
  "Interpolating a value in which no string (key or element, at any depth) contains '%{' returns that value unchanged and performs no lookup.",
  "every value, every scope, every data set", INF, ["session/interpolate.go: Interpolate, doInterpolate, InterpolateString"])
p("Interpolation replaces expressions and preserves all other text",
  "The result of interpolating a string is the original text with each '%{...}' occurrence (leftmost, non-overlapping, up to the next '}') replaced by the text of its own expression and every other character kept in order; unterminated markers stay as they are.",
  "every string and every assignment of results to expressions", INF, ["session/interpolate.go: InterpolateString, iplPattern"])
p("Empty interpolations vanish",
  "Expressions that are blank or one of '::', '\"\"', \"''\", '\"::\"', \"'::'\" (modulo surrounding white space) are replaced by the empty string whatever the scope contains.",
  "every string containing such expressions, every scope", INF, ["session/interpolate.go: emptyInterpolations, InterpolateString"])
p("literal() yields its argument verbatim",
  "The text of %{literal('x')} in a looked up value is x, so that '%{literal(\"%\")}{y}' yields the text '%{y}'.",
  "every literal text, every data source that contains it", INF, ["session/interpolate.go: getMethodAndData, InterpolateString", "session/invocation.go: Lookup", "internal/datahashprovider.go: dataValue"])
p("Aliases keep the type of the value and must stand alone",
  "A string that consists solely of %{alias('k')} or %{strict_alias('k')} becomes the value that looking up k returns, of whatever type; if k is missing alias yields the empty string and strict_alias yields not found; an alias expression with any text around it is always an error.",
  "every key, value and surrounding text", INF, ["session/interpolate.go: InterpolateString, isAlias"])
p("Interpolation functions are refused in configuration",
  "While resolving hiera.yaml (datadir, paths, options, function names) every expression in function-call syntax is an error and no lookup is ever performed.",
  "every configuration string, every scope", INF, ["session/interpolate.go: getMethodAndData", "config/entry.go", "config/path.go", "config/uri.go", "config/glob.go", "config/mappedpaths.go"])
p("Unknown variables interpolate to nothing",
  "A scope expression whose variable is not in scope, or whose sub-key is missing, is replaced by the empty string, never by an error.",
  "every syntactically valid expression, every scope", INF, ["session/interpolate.go: InterpolateInScope"])
p("Interpolation preserves the shape of collections",
  "Interpolating an array yields an array of the same length with each element interpolated in place; interpolating a hash yields a hash of the interpolated entries; scalars other than strings are untouched.",
  "every collection", INF, ["session/interpolate.go: doInterpolate"])
# ---- lookup
p("lookup_options cannot be looked up",
  "A lookup of any key whose root is 'lookup_options' (also quoted or with sub-keys, also from an interpolation) finds nothing, whatever the data holds, and never consults the data.",
  "every key with that root, every session and data set", INF, ["session/invocation.go: Lookup"])
p("Override beats data beats defaults",
  "Lookup2 returns the first of: override entry of the first name that has one, hierarchy value of the first name that has one, defaults-hash entry of the first name that has one, default value, default function; nothing of lower rank is evaluated once a higher rank produced a value.",
  "every list of names, every combination of present and absent sources", INF, ["hiera/hiera.go: Lookup2, lookupInMap"])
p("LookupAll returns exactly the found names",
  "LookupAll returns a hash that has an entry for a requested name iff the name is found in override, data or defaults, in that order of preference, each name independent of the others.",
  "every list of names and data set", INF, ["hiera/hiera.go: LookupAll"])
p("A requested type is enforced",
  "Lookup2 and LookupAll only return values that are instances of the requested type or the outcome of converting to it; they never return a non-conforming value unconverted.",
  "every type, every value source", INF, ["hiera/hiera.go: ensureType, ensureTypeFromMap"])
p("Explaining does not change the answer",
  "A lookup made with an explainer (any combination of explain flags) returns the same value, or fails with the same error, as the same lookup without one.",
  "every key, data set, configuration, top provider and custom function", "The explainer is threaded through every step of the lookup and switches code paths; a test can compare only individual lookups.", ["session/invocation.go: With*, Report*, ForConfig, ForData, ForLookupOptions", "explain/explainer.go"])
p("The explanation stack is balanced, also on failure",
  "After any lookup, successful or failed with a panic, the explainer's current node is the one it was before the lookup, so that further lookups are recorded at the right place.",
  "every lookup, every point of failure", "Panics can leave from any depth of the nested calls.", ["session/invocation.go: With*", "explain/explainer.go: push, Pop"])
p("Endless recursion is detected",
  "A lookup that (directly or indirectly) depends on itself fails with an error instead of recursing forever.",
  "every cyclic data set", "Cycles of any length through any mixture of lookup, alias and scope expressions.", ["session/invocation.go: WithKey, nameStack, Lookup", "session/interpolate.go", "api/invocation.go: Invocation"])
p("The hierarchy is searched top to bottom, locations left to right",
  "With the default strategy a lookup through hiera.yaml returns the value of the first (entry, location) pair in lexicographic order that has the key, and no later location is read for the value.",
  "every hierarchy, every number of entries and locations, every data set", INF, ["session/invocation.go: MergeHierarchy, MergeLocations", "merge/strategy.go"])
p("Missing files are never read",
  "A data provider is invoked for a location only if the location exists; an entry whose glob or mapped paths expand to nothing contributes nothing, and an entry without locations is invoked exactly once without one.",
  "every hierarchy and every set of existing files", INF, ["session/invocation.go: MergeLocations, invokeWithLocation"])
p("The merge strategy comes from the caller, else from lookup_options, else is 'first'",
  "The strategy used for a lookup is the caller's merge option if given, otherwise the merge entry of the key's own lookup options, otherwise 'first'; a strategy given as a hash uses its 'strategy' entry, and unknown names are errors.",
  "every caller option and every lookup_options hash, for top-level and nested lookups", INF, ["session/invocation.go: SetMergeStrategy", "provider/configlookupkey.go"])
p("Module lookup options cannot leak out of the module",
  "The lookup options of a module configuration apply only to keys that start with '<module>::'; a global configuration's options apply to any key; options that are not a hash are ignored.",
  "every module name, key and lookup_options hash", INF, ["session/resolvedconfig.go: LookupOptions"])
p("Sensitive values are not revealed by the explainer",
  "When lookup_options convert a key to Sensitive, the plain value does not appear in the explanation of the lookup.",
  "every value, every hierarchy", INF, ["session/invocation.go: LookupAndConvertData, DoRedacted, ReportFound"])
p("Invocation scope shadows session scope",
  "A variable is resolved in the invocation's scope first and in the session's scope only if absent there; other variables are unaffected.",
  "every pair of scopes and variable", INF, ["session/invocation.go: nestedScope.Get", "config/mappedpaths.go: scopeWithVar"])
p("A temporary scope ends with the call",
  "After DoWithScope the invocation's scope is what it was before, also when the function panics.",
  "every scope, every function", "The function may panic at any point.", ["session/invocation.go: DoWithScope"])
p("The multiplexer combines its functions by priority",
  "MuxLookupKey under the default strategy returns the value of the first function that has one; under a merge strategy it merges all of them in order; the lookup options it uses are the deep merge of those of its functions.",
  "every list of functions", INF, ["provider/muxlookupkey.go: MuxLookupKey"])
p("default_hierarchy is consulted when the hierarchy has no value",
  "A key that is found nowhere in the hierarchy is looked up in the configured default_hierarchy.",
  "every configuration with a default_hierarchy", INF, ["session/resolvedconfig.go: DefaultHierarchy", "provider/configlookupkey.go"])
# ---- config
p("Ambiguous configurations are rejected",
  "A configuration is rejected if two entries of a hierarchy have the same name, if an entry names more than one function or more than one kind of location, or if an entry's options use a key reserved by Hiera; every other schema-valid configuration is accepted.",
  "every schema-valid configuration", INF, ["config/config.go: createHierarchy, createEntry", "config/entry.go: initialize"])
p("Entries inherit exactly what they do not define",
  "A resolved entry uses its own function, datadir, plugindir and options when it defines them and those of the (resolved) defaults otherwise; without defaults the built-in ones (yaml_data, data, plugin).",
  "every entry and defaults", INF, ["config/entry.go: Resolve, resolve*"])
p("Resolved locations are complete and in order",
  "Resolving the locations of an entry yields the concatenation, in order, of one path per path/uri, all matches per glob, and one path per element of the mapped variable for mapped_paths, each joined to the data directory, with the mapped variable visible only while its own path is expanded.",
  "every entry, scope and file system", INF, ["config/entry.go: resolveLocations", "config/path.go", "config/glob.go", "config/uri.go", "config/mappedpaths.go"])
p("Config file selection",
  "The session reads the file given by Hiera::Config if set; otherwise it is <root>/<file> where root is Hiera::Root or the working directory and file is Hiera::ConfigFileName, else $HIERA_CONFIGFILE, else hiera.yaml; a missing file yields the default two-level hierarchy.",
  "every combination of options and environment", INF, ["session/session.go: addHieraConfig", "config/config.go: New"])
# ---- concurrency
p("A configuration file is parsed once and everyone sees the same one",
  "In a session, under any interleaving of any number of invocations, config.New runs at most once per path as long as it succeeds, and every invocation that obtains a configuration for the path obtains that one.",
  "every number of concurrent invocations and every schedule", "Schedules cannot be enumerated by tests.", ["session/invocation.go: Config"])
p("A failing configuration does not block others",
  "If loading a configuration panics, concurrent and later invocations that need it terminate (with an error), they do not hang.",
  "every schedule, every failure", "Needs a specific interleaving of failure and waiting.", ["session/invocation.go: Config"])
p("A data file is read once per provider and location",
  "Under any interleaving of lookups through one data_hash provider, the data function runs at most once per location (as long as it succeeds), all lookups of that location see the same data, and some lookup can always make progress.",
  "every number of goroutines, every schedule", "Schedules cannot be enumerated by tests.", ["internal/datahashprovider.go: dataHash"])
p("The provider cache behaves like a map",
  "After any sequence of Cache, CacheAll, CachedValue and CachedEntries calls, CachedValue returns the value most recently stored for the key, Cache returns the value it replaced, and other keys are unaffected; sessions do not share caches.",
  "every operation sequence", "Sequences of any length.", ["session/serverctx.go"])
p("Concurrent Cache calls lose no replaced value",
  "Under concurrent Cache calls for one key every stored value but the last is returned as the replaced value to exactly one caller.",
  "every schedule", "Schedules cannot be enumerated by tests.", ["session/serverctx.go: Cache"])
p("REST requests do not see each other's variables",
  "The scope of a REST lookup consists of the server's variables and the request's own var parameters, whatever other requests are served at the same time.",
  "every number of concurrent requests, every schedule, every number of server variables", "Depends on slice capacity and interleaving.", ["hieraserver/rest/rest.go: CreateRouter", "hiera/hiera.go: createScope"])
# ---- plugins
p("At most one process per plugin path",
  "In a session, under any sequence of function loads, failures and shutdowns, at most one live process exists per plugin path and asking again for a running plugin starts nothing.",
  "every history of start, failure and stop operations", "Histories of any length and any failure point.", ["session/pluginloader.go: startPlugin, pluginRegistry"])
p("No plugin process outlives the session",
  "After KillPlugins every process the session ever started has been terminated or killed; a plugin that fails to start properly is killed at once.",
  "every history and failure point", "Failure can strike at any step of the start protocol.", ["session/pluginloader.go: startPlugin, stopAll, kill", "session/session.go: KillPlugins", "hiera/hiera.go: TryWithParent, DoWithParent"])
p("A plugin is never killed twice",
  "No history makes the session kill the same plugin twice (which would block forever on the plugin's lock).",
  "every history", "Histories of any length.", ["session/pluginloader.go: kill, stopAll"])
# ---- cli / rest
p("REST answers reflect the lookup",
  "A request for /lookup/<key> answers 200 with the rendered value iff the lookup found one (or a default), 404 iff it found none, 500 iff it failed with an error, and 404 for paths outside /lookup/.",
  "every request and lookup outcome", INF, ["hieraserver/rest/rest.go: CreateRouter", "hiera/hiera.go: LookupAndRender"])
p("Command line variables: last definition wins, facts win over all",
  "The scope built from command line options maps each variable to the last definition in the order --var, --vars files, --facts files, and 'facts' to the hash of all facts.",
  "every list of variables and files", INF, ["hiera/hiera.go: createScope, addVarPaths"])
p("--var splits at the first lone separator",
  "A variable argument is split at the first ':' or '=' that is neither at the start nor adjacent to another separator nor at the end; without one it is an error. Name, separator and value together are the argument.",
  "every argument string", INF, ["hiera/hiera.go: varSplit, createScope"])
p("The environment provider exposes exactly the environment",
  "Key 'env' yields a hash of all variables, 'env::NAME' the value of NAME iff it is set, and every other key nothing.",
  "every environment and key", INF, ["provider/environment.go: Environment"])
# ---- providers
p("Provider functions see their entry's options and location",
  "A data_hash, lookup_key or data_dig function configured in an entry is called with the entry's resolved options, plus 'path' set to the resolved location when there is one.",
  "every entry, every kind of function", INF, ["internal/datahashprovider.go: dataHash, optionsWithLocation", "internal/lookupkeyprovider.go", "internal/datadigprovider.go: loadFunction"])
p("Module names are matched without regard to case",
  "A key 'Mod::x' is looked up in the first directory of the module path that holds a directory whose name equals 'mod' up to case and has a hiera.yaml; a directory that cannot be examined and is reached before that is an error of the lookup; keys without a module prefix are not looked up in modules; the outcome of the search is remembered for the session.",
  "every module path, directory content and key", INF, ["provider/modulelookupkey.go"])
p("convert_to converts found values only",
  "When lookup_options has convert_to for a key, the value returned is the conversion of the found (merged) value to that type with the given arguments; when nothing is found nothing is converted.",
  "every lookup_options hash and value", INF, ["session/invocation.go: extractConversion, LookupAndConvertData"])
p("Lookups are deterministic and terminate on acyclic data",
  "For given data, configuration and scope a lookup has exactly one outcome, and if references between values are acyclic it terminates.",
  "every acyclic data set", INF, ["session/invocation.go: Lookup", "session/interpolate.go"])
p("A parsed configuration is never modified by lookups",
  "Resolving a cached configuration on behalf of an invocation leaves the shared configuration as it was, so that invocations with different scopes do not influence each other.",
  "every configuration and sequence of invocations", INF, ["config/entry.go: Resolve", "session/resolvedconfig.go: CreateProviders"])
exec(open(os.path.join(os.path.dirname(__file__), "props_more.py")).read()) if os.path.exists(os.path.join(os.path.dirname(__file__), "props_more.py")) else None
open(os.path.join(os.path.dirname(__file__), "..", "properties.jsonl"), "w").write("".join(json.dumps(x) + "\n" for x in P))
print(len(P))
