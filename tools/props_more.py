p("Values from any kind of provider may refer to other keys",
  "A value supplied by a lookup_key or data_dig function of a hierarchy entry may contain %{lookup('k')} (or hiera/alias) and is resolved like a value from a data file: the lookup of k succeeds with k's value.",
  "every such value, hierarchy and key", "Needs the combination of provider kind, top provider and nested reference; the existing tests only nest references in data files.",
  ["session/invocation.go: Lookup, ForData, MergeStrategy", "provider/configlookupkey.go: ConfigLookupKeyAt", "internal/lookupkeyprovider.go"])
p("A merge strategy requested on the command line or by REST is honoured",
  "LookupAndRender with a merge option uses exactly that strategy, taking precedence over lookup_options, for each of the four names.",
  "every strategy name and every lookup_options hash", INF, ["hiera/hiera.go: LookupAndRender", "session/invocation.go: SetMergeStrategy"])
p("The explanation mentions every consulted location in order",
  "With an explainer the explanation tree of a merged lookup has one branch per consulted provider and location, in order of consultation, and no others; each says which value was found for which key, and these values account for the answer.",
  "every hierarchy", INF, ["explain/explainer.go", "session/invocation.go: MergeHierarchy, MergeLocations"])
p("Explanations survive serialization",
  "Creating an explain node from its own initialisation map yields a node with the same event, key, value, texts, branches and kind-specific data.",
  "every explanation tree", INF, ["explain/explainer.go: initMap, initialize"])
p("A quoted key is looked up as one name",
  "Looking up a quoted key ('a.b') through the configuration finds the value that the data has under the name between the quotes, and fails in no case in which an unquoted key would not fail.",
  "every key with a quoted first segment, every hierarchy", "A key is parsed again on its way through the layers; only a proof over all keys shows which ones change.",
  ["provider/configlookupkey.go: ConfigLookupKeyAt", "api/key.go: NewKey"])
p("A data_dig function is given all segments of the key",
  "The function of a data_dig entry is called with all segments of the key that was asked for.",
  "every key", INF, ["internal/datadigprovider.go: LookupKey", "provider/configlookupkey.go: ConfigLookupKeyAt"])
p("A configuration says what its file says",
  "An accepted configuration has exactly the entries of the file, in the order of the file, each with exactly the settings that the file has for it, and the built-in defaults, hierarchy and directories where the file says nothing or does not exist.",
  "every configuration file", INF, ["config/config.go: New, createConfig, createHierarchy, createEntry", "config/entry.go: initialize"])
p("An explanation can always be shown, and tells every location",
  "Whatever a session has looked up and however that ended, the explanation of an invocation can be rendered as text without failing. The lines of the text tell each location in the explanation, as written and as resolved, whether it exists, and which value it has for which key, in the order of the explanation. The text is the outline of the explanation and nothing else: a line for each thing that the nodes tell, indented by depth, where a merge of one source is not told.",
  "every session, every sequence of lookups with any outcome", INF, ["explain/explainer.go: AppendTo, dumpOutcome, dumpTexts, String"])
p("Answers are made of what the sources hold",
  "No map in an answer has a key twice if no map in the sources has. Every truth value, sensitive value and uninterpreted value in an answer is exactly one that a data file, a variable, an option, a function or a type constructor gave; a sensitive value is handed on as a whole.",
  "every environment, session and key", INF, ["session/invocation.go", "session/interpolate.go", "merge/strategy.go", "merge/deepmerge.go"])
p("A function is the one of its name, from the entry's own plugin file if the session has none",
  "The function of a hierarchy entry is the function of that name that the session was given. If there is none, it is the function of that name in the plugin whose file is the entry's plugin file (by default the one named after the function) in the entry's plugin directory, whatever loader the session has for a parent; two entries with different plugin files do not get each other's functions.",
  "every session, entry, name of a function and chain of parent loaders", "The path of the file is turned into the name of a name space and back; only a proof over all paths shows that nothing is lost.",
  ["session/session.go: LoadFunction, newHieraLoader, createFunctionLoader, createPluginLoader"])
p("Data is read from the data directory",
  "Every path of a resolved hierarchy entry is at or below the entry's data directory, which is seen from the directory of the configuration, and is where the interpolated template leads from there.",
  "every entry, defaults, template, scope and value of the interpolated variables", "The values of variables are arbitrary texts, which over REST come from the client.",
  ["config/path.go: Resolve", "config/glob.go: Resolve", "config/mappedpaths.go: Resolve", "config/entry.go: Resolve, DataDir"])
p("A failed start of a plugin can be repeated",
  "If starting a plugin fails, then asking for it once more starts it once more, with the outcome that a first attempt would have; it does not fail because of the earlier failure.",
  "every history of a session, every way in which the start fails", INF,
  ["session/pluginloader.go: startPlugin, initialize, functionMap"])
p("A plugin is asked exactly what was looked up, and its response is given",
  "A function of a plugin sends one request to the plugin's address, for the function of that name, from which the key and the options can be read back exactly; what it gives is the decoded body, nothing when the plugin has no value, and an error otherwise. Different keys make different requests.",
  "every plugin, function, key, set of options and response", "Keys and options are escaped on the way; the set of characters is unbounded.",
  ["session/pluginloader.go: makeOptions, dataDigDispatch, dataHashDispatch, lookupKeyDispatch, callPlugin"])
p("A plugin is told the session's choices",
  "Whatever the environment of the process, a plugin finds the cookie, the transport and the directory for sockets that the session's options ask for, and every other variable as the process has it.",
  "every environment and every session options", INF, ["session/pluginloader.go: initCmd, getUnixSocketDir, getPluginTransport"])
p("Every execution of the command line stands for itself",
  "What a lookup from the command line does depends on its own flags only: each option is the last one given, or its default, and the options that may be repeated are all given, in order, whatever has been executed before in the process.",
  "every sequence of flags, every state left by earlier executions", "Flags are bound to variables of the package, which keep their values.",
  ["cli/hiera.go: NewCommand, cmdLookup", "cli/executelookup.go: ExecuteLookup"])
p("Clients are verified when that is asked for",
  "A server started with clientCertVerify serves no client whose certificate is not signed by the given authorities; if it cannot be set up like that, it does not start.",
  "every combination of flags and files", INF, ["hieraserver/rest/rest.go: startServer, makeTLSconfig"])
p("A lookup in a value does not influence the lookup that it is part of",
  "While a value is looked up, looking up another value for its sake leaves the merge strategy, the options, the scope and the mode of the lookup in progress as they were: what is found at other levels, and how it is merged, is the same as if the value were given directly.",
  "every hierarchy, key and nested lookup", INF,
  ["provider/muxlookupkey.go: MuxLookupKey", "session/invocation.go: SetMergeStrategy, ForData", "session/interpolate.go: InterpolateString"])
p("Earlier lookups of an invocation do not change later answers",
  "What a lookup gives, be it a value, nothing or an error, does not depend on what has been looked up before in the same invocation, nor on whether that succeeded.",
  "every sequence of earlier lookups with any outcome, every key, every hierarchy", "Providers, configurations and parsed files are remembered between lookups; the sequences of lookups are unbounded.",
  ["session/invocation.go: Config, Lookup", "internal/datahashprovider.go: dataHash", "session/resolvedconfig.go: Resolve"])
p("A key with several segments leads into the value of its first segment",
  "A lookup of a key with several segments gives exactly what is found by following the other segments, one after the other, in what a lookup of the first segment gives: nothing if they lead nowhere, and the same error if that lookup fails.",
  "every key, environment, hierarchy, strategy and function", INF, ["session/invocation.go: Lookup", "api/key.go: Dig"])
p("The scope function gives the variables of the invocation",
  "A hierarchy entry with the function scope, and the function scope as a provider of its own, give the variable that the first segment of the key names, as the scope of the invocation has it, and nothing for other names.",
  "every scope, key, entry and location", INF, ["provider/scopelookupkey.go: ScopeLookupKey", "internal/lookupkeyprovider.go: LookupKey"])
p("The answer to a lookup is determined by files, variables, functions and the key",
  "Whatever a session was used for before, with or without an explainer, a lookup gives exactly the answer of a reference that keeps nothing: it reads the configuration, resolves its hierarchy, interpolates, merges and converts with no memory, no order of evaluation and no invocation to change; and there is no answer exactly if the lookup has no end.",
  "every configuration, hierarchy, data, scope, key, options, and every earlier use of the session", "The code keeps memories and changes the invocation as it goes; that none of it shows is a statement about all sequences of calls.",
  ["session/invocation.go: Lookup, MergeHierarchy, Config", "session/interpolate.go: Interpolate", "session/resolvedconfig.go: Resolve", "provider/configlookupkey.go: ConfigLookupKeyAt", "provider/muxlookupkey.go: MuxLookupKey"])
p("From the command line, only lookup_options and flags say how a value is merged and converted",
  "As the command line and the REST server are set up (the configuration and then the environment), the merge strategy of a lookup is the one asked for, or the one that lookup_options have for the key; the value is converted to the type that lookup_options have for the key; nothing else has an influence on either.",
  "every configuration, environment, key and option", INF,
  ["cli/executelookup.go: ExecuteLookup", "hieraserver/rest/rest.go: CreateHandler", "provider/muxlookupkey.go: MuxLookupKey", "provider/environment.go: Environment"])
p("What is printed or answered is the rendered answer of the reference",
  "With a configuration that can be read, whatever a session or a server was used for before: the command prints, and the server answers with, the rendering of the first answer that the names have in the scope of the variables given, made to be of the type asked for; the default value if there is none; of all names with their values if all are asked for; nothing, or 404, if nothing is found; the error if there is one; and the explanation instead, if that is asked for. A wrong flag or parameter is an error, and nothing is looked up.",
  "every configuration, data, flags, names, variables, requests and earlier uses", "It ties the text that is printed to files and flags over all earlier requests; tests print single values in new processes.",
  ["hiera/hiera.go: LookupAndRender, Lookup2, LookupAll", "hieraserver/rest/rest.go: CreateHandler, doLookup", "cli/hiera.go: cmdLookup"])
p("The functions of a plugin are those that it has told of",
  "The functions that a plugin gives to a session are exactly those, of the kinds, that the plugin told of when it was started, at the address that it told of; a plugin that speaks another version of the protocol, or has told of no address or no functions, is never used.",
  "every history of a session, every meta-data", INF,
  ["session/pluginloader.go: startPlugin, initialize, functionMap"])
p("A program gets the answers that keys have",
  "Lookup gives the answer for the name with the given options, else the default value; Lookup2 gives the value of the source of the highest rank (overrides, the first of the names that has an answer, the hash of defaults, the default value, the default function) made to be of the requested type; LookupAll gives the hash of all names that have a value, each ranked and typed. Options and scopes that are not hashes are errors. This holds in every invocation of a session, whatever was looked up before.",
  "every file, scope, name, option, override, default and type, every history of a session", INF,
  ["hiera/hiera.go: Lookup, Lookup2, LookupAll", "api/coerce.go: ToMap", "session/session.go: Invocation"])
p("Exactly the well-formed configurations are accepted",
  "A configuration file is accepted if and only if it is a hash with version 5 and well-formed defaults and hierarchies (known keys only, named entries, texts that are not empty, lists that are not empty, options with well-formed names and plain data) that is not ambiguous; a file that is not well-formed is refused with that error, and only a missing file is replaced by the built-in configuration.",
  "every file content", INF,
  ["config/config.go: definitions, hieraTypeString, New"])
p("A level of the hierarchy that has nothing changes nothing",
  "If a level is put anywhere into a hierarchy, and there is nothing in it (no file, or none of the keys that matter), then all lookups give what they gave before: with every strategy, for keys that refer to other keys, and for the lookup options.",
  "every configuration, hierarchy, place, data, scope, key, options, strategy and session", INF,
  ["session/invocation.go: MergeHierarchy, MergeLocations", "merge/strategy.go: doLookup, unique.MergeLookup", "session/resolvedconfig.go: Resolve"])
p("A lookup depends only on the keys that its key refers to, and on the files of its hierarchy",
  "If files are changed, but not under a key, nor under those that it refers to, directly or not, nor the lookup options, then a lookup of that key gives what it gave before. If files are changed to which no entry of the hierarchy leads, in the given scope, then all lookups give what they gave before.",
  "every configuration, hierarchy, change of files, scope, key, options, strategy and session", INF,
  ["session/invocation.go: Lookup, MergeHierarchy", "session/interpolate.go: Interpolate", "provider/yaml.go: YamlDataHash", "session/invocation.go: lookupViaCache"])
p("Invocations that run at the same time get the answers that they get alone",
  "What an invocation of a session gets for its lookups, including errors and the explanation, is what it gets in a session of its own, whichever configuration files other invocations of the session parse before it or at the same time.",
  "every session, number and timing of other invocations, and sequence of lookups", "It depends on the timing of goroutines, of which tests see few.",
  ["session/invocation.go: Config, Lookup", "session/session.go: Invocation, SharedCache"])
p("The explanation of a key with several segments tells where it leads",
  "With an explainer, a lookup of a key with several segments is explained as one of the first segment, and then, if that gave something, by exactly one node for the key, with one node for each further segment in turn up to the first that leads nowhere; each of them shows its segment and whether something is there and what.",
  "every configuration, data, scope, key, options and explanation so far", INF,
  ["api/key.go: Dig", "session/invocation.go: WithSubLookup, WithSegment, ReportFound, ReportNotFound", "explain/explainer.go: keyToString"])
p("What an explanation says is true",
  "With an explainer that is told about data, the explanation of a lookup has a node for it with the root of the key, which tells where the merge option is from, if there is one, and then has one node for each level that was asked, in order, by name. The nodes say of each location what that location has for the key, and what they say accounts for what the hierarchy has for the key. This also holds if the lookup fails. Options of all keys are explained before it if, and only if, this is asked for. The same is true of the nodes of the lookups that interpolating values makes, wherever they are in the explanation.",
  "every configuration that can be read, data, session so far, scope, key and options", INF,
  ["session/invocation.go: WithLookup, WithDataProvider, WithLocation, ReportMergeSource, ReportFound, ReportNotFound", "explain/explainer.go", "merge/strategy.go: Lookup", "provider/configlookupkey.go: ConfigLookupKeyAt", "provider/muxlookupkey.go: MuxLookupKey"])
p("In an ordinary set-up the answer is the one in the documentation",
  "If the configuration file has levels with a name and a path with variables, the data files have plain data, and the lookup options say how values are merged (if anything), then a lookup of a key gives the merge of the values that the levels have for it, from the highest to the lowest: the first one; all elements once; all keys with the values of the highest level; or the deep merge. The way to merge is what the caller asked for, else what the highest level says that says something about it, else the first. A lookup of a dotted key gives what the merge has in that place, and a way to merge that there is not is an error.",
  "every number of levels, path, variable, data, key, options, session, with the configuration alone and with the functions of the command line", INF,
  ["config/config.go: New, createHierarchy", "session/resolvedconfig.go: Resolve", "provider/yaml.go: YamlDataHash", "merge/strategy.go", "merge/deepmerge.go", "session/invocation.go: Lookup, MergeHierarchy, SetMergeStrategy", "api/key.go: NewKey, Dig"])
p("An invocation sees one snapshot of the files, and the next one sees the files as they are then",
  "Whatever happens to the files after the first lookup of an invocation (configuration, data, and which files there are), each later lookup of the invocation gives what it would have given then: the same value, nothing, the same error or no end. What a lookup has given once it gives again, whatever was looked up in between. A new invocation of the same session sees the data files as they are; the configuration file is read only once in a session.",
  "every configuration, data, scope, sequence of lookups with any outcome, and any change of files between any two lookups", INF,
  ["session/invocation.go: Config, Lookup", "session/resolvedconfig.go: Resolve", "internal/datahashprovider.go: dataHash"])
p("Without a configuration, lookups give what the functions have",
  "In a session whose top provider is the file of the option path, the variables, the environment, a function of the program, or several of these, a lookup gives what the function has for the first segment of the key, interpolated once, and then what the other segments lead to in it, whatever the session was used for before. Options of the lookup matter only to the program's own functions and to several functions. The file is read once in a session, by the first lookup for which it can be read; until then each lookup tries again.",
  "every session, sequence of invocations and lookups with any outcome, file, change of files, scope, environment, key and options", INF,
  ["provider/yamllookupkey.go: YamlLookupKey", "provider/scopelookupkey.go: ScopeLookupKey", "provider/environment.go: Environment", "provider/muxlookupkey.go: MuxLookupKey", "session/invocation.go: Lookup", "session/serverctx.go: Cache, CachedValue"])
p("Nothing of a plugin stays behind",
  "However a plugin behaves, serving it comes to an end once the session is stopped: its process has ended, and so have the goroutines that read its output, wait for its meta-data and wait for its end. When stopping it returns, the process and the readers have ended already.",
  "every order of events: when the process writes, what it writes, when it ends, and which timeouts pass", "The outcome depends on how goroutines, the process and the timers interleave; tests see one schedule, and a goroutine that waits forever does not make a test fail.",
  ["session/pluginloader.go: startPlugin, awaitMetaData, copyErrToLog, ignoreOut, kill"])
p("yaml2json keeps the document, or says that it cannot",
  "The program writes a JSON document exactly if all keys of all maps are strings and JSON has all scalars of the document, and then that document says the same as the YAML document.",
  "every document, of any depth, for parsers that make maps with keys of any kind always or only if needed", INF,
  ["yaml2json/main.go: stringKeys, main"])
p("Data that refers to variables and other keys means what the documentation says",
  "In an ordinary set-up, texts in the data, at any depth of arrays and hashes, may have expressions for variables (with fields), for the values of other keys (lookup), and may stand for the value of another key (alias), as long as keys do not refer to each other in a cycle. A lookup then gives the merge of what the levels have, in which each expression is replaced by the value of the variable, or by the answer for the other key, found and merged in the same way; one without a value is replaced by nothing. Nothing else in the data changes.",
  "every number of levels, data of any depth, variables, chains of references of any length, key, options and session", INF,
  ["session/interpolate.go", "session/invocation.go: Lookup, InterpolateInScope, MergeHierarchy", "provider/configlookupkey.go", "provider/muxlookupkey.go", "api/key.go: NewKey, Dig"])
p("Keys and locations are proper values",
  "Keys and locations are equal exactly if they are the same, equal ones have the same hash code, and what they are turned into when they are written can be read again to give the same key or location; reading fails unless all fields are there.",
  "every key, path, glob, URI and mapped paths, and every hash code of texts", INF,
  ["api/key.go: Equals, HashCode, keyType", "config/path.go: pathType, Equals, HashCode", "config/glob.go", "config/uri.go", "config/mappedpaths.go"])
p("A lookup depends only on the variables that are referred to",
  "What a lookup of a key gives depends only on those variables that the configuration refers to (in paths, globs, URIs, mapped paths, options, names of functions and directories) and that are referred to by the values in reach of the key. Whatever other variables a caller has, and whatever is in them, it gives the same. Without such references it gives the same with any variables.",
  "every configuration, data, pair of scopes that agree on these variables, session, key and options", INF,
  ["session/interpolate.go: doInterpolate, resolveInScope", "session/resolvedconfig.go: Resolve", "config/entry.go: Resolve", "config/mappedpaths.go: Resolve", "provider/scopelookupkey.go: ScopeLookupKey"])
p("A level with several locations is the same as a level for each of them",
  "A level with several paths, globs or URIs can be split into levels with one of them each, in the same order and with the same settings, and no lookup gives anything else, whatever the strategy: in a hierarchy with other levels, and as long as no value keeps apart two others that would be merged without it.",
  "every configuration, position of the level in the hierarchy, number of locations, data, strategy, session, key and options", INF,
  ["session/invocation.go: MergeHierarchy, MergeLocations", "merge/strategy.go: MergeLookup", "session/dataprovider.go", "merge/deep.go", "provider/configlookupkey.go"])
p("From the shell to the files and back",
  "In the set-up of C97, the command lookup prints the first value that the names given to it have, or with --all a hash of all of them, or the default value: the value of a name is the merge of what the files of the levels say about it, with the variables from the flags in the place of expressions, in the rendering that is asked for. The server answers a request with that value as JSON, or with 404 if there is none, whatever was requested before.",
  "every set-up of C97, list of names, variables, flags for strategy, default value and rendering, sequence of earlier requests, and session", INF,
  ["cli/hiera.go", "hiera/hiera.go: LookupAndRender, Lookup2, LookupAll", "hiera/render.go", "hieraserver/rest/rest.go", "provider/configlookupkey.go", "session/invocation.go"])
p("It does not matter where and how data is kept",
  "If two configurations, each with its own files, are resolved to as many levels, and level by level and place by place the same data is read (the same value for each key, in whatever order and however expressions are written in it), then every lookup gives the same with both: whatever the names of the levels are, wherever the files are, and whichever functions, formats and options are used to read them.",
  "every two configurations and sets of files, names, paths, formats, functions and options, variables, pair of sessions, key and options of a lookup", INF,
  ["config/entry.go: Resolve", "session/dataprovider.go", "session/invocation.go: MergeHierarchy, MergeLocations", "provider/yamldata.go", "provider/jsondata.go", "provider/configlookupkey.go"])
p("An expression means the same, however it is written",
  "White space around an expression, the kind of quotes, scope('x') in the place of x, hiera in the place of lookup, and the ways to write an expression that stands for nothing, do not matter: data files that differ only in these give the same to every lookup, at any depth of values and in keys of hashes.",
  "every environment without state, configuration, set of files, number and place of expressions, session, scope, key and options", INF,
  ["session/interpolate.go: InterpolateString, getMethodAndData, doInterpolate, emptyInterpolations"])
p("A configuration with modules means what the documentation says",
  "With a configuration and modules that have configurations of their own, the lookup of a key gives what the levels of the configuration have for it, merged, together with what the levels of the module have for it, merged, which are merged in the same way: as the caller asks, else as the highest level of the configuration says that says something about the key, else as the highest level of the module does. The module is the first one of that name on the module path, in any case; keys without a module before :: and keys of modules that are nowhere are found in the configuration alone. It does not matter which keys of which modules were looked up before.",
  "every number of levels in each configuration, module path, data, variables, strategy, key, sequence of earlier lookups, and session", INF,
  ["provider/modulelookupkey.go: ModuleLookupKey, loadModule", "provider/muxlookupkey.go", "provider/configlookupkey.go: ConfigLookupKeyAt", "session/resolvedconfig.go: LookupOptions, Resolve", "session/invocation.go: Config, SetMergeStrategy, Lookup"])
p("Only the values that are found count, not the levels",
  "What lookups give depends on the hierarchy only through the values that it has for each key, one after the other. Levels that have no key in common may stand in any order, the data of a level may be spread over several files on levels in its place, levels that have nothing may be put in anywhere, and levels may be put together: no lookup gives anything else, with any strategy, as long as neither hierarchy consists of one level only.",
  "every two configurations and sets of files whose hierarchies have the same values for every key, variables, pair of sessions, key and options of a lookup", INF,
  ["session/invocation.go: MergeHierarchy, MergeLocations", "merge/strategy.go: MergeLookup", "session/dataprovider.go", "session/resolvedconfig.go: LookupOptions, Resolve", "provider/configlookupkey.go"])
p("A level whose function is not there counts for nothing, and the explanation says so",
  "If there is no function with the name that a level of the hierarchy has for it, neither registered nor in a plugin, then every lookup gives the same as without the level, and the explanation of a lookup that asks the level says, at the level, that there is no such function and which.",
  "every configuration, kind of function, locations, key, strategy and session", INF,
  ["internal/datahashprovider.go: loadFunction", "internal/datadigprovider.go: loadFunction", "internal/lookupkeyprovider.go: loadFunction", "session/resolvedconfig.go: Resolve", "session/invocation.go: ForLookupOptions, ReportText"])
p("A level below takes nothing away",
  "If levels are added below those of a hierarchy, a lookup that is merged in the same way still has everything that it had: the same text, number or truth value, the keys of hashes at every depth with values that have everything that they had, and the elements of arrays first and in their order. Likewise the answer has everything that the highest level has for the key. It is merged in the same way if the caller or a level above says how, or if the new levels say nothing about it.",
  "every ordinary set-up and every extension of it by levels below, data, variables, strategy, key and part of it, and pair of sessions", INF,
  ["merge/strategy.go", "merge/deepmerge.go: deep", "session/invocation.go: MergeHierarchy, SetMergeStrategy", "provider/configlookupkey.go", "provider/muxlookupkey.go"])
p("An explainer tells what it was told",
  "Whatever sequence of calls an explainer gets (Accept methods, and Push methods with what follows until their Pop, nested to any depth), its text is the account of these calls: a line for each thing that was opened with what was told in it below and indented, in the order of the calls, then how it ended, of which the last call counts, then the remarks; for each kind of thing and of outcome in the words of that kind.",
  "every sequence of calls, nested to any depth, with any keys, values and texts", INF,
  ["explain/explainer.go: Accept..., Push..., Pop, AppendTo", "api/explainer.go: Explainer"])
p("Values from overrides and defaults are told",
  "With an explainer, the explanation tells of the value that Lookup2 or LookupAll gives, also if it is from the overrides, the hash of defaults or the default value.",
  "every list of names, overrides, defaults, default value, and state of an invocation", INF,
  ["hiera/hiera.go: Lookup2, LookupAll", "explain/explainer.go: AcceptFoundInDefaults, AcceptFoundInOverrides"])
p("A level that repeats a level above it counts once",
  "If all that a level has for a key, a level above it has for it as well (as when two interpolated paths lead to the same file), the level can be left out: lookups with the same way of merging have the same answer, where only the order of the keys of a merge by hash may differ. Lookup options that are repeated say nothing new.",
  "every ordinary set-up, place of the level, key with fields, merge strategy, options, scope, and session", INF,
  ["merge/strategy.go: merge, MergeLookup", "merge/deepmerge.go: deep", "config/path.go: Resolve", "provider/configlookupkey.go: ConfigLookupKeyAt"])
p("Levels may move between the configuration and a module",
  "The answer for a key of a module depends on the values that the levels of the configuration and then of the module have for it, and not on where the one ends and the other begins. The lowest levels of the configuration may be moved to the top of the module, the highest levels of the module to the bottom of the configuration, and the whole module into it, and the answer is the same, if it is merged in the same way.",
  "every two set-ups with a configuration and modules with the same values for a key, with variables in the data, strategy, key with fields, scopes, options, and pair of sessions", INF,
  ["provider/muxlookupkey.go", "provider/modulelookupkey.go: ModuleLookupKey", "merge/strategy.go: merge, MergeLookup", "merge/deepmerge.go: deep"])
p("The order in which the entries of hashes are written does not matter",
  "If the data files of one set-up are those of another one with the entries of hashes in another order, at any depth, then every key, and every field of it, has the same answer in both, but for the order of entries: lookup options are read in the same way, the same strategy is used, and merges of reordered values are reordered merges.",
  "every two ordinary set-ups (or set-ups with modules and variables in the data, or with levels of every kind) with reordered values, every strategy, key with fields, scopes, options, and pair of sessions", INF,
  ["merge/strategy.go: merge, convertValue, mergeSingle", "merge/deepmerge.go: deep", "provider/configlookupkey.go: ConfigLookupKeyAt", "session/resolvedconfig.go: LookupOptions, Resolve"])
p("Parts of the data may be kept under keys of their own",
  "If parts of the data (a whole value, a value within hashes and arrays, or some of a text) are moved to a key of their own, or to a field of it, on any level, and are referred to with lookup() or alias() from where they were, then every key that was there before has the same answer as before. The same if variables are written out. The key that keeps the part must be merged by `first`, and its highest level must have the part.",
  "every two set-ups of C97 or C120 (levels of every kind) of which one has the data of the other kept apart, to any depth and with any number of references, strategy, key with fields, scope, options, and pair of sessions", INF,
  ["session/interpolate.go: InterpolateString, InterpolateInScope", "provider/configlookupkey.go: ConfigLookupKeyAt", "provider/muxlookupkey.go", "merge/strategy.go: MergeLookup"])
p("Keys and variables may be given other names",
  "If keys are given other names, in the data, in the lookup options and in everything that refers to them, and variables are given other names in the data and where they come from, then a lookup of a key under its other name gives what a lookup of the key gave before. Two keys that have the same data may be given the same name.",
  "every two set-ups of C97 or C120 (levels of every kind) of which one is the other with other names, strategy, key with fields, scopes, options, and pair of sessions", INF,
  ["session/interpolate.go: InterpolateString, InterpolateInScope", "provider/configlookupkey.go: ConfigLookupKeyAt", "provider/muxlookupkey.go", "session/resolvedconfig.go: LookupOptions, Resolve"])
p("What --explain and --explain-options print in an ordinary set-up",
  "In an ordinary set-up, what --explain prints for a key is determined by the levels and their data, line by line: the key that is searched for; where the merge strategy is from, if the caller or the data says so; for each level that is asked, in order, how it is read, its file, the path as it is written in the configuration, and what the file has for the key; the strategy and the result, if there are levels to merge; and for a dotted key its fields, one after the other, up to one that is not there. With --explain-options it is the levels and what they have as lookup options, and with both it is the one after the other. There is nothing else, and with `first` no level after the one that has the key is mentioned.",
  "every ordinary set-up, strategy, key with fields, scope, options, session with the functions of the command line and the server, and history of it", INF,
  ["explain/explainer.go: AppendTo, Push, Pop, Accept", "provider/muxlookupkey.go", "provider/configlookupkey.go: ConfigLookupKeyAt", "session/invocation.go: MergeHierarchy, MergeLocations, SetMergeStrategy, WithLookup, WithSegment, WithSubLookup", "internal/datahashprovider.go: LookupKey", "api/key.go: Dig"])
p("Without a configuration file, two files are the data",
  "If there is no configuration file, then the data is what is in data.yaml in the directory where the configuration file would be, and then what is in common.yaml in the data directory: a lookup gives the merge of what the two have for the key, by the strategy that the caller or their lookup options want. Every lookup is the same as with a configuration file in the same directory that has no hierarchy, or one that lists these two files.",
  "every world without a configuration file, key, options, scope, session, and configuration file that has no more than is built in; and for the merge every data of the two files without interpolation", INF,
  ["config/config.go: New, makeDefaultConfig, makeDefaultHierarchy, createConfig", "config/entry.go: Resolve", "provider/configlookupkey.go: ConfigLookupKeyAt"])
p("What is found is converted to the type that the highest level says",
  "In an ordinary set-up, if the lookup options of levels say `convert_to` for a key, then the merge of the values of the key is converted to the type that the highest of them says, with the arguments that it says, and a dotted key gives a field of the result. If there is no such type, then the lookup fails, whether the key has a value or not.",
  "every ordinary set-up, also with levels of every kind (C119), strategy, key with fields, scope, options, and session; types and what is made with them are dgo's", INF,
  ["session/invocation.go: extractConversion, LookupAndConvertData", "session/resolvedconfig.go: LookupOptions, Resolve", "merge/deepmerge.go: deep", "provider/muxlookupkey.go"])
p("The merge may be said with a hash",
  "In an ordinary set-up, the caller and the lookup options may say how the values of a key are merged with a hash that has the name of the strategy under `strategy`, and this is the same as if the name was said alone: other options in the hash do not change what is found. What the caller says is before what the data says. If the highest level that says something says a name, then it is this. If it says a hash, then it is the strategy of the highest level that names one in a hash. If there is none, then the lookup fails.",
  "every ordinary set-up without conversion for the key, and every key with fields, scope, options, and session", INF,
  ["session/invocation.go: SetMergeStrategy", "merge/strategy.go: GetStrategy", "session/resolvedconfig.go: LookupOptions, Resolve", "merge/deepmerge.go: deep", "provider/configlookupkey.go: ConfigLookupKeyAt", "provider/muxlookupkey.go"])
p("Levels of every kind",
  "A hierarchy whose levels have one path or several, patterns of file names, or a path for every element of a variable or of a field of it, with data directories of their own that may have variables in them, and with YAML or JSON files, where what a level does not say is as the defaults of the configuration file say, if it has any: from the configuration file to the answer, a lookup gives the merge of what the files have for the key, in the order of the levels and, in a level, in the order of its paths, of what a pattern matches, and of the elements of the variable; files that are not there are passed over. A dotted key gives what the merge has in that place. The lookup command prints this, and the server answers with it. For a deep merge, no value may keep apart two others that would be merged without it.",
  "every configuration file of this form, any number of levels and files, any data without interpolation, strategy that is said by name or with a hash, key with fields, scope, options, and session", INF,
  ["config/config.go: New, createHierarchy, createEntry", "config/entry.go: Resolve, resolveDataDir, resolveLocations", "config/path.go: Resolve", "config/glob.go: Resolve", "config/mappedpaths.go: Resolve", "provider/configlookupkey.go: ConfigLookupKeyAt", "provider/yamldata.go: YamlData", "provider/jsondata.go: JSONData", "merge/strategy.go: doLookup, MergeLookup", "hiera/hiera.go: LookupAndRender, Lookup2, LookupAll", "hieraserver/rest/rest.go: CreateHandler, doLookup"])
p("Levels of every kind, whose data refers to variables and other keys",
  "With levels of every kind as in C119, and data that refers to variables and, without cycles, to other keys, as text in a text, or as an alias for the whole value: from the configuration file to the answer, a lookup gives the merge of what the data of the files means, in the order of the levels and, in a level, of its files, where references mean the values of the variables of the caller and the answers for the other keys. There is one such answer, up to the order of the entries of hashes, if equal values are written in the same way. The lookup command prints this, and the server answers with it, whatever was requested before.",
  "every configuration file of this form, any number of levels and files, data with references by ranked keys, strategy, key with fields, scope, options, and session", INF,
  ["config/config.go: New, createHierarchy, createEntry", "config/entry.go: Resolve", "config/mappedpaths.go: Resolve", "session/interpolate.go: InterpolateString, InterpolateInScope", "provider/configlookupkey.go: ConfigLookupKeyAt", "merge/strategy.go: doLookup, MergeLookup", "hiera/hiera.go: LookupAndRender, Lookup2, LookupAll", "hieraserver/rest/rest.go: CreateHandler, doLookup"])
p("What the defaults say may as well be said in the levels",
  "If two configuration files in the same directory have the same levels once the data directory and the format of the files that a level does not say are taken from the defaults, then they give the same for all keys, whatever the data is. So a configuration file may as well be written without defaults, where every level says its data directory and format; a level that says something itself does not get it from the defaults; and what every level says need not be among the defaults.",
  "every two such configuration files, any number of levels of every kind (C119), any data, key, options, scope without interpolation in its values, and pair of sessions", INF,
  ["config/config.go: New, createConfig, createHierarchy, createEntry", "config/entry.go: Resolve, resolveDataDir, resolveFunction", "provider/configlookupkey.go: ConfigLookupKeyAt"])
p("Only the files that a level stands for count",
  "If the levels of two configuration files, one by one, stand for files that have the same, then they give the same for all keys, whatever the data is; levels of which no file is there do not count, as long as there is not exactly one level, and files of a level that are not there do not count, as long as it does not stand for exactly one file. Two files have the same if they are one file that is read in the same way, if neither is there, or if both are there and have the same for all keys, in whatever order, and with expressions written in whatever way. It does not matter in which directories the configuration files and the data are, how levels are called, whether files are listed, matched by patterns or named after the elements of a variable, which formats they have, and what is said in the defaults.",
  "every two configuration files with levels of every kind (C119), any data that can be read or not, key, options, scope without interpolation in its values, and pair of sessions", INF,
  ["config/config.go: New, createHierarchy, createEntry", "config/entry.go: Resolve, resolveDataDir, resolveLocations", "config/path.go: Resolve", "config/glob.go: Resolve", "config/mappedpaths.go: Resolve", "provider/configlookupkey.go: ConfigLookupKeyAt", "provider/yamldata.go: YamlData", "provider/jsondata.go: JSONData"])
p("What gives the same is printed and served the same",
  "If two set-ups give the same for all keys and options in the scope that the options of a command make, then the lookup command prints the same with these options, or fails with the same error, for all arguments, and the server answers the same to all requests, whatever was looked up or requested before. So all that is said about lookups that give the same (C102, C103, C105, C116, C121, C122) holds for what is printed and served.",
  "every two set-ups without state, options without an explanation, arguments, requests, and histories", INF,
  ["hiera/hiera.go: LookupAndRender, Lookup2, LookupAll", "hiera/render.go: Render", "hieraserver/rest/rest.go: CreateHandler, doLookup", "api/key.go: NewKey"])
p("A data file that cannot be read makes every lookup fail",
  "If a data file of any level is there but cannot be read, or has something else than a hash (an empty file has none), then every lookup fails with an error that says so, wherever in the hierarchy the file is, and whether or not the key is found without it; with several such files it is the first of them. The lookup command prints nothing and fails with this error, also with a default value, and the server answers with status 500.",
  "every configuration file with levels of every kind (C119), any number of levels and files, any data after the file and any data before it whose lookup options have no expressions, key, options, scope without interpolation in its values, session, arguments and requests", INF,
  ["provider/yamldata.go: YamlData", "provider/jsondata.go: JSONData", "session/resolvedconfig.go: Resolve", "provider/configlookupkey.go: ConfigLookupKeyAt", "merge/strategy.go: doLookup, MergeLookup", "hiera/hiera.go: LookupAndRender, Lookup2, LookupAll", "hieraserver/rest/rest.go: CreateHandler, doLookup"])
p("Only the levels that have a key count for it",
  "If, for every key, the levels of two configuration files that have it stand for files that have the same (as in C122), one by one, then they give the same for all keys, and the lookup command prints and the server answers the same: a level all of whose files can be read and do not have the key does not count, wherever it is, as long as there is not exactly one level. So levels of which no two have a key in common may be in any order.",
  "every two configuration files with levels of every kind (C119) and any number of files, any data, key, options, scope without interpolation in its values, and pair of sessions", INF,
  ["config/config.go: New, createHierarchy", "config/entry.go: Resolve, resolveLocations", "provider/configlookupkey.go: ConfigLookupKeyAt", "internal/datahashprovider.go: LookupKey", "merge/strategy.go: doLookup, MergeLookup", "provider/yamldata.go: YamlData"])
p("A configuration file that is refused makes the first lookup fail and all later ones hang",
  "If the configuration file is there but cannot be read, or is not a valid configuration, then the first lookup in a session fails with the error that says why, whatever the key and its options are: the lookup command prints nothing and fails with this error, also with a default value, and the server answers the first request for a key with status 500. It leaves the file locked, so that no later lookup in the session ever returns, neither with a value nor with an error; the server never answers another request for a key.",
  "every configuration file that is refused, for whatever reason, every key, options, scope, session, arguments and request before and after", INF,
  ["session/invocation.go: Config", "config/config.go: New", "provider/configlookupkey.go: ConfigLookupKeyAt", "provider/muxlookupkey.go: MuxLookupKey", "hiera/hiera.go: LookupAndRender, Lookup2, LookupAll", "hieraserver/rest/rest.go: CreateHandler, doLookup"])
