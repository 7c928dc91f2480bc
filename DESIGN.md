# Formal model of lyraproj/hiera

Source: `/repo` (Go). Everything below is about the text of that source; nothing was built or run.

## Approach

* Lean 4 (4.33.0), modules under `lean/Verif`. `Verif/Model/*` is the model, function by function; every definition
  cites the Go file and lines that it transcribes (`tools/citations.py` lists what the citations point to,
  `tools/uncited.py` the definitions without one, `tools/coverage.py` the functions of the source that none points to).
  `Verif/Spec/*` holds small specifications that do not use the model's helpers. `Verif/Props/*` holds the property
  theorems (`Cnn_...`) and, beside them, concrete cases that meet their hypotheses; auxiliary lemmas live in
  `Verif/Lemmas/*`.
* Strings are `List Char` (valid UTF-8 assumed). dgo values are an inductive type `Value`; Go `nil` is `Option.none`,
  `vf.Nil` is `Value.null`. A dgo map is its ordered entry list.
* The evaluator (lookup, interpolation, configuration, providers) is one recursive system. It is modelled as a
  fuel-indexed fixpoint (`eval`) of an open-recursive `step`; `none` means "did not return within the fuel", a panic is
  a value `Res.panic` that keeps the state reached. Fuel is a device of the model, not a bound: `eval_le` proves that
  an outcome does not depend on it, termination statements say that some fuel suffices, and divergence statements
  that none does.
* Meta-properties of the evaluator (independence of the explainer, balance of the explanation stack, fuel
  monotonicity, no lookups while resolving configuration, what is never changed) are proved with generic relational
  inductions (`Lemmas/Rel`, `Lemmas/Mono`, `Lemmas/Sim`): a relation that the primitive operations preserve is
  preserved by the whole evaluator.
* Concurrency (`Config` cache, `dataHash` cache, `Cache`, plugin registry, REST variable slices) is modelled as
  transition systems whose steps are the atomic operations of the Go code; properties are invariants of all schedules
  of any number of goroutines.
* Where a property is false of the code, the negation is proved on a concrete witness (`Cnn_false`) and a `_partial`
  theorem states what does hold. `MANIFEST.json` says which theorems carry which property.
* The theorems were tried against wrong programs: `tools/mutate.py` edits a definition of the model in a scratch copy
  and reports which theorems no longer prove; `seeded/LOG.jsonl` has the attempts.

## Trusted base

* Lean's kernel, and at most the axioms `propext`, `Classical.choice` and `Quot.sound`; the list per theorem is at the
  end. No theorem uses `sorry`, `native_decide`, `bv_decide` or an axiom of our own. Concrete cases use
  `decide +kernel`, which the kernel evaluates.
* The transcription of Go into the model, as cited in each definition.
* The assumptions about code outside the repository below.

### Assumptions about code outside the repository

* dgo: map equality ignores order; `Get` compares with `Equals`; `Put` replaces in place or appends; `Merge` keeps the
  receiver's order; `Flatten` is recursive; `Unique` keeps first occurrences; `String()` of a string is the string and
  otherwise an arbitrary function; struct types accept exactly the listed members; `data` excludes sensitive values and
  keys that are not strings; named types are made from and turned into maps by the two functions they were created
  with; a function called through dgo that gives a Go nil gives nil to the caller; type parsing, `Instance`, `New` and the
  streamers are arbitrary functions.
* YAML and JSON decoding, reading of files, `os.Lstat`, directory listings, globbing and environment variables are
  arbitrary functions, which do not change while a lookup runs. Between lookups they may change (C93).
* Go: `sync.Map`, `sync.Mutex` and `sync.RWMutex` are linearizable and behave as documented, also in that a waiting
  writer keeps new readers out; `append` writes into spare capacity; a panic runs deferred calls and leaves memory as
  it is; `os.Process.Kill` works; `http.ServeMux` redirects to clean paths.
* `strconv.ParseInt`, `strings.TrimSpace`, `filepath.Clean`, `Join`, `Dir`, `IsAbs`, `Abs` (on Unix) and the regular
  expressions of the source are transcribed by hand. `strings.ToLower` and `strings.EqualFold` only for ASCII.

### What is modelled

| source | modelled in |
|--------|-------------|
| `api/key.go` | `Model/Key`, `Model/AsValues` (equality, hash codes, reading and writing) |
| `merge/deepmerge.go`, `merge/strategy.go` | `Model/Merge` |
| `session/interpolate.go` | `Model/Interp` (texts), `Model/Eval` (evaluation) |
| `session/invocation.go`, `session/resolvedconfig.go` | `Model/Monad`, `Model/Eval`; `Config` once more with goroutines in `Model/Conc`; `WithKey` in `Model/Recursion` |
| `internal/*.go` | `Model/Eval`; `dataHash` once more with goroutines in `Model/ConcHash` |
| `provider/*.go` | `Model/Eval`, `Model/Module` |
| `config/*.go` | `Model/Config`, `Model/Eval` (resolution); `entry.Resolve` once more with memory in `Model/Heap`; locations as values in `Model/AsValues` |
| `explain/explainer.go` | `Model/Explain` (the tree), `Model/ExplainData` (maps and serialization) |
| `session/session.go` | `Model/Session` (options, files, scopes), `Model/Loader` (names of loaders and plugins), `Model/Eval` (`LoadFunction`) |
| `session/serverctx.go` | `Model/Eval` (`Prog`), `Model/Cache` |
| `session/pluginloader.go` | `Model/Plugin` (life of processes), `Model/PluginGo` (goroutines that serve a plugin), `Model/PluginCall` (environment, requests and responses) |
| `cli/hiera.go`, `cli/executelookup.go` | `Model/Command` |
| `hiera/hiera.go`, `hiera/render.go`, `api/coerce.go` (`ToMap`) | `Model/Api`, `Model/Cli` |
| `hieraserver/rest/rest.go` | `Model/Rest`, `Model/RestVars`, `Model/Command` (TLS) |
| `yaml2json/main.go` | `Model/Yaml2Json` |

Not modelled: the parsers of YAML, JSON and types; `cobra` and what TLS does; the start of the server apart from its
choice of TLS; logging; Windows (`plugintransport_windows.go`, `proc_windows.go`, path separators); `cli/version.go`;
`HashCode` functions other than those of keys and locations; `lookup/lookup.go`, which calls `cli`; what plugins do.

## Per property

| id | modelled code | how it is proved |
|----|---------------|------------------|
| C01-C04 | `api/key.go` parser as mutual structural recursion over characters | induction over the characters; exact characterisation of the range; C04 refuted by witness, partial for the last segment |
| C05-C06 | `Bury`, `Dig` | induction over the parts against an independent path relation |
| C07, C13 | `MergeLookup`, `doLookup` over an arbitrary effectful variant function | induction over the list of variants |
| C08-C12 | `unique`, `hash`, `deep`, `Deep` over `Value` | structural induction against declarative relations; C08 refuted for a single found value, partial otherwise |
| C14 | `GetStrategy` | case analysis |
| C15-C22 | `session/interpolate.go`; regular expressions as deterministic recognisers proved equal to declarative grammars | induction over tokens and values; C18 refuted (values are interpolated twice) |
| C23-C26 | `Invocation.Lookup`, `hiera/hiera.go` | unfolding, induction over names; C24 an iff against a ranking relation |
| C27, C28 | explainer and all code that reports to it | relational induction over the evaluator |
| C29, C59 | evaluator | divergence for every fuel by induction on it; termination by well-founded induction on the reference relation of the data |
| C30-C33, C38 | `MergeHierarchy`, `MergeLocations`, `SetMergeStrategy`, `LookupOptions` | equality with a sequential search; case analysis; C38 by independence, and for whole sessions with the reference semantics of C81 |
| C34 | explainer | refuted by witness; partial by relational induction |
| C35-C36 | scopes | case analysis; C36 refuted for panics |
| C37 | `MuxLookupKey` | unfolding |
| C39-C42, C60, C67 | `config/*.go`, `session.New` | induction over entries; C60 also in a memory model with shared arrays |
| C43-C45 | lock protocol of `Config` and `dataHash` | invariants over all schedules; C44 refuted |
| C46-C47 | `serverctx.go` cache | refinement against histories; C47 refuted by a schedule |
| C48 | `append` on the shared slice in `rest.go` | refuted by a schedule; partial when the slice has no spare capacity |
| C49-C51 | `pluginloader.go` | invariants over histories |
| C52-C54 | `rest.go`, `hiera.go` | case analysis; regular expression against a declarative grammar |
| C55-C58, C65, C66 | built-in providers, provider wrappers | case analysis, induction over the environment; witnesses |
| C61, C62 | evaluator, `LookupAndRender` | refuted by witness; C61 follows from the reference of C81 for the set-up of the command line |
| C63, C64 | explainer | induction over providers and locations; structural induction over nodes |
| C68 | `AppendTo` of all nodes (`Model/ExplainText`); a text is a list of pieces and line starts | a unary logic for the whole evaluator (`Lemmas/Holds`): every node of every tree of a session has the value, key and location that rendering needs; then induction over the tree; the text is compared line by line with an outline of the tree (`Props/ExplainPage`) |
| C69 | evaluator, strategies, configuration | the same logic, for any property that the sources have (`Spec/Sources`) and that the operations on values preserve |
| C70 | `LoadFunction`, `newHieraLoader`, `createPluginLoader`; loaders as lists of names | the name of a plugin's name space is taken apart again, by induction over paths; C70_false for a parent called `plugin` |
| C71 | `Resolve` of entries and locations, `filepath` functions | a logic of returned values; paths are compared by the place they lead to (`Spec/Place`: a list of names, no text) |
| C72 | `startPlugin` | the invariant of C49-C51; refuted for bad names |
| C73, C74 | `callPlugin`, `makeOptions`, `initCmd` | `url.Values.Encode` against an independent decoder, by induction over octets; refuted for `data_dig` and for names with `?` |
| C75, C76 | flags as assignments to the package's variables; `startServer`, `makeTLSconfig` | induction over the flags; case analysis; C76 refuted without key or certificate |
| C77 | all of the evaluator; the multiplexer with and without a module | an invariant of all functions without multiplexer (`Lemmas/KeepsIc`); from the reference of C81 with it; refuted by witness with a module |
| C78 | all of the evaluator, over histories of lookups | an invariant of all functions (`Lemmas/Steady`: once the configuration is resolved, only memories change), a simulation between states that differ in memories which hold what the functions give (`Lemmas/Coherent`), and the first lookup taken apart into resolving the configuration and a lookup from there; refuted for configurations that fail to load and for functions that use the cache |
| C79, C80 | `Lookup`, `Dig`; `ScopeLookupKey` | the lookup of the first segment and that of the key are compared step by step; unfolding |
| C81 | all of the evaluator, from the configuration file to the converted value | `Spec/Reference`: functions of the files, variables, functions and the key, with values of type "no end, an error, or a value" and no state. A simulation of every function of the evaluator (`Lemmas/Reference`, `Lemmas/ReferenceSite`), before and after the configuration is resolved; the reference is monotone in the depth of nesting (`Lemmas/ReferenceMono`) |
| C82 | the multiplexer with the configuration and the environment | from C81, by computing in the reference; refuted for `env` |
| C83 | `LookupAndRender`, the handler of the server, on top of the evaluator | `Spec/Printed` says what is printed in terms of the answers of the reference of C81; from C81, by induction over the names; no locks are left behind when the configuration can be read (`Lemmas/Unlocked`), so sessions stay usable |
| C84 | plugins as in C49 | invariant of all histories: each registered plugin was made from meta-data answered when it was started |
| C85 | `Lookup`, `Lookup2`, `LookupAll`, `ToMap`, on top of the evaluator | from C24 and C81, by induction over the names (`Spec/Calls`) |
| C86 | `cfgType.Instance`, `config.New` | each recogniser of the schema against a declarative one (`Spec/Schema`), with C39 |
| C87 | as for C81 | on the reference: an entry with nothing gives nothing under every strategy, and a source that gives nothing can be left out of a merge of at least two others; then C81 in both worlds |
| C88 | as for C81 | the reference in two worlds whose files are the same for a closed set of keys and variables (`Spec/Separate`): a relation of answers, kept by every function of it, says that they are the same and refer only to that set (`Lemmas/Separate`); then C81 in both worlds |
| C89 | the state of an invocation has a function (`View.ahead`) that tells for each configuration file, and all that the invocation has done so far, whether another invocation has parsed it: every timing is some such function. What others have parsed is what the file says, as they run the same code (C43 for the locks, C60_kept for the rest) | a simulation of two runs of all of the evaluator whose memories differ (`Lemmas/Sim`), and C81 |
| C90 | `Dig` with the explainer | induction over the segments; non-interference (C27) and balance (C28) for what comes before |
| C91 | the explainer in lookups; reference semantics of C81 | a relation for computations in the states of a session with a resolved configuration, which adds truth to what C63 says is told; simulation (C81) for the values; quietness for explainers that are not told about options; for nodes at any depth (`Props/NestedTold`) a relation that follows all nodes that are added, in which the nodes of providers are the only ones that need an argument of their own |
| C92 | all of it from the configuration file to the answer | `Spec/Ordinary` says what a configuration file with given levels looks like, which files it leads to and what the merges of values are, without the evaluator; the reference of C81 is computed for it by induction over the levels (`Lemmas/Ordinary`), and the specification determines the answer, as merges of equal values are equal (`Lemmas/MergeEqual`) |
| C93 | all of it, with files that are others for each lookup (`Spec/Files`) | repeated: a relation of two runs, the second with other files in a state that knows at least what the first has read, which gives the same (`Lemmas/Replay`). Snapshot: resolving the configuration merges `lookup_options` deeply over all levels, so that all data that can be read have been read when it ends (`Lemmas/Snapshot`, `config_full`), and with all data read the files make no difference; then C78. New invocations: all that a session keeps is the parsed configuration |
| C94 | `lookup`, `callLk` without the configuration, `yamlLookup`, `muxLookup`, interpolation; sessions with several invocations | the evaluator has the outcomes of a reference without states (`Spec/TopProvider`): the simulation of C81, with another invariant, which says what the cache has of the file (`Lemmas/TopProvider`); that this is kept whatever the outcome, errors included, is a relation as for C77 |
| C95 | `startPlugin`, `awaitMetaData`, `copyErrToLog`, `ignoreOut`, `kill` as a transition system of goroutines, channels, timers and the process | invariant of all runs; a rank that each step makes smaller |
| C96 | `yaml2json` | structural induction; the specification is a relation of YAML and JSON documents |
| C97 | all of it from the configuration file to the answer, with expressions in data | `Spec/Referring` says how data with references is written and what it means, by relations without the evaluator; induction over data (`Lemmas/Referring`), over levels, and over the rank of keys for references; built on the reference of C81 and C82; that there is one answer by induction over its derivation, as merges of equal values are equal (`Props/ReferringOne`) |
| C98 | keys and locations as values of dgo (`Model/AsValues`) | by cases; the specification says which fields a hash has to have |
| C99 | as for C81 | the reference in two scopes: answers are the same if the scopes agree on a set of variables that is closed under references (`Spec/Variables`); a relation of contexts, kept by every function of the reference, also while paths are mapped, where a variable is added to both (`Lemmas/Variables`); then C81 in both sessions |
| C100 | as for C81 | merging is associative for values that do not clash (`NoneBetween`): deep merge by what it has at each path, `hash` and `unique` by their keys and elements (`Lemmas/Grouped`); the levels of the split hierarchy are the sources of the joined one, regrouped; then the relation of two configurations of C87 with another notion of alike hierarchies (`Lemmas/Separate`, `Lemmas/Grouped2`) |
| C101 | as for C83 and C97 | C97 gives the answer of each name, C83 what is printed and answered for it; names are told apart by induction over the arguments |
| C102 | as for C81 | the reference of C81 in both configurations: sources that have the same value for each key answer the same (`Spec/Kept`), with the relation of references of C100; lists of places and levels by induction |
| C103 | as for C81 | what expressions ask for, and values that differ only in how they are written, are relations (`Spec/Spelled`); related values become the same by structural induction (`Lemmas/Spelled`); then C102 |
| C104 | as for C57 and C92; several lookup functions with a configuration and modules | states in which every resolved configuration is that of its levels, whichever are resolved already (`Settled`, `Lemmas/Modular`), are kept by every step, and in them each step has the outcome of the levels; merges of the two sides are merges of two levels (C92); variables in data are filled in without the help of lookups (`onlyVars`), by what is shown for C97 |
| C105 | as for C102 | entries that have nothing for a key give nothing, and drop out of merges of two or more (as for C87); what is left is compared value by value (as for C102) |
| C106 | as for C63 and C81 | a level without a function is one that carries no data (C105); the loops over the locations tell it at the first one that exists, and keep what is told (C63) |
| C107 | as for C92 | the relation that nothing is lost is transitive and holds between a value and its merge with any other, for each strategy (induction over the deep merge); the merge over more levels continues that over the first ones (`foldl`) |
| C108 | the explainer: the calls, the tree of nodes, and its text | what is told is a tree of calls of its own; the text is defined from the calls (`account`), the node that a call leaves is computed by induction over the calls, and its outline is the account; the outline is the text as for C68 |
| C109 | `Lookup2`, `LookupAll` | false of the code, see 37; what is told instead is read off the ranking of C24 |
| C110 | `ordinary_answer` (C92), the merge strategies | a value absorbs what was merged into it: by induction on the repeated value for `deep`, by keys for `hash`, by elements for `unique`; false for other values, see 38 |
| C111 | `lookup_settled` (C104), the merge strategies | merges of merges as one merge (`joins`, from C100), for the two stages of the multiplexer; false for values that keep others apart, see 39 |
| C112 | `ordinary_answer` (C92), `module_both` (C111), the merge strategies | `Reordered` moves entries of hashes at any depth, and is shown to be equality of dgo in both directions; merges, single values, fields and lookup options respect it; with levels of every kind by C119 and `textbook_congr` |
| C113 | the set-ups of C97 and C120 | of a set-up, `Sheeted` is all that is needed (`layout_sheeted`); the answers for the keys that are referred to are a function (`sheets_refs`), so the value of data is one too (`valueT`); induction over `Apart` shows that values are the same, and over the rank of keys that answers are |
| C114 | the set-ups of C97 and C120 | `renamed` gives other names to what data refers to; the values of data are the same if the answers for the keys are (`valueT`), and these are by induction over the rank of keys (`alike_answers`, shared with C113) |
| C115 | `command_opens` (C91), the set-ups of C92, `tellAll` and `accounts` (C108) | each part of a lookup is shown to tell the explainer exactly a list of `Telling`s (`Recounts`), from the level up to the lookup and the fields of a dotted key; the account of these is `explanation` |
| C116 | `newCfg`, `makeDefaultHierarchy`, reference semantics (C81) | a configuration file that spells the built-in hierarchy out parses to the same entries, and then C105; the two entries are resolved, and read what the two files have, as the levels of C92 do |
| C117 | the set-ups of C92, `extractConversion`, `convert` (C58), `C81_answer`, `C82_answer_partial` | what merged lookup options say about a matter is what the first of them says, unless two of them say it with containers of a kind (`said_chain`, from C10); then as C92 |
| C118 | the set-ups of C92, `strategyNamed`, `refMergeOption`, `C81_answer`, `C82_answer_partial` | what merged lookup options say with names and hashes is the first name, or a hash with the first strategy (`saidAs_chain`, from C10); the options of a strategy do not change it (`strategy_options`); then as C92 |
| C119 | `newCfg`, the reference of C81 (`refResolve`, `refLocations`, `refAt`), `C81_answer`, `C82_answer_partial` | the configuration of such a hierarchy is parsed to entries with the locations that were written (`newCfg_steps`); the defaults resolve to what they say (`refPreset`), and the entries to the files that are meant (`refLocations_place`, `refStep`); the sources of a level are its files (`sources_rung`); the hierarchy is the flat merge of all files (`hierarchy_flat` of C100, and `single_combined` for one level); then as C118; what is printed and answered as C101 (`prints_answers`, `reply_answer`) |
| C120 | the same as C97, C101 and C119 | what C97 needs of a set-up is `Sheeted`: how the site resolves, which strategy a key has, and that the hierarchy is the merge of what the sheets mean; the proof of C97 is from this alone (`sheets_lookup`), and hierarchies of every kind have it (`rungs_sheeted`, by `hierarchy_read`: the sources of the levels are the files, read with references); one answer as C97_one (`answered_one`); what is printed and answered as C101 |
| C121 | the same as C119 | by C81 it is enough that the reference is the same; both hierarchies resolve to the same levels (`stepped_levels`, by `newCfg_steps`, `refPreset` and `refSteps` of C119), and what is asked of them is the same (`refAnswer_alike`, as C116) |
| C122 | the same as C119 | by C81 it is enough that the reference is the same; the locations that a level resolves to are its files (`resolved_files`), so that two levels that stand for the same find the same in them (`sameSources_rung`, by `refHash_rung`), and so does the merge (`refMerge_found_same`, as C105, where levels without files have nothing) |
| C123 | `lookupAndRender`, `serve` (C83) | by C83 what is printed is determined by the answers of the names (`finds_same`); options that are rejected are rejected with the same error |
| C124 | `refSite` for `Stepped` set-ups | the lookup options are a deep merge, which asks all sources; by induction over the levels and files all before the broken one have an answer and it has the error (`Outcome`, `hierarchy_outcome`); printing and serving by C83 (`finds_fails`) |
| C125 | the same as C122 | as C122, where a level whose files are all read and do not have the key has nothing for it (`lacks_rung`, `lacks_entry`), and the levels of a permutation that have a key are the same if no two have it (`filter_perm`, `sameLevels_filter`) |
| C126 | `loadConfig`, `config`, `eval`, `lookupAndRender`, `serve` | the first lookup by C81, printing by C83 without the assumption that the configuration can be read (`prints_unlocked`); what comes after by following the step that needs the configuration through `>>=`, nodes, copies and merges (`Refuses`): it never returns, or it fails and leaves the file locked |

## Disagreements between the properties and the code

Each is proved of the model on a concrete witness, at the theorem named.

1. Nothing calls `WithKey`, so that endless recursion is not detected: a value that refers to itself, however
   indirectly, never gets an answer (C29_false, C29_endless). Data for `lookup_options` that contain a `lookup` call
   recurse through `Config` and `Resolve` in the same way.
2. Values are interpolated twice, once by the provider and once by `Lookup`: `literal` is not verbatim (C18_false), and
   text that becomes an expression the first time is evaluated the second time, by which even data without cycles can
   diverge (C59_false).
3. `redacted` is written but never read: sensitive values show up in explanations (C34_false).
4. `unique` treats a single found value differently from several (C08_false).
5. A quoted segment that is not the last one is read as if it were not quoted: `a.'1'.b` has an index (C04_false).
6. A panic of `config.New` leaves the lock of the configuration taken; whoever wants the same configuration later waits
   forever (C44_blocked, C44_false, C60_hangs, C60_false).
7. `DoWithScope` does not restore the scope if there is a panic (C36_false); `ForConfig` makes a copy only when
   explaining, so that an invocation that goes on after a failure behaves differently with an explainer
   (C27_false_after_failure).
8. `data_dig` functions get neither options nor location (C56_false), and only the first segment of the key
   (C66_false).
9. Nested lookups use the merge strategy of the outer one and ignore their own `lookup_options` (C32_false).
10. `append` to the server's shared slice of variables lets requests see each other's variables (C48_false).
11. `serverCtx.Cache` is not atomic (C47_false); a nil that is stored makes later calls panic (C46_false).
12. `default_hierarchy` is never consulted (C38_false); whatever is in it, lookups give the same (C38_session), but an error in it makes
    all of them fail (C38_fails).
13. With `ConfigLookupKey` as the top provider, a `lookup` call in a value from a `lookup_key` or `data_dig` function is a
    nil dereference (C61_false).
14. `--merge first` is dropped in favour of `lookup_options` (C62_false).
15. `ConfigLookupKeyAt` parses the root of the key once more: quoted names with dots are not found (C65_false), and
    `'lookup_options.y'` discloses lookup options (C65_discloses_options).
16. `MuxLookupKey` takes the answers of plain functions for lookup options (C37_value_as_options).
17. A `data_hash` function runs while the provider's lock is held and cannot look anything up through the same provider
    (C45_blocked, C45_false).
18. Only the first directory whose name matches a module's is considered (C57_false).
19. `--var` values with newlines are rejected (C54_false); REST keys with `//`, `..` or newlines are redirected or not
    found (C52_false).
20. A plugin whose process has ended is not started again (C49_not_restarted).
21. A plugin with bad names of functions is registered before the names are looked at, and never started again
    (C72_names, C72_false).
22. The value of a variable in a path may contain `..` and lead out of the data directory; over REST the client chooses
    it (C71_escapes).
23. The `data_dig` provider calls its function with the invocation instead of a context, for which a plugin's function
    panics: `data_dig` functions of plugins are never asked (C73_dig_false). Names of functions are not escaped in URLs
    (C73_name_false).
24. A parent loader called `plugin` changes which files are started as plugins (C70_false).
25. `clientCertVerify` without a key or a certificate is ignored, and the server serves in the clear (C76_clear,
    C76_false).
26. A lookup in a value changes the strategy of the lookup that it is part of, if the top provider is the multiplexer: a
    value that refers to another key makes levels that come later be left out of a merge (C77_false).
27. A configuration that does not load makes the first lookup of an invocation fail and the next one wait forever
    (C78_false).
28. From the command line, `lookup env` takes the variables of the environment for lookup options: one called `merge` or
    `convert_to` decides over the lookup (C82_false).
29. A command made with `NewCommand` has the default value of the one before (C75_new_command).
30. A level with nothing in it, put into a hierarchy of one level, changes what the strategy `unique` gives: a text
    becomes an array with that text (C87_false).
31. From the command line, an explanation says nothing of the environment: that a value is from a variable is not told
    (C91_command; the node of the lookup has nodes for the levels of the hierarchy only).
32. Goroutines are left behind when a plugin takes too long to start or to stop, and the process of a plugin that could not
    be started is never waited for (C95_false_start, C95_false_stop, C95_reaped_iff).
33. Two paths of one level are not the same as two levels with a path each: with deep merge, a number in the middle file
    keeps apart the maps of the last file and those above it only if the last two files are one level (C100_false); with
    `unique`, a level of two paths that is the only one makes unique what one file has, two levels do not (C100_false_alone).
34. The lookup options of a module are heeded only for keys that have its name in lower case, although its data is found for
    keys that have it in any case (C104_case).
35. An explanation of data, without the lookup options, never says that a function is not there: the level was asked for
    lookup options before, and it is said only the first time (C106_false).
36. A level that is added below can change what `unique` gives for a text or number that was found alone, which becomes an
    element of an array (C107_false; compare 4 and 30).
37. The explainer has methods for values that are found in overrides and defaults, and words for these, but nothing calls
    them: the explanation of `Lookup2` with an override is empty, and with a default it says that there is no such key
    (`C109_override`, `C109_default`, `C109_false`).
38. A file that is on two levels does not count once: a text with `unique` becomes an array, and an array with equal elements loses
    them with `deep` (`C110_false`). Both are consequences of what a single found value is (C08) and of `Unique` in `deep` (C12).
39. It does matter whether a level is the lowest of the configuration or the highest of a module: if it has a number where the levels above
    and below have hashes, these are merged in the first case and not in the second (`C111_false`). `deep` is not associative (see also `C100_false`).
40. `convert_to` with arguments, on two levels (C117_false): the deep merge of `lookup_options` makes one array of the two, so that the arguments
   of the lower level are given to the type as well, after those of the higher level.

Seen while reading, and not the subject of a theorem: a relative configuration root is joined twice for `plugindir`;
URI locations are passed as the option `path`; `ignoreOut` loops forever on errors other than `EOF`; `plugin.kill` would return with its lock taken if the process were nil
(C51 proves that this does not happen); the same function name under two kinds gives either kind, as `functionMap` goes through a Go map; the version check of
plugins truncates 1.5 to 1; `--ca` without `clientCertVerify` has no effect; `cmdLookup` exits with 0 when nothing is found; the `deep`
strategy ignores its options; the map of module providers is shared by the invocations of a session and used without a lock.

## Axioms per theorem

<!-- axioms -->
* no axioms: `C36_restored_partial`, `C36_false`, `Command.C76_clear`, `C83_explainer`, `C83_type`, `AsValues.C98_false`
* propext: `C01_unterminated`, `C05_bury_follow`, `C16_division`, `Cache.C47_false`, `Plugin.kill_thrice`, `Command.C76_verified_partial`, `C85_hash`, `Yaml2Json.C96_same`
* propext, Quot.sound: `C07_first`, `C08_false`, `C08_one_found_partial`, `C09_not_hash`, `C11_unchanged`, `C110_same_file`, `C12_idempotent_needs_nodups`, `C29_guard_partial`, `C48_isolated_partial`, `C48_sequential_partial`
* propext, Classical.choice, Quot.sound: `C01_key`, `C01_root`, `C02_dots`, `C02_rejected`, `C03_grammar`, `C03_range`, `C03_unambiguous`, `C04_false`, `C04_quoted_partial`, `C04_single_partial`, `C05_dig_bury`, `C06_dig`, `C08_unique_partial`, `C08_one_source_partial`, `C09_hash`, `C10_deep`, `C10_deep_determined`, `C10_order`, `C10_strategy`, `C100_split_partial`, `C100_shapes_partial`, `C100_false`, `C100_false_alone`, `C101_prints`, `C101_served`, `C102_kept`, `C103_spelled`, `C104_textbook`, `C104_history`, `C104_case`, `C105_found`, `C105_levels`, `C105_order`, `C105_swap`, `C105_spread`, `C106_nothing`, `C106_told_partial`, `C106_false`, `C107_added_partial`, `C107_same_way`, `C107_highest`, `C107_module`, `C107_modules_partial`, `C107_false`, `C108_told`, `C109_override`, `C109_default`, `C109_all`, `C109_false`, `C11_flag`, `C110_once_partial`, `C110_modules_partial`, `C110_same_way`, `C110_false`, `C111_moved_partial`, `C111_together_partial`, `C111_false`, `C112_order`, `C112_values`, `C112_same_way`, `C112_modules`, `C112_levels`, `C112_reordered`, `C113_apart`, `C114_renamed`, `C115_explained`, `C115_printed`, `C116_missing`, `C116_textbook`, `C117_converted_partial`, `C117_hash_partial`, `C117_levels_partial`, `C117_no_type`, `C117_levels_no_type`, `C117_false`, `C118_textbook`, `C118_nameless`, `C119_textbook`, `C119_prints`, `C119_served`, `C12_scalars`, `C12_elements`, `C12_neutral_right`, `C12_neutral_left`, `C12_idempotent`, `C120_referring`, `C120_one`, `C120_prints`, `C120_served`, `C121_filled`, `C121_spelled`, `C122_files`, `C122_prints`, `C122_served`, `C123_prints`, `C123_served`, `C124_fails`, `C124_prints`, `C124_served`, `C125_levels`, `C125_order`, `C125_prints`, `C125_served`, `C126_fails`, `C126_prints`, `C126_served`, `C126_leaves`, `C126_hangs`, `C126_unanswered`, `C13_found_iff`, `C13_consulted`, `C14_names`, `C15_plain`, `C16_text`, `C16_lookup`, `C17_empty`, `C17_within`, `C18_literal_partial`, `C18_false`, `C19_alias`, `C19_alone`, `C20_value`, `C20_entry`, `C20_config`, `C20_no_lookup`, `C21_unknown`, `C21_known`, `C21_nested`, `C22_array`, `C22_length`, `C22_map`, `C22_other`, `C23_hidden`, `C23_keys`, `C23_interpolated`, `C24_ranked`, `C25_each`, `C25_returns`, `C25_independent`, `C26_enforced`, `C26_all`, `C27_explain`, `C27_explain_seq`, `C27_false_after_failure`, `C28_balanced`, `C28_no_failure`, `C29_endless`, `C29_endless_top`, `C29_endless_variables`, `C29_false`, `C30_order`, `C30_explained`, `C30_merged`, `C31_asked`, `C31_missing`, `C32_total`, `C32_lookup_partial`, `C32_unknown`, `C32_nested`, `C77_purpose_partial`, `C82_options_partial`, `C32_false`, `C33_options`, `C33_no_leak`, `C33_source`, `C34_only_options_partial`, `C34_false`, `C35_shadow`, `C35_lookup`, `C35_variables`, `C35_options`, `C37_mux`, `C37_first`, `C37_value_as_options`, `C38_false`, `C38_ignored`, `C38_session`, `C38_fails`, `C39_ambiguous`, `C39_rejected`, `C40_resolved`, `C40_exactly`, `C40_inherited`, `C41_locations`, `C41_count`, `C41_mapped`, `C42_file`, `C42_no_options`, `C42_other_options`, `Conc.C43_once`, `Conc.C43_same`, `Conc.C43_found`, `Conc.C43_progress`, `Conc.C43_ends`, `Conc.C44_blocked`, `Conc.C44_false`, `Conc.C44_others_partial`, `ConcHash.C45_once`, `ConcHash.C45_no_more`, `ConcHash.C45_same`, `ConcHash.C45_alone`, `ConcHash.C45_ends`, `ConcHash.C45_progress_partial`, `ConcHash.C45_blocked`, `ConcHash.C45_false`, `Cache.C46_cached`, `Cache.C46_absent`, `Cache.C46_replaced`, `Cache.C46_new`, `Cache.C46_entries`, `Cache.C46_false`, `Cache.C47_in_turn_partial`, `Cache.C47_origin_partial`, `Cache.C47_first_partial`, `C48_false`, `Plugin.C49_one`, `Plugin.C49_running`, `Plugin.C49_not_restarted`, `Plugin.C50_stopped`, `Plugin.C50_with_session`, `Plugin.C50_failed`, `Plugin.C51_once`, `C52_answer_partial`, `C52_bad_request`, `C52_outside`, `C52_redirected`, `C52_variables`, `C52_false`, `C53_scope`, `C53_bad_variable`, `C54_any`, `C54_split_partial`, `C54_error_partial`, `C54_false`, `C55_all`, `C55_one`, `C55_other`, `C56_lookup_key`, `C56_data_hash`, `C56_data_file`, `C56_false`, `C57_found_partial`, `C57_not_found_partial`, `C57_error_partial`, `C57_lookup`, `C57_lookup_error`, `C57_case`, `C57_remembered`, `C57_false`, `C58_converted`, `C58_bad_type`, `C59_deterministic`, `C59_terminates_partial`, `C59_terminates_key_partial`, `C59_no_expressions`, `C59_fresh`, `C59_false`, `C60_kept`, `C60_as_parsed`, `C60_resolve_refines`, `C60_create_untouched`, `C60_independent_partial`, `C60_hangs`, `C60_false`, `C61_alike_partial`, `C61_false`, `C62_honoured_partial`, `C62_unknown`, `C62_lookup`, `C62_false`, `C63_told`, `C64_node`, `C64_explainer`, `C64_tree`, `C64_session`, `C65_plain_partial`, `C65_false`, `C65_discloses_options`, `C66_given_partial`, `C66_false`, `C67_described`, `C67_missing`, `C67_order`, `C68_text`, `C68_page`, `C69_keys`, `C69_atoms`, `C70_loader_partial`, `C70_default`, `C70_false`, `C71_place`, `C71_below_partial`, `C71_escapes`, `Plugin.C72_again_partial`, `Plugin.C72_names`, `Plugin.C72_false`, `Plugin.C73_lookup_key_partial`, `Plugin.C73_data_hash_partial`, `Plugin.C73_keys`, `Plugin.C73_dig_false`, `Plugin.C73_name_false`, `Plugin.C73_cut`, `Plugin.C74_environment`, `Command.C75_execute`, `Command.C75_dialect`, `Command.C75_command`, `Command.C76_false`, `C77_kept_partial`, `C77_false`, `C78_history_partial`, `C78_explained_partial`, `C78_false`, `C78_cache`, `C79_dotted`, `C80_entry`, `C80_top`, `C81_answer`, `C81_endless`, `C81_history`, `C81_explained`, `C81_one`, `C81_session`, `C82_answer_partial`, `C82_false`, `C83_prints`, `C83_explains`, `C83_served`, `C83_rejected`, `C83_default`, `C83_request`, `C83_rendering`, `Plugin.C84_announced`, `Plugin.C84_fit`, `Plugin.C84_address`, `C85_lookup2`, `C85_lookup`, `C85_lookupAll`, `C85_options`, `C85_scope`, `C86_accepted`, `C86_refused`, `C86_file`, `C87_silent_partial`, `C87_others_partial`, `C87_false`, `C88_keys`, `C88_files`, `C89_alone_partial`, `C89_answer`, `C89_history`, `C90_dig`, `C90_dotted`, `C91_lookup`, `C91_command`, `C91_nested`, `C91_command_nested`, `C92_textbook`, `C92_one`, `C92_unknown`, `C93_snapshot`, `C93_snapshot_answer`, `C93_explained`, `C93_repeat`, `C93_new`, `C93_configuration`, `C93_failure`, `C94_answer`, `C94_explained`, `C94_changing`, `C94_value`, `C94_options`, `C94_hidden`, `C94_literal`, `C94_once`, `C94_taken_for_options`, `PluginGo.C95_ends`, `PluginGo.C95_at_rest`, `PluginGo.C95_stopped`, `PluginGo.C95_failed`, `PluginGo.C95_nothing_left_partial`, `PluginGo.C95_left_iff`, `PluginGo.C95_false_start`, `PluginGo.C95_false_stop`, `PluginGo.C95_reaped_iff`, `C97_referring`, `C97_one`, `AsValues.C98_locations`, `AsValues.C98_keys`, `AsValues.C98_hash_partial`, `AsValues.C98_again`, `AsValues.C98_made`, `AsValues.C98_same_segments`, `C99_variables`, `C99_none`
<!-- end of axioms -->
