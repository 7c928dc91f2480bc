/- The evaluator: interpolation (`session/interpolate.go`), configurations and their resolution (`session/invocation.go`,
`session/resolvedconfig.go`, `config/*.go`), data providers (`internal/*.go`), the built-in lookup functions
(`provider/*.go`) and `Invocation.Lookup`.

The functions call each other without any bound in the code: a lookup interpolates values, and interpolation looks things
up. Here every such cycle goes through a `Rec`, and `eval n` unfolds the cycles `n` times; the code's result is that of
any `n` that is large enough, and the code does not terminate if there is none. -/
import Verif.Model.Monad
import Verif.Model.Loader

set_option autoImplicit false

namespace Hiera

open Value

/-- A `lookup_key` function written by a user of the API, in terms of what it may do with the `ServerContext` that it is
passed (`api/servercontext.go`, `session/serverctx.go`). -/
inductive Prog
  | ret (v : Option Value)
  | panic (e : Err)
  /-- `Interpolate` -/
  | interpolate (v : Value) (k : Option Value → Prog)
  /-- `Invocation().Lookup(NewKey(key), opts)` -/
  | lookup (key : Str) (opts : Entries) (k : Option Value → Prog)
  /-- `Explain` -/
  | explain (text : Str) (k : Prog)
  /-- `Cache` -/
  | cache (key : Str) (v : Value) (k : Option Value → Prog)
  /-- `CachedValue` -/
  | cachedValue (key : Str) (k : Option Value → Prog)
  /-- `Invocation().Scope().Get` -/
  | scopeGet (key : Str) (k : Option Value → Prog)

/-- Lookup functions: those of package `provider`, and others. `notFunction` is a value in the list of functions of
`MuxLookupKey` that is not a function (`provider/*.go`; `provider/muxlookupkey.go:21-53` for the list). -/
inductive LkFn
  | config
  | mux
  | env
  | scope
  | yaml
  | module
  | custom (f : Entries → Str → Prog)
  | notFunction

/-- A function that `Session.LoadFunction` finds by name. Simplification: `data_hash` functions see their options and
`data_dig` functions see the key (`internal/datadigprovider.go:46-48` gives them nothing else), and neither uses the
session. -/
inductive Fn
  | hash (f : Entries → Res (Option Value))
  | dig (f : List Part → Res (Option Value))
  | key (f : LkFn)

/-- What `os.Lstat` gives (used in `provider/modulelookupkey.go:99-110`). -/
inductive StatRes
  | missing
  | err (e : Err)
  | dir
  | file

/-- What listing a directory gives: names, and whether they are directories (used in
`provider/modulelookupkey.go:75-97`). -/
inductive DirRes
  | missing
  | err (e : Err)
  | entries (es : List (Str × Bool))

/-- The session and everything outside the process. Simplification: files, environment and functions do not change
(`session/session.go:29-36,92-97`). -/
structure Env where
  /-- the top provider -/
  top : LkFn
  /-- session option `Hiera::Config` -/
  configPath : Str := []
  /-- session option `hiera::lookup::providers` -/
  muxFns : Option (List LkFn) := none
  /-- session option `hiera::lookup::modulepath`, split -/
  modulePath : Option (List Str) := none
  /-- session option `path` -/
  yamlPath : Option Value := none
  /-- `os.Stat` without error -/
  stat : Str → Bool := fun _ => false
  lstat : Str → StatRes := fun _ => .missing
  readDir : Str → DirRes := fun _ => .missing
  /-- `doublestar.Glob` -/
  glob : Str → List Str := fun _ => []
  readYaml : Str → FileRes := fun _ => .missing
  readJson : Str → FileRes := fun _ => .missing
  /-- `os.Environ` -/
  environ : List Str := []
  /-- `os.LookupEnv` -/
  lookupEnv : Str → Option Str := fun _ => none
  /-- the session dialect's `ParseType`; types are numbers -/
  parseType : Str → Res Nat := fun _ => .panic (.other 0)
  /-- `vf.New` of a type with a value and possibly more arguments -/
  newValue : Nat → Value → Option (List Value) → Res Value := fun _ v _ => .ok v
  /-- equality with `typ.Sensitive` -/
  isSensitive : Nat → Bool := fun _ => false
  /-- `String()` of a value that is not a string -/
  render : Value → Str := fun _ => []
  /-- the functions of the session's loader -/
  functions : Str → Option Fn := fun _ => none
  /-- the functions of the plugin at a path -/
  pluginFn : Str → Str → Res (Option Fn) := fun _ _ => .ok none
  /-- working directory -/
  cwd : Str := []
  /-- the session's loader; `loader.New(nil, "", ...)` if no parent is given -/
  loader : Ldr := [[]]

/-- `String()` (dgo; used in `session/interpolate.go:138,150`). -/
def Env.toStr (E : Env) : Value → Str
  | .str s => s
  | v => E.render v

/-- What the configuration needs (see `CfgEnv`; `config/config.go:127-141`). -/
def Env.cfg (E : Env) : CfgEnv := ⟨E.toStr, E.lookupEnv⟩

/-- The recursive calls (those of `session/invocation.go:243`, `session/interpolate.go:32` and of lookup functions,
`session/invocation.go:252`, by which the code is cyclic). -/
structure Rec where
  /-- `Invocation.Lookup` -/
  lookup : Key → Entries → M (Option Value)
  /-- `doInterpolate` -/
  interp : Value → Bool → M (Option Value × Bool)
  /-- a call of a lookup function with options and key -/
  lk : LkFn → Entries → Str → M (Option Value)

/-- `keyToString` of a key part (`explain/explainer.go:132-145`). -/
def Part.text : Part → Str
  | .idx i => (toString i).toList
  | .name s => s

/-! ### Keys -/

/-- The function passed to `WithSegment` in `Dig` (`api/key.go:84-108`). -/
def digSeg (p : Part) (v : Option Value) : M (Option Value) :=
  match v.bind (digSegment p) with
  | some w => do
    report (.found p.text w)
    pure (some w)
  | none => do
    report (.notFound p.text)
    pure none

/-- The loop of `Dig` (`api/key.go:82-112`). -/
def digLoop : List Part → Option Value → M (Option Value)
  | [], v => pure v
  | p :: ps, v => do
    match ← withNode (.new (.segment p)) (digSeg p v) with
    | some w => digLoop ps (some w)
    | none => pure none

/-- `Key.Dig` (`api/key.go:75-115`). -/
def dig (k : Key) (v : Option Value) : M (Option Value) :=
  if k.parts.length = 1 then pure v else withNode (.new (.subLookup k)) (digLoop k.parts.tail v)

/-! ### Interpolation -/

/-- `InterpolateInScope` (`session/interpolate.go:161-168`). -/
def interpInScope (rec : Rec) (expr : Str) (allow : Bool) : M (Option Value) := do
  let k ← lift (newKey expr)
  let v ← view
  match v.ic.scope.get k.root with
  | some x => do
    let r ← rec.interp x allow
    dig k r.1
  | none => pure none

/-- The result and last method that the closure of `InterpolateString` keeps, and the text so far
(`session/interpolate.go:121-123`). -/
structure IplState where
  out : Str := []
  result : Option Value := none
  method : Method := .scope

/-- What `String()` of a possibly absent value contributes to the text (`session/interpolate.go:137-140`, `147-150`). -/
def Env.textOf (E : Env) : Option Value → Str
  | some v => E.toStr v
  | none => []

/-- The function passed to `ReplaceAllStringFunc` (`session/interpolate.go:123-152`). -/
def interpExpr (E : Env) (rec : Rec) (str : Str) (allow : Bool) (e : Str) (st : IplState) : M IplState :=
  let x := trimSpace e
  if emptyInterpolation x then pure st
  else do
    let md ← lift (getMethodAndData x allow)
    if md.1.isAlias = true ∧ '%' :: '{' :: e ++ ['}'] ≠ str then panic .aliasNotAlone
    else match md.1 with
      | .literal => pure { st with out := st.out ++ md.2, method := md.1 }
      | .scope => do
        let v ← interpInScope rec md.2 allow
        pure { st with out := st.out ++ E.textOf v, method := md.1 }
      | _ => do
        let k ← lift (newKey md.2)
        let v ← rec.lookup k []
        if md.1.isAlias then pure { st with result := v, method := md.1 }
        else pure { st with out := st.out ++ E.textOf v, method := md.1 }

/-- `ReplaceAllStringFunc` (`session/interpolate.go:123`). -/
def interpToks (E : Env) (rec : Rec) (str : Str) (allow : Bool) : List Tok → IplState → M IplState
  | [], st => pure st
  | .chr c :: ts, st => interpToks E rec str allow ts { st with out := st.out ++ [c] }
  | .expr e :: ts, st => do
    let st' ← interpExpr E rec str allow e st
    interpToks E rec str allow ts st'

/-- The end of the function passed to `WithInterpolation` (`session/interpolate.go:153-156`). -/
def IplState.finish (st : IplState) : Option Value :=
  if st.result.isNone ∧ st.method ≠ .strictAlias then some (.str st.out) else st.result

/-- `InterpolateString` (`session/interpolate.go:115-158`). -/
def interpStr (E : Env) (rec : Rec) (s : Str) (allow : Bool) : M (Option Value × Bool) :=
  if hasMarker s then do
    let r ← withNode (.new (.interpolate s)) (do
      let st ← interpToks E rec s allow (tokens s) {}
      pure st.finish)
    pure (r, true)
  else pure (some (.str s), false)

mutual
/-- `doInterpolate` (`session/interpolate.go:32-69`). A nil among the results becomes `vf.Nil` in arrays and maps. -/
def interp (E : Env) (rec : Rec) (allow : Bool) : Value → M (Option Value × Bool)
  | .str s => interpStr E rec s allow
  | .arr es => do
    let r ← interpList E rec allow es
    if r.2 then pure (some (.arr r.1), true) else pure (some (.arr es), false)
  | .map es => do
    let r ← interpMap E rec allow [] es
    if r.2 then pure (some (.map r.1), true) else pure (some (.map es), false)
  | v => pure (some v, false)
/-- The loop over the elements of an array (`session/interpolate.go:39-45`). -/
def interpList (E : Env) (rec : Rec) (allow : Bool) : List Value → M (List Value × Bool)
  | [] => pure ([], false)
  | v :: vs => do
    let r ← interp E rec allow v
    let rs ← interpList E rec allow vs
    pure ((if r.2 then r.1.getD .null else v) :: rs.1, r.2 || rs.2)
/-- The loop over the entries of a map (`session/interpolate.go:54-61`). -/
def interpMap (E : Env) (rec : Rec) (allow : Bool) : Entries → List (Value × Value) → M (Entries × Bool)
  | cp, [] => pure (cp, false)
  | cp, (k, v) :: es => do
    let rk ← interp E rec allow k
    let rv ← interp E rec allow v
    let rs ← interpMap E rec allow (Entries.put cp (rk.1.getD .null) (rv.1.getD .null)) es
    pure (rs.1, rk.2 || rv.2 || rs.2)
end

/-- `Interpolate` (`session/interpolate.go:25-30`). -/
def interpolate (E : Env) (rec : Rec) (allow : Bool) (v : Value) : M (Option Value) := do
  let r ← interp E rec allow v
  pure (if r.2 then r.1 else some v)

/-- `InterpolateString(s, false)` followed by `String()`, as the configuration code does
(for instance `config/path.go:76-77`). -/
def interpCfg (E : Env) (rec : Rec) (s : Str) : M Str := do
  let r ← interpStr E rec s false
  match r.1 with
  | some v => pure (E.toStr v)
  | none => panic .nilDeref

/-! ### Resolving configuration entries -/

/-- `function.Resolve` and `resolveFunction` (`config/function.go:22-27`, `config/entry.go:96-110`). -/
def resolveFunction (E : Env) (rec : Rec) (defaults : Option Entry) (e : Entry) : M Entry :=
  match e.function with
  | none => match defaults with
    | none => pure { e with function := some (.dataHash, "yaml_data".toList) }
    | some d => match d.function with
      | some f => pure { e with function := some f }
      | none => panic (.other 1)
  | some (k, n) => do
    let n' ← interpCfg E rec n
    pure { e with function := some (k, n') }

/-- `resolveDataDir` (`config/entry.go:112-125`), which first resolves the function once more. -/
def resolveDataDir (E : Env) (rec : Rec) (defaults : Option Entry) (e : Entry) : M Entry := do
  let e ← resolveFunction E rec defaults e
  if e.dataDir = [] then
    match defaults with
    | none => pure { e with dataDir := E.cfg.defaultDataDir }
    | some d => pure { e with dataDir := d.dataDir }
  else do
    let d ← interpCfg E rec e.dataDir
    pure { e with dataDir := d }

/-- The value that `resolvePluginDir` starts from (`config/entry.go:128-138`). -/
def pluginDirOf (E : Env) (rec : Rec) (defaults : Option Entry) (e : Entry) : M Str :=
  if e.pluginDir = [] then
    match defaults with
    | none => pure E.cfg.defaultPluginDir
    | some d => pure d.pluginDir
  else interpCfg E rec e.pluginDir

/-- `resolvePluginDir` (`config/entry.go:127-142`). -/
def resolvePluginDir (E : Env) (rec : Rec) (defaults : Option Entry) (e : Entry) : M Entry := do
  let p ← pluginDirOf E rec defaults e
  pure { e with pluginDir := if isAbs p then p else join e.root p }

/-- `resolveOptions` (`config/entry.go:144-155`). -/
def resolveOptions (E : Env) (rec : Rec) (defaults : Option Entry) (e : Entry) : M Entry :=
  match e.options with
  | none => match defaults with
    | some d => pure { e with options := some (d.options.getD []) }
    | none => pure { e with options := some [] }
  | some [] => pure e
  | some os => do
    let r ← interpolate E rec false (.map os)
    match r with
    | some (.map os') => pure { e with options := some os' }
    | _ => panic .typeAssertion

/-- The loop of `mappedPaths.Resolve` (`config/mappedpaths.go:103-110`). -/
def resolveMapped (E : Env) (rec : Rec) (key template dataDir : Str) : List Value → M (List Loc)
  | [] => pure []
  | mv :: mvs => do
    let v ← view
    let rp ← doWithScope (.withVar v.ic.scope key mv) (do
      let r ← interpCfg E rec template
      pure (join dataDir r))
    let rest ← resolveMapped E rec key template dataDir mvs
    pure (.path template rp (E.stat rp) :: rest)

/-- `Location.Resolve` (`config/path.go:75-80`, `config/glob.go:63-72`, `config/uri.go:74-77`,
`config/mappedpaths.go:90-112`). -/
def Loc.resolve (E : Env) (rec : Rec) (dataDir : Str) : Loc → M (List Loc)
  | .path o _ _ => do
    let r ← interpCfg E rec o
    let rp := join dataDir r
    pure [.path o rp (E.stat rp)]
  | .glob o => do
    let r ← interpCfg E rec o
    pure ((E.glob (join dataDir r)).map (fun m => .path o m true))
  | .uri o _ => do
    let r ← interpCfg E rec o
    pure [.uri o r]
  | .mapped src key template => do
    match ← interpInScope rec src false with
    | some (.str s) => resolveMapped E rec key template dataDir [.str s]
    | some (.arr es) => resolveMapped E rec key template dataDir es
    | _ => pure []

/-- The loop of `resolveLocations` (`config/entry.go:166-168`). -/
def resolveLocs (E : Env) (rec : Rec) (dataDir : Str) : List Loc → M (List Loc)
  | [] => pure []
  | l :: ls => do
    let r ← l.resolve E rec dataDir
    let rs ← resolveLocs E rec dataDir ls
    pure (r ++ rs)

/-- `resolveLocations` (`config/entry.go:157-171`). -/
def resolveLocations (E : Env) (rec : Rec) (e : Entry) : M Entry :=
  match e.locations with
  | none => pure e
  | some ls => do
    let rs ← resolveLocs E rec (if isAbs e.dataDir then e.dataDir else join e.root e.dataDir) ls
    pure { e with locations := some rs }

/-- `entry.Resolve` (`config/entry.go:173-184`). -/
def Entry.resolve (E : Env) (rec : Rec) (defaults : Option Entry) (e : Entry) : M Entry := do
  let e ← resolveFunction E rec defaults e
  let e ← resolveDataDir E rec defaults e
  let e ← resolvePluginDir E rec defaults e
  let e ← resolveOptions E rec defaults e
  resolveLocations E rec e

/-- A new provider for a resolved entry: `CreateProvider` (`session/resolvedconfig.go:23-32`). -/
def newProvider (e : Entry) : M Prov := do
  let v ← view
  update (fun w => { w with nextId := w.nextId + 1 })
  pure ⟨v.nextId, e⟩

/-- The loop of `CreateProviders` (`session/resolvedconfig.go:87-89`). -/
def createProvidersLoop (E : Env) (rec : Rec) (defaults : Entry) : List Entry → M (List Prov)
  | [] => pure []
  | he :: hes => do
    let e ← he.resolve E rec (some defaults)
    let p ← newProvider e
    let ps ← createProvidersLoop E rec defaults hes
    pure (p :: ps)

/-- `CreateProviders` (`session/resolvedconfig.go:84-91`). -/
def createProviders (E : Env) (rec : Rec) (c : Cfg) (hierarchy : List Entry) : M (List Prov) := do
  let defaults ← c.defaults.resolve E rec none
  createProvidersLoop E rec defaults hierarchy

/-! ### Data providers -/

/-- Association lists, newest entry first (Go maps and `sync.Map`, as used in `session/invocation.go:72-79`). -/
def assoc {κ α : Type} [DecidableEq κ] (k : κ) : List (κ × α) → Option α
  | [] => none
  | (k', a) :: es => if k = k' then some a else assoc k es

/-- The path of the plugin for an entry (`session/session.go:164-181`). -/
def pluginPath (E : Env) (e : Entry) (n : Str) : Str :=
  let file := if e.pluginFile = [] then n else e.pluginFile
  if isAbs file then clean file else absPath E.cwd (clean (join e.pluginDir file))

/-- `LoadFunction` (`session/session.go:156-194`, `session/session.go:238-256`, `session/session.go:266-298`). -/
def loadFunction (E : Env) (e : Entry) (n : Str) : Res (Option Fn) :=
  match E.functions n with
  | some f => .ok (some f)
  | none =>
    match pluginOf (pluginNs E.loader (pluginPath E e n)) with
    | some path => E.pluginFn path n
    | none => .ok none

/-- `dh.providerFunc = ...` (`internal/datahashprovider.go:45` and the like). -/
def markLoaded (id : Nat) : M Unit := update (fun w => { w with loaded := id :: w.loaded })

/-- The report of a function that is not found (`internal/datahashprovider.go:70` and the like). -/
def reportUnresolved (n : Str) : Option Fn → M Unit
  | none => report (.appendText ("unresolved function '".toList ++ n ++ "'".toList))
  | some _ => pure ()

/-- `providerFunction` and the part of `loadFunction` that the three providers share
(`internal/datahashprovider.go:43-48`, `59-73`, `internal/datadigprovider.go:36-52`,
`internal/lookupkeyprovider.go:37-59`). -/
def loadOnce (E : Env) (p : Prov) (n : Str) : M (Option Fn) := do
  let f ← lift (loadFunction E p.entry n)
  let v ← view
  if p.id ∈ v.loaded then pure f
  else do
    reportUnresolved n f
    markLoaded p.id
    pure f

/-- The options of an entry with a location (`internal/datahashprovider.go:77-82`, `113-115`, and the same in the other
providers). -/
def optionsFor (p : Prov) : Option Loc → Entries
  | none => p.entry.options.getD []
  | some l => Entries.merge (p.entry.options.getD []) [(.str "path".toList, .str l.resolved)]

/-- The option `path` as `YamlData` and `JSONData` use it, and the file (`provider/yamldata.go:16-37`,
`provider/jsondata.go:15-33`). -/
def fileData (E : Env) (read : Str → FileRes) (opts : Entries) : Res Entries :=
  match Entries.getS opts "path".toList with
  | none => .panic (.missingOption "path".toList)
  | some pv => match read (E.toStr pv) with
    | .missing => .ok []
    | .err e => .panic e
    | .value (.map es) => .ok es
    | .value _ => .panic (.notHash (E.toStr pv))

/-- The call of the function of a `data_hash` entry (`internal/datahashprovider.go:43-74`, `98`). -/
def callHash (E : Env) (p : Prov) (n : Str) (opts : Entries) : M Entries :=
  if n = "yaml_data".toList then do
    emit (.hash n opts)
    lift (fileData E E.readYaml opts)
  else if n = "json_data".toList then do
    emit (.hash n opts)
    lift (fileData E E.readJson opts)
  else do
    match ← loadOnce E p n with
    | some (.hash f) => do
      emit (.hash n opts)
      match ← lift (f opts) with
      | some (.map es) => pure es
      | _ => pure []
    | some _ => panic (.other 2)
    | none => pure []

/-- `dataHash` (`internal/datahashprovider.go:76-101`). -/
def dataHash (E : Env) (p : Prov) (n : Str) (loc : Option Loc) : M Entries := do
  let key := match loc with | some l => l.resolved | none => []
  let v ← view
  match assoc (p, key) v.hashes with
  | some h => pure h
  | none => do
    let h ← callHash E p n (optionsFor p loc)
    update (fun w => { w with hashes := ((p, key), h) :: w.hashes })
    pure h

/-- The report at the end of a provider's `LookupKey` (`internal/lookupkeyprovider.go:29-34` and the like). -/
def reportResult (k : Str) (v : Option Value) : M (Option Value) :=
  match v with
  | some x => do
    report (.found k x)
    pure (some x)
  | none => do
    report (.notFound k)
    pure none

/-- `dataHashProvider.LookupKey` and `dataValue` (`internal/datahashprovider.go:25-41`). -/
def dataHashLookup (E : Env) (rec : Rec) (p : Prov) (n : Str) (loc : Option Loc) (k : Key) : M (Option Value) := do
  let h ← dataHash E p n loc
  match Entries.getS h k.root with
  | none => reportResult k.root none
  | some x => do
    let r ← interpolate E rec true x
    reportResult k.root r

/-- `dataDigProvider.LookupKey` (`internal/datadigprovider.go:21-34`). -/
def dataDigLookup (E : Env) (p : Prov) (n : Str) (k : Key) : M (Option Value) := do
  match ← loadOnce E p n with
  | some (.dig f) => do
    emit (.dig n k.parts)
    match ← lift (f k.parts) with
    | some x => do
      report (.found k.source x)
      pure (some (k.bury x))
    | none => reportResult k.source none
  | some _ => panic (.other 2)
  | none => reportResult k.source none

/-- Where the first `=` of an environment string is (`provider/environment.go:21-23`); only if it is not the first
character. -/
def splitEq (acc : Str) : Str → Option (Str × Str)
  | [] => none
  | c :: cs => if c = '=' then (if acc = [] then none else some (acc, cs)) else splitEq (acc ++ [c]) cs

/-- The loop of `Environment` (`provider/environment.go:20-25`). -/
def envMap : List Str → Entries → Entries
  | [], em => em
  | ev :: evs, em => match splitEq [] ev with
    | some (k, v) => envMap evs (Entries.put em (.str k) (.str v))
    | none => envMap evs em

/-- `Environment` (`provider/environment.go:16-34`). -/
def envLookup (E : Env) (key : Str) : Option Value :=
  if key = "env".toList then some (.map (envMap E.environ []))
  else match key with
    | 'e' :: 'n' :: 'v' :: ':' :: ':' :: n => (E.lookupEnv n).map .str
    | _ => none

/-- `lookupKeyProvider.LookupKey` (`internal/lookupkeyprovider.go:22-59`). -/
def lookupKeyLookup (E : Env) (rec : Rec) (p : Prov) (n : Str) (loc : Option Loc) (k : Key) : M (Option Value) := do
  let opts := optionsFor p loc
  if n = "environment".toList then do
    emit (.key n opts k.root)
    reportResult k.root (envLookup E k.root)
  else if n = "scope".toList then do
    emit (.key n opts k.root)
    let v ← view
    reportResult k.root (v.ic.scope.get k.root)
  else do
    match ← loadOnce E p n with
    | some (.key f) => do
      emit (.key n opts k.root)
      let r ← rec.lk f opts k.root
      reportResult k.root r
    | some _ => panic (.other 2)
    | none => reportResult k.root none

/-- `DataProvider.LookupKey`, by the kind of the entry's function (`session/resolvedconfig.go:23-32`). A resolved entry
always has a function. -/
def provLookup (E : Env) (rec : Rec) (p : Prov) (loc : Option Loc) (k : Key) : M (Option Value) :=
  match p.entry.function with
  | some (.dataHash, n) => dataHashLookup E rec p n loc k
  | some (.dataDig, n) => dataDigLookup E p n k
  | some (.lookupKey, n) => lookupKeyLookup E rec p n loc k
  | none => panic .nilDeref

/-- `FullName` (`internal/datahashprovider.go:103-105` and the like). -/
def Prov.fullName (p : Prov) : Str :=
  match p.entry.function with
  | some (.dataHash, n) => "data_hash function '".toList ++ n ++ "'".toList
  | some (.dataDig, n) => "data_dig function '".toList ++ n ++ "'".toList
  | some (.lookupKey, n) => "lookup_key function '".toList ++ n ++ "'".toList
  | none => []

/-! ### Merging over providers and locations -/

/-- `MergeStrategy.MergeLookup` in an invocation (`merge/strategy.go:52-82,99-123`). -/
def mergeM {α : Type} (st : Strategy) (vs : List α) (f : α → M (Option Value)) : M (Option Value) :=
  mergeLookup (fun s m => withNode (.new (.merge s)) m) (fun v => report (.result v)) st vs f

/-- `invokeWithLocation` with a location (`session/invocation.go:234-241`). -/
def invokeWithLocation (E : Env) (rec : Rec) (p : Prov) (k : Key) (l : Loc) : M (Option Value) :=
  withNode (.new (.location l))
    (if l.exists_ then provLookup E rec p (some l) k
     else do
      report .locationNotFound
      pure none)

/-- `MergeLocations` (`session/invocation.go:211-228`). -/
def mergeLocations (E : Env) (rec : Rec) (k : Key) (st : Strategy) (p : Prov) : M (Option Value) :=
  withNode (.new (.dataProvider p.fullName))
    (match p.entry.locations with
     | none => provLookup E rec p none k
     | some [] => pure none
     | some [l] => invokeWithLocation E rec p k l
     | some ls => mergeM st ls (invokeWithLocation E rec p k))

/-- `MergeHierarchy` (`session/invocation.go:204-209`). -/
def mergeHierarchy (E : Env) (rec : Rec) (k : Key) (ps : List Prov) (st : Strategy) : M (Option Value) :=
  mergeM st ps (mergeLocations E rec k st)

/-! ### Configurations -/

/-- The parsed configuration that another invocation, at the same time, has put into the shared cache
(`session/invocation.go:76-107`). The other one does what `loadConfig` does, so it is what the file says. Not modelled: that
the other one fails to parse the file and this one waits forever. -/
def elsewhere (E : Env) (v : View) (path : Str) : Option Cfg :=
  if v.ahead v.trace path then
    match newCfg E.cfg path (E.readYaml path) with
    | .ok c => some c
    | .panic _ => none
  else none

/-- The part of `Config` that finds or parses the configuration (`session/invocation.go:76-107`). If parsing panics the
lock stays locked, and whoever comes next waits for it forever. To wait for another invocation that is parsing the file is
to look for it later. -/
def loadConfig (E : Env) (path : Str) : M Cfg := do
  let v ← view
  match (assoc path v.parsed).or (elsewhere E v path) with
  | some c => pure c
  | none =>
    if path ∈ v.locked then hang
    else do
      emit (.config path)
      match newCfg E.cfg path (E.readYaml path) with
      | .ok c => do
        update (fun w => { w with parsed := (path, c) :: w.parsed })
        pure c
      | .panic e => do
        update (fun w => { w with locked := path :: w.locked })
        panic e

/-- The key `lookup_options` (`session/resolvedconfig.go:70`). -/
def lookupOptionsKey : Key := ⟨"lookup_options".toList, [.name "lookup_options".toList]⟩

/-- `dgo.Map` or not (`session/resolvedconfig.go:57,79`). -/
def asMap : Option Value → Option Entries
  | some (.map m) => some m
  | _ => none

/-- `Resolve` (`session/resolvedconfig.go:36-40`, `64-82`). -/
def resolve (E : Env) (rec : Rec) (c : Cfg) (moduleName : Str) : M RCfg := do
  let pd ← forConfig (do
    let ps ← createProviders E rec c c.hierarchy
    let ds ← createProviders E rec c c.defaultHierarchy
    pure (ps, ds))
  let v ← forLookupOptions (withNode (.new .lookup lookupOptionsKey.source)
    (mergeM (.deep []) pd.1 (mergeLocations E rec lookupOptionsKey (.deep []))))
  pure ⟨pd.1, pd.2, asMap v, moduleName⟩

/-- `ic.configs[configPath] = rc` (`session/invocation.go:79`, `109`). -/
def putConfig (path : Str) (rc : RCfg) : M Unit :=
  update (fun w => { w with configs := (path, rc) :: w.configs })

/-- `Config` (`session/invocation.go:66-111`). -/
def config (E : Env) (rec : Rec) (path : Str) (moduleName : Str) : M RCfg := do
  let path := if path = [] then E.configPath else path
  let v ← view
  match assoc path v.configs with
  | some rc => pure rc
  | none => do
    let c ← loadConfig E path
    let rc ← resolve E rec c moduleName
    putConfig path rc
    pure rc

/-- Does `s` start with `p`? (Go standard library; used in `session/resolvedconfig.go:56` and
`provider/environment.go:27`) -/
def hasPrefix : Str → Str → Bool
  | [], _ => true
  | _ :: _, [] => false
  | p :: ps, c :: cs => p == c && hasPrefix ps cs

/-- `resolvedConfig.LookupOptions` (`session/resolvedconfig.go:54-62`). -/
def RCfg.optionsOf (rc : RCfg) (k : Key) : Option Entries :=
  match rc.lookupOptions with
  | none => none
  | some lo =>
    if rc.moduleName = [] ∨ hasPrefix (rc.moduleName ++ "::".toList) k.root = true then asMap (Entries.getS lo k.root)
    else none

/-- The strategy name and options in `SetMergeStrategy` (`session/invocation.go:168-179`). -/
def strategyNamed : Option Value → Str × Option Entries
  | some (.str n) => (n, none)
  | some (.map m) => match Entries.getS m "strategy".toList with
    | some (.str n) => (n, some (Entries.without m (.str "strategy".toList)))
    | _ => ([], none)
  | _ => ("first".toList, none)

/-- The merge option in `SetMergeStrategy`, with the reports (`session/invocation.go:158-166`). -/
def mergeOption (cli : Option Value) (lo : Option Entries) : M (Option Value) :=
  match cli with
  | some o => do
    report (.mergeSource "CLI option".toList)
    pure (some o)
  | none => match lo with
    | none => pure none
    | some m => match Entries.getS m "merge".toList with
      | some o => do
        report (.mergeSource "\"lookup_options\" hash".toList)
        pure (some o)
      | none => pure none

/-- `ic.luOpts = lookupOptions` (`session/invocation.go:181`). -/
def setLuOpts (lo : Option Entries) : M Unit := update (fun w => { w with ic := { w.ic with luOpts := lo } })

/-- `ic.strategy = ...` (`session/invocation.go:182`). -/
def setStrategy (st : Strategy) : M Unit := update (fun w => { w with ic := { w.ic with strategy := some st } })

/-- `SetMergeStrategy` (`session/invocation.go:157-183`). -/
def setMergeStrategy (cli : Option Value) (lo : Option Entries) : M Unit := do
  let o ← mergeOption cli lo
  setLuOpts lo
  let st ← lift (getStrategy (strategyNamed o).1 (strategyNamed o).2)
  setStrategy st

/-- `extractConversion` (`session/invocation.go:125-155`). -/
def extractConversion (E : Env) (lo : Option Entries) : Res (Option (Nat × Option (List Value))) :=
  match lo with
  | none => .ok none
  | some m => match Entries.getS m "convert_to".toList with
    | none => .ok none
    | some (.arr []) => .ok none
    | some (.arr [.str t]) => (E.parseType t).bind (fun t => .ok (some (t, none)))
    | some (.arr (.str t :: a :: as)) => (E.parseType t).bind (fun t => .ok (some (t, some (a :: as))))
    | some (.str t) => (E.parseType t).bind (fun t => .ok (some (t, none)))
    | some _ => .panic .typeAssertion

/-- The conversion at the end of `LookupAndConvertData` (`session/invocation.go:195-200`). -/
def convert (E : Env) (v : Option Value) (c : Option (Nat × Option (List Value))) : Res (Option Value) :=
  match v, c with
  | some x, some (t, as) => (E.newValue t x as).bind (fun y => .ok (some y))
  | v, _ => .ok v

/-- The choice in `LookupAndConvertData` between a redacted lookup and a normal one (`session/invocation.go:189-193`). -/
def maybeRedacted (E : Env) (c : Option (Nat × Option (List Value))) (fn : M (Option Value)) : M (Option Value) :=
  match c with
  | some (t, _) => if E.isSensitive t then doRedacted fn else fn
  | none => fn

/-- `LookupAndConvertData` (`session/invocation.go:185-202`). -/
def lookupAndConvert (E : Env) (fn : M (Option Value)) : M (Option Value) := do
  let v ← view
  let c ← lift (extractConversion E v.ic.luOpts)
  let r ← maybeRedacted E c fn
  lift (convert E r c)

/-- The strategy of the invocation; using it when it is not set is a nil dereference (`session/invocation.go:406-408`,
used in `provider/configlookupkey.go:29,36` and `provider/muxlookupkey.go:49`). -/
def currentStrategy : M Strategy := do
  let v ← view
  match v.ic.strategy with
  | some st => pure st
  | none => panic .nilDeref

/-! ### Lookup functions -/

/-- `ConfigLookupKeyAt` (`provider/configlookupkey.go:20-39`). -/
def configAt (E : Env) (rec : Rec) (path : Str) (opts : Entries) (key moduleName : Str) : M (Option Value) := do
  let cfg ← config E rec path moduleName
  let k ← lift (newKey key)
  let v ← view
  match v.ic.mode with
  | .lookupOptions => pure ((cfg.optionsOf k).map .map)
  | .data => do
    let st ← currentStrategy
    mergeHierarchy E rec k cfg.providers st
  | .top => forData (withNode (.new .lookup k.source) (do
      setMergeStrategy (Entries.getS opts "merge".toList) (cfg.optionsOf k)
      lookupAndConvert E (do
        let st ← currentStrategy
        mergeHierarchy E rec k cfg.providers st)))

/-- `MuxLookupKey` (`provider/muxlookupkey.go:21-52`). -/
def muxLookup (E : Env) (rec : Rec) (opts : Entries) (key : Str) : M (Option Value) :=
  match E.muxFns with
  | none => pure none
  | some fs => do
    let lo ← forLookupOptions (mergeM (.deep []) fs (fun f => rec.lk f opts key))
    forData (do
      let k ← lift (newKey key)
      withNode (.new .lookup k.source) (do
        setMergeStrategy (Entries.getS opts "merge".toList) (asMap lo)
        lookupAndConvert E (do
          let st ← currentStrategy
          mergeM st fs (fun f => rec.lk f opts key))))

/-- Store in the cache of the top provider (`session/serverctx.go:22-30`). -/
def putCache (key : Str) (v : Value) : M Unit := update (fun w => { w with cache := (key, v) :: w.cache })

/-- `YamlLookupKey` (`provider/yamllookupkey.go:16-29`). -/
def yamlLookup (E : Env) (key : Str) : M (Option Value) := do
  let v ← view
  match assoc "yaml::data".toList v.cache with
  | some (.map es) => pure (Entries.getS es key)
  | some _ => panic .nilDeref
  | none => do
    let es ← lift (fileData E E.readYaml [(.str "path".toList, E.yamlPath.getD .null)])
    putCache "yaml::data".toList (.map es)
    pure (Entries.getS es key)

/-- The part of a string before the first `::` (`provider/modulelookupkey.go:27-28`). -/
def beforeColons (acc : Str) : Str → Option Str
  | ':' :: ':' :: _ => some acc
  | c :: cs => beforeColons (acc ++ [c]) cs
  | [] => none

/-- `strings.ToLower`. Simplification: ASCII letters only (Go standard library; used in
`provider/modulelookupkey.go:28,92`). -/
def toLower (s : Str) : Str := s.map Char.toLower

/-- The loop of `loadModule` over the directory entries (`provider/modulelookupkey.go:91-111`): only the first entry whose
name matches counts. -/
def findModuleDir (E : Env) (path name : Str) : List (Str × Bool) → Res (Option Str)
  | [] => .ok none
  | (n, isDir) :: es =>
    if toLower n ≠ toLower name then findModuleDir E path name es
    else if !isDir then .ok none
    else
      let cp := join (join path n) "hiera.yaml".toList
      match E.lstat cp with
      | .missing => .ok none
      | .err e => .panic e
      | .dir => .ok none
      | .file => .ok (some cp)

/-- `loadModule` (`provider/modulelookupkey.go:75-122`). -/
def loadModule (E : Env) (path name : Str) : Res (Option Str) :=
  match E.readDir path with
  | .missing => .ok none
  | .err e => .panic e
  | .entries es => findModuleDir E path name es

/-- The loop of `loadModuleProvider` (`provider/modulelookupkey.go:61-73`). -/
def findModule (E : Env) (name : Str) : List Str → Res (Option Str)
  | [] => .ok none
  | p :: ps => (loadModule E p name).bind (fun r => match r with
    | some cp => .ok (some cp)
    | none => findModule E name ps)

/-- `ModuleLookupKey` (`provider/modulelookupkey.go:25-46`). Simplification: the module functions found are not cached;
with files that do not change the result is the same. -/
def moduleLookup (E : Env) (rec : Rec) (opts : Entries) (key : Str) : M (Option Value) :=
  match beforeColons [] key with
  | none => pure none
  | some [] => pure none
  | some n => do
    let name := toLower n
    let mp ← lift (findModule E name (E.modulePath.getD []))
    withNode (.new (.module name)) (match mp with
      | none => do
        report .moduleNotFound
        pure none
      | some cp => configAt E rec cp opts key name)

/-- Run a user's lookup function (`session/serverctx.go`). -/
def runProg (E : Env) (rec : Rec) : Prog → M (Option Value)
  | .ret v => pure v
  | .panic e => panic e
  | .interpolate v k => do
    let r ← interpolate E rec true v
    runProg E rec (k r)
  | .lookup key opts k => do
    let kk ← lift (newKey key)
    let r ← rec.lookup kk opts
    runProg E rec (k r)
  | .explain t k => do
    report (.appendText t)
    runProg E rec k
  | .cache key x k => do
    let v ← view
    putCache key x
    runProg E rec (k (assoc key v.cache))
  | .cachedValue key k => do
    let v ← view
    runProg E rec (k (assoc key v.cache))
  | .scopeGet key k => do
    let v ← view
    runProg E rec (k (v.ic.scope.get key))

/-- A call of a lookup function (`session/invocation.go:252`, `provider/muxlookupkey.go:40`; `provider/scopelookupkey.go:10-16`
for `scope`). -/
def callLk (E : Env) (rec : Rec) : LkFn → Entries → Str → M (Option Value)
  | .config, opts, key => configAt E rec E.configPath opts key []
  | .mux, opts, key => muxLookup E rec opts key
  | .env, _, key => pure (envLookup E key)
  | .scope, _, key => do
    let v ← view
    pure (v.ic.scope.get key)
  | .yaml, _, key => yamlLookup E key
  | .module, opts, key => moduleLookup E rec opts key
  | .custom f, opts, key => runProg E rec (f opts key)
  | .notFunction, _, _ => pure none

/-- `Invocation.Lookup` (`session/invocation.go:243-259`). -/
def lookup (E : Env) (rec : Rec) (key : Key) (opts : Entries) : M (Option Value) :=
  if key.root = "lookup_options".toList then
    withNode (.new .invalidKey key.source) (do
      report (.notFound key.source)
      pure none)
  else do
    match ← callLk E rec E.top opts key.root with
    | none => pure none
    | some x => forData (do
        let r ← interpolate E rec true x
        dig key r)

/-- One unfolding of the cycles (infrastructure: the functions of `session/invocation.go:243-259`,
`session/interpolate.go:32-69` and `provider/*.go`, given those that they call). -/
def step (E : Env) (rec : Rec) : Rec :=
  { lookup := lookup E rec
    interp := fun v allow => interp E rec allow v
    lk := callLk E rec }

/-- `n` unfoldings of the cycles (infrastructure, see `step`; Go has no bound on the depth
(`session/invocation.go:243-259`)). -/
def eval (E : Env) : Nat → Rec
  | 0 => { lookup := fun _ _ => hang, interp := fun _ _ => hang, lk := fun _ _ _ => hang }
  | n + 1 => step E (eval E n)

end Hiera
