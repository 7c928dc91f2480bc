/- A reference for lookups: what the answer to a lookup is, as a function of the files, the variables, the functions and the
key alone. Nothing is remembered here, nothing is assigned, and there is no invocation that is copied, changed and changed
back; what a nested lookup depends on is passed to it. -/
import Verif.Spec.History

set_option autoImplicit false

namespace Hiera.Spec

/-! ### Answers -/

/-- An answer: none if there is no end (or the depth does not suffice), else a result or an error. -/
def Ans (α : Type) : Type := Option (Res α)

instance : Monad Ans where
  pure a := some (.ok a)
  bind x f := match x with
    | none => none
    | some (.ok a) => f a
    | some (.panic e) => some (.panic e)

/-- No end. -/
def Ans.never {α : Type} : Ans α := none

def Ans.fail {α : Type} (e : Err) : Ans α := some (.panic e)

def Ans.of {α : Type} (r : Res α) : Ans α := some r

/-! ### What answers depend on -/

/-- What a lookup is made for. -/
inductive Within
  /-- a caller -/
  | call
  /-- the options of a key -/
  | options
  /-- a value that is found, with this merge strategy; with none if the value is the final one -/
  | value (st : Option Strategy)

/-- What is the same for all of a value's interpolation: the variables, and what it is for. -/
structure Ctx where
  scope : Scope
  within : Within

/-- A resolved configuration: the entries of its hierarchy and its lookup options. -/
structure Site where
  entries : List Entry
  options : Option Entries

/-- Answers up to some depth of nesting. -/
structure Ref where
  lookup : Ctx → Key → Entries → Ans (Option Value)
  interp : Ctx → Bool → Value → Ans (Option Value)
  call : Ctx → LkFn → Entries → Str → Ans (Option Value)

section
variable (E : Env) (site : Option Site) (rec : Ref) (C : Ctx)

/-! ### Interpolation -/

/-- The value of a variable, interpolated. -/
def refVar (allow : Bool) (x : Str) : Ans (Option Value) := do
  let k ← Ans.of (newKey x)
  match C.scope.get k.root with
  | none => pure none
  | some v => do
    let r ← rec.interp C allow v
    pure (r.bind k.digPure)

/-- The value that another key has. -/
def refLook (x : Str) : Ans (Option Value) := do
  let k ← Ans.of (newKey x)
  rec.lookup C k []

/-- What the text between `%{` and `}` is replaced with, in the midst of other text. -/
def refPiece (allow : Bool) (e : Str) : Ans Str :=
  if emptyInterpolation (trimSpace e) then pure []
  else do
    let (m, x) ← Ans.of (getMethodAndData (trimSpace e) allow)
    match m with
    | .literal => pure x
    | .scope => do
      let v ← refVar rec C allow x
      pure (E.textOf v)
    | .lookup => do
      let v ← refLook rec C x
      pure (E.textOf v)
    | .alias => Ans.fail .aliasNotAlone
    | .strictAlias => Ans.fail .aliasNotAlone

def refText (allow : Bool) : List Tok → Ans Str
  | [] => pure []
  | .chr c :: ts => do
    let t ← refText allow ts
    pure (c :: t)
  | .expr e :: ts => do
    let a ← refPiece E rec C allow e
    let t ← refText allow ts
    pure (a ++ t)

/-- The method and the argument if the whole of a string is a call of `alias` or `strict_alias`. -/
def aliasOf (allow : Bool) : List Tok → Option (Method × Str)
  | [.expr e] =>
    if emptyInterpolation (trimSpace e) then none
    else match getMethodAndData (trimSpace e) allow with
      | .ok (.alias, x) => some (.alias, x)
      | .ok (.strictAlias, x) => some (.strictAlias, x)
      | _ => none
  | _ => none

/-- What a string becomes: the other value if it is an alias, else a string with the pieces replaced. -/
def refStr (allow : Bool) (s : Str) : Ans (Option Value) :=
  match aliasOf allow (tokens s) with
  | some (.strictAlias, x) => refLook rec C x
  | some (_, x) => do
    let v ← refLook rec C x
    pure (some (v.getD (.str [])))
  | none => do
    let t ← refText E rec C allow (tokens s)
    pure (some (.str t))

mutual
/-- Does the value have `%{` anywhere in it? -/
def marked : Value → Bool
  | .str s => hasMarker s
  | .arr es => markedL es
  | .map es => markedE es
  | _ => false
def markedL : List Value → Bool
  | [] => false
  | v :: vs => marked v || markedL vs
def markedE : List (Value × Value) → Bool
  | [] => false
  | (k, v) :: es => marked k || marked v || markedE es
end

mutual
/-- What a value becomes: each of its strings is replaced, and keys that become equal are one. -/
def refInterp (allow : Bool) : Value → Ans (Option Value)
  | .str s => refStr E rec C allow s
  | .arr vs => do
    let vs' ← refList allow vs
    pure (some (.arr vs'))
  | .map es =>
    if markedE es then do
      let es' ← refEntries allow [] es
      pure (some (.map es'))
    else pure (some (.map es))
  | v => pure (some v)
def refList (allow : Bool) : List Value → Ans (List Value)
  | [] => pure []
  | v :: vs => do
    let a ← refInterp allow v
    let as ← refList allow vs
    pure (a.getD .null :: as)
def refEntries (allow : Bool) : Entries → List (Value × Value) → Ans Entries
  | cp, [] => pure cp
  | cp, (k, v) :: es => do
    let a ← refInterp allow k
    let b ← refInterp allow v
    refEntries allow (Entries.put cp (a.getD .null) (b.getD .null)) es
end

/-! ### Data -/

/-- What the function of a `data_hash` entry gives. -/
def refHash (e : Entry) (n : Str) (o : Entries) : Res Entries :=
  if n = "yaml_data".toList then fileData E E.readYaml o
  else if n = "json_data".toList then fileData E E.readJson o
  else match loadFunction E e n with
    | .ok (some (.hash f)) => match f o with
      | .ok (some (.map es)) => .ok es
      | .ok _ => .ok []
      | .panic e => .panic e
    | .ok (some _) => .panic (.other 2)
    | .ok none => .ok []
    | .panic e => .panic e

/-- The options that the function of an entry is called with: those of the entry, and the path. -/
def refOpts (e : Entry) : Option Loc → Entries
  | none => e.options.getD []
  | some l => Entries.merge (e.options.getD []) [(.str "path".toList, .str l.resolved)]

/-- What an entry has for a key at a location. -/
def refSource (k : Key) (e : Entry) (loc : Option Loc) : Ans (Option Value) :=
  match e.function with
  | some (.dataHash, n) => do
    let h ← Ans.of (refHash E e n (refOpts e loc))
    match Entries.getS h k.root with
    | some v => refInterp E rec C true v
    | none => pure none
  | some (.dataDig, n) => do
    match ← Ans.of (loadFunction E e n) with
    | some (.dig f) => do
      let v ← Ans.of (f k.parts)
      pure (v.map k.bury)
    | some _ => Ans.fail (.other 2)
    | none => pure none
  | some (.lookupKey, n) =>
    if n = "environment".toList then pure (envLookup E k.root)
    else if n = "scope".toList then pure (C.scope.get k.root)
    else do
      match ← Ans.of (loadFunction E e n) with
      | some (.key f) => rec.call C f (refOpts e loc) k.root
      | some _ => Ans.fail (.other 2)
      | none => pure none
  | none => Ans.fail .nilDeref

/-- The first value found. The rest is not asked for. -/
def refFirst : List (Ans (Option Value)) → Ans (Option Value)
  | [] => pure none
  | x :: xs => do
    match ← x with
    | some v => pure (some v)
    | none => refFirst xs

/-- All values found. -/
def refFound : List (Ans (Option Value)) → Ans (List Value)
  | [] => pure []
  | x :: xs => do
    let v ← x
    let vs ← refFound xs
    pure (v.toList ++ vs)

/-- Values merged, from the left. -/
def refCombine (st : Strategy) : List Value → Option Value
  | [] => none
  | v :: vs => some (vs.foldl st.merge (st.convertValue v))

/-- The merge of the values of several sources. -/
def refMerge (st : Strategy) (xs : List (Ans (Option Value))) : Ans (Option Value) :=
  match st, xs with
  | .first, xs => refFirst xs
  | st, [x] => do
    let v ← x
    pure (v.map st.single)
  | st, xs => do
    let vs ← refFound xs
    pure (refCombine st vs)

/-- What an entry has for a key at a location: a path that does not exist has nothing, a URI is always asked. -/
def refAt (k : Key) (e : Entry) : Loc → Ans (Option Value)
  | .path o r true => refSource E rec C k e (some (.path o r true))
  | .uri o r => refSource E rec C k e (some (.uri o r))
  | _ => pure none

/-- What an entry has for a key, at all of its locations. -/
def refEntry (k : Key) (st : Strategy) (e : Entry) : Ans (Option Value) :=
  match e.locations with
  | none => refSource E rec C k e none
  | some [l] => refAt E rec C k e l
  | some ls => refMerge st (ls.map (refAt E rec C k e))

/-- What a hierarchy has for a key. -/
def refHierarchy (k : Key) (st : Strategy) (es : List Entry) : Ans (Option Value) :=
  refMerge st (es.map (refEntry E rec C k st))

/-! ### Lookups -/

/-- The lookup options of a key. -/
def Site.optionsOf (x : Site) (k : Key) : Option Entries :=
  match x.options with
  | some lo => asMap (Entries.getS lo k.root)
  | none => none

/-- The merge option: the caller's, else that of the lookup options. -/
def refMergeOption (opts : Entries) (lo : Option Entries) : Option Value :=
  match Entries.getS opts "merge".toList, lo with
  | some o, _ => some o
  | none, some m => Entries.getS m "merge".toList
  | none, none => none

/-- What the configuration has for a key. For a caller, options say how it is merged and what it is converted to; for a value,
it is merged like the value. While the configuration is not resolved there is no end: to resolve it would need what it has
for the key. -/
def refConfig (opts : Entries) (key : Str) : Ans (Option Value) :=
  match site with
  | none => Ans.never
  | some x => do
    let k ← Ans.of (newKey key)
    match C.within with
    | .call => do
      let lo := x.optionsOf k
      let o := strategyNamed (refMergeOption opts lo)
      let st ← Ans.of (getStrategy o.1 o.2)
      let c ← Ans.of (extractConversion E lo)
      let v ← refHierarchy E rec { C with within := .value (some st) } k st x.entries
      Ans.of (convert E v c)
    | .options => pure ((x.optionsOf k).map .map)
    | .value none => Ans.fail .nilDeref
    | .value (some st) => refHierarchy E rec C k st x.entries

/-- What several functions have for a key: their options are merged, and say how values are merged and what they are
converted to. What it is for does not matter. -/
def refMux (opts : Entries) (key : Str) : Ans (Option Value) :=
  match E.muxFns with
  | none => pure none
  | some fs => do
    let lo ← refMerge (.deep []) (fs.map (fun f => rec.call { C with within := .options } f opts key))
    let _ ← Ans.of (newKey key)
    let o := strategyNamed (refMergeOption opts (asMap lo))
    let st ← Ans.of (getStrategy o.1 o.2)
    let c ← Ans.of (extractConversion E (asMap lo))
    let v ← refMerge st (fs.map (fun f => rec.call { C with within := .value (some st) } f opts key))
    Ans.of (convert E v c)

def refProg : Prog → Ans (Option Value)
  | .ret v => pure v
  | .panic e => Ans.fail e
  | .interpolate v k => do
    let r ← refInterp E rec C true v
    refProg (k r)
  | .lookup key opts k => do
    let kk ← Ans.of (newKey key)
    let r ← rec.lookup C kk opts
    refProg (k r)
  | .explain _ k => refProg k
  | .cache _ _ _ => Ans.never
  | .cachedValue _ _ => Ans.never
  | .scopeGet key k => refProg (k (C.scope.get key))

/-- What a lookup function gives. The functions that are left out are not covered by the reference. -/
def refCall : LkFn → Entries → Str → Ans (Option Value)
  | .config, opts, key => refConfig E site rec C opts key
  | .env, _, key => pure (envLookup E key)
  | .scope, _, key => pure (C.scope.get key)
  | .custom f, opts, key => refProg E rec C (f opts key)
  | .notFunction, _, _ => pure none
  | .mux, opts, key => refMux E rec C opts key
  | .yaml, _, _ => Ans.never
  | .module, _, _ => Ans.never

/-- In the final value, interpolation is for a value, but not with any strategy. -/
def Ctx.final : Ctx :=
  match C.within with
  | .value _ => C
  | _ => { C with within := .value none }

/-- What a key has: what the top provider has for its first segment, interpolated once more, and then what is in it under
the other segments. -/
def refLookup (k : Key) (opts : Entries) : Ans (Option Value) :=
  if k.root = "lookup_options".toList then pure none
  else do
    match ← refCall E site rec C E.top opts k.root with
    | none => pure none
    | some v => do
      let r ← refInterp E rec C.final true v
      pure (r.bind k.digPure)
end

/-- Answers up to `n` levels of nesting. -/
def ref (E : Env) (site : Option Site) : Nat → Ref
  | 0 => ⟨fun _ _ _ => .never, fun _ _ _ => .never, fun _ _ _ _ => .never⟩
  | n + 1 => ⟨refLookup E site (ref E site n), refInterp E (ref E site n), refCall E site (ref E site n)⟩

/-! ### The configuration -/

section
variable (E : Env) (rec : Ref) (C : Ctx)

/-- A string of the configuration, where only variables are interpolated. -/
def refCfg (s : Str) : Ans Str := refText E rec C false (tokens s)

/-- The function of an entry. -/
def refFunction (d : Option Entry) (e : Entry) : Ans Entry :=
  match e.function, d with
  | some (kind, n), _ => do
    let n' ← refCfg E rec C n
    pure { e with function := some (kind, n') }
  | none, none => pure { e with function := some (.dataHash, "yaml_data".toList) }
  | none, some d => match d.function with
    | some f => pure { e with function := some f }
    | none => Ans.fail (.other 1)

/-- A setting of an entry: its own, else that of the defaults, else the built-in one. -/
def refDir (own : Str) (dflt : Option Str) (builtIn : Str) : Ans Str :=
  if own = [] then pure (dflt.getD builtIn) else refCfg E rec C own

def refOptions (d : Option Entry) (e : Entry) : Ans (Option Entries) :=
  match e.options with
  | none => pure (some ((d.bind (·.options)).getD []))
  | some os => do
    match ← refInterp E rec C false (.map os) with
    | some (.map os') => pure (some os')
    | _ => Ans.fail .typeAssertion

def refMapped (key template dir : Str) : List Value → Ans (List Loc)
  | [] => pure []
  | v :: vs => do
    let r ← refCfg E rec { C with scope := C.scope.withVar key v } template
    let ls ← refMapped key template dir vs
    pure (.path template (join dir r) (E.stat (join dir r)) :: ls)

def refLoc (dir : Str) : Loc → Ans (List Loc)
  | .path o _ _ => do
    let r ← refCfg E rec C o
    pure [.path o (join dir r) (E.stat (join dir r))]
  | .glob o => do
    let r ← refCfg E rec C o
    pure ((E.glob (join dir r)).map (fun m => .path o m true))
  | .uri o _ => do
    let r ← refCfg E rec C o
    pure [.uri o r]
  | .mapped src key template => do
    match ← refVar rec C false src with
    | some (.str s) => refMapped E rec C key template dir [.str s]
    | some (.arr vs) => refMapped E rec C key template dir vs
    | _ => pure []

def refLocs (dir : Str) : List Loc → Ans (List Loc)
  | [] => pure []
  | l :: ls => do
    let a ← refLoc E rec C dir l
    let as ← refLocs dir ls
    pure (a ++ as)

/-- The locations of an entry, if it has any. -/
def refLocations (dir : Str) : Option (List Loc) → Ans (Option (List Loc))
  | none => pure none
  | some ls => do
    let ls' ← refLocs E rec C dir ls
    pure (some ls')

/-- A path as seen from a directory. -/
def seenFrom (root p : Str) : Str := if isAbs p then p else join root p

/-- A resolved entry. The name of its function is interpolated twice. -/
def refResolve (d : Option Entry) (e : Entry) : Ans Entry := do
  let e ← refFunction E rec C d e
  let e ← refFunction E rec C d e
  let dir ← refDir E rec C e.dataDir (d.map (·.dataDir)) E.cfg.defaultDataDir
  let pdir ← refDir E rec C e.pluginDir (d.map (·.pluginDir)) E.cfg.defaultPluginDir
  let opts ← refOptions E rec C d e
  let locs ← refLocations E rec C (seenFrom e.root dir) e.locations
  pure { e with dataDir := dir, pluginDir := seenFrom e.root pdir, options := opts, locations := locs }

def refResolveAll (d : Entry) : List Entry → Ans (List Entry)
  | [] => pure []
  | e :: es => do
    let a ← refResolve E rec C (some d) e
    let as ← refResolveAll d es
    pure (a :: as)

def refLevels (c : Cfg) (es : List Entry) : Ans (List Entry) := do
  let d ← refResolve E rec C none c.defaults
  refResolveAll E rec C d es

/-- The resolved configuration, from the parsed one: the entries of the hierarchy (those of the default hierarchy only have to
be free of errors), and the deep merge of the lookup options in the data. -/
def refSite (c : Cfg) : Ans Site := do
  let es ← refLevels E rec C c c.hierarchy
  let _ ← refLevels E rec C c c.defaultHierarchy
  let lo ← refHierarchy E rec C lookupOptionsKey (.deep []) es
  pure ⟨es, asMap lo⟩
end

/-- The answer to a lookup, from the configuration file on; `n` and `m` are the depths of nesting in the configuration and in
the data. -/
def refAnswer (E : Env) (scope : Scope) (k : Key) (opts : Entries) (n m : Nat) : Ans (Option Value) :=
  if k.root = "lookup_options".toList then pure none
  else do
    let c ← Ans.of (newCfg E.cfg E.configPath (E.readYaml E.configPath))
    let x ← refSite E (ref E none n) ⟨scope, .call⟩ c
    refLookup E (some x) (ref E (some x) m) ⟨scope, .call⟩ k opts

/-- The answer to a lookup of `k` is `r`. -/
def Answer (E : Env) (scope : Scope) (k : Key) (opts : Entries) (r : Res (Option Value)) : Prop :=
  ∃ n m, refAnswer E scope k opts n m = some r

/-! ### The sessions that this is about -/

/-- Lookup functions that keep nothing between lookups and use no other configuration. -/
def Stateless : LkFn → Prop
  | .mux => False
  | .yaml => False
  | .module => False
  | .custom f => ∀ o k, TameProg (f o k)
  | _ => True

/-- The top provider is the configuration, or several functions of which the first is the configuration, as for the command
line and the REST server. With several functions, none of the others is the configuration, and neither is a function of
the hierarchy. -/
structure StatelessEnv (E : Env) : Prop where
  top : E.top = .config ∨ (E.top = .mux ∧ ∃ fs, E.muxFns = some (.config :: fs) ∧ .config ∉ fs)
  mux : ∀ fs f, E.muxFns = some fs → f ∈ fs → Stateless f
  fns : ∀ n f, E.functions n = some (.key f) → Stateless f ∧ (f = .config → E.top = .config)
  plugins : ∀ path n f, E.pluginFn path n = .ok (some (.key f)) → Stateless f ∧ (f = .config → E.top = .config)

end Hiera.Spec
