/- What the command line and the REST server share: `LookupAndRender` and its helpers (`hiera/hiera.go:207-336`,
`hiera/render.go`). -/
import Verif.Model.Api

set_option autoImplicit false

namespace Hiera

/-- Is the character one of `[:=]`? (`hiera/hiera.go:208`) -/
def isSep (c : Char) : Bool := c == ':' || c == '='

/-- Does `[^:=])[:=]([^:=].*)\z` match here? The first argument is what `.*?` has matched (`hiera/hiera.go:208`). -/
def varSplitHere (acc : Str) (c : Char) : Str → Option (Str × Str)
  | sep :: d :: tail =>
    if !isSep c && isSep sep && !isSep d && tail.all (· != '\n') then some (acc ++ [c], d :: tail) else none
  | _ => none

/-- `varSplit.FindStringSubmatch`, its two groups (`hiera/hiera.go:208`): `\A(.*?[^:=])[:=]([^:=].*)\z`. The first argument is
what `.*?` has matched so far; `.` does not match a newline. The shortest match is the first one that this finds. -/
def varSplitFrom (acc : Str) : Str → Option (Str × Str)
  | [] => none
  | c :: rest => match varSplitHere acc c rest with
    | some r => some r
    | none => if c == '\n' then none else varSplitFrom (acc ++ [c]) rest

/-- `varSplit` (`hiera/hiera.go:208`). -/
def varSplit (s : Str) : Option (Str × Str) := varSplitFrom [] s

/-- What reading a file of variables gives (`hiera/hiera.go:317-331`). -/
inductive VarFile
  /-- it cannot be read, or it is not YAML -/
  | err (e : Err)
  /-- it has no bytes -/
  | empty
  | value (v : Value)

/-- What the functions of this file need from outside (dgo and the files read in `hiera/hiera.go:270-336`). -/
structure CliEnv where
  /-- `typ.ExactValue(c.Dialect().ParseType(aa, vf.String(vs)))` -/
  parseValue : Str → Res Value
  readFile : Str → VarFile
  stdin : VarFile

/-- `needParsePrefix` (`hiera/hiera.go:209`), as the characters that the strings consist of. -/
def needParse : List Char := ['{', '[', '"', '\'']

/-- `parseCommandLineValue` (`hiera/hiera.go:276-288`). -/
def parseCommandLineValue (C : CliEnv) (vs : Str) : Res Value :=
  let vs := trimSpace vs
  match vs with
  | c :: _ => if needParse.contains c then C.parseValue vs else .ok (.str vs)
  | [] => .ok (.str vs)

/-- The loop of `createScope` over the variables (`hiera/hiera.go:293-300`). -/
def addVariables (C : CliEnv) : List Str → Entries → Res Entries
  | [], scope => .ok scope
  | e :: es, scope => match varSplit e with
    | some (k, v) => do
      let w ← parseCommandLineValue C v
      addVariables C es (Entries.put scope (.str (trimSpace k)) w)
    | none => .panic (.badVariable e)

/-- `addVarPaths` (`hiera/hiera.go:313-336`). The second argument is what standard input still has, also returned. -/
def addVarPaths (C : CliEnv) : List Str → VarFile → Entries → Res (Entries × VarFile)
  | [], inp, m => .ok (m, inp)
  | p :: ps, inp, m =>
    let fromStdin := p = ['-']
    let file := if fromStdin then inp else C.readFile p
    let inp' := if fromStdin then .empty else inp
    match file with
    | .err e => .panic e
    | .empty => addVarPaths C ps inp' m
    | .value (.map es) => addVarPaths C ps inp' (Entries.putAll m es)
    | .value _ => .panic (.varsNotHash p)

/-- `CommandOptions` (`hiera/hiera.go:26-57`). -/
structure CommandOptions where
  type : Str := []
  merge : Str := []
  default : Option Str := none
  factPaths : List Str := []
  varPaths : List Str := []
  vars : List Str := []
  renderAs : Str := []
  explainData : Bool := false
  explainOptions : Bool := false
  lookupAll : Bool := false

/-- `createScope` (`hiera/hiera.go:290-311`). -/
def createScope (C : CliEnv) (o : CommandOptions) : Res Entries := do
  let scope ← addVariables C o.vars []
  let (scope, inp) ← addVarPaths C o.varPaths C.stdin scope
  if o.factPaths.length > 0 then do
    let (facts, _) ← addVarPaths C o.factPaths inp []
    pure (Entries.put (Entries.putAll scope facts) (.str "facts".toList) (.map facts))
  else pure scope

/-- What is rendered: a value, or an explanation (`hiera/render.go:31`). -/
inductive Rendered
  | value (v : Value)
  | explanation (t : Tree)

/-- Renderers outside the repository (used in `hiera/render.go:31-72`). -/
structure RenderEnv where
  json : Rendered → Res Str
  yaml : Rendered → Res Str
  binary : Rendered → Res Str
  text : Rendered → Str

/-- Is it `vf.Nil`? (`hiera/render.go:42,50`) -/
def Rendered.isNil : Rendered → Bool
  | .value .null => true
  | _ => false

/-- `Render` (`hiera/render.go:31-72`): what is written. Simplification: writing never fails, and nothing counts as written
when rendering panics. -/
def renderTo (R : RenderEnv) (renderAs : Str) (x : Rendered) : Res Str :=
  if renderAs = "json".toList then
    if x.isNil then .ok "null\n".toList else (R.json x).bind (fun s => .ok (s ++ ['\n']))
  else if renderAs = "yaml".toList then
    if x.isNil then .ok ['\n'] else R.yaml x
  else if renderAs = "binary".toList then R.binary x
  else if renderAs = "s".toList then .ok (R.text x ++ ['\n'])
  else .panic (.unknownRendering renderAs)

/-- Everything that a session needs for `LookupAndRender` (`hiera/hiera.go:213-266`). -/
structure Cli where
  types : Types
  cli : CliEnv
  render : RenderEnv
  scope : Scope
  /-- the members of a type that is a `StructMapType` -/
  members : Nat → Option (Str → Option Nat)

/-- The options for the lookup (`hiera/hiera.go:216-219`). -/
def mergeOptions (merge : Str) : Entries :=
  if merge = [] ∨ merge = "first".toList then [] else [(.str "merge".toList, .str merge)]

/-- The default value (`hiera/hiera.go:221-229`). -/
def defaultOf (C : CliEnv) : Option Str → Res (Option Value)
  | none => .ok none
  | some s => if s = [] then .ok (some (.str [])) else (parseCommandLineValue C s).bind (fun v => .ok (some v))

/-- The explainer (`hiera/hiera.go:231-234`). -/
def explainerOf (o : CommandOptions) : Option ExplOpts :=
  if o.explainData || o.explainOptions then some ⟨o.explainOptions, o.explainOptions && !o.explainData⟩ else none

/-- `parseType` (`hiera/hiera.go:268-274`); `none` stands for `typ.Any`. -/
def typeOf (E : Env) (t : Str) : Res (Option Nat) :=
  if t = [] then .ok none else (E.parseType t).bind (fun n => .ok (some n))

/-- The lookup that `LookupAndRender` performs (`hiera/hiera.go:238-246`). -/
def lookupFor (A : Cli) (rec : Rec) (o : CommandOptions) (tp : Option Nat) (dv : Option Value) (args : List Str) : M (Option Value) :=
  let opts := mergeOptions o.merge
  if o.lookupAll then
    match tp with
    | none => do
      let v ← lookupAll A.types rec args none none none opts
      pure (some v)
    | some t => match A.members t with
      | some f => do
        let v ← lookupAll A.types rec args (some f) none none opts
        pure (some v)
      | none => panic .typeNotMap
  else lookup2 A.types rec args tp dv none none opts none

/-- The rendering that `LookupAndRender` does (`hiera/hiera.go:247-265`): its result and what it writes. -/
def renderFor (A : Cli) (o : CommandOptions) (found : Option Value) (t : Tree) : Res (Bool × Str) :=
  let as := fun (d : Str) => if o.renderAs = [] then d else o.renderAs
  if (explainerOf o).isSome then
    (renderTo A.render (as "s".toList) (.explanation t)).bind (fun s => .ok (found.isSome, s))
  else match found with
    | none => .ok (false, [])
    | some v => (renderTo A.render (as "yaml".toList) (.value v)).bind (fun s => .ok (true, s))

/-- `LookupAndRender` (`hiera/hiera.go:213-266`). -/
def lookupAndRender (A : Cli) (rec : Rec) (o : CommandOptions) (args : List Str) (v : View) :
    Option (Res (Bool × Str) × View) :=
  match (do
      let tp ← typeOf A.types.env o.type
      let dv ← defaultOf A.cli o.default
      let scope ← createScope A.cli o
      pure (tp, dv, scope) : Res (Option Nat × Option Value × Entries)) with
  | .panic e => some (.panic e, v)
  | .ok (tp, dv, scope) =>
    match lookupFor A rec o tp dv args (nextInvocation { v := v } (invocationScope A.scope (some scope)) (explainerOf o)) with
    | none => none
    | some (.panic e, s) => some (.panic e, s.v)
    | some (.ok found, s) => some (renderFor A o found s.tree, s.v)

end Hiera
