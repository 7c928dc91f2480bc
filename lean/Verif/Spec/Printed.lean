/- What the command line prints and what the server answers, in terms of the answers that keys have (`Spec/Reference.lean`). -/
import Verif.Spec.Reference
import Verif.Spec.Api
import Verif.Spec.Cli

set_option autoImplicit false

namespace Hiera.Spec

/-- The answer for a name: that of the key which it stands for, or the error that it is none. -/
inductive NameAnswer (E : Env) (scope : Scope) (opts : Entries) (name : Str) : Res (Option Value) → Prop
  | key {k r} : newKey name = .ok k → Answer E scope k opts r → NameAnswer E scope opts name r
  | bad {e} : newKey name = .panic e → NameAnswer E scope opts name (.panic e)

/-- The first of the names that has a value; an error on the way there is the error of it all. -/
inductive FirstOf (ans : Str → Res (Option Value) → Prop) : List Str → Res (Option Value) → Prop
  | none : FirstOf ans [] (.ok none)
  | found {n ns v} : ans n (.ok (some v)) → FirstOf ans (n :: ns) (.ok (some v))
  | fails {n ns e} : ans n (.panic e) → FirstOf ans (n :: ns) (.panic e)
  | next {n ns r} : ans n (.ok none) → FirstOf ans ns r → FirstOf ans (n :: ns) r

/-- The default value is used if nothing is found, and only then. -/
inductive OrDefault (dv : Option Value) : Res (Option Value) → Res (Option Value) → Prop
  | fails {e} : OrDefault dv (.panic e) (.panic e)
  | found {v} : OrDefault dv (.ok (some v)) (.ok (some v))
  | default : OrDefault dv (.ok none) (.ok dv)

/-- A value made to be of the type that a struct type has for a name. -/
inductive MemberTyped (inst : Nat → Value → Bool) (new : Nat → Value → Res Value) (n : Str) (v : Value) :
    Option (Str → Option Nat) → Res Value → Prop
  | any : MemberTyped inst new n v none (.ok v)
  | member {f t r} : f n = some t → OfType inst new (some t) v r → MemberTyped inst new n v (some f) r
  | other {f} : f n = none → MemberTyped inst new n v (some f) (.panic (.notInTypeMap n))

/-- The values of all the names that have one, in order, or the first error. -/
inductive AllOf (ans : Str → Res (Option Value) → Prop) (typed : Str → Value → Res Value → Prop) : List Str → Res Entries → Prop
  | nil : AllOf ans typed [] (.ok [])
  | missing {n ns r} : ans n (.ok none) → AllOf ans typed ns r → AllOf ans typed (n :: ns) r
  | found {n ns v w es} : ans n (.ok (some v)) → typed n v (.ok w) → AllOf ans typed ns (.ok es) →
      AllOf ans typed (n :: ns) (.ok ((.str n, w) :: es))
  | later {n ns v w e} : ans n (.ok (some v)) → typed n v (.ok w) → AllOf ans typed ns (.panic e) → AllOf ans typed (n :: ns) (.panic e)
  | fails {n ns e} : ans n (.panic e) → AllOf ans typed (n :: ns) (.panic e)
  | untyped {n ns v e} : ans n (.ok (some v)) → typed n v (.panic e) → AllOf ans typed (n :: ns) (.panic e)

/-- The merge strategy that the flag `--merge` asks for: none if it is not given, or if it is `first`. -/
inductive MergeAsked : Str → Entries → Prop
  | no : MergeAsked [] []
  | first : MergeAsked "first".toList []
  | strategy {m} : m ≠ [] → m ≠ "first".toList → MergeAsked m [(.str "merge".toList, .str m)]

/-- What is found for the arguments, in a scope, with a type and a default value. -/
inductive Finds (A : Cli) (o : CommandOptions) (scope : Scope) (tp : Option Nat) (dv : Option Value) (args : List Str) :
    Res (Option Value) → Prop
  | first {opts r r' r''} : o.lookupAll = false → MergeAsked o.merge opts → FirstOf (NameAnswer A.types.env scope opts) args r →
      OrDefault dv r r' → Delivered A.types.isInstance (fun t v => A.types.env.newValue t v none) tp r' r'' → Finds A o scope tp dv args r''
  | all {opts r} : o.lookupAll = true → tp = none → MergeAsked o.merge opts →
      AllOf (NameAnswer A.types.env scope opts)
        (fun n v => MemberTyped A.types.isInstance (fun t v => A.types.env.newValue t v none) n v none) args r →
      Finds A o scope tp dv args (match r with | .ok es => .ok (some (.map (Entries.putAll [] es))) | .panic e => .panic e)
  | struct {opts r t f} : o.lookupAll = true → tp = some t → A.members t = some f → MergeAsked o.merge opts →
      AllOf (NameAnswer A.types.env scope opts)
        (fun n v => MemberTyped A.types.isInstance (fun t v => A.types.env.newValue t v none) n v (some f)) args r →
      Finds A o scope tp dv args (match r with | .ok es => .ok (some (.map (Entries.putAll [] es))) | .panic e => .panic e)
  | notStruct {t} : o.lookupAll = true → tp = some t → A.members t = none → Finds A o scope tp dv args (.panic .typeNotMap)

/-- The default value that the flag `--default` gives: an empty one is the empty string. -/
inductive DefaultGiven (C : CliEnv) : Option Str → Option Value → Prop
  | no : DefaultGiven C none none
  | empty : DefaultGiven C (some []) (some (.str []))
  | value {s v} : s ≠ [] → VarValue C s v → DefaultGiven C (some s) (some v)

/-- An explanation is asked for. -/
def Explains (o : CommandOptions) : Prop := o.explainData = true ∨ o.explainOptions = true

/-- The explainer that is asked for: options are explained only if that is asked for, and nothing else is only if that is not. -/
inductive ExplainerFor (o : CommandOptions) : Option ExplOpts → Prop
  | none : o.explainData = false → o.explainOptions = false → ExplainerFor o none
  | data : o.explainData = true → o.explainOptions = false → ExplainerFor o (some { options := false, onlyOptions := false })
  | both : o.explainData = true → o.explainOptions = true → ExplainerFor o (some { options := true, onlyOptions := false })
  | options : o.explainData = false → o.explainOptions = true → ExplainerFor o (some { options := true, onlyOptions := true })

/-- The rendering: the one that is asked for, or else the usual one. -/
def renderingOf (o : CommandOptions) (usual : String) : Str := match o.renderAs with
  | [] => usual.toList
  | r => r

/-- What is written in each of the renderings. Nil is written without the help of the renderers for JSON and YAML; only JSON and text
are ended with a newline; there are no other renderings. -/
inductive Written (R : RenderEnv) (x : Rendered) : Str → Res Str → Prop
  | jsonNil : x = .value .null → Written R x "json".toList (.ok "null\n".toList)
  | json {t} : x ≠ .value .null → R.json x = .ok t → Written R x "json".toList (.ok (t ++ "\n".toList))
  | jsonFails {e} : x ≠ .value .null → R.json x = .panic e → Written R x "json".toList (.panic e)
  | yamlNil : x = .value .null → Written R x "yaml".toList (.ok "\n".toList)
  | yaml {r} : x ≠ .value .null → R.yaml x = r → Written R x "yaml".toList r
  | binary {r} : R.binary x = r → Written R x "binary".toList r
  | text : Written R x "s".toList (.ok (R.text x ++ "\n".toList))
  | unknown {n} : n ∉ ["json".toList, "yaml".toList, "binary".toList, "s".toList] → Written R x n (.panic (.unknownRendering n))

/-- The type that the flag `--type` gives: none if there is no such flag, or an empty one. -/
inductive TypeGiven (E : Env) : Str → Res (Option Nat) → Prop
  | no : TypeGiven E [] (.ok none)
  | type {t n} : t ≠ [] → E.parseType t = .ok n → TypeGiven E t (.ok (some n))
  | fails {t e} : t ≠ [] → E.parseType t = .panic e → TypeGiven E t (.panic e)

/-- With what is rendered. -/
inductive Renders (found : Bool) : Res Str → Res (Bool × Str) → Prop
  | ok {out} : Renders found (.ok out) (.ok (found, out))
  | fails {e} : Renders found (.panic e) (.panic e)

/-- What is printed for a value that is found, and whether something is found. -/
inductive Prints (A : Cli) (o : CommandOptions) : Res (Option Value) → Res (Bool × Str) → Prop
  | fails {e} : Prints A o (.panic e) (.panic e)
  | nothing : Prints A o (.ok none) (.ok (false, []))
  | value {v out} : Renders true (renderTo A.render (renderingOf o "yaml") (.value v)) out → Prints A o (.ok (some v)) out

/-- What is printed if an explanation is asked for, given the explanation. -/
inductive PrintsExplanation (A : Cli) (o : CommandOptions) (explanation : Tree → Prop) : Res (Option Value) → Res (Bool × Str) → Prop
  | fails {e} : PrintsExplanation A o explanation (.panic e) (.panic e)
  | tree {v t out} : explanation t → Renders v.isSome (renderTo A.render (renderingOf o "s") (.explanation t)) out →
      PrintsExplanation A o explanation (.ok v) out

/-- The answer of the server to what is printed. -/
inductive Replies : Res (Bool × Str) → Nat × Str → Prop
  | found {out} : Replies (.ok (true, out)) (200, out)
  | nothing {out} : Replies (.ok (false, out)) (404, [])
  | failed {e} : Replies (.panic e) (500, [])

end Hiera.Spec
