/- What lookups give in a session without a configuration, where the top provider is one of the ready-made functions, a function
of the program, or several of these. -/
import Verif.Spec.Reference
import Verif.Spec.Files
import Verif.Model.Session

set_option autoImplicit false

namespace Hiera.Spec

/-- Functions that need no configuration: variables, the environment, the file, or a function that keeps nothing. -/
def Unconfigured : LkFn → Prop
  | .env | .scope | .yaml | .notFunction => True
  | .custom f => ∀ o k, TameProg (f o k)
  | _ => False

/-- The top provider is such a function, or there are several. -/
def PlainTop (E : Env) : Prop := Unconfigured E.top ∨ (E.top = .mux ∧ ∀ fs, E.muxFns = some fs → ∀ f ∈ fs, Unconfigured f)

/-- What the file of the session option `path` has: nothing if there is no such file. -/
def theFile (E : Env) : Res Entries :=
  match E.readYaml (E.toStr (E.yamlPath.getD .null)) with
  | .missing => .ok []
  | .err e => .panic e
  | .value (.map es) => .ok es
  | .value _ => .panic (.notHash (E.toStr (E.yamlPath.getD .null)))

section
variable (E : Env) (file : Res Entries) (rec : Ref) (C : Ctx)

/-- What a function has for a key, where `file` is what the file has. -/
def topCall : LkFn → Entries → Str → Ans (Option Value)
  | .yaml, _, key => do
    let es ← Ans.of file
    pure (Entries.getS es key)
  | .env, _, key => pure (envLookup E key)
  | .scope, _, key => pure (C.scope.get key)
  | .custom f, opts, key => refProg E rec C (f opts key)
  | .notFunction, _, _ => pure none
  | .mux, opts, key => refMux E rec C opts key
  | .config, _, _ => Ans.never
  | .module, _, _ => Ans.never

/-- What a key has: what the top provider has for its first segment, interpolated, and then what is in it under the other
segments. -/
def topLookup (k : Key) (opts : Entries) : Ans (Option Value) :=
  if k.root = "lookup_options".toList then pure none
  else do
    match ← topCall E file rec C E.top opts k.root with
    | none => pure none
    | some v => do
      let r ← refInterp E rec C true v
      pure (r.bind k.digPure)
end

/-- Answers up to `n` levels of nesting. -/
def topRef (E : Env) (file : Res Entries) : Nat → Ref
  | 0 => ⟨fun _ _ _ => .never, fun _ _ _ => .never, fun _ _ _ _ => .never⟩
  | n + 1 => ⟨topLookup E file (topRef E file n), refInterp E (topRef E file n), topCall E file (topRef E file n)⟩

/-- `r` is what a key has. -/
def TopAnswer (E : Env) (file : Res Entries) (scope : Scope) (k : Key) (opts : Entries) (r : Res (Option Value)) : Prop :=
  ∃ n, (topRef E file n).lookup ⟨scope, .call⟩ k opts = some r

/-- The states of a session while it is used: invocations, one after the other, each with its variables, and lookups in them, with
whatever results. -/
inductive Used (E : Env) : Scope → St → Prop
  | new (scope : Scope) : Used E scope (newInvocation scope none)
  | next {scope' : Scope} {s : St} (scope : Scope) : Used E scope' s → Used E scope (nextInvocation s scope none)
  | lookup {scope : Scope} {s t : St} {r : Res (Option Value)} (n : Nat) (k : Key) (opts : Entries) : Used E scope s →
      (eval E n).lookup k opts s = some (r, t) → Used E scope t

/-- What is known of the file after a lookup of `k`: what was known already, else what the file has now, if it can be read. -/
def learns (E : Env) (known : Option Entries) (k : Key) : Option Entries :=
  if k.root = "lookup_options".toList then known
  else match known, theFile E with
    | some es, _ => some es
    | none, .ok es => some es
    | none, .panic _ => none

/-- The same where the files may be others for each lookup; `known` is what is known of the file of the session option `path`. -/
inductive UsedChanging (E : Env) : Scope → Option Entries → St → Prop
  | new (scope : Scope) : UsedChanging E scope none (newInvocation scope none)
  | next {scope' : Scope} {known : Option Entries} {s : St} (scope : Scope) : UsedChanging E scope' known s →
      UsedChanging E scope known (nextInvocation s scope none)
  | lookup {scope : Scope} {known : Option Entries} {s t : St} {r : Res (Option Value)} (f : Files) (n : Nat) (k : Key)
      (opts : Entries) : UsedChanging E scope known s → (eval (readingFiles E f) n).lookup k opts s = some (r, t) →
      UsedChanging E scope (learns (readingFiles E f) known k) t

end Hiera.Spec
