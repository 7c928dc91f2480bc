/- The REST server (`hieraserver/rest/rest.go`). -/
import Verif.Model.Cli

set_option autoImplicit false

namespace Hiera

/-- What the server answers (`hieraserver/rest/rest.go:110,125,140-143`). -/
structure Response where
  code : Nat
  body : Str := []
  deriving DecidableEq

/-- `cleanPath` of `net/http` (Go standard library): `path.Clean`, keeping a slash at the end (used by the `ServeMux` of
`hieraserver/rest/rest.go:147`). -/
def cleanPath (p : Str) : Str :=
  let p := match p with
    | '/' :: _ => p
    | _ => '/' :: p
  let np := clean p
  if p.getLast? = some '/' ∧ np ≠ ['/'] then np ++ ['/'] else np

/-- The key of a path: the group of `keyPattern` (`hieraserver/rest/rest.go:73`), `^/lookup/(.*)$`. -/
def pathKey (p : Str) : Option Str :=
  if hasPrefix "/lookup/".toList p then
    let key := p.drop "/lookup/".toList.length
    if key.all (· != '\n') then some key else none
  else none

/-- `url.Values.Get` (Go standard library; used in `hieraserver/rest/rest.go:134-135`). -/
def paramGet (params : List (Str × Str)) (k : Str) : Str := (assoc k params).getD []

/-- `params[k]` (`hieraserver/rest/rest.go:131,136`). -/
def paramAll (params : List (Str × Str)) (k : Str) : List Str := (params.filter (fun p => p.1 == k)).map Prod.snd

/-- The variables of a request, if no other request is under way: those of the server, and then its own
(`hieraserver/rest/rest.go:136`). For requests at the same time, see `Model/RestVars.lean`. -/
def restVars (base : CommandOptions) (params : List (Str × Str)) : List Str := base.vars ++ paramAll params "var".toList

/-- The options of a request (`hieraserver/rest/rest.go:129-137`). The variables are given (`Model/RestVars.lean`). -/
def restOptions (base : CommandOptions) (params : List (Str × Str)) (vars : List Str) : CommandOptions :=
  { base with
    default := match assoc "default".toList params with
      | some d => some d
      | none => base.default
    merge := paramGet params "merge".toList
    type := paramGet params "type".toList
    vars := vars
    renderAs := "json".toList }

/-- The answer to the outcome of `LookupAndRender` (`hieraserver/rest/rest.go:115-127`, `139-144`). Simplification: what code
panics with is an error or a string, and error texts are left out. -/
def answer : Res (Bool × Str) → Response
  | .ok (true, out) => ⟨200, out⟩
  | .ok (false, _) => ⟨404, []⟩
  | .panic _ => ⟨500, []⟩

/-- `doLookup` (`hieraserver/rest/rest.go:107-145`). -/
def doLookup (A : Cli) (rec : Rec) (base : CommandOptions) (path : Str) (params : List (Str × Str)) (vars : List Str) (v : View) :
    Option (Response × View) :=
  match pathKey path with
  | none => some (⟨404, []⟩, v)
  | some key => match lookupAndRender A rec (restOptions base params vars) [key] v with
    | none => none
    | some (r, w) => some (answer r, w)

/-- The server (`hieraserver/rest/rest.go:147-149`): `http.ServeMux` with one pattern, `/lookup/`. It redirects paths that
are not clean to their clean form, and `/lookup` to `/lookup/` (Go standard library). -/
def serve (A : Cli) (rec : Rec) (base : CommandOptions) (path : Str) (params : List (Str × Str)) (vars : List Str) (v : View) :
    Option (Response × View) :=
  if cleanPath path = "/lookup".toList then some (⟨301, []⟩, v)
  else if cleanPath path ≠ path then some (⟨301, []⟩, v)
  else if hasPrefix "/lookup/".toList path then doLookup A rec base path params vars v
  else some (⟨404, []⟩, v)

end Hiera
