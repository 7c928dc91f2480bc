/- The namespaces of the session's loader, by which plugin functions are found. The loader itself belongs to dgo, which
is not part of /repo; `absName` and `namespaceOf` are assumptions about it. -/
import Verif.Model.Path

set_option autoImplicit false

namespace Hiera

/-- A loader: its name and the names of the loaders around it, innermost first (dgo; used in
`session/session.go:159,183-189,238-256`). -/
abbrev Ldr := List Str

/-- `Loader.AbsoluteName` (dgo; used in `session/session.go:268`). -/
def absName : Ldr → Str
  | [] => []
  | [n] => '/' :: n
  | n :: p => if absName p = ['/'] then '/' :: n else absName p ++ '/' :: n

/-- `Loader.Namespace`: the empty name is the loader itself (dgo; used in `session/session.go:183-185`). -/
def namespaceOf (l : Ldr) (name : Str) : Ldr := if name = [] then l else name :: l

/-- `strings.HasPrefix` (Go standard library; part of `strings.Index`, used in `session/session.go:271`). -/
def startsWith : Str → Str → Bool
  | [], _ => true
  | _, [] => false
  | p :: ps, c :: cs => p == c && startsWith ps cs

/-- `strings.Index` (Go standard library; used in `session/session.go:271`). -/
def indexOf (sub : Str) : Str → Option Nat
  | [] => if sub = [] then some 0 else none
  | c :: cs => if startsWith sub (c :: cs) then some 0 else (indexOf sub cs).map (· + 1)

/-- `/plugin/` (`session/session.go:271`). -/
def pluginMark : Str := "/plugin/".toList

/-- The path of the plugin that a namespace stands for: `pluginFinder` (`session/session.go:267-275`). -/
def pluginOf (l : Ldr) : Option Str :=
  let an := absName l
  match indexOf pluginMark an with
  | none => none
  | some ix => some (an.drop (ix + 7))

/-- The namespace of a plugin (`session/session.go:183-189`). -/
def pluginNs (l : Ldr) (path : Str) : Ldr := (splitSlash [] path).foldl namespaceOf (namespaceOf l "plugin".toList)

end Hiera
