/- Go's `path/filepath` on Unix, as far as the Hiera code uses it. The Go standard library is not part of /repo; these
definitions are assumptions about it. -/
import Verif.Model.Value

set_option autoImplicit false

namespace Hiera

/-- Split at `/` (Go standard library; used in `config/path.go:77`, `config/entry.go:139-162`,
`session/session.go:123,173-177`). -/
def splitSlash (acc : Str) : Str → List Str
  | [] => [acc]
  | c :: cs => if c = '/' then acc :: splitSlash [] cs else splitSlash (acc ++ [c]) cs

/-- `strings.Join(_, "/")` (Go standard library; used in `config/path.go:77`, `config/entry.go:139-162`,
`session/session.go:123,173-177`). -/
def joinSlash : List Str → Str
  | [] => []
  | [x] => x
  | x :: xs => x ++ '/' :: joinSlash xs

/-- `filepath.IsAbs` (Go standard library; used in `config/path.go:77`, `config/entry.go:139-162`,
`session/session.go:123,173-177`). -/
def isAbs : Str → Bool
  | '/' :: _ => true
  | _ => false

/-- The elements that `filepath.Clean` keeps: empty elements and `.` are dropped, `..` removes the preceding element
other than `..`, and is dropped at the root. `out` holds the kept elements, last one first (Go standard library; used in
`config/path.go:77`, `config/entry.go:139-162`, `session/session.go:123,173-177`). -/
def cleanElems (rooted : Bool) : List Str → List Str → List Str
  | out, [] => out.reverse
  | out, e :: es =>
    if e = [] ∨ e = ['.'] then cleanElems rooted out es
    else if e = ['.', '.'] then
      match out with
      | [] => if rooted then cleanElems rooted [] es else cleanElems rooted [e] es
      | o :: os => if o = ['.', '.'] then cleanElems rooted (e :: o :: os) es else cleanElems rooted os es
    else cleanElems rooted (e :: out) es

/-- `filepath.Clean` (Go standard library; used in `config/path.go:77`, `config/entry.go:139-162`,
`session/session.go:123,173-177`). -/
def clean (p : Str) : Str :=
  let es := cleanElems (isAbs p) [] (splitSlash [] p)
  if isAbs p then '/' :: joinSlash es
  else if es = [] then ['.'] else joinSlash es

/-- `filepath.Join` of two elements (Go standard library; used in `config/path.go:77`, `config/entry.go:139-162`,
`session/session.go:123,173-177`). -/
def join (a b : Str) : Str :=
  if a ≠ [] then clean (a ++ '/' :: b) else if b ≠ [] then clean b else []

/-- `filepath.Dir` (Go standard library; used in `config/path.go:77`, `config/entry.go:139-162`,
`session/session.go:123,173-177`). -/
def dir (p : Str) : Str := clean ((p.reverse.dropWhile (· ≠ '/')).reverse)

/-- `filepath.Abs`, relative to the working directory (Go standard library; used in `config/path.go:77`,
`config/entry.go:139-162`, `session/session.go:123,173-177`). -/
def absPath (cwd p : Str) : Str := if isAbs p then clean p else join cwd p

end Hiera
