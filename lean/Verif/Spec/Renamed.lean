/- Data in which keys and variables have other names. -/
import Verif.Spec.Referring

set_option autoImplicit false

namespace Hiera.Spec
open Value

section
variable (f g : Str → Str)

/-- The keys that are referred to have other names, by `f`, and so have variables, by `g`. -/
def DataPiece.renamed : DataPiece → DataPiece
  | .text t => .text t
  | .var x fs => .var (g x) fs
  | .key x fs => .key (f x) fs

mutual
def Template.renamed : Template → Template
  | .plain v => .plain v
  | .text ps => .text (ps.map (DataPiece.renamed f g))
  | .alias x fs => .alias (f x) fs
  | .arr ts => .arr (renamedL ts)
  | .map es => .map (renamedE es)
def renamedL : List Template → List Template
  | [] => []
  | t :: ts => t.renamed :: renamedL ts
def renamedE : List (Str × Template) → List (Str × Template)
  | [] => []
  | (k, t) :: es => (k, t.renamed) :: renamedE es
end
end

end Hiera.Spec
