/- What an explanation tells about following the segments of a key. -/
import Verif.Spec.Key
import Verif.Model.Explain

set_option autoImplicit false

namespace Hiera.Spec

/-- A segment as it is shown: a name as it is, an index in decimal. -/
def Shown : Part → Str → Prop
  | .name n, t => t = n
  | .idx i, t => t = (toString i).toList

/-- The node of one segment: which one it is, and what is there, if anything. -/
structure SegTold (p : Part) (o : Option Value) (b : Node) : Prop where
  kind : b.kind = .segment p
  key : Shown p b.key
  event : b.event = if o.isSome then .found else .notFound
  value : b.value = o
  leaf : b.texts = [] ∧ b.branches = []

/-- Following segments into what is there, if anything: a node for each segment up to the first that leads nowhere, and what
is at the end. -/
inductive DigTold : List Part → Option Value → Option Value → List Node → Prop
  | done {v} : DigTold [] v v []
  | nowhere {p ps v b} : (∀ x w, v = some x → ¬Follow p x w) → SegTold p none b → DigTold (p :: ps) v none [b]
  | follow {p ps x w o b bs} : Follow p x w → SegTold p (some w) b → DigTold ps (some w) o bs →
      DigTold (p :: ps) (some x) o (b :: bs)

/-- The node of following a key's segments but the first. -/
structure SubTold (k : Key) (v o : Option Value) (b : Node) : Prop where
  kind : b.kind = .subLookup k
  quiet : b.key = [] ∧ b.event = .none ∧ b.value = none ∧ b.texts = []
  branches : DigTold k.parts.tail v o b.branches

end Hiera.Spec
