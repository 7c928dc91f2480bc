/- `explain/explainer.go`: the tree of explanations. -/
import Verif.Model.Merge
import Verif.Model.Config

set_option autoImplicit false

namespace Hiera

/-- `event` (`explain/explainer.go:17-27`). Nothing in the repository reports the events `found_in_defaults` and
`found_in_overrides`. -/
inductive Event
  | none
  | found
  | foundInDefaults
  | foundInOverrides
  | locationNotFound
  | moduleNotFound
  | notFound
  | result
  deriving DecidableEq

/-- The concrete node types with their own fields (`explain/explainer.go:282-794`). -/
inductive NodeKind
  | root
  | dataProvider (name : Str)
  | interpolate (expr : Str)
  | invalidKey
  | segment (p : Part)
  | location (l : Loc)
  | lookup
  | merge (s : Strategy)
  | mergeSource (src : Str)
  | module (name : Str)
  | subLookup (k : Key)

/-- `explainTreeNode` (`explain/explainer.go:61-68`) together with the fields of the concrete node. -/
inductive Node
  | mk (kind : NodeKind) (key : Str) (event : Event) (value : Option Value) (texts : List Str) (branches : List Node)

namespace Node
/-- The concrete node type (`explain/explainer.go:33`). -/
def kind : Node → NodeKind | .mk k _ _ _ _ _ => k
/-- field `k` (`explain/explainer.go:67`) -/
def key : Node → Str | .mk _ k _ _ _ _ => k
/-- field `e` (`explain/explainer.go:65`) -/
def event : Node → Event | .mk _ _ e _ _ _ => e
/-- field `v` (`explain/explainer.go:66`) -/
def value : Node → Option Value | .mk _ _ _ v _ _ => v
/-- field `ts` (`explain/explainer.go:64`) -/
def texts : Node → List Str | .mk _ _ _ _ t _ => t
/-- field `bs` (`explain/explainer.go:63`) -/
def branches : Node → List Node | .mk _ _ _ _ _ b => b

/-- A node as made by the `Push` methods (`explain/explainer.go:894-928`). -/
def new (k : NodeKind) (key : Str := []) : Node := .mk k key .none none [] []

/-- `appendBranch` (`explain/explainer.go:151-153`). -/
def appendBranch (n b : Node) : Node := .mk n.kind n.key n.event n.value n.texts (n.branches ++ [b])
/-- `appendText` (`explain/explainer.go:155-157`). -/
def appendText (t : Str) (n : Node) : Node := .mk n.kind n.key n.event n.value (n.texts ++ [t]) n.branches
/-- `found` (`explain/explainer.go:206-210`). -/
def found (k : Str) (v : Value) (n : Node) : Node := .mk n.kind k .found (some v) n.texts n.branches
/-- `foundInDefaults` (`explain/explainer.go:212-216`). -/
def foundInDefaults (k : Str) (v : Value) (n : Node) : Node := .mk n.kind k .foundInDefaults (some v) n.texts n.branches
/-- `foundInOverrides` (`explain/explainer.go:218-222`). -/
def foundInOverrides (k : Str) (v : Value) (n : Node) : Node := .mk n.kind k .foundInOverrides (some v) n.texts n.branches
/-- `notFound` (`explain/explainer.go:236-239`). -/
def notFound (k : Str) (n : Node) : Node := .mk n.kind k .notFound n.value n.texts n.branches
/-- `locationNotFound` (`explain/explainer.go:228-230`). -/
def locationNotFound (n : Node) : Node := .mk n.kind n.key .locationNotFound n.value n.texts n.branches
/-- `moduleNotFound` (`explain/explainer.go:232-234`). -/
def moduleNotFound (n : Node) : Node := .mk n.kind n.key .moduleNotFound n.value n.texts n.branches
/-- `result` (`explain/explainer.go:241-244`). -/
def result (v : Value) (n : Node) : Node := .mk n.kind n.key .result (some v) n.texts n.branches
/-- `AcceptMergeSource` (`explain/explainer.go:866-870`). -/
def mergeSource (src : Str) (n : Node) : Node := n.appendBranch (.new (.mergeSource src))
end Node

/-- The explainer (`explain/explainer.go:789-794`): the current node and its ancestors (nearest first), each without the
branch that leads to the current node. `off` is the state in which `current` is nil, after popping the root. -/
inductive Tree
  | at (cur : Node) (ups : List Node)
  | off (root : Node)

namespace Tree
/-- `NewExplainer` (`explain/explainer.go:809-813`). -/
def new : Tree := .at (.new .root) []

/-- `push` (`explain/explainer.go:888-892`); `none` is the nil dereference of `ex.current.appendBranch`. -/
def push (n : Node) : Tree → Option Tree
  | .at cur ups => some (.at n (cur :: ups))
  | .off _ => none

/-- `Pop` (`explain/explainer.go:930-934`). -/
def pop : Tree → Tree
  | .at cur (u :: us) => .at (u.appendBranch cur) us
  | .at cur [] => .off cur
  | .off r => .off r

/-- One of the `Accept` methods (`explain/explainer.go:850-886`); `none` is the nil dereference of `ex.current`. -/
def accept (f : Node → Node) : Tree → Option Tree
  | .at cur ups => some (.at (f cur) ups)
  | .off _ => none
end Tree

end Hiera
