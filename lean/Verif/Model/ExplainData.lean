/- `explain/explainer.go`: explanations as data, and explanations made from data. -/
import Verif.Model.Explain
import Verif.Model.Monad

set_option autoImplicit false

namespace Hiera

/-- The values in the maps that nodes are made from and turned into: those of dgo, among which are nodes and locations
(`explain/explainer.go:72-76`). -/
inductive Item
  | val (v : Value)
  | arr (es : List Item)
  | node (n : Node)
  | loc (l : Loc)

namespace Item

/-- `ih.Get(k)` (`explain/explainer.go:87-109`). -/
def get (k : Str) : List (Str × Item) → Option Item
  | [] => none
  | (k', i) :: m => if k = k' then some i else get k m

/-- `i.String()`. Simplification: of strings only (`explain/explainer.go:99`). -/
def toStr : Item → Str
  | .val (.str s) => s
  | _ => []

/-- `ih.Get(k).(dgo.String)`, or what the field is without it (`explain/explainer.go:103,107`). -/
def getStr (k : Str) (m : List (Str × Item)) : Str :=
  match get k m with
  | some (.val (.str s)) => s
  | _ => []

/-- `ih.Get(k).(dgo.Boolean)`, or what the field is without it (`explain/explainer.go:86-110` and the other `initialize`
functions). -/
def getBool (k : Str) (m : List (Str × Item)) : Bool :=
  match get k m with
  | some (.val (.bool b)) => b
  | _ => false

/-- `b.(explainNode)`, for each element (`explain/explainer.go:89-93`). -/
def nodes : List Item → Res (List Node)
  | [] => .ok []
  | .node n :: is => match nodes is with
    | .ok ns => .ok (n :: ns)
    | .panic e => .panic e
  | _ :: _ => .panic .typeAssertion

end Item

open Item

/-- The text of an event (`explain/explainer.go:19-27`). -/
def Event.text : Event → Str
  | .none => []
  | .found => "found".toList
  | .foundInDefaults => "found_in_defaults".toList
  | .foundInOverrides => "found_in_overrides".toList
  | .locationNotFound => "location_not_found".toList
  | .moduleNotFound => "module_not_found".toList
  | .notFound => "not_found".toList
  | .result => "result".toList

/-- `event(v)` (`explain/explainer.go:104`). Simplification: a text that is not one of an event is none. -/
def Event.ofText (s : Str) : Event :=
  if s = "found".toList then .found
  else if s = "found_in_defaults".toList then .foundInDefaults
  else if s = "found_in_overrides".toList then .foundInOverrides
  else if s = "location_not_found".toList then .locationNotFound
  else if s = "module_not_found".toList then .moduleNotFound
  else if s = "not_found".toList then .notFound
  else if s = "result".toList then .result
  else .none

/-- The `branches` of `initMap` (`explain/explainer.go:114-116`). -/
def branchesField (bs : List Item) : List (Str × Item) :=
  if bs.isEmpty then [] else [("branches".toList, .arr bs)]

/-- The `value` of `initMap` (`explain/explainer.go:123-125`). -/
def valueField : Option Value → List (Str × Item)
  | some v => [("value".toList, .val v)]
  | none => []

/-- The rest of `initMap` (`explain/explainer.go:117-128`). -/
def commonFields (key : Str) (event : Event) (value : Option Value) (texts : List Str) : List (Str × Item) :=
  (if event = .none then [] else [("event".toList, .val (.str event.text))]) ++
  (if key = [] then [] else [("key".toList, .val (.str key))]) ++
  valueField value ++
  (if texts.isEmpty then [] else [("texts".toList, .arr (texts.map fun t => .val (.str t)))])

/-- What the `initMap` of the concrete nodes add (`explain/explainer.go:306-310`, `352-356`, `390-392`, `440-444`, `482-486`,
`539-541`, `595-604`, `665-669`, `709-713`, `760-764`). -/
def ownFields : NodeKind → List (Str × Item)
  | .root => []
  | .dataProvider name => [("providerName".toList, .val (.str name))]
  | .interpolate expr => [("expression".toList, .val (.str expr))]
  | .invalidKey => []
  | .segment (.idx i) => [("segment".toList, .val (.int i))]
  | .segment (.name s) => [("segment".toList, .val (.str s))]
  | .location l => [("location".toList, .loc l)]
  | .lookup => []
  | .merge s =>
    if s.name = "first".toList then []
    else ("strategy".toList, .val (.str s.name)) :: if s.options.isEmpty then [] else [("options".toList, .val (.map s.options))]
  | .mergeSource src => [("mergeSource".toList, .val (.str src))]
  | .module name => [("moduleName".toList, .val (.str name))]
  | .subLookup k => [("subKey".toList, .val (.str k.source))]

/-- `initMap` (`explain/explainer.go:112-130` and those of the concrete nodes). -/
def initMap (n : Node) : List (Str × Item) :=
  branchesField (n.branches.map .node) ++ commonFields n.key n.event n.value n.texts ++ ownFields n.kind

/-- The names of the node types (`explain/explainer.go:287-747`). -/
def NodeKind.typeName : NodeKind → Str
  | .root => "hiera.explainer".toList
  | .dataProvider _ => "hiera.explainDataProvider".toList
  | .interpolate _ => "hiera.explainInterpolate".toList
  | .invalidKey => "hiera.explainInvalidKey".toList
  | .segment _ => "hiera.explainKeySegment".toList
  | .location _ => "hiera.explainLocation".toList
  | .lookup => "hiera.explainLookup".toList
  | .merge _ => "hiera.explainMerge".toList
  | .mergeSource _ => "hiera.explainMergeSource".toList
  | .module _ => "hiera.explainModule".toList
  | .subLookup _ => "hiera.explainSubLookup".toList

/-- What the `initialize` of the concrete nodes read (`explain/explainer.go:299-304`, `345-350`, `386-388`, `430-438`,
`475-480`, `535-537`, `582-593`, `658-663`, `702-707`, `753-758`). Simplification: a node whose location or key is missing is
not made at all, where the code leaves the field empty. -/
def createKind (t : Str) (m : List (Str × Item)) : Res NodeKind :=
  if t = "hiera.explainer".toList then .ok .root
  else if t = "hiera.explainDataProvider".toList then .ok (.dataProvider (getStr "providerName".toList m))
  else if t = "hiera.explainInterpolate".toList then .ok (.interpolate (getStr "expression".toList m))
  else if t = "hiera.explainInvalidKey".toList then .ok .invalidKey
  else if t = "hiera.explainKeySegment".toList then
    match get "segment".toList m with
    | some (.val (.int i)) => .ok (.segment (.idx i))
    | some i => .ok (.segment (.name i.toStr))
    | none => .panic .nilDeref
  else if t = "hiera.explainLocation".toList then
    match get "location".toList m with
    | some (.loc l) => .ok (.location l)
    | _ => .panic .nilDeref
  else if t = "hiera.explainLookup".toList then .ok .lookup
  else if t = "hiera.explainMerge".toList then
    let name := match get "strategy".toList m with
      | some (.val (.str s)) => s
      | _ => "first".toList
    let opts := match get "options".toList m with
      | some (.val (.map es)) => some es
      | _ => none
    match getStrategy name opts with
    | .ok s => .ok (.merge s)
    | .panic e => .panic e
  else if t = "hiera.explainMergeSource".toList then .ok (.mergeSource (getStr "mergeSource".toList m))
  else if t = "hiera.explainModule".toList then .ok (.module (getStr "moduleName".toList m))
  else if t = "hiera.explainSubLookup".toList then
    match get "subKey".toList m with
    | some (.val (.str s)) => match newKey s with
      | .ok k => .ok (.subLookup k)
      | .panic e => .panic e
    | _ => .panic .nilDeref
  else .panic .typeAssertion

/-- The branches, in `initialize` (`explain/explainer.go:87-95`). -/
def getBranches (m : List (Str × Item)) : Res (List Node) :=
  match get "branches".toList m with
  | some (.arr bs) => nodes bs
  | _ => .ok []

/-- The texts, in `initialize` (`explain/explainer.go:96-102`). -/
def getTexts (m : List (Str × Item)) : List Str :=
  match get "texts".toList m with
  | some (.arr ts) => ts.map toStr
  | _ => []

/-- The event, in `initialize` (`explain/explainer.go:103-105`). -/
def getEvent (m : List (Str × Item)) : Event :=
  match get "event".toList m with
  | some (.val (.str s)) => Event.ofText s
  | _ => .none

/-- The value, in `initialize` (`explain/explainer.go:106`). -/
def getValue (m : List (Str × Item)) : Option Value :=
  match get "value".toList m with
  | some (.val v) => some v
  | _ => none

/-- `createFunc` (`explain/explainer.go:73-76`) with `initialize` (`86-110`) for the type with this name. -/
def createNode (t : Str) (m : List (Str × Item)) : Res Node :=
  match getBranches m with
  | .panic e => .panic e
  | .ok bs => match createKind t m with
    | .panic e => .panic e
    | .ok kind => .ok (.mk kind (getStr "key".toList m) (getEvent m) (getValue m) (getTexts m) bs)

/-! ### Serialization -/

/-- What serialization makes of values: objects have the name of their type (streamer of dgo; used in
`hiera/render.go:33-38`). -/
inductive Data
  | val (v : Value)
  | arr (es : List Data)
  | obj (type : Str) (fields : List (Str × Data))

/-- A location as data (`config/path.go:31-37`, `config/glob.go:23-25`, `config/uri.go:27-32`,
`config/mappedpaths.go:36-42`). -/
def Loc.toData : Loc → Data
  | .path o r e => .obj "hiera.path".toList [("original".toList, .val (.str o)), ("resolved".toList, .val (.str r)), ("exists".toList, .val (.bool e))]
  | .glob p => .obj "hiera.glob".toList [("value".toList, .val (.str p))]
  | .uri o r => .obj "hiera.uri".toList [("original".toList, .val (.str o)), ("resolved".toList, .val (.str r))]
  | .mapped s k t => .obj "hiera.mappedPaths".toList [("sourceVar".toList, .val (.str s)), ("key".toList, .val (.str k)), ("template".toList, .val (.str t))]

/-- `m.Get(k).(dgo.String).GoString()` (`config/path.go:27-29` and the like in the other locations). -/
def mustStr (k : Str) (m : List (Str × Item)) : Res Str :=
  match get k m with
  | some (.val (.str s)) => .ok s
  | _ => .panic .typeAssertion

/-- `m.Get(k).(dgo.Boolean).GoBool()` (`config/path.go:27-29` and the like in the other locations). -/
def mustBool (k : Str) (m : List (Str × Item)) : Res Bool :=
  match get k m with
  | some (.val (.bool s)) => .ok s
  | _ => .panic .typeAssertion

/-- A location from data (`config/path.go:24-30`, `config/glob.go:20-22`, `config/uri.go:21-26`,
`config/mappedpaths.go:29-35`); `none` if it is not the type of a location. -/
def createLoc (t : Str) (m : List (Str × Item)) : Option (Res Loc) :=
  if t = "hiera.path".toList then
    some do return .path (← mustStr "original".toList m) (← mustStr "resolved".toList m) (← mustBool "exists".toList m)
  else if t = "hiera.glob".toList then some do return .glob (← mustStr "value".toList m)
  else if t = "hiera.uri".toList then some do return .uri (← mustStr "original".toList m) (← mustStr "resolved".toList m)
  else if t = "hiera.mappedPaths".toList then
    some do return .mapped (← mustStr "sourceVar".toList m) (← mustStr "key".toList m) (← mustStr "template".toList m)
  else none

/-- Plain values as data (streamer of dgo; used in `hiera/render.go:33-38`). -/
def Item.valData : Item → Data
  | .val v => .val v
  | _ => .val .null

/-- Items other than nodes as data (streamer of dgo; used in `hiera/render.go:33-38`). -/
def Item.toData : Item → Data
  | .val v => .val v
  | .arr es => .arr (es.map Item.valData)
  | .node _ => .val .null
  | .loc l => l.toData

mutual
/-- A node as data: the type's name and its `initMap` (`explain/explainer.go:72`), and so for its branches. -/
def Node.toData : Node → Data
  | .mk kind key event value texts branches =>
    .obj kind.typeName
      ((if branches.isEmpty then [] else [("branches".toList, .arr (Node.listData branches))]) ++
        (commonFields key event value texts ++ ownFields kind).map fun e => (e.1, e.2.toData))
/-- The branches of a node as data (`explain/explainer.go:115`). -/
def Node.listData : List Node → List Data
  | [] => []
  | n :: ns => n.toData :: Node.listData ns
end

mutual
/-- What data stand for: objects are made from their fields, innermost first (`explain/explainer.go:73-76` by dgo's
`New` for named types). -/
def Data.decode : Data → Res Item
  | .val v => .ok (.val v)
  | .arr es => match Data.decodeList es with
    | .ok is => .ok (.arr is)
    | .panic e => .panic e
  | .obj t fs => match Data.decodeFields fs with
    | .panic e => .panic e
    | .ok m => match createLoc t m with
      | some (.ok l) => .ok (.loc l)
      | some (.panic e) => .panic e
      | none => match createNode t m with
        | .ok n => .ok (.node n)
        | .panic e => .panic e
/-- For the elements of an array (`explain/explainer.go:73-76`). -/
def Data.decodeList : List Data → Res (List Item)
  | [] => .ok []
  | d :: ds => match d.decode with
    | .panic e => .panic e
    | .ok i => match Data.decodeList ds with
      | .panic e => .panic e
      | .ok is => .ok (i :: is)
/-- For the fields of an object (`explain/explainer.go:73-76`). -/
def Data.decodeFields : List (Str × Data) → Res (List (Str × Item))
  | [] => .ok []
  | (k, d) :: fs => match d.decode with
    | .panic e => .panic e
    | .ok i => match Data.decodeFields fs with
      | .panic e => .panic e
      | .ok m => .ok ((k, i) :: m)
end

/-! ### The explainer itself -/

/-- The explainer, at rest (`explain/explainer.go:789-794` with `current` at the explainer itself). -/
structure ExplainerObj where
  branches : List Node
  key : Str
  event : Event
  value : Option Value
  texts : List Str
  options : Bool
  onlyOptions : Bool

/-- `explainer.initMap` (`explain/explainer.go:832-844`), at rest. -/
def ExplainerObj.initMap (x : ExplainerObj) : List (Str × Item) :=
  Hiera.initMap (.mk .root x.key x.event x.value x.texts x.branches) ++
    (if x.options then [("options".toList, .val (.bool true))] else []) ++
    (if x.onlyOptions then [("onlyOptions".toList, .val (.bool true))] else [])

/-- `explainer.initialize` (`explain/explainer.go:815-830`), for a map without `current`. -/
def createExplainer (m : List (Str × Item)) : Res ExplainerObj :=
  match createNode "hiera.explainer".toList m with
  | .panic e => .panic e
  | .ok n => .ok { branches := n.branches, key := n.key, event := n.event, value := n.value, texts := n.texts,
                   options := getBool "options".toList m, onlyOptions := getBool "onlyOptions".toList m }

end Hiera
