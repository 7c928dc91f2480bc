/- `explain/explainer.go`: the text of an explanation. -/
import Verif.Model.Eval

set_option autoImplicit false

namespace Hiera

/-- What is written to a `dgo.Indenter` (dgo; used in `explain/explainer.go:147-200`): the start of a line with its level of
indentation (`NewLine`), a text (`Append`, `AppendRune`), or a value (`AppendValue`). How a value is written is left to
dgo. -/
inductive Chunk
  | line (level : Nat)
  | text (s : Str)
  | val (v : Value)

/-- Is anything written by this? (`Len`, dgo; used in `explain/explainer.go:551`) -/
def Chunk.nonempty : Chunk → Bool
  | .text [] => false
  | _ => true

/-- `Kind` as a string (`config/path.go:67-69`, `config/glob.go:51-53`, `config/uri.go:62-64`, `config/mappedpaths.go:74-76`,
`api/location.go:10-20`). -/
def Loc.kindText : Loc → Str
  | .path _ _ _ => "path".toList
  | .glob _ => "glob".toList
  | .uri _ _ => "uri".toList
  | .mapped _ _ _ => "mapped_paths".toList

/-- `Original` (`config/path.go:82-84`, `config/glob.go:59-61`, `config/uri.go:70-72`, `config/mappedpaths.go:78-80`).
Simplification: the text of mapped paths is only the template. -/
def Loc.original : Loc → Str
  | .path o _ _ => o
  | .glob p => p
  | .uri o _ => o
  | .mapped _ _ t => t

/-- `Resolved` with its panics (`config/path.go:86-88`, `config/glob.go:74-77`, `config/uri.go:79-81`,
`config/mappedpaths.go:114-117`). -/
def Loc.resolvedText : Loc → Res Str
  | .path _ r _ => .ok r
  | .uri _ r => .ok r
  | .glob _ => .panic .nilDeref
  | .mapped _ _ _ => .panic .nilDeref

/-- `Label` (`merge/strategy.go:95-97`, `145-147`, `209-211`, `180-182`). -/
def Strategy.label : Strategy → Str
  | .first => "first found strategy".toList
  | .unique => "unique merge strategy".toList
  | .hash => "hash merge strategy".toList
  | .deep _ => "deep merge strategy".toList

/-- `dumpValue` (`explain/explainer.go:186-188`). A nil value is taken to be a nil dereference. -/
def dumpValue (v : Option Value) (w : List Chunk) : Res (List Chunk) :=
  match v with
  | some x => .ok (w ++ [.val x])
  | none => .panic .nilDeref

/-- `dumpTexts` (`explain/explainer.go:190-195`). -/
def dumpTexts (level : Nat) : List Str → List Chunk → List Chunk
  | [], w => w
  | t :: ts, w => dumpTexts level ts (w ++ [.line level, .text t])

/-- The words after a value (`explain/explainer.go:177-181`). -/
def whereFound : Event → List Chunk
  | .foundInDefaults => [.text " in defaults".toList]
  | .foundInOverrides => [.text " in overrides".toList]
  | _ => []

/-- The event in `dumpOutcome` (`explain/explainer.go:164-182`). -/
def dumpEvent (level : Nat) (event : Event) (key : Str) (value : Option Value) (w : List Chunk) : Res (List Chunk) :=
  match event with
  | .notFound => .ok (w ++ [.line level, .text "No such key: \"".toList, .text key, .text ['"']])
  | .found | .foundInDefaults | .foundInOverrides =>
    (dumpValue value (w ++ [.line level, .text "Found key: \"".toList, .text key, .text "\" value: ".toList])).bind
      (fun w => .ok (w ++ whereFound event))
  | _ => .ok w

/-- `dumpOutcome` (`explain/explainer.go:163-184`). -/
def dumpOutcome (level : Nat) (event : Event) (key : Str) (value : Option Value) (texts : List Str) (w : List Chunk) :
    Res (List Chunk) :=
  (dumpEvent level event key value w).bind fun w => .ok (dumpTexts level texts w)

/-- The text of the sub key (`explain/explainer.go:772-777`). -/
def subKeyText : List Part → List Chunk
  | [] => []
  | [p] => [.text (p.text)]
  | p :: ps => .text (p.text) :: .text ['.'] :: subKeyText ps

/-- The result of a merge (`explain/explainer.go:629-633`). -/
def dumpResult (level : Nat) (event : Event) (value : Option Value) (w : List Chunk) : Res (List Chunk) :=
  match event with
  | .result => dumpValue value (w ++ [.line level, .text "Merged result: ".toList])
  | _ => .ok w

/-- The options of a merge (`explain/explainer.go:622-627`). -/
def optionsText (level : Nat) (opts : Entries) : List Chunk :=
  if opts.isEmpty then [] else [.line level, .text "Options: ".toList, .val (.map opts)]

/-- The head of a location (`explain/explainer.go:492-508`). -/
def locationText (level : Nat) (l : Loc) (w : List Chunk) : Res (List Chunk) :=
  l.resolvedText.bind fun r => .ok (w ++ [.line level,
    .text (match l with | .path _ _ _ => "Path \"".toList | _ => "URI \"".toList), .text r, .text ['"'],
    .line (level + 1), .text "Original ".toList, .text l.kindText, .text ": \"".toList, .text l.original, .text ['"']])

/-- The remark on a location that does not exist (`explain/explainer.go:511-515`). -/
def missingText (level : Nat) (l : Loc) (event : Event) : List Chunk :=
  match event with
  | .locationNotFound => [.line level, .text l.kindText, .text " not found".toList]
  | _ => []

mutual
/-- `AppendTo` of the node types (`explain/explainer.go:147-149`, `312-318`, `362-368`, `406-411`, `450-452`, `492-517`,
`551-559`, `610-635`, `675-679`, `719-730`, `770-783`, `944-947`). -/
def Node.appendTo (level : Nat) (w : List Chunk) : Node → Res (List Chunk)
  | .mk kind key event value texts bs =>
    match kind with
    | .root => (Node.appendAll level w bs).bind fun w => .ok (dumpTexts level texts w)
    | .dataProvider name =>
      (Node.appendAll (level + 1) (w ++ [.line level, .text name]) bs).bind fun w =>
        dumpOutcome (level + 1) event key value texts w
    | .interpolate expr =>
      Node.appendAll (level + 1) (w ++ [.line level, .text "Interpolation on \"".toList, .text expr, .text ['"']]) bs
    | .invalidKey => .ok (w ++ [.line level, .text "Invalid key \"".toList, .text key, .text ['"']])
    | .segment _ => dumpOutcome level event key value texts w
    | .location l =>
      (locationText level l w).bind fun w => (Node.appendAll (level + 1) w bs).bind fun w =>
        dumpOutcome (level + 1) event key value texts (w ++ missingText (level + 1) l event)
    | .lookup =>
      Node.appendAll (level + 1) (w ++ (if w.any Chunk.nonempty || level > 0 then [.line level] else []) ++
        [.text "Searching for \"".toList, .text key, .text ['"']]) bs
    | .merge s => match bs with
      | [] => .ok w
      | [b] => b.appendTo level w
      | b :: b' :: bs =>
        (Node.appendAll (level + 1) (w ++ [.line level, .text "Merge strategy \"".toList, .text s.label, .text ['"']] ++
          optionsText (level + 1) s.options) (b :: b' :: bs)).bind fun w => dumpResult (level + 1) event value w
    | .mergeSource src => .ok (w ++ [.line level, .text "Using merge options from ".toList, .text src])
    | .module name => match event with
      | .moduleNotFound => .ok (w ++ [.line level, .text "Module \"".toList, .text name, .text "\" not found".toList])
      | _ => (Node.appendAll level w bs).bind fun w => dumpOutcome level event key value texts w
    | .subLookup k => match k.parts with
      | [] => .panic .nilDeref
      | _ :: ps =>
        (Node.appendAll (level + 1) (w ++ [.line level, .text "Sub key: \"".toList] ++ subKeyText ps ++ [.text ['"']]) bs).bind
          fun w => dumpOutcome (level + 1) event key value texts w
/-- `dumpBranches` (`explain/explainer.go:197-201`). -/
def Node.appendAll (level : Nat) (w : List Chunk) : List Node → Res (List Chunk)
  | [] => .ok w
  | b :: bs => (b.appendTo level w).bind fun w => Node.appendAll level w bs
end

/-- The text of an explainer: `String` (`explain/explainer.go:944-951`). -/
def Node.render (n : Node) : Res (List Chunk) := n.appendTo 0 []

end Hiera
