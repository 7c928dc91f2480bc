/- What an explainer is told, call by call, and the text that this should give. The text is defined from the calls; nothing here
refers to the tree that the explainer builds, except for the names of the kinds of its nodes. -/
import Verif.Props.ExplainPage

set_option autoImplicit false

namespace Hiera.Spec

/-- What an explainer is told: one of the `Accept` methods, or one of the `Push` methods with all that is told until its `Pop`. -/
inductive Telling
  | remark (t : Str)
  | found (k : Str) (v : Value)
  | foundInDefaults (k : Str) (v : Value)
  | foundInOverrides (k : Str) (v : Value)
  | notFound (k : Str)
  | locationNotFound
  | moduleNotFound
  | merged (v : Value)
  | source (src : Str)
  | within (kind : NodeKind) (key : Str) (ts : List Telling)

/-- Says how something ended. Of several of these, the last one counts. -/
def Telling.isOutcome : Telling → Bool
  | .remark _ | .source _ | .within _ _ _ => false
  | _ => true

def Telling.isPart : Telling → Bool
  | .source _ | .within _ _ _ => true
  | _ => false

def Telling.text : Telling → Option Str
  | .remark t => some t
  | _ => none

/-- The key that is told of, if there is one. -/
def Telling.keyOf : Telling → Option Str
  | .found k _ | .foundInDefaults k _ | .foundInOverrides k _ | .notFound k => some k
  | _ => none

/-- How it ended. -/
def ended (ts : List Telling) : Option Telling := (ts.filter Telling.isOutcome).getLast?

/-- The line about how it ended. -/
def outcomeLine (level : Nat) : Option Telling → List PageLine
  | some (.found k v) => [(level, quoting "Found key: ".toList k ++ said " value: ".toList ++ [.inr v])]
  | some (.foundInDefaults k v) => [(level, quoting "Found key: ".toList k ++ said " value: ".toList ++ [.inr v] ++ said " in defaults".toList)]
  | some (.foundInOverrides k v) => [(level, quoting "Found key: ".toList k ++ said " value: ".toList ++ [.inr v] ++ said " in overrides".toList)]
  | some (.notFound k) => [(level, quoting "No such key: ".toList k)]
  | _ => []

/-- The line about a place that is not there. -/
def missingLine (level : Nat) (l : Loc) : Option Telling → List PageLine
  | some .locationNotFound => match l with
    | .path _ _ _ => [(level, said "path not found".toList)]
    | .uri _ _ => [(level, said "uri not found".toList)]
    | _ => []
  | _ => []

/-- The line about the result of a merge. -/
def mergedLine (level : Nat) : Option Telling → List PageLine
  | some (.merged v) => [(level, said "Merged result: ".toList ++ [.inr v])]
  | _ => []

/-- Was a module not found? -/
def noModule : Option Telling → Bool
  | some .moduleNotFound => true
  | _ => false

/-- The remarks, a line each. -/
def remarkLines (level : Nat) (ts : List Telling) : List PageLine := ts.filterMap (fun t => t.text.map fun x => (level, said x))

mutual
/-- The lines about something that is told. -/
def account (level : Nat) : Telling → List PageLine
  | .source src => [(level, said ("Using merge options from ".toList ++ src))]
  | .within (.dataProvider name) _ ts => (level, said name) :: accounts (level + 1) ts ++ outcomeLine (level + 1) (ended ts) ++ remarkLines (level + 1) ts
  | .within (.interpolate expr) _ ts => (level, quoting "Interpolation on ".toList expr) :: accounts (level + 1) ts
  | .within .invalidKey key _ => [(level, quoting "Invalid key ".toList key)]
  | .within (.segment _) _ ts => outcomeLine level (ended ts) ++ remarkLines level ts
  | .within (.location l) _ ts => saysLocation level l ++ accounts (level + 1) ts ++ missingLine (level + 1) l (ended ts) ++
      outcomeLine (level + 1) (ended ts) ++ remarkLines (level + 1) ts
  | .within .lookup key ts => (level, quoting "Searching for ".toList key) :: accounts (level + 1) ts
  | .within (.merge s) _ ts => match ts.countP Telling.isPart with
    | 0 => []
    | 1 => accounts level ts
    | _ + 2 => saysStrategy level s ++ accounts (level + 1) ts ++ mergedLine (level + 1) (ended ts)
  | .within (.module name) _ ts => match noModule (ended ts) with
    | true => [(level, quoting "Module ".toList name ++ said " not found".toList)]
    | false => accounts level ts ++ outcomeLine level (ended ts) ++ remarkLines level ts
  | .within (.subLookup k) _ ts => (level, quoting "Sub key: ".toList (dottedParts k.parts.tail)) :: accounts (level + 1) ts ++
      outcomeLine (level + 1) (ended ts) ++ remarkLines (level + 1) ts
  | _ => []
/-- One after the other. -/
def accounts (level : Nat) : List Telling → List PageLine
  | [] => []
  | t :: ts => account level t ++ accounts level ts
end

/-- What can be opened: lookups and keys that are not valid are told of under their own key, locations are resolved, and keys of
sub lookups are parsed. -/
inductive Proper : Telling → Prop
  | accept {t : Telling} : (∀ kind key ts, t ≠ .within kind key ts) → Proper t
  | within {kind : NodeKind} {key : Str} {ts : List Telling} : KindOk kind → kind ≠ .root → (∀ s, kind ≠ .mergeSource s) →
      (kind = .lookup ∨ kind = .invalidKey → ∀ t ∈ ts, ∀ k, t.keyOf = some k → k = key) → (∀ t ∈ ts, Proper t) → Proper (.within kind key ts)

mutual
/-- The calls. -/
def Telling.tell : Telling → Tree → Option Tree
  | .remark t, tr => tr.accept (.appendText t)
  | .found k v, tr => tr.accept (.found k v)
  | .foundInDefaults k v, tr => tr.accept (.foundInDefaults k v)
  | .foundInOverrides k v, tr => tr.accept (.foundInOverrides k v)
  | .notFound k, tr => tr.accept (.notFound k)
  | .locationNotFound, tr => tr.accept .locationNotFound
  | .moduleNotFound, tr => tr.accept .moduleNotFound
  | .merged v, tr => tr.accept (.result v)
  | .source src, tr => tr.accept (.mergeSource src)
  | .within kind key ts, tr => (tr.push (.new kind key)).bind fun tr => (tellAll ts tr).map Tree.pop
def tellAll : List Telling → Tree → Option Tree
  | [], tr => some tr
  | t :: ts, tr => (t.tell tr).bind (tellAll ts)
end

end Hiera.Spec
