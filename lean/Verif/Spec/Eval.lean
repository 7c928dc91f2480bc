/-
  Specifications for computations of the evaluator.
-/
import Verif.Model.Eval
import Verif.Spec.Interp
import Verif.Spec.Config

set_option autoImplicit false

namespace Hiera

/-- The computation never returns: it fails or does not terminate. -/
def Spec.NeverOk {α : Type} (m : M α) : Prop := ∀ s a t, m s ≠ some (.ok a, t)

/-- The text of a sequence of pieces, when the text of an expression is that of the expression on its own. -/
def Spec.pieces (alone : Str → M (Option Value)) (text : Option Value → Str) : List Tok → M Str
  | [] => pure []
  | .chr c :: ts => do
    let r ← pieces alone text ts
    pure (c :: r)
  | .expr e :: ts => do
    let v ← alone ("%{".toList ++ e ++ "}".toList)
    let r ← pieces alone text ts
    pure (text v ++ r)

/-- The string has an expression that is a function call. -/
def Spec.HasCall (s : Str) : Prop :=
  ∃ ts e x name arg, Splits s ts ∧ Tok.expr e ∈ ts ∧ Trimmed e x ∧ Call x name arg

/-- Some string in the value, at any depth and possibly in a key of a map, has a function call. -/
inductive Spec.HasCallV : Value → Prop
  | str {s} : HasCall s → HasCallV (.str s)
  | arr {v vs} : HasCallV v → v ∈ vs → HasCallV (.arr vs)
  | key {k v es} : HasCallV k → (k, v) ∈ es → HasCallV (.map es)
  | val {k v es} : HasCallV v → (k, v) ∈ es → HasCallV (.map es)

/-- A location whose template has a function call. -/
inductive Spec.HasCallL : Loc → Prop
  | path {o r e} : HasCall o → HasCallL (.path o r e)
  | glob {o} : HasCall o → HasCallL (.glob o)
  | uri {o r} : HasCall o → HasCallL (.uri o r)

/-- A hierarchy entry with a function call in one of its settings. -/
inductive Spec.HasCallE (e : Entry) : Prop
  | function {k n} : e.function = some (k, n) → HasCall n → HasCallE e
  | dataDir : HasCall e.dataDir → HasCallE e
  | pluginDir : HasCall e.pluginDir → HasCallE e
  | options {os} : e.options = some os → HasCallV (.map os) → HasCallE e
  | location {ls l} : e.locations = some ls → l ∈ ls → HasCallL l → HasCallE e

/-- The evaluator with `Lookup` replaced by `p`, at every depth. -/
def Spec.withLookup (E : Env) (p : Key → Entries → M (Option Value)) : Nat → Rec
  | 0 => { eval E 0 with lookup := p }
  | n + 1 => { step E (withLookup E p n) with lookup := p }

/-- Does `f` for each element, in order. -/
def Spec.each {α β : Type} (f : α → M β) : List α → M (List β)
  | [] => pure []
  | a :: as => do
    let b ← f a
    let bs ← each f as
    pure (b :: bs)

/-- Interpolates a key and its value. -/
def Spec.entryOf (f : Value → M (Option Value)) (p : Value × Value) : M (Value × Value) := do
  let k ← f p.1
  let v ← f p.2
  pure (k.getD .null, v.getD .null)

/-! ### Replacing variables -/

/-- The expressions that stand for nothing. -/
def Spec.emptyForms : List Str :=
  ["".toList, "::".toList, "\"\"".toList, "''".toList, "\"::\"".toList, "'::'".toList]

/-- The text of a string divided into text and expressions, if every expression is a variable: `get` gives the values of
variables, `text` the text of values. -/
inductive Spec.Replaced (text : Value → Str) (get : Str → Option Value) : List Tok → Str → Prop
  | nil : Replaced text get [] []
  | chr {c ts t} : Replaced text get ts t → Replaced text get (.chr c :: ts) (c :: t)
  /-- nothing -/
  | empty {e x ts t} : Trimmed e x → x ∈ emptyForms → Replaced text get ts t → Replaced text get (.expr e :: ts) t
  /-- a variable that does not exist, or that has no value under the rest of the key -/
  | missing {e x k ts t} : Trimmed e x → x ∉ emptyForms → (∀ name arg, ¬Call x name arg) → newKey x = .ok k →
      (get k.root).bind k.digPure = none → Replaced text get ts t → Replaced text get (.expr e :: ts) t
  | var {e x k v ts t} : Trimmed e x → x ∉ emptyForms → (∀ name arg, ¬Call x name arg) → newKey x = .ok k →
      (get k.root).bind k.digPure = some v → Replaced text get ts t → Replaced text get (.expr e :: ts) (text v ++ t)

/-- The text `t` is the string `s` with all variables replaced. -/
def Spec.ReplacedS (text : Value → Str) (get : Str → Option Value) (s t : Str) : Prop :=
  ∃ ts, Splits s ts ∧ Replaced text get ts t

mutual
/-- The value `w` is the value `v` with all variables replaced in all strings. -/
inductive Spec.ReplacedV (text : Value → Str) (get : Str → Option Value) : Value → Value → Prop
  | str {s t} : ReplacedS text get s t → ReplacedV text get (.str s) (.str t)
  | arr {vs ws} : ReplacedL text get vs ws → ReplacedV text get (.arr vs) (.arr ws)
  | map {es ps} : Value.WF (.map es) → ReplacedE text get es ps →
      ReplacedV text get (.map es) (.map (Entries.putAll [] ps))
  | other {v} : (∀ s, v ≠ .str s) → (∀ es, v ≠ .arr es) → (∀ es, v ≠ .map es) → ReplacedV text get v v
/-- For each element. -/
inductive Spec.ReplacedL (text : Value → Str) (get : Str → Option Value) : List Value → List Value → Prop
  | nil : ReplacedL text get [] []
  | cons {v w vs ws} : ReplacedV text get v w → ReplacedL text get vs ws → ReplacedL text get (v :: vs) (w :: ws)
/-- For each key and value. -/
inductive Spec.ReplacedE (text : Value → Str) (get : Str → Option Value) : List (Value × Value) → List (Value × Value) → Prop
  | nil : ReplacedE text get [] []
  | cons {k l v w es fs} : ReplacedV text get k l → ReplacedV text get v w → ReplacedE text get es fs →
      ReplacedE text get ((k, v) :: es) ((l, w) :: fs)
end

/-- All variables are plain. -/
def Spec.PlainScope (get : Str → Option Value) : Prop := ∀ k v, get k = some v → Plain v

/-- The variables, with one more. -/
def Spec.withVariable (get : Str → Option Value) (key : Str) (v : Value) : Str → Option Value :=
  fun k => if k = key then some v else get k

/-- The paths for the elements of mapped paths. -/
inductive Spec.MappedTo (E : Env) (get : Str → Option Value) (key template dataDir : Str) : List Value → List Loc → Prop
  | nil : MappedTo E get key template dataDir [] []
  | cons {v vs t ls} : ReplacedS E.toStr (withVariable get key v) template t →
      MappedTo E get key template dataDir vs ls →
      MappedTo E get key template dataDir (v :: vs) (.path template (join dataDir t) (E.stat (join dataDir t)) :: ls)

/-- What a location becomes. -/
inductive Spec.LocatedAt (E : Env) (get : Str → Option Value) (dataDir : Str) : Loc → List Loc → Prop
  | path {o r e t} : ReplacedS E.toStr get o t →
      LocatedAt E get dataDir (.path o r e) [.path o (join dataDir t) (E.stat (join dataDir t))]
  | glob {o t} : ReplacedS E.toStr get o t →
      LocatedAt E get dataDir (.glob o) ((E.glob (join dataDir t)).map (fun m => .path o m true))
  | uri {o r t} : ReplacedS E.toStr get o t → LocatedAt E get dataDir (.uri o r) [.uri o t]
  /-- the variable is a list: one path for each element -/
  | mapped {src key template k vs ls} : newKey src = .ok k → (get k.root).bind k.digPure = some (.arr vs) →
      MappedTo E get key template dataDir vs ls → LocatedAt E get dataDir (.mapped src key template) ls
  /-- the variable is a string: one path -/
  | mapped1 {src key template k s ls} : newKey src = .ok k → (get k.root).bind k.digPure = some (.str s) →
      MappedTo E get key template dataDir [.str s] ls → LocatedAt E get dataDir (.mapped src key template) ls
  /-- the variable is neither: no paths -/
  | unmapped {src key template k} : newKey src = .ok k → (∀ vs, (get k.root).bind k.digPure ≠ some (.arr vs)) →
      (∀ s, (get k.root).bind k.digPure ≠ some (.str s)) → LocatedAt E get dataDir (.mapped src key template) []

/-- What a list of locations becomes: the concatenation, in order. -/
inductive Spec.LocatedAll (E : Env) (get : Str → Option Value) (dataDir : Str) : List Loc → List Loc → Prop
  | nil : LocatedAll E get dataDir [] []
  | cons {l ls rs rss} : LocatedAt E get dataDir l rs → LocatedAll E get dataDir ls rss →
      LocatedAll E get dataDir (l :: ls) (rs ++ rss)

/-- What the function of an entry becomes. (The name of an entry's own function is replaced twice.) -/
inductive Spec.FunctionAs (E : Env) (get : Str → Option Value) (d : Option Entry) (e : Entry) : FnKind × Str → Prop
  | own {k n n' n''} : e.function = some (k, n) → ReplacedS E.toStr get n n' → ReplacedS E.toStr get n' n'' →
      FunctionAs E get d e (k, n'')
  | inherited {d' k n n'} : e.function = none → d = some d' → d'.function = some (k, n) → ReplacedS E.toStr get n n' →
      FunctionAs E get d e (k, n')
  | builtIn : e.function = none → d = none → FunctionAs E get d e (.dataHash, "yaml_data".toList)

/-- What a directory of an entry becomes. -/
inductive Spec.DirAs (E : Env) (get : Str → Option Value) (of : Entry → Str) (builtIn : Str) (d : Option Entry) (e : Entry) :
    Str → Prop
  | own {p} : of e ≠ [] → ReplacedS E.toStr get (of e) p → DirAs E get of builtIn d e p
  | inherited {d'} : of e = [] → d = some d' → DirAs E get of builtIn d e (of d')
  | builtIn : of e = [] → d = none → DirAs E get of builtIn d e builtIn

/-- What the options of an entry become. -/
inductive Spec.OptionsAs (E : Env) (get : Str → Option Value) (d : Option Entry) (e : Entry) : Entries → Prop
  | own {os os'} : e.options = some os → ReplacedV E.toStr get (.map os) (.map os') → OptionsAs E get d e os'
  | inherited {d' os} : e.options = none → d = some d' → d'.options = some os → OptionsAs E get d e os
  | none : e.options = none → (∀ d', d = some d' → d'.options = none) → OptionsAs E get d e []

/-- A relative path is relative to `root`. -/
def Spec.under (root p : Str) : Str := if isAbs p = true then p else join root p

/-- What an entry becomes: its own settings with variables replaced, and those of the defaults `d` where it has none. -/
structure Spec.ResolvedAs (E : Env) (get : Str → Option Value) (d : Option Entry) (e e' : Entry) : Prop where
  same : e'.root = e.root ∧ e'.name = e.name ∧ e'.pluginFile = e.pluginFile
  function : ∃ f, e'.function = some f ∧ FunctionAs E get d e f
  dataDir : DirAs E get (·.dataDir) ((E.lookupEnv "HIERA_DATADIR".toList).getD "data".toList) d e e'.dataDir
  pluginDir : ∃ p, DirAs E get (·.pluginDir) ((E.lookupEnv "HIERA_PLUGINDIR".toList).getD "plugin".toList) d e p ∧
    e'.pluginDir = under e.root p
  options : ∃ os, e'.options = some os ∧ OptionsAs E get d e os
  locations : ∀ ls, e.locations = some ls → ∃ rs, e'.locations = some rs ∧
    LocatedAll E get (under e.root e'.dataDir) ls rs
  noLocations : e.locations = Option.none → e'.locations = Option.none

end Hiera
