/-
  Merge strategies: `merge/deepmerge.go`, `merge/strategy.go`.
-/
import Verif.Model.Value

set_option autoImplicit false

namespace Hiera
open Value

mutual
/-- `deep` (`merge/deepmerge.go:25-61`). The options argument is only handed down and never read, so it is left out. -/
def deep : Value → Value → Value × Bool
  | .map as, .map bs =>
    let es := Entries.putAll (Entries.putAll [] (deepEntries as bs)) (bs.filter (fun e => !Entries.containsKey as e.1))
    if !equals (.map as) (.map es) then (.map es, true) else (.map as, false)
  | .arr as, .arr bs =>
    if 0 < bs.length then
      if as.length = 0 then (.arr bs, true)
      else
        let an := unique (as ++ bs)
        if !equals (.arr an) (.arr as) then (.arr an, true) else (.arr as, false)
    else (.arr as, false)
  | a, _ => (a, false)
/-- The entries put by the first loop of `deep` (`merge/deepmerge.go:30-38`). -/
def deepEntries : Entries → Entries → Entries
  | [], _ => []
  | (k, v) :: as, bs =>
    (k, match Entries.get bs k with
        | some bv => let (m, mh) := deep v bv; if mh then m else v
        | none => v) :: deepEntries as bs
end

/-- `Deep` (`merge/deepmerge.go:17-23`). The options given by the caller are replaced by an empty map and then ignored. -/
def deepMerge (a b : Value) : Value × Bool := deep a b

/-- `api.MergeStrategy`: one constructor for each of `merge/strategy.go:12-20`. -/
inductive Strategy
  | first
  | unique
  | hash
  | deep (opts : Entries)

/-- `Name` (`merge/strategy.go:91`, `141`, `176`, `205`). -/
def Strategy.name : Strategy → Str
  | .first => "first".toList
  | .unique => "unique".toList
  | .hash => "hash".toList
  | .deep _ => "deep".toList

/-- `Options` (`merge/strategy.go:125`, `153`, `188`, `217`). -/
def Strategy.options : Strategy → Entries
  | .deep opts => opts
  | _ => []

/-- `GetStrategy` (`merge/strategy.go:24-40`); `none` is the nil map. -/
def getStrategy (n : Str) (opts : Option Entries) : Res Strategy :=
  if n = "first".toList then .ok .first
  else if n = "unique".toList then .ok .unique
  else if n = "hash".toList then .ok .hash
  else if n = "deep".toList then .ok (.deep (opts.getD []))
  else .panic (.unknownStrategy n)

/-- `unique.convertValue` (`merge/strategy.go:165-170`), as the elements of the array it returns. -/
def convertUnique : Value → List Value
  | .arr es => flatten es
  | v => [v]

/-- `convertValue` (`merge/strategy.go:133`, `165-170`, `196`, `225`). -/
def Strategy.convertValue : Strategy → Value → Value
  | .unique, v => .arr (convertUnique v)
  | _, v => v

/-- `merge` (`merge/strategy.go:137-139`, `172-174`, `200-203`, `229-237`). -/
def Strategy.merge : Strategy → Value → Value → Value
  | .first, a, _ => a
  | .unique, a, b => .arr (Hiera.unique (convertUnique a ++ convertUnique b))
  | .hash, a, b => match a, b with
    | .map ah, .map bh => .map (Entries.merge bh ah)
    | _, _ => a
  | .deep _, a, b => (deepMerge a b).1

/-- What `mergeSingle` does with the value found in a single variant (`merge/strategy.go:129-131`, `157-163`,
`192-194`, `221-223`). -/
def Strategy.single : Strategy → Value → Value
  | .unique, .arr es => .arr (Hiera.unique (flatten es))
  | _, v => v

section
variable {m : Type → Type} [Monad m] {α : Type}

/-- The loop of `doLookup` (`merge/strategy.go:65-74`). -/
def mergeLoop (s : Strategy) (f : α → m (Option Value)) : Option Value → List α → m (Option Value)
  | memo, [] => pure memo
  | memo, v :: vs => do
    match ← f v with
    | some x => match memo with
      | none => mergeLoop s f (some (s.convertValue x)) vs
      | some a => mergeLoop s f (some (s.merge a x)) vs
    | none => mergeLoop s f memo vs

/-- The loop of `firstFound.MergeLookup` (`merge/strategy.go:111-117`). -/
def firstLoop (f : α → m (Option Value)) : List α → m (Option Value)
  | [] => pure none
  | v :: vs => do
    match ← f v with
    | some x => pure (some x)
    | none => firstLoop f vs

/-- `MergeLookup` (`merge/strategy.go:99-123` for first, `doLookup` `52-82` for the others). `withMerge` and `report` are
`Invocation.WithMerge` and `Invocation.ReportMergeResult`. Simplification: the variants are always given as a slice of
exported values, so the `reflect` checks at `54-56`, `84-89`, `101-103` never fail. -/
def mergeLookup (withMerge : Strategy → m (Option Value) → m (Option Value)) (report : Value → m Unit)
    (s : Strategy) (vs : List α) (f : α → m (Option Value)) : m (Option Value) :=
  match s, vs with
  | _, [] => pure none
  | .first, [v] => f v
  | .first, vs => do
    let r ← firstLoop f vs
    match r with
    | some v => do report v; pure (some v)
    | none => pure none
  | s, [v] => do
    match ← f v with
    | some x => pure (some (s.single x))
    | none => pure none
  | s, vs => withMerge s (do
    let r ← mergeLoop s f none vs
    match r with
    | some v => do report v; pure (some v)
    | none => pure none)
end

end Hiera
