/- Sessions: their options and the invocations that they make (`session/session.go`). -/
import Verif.Model.Eval

set_option autoImplicit false

namespace Hiera

/-- What making a session uses from outside: `String()` of option values that are not strings, `os.LookupEnv` and
`os.Getwd`. Simplification: `os.Getwd` does not fail (used in `session/session.go:51-124`). -/
structure SessionEnv where
  toStr : Value → Str
  lookupEnv : Str → Option Str
  cwd : Str

/-- `addHieraConfig` (`session/session.go:104-124`). -/
def addHieraConfig (S : SessionEnv) (options : Entries) : Entries :=
  let hieraRoot := match Entries.getS options "Hiera::Root".toList with
    | some r => S.toStr r
    | none => S.cwd
  let fileName := match Entries.getS options "Hiera::ConfigFileName".toList with
    | some r => S.toStr r
    | none => match S.lookupEnv "HIERA_CONFIGFILE".toList with
      | some configFile => configFile
      | none => "hiera.yaml".toList
  Entries.put options (.str "Hiera::Config".toList) (.str (join hieraRoot fileName))

/-- The options of a session (`session/session.go:56-63`, `90`). -/
def sessionOptions (S : SessionEnv) (given : Option Entries) : Entries :=
  let options := match given with
    | some oif => Entries.putAll [] oif
    | none => []
  match Entries.getS options "Hiera::Config".toList with
  | none => addHieraConfig S options
  | some _ => options

/-- What `SessionOptions().Get(api.HieraConfig).String()` gives (`provider/configlookupkey.go:13`,
`session/invocation.go:69`). -/
def configPathOf (S : SessionEnv) (options : Entries) : Str :=
  match Entries.getS options "Hiera::Config".toList with
  | some v => S.toStr v
  | none => []

/-- The scope of a session (`session/session.go:81-90`). Simplification: a scope given as an option is a map. -/
def sessionScope (options : Entries) : Scope :=
  match Entries.getS options "Hiera::Scope".toList with
  | some (.map es) => .map es
  | _ => .map []

/-- The scope of a new invocation (`session/session.go:134-141`). -/
def invocationScope (session : Scope) : Option Entries → Scope
  | none => session
  | some si => .nested session (.map si)

/-- `newInvocation` (`session/invocation.go:49-57`): a state to start from. -/
def newInvocation (scope : Scope) (explainer : Option ExplOpts) : St := { v := { ic := { scope := scope } }, on := explainer }

/-- Another invocation of the session that the state belongs to: it starts anew, except for what belongs to the session,
which are the parsed configurations, their locks and the cache of the top provider (`session/session.go:92-97`, `134-142`,
`session/invocation.go:49-57`). -/
def nextInvocation (s : St) (scope : Scope) (explainer : Option ExplOpts) : St :=
  { v := { ic := { scope := scope }, parsed := s.v.parsed, locked := s.v.locked, cache := s.v.cache, trace := s.v.trace },
    on := explainer }

/-- The invocation, while other invocations of the session run at the same time and parse configuration files
(`session/invocation.go:76-107`): `ahead` tells which files they have parsed when this one looks for them. All else in an
invocation is its own, except for the cache of the top provider, whose changes by others are not modelled. -/
def St.among (s : St) (ahead : List Ev → Str → Bool) : St := { s with v := { s.v with ahead := ahead } }

end Hiera
