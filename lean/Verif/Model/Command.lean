/- The command line: flags and the variables that they set (`cli/hiera.go`, `cli/executelookup.go`), and the flags of the
server (`hieraserver/rest/rest.go`). Parsing of arguments into flags and values belongs to cobra and pflag, which are not
part of /repo: what registering and setting a flag does is an assumption about them. -/
import Verif.Model.Cli

set_option autoImplicit false

namespace Hiera.Command

/-- The variables of package `cli` (`cli/hiera.go:70-76`). -/
structure Globals where
  cmdOpts : CommandOptions := {}
  dflt : Option Str := none
  logLevel : Str := []
  configPath : Str := []
  dialect : Str := []

/-- A flag with its value, as it is found among the arguments (`cli/hiera.go:89-115`). -/
inductive Flag
  | loglevel (v : Str)
  | merge (v : Str)
  | config (v : Str)
  | default (v : Str)
  | type (v : Str)
  | dialect (v : Str)
  | renderAs (v : Str)
  | explain (v : Bool)
  | explainOptions (v : Bool)
  | vars (v : Str)
  | var (v : Str)
  | facts (v : Str)
  | all (v : Bool)

/-- `NewCommand` (`cli/hiera.go:79-119`): `StringVar` and the like set the variables to the defaults, `Var` leaves its
variable as it is. -/
def newCommand (g : Globals) : Globals where
  cmdOpts := { g.cmdOpts with
    merge := "first".toList, type := [], renderAs := [], explainData := false, explainOptions := false, varPaths := [], vars := [],
    factPaths := [], lookupAll := false }
  dflt := g.dflt
  logLevel := "error".toList
  configPath := []
  dialect := "pcore".toList

/-- Setting a flag (`cli/hiera.go:60-63` for `--default`; pflag for the others, used in `cli/hiera.go:89-115`): strings and
truth values are replaced, arrays grow. -/
def Flag.set (g : Globals) : Flag → Globals
  | .loglevel v => { g with logLevel := v }
  | .merge v => { g with cmdOpts := { g.cmdOpts with merge := v } }
  | .config v => { g with configPath := v }
  | .default v => { g with dflt := some v }
  | .type v => { g with cmdOpts := { g.cmdOpts with type := v } }
  | .dialect v => { g with dialect := v }
  | .renderAs v => { g with cmdOpts := { g.cmdOpts with renderAs := v } }
  | .explain v => { g with cmdOpts := { g.cmdOpts with explainData := v } }
  | .explainOptions v => { g with cmdOpts := { g.cmdOpts with explainOptions := v } }
  | .vars v => { g with cmdOpts := { g.cmdOpts with varPaths := g.cmdOpts.varPaths ++ [v] } }
  | .var v => { g with cmdOpts := { g.cmdOpts with vars := g.cmdOpts.vars ++ [v] } }
  | .facts v => { g with cmdOpts := { g.cmdOpts with factPaths := g.cmdOpts.factPaths ++ [v] } }
  | .all v => { g with cmdOpts := { g.cmdOpts with lookupAll := v } }

/-- What a run of the command asks for: the options of the session and those of the lookup (`cli/hiera.go:121-137`). -/
structure Run where
  opts : CommandOptions
  /-- session option `Hiera::Config` -/
  config : Option Str
  /-- session option `Hiera::Dialect` -/
  dialect : Str

/-- `cmdLookup`, up to the session (`cli/hiera.go:121-131`), which sets `cmdOpts.Default`. -/
def cmdLookup (g : Globals) : Globals × Run :=
  let g := { g with cmdOpts := { g.cmdOpts with default := g.dflt } }
  (g, { opts := g.cmdOpts, config := if g.configPath ≠ [] then some g.configPath else none, dialect := g.dialect })

/-- A command that has been created is executed with flags (`cli/hiera.go:89-137`). -/
def execute (flags : List Flag) (g : Globals) : Globals × Run := cmdLookup (flags.foldl Flag.set g)

/-- `ExecuteLookup` (`cli/executelookup.go:10-25`). -/
def executeLookup (flags : List Flag) (g : Globals) : Globals × Run :=
  let g := { g with cmdOpts := {}, dflt := none, logLevel := [], configPath := [] }
  execute flags (newCommand g)

/-- A dialect of the session (`session/session.go:65-78`). -/
inductive Dialect
  | dgo
  | pcore
  deriving DecidableEq

/-- The choice of the dialect in `session.New` (`session/session.go:65-78`). -/
def dialectOf : Option Value → Res Dialect
  | some (.str s) => if s = "dgo".toList then .ok .dgo else if s = "pcore".toList then .ok .pcore else .panic (.other 6)
  | _ => .ok .dgo

/-! ### The server -/

/-- The flags of the server that concern TLS (`hieraserver/rest/rest.go:38-41`). -/
structure ServerFlags where
  sslKey : Str := []
  sslCert : Str := []
  clientCA : Str := []
  clientCertVerify : Bool := false

/-- A `tls.Config`, as far as it is set: whether clients must have a certificate that is verified, and by which
authorities, `none` being those of the system (`hieraserver/rest/rest.go:167-194`). -/
structure TlsConfig where
  verifyClients : Bool
  authorities : Option Str
  deriving DecidableEq

/-- `makeTLSconfig` (`hieraserver/rest/rest.go:167-194`). `keyPair` and `certPool` tell whether the files can be loaded
(`tls.LoadX509KeyPair`, and `loadCertPool`, `hieraserver/rest/rest.go:152-165`). -/
def makeTLSconfig (keyPair : Str → Str → Bool) (certPool : Str → Bool) (f : ServerFlags) : Except Unit (Option TlsConfig) :=
  if f.sslCert = [] ∨ f.sslKey = [] then .ok none
  else if keyPair f.sslCert f.sslKey = false then .error ()
  else
    let c : TlsConfig := { verifyClients := f.clientCertVerify, authorities := none }
    if f.clientCA ≠ [] then
      if certPool f.clientCA then .ok (some { c with authorities := some f.clientCA }) else .error ()
    else .ok (some c)

/-- How the server serves: not at all, to everyone in the clear, or with TLS (`hieraserver/rest/rest.go:88-103`). -/
inductive Serving
  | no
  | clear
  | tls (c : TlsConfig)
  deriving DecidableEq

/-- `startServer` (`hieraserver/rest/rest.go:75-105`). Simplification: the server can listen at its address. -/
def startServer (keyPair : Str → Str → Bool) (certPool : Str → Bool) (f : ServerFlags) : Serving :=
  match makeTLSconfig keyPair certPool f with
  | .error _ => .no
  | .ok none => .clear
  | .ok (some c) => .tls c

end Hiera.Command
