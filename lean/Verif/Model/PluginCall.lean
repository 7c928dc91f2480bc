/- Calling the functions of plugins (`session/pluginloader.go:263-369`). -/
import Verif.Model.Plugin

set_option autoImplicit false

namespace Hiera.Plugin

/-- Strings as they are sent (Go strings; used in `session/pluginloader.go:320-345`). -/
abbrev Octets := List UInt8

/-- The bytes of a string (Go strings are UTF-8; used in `session/pluginloader.go:320-345`). -/
def utf8 (s : Str) : Octets := (String.ofList s).toByteArray.data.toList

/-- A byte that is sent as it is (`url.QueryEscape`, Go standard library; used in `session/pluginloader.go:333`). -/
def plainByte (b : UInt8) : Bool :=
  (0x30 ≤ b && b ≤ 0x39) || (0x41 ≤ b && b ≤ 0x5A) || (0x61 ≤ b && b ≤ 0x7A) || b == 0x2D || b == 0x5F || b == 0x2E || b == 0x7E

/-- A hexadecimal digit, in upper case (`url.QueryEscape`, Go standard library; used in
`session/pluginloader.go:333`). -/
def hexDigit (n : UInt8) : UInt8 := if n < 10 then 0x30 + n else 0x37 + n

/-- What is sent for a byte (`url.QueryEscape`, Go standard library; used in `session/pluginloader.go:333`). -/
def escapeByte (b : UInt8) : Octets :=
  if plainByte b then [b] else if b = 0x20 then [0x2B] else [0x25, hexDigit (b / 16), hexDigit (b % 16)]

/-- `url.QueryEscape` (Go standard library; used in `session/pluginloader.go:333`). -/
def queryEscape (s : Octets) : Octets := s.flatMap escapeByte

/-- The parameters of a request, in the order in which `url.Values.Encode` writes them: there are no others than `key`
and `options` (`session/pluginloader.go:286-318`). -/
structure Params where
  key : Option Octets := none
  options : Option Octets := none
  deriving DecidableEq

/-- The names and values of the parameters (`session/pluginloader.go:286-318`). -/
def Params.pairs (p : Params) : List (Octets × Octets) :=
  (p.key.toList.map (fun v => (utf8 "key".toList, v))) ++ (p.options.toList.map (fun v => (utf8 "options".toList, v)))

/-- `url.Values.Encode` (Go standard library; used in `session/pluginloader.go:333`). -/
def encode : List (Octets × Octets) → Octets
  | [] => []
  | [(k, v)] => queryEscape k ++ 0x3D :: queryEscape v
  | (k, v) :: ps => queryEscape k ++ 0x3D :: queryEscape v ++ 0x26 :: encode ps

/-- A request: whom to connect to, and what to ask (`session/pluginloader.go:320-345`). -/
structure Req where
  network : Str
  addr : Str
  path : Str
  query : Octets
  deriving DecidableEq

/-- What comes back: a problem of the connection, or a status and a body, unless reading that fails
(`session/pluginloader.go:345-369`). -/
inductive Resp
  | failed
  | answer (status : Nat) (body : Option Octets)

/-- The parts of the world that calls of plugins use: sending a request, JSON, and what is unspecified about it
(`session/pluginloader.go:286-318`, `345-369`). -/
structure Wire where
  send : Req → Resp
  /-- `streamer.MarshalJSON` and `streamer.JSON`, trimmed -/
  json : Value → Octets
  /-- `streamer.UnmarshalJSON` -/
  parse : Octets → Res (Option Value)

/-- The path of the address that is asked: `url.Parse` ends the path at a query or at a fragment
(`session/pluginloader.go:324-331`). Simplification: names have no `%`. -/
def urlPath (luType name : Str) : Str := ('/' :: luType ++ '/' :: name).takeWhile (fun c => c ≠ '?' && c ≠ '#')

/-- The query of the address, before the parameters are set (`session/pluginloader.go:324-331`). -/
def urlQuery (name : Str) : Str := ((name.takeWhile (fun c => c ≠ '#')).dropWhile (fun c => c ≠ '?')).tail

/-- `callPlugin` (`session/pluginloader.go:320-369`). Simplification: `url.Parse` does not fail, and what is said about a
failure is left out. -/
def callPlugin (W : Wire) (p : Plugin) (luType name : Str) (params : Params) : Res (Option Value) :=
  let query := if params.pairs = [] then utf8 (urlQuery name) else encode params.pairs
  match W.send { network := p.network, addr := p.addr, path := urlPath luType name, query := query } with
  | .failed => .panic (.other 3)
  | .answer status body =>
    if status = 200 then
      match body with
      | some b => W.parse b
      | none => .panic (.other 4)
    else if status = 404 then .ok none
    else .panic (.other 5)

/-- `makeOptions` (`session/pluginloader.go:309-318`). -/
def makeOptions (W : Wire) (opts : Entries) : Params :=
  if opts.length > 0 then { options := some (W.json (.map opts)) } else {}

/-- The first argument of a call: a context with options (`internal/datahashprovider.go:59-66`,
`internal/lookupkeyprovider.go:51-60`), or the invocation itself, as `data_dig` providers pass it
(`internal/datadigprovider.go:45-48`). -/
inductive First
  | context (opts : Entries)
  | invocation

/-- Calling a function of a plugin: `dataDigDispatch`, `dataHashDispatch` and `lookupKeyDispatch`
(`session/pluginloader.go:286-307`). The functions want a `hiera.ProviderContext`, which an invocation is not: dgo's call
panics then. `key` is the key: a string, or an array for `data_dig`. -/
def dispatch (W : Wire) (p : Plugin) (k : Kind) (name : Str) (first : First) (key : Value) : Res (Option Value) :=
  match first with
  | .invocation => .panic .typeAssertion
  | .context opts =>
    let params := makeOptions W opts
    match k with
    | .dataDig => callPlugin W p "data_dig".toList name { params with key := some (W.json key) }
    | .dataHash => callPlugin W p "data_hash".toList name params
    | .lookupKey => match key with
      | .str s => callPlugin W p "lookup_key".toList name { params with key := some (utf8 s) }
      | _ => .panic .typeAssertion

/-- `getUnixSocketDir` (`session/pluginloader.go:113-121`); `tempDir` is `os.TempDir`. -/
def unixSocketDir (opts : Entries) (tempDir : Str) : Str :=
  match Entries.getS opts "unixSocketDir".toList with
  | some (.str v) => v
  | _ => if tempDir ≠ [] then tempDir else "/tmp".toList

/-- `getPluginTransport` (`session/pluginloader.go:124-135`, `session/plugintransport.go:5-7`). -/
def pluginTransport (opts : Entries) : Str :=
  match Entries.getS opts "pluginTransport".toList with
  | some (.str v) => if v = "unix".toList ∨ v = "tcp".toList then v else "unix".toList
  | _ => "unix".toList

/-- The environment of a plugin's process: `initCmd` (`session/pluginloader.go:197-205`); `cookie` is
`hiera.MagicCookie` of hierasdk. -/
def pluginEnv (environ : List Str) (cookie : Str) (opts : Entries) (tempDir : Str) : List Str :=
  environ ++ ["HIERA_MAGIC_COOKIE=".toList ++ cookie] ++ ["HIERA_PLUGIN_SOCKET_DIR=".toList ++ unixSocketDir opts tempDir] ++
    ["HIERA_PLUGIN_TRANSPORT=".toList ++ pluginTransport opts]

end Hiera.Plugin
