/- The cache of the top provider (`session/serverctx.go:22-50`, `session/session.go:92-97,211-216`). -/
import Verif.Model.Session
import Verif.Model.Conc

set_option autoImplicit false

namespace Hiera.Cache
open Hiera.Conc (upd)

/-- `sync.Map` with values of type `dgo.Value`, which can be nil: an association list without duplicate keys (Go
standard library; the cache of the top provider, `session/session.go:95`). -/
abbrev SyncMap := List (Str × Option Value)

/-- `sync.Map.Load` (Go standard library; used in `session/serverctx.go:40`). -/
def load (k : Str) : SyncMap → Option (Option Value)
  | [] => none
  | (k', v) :: m => if k = k' then some v else load k m

/-- `sync.Map.Store` (Go standard library; used in `session/serverctx.go:26,35`). -/
def store (k : Str) (v : Option Value) : SyncMap → SyncMap
  | [] => [(k, v)]
  | (k', v') :: m => if k = k' then (k, v) :: m else (k', v') :: store k v m

/-- `sync.Map.LoadOrStore`: the value, whether it was loaded, and the map afterwards (Go standard library; used in
`session/serverctx.go:24`). -/
def loadOrStore (k : Str) (v : Option Value) (m : SyncMap) : Option Value × Bool × SyncMap :=
  match load k m with
  | some old => (old, true, m)
  | none => (v, false, store k v m)

/-- What the methods can give (`session/serverctx.go:22-51`). -/
inductive Out
  | unit
  /-- of `Cache` -/
  | replaced (v : Option Value)
  /-- of `CachedValue` -/
  | cached (v : Option Value)
  /-- of `CachedEntries`: what the consumer is called with. Simplification: the order, which is unspecified, is that of the
  list. -/
  | entries (es : List (Str × Value))

/-- `v.(dgo.Value)`, which panics if `v` is nil (`session/serverctx.go:27,41,48`). -/
def assertValue : Option Value → Res Value
  | some v => .ok v
  | none => .panic .typeAssertion

/-- `Cache` (`session/serverctx.go:22-30`). -/
def cache (k : Str) (v : Option Value) (m : SyncMap) : Res Out × SyncMap :=
  match loadOrStore k v m with
  | (old, true, m) => (match assertValue old with
    | .ok o => .ok (.replaced (some o))
    | .panic e => .panic e, store k v m)
  | (_, false, m) => (.ok (.replaced none), m)

/-- `CacheAll` (`session/serverctx.go:32-37`); `toStr` is `String()` of keys. -/
def cacheAll (toStr : Value → Str) (es : Entries) (m : SyncMap) : SyncMap :=
  es.foldl (fun m e => store (toStr e.1) (some e.2) m) m

/-- `CachedValue` (`session/serverctx.go:39-44`). -/
def cachedValue (k : Str) (m : SyncMap) : Res Out :=
  match load k m with
  | some v => match assertValue v with
    | .ok v => .ok (.cached (some v))
    | .panic e => .panic e
  | none => .ok (.cached none)

/-- The entries of `CachedEntries`, up to the first panic (`session/serverctx.go:46-51`). -/
def assertEntries : SyncMap → Res (List (Str × Value))
  | [] => .ok []
  | (k, v) :: m => match assertValue v with
    | .panic e => .panic e
    | .ok v => match assertEntries m with
      | .panic e => .panic e
      | .ok es => .ok ((k, v) :: es)

/-- `CachedEntries` (`session/serverctx.go:46-51`). -/
def cachedEntries (m : SyncMap) : Res Out :=
  match assertEntries m with
  | .ok es => .ok (.entries es)
  | .panic e => .panic e

/-- A call of one of the methods (`session/serverctx.go:22-51`). -/
inductive Op
  | cache (k : Str) (v : Option Value)
  | cacheAll (es : Entries)
  | cachedValue (k : Str)
  | cachedEntries

/-- A call, with its result (`session/serverctx.go:22-51`). -/
def Op.run (toStr : Value → Str) (m : SyncMap) : Op → Res Out × SyncMap
  | .cache k v => Cache.cache k v m
  | .cacheAll es => (.ok .unit, Cache.cacheAll toStr es m)
  | .cachedValue k => (Cache.cachedValue k m, m)
  | .cachedEntries => (Cache.cachedEntries m, m)

/-- The caches of all sessions, by session. `TopProviderCache` (`session/session.go:211-216`) gives that of the session that
the invocation belongs to, and each session starts with its own (`session/session.go:92-97`). -/
abbrev Caches := Nat → SyncMap

/-- A call by an invocation of session `i` (`session/serverctx.go:22-51`). -/
def Caches.run (toStr : Value → Str) (c : Caches) (i : Nat) (op : Op) : Res Out × Caches :=
  let (r, m) := op.run toStr (c i)
  (r, upd c i m)

/-- The caches after some calls (`session/serverctx.go:22-51`). -/
def Caches.after (toStr : Value → Str) : Caches → List (Nat × Op) → Caches
  | c, [] => c
  | c, (i, op) :: l => Caches.after toStr (c.run toStr i op).2 l

/-! ### `Cache`, concurrently -/

/-- Where a goroutine is in `Cache` (`session/serverctx.go:22-30`). -/
inductive PC (V : Type)
  /-- before line 24: `LoadOrStore` -/
  | start
  /-- before line 26: `Store` -/
  | storing (old : V)
  /-- after the end, with the replaced value, if any -/
  | done (old : Option V)
  deriving DecidableEq

/-- `n` goroutines that call `Cache` for the same key: where they are and what is stored. Simplification: values are not
nil (`session/serverctx.go:22-30`). -/
structure Sys (V : Type) (n : Nat) where
  pc : Fin n → PC V
  cell : Option V

/-- Before any of the calls of `Cache` (`session/serverctx.go:22-30`). -/
def Sys.init {V : Type} {n : Nat} : Sys V n where
  pc := fun _ => .start
  cell := none

/-- The next step of goroutine `i`, which stores `val i`; `none` if it is at its end (`session/serverctx.go:22-30`). -/
def Sys.step {V : Type} {n : Nat} (val : Fin n → V) (s : Sys V n) (i : Fin n) : Option (Sys V n) :=
  match s.pc i with
  | .start => match s.cell with
    | some old => some { s with pc := upd s.pc i (.storing old) }
    | none => some { pc := upd s.pc i (.done none), cell := some (val i) }
  | .storing old => some { pc := upd s.pc i (.done (some old)), cell := some (val i) }
  | .done _ => none

/-- The states that some schedule leads to (goroutines that call `Cache`, `session/serverctx.go:22-30`). -/
inductive Sys.Reach {V : Type} {n : Nat} (val : Fin n → V) (s : Sys V n) : Sys V n → Prop
  | refl : Reach val s s
  | step {t u : Sys V n} (i : Fin n) : Reach val s t → t.step val i = some u → Reach val s u

end Hiera.Cache
