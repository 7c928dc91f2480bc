/- Calls of plugin functions. -/
import Verif.Lemmas.PluginCall
import Verif.Lemmas.World

set_option autoImplicit false

namespace Hiera.Plugin

open Spec

theorem pairs_form (W : Wire) (opts : Entries) (key : Option Octets) :
    ({ makeOptions W opts with key := key } : Params).pairs = form W.json opts key := by
  unfold Params.pairs makeOptions form
  rw [utf8_bytes, utf8_bytes]
  cases opts with
  | nil => cases key <;> simp
  | cons o os => cases key <;> simp

/-- A call asks with the form of its parameters, and gives what the response means. -/
theorem callPlugin_asks (W : Wire) (p : Plugin) (k : Kind) (name : Str) (opts : Entries) (key : Option Octets)
    (hn : '?' ∉ name ∧ '#' ∉ name) :
    ∃ r, Asks p k name (form W.json opts key) r ∧
      Means W.parse (W.send r) (callPlugin W p (kindName k).toList name { makeOptions W opts with key := key }) := by
  refine ⟨⟨p.network, p.addr, urlPath (kindName k).toList name, if ({ makeOptions W opts with key := key } : Params).pairs = [] then
      utf8 (urlQuery name) else encode ({ makeOptions W opts with key := key } : Params).pairs⟩, ⟨rfl, rfl, ?_, ?_⟩, ?_⟩
  rotate_left 2
  · unfold callPlugin
    dsimp only
    generalize W.send _ = a
    cases a with
    | failed => exact .failed _
    | answer n b =>
      dsimp only
      by_cases h1 : n = 200
      · subst h1
        rw [if_pos rfl]
        cases b with
        | none => exact .unread _
        | some b => exact .found b
      · rw [if_neg h1]
        by_cases h2 : n = 404
        · subst h2
          rw [if_pos rfl]
          exact .notFound b
        · rw [if_neg h2]
          exact .status n b _ ⟨h1, h2⟩
  · dsimp only
    exact urlPath_plain _ _ (by cases k <;> decide) hn
  · dsimp only
    rw [pairs_form]
    split
    · rename_i h
      have : urlQuery name = [] := by
        unfold urlQuery
        rw [takeWhile_all _ _ (fun c hc => by simp; rintro rfl; exact hn.2 hc),
          dropWhile_all _ _ (fun c hc => by simp; rintro rfl; exact hn.1 hc)]
        rfl
      rw [this, h]
      rfl
    · exact decodeForm_encode _

/-- **C73**: a `lookup_key` function of a plugin asks the plugin, at its address, for the function of that name, with the
key and the options as they are, and gives what the plugin's response means. -/
theorem C73_lookup_key_partial (W : Wire) (p : Plugin) (name : Str) (opts : Entries) (key : Str) (hn : '?' ∉ name ∧ '#' ∉ name) :
    ∃ r, Asks p .lookupKey name (form W.json opts (some (utf8 key))) r ∧
      Means W.parse (W.send r) (dispatch W p .lookupKey name (.context opts) (.str key)) :=
  callPlugin_asks W p .lookupKey name opts (some (utf8 key)) hn

/-- **C73** for `data_hash` functions, which have no key. -/
theorem C73_data_hash_partial (W : Wire) (p : Plugin) (name : Str) (opts : Entries) (key : Value) (hn : '?' ∉ name ∧ '#' ∉ name) :
    ∃ r, Asks p .dataHash name (form W.json opts none) r ∧
      Means W.parse (W.send r) (dispatch W p .dataHash name (.context opts) key) := by
  have := callPlugin_asks W p .dataHash name opts none hn
  have h : ({ makeOptions W opts with key := none } : Params) = makeOptions W opts := by
    unfold makeOptions
    split <;> rfl
  rw [h] at this
  exact this

/-- Calls with different keys send different requests. -/
theorem C73_keys (W : Wire) (p : Plugin) (name : Str) (opts : Entries) (a b : Str) (r : Req)
    (ha : Asks p .lookupKey name (form W.json opts (some (utf8 a))) r)
    (hb : Asks p .lookupKey name (form W.json opts (some (utf8 b))) r) : a = b := by
  have h := ha.query.symm.trans hb.query
  unfold form at h
  simp only [Option.toList_some, List.map_cons, List.map_nil, Option.some.injEq, List.append_cancel_right_eq, List.cons.injEq, Prod.mk.injEq,
    true_and, and_true] at h
  exact utf8_injective h

/-- **C73** does not hold for `data_dig` functions: their provider passes the invocation instead of a context, and the
plugin is not asked at all. With a context it would be asked for the segments of the key. -/
theorem C73_dig_false (W : Wire) (p : Plugin) (name : Str) (opts : Entries) (key : Value) (hn : '?' ∉ name ∧ '#' ∉ name) :
    (∃ e, dispatch W p .dataDig name .invocation key = .panic e) ∧
    ∃ r, Asks p .dataDig name (form W.json opts (some (W.json key))) r ∧
      Means W.parse (W.send r) (dispatch W p .dataDig name (.context opts) key) :=
  ⟨⟨_, rfl⟩, callPlugin_asks W p .dataDig name opts (some (W.json key)) hn⟩

/-- A plugin that answers with the path it was asked for, if the form is the one expected. -/
def echo : Wire where
  send := fun r => if decodeForm r.query = some [(bytes "key", bytes "a b&c=ä%"), (bytes "options", bytes "{}")] then
      .answer 200 (some (utf8 r.path)) else .answer 404 none
  json := fun _ => bytes "{}"
  parse := fun b => .ok (some (.opaque b.length))

/-- A plugin. -/
def somePlugin : Plugin :=
  { locked := false, process := none, path := [], addr := "1".toList, network := "unix".toList, functions := [], kills := 0 }

example : (dispatch echo somePlugin .lookupKey "fn".toList (.context [(.str "o".toList, .int 1)]) (.str "a b&c=ä%".toList) matches .ok (some (.opaque 14))) ∧
    (dispatch echo somePlugin .lookupKey "fn".toList (.context [(.str "o".toList, .int 1)]) (.str "a b&c=ä".toList) matches .ok none) ∧
    (dispatch echo somePlugin .lookupKey "fn".toList (.context []) (.str "a b&c=ä%".toList) matches .ok none) := by
  decide +kernel

/-- **C73** does not hold for names with a question mark, as names are not escaped: another function is asked for. -/
theorem C73_name_false :
    (dispatch echo somePlugin .lookupKey "fn?x".toList (.context [(.str "o".toList, .int 1)]) (.str "a b&c=ä%".toList) matches .ok (some (.opaque 14))) ∧
    urlPath "lookup_key".toList "fn?x".toList = '/' :: "lookup_key".toList ++ '/' :: "fn".toList := by
  decide +kernel

/-- Of a name that has a question mark or a number sign only the part before the first of these is asked for. -/
theorem urlPath_cut (t a b : Str) {c : Char} (ht : '?' ∉ t ∧ '#' ∉ t) (ha : '?' ∉ a ∧ '#' ∉ a) (hc : c = '?' ∨ c = '#') :
    urlPath t (a ++ c :: b) = '/' :: t ++ '/' :: a := by
  have h := urlPath_plain t a ht ha
  unfold urlPath at h ⊢
  have e : '/' :: t ++ '/' :: (a ++ c :: b) = ('/' :: t ++ '/' :: a) ++ c :: b := by simp
  rw [e, List.takeWhile_append, h, if_pos rfl, List.takeWhile_cons]
  rcases hc with rfl | rfl <;> simp

/-- **C73**, what holds of names with a question mark or a number sign: a `lookup_key` function with such a name asks exactly as the
function whose name ends before it, and gives what that one gives. -/
theorem C73_cut (W : Wire) (p : Plugin) (a b : Str) {c : Char} (ha : '?' ∉ a ∧ '#' ∉ a) (hc : c = '?' ∨ c = '#') (opts : Entries) (key : Str) :
    dispatch W p .lookupKey (a ++ c :: b) (.context opts) (.str key) = dispatch W p .lookupKey a (.context opts) (.str key) ∧
    ∃ r, Asks p .lookupKey a (form W.json opts (some (utf8 key))) r ∧
      Means W.parse (W.send r) (dispatch W p .lookupKey (a ++ c :: b) (.context opts) (.str key)) := by
  have h : dispatch W p .lookupKey (a ++ c :: b) (.context opts) (.str key) = dispatch W p .lookupKey a (.context opts) (.str key) := by
    show callPlugin W p _ _ _ = callPlugin W p _ _ _
    unfold callPlugin
    dsimp only
    have hp : ({ makeOptions W opts with key := some (utf8 key) } : Params).pairs ≠ [] := by
      rw [pairs_form]
      unfold form
      simp
    rw [if_neg hp, if_neg hp, urlPath_cut _ a b (by decide) ha hc, urlPath_plain _ a (by decide) ha]
  exact ⟨h, h ▸ C73_lookup_key_partial W p a opts key ha⟩

example : dispatch echo somePlugin .lookupKey "fn#x?y".toList (.context [(.str "o".toList, .int 1)]) (.str "a b&c=ä%".toList) =
    dispatch echo somePlugin .lookupKey "fn".toList (.context [(.str "o".toList, .int 1)]) (.str "a b&c=ä%".toList) :=
  (C73_cut echo somePlugin "fn".toList "x?y".toList (c := '#') (by decide) (.inr rfl) _ _).1

theorem envValue_append (env : List Str) (d name : Str) : envValue (env ++ [d]) name =
    match (name ++ ['=']).isPrefixOf d with
    | true => some (d.drop (name.length + 1))
    | false => envValue env name := by
  unfold envValue
  rw [List.foldl_append]
  rfl

theorem prefix_self (name v : Str) : (name ++ ['=']).isPrefixOf (name ++ '=' :: v) = true := by
  rw [List.isPrefixOf_iff_prefix]
  exact ⟨v, by simp⟩

theorem prefix_other {name other : Str} (v : Str) (hn : '=' ∉ name) (ho : '=' ∉ other)
    (h : name ++ ['='] <+: other ++ '=' :: v) : name = other := by
  induction name generalizing other with
  | nil =>
    cases other with
    | nil => rfl
    | cons c cs =>
      obtain ⟨r, hr⟩ := h
      simp at hr
      exact absurd (List.mem_cons.mpr (.inl hr.1)) ho
  | cons c cs ih =>
    obtain ⟨r, hr⟩ := h
    cases other with
    | nil =>
      simp at hr
      exact absurd (by simp [hr.1]) hn
    | cons d ds =>
      simp only [List.cons_append, List.cons.injEq] at hr
      rw [hr.1, ih (fun x => hn (List.mem_cons_of_mem _ x)) (fun x => ho (List.mem_cons_of_mem _ x)) ⟨r, hr.2⟩]

theorem envValue_same (env : List Str) (name v : Str) : envValue (env ++ [name ++ '=' :: v]) name = some v := by
  rw [envValue_append, prefix_self]
  simp only
  rw [show name ++ '=' :: v = (name ++ ['=']) ++ v by simp, show name.length + 1 = (name ++ ['=']).length by simp, List.drop_left]

theorem envValue_other (env : List Str) {name other : Str} (v : Str) (hn : '=' ∉ name) (ho : '=' ∉ other) (h : name ≠ other) :
    envValue (env ++ [other ++ '=' :: v]) name = envValue env name := by
  rw [envValue_append]
  cases hp : (name ++ ['=']).isPrefixOf (other ++ '=' :: v) with
  | true => exact absurd (prefix_other v hn ho (List.isPrefixOf_iff_prefix.mp hp)) h
  | false => rfl

/-- The names of the variables that plugins get. -/
def Spec.cookieVar : Str := "HIERA_MAGIC_COOKIE".toList
/-- The names of the variables that plugins get. -/
def Spec.socketVar : Str := "HIERA_PLUGIN_SOCKET_DIR".toList
/-- The names of the variables that plugins get. -/
def Spec.transportVar : Str := "HIERA_PLUGIN_TRANSPORT".toList

/-- The directory for sockets that the options of a session ask for. -/
inductive Spec.SocketDir (opts : Entries) (tempDir : Str) : Str → Prop
  | asked (v : Str) (h : Entries.getS opts "unixSocketDir".toList = some (.str v)) : SocketDir opts tempDir v
  | temporary (h : ∀ v, Entries.getS opts "unixSocketDir".toList ≠ some (.str v)) (ht : tempDir ≠ []) : SocketDir opts tempDir tempDir
  | builtIn (h : ∀ v, Entries.getS opts "unixSocketDir".toList ≠ some (.str v)) (ht : tempDir = []) : SocketDir opts tempDir "/tmp".toList

/-- The transport that the options of a session ask for. -/
inductive Spec.Transport (opts : Entries) : Str → Prop
  | tcp (h : Entries.getS opts "pluginTransport".toList = some (.str "tcp".toList)) : Transport opts "tcp".toList
  | other (h : Entries.getS opts "pluginTransport".toList ≠ some (.str "tcp".toList)) : Transport opts "unix".toList

theorem unixSocketDir_is (opts : Entries) (tempDir : Str) : Spec.SocketDir opts tempDir (unixSocketDir opts tempDir) := by
  unfold unixSocketDir
  split
  · rename_i h; exact .asked _ h
  · rename_i h
    have h' : ∀ v, Entries.getS opts "unixSocketDir".toList ≠ some (.str v) := fun v hv => h v hv
    split
    · rename_i ht; exact .temporary h' ht
    · rename_i ht; exact .builtIn h' (by simpa using ht)

theorem pluginTransport_is (opts : Entries) : Spec.Transport opts (pluginTransport opts) := by
  unfold pluginTransport
  split
  · rename_i v h
    split
    · rename_i ht
      rcases ht with rfl | rfl
      · exact .other (by rw [h]; decide)
      · exact .tcp h
    · rename_i ht
      exact .other (by rw [h]; intro hv; cases hv; exact ht (.inr rfl))
  · rename_i h
    exact .other (fun hv => h _ hv)

/-- **C74**: whatever the environment of the process has, a plugin finds the cookie, the directory for sockets and the
transport that the session's options ask for, and it finds all other variables as they are. -/
theorem C74_environment (environ : List Str) (cookie : Str) (opts : Entries) (tempDir : Str) :
    ∃ dir transport, Spec.SocketDir opts tempDir dir ∧ Spec.Transport opts transport ∧
    envValue (pluginEnv environ cookie opts tempDir) Spec.cookieVar = some cookie ∧
    envValue (pluginEnv environ cookie opts tempDir) Spec.socketVar = some dir ∧
    envValue (pluginEnv environ cookie opts tempDir) Spec.transportVar = some transport ∧
    ∀ name, '=' ∉ name → name ≠ Spec.cookieVar → name ≠ Spec.socketVar → name ≠ Spec.transportVar →
      envValue (pluginEnv environ cookie opts tempDir) name = envValue environ name := by
  have h1 : '=' ∉ Spec.cookieVar := by decide
  have h2 : '=' ∉ Spec.socketVar := by decide
  have h3 : '=' ∉ Spec.transportVar := by decide
  have n1 : Spec.cookieVar ≠ Spec.socketVar := by decide
  have n2 : Spec.cookieVar ≠ Spec.transportVar := by decide
  have n3 : Spec.socketVar ≠ Spec.transportVar := by decide
  have he : pluginEnv environ cookie opts tempDir = environ ++ [Spec.cookieVar ++ '=' :: cookie] ++
      [Spec.socketVar ++ '=' :: unixSocketDir opts tempDir] ++ [Spec.transportVar ++ '=' :: pluginTransport opts] := by
    unfold pluginEnv Spec.cookieVar Spec.socketVar Spec.transportVar
    rfl
  refine ⟨_, _, unixSocketDir_is opts tempDir, pluginTransport_is opts, ?_, ?_, ?_, ?_⟩
  · rw [he, envValue_other _ _ h1 h3 n2, envValue_other _ _ h1 h2 n1, envValue_same]
  · rw [he, envValue_other _ _ h2 h3 n3, envValue_same]
  · rw [he, envValue_same]
  · intro name hn a b c
    rw [he, envValue_other _ _ hn h3 c, envValue_other _ _ hn h2 b, envValue_other _ _ hn h1 a]

example : envValue (pluginEnv ["HIERA_PLUGIN_TRANSPORT=x".toList, "A=b=c".toList] "7".toList
      [(.str "pluginTransport".toList, .str "tcp".toList)] []) "HIERA_PLUGIN_TRANSPORT".toList = some "tcp".toList ∧
    envValue (pluginEnv ["A=b=c".toList] "7".toList [] []) "A".toList = some "b=c".toList ∧
    envValue (pluginEnv ["A=b=c".toList] "7".toList [] []) "HIERA_PLUGIN_SOCKET_DIR".toList = some "/tmp".toList := by
  decide +kernel

end Hiera.Plugin
