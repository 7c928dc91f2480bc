/- C103: however expressions are written. -/
import Verif.Props.Kept

set_option autoImplicit false

namespace Hiera
open Value Spec World

section
variable {E : Env} {p : Str} {ry rj : Str → FileRes}

theorem rel_same (x : Option Value) : Option.Rel Respelled x x := by
  cases x with
  | none => exact .none
  | some v => exact .some (.same v)

theorem sameData_refl (x : Res Entries) : SameData x x := by
  cases x with
  | ok h => exact .read (fun _ => rel_same _)
  | panic e => exact .failed

theorem fileData_respelled {read read' : Str → FileRes} (h : ∀ q, RespelledFile (read q) (read' q)) (o : Entries) :
    SameData (fileData E read o) (fileData (withFiles E p ry rj) read' o) := by
  unfold fileData
  cases Entries.getS o "path".toList with
  | none => exact .failed
  | some v =>
    have hq := h (E.toStr v)
    show SameData (match read (E.toStr v) with
        | .missing => .ok [] | .err e => .panic e | .value (.map es) => .ok es | .value _ => .panic (.notHash (E.toStr v)))
      (match read' (E.toStr v) with
        | .missing => .ok [] | .err e => .panic e | .value (.map es) => .ok es | .value _ => .panic (.notHash (E.toStr v)))
    generalize read (E.toStr v) = x at hq
    generalize read' (E.toStr v) = y at hq
    cases hq with
    | same => exact sameData_refl _
    | data h1 => exact .read h1

theorem refHash_respelled (hy : ∀ q, RespelledFile (E.readYaml q) (ry q)) (hj : ∀ q, RespelledFile (E.readJson q) (rj q)) (e : Entry) (n : Str)
    (o : Entries) : SameData (refHash E e n o) (refHash (withFiles E p ry rj) e n o) := by
  unfold refHash
  split
  · exact fileData_respelled hy o
  · split
    · exact fileData_respelled hj o
    · exact sameData_refl _

theorem sameSources_respelled (hy : ∀ q, RespelledFile (E.readYaml q) (ry q)) (hj : ∀ q, RespelledFile (E.readJson q) (rj q)) (e : Entry) :
    SameSources E (withFiles E p ry rj) e e := by
  by_cases hn : ∃ n, e.function = some (.dataHash, n)
  · obtain ⟨n, hn⟩ := hn
    cases hl : e.locations with
    | none => exact .nowhere hn hn hl hl (refHash_respelled hy hj ..)
    | some ls =>
      refine .places hn hn hl hl Iff.rfl (samePlaces_same (fun l _ => ?_))
      by_cases hr : IsRead l
      · exact .read hr hr (refHash_respelled hy hj ..)
      · exact .neither hr hr
  · exact .other (name := e.name) (fun n h => hn ⟨n, h⟩)

end

/-- C103: lookups give the same, however the expressions in the files are written. -/
theorem C103_spelled {E : Env} (he : StatelessEnv E) {c : Cfg} (hc : newCfg E.cfg E.configPath (E.readYaml E.configPath) = .ok c)
    {ry rj : Str → FileRes} (hp : ry E.configPath = E.readYaml E.configPath) (hy : ∀ q, RespelledFile (E.readYaml q) (ry q))
    (hj : ∀ q, RespelledFile (E.readJson q) (rj q)) {s s' : St} (hs : Session E s) (hs' : Session (withFiles E E.configPath ry rj) s')
    (sc : Scope) (ex ex' : Option ExplOpts) (k : Key) (o : Entries) (r : Res (Option Value)) :
    Gives (withFiles E E.configPath ry rj) (nextInvocation s' sc ex') k o r ↔ Gives E (nextInvocation s sc ex) k o r := by
  have hl : ∀ n (es : List Entry), refLevels (withFiles E E.configPath ry rj) (ref (withFiles E E.configPath ry rj) none n) ⟨sc, .call⟩ c es =
      refLevels E (ref E none n) ⟨sc, .call⟩ c es := fun n es => by
    rw [ref_none_files E E.configPath ry rj, refLevels_files E E.configPath ry rj]
  refine C102_kept he hc (hp ▸ hc) (fun n => ?_) (fun n => (hl n _).symm) hs hs' ex ex' k o r
  rw [hl]
  cases hx : refLevels E (ref E none n) ⟨sc, .call⟩ c c.hierarchy with
  | none => exact .inl ⟨none, rfl, rfl⟩
  | some x =>
    cases x with
    | panic e => exact .inl ⟨some e, rfl, rfl⟩
    | ok es => exact .inr ⟨es, es, rfl, rfl, List.forall₂_same.2 (fun e _ => sameSources_respelled hy hj e)⟩

/-! ### Not vacuous -/

namespace Spelled103

def common : Entries := [(s "x", s "%{node} %{lookup('y')}%{literal('!')}%{}"), (s "y", .arr [s "%{alias('z')}"]), (s "z", .int 1)]
def common' : Entries := [(s "x", s "%{ scope('node') } %{hiera('y')}%{literal(\"!\")}%{::}"), (s "y", .arr [s "%{ alias(\"z\") }"]), (s "z", .int 1)]

def world : Env := { mk (cfg [entry "common" "common.yaml"]) [("/h/data/common.yaml".toList, .map common)] with render := fun _ => "[1]".toList }

def readYaml (q : Str) : FileRes := if q = "/h/data/common.yaml".toList then .value (.map common') else world.readYaml q

theorem trimmed (t : Str) (h1 : ∀ c, t.head? = some c → c ∉ whiteSpace) (h2 : ∀ c, t.getLast? = some c → c ∉ whiteSpace) : Trimmed t t :=
  ⟨⟨[], [], by simp, by simp, by simp⟩, h1, h2⟩

theorem spaced (t : Str) (h1 : ∀ c, t.head? = some c → c ∉ whiteSpace) (h2 : ∀ c, t.getLast? = some c → c ∉ whiteSpace) :
    Trimmed (' ' :: t ++ [' ']) t :=
  ⟨⟨[' '], [' '], rfl, by decide, by decide⟩, h1, h2⟩

theorem x_respelled : Respelled (s "%{node} %{lookup('y')}%{literal('!')}%{}") (s "%{ scope('node') } %{hiera('y')}%{literal(\"!\")}%{::}") := by
  have h1 : Splits "%{node} %{lookup('y')}%{literal('!')}%{}".toList
      [.expr "node".toList, .chr ' ', .expr "lookup('y')".toList, .expr "literal('!')".toList, .expr []] :=
    .expr (e := "node".toList) (by decide) (.chr (by rintro ⟨_, _, _, h⟩; cases h) (.expr (e := "lookup('y')".toList) (by decide)
      (.expr (e := "literal('!')".toList) (by decide) (.expr (e := []) (by decide) .nil))))
  have h2 : Splits "%{ scope('node') } %{hiera('y')}%{literal(\"!\")}%{::}".toList
      [.expr " scope('node') ".toList, .chr ' ', .expr "hiera('y')".toList, .expr "literal(\"!\")".toList, .expr "::".toList] :=
    .expr (e := " scope('node') ".toList) (by decide) (.chr (by rintro ⟨_, _, _, h⟩; cases h) (.expr (e := "hiera('y')".toList) (by decide)
      (.expr (e := "literal(\"!\")".toList) (by decide) (.expr (e := "::".toList) (by decide) .nil))))
  refine .str h1 h2 (.cons (.asks (.var (trimmed _ (by decide) (by decide)) (by decide) ?_)
    (.scope (x := "node".toList) (spaced "scope('node')".toList (by decide) (by decide)) ⟨by decide, by decide, by decide, '\'', .inl rfl, by decide, rfl⟩)) ?_)
  · rintro fn x ⟨_, _, _, q, _, _, h⟩
    have : '(' ∈ "node".toList := by rw [h]; simp
    exact absurd this (by decide)
  · refine .cons (.same _) (.cons (.asks (.lookup (trimmed _ (by decide) (by decide)) ⟨by decide, by decide, by decide, '\'', .inl rfl, by decide, rfl⟩)
      (.hiera (x := "y".toList) (trimmed _ (by decide) (by decide)) ⟨by decide, by decide, by decide, '\'', .inl rfl, by decide, rfl⟩))
      (.cons (.asks (.literal (trimmed _ (by decide) (by decide)) ⟨by decide, by decide, by decide, '\'', .inl rfl, by decide, rfl⟩)
        (.literal (x := "!".toList) (trimmed _ (by decide) (by decide)) ⟨by decide, by decide, by decide, '"', .inr rfl, by decide, rfl⟩))
      (.cons (.asks (.nothing (trimmed _ (by decide) (by decide)) (by decide)) (.nothing (trimmed _ (by decide) (by decide)) (by decide))) .nil)))

theorem y_respelled : Respelled (.arr [s "%{alias('z')}"]) (.arr [s "%{ alias(\"z\") }"]) :=
  .arr (.cons (.str (.expr (e := "alias('z')".toList) (by decide) .nil) (.expr (e := " alias(\"z\") ".toList) (by decide) .nil)
    (.cons (.asks (.alias (trimmed _ (by decide) (by decide)) ⟨by decide, by decide, by decide, '\'', .inl rfl, by decide, rfl⟩)
      (.alias (x := "z".toList) (spaced "alias(\"z\")".toList (by decide) (by decide)) ⟨by decide, by decide, by decide, '"', .inr rfl, by decide, rfl⟩)) .nil)) .nil)

theorem files (q : Str) : RespelledFile (world.readYaml q) (readYaml q) := by
  unfold readYaml
  split
  · rename_i h
    subst h
    have : world.readYaml "/h/data/common.yaml".toList = .value (.map common) := by rfl
    rw [this]
    refine .data (fun q => ?_)
    simp only [common, common', Entries.getS, Entries.get, List.find?, s, equals_str]
    cases q == "x".toList with
    | true => exact .some x_respelled
    | false =>
      cases q == "y".toList with
      | true => exact .some y_respelled
      | false =>
        cases q == "z".toList with
        | true => exact .some (.same _)
        | false => exact .none
  · exact .same _

theorem stateless : StatelessEnv world where
  top := .inl rfl
  mux := fun _ _ h => nomatch h
  fns := fun _ _ h => nomatch h
  plugins := fun _ _ _ h => nomatch h

def other : Env := withFiles world world.configPath readYaml world.readJson

def accepted (r : Res Cfg) : Bool := match r with | .ok _ => true | .panic _ => false

example (sc : Scope) (k : Key) (o : Entries) (r : Res (Option Value)) : Gives other (newInvocation sc none) k o r ↔ Gives world (newInvocation sc none) k o r := by
  have ha : accepted (newCfg world.cfg world.configPath (world.readYaml world.configPath)) = true := by decide +kernel
  cases hc : newCfg world.cfg world.configPath (world.readYaml world.configPath) with
  | panic e => rw [hc] at ha; cases ha
  | ok c =>
    exact C103_spelled stateless hc (by rfl) files (fun q => .same _) (.start sc none) (.start sc none) sc none none k o r

/-- What both give. -/
example : ((eval other 8).lookup ⟨"x".toList, [.name "x".toList]⟩ [] (newInvocation (.map [(s "node", s "web")]) none)).map (·.1) =
    some (.ok (some (s "web [1]!"))) := by decide +kernel

end Spelled103

end Hiera
