/- What an explanation tells about the places that were asked. -/
import Verif.Model.Eval

set_option autoImplicit false

namespace Hiera.Spec

/-- Places are asked one after the other, until one fails or, with `stop`, one answers. The nodes tell about each place
that was asked, in this order, and about nothing else. The values are those of the places that answered. -/
inductive Told {α : Type} (stop : Bool) (P : α → Res (Option Value) → Node → Prop) : List α → Res (List Value) → List Node → Prop
  | nobody : Told stop P [] (.ok []) []
  | silent {v vs b bs o} : P v (.ok none) b → Told stop P vs o bs → Told stop P (v :: vs) o (b :: bs)
  | answer {v vs b bs x xs} : stop = false → P v (.ok (some x)) b → Told stop P vs (.ok xs) bs →
      Told stop P (v :: vs) (.ok (x :: xs)) (b :: bs)
  | answerThenFailure {v vs b bs x e} : stop = false → P v (.ok (some x)) b → Told stop P vs (.panic e) bs →
      Told stop P (v :: vs) (.panic e) (b :: bs)
  | enough {v vs b x} : stop = true → P v (.ok (some x)) b → Told stop P (v :: vs) (.ok [x]) [b]
  | failure {v vs b e} : P v (.panic e) b → Told stop P (v :: vs) (.panic e) [b]

/-- What comes of the values that places have answered with, by the strategy: the first one; with other strategies what a strategy makes of
the value of a single place, or the merge from left to right. -/
inductive Comes (st : Strategy) : Nat → Res (List Value) → Res (Option Value) → Prop
  | fails {n e} : Comes st n (.panic e) (.panic e)
  | nothing {n} : Comes st n (.ok []) (.ok none)
  | first {n v vs} : st = .first → Comes st n (.ok (v :: vs)) (.ok (some v))
  | single {v} : st ≠ .first → Comes st 1 (.ok [v]) (.ok (some (st.single v)))
  | merged {n v vs} : st ≠ .first → 2 ≤ n → Comes st n (.ok (v :: vs)) (.ok (some (vs.foldl st.merge (st.convertValue v))))

/-- The nodes of places that are asked with a strategy: side by side, or below one node for the merge if there is
something to merge, which has the result. What they tell accounts for what comes of asking. -/
def Section {α : Type} (st : Strategy) (P : α → Res (Option Value) → Node → Prop) (vs : List α) (o : Res (Option Value)) (bs : List Node) :
    Prop :=
  ∃ found, Comes st vs.length found o ∧
  (st = .first ∨ vs.length ≤ 1 → Told true P vs found bs) ∧
  (st ≠ .first → 2 ≤ vs.length → ∃ m, bs = [m] ∧ m.kind = .merge st ∧ (m.event = .result ↔ ∃ v, o = .ok (some v)) ∧
    (∀ v, o = .ok (some v) → m.value = some v) ∧ Told false P vs found m.branches)

/-- What a place is asked for: `data_dig` functions get the whole key, others its root. -/
def askedFor (p : Prov) (k : Key) : Str :=
  match p.entry.function with
  | some (.dataDig, _) => k.source
  | _ => k.root

/-- The answer with this value: that of a `data_dig` function is for the whole key, so what is found below it is put there. -/
def answerWith (p : Prov) (k : Key) (x : Value) : Value :=
  match p.entry.function with
  | some (.dataDig, _) => k.bury x
  | _ => x

/-- What the node of a place that was asked says in the end: the key, and the value or that there is none. -/
def SaysFound (p : Prov) (k : Key) (o : Res (Option Value)) (b : Node) : Prop :=
  (o = .ok none → b.event = .notFound ∧ b.key = askedFor p k) ∧
  (∀ v, o = .ok (some v) → b.event = .found ∧ b.key = askedFor p k ∧ ∃ x, b.value = some x ∧ v = answerWith p k x)

/-- The node of a location. -/
def LocTold (p : Prov) (k : Key) (l : Loc) (o : Res (Option Value)) (b : Node) : Prop :=
  b.kind = .location l ∧
  if l.exists_ = true then SaysFound p k o b else o = .ok none ∧ b.event = .locationNotFound ∧ b.branches = []

/-- How functions of this kind are declared. -/
def declaredAs : FnKind → Str
  | .dataHash => "data_hash".toList
  | .dataDig => "data_dig".toList
  | .lookupKey => "lookup_key".toList

/-- How the explanation names the provider of an entry: after the function that it has. -/
def providerName (e : Entry) : Str :=
  match e.function with
  | some (k, n) => declaredAs k ++ " function '".toList ++ n ++ "'".toList
  | none => []

/-- The node of a provider. Where there are locations, these are asked by the strategy, except that the value of a single location is taken
as it is. -/
def ProvTold (st : Strategy) (k : Key) (p : Prov) (o : Res (Option Value)) (b : Node) : Prop :=
  b.kind = .dataProvider (providerName p.entry) ∧
  match p.entry.locations with
  | none => SaysFound p k o b
  | some [l] => ∃ n, b.branches = [n] ∧ LocTold p k l o n
  | some ls => Section st (LocTold p k) ls o b.branches

end Hiera.Spec
