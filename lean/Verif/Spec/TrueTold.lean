/- What an explanation that tells the truth tells. -/
import Verif.Spec.Told
import Verif.Spec.Reference

set_option autoImplicit false

namespace Hiera.Spec

section
variable (E : Env) (r : Ref) (C : Ctx)

/-- The node of a location tells what the location has. -/
def LocTrue (p : Prov) (k : Key) (l : Loc) (o : Res (Option Value)) (b : Node) : Prop :=
  LocTold p k l o b ∧ refAt E r C k p.entry l = some o

/-- The node of a provider tells what its entry has, and those below it what each of the locations has. -/
def ProvTrue (st : Strategy) (k : Key) (p : Prov) (o : Res (Option Value)) (b : Node) : Prop :=
  b.kind = .dataProvider (providerName p.entry) ∧ refEntry E r C k st p.entry = some o ∧
  match p.entry.locations with
  | none => SaysFound p k o b
  | some [l] => ∃ n, b.branches = [n] ∧ LocTrue E r C p k l o n
  | some ls => Section st (LocTrue E r C p k) ls o b.branches

/-- The node that tells where the merge option is from. -/
inductive SourceTold (opts : Entries) (lo : Option Entries) : List Node → Prop
  | caller {o} : Entries.getS opts "merge".toList = some o → SourceTold opts lo [.new (.mergeSource "CLI option".toList)]
  | options {m o} : Entries.getS opts "merge".toList = none → lo = some m → Entries.getS m "merge".toList = some o →
      SourceTold opts lo [.new (.mergeSource "\"lookup_options\" hash".toList)]
  | none : refMergeOption opts lo = none → SourceTold opts lo []

/-- Nodes tell what the levels of the hierarchy have, and what comes of it. -/
def HierarchyTrue (x : Site) (st : Strategy) (k : Key) (o : Res (Option Value)) (bs : List Node) : Prop :=
  refHierarchy E r C k st x.entries = some o ∧ ∃ ps, ps.map Prov.entry = x.entries ∧ Section st (ProvTrue E r C st k) ps o bs

/-- The node of a lookup of `name` in a configuration: it tells where the merge option is from, and then what the levels of the
hierarchy have. -/
def LookupTrue (x : Site) (opts : Entries) (name : Str) (lo : Option Entries) (st : Strategy) (k : Key) (o : Res (Option Value)) (b : Node) :
    Prop :=
  b.kind = .lookup ∧ b.key = name ∧ ∃ ms bs, b.branches = ms ++ bs ∧ SourceTold opts lo ms ∧ HierarchyTrue E r C x st k o bs

/-- The same where the configuration is the first of several functions: with strategies other than `first` there is a node for the merge
of what these have. -/
def FirstTrue (x : Site) (opts : Entries) (name : Str) (lo : Option Entries) (st : Strategy) (k : Key) (o : Res (Option Value)) (b : Node) :
    Prop :=
  b.kind = .lookup ∧ b.key = name ∧ ∃ ms bs, b.branches = ms ++ bs ∧ SourceTold opts lo ms ∧
    ((st = .first ∧ HierarchyTrue E r C x st k o bs) ∨
      (st ≠ .first ∧ ∃ m, bs = [m] ∧ m.kind = .merge st ∧ HierarchyTrue E r C x st k o m.branches))

/-- The node about the options of all keys, when the configuration is resolved: it tells what the levels of the hierarchy have as options,
which are merged deeply, and are those of the configuration. -/
def OptionsTrue (x : Site) (b : Node) : Prop :=
  b.kind = .lookup ∧ b.key = "lookup_options".toList ∧
  ∃ lo, x.options = asMap lo ∧ HierarchyTrue E r C x (.deep []) lookupOptionsKey (.ok lo) b.branches
end

end Hiera.Spec
