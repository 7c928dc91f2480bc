/- Data of which parts are kept under keys of their own, and referred to from where they were. -/
import Verif.Spec.Referring

set_option autoImplicit false

namespace Hiera.Spec
open Value

/-- What is at a path of names of fields in data. -/
def Template.field : List Str → Template → Option Template
  | [], t => some t
  | f :: fs, .map es => ((es.find? (fun e => f = e.1)).map (·.2)).bind (Template.field fs)
  | _ :: _, _ => none

/-- A key has the given data at the given path, on the highest level that has the key at all, and other levels do not matter to it. -/
def HoldsAt (ls : List Sheet) (x : Str) (fs : List Str) (t : Template) : Prop :=
  MergedBy (ls.map Sheet.level) x [] "first".toList ∧ ∃ T rest, templatesOf ls x = T :: rest ∧ T.field fs = some t

section
variable (E : Env) (sc : Scope) (ls : List Sheet)

/-- Text, and the same text in which some parts are kept elsewhere in `ls`, or variables are written out. -/
inductive ApartText : List DataPiece → List DataPiece → Prop
  | nil : ApartText [] []
  | same {p ps ps'} : ApartText ps ps' → ApartText (p :: ps) (p :: ps')
  /-- text may be cut into pieces, and joined -/
  | cut {os t u ps ps'} : ApartText (os ++ .text t :: .text u :: ps) ps' → ApartText (os ++ .text (t ++ u) :: ps) ps'
  | join {ps os t u ps'} : ApartText ps (os ++ .text t :: .text u :: ps') → ApartText ps (os ++ .text (t ++ u) :: ps')
  /-- some pieces are kept elsewhere -/
  | apart {qs qs' x fs ps ps'} : ApartText qs qs' → HoldsAt ls x fs (.text qs') → ApartText ps ps' → ApartText (qs ++ ps) (.key x fs :: ps')
  /-- the text of a variable instead of the variable -/
  | out {x fs ps ps'} : ApartText ps ps' → ApartText (.var x fs :: ps) (.text (textIn E ((sc.get x).bind (fieldOf fs))) :: ps')

mutual
/-- Data, and the same data of which some parts are kept elsewhere in `ls`, or variables are written out. -/
inductive Apart : Template → Template → Prop
  | same {t} : Apart t t
  | text {ps ps'} : ApartText E sc ls ps ps' → Apart (.text ps) (.text ps')
  | arr {ts ts'} : ApartL ts ts' → Apart (.arr ts) (.arr ts')
  | map {es es'} : ApartE es es' → Apart (.map es) (.map es')
  | apart {t t' x fs} : Apart t t' → HoldsAt ls x fs t' → Apart t (.alias x fs)
inductive ApartL : List Template → List Template → Prop
  | nil : ApartL [] []
  | cons {t t' ts ts'} : Apart t t' → ApartL ts ts' → ApartL (t :: ts) (t' :: ts')
inductive ApartE : List (Str × Template) → List (Str × Template) → Prop
  | nil : ApartE [] []
  | cons {k t t' es es'} : Apart t t' → ApartE es es' → ApartE ((k, t) :: es) ((k, t') :: es')
end
end

end Hiera.Spec
