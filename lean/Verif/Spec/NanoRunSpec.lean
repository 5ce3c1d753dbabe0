import Verif.Spec.PointSpec

/-!
# Specification: the element that a point of an equation means at a point of the domain
-/

namespace Yask.Spec

/-- Indices by dim at step `t` (of the dim `step`) and the point `x` of the domain (dims `dims`). -/
def gridIndex (step : String) (t : Int) (dims : List String) (x : List Int) : String → Int :=
  fun d => if d = step then t else ((dims.zip x).lookup d).getD 0

/-- Args of a point of a var, with offsets in the step and the domain dims and constants in the misc dims, at the indices `ix`. -/
def gridElem (ix : String → Int) (names : List String) (ds : List AccessDim) (p : List Int) : List Int :=
  (ds.zip (names.zip p)).map fun x => match x.1 with
    | .misc => x.2.2
    | _ => ix x.2.1 + x.2.2

end Yask.Spec
