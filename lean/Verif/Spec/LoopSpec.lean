import Verif.Spec.CppSpec
import Verif.Spec.PointSpec
import Verif.Spec.VecSpec

/-!
# Specification: what the inner loop of a part computes

Iteration `j` of the loop computes one vector of each equation: the vector whose number in the inner-loop dim is `j` more than the one at
which the loop starts. Lane `k` of a vector is the `k`-th point of the fold.
-/

namespace Yask.Spec.Cpp
variable {π : Type}

mutual
/-- The points that an expression reads. -/
def Ex.points : Ex π → List π
  | .const _ _ => []
  | .read _ p => [p]
  | .neg _ a => a.points
  | .bin _ _ l r => l.points ++ r.points
  | .comm _ _ as => Ex.pointsAll as
  | .func _ _ _ as => Ex.pointsAll as
/-- The points that several expressions read. -/
def Ex.pointsAll : List (Ex π) → List π
  | [] => []
  | a :: as => a.points ++ Ex.pointsAll as
end

end Yask.Spec.Cpp

namespace Yask.Spec

/-- Numbers of the vectors (and the step) in iteration `j`, given those at the start. -/
def iterIndex (inner : String) (ix : String → Int) (j : Nat) : String → Int := fun d => if d = inner then ix d + j else ix d

/-- The element that point `p` of a var means in lane `k` of the vectors `ix`: `names` and `ds` are the dims of the var. -/
def loopElem (fold : Tup) (names : List String) (ds : List AccessDim) (ix : String → Int) (p : List Int) (k : Nat) : List Int :=
  pointElem ds (names.map ix) p (names.map (foldPoint fold k).at)

end Yask.Spec
