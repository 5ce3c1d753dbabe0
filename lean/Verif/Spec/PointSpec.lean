/-!
# Specification: the elements that a point of an equation means in a vector

In an equation, `A(t+1, x-2, 5)` has an offset in each step and domain dim and a constant in each misc dim. When vector `i` of a rank
is computed (with index `t` in the step dim), lane `l` of the point means one element of the var, whose indices are given here.
-/

namespace Yask.Spec

/-- A dim of a var: the step dim, a domain dim (length of a vector, first index of the rank), or a misc dim. -/
inductive AccessDim
  | step
  | domain (vl first : Int)
  | misc

/-- Index in one dim: `i` is the step or the number of the vector in the rank, `p` the offset or constant, `l` the lane. -/
def AccessDim.elem (d : AccessDim) (i p l : Int) : Int :=
  match d with
  | .step => i + p
  | .domain vl first => first + i * vl + l + p
  | .misc => p

/-- The element. -/
def pointElem (ds : List AccessDim) (i p l : List Int) : List Int :=
  (ds.zip (i.zip (p.zip l))).map fun x => x.1.elem x.2.1 x.2.2.1 x.2.2.2

/-- Numbers of lanes that exist: less than the length of the vector in domain dims, 0 in others. -/
def IsLane (ds : List AccessDim) (l : List Int) : Prop :=
  l.length = ds.length ∧ ∀ x ∈ ds.zip l, match x.1 with
    | .domain vl _ => 0 ≤ x.2 ∧ x.2 < vl
    | _ => x.2 = 0

/-- The offsets in domain dims are whole vectors. -/
def WholeVecs (ds : List AccessDim) (p : List Int) : Prop :=
  p.length = ds.length ∧ ∀ x ∈ ds.zip p, match x.1 with
    | .domain vl _ => vl ∣ x.2
    | _ => True

end Yask.Spec
