import Mathlib.Data.List.Forall2
import Verif.Spec.Radix

/-!
# Specification vocabulary: the elements of a var, as seen through the API

Independent of the model of the storage.
-/

namespace Yask.Spec

/-- What the API tells about one dimension of a var: whether it is the step dimension,
`get_first_local_index`, `get_last_local_index` and `get_alloc_size`. -/
structure ApiDim where
  isStep : Bool
  first : Int
  last : Int
  alloc : Int
  deriving DecidableEq, Repr

/-- The indices are in range in every dimension but the step dimension, where any index is allowed. -/
def InRangeButStep (ds : List ApiDim) (idx : List Int) : Prop :=
  List.Forall₂ (fun i d => d.isStep = true ∨ (d.first ≤ i ∧ i ≤ d.last)) idx ds

/-- The indices are in range in every dimension. -/
def InRange (ds : List ApiDim) (idx : List Int) : Prop :=
  List.Forall₂ (fun i d => d.first ≤ i ∧ i ≤ d.last) idx ds

/-- The indices that may be read: all in range, except that any step index is allowed when step
indices are wrapped. -/
def Readable (wrap : Bool) (ds : List ApiDim) (idx : List Int) : Prop :=
  if wrap then InRangeButStep ds idx else InRange ds idx

/-- Two index tuples name the same element: equal in every dimension, where step indices are compared
modulo the step allocation. -/
def SameElem : List ApiDim → List Int → List Int → Prop
  | d :: ds, i :: is, j :: js =>
    (if d.isStep then i % d.alloc = j % d.alloc else i = j) ∧ SameElem ds is js
  | [], [], [] => True
  | _, _, _ => False

/-- The step allocation, if there is a step dimension, is not empty. -/
def StepsAlloc (ds : List ApiDim) : Prop := ∀ d ∈ ds, d.isStep = true → 0 < d.alloc

instance (ds : List ApiDim) (a b : List Int) : Decidable (SameElem ds a b) := by
  induction ds generalizing a b with
  | nil => cases a <;> cases b <;> unfold SameElem <;> infer_instance
  | cons d ds ih =>
    cases a <;> cases b <;> unfold SameElem <;> infer_instance

/-! ### Slices -/

/-- The indices are between `first` and `last`, inclusive, in every dimension. -/
def InSlice (first last idx : List Int) : Prop :=
  List.Forall₂ (fun i (p : Int × Int) => p.1 ≤ i ∧ i ≤ p.2) idx (first.zip last)

/-- Number of indices of the slice in each dimension. -/
def sliceSizes (first last : List Int) : List Int := List.zipWith (fun f l => l + 1 - f) first last

/-- Position of an element of the slice in row-major order. -/
def slicePos (first last idx : List Int) : Int :=
  linLast (sliceSizes first last) (List.zipWith (fun i f => i - f) idx first)

/-- The slice has at least one index in each dimension. -/
def SliceNonempty (first last : List Int) : Prop := List.Forall₂ (fun f l => f ≤ l) first last

/-- The slice does not have more steps than are stored. -/
def StepsFit (ds : List ApiDim) (first last : List Int) : Prop :=
  ∀ x ∈ ds.zip (sliceSizes first last), x.1.isStep = true → x.2 ≤ x.1.alloc

/-- The steps of the slice are in the valid range, or step indices are wrapped. -/
def StepsValid (w : Bool) (ds : List ApiDim) (first last : List Int) : Prop :=
  w = true ∨ ∀ x ∈ ds.zip (first.zip last), x.1.isStep = true → x.1.first ≤ x.2.1 ∧ x.2.2 ≤ x.1.last

/-! ### Element values -/

/-- A call that changes element values. -/
inductive ElemOp (V : Type)
  /-- `set_element(val, idx, strict)` -/
  | set (val : V) (idx : List Int) (strict : Bool)
  /-- `add_to_element(val, idx, strict)` -/
  | add (val : V) (idx : List Int) (strict : Bool)
  /-- `set_all_elements_same(val)` -/
  | setAll (val : V)

open Classical in
/-- Value of element `idx` after one call, if it was `x` before. -/
noncomputable def afterOp {V : Type} [Add V] (wrap : Bool) (ds : List ApiDim) (idx : List Int) (x : V) :
    ElemOp V → V
  | .set val i _ => if InRangeButStep ds i ∧ SameElem ds i idx then val else x
  | .add val i _ => if Readable wrap ds i ∧ SameElem ds i idx then x + val else x
  | .setAll val => val

/-! ### A step window -/

/-- What is known of a var with `n` stored steps: the first valid step, and the values of elements
whose step is valid (`none`: no claim). The first index of an element is its step. -/
structure StepStore (V : Type) where
  first : Int
  known : List Int → Option V

/-- First valid step after writing step `t`: the range of `n` consecutive steps moves by the least
amount that includes `t`. -/
def movedFirst (n first t : Int) : Int :=
  if t < first then t else if t > first + n - 1 then t - n + 1 else first

/-- Write the values `ws` at step `t`: elements of steps that are no longer valid are forgotten, the
elements written have the value last written, all others keep their value. -/
def StepStore.write {V : Type} (n : Int) (s : StepStore V) (t : Int) (ws : List (List Int × V)) :
    StepStore V where
  first := movedFirst n s.first t
  known := fun idx =>
    match idx with
    | [] => none
    | i :: rest =>
      if movedFirst n s.first t ≤ i ∧ i ≤ movedFirst n s.first t + n - 1 then
        match (if i = t then ws.reverse.find? (fun w => w.1 == rest) else none) with
        | some w => some w.2
        | none => s.known idx
      else none

end Yask.Spec
