/-!
# Specification of the registry of stencil solutions

Objects of classes derived from `yc_solution_base`, as seen by a program that creates and deletes them.
-/

namespace Yask.Spec

/-- What happens to such objects: an object with the name is created, and gets the given number; the constructor throws, before or in that of
the derived class; an object is deleted. -/
inductive RegEv
  | created (name : String) (obj : Nat)
  | refused (name : String)
  | unfinished (name : String)
  | deleted (obj : Nat)
  deriving DecidableEq, Repr

/-- The object with the name exists after the events. -/
def ObjExists (name : String) (obj : Nat) (h : List RegEv) : Prop := RegEv.created name obj ∈ h ∧ RegEv.deleted obj ∉ h

end Yask.Spec
