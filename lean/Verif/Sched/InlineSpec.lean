import Verif.Sched.ScratchRun

/-!
# What scratch vars are supposed to do

A scratch var stands for the right-hand sides of its equations: a stencil with scratch vars is equivalent to the one in which they are
substituted.
-/

namespace Yask
open Spec

namespace RunCfg

/-- Part, step and point of the task are valid. -/
def Active (c : RunCfg) (a : Task) : Prop :=
  a.part < c.nparts a.stage ∧ c.stepOk a.stage a.part a.step = true ∧ c.dom a.stage a.part a.pt = true ∧ a.pt.length = c.nd

end RunCfg

namespace Scr
variable {Buf SVar Val : Type*} (X : Scr Buf SVar Val)

/-- Scratch part `k` defines scratch var `v` at point `y` in step `t`. -/
def Defines (t : Int) (v : SVar) (y : List Int) (k : Nat) : Prop := X.outs k v ∧ X.sdom k y = true ∧ X.sstep k t = true

/-- The elements of scratch vars that task `a` needs: those that it reads, and those that are read in order to define them. -/
inductive Needs (a : Task) : SVar → List Int → Prop
  | direct {v y} : X.readsS a v y → Needs a v y
  | through {v y k w z} : Needs a v y → X.Defines a.step v y k → X.sreadsS k a.step y v w z → Needs a w z

/-- Scratch vars are used as intended: exactly one scratch part defines each needed element, and it is one of those that the part requires;
needed elements are within the write halos of the scratch part that defines them; a part requires a scratch part after those that write the
scratch vars that it reads; and parts with an empty bounding box have no points. -/
structure Supplied (c : RunCfg) : Prop where
  one : ∀ a, c.Active a → ∀ v y, X.Needs a v y → ∃ k ∈ X.children a.stage a.part, X.Defines a.step v y k ∧ ∀ k', X.Defines a.step v y k' → k' = k
  near : ∀ a, c.Active a → ∀ v y k, X.Needs a v y → X.Defines a.step v y k → y.length = c.nd ∧
    ∀ j < c.nd, - X.wl k j ≤ y.getD j 0 - a.pt.getD j 0 ∧ y.getD j 0 - a.pt.getD j 0 ≤ X.wr k j
  order : ∀ st p l1 k l2, X.children st p = l1 ++ k :: l2 → ∀ t y v w z k', X.outs k v → X.sreadsS k t y v w z → X.outs k' w → k' ∈ l1
  empty : ∀ st p, X.empty st p = true → ∀ x, c.dom st p x = false

/-- Stencil `S` is what results from substituting the scratch vars: it writes the same buffers; it reads the elements of vars that are read
by the task and by what defines the scratch elements that the task needs; and its value is the one that the task computes from any contents
of the scratch vars that satisfy, in the elements that the task needs, the equations of the scratch vars. -/
structure Inlined {c : RunCfg} (S : Stencil c Buf Val) : Prop where
  writes : ∀ a, c.Active a → ∀ β, S.writes a β ↔ X.writes a β
  direct : ∀ a, c.Active a → ∀ β q, X.readsB a β q → S.reads a β q
  through : ∀ a, c.Active a → ∀ v y k β q, X.Needs a v y → X.Defines a.step v y k → X.sreadsB k a.step y v β q → S.reads a β q
  value : ∀ a, c.Active a → ∀ β, X.writes a β → ∀ m f,
    (∀ v y k, X.Needs a v y → X.Defines a.step v y k → f (v, y) = X.sval k a.step y m f v) → X.value a m f β = S.value a m β

end Scr
end Yask
