import Verif.Compiler.HaloModel

/-!
# Specification: which points are needed

Only the data types of equations and stages are used from the model.
-/

namespace Yask.Spec
open Comp

/-- To evaluate the non-scratch equations at a point, the var is needed at that point plus `d`: it is read there by a
non-scratch equation, or it is read by an equation that computes a scratch value which is needed. -/
inductive Needed (eqs : List PEq) (scr : Nat → Bool) : Nat → (String → Int) → Prop
  | direct {e : PEq} {p : Pt} : e ∈ eqs → scr e.lhs.var = false → p ∈ e.rhs → Needed eqs scr p.var p.at
  | scratch {v : Nat} {d : String → Int} {e : PEq} {p : Pt} : Needed eqs scr v d → scr v = true → e ∈ eqs →
      e.lhs.var = v → p ∈ e.rhs → Needed eqs scr p.var fun n => d n + p.at n

/-- The same, with the list of the reads through which the var is needed, the last one first. -/
inductive NeededVia (eqs : List PEq) (scr : Nat → Bool) : Nat → (String → Int) → List Pt → Prop
  | direct {e : PEq} {p : Pt} : e ∈ eqs → scr e.lhs.var = false → p ∈ e.rhs → NeededVia eqs scr p.var p.at [p]
  | scratch {v : Nat} {d : String → Int} {ps : List Pt} {e : PEq} {p : Pt} : NeededVia eqs scr v d ps → scr v = true →
      e ∈ eqs → e.lhs.var = v → p ∈ e.rhs → NeededVia eqs scr p.var (fun n => d n + p.at n) (p :: ps)

/-- All equations of the stages. -/
def allEqs (S : HSys) : List PEq := S.stages.flatMap HStage.eqs

/-- What is known about the stages when halos are calculated (checks of `analyze_eqs`, properties C44 and C45). `scr`:
is the var a scratch var, `dims`: its domain dims. -/
structure Staged (S : HSys) (scr : Nat → Bool) (dims : Nat → List String) : Prop where
  /-- the stages are distinct -/
  ids : (S.stages.map HStage.id).Nodup
  /-- scratch vars are updated in scratch stages -/
  kind : ∀ s ∈ S.stages, ∀ e ∈ s.eqs, scr e.lhs.var = s.scr
  /-- the scratch stages a stage requires include every stage that updates a scratch var which the stage or a
  required stage reads -/
  closed : ∀ st ∈ S.stages, st.scr = false → ∀ r ∈ S.stages, (r = st ∨ r.id ∈ S.scrDeps st.id) → ∀ e ∈ r.eqs,
    ∀ p ∈ e.rhs, scr p.var = true → ∀ s ∈ S.stages, ∀ e' ∈ s.eqs, e'.lhs.var = p.var → s.id ∈ S.scrDeps st.id
  /-- no stage reads a scratch var that a later stage updates -/
  order : S.stages.Pairwise fun s r => ∀ e ∈ s.eqs, ∀ p ∈ e.rhs, scr p.var = true → ∀ e' ∈ r.eqs, e'.lhs.var ≠ p.var
  /-- nor one that it updates itself -/
  self : ∀ s ∈ S.stages, ∀ e ∈ s.eqs, ∀ p ∈ e.rhs, scr p.var = true → ∀ e' ∈ s.eqs, e'.lhs.var ≠ p.var
  /-- every domain dim of the var is accessed with a simple offset -/
  used : ∀ e ∈ allEqs S, ∀ p ∈ e.lhs :: e.rhs, ∀ n, n ∈ p.dom.map Prod.fst ↔ n ∈ dims p.var
  /-- scratch vars have all domain dims -/
  full : ∀ v w, scr v = true → ∀ n ∈ dims w, n ∈ dims v

/-- Number of domain dims with a non-zero displacement: the distance of the rank that owns the point. -/
def rankDist (dims : List String) (d : String → Int) : Nat := (dims.filter fun n => d n ≠ 0).length

/-- All parts of the stages. -/
def allParts (S : HSys) : List (List PEq) := S.stages.flatMap HStage.parts

/-- No scratch var is updated in two parts. -/
def OnePart (S : HSys) (scr : Nat → Bool) : Prop :=
  (allParts S).Pairwise fun P Q => ∀ e ∈ P, ∀ f ∈ Q, scr e.lhs.var = true → e.lhs.var ≠ f.lhs.var

end Yask.Spec
