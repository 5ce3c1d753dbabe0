import Verif.Var.ResizeModel

/-!
# Specification: the value of a size setting after a sequence of calls

What a user is told: a `set_` function replaces the value, an `update_` function (used by the solution itself) raises it.
-/

namespace Yask.Spec
open Var

/-- The size settings of a dim of a var. -/
inductive SizeField
  | size | leftHalo | rightHalo | leftMinPad | rightMinPad | leftExtraPad | rightExtraPad | leftExt | rightExt
  deriving DecidableEq, Repr

/-- What the functions set: the first list is replaced, the second is raised. -/
def callSets : Setting → List SizeField × List SizeField
  | .size => ([.size], [])
  | .leftHalo => ([.leftHalo], [])
  | .rightHalo => ([.rightHalo], [])
  | .halo => ([.leftHalo, .rightHalo], [])
  | .leftMinPad => ([.leftMinPad], [])
  | .rightMinPad => ([.rightMinPad], [])
  | .minPad => ([.leftMinPad, .rightMinPad], [])
  | .leftExtraPad => ([.leftExtraPad], [])
  | .rightExtraPad => ([.rightExtraPad], [])
  | .extraPad => ([.leftExtraPad, .rightExtraPad], [])
  | .updMinPad => ([], [.leftMinPad, .rightMinPad])
  | .updLeftMinPad => ([], [.leftMinPad])
  | .updRightMinPad => ([], [.rightMinPad])
  | .updExtraPad => ([], [.leftExtraPad, .rightExtraPad])
  | .leftExt => ([.leftExt], [])
  | .rightExt => ([.rightExt], [])
  | .rankOfs | .localOfs | .firstMisc => ([], [])

/-- The value of a setting after one call for a dim of kind `k`; only sizes can be set for dims that are not domain dims. -/
def valueAfter (k : DimKind) (f : SizeField) (s : Setting) (n x : Int) : Int :=
  if k = .domain ∨ s = .size then
    if f ∈ (callSets s).1 then n else if f ∈ (callSets s).2 then max n x else x
  else x

/-- The value of a setting of the dim at position `j` after a sequence of calls (position, function, argument) on a new var. -/
def lastValue (k : DimKind) (f : SizeField) (j : Nat) (cs : List (Nat × Setting × Int)) : Int :=
  cs.foldl (fun x c => if c.1 = j then valueAfter k f c.2.1 c.2.2 x else x) 0

/-- The values of the settings that a dim has. -/
def SizeField.get : SizeField → DimG → Int
  | .size, d => d.domain
  | .leftHalo, d => d.lHalo
  | .rightHalo, d => d.rHalo
  | .leftMinPad, d => d.reqLPad
  | .rightMinPad, d => d.reqRPad
  | .leftExtraPad, d => d.reqLEpad
  | .rightExtraPad, d => d.reqREpad
  | .leftExt, d => d.lExt
  | .rightExt, d => d.rExt

/-- What a var reports about the sizes of a dim: size, halos, pads and allocated size. -/
def reported (d : DimG) : List Int := [d.domain, d.lHalo, d.rHalo, d.lPad, d.rPad, d.lPad - d.lHalo, d.rPad - d.rHalo, d.alloc]

/-- A var without the offsets of its dims. -/
def noOffsets (g : Geom) : Geom :=
  { g with dims := g.dims.map fun d => { d with rankOfs := 0, localOfs := 0, vecLocalOfs := 0 } }

end Yask.Spec
