import Verif.Compiler.HaloModel

/-!
# Model: the halo analysis of vars with misc dims

`Stages::calc_halos` (`src/compiler/lib/Eqs.cpp:1614-1903`) collects the accesses of each var in the var itself, whatever the misc indices
are (`get_arg_offsets()` has no misc dims, `VarPoint.cpp:56-83`). So where a var with misc dims counts as several vars of the equations,
the analysis sees the same equations with one var in place of them.
-/

namespace Yask.Comp

/-- The equations of a system with other names of vars. -/
def Pt.ren (φ : Nat → Nat) (p : Pt) : Pt := { p with var := φ p.var }

def PEq.ren (φ : Nat → Nat) (e : PEq) : PEq := ⟨e.lhs.ren φ, e.rhs.map (Pt.ren φ)⟩

def HStage.ren (φ : Nat → Nat) (s : HStage) : HStage := { s with parts := s.parts.map fun p => p.map (PEq.ren φ) }

/-- What the analysis sees (`Eqs.cpp:1643-1706`) if var `φ v` has the accesses of all the vars `v`. -/
def HSys.ren (φ : Nat → Nat) (S : HSys) : HSys := { S with stages := S.stages.map (HStage.ren φ) }

end Yask.Comp
