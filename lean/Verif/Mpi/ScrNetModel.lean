import Verif.Mpi.NetModel
import Verif.Sched.ScratchRun

/-!
# Model of `run_solution` with scratch vars on several ranks

As `Verif.Mpi.NetModel`, with the micro-blocks of `Verif.Sched.ScratchRun`.  Scratch vars are not exchanged: each thread of each rank has its own
(`make_scratch_vars`, `src/kernel/lib/alloc.cpp:1058`), and they are not marked (`src/kernel/lib/stencil_calc.cpp:306-308`).
The bounding boxes of scratch parts are those of the rank (`src/kernel/lib/setup.cpp:1099-1147`), so each rank has its own `Scr`.
-/

namespace Yask.Mpi
open Spec

variable {α : Type*}

/-- As `sectPass`, with the action taken on a micro-block as a parameter (`src/kernel/lib/context.cpp:404-417,447-459,510-523,552-564`). -/
def sectPassWith (ev : Int → Nat → Box → Traces α) (c : RunCfg) (dir : Int) (p : Pass) (sect : RunCfg.Sect) : Traces α :=
  doSeq ((RunCfg.scan c.rankLoop).map fun base => c.calcMegaWith ev dir p.stages sect base p.t0 p.nt)

/-- As `packedPass` (`context.cpp:376-417,486-523`; `context.cpp:447-459,552-564`). -/
def packedPassWith (ev : Int → Nat → Box → Traces α) (c : RunCfg) (dir : Int) (p : Pass) : Traces α :=
  doSeq ((c.sections.filter fun s => decide (s ≠ .interior)).map (sectPassWith ev c dir p))

/-- As `laterPass` (`context.cpp:447-459,552-564`). -/
def laterPassWith (ev : Int → Nat → Box → Traces α) (c : RunCfg) (dir : Int) (p : Pass) : Traces α :=
  doSeq ((c.sections.filter fun s => decide (s = .interior)).map (sectPassWith ev c dir p))

theorem packedPassWith_evalBox (c : RunCfg) (dir : Int) (p : Pass) : packedPassWith c.evalBox c dir p = packedPass c dir p := rfl
theorem laterPassWith_evalBox (c : RunCfg) (dir : Int) (p : Pass) : laterPassWith c.evalBox c dir p = laterPass c dir p := rfl

variable {SVar Val : Type*}

/-- The state after rank `r` ran the trace `u r` with scratch vars that contained `f r` at first, and marked the slots `mk r`
(`stencil_calc.cpp:285-330`, `context.cpp:1549-1578`). -/
noncomputable def NState.scrComputed (X : Nat → Scr Slot SVar Val) (N : Net) (dir : Int) (p : Pass) (u : Nat → List STask)
    (f : Nat → Int × Nat × Box → SVar × List Int → Val) (mk : Nat → Slot → Bool) (s : NState Val) : NState Val :=
  { copy := fun r => if r < N.n then ((X r).exec (u r) ⟨s.copy r, f r⟩).vars else s.copy r
    self := fun r β => s.self r β || mk r β
    others := fun r β => s.others r β || N.passOuts dir p β }

/-- Possible results of one pass on all ranks, with scratch vars: as `Net.PassTo`.  The vars of a rank are marked when it writes points of them;
scratch parts mark nothing (`stencil_calc.cpp:273-287`). -/
def Net.ScrPassTo (N : Net) (X : Nat → Scr Slot SVar Val) (dir : Int) (p : Pass) (s : NState Val) (o : Outcome (NState Val)) : Prop :=
  ∃ (u v : Nat → List STask) (f : Nat → Int × Nat × Box → SVar × List Int → Val) (mk : Nat → Slot → Bool),
    (∀ r < N.n, packedPassWith ((X r).evBox (N.cfg r)) (N.cfg r) dir p (u r) ∧ laterPassWith ((X r).evBox (N.cfg r)) (N.cfg r) dir p (v r) ∧
      (∀ bx a, STask.main bx a ∈ u r → ∀ β, (X r).writes a β → mk r β = true) ∧ ∀ β, mk r β = true → N.passOuts dir p β = true) ∧
    o = N.exchangeFrom (s.scrComputed X N dir p u f mk) (s.scrComputed X N dir p (fun r => u r ++ v r) f mk)

/-- Possible results of a list of passes. -/
def Net.ScrPassesTo (N : Net) (X : Nat → Scr Slot SVar Val) (dir : Int) : List Pass → NState Val → Outcome (NState Val) → Prop
  | [], s, o => o = .ok s
  | p :: ps, s, o => ∃ o1, N.ScrPassTo X dir p s o1 ∧
    ((∃ s1, o1 = .ok s1 ∧ N.ScrPassesTo X dir ps s1 o) ∨ (o1.isOk = false ∧ o = o1))

/-- Possible results of `run_solution(first, last)` with scratch vars on all ranks: as `Net.RunTo` (`context.cpp:219-615`). -/
def Net.ScrRunTo (N : Net) (X : Nat → Scr Slot SVar Val) (first last : Int) (s : NState Val) (o : Outcome (NState Val)) : Prop :=
  let s0 : NState Val := { s with others := fun _ _ => true }
  if ∀ r < N.n, passes (N.cfg r) first last = passes (N.cfg 0) first last then
    ∃ o1, o1 = N.exchangeFrom s0 s0 ∧
      ((∃ s1, o1 = .ok s1 ∧ N.ScrPassesTo X (RunCfg.stepDir first last) (passes (N.cfg 0) first last) s1 o) ∨
        (o1.isOk = false ∧ o = o1))
  else o = .undefined

end Yask.Mpi
