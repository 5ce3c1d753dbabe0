import Verif.Kernel.StatsModel
import Verif.Sched.SchedSpec

/-!
# Specification: what the statistics mean

Independent of the counters: the calls of `run_solution` since the counters were last cleared, the number
of steps of a call, and the amount of work that an execution did.
-/

namespace Yask.Stats

/-- The runs since the last call that clears the statistics, oldest first. -/
def runsSince : List Call → List (Int × Int)
  | calls => (calls.foldl (fun (acc : List (Int × Int)) x =>
      match x with
      | .run first last => acc ++ [(first, last)]
      | _ => []) [])

/-- The number of steps from `first` to `last`, inclusive, in either direction. -/
def stepsOf (r : Int × Int) : Int := |r.2 - r.1| + 1

/-- The amount of work that the evaluations `t` did, where an evaluation of part `p` of stage `s` in one
point does `w s p`. -/
def workOf (w : Nat → Nat → Int) (t : List Task) : Int := (t.map fun a => w a.stage a.part).sum

/-- One rank of a prepared solution: the model `c` of its tiling is legal; `parts` are the non-scratch parts
of each stage with the boxes found for them in the extended domain of the rank, for the conditions `cond`
(`none`: no condition), and the parts evaluate exactly the points of their conditions. -/
structure RankStats (c : RunCfg) (cond : Nat → Nat → Option (List Int → Bool)) (nthreads : Int)
    (parts : List (List NonScratch)) : Prop where
  ok : c.Ok
  dims : 0 < c.nd
  stages : parts.length = c.nst
  nparts : ∀ s sp, parts[s]? = some sp → sp.length = c.nparts s
  found : ∀ s sp p q, parts[s]? = some sp → sp[p]? = some q →
    (BB.findBoundingBoxes (cond s p) nthreads (extBox c) (BB.boxSize (extBox c))).map (·.list) = some q.own.bbs
  dom : ∀ s p pt, Spec.InBox pt (extBox c) → c.dom s p pt = (match cond s p with | none => true | some f => f pt)

/-- The amount of work per point of part `p` of stage `s`. -/
def wt (w : PartWork → Int) (parts : List (List NonScratch)) (s p : Nat) : Int :=
  match (parts.getD s [])[p]? with
  | some q => w q.own
  | none => 0

/-- One rank: its tiling, the conditions of its parts, and its parts. -/
structure RankInst where
  c : RunCfg
  cond : Nat → Nat → Option (List Int → Bool)
  parts : List (List NonScratch)

/-- `ex` are executions of the runs `runs` on the rank `r`. -/
def Executes (runs : List (Int × Int)) (r : RankInst) (ex : List (List Task)) : Prop :=
  List.Forall₂ (fun (run : Int × Int) t => r.c.runSolution run.1 run.2 t) runs ex

/-- The work done on one rank by the executions `ex`. -/
def rankWork (w : PartWork → Int) (r : RankInst) (ex : List (List Task)) : Int :=
  (ex.map (workOf (wt w r.parts))).sum

/-- The work done on all ranks. -/
def allWork (w : PartWork → Int) (rs : List RankInst) (ex : List (List (List Task))) : Int :=
  (List.zipWith (rankWork w) rs ex).sum

/-- No part needs scratch parts. -/
def NoScratch (parts : List (List NonScratch)) : Prop := ∀ sp ∈ parts, ∀ q ∈ sp, q.scratch = []

end Yask.Stats
