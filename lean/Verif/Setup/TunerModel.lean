import Verif.Setup.SettingsModel
import Verif.Common.TupleModel
import Mathlib.Data.Rat.Defs

/-!
# Model of the auto-tuner

`AutoTuner` (`src/kernel/lib/auto_tuner.hpp:30-145`, `auto_tuner.cpp:34-507`): the search for the fastest block sizes run by
`run_auto_tuner_now()` and, if enabled, during `run_solution()`.

A measurement is the pair of values read at the start of `eval()`: the seconds elapsed and the steps done since the last
call. Times and rates are rational numbers instead of `double`. Step-dim entries of the size being tuned are those of the
settings. `update_tb_info()` and `alloc_scratch_data()`, called after every change of sizes, are not part of this model.
-/

namespace Yask.Setup

/-- The targets (`settings.cpp:175-180`, `auto_tuner.cpp:75-121`). -/
inductive Tgt | mega | block | micro | nano | pico
deriving DecidableEq, Repr

/-- `*targetp` in one dim. -/
def Tgt.get : Tgt → BlkSizes → Int
  | .mega, b => b.mega
  | .block, b => b.block
  | .micro, b => b.micro
  | .nano, b => b.nano
  | .pico, b => b.pico

/-- Assignment to `*targetp` in one dim. -/
def Tgt.set : Tgt → BlkSizes → Int → BlkSizes
  | .mega, b, n => { b with mega := n }
  | .block, b, n => { b with block := n }
  | .micro, b, n => { b with micro := n }
  | .nano, b, n => { b with nano := n }
  | .pico, b, n => { b with pico := n }

/-- `*outerp` in one dim: the size of the enclosing block (`auto_tuner.cpp:77-120`). -/
def Tgt.outer : Tgt → Int → BlkSizes → Int
  | .mega, r, _ => r
  | .block, _, b => b.mega
  | .micro, _, b => b.block
  | .nano, _, b => b.micro
  | .pico, _, b => b.nano

/-- The tuner with the settings it works on: the settings in use, the requested sizes (`req_opts`), `_tuner_targets`,
`_tuner_radius`, `_tuner_trial_secs`, the number of outer threads, the limits for a target, and `AutoTunerState`.
`best = none` before the first trial. -/
structure Tuner where
  set : KSet
  req : Nat → BlkSizes
  reqStep : BlkSizes
  targets : List Tgt
  maxRadius : Int
  trialSecs : Rat
  outerThreads : Int
  done : Bool
  target : Option Nat
  minBlks : Int
  minPts : Int
  results : List (List Int × Rat)
  best : Option (List Int)
  bestRate : Rat
  center : List Int
  radius : Int
  neigh : Nat
  better : Bool
  ctime : Rat
  csteps : Int
  warm : Bool

/-- `warmup_steps`, `warmup_secs`, `trial_steps`, `cutoff` and `min_dist` (`auto_tuner.hpp:49-57`). -/
def warmupSteps : Int := 1000
/-- See `warmupSteps`. -/
def warmupSecs : Rat := 4
/-- See `warmupSteps`. -/
def trialSteps : Int := 500
/-- See `warmupSteps`. -/
def cutoff : Rat := 4 / 5
/-- See `warmupSteps`. -/
def minDist : Int := 1

/-- The target being tuned. -/
def Tuner.tgt (t : Tuner) : Option Tgt := t.target.bind fun i => t.targets[i]?

/-- The sizes of a target, `*targetp` without the step dim. -/
def sizesOf (s : KSet) (g : Tgt) : List Int := (List.range s.nd).map fun j => g.get (s.blk j)

/-- `*outerp` without the step dim. -/
def outersOf (s : KSet) (g : Tgt) : List Int := (List.range s.nd).map fun j => g.outer (s.rank j) (s.blk j)

/-- `get_num_domain_points` (`settings.hpp:190-196`). -/
def numPoints (sizes : List Int) : Int := sizes.foldl (· * ·) 1

/-- Assignment of a whole tuple to `*targetp`. -/
def setSizes (s : KSet) (g : Tgt) (sizes : List Int) : KSet :=
  { s with blk := fun j => if j < s.nd then g.set (s.blk j) (sizes.getD j 0) else s.blk j }

/-- `AutoTuner::adjust_settings` (`auto_tuner.cpp:465-507`): all sizes but those of the target are reset to the requested
ones, then everything is adjusted. -/
def Tuner.adjust (t : Tuner) (g : Tgt) : Outcome Tuner := do
  let s ← adjustSettings { t.set with
    blk := fun j => g.set (t.req j) (g.get (t.set.blk j))
    stepBlk := g.set t.reqStep (g.get t.set.stepBlk) }
  pure { t with set := s }

/-- `AutoTunerState::init` (`auto_tuner.hpp:82-95`). The sizes are overwritten before their next use. -/
def Tuner.initState (t : Tuner) (warm : Bool) : Tuner :=
  { t with
    results := [], best := none, bestRate := 0, radius := t.maxRadius, neigh := 0, better := false, ctime := 0
    csteps := 0, warm := warm }

/-- The position of the next target (`auto_tuner.cpp:63-66`). -/
def nextIdx : Option Nat → Nat
  | none => 0
  | some i => i + 1

/-- `min_blks` and `min_pts` (`auto_tuner.cpp:60-61`, `86-99`). -/
def Tuner.limits (t : Tuner) (g : Tgt) : Int × Int :=
  if g = .block then
    let mb := max (t.outerThreads.tdiv 2) 1
    (mb, max (min ((numPoints (outersOf t.set g)).tdiv mb) 512) 1)
  else (1, 1)

/-- Start of the search for target `g` at position `i` (`auto_tuner.cpp:74-139`). -/
def Tuner.startTarget (t : Tuner) (i : Nat) (g : Tgt) : Outcome Tuner :=
  ({ ({ t with target := some i, minBlks := (t.limits g).1, minPts := (t.limits g).2 } : Tuner).initState false with
    center := sizesOf t.set g }).adjust g

/-- `next_target` (`auto_tuner.cpp:48-141`): the tuner and whether there is more to do. -/
def Tuner.nextTarget (t : Tuner) : Outcome (Tuner × Bool) :=
  match t.targets[nextIdx t.target]? with
  | none => .ok ({ t with target := none, minBlks := 1, minPts := 1 }, false)
  | some g => do
    let t ← t.startTarget (nextIdx t.target) g
    pure (t, true)

/-- `apply_best` (`auto_tuner.cpp:435-462`). -/
def Tuner.applyBest (t : Tuner) : Outcome Tuner :=
  match t.tgt, t.best with
  | some g, some b =>
    if t.bestRate > 0 then
      let s := setSizes t.set g b
      ({ t with
        set := s
        req := fun j => g.set (t.req j) (g.get (s.blk j))
        reqStep := g.set t.reqStep (g.get s.stepBlk) }).adjust g
    else .ok t
  | _, _ => .ok t

/-- `clear` (`auto_tuner.cpp:150-175`). -/
def Tuner.clear (t : Tuner) (markDone : Bool) : Outcome Tuner := do
  let t ← t.applyBest
  pure (({ t with done := markDone, target := none }).initState true)

/-- `check_sizes` (`auto_tuner.cpp:178-202`). -/
def Tuner.checkSizes (t : Tuner) (outer bsize : List Int) : Bool :=
  if numPoints bsize < t.minPts then false
  else decide ((numPoints outer).tdiv (numPoints bsize) ≥ t.minBlks)

/-- The new size in one dim for an offset 0, 1 or 2 (`auto_tuner.cpp:319-356`). -/
def newSize (radius fold outer center ofs : Int) : Int :=
  let dist := max fold minDist * radius
  let sz :=
    if ofs = 0 then center - dist
    else if ofs = 2 then (if center < dist then dist else center + dist)
    else center
  let sz := max sz fold
  let sz := roundUp sz fold
  min sz outer

/-- The loop over the dims (`auto_tuner.cpp:311-360`): the sizes, or `none` if too many dims are changed. -/
def neighSizes (radius : Int) (fold : Nat → Int) (outer center : List Int) : List Int → Nat → Nat → Option (List Int)
  | [], _, _ => some []
  | o :: os, j, mdist =>
    let mdist := if o = 1 then mdist else mdist + 1
    if mdist > 3 then none
    else do
      let rest ← neighSizes radius fold outer center os (j + 1) mdist
      pure (newSize radius (fold j) (outer.getD j 0) (center.getD j 0) o :: rest)

/-- What the search decides (`auto_tuner.cpp:292-432`): run a trial with new sizes, or stop the search for this target. -/
inductive Found
  | trial (sizes : List Int) (t : Tuner)
  | stop (t : Tuner)

/-- The iterations of the loop of `eval` that look at the neighbours of the current center (`auto_tuner.cpp:300-386`), up to
the first one to try. `n` is the number of neighbours left of the `3 ^ nd`; `fi` tells how tuples are laid out. -/
def Tuner.scan (fi : Bool) (outer : List Int) : Nat → Tuner → Tuner × Option (List Int)
  | 0, t => (t, none)
  | n + 1, t =>
    let ofs := unlayoutVals fi (List.replicate t.set.nd 3) t.neigh
    let t' := { t with neigh := t.neigh + 1 }
    match neighSizes t.radius t.set.fold outer t.center ofs 0 0 with
    | some bs =>
      if t.checkSizes outer bs && !(t.results.any fun r => r.1 == bs) then (t', some bs) else t'.scan fi outer n
    | none => t'.scan fi outer n

/-- The loop `while (true)` of `eval` (`auto_tuner.cpp:292-432`), up to the point where it finds a new size to try or the
end of the search for this target. Without a best size the code would use sizes of no dims. The first argument bounds the
number of times the center or the radius changes; running out of it would be an endless loop, and is shown not to happen. -/
def Tuner.search (fi : Bool) (outer : List Int) : Nat → Tuner → Outcome Found
  | 0, _ => .undefined
  | n + 1, t =>
    match t.scan fi outer (3 ^ t.set.nd - t.neigh) with
    | (t, some bs) => .ok (.trial bs t)
    | (t, none) =>
      match t.best with
      | none => .undefined
      | some b =>
        if t.better then ({ t with center := b, neigh := 0, better := false }).search fi outer n
        else
          let r := t.radius.tdiv 2
          if r ≥ 1 then ({ t with center := b, neigh := 0, better := false, radius := r }).search fi outer n
          else .ok (.stop { t with center := b, neigh := 0, better := false, radius := r })

/-- The part of `eval` after a complete trial with rate `crate` (`auto_tuner.cpp:272-432`). -/
def Tuner.endTrial (fi : Bool) (t : Tuner) (g : Tgt) (crate : Rat) : Outcome Tuner := do
  let cur := sizesOf t.set g
  let t := { t with results := t.results ++ [(cur, crate)] }
  let t := if crate > t.bestRate then { t with best := some cur, bestRate := crate, better := true } else t
  let t := { t with csteps := 0, ctime := 0 }
  match ← t.search fi (outersOf t.set g) (t.radius.toNat + 2) with
  | .trial bs t => ({ t with set := setSizes t.set g bs }).adjust g
  | .stop t => do
    let t ← t.applyBest
    let (t, more) ← t.nextTarget
    if more then pure t else t.clear true

/-- `eval` (`auto_tuner.cpp:208-433`), with the elapsed time and steps. The target pointer is set whenever the tuner is
neither done nor warming up; the code would otherwise follow a null pointer. -/
def Tuner.eval (fi : Bool) (t : Tuner) (etime : Rat) (steps : Int) : Outcome Tuner :=
  if t.done then .ok t
  else
    let t := { t with csteps := t.csteps + steps, ctime := t.ctime + etime }
    let crate : Rat := if t.ctime > 0 then t.csteps / t.ctime else 0
    if t.warm then
      if t.ctime < max warmupSecs t.trialSecs ∧ t.csteps < warmupSteps then .ok t
      else do
        let (t, more) ← ({ t with target := none }).nextTarget
        if more then pure t else t.clear true
    else
      match t.tgt with
      | none => .undefined
      | some g =>
        if (crate > 0 ∧ t.bestRate > 0 ∧ crate < t.bestRate * cutoff) ∨
            t.ctime ≥ t.trialSecs ∨ t.csteps ≥ trialSteps then
          t.endTrial fi g crate
        else .ok t

/-- All calls of `eval` for a sequence of measurements. -/
def Tuner.run (fi : Bool) : Tuner → List (Rat × Int) → Outcome Tuner
  | t, [] => .ok t
  | t, m :: ms => do
    let t ← t.eval fi m.1 m.2
    t.run fi ms

end Yask.Setup
