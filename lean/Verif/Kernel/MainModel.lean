import Verif.Common.IdivModel
import Verif.Common.OptModel
import Mathlib.Data.Rat.Floor
import Mathlib.Data.List.Sort
import Mathlib.Data.List.FinRange
import Mathlib.Logic.Function.Basic

/-!
# Model of the utility `yask_kernel`

`main()` of the performance and validation utility (`src/kernel/yask_main.cpp:251-665`), run by several MPI
ranks.  What a rank does is a tree: calls that all ranks have to make together (MPI collectives, and runs of
the solution, which exchange halos), and calls of one rank.  Elapsed times are inputs.  What the library does
to the data of the vars is given by a `Machine`.  Times and rates are rational numbers instead of `double`.

Left out: messages, options that do not change the calls (`-help`, `-sleep`, …), the library options, ranks
with an empty domain (which throw), and exceptions of the library.
-/

namespace Yask.MainPgm

/-- Options of the utility that matter for the calls (`yask_main.cpp:51-66`). -/
structure Opts where
  doWarmup : Bool
  preTune : Bool
  validate : Bool
  numTrials : Int
  trialSteps : Int
  trialTime : ℚ

/-- What one rank gets: options, elapsed time of its n-th warm-up run, and `get_block_size(step_dim)`
(`yask_main.cpp:406-407`). -/
structure RankIn where
  opts : Opts
  time : Nat → ℚ
  bt : Int

/-- Calls of the library. -/
inductive Act
  /-- `global_barrier` -/
  | barrier
  /-- `sum_over_ranks` (`src/kernel/lib/utils.cpp:71-77`) -/
  | sum (x : Int)
  /-- `assert_equality_over_ranks` (`utils.cpp:80-95`) -/
  | agree (x : Int)
  /-- `prepare_solution`, `run_auto_tuner_now`, `run_solution` of the solution under test -/
  | prepare
  | tune
  | run (first last : Int)
  /-- `prepare_solution`, `run_ref` of the reference -/
  | prepareRef
  | runRef (first last : Int)
  /-- `init_vars`, `copy_vars_to_device` -/
  | init
  | toDevice
  /-- `new_solution` and `init_vars` of the reference -/
  | newRef
  | initRef
  /-- `compare_data` and the message about its outcome -/
  | compare
  | report (ok : Bool)
deriving DecidableEq

/-- Calls that all ranks make together: those with MPI collectives or halo exchanges (`utils.cpp:57-95`,
`soln_apis.cpp:60-260`, `context.cpp`). -/
def Act.coll : Act → Bool
  | .init => false
  | .toDevice => false
  | .newRef => false
  | .initRef => false
  | .compare => false
  | .report _ => false
  | _ => true

/-- Whether two ranks that make these calls can go on. -/
def Act.goesWith : Act → Act → Bool
  | .sum _, .sum _ => true
  | .agree _, .agree _ => true
  | a, b => decide (a = b)

/-- The value given to a collective operation. -/
def Act.value : Act → Int
  | .sum x => x
  | .agree x => x
  | _ => 0

/-- What a rank still has to do.  `stop true`: return from `main`; `stop false`: `exit(1)`, also after an
exception (`yask_main.cpp:650-664`). -/
inductive Prog
  | stop (ok : Bool)
  | act (a : Act) (k : Int → Prog)

/-- A call whose outcome is not used. -/
def call (a : Act) (p : Prog) : Prog := .act a fun _ => p

/-- The checks at the end of `MySettings::parse` (`yask_main.cpp:209-212`). -/
def agreed (numTrials trialSteps : Int) (validate : Bool) (p : Prog) : Prog :=
  .act (.agree numTrials) fun a => if a = 1 then
    .act (.agree trialSteps) fun b => if b = 1 then
      .act (.agree (if validate then 0 else 1)) fun c => if c = 1 then p else .stop false
    else .stop false
  else .stop false

/-- The warm-up and calibration runs (`yask_main.cpp:353-393`); the first number is that of the runs still
allowed, `w` and `maxw` are `warmup_steps` and `max_wsteps`. -/
def warmLoop (x : RankIn) (nr : Nat) (k : ℚ → Prog) : Nat → Int → Int → ℚ → Prog
  | 0, _, _, rate => k rate
  | m + 1, w, maxw, _ =>
    call .barrier <| call (.run 0 (w - 1)) <| call .barrier <|
      let t := x.time (2 - m)
      let rate : ℚ := if t > 0 then (w : ℚ) / t else 0
      if x.opts.trialSteps > 0 then k rate
      else .act (.sum (min ⌈rate * ((((2 - m : Nat) : ℚ) + 1) / 2)⌉ maxw)) fun s =>
        if ceilDiv s nr ≤ 1 then k rate
        else warmLoop x nr k m (ceilDiv s nr) (maxw * maxw) rate

/-- The number of steps of a trial (`yask_main.cpp:395-415`); it is kept in an `int`. -/
def finalSteps (x : RankIn) (nr : Nat) (k : Int → Prog) (rate : ℚ) : Prog :=
  if x.opts.trialSteps > 0 then k x.opts.trialSteps
  else .act (.sum ⌈rate * x.opts.trialTime⌉) fun s =>
    let ts := ceilDiv s nr
    k (Options.toInt32 (if x.bt > 1 ∧ roundUp ts x.bt ≤ (6 * ts).tdiv 5 then roundUp ts x.bt else ts))

/-- One performance trial (`yask_main.cpp:440-478`). -/
def trial (validate : Bool) (steps : Int) (p : Prog) : Prog :=
  let q := call .barrier <| call (.run 0 (steps - 1)) <| call .barrier p
  if validate then call .init <| call .toDevice q else q

/-- All trials. -/
def trials (validate : Bool) (steps : Int) : Nat → Prog → Prog
  | 0, p => p
  | n + 1, p => trial validate steps (trials validate steps n p)

/-- The messages of all ranks, one after the other (`yask_main.cpp:619-641`). -/
def reports (me : Nat) (ok : Bool) : List Nat → Prog → Prog
  | [], p => p
  | r :: rs, p => call .barrier <| if r = me then call (.report ok) (reports me ok rs p) else reports me ok rs p

/-- The end of `main` (`yask_main.cpp:647-653`); `end_solution` waits for all ranks. -/
def finish (ok : Bool) : Prog := call .barrier (.stop ok)

/-- The validation run (`yask_main.cpp:560-643`). -/
def validation (nr me : Nat) (x : RankIn) (steps : Int) : Prog :=
  call .barrier <| call .newRef <| agreed x.opts.numTrials steps x.opts.validate <|
    call .prepareRef <| call .initRef <| call (.runRef 0 (steps - 1)) <| .act .compare fun errs =>
      reports me (decide (errs = 0)) (List.range nr) <| call .barrier <| call .barrier <|
        finish (decide (errs = 0))

/-- From the choice of the number of steps on (`yask_main.cpp:420-653`). -/
def perform (nr me : Nat) (x : RankIn) (steps : Int) : Prog :=
  call .barrier <|
    if x.opts.numTrials < 1 then .stop false
    else if steps ≤ 0 then .stop false
    else trials x.opts.validate steps x.opts.numTrials.toNat <|
      if x.opts.validate then validation nr me x steps else finish true

/-- Whether there is a warm-up (`yask_main.cpp:340-346`). -/
def warms (o : Opts) : Bool := o.doWarmup || (decide (o.trialSteps ≤ 0) && decide (o.trialTime > 0))

/-- `main` of rank `me` of `nr` (`yask_main.cpp:251-665`). -/
def main (nr me : Nat) (x : RankIn) : Prog :=
  call .barrier <| agreed x.opts.numTrials x.opts.trialSteps x.opts.validate <|
    call .prepare <| call .init <| call .toDevice <|
      let rest :=
        if warms x.opts then warmLoop x nr (finalSteps x nr (perform nr me x)) 3 1 10 1
        else perform nr me x x.opts.trialSteps
      if x.opts.preTune then call .tune rest else rest

/-! ## Several ranks -/

/-- What rank `i` gets from a call that all ranks make (`utils.cpp:71-95`). -/
def answer {nr : Nat} (as : Fin nr → Act) (i : Fin nr) : Int :=
  match as i with
  | .sum _ => ((List.finRange nr).map fun j => (as j).value).sum
  | .agree x => if ∀ j, (as j).value = x then 1 else 0
  | _ => 0

/-- What the library does to the data of the vars of a solution, one `σ` per rank. -/
structure Machine (nr : Nat) (σ : Type) where
  /-- `init_vars` on a rank -/
  init : Fin nr → σ → σ
  /-- the data of a new solution -/
  fresh : Fin nr → σ
  /-- `run_auto_tuner_now`, `run_solution`, `run_ref` on all ranks -/
  tune : (Fin nr → σ) → Fin nr → σ
  run : Int → Int → (Fin nr → σ) → Fin nr → σ
  runRef : Int → Int → (Fin nr → σ) → Fin nr → σ
  /-- the number of mismatches found by `compare_data` on a rank -/
  mism : Fin nr → σ → σ → Int

variable {nr : Nat} {σ : Type}

/-- Effect of a rank's own call on the solution, on the reference, and what is returned. -/
def Machine.ownSol (M : Machine nr σ) (i : Fin nr) (a : Act) (s : σ) : σ :=
  match a with
  | .init => M.init i s
  | _ => s

def Machine.ownRef (M : Machine nr σ) (i : Fin nr) (a : Act) (r : σ) : σ :=
  match a with
  | .newRef => M.fresh i
  | .initRef => M.init i r
  | _ => r

def Machine.ownAns (M : Machine nr σ) (i : Fin nr) (a : Act) (s r : σ) : Int :=
  match a with
  | .compare => M.mism i s r
  | _ => 0

/-- Effect of a call of all ranks on the solution and on the reference. -/
def Machine.allSol (M : Machine nr σ) (a : Act) (s : Fin nr → σ) (i : Fin nr) : σ :=
  match a with
  | .tune => M.tune s i
  | .run f l => M.run f l s i
  | _ => s i

def Machine.allRef (M : Machine nr σ) (a : Act) (r : Fin nr → σ) (i : Fin nr) : σ :=
  match a with
  | .runRef f l => M.runRef f l r i
  | _ => r i

/-- A rank: the calls made so far, what is still to do, the data of the solution and of the reference. -/
structure St (σ : Type) where
  log : List Act
  prog : Prog
  sol : σ
  ref : σ

/-- The ranks. -/
abbrev Job (nr : Nat) (σ : Type) := Fin nr → St σ

/-- One step of the job: a rank makes a call of its own, or all ranks make matching calls. -/
inductive Step (M : Machine nr σ) : Job nr σ → Job nr σ → Prop
  | own (c : Job nr σ) (i : Fin nr) (a : Act) (k : Int → Prog) : (c i).prog = .act a k → a.coll = false →
      Step M c (Function.update c i ⟨(c i).log ++ [a], k (M.ownAns i a (c i).sol (c i).ref),
        M.ownSol i a (c i).sol, M.ownRef i a (c i).ref⟩)
  | all (c : Job nr σ) (as : Fin nr → Act) (ks : Fin nr → Int → Prog) : 0 < nr →
      (∀ i, (c i).prog = .act (as i) (ks i)) → (∀ i, (as i).coll = true) →
      (∀ i j, (as i).goesWith (as j) = true) →
      Step M c (fun i => ⟨(c i).log ++ [as i], ks i (answer as i),
        M.allSol (as i) (fun j => (c j).sol) i, M.allRef (as i) (fun j => (c j).ref) i⟩)

/-- A number of steps. -/
inductive Run (M : Machine nr σ) : Nat → Job nr σ → Job nr σ → Prop
  | nil (c : Job nr σ) : Run M 0 c c
  | cons {n : Nat} {a b c : Job nr σ} : Step M a b → Run M n b c → Run M (n + 1) a c

/-- All ranks have finished. -/
def Done (c : Job nr σ) : Prop := ∀ i, ∃ ok, (c i).prog = .stop ok

/-- The job at the beginning; the data can be anything. -/
def start (x : Fin nr → RankIn) (s r : Fin nr → σ) : Job nr σ := fun i => ⟨[], main nr i (x i), s i, r i⟩

/-! ## The choice of trials to report (`yask_main.cpp:483-511`) -/

/-- Trials sorted by time (`yask_main.cpp:487-489`). -/
def sorted (times : List ℚ) : List ℚ := times.insertionSort (· ≤ ·)

/-- `best_trial` and `mid_trial` (`yask_main.cpp:493-495`). -/
def best (times : List ℚ) : Option ℚ := (sorted times)[0]?
def mid (times : List ℚ) : Option ℚ := (sorted times)[times.length / 2]?

/-- `max_pps` and `min_pps` (`yask_main.cpp:498-507`). -/
def maxPps (l : List ℚ) : ℚ := l.foldl (fun m p => if m = 0 ∨ p > m then p else m) 0
def minPps (l : List ℚ) : ℚ := l.foldl (fun m p => if m = 0 ∨ p < m then p else m) 0

/-- `ave_pps` and `var_pps` (`yask_main.cpp:508-510`). -/
def avePps (l : List ℚ) : ℚ := l.sum / l.length
def varPps (l : List ℚ) : ℚ := ((l.map fun p => p * p).sum - l.sum * l.sum / l.length) / (l.length - 1)

/-- The square of `sd_pps`, the standard deviation that is printed (`yask_main.cpp:511`). -/
def sdPps2 (l : List ℚ) : ℚ := if l.length > 2 then varPps l else 0

end Yask.MainPgm
