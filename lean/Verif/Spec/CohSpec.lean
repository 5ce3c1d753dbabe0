import Verif.Common.Outcome

/-!
# Specification of host/device coherency

One var is seen as locations `L` holding values `V`.  What a user may assume: reading a location gives
the value of the most recent write to it, wherever (host or device) the write was made.
-/

namespace Yask.Spec

/-- What a kernel running on the device does with the var. -/
inductive KernelOp (L V : Type)
  | read (l : L)
  | write (ws : List (L × V))

/-- Calls that access the data of a var. -/
inductive CohOp (L V : Type)
  /-- `get_element`, `get_elements_in_slice`, reductions: read on the host -/
  | get (l : L)
  /-- `set_element`, `add_to_element`, `set_elements_in_slice…`: write on the host -/
  | set (ws : List (L × V))
  /-- `set_all_elements_same` and `set_all_elements_in_seq` -/
  | setAll (f : L → V)
  /-- `init_values`: a `set_all…` call from the solution -/
  | init (f : L → V)
  /-- `run_solution`: any number of kernels on the device -/
  | run (ks : List (KernelOp L V))
  /-- a halo exchange packs from the device, or unpacks to it -/
  | pack (l : L)
  | unpack (ws : List (L × V))

/-- The most recent write to each location, `none` if there is none. -/
abbrev Latest (L V : Type) := L → Option V

variable {L V : Type} [DecidableEq L]

/-- Effect of writes. -/
def Latest.write (s : Latest L V) (ws : List (L × V)) : Latest L V :=
  ws.foldl (fun s w l => if l = w.1 then some w.2 else s l) s

/-- The expected results of the reads of a kernel, and the state afterwards. -/
def Latest.kernel (s : Latest L V) : KernelOp L V → Latest L V × List (Option V)
  | .read l => (s, [s l])
  | .write ws => (s.write ws, [])

/-- The expected results of the reads of a sequence of kernel operations. -/
def Latest.kernels (s : Latest L V) : List (KernelOp L V) → Latest L V × List (Option V)
  | [] => (s, [])
  | k :: ks => ((Latest.kernels (s.kernel k).1 ks).1, (s.kernel k).2 ++ (Latest.kernels (s.kernel k).1 ks).2)

/-- The expected result of the reads of a call, and the state afterwards. -/
def Latest.op (s : Latest L V) : CohOp L V → Latest L V × List (Option V)
  | .get l | .pack l => (s, [s l])
  | .set ws | .unpack ws => (s.write ws, [])
  | .setAll f | .init f => (fun l => some (f l), [])
  | .run ks => s.kernels ks

/-- The expected results of the reads of a sequence of calls. -/
def Latest.ops (s : Latest L V) : List (CohOp L V) → Latest L V × List (Option V)
  | [] => (s, [])
  | o :: os => ((Latest.ops (s.op o).1 os).1, (s.op o).2 ++ (Latest.ops (s.op o).1 os).2)

/-- A value read is the latest one written, if any was written. -/
def IsLatest (o : Option V) (x : V) : Prop := ∀ y, o = some y → x = y

/-- A copy of the data holds the latest value at every location. -/
def Current (s : Latest L V) (m : L → V) : Prop := ∀ l, IsLatest (s l) (m l)

end Yask.Spec
