import Verif.Spec.CohSpec

/-!
# Model of the host/device coherency of one var

`Coherency` (`src/kernel/lib/offload.hpp:404-530`, the version for offload builds without unified
memory) and its uses.  Each var has a copy of its data on the host and one on the device.

Simplifications: a var has storage; index checks (C15, C16, C18) are left out; calls on the host are
made one after another.
-/

namespace Yask.Coh
open Spec (KernelOp CohOp)

/-- `coh_state` (`offload.hpp:408-413`). -/
inductive CohState
  | notInit | hostMod | devMod | inSync
  deriving DecidableEq, Repr

/-- `mod_host` (`offload.hpp:448-454`). -/
def CohState.modHost (s : CohState) : Outcome CohState :=
  if s = .devMod then .throws else .ok .hostMod

/-- `mod_dev` (`offload.hpp:457-463`). -/
def CohState.modDev (s : CohState) : Outcome CohState :=
  if s = .hostMod then .throws else .ok .devMod

/-- `mod_both` (`offload.hpp:466-475`); `chk`: assertions are enabled, and a failed one ends the
program. -/
def CohState.modBoth (chk : Bool) (s : CohState) : Outcome CohState :=
  if s = .devMod then .throws
  else if s = .hostMod then .throws
  else if chk && decide (s ≠ .inSync) then .undefined
  else .ok s

/-- `host_copied_to_dev` (`offload.hpp:478-484`). -/
def CohState.hostCopiedToDev (s : CohState) : Outcome CohState :=
  if s = .devMod then .throws else .ok .inSync

/-- `dev_copied_to_host` (`offload.hpp:487-493`). -/
def CohState.devCopiedToHost (s : CohState) : Outcome CohState :=
  if s = .hostMod then .throws else .ok .inSync

/-- A var: the coherency state and both copies of the data. -/
structure CVar (L V : Type) where
  state : CohState
  host : L → V
  dev : L → V

variable {L V : Type} [DecidableEq L]

/-- Writes to one copy. -/
def pokes (m : L → V) (ws : List (L × V)) : L → V :=
  ws.foldl (fun m w l => if l = w.1 then w.2 else m l) m

/-- `copy_data_to_device` (`yk_var.cpp:644-656`). -/
def CVar.copyToDevice (v : CVar L V) : Outcome (CVar L V) :=
  if v.state = .hostMod then do
    let s ← v.state.hostCopiedToDev
    pure { v with dev := v.host, state := s }
  else pure v

/-- `copy_data_from_device` (`yk_var.cpp:657-669`). -/
def CVar.copyFromDevice (v : CVar L V) : Outcome (CVar L V) :=
  if v.state = .devMod then do
    let s ← v.state.devCopiedToHost
    pure { v with host := v.dev, state := s }
  else pure v

/-- A write call on the host: `set_element`, `add_to_element` (`yk_var_apis.cpp:392-456`),
`set_elements_in_slice` and `set_elements_in_slice_same` (`yk_var.hpp:1295-1311,1341-1358`),
`set_vecs_in_slice` (`yk_var.hpp:2068-2084`). -/
def CVar.hostSet (v : CVar L V) (ws : List (L × V)) : Outcome (CVar L V) := do
  let v ← v.copyFromDevice
  let s ← v.state.modHost
  pure { v with host := pokes v.host ws, state := s }

/-- A read call on the host: `get_element` (`yk_var_apis.cpp:373-391`), `get_elements_in_slice`
(`yk_var.hpp:1252-1255`), reductions (`yk_var.hpp:1409-1412`). -/
def CVar.hostGet (v : CVar L V) (l : L) : Outcome (CVar L V × V) := do
  let v ← v.copyFromDevice
  pure (v, v.host l)

/-- `set_vecs_in_slice` with `on_device` (`yk_var.hpp:2068-2083`). -/
def CVar.devSet (v : CVar L V) (ws : List (L × V)) : Outcome (CVar L V) := do
  let v ← v.copyToDevice
  let s ← v.state.modDev
  pure { v with dev := pokes v.dev ws, state := s }

/-- `get_vecs_in_slice` with `on_device` (`yk_var.hpp:2111-2120`). -/
def CVar.devGet (v : CVar L V) (l : L) : Outcome (CVar L V × V) := do
  let v ← v.copyToDevice
  pure (v, v.dev l)

/-- `set_all_elements_same`, `set_all_elements_in_seq` (`yk_var.hpp:1538-1551,1786-1806`,
`generic_var.cpp:136-166`): both copies are written. -/
def CVar.setAll (chk : Bool) (v : CVar L V) (f : L → V) : Outcome (CVar L V) := do
  let s ← CohState.modBoth chk .notInit
  pure { host := fun l => f l, dev := fun l => f l, state := s }

/-- `init_values` (`setup.cpp:1024-1040`). -/
def CVar.init (chk : Bool) (v : CVar L V) (f : L → V) : Outcome (CVar L V) := do
  let v ← v.setAll chk f
  let s ← v.state.modHost
  pure { v with state := s }

/-- A kernel: it uses the copy on the device without any check; after writing,
`update_var_info` calls `mod_dev` (`stencil_calc.cpp:287,323-324`). -/
def CVar.kernel (v : CVar L V) : KernelOp L V → Outcome (CVar L V × List V)
  | .read l => pure (v, [v.dev l])
  | .write ws => do
    let s ← v.state.modDev
    pure ({ v with dev := pokes v.dev ws, state := s }, [])

/-- The kernels of one run. -/
def CVar.kernels (v : CVar L V) : List (KernelOp L V) → Outcome (CVar L V × List V)
  | [] => pure (v, [])
  | k :: ks => do
    let r ← v.kernel k
    let t ← CVar.kernels r.1 ks
    pure (t.1, r.2 ++ t.2)

/-- `run_solution` (`context.cpp:277`): the data are copied to the device once, then the kernels run. -/
def CVar.run (v : CVar L V) (ks : List (KernelOp L V)) : Outcome (CVar L V × List V) := do
  let v ← v.copyToDevice
  v.kernels ks

/-- One call; the values read, in order. -/
def CVar.op (chk : Bool) (v : CVar L V) : CohOp L V → Outcome (CVar L V × List V)
  | .get l => do let r ← v.hostGet l; pure (r.1, [r.2])
  | .set ws => do let v ← v.hostSet ws; pure (v, [])
  | .setAll f => do let v ← v.setAll chk f; pure (v, [])
  | .init f => do let v ← v.init chk f; pure (v, [])
  | .run ks => v.run ks
  | .pack l => do let r ← v.devGet l; pure (r.1, [r.2])
  | .unpack ws => do let v ← v.devSet ws; pure (v, [])

/-- A sequence of calls. -/
def CVar.ops (chk : Bool) (v : CVar L V) : List (CohOp L V) → Outcome (CVar L V × List V)
  | [] => pure (v, [])
  | o :: os => do
    let r ← v.op chk o
    let t ← CVar.ops chk r.1 os
    pure (t.1, r.2 ++ t.2)

/-- `run_ref` (`context.cpp:46-217`): offloading is disabled, so a copy from the device moves no data
although it changes the state (`offload.hpp:236-241`, `yk_var.cpp:659-667`); the host copy is written
and the coherency state is not told (`mod_dev_data` is false, `context.cpp:199-202`).  `ks` are reads
and writes by the reference code. -/
def CVar.runRef (v : CVar L V) (ws : List (L × V)) : CVar L V :=
  { v with host := pokes v.host ws }

/-- Raw events: a modification of one copy or both, and a copy of all data, each followed by the call
of the corresponding member of `Coherency`. -/
inductive Ev (L V : Type)
  | hostWrite (ws : List (L × V))
  | devWrite (ws : List (L × V))
  | bothWrite (ws : List (L × V))
  | toDev
  | fromDev

/-- Effect of a raw event. -/
def CVar.ev (v : CVar L V) : Ev L V → Outcome (CVar L V)
  | .hostWrite ws => do let s ← v.state.modHost; pure { v with host := pokes v.host ws, state := s }
  | .devWrite ws => do let s ← v.state.modDev; pure { v with dev := pokes v.dev ws, state := s }
  | .bothWrite ws => do
    let s ← v.state.modBoth false
    pure { host := pokes v.host ws, dev := pokes v.dev ws, state := s }
  | .toDev => do let s ← v.state.hostCopiedToDev; pure { v with dev := v.host, state := s }
  | .fromDev => do let s ← v.state.devCopiedToHost; pure { v with host := v.dev, state := s }

/-- The writes of an event. -/
def Ev.writes : Ev L V → List (L × V)
  | .hostWrite ws | .devWrite ws | .bothWrite ws => ws
  | _ => []

end Yask.Coh
