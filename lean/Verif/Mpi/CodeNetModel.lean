import Verif.Kernel.SolnRunModel
import Verif.Mpi.PrepModel
import Verif.Spec.CodeRunSpec

/-!
# Model of a run of the generated code on several ranks

`run_solution` on several ranks as in `Mpi/NetModel.lean`, with what `prepare_solution()` sets up as in `Mpi/PrepModel.lean`; but the
parts are evaluated by running the inner loops of the generated code on the storage of the vars of each rank, as in
`Kernel/SolnRunModel.lean`, and a halo exchange copies elements from the storage of one rank to that of another.

Simplifications: as in those models. A message holds the elements of the slice, one step slot after the other, in the order of their
indices: that the copies of slices into and from buffers do this, by elements or by vectors, is C18 and C19.
-/

namespace Yask.Mpi
open Spec Var Nano RunCfg Comp Spec.Cpp

/-- All ranks: what `prepare_solution()` sets up; the generated code on each rank; geometry of each var on each rank; names of the dims
of each var; and the step slots of the vars that a part sets in a step (`get_output_step_index` and the output vars of the part, see
`StencilPartBase::update_var_info`, `src/kernel/lib/stencil_calc.cpp:285-330`). -/
structure CodeNet where
  P : Prep
  code : Nat → SolnCode
  geo : Nat → Nat → Geom
  names : Nat → List String
  outs : Nat → Nat → Int → Slot → Bool

/-- The slots that the parts of a stage set in a step (`StencilContext::update_var_info`, `src/kernel/lib/context.cpp:1549-1578`). -/
def CodeNet.stageOuts (X : CodeNet) (st : Nat) (t : Int) (β : Slot) : Bool :=
  (List.range ((X.code 0).cfg.nparts st)).any fun p => X.outs st p t β

/-- Ranks, buffers and flags. -/
def CodeNet.net (X : CodeNet) : Net := X.P.net X.stageOuts

/-- Storage of the vars and dirty flags (`_dirty_steps`) of all ranks. -/
structure CState (V : Type) where
  mem : Nat → Nat → Int → V
  self : Nat → Slot → Bool
  others : Nat → Slot → Bool

section
variable {V : Type}

/-- The flags only. -/
def CState.flags (s : CState V) : NState Unit := ⟨fun _ _ => (), s.self, s.others⟩

/-- The elements of var `k` of rank `r` in the region of a buffer in step slot `t`: that slot, the region in domain dims, all indices in
misc dims (`src/kernel/lib/alloc.cpp:648-770`, `src/kernel/lib/halo.cpp:242-243,274-278`). -/
def CodeNet.slice (X : CodeNet) (r k : Nat) (b : XBuf) (t : Nat) : Box :=
  (List.range (X.geo r k).dims.length).map fun i => match (X.geo r k).dims[i]? with
    | none => (0, 0)
    | some d => match d.kind with
      | .step => ((t : Int), (t : Int) + 1)
      | .domain => let j := (X.code r).dims.idxOf ((X.names k).getD i ""); (b.beg j, b.fin j)
      | .misc => (d.firstLocal, d.lastLocal + 1)

/-- Read of several elements (`get_elements_in_slice`, `get_vecs_in_slice`). -/
def readAll (g : Geom) (m : Int → V) : List (List Int) → Outcome (List V)
  | [] => .ok []
  | i :: l => do
    let w ← readAt g m i
    let ws ← readAll g m l
    .ok (w :: ws)

/-- Write of several elements (`set_elements_in_slice`, `set_vecs_in_slice`); there must be a value for each element. -/
def writeAll (g : Geom) : (Int → V) → List (List Int) → List V → Outcome (Int → V)
  | m, [], [] => .ok m
  | m, i :: l, w :: ws => do
    let m' ← writeAt g m w i
    writeAll g m' l ws
  | _, _, _ => .undefined

/-- One step slot of a message: packed from the storage `src` of rank `nb` (`halo.cpp:270-295`), unpacked into the storage `m` of rank
`me` (`halo.cpp:380-437`). -/
def CodeNet.copySlot (X : CodeNet) (me nb k : Nat) (rb sb : XBuf) (src m : Int → V) (t : Nat) : Outcome (Int → V) := do
  let ws ← readAll (X.geo nb k) src (boxPoints (X.slice nb k sb t))
  writeAll (X.geo me k) m (boxPoints (X.slice me k rb t)) ws

/-- The message of neighbour `nb` for var `k`, received into the storage `m` of the var on rank `me`, if the var is exchanged
(`halo.cpp:186-437`); it is empty if the sender has not changed the var (`halo.cpp:254-270`). A receive buffer without a send buffer of
the sender, or the other way around: a message is missing. -/
def CodeNet.recv (X : CodeNet) (src : CState V) (me k : Nat) (m : Int → V) (nb : Nat) : Outcome (Int → V) :=
  if X.net.toSwap src.flags me k = [] then .ok m
  else match X.P.buf me nb k false, X.P.buf nb me k true with
    | some rb, some sb =>
      if X.net.mineDirty src.flags nb k then
        (X.net.toSwap src.flags me k).foldlM (X.copySlot me nb k rb sb (src.mem nb k)) m
      else .ok m
    | none, none => .ok m
    | _, _ => .undefined

/-- All messages for a var. -/
def CodeNet.recvAll (X : CodeNet) (src : CState V) (me k : Nat) (m : Int → V) : Outcome (Int → V) :=
  (X.P.nbrs me).foldlM (X.recv src me k) m

/-- `exchange_halos` (`halo.cpp:78-490`): as `Net.exchangeFrom`, on the storage. -/
def CodeNet.exchangeFrom (X : CodeNet) (src cur : CState V) : Outcome (CState V) :=
  if (∀ r < X.P.n, ∀ nb ∈ X.P.nbrs r, X.net.swapList src.flags r = X.net.swapList src.flags nb) ∧
      ∀ r < X.P.n, ∀ k < X.P.nvars, (X.recvAll src r k (cur.mem r k)).isOk = true then
    .ok { mem := fun r k => if r < X.P.n ∧ k < X.P.nvars then
            match X.recvAll src r k (cur.mem r k) with
            | .ok m => m
            | _ => cur.mem r k
          else cur.mem r k
          self := fun r β => if β.1 < X.P.nvars ∧ X.net.toSwap src.flags r β.1 ≠ [] then false else cur.self r β
          others := fun r β => if β.1 < X.P.nvars ∧ X.net.toSwap src.flags r β.1 ≠ [] then false else cur.others r β }
  else .undefined

/-- All mega-blocks of one section of a rank (`context.cpp:404-417,447-459,510-523,552-564`). -/
def sectCode (R : SolnCode) (dir : Int) (p : Pass) (sect : Sect) : Traces CodeAct :=
  doSeq ((scan R.cfg.rankLoop).map fun base => R.cfg.calcMegaWith R.evalMicro dir p.stages sect base p.t0 p.nt)

/-- What a rank runs before it packs its messages (`context.cpp:376-417,447-459,486-523,552-564`), as `packedPass`. -/
def packedCode (R : SolnCode) (dir : Int) (p : Pass) : Traces CodeAct :=
  doSeq ((R.cfg.sections.filter fun s => decide (s ≠ .interior)).map (sectCode R dir p))

/-- What it runs afterwards (`context.cpp:447-459,552-564`), as `laterPass`. -/
def laterCode (R : SolnCode) (dir : Int) (p : Pass) : Traces CodeAct :=
  doSeq ((R.cfg.sections.filter fun s => decide (s = .interior)).map (sectCode R dir p))

/-- Possible results of one pass on all ranks: rank `r` runs the inner loops `a r`, which mark the slots `mk r` as modified
(`stencil_calc.cpp:274-330`: at least what a part sets if its inner loop wrote a vector, at most what the stages set in the steps of the
pass); packs; runs the inner loops `b r`; and unpacks. -/
def CodeNet.PassTo (X : CodeNet) (u : V) (A : Arith V) (dir : Int) (p : Pass) (s : CState V) (o : Outcome (CState V)) : Prop :=
  ∃ (a b : Nat → List CodeAct) (mk : Nat → Slot → Bool),
    (∀ r < X.P.n, packedCode (X.code r) dir p (a r) ∧ laterCode (X.code r) dir p (b r) ∧
      (∀ c ∈ a r, 0 < c.run.n → c.run.mask ≠ 0#64 → ∀ β, X.outs c.stage c.part c.step β = true → mk r β = true) ∧
      ∀ β, mk r β = true → X.net.passOuts dir p β = true) ∧
    ((∃ m1 m2 : Nat → Nat → Int → V,
        (∀ r < X.P.n, (X.code r).exec u A (a r) (s.mem r) = .ok (m1 r) ∧ (X.code r).exec u A (b r) (m1 r) = .ok (m2 r)) ∧
        let src : CState V := ⟨m1, fun r β => s.self r β || mk r β, fun r β => s.others r β || X.net.passOuts dir p β⟩
        o = X.exchangeFrom src { src with mem := m2 }) ∨
      ((∃ r < X.P.n, ((X.code r).exec u A (a r ++ b r) (s.mem r)).isOk = false) ∧ o = .undefined))

/-- Possible results of a list of passes. -/
def CodeNet.PassesTo (X : CodeNet) (u : V) (A : Arith V) (dir : Int) : List Pass → CState V → Outcome (CState V) → Prop
  | [], s, o => o = .ok s
  | p :: ps, s, o => ∃ o1, X.PassTo u A dir p s o1 ∧
    ((∃ s1, o1 = .ok s1 ∧ X.PassesTo u A dir ps s1 o) ∨ (o1.isOk = false ∧ o = o1))

/-- Possible results of `run_solution(first, last)` on all ranks (`context.cpp:218-615`), as `Net.RunTo`. -/
def CodeNet.RunTo (X : CodeNet) (u : V) (A : Arith V) (first last : Int) (s : CState V) (o : Outcome (CState V)) : Prop :=
  let s0 : CState V := { s with others := fun _ _ => true }
  if ∀ r < X.P.n, passes (X.code r).cfg first last = passes (X.code 0).cfg first last then
    ∃ o1, o1 = X.exchangeFrom s0 s0 ∧
      ((∃ s1, o1 = .ok s1 ∧ X.PassesTo u A (stepDir first last) (passes (X.code 0).cfg first last) s1 o) ∨ (o1.isOk = false ∧ o = o1))
  else o = .undefined

end
end Yask.Mpi
