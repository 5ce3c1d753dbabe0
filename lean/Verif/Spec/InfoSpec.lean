import Verif.Var.InfoModel

/-!
# Specification: sizes and offsets of vars after preparing a solution
-/

namespace Yask.Var

variable {V : Type}

/-- What holds for the vars of a solution and for vars made with `new_var`: each domain dim of the var is a domain dim of the solution,
with its fold length; and there is a vector length above 1 if any fold length is. -/
structure KVar.Ok (c : RunCfg) (k : KVar V) : Prop where
  reach : Reachable k.v
  inj : ∀ i < c.nd, ∀ j < c.nd, ∀ p, k.posn i = some p → k.posn j = some p → i = j
  valid : ∀ j < c.nd, ∀ p, k.posn j = some p → ∃ d, k.v.g.dims[p]? = some d ∧ d.kind = .domain ∧ d.solnVL = (c.dim j).fold
  all : ∀ p d, k.v.g.dims[p]? = some d → d.kind = .domain → ∃ j < c.nd, k.posn j = some p
  vlen : ∀ d ∈ k.v.g.dims, 1 < d.solnVL → k.v.g.vlenGt1 = true

/-- The sizes and offsets of a var follow the settings of the rank. -/
structure KVar.Set (c : RunCfg) (k : KVar V) : Prop where
  size : ∀ j < c.nd, ∀ p d, k.posn j = some p → k.v.g.dims[p]? = some d → d.domain = (c.dim j).rankSize
  rankOfs : ∀ j < c.nd, ∀ p d, k.posn j = some p → k.v.g.dims[p]? = some d → d.rankOfs = (c.dim j).rankBeg
  localOfs : ∀ j < c.nd, ∀ p d, k.posn j = some p → k.v.g.dims[p]? = some d → d.localOfs = 0

/-- The wave-front extensions of a var are those of the rank. -/
structure KVar.Extended (c : RunCfg) (k : KVar V) : Prop where
  left : ∀ j < c.nd, ∀ p d, k.posn j = some p → k.v.g.dims[p]? = some d → d.lExt = c.leftExt j
  right : ∀ j < c.nd, ∀ p d, k.posn j = some p → k.v.g.dims[p]? = some d → d.rExt = c.rightExt j

/-- Only sizes, offsets, pads and extensions of domain dims differ: same halos, kinds and fold lengths. -/
structure KVar.Kept (k k' : KVar V) : Prop where
  posn : k'.posn = k.posn
  flags : k'.fixed = k.fixed ∧ k'.user = k.user ∧ k'.orig = k.orig
  mem : k'.v.mem = k.v.mem
  vlen : k'.v.g.vlenGt1 = k.v.g.vlenGt1
  dims : k'.v.g.dims.map (fun d => (d.kind, d.lHalo, d.rHalo, d.solnVL)) = k.v.g.dims.map (fun d => (d.kind, d.lHalo, d.rHalo, d.solnVL))

/-- The var has the padding that the settings of the solution request: outside of halos and wave-front extensions (`ep`), and in total (`mp`). -/
structure KVar.Padded (c : RunCfg) (ep mp : Nat → Int) (k : KVar V) : Prop where
  left : ∀ j < c.nd, ∀ p d, k.posn j = some p → k.v.g.dims[p]? = some d → d.lHalo + d.lExt + ep j ≤ d.lPad ∧ mp j ≤ d.lPad
  right : ∀ j < c.nd, ∀ p d, k.posn j = some p → k.v.g.dims[p]? = some d → d.rHalo + d.rExt + ep j ≤ d.rPad ∧ mp j ≤ d.rPad

end Yask.Var
