import Verif.Var.VarModel

/-!
# Model of `YkVarBase::resize` and of the calls that change a var's sizes

`src/kernel/lib/yk_var.cpp:206-384` and the `SET_VAR_API` functions of
`src/kernel/lib/yk_var_apis.cpp:189-291`.
-/

namespace Yask.Var

/-- The checks at the start of `resize` (`yk_var.cpp:221-238`). -/
def DimG.settingsOk (d : DimG) : Bool :=
  decide (0 ≤ d.lHalo) && decide (0 ≤ d.rHalo) && decide (0 ≤ d.lExt) && decide (0 ≤ d.rExt) &&
    decide (0 ≤ d.reqLPad) && decide (0 ≤ d.reqRPad) && decide (0 ≤ d.reqLEpad) &&
    decide (0 ≤ d.reqREpad)

/-- New left pad of a domain dimension (`yk_var.cpp:245,263-270,286,302-305`). -/
def DimG.newLPad (vlenGt1 allocated : Bool) (d : DimG) : Int :=
  let a := d.lHalo + d.lExt + d.reqLEpad
  let b := max a d.reqLPad
  let c := roundUp b d.solnVL
  let e := if vlenGt1 then c + d.solnVL else c
  if allocated then max e d.lPad else e

/-- New right pad of a domain dimension before the odd-size adjustment
(`yk_var.cpp:246,264-276,287`). -/
def DimG.newRPad0 (vlenGt1 : Bool) (d : DimG) : Int :=
  let a := d.rHalo + d.rExt + d.reqREpad
  let b := max a d.reqRPad
  let c := roundUp (d.domain + b) d.solnVL - d.domain
  if vlenGt1 then c + d.solnVL else c

/-- New right pad of a domain dimension (`yk_var.cpp:290-305`).  Lines 294-301 run only without
storage, when the left pad is the one computed before line 302. -/
def DimG.newRPad (vlenGt1 allowAddl allocated : Bool) (d : DimG) : Int :=
  let r := d.newRPad0 vlenGt1
  let na := d.newLPad vlenGt1 false + d.domain + r
  let r1 :=
    if !allocated && allowAddl && d.isInner && decide ((na.tdiv d.solnVL).tmod 2 = 0) then r + d.solnVL
    else r
  if allocated then max r1 d.rPad else r1

/-- Sizes computed by `resize` for one dimension (`yk_var.cpp:243-322,334-345`). -/
def DimG.resized (vlenGt1 allowAddl allocated : Bool) (d : DimG) : DimG :=
  let lp := if d.kind = .domain then d.newLPad vlenGt1 allocated else d.lHalo + d.lExt
  let rp := if d.kind = .domain then d.newRPad vlenGt1 allowAddl allocated else d.rHalo + d.rExt
  let al := if d.kind = .domain then d.domain + (lp + rp) else d.domain
  { d with
    lPad := lp, rPad := rp, alloc := al,
    vecLPad := lp.tdiv d.varVL, vecAlloc := al.tdiv d.varVL }

/-- Number of dirty flags needed (`yk_var.cpp:336,350-352`). -/
def newDirty (ds : List DimG) : Int :=
  match ds.find? (fun d => d.kind == .step) with
  | some d => d.alloc
  | none => 1

/-- `init_valid_steps` (`yk_var.hpp:798-801`). -/
def initValidSteps (ds : List DimG) : List DimG :=
  match ds with
  | d :: ds => (if d.kind = .step then { d with localOfs := 0 } else d) :: ds
  | [] => []

/-- `resize` (`yk_var.cpp:206-384`); `none` is an exception.  An exception leaves the sizes as they
were, but not the setting that the caller changed before calling `resize`. -/
def Geom.resize (g : Geom) (allocated : Bool) : Option Geom :=
  if !g.dims.all DimG.settingsOk then none
  else
    let ds := g.dims.map (DimG.resized g.vlenGt1 g.allowAddlPad allocated)
    if allocated && decide (g.dims.map DimG.alloc ≠ ds.map DimG.alloc) then none
    else if g.numDirty ≠ newDirty ds then
      some { g with dims := initValidSteps ds, numDirty := newDirty ds }
    else some { g with dims := ds }

/-- The fields of a dimension that calls can change. -/
inductive Setting
  /-- `set_alloc_size`, `_set_alloc_size`, `_set_domain_size` -/
  | size
  | leftHalo | rightHalo | halo
  | leftMinPad | rightMinPad | minPad
  | leftExtraPad | rightExtraPad | extraPad
  /-- `update_min_pad_size`, `update_extra_pad_size`, `update_left_min_pad_size`, `update_right_min_pad_size` -/
  | updMinPad | updExtraPad | updLeftMinPad | updRightMinPad
  /-- `_set_left_wf_ext`, `_set_right_wf_ext` -/
  | leftExt | rightExt
  | rankOfs
  | localOfs
  | firstMisc
  deriving DecidableEq, Repr

/-- Effect of a setting on the dimension (`yk_var_apis.cpp:189-291`). -/
def Setting.modify (s : Setting) (n : Int) (d : DimG) : DimG :=
  match s with
  | .size => { d with domain := n }
  | .leftHalo => { d with lHalo := n }
  | .rightHalo => { d with rHalo := n }
  | .halo => { d with lHalo := n, rHalo := n }
  | .leftMinPad => { d with reqLPad := n }
  | .rightMinPad => { d with reqRPad := n }
  | .minPad => { d with reqLPad := n, reqRPad := n }
  | .leftExtraPad => { d with reqLEpad := n }
  | .rightExtraPad => { d with reqREpad := n }
  | .extraPad => { d with reqLEpad := n, reqREpad := n }
  | .updMinPad => { d with reqLPad := max n d.reqLPad, reqRPad := max n d.reqRPad }
  | .updLeftMinPad => { d with reqLPad := max n d.reqLPad }
  | .updRightMinPad => { d with reqRPad := max n d.reqRPad }
  | .updExtraPad => { d with reqLEpad := max n d.reqLEpad, reqREpad := max n d.reqREpad }
  | .leftExt => { d with lExt := n }
  | .rightExt => { d with rExt := n }
  | .rankOfs => { d with rankOfs := n }
  | .localOfs => { d with localOfs := n, vecLocalOfs := n.tdiv d.varVL }
  | .firstMisc => { d with localOfs := n }

/-- The kinds of dimension for which the call is made: the `step_ok`, `domain_ok`, `misc_ok`
arguments of `SET_VAR_API`; the internal setters are called by `update_var_info` for domain
dimensions only (`src/kernel/lib/setup.cpp:666-800`), `_set_local_offset` also for misc dimensions by
the generated constructor, with a multiple of the vector length (assertion at
`yk_var_apis.cpp:195`). -/
def Setting.allowed (s : Setting) (n : Int) (d : DimG) : Bool :=
  match s with
  | .size => true
  | .localOfs =>
    (d.kind == .domain && decide (imodFlr n d.varVL = 0)) || d.kind == .misc
  | .firstMisc => d.kind == .misc
  | _ => d.kind == .domain

/-- The `need_resize` argument of `SET_VAR_API`. -/
def Setting.needResize : Setting → Bool
  | .rankOfs | .localOfs | .firstMisc => false
  | _ => true

variable {V : Type}

/-- A setting call: the var afterwards, and whether an exception was thrown.  The field is changed
before `resize` is called (`yk_var_apis.cpp:79-101`), and stays changed if `resize` throws. -/
def callSetting (v : YVar V) (posn : Nat) (s : Setting) (n : Int) : YVar V × Bool :=
  match v.g.dims[posn]? with
  | none => (v, true)
  | some d =>
    if !s.allowed n d then (v, true)
    else
      let g1 := { v.g with dims := v.g.dims.set posn (s.modify n d) }
      if s.needResize then
        match g1.resize v.mem.isSome with
        | some g2 => ({ v with g := g2 }, false)
        | none => ({ v with g := g1 }, true)
      else ({ v with g := g1 }, false)

/-- What the constructors of `YkElemVar` and `YkVecVar` set before their `resize()`
(`yk_var.hpp:1489-1525,1696-1752`): the kind and the vector lengths of each dimension. -/
structure Geom.Constructed (g : Geom) : Prop where
  /-- the step dimension, if any, is the first one -/
  stepFirst : ∀ d ∈ g.dims.tail, d.kind ≠ .step
  /-- other fields as set by the constructor of `YkVarBaseCore` -/
  fresh : ∀ d ∈ g.dims, ∃ k sv vv inn,
    d = { kind := k, solnVL := sv, varVL := vv, isInner := inn }
  vlPos : ∀ d ∈ g.dims, 0 < d.solnVL ∧ 0 < d.varVL
  /-- only domain dimensions are folded -/
  vlDomain : ∀ d ∈ g.dims, d.kind ≠ .domain → d.solnVL = 1
  /-- a scalar var is not folded; a vector var uses the folding of the solution -/
  vlVar : ∀ d ∈ g.dims, d.varVL = if g.isVec then d.solnVL else 1
  noDirty : g.numDirty = 0
  layoutPerm : g.layout.Perm (List.range g.dims.length)
  /-- `_vec_fold_posns`: the positions of the folded dimensions, each once -/
  foldNodup : g.foldPosns.Nodup
  foldLens : g.foldLens = g.foldPosns.map fun j => (g.dims.map DimG.varVL).getD j 0
  foldAll : g.isVec = true → ∀ j, j ∈ g.foldPosns ↔
    j < g.dims.length ∧ (g.dims.map DimG.varVL).getD j 0 ≠ 1
  foldNone : g.isVec = false → g.foldPosns = []

/-- The vars that a program can obtain: construction, setting calls that return normally, allocation
and release of storage, any change of the stored values, and movement of the valid steps. -/
inductive Reachable : YVar V → Prop
  | construct (g g' : Geom) : g.Constructed → g.resize false = some g' → Reachable ⟨g', none⟩
  | setting (v v' : YVar V) (posn : Nat) (s : Setting) (n : Int) :
      Reachable v → callSetting v posn s n = (v', false) → Reachable v'
  | storage (v : YVar V) (m : Option (Int → V)) : Reachable v → Reachable { v with mem := m }
  | validStep (v : YVar V) (t : Int) : Reachable v → Reachable { v with g := v.g.updateValidStep t }

end Yask.Var
