import Verif.Compiler.SessLemmas
import Verif.Props.Parts

/-!
# Property C89: a solution may be output several times

A solution may be output for one target after the other. What is then used for the output is what is used if it is the only one: what an
earlier output has kept in the solution, its settings, equations and vars is not seen. Not so if the solution is changed between the
outputs, or if scratch vars with different halos are not to be bundled.
-/

namespace Yask
open Comp Dims

section
variable {π ε Λ κ ν : Type} [DecidableEq π] [DecidableEq ε] [DecidableEq Λ] [DecidableEq κ] [DecidableEq ν]

/-- Specification: what is used for an output, computed from what the user has defined and the target alone. -/
def Comp.CSrc.spec (s : CSrc π ε Λ κ ν) (o : Orders ε Λ) (inner : InnerOpt String) (t : Target) : Outcome (COut ε) := do
  let f ← Dims.findDims s.step s.domain s.vars
  let inner := innerDim f.domain inner
  let fold ← setFold f.domain t.req inner t.vlen t.eff
  let step := f.step.getD ""
  let d ← s.cs.foldlM (checkEq ⟨step, f.domain, ((f.domain.zip fold).filter fun e => decide (e.2 > 1)).map Prod.fst⟩) 0
  let L ← ({ s.sys with compat := s.sameDims } : EqSys ε Λ κ ν).compile o.lv o.eqs o.parts o.stages
  .ok ⟨f, inner, fold, layoutDims s.innerMisc s.outerDomain (prodVals fold) step f.domain f.misc, if d = 0 then 1 else d, L⟩

/-- What is used for an output of a solution. -/
def Comp.CSrc.result (s : CSrc π ε Λ κ ν) (o : Orders ε Λ) (t : Target) (k : CKept ε Λ) : Outcome (COut ε) := do
  let r ← s.output o t k
  .ok r.1

/-- C89: the first output. The option not to bundle scratch vars with different halos has no effect on it. -/
theorem C89_first {s : CSrc π ε Λ κ ν} {o : Orders ε Λ} {inner : InnerOpt String} {k0 : CKept ε Λ}
    (h0 : CKept.fresh s inner = .ok k0) (t : Target) : s.result o t k0 = s.spec o inner t := by
  unfold CKept.fresh at h0
  cases hu : s.sys.userGroup with
  | throws => rw [hu] at h0; cases h0
  | undefined => rw [hu] at h0; cases h0
  | ok g0 =>
  rw [hu] at h0
  cases h0
  have hc : s.compat (fun _ => {}) = s.sameDims := by
    funext a b
    have : haloSame (s.domDims (s.varNum a)) {} {} = true := by
      unfold haloSame
      simp
    unfold CSrc.compat
    rw [this, Bool.or_true, Bool.and_true]
  have hu' : ({ s.sys with compat := s.sameDims } : EqSys ε Λ κ ν).userGroup = .ok g0 := hu
  unfold CSrc.result CSrc.output CSrc.spec EqSys.compile EqSys.analyze
  rw [hu']
  simp only [Outcome.bind_ok, hc]
  have hfd : s.findDims none = Dims.findDims s.step s.domain s.vars := by unfold CSrc.findDims; rw [Option.or_none]
  rw [hfd]
  cases Dims.findDims s.step s.domain s.vars with
  | throws => rfl
  | undefined => rfl
  | ok f =>
  simp only [Outcome.bind_ok]
  cases setFold f.domain t.req (innerDim f.domain inner) t.vlen t.eff with
  | throws => rfl
  | undefined => rfl
  | ok fold =>
  simp only [Outcome.bind_ok]
  cases s.cs.foldlM (checkEq ⟨f.step.getD "", f.domain, ((f.domain.zip fold).filter fun e => decide (e.2 > 1)).map Prod.fst⟩) 0 with
  | throws => rfl
  | undefined => rfl
  | ok d =>
  simp only [Outcome.bind_ok]
  have hl : s.sys.lvFrom o.lv {} = ({ s.sys with compat := s.sameDims } : EqSys ε Λ κ ν).lvGroup o.lv := rfl
  rw [hl]
  cases ({ s.sys with compat := s.sameDims } : EqSys ε Λ κ ν).lvGroup o.lv with
  | throws => rfl
  | undefined => rfl
  | ok lv =>
  simp only [Outcome.bind_ok]
  have hg : s.sys.eqGroup lv g0 o.eqs = ({ s.sys with compat := s.sameDims } : EqSys ε Λ κ ν).eqGroup lv g0 o.eqs := rfl
  rw [hg]
  cases ({ s.sys with compat := s.sameDims } : EqSys ε Λ κ ν).eqGroup lv g0 o.eqs with
  | throws => rfl
  | undefined => rfl
  | ok g =>
  simp only [Outcome.bind_ok]
  cases ({ s.sys with compat := s.sameDims } : EqSys ε Λ κ ν).makeParts g o.parts with
  | throws => rfl
  | undefined => rfl
  | ok P =>
  simp only [Outcome.bind_ok]
  cases ({ s.sys with compat := s.sameDims } : EqSys ε Λ κ ν).makeStages P o.stages with
  | throws => rfl
  | undefined => rfl
  | ok Q => rfl

/-- C89: after any number of successful outputs for any targets, what is used for the next output - dims, inner-loop dim, fold, layout, step
direction, stages, or the exception - is what is defined by the user's input and its target alone. -/
theorem C89_again_partial {s : CSrc π ε Λ κ ν} {o : Orders ε Λ} (hS : s.sys.Valid) (hL : ∀ l, (o.lv l).Perm l) (hE : ∀ l, (o.eqs l).Perm l)
    (hb : s.bundleScratch = true) {inner : InnerOpt String} {k0 : CKept ε Λ} (h0 : CKept.fresh s inner = .ok k0) {ts : List Target} {k : CKept ε Λ}
    (h : s.After o k0 ts k) (t : Target) : s.result o t k = s.spec o inner t := by
  rw [← C89_first h0 t]
  have hk0 : k0.step = none ∧ k0.dir = 0 ∧ k0.lv = {} ∧ k0.eqs.Ok := by
    unfold CKept.fresh at h0
    cases hu : s.sys.userGroup with
    | throws => rw [hu] at h0; cases h0
    | undefined => rw [hu] at h0; cases h0
    | ok g0 =>
      rw [hu] at h0
      cases h0
      exact ⟨rfl, rfl, rfl, userGroup_ok hS hu⟩
  rcases inv_after hL hE hk0 h with rfl | hk
  · rfl
  · exact output_again hL hE hb hk0 hk t

end

/-- C89: if no stage needs scratch vars, then the halos, distances and written steps in the vars after any number of outputs are those after the
first. -/
theorem C89_halos_partial {S : HSys} (hS : S.NoScratch) (n : Nat) (v : Nat) :
    (((S.calcHalosFrom)^[n + 1] fun _ => {}) v).Same (S.calcHalos v) := calcHalos_again hS n v

/-! ### A concrete case -/

/-- Points of the equations below. -/
def exSessPt (v : String) (scr : Bool) (t : Option ℤ) (x : ℤ) (y : ℤ) : CPt String :=
  match t with
  | some k => { var := ⟨v, scr, [("t", .step), ("x", .domain), ("y", .domain)]⟩,
                args := [.index "t" .step, .index "x" .domain, .index "y" .domain], offsets := [("t", k), ("x", x), ("y", y)] }
  | none => { var := ⟨v, scr, [("x", .domain), ("y", .domain)]⟩, args := [.index "x" .domain, .index "y" .domain], offsets := [("x", x), ("y", y)] }

/-- The same points for halos. -/
def exSessHPt (v : Nat) (t : Option ℤ) (x y : ℤ) : Pt := ⟨v, t, [("x", x), ("y", y)]⟩

/-- `a(x,y) = u(t,x,y)`, `b(x,y) = u(t,x-1,y)`, `u(t+1,x,y) = a(x+1,y) + b(x,y)`, with scratch vars `a` and `b`. -/
def exSessEqs : List PEq := [⟨exSessHPt 1 none 0 0, [exSessHPt 0 (some 0) 0 0]⟩, ⟨exSessHPt 2 none 0 0, [exSessHPt 0 (some 0) (-1) 0]⟩,
  ⟨exSessHPt 0 (some 1) 0 0, [exSessHPt 1 none 1 0, exSessHPt 2 none 0 0]⟩]

/-- The stages with their points. -/
def exSessH (es : List PEq) (scr : Nat → Bool) (L : List (List (List Nat))) : HSys :=
  let sts := L.zipIdx.map fun p => (⟨p.2, (p.1.flatten.head?.map scr).getD false, p.1.map fun q => q.map fun i => es.getD i ⟨exSessHPt 0 none 0 0, []⟩⟩ : HStage)
  ⟨sts, fun _ => (sts.filter fun s => s.scr).map HStage.id⟩

def exSess : CSrc String Nat Nat Nat Nat where
  step := none
  domain := []
  innerMisc := false
  outerDomain := false
  bundleScratch := true
  vars := [⟨false, [("t", .step), ("x", .domain), ("y", .domain)]⟩, ⟨true, [("x", .domain), ("y", .domain)]⟩, ⟨true, [("x", .domain), ("y", .domain)]⟩]
  cs := [⟨exSessPt "a" true none 0 0, [exSessPt "u" false (some 0) 0 0]⟩, ⟨exSessPt "b" true none 0 0, [exSessPt "u" false (some 0) (-1) 0]⟩,
    ⟨exSessPt "u" false (some 1) 0 0, [exSessPt "a" true none 1 0, exSessPt "b" true none 0 0]⟩]
  sys := { eqs := [0, 1, 2], lhs := fun e => [11, 12, 1].getD e 0, rhs := fun e => [[0], [0], [11, 12]].getD e [], var := fun e => [1, 2, 0].getD e 0,
           scr := fun e => decide (e < 2), lvScr := fun l => decide (l > 10), key := fun _ => 0, clash := fun _ _ => false, compat := fun _ _ => true,
           wanted := fun _ => true, findDeps := true, bundle := true, user := [] }
  sameDims := fun _ _ => true
  varNum := fun e => [1, 2, 0].getD e 0
  domDims := fun _ => ["x", "y"]
  hsys := exSessH exSessEqs fun e => decide (e < 2)

def exSessOrd : Orders Nat Nat := ⟨id, id, id, id⟩

/-- 8 SIMD elements, folded as 4 x 2; and 4 elements, folded as YASK chooses. -/
def exSessT1 : Target := ⟨8, true, fun d => if d = "x" then some 4 else if d = "y" then some 2 else none⟩
def exSessT2 : Target := ⟨4, true, fun _ => none⟩

example : exSess.sys.Valid := ⟨by decide, by decide⟩

/-- Some of what is used. -/
structure ExSee where
  inner : String
  fold : List ℤ
  dir : ℤ
  stages : List (List (List Nat))
deriving DecidableEq

def exSessSee (r : COut Nat × CKept Nat Nat) : ExSee := ⟨r.1.inner, r.1.fold, r.1.dir, r.1.stages⟩

/-- Two outputs; the solution may be extended between them. -/
def exSessTwo (t1 : Target) (s1 s2 : CSrc String Nat Nat Nat Nat) : Outcome ExSee × Outcome ExSee :=
  let r1 := (CKept.fresh s1 .unset).bind (s1.output exSessOrd t1)
  (r1.bind fun r1 => .ok (exSessSee r1), r1.bind fun r1 => (s2.output exSessOrd exSessT2 (s2.more r1.2)).bind fun r2 => .ok (exSessSee r2))

/-- One output. -/
def exSessOne (s : CSrc String Nat Nat Nat Nat) : Outcome ExSee :=
  (CKept.fresh s .unset).bind fun k0 => (s.output exSessOrd exSessT2 k0).bind fun r => .ok (exSessSee r)

example : exSessTwo exSessT1 exSess exSess = (.ok ⟨"y", [4, 2], 1, [[[0, 1]], [[2]]]⟩, .ok ⟨"y", [4, 1], 1, [[[0, 1]], [[2]]]⟩) := by decide +kernel

theorem exSessOk {α : Type} {x : Outcome α} (h : x.isOk = true) : ∃ a, x = .ok a := by
  cases x with
  | ok a => exact ⟨a, rfl⟩
  | throws => cases h
  | undefined => cases h

/-- A state after two outputs. -/
example : ∃ k0 k, CKept.fresh exSess .unset = .ok k0 ∧ exSess.After exSessOrd k0 [exSessT1, exSessT2] k := by
  have h0 : (CKept.fresh exSess .unset).isOk = true := by decide +kernel
  obtain ⟨k0, e0⟩ := exSessOk h0
  have h2 : (do
      let k0 ← CKept.fresh exSess .unset
      let r1 ← exSess.output exSessOrd exSessT1 k0
      exSess.output exSessOrd exSessT2 r1.2 : Outcome _).isOk = true := by decide +kernel
  rw [e0] at h2
  simp only [Outcome.bind_ok] at h2
  cases e1 : exSess.output exSessOrd exSessT1 k0 with
  | throws => rw [e1] at h2; cases h2
  | undefined => rw [e1] at h2; cases h2
  | ok r1 =>
    rw [e1] at h2
    simp only [Outcome.bind_ok] at h2
    obtain ⟨r2, e2⟩ := exSessOk h2
    exact ⟨k0, r2.2, e0, .output (ts := [exSessT1]) (ps := id) (ss := id) (r := r2.1) (.output (ts := []) (ps := id) (ss := id) (r := r1.1) .none e1) e2⟩

/-- `a = u` and `f = u` with one condition, `a = u` and `d = u` with another, `u(t+1,x,y) = a(x,y) + f(x,y) + d(x+2,y)`, with scratch vars
`a`, `f` and `d`. Scratch vars with different halos are not to be bundled. -/
def exSessBundle : CSrc String Nat Nat Nat Nat :=
  { exSess with
    bundleScratch := false
    cs := [⟨exSessPt "a" true none 0 0, [exSessPt "u" false (some 0) 0 0]⟩, ⟨exSessPt "f" true none 0 0, [exSessPt "u" false (some 0) 0 0]⟩,
      ⟨exSessPt "a" true none 0 0, [exSessPt "u" false (some 0) 0 0]⟩, ⟨exSessPt "d" true none 0 0, [exSessPt "u" false (some 0) 0 0]⟩,
      ⟨exSessPt "u" false (some 1) 0 0, [exSessPt "a" true none 0 0, exSessPt "f" true none 0 0, exSessPt "d" true none 2 0]⟩]
    sys := { exSess.sys with
      eqs := [0, 1, 2, 3, 4], lhs := fun e => [11, 12, 11, 13, 1].getD e 0, rhs := fun e => [[0], [0], [0], [0], [11, 12, 13]].getD e []
      var := fun e => [1, 2, 1, 3, 0].getD e 0, scr := fun e => decide (e < 4), key := fun e => [1, 1, 2, 2, 0].getD e 0 }
    varNum := fun e => [1, 2, 1, 3, 0].getD e 0
    hsys := exSessH [⟨exSessHPt 1 none 0 0, [exSessHPt 0 (some 0) 0 0]⟩, ⟨exSessHPt 2 none 0 0, [exSessHPt 0 (some 0) 0 0]⟩,
      ⟨exSessHPt 1 none 0 0, [exSessHPt 0 (some 0) 0 0]⟩, ⟨exSessHPt 3 none 0 0, [exSessHPt 0 (some 0) 0 0]⟩,
      ⟨exSessHPt 0 (some 1) 0 0, [exSessHPt 1 none 0 0, exSessHPt 2 none 0 0, exSessHPt 3 none 2 0]⟩] fun e => decide (e < 4) }

/-- The first output bundles them, as their halos are not known then; the second does not. -/
theorem C89_bundle_false : exSessTwo exSessT2 exSessBundle exSessBundle =
    (.ok ⟨"y", [4, 1], 1, [[[0, 1], [2, 3]], [[4]]]⟩, .ok ⟨"y", [4, 1], 1, [[[0], [2, 3], [1]], [[4]]]⟩) := by decide +kernel

/-- A solution with a var of dims `t` and `x` only, and no equations. -/
def exSessNone : CSrc String Nat Nat Nat Nat :=
  { exSess with vars := [⟨false, [("t", .step), ("x", .domain)]⟩], cs := [], sys := { exSess.sys with eqs := [] } }

/-- The inner-loop dim of the first output stays, although the user has not set any: without it, it is the last domain dim. -/
theorem C89_inner_false : exSessTwo exSessT2 exSessNone exSess =
      (.ok ⟨"x", [4], 1, []⟩, .ok ⟨"x", [1, 4], 1, [[[0, 1]], [[2]]]⟩) ∧
    exSessOne exSess = .ok ⟨"y", [4, 1], 1, [[[0, 1]], [[2]]]⟩ := by decide +kernel

/-- One equation that steps backward: `u(t-1,x,y) = u(t,x+1,y)`. -/
def exSessBack : CSrc String Nat Nat Nat Nat :=
  { exSess with cs := [⟨exSessPt "u" false (some (-1)) 0 0, [exSessPt "u" false (some 0) 1 0]⟩]
                sys := { exSess.sys with eqs := [0], lhs := fun _ => 1, rhs := fun _ => [0], var := fun _ => 0, scr := fun _ => false }
                hsys := exSessH [⟨exSessHPt 0 (some (-1)) 0 0, [exSessHPt 0 (some 0) 1 0]⟩] fun _ => false }

/-- After an output without equations, equations that step backward are rejected. -/
theorem C89_dir_false : exSessTwo exSessT2 { exSessBack with cs := [], sys := { exSessBack.sys with eqs := [] } } exSessBack =
      (.ok ⟨"y", [4, 1], 1, []⟩, .throws) ∧
    exSessOne exSessBack = .ok ⟨"y", [4, 1], -1, [[[0]]]⟩ := by decide +kernel

/-- `u(t+1,x,y) = u(t,x,y)`, `v(t+1,x,y) = u(t+1,x+1,y)`. -/
def exSessDeps (find : Bool) : CSrc String Nat Nat Nat Nat :=
  { exSess with cs := [⟨exSessPt "u" false (some 1) 0 0, [exSessPt "u" false (some 0) 0 0]⟩, ⟨exSessPt "v" false (some 1) 0 0, [exSessPt "u" false (some 1) 1 0]⟩]
                sys := { exSess.sys with eqs := [0, 1], lhs := fun e => [1, 3].getD e 0, rhs := fun e => [[0], [1]].getD e [], var := fun e => [0, 1].getD e 0,
                                         scr := fun _ => false, findDeps := find }
                hsys := exSessH [⟨exSessHPt 0 (some 1) 0 0, [exSessHPt 0 (some 0) 0 0]⟩, ⟨exSessHPt 1 (some 1) 0 0, [exSessHPt 0 (some 1) 1 0]⟩] fun _ => false }

/-- If the dependency checker is disabled after an output, the dependences found before still apply. -/
theorem C89_deps_false : exSessTwo exSessT2 (exSessDeps true) (exSessDeps false) =
      (.ok ⟨"y", [4, 1], 1, [[[0]], [[1]]]⟩, .ok ⟨"y", [4, 1], 1, [[[0]], [[1]]]⟩) ∧
    exSessOne (exSessDeps false) = .ok ⟨"y", [4, 1], 1, [[[0, 1]]]⟩ := by decide +kernel

/-- Scratch var 1 is written in two parts. One of them is that of scratch var 2, of which a point at distance 2 is used. -/
def exSessGrow : HSys where
  stages := [⟨0, true, [[⟨exSessHPt 1 none 0 0, [exSessHPt 0 (some 0) 0 0]⟩], [⟨exSessHPt 1 none 0 0, []⟩, ⟨exSessHPt 2 none 0 0, []⟩]]⟩,
    ⟨1, false, [[⟨exSessHPt 0 (some 1) 0 0, [exSessHPt 1 none 0 0, exSessHPt 2 none 2 0]⟩]]⟩]
  scrDeps := fun s => if s = 1 then [0] else []

/-- The halo of var 0 is larger after the second output. -/
theorem C89_halos_false : (exSessGrow.calcHalosFrom (fun _ => {}) 0).size "x" false = 0 ∧
    (exSessGrow.calcHalosFrom (exSessGrow.calcHalosFrom fun _ => {}) 0).size "x" false = 2 := by decide +kernel

/-- Stages without scratch vars. -/
example : (exSessBack.hsys [[[0]]]).NoScratch := by
  unfold HSys.NoScratch
  decide +kernel

example : ((exSessBack.hsys [[[0]]]).calcHalos 0).size "x" false = 1 := by decide +kernel

end Yask
